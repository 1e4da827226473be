import Verif.Spec.Accepted
import Verif.Model.BandRun
import Verif.Model.BandRunNC

/- Specification vocabulary for the inputs that a band-structure calculation accepts (C120). -/
namespace Jrystal

/-- Consistent settings of the second stage of a band-structure calculation with an FFT grid of the requested sizes `size`:
the number of k points is given, ase finds a path, which has `q` points, and the devices can share them.  `fits w k`
says when an array for `q` points and `w` plane waves holds what is asked for, `k` points. -/
structure Spec.ConsistentBand (L : RunLib) (T : BandTools) (cfg : RunConfig) (b : BandConfig) {m : ℕ} (a : AseAtoms m)
    (size : Fin 3 → ℤ) (q : ℕ) (fits : ℕ → ℕ → Prop) : Prop where
  sizes : Spec.SizesOk cfg.gridSizes size
  path : ∃ num frac, b.numKpoints = some num ∧
    T.bandpath (((bohr2angstrom : ℚ) : ℝ) • (angstrom2bohr : ℝ) • a.cell) b.kPath (some num) = .ok ⟨q, frac⟩ ∧
    ∀ n, Spec.LeastGrid size n → ∀ mask, createFreqMask cfg ((angstrom2bohr : ℝ) • a.cell) n = .ok mask →
      fits (Fintype.card {k // mask k = true}) num
  share : L.devices ∣ q
  /-- all devices are in use -/
  parallel : b.parallelPath = true ∨ L.devices ≤ 1
  optimizer : ∃ opt, T.optimizer = .ok opt

/-- The same for a norm-conserving calculation, which makes no use of the number of k points. -/
structure Spec.ConsistentBandNC (L : NcLib) (T : BandTools) (b : BandConfig) {m : ℕ} (a : AseAtoms m) (q : ℕ) : Prop where
  path : ∃ frac, T.bandpath (((bohr2angstrom : ℚ) : ℝ) • (angstrom2bohr : ℝ) • a.cell) b.kPath b.numKpoints = .ok ⟨q, frac⟩
  share : (if b.parallelPath then L.devices else 1) ∣ q
  optimizer : ∃ opt, T.optimizer = .ok opt

end Jrystal
