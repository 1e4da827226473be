import Verif.Model.BandRunNC
import Verif.Spec.BandRun
import Verif.Spec.RunNC
import Verif.Spec.Pseudo

/- Specification vocabulary for whole norm-conserving band-structure calculations (C93, C94). -/
namespace Jrystal
open scoped BigOperators ComplexConjugate

/-- The norm-conserving band-structure calculations that can be carried out: those with a possible ground-state
calculation for which ase returns a path of `q` k points with fractional coordinates `frac`, a number that the
devices in use can share evenly. -/
structure Spec.AdmissibleBandNC (L : NcLib) (T : BandTools) (cfg : NcConfig) (b : BandConfig) {m : ℕ}
    (a : AseAtoms m) (size ksize : Fin 3 → ℤ) (P : NcLists) (ne spin : ℤ) (q : ℕ) (frac : Matrix (Fin q) (Fin 3) ℝ) :
    Prop extends Spec.AdmissibleRunNC L cfg a size ksize P ne spin where
  path : T.bandpath (((bohr2angstrom : ℚ) : ℝ) • (angstrom2bohr : ℝ) • a.cell) b.kPath b.numKpoints = .ok ⟨q, frac⟩
  points : 0 < q
  share : (if b.parallelPath then L.devices else 1) ∣ q
  /-- the mask selects at least one plane wave for each band -/
  bandWaves : ∀ n, Spec.LeastGrid size n →
    ∀ mask, createFreqMask cfg.toRunConfig ((angstrom2bohr : ℝ) • a.cell) n = .ok mask →
      (ne.toNat + 1) / 2 + b.emptyBands ≤ Fintype.card {k // mask k = true}
  bandOptimizer : ∃ opt, T.optimizer = .ok opt

/-- The local Kohn-Sham potentials that a density makes in a pseudopotential calculation, one for each of its
channels: of the ions (given by its Fourier coefficients `vloc`), of the electrons, and of exchange and
correlation. -/
def Spec.KohnShamPotentialNC (lib : XcLib) (xc : String) {d : ℕ} {n : Fin 3 → ℕ} (vloc : Idx n → ℂ)
    (g : Idx n → Fin 3 → ℝ) (dens : Fin d → Idx n → ℝ) (V : Fin d → Idx n → ℝ) : Prop :=
  ∀ σ x, V σ x = (ifftn vloc x + hartreeRealSpace dens g true x + vxcDensity lib xc g dens σ x).re

/-- The nonlocal pseudopotential `Σ_a Σ_ij D_ij |β_i⟩⟨β_j|` between the plane waves `k i + g (w x)`, for atoms at
`τ` with the angular momenta and the radial transforms of `S`; `Y l μ` are the spherical harmonics.  The projection
of a plane wave on a projector is the complex conjugate of a coefficient of the projector. -/
noncomputable def Spec.nonlocalMatrix {N m q : ℕ} {n : Fin 3 → ℕ} (Y : ℕ → ℕ → (Fin 3 → ℝ) → ℝ)
    (S : Fin m → NlSpecies q n) (D : ∀ a, Matrix (Fin (S a).nbeta) (Fin (S a).nbeta) ℝ) (τ : Fin m → Fin 3 → ℝ)
    (vol : ℝ) (M : ℕ) (g : Idx n → Fin 3 → ℝ) (w : Fin N → Idx n) (k : Fin q → Fin 3 → ℝ) (i : Fin q) :
    Matrix (Fin N) (Fin N) ℂ :=
  let proj : ∀ a, Fin N → Fin (S a).nbeta → Fin M → ℂ := fun a x j μ =>
    conj (Spec.projector ((S a).ang j) ((S a).beta i j (w x))
      (Y ((S a).ang j) μ fun e => k i e + g (w x) e) (fun e => k i e + g (w x) e) (τ a))
  fun x y => ∑ a, Spec.separable vol (D a) (proj a x) (proj a y)

end Jrystal
