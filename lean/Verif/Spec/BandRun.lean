import Verif.Model.BandRun
import Verif.Spec.Run
import Verif.Spec.Spectrum

/- Specification vocabulary for whole band-structure calculations (C90–C92). -/
namespace Jrystal
open scoped BigOperators

/-- The band-structure calculations that can be carried out: those with a possible ground-state calculation for
which ase returns as many k points as the configuration asks for (`num`, with fractional coordinates `frac`),
a number that the devices can share evenly. -/
structure Spec.AdmissibleBand (L : RunLib) (T : BandTools) (cfg : RunConfig) (b : BandConfig) {m : ℕ}
    (a : AseAtoms m) (size ksize : Fin 3 → ℤ) (ne spin : ℤ) (num : ℕ) (frac : Matrix (Fin num) (Fin 3) ℝ) : Prop
    extends Spec.AdmissibleRun L cfg a size ksize ne spin where
  number : b.numKpoints = some num
  path : T.bandpath (((bohr2angstrom : ℚ) : ℝ) • (angstrom2bohr : ℝ) • a.cell) b.kPath (some num) = .ok ⟨num, frac⟩
  points : 0 < num
  share : L.devices ∣ num
  /-- all devices are in use -/
  parallel : b.parallelPath = true ∨ L.devices = 1
  /-- the mask selects at least one plane wave for each band -/
  bandWaves : ∀ n, Spec.LeastGrid size n →
    ∀ mask, createFreqMask cfg ((angstrom2bohr : ℝ) • a.cell) n = .ok mask →
      (ne.toNat + 1) / 2 + b.emptyBands ≤ Fintype.card {k // mask k = true}
  bandOptimizer : ∃ opt, T.optimizer = .ok opt

/-- The k points with fractional coordinates `frac` in a crystal with the cell vectors `A`: the scalar product
with a cell vector is `2π` times the coordinate. -/
def Spec.HasCoordinates {q : ℕ} (A : Matrix (Fin 3) (Fin 3) ℝ) (frac : Matrix (Fin q) (Fin 3) ℝ)
    (k : Fin q → Fin 3 → ℝ) : Prop :=
  ∀ i l, ∑ e, k i e * A l e = 2 * Real.pi * frac i l

/-- The Kohn-Sham potentials that a density makes, one for each of its channels: of the electrons, of the
nuclei, and of exchange and correlation. -/
def Spec.KohnShamPotential (lib : XcLib) (xc : String) {na d : ℕ} {n : Fin 3 → ℕ} (pos : Fin na → Fin 3 → ℝ)
    (z : Fin na → ℝ) (g : Idx n → Fin 3 → ℝ) (vol : ℝ) (dens : Fin d → Idx n → ℝ) (V : Fin d → Idx n → ℝ) :
    Prop :=
  ∀ σ x, V σ x = (hartreeRealSpace dens g true x + externalPotential pos z g vol x
    + vxcDensity lib xc g dens σ x).re

/-- An optimiser of orbitals that gets within `ε` of the minimum: one step from any parameters, for a function
that is bounded below, ends where the function is at most `ε` above each of its values. -/
def Spec.NearBandOptimizer (ε : ℝ) (opt : BandOptimizer) : Prop :=
  ∀ {ns nk g nb : ℕ} (f : PwParams ns nk g nb → Except PyErr ℝ) (p : PwParams ns nk g nb × opt.State),
    (∃ m, ∀ q : PwParams ns nk g nb, ∃ v, f q = .ok v ∧ m ≤ v) →
    ∀ (q : PwParams ns nk g nb) (v : ℝ), f q = .ok v → ∃ v', f (opt.step f p).1 = .ok v' ∧ v' ≤ v + ε

end Jrystal
