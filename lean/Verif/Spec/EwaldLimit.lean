import Verif.Spec.Ewald
import Mathlib.Analysis.SpecialFunctions.Gaussian.GaussianIntegral
import Mathlib.Topology.Algebra.InfiniteSum.Defs

/- Specification vocabulary for the converged Ewald energy (C95); independent of the model. -/
namespace Jrystal
open scoped BigOperators

/-- The complementary error function, `(2/√π) ∫_x^∞ e^{-t²} dt`. -/
noncomputable def Spec.erfc (x : ℝ) : ℝ :=
  2 / Real.sqrt Real.pi * ∫ t in Set.Ioi x, Real.exp (-t ^ 2)

/-- The integer combination `z` of the rows of `B`. -/
def Spec.latticePoint (B : Matrix (Fin 3) (Fin 3) ℝ) (z : Fin 3 → ℤ) (d : Fin 3) : ℝ :=
  ∑ i, (z i : ℝ) * B i d

/-- `B` is the reciprocal cell of `A`: `a_i · b_j = 2π δ_ij`. -/
def Spec.Reciprocal (A B : Matrix (Fin 3) (Fin 3) ℝ) : Prop :=
  ∀ i j, Spec.dot (A i) (B j) = if i = j then 2 * Real.pi else 0

/-- The Ewald energy with both lattice sums carried out completely: over all translations of the cell
`A` in real space, and over all non-zero vectors of the reciprocal cell `B`. -/
noncomputable def Spec.ewaldSeries (A B : Matrix (Fin 3) (Fin 3) ℝ) {na : ℕ} (pos : Fin na → Fin 3 → ℝ)
    (q : Fin na → ℝ) (V eta : ℝ) : ℝ :=
  (1 / 2) * ∑ i, ∑ j, q i * q j *
    ((∑' z : Fin 3 → ℤ, Spec.erfc (eta * Spec.ewaldDistance (fun d => pos j d - pos i d) (Spec.latticePoint A z)) /
        Spec.ewaldDistance (fun d => pos j d - pos i d) (Spec.latticePoint A z))
    + 4 * Real.pi / V * ∑' n : {n : Fin 3 → ℤ // n ≠ 0},
        Real.exp (-(Spec.dot (Spec.latticePoint B n) (Spec.latticePoint B n)) / (4 * eta ^ 2)) /
          Spec.dot (Spec.latticePoint B n) (Spec.latticePoint B n) *
          Real.cos (Spec.dot (Spec.latticePoint B n) fun d => pos j d - pos i d))
  - eta / Real.sqrt Real.pi * ∑ i, q i ^ 2
  - Real.pi / (2 * V * eta ^ 2) * (∑ i, q i) ^ 2

/-- No two nuclei, periodic images included, are closer than `√99·10⁻¹⁰` (about one `10⁻⁹`). -/
def Spec.Separated (A : Matrix (Fin 3) (Fin 3) ℝ) {na : ℕ} (pos : Fin na → Fin 3 → ℝ) : Prop :=
  ∀ (i j : Fin na) (z : Fin 3 → ℤ), (i ≠ j ∨ z ≠ 0) →
    99e-20 < Spec.dot (fun d => pos j d - pos i d - Spec.latticePoint A z d)
      (fun d => pos j d - pos i d - Spec.latticePoint A z d)

/-- How far two choices `a ≤ b` of the splitting parameter can disagree, because the code measures
distances as `√(r²+10⁻²⁰)` and puts an atom at distance `10²⁰` from itself:
`10⁻²⁰ (Σ|q|)² (b²(b-a)/√π Σ_T e^{-a²T²} + 1/2)`. -/
noncomputable def Spec.splittingError (A : Matrix (Fin 3) (Fin 3) ℝ) {na : ℕ} (q : Fin na → ℝ) (a b : ℝ) : ℝ :=
  1e-20 * (∑ i, |q i|) ^ 2 * (b ^ 2 * (b - a) / Real.sqrt Real.pi *
    (∑' z : Fin 3 → ℤ, Real.exp (-a ^ 2 * Spec.dot (Spec.latticePoint A z) (Spec.latticePoint A z))) + 1 / 2)

end Jrystal
