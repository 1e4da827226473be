import Verif.Model.Run
import Verif.Spec.Grid

/- Specification vocabulary for C111. -/
namespace Jrystal
open scoped BigOperators

/-- No plane wave lies exactly on the cutoff of a spherical selection. -/
def Spec.OffCutoff (cfg : RunConfig) (A : Matrix (Fin 3) (Fin 3) ℝ) (n : Fin 3 → ℕ) : Prop :=
  cfg.maskMethod = "spherical" → ∀ x : Idx n, Spec.kineticEnergy (gVectors A n x) ≠ cfg.cutoff

/-- The number of translations per axis in the Ewald sum, the quotient of its cutoff and the squared length of the
sum of the cell vectors rounded up, does not sit at a step. -/
def Spec.OffStep (cutoff : ℝ) (A : Matrix (Fin 3) (Fin 3) ℝ) : Prop :=
  ∀ k : ℤ, cutoff ≠ k * Spec.dot (fun d => ∑ i, A i d) (fun d => ∑ i, A i d)

end Jrystal
