import Verif.Spec.Planewave

/- Specification vocabulary for time reversal (C80). -/
namespace Jrystal.Spec

/-- A set of plane waves which contains `-G` with every `G`: no selected index is the middle one of an axis
of even length, whose frequency has no opposite on the grid, and opposite indices are selected together. -/
def Reversible {n : Fin 3 → ℕ} (mask : ((i : Fin 3) → Fin (n i)) → Bool) : Prop :=
  ∀ x, mask x = true → (∀ i, 2 * (x i : ℕ) ≠ n i) ∧ ∀ x', IsNeg x x' → mask x' = true

end Jrystal.Spec
