import Mathlib.Data.Complex.BigOperators
import Mathlib.Algebra.BigOperators.Fin

/- Orthonormal bands in the compact layout (C87, C101). -/
namespace Jrystal
open scoped BigOperators ComplexConjugate

/-- Compact coefficients of one spin channel with orthonormal bands at every k point. -/
def Spec.OrthonormalBands {nk M nb : ℕ} (C : Fin 1 → Fin nk → Fin M → Fin nb → ℂ) : Prop :=
  ∀ k i j, ∑ G, conj (C 0 k G i) * C 0 k G j = if i = j then 1 else 0

end Jrystal
