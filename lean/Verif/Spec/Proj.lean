import Mathlib.Algebra.BigOperators.Fin
import Mathlib.Algebra.Order.Field.Basic

/- Specification of C17. -/
namespace Jrystal.Spec
open scoped BigOperators
variable {K : Type*} [Field K] [LinearOrder K]

/-- `y` is an occupation vector with total `s`. -/
def Admissible {n : ℕ} (s : K) (y : Fin n → K) : Prop :=
  (∀ i, 0 ≤ y i ∧ y i ≤ 1) ∧ ∑ i, y i = s

/-- Squared Euclidean distance. -/
def dist2 {n : ℕ} (x y : Fin n → K) : K := ∑ i, (x i - y i) ^ 2

/-- `y` is the admissible vector nearest to `x`, and the only one at that distance. -/
def IsNearest {n : ℕ} (s : K) (x y : Fin n → K) : Prop :=
  Admissible s y ∧ ∀ z, Admissible s z → z ≠ y → dist2 x y < dist2 x z

end Jrystal.Spec
