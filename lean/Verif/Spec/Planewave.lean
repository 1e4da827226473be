import Mathlib.Data.Complex.BigOperators
import Mathlib.Algebra.BigOperators.Fin

/- Specification vocabulary for the plane-wave and energy properties (C10–C16, C23–C33). -/
namespace Jrystal.Spec
open scoped BigOperators ComplexConjugate

/-- Position of a grid index in row-major (C) order. -/
def rowMajor {n : Fin 3 → ℕ} (k : (i : Fin 3) → Fin (n i)) : ℕ :=
  ((k 0 : ℕ) * n 1 + k 1) * n 2 + k 2

/-- `k'` is the index of the opposite frequency of `k`: the indices add up to zero modulo the grid. -/
def IsNeg {n : Fin 3 → ℕ} (k k' : (i : Fin 3) → Fin (n i)) : Prop :=
  ∀ i, (n i) ∣ (k i : ℕ) + k' i

/-- `j'` is the index `j` moved by `t` grid steps, wrapping around the cell. -/
def IsShift {n : Fin 3 → ℕ} (t j j' : (i : Fin 3) → Fin (n i)) : Prop :=
  ∀ i, (n i : ℤ) ∣ (j i : ℤ) + t i - j' i

/-- Inner product of two functions sampled on the grid of a cell of volume `vol`:
`(vol/N) Σ_j conj(f_j) g_j`. -/
noncomputable def cellInner {n : Fin 3 → ℕ} (vol : ℝ) (f g : ((i : Fin 3) → Fin (n i)) → ℂ) : ℂ :=
  (vol / (∏ i, n i : ℕ) : ℝ) * ∑ j, conj (f j) * g j

/-- Integral of a real function sampled on the grid of a cell of volume `vol`. -/
noncomputable def cellIntegral {n : Fin 3 → ℕ} (vol : ℝ) (f : ((i : Fin 3) → Fin (n i)) → ℝ) : ℝ :=
  (vol / (∏ i, n i : ℕ)) * ∑ j, f j

/-- The functions `f i` are orthonormal for the inner product `ip`. -/
def Orthonormal' {ι V : Type*} [DecidableEq ι] (ip : V → V → ℂ) (f : ι → V) : Prop :=
  ∀ i j, ip (f i) (f j) = if i = j then 1 else 0

end Jrystal.Spec
