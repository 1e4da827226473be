import Mathlib.Data.Real.Basic
import Mathlib.Algebra.BigOperators.Fin
import Mathlib.Data.Matrix.Basic

/- Specification vocabulary for the grid properties (C02–C09); independent of the model. -/
namespace Jrystal.Spec
open scoped BigOperators

/-- Euclidean inner product of two vectors. -/
def dot (u v : Fin 3 → ℝ) : ℝ := ∑ d, u d * v d

/-- Kinetic energy of a plane wave with wave vector `g`. -/
noncomputable def kineticEnergy (g : Fin 3 → ℝ) : ℝ := dot g g / 2

/-- `f` is the signed frequency stored at position `j` of a length `n` transform: it is congruent to
`j` modulo `n` and lies in the window `-n ≤ 2 f < n`. -/
def IsSignedFreq (n : ℕ) (j : ℕ) (f : ℤ) : Prop :=
  (n : ℤ) ∣ f - j ∧ -(n : ℤ) ≤ 2 * f ∧ 2 * f < n

/-- `v` is an integer combination of the rows of `A`. -/
def IsLatticeVector (A : Matrix (Fin 3) (Fin 3) ℝ) (v : Fin 3 → ℝ) : Prop :=
  ∃ m : Fin 3 → ℤ, ∀ d, v d = ∑ i, (m i : ℝ) * A i d

/-- The frequencies kept on an axis of size `n`: `-⌈G/2⌉ ≤ f ≤ ⌊G/2⌋` with `G = ⌊(n-1)/2⌋`. -/
def KeptFreq (n : ℕ) (f : ℤ) : Prop :=
  -((((n - 1) / 2 + 1) / 2 : ℕ) : ℤ) ≤ f ∧ f ≤ (((n - 1) / 2 / 2 : ℕ) : ℤ)

end Jrystal.Spec

namespace Jrystal.Spec

/-- Entry `t` of an axis of the half-frequency layout of length `h` carries the frequency `f`:
`f` is congruent to `t` modulo `h` and is one of the kept frequencies. -/
def IsHalfFreq (n : ℕ) (h t f : ℤ) : Prop := h ∣ f - t ∧ KeptFreq n f

end Jrystal.Spec
