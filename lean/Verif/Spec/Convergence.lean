import Mathlib.Analysis.SpecialFunctions.Pow.Real
import Mathlib.Analysis.Real.Sqrt

/- Specification vocabulary for C36–C38. -/
namespace Jrystal.Spec

/-- Population variance of a list of reals. -/
noncomputable def variance (xs : List ℝ) : ℝ :=
  (xs.map fun x => (x - xs.sum / xs.length) ^ 2).sum / xs.length

/-- The values submitted since the last reset end in `w ≥ 1` finite values whose standard deviation
is below `t`. -/
def Quiet (w : ℤ) (t : ℝ) (submitted : List (Option ℝ)) : Prop :=
  ∃ xs : List ℝ, 0 < xs.length ∧ (xs.length : ℤ) = w ∧ xs.map some <:+ submitted ∧
    Real.sqrt (variance xs) < t

/-- When a loop of at most `epoch` steps ends after step `j`: with the energies `es` seen so far no earlier window was
quiet, and either the steps are used up or the last window is quiet. -/
structure StopsAt (w : ℤ) (t : ℝ) (epoch : ℤ) (es : ℕ → ℝ) (j : ℕ) : Prop where
  within : (j : ℤ) < epoch
  first : ∀ i < j, ¬ Quiet w t ((List.range (i + 1)).map fun l => some (es l))
  last : (j : ℤ) + 1 = epoch ∨ Quiet w t ((List.range (j + 1)).map fun l => some (es l))

end Jrystal.Spec
