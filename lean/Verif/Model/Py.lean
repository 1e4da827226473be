/-
Python conventions used by several models: slices.
-/
namespace Jrystal

/-- Python's normalisation of one slice bound for a sequence of length `len`
(a negative bound counts from the end, then it is clamped to `0..len`)
(/repo/jrystal/_src/grid.py:315-322). -/
def pyBound (len : Nat) (x : Int) : Nat :=
  if x < 0 then (max (x + len) 0).toNat else min x.toNat len

/-- Is index `j` selected by the slice `start:stop` of a sequence of length `len`?
(/repo/jrystal/_src/grid.py:315-322). -/
def inSlice (len : Nat) (start stop : Int) (j : Nat) : Bool :=
  decide (pyBound len start ≤ j) && decide (j < pyBound len stop)

/-- Python's `x // 2` for integers (floor division; Lean's `/` on `Int` is Euclidean, which is floor
for a positive divisor) (/repo/jrystal/_src/grid.py:315-322). -/
def half (x : Int) : Int := x / 2

end Jrystal
