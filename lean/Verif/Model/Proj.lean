import Mathlib.Algebra.BigOperators.Fin
import Mathlib.Algebra.Order.Field.Basic
import Mathlib.Data.List.Sort

/-
Model of the occupation projector `proj`, /repo/jrystal/_src/occupation.py:295-338.
Numbers are an arbitrary linearly ordered field; the IEEE results of a division by zero are explicit.
-/
namespace Jrystal
open scoped BigOperators

/-- IEEE value: a finite number, an infinity or nan (/repo/jrystal/_src/occupation.py:314). -/
inductive Ext (K : Type*) where
  | fin (x : K)
  | posInf
  | negInf
  | nan

section
variable {K : Type*} [Field K] [LinearOrder K]

/-- IEEE division of finite numbers by a non-negative denominator (`+0.0` for zero)
(/repo/jrystal/_src/occupation.py:314, 328). -/
def Ext.div (a b : K) : Ext K :=
  if b = 0 then (if 0 < a then .posInf else if a < 0 then .negInf else .nan) else .fin (a / b)

/-- `x > e` for finite `x` (/repo/jrystal/_src/occupation.py:315). -/
def Ext.ltFin (e : Ext K) (x : K) : Bool :=
  match e with
  | .fin y => decide (y < x)
  | .posInf => false
  | .negInf => true
  | .nan => false

/-- `x - e < c` for finite `x`, `c` (/repo/jrystal/_src/occupation.py:329). -/
def Ext.subLt (x : K) (e : Ext K) (c : K) : Bool :=
  match e with
  | .fin y => decide (x - y < c)
  | .posInf => true
  | .negInf => false
  | .nan => false

/-- `jnp.argmax` of a boolean vector of length `n`: the first true position, 0 if there is none
(/repo/jrystal/_src/occupation.py:315, 329). -/
def argmaxBool (n : ℕ) (p : ℕ → Bool) : ℕ := ((List.range n).find? p).getD 0

/-- `jnp.sort` (ascending) (/repo/jrystal/_src/occupation.py:311, 324). -/
def sortAsc {n : ℕ} (x : Fin n → K) : List K := (List.ofFn x).mergeSort (fun a b => decide (a ≤ b))

/-- entry `i` of `jnp.cumsum` (/repo/jrystal/_src/occupation.py:313, 327). -/
def cumsum (l : List K) (i : ℕ) : K := (l.take (i + 1)).sum

/-- `pushdown` (/repo/jrystal/_src/occupation.py:310-322). -/
def pushdown {n : ℕ} (s : K) (x : Fin n → K) : Fin n → K :=
  let xs := sortAsc x
  let S := ∑ i, x i
  let rho : ℕ → Ext K := fun i => Ext.div (S - s - cumsum xs i) ((n : K) - i - 1)
  let k := argmaxBool n fun i => (rho i).ltFin (xs.getD i 0)
  let lam := if k = 0 then (S - s) / n else (S - s - cumsum xs (k - 1)) / ((n : K) - k)
  fun i => max (x i - lam) 0

/-- `pushup` (/repo/jrystal/_src/occupation.py:324-335). -/
def pushup {n : ℕ} (s : K) (x : Fin n → K) : Fin n → K :=
  let S := ∑ i, x i
  let xs := (sortAsc x).reverse
  let rho : ℕ → Ext K := fun i =>
    Ext.div (S - s + ((i : K) + 1 - cumsum xs i)) ((n : K) - i - 1)
  let k := argmaxBool n fun i => Ext.subLt (xs.getD i 0) (rho i) 1
  let lam := if k = 0 then (s - S) / n
    else (s - S - ((k : K) - cumsum xs (k - 1))) / ((n : K) - k)
  fun i => min (x i + lam) 1

/-- `proj` (/repo/jrystal/_src/occupation.py:295-338): `pushup` when the sum is at most the target,
else `pushdown`.  (`argmax` of an empty array raises, so `n = 0` is outside the model.) -/
def proj {n : ℕ} (x : Fin n → K) (s : K) : Fin n → K :=
  if ∑ i, x i ≤ s then pushup s x else pushdown s x

end
end Jrystal
