import Verif.Model.Occupation

/-
Model of what automatic differentiation makes of the occupation projector and of the occupations
(/repo/jrystal/_src/occupation.py:295-366): the derivative of the output along a change `v` of the input, by the
differentiation rule of each operation.  The comparisons, `argmax` and the conditions of `select` have no
derivative, so the position `k` counts as a constant, and the quotient by zero that enters a comparison only
does not reach the derivative.
-/
namespace Jrystal
open scoped BigOperators

section
variable {K : Type*} [Field K] [LinearOrder K]

/-- `jnp.sort` and its derivative: the changes are carried along by the (stable) permutation that sorts the
values (/repo/jrystal/_src/occupation.py:311, 324). -/
def sortPairs {n : ℕ} (x v : Fin n → K) : List (K × K) :=
  (List.ofFn fun i => (x i, v i)).mergeSort fun a b => decide (a.1 ≤ b.1)

/-- Derivative of `jnp.maximum`: that of the larger argument, the mean of both at a tie
(/repo/jrystal/_src/occupation.py:321). -/
def maxTangent (a b da db : K) : K := if b < a then da else if a < b then db else (da + db) / 2

/-- Derivative of `jnp.minimum` (/repo/jrystal/_src/occupation.py:335). -/
def minTangent (a b da db : K) : K := if a < b then da else if b < a then db else (da + db) / 2

/-- Derivative of `pushdown` along `v` (/repo/jrystal/_src/occupation.py:310-321). -/
def pushdownJvp {n : ℕ} (s : K) (x v : Fin n → K) : Fin n → K :=
  let xs := sortAsc x
  let dxs := (sortPairs x v).map Prod.snd
  let S := ∑ i, x i
  let dS := ∑ i, v i
  let rho : ℕ → Ext K := fun i => Ext.div (S - s - cumsum xs i) ((n : K) - i - 1)
  let k := argmaxBool n fun i => (rho i).ltFin (xs.getD i 0)
  let lam := if k = 0 then (S - s) / n else (S - s - cumsum xs (k - 1)) / ((n : K) - k)
  let dlam := if k = 0 then dS / n else (dS - cumsum dxs (k - 1)) / ((n : K) - k)
  fun i => maxTangent (x i - lam) 0 (v i - dlam) 0

/-- Derivative of `pushup` along `v` (/repo/jrystal/_src/occupation.py:323-335). -/
def pushupJvp {n : ℕ} (s : K) (x v : Fin n → K) : Fin n → K :=
  let S := ∑ i, x i
  let dS := ∑ i, v i
  let xs := (sortAsc x).reverse
  let dxs := ((sortPairs x v).map Prod.snd).reverse
  let rho : ℕ → Ext K := fun i =>
    Ext.div (S - s + ((i : K) + 1 - cumsum xs i)) ((n : K) - i - 1)
  let k := argmaxBool n fun i => Ext.subLt (xs.getD i 0) (rho i) 1
  let lam := if k = 0 then (s - S) / n
    else (s - S - ((k : K) - cumsum xs (k - 1))) / ((n : K) - k)
  let dlam := if k = 0 then -dS / n else (-dS - -cumsum dxs (k - 1)) / ((n : K) - k)
  fun i => minTangent (x i + lam) 1 (v i + dlam) 0

/-- Derivative of `proj` along `v`: the branch that `select` takes (/repo/jrystal/_src/occupation.py:337). -/
def projJvp {n : ℕ} (x v : Fin n → K) (s : K) : Fin n → K :=
  if ∑ i, x i ≤ s then pushupJvp s x v else pushdownJvp s x v

end

/-- Derivative of `jax.nn.sigmoid` along `d` (/repo/jrystal/_src/occupation.py:350, 357). -/
noncomputable def sigmoidJvp (t d : ℝ) : ℝ := d * (sigmoid t * (1 - sigmoid t))

/-- Derivative of `simplex_projector` when the two parameter arrays change along `dUp` and `dDown`
(/repo/jrystal/_src/occupation.py:341-366). -/
noncomputable def simplexProjectorJvp {nk nb : ℕ} (paramUp paramDown dUp dDown : Fin nk → Fin nb → ℝ)
    (ne spin : ℤ) (restricted : Bool) : OccArr nk nb ℝ :=
  let mUp : ℤ := (ne + spin) / 2 * nk
  let mDown : ℤ := (ne - spin) / 2 * nk
  let up := unravel fun i => projJvp (ravel fun k b => sigmoid (paramUp k b))
    (ravel fun k b => sigmoidJvp (paramUp k b) (dUp k b)) (mUp : ℝ) i / (nk : ℝ)
  let down := unravel fun i => projJvp (ravel fun k b => sigmoid (paramDown k b))
    (ravel fun k b => sigmoidJvp (paramDown k b) (dDown k b)) (mDown : ℝ) i / (nk : ℝ)
  let occ : OccArr nk nb ℝ := [up, down]
  if restricted then sumSpin occ else occ

end Jrystal
