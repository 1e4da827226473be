import Verif.Model.Planewave

/- Model of /repo/jrystal/_src/braket.py.  Exact real and complex arithmetic. -/
namespace Jrystal
open scoped BigOperators ComplexConjugate

/-- numpy broadcasting of two leading axes of lengths `a` and `b`: the list of index pairs that are
combined, or an error when the lengths are incompatible (/repo/jrystal/_src/braket.py:69-71). -/
def broadcastPairs (a b : ℕ) : Except PyErr (List (Fin a × Fin b)) :=
  if h : a = b then .ok ((List.finRange a).map fun i => (i, h ▸ i))
  else if ha : a = 1 then .ok ((List.finRange b).map fun i => (⟨0, by omega⟩, i))
  else if hb : b = 1 then .ok ((List.finRange a).map fun i => (i, ⟨0, by omega⟩))
  else .error .valueError

/-- `reciprocal_braket` (/repo/jrystal/_src/braket.py:27-72) for arrays with one leading axis.  Only
the last three dimensions are checked; `num_grids` is the product of the whole shape of `bra`. -/
noncomputable def reciprocalBraket {a b : ℕ} {n : Fin 3 → ℕ} (bra : Fin a → Idx n → ℂ)
    (ket : Fin b → Idx n → ℂ) (vol : ℝ) : Except PyErr ℝ :=
  match broadcastPairs a b with
  | .error e => .error e
  | .ok ps =>
    let numGrids : ℝ := ((a * gridCount n : ℕ) : ℝ)
    .ok (((ps.map fun p => ∑ k, conj (bra p.1 k) * ket p.2 k).sum
      * ((1 / numGrids : ℝ) : ℂ) * ((vol / numGrids : ℝ) : ℂ)).re)

/-- `reciprocal_braket` for two arrays without leading axes (/repo/jrystal/_src/braket.py:27-72). -/
noncomputable def reciprocalBraket0 {n : Fin 3 → ℕ} (bra ket : Idx n → ℂ) (vol : ℝ) : ℝ :=
  ((∑ k, conj (bra k) * ket k) * ((1 / (gridCount n : ℝ) : ℝ) : ℂ) *
    ((vol / (gridCount n : ℝ) : ℝ) : ℂ)).re

/-- `real_braket` (/repo/jrystal/_src/braket.py:75-114) for two arrays of the same shape with one
leading axis: no conjugation, whole shape counted. -/
noncomputable def realBraket {a : ℕ} {n : Fin 3 → ℕ} (bra ket : Fin a → Idx n → ℂ) (vol : ℝ) : ℂ :=
  (∑ s, ∑ j, bra s j * ket s j) * ((vol / ((a * gridCount n : ℕ) : ℝ) : ℝ) : ℂ)

/-- `real_braket` for two arrays without leading axes (/repo/jrystal/_src/braket.py:75-114). -/
noncomputable def realBraket0 {n : Fin 3 → ℕ} (bra ket : Idx n → ℂ) (vol : ℝ) : ℂ :=
  (∑ j, bra j * ket j) * ((vol / (gridCount n : ℝ) : ℝ) : ℂ)

/-- The operator argument of `expectation`: three axes, or four with a leading axis of length `m`
(/repo/jrystal/_src/braket.py:189-199). -/
inductive Operator (n : Fin 3 → ℕ)
  | grid (h : Idx n → ℂ)
  | lead (m : ℕ) (h : Fin m → Idx n → ℂ)

/-- Integration factor chosen by the string `mode` (/repo/jrystal/_src/braket.py:172-187). -/
noncomputable def integralFactor (n : Fin 3 → ℕ) (vol : ℝ) (mode : String) : Except PyErr ℝ :=
  if mode = "reciprocal" then .ok (vol / (gridCount n : ℝ) * (1 / (gridCount n : ℝ)))
  else if mode = "real" then .ok (vol / (gridCount n : ℝ))
  else if mode = "kinetic" then .ok 1
  else .error .valueError

/-- Length of an axis after numpy/einsum broadcasting of lengths `a` and `b`
(/repo/jrystal/_src/braket.py:189-199). -/
def bcLen (a b : ℕ) : Except PyErr ℕ :=
  if a = b then .ok a else if a = 1 then .ok b else if b = 1 then .ok a else .error .valueError

/-- Element `k` of a broadcast axis of true length `a`: position 0 when `a = 1`, else position `k`
(`none` outside the axis, which does not happen for a length accepted by `bcLen`)
(/repo/jrystal/_src/braket.py:189-199). -/
def bcIdx (a k : ℕ) : Option (Fin a) :=
  if h : a = 1 then some ⟨0, by omega⟩ else if h : k < a then some ⟨k, h⟩ else none

/-- Value of a broadcast array axis (/repo/jrystal/_src/braket.py:189-199). -/
def bcGet {n : Fin 3 → ℕ} {a : ℕ} (f : Fin a → Idx n → ℂ) (k : ℕ) : Idx n → ℂ :=
  match bcIdx a k with
  | some i => f i
  | none => fun _ => 0

/-- Length of the k axis of the result: the einsum patterns of
/repo/jrystal/_src/braket.py:189-199 name the leading axis of a four-axis operator `nk`, the same
name as the k axis of the wave functions. -/
def operatorLen {n : Fin 3 → ℕ} (nk : ℕ) : Operator n → Except PyErr ℕ
  | .grid _ => .ok nk
  | .lead m _ => bcLen nk m

/-- Operator values used at position `k` of the k axis (/repo/jrystal/_src/braket.py:189-199). -/
def operatorAt {n : Fin 3 → ℕ} (op : Operator n) (k : ℕ) : Idx n → ℂ :=
  match op with
  | .grid h => h
  | .lead _ h => bcGet h k

/-- `expectation(..., diagonal=False)` (/repo/jrystal/_src/braket.py:117-207); the result carries the
length of its k axis. -/
noncomputable def expectationFull {ns nk nb : ℕ} {n : Fin 3 → ℕ} (bra : Coef ns nk nb n)
    (h : Operator n) (vol : ℝ) (ket : Option (Coef ns nk nb n)) (mode : String) :
    Except PyErr (Σ K : ℕ, Fin ns → Fin K → Fin nb → Fin nb → ℂ) :=
  let ket := ket.getD bra
  match integralFactor n vol mode with
  | .error e => .error e
  | .ok f =>
    match operatorLen nk h with
    | .error e => .error e
    | .ok K => .ok ⟨K, fun s k i j =>
        (∑ x, conj (bcGet (fun k' => bra s k' i) k x) * operatorAt h k x *
          bcGet (fun k' => ket s k' j) k x) * (f : ℂ)⟩

/-- `expectation(..., diagonal=True)` (/repo/jrystal/_src/braket.py:117-207). -/
noncomputable def expectationDiag {ns nk nb : ℕ} {n : Fin 3 → ℕ} (bra : Coef ns nk nb n)
    (h : Operator n) (vol : ℝ) (ket : Option (Coef ns nk nb n)) (mode : String) :
    Except PyErr (Σ K : ℕ, Fin ns → Fin K → Fin nb → ℂ) :=
  let ket := ket.getD bra
  match integralFactor n vol mode with
  | .error e => .error e
  | .ok f =>
    match operatorLen nk h with
    | .error e => .error e
    | .ok K => .ok ⟨K, fun s k i =>
        (∑ x, conj (bcGet (fun k' => bra s k' i) k x) * operatorAt h k x *
          bcGet (fun k' => ket s k' i) k x) * (f : ℂ)⟩

end Jrystal
