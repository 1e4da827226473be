import Verif.Model.FftSize
import Verif.Model.Proj
import Mathlib.Data.Real.Basic
import Mathlib.Data.List.Basic

/-
Model of `safe_real`, `vmapstack` (/repo/jrystal/_src/utils.py) and of
/repo/jrystal/pseudopotential/utils.py and /repo/jrystal/calc/pre_calc.py.
-/
namespace Jrystal

/-- A float array entry up to rounding: finite, `±inf` or `nan` (`Ext`); a complex entry is a pair
(/repo/jrystal/_src/utils.py:25-59). -/
abbrev CExt := Ext ℝ × Ext ℝ

/-- An array of unknown dtype (flattened; the shape is not touched) (/repo/jrystal/_src/utils.py:25-59). -/
inductive NumArr where
  | real (xs : List (Ext ℝ))
  | complex (zs : List CExt)

open Classical in
/-- `jnp.isclose(a, 0, atol=tol)`: `|a| <= tol + rtol*|0|`; infinities are only close to themselves,
`nan` to nothing (/repo/jrystal/_src/utils.py:25-59). -/
noncomputable def isCloseZero (a : Ext ℝ) (tol : ℝ) : Bool :=
  match a with
  | .fin x => decide (|x| ≤ tol)
  | .posInf => false
  | .negInf => false
  | .nan => false

/-- `safe_real` (/repo/jrystal/_src/utils.py:25-59). -/
noncomputable def safeReal (a : NumArr) (tol : ℝ) : Except PyErr NumArr :=
  match a with
  | .complex zs =>
    if (zs.map fun z => isCloseZero z.2 tol).all id then .ok (.real (zs.map (·.1)))
    else .error .valueError
  | .real xs => .ok (.real xs)

/-- An array as a function of its multi-index (shapes are left implicit)
(/repo/jrystal/_src/utils.py:62-105). -/
abbrev NdArr (α : Type*) := List ℕ → α

/-- `jax.vmap(f, in_axes=a, out_axes=o)` of a one-argument function (/repo/jrystal/_src/utils.py:97-102). -/
def vmap1 {α β : Type*} (a o : ℕ) (f : NdArr α → NdArr β) : NdArr α → NdArr β :=
  fun x idx => f (fun j => x (j.insertIdx a (idx.getD o 0))) (idx.eraseIdx o)

/-- The loop of `vmapstack` without `args` (/repo/jrystal/_src/utils.py:97-102). -/
def vmapLoop {α β : Type*} : ℕ → (NdArr α → NdArr β) → (NdArr α → NdArr β)
  | 0, f => f
  | n + 1, f => vmapLoop n (vmap1 0 0 f)

/-- The loop with `args`; an entry holds `in_axes` and `out_axes` (/repo/jrystal/_src/utils.py:97-102). -/
def vmapLoopArgs {α β : Type*} : List (ℕ × ℕ) → (NdArr α → NdArr β) → (NdArr α → NdArr β)
  | [], f => f
  | a :: as, f => vmapLoopArgs as (vmap1 a.1 a.2 f)

/-- `vmapstack(times, args)(f)` (/repo/jrystal/_src/utils.py:62-105).  An empty list is falsy, so it
behaves like `None`. -/
def vmapstack {α β : Type*} (times : ℕ) (args : Option (List (ℕ × ℕ)))
    (f : NdArr α → NdArr β) : Except PyErr (NdArr α → NdArr β) :=
  match args with
  | none => .ok (vmapLoop times f)
  | some [] => .ok (vmapLoop times f)
  | some as => if as.length ≠ times then .error .valueError else .ok (vmapLoopArgs as f)

/-- List comprehension whose body may raise: evaluation stops at the first exception
(/repo/jrystal/pseudopotential/utils.py:22-47). -/
def tryMap {α β : Type*} (f : α → Except PyErr β) : List α → Except PyErr (List β)
  | [] => .ok []
  | a :: as => match f a with
    | .error e => .error e
    | .ok b => match tryMap f as with
      | .error e => .error e
      | .ok bs => .ok (b :: bs)

/-- `arr[i]` for a list (/repo/jrystal/pseudopotential/utils.py:22-47). -/
def listIndex {α : Type*} (arr : List α) (i : ℕ) : Except PyErr α :=
  match arr[i]? with
  | some x => .ok x
  | none => .error .indexError

/-- `map_over_atoms(fun)(*arrays)` (/repo/jrystal/pseudopotential/utils.py:22-47).  `fun` may raise;
indexing beyond the end raises `IndexError`. -/
def mapOverAtoms {α β : Type*} (f : List α → Except PyErr β) (arrays : List (List α)) :
    Except PyErr (List β) :=
  match arrays with
  | [] => .error .indexError
  | a :: _ => tryMap (fun i => match tryMap (fun arr => listIndex arr i) arrays with
      | .error e => .error e
      | .ok row => f row) (List.range a.length)

/-- An array with its shape (/repo/jrystal/pseudopotential/utils.py:50-80). -/
structure Shaped (α : Type*) where
  shape : List ℕ
  get : List ℕ → α

/-- Index within a shape (/repo/jrystal/pseudopotential/utils.py:50-80). -/
def InShape : List ℕ → List ℕ → Prop
  | [], [] => True
  | n :: ns, i :: is => i < n ∧ InShape ns is
  | _, _ => False

instance : ∀ s i, Decidable (InShape s i)
  | [], [] => isTrue trivial
  | n :: ns, i :: is =>
    have : Decidable (InShape ns is) := instDecidableInShape ns is
    inferInstanceAs (Decidable (i < n ∧ InShape ns is))
  | [], _ :: _ => isFalse id
  | _ :: _, [] => isFalse id

/-- `np.max([...], axis=0)` of a list of shapes of equal length
(/repo/jrystal/pseudopotential/utils.py:50-80). -/
def maxShape (shapes : List (List ℕ)) (ndim : ℕ) : List ℕ :=
  (List.range ndim).map fun ax => (shapes.map fun s => s.getD ax 0).foldl max 0

/-- `np.pad(arr, [(0, m_i - s_i)])` with zeros: the array at the origin, zeros elsewhere
(/repo/jrystal/pseudopotential/utils.py:50-80). -/
def padTo {α : Type*} [Zero α] (a : Shaped α) (m : List ℕ) : Shaped α :=
  ⟨m, fun idx => if InShape a.shape idx then a.get idx else 0⟩

/-- `stack_with_padding` (/repo/jrystal/pseudopotential/utils.py:50-80). -/
def stackWithPadding {α : Type*} [Zero α] (l : List (Shaped α)) : Except PyErr (Shaped α) :=
  match l with
  | [] => .error .valueError
  | a :: _ =>
    let ndim := a.shape.length
    if l.any fun b => b.shape.length != ndim then .error .valueError
    else
      let m := maxShape (l.map (·.shape)) ndim
      let padded := l.map fun b => padTo b m
      .ok ⟨l.length :: m, fun idx =>
        match idx with
        | i :: rest => match padded[i]? with
          | some p => p.get rest
          | none => 0
        | [] => 0⟩

/-- State of the process pool of `pre_calc_beta_sbt`: the result slot of every submitted task
(/repo/jrystal/calc/pre_calc.py:32-34). -/
abbrev Pool (β : Type*) := ℕ → Option (Except PyErr β)

/-- A worker finishes task `i` and fills its slot (/repo/jrystal/calc/pre_calc.py:32-34). -/
def Pool.complete {α β : Type*} (f : α → Except PyErr β) (tasks : List α) (p : Pool β) (i : ℕ) :
    Pool β :=
  fun j => if j = i then tasks[i]?.map f else p j

/-- Reading result slots in submission order, stopping at the first exception
(/repo/jrystal/calc/pre_calc.py:32-34). -/
def readSlots {β : Type*} (p : Pool β) : List ℕ → Option (Except PyErr (List β))
  | [] => some (.ok [])
  | i :: is => match p i with
    | none => none
    | some (.error e) => some (.error e)
    | some (.ok b) => (readSlots p is).map fun r => r.map (b :: ·)

/-- `list(exe.map(f, tasks))` after the completions `sched` (in any order); `none` means that a slot
needed next is still empty, i.e. the call is still waiting (/repo/jrystal/calc/pre_calc.py:32-34). -/
def poolResult {α β : Type*} (f : α → Except PyErr β) (tasks : List α) (sched : List ℕ) :
    Option (Except PyErr (List β)) :=
  readSlots (sched.foldl (Pool.complete f tasks) (fun _ => none)) (List.range tasks.length)

/-- The argument tuples of `pre_calc_beta_sbt` (/repo/jrystal/calc/pre_calc.py:26-29); `g` stands for
the pair of `g_vector_grid` and `kpts`. -/
def preCalcTasks {R B L G : Type*} (rs : List R) (bs : List B) (ls : List L) (g : G) :
    List (R × B × L × G) :=
  (rs.zip (bs.zip ls)).map fun t => (t.1, t.2.1, t.2.2, g)

/-- `pre_calc_beta_sbt` with `save_cache=False` (/repo/jrystal/calc/pre_calc.py:8-9, 12-40); `single` is
`_beta_sbt_single_atom`, `cpus` is `mp.cpu_count()`.  `ProcessPoolExecutor` raises `ValueError` when
`max_workers` is not positive. -/
def preCalcBeta {R B L G β : Type*} (single : R → B → L → G → Except PyErr β) (cpus : ℕ) (rs : List R)
    (bs : List B) (ls : List L) (g : G) (sched : List ℕ) : Option (Except PyErr (List β)) :=
  if cpus / 2 = 0 then some (.error .valueError)
  else poolResult (fun t : R × B × L × G => single t.1 t.2.1 t.2.2.1 t.2.2.2)
    (preCalcTasks rs bs ls g) sched

/-- `beta_sbt_grid` (/repo/jrystal/pseudopotential/beta.py:115-120): the loop over the zip. -/
def betaSbtGrid {R B L G β : Type*} (single : R → B → L → G → Except PyErr β) :
    List R → List B → List L → G → Except PyErr (List β)
  | r :: rs, b :: bs, l :: ls, g => match single r b l g with
    | .error e => .error e
    | .ok x => match betaSbtGrid single rs bs ls g with
      | .error e => .error e
      | .ok xs => .ok (x :: xs)
  | _, _, _, _ => .ok []

end Jrystal
