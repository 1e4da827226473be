import Verif.Model.Fft
import Verif.Model.FftSize

/-
Model of /repo/jrystal/_src/spmd: the primitives `fftn3d` and `ifftn3d` on arrays of any rank with their
differentiation and batching rules, the partitioning rule, and the sharded random initialisation.

An array of any rank is a function of its index list; its shape is a separate list of lengths.
-/
namespace Jrystal
open scoped BigOperators

/-- A transform of three-dimensional arrays of every size (`fftn` or `ifftn`)
(/repo/jrystal/_src/spmd/fft.py:68-75). -/
abbrev Transform3 := (n : Fin 3 → ℕ) → (Idx n → ℂ) → Idx n → ℂ

/-- The lengths `a, b, c` as a grid shape (/repo/jrystal/_src/spmd/fft.py:68-75). -/
def vec3 (a b c : ℕ) : Fin 3 → ℕ
  | 0 => a
  | 1 => b
  | 2 => c

/-- The grid index `(i, j, k)` (/repo/jrystal/_src/spmd/fft.py:68-75). -/
def vec3Idx {a b c i j k : ℕ} (h : i < a ∧ j < b ∧ k < c) : Idx (vec3 a b c)
  | 0 => ⟨i, h.1⟩
  | 1 => ⟨j, h.2.1⟩
  | 2 => ⟨k, h.2.2⟩

/-- One three-dimensional block of lengths `a, b, c` transformed, at index `(i, j, k)`
(/repo/jrystal/_src/spmd/fft.py:68-75). -/
noncomputable def coreTransform (tr : Transform3) (a b c : ℕ) (f : ℕ → ℕ → ℕ → ℂ) (i j k : ℕ) : ℂ :=
  if h : i < a ∧ j < b ∧ k < c then
    tr (vec3 a b c) (fun t => f (t 0) (t 1) (t 2)) (vec3Idx h)
  else 0

/-- `jnp.fft.fftn(x, axes=range(-3, 0))` and its inverse on an array of shape `n`
(/repo/jrystal/_src/spmd/fft.py:68-75): the last three axes are transformed for every value of the
others. -/
noncomputable def onLast (tr : Transform3) (n : List ℕ) (x : List ℕ → ℂ) : List ℕ → ℂ := fun idx =>
  match n.drop (n.length - 3), idx.drop (idx.length - 3) with
  | [a, b, c], [i, j, k] =>
    coreTransform tr a b c (fun i j k => x (idx.take (idx.length - 3) ++ [i, j, k])) i j k
  | _, _ => 0

/-- `fftn3d` (/repo/jrystal/_src/spmd/fft.py:37-49). -/
noncomputable def fftn3d (n : List ℕ) (x : List ℕ → ℂ) : Except PyErr (List ℕ → ℂ) :=
  if n.length < 3 then .error .valueError else .ok (onLast (fun _ => fftn) n x)

/-- `ifftn3d` (/repo/jrystal/_src/spmd/fft.py:52-64). -/
noncomputable def ifftn3d (n : List ℕ) (x : List ℕ → ℂ) : Except PyErr (List ℕ → ℂ) :=
  if n.length < 3 then .error .valueError else .ok (onLast (fun _ => ifftn) n x)

/-! ### Differentiation rules -/

/-- `_fftn_jvp` (/repo/jrystal/_src/spmd/fft.py:96-97); arrays with the leading axes flattened to `m`. -/
noncomputable def fftnJvp {m : ℕ} {n : Fin 3 → ℕ} (x t : Fin m → Idx n → ℂ) :
    (Fin m → Idx n → ℂ) × (Fin m → Idx n → ℂ) :=
  (fun a => fftn (x a), fun a => fftn (t a))

/-- `_ifftn_jvp` (/repo/jrystal/_src/spmd/fft.py:88-89). -/
noncomputable def ifftnJvp {m : ℕ} {n : Fin 3 → ℕ} (x t : Fin m → Idx n → ℂ) :
    (Fin m → Idx n → ℂ) × (Fin m → Idx n → ℂ) :=
  (fun a => ifftn (x a), fun a => ifftn (t a))

/-- `_fftn_tranpose_rule` (/repo/jrystal/_src/spmd/fft.py:100-101). -/
noncomputable def fftnTranspose {m : ℕ} {n : Fin 3 → ℕ} (ct : Fin m → Idx n → ℂ) :
    Fin m → Idx n → ℂ := fun a => fftn (ct a)

/-- `_ifftn_tranpose_rule` (/repo/jrystal/_src/spmd/fft.py:92-93). -/
noncomputable def ifftnTranspose {m : ℕ} {n : Fin 3 → ℕ} (ct : Fin m → Idx n → ℂ) :
    Fin m → Idx n → ℂ := fun a => ifftn (ct a)

/-! ### Batching rules -/

/-- `batching.moveaxis(x, bd, 0)`: shape of the result (/repo/jrystal/_src/spmd/fft.py:107, 114). -/
def moveShape (bd : ℕ) (n : List ℕ) : List ℕ := n.getD bd 0 :: n.eraseIdx bd

/-- `batching.moveaxis(x, bd, 0)`: entries of the result
(/repo/jrystal/_src/spmd/fft.py:107, 114). -/
def moveFront (bd : ℕ) (x : List ℕ → ℂ) : List ℕ → ℂ
  | [] => x []
  | i :: rest => x (rest.insertIdx bd i)

/-- `_fftn_batching_rule` (/repo/jrystal/_src/spmd/fft.py:111-115): the result and its batch axis. -/
noncomputable def fftnBatch (bd : ℕ) (n : List ℕ) (x : List ℕ → ℂ) :
    Except PyErr ((List ℕ → ℂ) × ℕ) :=
  match fftn3d (moveShape bd n) (moveFront bd x) with
  | .error e => .error e
  | .ok y => .ok (y, 0)

/-- `_ifftn_batching_rule` (/repo/jrystal/_src/spmd/fft.py:104-108). -/
noncomputable def ifftnBatch (bd : ℕ) (n : List ℕ) (x : List ℕ → ℂ) :
    Except PyErr ((List ℕ → ℂ) × ℕ) :=
  match ifftn3d (moveShape bd n) (moveFront bd x) with
  | .error e => .error e
  | .ok y => .ok (y, 0)

/-! ### Abstract evaluation -/

/-- The floating data types of arrays (/repo/jrystal/_src/spmd/fft.py:118-125). -/
inductive FDtype
  | f32
  | f64
  | c64
  | c128
  deriving DecidableEq

/-- Data type of the result of `jnp.fft.fftn`, which the implementation calls
(/repo/jrystal/_src/spmd/fft.py:68-75). -/
def fftDtype : FDtype → FDtype
  | .f32 => .c64
  | .f64 => .c128
  | d => d

/-- `_fftn_abstract_eval`, `_ifftn_abstract_eval` (/repo/jrystal/_src/spmd/fft.py:118-125): shape and
data type announced for the result. -/
def fftAbstract (shape : List ℕ) (dtype : FDtype) : List ℕ × FDtype := (shape, dtype)

/-! ### Partitioning -/

/-- `_supported_sharding` (/repo/jrystal/_src/spmd/custom_sharding.py:17-22): the entries of the
partition spec (`none` for an unsharded axis) of an array with `rank` axes. -/
def supportedSharding {α : Type} (spec : List (Option α)) (rank : ℕ) : List (Option α) :=
  let m := min spec.length (rank - 1)
  spec.take m ++ List.replicate (rank - m) none

/-- Sharding of argument and result returned by `_partition`
(/repo/jrystal/_src/spmd/custom_sharding.py:43-49) and by `_infer_sharding_from_operands`
(/repo/jrystal/_src/spmd/custom_sharding.py:25-27). -/
def partitionRule {α : Type} (spec : List (Option α)) (rank : ℕ) :
    List (Option α) × List (Option α) :=
  (supportedSharding spec rank, supportedSharding spec rank)

/-- Number of pieces of every axis under a partition spec, on a mesh with axis sizes `mesh`
(/repo/jrystal/_src/spmd/custom_sharding.py:17-22). -/
def partsOf {α : Type} (mesh : α → ℕ) (spec : List (Option α)) : List ℕ :=
  spec.map fun o => match o with
    | none => 1
    | some a => mesh a

/-- Shape of one shard (/repo/jrystal/_src/spmd/custom_sharding.py:43-49). -/
def localShape (n parts : List ℕ) : List ℕ := List.zipWith (· / ·) n parts

/-- Position in the whole array of index `loc` of shard number `blk` (per axis), for shards of shape
`m` (/repo/jrystal/_src/spmd/custom_sharding.py:43-49). -/
def globalIdx : List ℕ → List ℕ → List ℕ → List ℕ
  | m :: ms, b :: bs, l :: ls => (b * m + l) :: globalIdx ms bs ls
  | _, _, _ => []

/-- SPMD execution of a shape-polymorphic function `f` under a partition of every axis into equal
pieces: each device applies `f` to its own shard, and the results are put together with the same
partition (what XLA does with the function and shardings returned by `_partition`)
(/repo/jrystal/_src/spmd/custom_sharding.py:43-49). -/
def runSharded (parts n : List ℕ) (f : List ℕ → (List ℕ → ℂ) → List ℕ → ℂ) (x : List ℕ → ℂ) :
    List ℕ → ℂ := fun idx =>
  let m := localShape n parts
  let blk := List.zipWith (· / ·) idx m
  let loc := List.zipWith (· % ·) idx m
  f m (fun l => x (globalIdx m blk l)) loc

/-! ### Sharded random initialisation -/

/-- `single_device_arrays_shape` (/repo/jrystal/_src/spmd/uniform.py:17-24): `shape[i] //= mesh_shape[i]`
for the mesh axes in order. -/
def uniformShardShape : List ℕ → List ℕ → Except PyErr (List ℕ)
  | shape, [] => .ok shape
  | [], _ :: _ => .error .indexError
  | d :: ds, p :: ps =>
    match uniformShardShape ds ps with
    | .error e => .error e
    | .ok r => .ok (d / p :: r)

/-- `NamedSharding.shard_shape(shape)`: a spec longer than the shape and a length that is not divisible
raise `ValueError` (/repo/jrystal/_src/spmd/uniform.py:25-32). -/
def shardShape : List ℕ → List ℕ → Except PyErr (List ℕ)
  | shape, [] => .ok shape
  | [], _ :: _ => .error .valueError
  | d :: ds, p :: ps =>
    if p ∣ d then
      match shardShape ds ps with
      | .error e => .error e
      | .ok r => .ok (d / p :: r)
    else .error .valueError

/-- `uniform` with a sharding (/repo/jrystal/_src/spmd/uniform.py:17-32): `mesh` is the ordered list of
mesh axes, `spec` the partition spec; `make_array_from_single_device_arrays` rejects pieces that do not
have the shard shape of the sharding.  The result is the shape of the array. -/
def uniformSharded (shape : List ℕ) (mesh : List (String × ℕ)) (spec : List (Option String)) :
    Except PyErr (List ℕ) :=
  match uniformShardShape shape (mesh.map Prod.snd) with
  | .error e => .error e
  | .ok piece =>
    match shardShape shape (partsOf (fun a => ((mesh.find? fun p => p.1 == a).map Prod.snd).getD 1) spec) with
    | .error e => .error e
    | .ok want => if piece = want then .ok shape else .error .valueError

end Jrystal
