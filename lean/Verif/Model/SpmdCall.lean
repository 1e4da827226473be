import Verif.Model.Spmd

/-
Model of /repo/jrystal/_src/spmd/custom_partitioning.py: the object that wraps the implementations of
`fftn3d` and `ifftn3d`, its call, the rule that turns the call into code for the devices, and its batching
rule.

A mesh is the ordered list of its axes with their sizes; it is empty when it has no axis.  JAX itself is
taken as given: tracing a function and evaluating the trace gives the function, `parse_flatten_op_sharding`
returns the partition spec the compiler chose (a parameter), `np.reshape` fails when the sizes do not match,
and a positional sharding has no attribute `spec`.
-/
namespace Jrystal

/-- Axes of a device mesh with their sizes (/repo/jrystal/_src/spmd/custom_partitioning.py:83, 137). -/
abbrev MeshAxes := List (String × ℕ)

/-- One entry of a partition spec: the mesh axes dividing an array axis, `none` if it is not divided
(/repo/jrystal/_src/spmd/custom_partitioning.py:168-169). -/
abbrev PSpec := List (Option (List String))

/-- A function on arrays of every shape (/repo/jrystal/_src/spmd/custom_partitioning.py:39-40). -/
abbrev ShapeFun := List ℕ → (List ℕ → ℂ) → List ℕ → ℂ

/-- A partition callback: from the sharding of the argument and its rank to the shardings of argument and
result (/repo/jrystal/_src/spmd/custom_sharding.py:43-49). -/
abbrev PartitionRule := PSpec → ℕ → PSpec × PSpec

/-- The attributes of `jrystal_custom_partitioning` (/repo/jrystal/_src/spmd/custom_partitioning.py:37-59).
`decode` and `rule` (`decode_shardings`, `sharding_rule`) are `none` while the attribute does not exist;
reading it then forwards to the wrapped function and raises `AttributeError`. -/
structure CpObject where
  func : ShapeFun
  partition : Option PartitionRule
  infer : Option PartitionRule
  decode : Option Bool
  rule : Option Unit

/-- `__init__` (/repo/jrystal/_src/spmd/custom_partitioning.py:39-44). -/
def cpInit (f : ShapeFun) : CpObject :=
  { func := f, partition := none, infer := none, decode := none, rule := none }

/-- `def_partition` (/repo/jrystal/_src/spmd/custom_partitioning.py:48-59). -/
def cpDefPartition (o : CpObject) (partition infer : PartitionRule) (decode : Bool := true) : CpObject :=
  { o with partition := some partition, infer := some infer, decode := some decode }

/-- `custom_sharding_by_mesh` (/repo/jrystal/_src/spmd/custom_sharding.py:30-57). -/
def customShardingByMesh (f : ShapeFun) : CpObject :=
  cpDefPartition (cpInit f) partitionRule partitionRule

/-- What the compiler knows when it meets the call (`ctx.module_context.axis_context`): a computation on the
given number of devices (`device_assignment`) with or without an abstract mesh; a computation under a mesh
some of whose axes are handled by hand; or none of these
(/repo/jrystal/_src/spmd/custom_partitioning.py:132-154). -/
inductive AxisContext
  | sharding (devices : Option ℕ) (abstractMesh : Option MeshAxes)
  | spmd (manual : List String) (mesh : MeshAxes)
  | replica

/-- Number of devices of a mesh (/repo/jrystal/_src/spmd/custom_partitioning.py:150-151). -/
def meshDevices (m : MeshAxes) : ℕ := (m.map Prod.snd).prod

/-- The surroundings of a call: is the Shardy partitioner in use, is the call evaluated at once (outside
`jax.jit`, through `def_impl`), the number of devices of the process (`jax.devices()`), the mesh of the
enclosing `with mesh:` (`[]` outside any), and the axis context
(/repo/jrystal/_src/spmd/custom_partitioning.py:33, 83, 95, 132-142). -/
structure CpEnv where
  shardy : Bool
  eager : Bool
  allDevices : ℕ
  threadMesh : MeshAxes
  context : AxisContext

/-- What the lowering rule emits: the function itself, or one custom call carrying the callbacks and the
mesh (/repo/jrystal/_src/spmd/custom_partitioning.py:137-139, 157-160, 172-201). -/
inductive Lowered
  | inlined
  | customCall (mesh : MeshAxes)
  deriving DecidableEq

/-- `_custom_partitioning_lowering_rule` (/repo/jrystal/_src/spmd/custom_partitioning.py:119-201): which code
is emitted. -/
def cpLower (env : CpEnv) : Except PyErr Lowered :=
  match env.context with
  | .spmd manual mesh =>
    if (∀ a ∈ manual, a ∈ mesh.map Prod.fst) ∧ (∀ a ∈ mesh.map Prod.fst, a ∈ manual) then .ok .inlined
    else if meshDevices mesh = 0 ∨ meshDevices mesh = 1 then .ok .inlined
    else .ok (.customCall env.threadMesh)
  | .sharding devices am =>
    let d := devices.getD env.allDevices
    match am with
    | none => if d = 0 ∨ d = 1 then .ok .inlined else .ok (.customCall env.threadMesh)
    | some m =>
      if meshDevices m ≠ d then .error .valueError
      else if d = 0 ∨ d = 1 then .ok .inlined
      else .ok (.customCall m)
  | .replica => .ok .inlined

/-- `to_mesh_pspec_sharding` (/repo/jrystal/_src/spmd/custom_partitioning.py:162-170): the partition spec the
callbacks see, `none` for a positional sharding. -/
def cpDecode (mesh : MeshAxes) (decode : Bool) (spec : PSpec) (ndim : ℕ) : Option PSpec :=
  if mesh = [] ∨ decode = false then none
  else some (spec ++ List.replicate (ndim - spec.length) none)

/-- Size of a product of mesh axes (/repo/jrystal/_src/spmd/custom_partitioning.py:168-170). -/
def axesSize (mesh : MeshAxes) (axes : List String) : ℕ :=
  (axes.map fun a => ((mesh.find? fun p => p.1 == a).map Prod.snd).getD 1).prod

/-- The value of the custom call (/repo/jrystal/_src/spmd/custom_partitioning.py:172-201): the partitioner
asks the callback for the shardings, every device runs the wrapped function on its shard, and the pieces are
put together with the sharding of the result.  The callback reads `sharding.spec`
(/repo/jrystal/_src/spmd/custom_sharding.py:17-22). -/
def cpCustomCall (o : CpObject) (decode : Bool) (mesh : MeshAxes) (spec : PSpec) (n : List ℕ)
    (x : List ℕ → ℂ) : Except PyErr (List ℕ → ℂ) :=
  match o.partition with
  | none => .error .typeError
  | some p =>
    match cpDecode mesh decode spec n.length with
    | none => .error .attributeError
    | some s => .ok (runSharded (partsOf (axesSize mesh) (p s n.length).1) n o.func x)

/-- `__call__` (/repo/jrystal/_src/spmd/custom_partitioning.py:61-116) followed by the compilation of the
call (or, outside `jax.jit`, its evaluation: `def_impl` runs the traced function,
/repo/jrystal/_src/spmd/custom_partitioning.py:33): with the Shardy partitioner it reads `self.sharding_rule`, and in every case
`self.decode_shardings`.  `spec` is the sharding of the argument chosen by the compiler. -/
def cpCall (o : CpObject) (env : CpEnv) (spec : PSpec) (n : List ℕ) (x : List ℕ → ℂ) :
    Except PyErr (List ℕ → ℂ) :=
  if env.shardy ∧ o.rule = none then .error .attributeError
  else
    match o.decode with
    | none => .error .attributeError
    | some decode =>
      if env.eager then .ok (o.func n x)
      else match cpLower env with
      | .error e => .error e
      | .ok .inlined => .ok (o.func n x)
      | .ok (.customCall mesh) => cpCustomCall o decode mesh spec n x

/-- `fftn3d` compiled for the devices (/repo/jrystal/_src/spmd/fft.py:37-49, 73-75, 83-85). -/
noncomputable def fftn3dOn (env : CpEnv) (spec : PSpec) (n : List ℕ) (x : List ℕ → ℂ) :
    Except PyErr (List ℕ → ℂ) :=
  if n.length < 3 then .error .valueError
  else cpCall (customShardingByMesh (onLast fun _ => fftn)) env spec n x

/-- `ifftn3d` compiled for the devices (/repo/jrystal/_src/spmd/fft.py:52-64, 68-70, 79-81). -/
noncomputable def ifftn3dOn (env : CpEnv) (spec : PSpec) (n : List ℕ) (x : List ℕ → ℂ) :
    Except PyErr (List ℕ → ℂ) :=
  if n.length < 3 then .error .valueError
  else cpCall (customShardingByMesh (onLast fun _ => ifftn)) env spec n x

/-- The mesh of the ground-state drivers: `('s', 'k')` with shape `[1, util_devices]`
(/repo/jrystal/calc/calc_ground_state_energy_all_electrons.py:84-91,
/repo/jrystal/calc/calc_ground_state_energy_normcons.py:90-97). -/
def driverMesh (numDevices : ℕ) (parallelOverK : Bool) : MeshAxes :=
  [("s", 1), ("k", if parallelOverK then numDevices else 1)]

/-- `_custom_partitioning_batching_rule` (/repo/jrystal/_src/spmd/custom_partitioning.py:228-244) on a
function of one argument of shape `n` (without the batch axis): the shape of the operand after the batch axis
has been moved to the front, the shape announced for the result (that of the unchanged `call`, whose trace
was made for shape `n`), and the batch axis reported for the result. -/
def cpBatchShapes (batch : ℕ) (n : List ℕ) (outShape : List ℕ → List ℕ) : List ℕ × List ℕ × ℕ :=
  (batch :: n, outShape n, 0)

end Jrystal
