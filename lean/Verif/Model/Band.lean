import Verif.Model.FftSize
import Mathlib.Data.Real.Basic
import Mathlib.Algebra.BigOperators.Group.List.Basic

/-
Model of the k-path bookkeeping of the band-structure drivers
(/repo/jrystal/calc/calc_band_structure_all_electrons.py:112-209,
/repo/jrystal/calc/calc_band_structure_normcons.py:169-299).
Arrays are functions of a multi-index (a list of numbers) together with an explicit shape.
-/
namespace Jrystal

/-- Position of a multi-index in column-major (`order="F"`) order
(/repo/jrystal/calc/calc_band_structure_all_electrons.py:201-203). -/
def fLin : List ℕ → List ℕ → ℕ
  | n :: ns, i :: is => i + n * fLin ns is
  | _, _ => 0

/-- Multi-index of a position in column-major order
(/repo/jrystal/calc/calc_band_structure_all_electrons.py:201-203). -/
def fUnlin : List ℕ → ℕ → List ℕ
  | [], _ => []
  | n :: ns, L => L % n :: fUnlin ns (L / n)

/-- Position of a multi-index in row-major (`order="C"`) order
(/repo/jrystal/calc/calc_band_structure_all_electrons.py:185). -/
def cLin : List ℕ → List ℕ → ℕ
  | _ :: ns, i :: is => i * ns.prod + cLin ns is
  | _, _ => 0

/-- Multi-index of a position in row-major order
(/repo/jrystal/calc/calc_band_structure_all_electrons.py:185). -/
def cUnlin : List ℕ → ℕ → List ℕ
  | [], _ => []
  | _ :: ns, L => L / ns.prod :: cUnlin ns (L % ns.prod)

/-- `jnp.reshape(a, new, order="F")` (/repo/jrystal/calc/calc_band_structure_all_electrons.py:201-203). -/
def reshapeF {α : Type*} (old new : List ℕ) (a : List ℕ → α) : List ℕ → α :=
  fun idx => a (fUnlin old (fLin new idx))

/-- `jnp.reshape(a, new)` (/repo/jrystal/calc/calc_band_structure_all_electrons.py:185). -/
def reshapeC {α : Type*} (old new : List ℕ) (a : List ℕ → α) : List ℕ → α :=
  fun idx => a (cUnlin old (cLin new idx))

variable {P κ E : Type*}

/-- Fine tuning along the rest of a chunk (`finetuning` and `eig_scan`,
/repo/jrystal/calc/calc_band_structure_all_electrons.py:136-181): each k point starts from the
parameters of the previous one; the eigenvalues of a k point use its own parameters. -/
def fineTune (fine : P → κ → P) (eig : P → κ → E) : P → List κ → List E
  | _, [] => []
  | p, k :: ks => eig (fine p k) k :: fineTune fine eig (fine p k) ks

/-- `optimize_eigenvalues` on one device
(/repo/jrystal/calc/calc_band_structure_all_electrons.py:115-181): `first` is the optimisation of the
first k point, `fine` one fine-tuning run (parameters and optimiser state together). -/
def optimizeChunk (first fine : P → κ → P) (eig : P → κ → E) (p0 : P) : List κ → List E
  | [] => []
  | k :: ks => eig (first p0 k) k :: fineTune fine eig (first p0 k) ks

/-- The k points given to device `d` by `jnp.reshape(k_path, (devices, -1, 3))`.  The trailing axis
of size 3 is carried along: a k point is one value of type `κ`
(/repo/jrystal/calc/calc_band_structure_all_electrons.py:185). -/
def chunk (N dev : ℕ) (path : ℕ → κ) (d : ℕ) : List κ :=
  (List.range (N / dev)).map fun i =>
    reshapeC [N] [dev, N / dev] (fun j => path (j.headD 0)) [d, i]

/-- `jnp.stack(eigen_values)`: entry `[i, d, …]` is the `i`-th eigenvalue array of device `d`
(/repo/jrystal/calc/calc_band_structure_all_electrons.py:199). -/
def stacked (out : ℕ → List E) [Inhabited E] (i d : ℕ) : E := (out d).getD i default

/-- All-electron driver, from the k path to the saved array
(/repo/jrystal/calc/calc_band_structure_all_electrons.py:184-205).  The reshape uses
`jax.device_count()`, the `pmap` only `util_devices` devices (line 115).  An eigenvalue array of one
k point has shape `(spin, 1, band)`.  `jnp.reshape` raises `TypeError` when the k points cannot be
split evenly, `pmap` raises `ValueError` when the mapped axis exceeds the number of devices.  The last
reshape asks for `num` k points and `nout` bands, the numbers of the configuration, and raises `TypeError`
when the path has another number of points or the orbitals are fewer, unless the sizes agree by chance.
The result is indexed `[spin, kpt, band]` after the transposition. -/
def bandAllElectrons (N devices : ℕ) (parallel : Bool) (ns nb num nout : ℕ) (first fine : P → κ → P)
    (eig : P → κ → (ℕ → ℕ → ℝ)) (p0 : P) (path : ℕ → κ) : Except PyErr (ℕ → ℕ → ℕ → ℝ) :=
  let util := if parallel then devices else 1
  if N % devices ≠ 0 then .error .typeError
  else if util < devices then .error .valueError
  else if N * ns * nb ≠ num * ns * nout then .error .typeError
  else
    let per := N / devices
    let out := fun d => optimizeChunk first fine eig p0 (chunk N devices path d)
    let a : List ℕ → ℝ := fun idx =>
      match idx with
      | [i, d, s, _, b] => stacked out i d s b
      | _ => 0
    let r := reshapeF [per, devices, ns, 1, nb] [num, ns, nout] a
    .ok fun s q b => r [q, s, b]

/-- Norm-conserving driver (/repo/jrystal/calc/calc_band_structure_normcons.py:272-294): the reshape
uses `util_devices`; an eigenvalue array of one k point has shape `(K, band)`, where `K` is the length of
the k axis of `hamiltonian_matrix` (1, or 2 for a density with two channels). -/
def bandNormcons (N devices : ℕ) (parallel : Bool) (K nb : ℕ) (first fine : P → κ → P)
    (eig : P → κ → (ℕ → ℕ → ℝ)) (p0 : P) (path : ℕ → κ) : Except PyErr (ℕ → ℕ → ℝ) :=
  let util := if parallel then devices else 1
  if N % util ≠ 0 then .error .typeError
  else
    let per := N / util
    let out := fun d => optimizeChunk first fine eig p0 (chunk N util path d)
    let a : List ℕ → ℝ := fun idx =>
      match idx with
      | [i, d, c, b] => stacked out i d c b
      | _ => 0
    let r := reshapeF [per, util, K, nb] [N * K, nb] a
    .ok fun q b => r [q, b]

/-- `calc` of the norm-conserving band driver
(/repo/jrystal/calc/calc_band_structure_normcons.py:128-294): the density is assigned only when no ground
state is supplied; the closures that optimise and diagonalise read the name when they are traced, after
the reshape of the path, and raise `NameError` when it is unbound. -/
def bandNCCalc {D G : Type*} (energyCalc : Except PyErr D) (supplied : Option G) (N devices : ℕ)
    (parallel : Bool) (K nb : ℕ) (first fine : D → P → κ → P) (eig : D → P → κ → (ℕ → ℕ → ℝ)) (p0 : P)
    (path : ℕ → κ) : Except PyErr (ℕ → ℕ → ℝ) :=
  let local' : Except PyErr (Option D) :=
    match supplied with
    | none => energyCalc.map some
    | some _ => .ok none
  match local' with
  | .error e => .error e
  | .ok none =>
    if N % (if parallel then devices else 1) ≠ 0 then .error .typeError else .error .nameError
  | .ok (some d) => bandNormcons N devices parallel K nb (first d) (fine d) (eig d) p0 path

end Jrystal
