import Verif.Model.Py
import Verif.Model.FftSize
import Verif.Model.Proj
import Mathlib.Analysis.SpecialFunctions.Exp
import Mathlib.Data.Matrix.Basic
import Mathlib.LinearAlgebra.Matrix.ConjTranspose
import Mathlib.Logic.Equiv.Fin.Basic

/-
Model of /repo/jrystal/_src/occupation.py (apart from `proj`, see Model/Proj.lean) and of
/repo/jrystal/_src/unitary_module.py.
-/
namespace Jrystal
open scoped BigOperators
open Matrix

/-- An occupation array of shape `[spin, kpt, band]`: the list is the leading (spin) axis
(/repo/jrystal/_src/occupation.py:147-190). -/
abbrev OccArr (nk nb : ℕ) (K : Type*) := List (Fin nk → Fin nb → K)

/-- Total of all entries of an occupation array (/repo/jrystal/_src/occupation.py:147-190). -/
def OccArr.total {nk nb : ℕ} {K : Type*} [AddCommMonoid K] (o : OccArr nk nb K) : K :=
  (o.map fun a => ∑ k, ∑ b, a k b).sum

/-- `jnp.sum(occ, axis=0, keepdims=True)` (/repo/jrystal/_src/occupation.py:188, 235, 364). -/
def sumSpin {nk nb : ℕ} {K : Type*} [AddCommMonoid K] (o : OccArr nk nb K) : OccArr nk nb K :=
  [fun k b => (o.map fun a => a k b).sum]

/-- `num_bands = num_electrons if num_bands is None else num_bands`
(/repo/jrystal/_src/occupation.py:181, 229). -/
abbrev resolveBands (ne : ℤ) (nb : Option ℕ) : ℕ :=
  match nb with
  | none => ne.toNat
  | some n => n

/-- `uniform` (/repo/jrystal/_src/occupation.py:147-190).  The slice bounds follow Python's rules
for negative and too large values. -/
def uniformOcc {K : Type*} [Field K] (nk : ℕ) (ne spin : ℤ) (nb : Option ℕ) (restricted : Bool) :
    OccArr nk (resolveBands ne nb) K :=
  let n := resolveBands ne nb
  let occ : OccArr nk n K :=
    [fun _ b => if inSlice n 0 ((ne + spin) / 2) b then 1 / (nk : K) else 0,
     fun _ b => if inSlice n 0 ((ne - spin) / 2) b then 1 / (nk : K) else 0]
  if restricted then sumSpin occ else occ

/-- `gamma` (/repo/jrystal/_src/occupation.py:193-237). -/
def gammaOcc {K : Type*} [Field K] (nk : ℕ) (ne spin : ℤ) (nb : Option ℕ) (restricted : Bool) :
    OccArr nk (resolveBands ne nb) K :=
  let n := resolveBands ne nb
  let occ : OccArr nk n K :=
    [fun k b => if (k : ℕ) = 0 && inSlice n 0 ((ne + spin) / 2) b then 1 else 0,
     fun k b => if (k : ℕ) = 0 && inSlice n 0 ((ne - spin) / 2) b then 1 else 0]
  if restricted then sumSpin occ else occ

/-- `jax.nn.sigmoid` (/repo/jrystal/_src/occupation.py:350). -/
noncomputable def sigmoid (t : ℝ) : ℝ := 1 / (1 + Real.exp (-t))

/-- `jnp.ravel` of a `[kpt, band]` array (row major) (/repo/jrystal/_src/occupation.py:351). -/
def ravel {nk nb : ℕ} {K : Type*} (a : Fin nk → Fin nb → K) : Fin (nk * nb) → K :=
  fun i => a (finProdFinEquiv.symm i).1 (finProdFinEquiv.symm i).2

/-- `reshape([num_kpts, num_bands])` of a vector (row major) (/repo/jrystal/_src/occupation.py:355). -/
def unravel {nk nb : ℕ} {K : Type*} (v : Fin (nk * nb) → K) : Fin nk → Fin nb → K :=
  fun k b => v (finProdFinEquiv (k, b))

/-- `simplex_projector` (/repo/jrystal/_src/occupation.py:341-366). -/
noncomputable def simplexProjector {nk nb : ℕ} (paramUp paramDown : Fin nk → Fin nb → ℝ)
    (ne spin : ℤ) (restricted : Bool) : OccArr nk nb ℝ :=
  let mUp : ℤ := (ne + spin) / 2 * nk
  let mDown : ℤ := (ne - spin) / 2 * nk
  let up := unravel fun i => proj (ravel fun k b => sigmoid (paramUp k b)) (mUp : ℝ) i / (nk : ℝ)
  let down := unravel fun i =>
    proj (ravel fun k b => sigmoid (paramDown k b)) (mDown : ℝ) i / (nk : ℝ)
  let occ : OccArr nk nb ℝ := [up, down]
  if restricted then sumSpin occ else occ

/-- `simplex_projector_init` (/repo/jrystal/_src/occupation.py:281-292); both entries are equal. -/
noncomputable def simplexProjectorInit (nk nb : ℕ) : Fin nk → Fin nb → ℝ :=
  unravel fun i => (((i : ℕ) : ℝ) - (((nb * nk) / 2 : ℕ) : ℝ)) * 0.1

/-- Contract of `jnp.linalg.qr(w, mode='reduced')[0]`: an `n × min n m` matrix with orthonormal
columns (external routine; used at /repo/jrystal/_src/unitary_module.py:74-80). -/
structure QR (F : Type*) [CommRing F] [StarRing F] where
  q : ∀ {n m : ℕ}, Matrix (Fin n) (Fin m) F → Matrix (Fin n) (Fin (min n m)) F
  orth : ∀ {n m : ℕ} (w : Matrix (Fin n) (Fin m) F), (q w)ᴴ * q w = 1

/-- Parameters of the idempotent occupation: `w_re` of the two spin channels, with their own column
counts.  Rows are `num_kpts * num_bands` (/repo/jrystal/_src/occupation.py:27-85). -/
structure IdemParams (nk nb : ℕ) where
  mUp : ℕ
  mDown : ℕ
  up : Matrix (Fin (nk * nb)) (Fin mUp) ℝ
  down : Matrix (Fin (nk * nb)) (Fin mDown) ℝ

/-- `check_spin_number` (/repo/jrystal/_src/utils.py:311-328). -/
def checkSpinNumber (ne spin : ℤ) : Except PyErr Unit :=
  if ne % 2 ≠ spin % 2 then .error .valueError else .ok ()

/-- `idempotent_param_init` (/repo/jrystal/_src/occupation.py:27-85).  `draw` stands for the random
weights of each shape (both channels use the same key, so the same generator).  A negative number
of columns raises in the random generator. -/
def idempotentParamInit (draw : ∀ n m : ℕ, Matrix (Fin n) (Fin m) ℝ) (nk nb : ℕ) (ne spin : ℤ)
    (restricted : Bool) : Except PyErr (IdemParams nk nb) := do
  checkSpinNumber ne spin
  let nUp := (ne + spin) / 2
  let nDown := (ne - spin) / 2
  if nUp < 0 then throw .valueError
  let up := draw (nk * nb) (nUp * nk).toNat
  if restricted then
    return ⟨_, _, up, up⟩
  else
    if nDown < 0 then throw .valueError
    return ⟨_, _, up, draw (nk * nb) (nDown * nk).toNat⟩

/-- The inner function `o` of `idempotent` (/repo/jrystal/_src/occupation.py:132-136): row sums of
squares of the orthogonal matrix, reshaped to `[num_kpts, num_bands]`. -/
def idemChannel (qr : QR ℝ) {nk nb m : ℕ} (w : Matrix (Fin (nk * nb)) (Fin m) ℝ) :
    Fin nk → Fin nb → ℝ :=
  unravel fun i => ∑ j, (qr.q w) i j * (qr.q w)ᵀ j i

/-- `idempotent` (/repo/jrystal/_src/occupation.py:88-144). -/
noncomputable def idempotentOcc (qr : QR ℝ) {nk nb : ℕ} (p : IdemParams nk nb) (restricted : Bool) :
    OccArr nk nb ℝ :=
  if restricted then
    [fun k b => (idemChannel qr p.up k b + idemChannel qr p.down k b) / (nk : ℝ)]
  else
    [fun k b => idemChannel qr p.up k b / (nk : ℝ), fun k b => idemChannel qr p.down k b / (nk : ℝ)]

/-- Values returned by `param_init` (/repo/jrystal/_src/occupation.py:240-258). -/
inductive OccParams (nk nb : ℕ) where
  | idem (p : IdemParams nk nb)
  | arr (o : OccArr nk nb ℝ)
  | simplex (up down : Fin nk → Fin nb → ℝ)

/-- `param_init` (/repo/jrystal/_src/occupation.py:240-258).  The call of `idempotent_param_init`
does not pass `spin_restricted`, so its default `True` is used. -/
noncomputable def occParamInit (draw : ∀ n m : ℕ, Matrix (Fin n) (Fin m) ℝ) (nb : ℕ) (ne : ℤ)
    (nk : ℕ) (spin : ℤ) (method : String) (restricted : Bool) : Except PyErr (OccParams nk nb) :=
  if method = "idempotent" then
    (idempotentParamInit draw nk nb ne spin true).map .idem
  else if method = "uniform" then
    .ok (.arr (uniformOcc nk ne spin (some nb) restricted))
  else if method = "gamma" then
    .ok (.arr (gammaOcc nk ne spin (some nb) restricted))
  else if method = "simplex-projector" then
    .ok (.simplex (simplexProjectorInit nk nb) (simplexProjectorInit nk nb))
  else .error .valueError

/-- `occupation` (/repo/jrystal/_src/occupation.py:261-278).  Parameters of another method's kind
are a type error. -/
noncomputable def occupation (qr : QR ℝ) {nk nb : ℕ} (p : OccParams nk nb) (ne spin : ℤ)
    (method : String) (restricted : Bool) : Except PyErr (OccArr nk nb ℝ) :=
  if method = "idempotent" then
    match p with
    | .idem p => .ok (idempotentOcc qr p restricted)
    | _ => .error .typeError
  else if method = "uniform" then
    match p with
    | .arr o => .ok o
    | _ => .error .typeError
  else if method = "gamma" then
    match p with
    | .arr o => .ok o
    | _ => .error .typeError
  else if method = "simplex-projector" then
    match p with
    | .simplex up down => .ok (simplexProjector up down ne spin restricted)
    | _ => .error .typeError
  else .error .valueError

/-- `num_bands = ceil(num_electrons / 2) + config.empty_bands`
(/repo/jrystal/calc/calc_ground_state_energy_all_electrons.py:97). -/
def driverBands (ne : ℕ) (empty : ℕ) : ℕ := (ne + 1) / 2 + empty

/-- The occupation of the first step of the all-electron driver
(/repo/jrystal/calc/calc_ground_state_energy_all_electrons.py:97, 109-117, 159-167). -/
noncomputable def driverOccupation (qr : QR ℝ) (draw : ∀ n m : ℕ, Matrix (Fin n) (Fin m) ℝ)
    (ne : ℕ) (spin : ℤ) (nk empty : ℕ) (method : String) (restricted : Bool) :
    Except PyErr (OccArr nk (driverBands ne empty) ℝ) := do
  let p ← occParamInit draw (driverBands ne empty) ne nk spin method restricted
  occupation qr p ne spin method restricted

/-- The same in the norm-conserving driver, which does not pass `spin_restricted` to `param_init`
(/repo/jrystal/calc/calc_ground_state_energy_normcons.py:165-173, 218-220). -/
noncomputable def driverOccupationNC (qr : QR ℝ) (draw : ∀ n m : ℕ, Matrix (Fin n) (Fin m) ℝ)
    (ne : ℕ) (spin : ℤ) (nk empty : ℕ) (method : String) (restricted : Bool) :
    Except PyErr (OccArr nk (driverBands ne empty) ℝ) := do
  let p ← occParamInit draw (driverBands ne empty) ne nk spin method true
  occupation qr p ne spin method restricted

end Jrystal
