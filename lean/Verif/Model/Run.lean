import Verif.Model.Driver

/-
Model of a whole all-electron ground-state calculation, from the configuration and the geometry to the
report: /repo/jrystal/calc/opt_utils.py and /repo/jrystal/calc/calc_ground_state_energy_all_electrons.py.

External parts are parameters: the reader of geometry files (`ase.io.read`), `erfc`, the
exchange-correlation library, QR, the random numbers (functions of the seed and the shape) and the
optimiser (`optax`), which sees the crystal only through the minimised function.  A singular cell is not
modelled (`jnp.linalg.inv` then returns infinities).
-/
namespace Jrystal
open scoped BigOperators

/-- The entries of the configuration that the driver reads (/repo/jrystal/config.py:21-57). -/
structure RunConfig where
  crystal : Option String
  crystalFile : Option String
  spin : Option ℤ
  gridSizes : GridArg
  kGridSizes : GridArg
  maskMethod : String
  cutoff : ℝ
  emptyBands : ℕ
  occupation : String
  restricted : Bool
  xc : String
  eps : ℝ
  smearing : ℝ
  epoch : ℤ
  window : ℤ
  threshold : ℝ
  ewaldEta : ℝ
  ewaldCutoff : ℝ
  parallelK : Bool

/-- `optax` as the driver uses it (/repo/jrystal/calc/calc_ground_state_energy_all_electrons.py:150, 170,
175-181): `init` makes the state of the optimiser, `step` is one call of `update`, which sees the crystal
only through the function it differentiates. -/
structure Optimizer where
  State : Type
  init : ∀ {ns nk g nb : ℕ}, GsParams ns nk g nb → State
  step : ∀ {ns nk g nb : ℕ}, (GsParams ns nk g nb → Except PyErr ℝ) → GsParams ns nk g nb × State →
    GsParams ns nk g nb × State

/-- External routines, the seeded random numbers and the machine
(/repo/jrystal/calc/calc_ground_state_energy_all_electrons.py:74, 83-91, 151-170).  `updateFault` is
what `optimizer.update(grad, opt_state)` raises (line 179): `ValueError` when the optimiser must be given the current
parameters, as it must with weight decay, `TypeError` when it must be given the value, as for a line search. -/
structure RunLib where
  pkgPath : String
  read : Option String → Except PyErr (Σ m : ℕ, AseAtoms m)
  erfc : ℝ → ℝ
  xc : XcLib
  qrC : QR ℂ
  qrR : QR ℝ
  devices : ℕ
  pwDraw : ∀ ns nk g nb : ℕ, PwParams ns nk g nb
  occDraw : ∀ n m : ℕ, Matrix (Fin n) (Fin m) ℝ
  optimizer : Except PyErr Optimizer
  updateFault : Option PyErr := none

/-- The path that `create_crystal` reads (/repo/jrystal/calc/opt_utils.py:107-111). -/
def crystalPath (pkg : String) (cfg : RunConfig) : Option String :=
  match cfg.crystal with
  | some name => some (pkg ++ "/geometry/" ++ name ++ ".xyz")
  | none => cfg.crystalFile

/-- The rows of a grid of vectors in the order of `reshape([-1, 3])`
(/repo/jrystal/_src/grid.py:236; `monkhorst_pack` uses the same order, line 262). -/
def flatRows {n : Fin 3 → ℕ} {X : Type*} (f : Idx n → X) : Fin (idxList n).length → X :=
  fun q => f ((idxList n).get q)

/-- Sizes as an array of three numbers: `_vector_grid` asserts that there are three
(/repo/jrystal/_src/grid.py:110-111). -/
def threeSizes (e : PyErr) : List ℕ → Except PyErr (Fin 3 → ℕ)
  | [a, b, c] => .ok ![a, b, c]
  | _ => .error e

/-- Sizes of the FFT grid and of the k mesh (/repo/jrystal/calc/opt_utils.py:143-150): both go through
`proper_grid_size`; a number of axes other than three fails the assertion of `_vector_grid`, or the
transposition inside `monkhorst_pack`. -/
def runSizes (cfg : RunConfig) : Except PyErr ((Fin 3 → ℕ) × (Fin 3 → ℕ)) :=
  match createGridsSizes cfg.gridSizes cfg.kGridSizes with
  | .error e => .error e
  | .ok (g, k) =>
    match threeSizes .assertionError g with
    | .error e => .error e
    | .ok n =>
      match threeSizes .valueError k with
      | .error e => .error e
      | .ok kn => .ok (n, kn)

/-- `create_freq_mask` (/repo/jrystal/calc/opt_utils.py:76-103) on the sizes of the FFT grid. -/
noncomputable def createFreqMask (cfg : RunConfig) (A : Matrix (Fin 3) (Fin 3) ℝ) (n : Fin 3 → ℕ) :
    Except PyErr (Idx n → Bool) :=
  if cfg.maskMethod = "cubic" then .ok (cubicMask n)
  else if cfg.maskMethod = "spherical" then .ok (sphericalMask A n cfg.cutoff)
  else .error .valueError

/-- `get_ewald_coulomb_repulsion` (/repo/jrystal/calc/opt_utils.py:187-201) with the translation vectors
of /repo/jrystal/_src/grid.py:213-236: `1 / 0` raises when the count is zero, `fftfreq` raises when it is
negative. -/
noncomputable def runRepulsion (erfc : ℝ → ℝ) (cfg : RunConfig) {m : ℕ} (c : Crystal m) (n : Fin 3 → ℕ) :
    Except PyErr ℝ :=
  if translationCount c.cell cfg.ewaldCutoff = 0 then .error .zeroDivision
  else if translationCount c.cell cfg.ewaldCutoff < 0 then .error .valueError
  else .ok (driverRepulsion erfc c (gVectors c.cell n) cfg.ewaldEta
    (flatRows (translationVectors c.cell cfg.ewaldCutoff)))

/-- What the driver has built before its loop
(/repo/jrystal/calc/calc_ground_state_energy_all_electrons.py:77-106). -/
noncomputable def runEnv (L : RunLib) (cfg : RunConfig) {m : ℕ} (c : Crystal m) (n kn : Fin 3 → ℕ)
    (mask : Idx n → Bool) : GsEnv m (idxList kn).length n where
  lib := L.xc
  qrC := L.qrC
  qrR := L.qrR
  mask := mask
  g := gVectors c.cell n
  kpts := flatRows (kVectors c.cell kn)
  vol := c.vol
  pos := c.positions
  charge := fun a => (c.charges a : ℝ)
  ne := c.numElectron
  spin := c.spin
  method := cfg.occupation
  restricted := cfg.restricted
  xc := cfg.xc
  eps := cfg.eps

/-- One call of `update` at temperature `t`
(/repo/jrystal/calc/calc_ground_state_energy_all_electrons.py:175-181): the optimiser differentiates
`free_energy` at that temperature. -/
noncomputable def runUpdate (opt : Optimizer) {na nk ns nb : ℕ} {n : Fin 3 → ℕ} (E : GsEnv na nk n)
    (p : GsParams ns nk (maskCount E.mask) nb × opt.State) (t : ℝ) :
    GsParams ns nk (maskCount E.mask) nb × opt.State :=
  opt.step (fun q => (gsFree E t q).map fun r => r.1) p

/-- The first call of `update` (/repo/jrystal/calc/calc_ground_state_energy_all_electrons.py:175-181, 205-208,
/repo/jrystal/calc/calc_ground_state_energy_normcons.py:229-237, 262-265): the energy is computed first, `loss`;
then an optimiser that must be given more than the gradient and its own state raises.  Otherwise, or when there is
no epoch, the calculation goes on with `rest`. -/
def firstUpdate {X Y : Type*} (fault : Option PyErr) (epoch : ℤ) (loss : Except PyErr X) (rest : Except PyErr Y) :
    Except PyErr Y :=
  match fault with
  | none => rest
  | some f =>
    if 0 < epoch then
      match loss with
      | .error e => .error e
      | .ok _ => .error f
    else rest

/-- The driver from the end of its set-up to its return
(/repo/jrystal/calc/calc_ground_state_energy_all_electrons.py:150-247): optimiser, initial parameters,
loop, report.  `param_init` makes one spin channel of plane-wave parameters when spin-restricted, two
otherwise (/repo/jrystal/_src/pw.py:88-91). -/
noncomputable def runLoop (L : RunLib) (cfg : RunConfig) {na nk : ℕ} {n : Fin 3 → ℕ} (E : GsEnv na nk n)
    (ew : ℝ) : Except PyErr (GsReport EnergyParts n) :=
  match L.optimizer with
  | .error e => .error e
  | .ok opt =>
    match gsInit (empty := cfg.emptyBands) E L.occDraw
        (L.pwDraw (if cfg.restricted then 1 else 2) nk (maskCount E.mask)
          (driverBands E.ne.toNat cfg.emptyBands)) with
    | .error e => .error e
    | .ok p =>
      firstUpdate L.updateFault cfg.epoch (gsFree E (temperature cfg.smearing cfg.epoch 0) p)
        (gsCalc E ew (runUpdate opt E) cfg.epoch cfg.smearing cfg.window cfg.threshold (p, opt.init p))

/-- The driver on a crystal and an FFT grid and k mesh of sizes `n` and `kn`
(/repo/jrystal/calc/calc_ground_state_energy_all_electrons.py:77-247): mask, Ewald energy, placement of the k
points on the devices (the number of k points must be a multiple of the number of devices used, lines 84-91
and 106), then the rest. -/
noncomputable def runGrid (L : RunLib) (cfg : RunConfig) {m : ℕ} (c : Crystal m) (n kn : Fin 3 → ℕ) :
    Except PyErr (GsReport EnergyParts n) :=
  match createFreqMask cfg c.cell n with
  | .error e => .error e
  | .ok mask =>
    match runRepulsion L.erfc cfg c n with
    | .error e => .error e
    | .ok ew =>
      if (idxList kn).length % (if cfg.parallelK then L.devices else 1) ≠ 0 then .error .valueError
      else runLoop L cfg (runEnv L cfg c n kn mask) ew

/-- The driver on a crystal (/repo/jrystal/calc/calc_ground_state_energy_all_electrons.py:77-247): sizes, then
the rest. -/
noncomputable def runCrystal (L : RunLib) (cfg : RunConfig) {m : ℕ} (c : Crystal m) :
    Except PyErr (Σ n : Fin 3 → ℕ, GsReport EnergyParts n) :=
  match runSizes cfg with
  | .error e => .error e
  | .ok (n, kn) =>
    match runGrid L cfg c n kn with
    | .error e => .error e
    | .ok r => .ok ⟨n, r⟩

/-- The driver on atoms as `ase` holds them
(/repo/jrystal/calc/calc_ground_state_energy_all_electrons.py:77, /repo/jrystal/calc/opt_utils.py:112-114). -/
noncomputable def runAtoms (L : RunLib) (cfg : RunConfig) {m : ℕ} (a : AseAtoms m) :
    Except PyErr (Σ n : Fin 3 → ℕ, GsReport EnergyParts n) :=
  match createCrystal a cfg.spin with
  | .error e => .error e
  | .ok c => runCrystal L cfg c

/-- `calc` of the all-electron ground-state driver
(/repo/jrystal/calc/calc_ground_state_energy_all_electrons.py:63-247). -/
noncomputable def runCalc (L : RunLib) (cfg : RunConfig) :
    Except PyErr (Σ n : Fin 3 → ℕ, GsReport EnergyParts n) :=
  match L.read (crystalPath L.pkgPath cfg) with
  | .error e => .error e
  | .ok ⟨_, a⟩ => runAtoms L cfg a

end Jrystal
