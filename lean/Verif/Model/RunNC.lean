import Verif.Model.Run
import Verif.Model.Load
import Verif.Model.Utils

/-
Model of a whole norm-conserving ground-state calculation, from the configuration, the geometry and the
pseudopotential files to the report: /repo/jrystal/calc/opt_utils.py and
/repo/jrystal/calc/calc_ground_state_energy_normcons.py.

External parts are parameters, as in Model/Run.lean: in addition the directory and XML reader, the
eigenvalue routine, the spherical harmonics, the spherical Bessel functions, the two spline libraries and
the number of processors.  The splines accept any knots here; SciPy raises when the largest `|k + G|` is
below 0.0001.  Angular momenta in the files are not negative.
-/
namespace Jrystal
open scoped BigOperators

/-- External routines and the machine (/repo/jrystal/calc/calc_ground_state_energy_normcons.py:76-162). -/
structure NcLib extends RunLib where
  /-- `mp.cpu_count()` -/
  cpus : ℕ
  eigh : Eigh
  sph : SphHarm
  jn : SphBessel
  /-- the spline of /repo/jrystal/pseudopotential/local.py:85 -/
  csLoc : Spline
  /-- the spline of /repo/jrystal/pseudopotential/beta.py:78 -/
  csBeta : Spline
  eigTop : List (List ℚ) → ℚ
  /-- chemical symbol of an atomic number -/
  symbol : ℤ → Str
  rd : NumReader
  junk : ℕ → ℚ
  listdir : Option Str → Option (List Str)
  parse : Str → Except PyErr Xml

/-- The further entries of the configuration (/repo/jrystal/calc/opt_utils.py:117-140); a missing
`pseudopotential_type` is `none` (the defaults have no such entry). -/
structure NcConfig extends RunConfig where
  usePseudo : Bool
  ppType : Option String
  ppDir : Option String

/-- `create_pseudopotential` (/repo/jrystal/calc/opt_utils.py:117-140) for the symbols of the crystal; of an
ultrasoft pseudopotential the driver uses the norm-conserving lists only. -/
def createPseudo (L : NcLib) (cfg : NcConfig) (symbols : List Str) : Except PyErr NcLists :=
  if cfg.usePseudo = false then .error .assertionError
  else
    match cfg.ppType with
    | none => .error .attributeError
    | some t =>
      if t ∈ ["normcons", "normconserving", "nc"] then
        ncCreate L.rd L.junk L.listdir L.parse
          (some (cfg.ppDir.getD (L.pkgPath ++ "/pseudopotential/normconserving/")).toList) symbols
      else if t ∈ ["ultrasoft", "us"] then
        (usCreate L.rd L.junk L.eigTop L.listdir L.parse
          (some (cfg.ppDir.getD (L.pkgPath ++ "/pseudopotential/ultrasoft/")).toList) symbols).map (·.1)
      else .error .valueError

/-- A list of numbers of a file as an array (/repo/jrystal/pseudopotential/dataclass.py:121-171). -/
def samplesOf (xs : List ℚ) : Samples := fun i => ((xs.getD i 0 : ℚ) : ℝ)

/-- Arguments of `potential_local_reciprocal` for one atom
(/repo/jrystal/calc/calc_ground_state_energy_normcons.py:115-122). -/
def ncLocalAtom (P : NcLists) {m : ℕ} (pos : Fin m → Fin 3 → ℝ) (a : Fin m) : LocalAtom :=
  { pos := pos a
    nr := (P.rGrid.getD a []).length
    r := samplesOf (P.rGrid.getD a [])
    v := samplesOf (P.localGrid.getD a [])
    z := ((P.localCharge.getD a 0 : ℤ) : ℝ) }

/-- The transformed projectors of one atom: their number and the array of shape `kpt beta x y z`
(/repo/jrystal/pseudopotential/beta.py:26-80). -/
abbrev BetaArr (nk : ℕ) (n : Fin 3 → ℕ) := Σ m : ℕ, Fin nk → Fin m → Idx n → ℝ

/-- `_beta_sbt_single_atom` on the lists of the pseudopotential
(/repo/jrystal/pseudopotential/beta.py:26-80); all rows of the projector array have one length. -/
noncomputable def betaOfLists (L : NcLib) {nk : ℕ} {n : Fin 3 → ℕ} (r : List ℚ) (b : List (List ℚ))
    (l : List ℤ) (gk : (Idx n → Fin 3 → ℝ) × (Fin nk → Fin 3 → ℝ)) : Except PyErr (BetaArr nk n) :=
  (betaSbtSingle L.jn L.csBeta r.length b.length (b.getD 0 []).length (samplesOf r)
    (fun i => samplesOf (b.getD i [])) l gk.1 gk.2).map fun f => ⟨b.length, f⟩

/-- `pre_calc_beta_sbt` in the driver (/repo/jrystal/calc/calc_ground_state_energy_normcons.py:130-134,
/repo/jrystal/calc/pre_calc.py:12-40).  The order in which the processes finish does not matter
(`preCalcBeta` and its theorems), so this is the loop over the atoms after the check of the number of
processes. -/
noncomputable def ncBetas (L : NcLib) (P : NcLists) {nk : ℕ} {n : Fin 3 → ℕ} (g : Idx n → Fin 3 → ℝ)
    (kpts : Fin nk → Fin 3 → ℝ) : Except PyErr (List (BetaArr nk n)) :=
  if L.cpus / 2 = 0 then .error .valueError
  else betaSbtGrid (betaOfLists L) P.rGrid P.betaGrid P.angular (g, kpts)

/-- Arguments of `potential_nonlocal_psi_reciprocal` for one atom
(/repo/jrystal/calc/calc_ground_state_energy_normcons.py:142-151); all lists have one entry per atom. -/
noncomputable def ncSpecies (P : NcLists) {nk : ℕ} {n : Fin 3 → ℕ} (bs : List (BetaArr nk n)) (a : ℕ) :
    NlSpecies nk n :=
  let b := bs.getD a ⟨0, fun _ i => i.elim0⟩
  { nbeta := b.1
    ang := fun i => ((P.angular.getD a []).getD i 0).toNat
    dmat := Matrix.of fun i j => ((((P.dMatrix.getD a []).getD i []).getD j 0 : ℚ) : ℝ)
    beta := b.2 }

/-- `free_energy` of the norm-conserving driver
(/repo/jrystal/calc/calc_ground_state_energy_normcons.py:198-206). -/
noncomputable def gsFreeNC {na nk ns nb M : ℕ} {ι : Type} [Fintype ι] {n : Fin 3 → ℕ} (E : GsEnv na nk n)
    (vloc : Idx n → ℂ) (psi : Fin nk → ι → Fin M → Idx n → ℂ) (temp : ℝ)
    (p : GsParams ns nk (maskCount E.mask) nb) : Except PyErr (ℝ × ℝ × ℝ) :=
  match gsTotalNC E vloc psi p with
  | .error e => .error e
  | .ok total =>
    match gsEntropy E p with
    | .error e => .error e
    | .ok etro => .ok (total - temp * etro, total, etro)

/-- One call of `update` at temperature `t` (/repo/jrystal/calc/calc_ground_state_energy_normcons.py:229-237). -/
noncomputable def runUpdateNC (opt : Optimizer) {na nk ns nb M : ℕ} {ι : Type} [Fintype ι] {n : Fin 3 → ℕ}
    (E : GsEnv na nk n) (vloc : Idx n → ℂ) (psi : Fin nk → ι → Fin M → Idx n → ℂ)
    (p : GsParams ns nk (maskCount E.mask) nb × opt.State) (t : ℝ) :
    GsParams ns nk (maskCount E.mask) nb × opt.State :=
  opt.step (fun q => (gsFreeNC E vloc psi t q).map fun r => r.1) p

/-- Does `jax.device_put(params_occ, P('s', 'k'))` accept the parameters
(/repo/jrystal/calc/calc_ground_state_energy_normcons.py:221)?  Every array must have at least two axes and
the second axis must be a multiple of the number of devices used; the parameters of the idempotent method
contain the number `w_im = 0.` (/repo/jrystal/_src/unitary_module.py:123-126), which has no axes. -/
def occPlaceable (util : ℕ) {nk nb : ℕ} : OccParams nk nb → Bool
  | .idem _ => false
  | .arr _ => decide (nk % util = 0)
  | .simplex _ _ => decide (nb % util = 0)

/-- The driver from the end of its set-up to its return
(/repo/jrystal/calc/calc_ground_state_energy_normcons.py:208-308). -/
noncomputable def runLoopNC (L : RunLib) (cfg : RunConfig) (util : ℕ) {na nk M : ℕ} {ι : Type} [Fintype ι]
    {n : Fin 3 → ℕ} (E : GsEnv na nk n) (vloc : Idx n → ℂ) (psi : Fin nk → ι → Fin M → Idx n → ℂ) (ew : ℝ) :
    Except PyErr (GsReport (EnergyParts × ℝ) n) :=
  match L.optimizer with
  | .error e => .error e
  | .ok opt =>
    match gsInitNC (empty := cfg.emptyBands) E L.occDraw
        (L.pwDraw (if cfg.restricted then 1 else 2) nk (maskCount E.mask)
          (driverBands E.ne.toNat cfg.emptyBands)) with
    | .error e => .error e
    | .ok p =>
      if occPlaceable util p.occ = false then .error .valueError
      else
        firstUpdate L.updateFault cfg.epoch (gsFreeNC E vloc psi (temperature cfg.smearing cfg.epoch 0) p)
          (gsCalcNC E vloc psi ew (runUpdateNC opt E vloc psi) cfg.epoch cfg.smearing cfg.window cfg.threshold
            (p, opt.init p))

/-- What the driver has built before its loop: as in the all-electron driver, with the valence electrons
only (/repo/jrystal/calc/calc_ground_state_energy_normcons.py:82, 103, 165-172). -/
noncomputable def runEnvNC (L : NcLib) (cfg : NcConfig) {m : ℕ} (c : Crystal m) (P : NcLists)
    (n kn : Fin 3 → ℕ) (mask : Idx n → Bool) : GsEnv m (idxList kn).length n :=
  { runEnv L.toRunLib cfg.toRunConfig c n kn mask with ne := P.valence.sum }

/-- The driver on a crystal, a pseudopotential and an FFT grid and k mesh of sizes `n` and `kn`
(/repo/jrystal/calc/calc_ground_state_energy_normcons.py:87-308): mask, Ewald energy of the full nuclear
charges, local potential, placement of the k points, transform of the projectors, then the rest. -/
noncomputable def runGridNC (L : NcLib) (cfg : NcConfig) {m : ℕ} (c : Crystal m) (P : NcLists)
    (n kn : Fin 3 → ℕ) : Except PyErr (GsReport (EnergyParts × ℝ) n) :=
  match createFreqMask cfg.toRunConfig c.cell n with
  | .error e => .error e
  | .ok mask =>
    match runRepulsion L.erfc cfg.toRunConfig c n with
    | .error e => .error e
    | .ok ew =>
      match localReciprocal L.jn L.csLoc (ncLocalAtom P c.positions) (gVectors c.cell n) c.vol "sbt" with
      | .error e => .error e
      | .ok vloc =>
        if (idxList kn).length % (if cfg.parallelK then L.devices else 1) ≠ 0 then .error .valueError
        else
          match ncBetas L P (gVectors c.cell n) (flatRows (kVectors c.cell kn)) with
          | .error e => .error e
          | .ok bs =>
            runLoopNC L.toRunLib cfg.toRunConfig (if cfg.parallelK then L.devices else 1)
              (runEnvNC L cfg c P n kn mask) vloc
              (nlPsiAll L.eigh L.sph (fun a : Fin m => ncSpecies P bs a) c.positions
                (gVectors c.cell n) (flatRows (kVectors c.cell kn))) ew

/-- The driver on a crystal and a pseudopotential
(/repo/jrystal/calc/calc_ground_state_energy_normcons.py:87-308): sizes, then the rest. -/
noncomputable def runCrystalNC (L : NcLib) (cfg : NcConfig) {m : ℕ} (c : Crystal m) (P : NcLists) :
    Except PyErr (Σ n : Fin 3 → ℕ, GsReport (EnergyParts × ℝ) n) :=
  match runSizes cfg.toRunConfig with
  | .error e => .error e
  | .ok (n, kn) =>
    match runGridNC L cfg c P n kn with
    | .error e => .error e
    | .ok r => .ok ⟨n, r⟩

/-- The driver on atoms as `ase` holds them
(/repo/jrystal/calc/calc_ground_state_energy_normcons.py:80-308). -/
noncomputable def runAtomsNC (L : NcLib) (cfg : NcConfig) {m : ℕ} (a : AseAtoms m) :
    Except PyErr (Σ n : Fin 3 → ℕ, GsReport (EnergyParts × ℝ) n) :=
  match createCrystal a cfg.spin with
  | .error e => .error e
  | .ok c =>
    match createPseudo L cfg (List.ofFn fun i => L.symbol (a.numbers i)) with
    | .error e => .error e
    | .ok P => runCrystalNC L cfg c P

/-- `calc` of the norm-conserving ground-state driver
(/repo/jrystal/calc/calc_ground_state_energy_normcons.py:64-308). -/
noncomputable def runCalcNC (L : NcLib) (cfg : NcConfig) :
    Except PyErr (Σ n : Fin 3 → ℕ, GsReport (EnergyParts × ℝ) n) :=
  match L.read (crystalPath L.pkgPath cfg.toRunConfig) with
  | .error e => .error e
  | .ok ⟨_, a⟩ => runAtomsNC L cfg a

end Jrystal
