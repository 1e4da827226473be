import Verif.Model.BandOpt
import Verif.Model.Run

/-
Model of a whole all-electron band-structure calculation, from the configuration and the geometry to the
saved file: /repo/jrystal/calc/calc_band_structure_all_electrons.py.

External parts are parameters, as in Model/Run.lean: in addition ase's `bandpath`, `eigvalsh` and the
optimiser of the orbitals.  `energy_calc` reads the geometry and makes the grids once more from the same
configuration; the model hands them on.  A path without points and negative numbers of steps are not
modelled.
-/
namespace Jrystal
open scoped BigOperators

/-- The entries of the configuration that only the band drivers read
(/repo/jrystal/calc/calc_band_structure_all_electrons.py:56-66, 92, 129, 143, 202).  `get_config` replaces a
missing `band_structure_empty_bands` (/repo/jrystal/config.py:117-118). -/
structure BandConfig where
  kPath : Option String
  numKpoints : Option ℕ
  parallelPath : Bool
  emptyBands : ℕ
  epoch : ℕ
  fineEpoch : ℕ

/-- `optax` as the band drivers use it
(/repo/jrystal/calc/calc_band_structure_all_electrons.py:91-108): the parameters are those of the orbitals
only. -/
structure BandOptimizer where
  State : Type
  init : ∀ {ns nk g nb : ℕ}, PwParams ns nk g nb → State
  step : ∀ {ns nk g nb : ℕ}, (PwParams ns nk g nb → Except PyErr ℝ) → PwParams ns nk g nb × State →
    PwParams ns nk g nb × State

/-- External routines of the band drivers (/repo/jrystal/calc/calc_band_structure_all_electrons.py:56-61, 91,
169, 207, /repo/jrystal/_src/band/k_path.py:49-50).  `bandpath` is given the cell in Angstrom, the special
points and the number of points, and returns fractional coordinates; ase may return another number of
points. -/
structure BandTools where
  /-- chemical symbol of an atomic number -/
  symbol : ℤ → String
  bandpath : Matrix (Fin 3) (Fin 3) ℝ → Option String → Option ℕ →
    Except PyErr (Σ q : ℕ, Matrix (Fin q) (Fin 3) ℝ)
  eigh : Eigvalsh
  optimizer : Except PyErr BandOptimizer

/-- `get_k_path` as the band drivers call it
(/repo/jrystal/calc/calc_band_structure_all_electrons.py:56-61). -/
noncomputable def bandPoints (T : BandTools) (b : BandConfig) (cell : Matrix (Fin 3) (Fin 3) ℝ) :
    Except PyErr (Σ q : ℕ, Fin q → Fin 3 → ℝ) :=
  match T.bandpath (((bohr2angstrom : ℚ) : ℝ) • cell) b.kPath b.numKpoints with
  | .error e => .error e
  | .ok ⟨q, frac⟩ => .ok ⟨q, fun i => getKPath (fun _ => frac) cell false i⟩

/-- A k point of the path by its number (/repo/jrystal/calc/calc_band_structure_all_electrons.py:185). -/
def pathAt {X : Type*} [Inhabited X] {q : ℕ} (path : Fin q → X) (i : ℕ) : X :=
  if h : i < q then path ⟨i, h⟩ else default

/-- What the closures of the driver read (/repo/jrystal/calc/calc_band_structure_all_electrons.py:46-88). -/
noncomputable def bandRunEnv (L : RunLib) (T : BandTools) (cfg : RunConfig) {m S : ℕ} (c : Crystal m)
    (n : Fin 3 → ℕ) (mask : Idx n → Bool) (dens : Fin S → Idx n → ℝ) : BandEnv m S n where
  lib := L.xc
  qr := L.qrC
  eigh := T.eigh
  mask := mask
  pos := c.positions
  charge := fun a => (c.charges a : ℝ)
  dens := dens
  g := gVectors c.cell n
  vol := c.vol
  xc := cfg.xc

/-- `update` of the band driver at one k point
(/repo/jrystal/calc/calc_band_structure_all_electrons.py:99-108): the optimiser differentiates
`hamiltonian_trace`. -/
noncomputable def bandUpdate (opt : BandOptimizer) {na d ns nb : ℕ} {n : Fin 3 → ℕ} (E : BandEnv na d n)
    (k : Fin 3 → ℝ) (p : PwParams ns 1 (maskCount E.mask) nb × opt.State) :
    PwParams ns 1 (maskCount E.mask) nb × opt.State :=
  opt.step (fun q => bandTrace E q k) p

/-- The saved file: its name and an array indexed by spin, k point and band
(/repo/jrystal/calc/calc_band_structure_all_electrons.py:201-209). -/
structure BandFile where
  name : String
  spins : ℕ
  kpts : ℕ
  bands : ℕ
  values : Fin spins → Fin kpts → Fin bands → ℝ

/-- The driver from the ground-state calculation to the saved file
(/repo/jrystal/calc/calc_band_structure_all_electrons.py:72-209) on grids of sizes `n` and `kn`, a mask and a
path.  Without a number of k points in the configuration the last reshape raises (line 202). -/
noncomputable def bandGrid (L : RunLib) (T : BandTools) (cfg : RunConfig) (b : BandConfig) {m : ℕ}
    (c : Crystal m) (n kn : Fin 3 → ℕ) (mask : Idx n → Bool) {q : ℕ} (path : Fin q → Fin 3 → ℝ) :
    Except PyErr BandFile :=
  match runGrid L cfg c n kn with
  | .error e => .error e
  | .ok rep =>
    match T.optimizer with
    | .error e => .error e
    | .ok opt =>
      let E := bandRunEnv L T cfg c n mask rep.density.2
      let p0 := L.pwDraw (if cfg.restricted then 1 else 2) 1 (maskCount E.mask)
        (driverBands c.numElectron.toNat b.emptyBands)
      match bandCalc E q (b.numKpoints.getD q) L.devices b.parallelPath (bandUpdate opt E) b.epoch b.fineEpoch
          (p0, opt.init p0) (pathAt path) with
      | .error e => .error e
      | .ok r =>
        match b.numKpoints with
        | none => .error .typeError
        | some num => .ok
            { name := String.join (List.ofFn fun i => T.symbol (c.charges i)) ++ "_band_structure.npy"
              spins := if cfg.restricted then 1 else 2
              kpts := num
              bands := driverBands c.numElectron.toNat b.emptyBands
              values := fun s k j => r s k j }

/-- The driver on a crystal (/repo/jrystal/calc/calc_band_structure_all_electrons.py:48-209): grids, mask,
path, then the rest. -/
noncomputable def bandCrystal (L : RunLib) (T : BandTools) (cfg : RunConfig) (b : BandConfig) {m : ℕ}
    (c : Crystal m) : Except PyErr BandFile :=
  match runSizes cfg with
  | .error e => .error e
  | .ok (n, kn) =>
    match createFreqMask cfg c.cell n with
    | .error e => .error e
    | .ok mask =>
      match bandPoints T b c.cell with
      | .error e => .error e
      | .ok ⟨_, path⟩ => bandGrid L T cfg b c n kn mask path

/-- The driver on atoms as `ase` holds them
(/repo/jrystal/calc/calc_band_structure_all_electrons.py:48, /repo/jrystal/calc/opt_utils.py:112-114). -/
noncomputable def bandAtoms (L : RunLib) (T : BandTools) (cfg : RunConfig) (b : BandConfig) {m : ℕ}
    (a : AseAtoms m) : Except PyErr BandFile :=
  match createCrystal a cfg.spin with
  | .error e => .error e
  | .ok c => bandCrystal L T cfg b c

/-- `calc` of the all-electron band driver (/repo/jrystal/calc/calc_band_structure_all_electrons.py:37-209). -/
noncomputable def bandRun (L : RunLib) (T : BandTools) (cfg : RunConfig) (b : BandConfig) :
    Except PyErr BandFile :=
  match L.read (crystalPath L.pkgPath cfg) with
  | .error e => .error e
  | .ok ⟨_, a⟩ => bandAtoms L T cfg b a

end Jrystal
