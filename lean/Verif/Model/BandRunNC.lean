import Verif.Model.BandRun
import Verif.Model.RunNC

/-
Model of a whole norm-conserving band-structure calculation, from the configuration, the geometry and the
pseudopotential files to the saved file: /repo/jrystal/calc/calc_band_structure_normcons.py.

External parts are parameters, as in Model/RunNC.lean and Model/BandRun.lean.  `energy_calc` reads the geometry
and the pseudopotential files and makes the grids once more from the same configuration; the model hands them on.
A path without points and negative numbers of steps are not modelled.
-/
namespace Jrystal
open scoped BigOperators

/-- One row of `beta_gk` for every atom (/repo/jrystal/calc/calc_band_structure_normcons.py:134-135, 213, 259). -/
abbrev BetaRow {m q : ℕ} {n : Fin 3 → ℕ} (S : Fin m → NlSpecies q n) : Type :=
  ∀ a, Fin (S a).nbeta → Idx n → ℝ

/-- The arguments of `potential_nonlocal_psi_reciprocal` for one k point and its row of `beta_gk`
(/repo/jrystal/calc/calc_band_structure_normcons.py:137-147). -/
def rowSpecies {m q : ℕ} {n : Fin 3 → ℕ} (S : Fin m → NlSpecies q n) (row : BetaRow S) (a : Fin m) :
    NlSpecies 1 n where
  nbeta := (S a).nbeta
  ang := (S a).ang
  dmat := (S a).dmat
  beta := fun _ => row a

/-- What the closures of the driver read (/repo/jrystal/calc/calc_band_structure_normcons.py:81-161). -/
noncomputable def bandRunEnvNC (L : NcLib) (T : BandTools) (cfg : NcConfig) {m d q : ℕ} (c : Crystal m)
    (n : Fin 3 → ℕ) (mask : Idx n → Bool) (dens : Fin d → Idx n → ℝ) (vloc : Idx n → ℂ)
    (S : Fin m → NlSpecies q n) :
    BandEnvNC d (2 * nlLMax S + 1) (Σ a, Fin (S a).nbeta) (BetaRow S) n where
  lib := L.xc
  qr := L.qrC
  eigh := T.eigh
  mask := mask
  dens := dens
  vloc := vloc
  psi := fun k => nlPsiAll L.eigh L.sph (rowSpecies S k.2) c.positions (gVectors c.cell n) (fun _ => k.1) 0
  g := gVectors c.cell n
  vol := c.vol
  xc := cfg.xc

/-- `update` of the driver at one k point (/repo/jrystal/calc/calc_band_structure_normcons.py:169-179). -/
noncomputable def bandUpdateNC (opt : BandOptimizer) {d M nb : ℕ} {ι β : Type} [Fintype ι] {n : Fin 3 → ℕ}
    (E : BandEnvNC d M ι β n) (k : (Fin 3 → ℝ) × β) (p : PwParams 1 1 (maskCount E.mask) nb × opt.State) :
    PwParams 1 1 (maskCount E.mask) nb × opt.State :=
  opt.step (fun q => bandTraceNC E q k) p

/-- The saved file: its name and an array with one row of energies after another
(/repo/jrystal/calc/calc_band_structure_normcons.py:291-299). -/
structure BandFileNC where
  name : String
  rows : ℕ
  bands : ℕ
  values : Fin rows → Fin bands → ℝ

/-- The driver after the ground-state calculation
(/repo/jrystal/calc/calc_band_structure_normcons.py:164-299).  The orbitals have one spin (line 166).  The arrays
of k points and projectors are split over the devices in use (lines 273-274) before the closures are traced;
the number of rows of an eigenvalue array depends on shapes only, so the first parameters give it. -/
noncomputable def bandLoopNC (L : NcLib) (T : BandTools) (cfg : NcConfig) (b : BandConfig) {m d q : ℕ}
    (c : Crystal m) (P : NcLists) (n : Fin 3 → ℕ) (mask : Idx n → Bool) (dens : Fin d → Idx n → ℝ)
    (vloc : Idx n → ℂ) (S : Fin m → NlSpecies q n) (path : Fin q → Fin 3 → ℝ) : Except PyErr BandFileNC :=
  match T.optimizer with
  | .error e => .error e
  | .ok opt =>
    let E := bandRunEnvNC L T cfg c n mask dens vloc S
    let p0 := L.pwDraw 1 1 (maskCount E.mask) (driverBands P.valence.sum.toNat b.emptyBands)
    let pts : ℕ → (Fin 3 → ℝ) × BetaRow S := fun i => (pathAt path i, pathAt (fun j a => (S a).beta j) i)
    if q % (if b.parallelPath then L.devices else 1) ≠ 0 then .error .typeError
    else
      match bandEigNC E p0 (pts 0) with
      | .error e => .error e
      | .ok ⟨K, _⟩ =>
        match bandCalcNC E K q L.devices b.parallelPath (bandUpdateNC opt E) b.epoch b.fineEpoch
            (p0, opt.init p0) pts with
        | .error e => .error e
        | .ok r => .ok
            { name := String.ofList (List.ofFn fun i => L.symbol (c.charges i)).flatten ++ "_band_structure.npy"
              rows := q * K
              bands := min (maskCount E.mask) (driverBands P.valence.sum.toNat b.emptyBands)
              values := fun i j => r i j }

/-- The driver from the end of its set-up (/repo/jrystal/calc/calc_band_structure_normcons.py:106-299) on grids of
sizes `n` and `kn`, a mask and a path: local potential, projectors, ground state, then the rest.  With a supplied
ground state (`supplied`) the density has no value (lines 128-131), which the closures find out when they are traced,
after the split over the devices. -/
noncomputable def bandGridNC (L : NcLib) (T : BandTools) (cfg : NcConfig) (b : BandConfig) (supplied : Bool)
    {m : ℕ} (c : Crystal m) (P : NcLists) (n kn : Fin 3 → ℕ) (mask : Idx n → Bool) {q : ℕ}
    (path : Fin q → Fin 3 → ℝ) : Except PyErr BandFileNC :=
  match localReciprocal L.jn L.csLoc (ncLocalAtom P c.positions) (gVectors c.cell n) c.vol "sbt" with
  | .error e => .error e
  | .ok vloc =>
    match ncBetas L P (gVectors c.cell n) path with
    | .error e => .error e
    | .ok bs =>
      if supplied then
        match T.optimizer with
        | .error e => .error e
        | .ok _ =>
          if q % (if b.parallelPath then L.devices else 1) ≠ 0 then .error .typeError else .error .nameError
      else
        match runGridNC L cfg c P n kn with
        | .error e => .error e
        | .ok rep =>
          bandLoopNC L T cfg b c P n mask rep.density.2 vloc (fun a : Fin m => ncSpecies P bs a) path

/-- The driver on a crystal and a pseudopotential
(/repo/jrystal/calc/calc_band_structure_normcons.py:85-299): grids, mask, path, then the rest. -/
noncomputable def bandCrystalNC (L : NcLib) (T : BandTools) (cfg : NcConfig) (b : BandConfig) (supplied : Bool)
    {m : ℕ} (c : Crystal m) (P : NcLists) : Except PyErr BandFileNC :=
  match runSizes cfg.toRunConfig with
  | .error e => .error e
  | .ok (n, kn) =>
    match createFreqMask cfg.toRunConfig c.cell n with
    | .error e => .error e
    | .ok mask =>
      match bandPoints T b c.cell with
      | .error e => .error e
      | .ok ⟨_, path⟩ => bandGridNC L T cfg b supplied c P n kn mask path

/-- The driver on atoms as `ase` holds them (/repo/jrystal/calc/calc_band_structure_normcons.py:82-299). -/
noncomputable def bandAtomsNC (L : NcLib) (T : BandTools) (cfg : NcConfig) (b : BandConfig) (supplied : Bool)
    {m : ℕ} (a : AseAtoms m) : Except PyErr BandFileNC :=
  match createCrystal a cfg.spin with
  | .error e => .error e
  | .ok c =>
    match createPseudo L cfg (List.ofFn fun i => L.symbol (a.numbers i)) with
    | .error e => .error e
    | .ok P => bandCrystalNC L T cfg b supplied c P

/-- `calc` of the norm-conserving band driver (/repo/jrystal/calc/calc_band_structure_normcons.py:66-299). -/
noncomputable def bandRunNC (L : NcLib) (T : BandTools) (cfg : NcConfig) (b : BandConfig) (supplied : Bool) :
    Except PyErr BandFileNC :=
  match L.read (crystalPath L.pkgPath cfg.toRunConfig) with
  | .error e => .error e
  | .ok ⟨_, a⟩ => bandAtomsNC L T cfg b supplied a

end Jrystal
