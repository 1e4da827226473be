import Verif.Model.Crystal
import Verif.Model.Convergence
import Verif.Model.Entropy
import Verif.Model.Ewald
import Verif.Model.Pseudo

/-
Model of the two ground-state drivers
/repo/jrystal/calc/calc_ground_state_energy_all_electrons.py and
/repo/jrystal/calc/calc_ground_state_energy_normcons.py from the crystal to the returned density.

The random draws of the initial parameters and the optimiser are parameters; logging, timing, device
placement and `jit` have no effect on values.  `jnp.linalg.qr` and the exchange-correlation library
are parameters as elsewhere.
-/
namespace Jrystal
open scoped BigOperators ComplexConjugate

/-- Coefficients broadcast to `S` spins and `B` bands: axes of length one are repeated, as
`jnp.einsum('skb...,skb->s...')` (/repo/jrystal/_src/pw.py:278) and `e_kin * occupation`
(/repo/jrystal/_src/energy.py:178) do. -/
def bcCoef {ns nk nb : ℕ} {n : Fin 3 → ℕ} (S B : ℕ) (c : Coef ns nk nb n) : Coef S nk B n :=
  fun s k b =>
    match bcIdx ns s, bcIdx nb b with
    | some s', some b' => c s' k b'
    | _, _ => fun _ => 0

/-- Occupations broadcast to `S` spins and `B` bands (/repo/jrystal/_src/pw.py:278,
/repo/jrystal/_src/energy.py:178). -/
def bcOcc {nk nb : ℕ} (S B : ℕ) (o : OccArr nk nb ℝ) : Occ S nk B :=
  fun s k b =>
    match bcIdx o.length s, bcIdx nb b with
    | some s', some b' => o.get s' k b'
    | _, _ => 0

/-- Everything `calc` of the ground-state drivers has built before its loop
(/repo/jrystal/calc/calc_ground_state_energy_all_electrons.py:73-106,
/repo/jrystal/calc/calc_ground_state_energy_normcons.py:78-162). -/
structure GsEnv (na nk : ℕ) (n : Fin 3 → ℕ) where
  lib : XcLib
  qrC : QR ℂ
  qrR : QR ℝ
  mask : Idx n → Bool
  g : Idx n → Fin 3 → ℝ
  kpts : Fin nk → Fin 3 → ℝ
  vol : ℝ
  pos : Fin na → Fin 3 → ℝ
  charge : Fin na → ℝ
  /-- number of electrons handed to the occupation functions -/
  ne : ℤ
  spin : ℤ
  method : String
  restricted : Bool
  xc : String
  eps : ℝ

/-- `params`: plane-wave parameters and occupation parameters
(/repo/jrystal/calc/calc_ground_state_energy_all_electrons.py:169). -/
structure GsParams (ns nk g nb : ℕ) where
  pw : PwParams ns nk g nb
  occ : OccParams nk nb

/-- Coefficients and occupations that belong to a set of parameters, aligned as the einsum of
`density_grid` aligns them; `ValueError` when the axes do not fit
(/repo/jrystal/calc/calc_ground_state_energy_all_electrons.py:120-122). -/
noncomputable def gsState {na nk ns nb : ℕ} {n : Fin 3 → ℕ} (E : GsEnv na nk n)
    (p : GsParams ns nk (maskCount E.mask) nb) :
    Except PyErr (Σ S B : ℕ, Coef S nk B n × Occ S nk B) :=
  match occupation E.qrR p.occ E.ne E.spin E.method E.restricted with
  | .error e => .error e
  | .ok o =>
    match bcLen ns o.length with
    | .error e => .error e
    | .ok S =>
      match bcLen (min (maskCount E.mask) nb) nb with
      | .error e => .error e
      | .ok B => .ok ⟨S, B, bcCoef S B (pwCoeff E.qrC E.mask p.pw), bcOcc S B o⟩

/-- `density` of the drivers (/repo/jrystal/calc/calc_ground_state_energy_all_electrons.py:122, 230). -/
noncomputable def gsDensity {na nk ns nb : ℕ} {n : Fin 3 → ℕ} (E : GsEnv na nk n)
    (p : GsParams ns nk (maskCount E.mask) nb) : Except PyErr (Σ S : ℕ, Fin S → Idx n → ℝ) :=
  match gsState E p with
  | .error e => .error e
  | .ok ⟨S, _, c, o⟩ => .ok ⟨S, densityGrid c E.vol o⟩

/-- The four energies computed by the all-electron driver
(/repo/jrystal/calc/calc_ground_state_energy_all_electrons.py:120-136, 228-238). -/
noncomputable def gsParts {na nk ns nb : ℕ} {n : Fin 3 → ℕ} (E : GsEnv na nk n)
    (p : GsParams ns nk (maskCount E.mask) nb) : Except PyErr EnergyParts :=
  match gsState E p with
  | .error e => .error e
  | .ok ⟨_, _, c, o⟩ =>
    match hartreeEnergy (densityGridReciprocal c E.vol o) E.g E.vol false with
    | .error e => .error e
    | .ok har =>
      match externalEnergy (densityGridReciprocal c E.vol o) E.pos E.charge E.g E.vol with
      | .error e => .error e
      | .ok ext =>
        match xcEnergy E.lib E.xc false (densityGrid c E.vol o) E.g E.vol with
        | .error e => .error e
        | .ok exc => .ok ⟨kineticEnergyOcc E.g E.kpts c o, ext, har, exc⟩

/-- `total_energy` of the all-electron driver
(/repo/jrystal/calc/calc_ground_state_energy_all_electrons.py:119-137). -/
noncomputable def gsTotal {na nk ns nb : ℕ} {n : Fin 3 → ℕ} (E : GsEnv na nk n)
    (p : GsParams ns nk (maskCount E.mask) nb) : Except PyErr ℝ :=
  match gsParts E p with
  | .error e => .error e
  | .ok q => .ok (q.kin + q.har + q.ext + q.xc)

/-- `get_entropy` (/repo/jrystal/calc/calc_ground_state_energy_all_electrons.py:139-141,
/repo/jrystal/calc/calc_ground_state_energy_normcons.py:194-196). -/
noncomputable def gsEntropy {na nk ns nb : ℕ} {n : Fin 3 → ℕ} (E : GsEnv na nk n)
    (p : GsParams ns nk (maskCount E.mask) nb) : Except PyErr ℝ :=
  match occupation E.qrR p.occ E.ne E.spin E.method E.restricted with
  | .error e => .error e
  | .ok o => .ok (fermiDirac (fun s : Fin o.length => o.get s) E.eps)

/-- `free_energy`: the minimised value, with the total energy and the entropy as auxiliary output
(/repo/jrystal/calc/calc_ground_state_energy_all_electrons.py:143-147). -/
noncomputable def gsFree {na nk ns nb : ℕ} {n : Fin 3 → ℕ} (E : GsEnv na nk n) (temp : ℝ)
    (p : GsParams ns nk (maskCount E.mask) nb) : Except PyErr (ℝ × ℝ × ℝ) :=
  match gsTotal E p with
  | .error e => .error e
  | .ok total =>
    match gsEntropy E p with
    | .error e => .error e
    | .ok etro => .ok (total - temp * etro, total, etro)

/-- The five energies of the norm-conserving driver
(/repo/jrystal/calc/calc_ground_state_energy_normcons.py:175-192, 285-298): local and nonlocal parts of
the pseudopotential replace the external energy. -/
noncomputable def gsPartsNC {na nk ns nb M : ℕ} {ι : Type} [Fintype ι] {n : Fin 3 → ℕ}
    (E : GsEnv na nk n) (vloc : Idx n → ℂ) (psi : Fin nk → ι → Fin M → Idx n → ℂ)
    (p : GsParams ns nk (maskCount E.mask) nb) : Except PyErr (EnergyParts × ℝ) :=
  match gsState E p with
  | .error e => .error e
  | .ok ⟨_, _, c, o⟩ =>
    match hartreeEnergy (densityGridReciprocal c E.vol o) E.g E.vol false with
    | .error e => .error e
    | .ok har =>
      match energyLocal (densityGridReciprocal c E.vol o) vloc E.vol with
      | .error e => .error e
      | .ok loc =>
        match energyNonlocal c psi E.vol (some o) with
        | .error e => .error e
        | .ok nloc =>
          match xcEnergy E.lib E.xc false (densityGrid c E.vol o) E.g E.vol with
          | .error e => .error e
          | .ok exc => .ok (⟨kineticEnergyOcc E.g E.kpts c o, loc, har, exc⟩, nloc)

/-- `total_energy` of the norm-conserving driver
(/repo/jrystal/calc/calc_ground_state_energy_normcons.py:175-192). -/
noncomputable def gsTotalNC {na nk ns nb M : ℕ} {ι : Type} [Fintype ι] {n : Fin 3 → ℕ}
    (E : GsEnv na nk n) (vloc : Idx n → ℂ) (psi : Fin nk → ι → Fin M → Idx n → ℂ)
    (p : GsParams ns nk (maskCount E.mask) nb) : Except PyErr ℝ :=
  match gsPartsNC E vloc psi p with
  | .error e => .error e
  | .ok (q, nloc) => .ok (q.kin + q.har + q.ext + nloc + q.xc)

/-- The optimisation loop with an energy that may raise
(/repo/jrystal/calc/calc_ground_state_energy_all_electrons.py:205-215): `upd p t` are the parameters
and the optimiser state after one update at temperature `t`; the energy is the one of the parameters
before the update. -/
noncomputable def gsLoop {P : Type*} (upd : P → ℝ → P) (energy : P → Except PyErr ℝ) (temp : ℕ → ℝ) :
    ℕ → ℕ → P → Checker → Option ℝ → Except PyErr (P × Option ℝ)
  | 0, _, p, _, e => .ok (p, e)
  | k + 1, i, p, chk, _ =>
    match energy p with
    | .error e => .error e
    | .ok e =>
      let r := chk.check (some e)
      if r.2 then .ok (upd p (temp i), some e)
      else gsLoop upd energy temp k (i + 1) (upd p (temp i)) r.1 (some e)

/-- What a ground-state driver makes known: the energies it writes to the log and the density it
returns (/repo/jrystal/calc/calc_ground_state_energy_all_electrons.py:240-247,
/repo/jrystal/calc/calc_ground_state_energy_normcons.py:300-308). -/
structure GsReport (X : Type) (n : Fin 3 → ℕ) where
  parts : X
  repulsion : ℝ
  total : ℝ
  density : Σ S : ℕ, Fin S → Idx n → ℝ

/-- A ground-state driver from its loop to its return
(/repo/jrystal/calc/calc_ground_state_energy_all_electrons.py:175-247,
/repo/jrystal/calc/calc_ground_state_energy_normcons.py:226-308): loop, density and energies of the last
parameters, log and return.  The name `etot` is unbound when the loop body never ran. -/
noncomputable def gsRun {P X : Type*} {n : Fin 3 → ℕ} {Y : Type} (dens : P → Except PyErr (Σ S : ℕ, Fin S → Idx n → ℝ))
    (total : P → Except PyErr ℝ) (parts : P → Except PyErr Y) (ew : ℝ) (upd : P × X → ℝ → P × X)
    (epoch : ℤ) (smearing : ℝ) (window : ℤ) (th : ℝ) (p0 : P × X) : Except PyErr (GsReport Y n) :=
  match gsLoop upd (fun p => total p.1) (temperature smearing epoch) epoch.toNat 0 p0
      (Checker.new window th) none with
  | .error e => .error e
  | .ok (p, etot) =>
    match dens p.1 with
    | .error e => .error e
    | .ok dens =>
      match parts p.1 with
      | .error e => .error e
      | .ok parts =>
        match etot with
        | none => .error .unboundLocal
        | some e => .ok ⟨parts, ew, e + ew, dens⟩

/-- The all-electron driver after the initialisation of the parameters
(/repo/jrystal/calc/calc_ground_state_energy_all_electrons.py:175-247).  `O` is the optimiser state;
`upd` one call of `update`. -/
noncomputable def gsCalc {na nk ns nb : ℕ} {n : Fin 3 → ℕ} {O : Type*} (E : GsEnv na nk n) (ew : ℝ)
    (upd : GsParams ns nk (maskCount E.mask) nb × O → ℝ → GsParams ns nk (maskCount E.mask) nb × O)
    (epoch : ℤ) (smearing : ℝ) (window : ℤ) (th : ℝ)
    (p0 : GsParams ns nk (maskCount E.mask) nb × O) : Except PyErr (GsReport EnergyParts n) :=
  gsRun (gsDensity E) (gsTotal E) (gsParts E) ew upd epoch smearing window th p0

/-- The norm-conserving driver after the initialisation of the parameters
(/repo/jrystal/calc/calc_ground_state_energy_normcons.py:226-308). -/
noncomputable def gsCalcNC {na nk ns nb M : ℕ} {ι : Type} [Fintype ι] {n : Fin 3 → ℕ} {O : Type*}
    (E : GsEnv na nk n) (vloc : Idx n → ℂ) (psi : Fin nk → ι → Fin M → Idx n → ℂ) (ew : ℝ)
    (upd : GsParams ns nk (maskCount E.mask) nb × O → ℝ → GsParams ns nk (maskCount E.mask) nb × O)
    (epoch : ℤ) (smearing : ℝ) (window : ℤ) (th : ℝ)
    (p0 : GsParams ns nk (maskCount E.mask) nb × O) : Except PyErr (GsReport (EnergyParts × ℝ) n) :=
  gsRun (gsDensity E) (gsTotalNC E vloc psi) (gsPartsNC E vloc psi) ew upd epoch smearing window th p0

/-- Initial parameters of the all-electron driver
(/repo/jrystal/calc/calc_ground_state_energy_all_electrons.py:97, 151-169): the plane-wave parameters
are drawn at random (`pw0`), the occupation parameters come from `param_init`. -/
noncomputable def gsInit {na nk ns empty : ℕ} {n : Fin 3 → ℕ} (E : GsEnv na nk n)
    (draw : ∀ n m : ℕ, Matrix (Fin n) (Fin m) ℝ)
    (pw0 : PwParams ns nk (maskCount E.mask) (driverBands E.ne.toNat empty)) :
    Except PyErr (GsParams ns nk (maskCount E.mask) (driverBands E.ne.toNat empty)) :=
  (occParamInit draw _ E.ne nk E.spin E.method E.restricted).map fun o => ⟨pw0, o⟩

/-- Initial parameters of the norm-conserving driver
(/repo/jrystal/calc/calc_ground_state_energy_normcons.py:103, 210-222): `param_init` of the occupation
is called without `spin_restricted`. -/
noncomputable def gsInitNC {na nk ns empty : ℕ} {n : Fin 3 → ℕ} (E : GsEnv na nk n)
    (draw : ∀ n m : ℕ, Matrix (Fin n) (Fin m) ℝ)
    (pw0 : PwParams ns nk (maskCount E.mask) (driverBands E.ne.toNat empty)) :
    Except PyErr (GsParams ns nk (maskCount E.mask) (driverBands E.ne.toNat empty)) :=
  (occParamInit draw _ E.ne nk E.spin E.method true).map fun o => ⟨pw0, o⟩

/-- `get_ewald_coulomb_repulsion` (/repo/jrystal/calc/opt_utils.py:187-201): Ewald sum of the crystal's
charges with the FFT grid and the lattice translations of the configuration.  Both drivers call it
(/repo/jrystal/calc/calc_ground_state_energy_normcons.py:107). -/
noncomputable def driverRepulsion (erfc : ℝ → ℝ) {m nt : ℕ} {n : Fin 3 → ℕ} (c : Crystal m)
    (g : Idx n → Fin 3 → ℝ) (eta : ℝ) (T : Fin nt → Fin 3 → ℝ) : ℝ :=
  ewald erfc c.positions (fun a => (c.charges a : ℝ)) g c.vol eta T

end Jrystal
