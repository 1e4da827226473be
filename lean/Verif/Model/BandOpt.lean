import Verif.Model.Band
import Verif.Model.Hamiltonian
import Verif.Model.Pseudo
import Verif.Spec.Spectrum
import Mathlib.LinearAlgebra.Matrix.Hermitian

/-
Model of the optimisation and diagonalisation inside the all-electron band-structure driver
(/repo/jrystal/calc/calc_band_structure_all_electrons.py:72-209).  The k-path bookkeeping is in
Model/Band.lean.  The same for the norm-conserving driver
(/repo/jrystal/calc/calc_band_structure_normcons.py:128-294).
-/
namespace Jrystal
open scoped BigOperators

/-- `jnp.linalg.eigvalsh` (/repo/jrystal/calc/calc_band_structure_all_electrons.py:169), an external routine:
it replaces its argument by `(a + aᴴ)/2` and returns the eigenvalues of that matrix in ascending order. -/
structure Eigvalsh where
  vals : ∀ {N : ℕ}, Matrix (Fin N) (Fin N) ℂ → Fin N → ℝ
  spec : ∀ {N : ℕ} (M : Matrix (Fin N) (Fin N) ℂ),
    Spec.IsSpectrum ((1 / 2 : ℂ) • (M + M.conjTranspose)) (vals M)

/-- What the closures of the band driver read
(/repo/jrystal/calc/calc_band_structure_all_electrons.py:46-73); `dens` is the density returned by the
ground-state calculation. -/
structure BandEnv (na d : ℕ) (n : Fin 3 → ℕ) where
  lib : XcLib
  qr : QR ℂ
  eigh : Eigvalsh
  mask : Idx n → Bool
  pos : Fin na → Fin 3 → ℝ
  charge : Fin na → ℝ
  dens : Fin d → Idx n → ℝ
  g : Idx n → Fin 3 → ℝ
  vol : ℝ
  xc : String

/-- `hamiltonian_trace` (/repo/jrystal/calc/calc_band_structure_all_electrons.py:75-88), the value minimised
at one k point. -/
noncomputable def bandTrace {na d ns nb : ℕ} {n : Fin 3 → ℕ} (E : BandEnv na d n)
    (p : PwParams ns 1 (maskCount E.mask) nb) (k : Fin 3 → ℝ) : Except PyErr ℝ :=
  match hamiltonianTrace E.lib E.xc true false (pwCoeff E.qr E.mask p) E.pos E.charge E.dens E.g
      (fun _ : Fin 1 => k) E.vol with
  | .error e => .error e
  | .ok t => .ok t.total

/-- `eig_fn` (/repo/jrystal/calc/calc_band_structure_all_electrons.py:156-169) for one spin: eigenvalues of the
Hamiltonian between the optimised orbitals. -/
noncomputable def bandEig {na d ns nb : ℕ} {n : Fin 3 → ℕ} (E : BandEnv na d n)
    (p : PwParams ns 1 (maskCount E.mask) nb) (k : Fin 3 → ℝ) (s : Fin ns) :
    Except PyErr (Fin (min (maskCount E.mask) nb) → ℝ) :=
  match hamiltonianMatrix E.lib E.xc true (pwCoeff E.qr E.mask p) E.pos E.charge E.dens E.g
      (fun _ : Fin 1 => k) E.vol s 0 with
  | .error e => .error e
  | .ok H => .ok (E.eigh.vals H)

/-- The array returned by `eig_fn`, indexed by spin and band
(/repo/jrystal/calc/calc_band_structure_all_electrons.py:169).  Entries outside the array are 0; `bandEig`
never raises (`bandEig_variational`). -/
noncomputable def bandEigArray {na d ns nb : ℕ} {n : Fin 3 → ℕ} (E : BandEnv na d n)
    (p : PwParams ns 1 (maskCount E.mask) nb) (k : Fin 3 → ℝ) : ℕ → ℕ → ℝ := fun s b =>
  if h : s < ns ∧ b < min (maskCount E.mask) nb then
    match bandEig E p k ⟨s, h.1⟩ with
    | .error _ => 0
    | .ok e => e ⟨b, h.2⟩
  else 0

/-- `calc` of the all-electron band driver after the ground-state calculation
(/repo/jrystal/calc/calc_band_structure_all_electrons.py:91-209).  `upd k` is one call of `update` at the
k point `k` on parameters and optimiser state: `epoch` calls for the first k point of a device
(lines 127-131), `fineEpoch` calls for each later one (lines 141-145).  The last reshape asks for `num`
k points, the number of the configuration, and `nb` bands (lines 201-203). -/
noncomputable def bandCalc {na d ns nb : ℕ} {n : Fin 3 → ℕ} {O : Type*} (E : BandEnv na d n)
    (N num devices : ℕ) (parallel : Bool)
    (upd : (Fin 3 → ℝ) → PwParams ns 1 (maskCount E.mask) nb × O → PwParams ns 1 (maskCount E.mask) nb × O)
    (epoch fineEpoch : ℕ) (p0 : PwParams ns 1 (maskCount E.mask) nb × O) (path : ℕ → Fin 3 → ℝ) :
    Except PyErr (ℕ → ℕ → ℕ → ℝ) :=
  bandAllElectrons N devices parallel ns (min (maskCount E.mask) nb) num nb
    (fun p k => (upd k)^[epoch] p) (fun p k => (upd k)^[fineEpoch] p)
    (fun p k => bandEigArray E p.1 k) p0 path

/-- What the closures of the norm-conserving band driver read
(/repo/jrystal/calc/calc_band_structure_normcons.py:128-161).  `psi` is `get_potential_nl` (lines 139-147) for
a k point together with its row of `beta_gk`; the two are split over the devices and scanned together
(lines 225-228, 264-274). -/
structure BandEnvNC (d M : ℕ) (ι β : Type) (n : Fin 3 → ℕ) where
  lib : XcLib
  qr : QR ℂ
  eigh : Eigvalsh
  mask : Idx n → Bool
  dens : Fin d → Idx n → ℝ
  vloc : Idx n → ℂ
  psi : (Fin 3 → ℝ) × β → ι → Fin M → Idx n → ℂ
  g : Idx n → Fin 3 → ℝ
  vol : ℝ
  xc : String

/-- `hamiltonian_trace` of the norm-conserving driver
(/repo/jrystal/calc/calc_band_structure_normcons.py:149-161). -/
noncomputable def bandTraceNC {d M nb : ℕ} {ι β : Type} [Fintype ι] {n : Fin 3 → ℕ} (E : BandEnvNC d M ι β n)
    (p : PwParams 1 1 (maskCount E.mask) nb) (k : (Fin 3 → ℝ) × β) : Except PyErr ℝ :=
  ncHamiltonianTrace E.lib E.xc true (pwCoeff E.qr E.mask p) E.dens E.vloc (fun _ : Fin 1 => E.psi k) E.g
    (fun _ => k.1) E.vol

/-- `eig_fn` of the norm-conserving driver (/repo/jrystal/calc/calc_band_structure_normcons.py:232-245): the
first spin only; the leading axis of the result is the k axis of `hamiltonian_matrix`. -/
noncomputable def bandEigNC {d M nb : ℕ} {ι β : Type} [Fintype ι] {n : Fin 3 → ℕ} (E : BandEnvNC d M ι β n)
    (p : PwParams 1 1 (maskCount E.mask) nb) (k : (Fin 3 → ℝ) × β) :
    Except PyErr (Σ K : ℕ, Fin K → Fin (min (maskCount E.mask) nb) → ℝ) :=
  match ncHamiltonianMatrix E.lib E.xc true (pwCoeff E.qr E.mask p) E.dens E.vloc (fun _ : Fin 1 => E.psi k) E.g
      (fun _ => k.1) E.vol with
  | .error e => .error e
  | .ok ⟨K, H⟩ => .ok ⟨K, fun q => E.eigh.vals (Matrix.of (H 0 q))⟩

/-- The array returned by `eig_fn` of the norm-conserving driver
(/repo/jrystal/calc/calc_band_structure_normcons.py:245); entries outside it are 0. -/
noncomputable def bandEigArrayNC {d M nb : ℕ} {ι β : Type} [Fintype ι] {n : Fin 3 → ℕ}
    (E : BandEnvNC d M ι β n) (p : PwParams 1 1 (maskCount E.mask) nb) (k : (Fin 3 → ℝ) × β) : ℕ → ℕ → ℝ :=
  fun q b =>
    match bandEigNC E p k with
    | .error _ => 0
    | .ok ⟨K, e⟩ => if h : q < K ∧ b < min (maskCount E.mask) nb then e ⟨q, h.1⟩ ⟨b, h.2⟩ else 0

/-- `calc` of the norm-conserving band driver after the ground-state calculation
(/repo/jrystal/calc/calc_band_structure_normcons.py:164-294), for an eigenvalue array with `K` rows. -/
noncomputable def bandCalcNC {d M nb : ℕ} {ι β : Type} [Fintype ι] {n : Fin 3 → ℕ} {O : Type*}
    (E : BandEnvNC d M ι β n) (K N devices : ℕ) (parallel : Bool)
    (upd : (Fin 3 → ℝ) × β → PwParams 1 1 (maskCount E.mask) nb × O → PwParams 1 1 (maskCount E.mask) nb × O)
    (epoch fineEpoch : ℕ) (p0 : PwParams 1 1 (maskCount E.mask) nb × O) (path : ℕ → (Fin 3 → ℝ) × β) :
    Except PyErr (ℕ → ℕ → ℝ) :=
  bandNormcons N devices parallel K (min (maskCount E.mask) nb)
    (fun p k => (upd k)^[epoch] p) (fun p k => (upd k)^[fineEpoch] p)
    (fun p k => bandEigArrayNC E p.1 k) p0 path

end Jrystal
