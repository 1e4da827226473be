import Verif.Model.Braket
import Verif.Model.Xc

/-
Model of /repo/jrystal/_src/potential.py, /repo/jrystal/_src/energy.py and
/repo/jrystal/_src/kinetic.py.  Exact real and complex arithmetic.  `safe_real` is the identity on
the real results it is applied to (Model/Utils.lean models the check itself).
-/
namespace Jrystal
open scoped BigOperators ComplexConjugate

/-- The index `(0,) * dim` of the `.at[...]` updates (/repo/jrystal/_src/potential.py:58-77). -/
def isOrigin {n : Fin 3 → ℕ} (k : Idx n) : Bool := decide (∀ i, (k i : ℕ) = 0)

/-- `hartree_reciprocal` (/repo/jrystal/_src/potential.py:24-77): sum over spins, divide by `|G|²`
(with the entry at the origin set to 1), set the origin to 0, times 4π, halved unless `kohn_sham`. -/
noncomputable def hartreeReciprocal {ns : ℕ} {n : Fin 3 → ℕ} (rho : Fin ns → Idx n → ℂ)
    (g : Idx n → Fin 3 → ℝ) (ks : Bool) : Idx n → ℂ :=
  fun k =>
    let total := ∑ s, rho s k
    let gSq : ℝ := if isOrigin k then 1 else ∑ d, g k d ^ 2
    let out := if isOrigin k then 0 else total / (gSq : ℂ)
    let out := out * 4 * (Real.pi : ℂ)
    if ks then out else out / 2

/-- `external_reciprocal` (/repo/jrystal/_src/potential.py:121-166): `vi = charge/(|G|²+1e-10)`, zero
at the origin, times 4π; `-Σ_atoms vi exp(-i G·R) * num_grids / vol`. -/
noncomputable def externalReciprocal {na : ℕ} {n : Fin 3 → ℕ} (pos : Fin na → Fin 3 → ℝ)
    (charge : Fin na → ℝ) (g : Idx n → Fin 3 → ℝ) (vol : ℝ) : Idx n → ℂ :=
  fun k =>
    let vi : Fin na → ℝ := fun a =>
      (if isOrigin k then 0 else charge a / ((∑ d, g k d ^ 2) + 1e-10)) * (4 * Real.pi)
    let out : ℂ := ∑ a, (vi a : ℂ) * Complex.exp (-(Complex.I * ((∑ d, g k d * pos a d : ℝ) : ℂ)));
    -out * (gridCount n : ℂ) / (vol : ℂ)

/-- `potential.external` (/repo/jrystal/_src/potential.py:169-200). -/
noncomputable def externalPotential {na : ℕ} {n : Fin 3 → ℕ} (pos : Fin na → Fin 3 → ℝ)
    (charge : Fin na → ℝ) (g : Idx n → Fin 3 → ℝ) (vol : ℝ) : Idx n → ℂ :=
  ifftn (externalReciprocal pos charge g vol)

/-- `energy.hartree` (/repo/jrystal/_src/energy.py:29-82): braket of the potential, with a leading
axis of length one, and the density. -/
noncomputable def hartreeEnergy {ns : ℕ} {n : Fin 3 → ℕ} (rho : Fin ns → Idx n → ℂ)
    (g : Idx n → Fin 3 → ℝ) (vol : ℝ) (ks : Bool) : Except PyErr ℝ :=
  reciprocalBraket (fun _ : Fin 1 => hartreeReciprocal rho g ks) rho vol

/-- `energy.external` (/repo/jrystal/_src/energy.py:85-135). -/
noncomputable def externalEnergy {ns na : ℕ} {n : Fin 3 → ℕ} (rho : Fin ns → Idx n → ℂ)
    (pos : Fin na → Fin 3 → ℝ) (charge : Fin na → ℝ) (g : Idx n → Fin 3 → ℝ) (vol : ℝ) :
    Except PyErr ℝ :=
  reciprocalBraket (fun _ : Fin 1 => externalReciprocal pos charge g vol) rho vol

/-- `energy.kinetic` without occupation (/repo/jrystal/_src/energy.py:170-175, 180). -/
noncomputable def kineticBands {ns nk nb : ℕ} {n : Fin 3 → ℕ} (g : Idx n → Fin 3 → ℝ)
    (kpts : Fin nk → Fin 3 → ℝ) (c : Coef ns nk nb n) : Fin ns → Fin nk → Fin nb → ℝ :=
  fun s k b => (∑ x, (∑ d, (g x d + kpts k d) ^ 2) * absoluteSquare (c s k b x)) / 2

/-- `energy.kinetic` with occupation (/repo/jrystal/_src/energy.py:170-178). -/
noncomputable def kineticEnergyOcc {ns nk nb : ℕ} {n : Fin 3 → ℕ} (g : Idx n → Fin 3 → ℝ)
    (kpts : Fin nk → Fin 3 → ℝ) (c : Coef ns nk nb n) (occ : Occ ns nk nb) : ℝ :=
  (∑ s, ∑ k, ∑ b, (∑ x, (∑ d, (g x d + kpts k d) ^ 2) * absoluteSquare (c s k b x)) * occ s k b) / 2

/-- `kinetic_operator` (/repo/jrystal/_src/kinetic.py:21-45), shape `kpt x y z`; no k points means
one k point at zero. -/
noncomputable def kineticOperator {nk : ℕ} {n : Fin 3 → ℕ} (g : Idx n → Fin 3 → ℝ)
    (kpts : Fin nk → Fin 3 → ℝ) : Fin nk → Idx n → ℝ :=
  fun k x => (∑ d, (g x d + kpts k d) ^ 2) / 2

/-- `energy.xc_energy` (/repo/jrystal/_src/energy.py:185-211): `safe_real` is applied to the sum
`e_xc` before the multiplication by `vol / num_grid`; it returns the real part when every imaginary
part is within its tolerance `1e-8` and raises otherwise. -/
noncomputable def xcEnergy (lib : XcLib) (xt : String) (ks : Bool) {ns : ℕ} {n : Fin 3 → ℕ}
    (rho : Fin ns → Idx n → ℝ) (g : Idx n → Fin 3 → ℝ) (vol : ℝ) : Except PyErr ℝ :=
  let e := ∑ s, ∑ j, xcDensity lib xt ks g rho s j * (rho s j : ℂ)
  letI := Classical.propDecidable
  if |e.im| ≤ 1e-8 then .ok (e.re * vol / (gridCount n : ℝ)) else .error .valueError

/-- Result of `total_energy(..., split=True)` (/repo/jrystal/_src/energy.py:304-305). -/
structure EnergyParts where
  kin : ℝ
  ext : ℝ
  har : ℝ
  xc : ℝ

/-- `jnp.ones(coefficient.shape[:3])` when no occupation is given
(/repo/jrystal/_src/energy.py:292-294). -/
def occOrOnes {ns nk nb : ℕ} : Option (Occ ns nk nb) → Occ ns nk nb
  | none => fun _ _ _ => 1
  | some o => o

/-- `total_energy(..., split=True)` (/repo/jrystal/_src/energy.py:246-305). -/
noncomputable def totalEnergySplit (lib : XcLib) {ns nk nb na : ℕ} {n : Fin 3 → ℕ}
    (c : Coef ns nk nb n) (pos : Fin na → Fin 3 → ℝ) (charge : Fin na → ℝ) (g : Idx n → Fin 3 → ℝ)
    (kpts : Fin nk → Fin 3 → ℝ) (vol : ℝ) (occ : Option (Occ ns nk nb)) (ks : Bool) (xt : String) :
    Except PyErr EnergyParts :=
  let w := waveGrid c vol
  let occ := occOrOnes occ
  let dens := waveToDensity w occ
  let densG := waveToDensityReciprocal w occ
  match externalEnergy densG pos charge g vol with
  | .error e => .error e
  | .ok ext =>
    match hartreeEnergy densG g vol ks with
    | .error e => .error e
    | .ok har =>
      match xcEnergy lib xt ks dens g vol with
      | .error e => .error e
      | .ok exc => .ok ⟨kineticEnergyOcc g kpts c occ, ext, har, exc⟩

/-- `total_energy(..., split=False)` (/repo/jrystal/_src/energy.py:246-307). -/
noncomputable def totalEnergy (lib : XcLib) {ns nk nb na : ℕ} {n : Fin 3 → ℕ}
    (c : Coef ns nk nb n) (pos : Fin na → Fin 3 → ℝ) (charge : Fin na → ℝ) (g : Idx n → Fin 3 → ℝ)
    (kpts : Fin nk → Fin 3 → ℝ) (vol : ℝ) (occ : Option (Occ ns nk nb)) (ks : Bool) (xt : String) :
    Except PyErr ℝ :=
  match totalEnergySplit lib c pos charge g kpts vol occ ks xt with
  | .error e => .error e
  | .ok p => .ok (p.kin + p.ext + p.har + p.xc)

/-- Real-space Hartree potential of a real density, as computed in `effective`
(/repo/jrystal/_src/potential.py:261-273): inverse transform of `hartree_reciprocal` of the
transformed density. -/
noncomputable def hartreeRealSpace {ns : ℕ} {n : Fin 3 → ℕ} (dens : Fin ns → Idx n → ℝ)
    (g : Idx n → Fin 3 → ℝ) (ks : Bool) : Idx n → ℂ :=
  ifftn (hartreeReciprocal (fun s => fftn fun j => (dens s j : ℂ)) g ks)

end Jrystal
