import Verif.Model.Energy
import Verif.Model.Hessian

/-
Model of /repo/jrystal/_src/hamiltonian.py and of `potential.effective`.  Exact real and complex
arithmetic.
-/
namespace Jrystal
open scoped BigOperators ComplexConjugate

/-- `potential.effective(..., split=False)` (/repo/jrystal/_src/potential.py:203-279) for a density with
`ns` channels (a three-axis density has one).  The Hartree and external parts get a leading axis of
length one; the exchange-correlation part has `ns` channels with `kohn_sham` and no such axis without,
so the broadcast sum has `ns` or 1 channels. -/
noncomputable def effectivePotential (lib : XcLib) (xt : String) (ks : Bool) {ns na : ℕ}
    {n : Fin 3 → ℕ} (dens : Fin ns → Idx n → ℝ) (pos : Fin na → Fin 3 → ℝ) (charge : Fin na → ℝ)
    (g : Idx n → Fin 3 → ℝ) (vol : ℝ) : Σ m : ℕ, Fin m → Idx n → ℂ :=
  let har := hartreeRealSpace dens g ks
  let ext := externalPotential pos charge g vol
  if ks then ⟨ns, fun s j => har j + ext j + vxcDensity lib xt g dens s j⟩
  else ⟨1, fun _ j => har j + ext j + (excDensity lib xt g dens j : ℂ)⟩

/-- `(f_eff + f_kin).real` of `hamiltonian_matrix_trace` (/repo/jrystal/_src/hamiltonian.py:144-163) for a
given effective potential: two `expectation` results with axes `spin kpt band`, added with numpy
broadcasting of the k axis. -/
noncomputable def hamiltonianTerms {ns nk nq nb m : ℕ} {n : Fin 3 → ℕ} (c : Coef ns nk nb n)
    (v : Fin m → Idx n → ℂ) (g : Idx n → Fin 3 → ℝ) (kpts : Fin nq → Fin 3 → ℝ) (vol : ℝ) :
    Except PyErr (Σ K : ℕ, Fin ns → Fin K → Fin nb → ℝ) :=
  match expectationDiag (waveGrid c vol) (.lead m v) vol none "real" with
  | .error e => .error e
  | .ok ⟨K₁, f⟩ =>
    match expectationDiag c (.lead nq fun k x => (kineticOperator g kpts k x : ℂ)) vol none "kinetic" with
    | .error e => .error e
    | .ok ⟨K₂, t⟩ =>
      match bcLen K₁ K₂ with
      | .error e => .error e
      | .ok K => .ok ⟨K, fun s k b =>
          (match bcIdx K₁ k with | some i => f s i b | none => 0).re +
          (match bcIdx K₂ k with | some i => t s i b | none => 0).re⟩

/-- What `hamiltonian_matrix_trace` returns: an array of shape `()` or of shape `(spin,)`
(/repo/jrystal/_src/hamiltonian.py:164-168). -/
inductive TraceOut (ns : ℕ)
  | scalar (t : ℝ)
  | perSpin (t : Fin ns → ℝ)

/-- The two final sums of `hamiltonian_matrix_trace` (/repo/jrystal/_src/hamiltonian.py:164-168). -/
noncomputable def traceSum {ns K nb : ℕ} (keep : Bool) (h : Fin ns → Fin K → Fin nb → ℝ) : TraceOut ns :=
  if keep then .perSpin fun s => ∑ k, ∑ b, h s k b else .scalar (∑ s, ∑ k, ∑ b, h s k b)

/-- `hamiltonian_matrix_trace` (/repo/jrystal/_src/hamiltonian.py:105-168); `d` is the number of
channels of the density, `nq` the number of k points. -/
noncomputable def hamiltonianTrace (lib : XcLib) (xt : String) (ks keep : Bool) {ns nk nq nb d na : ℕ}
    {n : Fin 3 → ℕ} (c : Coef ns nk nb n) (pos : Fin na → Fin 3 → ℝ) (charge : Fin na → ℝ)
    (dens : Fin d → Idx n → ℝ) (g : Idx n → Fin 3 → ℝ) (kpts : Fin nq → Fin 3 → ℝ) (vol : ℝ) :
    Except PyErr (TraceOut ns) :=
  match hamiltonianTerms c (effectivePotential lib xt ks dens pos charge g vol).2 g kpts vol with
  | .error e => .error e
  | .ok ⟨_, h⟩ => .ok (traceSum keep h)

/-- `jnp.sum` of the result of `hamiltonian_matrix_trace` (/repo/jrystal/_src/hamiltonian.py:229, 300). -/
noncomputable def TraceOut.total {ns : ℕ} : TraceOut ns → ℝ
  | .scalar t => t
  | .perSpin t => ∑ s, t s

/-- `jnp.einsum("i,ixyz->xyz", u, coeff_k)` with three leading axes of length one
(/repo/jrystal/_src/hamiltonian.py:215-216). -/
noncomputable def mixBands {nb : ℕ} {n : Fin 3 → ℕ} (u : Fin nb → ℂ) (c : Fin nb → Idx n → ℂ) :
    Coef 1 1 1 n :=
  fun _ _ _ x => ∑ i, u i * c i x

/-- `hamil_k` of `hamiltonian_matrix` (/repo/jrystal/_src/hamiltonian.py:211-232) at one k point and one
spin.  Whether `efun` raises does not depend on `u`; it is evaluated at the vector of ones. -/
noncomputable def hamilK (lib : XcLib) (xt : String) (ks : Bool) {nb d na : ℕ} {n : Fin 3 → ℕ}
    (c : Fin nb → Idx n → ℂ) (pos : Fin na → Fin 3 → ℝ) (charge : Fin na → ℝ)
    (dens : Fin d → Idx n → ℝ) (g : Idx n → Fin 3 → ℝ) (k : Fin 3 → ℝ) (vol : ℝ) :
    Except PyErr (Matrix (Fin nb) (Fin nb) ℂ) :=
  let trace : (Fin nb → ℂ) → Except PyErr (TraceOut 1) := fun u =>
    hamiltonianTrace lib xt ks false (mixBands u c) pos charge dens g (fun _ : Fin 1 => k) vol
  let efun : (Fin nb → ℂ) → ℂ := fun u =>
    match trace u with
    | .error _ => 0
    | .ok t => ((0.5 * t.total : ℝ) : ℂ)
  match trace fun _ => 1 with
  | .error e => .error e
  | .ok _ => .ok (complexHessian efun fun _ => 1)

/-- `hamiltonian_matrix` (/repo/jrystal/_src/hamiltonian.py:171-240): `hamil_k` for every spin and
k point. -/
noncomputable def hamiltonianMatrix (lib : XcLib) (xt : String) (ks : Bool) {ns nk nb d na : ℕ}
    {n : Fin 3 → ℕ} (c : Coef ns nk nb n) (pos : Fin na → Fin 3 → ℝ) (charge : Fin na → ℝ)
    (dens : Fin d → Idx n → ℝ) (g : Idx n → Fin 3 → ℝ) (kpts : Fin nk → Fin 3 → ℝ) (vol : ℝ) :
    Fin ns → Fin nk → Except PyErr (Matrix (Fin nb) (Fin nb) ℂ) :=
  fun s k => hamilK lib xt ks (c s k) pos charge dens g (kpts k) vol

/-- `_hamiltonian_matrix_basis` (/repo/jrystal/_src/hamiltonian.py:243-306) at one k point: `efun` takes
the compact coefficients of one band. -/
noncomputable def hamiltonianMatrixBasis (lib : XcLib) (xt : String) (ks : Bool) {d na : ℕ}
    {n : Fin 3 → ℕ} (mask : Idx n → Bool) (pos : Fin na → Fin 3 → ℝ) (charge : Fin na → ℝ)
    (dens : Fin d → Idx n → ℝ) (g : Idx n → Fin 3 → ℝ) (k : Fin 3 → ℝ) (vol : ℝ) :
    Except PyErr (Matrix (Fin (maskCount mask)) (Fin (maskCount mask)) ℂ) :=
  let trace : (Fin (maskCount mask) → ℂ) → Except PyErr (TraceOut 1) := fun u =>
    hamiltonianTrace lib xt ks false
      (expandCoefficient mask (fun (_ : Fin 1) (_ : Fin 1) g (_ : Fin 1) => u g)) pos charge dens g
      (fun _ : Fin 1 => k) vol
  let efun : (Fin (maskCount mask) → ℂ) → ℂ := fun u =>
    match trace u with
    | .error _ => 0
    | .ok t => ((0.5 * t.total : ℝ) : ℂ)
  match trace fun _ => 1 with
  | .error e => .error e
  | .ok _ => .ok (complexHessian efun fun _ => 1)

end Jrystal
