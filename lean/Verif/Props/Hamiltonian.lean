import Verif.Lemmas.PwMatrix
import Verif.Props.Planewave
import Mathlib.LinearAlgebra.UnitaryGroup
import Mathlib.LinearAlgebra.Matrix.Hermitian
import Mathlib.LinearAlgebra.Matrix.Trace

/- C31, C32. -/
namespace Jrystal
open scoped BigOperators ComplexConjugate

/-! ### C32 -/

/-- C32: for `f(u) = ½ Re(u† M u)` the result is the Hermitian part of `M`, at every point. -/
theorem complexHessian_form {n : ℕ} (M : Matrix (Fin n) (Fin n) ℂ) (x : Fin n → ℂ) :
    complexHessian (fun u => ((1 / 2 * (∑ i, ∑ j, conj (u i) * M i j * u j).re : ℝ) : ℂ)) x
      = (1 / 2 : ℂ) • (M + M.conjTranspose) := by
  refine (complexHessian_quadratic M x).trans ?_
  funext i j
  simp only [hermPart, Matrix.smul_apply, Matrix.add_apply, Matrix.conjTranspose_apply, smul_eq_mul,
    RCLike.star_def]
  ring

/-- C32: for a Hermitian `M` the result is `M` itself, not its transpose. -/
theorem complexHessian_hermitian {n : ℕ} (M : Matrix (Fin n) (Fin n) ℂ) (hM : M.IsHermitian)
    (x : Fin n → ℂ) :
    complexHessian (fun u => ((1 / 2 * (∑ i, ∑ j, conj (u i) * M i j * u j).re : ℝ) : ℂ)) x = M := by
  rw [complexHessian_form, hM.eq, ← two_smul ℂ M, smul_smul]
  norm_num

private theorem gradF_affine {n : ℕ} (M : Matrix (Fin n) (Fin n) ℂ) (l : Fin n → ℂ) (a : ℝ)
    (x : Fin n → ℂ) :
    gradF (fun u => ((1 / 2 * (sesq M u u).re + (∑ i, l i * u i).re + a : ℝ) : ℂ)) x
      = gradLin (hermPart M) x + l := by
  let lin : (Fin n → ℂ) →ₗ[ℝ] ℂ :=
    { toFun := fun u => ∑ i, l i * u i
      map_add' := fun u w => by
        rw [← Finset.sum_add_distrib]
        exact Finset.sum_congr rfl fun i _ => by rw [Pi.add_apply]; ring
      map_smul' := fun c u => by
        rw [RingHom.id_apply, Finset.smul_sum]
        refine Finset.sum_congr rfl fun i _ => ?_
        simp only [Pi.smul_apply, Complex.real_smul]
        ring }
  have hq := gradF_quadratic M x
  have hd0 : HasFDerivAt (𝕜 := ℝ) (fun u : Fin n → ℂ => 1 / 2 * (sesq M u u).re)
      ((1 / 2 : ℝ) • Complex.reCLM.comp (sesqDeriv M x)) x :=
    (Complex.reCLM.hasFDerivAt.comp x (hasFDerivAt_sesq M x)).const_mul (1 / 2 : ℝ)
  have hl : HasFDerivAt (𝕜 := ℝ) (fun u : Fin n → ℂ => (∑ i, l i * u i).re)
      (Complex.reCLM.comp (LinearMap.toContinuousLinearMap lin)) x :=
    Complex.reCLM.hasFDerivAt.comp x (LinearMap.toContinuousLinearMap lin).hasFDerivAt
  have hd1 : HasFDerivAt (𝕜 := ℝ) (fun (u : Fin n → ℂ) (_ : Fin 1) => ((1 / 2 * (sesq M u u).re : ℝ) : ℂ))
      (ContinuousLinearMap.pi fun _ : Fin 1 =>
        Complex.ofRealCLM.comp ((1 / 2 : ℝ) • Complex.reCLM.comp (sesqDeriv M x))) x := by
    rw [hasFDerivAt_pi]
    exact fun _ => Complex.ofRealCLM.hasFDerivAt.comp x hd0
  have hd2 : HasFDerivAt (𝕜 := ℝ) (fun (u : Fin n → ℂ) (_ : Fin 1) =>
      ((1 / 2 * (sesq M u u).re + (∑ i, l i * u i).re + a : ℝ) : ℂ))
      (ContinuousLinearMap.pi fun _ : Fin 1 =>
        Complex.ofRealCLM.comp ((1 / 2 : ℝ) • Complex.reCLM.comp (sesqDeriv M x) +
          Complex.reCLM.comp (LinearMap.toContinuousLinearMap lin))) x := by
    rw [hasFDerivAt_pi]
    exact fun _ => Complex.ofRealCLM.hasFDerivAt.comp x ((hd0.add hl).add_const a)
  rw [← hq]
  funext j
  unfold gradF vjp
  rw [Pi.add_apply, hd1.fderiv, hd2.fderiv]
  have hlin : ∀ c : ℂ, lin (Pi.single j c) = l j * c := by
    intro c
    change ∑ i, l i * (Pi.single j c : Fin n → ℂ) i = _
    rw [Finset.sum_eq_single j]
    · rw [Pi.single_eq_same]
    · intro b _ hb; rw [Pi.single_eq_of_ne hb, mul_zero]
    · intro h; exact absurd (Finset.mem_univ j) h
  have hlin' : ∀ c : ℂ, LinearMap.toContinuousLinearMap lin (Pi.single j c) = l j * c := hlin
  simp only [ContinuousLinearMap.coe_pi', ContinuousLinearMap.coe_comp, Function.comp_apply,
    _root_.smul_apply, _root_.add_apply, Complex.reCLM_apply, Complex.ofRealCLM_apply, one_mul,
    Finset.univ_unique, Finset.sum_const, Finset.card_singleton, one_smul, Complex.ofReal_re, hlin']
  apply Complex.ext <;> simp
  ring

/-- C32: constants and real-linear terms of the function do not contribute. -/
theorem complexHessian_affine {n : ℕ} (M : Matrix (Fin n) (Fin n) ℂ) (l : Fin n → ℂ) (a : ℝ)
    (x : Fin n → ℂ) :
    complexHessian (fun u => ((1 / 2 * (∑ i, ∑ j, conj (u i) * M i j * u j).re
      + (∑ i, l i * u i).re + a : ℝ) : ℂ)) x = (1 / 2 : ℂ) • (M + M.conjTranspose) := by
  refine Eq.trans ?_ (complexHessian_form M x)
  refine Eq.trans ?_ (complexHessian_quadratic M x).symm
  funext i j
  unfold complexHessian
  have : gradF (fun u => ((1 / 2 * (∑ i, ∑ j, conj (u i) * M i j * u j).re
      + (∑ i, l i * u i).re + a : ℝ) : ℂ)) = fun u => gradLin (hermPart M) u + l :=
    funext fun u => gradF_affine M l a u
  rw [this]
  have hv : vjp (fun u => gradLin (hermPart M) u + l) x (Pi.single i 1)
      = vjp (fun u => gradLin (hermPart M) u) x (Pi.single i 1) := by
    unfold vjp
    rw [fderiv_add_const]
  rw [hv, vjp_gradLin, hermPart_conj]

/-- A Hermitian matrix that differs from its transpose. -/
example : (!![1, Complex.I; -Complex.I, 2] : Matrix (Fin 2) (Fin 2) ℂ).IsHermitian ∧
    (!![1, Complex.I; -Complex.I, 2] : Matrix (Fin 2) (Fin 2) ℂ).transpose
      ≠ !![1, Complex.I; -Complex.I, 2] := by
  constructor
  · ext i j
    fin_cases i <;> fin_cases j <;> simp [Matrix.conjTranspose_apply]
  · intro h
    have := congrFun (congrFun h 0) 1
    simp at this
    have h2 := congrArg Complex.im this
    norm_num at h2

/-! ### C31 -/

/-- C31: the effective potential has one channel unless a Kohn-Sham potential of a density with several
channels is requested; every channel is the same Hartree and external potential plus that channel of
the exchange-correlation term. -/
theorem effectivePotential_channels (lib : XcLib) (xt : String) {ns na : ℕ} {n : Fin 3 → ℕ}
    (dens : Fin ns → Idx n → ℝ) (pos : Fin na → Fin 3 → ℝ) (charge : Fin na → ℝ)
    (g : Idx n → Fin 3 → ℝ) (vol : ℝ) :
    effectivePotential lib xt true dens pos charge g vol = ⟨ns, fun s j =>
      hartreeRealSpace dens g true j + externalPotential pos charge g vol j + xcDensity lib xt true g dens s j⟩ ∧
    effectivePotential lib xt false dens pos charge g vol = ⟨1, fun _ j =>
      hartreeRealSpace dens g false j + externalPotential pos charge g vol j + (excDensity lib xt g dens j : ℂ)⟩ := by
  constructor <;> rfl

/-- `hamil_k` for an arbitrary potential. -/
private theorem hamilK_eq (lib : XcLib) (xt : String) (ks : Bool) {nb d na : ℕ} {n : Fin 3 → ℕ}
    (c : Fin nb → Idx n → ℂ) (pos : Fin na → Fin 3 → ℝ) (charge : Fin na → ℝ)
    (dens : Fin d → Idx n → ℝ) (g : Idx n → Fin 3 → ℝ) (k : Fin 3 → ℝ) (vol : ℝ) :
    hamilK lib xt ks c pos charge dens g k vol = .ok (hermPart
      (formMatrix c (effectivePotential lib xt ks dens pos charge g vol).2 g k vol)) := by
  unfold hamilK hamiltonianTrace
  generalize (effectivePotential lib xt ks dens pos charge g vol).2 = v
  dsimp only
  obtain ⟨h, h1, h2⟩ := trace_form c v g k vol (fun _ => 1) (mixBands (fun _ => 1) c) fun _ => rfl
  rw [h1]
  dsimp only
  congr 1
  refine Eq.trans ?_ (complexHessian_quadratic (formMatrix c v g k vol) fun _ => 1)
  congr 1
  funext u
  obtain ⟨h, h1, h2⟩ := trace_form c v g k vol u (mixBands u c) fun _ => rfl
  rw [h1]
  dsimp only
  rw [h2]
  norm_num

/-- C31: `hamiltonian_matrix` never raises on well-shaped input; at every spin and k point its elements
are the sum over the *channels of the effective potential* of kinetic plus (real) potential elements. -/
theorem hamiltonianMatrix_elements (lib : XcLib) (xt : String) (ks : Bool) {ns nk nb d na : ℕ}
    {n : Fin 3 → ℕ} (c : Coef ns nk nb n) (pos : Fin na → Fin 3 → ℝ) (charge : Fin na → ℝ)
    (dens : Fin d → Idx n → ℝ) (g : Idx n → Fin 3 → ℝ) (kpts : Fin nk → Fin 3 → ℝ) (vol : ℝ)
    (m : ℕ) (v : Fin m → Idx n → ℂ)
    (hv : effectivePotential lib xt ks dens pos charge g vol = ⟨m, v⟩) (s : Fin ns) (k : Fin nk) :
    ∃ H : Matrix (Fin nb) (Fin nb) ℂ,
      hamiltonianMatrix lib xt ks c pos charge dens g kpts vol s k = .ok H ∧
      ∀ i j, H i j = ∑ σ, (Spec.kineticElement g (kpts k) (c s k i) (c s k j)
        + Spec.potentialElement vol (fun x => (v σ x).re) (waveGrid c vol s k i) (waveGrid c vol s k j)) := by
  refine ⟨_, hamilK_eq lib xt ks (c s k) pos charge dens g (kpts k) vol, fun i j => ?_⟩
  rw [hv]
  exact hermPart_form (c s k) v g (kpts k) vol i j

/-- C31: the matrices are Hermitian, for every density. -/
theorem hamiltonianMatrix_hermitian (lib : XcLib) (xt : String) (ks : Bool) {ns nk nb d na : ℕ}
    {n : Fin 3 → ℕ} (c : Coef ns nk nb n) (pos : Fin na → Fin 3 → ℝ) (charge : Fin na → ℝ)
    (dens : Fin d → Idx n → ℝ) (g : Idx n → Fin 3 → ℝ) (kpts : Fin nk → Fin 3 → ℝ) (vol : ℝ)
    (s : Fin ns) (k : Fin nk) :
    ∃ H : Matrix (Fin nb) (Fin nb) ℂ,
      hamiltonianMatrix lib xt ks c pos charge dens g kpts vol s k = .ok H ∧ H.IsHermitian := by
  refine ⟨_, hamilK_eq lib xt ks (c s k) pos charge dens g (kpts k) vol, ?_⟩
  ext i j
  rw [Matrix.conjTranspose_apply]
  exact hermPart_conj _ i j

/-- C31: when the effective potential has a single channel `v` (an unpolarised density, or
`kohn_sham=False`) the elements are the advertised ones, `⟨c_i|T_k + V|c_j⟩`.  Missing: polarised
Kohn-Sham potentials, for which `hamiltonianMatrix_polarised_wrong` shows the claim to be false. -/
theorem hamiltonianMatrix_elements_partial (lib : XcLib) (xt : String) (ks : Bool) {ns nk nb d na : ℕ}
    {n : Fin 3 → ℕ} (c : Coef ns nk nb n) (pos : Fin na → Fin 3 → ℝ) (charge : Fin na → ℝ)
    (dens : Fin d → Idx n → ℝ) (g : Idx n → Fin 3 → ℝ) (kpts : Fin nk → Fin 3 → ℝ) (vol : ℝ)
    (hd : d = 1 ∨ ks = false) :
    ∃ v : Fin 1 → Idx n → ℂ, effectivePotential lib xt ks dens pos charge g vol = ⟨1, v⟩ ∧
      ∀ s k, ∃ H : Matrix (Fin nb) (Fin nb) ℂ,
        hamiltonianMatrix lib xt ks c pos charge dens g kpts vol s k = .ok H ∧
        ∀ i j, H i j = Spec.kineticElement g (kpts k) (c s k i) (c s k j)
          + Spec.potentialElement vol (fun x => (v 0 x).re) (waveGrid c vol s k i) (waveGrid c vol s k j) := by
  have hv : ∃ v : Fin 1 → Idx n → ℂ, effectivePotential lib xt ks dens pos charge g vol = ⟨1, v⟩ := by
    cases ks with
    | false => exact ⟨_, rfl⟩
    | true =>
      rcases hd with hd | hd
      · subst hd; exact ⟨_, rfl⟩
      · exact absurd hd (by decide)
  obtain ⟨v, hv⟩ := hv
  refine ⟨v, hv, fun s k => ?_⟩
  obtain ⟨H, h1, h2⟩ := hamiltonianMatrix_elements lib xt ks c pos charge dens g kpts vol 1 v hv s k
  refine ⟨H, h1, fun i j => ?_⟩
  rw [h2]
  exact Fin.sum_univ_one _

/-- C31: for a polarised density with a Kohn-Sham potential both spin rows get `2 T + V_up + V_down`
instead of `T + V_σ`. -/
theorem hamiltonianMatrix_polarised (lib : XcLib) (xt : String) {ns nk nb na : ℕ}
    {n : Fin 3 → ℕ} (c : Coef ns nk nb n) (pos : Fin na → Fin 3 → ℝ) (charge : Fin na → ℝ)
    (dens : Fin 2 → Idx n → ℝ) (g : Idx n → Fin 3 → ℝ) (kpts : Fin nk → Fin 3 → ℝ) (vol : ℝ) :
    ∃ v : Fin 2 → Idx n → ℂ, effectivePotential lib xt true dens pos charge g vol = ⟨2, v⟩ ∧
      ∀ s k, ∃ H : Matrix (Fin nb) (Fin nb) ℂ,
        hamiltonianMatrix lib xt true c pos charge dens g kpts vol s k = .ok H ∧
        ∀ i j, H i j = 2 * Spec.kineticElement g (kpts k) (c s k i) (c s k j)
          + Spec.potentialElement vol (fun x => (v 0 x).re) (waveGrid c vol s k i) (waveGrid c vol s k j)
          + Spec.potentialElement vol (fun x => (v 1 x).re) (waveGrid c vol s k i) (waveGrid c vol s k j) := by
  refine ⟨_, rfl, fun s k => ?_⟩
  obtain ⟨H, h1, h2⟩ := hamiltonianMatrix_elements lib xt true c pos charge dens g kpts vol 2 _ rfl s k
  refine ⟨H, h1, fun i j => ?_⟩
  rw [h2, Fin.sum_univ_two]
  ring

/-- C31 is false for polarised Kohn-Sham potentials: there are orthonormal coefficients, a density and a
functional for which neither spin channel of the potential gives the returned elements. -/
theorem hamiltonianMatrix_polarised_wrong : ∃ (lib : XcLib) (n : Fin 3 → ℕ) (c : Coef 2 1 1 n)
    (dens : Fin 2 → Idx n → ℝ) (g : Idx n → Fin 3 → ℝ) (kpts : Fin 1 → Fin 3 → ℝ)
    (v : Fin 2 → Idx n → ℂ) (H : Fin 2 → Matrix (Fin 1) (Fin 1) ℂ),
    effectivePotential lib "lda_x" true dens (fun (_ : Fin 0) _ => 0) (fun _ => 0) g 1 = ⟨2, v⟩ ∧
    (∀ s, ∑ x, conj (c s 0 0 x) * c s 0 0 x = 1) ∧
    (∀ s, hamiltonianMatrix lib "lda_x" true c (fun (_ : Fin 0) _ => 0) (fun _ => 0) dens g kpts 1 s 0
      = .ok (H s)) ∧
    ∀ s σ, H s 0 0 ≠ Spec.kineticElement g (kpts 0) (c s 0 0) (c s 0 0)
      + Spec.potentialElement 1 (fun x => (v σ x).re) (waveGrid c 1 s 0 0) (waveGrid c 1 s 0 0) := by
  let lib : XcLib := ⟨fun _ _ => 0, fun _ _ _ => 0, fun _ _ _ => 0, fun _ _ _ _ _ _ => 0⟩
  let n : Fin 3 → ℕ := fun _ => 1
  let c : Coef 2 1 1 n := fun _ _ _ _ => 1
  let dens : Fin 2 → Idx n → ℝ := fun _ _ => 0
  let g : Idx n → Fin 3 → ℝ := fun _ _ => 0
  let kpts : Fin 1 → Fin 3 → ℝ := fun _ _ => 1
  obtain ⟨v, hv, hH⟩ := hamiltonianMatrix_polarised lib "lda_x" c (fun (_ : Fin 0) _ => 0) (fun _ => 0)
    dens g kpts 1
  have hvz : ∀ σ x, v σ x = 0 := by
    intro σ x
    have := (effectivePotential_channels lib "lda_x" dens (fun (_ : Fin 0) _ => 0) (fun _ => 0) g 1).1
    rw [hv] at this
    simp only [Sigma.mk.injEq, heq_eq_eq, true_and] at this
    rw [this]
    have h1 : hartreeRealSpace dens g true x = 0 := by
      unfold hartreeRealSpace
      rw [ifftn_eq]
      have : ∀ k : Idx n, isOrigin k = true := fun k => by
        rw [isOrigin_iff]; intro i; have h1 : (k i : ℕ) < 1 := (k i).2; omega
      simp [hartreeReciprocal_eq, this]
    have h2 : externalPotential (fun (_ : Fin 0) _ => 0) (fun _ => 0) g 1 x = 0 := by
      unfold externalPotential
      rw [ifftn_eq]
      simp [externalReciprocal]
    have h3 : xcDensity lib "lda_x" true g dens σ x = 0 := by
      have hg : pyIn "gga" "lda_x" = false := by decide +kernel
      have he : ∀ a b, excLda2 lib (splitPlus "lda_x") a b = 0 := by
        intro a b
        unfold excLda2
        refine List.sum_eq_zero fun y hy => ?_
        obtain ⟨z, _, rfl⟩ := List.mem_map.mp hy
        simp [ldaPoint2, lib]
      unfold xcDensity vxcDensity
      simp [hg, vxcLda2, he]
    beta_reduce
    rw [h1, h2, h3]
    simp
  choose H hH1 hH2 using fun s => hH s 0
  refine ⟨lib, n, c, dens, g, kpts, v, H, hv, fun s => ?_, hH1, fun s σ => ?_⟩
  · simp [c, n]
  · rw [hH2]
    have hp : ∀ (σ : Fin 2) (f f' : Idx n → ℂ),
        Spec.potentialElement 1 (fun x => (v σ x).re) f f' = 0 := by
      intro σ f f'
      unfold Spec.potentialElement Spec.cellInner
      simp [hvz]
    rw [hp, hp, hp]
    have hk : Spec.kineticElement g (kpts 0) (c s 0 0) (c s 0 0) = 3 / 2 := by
      unfold Spec.kineticElement Spec.kineticEnergy Spec.dot
      simp [g, kpts, c, n]
    rw [hk]
    norm_num

private theorem terms_form {ns nk nb : ℕ} {n : Fin 3 → ℕ} (c : Coef ns nk nb n)
    (v : Fin 1 → Idx n → ℂ) (g : Idx n → Fin 3 → ℝ) (kpts : Fin nk → Fin 3 → ℝ) (vol : ℝ) :
    ∃ h : Fin ns → Fin nk → Fin nb → ℝ, hamiltonianTerms c v g kpts vol = .ok ⟨nk, h⟩ ∧
      ∀ s k b, (h s k b : ℂ) = hermPart (formMatrix (c s k) v g (kpts k) vol) b b := by
  refine ⟨_, hamiltonianTerms_single c v g kpts vol, fun s k b => ?_⟩
  rw [hermPart_diag]
  unfold formMatrix
  rw [Fin.sum_univ_one, Complex.add_re]
  rfl

/-- C31: with a single potential channel `hamiltonian_matrix_trace` is the sum of the diagonals of the
matrices, over all spins and k points (default), or for each spin over the k points
(`keep_kpts_axis=True`).  Missing: polarised Kohn-Sham potentials (`hamiltonianTrace_polarised_error`). -/
theorem hamiltonianTrace_partial (lib : XcLib) (xt : String) (ks : Bool) {ns nk nb d na : ℕ}
    {n : Fin 3 → ℕ} (c : Coef ns nk nb n) (pos : Fin na → Fin 3 → ℝ) (charge : Fin na → ℝ)
    (dens : Fin d → Idx n → ℝ) (g : Idx n → Fin 3 → ℝ) (kpts : Fin nk → Fin 3 → ℝ) (vol : ℝ)
    (hd : d = 1 ∨ ks = false) :
    ∃ (H : Fin ns → Fin nk → Matrix (Fin nb) (Fin nb) ℂ) (t : Fin ns → ℝ),
      (∀ s k, hamiltonianMatrix lib xt ks c pos charge dens g kpts vol s k = .ok (H s k)) ∧
      (∀ s, (t s : ℂ) = ∑ k, (H s k).trace) ∧
      hamiltonianTrace lib xt ks true c pos charge dens g kpts vol = .ok (.perSpin t) ∧
      hamiltonianTrace lib xt ks false c pos charge dens g kpts vol = .ok (.scalar (∑ s, t s)) := by
  obtain ⟨v, hv, _⟩ := hamiltonianMatrix_elements_partial lib xt ks c pos charge dens g kpts vol hd
  obtain ⟨h, h1, h2⟩ := terms_form c v g kpts vol
  refine ⟨fun s k => hermPart (formMatrix (c s k) v g (kpts k) vol), fun s => ∑ k, ∑ b, h s k b,
    fun s k => ?_, fun s => ?_, ?_, ?_⟩
  · refine (hamilK_eq lib xt ks (c s k) pos charge dens g (kpts k) vol).trans ?_
    rw [hv]
  · push_cast
    refine Finset.sum_congr rfl fun k _ => ?_
    unfold Matrix.trace
    exact Finset.sum_congr rfl fun b _ => h2 s k b
  · unfold hamiltonianTrace
    rw [hv, h1]
    rfl
  · unfold hamiltonianTrace
    rw [hv, h1]
    rfl

/-- C31: with a polarised density and a Kohn-Sham potential `hamiltonian_matrix_trace` raises for three
or more k points. -/
theorem hamiltonianTrace_polarised_error (lib : XcLib) (xt : String) (keep : Bool) {ns nk nb na : ℕ}
    {n : Fin 3 → ℕ} (hnk : 3 ≤ nk) (c : Coef ns nk nb n) (pos : Fin na → Fin 3 → ℝ)
    (charge : Fin na → ℝ) (dens : Fin 2 → Idx n → ℝ) (g : Idx n → Fin 3 → ℝ)
    (kpts : Fin nk → Fin 3 → ℝ) (vol : ℝ) :
    hamiltonianTrace lib xt true keep c pos charge dens g kpts vol = .error .valueError := by
  unfold hamiltonianTrace
  rw [(effectivePotential_channels lib xt dens pos charge g vol).1]
  unfold hamiltonianTerms expectationDiag
  simp only [integralFactor_real, operatorLen]
  have : bcLen nk 2 = .error .valueError := by
    unfold bcLen
    rw [if_neg (by omega), if_neg (by omega), if_neg (by omega)]
  rw [this]

/-- C31: mixing the bands of one spin and k point, `c'_i = Σ_j U_ij c_j`, transforms the matrix by
`H' = conj(U) H Uᵀ`, so that the trace is unchanged by unitary `U`. -/
theorem hamiltonianMatrix_mix (lib : XcLib) (xt : String) (ks : Bool) {ns nk nb d na : ℕ}
    {n : Fin 3 → ℕ} (c c' : Coef ns nk nb n) (pos : Fin na → Fin 3 → ℝ) (charge : Fin na → ℝ)
    (dens : Fin d → Idx n → ℝ) (g : Idx n → Fin 3 → ℝ) (kpts : Fin nk → Fin 3 → ℝ) (vol : ℝ)
    (s : Fin ns) (k : Fin nk) (U : Matrix (Fin nb) (Fin nb) ℂ)
    (hc : ∀ i x, c' s k i x = ∑ j, U i j * c s k j x) :
    ∃ H H' : Matrix (Fin nb) (Fin nb) ℂ,
      hamiltonianMatrix lib xt ks c pos charge dens g kpts vol s k = .ok H ∧
      hamiltonianMatrix lib xt ks c' pos charge dens g kpts vol s k = .ok H' ∧
      H' = U.map conj * H * U.transpose ∧
      (U ∈ Matrix.unitaryGroup (Fin nb) ℂ → H'.trace = H.trace) := by
  have h1 := hamilK_eq lib xt ks (c s k) pos charge dens g (kpts k) vol
  have h2 := hamilK_eq lib xt ks (c' s k) pos charge dens g (kpts k) vol
  generalize (effectivePotential lib xt ks dens pos charge g vol).2 = v at h1 h2
  have hm : hermPart (formMatrix (c' s k) v g (kpts k) vol)
      = U.map conj * hermPart (formMatrix (c s k) v g (kpts k) vol) * U.transpose := by
    ext i j
    rw [hermPart_mix (formMatrix (c s k) v g (kpts k) vol) _ U
      (fun i j => formMatrix_mix (c s k) (c' s k) U hc v g (kpts k) vol i j)]
    rw [Matrix.mul_apply]
    unfold sesq
    rw [Finset.sum_comm]
    refine Finset.sum_congr rfl fun b _ => ?_
    rw [Matrix.mul_apply, Finset.sum_mul]
    rfl
  refine ⟨_, _, h1, h2, hm, fun hU => ?_⟩
  rw [hm, Matrix.mul_assoc, Matrix.trace_mul_comm, Matrix.mul_assoc]
  have hu : U.transpose * U.map conj = 1 := by
    have h := (Matrix.mem_unitaryGroup_iff'.mp hU)
    have h' := congrArg Matrix.transpose h
    rw [Matrix.transpose_mul, Matrix.transpose_one] at h'
    rw [← h']
    congr 1
  rw [hu, Matrix.mul_one]

/-- The hypotheses are met: an unpolarised density, and a rotation of two bands. -/
example : (1 = 1 ∨ true = false) ∧
    (!![0, 1; 1, 0] : Matrix (Fin 2) (Fin 2) ℂ) ∈ Matrix.unitaryGroup (Fin 2) ℂ := by
  refine ⟨Or.inl rfl, Matrix.mem_unitaryGroup_iff.mpr ?_⟩
  ext i j
  fin_cases i <;> fin_cases j <;> simp [Matrix.mul_apply, Fin.sum_univ_two, Matrix.star_apply]

/-- `_hamiltonian_matrix_basis` for an arbitrary potential: the form matrix of the unit vectors. -/
private theorem hamiltonianMatrixBasis_eq (lib : XcLib) (xt : String) (ks : Bool) {d na : ℕ}
    {n : Fin 3 → ℕ} (mask : Idx n → Bool) (pos : Fin na → Fin 3 → ℝ) (charge : Fin na → ℝ)
    (dens : Fin d → Idx n → ℝ) (g : Idx n → Fin 3 → ℝ) (k : Fin 3 → ℝ) (vol : ℝ) :
    hamiltonianMatrixBasis lib xt ks mask pos charge dens g k vol
      = .ok (hermPart (formMatrix (fun (a : Fin (maskCount mask)) x => if x = maskPos mask a then 1 else 0)
        (effectivePotential lib xt ks dens pos charge g vol).2 g k vol)) := by
  let c : Fin (maskCount mask) → Idx n → ℂ := fun a x => if x = maskPos mask a then 1 else 0
  unfold hamiltonianMatrixBasis hamiltonianTrace
  generalize (effectivePotential lib xt ks dens pos charge g vol).2 = v
  dsimp only
  obtain ⟨h, h1, h2⟩ := trace_form c v g k vol (fun _ => 1)
    (expandCoefficient mask (fun (_ : Fin 1) (_ : Fin 1) _ (_ : Fin 1) => 1)) fun x =>
      maskExpand mask (fun _ => 1) x
  rw [h1]
  dsimp only
  congr 1
  refine Eq.trans ?_ (complexHessian_quadratic (formMatrix c v g k vol) fun _ => 1)
  congr 1
  funext u
  obtain ⟨h, h1, h2⟩ := trace_form c v g k vol u
    (expandCoefficient mask (fun (_ : Fin 1) (_ : Fin 1) g (_ : Fin 1) => u g)) fun x =>
      maskExpand mask u x
  rw [h1]
  dsimp only
  rw [h2]
  norm_num

/-- C31: for coefficients supported on a mask, `hamiltonian_matrix` is the compression `Cᴴ F C` of the
matrix `F` in the plane-wave basis of that mask, which is Hermitian. -/
theorem hamiltonianMatrix_compress (lib : XcLib) (xt : String) (ks : Bool) {ns nk nb d na : ℕ}
    {n : Fin 3 → ℕ} (mask : Idx n → Bool) (C : Fin ns → Fin nk → Fin (maskCount mask) → Fin nb → ℂ)
    (pos : Fin na → Fin 3 → ℝ) (charge : Fin na → ℝ) (dens : Fin d → Idx n → ℝ)
    (g : Idx n → Fin 3 → ℝ) (kpts : Fin nk → Fin 3 → ℝ) (vol : ℝ) (k : Fin nk) :
    ∃ F, hamiltonianMatrixBasis lib xt ks mask pos charge dens g (kpts k) vol = .ok F ∧ F.IsHermitian ∧
      ∀ s, hamiltonianMatrix lib xt ks (expandCoefficient mask C) pos charge dens g kpts vol s k
        = .ok ((Matrix.of (C s k)).conjTranspose * F * Matrix.of (C s k)) := by
  refine ⟨_, hamiltonianMatrixBasis_eq lib xt ks mask pos charge dens g (kpts k) vol, ?_, fun s => ?_⟩
  · ext i j
    rw [Matrix.conjTranspose_apply]
    exact hermPart_conj _ i j
  · refine (hamilK_eq lib xt ks _ pos charge dens g (kpts k) vol).trans ?_
    congr 1
    exact hermForm_compress mask C _ g (kpts k) vol s k

/-- C31: for a single k point `hamiltonian_matrix_trace` is the sum of the traces of the matrices for
every density, polarised or not. -/
theorem hamiltonianTrace_one (lib : XcLib) (xt : String) (ks : Bool) {ns nb d na : ℕ}
    {n : Fin 3 → ℕ} (c : Coef ns 1 nb n) (pos : Fin na → Fin 3 → ℝ) (charge : Fin na → ℝ)
    (dens : Fin d → Idx n → ℝ) (g : Idx n → Fin 3 → ℝ) (kpts : Fin 1 → Fin 3 → ℝ) (vol : ℝ) :
    ∃ (H : Fin ns → Matrix (Fin nb) (Fin nb) ℂ) (t : ℝ),
      (∀ s, hamiltonianMatrix lib xt ks c pos charge dens g kpts vol s 0 = .ok (H s)) ∧
      (t : ℂ) = ∑ s, (H s).trace ∧
      hamiltonianTrace lib xt ks false c pos charge dens g kpts vol = .ok (.scalar t) := by
  have ht : ∃ t, hamiltonianTrace lib xt ks false c pos charge dens g kpts vol = .ok (.scalar t) ∧
      (t : ℂ) = ∑ s, (hermPart (formMatrix (c s 0) (effectivePotential lib xt ks dens pos charge g vol).2 g
        (kpts 0) vol) : Matrix (Fin nb) (Fin nb) ℂ).trace := by
    unfold hamiltonianTrace
    rw [hamiltonianTerms_one]
    simp only [traceSum, Bool.false_eq_true, if_false]
    refine ⟨_, rfl, ?_⟩
    push_cast
    refine Finset.sum_congr rfl fun s _ => ?_
    unfold Matrix.trace
    rw [Finset.sum_comm]
    refine Finset.sum_congr rfl fun b _ => ?_
    rw [Matrix.diag_apply, hermPart_diag]
    unfold formMatrix
    simp only [Complex.re_sum, Complex.add_re]
    push_cast
    rfl
  obtain ⟨t, h1, h2⟩ := ht
  exact ⟨_, t, fun s => hamilK_eq lib xt ks (c s 0) pos charge dens g (kpts 0) vol, h2, h1⟩

/-- C31: the matrix in the plane-wave basis selected by a mask, for the reciprocal vectors of a cell:
kinetic energies on the diagonal plus the Fourier coefficients `V(G - G')` of the real part of the
potential (summed over the channels of the potential). -/
theorem hamiltonianMatrixBasis_elements (lib : XcLib) (xt : String) (ks : Bool) {d na : ℕ}
    (A : Matrix (Fin 3) (Fin 3) ℝ) (hA : A.det ≠ 0) {n : Fin 3 → ℕ} (mask : Idx n → Bool)
    (pos : Fin na → Fin 3 → ℝ) (charge : Fin na → ℝ) (dens : Fin d → Idx n → ℝ) (k : Fin 3 → ℝ)
    (vol : ℝ) (hvol : 0 < vol) (m : ℕ) (v : Fin m → Idx n → ℂ)
    (hv : effectivePotential lib xt ks dens pos charge (gVectors A n) vol = ⟨m, v⟩) :
    ∃ H, hamiltonianMatrixBasis lib xt ks mask pos charge dens (gVectors A n) k vol = .ok H ∧
      ∀ a b, H a b = ∑ σ, ((if a = b then
          (Spec.kineticEnergy (fun e => gVectors A n (maskPos mask a) e + k e) : ℂ) else 0) +
        (∑ x, ((v σ x).re : ℂ) * Complex.exp (-(Complex.I * ((Spec.dot (fun e =>
          gVectors A n (maskPos mask a) e - gVectors A n (maskPos mask b) e) (rVectors A n x) : ℝ) : ℂ))))
            / ((∏ i, n i : ℕ) : ℂ)) := by
  have key : hamiltonianMatrixBasis lib xt ks mask pos charge dens (gVectors A n) k vol
      = .ok (hermPart (formMatrix (unitVec mask) v (gVectors A n) k vol)) := by
    have := hamiltonianMatrixBasis_eq lib xt ks mask pos charge dens (gVectors A n) k vol
    rw [hv] at this
    exact this
  refine ⟨_, key, fun a b => ?_⟩
  exact hermForm_basis A hA mask v k vol hvol a b

end Jrystal
