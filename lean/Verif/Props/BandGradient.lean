import Verif.Spec.BandGradient
import Verif.Spec.Reach
import Verif.Lemmas.RitzGrad
import Verif.Lemmas.Reach
import Verif.Props.BandOpt
import Verif.Props.BandOptNC

/- C123: what the gradient of the band objective says about the reported band energies. -/
namespace Jrystal
open scoped BigOperators ComplexConjugate
open Matrix

private theorem bandMatrix_eq {ns nk g nb : ℕ} (p : PwParams ns nk g nb) (s : Fin ns) (k : Fin nk) :
    (Matrix.of fun a b => (p.re s k a b : ℂ) + Complex.I * (p.im s k a b : ℂ)) = Spec.bandMatrix p s k := by
  ext a b
  apply Complex.ext <;> simp [Spec.bandMatrix]

private theorem bandMatrix_along {ns nk g nb : ℕ} (p d : PwParams ns nk g nb) (t : ℝ) (s : Fin ns) (k : Fin nk) :
    Spec.bandMatrix (Spec.along p d t) s k = Spec.bandMatrix p s k + (t : ℂ) • Spec.bandMatrix d s k := by
  ext a b
  apply Complex.ext <;> simp [Spec.bandMatrix, Spec.along]

theorem paramSize_eq {ns nk g nb : ℕ} (p : PwParams ns nk g nb) (s : Fin ns) (k : Fin nk) :
    Spec.paramSize p s k = matSize (Spec.bandMatrix p s k) := by
  unfold Spec.paramSize matSize
  congr 1
  refine Finset.sum_congr rfl fun a _ => Finset.sum_congr rfl fun b _ => ?_
  rw [← Complex.normSq_eq_norm_sq, Complex.normSq_apply]
  show _ = p.re s k a b * p.re s k a b + p.im s k a b * p.im s k a b
  ring

private theorem paramDot_eq {ns g nb : ℕ} (p d : PwParams ns 1 g nb) :
    Spec.paramDot p d = ∑ s, ((Spec.bandMatrix d s 0)ᴴ * Spec.bandMatrix p s 0).trace.re := by
  unfold Spec.paramDot
  refine Finset.sum_congr rfl fun s _ => ?_
  rw [Fin.sum_univ_one, Matrix.trace, Complex.re_sum, Finset.sum_comm]
  refine Finset.sum_congr rfl fun b _ => ?_
  rw [Matrix.diag_apply, Matrix.mul_apply, Complex.re_sum]
  refine Finset.sum_congr rfl fun a _ => ?_
  rw [Matrix.conjTranspose_apply, RCLike.star_def, Complex.mul_re, Complex.conj_re, Complex.conj_im]
  show _ = d.re s 0 a b * p.re s 0 a b - -d.im s 0 a b * p.im s 0 a b
  ring

/-- A set of parameters has at most one gradient. -/
theorem gradient_unique {ns nk g nb : ℕ} {f : PwParams ns nk g nb → ℝ} {p G G' : PwParams ns nk g nb}
    (h : Spec.IsParamGradient f p G) (h' : Spec.IsParamGradient f p G') : G = G' := by
  have hd : ∀ d, Spec.paramDot G d = Spec.paramDot G' d := fun d => (h d).unique (h' d)
  let d : PwParams ns nk g nb := ⟨fun s k a b => G.re s k a b - G'.re s k a b, fun s k a b => G.im s k a b - G'.im s k a b⟩
  have h0 : ∑ s, ∑ k, ∑ a, ∑ b, ((G.re s k a b - G'.re s k a b) ^ 2 + (G.im s k a b - G'.im s k a b) ^ 2) = 0 := by
    have := sub_eq_zero.2 (hd d)
    unfold Spec.paramDot at this
    simp only [← Finset.sum_sub_distrib] at this
    rw [← this]
    refine Finset.sum_congr rfl fun s _ => Finset.sum_congr rfl fun k _ => Finset.sum_congr rfl fun a _ =>
      Finset.sum_congr rfl fun b _ => ?_
    show _ = _ * (G.re s k a b - G'.re s k a b) + _ * (G.im s k a b - G'.im s k a b) - _
    ring
  have hz : ∀ s k a b, (G.re s k a b - G'.re s k a b) ^ 2 + (G.im s k a b - G'.im s k a b) ^ 2 = 0 := by
    intro s k a b
    have n0 : ∀ s k a b, 0 ≤ (G.re s k a b - G'.re s k a b) ^ 2 + (G.im s k a b - G'.im s k a b) ^ 2 := fun s k a b => by
      positivity
    have h1 := (Finset.sum_eq_zero_iff_of_nonneg fun s _ => Finset.sum_nonneg fun k _ => Finset.sum_nonneg fun a _ =>
      Finset.sum_nonneg fun b _ => n0 s k a b).1 h0 s (Finset.mem_univ s)
    have h2 := (Finset.sum_eq_zero_iff_of_nonneg fun k _ => Finset.sum_nonneg fun a _ =>
      Finset.sum_nonneg fun b _ => n0 s k a b).1 h1 k (Finset.mem_univ k)
    have h3 := (Finset.sum_eq_zero_iff_of_nonneg fun a _ =>
      Finset.sum_nonneg fun b _ => n0 s k a b).1 h2 a (Finset.mem_univ a)
    exact (Finset.sum_eq_zero_iff_of_nonneg fun b _ => n0 s k a b).1 h3 b (Finset.mem_univ b)
  obtain ⟨gr, gi⟩ := G
  obtain ⟨gr', gi'⟩ := G'
  congr 1
  · funext s k a b
    have := hz s k a b
    dsimp only at this
    nlinarith [sq_nonneg (gr s k a b - gr' s k a b), sq_nonneg (gi s k a b - gi' s k a b)]
  · funext s k a b
    have := hz s k a b
    dsimp only at this
    nlinarith [sq_nonneg (gr s k a b - gr' s k a b), sq_nonneg (gi s k a b - gi' s k a b)]

/-- The trace of `F` between the orbitals of all spins. -/
noncomputable def spinTrace {ns g nb : ℕ} (qr : QR ℂ) (F : Matrix (Fin g) (Fin g) ℂ) (p : PwParams ns 1 g nb) : ℝ :=
  ∑ s, ((Matrix.of (unitaryMatrix qr p s 0))ᴴ * F * Matrix.of (unitaryMatrix qr p s 0)).trace.re

theorem qr_factor {ns g nb : ℕ} {qr : QR ℂ} (htri : Spec.Triangular qr) (p : PwParams ns 1 g nb) (s : Fin ns) :
    ∃ R, Spec.bandMatrix p s 0 = Matrix.of (unitaryMatrix qr p s 0) * R := by
  obtain ⟨R, -, hR⟩ := htri (Spec.bandMatrix p s 0)
  refine ⟨R, ?_⟩
  conv_lhs => rw [hR]
  rw [← bandMatrix_eq]
  rfl

theorem spinTrace_gradient {ns g nb : ℕ} {qr : QR ℂ} (htri : Spec.Triangular qr) (hnb : nb ≤ g)
    {F : Matrix (Fin g) (Fin g) ℂ} (hF : F.IsHermitian) (p : PwParams ns 1 g nb) (hp : Spec.Independent p) :
    ∃ G, Spec.IsParamGradient (spinTrace qr F) p G ∧ ∀ s, Spec.bandMatrix G s 0 = ritzGrad F (Spec.bandMatrix p s 0) := by
  refine ⟨⟨fun s _ a b => (ritzGrad F (Spec.bandMatrix p s 0) a b).re,
    fun s _ a b => (ritzGrad F (Spec.bandMatrix p s 0) a b).im⟩, fun d => ?_, fun s => rfl⟩
  have hu : ∀ s, IsUnit ((Spec.bandMatrix p s 0)ᴴ * Spec.bandMatrix p s 0).det := fun s => gram_unit (hp s 0)
  rw [paramDot_eq]
  have hsum := HasDerivAt.fun_sum (u := Finset.univ) fun s _ =>
    ritz_deriv hF (hu s) (Spec.bandMatrix d s 0)
  refine hsum.congr_of_eventuallyEq ?_
  have hev : ∀ s, ∀ᶠ t : ℝ in nhds 0, IsUnit ((Spec.bandMatrix p s 0 + (t : ℂ) • Spec.bandMatrix d s 0)ᴴ
      * (Spec.bandMatrix p s 0 + (t : ℂ) • Spec.bandMatrix d s 0)).det := by
    intro s
    have hc : Continuous fun t : ℝ => ((Spec.bandMatrix p s 0 + (t : ℂ) • Spec.bandMatrix d s 0)ᴴ
      * (Spec.bandMatrix p s 0 + (t : ℂ) • Spec.bandMatrix d s 0)).det := by
      have h1 : Continuous fun t : ℝ => Spec.bandMatrix p s 0 + (t : ℂ) • Spec.bandMatrix d s 0 :=
        continuous_const.add ((Complex.continuous_ofReal).smul continuous_const)
      exact (h1.matrix_conjTranspose.matrix_mul h1).matrix_det
    have h0 := hc.continuousAt (x := 0)
    have hne := h0.eventually_ne (y := 0) (by
      have := (hu s).ne_zero
      simpa using this)
    exact hne.mono fun t ht => isUnit_iff_ne_zero.2 ht
  filter_upwards [Filter.eventually_all.2 hev] with t ht
  unfold spinTrace
  refine Finset.sum_congr rfl fun s _ => ?_
  obtain ⟨R, hR⟩ := qr_factor htri (Spec.along p d t) s
  rw [← bandMatrix_along]
  have ht' := ht s
  rw [← bandMatrix_along] at ht'
  exact congrArg Complex.re (ritz_trace (min_eq_right hnb) F ht' (qr.orth _) hR)

/-- The parameters with all numbers zero. -/
private theorem zero_gradient {ns g nb : ℕ} (s : Fin ns) :
    Spec.bandMatrix (⟨fun _ _ _ _ => 0, fun _ _ _ _ => 0⟩ : PwParams ns 1 g nb) s 0 = 0 := by
  ext a b; rfl

private theorem step_independent {ns g nb : ℕ} {F : Matrix (Fin g) (Fin g) ℂ} (p G : PwParams ns 1 g nb)
    (hp : Spec.Independent p) (hG : ∀ s, Spec.bandMatrix G s 0 = ritzGrad F (Spec.bandMatrix p s 0)) (η : ℝ) :
    Spec.Independent (Spec.along p G η) := by
  intro s k
  rw [Subsingleton.elim k 0]
  have hu : IsUnit ((Spec.bandMatrix p s 0)ᴴ * Spec.bandMatrix p s 0).det := gram_unit (hp s 0)
  have hcol : (fun (b : Fin nb) (a : Fin g) => Spec.bandMatrix (Spec.along p G η) s 0 a b)
      = (Spec.bandMatrix (Spec.along p G η) s 0).col := rfl
  rw [hcol, ← Matrix.mulVec_injective_iff]
  intro x y hxy
  have h1 := congrArg ((Spec.bandMatrix p s 0)ᴴ *ᵥ ·) hxy
  simp only [Matrix.mulVec_mulVec] at h1
  rw [bandMatrix_along, hG, Matrix.mul_add, Matrix.mul_smul, ritzGrad_orth F hu, smul_zero, add_zero] at h1
  have hinj := Matrix.mulVec_injective_iff_isUnit.2 ((Matrix.isUnit_iff_isUnit_det _).2 hu)
  exact hinj h1

theorem spectra_distance {ns g nb : ℕ} {qr : QR ℂ} (htri : Spec.Triangular qr) (hnb : nb ≤ g)
    {F : Matrix (Fin g) (Fin g) ℂ} {lam : Fin g → ℝ} (hl : Spec.IsSpectrum F lam) (p G : PwParams ns 1 g nb)
    (hp : Spec.Independent p) (s : Fin ns) (hG : Spec.bandMatrix G s 0 = ritzGrad F (Spec.bandMatrix p s 0))
    {e : Fin (min g nb) → ℝ}
    (he : Spec.IsSpectrum ((Matrix.of (unitaryMatrix qr p s 0))ᴴ * F * Matrix.of (unitaryMatrix qr p s 0)) e) :
    ∃ σ : Fin (min g nb) → Fin g, Function.Injective σ ∧
      ∀ b, |e b - lam (σ b)| ≤ Spec.paramSize G s 0 * Spec.paramSize p s 0 / 2 := by
  obtain ⟨R, hR⟩ := qr_factor htri p s
  obtain ⟨σ, h1, h2⟩ := ritz_distance hl (qr.orth _) he
  refine ⟨σ, h1, fun b => (h2 b).trans ?_⟩
  rw [paramSize_eq, paramSize_eq, hG]
  exact (ritz_residual (min_eq_right hnb) F (gram_unit (hp s 0)) (qr.orth _) hR).1

private theorem spectra_chosen {g nb m : ℕ} (hm : m = nb) {F : Matrix (Fin g) (Fin g) ℂ} {V : Matrix (Fin g) (Fin g) ℂ}
    {lam : Fin g → ℝ} (hlam : Monotone lam) (hV : Vᴴ * V = 1)
    (hF : F = V * Matrix.diagonal (fun i => (lam i : ℂ)) * Vᴴ) {τ : Fin nb → Fin g} (hτ : StrictMono τ)
    {Q : Matrix (Fin g) (Fin m) ℂ} (hQ : Qᴴ * Q = 1) {R : Matrix (Fin m) (Fin nb) ℂ} (hR : V.submatrix id τ = Q * R)
    {e : Fin m → ℝ} (he : Spec.IsSpectrum (Qᴴ * F * Q) e) :
    ritzGrad F (V.submatrix id τ) = 0 ∧ ∀ b, e b = lam (τ (Fin.cast hm b)) := by
  subst hm
  set W := V.submatrix id τ with hWdef
  have hW : Wᴴ * W = 1 := by
    rw [hWdef, Matrix.conjTranspose_submatrix, ← Matrix.submatrix_mul _ _ _ id _ Function.bijective_id, hV,
      Matrix.submatrix_one _ hτ.injective]
  have hFW : F * W = W * Matrix.diagonal (fun i => (lam (τ i) : ℂ)) := by
    have h1 : F * V = V * Matrix.diagonal (fun i => (lam i : ℂ)) := by
      rw [hF, Matrix.mul_assoc, hV, Matrix.mul_one]
    ext a b
    have h2 := congrFun (congrFun h1 a) (τ b)
    rw [Matrix.mul_diagonal] at h2 ⊢
    exact h2
  have hWFW : Wᴴ * F * W = Matrix.diagonal (fun i => (lam (τ i) : ℂ)) := by
    rw [Matrix.mul_assoc, hFW, ← Matrix.mul_assoc, hW, Matrix.one_mul]
  constructor
  · unfold ritzGrad
    rw [hW, hWFW, inv_one, Matrix.one_mul, hFW, sub_self, Matrix.zero_mul, smul_zero]
  · have hRR : Rᴴ * R = 1 := by
      rw [hR, Matrix.conjTranspose_mul, Matrix.mul_assoc, ← Matrix.mul_assoc Qᴴ, hQ, Matrix.one_mul] at hW
      exact hW
    have hs := spectrum_conj he hRR
    have e1 : Rᴴ * (Qᴴ * F * Q) * R = Wᴴ * F * W := by
      rw [hR, Matrix.conjTranspose_mul]
      simp only [Matrix.mul_assoc]
    rw [e1, hWFW] at hs
    have hd : Spec.IsSpectrum (Matrix.diagonal (fun i => (lam (τ i) : ℂ))) (fun i => lam (τ i)) :=
      ⟨fun a b hab => hlam (hτ.monotone hab), 1, one_mem _, by simp⟩
    exact congrFun (spectrum_unique hs hd)

private theorem chosen_params {ns g nb : ℕ} {qr : QR ℂ} (htri : Spec.Triangular qr) (hnb : nb ≤ g)
    {F : Matrix (Fin g) (Fin g) ℂ} {lam : Fin g → ℝ} (hl : Spec.IsSpectrum F lam) {τ : Fin nb → Fin g}
    (hτ : StrictMono τ) : ∃ p : PwParams ns 1 g nb, Spec.Independent p ∧
      Spec.IsParamGradient (spinTrace qr F) p ⟨fun _ _ _ _ => 0, fun _ _ _ _ => 0⟩ ∧
      ∀ s e, Spec.IsSpectrum ((Matrix.of (unitaryMatrix qr p s 0))ᴴ * F * Matrix.of (unitaryMatrix qr p s 0)) e →
        ∀ b, e b = lam (τ (Fin.cast (min_eq_right hnb) b)) := by
  have hherm := spectrum_hermitian hl
  obtain ⟨hmono, V, hV, hFV⟩ := hl
  have hV' : Vᴴ * V = 1 := Matrix.mem_unitaryGroup_iff'.1 hV
  let p : PwParams ns 1 g nb := ⟨fun _ _ a b => (V a (τ b)).re, fun _ _ a b => (V a (τ b)).im⟩
  have hW : ∀ s, Spec.bandMatrix p s 0 = V.submatrix id τ := fun s => by
    ext a b; rfl
  have hp : Spec.Independent p := by
    intro s k
    rw [Subsingleton.elim k 0]
    have hcol : (fun (b : Fin nb) (a : Fin g) => Spec.bandMatrix p s 0 a b) = (V.submatrix id τ).col := rfl
    rw [hcol, ← Matrix.mulVec_injective_iff]
    intro x y hxy
    have h1 := congrArg ((V.submatrix id τ)ᴴ *ᵥ ·) hxy
    have hWW : (V.submatrix id τ)ᴴ * V.submatrix id τ = 1 := by
      rw [Matrix.conjTranspose_submatrix, ← Matrix.submatrix_mul _ _ _ id _ Function.bijective_id, hV',
        Matrix.submatrix_one _ hτ.injective]
    simpa only [Matrix.mulVec_mulVec, hWW, Matrix.one_mulVec] using h1
  have hherm' : ∀ s, ((Matrix.of (unitaryMatrix qr p s 0))ᴴ * F * Matrix.of (unitaryMatrix qr p s 0)).IsHermitian := by
    intro s
    unfold Matrix.IsHermitian
    rw [Matrix.conjTranspose_mul, Matrix.conjTranspose_mul, Matrix.conjTranspose_conjTranspose, hherm.eq, Matrix.mul_assoc]
  refine ⟨p, hp, ?_, fun s e he b => ?_⟩
  · obtain ⟨G, hG, hG'⟩ := spinTrace_gradient htri hnb hherm p hp
    have : G = ⟨fun _ _ _ _ => 0, fun _ _ _ _ => 0⟩ := by
      have hz : ∀ s, Spec.bandMatrix G s 0 = 0 := by
        intro s
        obtain ⟨R, hR⟩ := qr_factor htri p s
        obtain ⟨e, he⟩ := exists_spectrum (hherm' s)
        rw [hG', hW]
        rw [hW] at hR
        exact (spectra_chosen (min_eq_right hnb) hmono hV' hFV hτ (qr.orth _) hR he).1
      obtain ⟨gr, gi⟩ := G
      congr 1
      · funext s k a b
        rw [Subsingleton.elim k 0]
        exact congrArg Complex.re (congrFun (congrFun (hz s) a) b)
      · funext s k a b
        rw [Subsingleton.elim k 0]
        exact congrArg Complex.im (congrFun (congrFun (hz s) a) b)
    rw [← this]
    exact hG
  · obtain ⟨R, hR⟩ := qr_factor htri p s
    rw [hW] at hR
    exact (spectra_chosen (min_eq_right hnb) hmono hV' hFV hτ (qr.orth _) hR he).2 b

theorem bandTrace_spin {na ns nb : ℕ} {n : Fin 3 → ℕ} (E : BandEnv na 1 n)
    (A : Matrix (Fin 3) (Fin 3) ℝ) (hA : A.det ≠ 0) (hg : E.g = gVectors A n) (hvol : 0 < E.vol)
    (V : Idx n → ℝ)
    (hV : ∀ x, V x = (hartreeRealSpace E.dens E.g true x + externalPotential E.pos E.charge E.g E.vol x
      + vxcDensity E.lib E.xc E.g E.dens 0 x).re)
    (k : Fin 3 → ℝ) (t : PwParams ns 1 (maskCount E.mask) nb → ℝ) (ht : ∀ q, bandTrace E q k = .ok (t q)) :
    t = spinTrace E.qr (Spec.planeWaveHamiltonian (fun a => gVectors A n (maskPos E.mask a)) (rVectors A n) V k) := by
  funext p
  have hb := basis_planeWave E A hA hg hvol (fun _ => V) (fun σ x => by
    rw [hV, Subsingleton.elim σ 0]) k
  rw [Fin.sum_univ_one] at hb
  obtain ⟨lam, hl⟩ := planeWaveHamiltonian_spectrum (fun a => gVectors A n (maskPos E.mask a)) (rVectors A n) V k
  obtain ⟨t', e, h1, h2, h3, -, -⟩ := bandTrace_bound E A hA hg hvol V hV p k lam hl
  rw [ht] at h1
  injection h1 with h1
  rw [h1, h3]
  unfold spinTrace
  refine Finset.sum_congr rfl fun s _ => ?_
  obtain ⟨e', g1, -, g3⟩ := bandEig_spectrum E p k _ hb s
  rw [h2 s] at g1
  injection g1 with g1
  rw [spectrum_trace g3, Complex.ofReal_re, g1]

/-- C123: wherever the bands of the parameters are independent, the objective of a k point has a gradient.  Each
reported energy is then within half the product of the lengths of gradient and parameters of its own exact
eigenvalue, different bands at different eigenvalues.  A step of any length along the gradient leaves the bands
independent. -/
theorem band_gradient_accuracy {na ns nb : ℕ} {n : Fin 3 → ℕ} (E : BandEnv na 1 n) (htri : Spec.Triangular E.qr)
    (hnb : nb ≤ maskCount E.mask)
    (A : Matrix (Fin 3) (Fin 3) ℝ) (hA : A.det ≠ 0) (hg : E.g = gVectors A n) (hvol : 0 < E.vol)
    (V : Idx n → ℝ)
    (hV : ∀ x, V x = (hartreeRealSpace E.dens E.g true x + externalPotential E.pos E.charge E.g E.vol x
      + vxcDensity E.lib E.xc E.g E.dens 0 x).re)
    (k : Fin 3 → ℝ) (lam : Fin (maskCount E.mask) → ℝ)
    (hl : Spec.IsSpectrum (Spec.planeWaveHamiltonian (fun a => gVectors A n (maskPos E.mask a))
      (rVectors A n) V k) lam)
    (t : PwParams ns 1 (maskCount E.mask) nb → ℝ) (ht : ∀ q, bandTrace E q k = .ok (t q))
    (p : PwParams ns 1 (maskCount E.mask) nb) (hp : Spec.Independent p) :
    (∃ G, Spec.IsParamGradient t p G) ∧ ∀ G, Spec.IsParamGradient t p G →
      (∀ η, Spec.Independent (Spec.along p G η)) ∧
      ∀ s, ∃ e, bandEig E p k s = .ok e ∧ ∃ σ : Fin (min (maskCount E.mask) nb) → Fin (maskCount E.mask),
        Function.Injective σ ∧ ∀ b, |e b - lam (σ b)| ≤ Spec.paramSize G s 0 * Spec.paramSize p s 0 / 2 := by
  rw [bandTrace_spin E A hA hg hvol V hV k t ht]
  obtain ⟨G, h1, h2⟩ := spinTrace_gradient htri hnb (spectrum_hermitian hl) p hp
  refine ⟨⟨G, h1⟩, fun G' hG' => ?_⟩
  obtain rfl := gradient_unique hG' h1
  refine ⟨step_independent p G' hp h2, fun s => ?_⟩
  have hb := basis_planeWave E A hA hg hvol (fun _ => V) (fun σ x => by
    rw [hV, Subsingleton.elim σ 0]) k
  rw [Fin.sum_univ_one] at hb
  obtain ⟨e, g1, -, g3⟩ := bandEig_spectrum E p k _ hb s
  exact ⟨e, g1, spectra_distance htri hnb hl p G' hp s (h2 s) g3⟩

private theorem zero_distance {ns g nb : ℕ} {p : PwParams ns 1 g nb} {s : Fin ns} {x y : ℝ}
    (h : |x - y| ≤ Spec.paramSize (⟨fun _ _ _ _ => 0, fun _ _ _ _ => 0⟩ : PwParams ns 1 g nb) s 0
      * Spec.paramSize p s 0 / 2) : x = y := by
  have h0 : Spec.paramSize (⟨fun _ _ _ _ => 0, fun _ _ _ _ => 0⟩ : PwParams ns 1 g nb) s 0 = 0 := by
    unfold Spec.paramSize
    simp
  rw [h0, zero_mul, zero_div] at h
  exact sub_eq_zero.1 (abs_nonpos_iff.1 h)

/-- C123 (part): where the gradient vanishes the reported energies are exact eigenvalues, none reported more often
than it occurs.  Missing: that they are the lowest ones, which need not be (`band_gradient_zero_any`). -/
theorem band_gradient_zero_partial {na ns nb : ℕ} {n : Fin 3 → ℕ} (E : BandEnv na 1 n) (htri : Spec.Triangular E.qr)
    (hnb : nb ≤ maskCount E.mask)
    (A : Matrix (Fin 3) (Fin 3) ℝ) (hA : A.det ≠ 0) (hg : E.g = gVectors A n) (hvol : 0 < E.vol)
    (V : Idx n → ℝ)
    (hV : ∀ x, V x = (hartreeRealSpace E.dens E.g true x + externalPotential E.pos E.charge E.g E.vol x
      + vxcDensity E.lib E.xc E.g E.dens 0 x).re)
    (k : Fin 3 → ℝ) (lam : Fin (maskCount E.mask) → ℝ)
    (hl : Spec.IsSpectrum (Spec.planeWaveHamiltonian (fun a => gVectors A n (maskPos E.mask a))
      (rVectors A n) V k) lam)
    (t : PwParams ns 1 (maskCount E.mask) nb → ℝ) (ht : ∀ q, bandTrace E q k = .ok (t q))
    (p : PwParams ns 1 (maskCount E.mask) nb) (hp : Spec.Independent p)
    (hz : Spec.IsParamGradient t p ⟨fun _ _ _ _ => 0, fun _ _ _ _ => 0⟩) (s : Fin ns) :
    ∃ e, bandEig E p k s = .ok e ∧ ∃ σ : Fin (min (maskCount E.mask) nb) → Fin (maskCount E.mask),
      Function.Injective σ ∧ ∀ b, e b = lam (σ b) := by
  obtain ⟨-, h⟩ := band_gradient_accuracy E htri hnb A hA hg hvol V hV k lam hl t ht p hp
  obtain ⟨e, h1, σ, h2, h3⟩ := (h _ hz).2 s
  exact ⟨e, h1, σ, h2, fun b => zero_distance (h3 b)⟩

/-- C123, the converse: every choice of exact eigenvalues is reported at some parameters where the gradient
vanishes. -/
theorem band_gradient_zero_any {na ns nb : ℕ} {n : Fin 3 → ℕ} (E : BandEnv na 1 n) (htri : Spec.Triangular E.qr)
    (hnb : nb ≤ maskCount E.mask)
    (A : Matrix (Fin 3) (Fin 3) ℝ) (hA : A.det ≠ 0) (hg : E.g = gVectors A n) (hvol : 0 < E.vol)
    (V : Idx n → ℝ)
    (hV : ∀ x, V x = (hartreeRealSpace E.dens E.g true x + externalPotential E.pos E.charge E.g E.vol x
      + vxcDensity E.lib E.xc E.g E.dens 0 x).re)
    (k : Fin 3 → ℝ) (lam : Fin (maskCount E.mask) → ℝ)
    (hl : Spec.IsSpectrum (Spec.planeWaveHamiltonian (fun a => gVectors A n (maskPos E.mask a))
      (rVectors A n) V k) lam)
    (t : PwParams ns 1 (maskCount E.mask) nb → ℝ) (ht : ∀ q, bandTrace E q k = .ok (t q))
    (τ : Fin nb → Fin (maskCount E.mask)) (hτ : StrictMono τ) :
    ∃ p, Spec.Independent p ∧ Spec.IsParamGradient t p ⟨fun _ _ _ _ => 0, fun _ _ _ _ => 0⟩ ∧
      ∀ s, ∃ e, bandEig E p k s = .ok e ∧ ∀ b, e b = lam (τ (Fin.cast (min_eq_right hnb) b)) := by
  rw [bandTrace_spin E A hA hg hvol V hV k t ht]
  obtain ⟨p, h1, h2, h3⟩ := chosen_params (ns := ns) htri hnb hl hτ
  refine ⟨p, h1, h2, fun s => ?_⟩
  have hb := basis_planeWave E A hA hg hvol (fun _ => V) (fun σ x => by
    rw [hV, Subsingleton.elim σ 0]) k
  rw [Fin.sum_univ_one] at hb
  obtain ⟨e, g1, -, g3⟩ := bandEig_spectrum E p k _ hb s
  exact ⟨e, g1, h3 s e g3⟩

/-- C123, refuted for the lowest energies: if two plane waves differ in kinetic energy, a calculation of one band
has parameters where the gradient vanishes and the reported energy is above the lowest eigenvalue. -/
theorem band_gradient_zero_not_lowest {na ns : ℕ} {n : Fin 3 → ℕ} (E : BandEnv na 1 n) (htri : Spec.Triangular E.qr)
    (A : Matrix (Fin 3) (Fin 3) ℝ) (hA : A.det ≠ 0) (hg : E.g = gVectors A n) (hvol : 0 < E.vol)
    (V : Idx n → ℝ)
    (hV : ∀ x, V x = (hartreeRealSpace E.dens E.g true x + externalPotential E.pos E.charge E.g E.vol x
      + vxcDensity E.lib E.xc E.g E.dens 0 x).re)
    (k : Fin 3 → ℝ) (lam : Fin (maskCount E.mask) → ℝ)
    (hl : Spec.IsSpectrum (Spec.planeWaveHamiltonian (fun a => gVectors A n (maskPos E.mask a))
      (rVectors A n) V k) lam)
    (hwaves : ∃ a b, Spec.kineticEnergy (fun d => gVectors A n (maskPos E.mask a) d + k d)
      ≠ Spec.kineticEnergy (fun d => gVectors A n (maskPos E.mask b) d + k d))
    (t : PwParams ns 1 (maskCount E.mask) 1 → ℝ) (ht : ∀ q, bandTrace E q k = .ok (t q)) :
    ∃ p, Spec.Independent p ∧ Spec.IsParamGradient t p ⟨fun _ _ _ _ => 0, fun _ _ _ _ => 0⟩ ∧
      ∀ s, ∃ e, bandEig E p k s = .ok e ∧ ∀ b, lam (Fin.castLE (min_le_left _ _) b) < e b := by
  obtain ⟨a, b, hab⟩ := hwaves
  have hN : 1 ≤ maskCount E.mask := a.pos
  have hex : ∃ j, lam ⟨0, hN⟩ < lam j := by
    by_contra hno
    push Not at hno
    have hc : lam = fun _ => lam ⟨0, hN⟩ := by
      funext j
      exact le_antisymm (hno j) (hl.1 (Fin.mk_le_mk.2 (Nat.zero_le _)))
    obtain ⟨-, U, hU, hH⟩ := hl
    rw [hc] at hH
    have hsc : Matrix.diagonal (fun _ : Fin (maskCount E.mask) => ((lam ⟨0, hN⟩ : ℝ) : ℂ))
        = ((lam ⟨0, hN⟩ : ℝ) : ℂ) • (1 : Matrix _ _ ℂ) := by
      rw [Matrix.smul_one_eq_diagonal]
    have hUU : U * Uᴴ = 1 := Matrix.mem_unitaryGroup_iff.1 hU
    rw [hsc, Matrix.mul_smul, Matrix.mul_one, Matrix.smul_mul, hUU] at hH
    have h1 := congrFun (congrFun hH a) a
    have h2 := congrFun (congrFun hH b) b
    rw [Matrix.smul_apply, Matrix.one_apply_eq] at h1 h2
    have h3 := h1.trans h2.symm
    unfold Spec.planeWaveHamiltonian at h3
    simp only [if_true, sub_self] at h3
    exact hab (by exact_mod_cast add_right_cancel h3)
  obtain ⟨j, hj⟩ := hex
  obtain ⟨p, h1, h2, h3⟩ := band_gradient_zero_any (ns := ns) E htri hN A hA hg hvol V hV k lam hl t ht (fun _ => j)
    (Subsingleton.strictMono _)
  refine ⟨p, h1, h2, fun s => ?_⟩
  obtain ⟨e, g1, g2⟩ := h3 s
  refine ⟨e, g1, fun b => ?_⟩
  rw [g2]
  have : Fin.castLE (min_le_left (maskCount E.mask) 1) b = ⟨0, hN⟩ := by
    apply Fin.ext
    have := b.2
    show (b : ℕ) = 0
    omega
  rw [this]
  exact hj

/-- Two plane waves with a QR routine that meets its full contract. -/
noncomputable def twoWaveTrained (lib : XcLib) : BandEnv 1 1 ![2, 1, 1] := { twoWaveBand lib 1 with qr := gramSchmidtQR ℂ }

theorem twoWave_waves : ∃ a b, Spec.kineticEnergy (fun d => gVectors 1 ![2, 1, 1]
      (maskPos (n := ![2, 1, 1]) (fun _ => true) a) d + (0 : Fin 3 → ℝ) d)
    ≠ Spec.kineticEnergy (fun d => gVectors 1 ![2, 1, 1] (maskPos (n := ![2, 1, 1]) (fun _ => true) b) d + (0 : Fin 3 → ℝ) d) := by
  refine ⟨⟨0, by decide⟩, ⟨1, by decide⟩, ?_⟩
  have e0 := gVectors_zero 1 ![2, 1, 1] (maskPos (n := ![2, 1, 1]) (fun _ => true) ⟨0, by decide⟩) (by decide)
  have e1 := gVectors_sq_pos 1 (by simp) ![2, 1, 1] (maskPos (n := ![2, 1, 1]) (fun _ => true) ⟨1, by decide⟩)
    ⟨0, by decide⟩
  simp only [Pi.zero_apply, add_zero]
  rw [e0]
  unfold Spec.kineticEnergy
  have e2 : Spec.dot (fun d => (0 : Fin 3 → ℝ) d) (fun d => (0 : Fin 3 → ℝ) d) = 0 := by simp [Spec.dot]
  rw [e2]
  have e3 : 0 < Spec.dot (gVectors 1 ![2, 1, 1] (maskPos (n := ![2, 1, 1]) (fun _ => true) ⟨1, by decide⟩))
    (gVectors 1 ![2, 1, 1] (maskPos (n := ![2, 1, 1]) (fun _ => true) ⟨1, by decide⟩)) / 2 := by linarith
  rw [zero_div]
  exact e3.ne

/-- The hypotheses of the theorems above are met: two plane waves at the zone centre, one band, which are there
independent parameters of gradient zero. -/
example (lib : XcLib) :
    Spec.Triangular (twoWaveTrained lib).qr ∧ 1 ≤ maskCount (twoWaveTrained lib).mask ∧
    (1 : Matrix (Fin 3) (Fin 3) ℝ).det ≠ 0 ∧ (twoWaveTrained lib).g = gVectors 1 ![2, 1, 1] ∧
    0 < (twoWaveTrained lib).vol ∧
    ∃ (V : Idx ![2, 1, 1] → ℝ) (lam : Fin (maskCount (twoWaveTrained lib).mask) → ℝ)
      (t : PwParams 2 1 (maskCount (twoWaveTrained lib).mask) 1 → ℝ),
      (∀ x, V x = (hartreeRealSpace (twoWaveTrained lib).dens (twoWaveTrained lib).g true x
        + externalPotential (twoWaveTrained lib).pos (twoWaveTrained lib).charge (twoWaveTrained lib).g 1 x
        + vxcDensity lib "lda_x" (twoWaveTrained lib).g (twoWaveTrained lib).dens 0 x).re) ∧
      Spec.IsSpectrum (Spec.planeWaveHamiltonian (fun a => gVectors 1 ![2, 1, 1]
        (maskPos (twoWaveTrained lib).mask a)) (rVectors 1 ![2, 1, 1]) V 0) lam ∧
      (∀ q, bandTrace (twoWaveTrained lib) q 0 = .ok (t q)) ∧
      ∃ p, Spec.Independent p ∧ Spec.IsParamGradient t p ⟨fun _ _ _ _ => 0, fun _ _ _ _ => 0⟩ ∧
        ∀ s, ∃ e, bandEig (twoWaveTrained lib) p 0 s = .ok e ∧ ∀ b, lam (Fin.castLE (min_le_left _ _) b) < e b := by
  let V : Idx ![2, 1, 1] → ℝ := fun x => (hartreeRealSpace (twoWaveTrained lib).dens (twoWaveTrained lib).g true x
        + externalPotential (twoWaveTrained lib).pos (twoWaveTrained lib).charge (twoWaveTrained lib).g 1 x
        + vxcDensity lib "lda_x" (twoWaveTrained lib).g (twoWaveTrained lib).dens 0 x).re
  obtain ⟨lam, hl⟩ := planeWaveHamiltonian_spectrum (fun a => gVectors 1 ![2, 1, 1]
        (maskPos (twoWaveTrained lib).mask a)) (rVectors 1 ![2, 1, 1]) V 0
  have hdet : (1 : Matrix (Fin 3) (Fin 3) ℝ).det ≠ 0 := by simp
  have hvol : 0 < (twoWaveTrained lib).vol := by norm_num [twoWaveTrained, twoWaveBand]
  have hex : ∀ q : PwParams 2 1 (maskCount (twoWaveTrained lib).mask) 1, ∃ t, bandTrace (twoWaveTrained lib) q 0 = .ok t :=
    fun q => by
      obtain ⟨t, e, h, -⟩ := bandTrace_bound (twoWaveTrained lib) 1 hdet rfl hvol V (fun _ => rfl) q 0 lam hl
      exact ⟨t, h⟩
  choose t ht using hex
  refine ⟨gramSchmidtQR_triangular ℂ, (by decide : 1 ≤ maskCount (n := ![2, 1, 1]) (fun _ => true)), hdet, rfl, hvol,
    V, lam, t, fun _ => rfl, hl, ht, ?_⟩
  exact band_gradient_zero_not_lowest (twoWaveTrained lib) (gramSchmidtQR_triangular ℂ) 1 hdet rfl hvol V (fun _ => rfl) 0
    lam hl twoWave_waves t ht

theorem bandTraceNC_spin {M nb : ℕ} {ι β : Type} [Fintype ι] {n : Fin 3 → ℕ} (hn : ∀ i, 0 < n i)
    (E : BandEnvNC 1 M ι β n)
    (A : Matrix (Fin 3) (Fin 3) ℝ) (hA : A.det ≠ 0) (hg : E.g = gVectors A n) (hvol : 0 < E.vol)
    (V : Idx n → ℝ)
    (hV : ∀ x, V x = (ifftn E.vloc x + hartreeRealSpace E.dens E.g true x
      + vxcDensity E.lib E.xc E.g E.dens 0 x).re)
    (k : (Fin 3 → ℝ) × β) (t : PwParams 1 1 (maskCount E.mask) nb → ℝ) (ht : ∀ q, bandTraceNC E q k = .ok (t q)) :
    t = spinTrace E.qr (Spec.planeWaveHamiltonian (fun a => gVectors A n (maskPos E.mask a)) (rVectors A n) V k.1
      + Spec.projectorMatrix E.vol (fun (i : ι × Fin M) a => E.psi k i.1 i.2 (maskPos E.mask a))) := by
  funext p
  obtain ⟨e, h1, -, h3⟩ := bandEigNC_eq E A hA hg hvol V hV p k
  replace h1 := h1 hn
  rw [ht] at h1
  injection h1 with h1
  rw [h1]
  unfold spinTrace
  rw [Fin.sum_univ_one, spectrum_trace h3, Complex.ofReal_re]

/-- C123 for the norm-conserving driver. -/
theorem band_gradient_accuracyNC {M nb : ℕ} {ι β : Type} [Fintype ι] {n : Fin 3 → ℕ} (hn : ∀ i, 0 < n i)
    (E : BandEnvNC 1 M ι β n) (htri : Spec.Triangular E.qr) (hnb : nb ≤ maskCount E.mask)
    (A : Matrix (Fin 3) (Fin 3) ℝ) (hA : A.det ≠ 0) (hg : E.g = gVectors A n) (hvol : 0 < E.vol)
    (V : Idx n → ℝ)
    (hV : ∀ x, V x = (ifftn E.vloc x + hartreeRealSpace E.dens E.g true x
      + vxcDensity E.lib E.xc E.g E.dens 0 x).re)
    (k : (Fin 3 → ℝ) × β) (lam : Fin (maskCount E.mask) → ℝ)
    (hl : Spec.IsSpectrum (Spec.planeWaveHamiltonian (fun a => gVectors A n (maskPos E.mask a))
        (rVectors A n) V k.1 + Spec.projectorMatrix E.vol
          (fun (i : ι × Fin M) a => E.psi k i.1 i.2 (maskPos E.mask a))) lam)
    (t : PwParams 1 1 (maskCount E.mask) nb → ℝ) (ht : ∀ q, bandTraceNC E q k = .ok (t q))
    (p : PwParams 1 1 (maskCount E.mask) nb) (hp : Spec.Independent p) :
    (∃ G, Spec.IsParamGradient t p G) ∧ ∀ G, Spec.IsParamGradient t p G →
      (∀ η, Spec.Independent (Spec.along p G η)) ∧
      ∃ e, bandEigNC E p k = .ok ⟨1, fun _ => e⟩ ∧ ∃ σ : Fin (min (maskCount E.mask) nb) → Fin (maskCount E.mask),
        Function.Injective σ ∧ ∀ b, |e b - lam (σ b)| ≤ Spec.paramSize G 0 0 * Spec.paramSize p 0 0 / 2 := by
  rw [bandTraceNC_spin hn E A hA hg hvol V hV k t ht]
  obtain ⟨G, h1, h2⟩ := spinTrace_gradient htri hnb (spectrum_hermitian hl) p hp
  refine ⟨⟨G, h1⟩, fun G' hG' => ?_⟩
  obtain rfl := gradient_unique hG' h1
  refine ⟨step_independent p G' hp h2, ?_⟩
  obtain ⟨e, -, g1, g3⟩ := bandEigNC_eq E A hA hg hvol V hV p k
  exact ⟨e, g1, spectra_distance htri hnb hl p G' hp 0 (h2 0) g3⟩

/-- C123 for the norm-conserving driver (part): where the gradient vanishes the reported energies are exact
eigenvalues.  Missing: that they are the lowest ones (`band_gradient_zero_anyNC`). -/
theorem band_gradient_zeroNC_partial {M nb : ℕ} {ι β : Type} [Fintype ι] {n : Fin 3 → ℕ} (hn : ∀ i, 0 < n i)
    (E : BandEnvNC 1 M ι β n) (htri : Spec.Triangular E.qr) (hnb : nb ≤ maskCount E.mask)
    (A : Matrix (Fin 3) (Fin 3) ℝ) (hA : A.det ≠ 0) (hg : E.g = gVectors A n) (hvol : 0 < E.vol)
    (V : Idx n → ℝ)
    (hV : ∀ x, V x = (ifftn E.vloc x + hartreeRealSpace E.dens E.g true x
      + vxcDensity E.lib E.xc E.g E.dens 0 x).re)
    (k : (Fin 3 → ℝ) × β) (lam : Fin (maskCount E.mask) → ℝ)
    (hl : Spec.IsSpectrum (Spec.planeWaveHamiltonian (fun a => gVectors A n (maskPos E.mask a))
        (rVectors A n) V k.1 + Spec.projectorMatrix E.vol
          (fun (i : ι × Fin M) a => E.psi k i.1 i.2 (maskPos E.mask a))) lam)
    (t : PwParams 1 1 (maskCount E.mask) nb → ℝ) (ht : ∀ q, bandTraceNC E q k = .ok (t q))
    (p : PwParams 1 1 (maskCount E.mask) nb) (hp : Spec.Independent p)
    (hz : Spec.IsParamGradient t p ⟨fun _ _ _ _ => 0, fun _ _ _ _ => 0⟩) :
    ∃ e, bandEigNC E p k = .ok ⟨1, fun _ => e⟩ ∧ ∃ σ : Fin (min (maskCount E.mask) nb) → Fin (maskCount E.mask),
      Function.Injective σ ∧ ∀ b, e b = lam (σ b) := by
  obtain ⟨-, h⟩ := band_gradient_accuracyNC hn E htri hnb A hA hg hvol V hV k lam hl t ht p hp
  obtain ⟨e, h1, σ, h2, h3⟩ := (h _ hz).2
  exact ⟨e, h1, σ, h2, fun b => zero_distance (h3 b)⟩

/-- C123 for the norm-conserving driver, the converse. -/
theorem band_gradient_zero_anyNC {M nb : ℕ} {ι β : Type} [Fintype ι] {n : Fin 3 → ℕ} (hn : ∀ i, 0 < n i)
    (E : BandEnvNC 1 M ι β n) (htri : Spec.Triangular E.qr) (hnb : nb ≤ maskCount E.mask)
    (A : Matrix (Fin 3) (Fin 3) ℝ) (hA : A.det ≠ 0) (hg : E.g = gVectors A n) (hvol : 0 < E.vol)
    (V : Idx n → ℝ)
    (hV : ∀ x, V x = (ifftn E.vloc x + hartreeRealSpace E.dens E.g true x
      + vxcDensity E.lib E.xc E.g E.dens 0 x).re)
    (k : (Fin 3 → ℝ) × β) (lam : Fin (maskCount E.mask) → ℝ)
    (hl : Spec.IsSpectrum (Spec.planeWaveHamiltonian (fun a => gVectors A n (maskPos E.mask a))
        (rVectors A n) V k.1 + Spec.projectorMatrix E.vol
          (fun (i : ι × Fin M) a => E.psi k i.1 i.2 (maskPos E.mask a))) lam)
    (t : PwParams 1 1 (maskCount E.mask) nb → ℝ) (ht : ∀ q, bandTraceNC E q k = .ok (t q))
    (τ : Fin nb → Fin (maskCount E.mask)) (hτ : StrictMono τ) :
    ∃ p, Spec.Independent p ∧ Spec.IsParamGradient t p ⟨fun _ _ _ _ => 0, fun _ _ _ _ => 0⟩ ∧
      ∃ e, bandEigNC E p k = .ok ⟨1, fun _ => e⟩ ∧ ∀ b, e b = lam (τ (Fin.cast (min_eq_right hnb) b)) := by
  rw [bandTraceNC_spin hn E A hA hg hvol V hV k t ht]
  obtain ⟨p, h1, h2, h3⟩ := chosen_params (ns := 1) htri hnb hl hτ
  refine ⟨p, h1, h2, ?_⟩
  obtain ⟨e, -, g1, g3⟩ := bandEigNC_eq E A hA hg hvol V hV p k
  exact ⟨e, g1, h3 0 e g3⟩

/-- The hypotheses of the theorems of the norm-conserving driver are met: two plane waves, one projector and one
band, with independent parameters of gradient zero that report the higher of the two energies. -/
example (lib : XcLib) :
    let E : BandEnvNC 1 1 (Fin 1) Unit ![2, 1, 1] := { twoWaveBandNC lib with qr := gramSchmidtQR ℂ }
    (∀ i, 0 < ![2, 1, 1] i) ∧ Spec.Triangular E.qr ∧ 1 ≤ maskCount E.mask ∧
    (1 : Matrix (Fin 3) (Fin 3) ℝ).det ≠ 0 ∧ E.g = gVectors 1 ![2, 1, 1] ∧ 0 < E.vol ∧
    ∃ (V : Idx ![2, 1, 1] → ℝ) (lam : Fin (maskCount E.mask) → ℝ) (t : PwParams 1 1 (maskCount E.mask) 1 → ℝ),
      (∀ x, V x = (ifftn E.vloc x + hartreeRealSpace E.dens E.g true x + vxcDensity lib "lda_x" E.g E.dens 0 x).re) ∧
      Spec.IsSpectrum (Spec.planeWaveHamiltonian (fun a => gVectors 1 ![2, 1, 1] (maskPos E.mask a))
        (rVectors 1 ![2, 1, 1]) V (fun _ => 1) + Spec.projectorMatrix E.vol
          (fun (i : Fin 1 × Fin 1) a => E.psi (fun _ => 1, ()) i.1 i.2 (maskPos E.mask a))) lam ∧
      (∀ q, bandTraceNC E q (fun _ => 1, ()) = .ok (t q)) ∧
      ∃ p, Spec.Independent p ∧ Spec.IsParamGradient t p ⟨fun _ _ _ _ => 0, fun _ _ _ _ => 0⟩ ∧
        ∃ e, bandEigNC E p (fun _ => 1, ()) = .ok ⟨1, fun _ => e⟩ ∧
          ∀ b, e b = lam ⟨1, (by decide : 1 < maskCount (n := ![2, 1, 1]) (fun _ => true))⟩ := by
  intro E
  have hn : ∀ i, 0 < ![2, 1, 1] i := by decide
  have hdet : (1 : Matrix (Fin 3) (Fin 3) ℝ).det ≠ 0 := by simp
  have hvol : 0 < E.vol := by norm_num [E, twoWaveBandNC]
  let V : Idx ![2, 1, 1] → ℝ := fun x =>
    (ifftn E.vloc x + hartreeRealSpace E.dens E.g true x + vxcDensity lib "lda_x" E.g E.dens 0 x).re
  obtain ⟨lam, hl⟩ := planeWaveHamiltonianNC_spectrum (fun a => gVectors 1 ![2, 1, 1] (maskPos E.mask a))
    (rVectors 1 ![2, 1, 1]) V (fun _ => 1) E.vol
    (fun (i : Fin 1 × Fin 1) a => E.psi (fun _ => 1, ()) i.1 i.2 (maskPos E.mask a))
  have hex : ∀ q : PwParams 1 1 (maskCount E.mask) 1, ∃ t, bandTraceNC E q (fun _ => 1, ()) = .ok t := fun q => by
    obtain ⟨t, e, h, -⟩ := bandTraceNC_bound hn E 1 hdet rfl hvol V (fun _ => rfl) q (fun _ => 1, ()) lam hl
    exact ⟨t, h⟩
  choose t ht using hex
  have hN : 1 ≤ maskCount E.mask := (by decide : 1 ≤ maskCount (n := ![2, 1, 1]) (fun _ => true))
  exact ⟨hn, gramSchmidtQR_triangular ℂ, hN, hdet, rfl, hvol, V, lam, t, fun _ => rfl, hl, ht,
    band_gradient_zero_anyNC hn E (gramSchmidtQR_triangular ℂ) hN 1 hdet rfl hvol V (fun _ => rfl) (fun _ => 1, ())
      lam hl t ht (fun _ => ⟨1, (by decide : 1 < maskCount (n := ![2, 1, 1]) (fun _ => true))⟩)
      (Subsingleton.strictMono _)⟩

end Jrystal
