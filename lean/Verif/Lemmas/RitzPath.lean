import Verif.Lemmas.RitzDescent

/- The eigenvalues in the column space along a run of gradient descent settle (C135). -/
namespace Jrystal
open scoped BigOperators ComplexConjugate Topology
open Matrix

namespace RitzDescent
variable {N m : ℕ}

private theorem root_bound {x : ℝ} (hx : 0 ≤ x) : |1 / Real.sqrt (1 + x) - 1| ≤ x := by
  have h1 : 1 ≤ Real.sqrt (1 + x) := Real.one_le_sqrt.2 (by linarith)
  have h2 : Real.sqrt (1 + x) ≤ 1 + x := by
    rw [Real.sqrt_le_left (by linarith)]
    nlinarith
  have h3 : 1 / Real.sqrt (1 + x) ≤ 1 := by rw [div_le_one (by linarith)]; exact h1
  have h4 : 1 - x ≤ 1 / Real.sqrt (1 + x) := by
    rw [le_div_iff₀ (by linarith)]
    rcases le_total x 1 with h | h
    · nlinarith [mul_le_mul_of_nonneg_left h2 (by linarith : 0 ≤ 1 - x)]
    · nlinarith
  rw [abs_le]
  constructor <;> linarith

/-- An orthonormal basis moved perpendicularly is made orthonormal by a matrix close to one. -/
theorem near_isometry {Q D : Matrix (Fin N) (Fin m) ℂ} (hQ : Qᴴ * Q = 1) (hD : Qᴴ * D = 0) :
    ∃ Y : Matrix (Fin m) (Fin m) ℂ, ((Q - D) * Y)ᴴ * ((Q - D) * Y) = 1 ∧ matSize (Y - 1) ≤ fs D := by
  obtain ⟨lam, ⟨-, V, hV, h⟩, h0, hs⟩ := spectrum_square D
  have hV1 : V * Vᴴ = 1 := Matrix.mem_unitaryGroup_iff.1 hV
  have hV2 : Vᴴ * V = 1 := Matrix.mem_unitaryGroup_iff'.1 hV
  have hD' : Dᴴ * Q = 0 := by
    have := congrArg Matrix.conjTranspose hD
    rwa [Matrix.conjTranspose_mul, Matrix.conjTranspose_conjTranspose, Matrix.conjTranspose_zero] at this
  set d : Fin m → ℂ := fun i => ((1 / Real.sqrt (1 + lam i) : ℝ) : ℂ) with hd
  have hstar : star d = d := by
    funext i
    rw [Pi.star_apply, RCLike.star_def, hd, Complex.conj_ofReal]
  refine ⟨V * Matrix.diagonal d * Vᴴ, ?_, ?_⟩
  · have e1 : (Q - D)ᴴ * (Q - D) = V * Matrix.diagonal (fun i => ((1 + lam i : ℝ) : ℂ)) * Vᴴ := by
      rw [Matrix.conjTranspose_sub, Matrix.sub_mul, Matrix.mul_sub, Matrix.mul_sub, hQ, hD, hD', sub_zero, zero_sub,
        sub_neg_eq_add, h]
      have : Matrix.diagonal (fun i => ((1 + lam i : ℝ) : ℂ)) = 1 + Matrix.diagonal fun i => (lam i : ℂ) := by
        rw [← Matrix.diagonal_one, Matrix.diagonal_add]
        congr 1
        funext i
        push_cast
        rfl
      rw [this, Matrix.mul_add, Matrix.add_mul, Matrix.mul_one, hV1]
    have e2 : (V * Matrix.diagonal d * Vᴴ)ᴴ = V * Matrix.diagonal d * Vᴴ := by
      rw [Matrix.conjTranspose_mul, Matrix.conjTranspose_mul, Matrix.conjTranspose_conjTranspose,
        Matrix.diagonal_conjTranspose, hstar, Matrix.mul_assoc]
    calc ((Q - D) * (V * Matrix.diagonal d * Vᴴ))ᴴ * ((Q - D) * (V * Matrix.diagonal d * Vᴴ))
        = V * Matrix.diagonal d * Vᴴ * ((Q - D)ᴴ * (Q - D)) * (V * Matrix.diagonal d * Vᴴ) := by
          rw [Matrix.conjTranspose_mul, e2]; simp only [Matrix.mul_assoc]
      _ = V * (Matrix.diagonal d * ((Vᴴ * V) * Matrix.diagonal (fun i => ((1 + lam i : ℝ) : ℂ)) * (Vᴴ * V))
            * Matrix.diagonal d) * Vᴴ := by rw [e1]; simp only [Matrix.mul_assoc]
      _ = V * Vᴴ := by
          rw [hV2, Matrix.one_mul, Matrix.mul_one, Matrix.diagonal_mul_diagonal, Matrix.diagonal_mul_diagonal]
          have : (fun i => d i * ((1 + lam i : ℝ) : ℂ) * d i) = fun _ => (1 : ℂ) := by
            funext i
            have hp : 0 < 1 + lam i := by linarith [h0 i]
            have hq := Real.mul_self_sqrt hp.le
            have hr : Real.sqrt (1 + lam i) ≠ 0 := (Real.sqrt_pos.2 hp).ne'
            rw [hd]
            beta_reduce
            rw [← Complex.ofReal_mul, ← Complex.ofReal_mul, ← Complex.ofReal_one]
            congr 1
            field_simp
            rw [sq, hq]
          rw [this, Matrix.diagonal_one, Matrix.mul_one]
      _ = 1 := hV1
  · have e1 : V * Matrix.diagonal d * Vᴴ - 1 = V * (Matrix.diagonal (fun i => d i - 1) * Vᴴ) := by
      have : Matrix.diagonal (fun i => d i - 1) = Matrix.diagonal d - 1 := by
        rw [← Matrix.diagonal_one, Matrix.diagonal_sub]
      rw [this, Matrix.sub_mul, Matrix.mul_sub, Matrix.one_mul, hV1, Matrix.mul_assoc]
    have e2 : matSize (Matrix.diagonal (fun i => d i - 1) * Vᴴ) = matSize (Matrix.diagonal fun i => d i - 1) := by
      rw [← matSize_conjTranspose, Matrix.conjTranspose_mul, Matrix.conjTranspose_conjTranspose, matSize_orth hV2,
        matSize_conjTranspose]
    rw [e1, matSize_orth hV2, e2]
    unfold matSize
    rw [Real.sqrt_le_left (fs_nonneg D)]
    have e3 : ∀ i, ∑ j, ‖Matrix.diagonal (fun i => d i - 1) i j‖ ^ 2 ≤ lam i * fs D := by
      intro i
      rw [Finset.sum_eq_single i (fun j _ hj => by rw [Matrix.diagonal_apply_ne' _ hj, norm_zero, zero_pow two_ne_zero])
        (fun h => absurd (Finset.mem_univ _) h), Matrix.diagonal_apply_eq]
      have h1 : ‖d i - 1‖ ≤ lam i := by
        rw [hd]
        beta_reduce
        rw [← Complex.ofReal_one, ← Complex.ofReal_sub, Complex.norm_real]
        exact root_bound (h0 i)
      have h2 : lam i ≤ fs D := by rw [← hs]; exact Finset.single_le_sum (fun j _ => h0 j) (Finset.mem_univ i)
      rw [sq]
      exact mul_le_mul h1 (h1.trans h2) (norm_nonneg _) (h0 i)
    refine (Finset.sum_le_sum fun i _ => e3 i).trans (le_of_eq ?_)
    rw [← Finset.sum_mul, hs, sq]

/-- How far the eigenvalues in the column space move when the parameters move by `δ` in the dual basis. -/
noncomputable def moveBound (f s δ : ℝ) : ℝ := (δ ^ 2 + δ * (δ ^ 2 + s)) * f * (2 * s)

theorem step_spectra {m' : ℕ} (hm : m' = m) {F : Matrix (Fin N) (Fin N) ℂ} {W W' X : Matrix (Fin N) (Fin m) ℂ}
    (hW : IsUnit (Wᴴ * W).det) (hX : Wᴴ * X = 0) (hW' : W' = W - X) {Q Q' : Matrix (Fin N) (Fin m') ℂ} (hQ : Qᴴ * Q = 1)
    (hQ' : Q'ᴴ * Q' = 1) {R R' : Matrix (Fin m') (Fin m) ℂ} (hR : W = Q * R) (hR' : W' = Q' * R') {e e' : Fin m' → ℝ}
    (he : Spec.IsSpectrum (Qᴴ * F * Q) e) (he' : Spec.IsSpectrum (Q'ᴴ * F * Q') e') (b : Fin m') :
    |e' b - e b| ≤ moveBound (matSize F) (matSize (1 : Matrix (Fin m) (Fin m) ℂ))
      (matSize X * matSize (W * (Wᴴ * W)⁻¹)) := by
  subst hm
  have hS : Wᴴ * W = Rᴴ * R := by
    rw [hR, Matrix.conjTranspose_mul, Matrix.mul_assoc, ← Matrix.mul_assoc Qᴴ, hQ, Matrix.one_mul]
  have hdet : IsUnit R.det := by
    rw [hS, Matrix.det_mul] at hW
    exact isUnit_of_mul_isUnit_right hW
  have hdet' : IsUnit Rᴴ.det := by
    rw [hS, Matrix.det_mul] at hW
    exact isUnit_of_mul_isUnit_left hW
  have hQX : Qᴴ * X = 0 := by
    have h1 : Rᴴ * (Qᴴ * X) = 0 := by rw [← Matrix.mul_assoc, ← Matrix.conjTranspose_mul, ← hR, hX]
    have h2 := congrArg (Rᴴ⁻¹ * ·) h1
    simpa only [← Matrix.mul_assoc, Matrix.nonsing_inv_mul _ hdet', Matrix.one_mul, Matrix.mul_zero] using h2
  have hL : matSize (W * (Wᴴ * W)⁻¹) = matSize R⁻¹ := by
    have : W * (Wᴴ * W)⁻¹ = Q * (R⁻¹)ᴴ := by
      rw [hS, Matrix.mul_inv_rev, Matrix.conjTranspose_nonsing_inv, hR, Matrix.mul_assoc, ← Matrix.mul_assoc R,
        Matrix.mul_nonsing_inv _ hdet, Matrix.one_mul]
    rw [this, matSize_orth hQ, matSize_conjTranspose]
  rw [hL]
  set s := matSize (1 : Matrix (Fin m') (Fin m') ℂ) with hs
  set D := X * R⁻¹ with hD
  set δ := matSize X * matSize R⁻¹ with hδ
  have hδ0 : 0 ≤ δ := mul_nonneg (matSize_nonneg _) (matSize_nonneg _)
  have hDδ : matSize D ≤ δ := matSize_mul _ _
  obtain ⟨Y, hY, hY1⟩ := near_isometry (D := D) hQ (by rw [hD, ← Matrix.mul_assoc, hQX, Matrix.zero_mul])
  have hY2 : matSize (Y - 1) ≤ δ ^ 2 := hY1.trans (pow_le_pow_left₀ (matSize_nonneg _) hDδ 2)
  have hY3 : matSize Y ≤ δ ^ 2 + s := by
    have := matSize_add (Y - 1) 1
    rw [sub_add_cancel] at this
    linarith
  set Z := (Q - D) * Y with hZ
  have hZW : Z = Q' * (R' * R⁻¹ * Y) := by
    have : Q - D = W' * R⁻¹ := by
      rw [hW', Matrix.sub_mul, ← hD, hR, Matrix.mul_assoc, Matrix.mul_nonsing_inv _ hdet, Matrix.mul_one]
    rw [hZ, this, hR']
    simp only [Matrix.mul_assoc]
  have hT : (R' * R⁻¹ * Y)ᴴ * (R' * R⁻¹ * Y) = 1 := by
    rw [hZW, Matrix.conjTranspose_mul Q', Matrix.mul_assoc, ← Matrix.mul_assoc Q'ᴴ, hQ', Matrix.one_mul] at hY
    exact hY
  have hspec : Spec.IsSpectrum (Zᴴ * F * Z) e' := by
    have := spectrum_conj he' hT
    rw [hZW, Matrix.conjTranspose_mul Q']
    simpa only [Matrix.mul_assoc] using this
  have hZs : matSize Z = s := by
    rw [hs, ← matSize_orth hY (1 : Matrix (Fin m') (Fin m') ℂ), Matrix.mul_one]
  have hQs : matSize Q = s := by
    rw [hs, ← matSize_orth hQ (1 : Matrix (Fin m') (Fin m') ℂ), Matrix.mul_one]
  set P := Z - Q with hP
  have hPb : matSize P ≤ δ ^ 2 + δ * (δ ^ 2 + s) := by
    have e1 : P = Q * (Y - 1) - D * Y := by
      rw [hP, hZ, Matrix.sub_mul, Matrix.mul_sub, Matrix.mul_one]
      abel
    rw [e1]
    refine (matSize_sub _ _).trans (add_le_add ?_ ?_)
    · rw [matSize_orth hQ]; exact hY2
    · exact (matSize_mul _ _).trans (mul_le_mul hDδ hY3 (matSize_nonneg _) hδ0)
  have hdiff : Zᴴ * F * Z - Qᴴ * F * Q = Pᴴ * (F * Z) + Qᴴ * (F * P) := by
    rw [hP, Matrix.conjTranspose_sub]
    simp only [Matrix.mul_sub, Matrix.sub_mul, Matrix.mul_assoc]
    abel
  refine (spectrum_near hspec he b).trans ?_
  rw [hdiff]
  have f0 := matSize_nonneg F
  have s0 : 0 ≤ s := matSize_nonneg _
  have g1 : matSize (Pᴴ * (F * Z)) ≤ matSize P * (matSize F * s) := by
    refine (matSize_mul _ _).trans ?_
    rw [matSize_conjTranspose]
    exact mul_le_mul_of_nonneg_left ((matSize_mul _ _).trans (le_of_eq (by rw [hZs]))) (matSize_nonneg _)
  have g2 : matSize (Qᴴ * (F * P)) ≤ s * (matSize F * matSize P) := by
    refine (matSize_mul _ _).trans ?_
    rw [matSize_conjTranspose, hQs]
    exact mul_le_mul_of_nonneg_left (matSize_mul _ _) s0
  refine (matSize_add _ _).trans ((add_le_add g1 g2).trans ?_)
  have g3 := mul_le_mul_of_nonneg_right hPb (mul_nonneg f0 s0)
  unfold moveBound
  nlinarith

/-- Along a run of gradient descent the eigenvalues in the column space move less and less. -/
theorem descent_moves {m' : ℕ} (hm : m' = m) {F : Matrix (Fin N) (Fin N) ℂ} {lam : Fin N → ℝ}
    (hl : Spec.IsSpectrum F lam) (W : ℕ → Matrix (Fin N) (Fin m) ℂ) (hW : IsUnit ((W 0)ᴴ * W 0).det) {η : ℕ → ℝ} {a c : ℝ}
    (ha : 0 < a) (hη : ∀ t, a ≤ η t ∧ η t ≤ c) (hstep : ∀ t, W (t + 1) = W t - (η t : ℂ) • ritzGrad F (W t))
    (Q : ℕ → Matrix (Fin N) (Fin m') ℂ) (hQ : ∀ t, (Q t)ᴴ * Q t = 1) (hR : ∀ t, ∃ R, W t = Q t * R) (e : ℕ → Fin m' → ℝ)
    (he : ∀ t, Spec.IsSpectrum ((Q t)ᴴ * F * Q t) (e t)) (b : Fin m') :
    Filter.Tendsto (fun t => |e (t + 1) b - e t b|) Filter.atTop (𝓝 0) := by
  obtain ⟨hu, hL, -, -, hG⟩ := ritz_descent hl W hW ha hη hstep
  choose R hR using hR
  have hδ : Filter.Tendsto (fun t => matSize ((η t : ℂ) • ritzGrad F (W t)) * matSize (W t * ((W t)ᴴ * W t)⁻¹))
      Filter.atTop (𝓝 0) := by
    have h1 := (hG.const_mul c).mul_const (matSize (W 0 * ((W 0)ᴴ * W 0)⁻¹))
    rw [mul_zero, zero_mul] at h1
    refine squeeze_zero (fun t => mul_nonneg (matSize_nonneg _) (matSize_nonneg _)) (fun t => ?_) h1
    have hη0 : 0 ≤ η t := ha.le.trans (hη t).1
    refine mul_le_mul ?_ ((pow_le_pow_iff_left₀ (matSize_nonneg _) (matSize_nonneg _) two_ne_zero).1 (hL t)) (matSize_nonneg _)
      (mul_nonneg (hη0.trans (hη t).2) (matSize_nonneg _))
    rw [matSize_smul, abs_of_nonneg hη0]
    exact mul_le_mul_of_nonneg_right (hη t).2 (matSize_nonneg _)
  have hb : Filter.Tendsto (fun t => moveBound (matSize F) (matSize (1 : Matrix (Fin m) (Fin m) ℂ))
      (matSize ((η t : ℂ) • ritzGrad F (W t)) * matSize (W t * ((W t)ᴴ * W t)⁻¹))) Filter.atTop (𝓝 0) := by
    have hc : Continuous (moveBound (matSize F) (matSize (1 : Matrix (Fin m) (Fin m) ℂ))) := by
      unfold moveBound
      fun_prop
    have h := (hc.tendsto 0).comp hδ
    have h0 : moveBound (matSize F) (matSize (1 : Matrix (Fin m) (Fin m) ℂ)) 0 = 0 := by
      unfold moveBound; ring
    rw [h0] at h
    exact h
  refine squeeze_zero (fun t => abs_nonneg _) (fun t => ?_) hb
  exact step_spectra hm (hu t) (by rw [Matrix.mul_smul, ritzGrad_orth F (hu t), smul_zero]) (hstep t) (hQ t) (hQ (t + 1))
    (hR t) (hR (t + 1)) (he t) (he (t + 1)) b

/-- Sequences that move less and less and come close to finitely many numbers converge to some of them. -/
theorem settle {M : ℕ} (e : ℕ → Fin m → ℝ) (lam : Fin M → ℝ)
    (h1 : ∀ b, Filter.Tendsto (fun t => |e (t + 1) b - e t b|) Filter.atTop (𝓝 0))
    (h2 : ∀ ε > 0, ∃ T, ∀ t ≥ T, ∃ σ : Fin m → Fin M, Function.Injective σ ∧ ∀ b, |e t b - lam (σ b)| ≤ ε) :
    ∃ σ : Fin m → Fin M, Function.Injective σ ∧ ∀ b, Filter.Tendsto (fun t => e t b) Filter.atTop (𝓝 (lam (σ b))) := by
  obtain ⟨δ, hsep, hδ⟩ : ∃ δ : ℝ, (∀ i j, lam i ≠ lam j → δ ≤ |lam i - lam j|) ∧ 0 < δ := by
    have hev : ∀ᶠ δ : ℝ in 𝓝[>] 0, ∀ i j, lam i ≠ lam j → δ ≤ |lam i - lam j| := by
      refine Filter.eventually_all.2 fun i => Filter.eventually_all.2 fun j => ?_
      by_cases h : lam i = lam j
      · exact Filter.Eventually.of_forall fun δ hne => absurd h hne
      · have hp : 0 < |lam i - lam j| := abs_pos.2 (sub_ne_zero.2 h)
        filter_upwards [nhdsWithin_le_nhds (gt_mem_nhds hp)] with δ hd _
        exact hd.le
    exact (hev.and self_mem_nhdsWithin).exists
  have hq : 0 < δ / 4 := by linarith
  obtain ⟨T1, hT1⟩ := h2 (δ / 4) hq
  obtain ⟨T2, hT2⟩ : ∃ T2, ∀ t ≥ T2, ∀ b, |e (t + 1) b - e t b| < δ / 4 :=
    Filter.eventually_atTop.1 (Filter.eventually_all.2 fun b => (h1 b).eventually (gt_mem_nhds hq))
  have same : ∀ {i j : Fin M}, |lam i - lam j| < δ → lam i = lam j := by
    intro i j h
    by_contra hne
    exact absurd (hsep i j hne) (not_le.2 h)
  obtain ⟨σ, hσ, hσe⟩ := hT1 (max T1 T2) (le_max_left _ _)
  have stay : ∀ k, ∀ b, |e (max T1 T2 + k) b - lam (σ b)| ≤ δ / 4 := by
    intro k
    induction k with
    | zero => exact hσe
    | succ k ih =>
      intro b
      obtain ⟨τ, -, hτ⟩ := hT1 (max T1 T2 + k + 1) (by have := le_max_left T1 T2; omega)
      have g1 := abs_le.1 (hτ b)
      have g2 := abs_le.1 (ih b)
      have g3 := abs_lt.1 (hT2 (max T1 T2 + k) (by have := le_max_right T1 T2; omega) b)
      have : lam (τ b) = lam (σ b) := same (by rw [abs_lt]; constructor <;> linarith)
      rw [← this]
      exact hτ b
  refine ⟨σ, hσ, fun b => Metric.tendsto_atTop.2 fun ε hε => ?_⟩
  obtain ⟨T3, hT3⟩ := h2 (min (ε / 2) (δ / 4)) (lt_min (by linarith) hq)
  refine ⟨max (max T1 T2) T3, fun t ht => ?_⟩
  obtain ⟨τ, -, hτ⟩ := hT3 t ((le_max_right _ _).trans ht)
  obtain ⟨k, rfl⟩ := Nat.exists_eq_add_of_le ((le_max_left _ _).trans ht)
  have g1 := abs_le.1 ((hτ b).trans (min_le_right _ _))
  have g2 := abs_le.1 (stay k b)
  have : lam (τ b) = lam (σ b) := same (by rw [abs_lt]; constructor <;> linarith)
  rw [Real.dist_eq, ← this]
  exact lt_of_le_of_lt ((hτ b).trans (min_le_left _ _)) (by linarith)

private theorem trace_shift {F K : Matrix (Fin N) (Fin N) ℂ} {x : ℝ} (hK : F + (x : ℂ) • 1 = Kᴴ * K)
    {W : Matrix (Fin N) (Fin m) ℂ} (hW : IsUnit (Wᴴ * W).det) :
    ((Wᴴ * W)⁻¹ * ((K * W)ᴴ * (K * W))).trace.re = ((Wᴴ * W)⁻¹ * (Wᴴ * F * W)).trace.re + x * m := by
  have h1 : (K * W)ᴴ * (K * W) = Wᴴ * F * W + (x : ℂ) • (Wᴴ * W) := by
    rw [Matrix.conjTranspose_mul, Matrix.mul_assoc, ← Matrix.mul_assoc Kᴴ, ← hK, Matrix.add_mul, Matrix.mul_add,
      Matrix.smul_mul, Matrix.one_mul, Matrix.mul_smul, Matrix.mul_assoc]
  rw [h1, Matrix.mul_add, Matrix.mul_smul, Matrix.nonsing_inv_mul _ hW, Matrix.trace_add, Matrix.trace_smul, Matrix.trace_one,
    Complex.add_re, smul_eq_mul, Fintype.card_fin, ← Complex.ofReal_natCast, ← Complex.ofReal_mul, Complex.ofReal_re]

/-- A step of gradient descent that is short enough for the size of the dual basis does not raise the trace. -/
theorem ritz_falls {F : Matrix (Fin N) (Fin N) ℂ} {lam : Fin N → ℝ} (hl : Spec.IsSpectrum F lam) (m : ℕ) :
    ∃ h, 0 ≤ h ∧ ∀ (W W' : Matrix (Fin N) (Fin m) ℂ) (η : ℝ), IsUnit (Wᴴ * W).det → 0 ≤ η →
      η * (h * fs (W * (Wᴴ * W)⁻¹)) ≤ 1 → W' = W - (η : ℂ) • ritzGrad F W →
      ((W'ᴴ * W')⁻¹ * (W'ᴴ * F * W')).trace.re ≤ ((Wᴴ * W)⁻¹ * (Wᴴ * F * W)).trace.re := by
  obtain ⟨x, K, hK⟩ := shifted_square hl
  refine ⟨fs K, fs_nonneg K, fun W W' η hW hη hs hstep => ?_⟩
  rw [← ritzGrad_shift F hW x, hK] at hstep
  set G := ritzGrad (Kᴴ * K) W with hG
  have hgram : W'ᴴ * W' = Wᴴ * W + ((η : ℂ) • G)ᴴ * ((η : ℂ) • G) := by rw [hstep, step_gram hW]
  have hW' : IsUnit (W'ᴴ * W').det := by
    rw [hgram]
    obtain ⟨d, h1, h2⟩ := det_growth hW ((η : ℂ) • G)
    rw [h1]
    refine hW.mul (isUnit_iff_ne_zero.2 (Complex.ofReal_ne_zero.2 (ne_of_gt ?_)))
    linarith [fs_nonneg ((η : ℂ) • G * (W * (Wᴴ * W)⁻¹)ᴴ)]
  have h1 := inv_drop hW (D := (η : ℂ) • G) (by rw [← hgram]; exact hW') (by rw [← hgram]; exact gram_inv_star) (K * W')
  rw [← hgram, step_energy hW η W' hstep, trace_shift hK hW, trace_shift hK hW'] at h1
  have h2 : fs (W * (Wᴴ * W)⁻¹ * (K * G)ᴴ) ≤ fs (W * (Wᴴ * W)⁻¹) * (fs K * fs G) := by
    refine (fs_mul _ _).trans (mul_le_mul_of_nonneg_left ?_ (fs_nonneg _))
    rw [fs_star]
    exact fs_mul K G
  have h3 := mul_le_mul_of_nonneg_left h2 (sq_nonneg η)
  have h4 := mul_le_mul_of_nonneg_right hs (mul_nonneg hη (fs_nonneg G))
  rw [← hG] at h1
  nlinarith

/-- Ordered eigenvalues whose sum is less than a gap above that of the lowest ones are the lowest ones. -/
theorem lowest_of_sum {M : ℕ} (hm : m < M) (hm0 : 0 < m) {lam : Fin M → ℝ} (hlam : Monotone lam) {x : Fin m → ℝ}
    (hx : Monotone x) (hge : ∀ b, lam (Fin.castLE hm.le b) ≤ x b) {σ : Fin m → Fin M} (hσ : Function.Injective σ)
    (hxσ : ∀ b, x b = lam (σ b))
    (hsum : ∑ b, x b < ∑ b, lam (Fin.castLE hm.le b) + (lam ⟨m, hm⟩ - lam ⟨m - 1, by omega⟩)) (b : Fin m) :
    x b = lam (Fin.castLE hm.le b) := by
  have hlow : ∀ b, (σ b).val < m := by
    intro b
    by_contra hb
    have h1 : lam ⟨m, hm⟩ ≤ x b := by rw [hxσ]; exact hlam (Fin.le_def.2 (not_lt.1 hb))
    have h2 : x b ≤ x ⟨m - 1, by omega⟩ := hx (Fin.le_def.2 (by have := b.isLt; simp only; omega))
    have h3 := Finset.single_le_sum (f := fun b => x b - lam (Fin.castLE hm.le b)) (fun b _ => sub_nonneg.2 (hge b))
      (Finset.mem_univ (⟨m - 1, by omega⟩ : Fin m))
    rw [Finset.sum_sub_distrib] at h3
    have h4 : lam (Fin.castLE hm.le ⟨m - 1, by omega⟩) = lam ⟨m - 1, by omega⟩ := rfl
    simp only [h4] at h3
    linarith
  let τ : Fin m → Fin m := fun b => ⟨(σ b).val, hlow b⟩
  have hτ : Function.Bijective τ := Finite.injective_iff_bijective.1 fun a b h => hσ (Fin.ext (Fin.mk.inj_iff.1 h))
  have heq : ∑ b, lam (Fin.castLE hm.le b) = ∑ b, x b := by
    rw [← Equiv.sum_comp (Equiv.ofBijective τ hτ) fun b => lam (Fin.castLE hm.le b)]
    exact Finset.sum_congr rfl fun b _ => (hxσ b).symm
  exact ((Finset.sum_eq_sum_iff_of_le fun b _ => hge b).1 heq b (Finset.mem_univ b)).symm

end RitzDescent
end Jrystal
