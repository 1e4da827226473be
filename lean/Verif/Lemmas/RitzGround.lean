import Verif.Lemmas.RitzPath

/- Along a run of gradient descent the overlap with the lowest state never shrinks (C137). -/
namespace Jrystal
open scoped BigOperators ComplexConjugate Topology
open Matrix

namespace RitzDescent
variable {N m : ℕ}

private theorem fs_add (A B : Matrix (Fin m) (Fin 1) ℂ) (x : ℝ) :
    fs A + 2 * x * (Aᴴ * B).trace.re ≤ fs (A + (x : ℂ) • B) := by
  have h1 : ((fs (A + (x : ℂ) • B) : ℝ) : ℂ)
      = (fs A : ℝ) + (x : ℂ) * ((Aᴴ * B).trace + (Bᴴ * A).trace) + ((x * x * fs B : ℝ) : ℂ) := by
    rw [fs_trace, Matrix.conjTranspose_add, Matrix.conjTranspose_smul, Matrix.add_mul, Matrix.mul_add, Matrix.mul_add,
      RCLike.star_def, Complex.conj_ofReal, Matrix.mul_smul, Matrix.smul_mul, Matrix.smul_mul, Matrix.mul_smul,
      Matrix.trace_add, Matrix.trace_add, Matrix.trace_add, Matrix.trace_smul, Matrix.trace_smul, Matrix.trace_smul,
      Matrix.trace_smul, ← fs_trace, ← fs_trace]
    push_cast
    simp only [smul_eq_mul]
    ring
  have h2 : (Bᴴ * A).trace.re = (Aᴴ * B).trace.re := by
    have : Bᴴ * A = (Aᴴ * B)ᴴ := by rw [Matrix.conjTranspose_mul, Matrix.conjTranspose_conjTranspose]
    rw [this, Matrix.trace_conjTranspose, RCLike.star_def, Complex.conj_re]
  have h3 := congrArg Complex.re h1
  rw [Complex.add_re, Complex.add_re, Complex.ofReal_re, Complex.ofReal_re, Complex.ofReal_re, Complex.re_ofReal_mul,
    Complex.add_re, h2] at h3
  have h4 := mul_nonneg (mul_self_nonneg x) (fs_nonneg B)
  linarith

private theorem form_lower {H : Matrix (Fin m) (Fin m) ℂ} {e : Fin m → ℝ} (he : Spec.IsSpectrum H e) {x : ℝ} (hx : ∀ i, x ≤ e i)
    (q : Matrix (Fin m) (Fin 1) ℂ) : x * fs q ≤ (qᴴ * H * q).trace.re := by
  obtain ⟨-, V, hV, rfl⟩ := he
  have hV1 : V * Vᴴ = 1 := Matrix.mem_unitaryGroup_iff.1 hV
  have hq : fs q = fs (Vᴴ * q) := by
    unfold fs
    rw [matSize_orth (by rw [Matrix.conjTranspose_conjTranspose]; exact hV1)]
  have hform : qᴴ * (V * Matrix.diagonal (fun i => (e i : ℂ)) * Vᴴ) * q
      = (Vᴴ * q)ᴴ * (Matrix.diagonal (fun i => (e i : ℂ)) * (Vᴴ * q)) := by
    rw [Matrix.conjTranspose_mul, Matrix.conjTranspose_conjTranspose]
    simp only [Matrix.mul_assoc]
  rw [hq, hform]
  set w := Vᴴ * q
  have h1 : fs w = ∑ i, ‖w i 0‖ ^ 2 := by
    unfold fs matSize
    rw [Real.sq_sqrt (Finset.sum_nonneg fun i _ => Finset.sum_nonneg fun j _ => sq_nonneg _)]
    exact Finset.sum_congr rfl fun i _ => by rw [Fin.sum_univ_one]
  have h2 : (wᴴ * (Matrix.diagonal (fun i => (e i : ℂ)) * w)).trace.re = ∑ i, e i * ‖w i 0‖ ^ 2 := by
    rw [Matrix.trace, Fin.sum_univ_one, Matrix.diag_apply, Matrix.mul_apply, Complex.re_sum]
    refine Finset.sum_congr rfl fun i _ => ?_
    rw [Matrix.diagonal_mul, Matrix.conjTranspose_apply, RCLike.star_def, mul_left_comm, ← Complex.normSq_eq_conj_mul_self,
      ← Complex.ofReal_mul, Complex.ofReal_re, Complex.normSq_eq_norm_sq]
  rw [h1, h2, Finset.mul_sum]
  exact Finset.sum_le_sum fun i _ => mul_le_mul_of_nonneg_right (hx i) (sq_nonneg _)

/-- The overlap of the columns with an eigenvector grows in a step by how much its eigenvalue lies below those in the column
space. -/
theorem ground_step {m' : ℕ} {F : Matrix (Fin N) (Fin N) ℂ} (hF : F.IsHermitian) {W W' : Matrix (Fin N) (Fin m) ℂ}
    (hW : IsUnit (Wᴴ * W).det) {η : ℝ} (hη : 0 ≤ η) (hstep : W' = W - (η : ℂ) • ritzGrad F W) {U : Matrix (Fin N) (Fin 1) ℂ}
    {l : ℝ} (hU : F * U = (l : ℂ) • U) {Q : Matrix (Fin N) (Fin m') ℂ} (hQ : Qᴴ * Q = 1) {R : Matrix (Fin m') (Fin m) ℂ}
    (hR : W = Q * R) {e : Fin m' → ℝ} (he : Spec.IsSpectrum (Qᴴ * F * Q) e) {x : ℝ} (hx : ∀ i, x ≤ e i) (hlx : l ≤ x)
    {B : ℝ} (hB : 0 < B) (hWB : fs W ≤ B) :
    fs (Wᴴ * U) * (1 + 4 * η * (x - l) / B) ≤ fs (W'ᴴ * U) := by
  set v := Wᴴ * U with hv
  set y := (Wᴴ * W)⁻¹ * v with hy
  set z := W * y with hz
  have hMy : Wᴴ * z = v := by
    rw [hz, hy, ← Matrix.mul_assoc, ← Matrix.mul_assoc, Matrix.mul_nonsing_inv _ hW, Matrix.one_mul]
  have hFU : Wᴴ * F * U = (l : ℂ) • v := by rw [Matrix.mul_assoc, hU, Matrix.mul_smul]
  have hGU : (ritzGrad F W)ᴴ * U = (2 : ℂ) • ((Wᴴ * W)⁻¹ * ((l : ℂ) • v - Wᴴ * F * z)) := by
    unfold ritzGrad
    rw [Matrix.conjTranspose_smul, Matrix.conjTranspose_mul, Matrix.conjTranspose_sub, Matrix.conjTranspose_mul,
      Matrix.conjTranspose_mul, Matrix.conjTranspose_mul, Matrix.conjTranspose_mul, Matrix.conjTranspose_mul,
      Matrix.conjTranspose_conjTranspose, gram_inv_star, hF.eq, Matrix.smul_mul, Matrix.mul_assoc, Matrix.sub_mul, hFU]
    congr 1
    · simp
    · congr 2
      rw [hz, hy, hv]
      simp only [Matrix.mul_assoc]
  have hv' : W'ᴴ * U = v + ((2 * η : ℝ) : ℂ) • ((Wᴴ * W)⁻¹ * (Wᴴ * F * z - (l : ℂ) • v)) := by
    rw [hstep, Matrix.conjTranspose_sub, Matrix.conjTranspose_smul, Matrix.sub_mul, Matrix.smul_mul, hGU, RCLike.star_def,
      Complex.conj_ofReal, ← neg_sub (Wᴴ * F * z), Matrix.mul_neg, smul_neg, smul_neg, sub_neg_eq_add, smul_smul]
    congr 2
    push_cast
    ring
  have htr : (vᴴ * ((Wᴴ * W)⁻¹ * (Wᴴ * F * z - (l : ℂ) • v))).trace.re = (zᴴ * F * z).trace.re - l * fs z := by
    have h1 : vᴴ * ((Wᴴ * W)⁻¹ * (Wᴴ * F * z - (l : ℂ) • v)) = zᴴ * F * z - (l : ℂ) • (zᴴ * z) := by
      have h2 : vᴴ * (Wᴴ * W)⁻¹ = yᴴ :=
        (show yᴴ = vᴴ * (Wᴴ * W)⁻¹ from (Matrix.conjTranspose_mul _ _).trans (by rw [gram_inv_star])).symm
      have h3 : yᴴ * Wᴴ = zᴴ := (Matrix.conjTranspose_mul W y).symm
      have h4 : yᴴ * v = zᴴ * z := by rw [← h3, Matrix.mul_assoc, hMy]
      have h5 : yᴴ * (Wᴴ * F * z) = zᴴ * F * z := by rw [← h3]; simp only [Matrix.mul_assoc]
      rw [← Matrix.mul_assoc, h2, Matrix.mul_sub, Matrix.mul_smul, h4, h5]
    rw [h1, Matrix.trace_sub, Matrix.trace_smul, ← fs_trace, Complex.sub_re, smul_eq_mul, ← Complex.ofReal_mul,
      Complex.ofReal_re]
  have hlow : x * fs z ≤ (zᴴ * F * z).trace.re := by
    have h1 : z = Q * (R * y) := by rw [hz, hR, Matrix.mul_assoc]
    have h2 : fs z = fs (R * y) := by
      unfold fs
      rw [h1, matSize_orth hQ]
    have h3 : zᴴ * F * z = (R * y)ᴴ * (Qᴴ * F * Q) * (R * y) := by
      rw [h1, Matrix.conjTranspose_mul]
      simp only [Matrix.mul_assoc]
    rw [h2, h3]
    exact form_lower he hx _
  have hgrow := fs_add v ((Wᴴ * W)⁻¹ * (Wᴴ * F * z - (l : ℂ) • v)) (2 * η)
  rw [← hv', htr] at hgrow
  have hvz : fs v ≤ B * fs z := by
    rw [← hMy]
    refine (fs_mul _ _).trans ?_
    rw [fs_star]
    exact mul_le_mul_of_nonneg_right hWB (fs_nonneg z)
  have h5 : fs v / B ≤ fs z := by rw [div_le_iff₀ hB]; linarith
  have h6 := mul_le_mul_of_nonneg_left h5 (mul_nonneg (mul_nonneg (by norm_num : (0 : ℝ) ≤ 4) hη) (sub_nonneg.2 hlx))
  have h7 := mul_le_mul_of_nonneg_left (sub_le_sub_right hlow (l * fs z)) (mul_nonneg (by norm_num : (0 : ℝ) ≤ 4) hη)
  calc fs v * (1 + 4 * η * (x - l) / B) = fs v + 4 * η * (x - l) * (fs v / B) := by ring
    _ ≤ fs (W'ᴴ * U) := by linarith

/-- A number that grows by a factor and stays bounded: what the factors exceed one by has a bounded sum. -/
theorem ground_sum {n x η : ℕ → ℝ} {l a B C : ℝ} (ha : 0 < a) (hB : 0 < B) (h0 : 0 < n 0) (hη : ∀ t, a ≤ η t)
    (hx : ∀ t, l ≤ x t) (hn : ∀ t, n t * (1 + 4 * η t * (x t - l) / B) ≤ n (t + 1)) (hC : ∀ t, n t ≤ C) :
    ∃ D, ∀ T, ∑ t ∈ Finset.range T, (x t - l) ≤ D := by
  have hq : 0 < n 0 * (4 * a / B) := mul_pos h0 (div_pos (mul_pos (by norm_num) ha) hB)
  have hge : ∀ t, n 0 ≤ n t → n t + n 0 * (4 * a / B) * (x t - l) ≤ n (t + 1) := fun t ht => by
    refine le_trans ?_ (hn t)
    have h1 : 4 * a / B * (x t - l) ≤ 4 * η t * (x t - l) / B := by
      rw [div_mul_eq_mul_div]
      exact div_le_div_of_nonneg_right (mul_le_mul_of_nonneg_right (by linarith [hη t]) (sub_nonneg.2 (hx t))) hB.le
    have h2 : 0 ≤ 4 * a / B * (x t - l) := mul_nonneg (div_pos (mul_pos (by norm_num) ha) hB).le (sub_nonneg.2 (hx t))
    have h3 := mul_le_mul ht h1 h2 (h0.le.trans ht)
    calc n t + n 0 * (4 * a / B) * (x t - l) = n t + n 0 * (4 * a / B * (x t - l)) := by ring
      _ ≤ n t + n t * (4 * η t * (x t - l) / B) := by linarith
      _ = n t * (1 + 4 * η t * (x t - l) / B) := by ring
  have hsum : ∀ T, n 0 + n 0 * (4 * a / B) * ∑ t ∈ Finset.range T, (x t - l) ≤ n T := by
    intro T
    induction T with
    | zero => simp
    | succ T ih =>
      have h1 : 0 ≤ ∑ t ∈ Finset.range T, (x t - l) := Finset.sum_nonneg fun t _ => sub_nonneg.2 (hx t)
      have h2 := hge T (by nlinarith)
      rw [Finset.sum_range_succ, mul_add]
      linarith
  refine ⟨C / (n 0 * (4 * a / B)), fun T => ?_⟩
  rw [le_div_iff₀ hq]
  have h1 := hsum T
  have h2 := hC T
  rw [mul_comm]
  linarith

/-- Numbers above a limit whose distances have a bounded sum converge to it. -/
theorem ground_limit {x : ℕ → ℝ} {l D : ℝ} (hx : ∀ t, l ≤ x t) (hD : ∀ T, ∑ t ∈ Finset.range T, (x t - l) ≤ D) :
    Filter.Tendsto x Filter.atTop (𝓝 l) := by
  have h := (summable_of_sum_range_le (fun t => sub_nonneg.2 (hx t)) hD).tendsto_atTop_zero
  simpa using h.add_const l

end RitzDescent
end Jrystal
