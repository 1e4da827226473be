import Verif.Spec.Sbt
import Verif.Lemmas.OscillatoryGamma
import Mathlib.Analysis.SpecialFunctions.Trigonometric.Deriv
import Mathlib.MeasureTheory.Function.SpecialFunctions.Basic

/-
Spherical Bessel functions: derivatives, bounds, and the Mellin transform on the line `Re s = 3/2`.
-/
namespace Jrystal
open Complex MeasureTheory Set Filter Topology Spec

private theorem bessel_succ (l : ℕ) (x : ℝ) :
    sphericalBessel (l + 2) x = (2 * l + 3) / x * sphericalBessel (l + 1) x - sphericalBessel l x := rfl

/-- The two derivative formulas. -/
theorem sphericalBessel_deriv (l : ℕ) {x : ℝ} (hx : x ≠ 0) :
    HasDerivAt (sphericalBessel l) (l / x * sphericalBessel l x - sphericalBessel (l + 1) x) x ∧
      HasDerivAt (sphericalBessel (l + 1)) (sphericalBessel l x - (l + 2) / x * sphericalBessel (l + 1) x) x := by
  induction l with
  | zero =>
    have h0 : HasDerivAt (sphericalBessel 0) ((Real.cos x * x - Real.sin x * 1) / x ^ 2) x :=
      (Real.hasDerivAt_sin x).div (hasDerivAt_id x) hx
    have h1 : HasDerivAt (sphericalBessel 1) ((Real.cos x * x ^ 2 - Real.sin x * (2 * x)) / (x ^ 2) ^ 2
        - (-Real.sin x * x - Real.cos x * 1) / x ^ 2) x := by
      refine HasDerivAt.sub (HasDerivAt.div (Real.hasDerivAt_sin x) ?_ (by positivity))
        ((Real.hasDerivAt_cos x).div (hasDerivAt_id x) hx)
      simpa using hasDerivAt_pow 2 x
    refine ⟨h0.congr_deriv ?_, h1.congr_deriv ?_⟩
    · simp only [sphericalBessel]
      push_cast
      field_simp
      ring
    · simp only [sphericalBessel]
      push_cast
      field_simp
      ring
  | succ l ih =>
    obtain ⟨hl, hl1⟩ := ih
    have h2 : HasDerivAt (sphericalBessel (l + 2)) (-(2 * l + 3) / x ^ 2 * sphericalBessel (l + 1) x
        + (2 * l + 3) / x * (sphericalBessel l x - (l + 2) / x * sphericalBessel (l + 1) x)
        - (l / x * sphericalBessel l x - sphericalBessel (l + 1) x)) x := by
      have hc : HasDerivAt (fun y : ℝ => (2 * (l : ℝ) + 3) / y) (-(2 * l + 3) / x ^ 2) x := by
        refine ((hasDerivAt_const x (2 * (l : ℝ) + 3)).div (hasDerivAt_id x) hx).congr_deriv ?_
        simp
      exact (hc.mul hl1).sub hl
    refine ⟨hl1.congr_deriv ?_, h2.congr_deriv ?_⟩
    · rw [bessel_succ]
      push_cast
      field_simp
      ring
    · rw [show l + 1 + 1 = l + 2 by ring, bessel_succ]
      push_cast
      field_simp
      ring

private theorem head_bound {l : ℕ} {C : ℝ} (hC : ∀ x : ℝ, 0 < x → |sphericalBessel l x| ≤ C)
    (hlim : Tendsto (fun y : ℝ => y ^ (l + 2) * sphericalBessel (l + 1) y) (𝓝[>] 0) (𝓝 0)) {x : ℝ} (hx : 0 < x) :
    |sphericalBessel (l + 1) x| ≤ C * x := by
  have hC0 : 0 ≤ C := (abs_nonneg _).trans (hC 1 one_pos)
  have hd : ∀ y : ℝ, 0 < y → HasDerivAt (fun y : ℝ => y ^ (l + 2) * sphericalBessel (l + 1) y)
      (y ^ (l + 2) * sphericalBessel l y) y := fun y hy => by
    refine ((hasDerivAt_pow (l + 2) y).mul (sphericalBessel_deriv l hy.ne').2).congr_deriv ?_
    simp only [Nat.add_succ_sub_one]
    push_cast
    field_simp
    ring
  have hmv : ∀ e ∈ Ioo 0 x, |x ^ (l + 2) * sphericalBessel (l + 1) x - e ^ (l + 2) * sphericalBessel (l + 1) e|
      ≤ C * x ^ (l + 2) * x := fun e he => by
    have h := norm_image_sub_le_of_norm_deriv_le_segment' (a := e) (b := x)
      (f := fun y : ℝ => y ^ (l + 2) * sphericalBessel (l + 1) y) (f' := fun y => y ^ (l + 2) * sphericalBessel l y)
      (C := C * x ^ (l + 2)) (fun y hy => (hd y (lt_of_lt_of_le he.1 hy.1)).hasDerivWithinAt) (fun y hy => by
        have hy0 : 0 < y := lt_of_lt_of_le he.1 hy.1
        rw [Real.norm_eq_abs, abs_mul, abs_of_pos (pow_pos hy0 _), mul_comm C]
        exact mul_le_mul (pow_le_pow_left₀ hy0.le hy.2.le _) (hC y hy0) (abs_nonneg _) (by positivity))
      x (right_mem_Icc.2 he.2.le)
    rw [Real.norm_eq_abs] at h
    refine h.trans (mul_le_mul_of_nonneg_left (by linarith [he.1]) (by positivity))
  have hl2 : Tendsto (fun e : ℝ => |x ^ (l + 2) * sphericalBessel (l + 1) x - e ^ (l + 2) * sphericalBessel (l + 1) e|)
      (𝓝[>] 0) (𝓝 |x ^ (l + 2) * sphericalBessel (l + 1) x - 0|) := (tendsto_const_nhds.sub hlim).abs
  have h := le_of_tendsto hl2 (by
    filter_upwards [Ioo_mem_nhdsGT hx] with e he using hmv e he)
  rw [sub_zero, abs_mul, abs_of_pos (pow_pos hx _)] at h
  have hp := pow_pos hx (l + 2)
  nlinarith [mul_pos hp hx]

private theorem bessel_zero_bound {x : ℝ} (hx : 0 < x) : |sphericalBessel 0 x| ≤ 1 := by
  simp only [sphericalBessel]
  rw [abs_div, abs_of_pos hx, div_le_one hx]
  exact (Real.abs_sin_le_abs).trans_eq (abs_of_pos hx)

/-- Spherical Bessel functions are bounded and fall off like `1/x`. -/
theorem sphericalBessel_bound (l : ℕ) : ∃ C : ℝ, 0 ≤ C ∧ ∀ x : ℝ, 0 < x →
    |sphericalBessel l x| ≤ C ∧ |sphericalBessel l x| * x ≤ C := by
  have key : ∀ l : ℕ, (∃ C : ℝ, 0 ≤ C ∧ ∀ x : ℝ, 0 < x →
      |sphericalBessel l x| ≤ C ∧ |sphericalBessel l x| * x ≤ C) ∧ (∃ C : ℝ, 0 ≤ C ∧ ∀ x : ℝ, 0 < x →
      |sphericalBessel (l + 1) x| ≤ C ∧ |sphericalBessel (l + 1) x| * x ≤ C) := by
    intro l
    induction l with
    | zero =>
      have hx0 : ∀ x : ℝ, 0 < x → |sphericalBessel 0 x| * x ≤ 1 := fun x hx => by
        simp only [sphericalBessel]
        rw [abs_div, abs_of_pos hx, div_mul_cancel₀ _ hx.ne']
        exact Real.abs_sin_le_one x
      refine ⟨⟨1, zero_le_one, fun x hx => ⟨bessel_zero_bound hx, hx0 x hx⟩⟩, ?_⟩
      have hlim : Tendsto (fun y : ℝ => y ^ (0 + 2) * sphericalBessel (0 + 1) y) (𝓝[>] 0) (𝓝 0) := by
        have hc : Tendsto (fun y : ℝ => Real.sin y - y * Real.cos y) (𝓝[>] 0) (𝓝 0) := by
          have : Tendsto (fun y : ℝ => Real.sin y - y * Real.cos y) (𝓝 0) (𝓝 (Real.sin 0 - 0 * Real.cos 0)) :=
            Continuous.tendsto (by fun_prop) 0
          simp only [Real.sin_zero, zero_mul, sub_zero] at this
          exact this.mono_left nhdsWithin_le_nhds
        refine hc.congr' ?_
        filter_upwards [self_mem_nhdsWithin] with y hy
        have hy0 : y ≠ 0 := ne_of_gt hy
        simp only [sphericalBessel, zero_add]
        field_simp
      have h1 : ∀ x : ℝ, 0 < x → |sphericalBessel 1 x| * x ≤ 2 := fun x hx => by
        have : sphericalBessel 1 x * x = sphericalBessel 0 x - Real.cos x := by
          simp only [sphericalBessel]
          field_simp
        rw [← abs_of_pos hx, ← abs_mul, abs_of_pos hx, this]
        refine (abs_sub _ _).trans ?_
        have := bessel_zero_bound hx
        have := Real.abs_cos_le_one x
        linarith
      refine ⟨2, zero_le_two, fun x hx => ⟨?_, h1 x hx⟩⟩
      rcases le_total x 1 with h | h
      · have := head_bound (l := 0) (C := 1) (fun x hx => bessel_zero_bound hx) hlim hx
        simp only [zero_add] at this ⊢
        linarith
      · have := h1 x hx
        have h0 := abs_nonneg (sphericalBessel 1 x)
        simp only [zero_add]
        nlinarith
    | succ l ih =>
      obtain ⟨⟨C, hC0, hC⟩, C', hC0', hC'⟩ := ih
      refine ⟨⟨C', hC0', hC'⟩, ?_⟩
      have h2 : ∀ x : ℝ, 0 < x → |sphericalBessel (l + 2) x| * x ≤ (2 * l + 3) * C' + C := fun x hx => by
        have : sphericalBessel (l + 2) x * x = (2 * l + 3) * sphericalBessel (l + 1) x - sphericalBessel l x * x := by
          rw [bessel_succ]
          field_simp
        rw [← abs_of_pos hx, ← abs_mul, abs_of_pos hx, this]
        refine (abs_sub _ _).trans ?_
        rw [abs_mul, abs_mul, abs_of_pos hx, abs_of_nonneg (by positivity : (0 : ℝ) ≤ 2 * l + 3)]
        exact add_le_add (mul_le_mul_of_nonneg_left (hC' x hx).1 (by positivity)) (hC x hx).2
      have hlim : Tendsto (fun y : ℝ => y ^ (l + 1 + 2) * sphericalBessel (l + 1 + 1) y) (𝓝[>] 0) (𝓝 0) := by
        rw [tendsto_zero_iff_norm_tendsto_zero]
        have hp : Tendsto (fun y : ℝ => y ^ (l + 2) * ((2 * l + 3) * C' + C)) (𝓝[>] 0) (𝓝 0) := by
          have : Tendsto (fun y : ℝ => y ^ (l + 2) * ((2 * l + 3) * C' + C)) (𝓝 0)
              (𝓝 (0 ^ (l + 2) * ((2 * l + 3) * C' + C))) := Continuous.tendsto (by fun_prop) 0
          rw [zero_pow (by omega), zero_mul] at this
          exact this.mono_left nhdsWithin_le_nhds
        refine squeeze_zero' (Eventually.of_forall fun y => norm_nonneg _) ?_ hp
        filter_upwards [self_mem_nhdsWithin] with y hy
        have hy0 : (0 : ℝ) < y := hy
        rw [Real.norm_eq_abs, abs_mul, abs_of_pos (pow_pos hy0 _), pow_succ, mul_assoc, mul_comm y]
        exact mul_le_mul_of_nonneg_left (h2 y hy0) (by positivity)
      refine ⟨(2 * l + 3) * C' + C, by positivity, fun x hx => ⟨?_, h2 x hx⟩⟩
      have hle : C' ≤ (2 * l + 3) * C' + C := by
        have : (0 : ℝ) ≤ l := Nat.cast_nonneg l
        nlinarith
      rcases le_total x 1 with h | h
      · have := head_bound (l := l + 1) (fun x hx => (hC' x hx).1) hlim hx
        nlinarith
      · have h3 := h2 x hx
        have h0 := abs_nonneg (sphericalBessel (l + 2) x)
        change |sphericalBessel (l + 2) x| ≤ _
        nlinarith
  exact (key l).1

private theorem bessel_measurable (l : ℕ) : Measurable (sphericalBessel l) := by
  have key : ∀ l : ℕ, Measurable (sphericalBessel l) ∧ Measurable (sphericalBessel (l + 1)) := by
    intro l
    induction l with
    | zero =>
      refine ⟨?_, ?_⟩
      · change Measurable fun x : ℝ => Real.sin x / x
        fun_prop
      · change Measurable fun x : ℝ => Real.sin x / x ^ 2 - Real.cos x / x
        fun_prop
    | succ l ih =>
      refine ⟨ih.2, ?_⟩
      change Measurable fun x : ℝ => (2 * (l : ℝ) + 3) / x * sphericalBessel (l + 1) x - sphericalBessel l x
      exact ((measurable_const.div measurable_id).mul ih.2).sub ih.1
  exact (key l).1

/-- The integrand of the Mellin transform. -/
private noncomputable def term (l : ℕ) (a : ℂ) (x : ℝ) : ℂ := (sphericalBessel l x : ℂ) * (x : ℂ) ^ a

private theorem term_int (l : ℕ) {a : ℂ} (ha : 0 < a.re) {R : ℝ} (hR : 0 ≤ R) :
    IntervalIntegrable (term l a) volume 0 R := by
  obtain ⟨C, hC0, hC⟩ := sphericalBessel_bound l
  rw [intervalIntegrable_iff_integrableOn_Ioc_of_le hR]
  refine Measure.integrableOn_of_bounded (M := C * R ^ a.re) (by simp) ?_ ?_
  · refine Measurable.aestronglyMeasurable ?_
    exact (Complex.measurable_ofReal.comp (bessel_measurable l)).mul (Complex.measurable_ofReal.pow_const a)
  · refine (ae_restrict_iff' measurableSet_Ioc).2 (Eventually.of_forall fun x hx => ?_)
    unfold term
    rw [norm_mul, Complex.norm_real, Complex.norm_cpow_eq_rpow_re_of_pos hx.1]
    exact mul_le_mul (hC x hx.1).1 (Real.rpow_le_rpow hx.1.le hx.2 ha.le) (Real.rpow_nonneg hx.1.le _) hC0

/-- The boundary term of the integrations by parts. -/
private theorem boundary_cont (l : ℕ) {a : ℂ} (ha : 0 < a.re) {R : ℝ} :
    ContinuousOn (term l a) (Icc 0 R) := by
  obtain ⟨C, hC0, hC⟩ := sphericalBessel_bound l
  intro x hx
  have ha0 : a ≠ 0 := by rintro rfl; simp at ha
  rcases eq_or_lt_of_le hx.1 with h | h
  · subst h
    have h0 : term l a 0 = 0 := by
      unfold term
      rw [Complex.ofReal_zero, Complex.zero_cpow ha0, mul_zero]
    rw [ContinuousWithinAt, h0, tendsto_zero_iff_norm_tendsto_zero]
    have hp : Tendsto (fun y : ℝ => C * y ^ a.re) (𝓝[Icc 0 R] 0) (𝓝 0) := by
      have : Tendsto (fun y : ℝ => C * y ^ a.re) (𝓝 0) (𝓝 (C * 0 ^ a.re)) :=
        ((Real.continuousAt_rpow_const 0 a.re (Or.inr ha.le)).tendsto).const_mul C
      rw [Real.zero_rpow ha.ne', mul_zero] at this
      exact this.mono_left nhdsWithin_le_nhds
    refine squeeze_zero' (Eventually.of_forall fun y => norm_nonneg _) ?_ hp
    filter_upwards [self_mem_nhdsWithin] with y hy
    rcases eq_or_lt_of_le hy.1 with h | h
    · subst h
      rw [h0, norm_zero]
      exact mul_nonneg hC0 (Real.rpow_nonneg le_rfl _)
    · unfold term
      rw [norm_mul, Complex.norm_real, Complex.norm_cpow_eq_rpow_re_of_pos h]
      exact mul_le_mul_of_nonneg_right (hC y h).1 (Real.rpow_nonneg h.le _)
  · have h1 : ContinuousAt (sphericalBessel l) x := (sphericalBessel_deriv l h.ne').1.continuousAt
    exact ((Complex.continuous_ofReal.continuousAt.comp h1).mul
      (Complex.continuousAt_ofReal_cpow_const _ _ (Or.inr h.ne'))).continuousWithinAt

private theorem boundary_zero (l : ℕ) {a : ℂ} (ha : a.re < 1) :
    Tendsto (fun R : ℝ => term l a R) atTop (𝓝 0) := by
  obtain ⟨C, hC0, hC⟩ := sphericalBessel_bound l
  rw [tendsto_zero_iff_norm_tendsto_zero]
  have hp : Tendsto (fun R : ℝ => C * R ^ (-(1 - a.re))) atTop (𝓝 (C * 0)) :=
    (tendsto_rpow_neg_atTop (by linarith)).const_mul C
  rw [mul_zero] at hp
  refine squeeze_zero' (Eventually.of_forall fun R => norm_nonneg _) ?_ hp
  filter_upwards [eventually_gt_atTop 0] with R hR
  unfold term
  rw [norm_mul, Complex.norm_real, Complex.norm_cpow_eq_rpow_re_of_pos hR, show -(1 - a.re) = a.re - 1 by ring,
    Real.rpow_sub_one hR.ne', Real.norm_eq_abs]
  have h := (hC R hR).2
  rw [mul_div_assoc', le_div_iff₀ hR]
  have := mul_le_mul_of_nonneg_right h (Real.rpow_nonneg hR.le a.re)
  calc _ = |sphericalBessel l R| * R * R ^ a.re := by ring
    _ ≤ _ := this

/-- Integration by parts: the transform of `j_{l+2}` from that of `j_l`. -/
private theorem mellin_step (l : ℕ) {a : ℂ} (ha : 0 < a.re) {R : ℝ} (hR : 0 ≤ R) :
    ((l : ℂ) + 2 - a) * ∫ x in (0 : ℝ)..R, term (l + 2) a x =
      ((l : ℂ) + 1 + a) * (∫ x in (0 : ℝ)..R, term l a x) - (2 * l + 3) * term (l + 1) a R := by
  have ha0 : a ≠ 0 := by rintro rfl; simp at ha
  have hl3 : (2 * (l : ℂ) + 3) ≠ 0 := by exact_mod_cast (by omega : 2 * l + 3 ≠ 0)
  have hd : ∀ x ∈ Ioo 0 R, HasDerivWithinAt (term (l + 1) a)
      ((((l : ℂ) + 1 + a) * term l a x - ((l : ℂ) + 2 - a) * term (l + 2) a x) / (2 * l + 3)) (Ioi x) x := by
    intro x hx
    have hx0 : x ≠ 0 := ne_of_gt hx.1
    have h1 := ((sphericalBessel_deriv l hx0).2.ofReal_comp).mul (hasDerivAt_ofReal_cpow_const hx0 ha0)
    refine (h1.congr_deriv ?_).hasDerivWithinAt
    unfold term
    rw [bessel_succ, Complex.cpow_sub _ _ (by exact_mod_cast hx0), Complex.cpow_one]
    have hxc : (x : ℂ) ≠ 0 := by exact_mod_cast hx0
    push_cast
    generalize (x : ℂ) ^ a = p
    rw [eq_div_iff hl3]
    field_simp
    ring
  have hi : IntervalIntegrable (fun x => (((l : ℂ) + 1 + a) * term l a x - ((l : ℂ) + 2 - a) * term (l + 2) a x) /
      (2 * l + 3)) volume 0 R :=
    (((term_int l ha hR).const_mul _).sub ((term_int (l + 2) ha hR).const_mul _)).div_const _
  have h := intervalIntegral.integral_eq_sub_of_hasDeriv_right_of_le hR (boundary_cont (l + 1) ha) hd hi
  rw [intervalIntegral.integral_div, intervalIntegral.integral_sub ((term_int l ha hR).const_mul _)
    ((term_int (l + 2) ha hR).const_mul _), intervalIntegral.integral_const_mul, intervalIntegral.integral_const_mul] at h
  have h0 : term (l + 1) a 0 = 0 := by
    unfold term
    rw [Complex.ofReal_zero, Complex.zero_cpow ha0, mul_zero]
  rw [h0, sub_zero, div_eq_iff hl3] at h
  linear_combination -h

/-- `√π 2^{a-1} Γ((l+1+a)/2) / Γ((2+l-a)/2)`. -/
private noncomputable def closed (l : ℕ) (a : ℂ) : ℂ :=
  (Real.sqrt Real.pi : ℂ) * (2 : ℂ) ^ (a - 1) * Complex.Gamma (((l : ℂ) + (a + 1)) / 2) /
    Complex.Gamma ((3 + (l : ℂ) - (a + 1)) / 2)

private theorem sqrt_pi_mul : (Real.sqrt Real.pi : ℂ) * (Real.sqrt Real.pi : ℂ) = Real.pi := by
  rw [← Complex.ofReal_mul, Real.mul_self_sqrt Real.pi_pos.le]

private theorem two_pow_mul (a : ℂ) : (2 : ℂ) ^ (a - 1) * (2 : ℂ) ^ (1 - a) = 1 := by
  rw [← Complex.cpow_add _ _ two_ne_zero]
  simp

private theorem closed_zero {a : ℂ} (ha : 0 < a.re) (ha1 : a.re < 1) :
    closed 0 a = Complex.Gamma a * Complex.sin (Real.pi * a / 2) := by
  unfold closed
  have hd := Complex.Gamma_mul_Gamma_add_half (a / 2)
  have hr := Complex.Gamma_mul_Gamma_one_sub (a / 2)
  have hg : Complex.Gamma (1 - a / 2) ≠ 0 := Complex.Gamma_ne_zero_of_re_pos (by simp; linarith)
  have hg2 : Complex.Gamma (a / 2) ≠ 0 := Complex.Gamma_ne_zero_of_re_pos (by simp; linarith)
  have hpi : (Real.pi : ℂ) ≠ 0 := by exact_mod_cast Real.pi_ne_zero
  have hsin : Complex.sin (Real.pi * (a / 2)) ≠ 0 := fun h => by
    rw [h, div_zero] at hr
    exact mul_ne_zero hg2 hg hr
  rw [eq_div_iff hsin] at hr
  rw [show (((0 : ℕ) : ℂ) + (a + 1)) / 2 = a / 2 + 1 / 2 by push_cast; ring,
    show (3 + ((0 : ℕ) : ℂ) - (a + 1)) / 2 = 1 - a / 2 by push_cast; ring,
    show (Real.pi : ℂ) * a / 2 = Real.pi * (a / 2) by ring, div_eq_iff hg]
  rw [show (2 : ℂ) * (a / 2) = a by ring] at hd
  refine mul_left_cancel₀ (mul_ne_zero hg2 hpi) ?_
  have h2 := two_pow_mul a
  linear_combination (Real.sqrt Real.pi : ℂ) * (2 : ℂ) ^ (a - 1) * Real.pi * hd +
    Complex.Gamma a * Real.pi * (Real.sqrt Real.pi : ℂ) * (Real.sqrt Real.pi : ℂ) * h2
    + Complex.Gamma a * Real.pi * sqrt_pi_mul - Real.pi * Complex.Gamma a * hr

private theorem closed_one {a : ℂ} (ha : 0 < a.re) (ha1 : a.re < 1) :
    closed 1 a = a / (1 - a) * (Complex.Gamma a * Complex.cos (Real.pi * a / 2)) := by
  unfold closed
  have ha0 : a / 2 ≠ 0 := fun h => by have := congrArg Complex.re h; simp at this; linarith
  have h1a : 1 - a ≠ 0 := fun h => by have := congrArg Complex.re h; simp at this; linarith
  have h1a2 : (1 - a) / 2 ≠ 0 := div_ne_zero h1a two_ne_zero
  have hd := Complex.Gamma_mul_Gamma_add_half (a / 2)
  have hr := Complex.Gamma_mul_Gamma_one_sub ((1 - a) / 2)
  rw [show 1 - (1 - a) / 2 = a / 2 + 1 / 2 by ring, show (Real.pi : ℂ) * ((1 - a) / 2) = Real.pi / 2 - Real.pi * a / 2 by
    ring, Complex.sin_pi_div_two_sub] at hr
  have hg : Complex.Gamma ((1 - a) / 2) ≠ 0 := Complex.Gamma_ne_zero_of_re_pos (by simp; linarith)
  have hg2 : Complex.Gamma (a / 2 + 1 / 2) ≠ 0 := Complex.Gamma_ne_zero_of_re_pos (by simp; linarith)
  have hpi : (Real.pi : ℂ) ≠ 0 := by exact_mod_cast Real.pi_ne_zero
  have hcos : Complex.cos (Real.pi * a / 2) ≠ 0 := fun h => by
    rw [h, div_zero] at hr
    exact mul_ne_zero hg hg2 hr
  rw [eq_div_iff hcos] at hr
  rw [show (((1 : ℕ) : ℂ) + (a + 1)) / 2 = a / 2 + 1 by push_cast; ring,
    show (3 + ((1 : ℕ) : ℂ) - (a + 1)) / 2 = (1 - a) / 2 + 1 by push_cast; ring,
    Complex.Gamma_add_one _ ha0, Complex.Gamma_add_one _ h1a2, div_eq_iff (mul_ne_zero h1a2 hg)]
  rw [show (2 : ℂ) * (a / 2) = a by ring] at hd
  refine mul_left_cancel₀ (mul_ne_zero hg2 hpi) ?_
  have h2 := two_pow_mul a
  have e : a / (1 - a) * (Complex.Gamma a * Complex.cos (Real.pi * a / 2)) * ((1 - a) / 2 * Complex.Gamma ((1 - a) / 2))
      = a / 2 * Complex.Gamma a * (Complex.cos (Real.pi * a / 2) * Complex.Gamma ((1 - a) / 2)) := by
    field_simp
  rw [e]
  linear_combination (Real.sqrt Real.pi : ℂ) * (2 : ℂ) ^ (a - 1) * Real.pi * (a / 2) * hd +
    Complex.Gamma a * (a / 2) * Real.pi * (Real.sqrt Real.pi : ℂ) * (Real.sqrt Real.pi : ℂ) * h2
    + Complex.Gamma a * (a / 2) * Real.pi * sqrt_pi_mul - Real.pi * (a / 2) * Complex.Gamma a * hr

private theorem closed_step (l : ℕ) {a : ℂ} (ha : 0 < a.re) (ha1 : a.re < 1) :
    closed (l + 2) a = ((l : ℂ) + 1 + a) / ((l : ℂ) + 2 - a) * closed l a := by
  unfold closed
  have hl : (0 : ℝ) ≤ l := Nat.cast_nonneg l
  have h1 : ((l : ℂ) + (a + 1)) / 2 ≠ 0 := fun h => by
    have := congrArg Complex.re h; simp at this; linarith
  have h2 : (3 + (l : ℂ) - (a + 1)) / 2 ≠ 0 := fun h => by
    have := congrArg Complex.re h; simp at this; linarith
  have h3 : (l : ℂ) + 2 - a ≠ 0 := fun h => by
    have := congrArg Complex.re h; simp at this; linarith
  have hg : Complex.Gamma ((3 + (l : ℂ) - (a + 1)) / 2) ≠ 0 := Complex.Gamma_ne_zero_of_re_pos (by simp; linarith)
  rw [show (((l + 2 : ℕ) : ℂ) + (a + 1)) / 2 = ((l : ℂ) + (a + 1)) / 2 + 1 by push_cast; ring,
    show (3 + ((l + 2 : ℕ) : ℂ) - (a + 1)) / 2 = (3 + (l : ℂ) - (a + 1)) / 2 + 1 by push_cast; ring,
    Complex.Gamma_add_one _ h1, Complex.Gamma_add_one _ h2]
  have h4 : (3 + (l : ℂ) - (a + 1)) / 2 = ((l : ℂ) + 2 - a) / 2 := by ring
  rw [h4] at hg ⊢
  field_simp
  ring

private theorem mellin_all {a : ℂ} (ha : 0 < a.re) (ha1 : a.re < 1) (l : ℕ) :
    Tendsto (fun R : ℝ => ∫ x in (0 : ℝ)..R, term l a x) atTop (𝓝 (closed l a)) := by
  have key : ∀ l : ℕ, Tendsto (fun R : ℝ => ∫ x in (0 : ℝ)..R, term l a x) atTop (𝓝 (closed l a)) ∧
      Tendsto (fun R : ℝ => ∫ x in (0 : ℝ)..R, term (l + 1) a x) atTop (𝓝 (closed (l + 1) a)) := by
    intro l
    induction l with
    | zero =>
      have ha0 : a ≠ 0 := by rintro rfl; simp at ha
      have ha10 : a - 1 ≠ 0 := fun h => by have := congrArg Complex.re h; simp at this; linarith
      refine ⟨?_, ?_⟩
      · rw [closed_zero ha ha1]
        refine (tendsto_integral_cpow_mul_sin ha ha1).congr' ?_
        filter_upwards [eventually_ge_atTop 0] with R hR
        refine intervalIntegral.integral_congr_ae (Eventually.of_forall fun x hx => ?_)
        rw [uIoc_of_le hR] at hx
        have hxc : (x : ℂ) ≠ 0 := by exact_mod_cast hx.1.ne'
        simp only [term, sphericalBessel]
        rw [Complex.cpow_sub _ _ hxc, Complex.cpow_one]
        push_cast
        ring
      · rw [zero_add, closed_one ha ha1]
        have hc := tendsto_integral_cpow_mul_cos ha ha1
        have hb := boundary_zero 0 ha1
        have h := (hb.const_mul (1 / (a - 1))).sub (hc.const_mul (a / (a - 1)))
        rw [mul_zero, zero_sub, show -(a / (a - 1) * (Complex.Gamma a * Complex.cos (Real.pi * a / 2)))
          = a / (1 - a) * (Complex.Gamma a * Complex.cos (Real.pi * a / 2)) by
            rw [show 1 - a = -(a - 1) by ring, div_neg]; ring] at h
        refine h.congr' ?_
        filter_upwards [eventually_ge_atTop 0] with R hR
        have hci : IntervalIntegrable (fun x : ℝ => (x : ℂ) ^ (a - 1) * Complex.cos x) volume 0 R :=
          (intervalIntegral.intervalIntegrable_cpow' (by simpa using ha)).mul_continuousOn (by fun_prop)
        have hd : ∀ x ∈ Ioo 0 R, HasDerivWithinAt (term 0 a)
            ((a - 1) * term 1 a x + a * ((x : ℂ) ^ (a - 1) * Complex.cos x)) (Ioi x) x := by
          intro x hx
          have hx0 : x ≠ 0 := ne_of_gt hx.1
          have h1 := ((sphericalBessel_deriv 0 hx0).1.ofReal_comp).mul (hasDerivAt_ofReal_cpow_const hx0 ha0)
          refine (h1.congr_deriv ?_).hasDerivWithinAt
          have hxc : (x : ℂ) ≠ 0 := by exact_mod_cast hx0
          simp only [term, sphericalBessel]
          rw [Complex.cpow_sub _ _ hxc, Complex.cpow_one]
          push_cast
          generalize (x : ℂ) ^ a = p
          field_simp
          ring
        have hi := (term_int 1 ha hR).const_mul (a - 1)
        have h := intervalIntegral.integral_eq_sub_of_hasDeriv_right_of_le hR (boundary_cont 0 ha) hd
          (hi.add (hci.const_mul a))
        rw [intervalIntegral.integral_add hi (hci.const_mul a), intervalIntegral.integral_const_mul,
          intervalIntegral.integral_const_mul] at h
        have h0 : term 0 a 0 = 0 := by
          unfold term
          rw [Complex.ofReal_zero, Complex.zero_cpow ha0, mul_zero]
        rw [h0, sub_zero] at h
        rw [← h]
        field_simp
        ring
    | succ l ih =>
      refine ⟨ih.2, ?_⟩
      have hl : (0 : ℝ) ≤ l := Nat.cast_nonneg l
      have h3 : (l : ℂ) + 2 - a ≠ 0 := fun h => by
        have := congrArg Complex.re h; simp at this; linarith
      have h := ((ih.1.const_mul ((l : ℂ) + 1 + a)).sub ((boundary_zero (l + 1) ha1).const_mul
        (2 * (l : ℂ) + 3))).div_const ((l : ℂ) + 2 - a)
      rw [mul_zero, sub_zero, mul_div_right_comm, ← closed_step l ha ha1] at h
      refine h.congr' ?_
      filter_upwards [eventually_ge_atTop 0] with R hR
      rw [← mellin_step l ha hR, mul_div_cancel_left₀ _ h3]
  exact (key l).1

/-- The closed form of the Mellin transform is the improper integral. -/
theorem besselMellin_tendsto (l : ℕ) (t : ℝ) :
    Tendsto (fun R : ℝ => ∫ x in (0 : ℝ)..R, (sphericalBessel l x : ℂ) * (x : ℂ) ^ (1 / 2 - I * (t : ℂ))) atTop
      (𝓝 (besselMellin l t)) := by
  have h := mellin_all (a := 1 / 2 - I * t) (by simp) (by simp; norm_num) l
  unfold closed at h
  rw [show (1 / 2 - I * (t : ℂ)) - 1 = 3 / 2 - I * t - 2 by ring,
    show (1 / 2 - I * (t : ℂ)) + 1 = 3 / 2 - I * t by ring] at h
  exact h

end Jrystal
