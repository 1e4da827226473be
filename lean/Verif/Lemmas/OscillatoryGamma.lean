import Mathlib.Analysis.SpecialFunctions.Gamma.Basic
import Mathlib.Analysis.SpecialFunctions.Gaussian.GaussianIntegral
import Mathlib.Analysis.SpecialFunctions.ImproperIntegrals
import Mathlib.Analysis.Calculus.ParametricIntegral
import Mathlib.Analysis.Complex.CauchyIntegral
import Mathlib.Analysis.Analytic.IsolatedZeros
import Mathlib.Tactic.Ring
import Mathlib.Tactic.FieldSimp
import Mathlib.Tactic.Linarith

/-
The integrals `∫₀^∞ x^{a-1} e^{-rx} dx = r^{-a} Γ(a)` for complex `r` with positive real part, and as improper
integrals for purely imaginary `r` and `0 < Re a < 1`.
-/
namespace Jrystal
open Complex MeasureTheory Set Filter Topology

private theorem norm_term (a r : ℂ) {x : ℝ} (hx : 0 < x) :
    ‖(x : ℂ) ^ (a - 1) * cexp (-(r * x))‖ = x ^ (a.re - 1) * Real.exp (-(r.re * x)) := by
  rw [norm_mul, Complex.norm_cpow_eq_rpow_re_of_pos hx, Complex.norm_exp]
  simp

private theorem cont_term (a r : ℂ) : ContinuousOn (fun x : ℝ => (x : ℂ) ^ (a - 1) * cexp (-(r * x))) (Ioi 0) := by
  refine ContinuousOn.mul (fun t ht => ?_) (by fun_prop)
  exact (Complex.continuousAt_ofReal_cpow_const _ _ (Or.inr (ne_of_gt ht))).continuousWithinAt

private theorem int_bound {s b : ℝ} (hs : -1 < s) (hb : 0 < b) :
    IntegrableOn (fun x : ℝ => x ^ s * Real.exp (-(b * x))) (Ioi 0) := by
  refine (integrableOn_rpow_mul_exp_neg_mul_rpow (p := 1) hs one_pos hb).congr_fun (fun x _ => ?_) measurableSet_Ioi
  simp

private theorem int_term {a r : ℂ} (ha : 0 < a.re) (hr : 0 < r.re) :
    IntegrableOn (fun x : ℝ => (x : ℂ) ^ (a - 1) * cexp (-(r * x))) (Ioi 0) := by
  refine Integrable.mono' (int_bound (s := a.re - 1) (by linarith) hr)
    ((cont_term a r).aestronglyMeasurable measurableSet_Ioi) ?_
  refine (ae_restrict_iff' measurableSet_Ioi).2 (Eventually.of_forall fun x hx => ?_)
  rw [norm_term a r hx]

private theorem deriv_term {a : ℂ} (ha : 0 < a.re) {r : ℂ} (hr : 0 < r.re) :
    DifferentiableAt ℂ (fun r : ℂ => ∫ x in Ioi (0 : ℝ), (x : ℂ) ^ (a - 1) * cexp (-(r * x))) r := by
  have hball : {z : ℂ | r.re / 2 < z.re} ∈ 𝓝 r :=
    (isOpen_lt continuous_const Complex.continuous_re).mem_nhds (by simp only [mem_ofPred_eq]; linarith)
  refine (hasDerivAt_integral_of_dominated_loc_of_deriv_le (μ := volume.restrict (Ioi (0 : ℝ)))
    (F := fun (r : ℂ) (x : ℝ) => (x : ℂ) ^ (a - 1) * cexp (-(r * x)))
    (F' := fun (r : ℂ) (x : ℝ) => (x : ℂ) ^ (a - 1) * (cexp (-(r * x)) * (-(x : ℂ))))
    (bound := fun x => x ^ a.re * Real.exp (-(r.re / 2 * x))) hball ?_ (int_term ha hr) ?_ ?_
    (int_bound (by linarith) (by linarith)) ?_).2.differentiableAt
  · exact Eventually.of_forall fun z => (cont_term a z).aestronglyMeasurable measurableSet_Ioi
  · refine ContinuousOn.aestronglyMeasurable (ContinuousOn.mul (fun t ht => ?_) (by fun_prop)) measurableSet_Ioi
    exact (Complex.continuousAt_ofReal_cpow_const _ _ (Or.inr (ne_of_gt ht))).continuousWithinAt
  · refine (ae_restrict_iff' measurableSet_Ioi).2 (Eventually.of_forall fun x hx z hz => ?_)
    have hx' : (0 : ℝ) < x := hx
    rw [← mul_assoc, norm_mul, norm_term a z hx', norm_neg, Complex.norm_real, Real.norm_of_nonneg hx'.le]
    rw [show x ^ (a.re - 1) * Real.exp (-(z.re * x)) * x = x ^ (a.re - 1) * x * Real.exp (-(z.re * x)) by ring]
    rw [show x ^ (a.re - 1) * x = x ^ a.re by
      rw [Real.rpow_sub_one hx'.ne', div_mul_cancel₀ _ hx'.ne']]
    refine mul_le_mul_of_nonneg_left (Real.exp_le_exp.2 ?_) (Real.rpow_nonneg hx'.le _)
    have : r.re / 2 < z.re := hz
    nlinarith
  · refine Eventually.of_forall fun x z _ => ?_
    refine HasDerivAt.const_mul _ (HasDerivAt.cexp ?_)
    simpa using ((hasDerivAt_id z).mul_const (x : ℂ)).fun_neg

/-- The Gamma integral with a complex rate. -/
theorem integral_cpow_mul_cexp {a r : ℂ} (ha : 0 < a.re) (hr : 0 < r.re) :
    ∫ x in Ioi (0 : ℝ), (x : ℂ) ^ (a - 1) * cexp (-(r * x)) = (1 / r) ^ a * Gamma a := by
  set U : Set ℂ := {z | 0 < z.re}
  have hU : IsOpen U := isOpen_lt continuous_const Complex.continuous_re
  have hf : AnalyticOnNhd ℂ (fun r : ℂ => ∫ x in Ioi (0 : ℝ), (x : ℂ) ^ (a - 1) * cexp (-(r * x))) U :=
    DifferentiableOn.analyticOnNhd (fun z hz => (deriv_term ha hz).differentiableWithinAt) hU
  have hg : AnalyticOnNhd ℂ (fun r : ℂ => (1 / r) ^ a * Gamma a) U := by
    refine DifferentiableOn.analyticOnNhd (fun z hz => ?_) hU
    have hz' : (0 : ℝ) < z.re := hz
    have hz0 : z ≠ 0 := by rintro rfl; simp at hz'
    refine (DifferentiableAt.mul_const (DifferentiableAt.cpow_const ?_ ?_) _).differentiableWithinAt
    · exact (differentiableAt_const _).div differentiableAt_id hz0
    · left
      rw [one_div, Complex.inv_re]
      exact div_pos hz' (Complex.normSq_pos.2 hz0)
  have hconv : IsPreconnected U := (convex_halfSpace_re_gt 0).isPreconnected
  refine hf.eqOn_of_preconnected_of_frequently_eq hg hconv (z₀ := 1) (by simp [U]) ?_ hr
  have hseq : Tendsto (fun n : ℕ => (1 : ℂ) + (1 / ((n : ℝ) + 1) : ℝ)) atTop (𝓝[≠] 1) := by
    refine tendsto_nhdsWithin_iff.2 ⟨?_, Eventually.of_forall fun n => ?_⟩
    · have h1 : Tendsto (fun n : ℕ => ((1 / ((n : ℝ) + 1) : ℝ) : ℂ)) atTop (𝓝 ((0 : ℝ) : ℂ)) :=
        (Complex.continuous_ofReal.tendsto 0).comp tendsto_one_div_add_atTop_nhds_zero_nat
      simpa using tendsto_const_nhds.add h1
    · have : (0 : ℝ) < 1 / ((n : ℝ) + 1) := by positivity
      simp only [mem_compl_iff, mem_singleton_iff, add_eq_left, Complex.ofReal_eq_zero]
      exact this.ne'
  refine hseq.frequently (Eventually.frequently (Eventually.of_forall fun n => ?_))
  have hpos : (0 : ℝ) < 1 + 1 / ((n : ℝ) + 1) := by positivity
  have := Complex.integral_cpow_mul_exp_neg_mul_Ioi (a := a) ha hpos
  push_cast at this ⊢
  exact this

/-- The absolutely convergent form of the integral: the tail is integrated by parts. -/
private noncomputable def byParts (a r : ℂ) : ℂ :=
  (∫ x in (0 : ℝ)..1, (x : ℂ) ^ (a - 1) * cexp (-(r * x))) + cexp (-r) / r +
    (a - 1) / r * ∫ x in Ioi (1 : ℝ), (x : ℂ) ^ (a - 2) * cexp (-(r * x))

private theorem int_tail {a r : ℂ} (ha : a.re < 1) (hr : 0 ≤ r.re) :
    IntegrableOn (fun x : ℝ => (x : ℂ) ^ (a - 2) * cexp (-(r * x))) (Ioi 1) := by
  refine Integrable.mono' (integrableOn_Ioi_rpow_of_lt (a := a.re - 2) (by linarith) one_pos)
    (ContinuousOn.aestronglyMeasurable (ContinuousOn.mul (fun t ht => ?_) (by fun_prop)) measurableSet_Ioi) ?_
  · exact (Complex.continuousAt_ofReal_cpow_const _ _
      (Or.inr (ne_of_gt (lt_trans one_pos ht)))).continuousWithinAt
  · refine (ae_restrict_iff' measurableSet_Ioi).2 (Eventually.of_forall fun x hx => ?_)
    have hx0 : (0 : ℝ) < x := lt_trans one_pos hx
    rw [norm_mul, Complex.norm_cpow_eq_rpow_re_of_pos hx0, Complex.norm_exp]
    have h1 : Real.exp (-(r * x)).re ≤ 1 := Real.exp_le_one_iff.2 (by simp; positivity)
    have h2 : (a - 2).re = a.re - 2 := by simp
    rw [h2]
    exact mul_le_of_le_one_right (Real.rpow_nonneg hx0.le _) h1

private theorem int_head {a r : ℂ} (ha : 0 < a.re) (p q : ℝ) :
    IntervalIntegrable (fun x : ℝ => (x : ℂ) ^ (a - 1) * cexp (-(r * x))) volume p q :=
  (intervalIntegral.intervalIntegrable_cpow' (by simpa using ha)).mul_continuousOn (by fun_prop)

private theorem partial_eq {a r : ℂ} (ha : 0 < a.re) (ha1 : a.re < 1) (hr0 : r ≠ 0) {R : ℝ} (hR : 1 ≤ R) :
    ∫ x in (0 : ℝ)..R, (x : ℂ) ^ (a - 1) * cexp (-(r * x)) =
      (∫ x in (0 : ℝ)..1, (x : ℂ) ^ (a - 1) * cexp (-(r * x))) + cexp (-r) / r
        - (R : ℂ) ^ (a - 1) * cexp (-(r * R)) / r
        + (a - 1) / r * ∫ x in (1 : ℝ)..R, (x : ℂ) ^ (a - 2) * cexp (-(r * x)) := by
  have ha0 : a - 1 ≠ 0 := fun h => by have := congrArg Complex.re h; simp at this; linarith
  have hd : ∀ x ∈ uIcc (1 : ℝ) R, HasDerivAt (fun y : ℝ => -((y : ℂ) ^ (a - 1) * cexp (-(r * y)) / r))
      ((x : ℂ) ^ (a - 1) * cexp (-(r * x)) - (a - 1) / r * ((x : ℂ) ^ (a - 2) * cexp (-(r * x)))) x := by
    intro x hx
    rw [uIcc_of_le hR] at hx
    have hx0 : x ≠ 0 := by have := hx.1; linarith
    have h1 := hasDerivAt_ofReal_cpow_const hx0 ha0
    have h2 : HasDerivAt (fun y : ℝ => cexp (-(r * y))) (cexp (-(r * x)) * (-r)) x := by
      refine HasDerivAt.cexp ?_
      simpa using ((Complex.ofRealCLM.hasDerivAt (x := x)).const_mul r).fun_neg
    have h3 := ((h1.mul h2).div_const r).neg
    refine h3.congr_deriv ?_
    rw [show a - 1 - 1 = a - 2 by ring]
    field_simp
    ring
  have hi1 := int_head (r := r) ha 1 R
  have hi2 : IntervalIntegrable (fun x : ℝ => (a - 1) / r * ((x : ℂ) ^ (a - 2) * cexp (-(r * x)))) volume 1 R := by
    refine ContinuousOn.intervalIntegrable ?_
    refine ContinuousOn.mul continuousOn_const (ContinuousOn.mul (fun t ht => ?_) (by fun_prop))
    rw [uIcc_of_le hR] at ht
    exact (Complex.continuousAt_ofReal_cpow_const _ _ (Or.inr (by have := ht.1; linarith))).continuousWithinAt
  have h := intervalIntegral.integral_eq_sub_of_hasDerivAt hd (hi1.sub hi2)
  rw [intervalIntegral.integral_sub hi1 hi2, intervalIntegral.integral_const_mul] at h
  rw [← intervalIntegral.integral_add_adjacent_intervals (int_head (r := r) ha 0 1) hi1]
  simp only [Complex.ofReal_one, Complex.one_cpow, mul_one, one_mul] at h
  linear_combination h

private theorem tendsto_byParts {a r : ℂ} (ha : 0 < a.re) (ha1 : a.re < 1) (hr : 0 ≤ r.re) (hr0 : r ≠ 0) :
    Tendsto (fun R : ℝ => ∫ x in (0 : ℝ)..R, (x : ℂ) ^ (a - 1) * cexp (-(r * x))) atTop (𝓝 (byParts a r)) := by
  have h1 : Tendsto (fun R : ℝ => ∫ x in (1 : ℝ)..R, (x : ℂ) ^ (a - 2) * cexp (-(r * x))) atTop
      (𝓝 (∫ x in Ioi (1 : ℝ), (x : ℂ) ^ (a - 2) * cexp (-(r * x)))) :=
    intervalIntegral_tendsto_integral_Ioi 1 (int_tail ha1 hr) tendsto_id
  have h2 : Tendsto (fun R : ℝ => (R : ℂ) ^ (a - 1) * cexp (-(r * R)) / r) atTop (𝓝 0) := by
    rw [tendsto_zero_iff_norm_tendsto_zero]
    have hp : Tendsto (fun R : ℝ => R ^ (-(1 - a.re)) / ‖r‖) atTop (𝓝 (0 / ‖r‖)) :=
      (tendsto_rpow_neg_atTop (by linarith)).div_const _
    rw [zero_div] at hp
    refine squeeze_zero' (Eventually.of_forall fun R => norm_nonneg _) ?_ hp
    filter_upwards [eventually_gt_atTop 0] with R hR
    rw [norm_div, norm_term a r hR, show a.re - 1 = -(1 - a.re) by ring]
    refine div_le_div_of_nonneg_right (mul_le_of_le_one_right (Real.rpow_nonneg hR.le _) ?_) (norm_nonneg _)
    exact Real.exp_le_one_iff.2 (by have := mul_nonneg hr hR.le; linarith)
  have h3 := ((tendsto_const_nhds (x := (∫ x in (0 : ℝ)..1, (x : ℂ) ^ (a - 1) * cexp (-(r * x))) + cexp (-r) / r)).sub
    h2).add (h1.const_mul ((a - 1) / r))
  rw [sub_zero] at h3
  refine h3.congr' ?_
  filter_upwards [eventually_ge_atTop 1] with R hR
  exact (partial_eq ha ha1 hr0 hR).symm

private theorem byParts_eq {a r : ℂ} (ha : 0 < a.re) (ha1 : a.re < 1) (hr : 0 < r.re) :
    byParts a r = (1 / r) ^ a * Gamma a := by
  have hr0 : r ≠ 0 := by rintro rfl; simp at hr
  rw [← integral_cpow_mul_cexp ha hr]
  exact tendsto_nhds_unique (tendsto_byParts ha ha1 hr.le hr0)
    (intervalIntegral_tendsto_integral_Ioi 0 (int_term ha hr) tendsto_id)

private theorem byParts_cont {a r : ℂ} (ha : 0 < a.re) (ha1 : a.re < 1) (hr0 : r ≠ 0) :
    ContinuousWithinAt (byParts a) {z | 0 ≤ z.re} r := by
  have hclosed : ∀ᶠ z in 𝓝[{z : ℂ | 0 ≤ z.re}] r, 0 ≤ z.re := self_mem_nhdsWithin
  have h1 : ContinuousWithinAt (fun r : ℂ => ∫ x in (0 : ℝ)..1, (x : ℂ) ^ (a - 1) * cexp (-(r * x)))
      {z | 0 ≤ z.re} r := by
    refine intervalIntegral.continuousWithinAt_of_dominated_interval (bound := fun x => x ^ (a.re - 1)) ?_ ?_
      (intervalIntegral.intervalIntegrable_rpow' (by linarith)) ?_
    · refine Eventually.of_forall fun z => ?_
      rw [uIoc_of_le zero_le_one]
      exact ((cont_term a z).mono Ioc_subset_Ioi_self).aestronglyMeasurable measurableSet_Ioc
    · filter_upwards [hclosed] with z hz
      refine Eventually.of_forall fun x hx => ?_
      rw [uIoc_of_le zero_le_one] at hx
      rw [norm_term a z hx.1]
      refine mul_le_of_le_one_right (Real.rpow_nonneg hx.1.le _) (Real.exp_le_one_iff.2 ?_)
      have := mul_nonneg hz hx.1.le
      linarith
    · refine Eventually.of_forall fun x _ => Continuous.continuousWithinAt (by fun_prop)
  have h2 : ContinuousWithinAt (fun r : ℂ => ∫ x in Ioi (1 : ℝ), (x : ℂ) ^ (a - 2) * cexp (-(r * x)))
      {z | 0 ≤ z.re} r := by
    refine continuousWithinAt_of_dominated (bound := fun x : ℝ => x ^ (a.re - 2)) ?_ ?_
      (integrableOn_Ioi_rpow_of_lt (by linarith) one_pos) ?_
    · filter_upwards [hclosed] with z hz
      exact (int_tail ha1 hz).aestronglyMeasurable
    · filter_upwards [hclosed] with z hz
      refine (ae_restrict_iff' measurableSet_Ioi).2 (Eventually.of_forall fun x hx => ?_)
      have hx0 : (0 : ℝ) < x := lt_trans one_pos hx
      rw [norm_mul, Complex.norm_cpow_eq_rpow_re_of_pos hx0, Complex.norm_exp]
      have h2 : (a - 2).re = a.re - 2 := by simp
      rw [h2]
      refine mul_le_of_le_one_right (Real.rpow_nonneg hx0.le _) (Real.exp_le_one_iff.2 ?_)
      have := mul_nonneg hz hx0.le
      simpa using this
    · exact Eventually.of_forall fun x => Continuous.continuousWithinAt (by fun_prop)
  unfold byParts
  refine (h1.add ?_).add (ContinuousWithinAt.mul ?_ h2)
  · exact ContinuousWithinAt.div (Continuous.continuousWithinAt (by fun_prop)) continuousWithinAt_id hr0
  · exact ContinuousWithinAt.div continuousWithinAt_const continuousWithinAt_id hr0

/-- The improper Gamma integral with a purely imaginary rate. -/
theorem tendsto_integral_cpow_mul_cexp {a r : ℂ} (ha : 0 < a.re) (ha1 : a.re < 1) (hr : r.re = 0) (hi : r.im ≠ 0) :
    Tendsto (fun R : ℝ => ∫ x in (0 : ℝ)..R, (x : ℂ) ^ (a - 1) * cexp (-(r * x))) atTop
      (𝓝 ((1 / r) ^ a * Gamma a)) := by
  have hr0 : r ≠ 0 := by rintro rfl; simp at hi
  have h := tendsto_byParts ha ha1 hr.ge hr0
  suffices byParts a r = (1 / r) ^ a * Gamma a by rwa [this] at h
  have hseq : Tendsto (fun n : ℕ => r + (1 / ((n : ℝ) + 1) : ℝ)) atTop (𝓝 r) := by
    have h1 : Tendsto (fun n : ℕ => ((1 / ((n : ℝ) + 1) : ℝ) : ℂ)) atTop (𝓝 ((0 : ℝ) : ℂ)) :=
      (Complex.continuous_ofReal.tendsto 0).comp tendsto_one_div_add_atTop_nhds_zero_nat
    simpa using tendsto_const_nhds.add h1
  have hpos : ∀ n : ℕ, 0 < (r + ((1 / ((n : ℝ) + 1) : ℝ) : ℂ)).re := fun n => by
    have : (0 : ℝ) < 1 / ((n : ℝ) + 1) := by positivity
    rw [Complex.add_re, Complex.ofReal_re, hr]
    linarith
  have hL : Tendsto (fun n : ℕ => byParts a (r + (1 / ((n : ℝ) + 1) : ℝ))) atTop (𝓝 (byParts a r)) :=
    (byParts_cont ha ha1 hr0).tendsto.comp
      (tendsto_nhdsWithin_iff.2 ⟨hseq, Eventually.of_forall fun n => (hpos n).le⟩)
  have hR : Tendsto (fun n : ℕ => (1 / (r + (1 / ((n : ℝ) + 1) : ℝ))) ^ a * Gamma a) atTop
      (𝓝 ((1 / r) ^ a * Gamma a)) := by
    refine Tendsto.mul_const _ (Tendsto.cpow ?_ tendsto_const_nhds ?_)
    · exact tendsto_const_nhds.div hseq hr0
    · right
      rw [one_div, Complex.inv_im]
      exact div_ne_zero (neg_ne_zero.2 hi) (Complex.normSq_pos.2 hr0).ne'
  refine tendsto_nhds_unique hL (hR.congr fun n => (byParts_eq ha ha1 (hpos n)).symm)

private theorem one_div_I_cpow (a : ℂ) : (1 / I) ^ a = cexp (-(Real.pi * a / 2 * I)) := by
  rw [one_div, Complex.inv_I, Complex.cpow_def_of_ne_zero (by simp), Complex.log_neg_I]
  congr 1
  ring

private theorem one_div_neg_I_cpow (a : ℂ) : (1 / -I) ^ a = cexp (Real.pi * a / 2 * I) := by
  rw [one_div, inv_neg, Complex.inv_I, neg_neg, Complex.cpow_def_of_ne_zero (by simp), Complex.log_I]
  congr 1
  ring

/-- `∫₀^∞ x^{a-1} cos x dx = Γ(a) cos(πa/2)` for `0 < Re a < 1`. -/
theorem tendsto_integral_cpow_mul_cos {a : ℂ} (ha : 0 < a.re) (ha1 : a.re < 1) :
    Tendsto (fun R : ℝ => ∫ x in (0 : ℝ)..R, (x : ℂ) ^ (a - 1) * Complex.cos x) atTop
      (𝓝 (Gamma a * Complex.cos (Real.pi * a / 2))) := by
  have h1 := tendsto_integral_cpow_mul_cexp (r := I) ha ha1 (by simp) (by simp)
  have h2 := tendsto_integral_cpow_mul_cexp (r := -I) ha ha1 (by simp) (by simp)
  have h := (h1.add h2).mul_const (1 / 2)
  rw [one_div_I_cpow, one_div_neg_I_cpow] at h
  convert h using 1
  · funext R
    rw [← intervalIntegral.integral_add (int_head ha 0 R) (int_head ha 0 R), ← intervalIntegral.integral_mul_const]
    refine intervalIntegral.integral_congr fun x _ => ?_
    simp only [Complex.cos]
    rw [show -(I * (x : ℂ)) = -(x : ℂ) * I by ring, show -(-I * (x : ℂ)) = (x : ℂ) * I by ring]
    ring
  · rw [Complex.cos]
    congr 1
    rw [show -((Real.pi : ℂ) * a / 2) * I = -(Real.pi * a / 2 * I) by ring]
    ring

/-- `∫₀^∞ x^{a-1} sin x dx = Γ(a) sin(πa/2)` for `0 < Re a < 1`. -/
theorem tendsto_integral_cpow_mul_sin {a : ℂ} (ha : 0 < a.re) (ha1 : a.re < 1) :
    Tendsto (fun R : ℝ => ∫ x in (0 : ℝ)..R, (x : ℂ) ^ (a - 1) * Complex.sin x) atTop
      (𝓝 (Gamma a * Complex.sin (Real.pi * a / 2))) := by
  have h1 := tendsto_integral_cpow_mul_cexp (r := I) ha ha1 (by simp) (by simp)
  have h2 := tendsto_integral_cpow_mul_cexp (r := -I) ha ha1 (by simp) (by simp)
  have h := (h1.sub h2).mul_const (I / 2)
  rw [one_div_I_cpow, one_div_neg_I_cpow] at h
  convert h using 1
  · funext R
    rw [← intervalIntegral.integral_sub (int_head ha 0 R) (int_head ha 0 R), ← intervalIntegral.integral_mul_const]
    refine intervalIntegral.integral_congr fun x _ => ?_
    simp only [Complex.sin]
    rw [show -(I * (x : ℂ)) = -(x : ℂ) * I by ring, show -(-I * (x : ℂ)) = (x : ℂ) * I by ring]
    ring
  · rw [Complex.sin]
    congr 1
    rw [show -((Real.pi : ℂ) * a / 2) * I = -(Real.pi * a / 2 * I) by ring]
    ring

end Jrystal
