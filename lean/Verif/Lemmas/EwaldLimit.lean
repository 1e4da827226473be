import Verif.Lemmas.GaussLattice
import Verif.Spec.Ewald
import Verif.Lemmas.Energy

/- The infinite Ewald sums: convergence, and dependence on the splitting parameter. -/
namespace Jrystal
open scoped BigOperators
open MeasureTheory Topology Matrix

private theorem gauss_int : Integrable fun t : ℝ => Real.exp (-t ^ 2) := by
  have := integrable_exp_neg_mul_sq (b := 1) one_pos
  simpa using this

theorem erfc_nonneg (x : ℝ) : 0 ≤ Spec.erfc x := by
  unfold Spec.erfc
  have : 0 ≤ ∫ t in Set.Ioi x, Real.exp (-t ^ 2) :=
    integral_nonneg fun t => (Real.exp_pos _).le
  positivity

theorem erfc_le {x : ℝ} (hx : 0 ≤ x) : Spec.erfc x ≤ Real.exp (-x ^ 2) := by
  have h0 : ∫ t in Set.Ioi (0 : ℝ), Real.exp (-t ^ 2) = Real.sqrt Real.pi / 2 := by
    have := integral_gaussian_Ioi 1
    simpa using this
  have h1 : ∫ t in Set.Ioi x, Real.exp (-t ^ 2) = ∫ s in Set.Ioi (0 : ℝ), Real.exp (-(s + x) ^ 2) := by
    have := (measurePreserving_add_right MeasureTheory.volume x).setIntegral_preimage_emb
      (measurableEmbedding_addRight x) (fun t : ℝ => Real.exp (-t ^ 2)) (Set.Ioi x)
    rw [← this]
    congr 2
    ext s
    simp
  have h2 : ∫ s in Set.Ioi (0 : ℝ), Real.exp (-(s + x) ^ 2)
      ≤ ∫ s in Set.Ioi (0 : ℝ), Real.exp (-x ^ 2) * Real.exp (-s ^ 2) := by
    refine setIntegral_mono_on ?_ ?_ measurableSet_Ioi ?_
    · exact (gauss_int.comp_add_right x).integrableOn
    · exact (gauss_int.const_mul _).integrableOn
    · intro s hs
      rw [← Real.exp_add]
      refine Real.exp_le_exp.mpr ?_
      have : 0 < s := hs
      nlinarith
  rw [integral_const_mul, h0] at h2
  have hp := Real.sqrt_pos.mpr Real.pi_pos
  unfold Spec.erfc
  rw [h1]
  calc 2 / Real.sqrt Real.pi * ∫ s in Set.Ioi (0 : ℝ), Real.exp (-(s + x) ^ 2)
      ≤ 2 / Real.sqrt Real.pi * (Real.exp (-x ^ 2) * (Real.sqrt Real.pi / 2)) :=
        mul_le_mul_of_nonneg_left h2 (by positivity)
    _ = Real.exp (-x ^ 2) := by field_simp

theorem erfc_le_one {x : ℝ} (hx : 0 ≤ x) : Spec.erfc x ≤ 1 :=
  (erfc_le hx).trans (Real.exp_le_one_iff.mpr (by nlinarith [sq_nonneg x]))

/-- Changing the splitting parameter in one real-space term. -/
theorem erfc_div_sub {r : ℝ} (hr : 0 < r) {a b : ℝ} (hab : a ≤ b) :
    Spec.erfc (a * r) / r - Spec.erfc (b * r) / r
      = 2 / Real.sqrt Real.pi * ∫ u in a..b, Real.exp (-u ^ 2 * r ^ 2) := by
  have h1 : (∫ t in Set.Ioi (a * r), Real.exp (-t ^ 2)) - ∫ t in Set.Ioi (b * r), Real.exp (-t ^ 2)
      = ∫ t in (a * r)..(b * r), Real.exp (-t ^ 2) :=
    intervalIntegral.integral_Ioi_sub_Ioi gauss_int.integrableOn (by nlinarith)
  have h2 : ∫ u in a..b, Real.exp (-u ^ 2 * r ^ 2)
      = r⁻¹ * ∫ t in (a * r)..(b * r), Real.exp (-t ^ 2) := by
    have := intervalIntegral.integral_comp_mul_right (a := a) (b := b)
      (fun t : ℝ => Real.exp (-t ^ 2)) hr.ne'
    rw [smul_eq_mul] at this
    rw [← this]
    refine intervalIntegral.integral_congr fun u _ => ?_
    beta_reduce
    congr 1
    ring
  rw [h2, ← h1]
  unfold Spec.erfc
  field_simp

/-- Squared distance from `r` to a lattice point. -/
private def gap (A : Matrix (Fin 3) (Fin 3) ℝ) (r : Fin 3 → ℝ) (z : Fin 3 → ℤ) : ℝ :=
  ∑ d, (r d - Spec.latticePoint A z d) ^ 2

private theorem gap_nonneg (A : Matrix (Fin 3) (Fin 3) ℝ) (r : Fin 3 → ℝ) (z : Fin 3 → ℤ) :
    0 ≤ gap A r z := Finset.sum_nonneg fun d _ => sq_nonneg _

private theorem gap_eq (A : Matrix (Fin 3) (Fin 3) ℝ) (r : Fin 3 → ℝ) (z : Fin 3 → ℤ) :
    Spec.dot (fun d => r d - Spec.latticePoint A z d) (fun d => r d - Spec.latticePoint A z d)
      = gap A r z := (sum_sq_eq_dot fun d => r d - Spec.latticePoint A z d).symm

/-- Squared length of a reciprocal lattice vector. -/
private noncomputable def gsq (A : Matrix (Fin 3) (Fin 3) ℝ) (n : Fin 3 → ℤ) : ℝ :=
  ∑ d, Spec.latticePoint (reciprocalVectors A) n d ^ 2

/-- The infinite real-space sum converges. -/
theorem summable_screened (A : Matrix (Fin 3) (Fin 3) ℝ) (hA : A.det ≠ 0) {eta : ℝ} (he : 0 < eta)
    (r : Fin 3 → ℝ) :
    Summable fun z : Fin 3 → ℤ => Spec.erfc (eta * Spec.ewaldDistance r (Spec.latticePoint A z)) /
      Spec.ewaldDistance r (Spec.latticePoint A z) := by
  have hs := (summable_lattice_gauss_shift A hA he r).mul_left (1e9 * Real.exp (eta ^ 2 * 99e-20))
  refine Summable.of_nonneg_of_le (fun z => ?_) (fun z => ?_) hs
  · refine div_nonneg (erfc_nonneg _) ?_
    unfold Spec.ewaldDistance
    split_ifs
    · norm_num
    · exact Real.sqrt_nonneg _
  · change _ ≤ 1e9 * Real.exp (eta ^ 2 * 99e-20) * Real.exp (-eta ^ 2 * gap A r z)
    have hg := gap_nonneg A r z
    unfold Spec.ewaldDistance
    rw [gap_eq]
    by_cases h : gap A r z ≤ 99e-20
    · rw [if_pos h, mul_assoc, ← Real.exp_add]
      have h1 : Spec.erfc (eta * 1e20) / 1e20 ≤ 1 := by
        rw [div_le_iff₀ (by norm_num)]
        refine (erfc_le_one (by positivity)).trans (by norm_num)
      have h2 : 1 ≤ Real.exp (eta ^ 2 * 99e-20 + -eta ^ 2 * gap A r z) := by
        refine Real.one_le_exp ?_
        nlinarith [mul_le_mul_of_nonneg_left h (sq_nonneg eta)]
      linarith
    · rw [if_neg h]
      push Not at h
      have hs : (1e-9 : ℝ) ≤ Real.sqrt (gap A r z + 1e-20) := by
        refine Real.le_sqrt_of_sq_le ?_
        norm_num at h ⊢
        linarith
      have hpos : 0 < Real.sqrt (gap A r z + 1e-20) := lt_of_lt_of_le (by norm_num) hs
      rw [div_le_iff₀ hpos]
      have h1 := erfc_le (x := eta * Real.sqrt (gap A r z + 1e-20)) (by positivity)
      have h2 : Real.exp (-(eta * Real.sqrt (gap A r z + 1e-20)) ^ 2) ≤ Real.exp (-eta ^ 2 * gap A r z) := by
        refine Real.exp_le_exp.mpr ?_
        rw [mul_pow, Real.sq_sqrt (by positivity)]
        nlinarith [sq_nonneg eta]
      have h3 : 1 ≤ Real.exp (eta ^ 2 * 99e-20) := Real.one_le_exp (by positivity)
      have h4 := Real.exp_pos (-eta ^ 2 * gap A r z)
      have h5 : (1 : ℝ) ≤ 1e9 * Real.sqrt (gap A r z + 1e-20) := by
        have := mul_le_mul_of_nonneg_left hs (by norm_num : (0 : ℝ) ≤ 1e9)
        norm_num at this ⊢
        linarith
      calc Spec.erfc (eta * Real.sqrt (gap A r z + 1e-20))
          ≤ 1 * (1 * Real.exp (-eta ^ 2 * gap A r z)) := by linarith
        _ ≤ (1e9 * Real.sqrt (gap A r z + 1e-20)) *
            (Real.exp (eta ^ 2 * 99e-20) * Real.exp (-eta ^ 2 * gap A r z)) := by
          refine mul_le_mul h5 (mul_le_mul_of_nonneg_right h3 h4.le) (by positivity) (by positivity)
        _ = _ := by ring

private theorem gsq_pos (A : Matrix (Fin 3) (Fin 3) ℝ) (hA : A.det ≠ 0) :
    ∃ c : ℝ, 0 < c ∧ ∀ n : Fin 3 → ℤ, n ≠ 0 → c ≤ gsq A n := by
  obtain ⟨c, hc, hcb⟩ := exists_coercive (reciprocalVectors A) (recip_det_ne_zero A hA)
  refine ⟨c, hc, fun n hn => ?_⟩
  have h1 := hcb fun i => (n i : ℝ)
  have h2 : (1 : ℝ) ≤ ∑ i, (n i : ℝ) ^ 2 := by
    obtain ⟨i, hi⟩ := Function.ne_iff.mp hn
    have : (1 : ℝ) ≤ (n i : ℝ) ^ 2 := by
      have : (1 : ℤ) ≤ (n i) ^ 2 := by
        have hi' : n i ≠ 0 := hi
        have := sq_pos_of_ne_zero hi'
        omega
      exact_mod_cast this
    exact this.trans (Finset.single_le_sum (f := fun i => (n i : ℝ) ^ 2) (fun i _ => sq_nonneg _)
      (Finset.mem_univ i))
  have h3 := mul_le_mul_of_nonneg_left h2 hc.le
  unfold gsq Spec.latticePoint
  linarith

private theorem gsq_zero (A : Matrix (Fin 3) (Fin 3) ℝ) : gsq A 0 = 0 := by
  simp [gsq, Spec.latticePoint]

private theorem summable_gsq (A : Matrix (Fin 3) (Fin 3) ℝ) (hA : A.det ≠ 0) {eta : ℝ} (he : 0 < eta) :
    Summable fun n : Fin 3 → ℤ => Real.exp (-gsq A n / (4 * eta ^ 2)) := by
  have := summable_lattice_gauss (reciprocalVectors A) (recip_det_ne_zero A hA)
    (u := 1 / (2 * eta)) (by positivity)
  refine this.congr fun n => ?_
  congr 1
  unfold gsq
  field_simp
  ring

/-- The infinite reciprocal sum converges. -/
theorem summable_reciprocal (A : Matrix (Fin 3) (Fin 3) ℝ) (hA : A.det ≠ 0) {eta : ℝ} (he : 0 < eta)
    (r : Fin 3 → ℝ) :
    Summable fun n : Fin 3 → ℤ =>
      Real.exp (-(∑ d, Spec.latticePoint (reciprocalVectors A) n d ^ 2) / (4 * eta ^ 2)) /
        (∑ d, Spec.latticePoint (reciprocalVectors A) n d ^ 2) *
        Real.cos (∑ d, Spec.latticePoint (reciprocalVectors A) n d * r d) := by
  change Summable fun n : Fin 3 → ℤ => Real.exp (-gsq A n / (4 * eta ^ 2)) / gsq A n * Real.cos _
  obtain ⟨c, hc, hcb⟩ := gsq_pos A hA
  refine Summable.of_norm_bounded ((summable_gsq A hA he).mul_left (1 / c)) fun n => ?_
  rw [Real.norm_eq_abs, abs_mul]
  have h1 := Real.abs_cos_le_one (∑ d, Spec.latticePoint (reciprocalVectors A) n d * r d)
  have he0 := Real.exp_pos (-gsq A n / (4 * eta ^ 2))
  by_cases hn : n = 0
  · subst hn
    rw [gsq_zero, div_zero, abs_zero, zero_mul]
    positivity
  · have h2 := hcb n hn
    have h3 : |Real.exp (-gsq A n / (4 * eta ^ 2)) / gsq A n| ≤ 1 / c * Real.exp (-gsq A n / (4 * eta ^ 2)) := by
      rw [abs_of_nonneg (div_nonneg he0.le (hc.le.trans h2)), div_mul_eq_mul_div, one_mul]
      exact div_le_div_of_nonneg_left he0.le hc h2
    calc _ ≤ 1 / c * Real.exp (-gsq A n / (4 * eta ^ 2)) * 1 :=
          mul_le_mul h3 h1 (abs_nonneg _) (by positivity)
      _ = _ := mul_one _

/-- Integral over the splitting parameter of the sum of Gaussians, term by term in real space. -/
private theorem theta_real (A : Matrix (Fin 3) (Fin 3) ℝ) (hA : A.det ≠ 0) {a b : ℝ} (ha : 0 < a)
    (hab : a ≤ b) (r : Fin 3 → ℝ) :
    HasSum (fun z : Fin 3 → ℤ => ∫ u in a..b, Real.exp (-u ^ 2 * gap A r z))
      (∫ u in a..b, ∑' z : Fin 3 → ℤ, Real.exp (-u ^ 2 * gap A r z)) := by
  refine intervalIntegral.hasSum_integral_of_dominated_convergence
    (fun z _ => Real.exp (-a ^ 2 * gap A r z)) (fun z => ?_) (fun z => ?_) ?_ ?_ ?_
  · exact (by fun_prop : Continuous fun u : ℝ => Real.exp (-u ^ 2 * gap A r z)).aestronglyMeasurable
  · refine Filter.Eventually.of_forall fun u hu => ?_
    rw [Set.uIoc_of_le hab] at hu
    rw [Real.norm_of_nonneg (Real.exp_pos _).le]
    refine Real.exp_le_exp.mpr ?_
    have h1 : a ^ 2 ≤ u ^ 2 := pow_le_pow_left₀ ha.le hu.1.le 2
    nlinarith [mul_le_mul_of_nonneg_right h1 (gap_nonneg A r z)]
  · exact Filter.Eventually.of_forall fun u _ => summable_lattice_gauss_shift A hA ha r
  · exact intervalIntegrable_const
  · refine Filter.Eventually.of_forall fun u hu => ?_
    rw [Set.uIoc_of_le hab] at hu
    exact (summable_lattice_gauss_shift A hA (ha.trans hu.1) r).hasSum

/-- The same integral, term by term in reciprocal space. -/
private theorem theta_recip (A : Matrix (Fin 3) (Fin 3) ℝ) (hA : A.det ≠ 0) {a b : ℝ} (ha : 0 < a)
    (hab : a ≤ b) (r : Fin 3 → ℝ) :
    HasSum (fun n : Fin 3 → ℤ => ∫ u in a..b, (Real.sqrt Real.pi / u) ^ 3 / |A.det| *
        Real.exp (-gsq A n / (4 * u ^ 2)) *
        Real.cos (∑ d, Spec.latticePoint (reciprocalVectors A) n d * r d))
      (∫ u in a..b, ∑' z : Fin 3 → ℤ, Real.exp (-u ^ 2 * gap A r z)) := by
  have hb : 0 < b := ha.trans_le hab
  have hg : ∀ n, 0 ≤ gsq A n := fun n => Finset.sum_nonneg fun d _ => sq_nonneg _
  refine intervalIntegral.hasSum_integral_of_dominated_convergence
    (fun n _ => (Real.sqrt Real.pi / a) ^ 3 / |A.det| * Real.exp (-gsq A n / (4 * b ^ 2)))
    (fun z => ?_) (fun n => ?_) ?_ ?_ ?_
  · refine Measurable.aestronglyMeasurable ?_
    fun_prop
  · refine Filter.Eventually.of_forall fun u hu => ?_
    rw [Set.uIoc_of_le hab] at hu
    have hu0 : 0 < u := ha.trans hu.1
    rw [norm_mul, Real.norm_of_nonneg (by positivity)]
    have h1 := Real.abs_cos_le_one (∑ d, Spec.latticePoint (reciprocalVectors A) n d * r d)
    have h2 : (Real.sqrt Real.pi / u) ^ 3 / |A.det| ≤ (Real.sqrt Real.pi / a) ^ 3 / |A.det| := by
      have : Real.sqrt Real.pi / u ≤ Real.sqrt Real.pi / a :=
        div_le_div_of_nonneg_left (Real.sqrt_nonneg _) ha hu.1.le
      have := pow_le_pow_left₀ (by positivity) this 3
      exact div_le_div_of_nonneg_right this (abs_nonneg _)
    have h3 : Real.exp (-gsq A n / (4 * u ^ 2)) ≤ Real.exp (-gsq A n / (4 * b ^ 2)) := by
      refine Real.exp_le_exp.mpr ?_
      rw [neg_div, neg_div, neg_le_neg_iff]
      refine div_le_div_of_nonneg_left (hg n) (by positivity) ?_
      have : u ^ 2 ≤ b ^ 2 := pow_le_pow_left₀ hu0.le hu.2 2
      linarith
    calc _ ≤ ((Real.sqrt Real.pi / a) ^ 3 / |A.det| * Real.exp (-gsq A n / (4 * b ^ 2))) * 1 := by
          refine mul_le_mul (mul_le_mul h2 h3 (Real.exp_pos _).le (by positivity)) h1 (norm_nonneg _)
            (by positivity)
      _ = _ := mul_one _
  · exact Filter.Eventually.of_forall fun u _ => (summable_gsq A hA hb).mul_left _
  · exact intervalIntegrable_const
  · refine Filter.Eventually.of_forall fun u hu => ?_
    rw [Set.uIoc_of_le hab] at hu
    exact gauss_poisson A hA (ha.trans hu.1) r

private theorem int_zero {a b : ℝ} (ha : 0 < a) (hab : a ≤ b) (V : ℝ) :
    ∫ u in a..b, (Real.sqrt Real.pi / u) ^ 3 / V
      = Real.sqrt Real.pi ^ 3 / V * ((1 / a ^ 2 - 1 / b ^ 2) / 2) := by
  have hne : ∀ u ∈ Set.uIcc a b, u ≠ 0 := by
    intro u hu
    rw [Set.uIcc_of_le hab] at hu
    exact (ha.trans_le hu.1).ne'
  have hd : ∀ u ∈ Set.uIcc a b, HasDerivAt (fun u : ℝ => Real.sqrt Real.pi ^ 3 / V * (-(1 / 2) * (u ^ 2)⁻¹))
      ((Real.sqrt Real.pi / u) ^ 3 / V) u := by
    intro u hu
    have hu0 := hne u hu
    have h1 := ((hasDerivAt_pow 2 u).inv (pow_ne_zero 2 hu0)).const_mul
      (-(1 / 2 : ℝ)) |>.const_mul (Real.sqrt Real.pi ^ 3 / V)
    convert! h1 using 1
    simp only [Nat.cast_ofNat, Nat.add_one_sub_one, pow_one]
    field_simp
  rw [intervalIntegral.integral_eq_sub_of_hasDerivAt hd]
  · ring
  · refine ContinuousOn.intervalIntegrable ?_
    refine ContinuousOn.div_const (ContinuousOn.pow ?_ 3) V
    exact continuousOn_const.div continuousOn_id hne

private theorem int_nonzero {a b : ℝ} (ha : 0 < a) (hab : a ≤ b) (V g : ℝ) (hg : g ≠ 0) :
    ∫ u in a..b, (Real.sqrt Real.pi / u) ^ 3 / V * Real.exp (-g / (4 * u ^ 2))
      = Real.sqrt Real.pi ^ 3 / V * (2 * (Real.exp (-g / (4 * b ^ 2)) / g - Real.exp (-g / (4 * a ^ 2)) / g)) := by
  have hne : ∀ u ∈ Set.uIcc a b, u ≠ 0 := by
    intro u hu
    rw [Set.uIcc_of_le hab] at hu
    exact (ha.trans_le hu.1).ne'
  have hd : ∀ u ∈ Set.uIcc a b, HasDerivAt
      (fun u : ℝ => Real.sqrt Real.pi ^ 3 / V * (2 / g * Real.exp (-g / 4 * (u ^ 2)⁻¹)))
      ((Real.sqrt Real.pi / u) ^ 3 / V * Real.exp (-g / (4 * u ^ 2))) u := by
    intro u hu
    have hu0 := hne u hu
    have h1 := (((hasDerivAt_pow 2 u).inv (pow_ne_zero 2 hu0)).const_mul (-g / 4)).exp.const_mul
      (2 / g) |>.const_mul (Real.sqrt Real.pi ^ 3 / V)
    have he : -g / (4 * u ^ 2) = -g / 4 * (u ^ 2)⁻¹ := by field_simp
    rw [he]
    convert! h1 using 1
    simp only [Nat.cast_ofNat, Nat.add_one_sub_one, pow_one, Pi.inv_apply]
    field_simp
    ring
  have hfin : ∀ u : ℝ, -g / 4 * (u ^ 2)⁻¹ = -g / (4 * u ^ 2) := fun u => by
    rw [div_mul_eq_div_mul_one_div, one_div]
  rw [intervalIntegral.integral_eq_sub_of_hasDerivAt hd]
  · rw [hfin, hfin]
    ring
  · refine ContinuousOn.intervalIntegrable ?_
    refine ContinuousOn.mul (ContinuousOn.div_const (ContinuousOn.pow ?_ 3) V) ?_
    · exact continuousOn_const.div continuousOn_id hne
    · refine Real.continuous_exp.comp_continuousOn (continuousOn_const.div ?_ ?_)
      · fun_prop
      · intro u hu
        have := hne u hu
        positivity

/-- The reciprocal pair sum of the Ewald formula. -/
private noncomputable def recipPair (A : Matrix (Fin 3) (Fin 3) ℝ) (r : Fin 3 → ℝ) (eta : ℝ) : ℝ :=
  ∑' n : Fin 3 → ℤ, Real.exp (-gsq A n / (4 * eta ^ 2)) / gsq A n *
    Real.cos (∑ d, Spec.latticePoint (reciprocalVectors A) n d * r d)

/-- Changing the splitting parameter in the reciprocal pair sum and in the background. -/
private theorem recip_change (A : Matrix (Fin 3) (Fin 3) ℝ) (hA : A.det ≠ 0) {a b : ℝ} (ha : 0 < a)
    (hab : a ≤ b) (r : Fin 3 → ℝ) :
    2 / Real.sqrt Real.pi * ∑' z : Fin 3 → ℤ, ∫ u in a..b, Real.exp (-u ^ 2 * gap A r z)
      = (4 * Real.pi / |A.det| * recipPair A r b - Real.pi / (|A.det| * b ^ 2))
        - (4 * Real.pi / |A.det| * recipPair A r a - Real.pi / (|A.det| * a ^ 2)) := by
  have hb : 0 < b := ha.trans_le hab
  rw [(theta_real A hA ha hab r).tsum_eq]
  have hR := theta_recip A hA ha hab r
  set V := |A.det| with hV
  have hV0 : 0 < V := abs_pos.mpr hA
  obtain ⟨c, hc, hcb⟩ := gsq_pos A hA
  have hterm : ∀ n : Fin 3 → ℤ, (∫ u in a..b, (Real.sqrt Real.pi / u) ^ 3 / V *
        Real.exp (-gsq A n / (4 * u ^ 2)) *
        Real.cos (∑ d, Spec.latticePoint (reciprocalVectors A) n d * r d))
      = (if n = 0 then Real.sqrt Real.pi ^ 3 / V * ((1 / a ^ 2 - 1 / b ^ 2) / 2) else 0)
        + Real.sqrt Real.pi ^ 3 / V * 2 *
          (Real.exp (-gsq A n / (4 * b ^ 2)) / gsq A n *
              Real.cos (∑ d, Spec.latticePoint (reciprocalVectors A) n d * r d)
            - Real.exp (-gsq A n / (4 * a ^ 2)) / gsq A n *
              Real.cos (∑ d, Spec.latticePoint (reciprocalVectors A) n d * r d)) := by
    intro n
    rw [intervalIntegral.integral_mul_const]
    by_cases hn : n = 0
    · subst hn
      rw [if_pos rfl, gsq_zero]
      simp only [neg_zero, zero_div, Real.exp_zero, mul_one, div_zero, zero_mul, sub_zero, mul_zero,
        add_zero]
      rw [int_zero ha hab]
      simp [Spec.latticePoint]
    · rw [if_neg hn, int_nonzero ha hab V _ (hc.trans_le (hcb n hn)).ne']
      ring
  simp_rw [hterm] at hR
  have h1 : HasSum (fun n : Fin 3 → ℤ => if n = 0 then Real.sqrt Real.pi ^ 3 / V * ((1 / a ^ 2 - 1 / b ^ 2) / 2) else 0)
      (Real.sqrt Real.pi ^ 3 / V * ((1 / a ^ 2 - 1 / b ^ 2) / 2)) := hasSum_ite_eq _ _
  have h2 : HasSum (fun n : Fin 3 → ℤ => Real.sqrt Real.pi ^ 3 / V * 2 *
          (Real.exp (-gsq A n / (4 * b ^ 2)) / gsq A n *
              Real.cos (∑ d, Spec.latticePoint (reciprocalVectors A) n d * r d)
            - Real.exp (-gsq A n / (4 * a ^ 2)) / gsq A n *
              Real.cos (∑ d, Spec.latticePoint (reciprocalVectors A) n d * r d)))
      (Real.sqrt Real.pi ^ 3 / V * 2 * (recipPair A r b - recipPair A r a)) :=
    ((summable_reciprocal A hA hb r).hasSum.sub (summable_reciprocal A hA ha r).hasSum).mul_left _
  rw [hR.unique (h1.add h2)]
  have hp := Real.sqrt_pos.mpr Real.pi_pos
  have hsq := Real.sq_sqrt Real.pi_pos.le
  have h3 : Real.sqrt Real.pi ^ 3 = Real.pi * Real.sqrt Real.pi := by
    rw [pow_succ, hsq]
  rw [h3]
  field_simp
  ring

private theorem tail_le {a b g : ℝ} (ha : 0 < a) (hab : a ≤ b) (hg : 0 ≤ g) :
    |(∫ u in a..b, Real.exp (-u ^ 2 * (g + 1e-20))) - ∫ u in a..b, Real.exp (-u ^ 2 * g)|
      ≤ 1e-20 * b ^ 2 * (b - a) * Real.exp (-a ^ 2 * g) := by
  rw [← intervalIntegral.integral_sub
    ((by fun_prop : Continuous fun u : ℝ => Real.exp (-u ^ 2 * (g + 1e-20))).intervalIntegrable _ _)
    ((by fun_prop : Continuous fun u : ℝ => Real.exp (-u ^ 2 * g)).intervalIntegrable _ _)]
  have := intervalIntegral.norm_integral_le_of_norm_le_const (a := a) (b := b)
    (f := fun u => Real.exp (-u ^ 2 * (g + 1e-20)) - Real.exp (-u ^ 2 * g))
    (C := 1e-20 * b ^ 2 * Real.exp (-a ^ 2 * g)) (fun u hu => ?_)
  · rw [Real.norm_eq_abs, abs_of_nonneg (by linarith : 0 ≤ b - a)] at this
    linarith
  · rw [Set.uIoc_of_le hab] at hu
    have hu0 : 0 < u := ha.trans hu.1
    have h1 : Real.exp (-u ^ 2 * (g + 1e-20)) - Real.exp (-u ^ 2 * g)
        = -(1 - Real.exp (-u ^ 2 * 1e-20)) * Real.exp (-u ^ 2 * g) := by
      rw [mul_add, Real.exp_add]
      ring
    rw [h1, norm_mul, norm_neg, Real.norm_of_nonneg (Real.exp_pos _).le]
    have h2 := Real.add_one_le_exp (-u ^ 2 * 1e-20)
    have h3 : Real.exp (-u ^ 2 * 1e-20) ≤ 1 := Real.exp_le_one_iff.mpr (by nlinarith [sq_nonneg u])
    rw [Real.norm_of_nonneg (by linarith)]
    have h4 : u ^ 2 ≤ b ^ 2 := pow_le_pow_left₀ hu0.le hu.2 2
    have h5 : a ^ 2 ≤ u ^ 2 := pow_le_pow_left₀ ha.le hu.1.le 2
    refine mul_le_mul (by nlinarith) (Real.exp_le_exp.mpr ?_) (Real.exp_pos _).le (by positivity)
    nlinarith [mul_le_mul_of_nonneg_right h5 hg]

/-- One pair of atoms: changing the splitting parameter.  `self` is the term of an atom with itself. -/
private theorem pair_change (A : Matrix (Fin 3) (Fin 3) ℝ) (hA : A.det ≠ 0) {a b : ℝ} (ha : 0 < a)
    (hab : a ≤ b) (r : Fin 3 → ℝ) (self : Prop) [Decidable self]
    (hfar : ∀ z : Fin 3 → ℤ, (¬ self ∨ z ≠ 0) → 99e-20 < gap A r z) (hself : self → ∀ d : Fin 3, r d = 0) :
    |((∑' z : Fin 3 → ℤ, Spec.erfc (a * Spec.ewaldDistance r (Spec.latticePoint A z)) /
          Spec.ewaldDistance r (Spec.latticePoint A z))
        + (4 * Real.pi / |A.det| * recipPair A r a - Real.pi / (|A.det| * a ^ 2))
        - (if self then 2 * a / Real.sqrt Real.pi else 0))
      - ((∑' z : Fin 3 → ℤ, Spec.erfc (b * Spec.ewaldDistance r (Spec.latticePoint A z)) /
          Spec.ewaldDistance r (Spec.latticePoint A z))
        + (4 * Real.pi / |A.det| * recipPair A r b - Real.pi / (|A.det| * b ^ 2))
        - (if self then 2 * b / Real.sqrt Real.pi else 0))|
      ≤ 1e-20 * (2 / Real.sqrt Real.pi * (b ^ 2 * (b - a)) *
          ∑' z : Fin 3 → ℤ, Real.exp (-a ^ 2 * gap A r z) + 1) := by
  have hb : 0 < b := ha.trans_le hab
  have hp := Real.sqrt_pos.mpr Real.pi_pos
  have hrec := recip_change A hA ha hab r
  have hsa := summable_screened A hA ha r
  have hsb := summable_screened A hA hb r
  have hQ := (theta_real A hA ha hab r).summable
  have hth := summable_lattice_gauss_shift A hA ha r
  change Summable fun z : Fin 3 → ℤ => Real.exp (-a ^ 2 * gap A r z) at hth
  set P : ℝ → (Fin 3 → ℤ) → ℝ := fun e z => Spec.erfc (e * Spec.ewaldDistance r (Spec.latticePoint A z)) /
          Spec.ewaldDistance r (Spec.latticePoint A z) with hP
  set Q : (Fin 3 → ℤ) → ℝ := fun z => ∫ u in a..b, Real.exp (-u ^ 2 * gap A r z) with hQd
  set S : (Fin 3 → ℤ) → ℝ := fun z => if z = 0 then (if self then 2 * b / Real.sqrt Real.pi - 2 * a / Real.sqrt Real.pi else 0) else 0 with hS
  have hSs : HasSum S (if self then 2 * b / Real.sqrt Real.pi - 2 * a / Real.sqrt Real.pi else 0) := hasSum_ite_eq _ _
  have hterm : ∀ z, |(P a z - P b z) - 2 / Real.sqrt Real.pi * Q z + S z|
      ≤ 1e-20 * (2 / Real.sqrt Real.pi * (b ^ 2 * (b - a))) * Real.exp (-a ^ 2 * gap A r z)
        + (if z = 0 then 1e-20 else 0) := by
    intro z
    have h0 : 0 ≤ 1e-20 * (2 / Real.sqrt Real.pi * (b ^ 2 * (b - a))) * Real.exp (-a ^ 2 * gap A r z) := by
      have : 0 ≤ b - a := by linarith
      positivity
    by_cases hz : self ∧ z = 0
    · obtain ⟨hs, rfl⟩ := hz
      have hg : gap A r 0 = 0 := by
        unfold gap Spec.latticePoint
        simp [hself hs]
      have hD : Spec.ewaldDistance r (Spec.latticePoint A 0) = 1e20 := by
        unfold Spec.ewaldDistance
        rw [gap_eq, hg, if_pos (by norm_num)]
      rw [hP, hQd, hS]
      dsimp only
      rw [hD, hg, if_pos rfl, if_pos rfl, if_pos hs]
      simp only [mul_zero, Real.exp_zero, intervalIntegral.integral_const, smul_eq_mul, mul_one]
      have h1 := erfc_nonneg (a * 1e20)
      have h2 := erfc_nonneg (b * 1e20)
      have h3 := erfc_le_one (x := a * 1e20) (by positivity)
      have h4 := erfc_le_one (x := b * 1e20) (by positivity)
      have h5 : Spec.erfc (a * 1e20) / 1e20 - Spec.erfc (b * 1e20) / 1e20 - 2 / Real.sqrt Real.pi * (b - a)
          + (2 * b / Real.sqrt Real.pi - 2 * a / Real.sqrt Real.pi)
          = 1e-20 * (Spec.erfc (a * 1e20) - Spec.erfc (b * 1e20)) := by
        norm_num
        ring
      rw [h5, abs_mul, abs_of_pos (by norm_num : (0 : ℝ) < 1e-20)]
      have h6 : |Spec.erfc (a * 1e20) - Spec.erfc (b * 1e20)| ≤ 1 := abs_le.mpr ⟨by linarith, by linarith⟩
      have h7 : 0 ≤ 1e-20 * (2 / Real.sqrt Real.pi * (b ^ 2 * (b - a))) := by
        have : 0 ≤ b - a := by linarith
        positivity
      linarith
    · have hz' : ¬ self ∨ z ≠ 0 := by tauto
      have hg := hfar z hz'
      have hSz : S z = 0 := by
        rw [hS]
        dsimp only
        by_cases h : z = 0
        · rw [if_pos h, if_neg (by tauto)]
        · rw [if_neg h]
      have hD : Spec.ewaldDistance r (Spec.latticePoint A z) = Real.sqrt (gap A r z + 1e-20) := by
        unfold Spec.ewaldDistance
        rw [gap_eq, if_neg (by linarith)]
      have hpos : 0 < Real.sqrt (gap A r z + 1e-20) := by
        refine Real.sqrt_pos.mpr ?_
        have := gap_nonneg A r z
        positivity
      have h1 : P a z - P b z = 2 / Real.sqrt Real.pi * ∫ u in a..b, Real.exp (-u ^ 2 * (gap A r z + 1e-20)) := by
        rw [hP]
        dsimp only
        rw [hD, erfc_div_sub hpos hab]
        have : Real.sqrt (gap A r z + 1e-20) ^ 2 = gap A r z + 1e-20 :=
          Real.sq_sqrt (by have := gap_nonneg A r z; positivity)
        rw [this]
      rw [h1, hSz, add_zero, ← mul_sub, abs_mul, abs_of_pos (by positivity)]
      have h2 := mul_le_mul_of_nonneg_left (tail_le ha hab (gap_nonneg A r z))
        (by positivity : 0 ≤ 2 / Real.sqrt Real.pi)
      have h3 : (0 : ℝ) ≤ if z = 0 then 1e-20 else 0 := by split_ifs <;> norm_num
      calc _ ≤ _ := h2
        _ = 1e-20 * (2 / Real.sqrt Real.pi * (b ^ 2 * (b - a))) * Real.exp (-a ^ 2 * gap A r z) := by ring
        _ ≤ _ := by linarith
  have hL : HasSum (fun z => (P a z - P b z) - 2 / Real.sqrt Real.pi * Q z + S z)
      ((∑' z, P a z) - (∑' z, P b z) - 2 / Real.sqrt Real.pi * ∑' z, Q z
        + (if self then 2 * b / Real.sqrt Real.pi - 2 * a / Real.sqrt Real.pi else 0)) :=
    ((hsa.hasSum.sub hsb.hasSum).sub (hQ.hasSum.mul_left _)).add hSs
  have hU : HasSum (fun z => 1e-20 * (2 / Real.sqrt Real.pi * (b ^ 2 * (b - a))) * Real.exp (-a ^ 2 * gap A r z)
        + (if z = 0 then (1e-20 : ℝ) else 0))
      (1e-20 * (2 / Real.sqrt Real.pi * (b ^ 2 * (b - a))) * (∑' z, Real.exp (-a ^ 2 * gap A r z)) + 1e-20) :=
    (hth.hasSum.mul_left _).add (hasSum_ite_eq _ _)
  have hfinal : |(∑' z, P a z) - (∑' z, P b z) - 2 / Real.sqrt Real.pi * (∑' z, Q z)
        + (if self then 2 * b / Real.sqrt Real.pi - 2 * a / Real.sqrt Real.pi else 0)|
      ≤ 1e-20 * (2 / Real.sqrt Real.pi * (b ^ 2 * (b - a))) * (∑' z, Real.exp (-a ^ 2 * gap A r z)) + 1e-20 := by
    have habs := hL.summable.abs
    rw [← hL.tsum_eq, ← hU.tsum_eq]
    refine le_trans ?_ (habs.tsum_le_tsum hterm hU.summable)
    have := norm_tsum_le_tsum_norm (f := fun z => (P a z - P b z) - 2 / Real.sqrt Real.pi * Q z + S z) habs
    simpa only [Real.norm_eq_abs] using this
  rw [hrec] at hfinal
  refine le_trans (le_of_eq ?_) (hfinal.trans (le_of_eq (by ring)))
  congr 1
  split_ifs <;> ring

/-- The sum of Gaussians is largest at a lattice point. -/
private theorem theta_le (A : Matrix (Fin 3) (Fin 3) ℝ) (hA : A.det ≠ 0) {a : ℝ} (ha : 0 < a)
    (r : Fin 3 → ℝ) :
    ∑' z : Fin 3 → ℤ, Real.exp (-a ^ 2 * gap A r z)
      ≤ ∑' z : Fin 3 → ℤ, Real.exp (-a ^ 2 * ∑ d, Spec.latticePoint A z d ^ 2) := by
  have h1 := gauss_poisson A hA ha r
  have h2 := gauss_poisson A hA ha 0
  have h3 : ∑' z : Fin 3 → ℤ, Real.exp (-a ^ 2 * ∑ d, ((0 : Fin 3 → ℝ) d - Spec.latticePoint A z d) ^ 2)
      = ∑' z : Fin 3 → ℤ, Real.exp (-a ^ 2 * ∑ d, Spec.latticePoint A z d ^ 2) := by
    refine tsum_congr fun z => ?_
    simp
  rw [h3] at h2
  refine hasSum_le (fun n => ?_) h1 h2
  have := Real.cos_le_one (∑ d, Spec.latticePoint (reciprocalVectors A) n d * r d)
  simp only [Pi.zero_apply, mul_zero, Finset.sum_const_zero, Real.cos_zero]
  refine mul_le_mul_of_nonneg_left this ?_
  positivity

theorem reciprocal_eq {A B : Matrix (Fin 3) (Fin 3) ℝ} (hA : A.det ≠ 0) (h : Spec.Reciprocal A B) :
    B = reciprocalVectors A := by
  have h1 : A * Bᵀ = A * (reciprocalVectors A)ᵀ := by
    rw [recip_dual A hA]
    ext i j
    rw [mul_apply, Matrix.smul_apply, one_apply]
    have := h i j
    unfold Spec.dot at this
    simp only [transpose_apply]
    rw [this]
    split_ifs <;> simp
  have h2 : Bᵀ = (reciprocalVectors A)ᵀ := by
    have := congrArg (A⁻¹ * ·) h1
    simpa [← Matrix.mul_assoc, nonsing_inv_mul _ (Ne.isUnit hA)] using this
  exact transpose_injective h2

theorem reciprocal_self (A : Matrix (Fin 3) (Fin 3) ℝ) (hA : A.det ≠ 0) :
    Spec.Reciprocal A (reciprocalVectors A) := fun i j => recip_dual_apply A hA i j

/-- The reciprocal terms in the vocabulary of the specification. -/
theorem recip_sum_spec (A : Matrix (Fin 3) (Fin 3) ℝ) (hA : A.det ≠ 0) {eta : ℝ} (he : 0 < eta)
    (r : Fin 3 → ℝ) :
    HasSum (fun n : Fin 3 → ℤ =>
      Real.exp (-(Spec.dot (Spec.latticePoint (reciprocalVectors A) n) (Spec.latticePoint (reciprocalVectors A) n)) / (4 * eta ^ 2)) /
        Spec.dot (Spec.latticePoint (reciprocalVectors A) n) (Spec.latticePoint (reciprocalVectors A) n) *
        Real.cos (Spec.dot (Spec.latticePoint (reciprocalVectors A) n) r))
    (∑' n : {n : Fin 3 → ℤ // n ≠ 0},
      Real.exp (-(Spec.dot (Spec.latticePoint (reciprocalVectors A) n) (Spec.latticePoint (reciprocalVectors A) n)) / (4 * eta ^ 2)) /
        Spec.dot (Spec.latticePoint (reciprocalVectors A) n) (Spec.latticePoint (reciprocalVectors A) n) *
        Real.cos (Spec.dot (Spec.latticePoint (reciprocalVectors A) n) r)) := by
  have hs := summable_reciprocal A hA he r
  simp only [sum_sq_eq_dot] at hs
  have ht := tsum_subtype_eq_of_support_subset (s := {n : Fin 3 → ℤ | n ≠ 0}) (f := fun n : Fin 3 → ℤ =>
      Real.exp (-(Spec.dot (Spec.latticePoint (reciprocalVectors A) n) (Spec.latticePoint (reciprocalVectors A) n)) / (4 * eta ^ 2)) /
        Spec.dot (Spec.latticePoint (reciprocalVectors A) n) (Spec.latticePoint (reciprocalVectors A) n) *
        Real.cos (Spec.dot (Spec.latticePoint (reciprocalVectors A) n) r)) (by
    intro n hn h0
    apply hn
    have h0' : n = 0 := h0
    subst h0'
    simp [Spec.dot, Spec.latticePoint])
  have := hs.hasSum
  exact ht ▸ this

/-- The completely summed energy as a sum over pairs in which self-energy and background are included. -/
private theorem series_pairs (A : Matrix (Fin 3) (Fin 3) ℝ) (hA : A.det ≠ 0) {na : ℕ}
    (pos : Fin na → Fin 3 → ℝ) (q : Fin na → ℝ) {eta : ℝ} (he : 0 < eta) :
    Spec.ewaldSeries A (reciprocalVectors A) pos q |A.det| eta
      = (1 / 2) * ∑ i, ∑ j, q i * q j *
        ((∑' z : Fin 3 → ℤ, Spec.erfc (eta * Spec.ewaldDistance (fun d => pos j d - pos i d) (Spec.latticePoint A z)) /
            Spec.ewaldDistance (fun d => pos j d - pos i d) (Spec.latticePoint A z))
          + (4 * Real.pi / |A.det| * recipPair A (fun d => pos j d - pos i d) eta - Real.pi / (|A.det| * eta ^ 2))
          - (if i = j then 2 * eta / Real.sqrt Real.pi else 0)) := by
  have hrec : ∀ r : Fin 3 → ℝ, (∑' n : {n : Fin 3 → ℤ // n ≠ 0},
      Real.exp (-(Spec.dot (Spec.latticePoint (reciprocalVectors A) n) (Spec.latticePoint (reciprocalVectors A) n)) / (4 * eta ^ 2)) /
        Spec.dot (Spec.latticePoint (reciprocalVectors A) n) (Spec.latticePoint (reciprocalVectors A) n) *
        Real.cos (Spec.dot (Spec.latticePoint (reciprocalVectors A) n) r)) = recipPair A r eta := by
    intro r
    rw [← (recip_sum_spec A hA he r).tsum_eq]
    unfold recipPair gsq
    simp only [sum_sq_eq_dot]
    rfl
  unfold Spec.ewaldSeries
  simp_rw [hrec]
  have h1 : ∀ X : Fin na → Fin na → ℝ, ∑ i, ∑ j, q i * q j * (X i j - Real.pi / (|A.det| * eta ^ 2)
        - (if i = j then 2 * eta / Real.sqrt Real.pi else 0))
      = ∑ i, ∑ j, q i * q j * X i j - Real.pi / (|A.det| * eta ^ 2) * (∑ i, q i) ^ 2
        - 2 * eta / Real.sqrt Real.pi * ∑ i, q i ^ 2 := by
    intro X
    rw [sq (∑ i, q i), Finset.sum_mul_sum, Finset.mul_sum, Finset.mul_sum, ← Finset.sum_sub_distrib,
      ← Finset.sum_sub_distrib]
    refine Finset.sum_congr rfl fun i _ => ?_
    simp only [mul_sub, Finset.sum_sub_distrib, mul_ite, mul_zero, Finset.sum_ite_eq, Finset.mem_univ, if_true]
    rw [Finset.mul_sum]
    congr 1
    · congr 1
      exact Finset.sum_congr rfl fun j _ => by ring
    · ring
  simp_rw [← add_sub_assoc]
  rw [h1]
  have hp := Real.sqrt_pos.mpr Real.pi_pos
  have hV : |A.det| ≠ 0 := abs_ne_zero.mpr hA
  generalize ∑ i, ∑ j, q i * q j * _ = X
  field_simp
  ring

/-- The completely summed energy hardly depends on the splitting parameter. -/
theorem ewaldSeries_eta (A : Matrix (Fin 3) (Fin 3) ℝ) (hA : A.det ≠ 0) {na : ℕ}
    (pos : Fin na → Fin 3 → ℝ) (q : Fin na → ℝ) (hsep : Spec.Separated A pos) {a b : ℝ} (ha : 0 < a)
    (hab : a ≤ b) :
    |Spec.ewaldSeries A (reciprocalVectors A) pos q |A.det| a
        - Spec.ewaldSeries A (reciprocalVectors A) pos q |A.det| b| ≤ Spec.splittingError A q a b := by
  have hb : 0 < b := ha.trans_le hab
  rw [series_pairs A hA pos q ha, series_pairs A hA pos q hb, ← mul_sub, ← Finset.sum_sub_distrib]
  simp_rw [← Finset.sum_sub_distrib, ← mul_sub]
  rw [abs_mul, abs_of_pos (by norm_num : (0 : ℝ) < 1 / 2)]
  set C : ℝ := 1e-20 * (2 / Real.sqrt Real.pi * (b ^ 2 * (b - a)) *
    (∑' z : Fin 3 → ℤ, Real.exp (-a ^ 2 * ∑ d, Spec.latticePoint A z d ^ 2)) + 1) with hC
  have hpair : ∀ i j, |q i * q j| * C = |q i| * |q j| * C := fun i j => by rw [abs_mul]
  have hle : ∀ i j : Fin na, |q i * q j * ((∑' z : Fin 3 → ℤ, Spec.erfc (a * Spec.ewaldDistance (fun d => pos j d - pos i d) (Spec.latticePoint A z)) /
            Spec.ewaldDistance (fun d => pos j d - pos i d) (Spec.latticePoint A z))
          + (4 * Real.pi / |A.det| * recipPair A (fun d => pos j d - pos i d) a - Real.pi / (|A.det| * a ^ 2))
          - (if i = j then 2 * a / Real.sqrt Real.pi else 0)
        - ((∑' z : Fin 3 → ℤ, Spec.erfc (b * Spec.ewaldDistance (fun d => pos j d - pos i d) (Spec.latticePoint A z)) /
            Spec.ewaldDistance (fun d => pos j d - pos i d) (Spec.latticePoint A z))
          + (4 * Real.pi / |A.det| * recipPair A (fun d => pos j d - pos i d) b - Real.pi / (|A.det| * b ^ 2))
          - (if i = j then 2 * b / Real.sqrt Real.pi else 0)))| ≤ |q i| * |q j| * C := by
    intro i j
    rw [abs_mul, ← hpair]
    refine mul_le_mul_of_nonneg_left ?_ (abs_nonneg _)
    refine (pair_change A hA ha hab (fun d => pos j d - pos i d) (i = j) (fun z hz => ?_) ?_).trans ?_
    · have := hsep i j z hz
      rw [← gap_eq]
      exact this
    · rintro rfl d
      exact sub_self _
    · rw [hC]
      have h1 := theta_le A hA ha fun d => pos j d - pos i d
      have h2 : 0 ≤ 2 / Real.sqrt Real.pi * (b ^ 2 * (b - a)) := by
        have : 0 ≤ b - a := by linarith
        positivity
      have h3 := mul_le_mul_of_nonneg_left h1 h2
      linarith
  have hsum : |∑ i, ∑ j, q i * q j * ((∑' z : Fin 3 → ℤ, Spec.erfc (a * Spec.ewaldDistance (fun d => pos j d - pos i d) (Spec.latticePoint A z)) /
            Spec.ewaldDistance (fun d => pos j d - pos i d) (Spec.latticePoint A z))
          + (4 * Real.pi / |A.det| * recipPair A (fun d => pos j d - pos i d) a - Real.pi / (|A.det| * a ^ 2))
          - (if i = j then 2 * a / Real.sqrt Real.pi else 0)
        - ((∑' z : Fin 3 → ℤ, Spec.erfc (b * Spec.ewaldDistance (fun d => pos j d - pos i d) (Spec.latticePoint A z)) /
            Spec.ewaldDistance (fun d => pos j d - pos i d) (Spec.latticePoint A z))
          + (4 * Real.pi / |A.det| * recipPair A (fun d => pos j d - pos i d) b - Real.pi / (|A.det| * b ^ 2))
          - (if i = j then 2 * b / Real.sqrt Real.pi else 0)))| ≤ (∑ i, |q i|) ^ 2 * C := by
    refine (Finset.abs_sum_le_sum_abs _ _).trans ?_
    rw [sq (∑ i, |q i|), Finset.sum_mul_sum, Finset.sum_mul]
    refine Finset.sum_le_sum fun i _ => ?_
    refine (Finset.abs_sum_le_sum_abs _ _).trans ?_
    rw [Finset.sum_mul]
    exact Finset.sum_le_sum fun j _ => hle i j
  refine (mul_le_mul_of_nonneg_left hsum (by norm_num)).trans (le_of_eq ?_)
  rw [hC]
  unfold Spec.splittingError
  simp only [sum_sq_eq_dot]
  ring

/-- Moving atoms by lattice vectors leaves the completely summed energy unchanged. -/
theorem ewaldSeries_lattice_move (A : Matrix (Fin 3) (Fin 3) ℝ) (hA : A.det ≠ 0) {na : ℕ}
    (pos L : Fin na → Fin 3 → ℝ) (hL : ∀ a, Spec.IsLatticeVector A (L a)) (q : Fin na → ℝ) (V eta : ℝ) :
    Spec.ewaldSeries A (reciprocalVectors A) (fun a d => pos a d + L a d) q V eta
      = Spec.ewaldSeries A (reciprocalVectors A) pos q V eta := by
  choose m hm using hL
  have hreal : ∀ i j : Fin na, (∑' z : Fin 3 → ℤ,
        Spec.erfc (eta * Spec.ewaldDistance (fun d => pos j d + L j d - (pos i d + L i d)) (Spec.latticePoint A z)) /
          Spec.ewaldDistance (fun d => pos j d + L j d - (pos i d + L i d)) (Spec.latticePoint A z))
      = ∑' z : Fin 3 → ℤ, Spec.erfc (eta * Spec.ewaldDistance (fun d => pos j d - pos i d) (Spec.latticePoint A z)) /
          Spec.ewaldDistance (fun d => pos j d - pos i d) (Spec.latticePoint A z) := by
    intro i j
    rw [← (Equiv.addLeft (m j - m i)).tsum_eq]
    refine tsum_congr fun z => ?_
    have : Spec.ewaldDistance (fun d => pos j d + L j d - (pos i d + L i d))
          (Spec.latticePoint A ((Equiv.addLeft (m j - m i)) z))
        = Spec.ewaldDistance (fun d => pos j d - pos i d) (Spec.latticePoint A z) := by
      unfold Spec.ewaldDistance
      have h : (fun d => pos j d + L j d - (pos i d + L i d) - Spec.latticePoint A ((Equiv.addLeft (m j - m i)) z) d)
          = fun d => pos j d - pos i d - Spec.latticePoint A z d := by
        funext d
        rw [hm j d, hm i d]
        unfold Spec.latticePoint
        simp only [Equiv.coe_addLeft, Pi.add_apply, Pi.sub_apply, Int.cast_add, Int.cast_sub, add_mul,
          sub_mul, Finset.sum_add_distrib, Finset.sum_sub_distrib]
        ring
      simp only [h]
    rw [this]
  have hcos : ∀ (i j : Fin na) (n : Fin 3 → ℤ),
      Real.cos (Spec.dot (Spec.latticePoint (reciprocalVectors A) n) fun d => pos j d + L j d - (pos i d + L i d))
        = Real.cos (Spec.dot (Spec.latticePoint (reciprocalVectors A) n) fun d => pos j d - pos i d) := by
    intro i j n
    have hz : ∀ a, Spec.dot (Spec.latticePoint (reciprocalVectors A) n) (L a)
        = ((∑ i, n i * m a i : ℤ) : ℝ) * (2 * Real.pi) := by
      intro a
      have := dual_dot A hA (fun i => (n i : ℝ)) fun i => (m a i : ℝ)
      push_cast
      rw [mul_comm, ← this]
      refine Finset.sum_congr rfl fun d _ => ?_
      rw [hm a d]
      rfl
    have : (Spec.dot (Spec.latticePoint (reciprocalVectors A) n) fun d => pos j d + L j d - (pos i d + L i d))
        = (Spec.dot (Spec.latticePoint (reciprocalVectors A) n) fun d => pos j d - pos i d)
          + (((∑ l, n l * m j l) - ∑ l, n l * m i l : ℤ) : ℝ) * (2 * Real.pi) := by
      rw [Int.cast_sub, sub_mul, ← hz i, ← hz j]
      unfold Spec.dot
      rw [← Finset.sum_sub_distrib, ← Finset.sum_add_distrib]
      exact Finset.sum_congr rfl fun d _ => by ring
    rw [this, Real.cos_add_int_mul_two_pi]
  unfold Spec.ewaldSeries
  simp_rw [hreal, hcos]

end Jrystal
