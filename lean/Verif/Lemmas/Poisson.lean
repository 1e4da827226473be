import Mathlib.Analysis.Fourier.AddCircleMulti
import Mathlib.Analysis.Normed.Group.FunctionSeries

/- Poisson summation in several dimensions. -/
namespace Jrystal
open scoped BigOperators
open MeasureTheory Topology

set_option linter.unusedSectionVars false

variable {ι : Type} [Fintype ι]

/-- The point `x` moved by the integer vector `z`. -/
private def shift (x : ι → ℝ) (z : ι → ℤ) : ι → ℝ := fun i => x i + z i

private theorem torus_quot : IsQuotientMap (fun (x : ι → ℝ) (i : ι) => (x i : UnitAddCircle)) := by
  have : IsOpenQuotientMap (Pi.map fun (_ : ι) (x : ℝ) => (x : UnitAddCircle)) :=
    IsOpenQuotientMap.piMap fun _ => QuotientAddGroup.isOpenQuotientMap_mk
  exact this.isQuotientMap

private theorem torus_eq {a b : ι → ℝ}
    (h : (fun i => (a i : UnitAddCircle)) = fun i => (b i : UnitAddCircle)) :
    ∃ z : ι → ℤ, b = shift a z := by
  have : ∀ i, ∃ z : ℤ, b i = a i + z := by
    intro i
    have hi := congrFun h i
    have : ((b i - a i : ℝ) : UnitAddCircle) = 0 := by
      rw [AddCircle.coe_sub, hi, sub_self]
    obtain ⟨n, hn⟩ := (AddCircle.coe_eq_zero_iff 1).mp this
    refine ⟨n, ?_⟩
    simp at hn
    linarith
  choose z hz using this
  exact ⟨z, funext hz⟩

private theorem mFourier_coe (n : ι → ℤ) (x : ι → ℝ) :
    UnitAddTorus.mFourier n (fun i => (x i : UnitAddCircle))
      = Complex.exp (2 * Real.pi * Complex.I * ∑ i, (n i : ℂ) * x i) := by
  unfold UnitAddTorus.mFourier
  simp only [ContinuousMap.coe_mk]
  rw [Finset.mul_sum, Complex.exp_sum]
  refine Finset.prod_congr rfl fun i _ => ?_
  rw [fourier_coe_apply]
  congr 1
  push_cast
  ring

private theorem shift_periodic (f : (ι → ℝ) → ℂ) (x : ι → ℝ) (w : ι → ℤ) :
    ∑' z, f (shift (shift x w) z) = ∑' z, f (shift x z) := by
  rw [← (Equiv.addLeft w).tsum_eq fun z => f (shift x z)]
  refine tsum_congr fun z => ?_
  congr 1
  funext i
  simp [shift]
  ring

private def box (z : ι → ℤ) : Set (ι → ℝ) := {x | ∀ i, x i ∈ Set.Ioc (z i : ℝ) (z i + 1)}

private theorem box_meas (z : ι → ℤ) : MeasurableSet (box z) :=
  MeasurableSet.univ_pi' fun _ => measurableSet_Ioc

private theorem box_disj : Pairwise (Function.onFun Disjoint (box (ι := ι))) := by
  intro z w hzw
  rw [Function.onFun, Set.disjoint_left]
  intro x hz hw
  apply hzw
  funext i
  have h1 := hz i
  have h2 := hw i
  have h3 : (z i : ℝ) < w i + 1 := lt_of_lt_of_le h1.1 h2.2
  have h4 : (w i : ℝ) < z i + 1 := lt_of_lt_of_le h2.1 h1.2
  have h3' : z i < w i + 1 := by exact_mod_cast h3
  have h4' : w i < z i + 1 := by exact_mod_cast h4
  omega

private theorem box_union : (⋃ z : ι → ℤ, box z) = Set.univ := by
  ext x
  simp only [Set.mem_iUnion, Set.mem_univ, iff_true]
  refine ⟨fun i => ⌈x i⌉ - 1, fun i => ⟨?_, ?_⟩⟩
  · have := Int.ceil_lt_add_one (x i)
    push_cast
    linarith
  · have := Int.le_ceil (x i)
    push_cast
    linarith

private theorem box_shift {E : Type} [NormedAddCommGroup E] [NormedSpace ℝ E] (h : (ι → ℝ) → E)
    (z : ι → ℤ) : ∫ x in box (0 : ι → ℤ), h (shift x z) = ∫ x in box z, h x := by
  have hmp : MeasurePreserving (fun x : ι → ℝ => x + fun i => (z i : ℝ)) volume volume :=
    measurePreserving_add_right volume _
  have hem : MeasurableEmbedding (fun x : ι → ℝ => x + fun i => (z i : ℝ)) :=
    measurableEmbedding_addRight _
  rw [← hmp.setIntegral_preimage_emb hem h (box z)]
  have : (fun x : ι → ℝ => x + fun i => (z i : ℝ)) ⁻¹' box z = box 0 := by
    ext x
    simp only [box, Set.mem_preimage, Set.mem_ofPred_eq, Set.mem_Ioc, Pi.add_apply, Pi.zero_apply,
      Int.cast_zero]
    refine forall_congr' fun i => ?_
    constructor <;> rintro ⟨h1, h2⟩ <;> constructor <;> linarith
  rw [this]
  rfl

/-- Poisson summation over `ℤ^d` for a continuous integrable function, locally uniformly summable over
the integer shifts and with summable Fourier integrals. -/
theorem poisson_multi (f : (ι → ℝ) → ℂ) (hc : Continuous f) (hint : Integrable f)
    (hb : ∀ R : ℝ, ∃ u : (ι → ℤ) → ℝ, Summable u ∧
      ∀ x : ι → ℝ, (∀ i, |x i| ≤ R) → ∀ z : ι → ℤ, ‖f fun i => x i + z i‖ ≤ u z)
    (c : (ι → ℤ) → ℂ)
    (hcoef : ∀ n : ι → ℤ, ∫ x : ι → ℝ, Complex.exp (-(2 * Real.pi * Complex.I * ∑ i, (n i : ℂ) * x i)) * f x
      = c n) (hs : Summable c) (x : ι → ℝ) :
    HasSum (fun n : ι → ℤ => c n * Complex.exp (2 * Real.pi * Complex.I * ∑ i, (n i : ℂ) * x i))
      (∑' z : ι → ℤ, f fun i => x i + z i) := by
  have hGc : Continuous fun x : ι → ℝ => ∑' z, f (shift x z) := by
    rw [continuous_iff_continuousAt]
    intro x0
    obtain ⟨R, hR⟩ : ∃ R : ℝ, ∀ i, |x0 i| < R := by
      refine ⟨∑ i, |x0 i| + 1, fun i => ?_⟩
      have := Finset.single_le_sum (f := fun i => |x0 i|) (fun i _ => abs_nonneg _) (Finset.mem_univ i)
      linarith
    obtain ⟨u, hu, hbu⟩ := hb R
    have hS : IsOpen {x : ι → ℝ | ∀ i, |x i| < R} := by
      have : {x : ι → ℝ | ∀ i, |x i| < R} = ⋂ i, {x : ι → ℝ | |x i| < R} := by ext; simp
      rw [this]
      exact isOpen_iInter_of_finite fun i =>
        isOpen_lt (continuous_abs.comp (continuous_apply i)) continuous_const
    have hon : ContinuousOn (fun x : ι → ℝ => ∑' z, f (shift x z)) {x : ι → ℝ | ∀ i, |x i| < R} := by
      refine continuousOn_tsum (u := u) (fun z => Continuous.continuousOn ?_) hu ?_
      · refine hc.comp (continuous_pi fun i => ?_)
        exact (continuous_apply i).add continuous_const
      · intro z x hx
        exact hbu x (fun i => (hx i).le) z
    exact hon.continuousAt (hS.mem_nhds hR)
  let π : C(ι → ℝ, UnitAddTorus ι) := ⟨fun x i => (x i : UnitAddCircle), torus_quot.continuous⟩
  let G : C(ι → ℝ, ℂ) := ⟨fun x => ∑' z, f (shift x z), hGc⟩
  have hlift : ∀ a b, π a = π b → G a = G b := by
    intro a b hab
    obtain ⟨z, rfl⟩ := torus_eq hab
    exact (shift_periodic f a z).symm
  let F : C(UnitAddTorus ι, ℂ) := IsQuotientMap.lift (f := π) torus_quot G hlift
  have hF : ∀ x : ι → ℝ, F (fun i => (x i : UnitAddCircle)) = ∑' z, f (shift x z) := by
    intro x
    have := congrArg (fun h : C(ι → ℝ, ℂ) => h x)
      (IsQuotientMap.lift_comp (f := π) torus_quot G hlift)
    exact this
  have hco : ∀ n, UnitAddTorus.mFourierCoeff F n = c n := by
    intro n
    rw [UnitAddTorus.mFourierCoeff_eq_integral F n 0, ← hcoef]
    have hset : {x : ι → ℝ | ∀ i, x i ∈ Set.Ioc ((0 : ι → ℝ) i) ((0 : ι → ℝ) i + 1)} = box 0 := by
      ext x
      simp [box]
    rw [hset]
    set h : (ι → ℝ) → ℂ := fun x =>
      Complex.exp (-(2 * Real.pi * Complex.I * ∑ i, (n i : ℂ) * x i)) * f x with hh
    have hph : ∀ x : ι → ℝ, ‖Complex.exp (-(2 * Real.pi * Complex.I * ∑ i, (n i : ℂ) * x i))‖ = 1 := by
      intro x
      have : -(2 * Real.pi * Complex.I * ∑ i, (n i : ℂ) * x i)
          = ((-(2 * Real.pi * ∑ i, (n i : ℝ) * x i) : ℝ) : ℂ) * Complex.I := by
        push_cast
        ring
      rw [this, Complex.norm_exp_ofReal_mul_I]
    have hcph : Continuous fun x : ι → ℝ =>
        Complex.exp (-(2 * Real.pi * Complex.I * ∑ i, (n i : ℂ) * x i)) := by
      fun_prop
    have hhi : Integrable h := by
      refine hint.norm.mono' (hcph.mul hc).aestronglyMeasurable (Filter.Eventually.of_forall fun x => ?_)
      rw [hh]
      dsimp only
      rw [norm_mul, hph, one_mul]
    have hper : ∀ (x : ι → ℝ) (z : ι → ℤ), h (shift x z)
        = Complex.exp (-(2 * Real.pi * Complex.I * ∑ i, (n i : ℂ) * x i)) * f (shift x z) := by
      intro x z
      rw [hh]
      dsimp only
      congr 1
      have : -(2 * Real.pi * Complex.I * ∑ i, (n i : ℂ) * ((shift x z i : ℝ) : ℂ))
          = -(2 * Real.pi * Complex.I * ∑ i, (n i : ℂ) * x i)
            + ((-∑ i, n i * z i : ℤ) : ℂ) * (2 * Real.pi * Complex.I) := by
        unfold shift
        push_cast
        simp only [mul_add, Finset.sum_add_distrib]
        ring
      rw [this, Complex.exp_periodic.int_mul (-∑ i, n i * z i)]
    have hpt : ∀ x : ι → ℝ, UnitAddTorus.mFourier (-n) (fun i => (x i : UnitAddCircle)) •
        F (fun i => (x i : UnitAddCircle)) = ∑' z, h (shift x z) := by
      intro x
      rw [mFourier_coe, hF]
      simp_rw [hper]
      rw [tsum_mul_left, smul_eq_mul]
      congr 2
      simp
    simp_rw [hpt]
    have hnorm : Summable fun z : ι → ℤ => ∫ x in box (0 : ι → ℤ), ‖h (shift x z)‖ := by
      simp_rw [box_shift (fun x => ‖h x‖)]
      have := hasSum_integral_iUnion (s := box (ι := ι)) (μ := volume) (f := fun x => ‖h x‖)
        box_meas box_disj (hhi.norm.integrableOn)
      exact this.summable
    have hin : ∀ z : ι → ℤ, Integrable (fun x => h (shift x z)) (volume.restrict (box 0)) := by
      intro z
      exact (hhi.comp_add_right fun i => (z i : ℝ)).integrableOn
    rw [← integral_tsum_of_summable_integral_norm hin hnorm]
    simp_rw [box_shift h]
    have := hasSum_integral_iUnion (s := box (ι := ι)) (μ := volume) (f := h)
        box_meas box_disj (hhi.integrableOn)
    rw [this.tsum_eq, box_union, Measure.restrict_univ]
  have hsum : Summable (UnitAddTorus.mFourierCoeff F) := by
    have : UnitAddTorus.mFourierCoeff F = c := funext hco
    rw [this]
    exact hs
  have := UnitAddTorus.hasSum_mFourier_series_apply_of_summable hsum fun i => (x i : UnitAddCircle)
  rw [hF] at this
  simp_rw [hco, mFourier_coe, smul_eq_mul] at this
  exact this

end Jrystal
