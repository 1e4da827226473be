import Verif.Lemmas.Poisson
import Verif.Lemmas.Grid
import Verif.Spec.EwaldLimit
import Mathlib.Analysis.SpecialFunctions.Gaussian.FourierTransform

/- Sums of Gaussians over a three-dimensional lattice. -/
namespace Jrystal
open scoped BigOperators
open MeasureTheory Topology Matrix

theorem summable_int_gauss {c : ℝ} (hc : 0 < c) : Summable fun z : ℤ => Real.exp (-c * (z : ℝ) ^ 2) := by
  have hn : Summable fun k : ℕ => Real.exp (-c * (k : ℝ) ^ 2) := by
    have h1 : Summable fun k : ℕ => Real.exp ((k : ℝ) * (-c)) :=
      Real.summable_exp_nat_mul_iff.mpr (by linarith)
    refine Summable.of_nonneg_of_le (fun _ => (Real.exp_pos _).le) (fun k => ?_) h1
    refine Real.exp_le_exp.mpr ?_
    have : (k : ℝ) ≤ (k : ℝ) ^ 2 := by exact_mod_cast Nat.le_self_pow (by norm_num) k
    nlinarith
  refine Summable.of_nat_of_neg (by simpa using hn) (by simpa using hn)

theorem summable_int3_gauss {c : ℝ} (hc : 0 < c) :
    Summable fun z : Fin 3 → ℤ => Real.exp (-c * ∑ i, (z i : ℝ) ^ 2) := by
  let e : (Fin 3 → ℤ) ≃ ℤ × ℤ × ℤ :=
    ⟨fun z => (z 0, z 1, z 2), fun p => ![p.1, p.2.1, p.2.2],
      fun z => by funext i; fin_cases i <;> rfl, fun p => rfl⟩
  have h1 := summable_int_gauss hc
  have h2 := Summable.mul_of_nonneg h1 h1 (fun _ => (Real.exp_pos _).le) (fun _ => (Real.exp_pos _).le)
  have h3 := Summable.mul_of_nonneg h1 h2 (fun _ => (Real.exp_pos _).le)
    (fun _ => mul_nonneg (Real.exp_pos _).le (Real.exp_pos _).le)
  have := e.summable_iff.mpr h3
  refine this.congr fun z => ?_
  change Real.exp (-c * (z 0 : ℝ) ^ 2) * (Real.exp (-c * (z 1 : ℝ) ^ 2) * Real.exp (-c * (z 2 : ℝ) ^ 2)) = _
  rw [← Real.exp_add, ← Real.exp_add, Fin.sum_univ_three]
  congr 1
  ring

/-- The squared length of a combination of rows controls the coefficients. -/
theorem exists_coercive (A : Matrix (Fin 3) (Fin 3) ℝ) (hA : A.det ≠ 0) :
    ∃ c : ℝ, 0 < c ∧ ∀ x : Fin 3 → ℝ, c * ∑ i, x i ^ 2 ≤ ∑ d, (∑ i, x i * A i d) ^ 2 := by
  set K : ℝ := ∑ i, ∑ d, (A⁻¹ d i) ^ 2 with hK
  have hK0 : 0 ≤ K := Finset.sum_nonneg fun i _ => Finset.sum_nonneg fun d _ => sq_nonneg _
  refine ⟨1 / (K + 1), by positivity, fun x => ?_⟩
  set y : Fin 3 → ℝ := fun d => ∑ i, x i * A i d with hy
  have hx : ∀ i, x i = ∑ d, y d * A⁻¹ d i := by
    intro i
    have : (x ᵥ* A) ᵥ* A⁻¹ = x := by
      rw [vecMul_vecMul, mul_nonsing_inv _ (Ne.isUnit hA), vecMul_one]
    have h := congrFun this i
    simp only [vecMul, dotProduct] at h
    exact h.symm
  have hb : ∑ i, x i ^ 2 ≤ K * ∑ d, y d ^ 2 := by
    rw [hK, Finset.sum_mul]
    refine Finset.sum_le_sum fun i _ => ?_
    rw [hx i, mul_comm]
    exact Finset.sum_mul_sq_le_sq_mul_sq _ _ _
  have hy0 : 0 ≤ ∑ d, y d ^ 2 := Finset.sum_nonneg fun d _ => sq_nonneg _
  rw [div_mul_eq_mul_div, one_mul, div_le_iff₀ (by linarith)]
  change _ ≤ (∑ d, y d ^ 2) * _
  nlinarith

/-- Integer shifts of a Gaussian are summable, uniformly over bounded sets. -/
private theorem gauss_bound (A : Matrix (Fin 3) (Fin 3) ℝ) (hA : A.det ≠ 0) {u : ℝ} (hu : 0 < u) (R : ℝ) :
    ∃ b : (Fin 3 → ℤ) → ℝ, Summable b ∧ ∀ x : Fin 3 → ℝ, (∀ i, |x i| ≤ R) → ∀ z : Fin 3 → ℤ,
      Real.exp (-u ^ 2 * ∑ d, (∑ i, (x i + z i) * A i d) ^ 2) ≤ b z := by
  obtain ⟨c, hc, hcb⟩ := exists_coercive A hA
  refine ⟨fun z => Real.exp (u ^ 2 * c * (3 * R ^ 2)) * Real.exp (-(u ^ 2 * c / 2) * ∑ i, (z i : ℝ) ^ 2),
    (summable_int3_gauss (by positivity)).mul_left _, fun x hx z => ?_⟩
  beta_reduce
  rw [← Real.exp_add]
  refine Real.exp_le_exp.mpr ?_
  have h1 := hcb fun i => x i + z i
  have h2 : ∑ i, (z i : ℝ) ^ 2 / 2 - 3 * R ^ 2 ≤ ∑ i, (x i + (z i : ℝ)) ^ 2 := by
    have : ∑ i : Fin 3, ((z i : ℝ) ^ 2 / 2 - R ^ 2) ≤ ∑ i, (x i + (z i : ℝ)) ^ 2 := by
      refine Finset.sum_le_sum fun i _ => ?_
      have := sq_le_sq' (by linarith [neg_abs_le (x i), hx i] : -R ≤ x i) (le_trans (le_abs_self _) (hx i))
      nlinarith [sq_nonneg (2 * x i + (z i : ℝ))]
    refine le_trans (le_of_eq ?_) this
    rw [Finset.sum_sub_distrib]
    simp
  rw [← Finset.sum_div] at h2
  have h3 : c * ((∑ i, (z i : ℝ) ^ 2) / 2 - 3 * R ^ 2) ≤ ∑ d, (∑ i, (x i + z i) * A i d) ^ 2 :=
    (mul_le_mul_of_nonneg_left h2 hc.le).trans h1
  nlinarith [mul_le_mul_of_nonneg_left h3 (sq_nonneg u)]

theorem summable_lattice_gauss (A : Matrix (Fin 3) (Fin 3) ℝ) (hA : A.det ≠ 0) {u : ℝ} (hu : 0 < u) :
    Summable fun z : Fin 3 → ℤ => Real.exp (-u ^ 2 * ∑ d, Spec.latticePoint A z d ^ 2) := by
  obtain ⟨b, hb, hle⟩ := gauss_bound A hA hu 0
  refine Summable.of_nonneg_of_le (fun _ => (Real.exp_pos _).le) (fun z => ?_) hb
  have := hle (fun _ => 0) (by simp) z
  simpa [Spec.latticePoint] using this

private theorem frac_exists (A : Matrix (Fin 3) (Fin 3) ℝ) (hA : A.det ≠ 0) (r : Fin 3 → ℝ) :
    ∃ x : Fin 3 → ℝ, ∀ d, r d = ∑ i, x i * A i d := by
  refine ⟨r ᵥ* A⁻¹, fun d => ?_⟩
  have : (r ᵥ* A⁻¹) ᵥ* A = r := by
    rw [vecMul_vecMul, nonsing_inv_mul _ (Ne.isUnit hA), vecMul_one]
  have h := congrFun this d
  simp only [vecMul, dotProduct] at h ⊢
  exact h.symm

theorem summable_lattice_gauss_shift (A : Matrix (Fin 3) (Fin 3) ℝ) (hA : A.det ≠ 0) {u : ℝ} (hu : 0 < u)
    (r : Fin 3 → ℝ) :
    Summable fun z : Fin 3 → ℤ => Real.exp (-u ^ 2 * ∑ d, (r d - Spec.latticePoint A z d) ^ 2) := by
  obtain ⟨x, hx⟩ := frac_exists A hA r
  obtain ⟨b, hb, hle⟩ := gauss_bound A hA hu (∑ i, |x i|)
  have h1 : Summable fun z : Fin 3 → ℤ => b (-z) := (Equiv.neg (Fin 3 → ℤ)).summable_iff.mpr hb
  refine Summable.of_nonneg_of_le (fun _ => (Real.exp_pos _).le) (fun z => ?_) h1
  refine le_trans (le_of_eq ?_) (hle x (fun i =>
    Finset.single_le_sum (f := fun i => |x i|) (fun i _ => abs_nonneg _) (Finset.mem_univ i)) (-z))
  congr 2
  refine Finset.sum_congr rfl fun d _ => ?_
  rw [hx d, Spec.latticePoint, ← Finset.sum_sub_distrib]
  congr 1
  refine Finset.sum_congr rfl fun i _ => ?_
  simp
  ring

/-- The Gaussian integral that gives the Fourier coefficients. -/
private theorem gauss_integral (A : Matrix (Fin 3) (Fin 3) ℝ) (hA : A.det ≠ 0) {u : ℝ} (hu : 0 < u)
    (n : Fin 3 → ℤ) :
    ∫ x : Fin 3 → ℝ, Complex.exp (-(2 * Real.pi * Complex.I * ∑ i, (n i : ℂ) * x i)) *
        ((Real.exp (-u ^ 2 * ∑ d, (∑ i, x i * A i d) ^ 2) : ℝ) : ℂ)
      = (((Real.sqrt Real.pi / u) ^ 3 / |A.det| * Real.exp
          (-(∑ d, Spec.latticePoint (reciprocalVectors A) n d ^ 2) / (4 * u ^ 2)) : ℝ) : ℂ) := by
  set G := Spec.latticePoint (reciprocalVectors A) n with hG
  set g : (Fin 3 → ℝ) → ℂ := fun y =>
    Complex.exp (-∑ d, ((u ^ 2 : ℝ) : ℂ) * (y d : ℂ) ^ 2 + ∑ d, (-Complex.I * G d) * y d) with hg
  have hcomp : ∀ x : Fin 3 → ℝ, Complex.exp (-(2 * Real.pi * Complex.I * ∑ i, (n i : ℂ) * x i)) *
        ((Real.exp (-u ^ 2 * ∑ d, (∑ i, x i * A i d) ^ 2) : ℝ) : ℂ) = g (toLin' Aᵀ x) := by
    intro x
    have hy : ∀ d, toLin' Aᵀ x d = ∑ i, x i * A i d := by
      intro d
      rw [toLin'_apply, mulVec, dotProduct]
      exact Finset.sum_congr rfl fun i _ => by rw [transpose_apply, mul_comm]
    rw [hg]
    dsimp only
    simp_rw [hy]
    have hdot := dual_dot A hA (fun i => (n i : ℝ)) x
    have hdot' : ∑ d, (-Complex.I * G d) * ((∑ i, x i * A i d : ℝ) : ℂ)
        = -(2 * Real.pi * Complex.I * ∑ i, (n i : ℂ) * x i) := by
      have h := congrArg (fun r : ℝ => (-Complex.I) * (r : ℂ)) hdot
      beta_reduce at h
      rw [Complex.ofReal_sum, Finset.mul_sum] at h
      simp_rw [Complex.ofReal_mul (_ : ℝ) (∑ l, x l * A l _), ← mul_assoc] at h
      refine Eq.trans ?_ (h.trans ?_)
      · rfl
      · push_cast
        ring
    rw [hdot', Complex.ofReal_exp, ← Complex.exp_add]
    congr 1
    push_cast
    rw [add_comm, Finset.mul_sum]
    simp only [neg_mul, Finset.sum_neg_distrib]
  simp_rw [hcomp]
  have hdet : Aᵀ.det ≠ 0 := by rwa [det_transpose]
  have hmap := Real.map_matrix_volume_pi_eq_smul_volume_pi hdet
  have hgc : Continuous g := by rw [hg]; fun_prop
  have hLc : Measurable fun x : Fin 3 → ℝ => toLin' Aᵀ x :=
    (LinearMap.continuous_of_finiteDimensional _).measurable
  have h1 : ∫ x : Fin 3 → ℝ, g (toLin' Aᵀ x) = ∫ y, g y ∂(Measure.map (toLin' Aᵀ) volume) :=
    (integral_map hLc.aemeasurable hgc.aestronglyMeasurable).symm
  rw [h1, hmap, integral_smul_measure, det_transpose, ENNReal.toReal_ofReal (abs_nonneg _)]
  have hre : ∀ _ : Fin 3, 0 < (((u ^ 2 : ℝ) : ℂ)).re := fun _ => by
    rw [Complex.ofReal_re]; positivity
  have h2 := GaussianFourier.integral_cexp_neg_sum_mul_add hre fun d => -Complex.I * (G d : ℂ)
  rw [hg, h2, Finset.prod_mul_distrib, ← Complex.exp_sum]
  have h3 : ((Real.pi : ℂ) / ((u ^ 2 : ℝ) : ℂ)) ^ (1 / 2 : ℂ) = ((Real.sqrt Real.pi / u : ℝ) : ℂ) := by
    have : (Real.pi : ℂ) / ((u ^ 2 : ℝ) : ℂ) = ((Real.pi / u ^ 2 : ℝ) : ℂ) := by push_cast; rfl
    rw [this, show (1 / 2 : ℂ) = ((1 / 2 : ℝ) : ℂ) by push_cast; rfl,
      ← Complex.ofReal_cpow (by positivity), ← Real.sqrt_eq_rpow, Real.sqrt_div Real.pi_pos.le,
      Real.sqrt_sq hu.le]
  rw [h3, Finset.prod_const]
  have h4 : ∑ d : Fin 3, (-Complex.I * (G d : ℂ)) ^ 2 / (4 * ((u ^ 2 : ℝ) : ℂ))
      = ((-(∑ d, G d ^ 2) / (4 * u ^ 2) : ℝ) : ℂ) := by
    rw [← Finset.sum_div]
    push_cast
    congr 1
    rw [← Finset.sum_neg_distrib]
    refine Finset.sum_congr rfl fun d _ => ?_
    rw [mul_pow, neg_sq, Complex.I_sq]
    ring
  rw [h4, ← Complex.ofReal_exp, Complex.real_smul]
  simp only [Finset.card_univ, Fintype.card_fin]
  push_cast
  rw [abs_inv, Complex.ofReal_inv]
  ring

/-- Poisson summation for Gaussians centred on the points of a lattice. -/
theorem gauss_poisson (A : Matrix (Fin 3) (Fin 3) ℝ) (hA : A.det ≠ 0) {u : ℝ} (hu : 0 < u)
    (r : Fin 3 → ℝ) :
    HasSum (fun n : Fin 3 → ℤ => (Real.sqrt Real.pi / u) ^ 3 / |A.det| * Real.exp
        (-(∑ d, Spec.latticePoint (reciprocalVectors A) n d ^ 2) / (4 * u ^ 2)) *
        Real.cos (∑ d, Spec.latticePoint (reciprocalVectors A) n d * r d))
      (∑' z : Fin 3 → ℤ, Real.exp (-u ^ 2 * ∑ d, (r d - Spec.latticePoint A z d) ^ 2)) := by
  obtain ⟨x, hx⟩ := frac_exists A hA r
  set f : (Fin 3 → ℝ) → ℂ := fun x => ((Real.exp (-u ^ 2 * ∑ d, (∑ i, x i * A i d) ^ 2) : ℝ) : ℂ) with hf
  have hnorm : ∀ x, ‖f x‖ = Real.exp (-u ^ 2 * ∑ d, (∑ i, x i * A i d) ^ 2) := fun x => by
    rw [hf]
    dsimp only
    rw [Complex.norm_real, Real.norm_of_nonneg (Real.exp_pos _).le]
  have hc : Continuous f := by rw [hf]; fun_prop
  have hint : Integrable f := by
    obtain ⟨c, hc0, hcb⟩ := exists_coercive A hA
    have h1 : Integrable fun x : Fin 3 → ℝ =>
        Complex.exp (-((u ^ 2 * c : ℝ) : ℂ) * ∑ i, (x i : ℂ) ^ 2 + ∑ i, (0 : Fin 3 → ℂ) i * x i) :=
      GaussianFourier.integrable_cexp_neg_mul_sum_add
        (by rw [Complex.ofReal_re]; positivity) 0
    refine h1.norm.mono' hc.aestronglyMeasurable (Filter.Eventually.of_forall fun x => ?_)
    rw [hnorm, Complex.norm_exp]
    refine Real.exp_le_exp.mpr ?_
    have : (-((u ^ 2 * c : ℝ) : ℂ) * ∑ i, (x i : ℂ) ^ 2 + ∑ i, (0 : Fin 3 → ℂ) i * x i).re
        = -(u ^ 2 * c) * ∑ i, x i ^ 2 := by
      have : (-((u ^ 2 * c : ℝ) : ℂ) * ∑ i, (x i : ℂ) ^ 2 + ∑ i, (0 : Fin 3 → ℂ) i * x i)
          = ((-(u ^ 2 * c) * ∑ i, x i ^ 2 : ℝ) : ℂ) := by
        push_cast
        simp
      rw [this, Complex.ofReal_re]
    rw [this]
    nlinarith [mul_le_mul_of_nonneg_left (hcb x) (sq_nonneg u)]
  have hB : (reciprocalVectors A).det ≠ 0 := recip_det_ne_zero A hA
  have hs : Summable fun n : Fin 3 → ℤ => (((Real.sqrt Real.pi / u) ^ 3 / |A.det| * Real.exp
          (-(∑ d, Spec.latticePoint (reciprocalVectors A) n d ^ 2) / (4 * u ^ 2)) : ℝ) : ℂ) := by
    rw [Complex.summable_ofReal]
    refine Summable.mul_left _ ?_
    have := summable_lattice_gauss (reciprocalVectors A) hB (u := 1 / (2 * u)) (by positivity)
    refine this.congr fun n => ?_
    congr 1
    field_simp
    ring
  have key := poisson_multi f hc hint (fun R => by
    obtain ⟨b, hb, hle⟩ := gauss_bound A hA hu R
    refine ⟨b, hb, fun x hx z => ?_⟩
    rw [hnorm]
    exact hle x hx z) _ (gauss_integral A hA hu) hs x
  have hre := Complex.hasSum_re key
  have hval : (∑' z : Fin 3 → ℤ, f fun i => x i + z i).re
      = ∑' z : Fin 3 → ℤ, Real.exp (-u ^ 2 * ∑ d, (r d - Spec.latticePoint A z d) ^ 2) := by
    rw [hf]
    dsimp only
    rw [← Complex.ofReal_tsum, Complex.ofReal_re, ← (Equiv.neg (Fin 3 → ℤ)).tsum_eq]
    refine tsum_congr fun z => ?_
    congr 2
    refine Finset.sum_congr rfl fun d _ => ?_
    rw [hx d, Spec.latticePoint, ← Finset.sum_sub_distrib]
    congr 1
    refine Finset.sum_congr rfl fun i _ => ?_
    simp
    ring
  rw [hval] at hre
  convert! hre using 2 with n
  have hdot := dual_dot A hA (fun i => (n i : ℝ)) x
  have hdot' : ∑ d, Spec.latticePoint (reciprocalVectors A) n d * r d
      = 2 * Real.pi * ∑ i, (n i : ℝ) * x i := by
    rw [← hdot]
    refine Finset.sum_congr rfl fun d _ => ?_
    rw [hx d]
    rfl
  rw [Complex.re_ofReal_mul, hdot']
  congr 1
  have : 2 * (Real.pi : ℂ) * Complex.I * ∑ i, (n i : ℂ) * (x i : ℂ)
      = ((2 * Real.pi * ∑ i, (n i : ℝ) * x i : ℝ) : ℂ) * Complex.I := by
    push_cast
    ring
  rw [this, Complex.exp_ofReal_mul_I_re]

end Jrystal
