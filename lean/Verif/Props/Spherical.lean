import Verif.Model.Spherical
import Verif.Spec.Spherical
import Mathlib.Tactic.FinCases
import Mathlib.Algebra.BigOperators.Intervals
import Mathlib.Algebra.BigOperators.Field

/- C48 and C60. -/
namespace Jrystal
open scoped BigOperators ComplexConjugate

private theorem vecNorm_sq (x : Fin 3 → ℝ) : vecNorm x ^ 2 = x 0 ^ 2 + x 1 ^ 2 + x 2 ^ 2 := by
  unfold vecNorm
  rw [Real.sq_sqrt (Finset.sum_nonneg fun i _ => sq_nonneg _), Fin.sum_univ_three]

private theorem vecNorm_pos (x : Fin 3 → ℝ) (h : x ≠ 0) : 0 < vecNorm x := by
  have h0 : 0 ≤ vecNorm x := Real.sqrt_nonneg _
  refine lt_of_le_of_ne h0 fun e => h ?_
  have := vecNorm_sq x
  rw [← e] at this
  funext i
  fin_cases i <;> simp <;> nlinarith [sq_nonneg (x 0), sq_nonneg (x 1), sq_nonneg (x 2)]

private theorem realMod_range (a b : ℝ) (hb : 0 < b) : 0 ≤ realMod a b ∧ realMod a b < b := by
  unfold realMod
  have h1 := Int.floor_le (a / b)
  have h2 := Int.lt_floor_add_one (a / b)
  rw [le_div_iff₀ hb] at h1
  rw [div_lt_iff₀ hb] at h2
  constructor <;> nlinarith

private theorem cos_realMod (a : ℝ) : Real.cos (realMod (a + 2 * Real.pi) (2 * Real.pi)) = Real.cos a := by
  unfold realMod
  have : a + 2 * Real.pi - 2 * Real.pi * ⌊(a + 2 * Real.pi) / (2 * Real.pi)⌋
      = a + ((1 - ⌊(a + 2 * Real.pi) / (2 * Real.pi)⌋ : ℤ) : ℝ) * (2 * Real.pi) := by
    push_cast; ring
  rw [this, Real.cos_add_int_mul_two_pi]

private theorem sin_realMod (a : ℝ) : Real.sin (realMod (a + 2 * Real.pi) (2 * Real.pi)) = Real.sin a := by
  unfold realMod
  have : a + 2 * Real.pi - 2 * Real.pi * ⌊(a + 2 * Real.pi) / (2 * Real.pi)⌋
      = a + ((1 - ⌊(a + 2 * Real.pi) / (2 * Real.pi)⌋ : ℤ) : ℝ) * (2 * Real.pi) := by
    push_cast; ring
  rw [this, Real.sin_add_int_mul_two_pi]

/-- C48: for every vector the radius is positive, the azimuth is in `[0, 2π)` and the polar angle in
`[0, π]`; the radius is the length of a non-zero vector and `eps` for the zero vector. -/
theorem cartesianToSpherical_ranges (x : Fin 3 → ℝ) (eps : ℝ) (he : 0 < eps) :
    0 < (cartesianToSpherical x eps).r ∧
    (cartesianToSpherical x eps).theta ∈ Set.Ico 0 (2 * Real.pi) ∧
    (cartesianToSpherical x eps).phi ∈ Set.Icc 0 Real.pi ∧
    (x = 0 → (cartesianToSpherical x eps).r = eps) ∧
    (x ≠ 0 → (cartesianToSpherical x eps).r ^ 2 = x 0 ^ 2 + x 1 ^ 2 + x 2 ^ 2) := by
  have h0 : vecNorm (0 : Fin 3 → ℝ) = 0 := by simp [vecNorm]
  refine ⟨?_, ?_, ?_, ?_, ?_⟩
  · unfold cartesianToSpherical
    simp only
    split
    · exact he
    · rename_i h
      exact lt_of_le_of_ne (Real.sqrt_nonneg _) (Ne.symm h)
  · exact realMod_range _ _ (by positivity)
  · exact ⟨Real.arccos_nonneg _, Real.arccos_le_pi _⟩
  · rintro rfl
    unfold cartesianToSpherical
    simp only [if_pos h0]
  · intro h
    unfold cartesianToSpherical
    simp only [if_neg (vecNorm_pos x h).ne']
    exact vecNorm_sq x

/-- C48: the coordinates of every non-zero vector convert back to the vector. -/
theorem cartesianToSpherical_inverse (x : Fin 3 → ℝ) (hx : x ≠ 0) (eps : ℝ) :
    Spec.fromSpherical (cartesianToSpherical x eps).r (cartesianToSpherical x eps).theta
      (cartesianToSpherical x eps).phi = x := by
  have hr := vecNorm_pos x hx
  have hsq := vecNorm_sq x
  have hz : |x 2| ≤ vecNorm x := by
    apply Real.abs_le_sqrt
    rw [Fin.sum_univ_three]
    nlinarith [sq_nonneg (x 0), sq_nonneg (x 1)]
  have hclip : max (-1) (min 1 (x 2 / vecNorm x)) = x 2 / vecNorm x := by
    have h1 : x 2 / vecNorm x ≤ 1 := (div_le_one hr).2 ((le_abs_self _).trans hz)
    have h2 : -1 ≤ x 2 / vecNorm x := by
      rw [le_div_iff₀ hr]; linarith [neg_abs_le (x 2)]
    rw [min_eq_right h1, max_eq_right h2]
  have h1 : -1 ≤ x 2 / vecNorm x := by
    rw [le_div_iff₀ hr]; linarith [neg_abs_le (x 2)]
  have h2 : x 2 / vecNorm x ≤ 1 := (div_le_one hr).2 ((le_abs_self _).trans hz)
  have hsin : vecNorm x * Real.sin (Real.arccos (x 2 / vecNorm x)) = ‖(⟨x 0, x 1⟩ : ℂ)‖ := by
    rw [Real.sin_arccos]
    have : (‖(⟨x 0, x 1⟩ : ℂ)‖) = Real.sqrt (x 0 ^ 2 + x 1 ^ 2) := by
      rw [Complex.norm_def, Complex.normSq_mk]; congr 1; ring
    rw [this]
    have e : x 0 ^ 2 + x 1 ^ 2 = vecNorm x ^ 2 * (1 - (x 2 / vecNorm x) ^ 2) := by
      rw [mul_sub, div_pow, mul_div_cancel₀ _ (pow_ne_zero 2 hr.ne')]
      linarith
    rw [e, Real.sqrt_mul (sq_nonneg _), Real.sqrt_sq hr.le]
  unfold cartesianToSpherical
  simp only [if_neg hr.ne', hclip]
  funext i
  fin_cases i
  · show vecNorm x * Real.sin (Real.arccos (x 2 / vecNorm x)) * Real.cos _ = x 0
    rw [hsin, cos_realMod]
    exact Complex.norm_mul_cos_arg _
  · show vecNorm x * Real.sin (Real.arccos (x 2 / vecNorm x)) * Real.sin _ = x 1
    rw [hsin, sin_realMod]
    exact Complex.norm_mul_sin_arg _
  · show vecNorm x * Real.cos (Real.arccos (x 2 / vecNorm x)) = x 2
    rw [Real.cos_arccos h1 h2, mul_div_cancel₀ _ hr.ne']

/-- C48: the feature maps of `legendre_kernel_trick` reproduce `(2l+1) P_l(cos angle)` for `l ∈ {0, 1}`
and every two non-zero vectors. -/
theorem legendreKernelTrick_spec (l : ℕ) (hl : l ≤ 1) :
    ∃ f, legendreKernelTrick l = .ok f ∧ ∀ x y : Fin 3 → ℝ, x ≠ 0 → y ≠ 0 →
      ∑ d, f x d * f y d = (2 * l + 1) * Spec.legendre l (Spec.cosAngle x y) := by
  have h3 : Real.sqrt 3 * Real.sqrt 3 = 3 := Real.mul_self_sqrt (by norm_num)
  rcases (by omega : l = 0 ∨ l = 1) with rfl | rfl
  · refine ⟨_, rfl, fun x y _ _ => ?_⟩
    rw [Fin.sum_univ_three]
    simp only [Spec.legendre]
    push_cast
    nlinarith
  · refine ⟨_, rfl, fun x y hx hy => ?_⟩
    have e : ∀ z : Fin 3 → ℝ, ∑ d, z d * z d = ∑ d, z d ^ 2 := fun z =>
      Finset.sum_congr rfl fun d _ => (sq (z d)).symm
    simp only [Spec.legendre, Spec.cosAngle, e]
    have : ∀ d, Real.sqrt 3 * (x d / Real.sqrt (∑ e, x e ^ 2)) *
        (Real.sqrt 3 * (y d / Real.sqrt (∑ e, y e ^ 2)))
        = 3 * (x d * y d / (Real.sqrt (∑ e, x e ^ 2) * Real.sqrt (∑ e, y e ^ 2))) := by
      intro d
      linear_combination (x d / Real.sqrt (∑ e, x e ^ 2) * (y d / Real.sqrt (∑ e, y e ^ 2))) * h3
    rw [Finset.sum_congr rfl fun d _ => this d, ← Finset.mul_sum, Finset.sum_div]
    push_cast
    norm_num

/-- C48: any other degree is rejected, negative ones included. -/
theorem legendreKernelTrick_rejects (l : ℤ) (h : l ≠ 0) (h' : l ≠ 1) :
    legendreKernelTrick l = .error .notImplemented := by
  unfold legendreKernelTrick
  rw [if_neg h, if_neg h']

/-- C48: for `l = 1` the zero vector is mapped to zero (not to NaN). -/
theorem legendreKernelTrick_zero : ∃ f, legendreKernelTrick 1 = .ok f ∧ f 0 = 0 :=
  ⟨_, rfl, by funext d; simp⟩

/-! ### C60: real spherical harmonics -/

/-- The symmetry of the spherical harmonics `Y_{l,-m} = (-1)^m conj Y_{l,m}`, the contract of the library
function. -/
def SphHarm.Conj (sph : SphHarm) : Prop :=
  ∀ l (m : ℤ) p t, sph l (-m) p t = (-1 : ℂ) ^ m * conj (sph l m p t)

private theorem neg_one_zpow_sq (m : ℤ) : ((-1 : ℝ) ^ m) * ((-1 : ℝ) ^ m) = 1 := by
  rw [← mul_zpow]; simp

private theorem zpow_ofReal (m : ℤ) : ((-1 : ℂ) ^ m) = (((-1 : ℝ) ^ m : ℝ) : ℂ) := by
  push_cast; rfl

private theorem real_term (sph : SphHarm) (l j : ℕ) (t p t' p' : ℝ) :
    batchSphHarmReal sph l t p (l + (j + 1)) * batchSphHarmReal sph l t' p' (l + (j + 1))
      = 2 * ((sph l (j + 1) p t).re * (sph l (j + 1) p' t').re) := by
  have hm : ((l + (j + 1) : ℕ) : ℤ) - l = j + 1 := by push_cast; ring
  have h2 : Real.sqrt 2 * Real.sqrt 2 = 2 := Real.mul_self_sqrt (by norm_num)
  have hne : l + (j + 1) ≠ l := by omega
  have hpos : (0 : ℤ) ≤ (j : ℤ) + 1 := by omega
  have hs := neg_one_zpow_sq ((j : ℤ) + 1)
  unfold batchSphHarmReal batchSphHarm
  simp only [hm, if_neg hne, if_pos hpos]
  generalize (-1 : ℝ) ^ ((j : ℤ) + 1) = s at hs ⊢
  linear_combination ((sph l (j + 1) p t).re * (sph l (j + 1) p' t').re) * (2 * hs + s * s * h2)

private theorem imag_term (sph : SphHarm) (l j : ℕ) (hj : j < l) (t p t' p' : ℝ) :
    batchSphHarmReal sph l t p (l - (j + 1)) * batchSphHarmReal sph l t' p' (l - (j + 1))
      = 2 * ((sph l (-(j + 1)) p t).im * (sph l (-(j + 1)) p' t').im) := by
  have hm : ((l - (j + 1) : ℕ) : ℤ) - l = -(j + 1) := by omega
  have h2 : Real.sqrt 2 * Real.sqrt 2 = 2 := Real.mul_self_sqrt (by norm_num)
  have hneg : ¬ (0 : ℤ) ≤ -((j : ℤ) + 1) := by omega
  have hne : l - (j + 1) ≠ l := by omega
  have hs := neg_one_zpow_sq (-((j : ℤ) + 1))
  unfold batchSphHarmReal batchSphHarm
  simp only [hm, if_neg hne, if_neg hneg, zpow_ofReal, Complex.im_mul_ofReal, Complex.conj_im]
  generalize (-1 : ℝ) ^ (-((j : ℤ) + 1)) = s at hs ⊢
  generalize (sph l (-((j : ℤ) + 1)) p t).im = a
  generalize (sph l (-((j : ℤ) + 1)) p' t').im = b
  linear_combination (a * b * s * s * s * s) * h2 + (2 * a * b) * (s * s + 1) * hs

private theorem pair_sum (f : ℕ → ℂ) (l : ℕ) :
    ∑ i ∈ Finset.range (2 * l + 1), f i
      = f l + ∑ j ∈ Finset.range l, (f (l + (j + 1)) + f (l - (j + 1))) := by
  rw [Finset.sum_add_distrib]
  have e1 : ∑ i ∈ Finset.range (2 * l + 1), f i
      = ∑ i ∈ Finset.range l, f i + ∑ i ∈ Finset.range (l + 1), f (l + i) := by
    rw [show 2 * l + 1 = l + (l + 1) by omega, Finset.sum_range_add]
  have e2 : ∑ i ∈ Finset.range (l + 1), f (l + i) = f l + ∑ j ∈ Finset.range l, f (l + (j + 1)) := by
    rw [Finset.sum_range_succ']; simp [add_comm]
  have e3 : ∑ i ∈ Finset.range l, f i = ∑ j ∈ Finset.range l, f (l - (j + 1)) := by
    rw [← Finset.sum_range_reflect]
    refine Finset.sum_congr rfl fun j hj => ?_
    congr 1
    have := Finset.mem_range.mp hj
    omega
  rw [e1, e2, e3]
  ring

/-- C60: at every two pairs of angles the real spherical harmonics of degree `l` have the same inner
product over the `2l+1` orders as the complex ones, so every rotation-invariant quantity built from them
is the same. -/
theorem realHarmonics_kernel (sph : SphHarm) (h : sph.Conj) (l : ℕ) (t p t' p' : ℝ) :
    ((∑ i ∈ Finset.range (2 * l + 1),
        batchSphHarmReal sph l t p i * batchSphHarmReal sph l t' p' i : ℝ) : ℂ)
      = ∑ i ∈ Finset.range (2 * l + 1), conj (sph l ((i : ℤ) - l) p t) * sph l ((i : ℤ) - l) p' t' := by
  push_cast
  rw [pair_sum, pair_sum]
  have h0 : ∀ p t, (sph l 0 p t).im = 0 := by
    intro p t
    have := congrArg Complex.im (h l 0 p t)
    simp at this
    linarith
  have e0 : (batchSphHarmReal sph l t p l : ℂ) * (batchSphHarmReal sph l t' p' l : ℂ)
      = conj (sph l ((l : ℤ) - l) p t) * sph l ((l : ℤ) - l) p' t' := by
    unfold batchSphHarmReal batchSphHarm
    simp only [sub_self, if_true]
    apply Complex.ext
    · simp [h0]
    · simp [h0]
  rw [e0]
  congr 1
  refine Finset.sum_congr rfl fun j hj => ?_
  have hj' := Finset.mem_range.mp hj
  rw [← Complex.ofReal_mul, ← Complex.ofReal_mul, real_term, imag_term sph l j hj']
  have hm : ((l + (j + 1) : ℕ) : ℤ) - l = j + 1 := by push_cast; ring
  have hm' : ((l - (j + 1) : ℕ) : ℤ) - l = -(j + 1) := by omega
  rw [hm, hm', h l (j + 1) p t, h l (j + 1) p' t']
  have hs := neg_one_zpow_sq ((j : ℤ) + 1)
  rw [zpow_ofReal, map_mul, Complex.conj_conj, Complex.conj_ofReal]
  generalize (-1 : ℝ) ^ ((j : ℤ) + 1) = s at hs ⊢
  generalize sph l ((j : ℤ) + 1) p t = u
  generalize sph l ((j : ℤ) + 1) p' t' = v
  apply Complex.ext
  · simp
    linear_combination (u.im * v.im - u.re * v.re) * hs
  · simp
    linear_combination (u.im * v.re - u.re * v.im) * (-hs)

/-- The contract can be met: degree-one harmonics without normalisation, `exp(i m t)` with the sign
convention of the library. -/
example : ∃ sph : SphHarm, sph.Conj ∧ ∃ p t, sph 1 1 p t ≠ 0 ∧ (sph 1 1 p t).im ≠ 0 := by
  refine ⟨fun _ m _ t => (if 0 ≤ m then (-1 : ℂ) ^ m else 1) * Complex.exp (m * t * Complex.I), ?_, 0,
    Real.pi / 2, ?_, ?_⟩
  · intro l m p t
    have hc : conj (Complex.exp ((m : ℂ) * t * Complex.I)) = Complex.exp (((-m : ℤ) : ℂ) * t * Complex.I) := by
      rw [← Complex.exp_conj]; congr 1; simp
    have hp : conj ((-1 : ℂ) ^ m) = (-1) ^ m := by simp
    have hsc : ((-1 : ℂ) ^ m) * ((-1 : ℂ) ^ m) = 1 := by rw [← mul_zpow]; simp
    show (if 0 ≤ -m then (-1 : ℂ) ^ (-m) else 1) * Complex.exp (((-m : ℤ) : ℂ) * t * Complex.I) =
      (-1 : ℂ) ^ m * conj ((if 0 ≤ m then (-1 : ℂ) ^ m else 1) * Complex.exp ((m : ℂ) * t * Complex.I))
    rcases lt_trichotomy m 0 with hm | rfl | hm
    · rw [if_pos (by omega), if_neg (by omega), one_mul, hc, zpow_neg, ← inv_zpow]
      norm_num
    · simp
    · rw [if_neg (by omega), if_pos hm.le, map_mul, hc, hp, ← mul_assoc, hsc]
  · simp
  · have : (((1 : ℤ) : ℂ)) * ((Real.pi / 2 : ℝ) : ℂ) * Complex.I = (Real.pi / 2 : ℂ) * Complex.I := by
      push_cast; ring
    show ((if (0 : ℤ) ≤ 1 then (-1 : ℂ) ^ (1 : ℤ) else 1) *
      Complex.exp (((1 : ℤ) : ℂ) * ((Real.pi / 2 : ℝ) : ℂ) * Complex.I)).im ≠ 0
    rw [this, Complex.exp_pi_div_two_mul_I]
    simp


/-! ### C48: the addition theorem, in the forms the code uses -/

/-- The addition theorem of degree `l`, the contract of the library function `sph_harm_y`: the inner
product of the harmonics of two directions over the `2l+1` orders is `(2l+1) / 4π` times the Legendre
polynomial of the cosine of the angle between them. -/
def SphHarm.Addition (sph : SphHarm) (l : ℕ) : Prop :=
  ∀ p t p' t' : ℝ,
    4 * (Real.pi : ℂ) * ∑ i ∈ Finset.range (2 * l + 1),
        conj (sph l ((i : ℤ) - l) p t) * sph l ((i : ℤ) - l) p' t'
      = (((2 * l + 1) * Spec.legendre l
          (Real.cos p * Real.cos p' + Real.sin p * Real.sin p' * Real.cos (t - t')) : ℝ) : ℂ)

private theorem cosAngle_spherical (x y : Fin 3 → ℝ) (hx : x ≠ 0) (hy : y ≠ 0) :
    Spec.cosAngle x y
      = Real.cos (cartesianToSpherical x).phi * Real.cos (cartesianToSpherical y).phi
        + Real.sin (cartesianToSpherical x).phi * Real.sin (cartesianToSpherical y).phi
          * Real.cos ((cartesianToSpherical x).theta - (cartesianToSpherical y).theta) := by
  have ex := cartesianToSpherical_inverse x hx 1e-10
  have ey := cartesianToSpherical_inverse y hy 1e-10
  have hrx := vecNorm_pos x hx
  have hry := vecNorm_pos y hy
  have rx : (cartesianToSpherical x).r = vecNorm x := by
    unfold cartesianToSpherical
    simp only [if_neg hrx.ne']
  have ry : (cartesianToSpherical y).r = vecNorm y := by
    unfold cartesianToSpherical
    simp only [if_neg hry.ne']
  rw [rx] at ex
  rw [ry] at ey
  have nx : Real.sqrt (∑ d, x d * x d) = vecNorm x := by
    unfold vecNorm
    simp only [sq]
  have ny : Real.sqrt (∑ d, y d * y d) = vecNorm y := by
    unfold vecNorm
    simp only [sq]
  unfold Spec.cosAngle
  rw [nx, ny, div_eq_iff (mul_pos hrx hry).ne', Fin.sum_univ_three]
  have x0 := congrFun ex 0
  have x1 := congrFun ex 1
  have x2 := congrFun ex 2
  have y0 := congrFun ey 0
  have y1 := congrFun ey 1
  have y2 := congrFun ey 2
  simp only [Spec.fromSpherical] at x0 x1 x2 y0 y1 y2
  rw [Real.cos_sub]
  generalize (cartesianToSpherical x).phi = p at *
  generalize (cartesianToSpherical y).phi = p' at *
  generalize (cartesianToSpherical x).theta = t at *
  generalize (cartesianToSpherical y).theta = t' at *
  linear_combination (-(y 0)) * x0 - (vecNorm x * Real.sin p * Real.cos t) * y0
    - (y 1) * x1 - (vecNorm x * Real.sin p * Real.sin t) * y1
    - (y 2) * x2 - (vecNorm x * Real.cos p) * y2

private theorem list_sum_range (f : ℕ → ℂ) (n : ℕ) :
    ((List.range n).map f).sum = ∑ i ∈ Finset.range n, f i := rfl

/-- C48: for every two non-zero vectors and every `l ≤ l_max` the features of `legendre_to_sph_harm` have
inner product `(2l+1) P_l(cos angle)`, as documented. -/
theorem legendreToSphHarm_spec (sph : SphHarm) (l lMax : ℕ) (h : sph.Addition l) (hl : l ≤ lMax)
    (x y : Fin 3 → ℝ) (hx : x ≠ 0) (hy : y ≠ 0) :
    ∃ f g, legendreToSphHarm sph l lMax x = .ok f ∧ legendreToSphHarm sph l lMax y = .ok g ∧
      (List.zipWith (fun a b => conj a * b) f g).sum
        = (((2 * l + 1) * Spec.legendre l (Spec.cosAngle x y) : ℝ) : ℂ) := by
  refine ⟨_, _, if_neg (by omega), if_neg (by omega), ?_⟩
  have hpi : (Real.sqrt Real.pi : ℂ) * (Real.sqrt Real.pi : ℂ) = (Real.pi : ℂ) := by
    rw [← Complex.ofReal_mul, Real.mul_self_sqrt Real.pi_pos.le]
  rw [cosAngle_spherical x y hx hy, ← h, List.map_append, List.map_append, List.zipWith_append (by simp),
    List.sum_append]
  have ez : (List.zipWith (fun a b : ℂ => conj a * b)
      (List.map (fun v : ℂ => v * 2 * (Real.sqrt Real.pi : ℂ)) (List.replicate ((lMax - l) * 2) 0))
      (List.map (fun v : ℂ => v * 2 * (Real.sqrt Real.pi : ℂ)) (List.replicate ((lMax - l) * 2) 0))).sum = 0 := by
    simp
  rw [ez, add_zero, List.map_map, List.map_map, List.zipWith_map, List.zipWith_self,
    list_sum_range, Finset.mul_sum]
  refine Finset.sum_congr rfl fun i _ => ?_
  simp only [Function.comp, map_mul, Complex.conj_ofReal, map_ofNat]
  linear_combination 4 * conj (sph l ((i : ℤ) - l) (cartesianToSpherical x).phi (cartesianToSpherical x).theta)
    * sph l ((i : ℤ) - l) (cartesianToSpherical y).phi (cartesianToSpherical y).theta * hpi

/-- C48: the result always has `2 * l_max + 1` entries, not the documented `2l + 1`, and a degree above
`l_max` is refused. -/
theorem legendreToSphHarm_shape (sph : SphHarm) (l lMax : ℕ) (x : Fin 3 → ℝ) :
    (lMax < l → legendreToSphHarm sph l lMax x = .error .valueError) ∧
    ∀ f, legendreToSphHarm sph l lMax x = .ok f → f.length = 2 * lMax + 1 := by
  unfold legendreToSphHarm
  refine ⟨fun h => if_pos h, fun f hf => ?_⟩
  split_ifs at hf with h
  cases hf
  simp
  omega

/-- C60: the padded real harmonics of two non-zero vectors have inner product
`(2l+1) / 4π * P_l(cos angle)` however long the padding is. -/
theorem sphericalRow_kernel (sph : SphHarm) (hc : sph.Conj) (l m : ℕ) (h : sph.Addition l)
    (hm : 2 * l + 1 ≤ m) (x y : Fin 3 → ℝ) (hx : x ≠ 0) (hy : y ≠ 0) :
    4 * Real.pi * ∑ i ∈ Finset.range m, sphericalRow sph l i x * sphericalRow sph l i y
      = (2 * l + 1) * Spec.legendre l (Spec.cosAngle x y) := by
  have e : ∑ i ∈ Finset.range m, sphericalRow sph l i x * sphericalRow sph l i y
      = ∑ i ∈ Finset.range (2 * l + 1),
          batchSphHarmReal sph l (cartesianToSpherical x).theta (cartesianToSpherical x).phi i
          * batchSphHarmReal sph l (cartesianToSpherical y).theta (cartesianToSpherical y).phi i := by
    rw [← Finset.sum_subset (Finset.range_subset_range.2 hm)
      (f := fun i => sphericalRow sph l i x * sphericalRow sph l i y)]
    · refine Finset.sum_congr rfl fun i hi => ?_
      unfold sphericalRow
      rw [if_pos (Finset.mem_range.1 hi), if_pos (Finset.mem_range.1 hi)]
    · intro i _ hi
      unfold sphericalRow
      rw [if_neg (by simpa using hi), zero_mul]
  have k := realHarmonics_kernel sph hc l (cartesianToSpherical x).theta (cartesianToSpherical x).phi
    (cartesianToSpherical y).theta (cartesianToSpherical y).phi
  have a := h (cartesianToSpherical x).phi (cartesianToSpherical x).theta
    (cartesianToSpherical y).phi (cartesianToSpherical y).theta
  rw [← k, ← cosAngle_spherical x y hx hy] at a
  rw [e]
  exact_mod_cast a

/-- The harmonics of degree zero and one, with the sign convention of the library. -/
noncomputable def lowHarmonics : SphHarm := fun l m p t =>
  if l = 0 then (if m = 0 then ((1 / (2 * Real.sqrt Real.pi) : ℝ) : ℂ) else 0)
  else if l = 1 then
    (if m = 0 then ((Real.sqrt 3 / (2 * Real.sqrt Real.pi) * Real.cos p : ℝ) : ℂ)
     else if m = 1 then
      -((Real.sqrt 3 / (2 * Real.sqrt Real.pi) / Real.sqrt 2 * Real.sin p : ℝ) : ℂ)
        * Complex.exp (t * Complex.I)
     else if m = -1 then
      ((Real.sqrt 3 / (2 * Real.sqrt Real.pi) / Real.sqrt 2 * Real.sin p : ℝ) : ℂ)
        * Complex.exp (-(t * Complex.I))
     else 0)
  else 0

/-- The two contracts of the library function hold together for these. -/
theorem lowHarmonics_contracts : lowHarmonics.Conj ∧ lowHarmonics.Addition 0 ∧ lowHarmonics.Addition 1 := by
  have hpi : Real.sqrt Real.pi * Real.sqrt Real.pi = Real.pi := Real.mul_self_sqrt Real.pi_pos.le
  have hp0 : Real.sqrt Real.pi ≠ 0 := (Real.sqrt_pos.2 Real.pi_pos).ne'
  have h20 : Real.sqrt 2 ≠ 0 := (Real.sqrt_pos.2 (by norm_num)).ne'
  have h2 : Real.sqrt 2 * Real.sqrt 2 = 2 := Real.mul_self_sqrt (by norm_num)
  have h3 : Real.sqrt 3 * Real.sqrt 3 = 3 := Real.mul_self_sqrt (by norm_num)
  refine ⟨?_, ?_, ?_⟩
  · intro l m p t
    have hc1 : conj (Complex.exp ((t : ℂ) * Complex.I)) = Complex.exp (-((t : ℂ) * Complex.I)) := by
      rw [← Complex.exp_conj]; congr 1; simp
    have hc2 : conj (Complex.exp (-((t : ℂ) * Complex.I))) = Complex.exp ((t : ℂ) * Complex.I) := by
      rw [← Complex.exp_conj]; congr 1; simp
    unfold lowHarmonics
    by_cases l0 : l = 0
    · simp only [if_pos l0]
      by_cases m0 : m = 0
      · subst m0
        simp only [neg_zero, if_true, zpow_zero, one_mul, Complex.conj_ofReal]
      · rw [if_neg (by omega), if_neg m0]
        simp
    · simp only [if_neg l0]
      by_cases l1 : l = 1
      · simp only [if_pos l1]
        by_cases m0 : m = 0
        · subst m0
          simp only [neg_zero, if_true, zpow_zero, one_mul, Complex.conj_ofReal]
        · by_cases m1 : m = 1
          · subst m1
            rw [if_neg (by decide), if_neg (by decide), if_pos (by decide), if_neg (by decide),
              if_pos rfl, map_mul, map_neg, Complex.conj_ofReal, hc1]
            simp
          · by_cases m2 : m = -1
            · subst m2
              rw [if_neg (by decide), if_pos (by decide), if_neg (by decide), if_neg (by decide),
                if_pos rfl, map_mul, Complex.conj_ofReal, hc2]
              simp
            · rw [if_neg (by omega), if_neg (by omega), if_neg (by omega), if_neg m0, if_neg m1, if_neg m2]
              simp
      · simp [if_neg l1]
  · intro p t p' t'
    simp only [lowHarmonics, Spec.legendre, Nat.mul_zero, Nat.zero_add, Finset.sum_range_one, if_true,
      Nat.cast_zero, sub_zero, Complex.conj_ofReal]
    rw [← Complex.ofReal_mul]
    have : 4 * Real.pi * (1 / (2 * Real.sqrt Real.pi) * (1 / (2 * Real.sqrt Real.pi))) = 1 := by
      rw [← hpi]; field_simp; norm_num
    have h := congrArg (fun r : ℝ => (r : ℂ)) this
    push_cast at h ⊢
    rw [h]; norm_num
  · intro p t p' t'
    have hc1 : conj (Complex.exp ((t : ℂ) * Complex.I)) = Complex.exp (-((t : ℂ) * Complex.I)) := by
      rw [← Complex.exp_conj]; congr 1; simp
    have hc2 : conj (Complex.exp (-((t : ℂ) * Complex.I))) = Complex.exp ((t : ℂ) * Complex.I) := by
      rw [← Complex.exp_conj]; congr 1; simp
    have e1 : Complex.exp (-((t : ℂ) * Complex.I)) * Complex.exp ((t' : ℂ) * Complex.I)
        = ((Real.cos (t - t') : ℝ) : ℂ) - ((Real.sin (t - t') : ℝ) : ℂ) * Complex.I := by
      rw [← Complex.exp_add, show -((t : ℂ) * Complex.I) + (t' : ℂ) * Complex.I
        = ((-(t - t') : ℝ) : ℂ) * Complex.I by push_cast; ring, Complex.exp_mul_I, ← Complex.ofReal_cos,
        ← Complex.ofReal_sin, Real.cos_neg, Real.sin_neg]
      push_cast; ring
    have e2 : Complex.exp ((t : ℂ) * Complex.I) * Complex.exp (-((t' : ℂ) * Complex.I))
        = ((Real.cos (t - t') : ℝ) : ℂ) + ((Real.sin (t - t') : ℝ) : ℂ) * Complex.I := by
      rw [← Complex.exp_add, show (t : ℂ) * Complex.I + -((t' : ℂ) * Complex.I)
        = (((t - t') : ℝ) : ℂ) * Complex.I by push_cast; ring, Complex.exp_mul_I, ← Complex.ofReal_cos,
        ← Complex.ofReal_sin]
    have hA : ((Real.sqrt 3 / (2 * Real.sqrt Real.pi) : ℝ) : ℂ) * ((Real.sqrt 3 / (2 * Real.sqrt Real.pi) : ℝ) : ℂ)
        * (4 * (Real.pi : ℂ)) = 3 := by
      have : Real.sqrt 3 / (2 * Real.sqrt Real.pi) * (Real.sqrt 3 / (2 * Real.sqrt Real.pi)) * (4 * Real.pi) = 3 := by
        rw [div_mul_div_comm, h3,
          show 2 * Real.sqrt Real.pi * (2 * Real.sqrt Real.pi) = 4 * (Real.sqrt Real.pi * Real.sqrt Real.pi) by ring,
          hpi]
        have := Real.pi_ne_zero
        field_simp
      exact_mod_cast congrArg (fun r : ℝ => (r : ℂ)) this
    have hB : ((Real.sqrt 3 / (2 * Real.sqrt Real.pi) / Real.sqrt 2 : ℝ) : ℂ)
        * ((Real.sqrt 3 / (2 * Real.sqrt Real.pi) / Real.sqrt 2 : ℝ) : ℂ) * (4 * (Real.pi : ℂ)) = 3 / 2 := by
      have : Real.sqrt 3 / (2 * Real.sqrt Real.pi) / Real.sqrt 2
          * (Real.sqrt 3 / (2 * Real.sqrt Real.pi) / Real.sqrt 2) * (4 * Real.pi) = 3 / 2 := by
        rw [div_div, div_mul_div_comm, h3,
          show 2 * Real.sqrt Real.pi * Real.sqrt 2 * (2 * Real.sqrt Real.pi * Real.sqrt 2)
            = 4 * (Real.sqrt Real.pi * Real.sqrt Real.pi) * (Real.sqrt 2 * Real.sqrt 2) by ring, h2, hpi]
        have := Real.pi_ne_zero
        field_simp
      have h := congrArg (fun r : ℝ => (r : ℂ)) this
      push_cast at h ⊢
      exact h
    have z0 : ((0 : ℕ) : ℤ) - ((1 : ℕ) : ℤ) = -1 := by norm_num
    have z1 : ((1 : ℕ) : ℤ) - ((1 : ℕ) : ℤ) = 0 := by norm_num
    have z2 : ((2 : ℕ) : ℤ) - ((1 : ℕ) : ℤ) = 1 := by norm_num
    rw [show 2 * 1 + 1 = 3 from rfl, Finset.sum_range_succ, Finset.sum_range_succ, Finset.sum_range_one, z0, z1, z2]
    have ym : ∀ p t, lowHarmonics 1 (-1) p t
        = ((Real.sqrt 3 / (2 * Real.sqrt Real.pi) / Real.sqrt 2 : ℝ) : ℂ) * (Real.sin p : ℂ)
          * Complex.exp (-(t * Complex.I)) := by
      intro p t
      unfold lowHarmonics
      rw [if_neg (by decide), if_pos rfl, if_neg (by decide), if_neg (by decide), if_pos rfl, Complex.ofReal_mul]
    have y0 : ∀ p t, lowHarmonics 1 0 p t
        = ((Real.sqrt 3 / (2 * Real.sqrt Real.pi) : ℝ) : ℂ) * (Real.cos p : ℂ) := by
      intro p t
      unfold lowHarmonics
      rw [if_neg (by decide), if_pos rfl, if_pos rfl, Complex.ofReal_mul]
    have y1 : ∀ p t, lowHarmonics 1 1 p t
        = -(((Real.sqrt 3 / (2 * Real.sqrt Real.pi) / Real.sqrt 2 : ℝ) : ℂ) * (Real.sin p : ℂ))
          * Complex.exp (t * Complex.I) := by
      intro p t
      unfold lowHarmonics
      rw [if_neg (by decide), if_pos rfl, if_neg (by decide), if_pos rfl, Complex.ofReal_mul]
    rw [ym, ym, y0, y0, y1, y1]
    simp only [map_mul, map_neg, Complex.conj_ofReal, hc1, hc2, Spec.legendre]
    generalize ((Real.sqrt 3 / (2 * Real.sqrt Real.pi) / Real.sqrt 2 : ℝ) : ℂ) = B at hB ⊢
    generalize ((Real.sqrt 3 / (2 * Real.sqrt Real.pi) : ℝ) : ℂ) = A at hA ⊢
    push_cast
    push_cast at e1 e2
    generalize Complex.cos ((t : ℂ) - t') = C at *
    generalize Complex.sin ((t : ℂ) - t') = S at *
    generalize Complex.exp ((t : ℂ) * Complex.I) = E at *
    generalize Complex.exp (-((t : ℂ) * Complex.I)) = E' at *
    generalize Complex.exp ((t' : ℂ) * Complex.I) = F at *
    generalize Complex.exp (-((t' : ℂ) * Complex.I)) = F' at *
    linear_combination (Complex.cos p * Complex.cos p') * hA
      + (2 * Complex.sin p * Complex.sin p' * C) * hB
      + (4 * (Real.pi : ℂ) * B * B * Complex.sin p * Complex.sin p') * (e1 + e2)

/-- Two directions at right angles have features of degree one with inner product zero. -/
example : ∃ f g, legendreToSphHarm lowHarmonics 1 4 ![1, 0, 0] = .ok f ∧
    legendreToSphHarm lowHarmonics 1 4 ![0, 2, 0] = .ok g ∧
    (List.zipWith (fun a b => conj a * b) f g).sum = 0 := by
  obtain ⟨f, g, hf, hg, h⟩ := legendreToSphHarm_spec lowHarmonics 1 4 lowHarmonics_contracts.2.2 (by omega)
    ![1, 0, 0] ![0, 2, 0] (by intro h; have := congrFun h 0; simp at this)
    (by intro h; have := congrFun h 1; simp at this)
  refine ⟨f, g, hf, hg, h.trans ?_⟩
  simp [Spec.legendre, Spec.cosAngle, Fin.sum_univ_three]

/-- A vector on the negative `z` axis and one off the axes. -/
example : Spec.fromSpherical (cartesianToSpherical ![0, 0, -2]).r (cartesianToSpherical ![0, 0, -2]).theta
    (cartesianToSpherical ![0, 0, -2]).phi = ![0, 0, -2] :=
  cartesianToSpherical_inverse _ (by intro h; have := congrFun h 2; simp at this) _

end Jrystal
