import Verif.Model.Sbt
import Mathlib.Analysis.SpecialFunctions.Integrals.Basic
import Mathlib.Algebra.BigOperators.Intervals

/- C49: radial quadrature. -/
namespace Jrystal
open scoped BigOperators

private theorem simpsonLoop_above (drho : ℝ) (rr : Samples) (ii : ℕ) (w : Samples) (i : ℕ) (h : ii < i) :
    simpsonLoop drho rr ii w i = w i := by
  induction ii using Nat.strong_induction_on generalizing w with
  | _ ii ih =>
    match ii with
    | 0 => rfl
    | 1 => rfl
    | (ii + 2) =>
      unfold simpsonLoop
      simp only
      rw [ih ii (by omega) _ (by omega)]
      simp [show i ≠ ii by omega, show i ≠ ii + 1 by omega,
        show i ≠ ii + 2 by omega]

private theorem simpsonLoop_sum (drho : ℝ) (rr f : Samples) (m p : ℕ) (hp : p ≤ 1) (w : Samples)
    (hw : ∀ i, i < 2 * m + p → w i = 0) :
    ∑ i ∈ Finset.range (2 * m + p + 1), simpsonLoop drho rr (2 * m + p) w i * f i
      = w (2 * m + p) * f (2 * m + p) + ∑ j ∈ Finset.range m, drho / 3 *
          (rr (2 * j + p) * f (2 * j + p) + 4 * (rr (2 * j + p + 1) * f (2 * j + p + 1))
            + rr (2 * j + p + 2) * f (2 * j + p + 2)) := by
  induction m generalizing w with
  | zero =>
    rcases (by omega : p = 0 ∨ p = 1) with rfl | rfl
    · simp [simpsonLoop]
    · simp [simpsonLoop, Finset.sum_range_succ, hw 0 (by omega)]
  | succ m ih =>
    have e : 2 * (m + 1) + p = (2 * m + p) + 2 := by ring
    rw [e]
    rw [Finset.sum_range_succ, Finset.sum_range_succ]
    rw [show simpsonLoop drho rr (2 * m + p + 2) w
      = simpsonLoop drho rr (2 * m + p) (Function.update (Function.update (Function.update w (2 * m + p + 2)
        (drho * rr (2 * m + p + 2) / 3 + w (2 * m + p + 2))) (2 * m + p + 1)
        (drho * rr (2 * m + p + 1) * 4 / 3)) (2 * m + p) (drho * rr (2 * m + p) / 3)) from rfl]
    rw [ih _ (fun i hi => by
      simp only [Function.update_apply, if_neg (show i ≠ 2 * m + p by omega),
        if_neg (show i ≠ 2 * m + p + 1 by omega), if_neg (show i ≠ 2 * m + p + 2 by omega)]
      exact hw i (by omega))]
    rw [simpsonLoop_above _ _ _ _ _ (by omega), simpsonLoop_above _ _ _ _ _ (by omega)]
    rw [Finset.sum_range_succ _ m]
    simp only [Function.update_apply, if_true, if_neg (show 2 * m + p + 1 ≠ 2 * m + p by omega),
      if_neg (show 2 * m + p + 2 ≠ 2 * m + p by omega),
      if_neg (show 2 * m + p + 2 ≠ 2 * m + p + 1 by omega)]
    ring

/-- C49: the weighted sum is the composite Simpson rule in `ρ = log r` for `f dr = f r dρ`, for a mesh of
`2m+1` points. -/
theorem simpson_composite (drho : ℝ) (rr f : Samples) (m : ℕ) :
    ∑ i ∈ Finset.range (2 * m + 1), simpsonWeights drho (2 * m + 1) rr i * f i
      = ∑ j ∈ Finset.range m, drho / 3 *
          (rr (2 * j) * f (2 * j) + 4 * (rr (2 * j + 1) * f (2 * j + 1))
            + rr (2 * j + 2) * f (2 * j + 2)) := by
  unfold simpsonWeights
  rw [show 2 * m + 1 - 1 = 2 * m + 0 by omega]
  have := simpsonLoop_sum drho rr f m 0 (by omega) (fun _ => 0) (fun _ _ => rfl)
  simpa using this

private noncomputable def cubic (a b c d x : ℝ) : ℝ := a + b * x + c * x ^ 2 + d * x ^ 3

private theorem cubic_integral (a b c d u v : ℝ) :
    ∫ x in u..v, (a + b * x + c * x ^ 2 + d * x ^ 3)
      = (a * v + b * v ^ 2 / 2 + c * v ^ 3 / 3 + d * v ^ 4 / 4)
        - (a * u + b * u ^ 2 / 2 + c * u ^ 3 / 3 + d * u ^ 4 / 4) := by
  have hd : ∀ x ∈ Set.uIcc u v, HasDerivAt
      (fun x : ℝ => a * x + b * x ^ 2 / 2 + c * x ^ 3 / 3 + d * x ^ 4 / 4)
      (a + b * x + c * x ^ 2 + d * x ^ 3) x := by
    intro x _
    have h1 := (hasDerivAt_id' x).const_mul a
    have h2 := ((hasDerivAt_pow 2 x).const_mul b).div_const 2
    have h3 := ((hasDerivAt_pow 3 x).const_mul c).div_const 3
    have h4 := ((hasDerivAt_pow 4 x).const_mul d).div_const 4
    refine (((h1.add h2).add h3).add h4).congr_deriv ?_
    norm_num
    ring
  rw [intervalIntegral.integral_eq_sub_of_hasDerivAt hd]
  exact (by fun_prop : Continuous fun x : ℝ => a + b * x + c * x ^ 2 + d * x ^ 3).intervalIntegrable _ _

private theorem simpson_blocks (a b c d x0 h : ℝ) (m : ℕ) :
    ∑ j ∈ Finset.range m, h / 3 *
        (cubic a b c d (x0 + (2 * j : ℕ) * h) + 4 * cubic a b c d (x0 + (2 * j + 1 : ℕ) * h)
          + cubic a b c d (x0 + (2 * j + 2 : ℕ) * h))
      = ∫ x in x0..(x0 + (2 * m : ℕ) * h), (a + b * x + c * x ^ 2 + d * x ^ 3) := by
  rw [cubic_integral]
  induction m with
  | zero => simp
  | succ m ih =>
    rw [Finset.sum_range_succ, ih]
    unfold cubic
    push_cast
    ring

/-- C49: on a mesh with an odd number of points the weights integrate exactly every function for which
`r f(r)` is a polynomial of degree at most three in `ρ = log r` (quadratics in particular):
`Σ w_i f_i = ∫ r f dρ` over the whole mesh. -/
theorem simpson_exact_odd (drho x0 a b c d : ℝ) (rr f : Samples) (m : ℕ)
    (hf : ∀ i, i < 2 * m + 1 → rr i * f i
      = a + b * (x0 + i * drho) + c * (x0 + i * drho) ^ 2 + d * (x0 + i * drho) ^ 3) :
    ∑ i ∈ Finset.range (2 * m + 1), simpsonWeights drho (2 * m + 1) rr i * f i
      = ∫ x in x0..(x0 + (2 * m : ℕ) * drho), (a + b * x + c * x ^ 2 + d * x ^ 3) := by
  rw [simpson_composite, ← simpson_blocks]
  refine Finset.sum_congr rfl fun j hj => ?_
  have hj := Finset.mem_range.mp hj
  rw [hf (2 * j) (by omega), hf (2 * j + 1) (by omega), hf (2 * j + 2) (by omega)]
  rfl

/-- C49, the even case: with an even number of points the first interval of the mesh is left out: the first
weight is zero and the sum is the integral from the second mesh point. -/
theorem simpson_even (drho x0 a b c d : ℝ) (rr f : Samples) (m : ℕ)
    (hf : ∀ i, i < 2 * m + 2 → rr i * f i
      = a + b * (x0 + i * drho) + c * (x0 + i * drho) ^ 2 + d * (x0 + i * drho) ^ 3) :
    simpsonWeights drho (2 * m + 2) rr 0 = 0 ∧
    ∑ i ∈ Finset.range (2 * m + 2), simpsonWeights drho (2 * m + 2) rr i * f i
      = ∫ x in (x0 + drho)..(x0 + (2 * m + 1 : ℕ) * drho), (a + b * x + c * x ^ 2 + d * x ^ 3) := by
  have h0 : ∀ k, simpsonLoop drho rr (2 * k + 1) (fun _ => 0) 0 = 0 := by
    have aux : ∀ k w, w 0 = 0 → simpsonLoop drho rr (2 * k + 1) w 0 = 0 := by
      intro k
      induction k with
      | zero => intro w hw; exact hw
      | succ k ih =>
        intro w hw
        refine ih _ ?_
        simp [hw]
    exact fun k => aux k _ rfl
  refine ⟨h0 m, ?_⟩
  unfold simpsonWeights
  have := simpsonLoop_sum drho rr f m 1 le_rfl (fun _ => 0) (fun _ _ => rfl)
  rw [show 2 * m + 2 - 1 = 2 * m + 1 by omega, this]
  rw [show x0 + ((2 * m + 1 : ℕ) : ℝ) * drho = x0 + drho + (2 * m : ℕ) * drho by push_cast; ring,
    ← simpson_blocks, zero_mul, zero_add]
  refine Finset.sum_congr rfl fun j hj => ?_
  have hj := Finset.mem_range.mp hj
  rw [hf (2 * j + 1) (by omega), hf (2 * j + 1 + 1) (by omega), hf (2 * j + 1 + 2) (by omega)]
  unfold cubic
  push_cast
  ring

/-- C49: the weights of an increasing mesh of positive radii are non-negative. -/
theorem simpson_nonneg (drho : ℝ) (hd : 0 ≤ drho) (nr : ℕ) (rr : Samples) (hr : ∀ i, 0 ≤ rr i) (i : ℕ) :
    0 ≤ simpsonWeights drho nr rr i := by
  have : ∀ ii (w : Samples), (∀ i, 0 ≤ w i) → ∀ i, 0 ≤ simpsonLoop drho rr ii w i := by
    intro ii
    induction ii using Nat.strong_induction_on with
    | _ ii ih =>
      match ii with
      | 0 => exact fun w h => h
      | 1 => exact fun w h => h
      | (ii + 2) =>
        intro w hw i
        unfold simpsonLoop
        refine ih ii (by omega) _ (fun i => ?_) i
        simp only [Function.update_apply]
        have h1 := hr ii
        have h2 := hr (ii + 1)
        have h3 := hr (ii + 2)
        have h4 := hw (ii + 2)
        have h5 := hw i
        split_ifs <;> positivity
  exact this _ _ (fun _ => le_rfl) i

/-- C49: on a logarithmic mesh `r_i = r_0 exp(i h)` the step computed by the constructor is `h`. -/
theorem meshStep_log (nr : ℕ) (hn : 2 ≤ nr) (r0 h : ℝ) (hr : 0 < r0) :
    meshStep nr (fun i => r0 * Real.exp (i * h)) = h := by
  unfold meshStep
  simp only [Nat.cast_zero, zero_mul, Real.exp_zero, mul_one]
  rw [Real.log_mul hr.ne' (Real.exp_pos _).ne', Real.log_exp, Nat.cast_sub (by omega)]
  have : (nr : ℝ) - 1 ≠ 0 := by
    have : (2 : ℝ) ≤ nr := by exact_mod_cast hn
    linarith
  push_cast
  field_simp
  ring

/-- C49: the integral of `1/r`: on a logarithmic mesh with an odd number of points the weights give
`log(r_max) - log(r_min)` exactly. -/
theorem simpson_inverse_r (m : ℕ) (hm : 0 < m) (r0 h : ℝ) (hr : 0 < r0) :
    let rr : Samples := fun i => r0 * Real.exp (i * h)
    ∑ i ∈ Finset.range (2 * m + 1), simpsonWeights (meshStep (2 * m + 1) rr) (2 * m + 1) rr i * (1 / rr i)
      = Real.log (rr (2 * m)) - Real.log (rr 0) := by
  intro rr
  rw [meshStep_log (2 * m + 1) (by omega) r0 h hr]
  rw [simpson_exact_odd h 0 1 0 0 0 rr (fun i => 1 / rr i) m (fun i _ => by
    have : rr i ≠ 0 := (mul_pos hr (Real.exp_pos _)).ne'
    rw [mul_one_div_cancel this]; ring)]
  rw [cubic_integral]
  show _ = Real.log (r0 * Real.exp ((2 * m : ℕ) * h)) - Real.log (r0 * Real.exp ((0 : ℕ) * h))
  rw [Real.log_mul hr.ne' (Real.exp_pos _).ne', Real.log_mul hr.ne' (Real.exp_pos _).ne', Real.log_exp,
    Real.log_exp]
  push_cast
  ring

/-- C49: the numerical transform is linear in the function, for every choice of intervals. -/
theorem sbtNumerical_linear (jn : SphBessel) (nr : ℕ) (rr : Samples) (kmax : ℝ) (l : ℤ) (f g : Samples)
    (a b : ℝ) (delta : Samples) (j : ℕ) :
    sbtNumerical jn nr rr kmax l (fun i => a * f i + b * g i) delta j
      = a * sbtNumerical jn nr rr kmax l f delta j + b * sbtNumerical jn nr rr kmax l g delta j := by
  unfold sbtNumerical
  rw [Finset.mul_sum, Finset.mul_sum, ← Finset.sum_add_distrib]
  exact Finset.sum_congr rfl fun i _ => by ring

/-- C49: the default intervals give the left Riemann sum of `f r² j_l(g r)` over the mesh; the value at the
last mesh point does not enter. -/
theorem sbtNumerical_leftRiemann (jn : SphBessel) (nr : ℕ) (rr : Samples) (kmax : ℝ) (l : ℤ) (f : Samples)
    (j : ℕ) :
    sbtNumerical jn (nr + 1) rr kmax l f (deltaR (nr + 1) rr) j
      = ∑ i ∈ Finset.range nr,
          f i * rr i ^ 2 * jn l (gGrid (nr + 1) kmax j * rr i) * (rr (i + 1) - rr i) := by
  unfold sbtNumerical
  rw [Finset.sum_range_succ]
  have hlast : deltaR (nr + 1) rr nr = 0 := by unfold deltaR; rw [if_neg (by omega)]
  rw [hlast, mul_zero, add_zero]
  refine Finset.sum_congr rfl fun i hi => ?_
  have := Finset.mem_range.mp hi
  unfold deltaR
  rw [if_pos (by omega)]

/-- C49: the output grid runs from `0.0001` to `kmax` in equal steps. -/
theorem gGrid_ends (nr : ℕ) (hn : 0 < nr) (kmax : ℝ) :
    gGrid nr kmax 0 = 0.0001 ∧ gGrid nr kmax (2 * nr - 1) = kmax ∧
    ∀ j, gGrid nr kmax (j + 1) - gGrid nr kmax j = gGrid nr kmax 1 - gGrid nr kmax 0 := by
  have hne : ((2 * nr : ℕ) : ℝ) - 1 ≠ 0 := by
    have : (1 : ℝ) ≤ nr := by exact_mod_cast hn
    push_cast
    linarith
  unfold gGrid
  refine ⟨by simp, ?_, fun j => by push_cast; ring⟩
  rw [Nat.cast_sub (by omega)]
  push_cast at hne ⊢
  field_simp
  ring

/-- C49: with a list of degrees row `f` is transformed with its own degree; a list of another length
raises. -/
theorem sbtRows_spec (jn : SphBessel) (nr : ℕ) (rr : Samples) (kmax : ℝ) (ls : List ℤ)
    (rows : List Samples) :
    (∀ out, sbtRows jn nr rr kmax ls rows = .ok out →
      out.length = rows.length ∧ ∀ i (h : i < rows.length) (h' : i < ls.length) (h'' : i < out.length),
        out[i] = sbtNumerical jn nr rr kmax ls[i] rows[i] (deltaR nr rr)) ∧
    (sbtRows jn nr rr kmax ls rows = .error .assertionError ↔ rows.length ≠ ls.length) := by
  unfold sbtRows
  split
  · rename_i h
    refine ⟨fun out ho => ?_, by simp [h]⟩
    have := Except.ok.inj ho
    subst this
    refine ⟨by simp [h], fun i hi hi' hi'' => by simp⟩
  · rename_i h
    exact ⟨fun out ho => by simp at ho, by simp [h]⟩

/-- A mesh of five points with `r f = ρ²`: the hypotheses can be met, and the value is the integral. -/
example : ∑ i ∈ Finset.range 5, simpsonWeights 1 5 (fun i => Real.exp i) i * ((i : ℝ) ^ 2 / Real.exp i)
    = ∫ x in (0 : ℝ)..(0 + (2 * 2 : ℕ) * 1), (0 + 0 * x + 1 * x ^ 2 + 0 * x ^ 3) :=
  simpson_exact_odd 1 0 0 0 1 0 _ _ 2 (fun i _ => by
    rw [mul_div_cancel₀ _ (Real.exp_pos _).ne']; ring)

end Jrystal
