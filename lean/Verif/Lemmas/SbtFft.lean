import Verif.Spec.Sbt
import Verif.Model.SbtFft
import Verif.Lemmas.Dft1
import Mathlib.Tactic.Ring
import Mathlib.Tactic.FieldSimp
import Mathlib.Tactic.Linarith

namespace Jrystal
open scoped BigOperators ComplexConjugate
open Complex (I)

/-- `exp(2i arctan x) = (1+ix)/(1-ix)`. -/
theorem exp_two_arctan (x : ℝ) :
    Complex.exp (2 * I * (Real.arctan x : ℂ)) = (1 + I * x) / (1 - I * x) := by
  have h0 : (0:ℝ) < 1 + x ^ 2 := by positivity
  have hs : Real.sqrt (1 + x ^ 2) ≠ 0 := (Real.sqrt_pos.mpr h0).ne'
  have h1 : Complex.exp (I * (Real.arctan x : ℂ)) = (1 + I * x) / (Real.sqrt (1 + x ^ 2) : ℂ) := by
    rw [mul_comm, Complex.exp_mul_I, ← Complex.ofReal_cos, ← Complex.ofReal_sin, Real.cos_arctan, Real.sin_arctan]
    push_cast
    have : (Real.sqrt (1 + x ^ 2) : ℂ) ≠ 0 := by exact_mod_cast hs
    field_simp
  have hne : (1 : ℂ) - I * x ≠ 0 := by
    intro h
    have := congrArg Complex.re h
    simp at this
  have hsq : ((Real.sqrt (1 + x ^ 2) : ℝ) : ℂ) ^ 2 = (1 + I * x) * (1 - I * x) := by
    rw [← Complex.ofReal_pow, Real.sq_sqrt h0.le]
    push_cast
    have : I ^ 2 = -1 := Complex.I_sq
    linear_combination (x:ℂ)^2 * this
  rw [show 2 * I * (Real.arctan x : ℂ) = I * (Real.arctan x : ℂ) + I * (Real.arctan x : ℂ) by ring,
    Complex.exp_add, h1]
  have hne' : (1 : ℂ) + I * x ≠ 0 := by
    intro h
    have := congrArg Complex.re h
    simp at this
  have : (Real.sqrt (1 + x ^ 2) : ℂ) ≠ 0 := by exact_mod_cast hs
  rw [div_mul_div_comm, ← sq ((Real.sqrt (1 + x ^ 2) : ℝ) : ℂ), hsq]
  field_simp

/-- The phase of a non-zero number. -/
theorem exp_log_im (z : ℂ) (hz : z ≠ 0) :
    Complex.exp (I * ((Complex.log z).im : ℂ)) = z / (‖z‖ : ℂ) := by
  have hn : (‖z‖ : ℂ) ≠ 0 := by exact_mod_cast norm_ne_zero_iff.mpr hz
  rw [eq_div_iff hn, Complex.log_im, mul_comm, mul_comm I]
  exact Complex.norm_mul_exp_arg_mul_I z

private theorem gamma_half_norm_sq (t : ℝ) :
    Complex.Gamma (1 / 2 - I * t) * conj (Complex.Gamma (1 / 2 - I * t)) = Real.pi / Complex.cosh (Real.pi * t) := by
  rw [← Complex.Gamma_conj]
  have e : conj ((1 / 2 : ℂ) - I * t) = 1 - (1 / 2 - I * t) := by
    simp [map_ofNat]
    ring
  rw [e, Complex.Gamma_mul_Gamma_one_sub]
  congr 1
  rw [show (Real.pi : ℂ) * (1 / 2 - I * t) = Real.pi / 2 - (Real.pi * t) * I by ring,
    Complex.sin_pi_div_two_sub, Complex.cos_mul_I]

private theorem gamma_half_norm (t : ℝ) :
    ‖Complex.Gamma (1 / 2 - I * t)‖ = Real.sqrt (Real.pi / Real.cosh (Real.pi * t)) := by
  have h := gamma_half_norm_sq t
  rw [Complex.mul_conj', ← Complex.ofReal_mul, ← Complex.ofReal_cosh, ← Complex.ofReal_div] at h
  have h' : ‖Complex.Gamma (1 / 2 - I * t)‖ ^ 2 = Real.pi / Real.cosh (Real.pi * t) := by exact_mod_cast h
  rw [← h', Real.sqrt_sq (norm_nonneg _)]

private theorem gamma_half_ne (t : ℝ) : Complex.Gamma (1 / 2 - I * t) ≠ 0 :=
  Complex.Gamma_ne_zero_of_re_pos (by simp)

private theorem sin_half (t : ℝ) :
    Complex.sin (Real.pi * (1 / 2 - I * t) / 2)
      = (Real.sqrt 2 / 2 : ℝ) * ((Real.cosh (Real.pi * t / 2) : ℂ) - I * (Real.sinh (Real.pi * t / 2) : ℂ)) := by
  rw [show (Real.pi : ℂ) * (1 / 2 - I * t) / 2 = ((Real.pi / 4 : ℝ) : ℂ) - ((Real.pi * t / 2 : ℝ) : ℂ) * I by
    push_cast; ring]
  rw [Complex.sin_sub, Complex.cos_mul_I, Complex.sin_mul_I, ← Complex.ofReal_sin, ← Complex.ofReal_cos,
    Real.sin_pi_div_four, Real.cos_pi_div_four, ← Complex.ofReal_cosh, ← Complex.ofReal_sinh]
  ring

private theorem cos_half (t : ℝ) :
    Complex.cos (Real.pi * (1 / 2 - I * t) / 2)
      = (Real.sqrt 2 / 2 : ℝ) * ((Real.cosh (Real.pi * t / 2) : ℂ) + I * (Real.sinh (Real.pi * t / 2) : ℂ)) := by
  rw [show (Real.pi : ℂ) * (1 / 2 - I * t) / 2 = ((Real.pi / 4 : ℝ) : ℂ) - ((Real.pi * t / 2 : ℝ) : ℂ) * I by
    push_cast; ring]
  rw [Complex.cos_sub, Complex.cos_mul_I, Complex.sin_mul_I, ← Complex.ofReal_sin, ← Complex.ofReal_cos,
    Real.sin_pi_div_four, Real.cos_pi_div_four, ← Complex.ofReal_cosh, ← Complex.ofReal_sinh]
  ring

private theorem exp_neg_arctan_tanh (x : ℝ) :
    Complex.exp (-(I * (Real.arctan (Real.tanh x) : ℂ)))
      = ((Real.cosh x : ℂ) - I * (Real.sinh x : ℂ)) / (Real.sqrt (Real.cosh (2 * x)) : ℂ) := by
  have hc : 0 < Real.cosh x := Real.cosh_pos x
  have h2 : Real.cosh (2 * x) = Real.cosh x ^ 2 + Real.sinh x ^ 2 := Real.cosh_two_mul x
  have hs : Real.sqrt (1 + Real.tanh x ^ 2) = Real.sqrt (Real.cosh (2 * x)) / Real.cosh x := by
    rw [Real.tanh_eq_sinh_div_cosh, h2]
    rw [show (1 : ℝ) + (Real.sinh x / Real.cosh x) ^ 2 = (Real.cosh x ^ 2 + Real.sinh x ^ 2) / Real.cosh x ^ 2 by
      field_simp]
    rw [Real.sqrt_div (by positivity), Real.sqrt_sq hc.le]
  have hpos : 0 < Real.sqrt (Real.cosh (2 * x)) := Real.sqrt_pos.mpr (Real.cosh_pos _)
  rw [show -(I * (Real.arctan (Real.tanh x) : ℂ)) = ((-Real.arctan (Real.tanh x) : ℝ) : ℂ) * I by push_cast; ring]
  rw [Complex.exp_mul_I, ← Complex.ofReal_cos, ← Complex.ofReal_sin, Real.cos_neg, Real.sin_neg,
    Real.cos_arctan, Real.sin_arctan, hs, Real.tanh_eq_sinh_div_cosh]
  have h1 : (Real.cosh x : ℂ) ≠ 0 := by exact_mod_cast hc.ne'
  have h3 : (Real.sqrt (Real.cosh (2 * x)) : ℂ) ≠ 0 := by exact_mod_cast hpos.ne'
  push_cast at h1 h3 ⊢
  field_simp
  ring

/-- The two forms of the table at degree zero given in the comments of the code (Eq. 15 and Eq. 19 of the
paper) agree. -/
theorem mellin_zero_forms (t : ℝ) :
    (Real.sqrt (Real.pi / 2) : ℂ) * Complex.exp (I * (((Complex.log (Complex.Gamma (1 / 2 - I * t))).im
        - Real.arctan (Real.tanh (Real.pi * t / 2)) : ℝ) : ℂ))
      = Complex.Gamma (1 / 2 - I * t) * Complex.sin (Real.pi * (1 / 2 - I * t) / 2) := by
  rw [Complex.ofReal_sub, mul_sub, sub_eq_add_neg, Complex.exp_add, exp_log_im _ (gamma_half_ne t),
    exp_neg_arctan_tanh, gamma_half_norm, sin_half]
  rw [show 2 * (Real.pi * t / 2) = Real.pi * t by ring]
  have hc : 0 < Real.cosh (Real.pi * t) := Real.cosh_pos _
  have hp := Real.pi_pos
  have h1 : Real.sqrt (Real.pi / 2) / (Real.sqrt (Real.pi / Real.cosh (Real.pi * t)) *
      Real.sqrt (Real.cosh (Real.pi * t))) = Real.sqrt 2 / 2 := by
    rw [← Real.sqrt_mul (by positivity), div_mul_cancel₀ _ hc.ne', Real.sqrt_div hp.le]
    have := Real.sqrt_pos.mpr hp
    have h2 : Real.sqrt 2 * Real.sqrt 2 = 2 := Real.mul_self_sqrt (by norm_num)
    have h3 : 0 < Real.sqrt 2 := Real.sqrt_pos.mpr (by norm_num)
    field_simp
    linarith
  rw [← h1]
  push_cast
  ring

private theorem mellin_zero (t : ℝ) :
    Spec.besselMellin 0 t = Complex.Gamma (1 / 2 - I * t) * Complex.sin (Real.pi * (1 / 2 - I * t) / 2) := by
  set z : ℂ := 1 / 2 - I * t with hz
  have hr := Complex.Gamma_mul_Gamma_one_sub (z / 2)
  have hd := Complex.Gamma_mul_Gamma_add_half (z / 2)
  have hre : 0 < (1 - z / 2).re := by simp [hz]; norm_num
  have hg : Complex.Gamma (1 - z / 2) ≠ 0 := Complex.Gamma_ne_zero_of_re_pos hre
  have hsin : Complex.sin (Real.pi * (z / 2)) ≠ 0 := by
    intro h
    rw [h, div_zero] at hr
    have : Complex.Gamma (z / 2) ≠ 0 := Complex.Gamma_ne_zero_of_re_pos (by simp [hz])
    exact (mul_ne_zero this hg) hr
  have hpi : (Real.pi : ℂ) ≠ 0 := by exact_mod_cast Real.pi_ne_zero
  have hsp : (Real.sqrt Real.pi : ℂ) * (Real.sqrt Real.pi : ℂ) = Real.pi := by
    rw [← Complex.ofReal_mul, Real.mul_self_sqrt Real.pi_pos.le]
  unfold Spec.besselMellin
  simp only
  rw [show ((0 : ℕ) : ℂ) = 0 from Nat.cast_zero]
  rw [show (0 + (3 / 2 - I * (t : ℂ))) / 2 = z / 2 + 1 / 2 by rw [hz]; ring,
    show (3 + 0 - (3 / 2 - I * (t : ℂ))) / 2 = 1 - z / 2 by rw [hz]; ring,
    show (3 / 2 - I * (t : ℂ)) - 2 = -(1 - 2 * (z / 2)) by rw [hz]; ring]
  rw [Complex.cpow_neg]
  have h2 : (2 : ℂ) ^ (1 - 2 * (z / 2)) ≠ 0 := by
    rw [Complex.cpow_def_of_ne_zero (by norm_num)]
    exact Complex.exp_ne_zero _
  rw [show (2 : ℂ) * (z / 2) = z by ring] at hd h2 ⊢
  rw [div_eq_iff hg]
  rw [show (Real.pi : ℂ) * z / 2 = Real.pi * (z / 2) by ring]
  have hz2 : Complex.Gamma (z / 2) ≠ 0 := Complex.Gamma_ne_zero_of_re_pos (by simp [hz])
  rw [eq_div_iff hsin] at hr
  have e1 : Complex.Gamma z = Complex.Gamma (z / 2) * Complex.Gamma (z / 2 + 1 / 2) /
      ((2 : ℂ) ^ (1 - z) * (Real.sqrt Real.pi : ℂ)) := by
    rw [eq_div_iff]
    · rw [hd]; ring
    · refine mul_ne_zero h2 ?_
      intro h
      rw [h, zero_mul] at hsp
      exact hpi hsp.symm
  rw [e1]
  have hs0 : (Real.sqrt Real.pi : ℂ) ≠ 0 := by
    intro h
    rw [h, zero_mul] at hsp
    exact hpi hsp.symm
  generalize Complex.Gamma (z / 2 + 1 / 2) = a at *
  generalize Complex.Gamma (z / 2) = b at *
  generalize Complex.Gamma (1 - z / 2) = c at *
  generalize Complex.sin (Real.pi * (z / 2)) = d at *
  generalize (2 : ℂ) ^ (1 - z) = e at *
  field_simp
  linear_combination a * hsp - a * hr

private theorem mellin_one (t : ℝ) :
    Spec.besselMellin 1 t = Spec.besselMellin 0 t * Complex.exp (2 * I *
      ((Real.arctan (Real.tanh (Real.pi * t / 2)) - Real.arctan (2 * t) : ℝ) : ℂ)) := by
  set z : ℂ := 1 / 2 - I * t with hz
  have ha : Complex.Gamma (z / 2 + 1) = z / 2 * Complex.Gamma (z / 2) := by
    refine Complex.Gamma_add_one _ ?_
    intro h
    have := congrArg Complex.re h
    simp [hz] at this
  have hb : Complex.Gamma ((1 / 2 - z / 2) + 1) = (1 / 2 - z / 2) * Complex.Gamma (1 / 2 - z / 2) := by
    refine Complex.Gamma_add_one _ ?_
    intro h
    have := congrArg Complex.re h
    simp [hz] at this
    norm_num at this
  have hr := Complex.Gamma_mul_Gamma_one_sub (z / 2)
  have hr' := Complex.Gamma_mul_Gamma_one_sub (1 / 2 - z / 2)
  rw [show (1 : ℂ) - (1 / 2 - z / 2) = z / 2 + 1 / 2 by ring,
    show (Real.pi : ℂ) * (1 / 2 - z / 2) = Real.pi / 2 - Real.pi * z / 2 by ring, Complex.sin_pi_div_two_sub,
    cos_half] at hr'
  rw [show (Real.pi : ℂ) * (z / 2) = Real.pi * z / 2 by ring, sin_half] at hr
  have hg1 : Complex.Gamma (1 - z / 2) ≠ 0 := Complex.Gamma_ne_zero_of_re_pos (by simp [hz]; try norm_num)
  have hg2 : Complex.Gamma (z / 2 + 1 / 2) ≠ 0 := Complex.Gamma_ne_zero_of_re_pos (by simp [hz]; try norm_num)
  have hg3 : Complex.Gamma (z / 2) ≠ 0 := Complex.Gamma_ne_zero_of_re_pos (by simp [hz])
  have hg4 : Complex.Gamma (1 / 2 - z / 2) ≠ 0 := Complex.Gamma_ne_zero_of_re_pos (by simp [hz]; try norm_num)
  have hC : (Real.cosh (Real.pi * t / 2) : ℂ) ≠ 0 := by exact_mod_cast (Real.cosh_pos _).ne'
  have hx : (Real.tanh (Real.pi * t / 2) : ℂ) = (Real.sinh (Real.pi * t / 2) : ℂ) / (Real.cosh (Real.pi * t / 2) : ℂ) := by
    rw [Real.tanh_eq_sinh_div_cosh]; push_cast; rfl
  rw [Complex.ofReal_sub, mul_sub, Complex.exp_sub, exp_two_arctan, exp_two_arctan, hx]
  unfold Spec.besselMellin
  simp only
  rw [show ((0 : ℕ) : ℂ) = 0 from Nat.cast_zero, show ((1 : ℕ) : ℂ) = 1 from Nat.cast_one]
  rw [show (0 + (3 / 2 - I * (t : ℂ))) / 2 = z / 2 + 1 / 2 by rw [hz]; ring,
    show (3 + 0 - (3 / 2 - I * (t : ℂ))) / 2 = 1 - z / 2 by rw [hz]; ring,
    show (1 + (3 / 2 - I * (t : ℂ))) / 2 = z / 2 + 1 by rw [hz]; ring,
    show (3 + 1 - (3 / 2 - I * (t : ℂ))) / 2 = (1 / 2 - z / 2) + 1 by rw [hz]; ring, ha, hb]
  set Ch : ℂ := (Real.cosh (Real.pi * t / 2) : ℂ) with hCh
  set Sh : ℂ := (Real.sinh (Real.pi * t / 2) : ℂ) with hSh
  have hCS : Ch - I * Sh ≠ 0 := by
    intro h
    have := congrArg Complex.re h
    rw [hCh, hSh, Complex.sub_re, Complex.mul_re, Complex.I_re, Complex.I_im, Complex.ofReal_re,
      Complex.ofReal_im, Complex.ofReal_re, Complex.zero_re] at this
    simp only [zero_mul, mul_zero, sub_zero] at this
    exact (Real.cosh_pos _).ne' this
  have hCS' : Ch + I * Sh ≠ 0 := by
    intro h
    have := congrArg Complex.re h
    rw [hCh, hSh, Complex.add_re, Complex.mul_re, Complex.I_re, Complex.I_im, Complex.ofReal_re,
      Complex.ofReal_im, Complex.ofReal_re, Complex.zero_re] at this
    simp only [zero_mul, mul_zero, sub_zero, add_zero] at this
    exact (Real.cosh_pos _).ne' this
  have hzz : (1 : ℂ) / 2 - z / 2 ≠ 0 := by
    intro h
    have := congrArg Complex.re h
    simp [hz] at this
    norm_num at this
  have hz0 : z ≠ 0 := by
    intro h
    have := congrArg Complex.re h
    simp [hz] at this
  have h2t : (1 : ℂ) - I * ((2 * t : ℝ) : ℂ) = 2 * z := by rw [hz]; push_cast; ring
  have h2t' : (1 : ℂ) + I * ((2 * t : ℝ) : ℂ) = 2 * (1 - z) := by rw [hz]; push_cast; ring
  rw [h2t, h2t']
  have hs2 : ((Real.sqrt 2 / 2 : ℝ) : ℂ) ≠ 0 := by
    have : 0 < Real.sqrt 2 := Real.sqrt_pos.mpr (by norm_num)
    exact_mod_cast (by positivity : (0 : ℝ) < Real.sqrt 2 / 2).ne'
  rw [eq_div_iff (mul_ne_zero hs2 hCS)] at hr
  rw [eq_div_iff (mul_ne_zero hs2 hCS')] at hr'
  have h1z : (1 : ℂ) - z ≠ 0 := by
    intro h
    apply hzz
    linear_combination h / 2
  have key : Complex.Gamma (z / 2) * Complex.Gamma (1 - z / 2) * (Ch - I * Sh)
      = Complex.Gamma (1 / 2 - z / 2) * Complex.Gamma (z / 2 + 1 / 2) * (Ch + I * Sh) := by
    refine mul_left_cancel₀ hs2 ?_
    linear_combination hr - hr'
  have ht : (1 + I * (Sh / Ch)) / (1 - I * (Sh / Ch)) = (Ch + I * Sh) / (Ch - I * Sh) := by
    have h3 : 1 - I * (Sh / Ch) ≠ 0 := by
      intro h
      apply hCS
      field_simp at h
      linear_combination h
    field_simp
  rw [ht]
  have e : Complex.Gamma (z / 2) / Complex.Gamma (1 / 2 - z / 2)
      = Complex.Gamma (z / 2 + 1 / 2) / Complex.Gamma (1 - z / 2) * ((Ch + I * Sh) / (Ch - I * Sh)) := by
    rw [div_mul_div_comm, div_eq_div_iff hg4 (mul_ne_zero hg1 hCS)]
    linear_combination key
  calc _ = (Real.sqrt Real.pi : ℂ) * 2 ^ (3 / 2 - I * (t : ℂ) - 2) * (z / 2 / (1 / 2 - z / 2)) *
        (Complex.Gamma (z / 2) / Complex.Gamma (1 / 2 - z / 2)) := by
        field_simp
    _ = _ := by
        rw [e]
        rw [show z / 2 / (1 / 2 - z / 2) = z / (1 - z) by field_simp]
        field_simp

private theorem mellin_step (l : ℕ) (t : ℝ) :
    Spec.besselMellin (l + 2) t = Complex.exp (-2 * I *
      (Real.arctan (2 * t / (2 * ((l + 1 : ℕ) : ℝ) + 1)) : ℂ)) * Spec.besselMellin l t := by
  set x : ℝ := 2 * t / (2 * ((l + 1 : ℕ) : ℝ) + 1) with hx
  have he : Complex.exp (-2 * I * (Real.arctan x : ℂ)) = (1 - I * x) / (1 + I * x) := by
    have := exp_two_arctan (-x)
    rw [Real.arctan_neg] at this
    push_cast at this
    rw [show -2 * I * (Real.arctan x : ℂ) = 2 * I * -(Real.arctan x : ℂ) by ring, this]
    ring
  rw [he]
  unfold Spec.besselMellin
  simp only
  set s : ℂ := 3 / 2 - I * (t : ℂ) with hs
  have hl : (0 : ℝ) ≤ l := Nat.cast_nonneg l
  have h1 : ((l : ℂ) + s) / 2 ≠ 0 := by
    intro h
    have := congrArg Complex.re h
    simp [hs] at this
    linarith
  have h2 : (3 + (l : ℂ) - s) / 2 ≠ 0 := by
    intro h
    have := congrArg Complex.re h
    simp [hs] at this
    linarith
  have hg : Complex.Gamma ((3 + (l : ℂ) - s) / 2) ≠ 0 := by
    refine Complex.Gamma_ne_zero_of_re_pos ?_
    simp [hs]
    linarith
  rw [show (((l + 2 : ℕ) : ℂ) + s) / 2 = ((l : ℂ) + s) / 2 + 1 by push_cast; ring,
    show (3 + ((l + 2 : ℕ) : ℂ) - s) / 2 = (3 + (l : ℂ) - s) / 2 + 1 by push_cast; ring,
    Complex.Gamma_add_one _ h1, Complex.Gamma_add_one _ h2]
  have hd : (2 * ((l + 1 : ℕ) : ℝ) + 1) ≠ 0 := by positivity
  have hd' : (2 * ((l : ℂ) + 1) + 1) ≠ 0 := by
    have : ((2 * ((l + 1 : ℕ) : ℝ) + 1 : ℝ) : ℂ) ≠ 0 := by exact_mod_cast hd
    push_cast at this
    exact this
  have hq : (1 - I * (x : ℂ)) / (1 + I * (x : ℂ)) = (((l : ℂ) + s) / 2) / ((3 + (l : ℂ) - s) / 2) := by
    have h3 : (1 : ℂ) + I * (x : ℂ) ≠ 0 := by
      intro h
      have := congrArg Complex.re h
      simp at this
    rw [div_eq_div_iff h3 h2, hx, hs]
    push_cast
    field_simp
    ring
  rw [hq]
  field_simp

/-- The modulus of the Mellin transform. -/
theorem besselMellin_norm (l : ℕ) (t : ℝ) : ‖Spec.besselMellin l t‖ ^ 2 = Real.pi / 2 := by
  unfold Spec.besselMellin
  simp only
  set s : ℂ := 3 / 2 - I * (t : ℂ) with hs
  have hl : (0 : ℝ) ≤ l := Nat.cast_nonneg l
  have hc : (3 + (l : ℂ) - s) / 2 = conj (((l : ℂ) + s) / 2) := by
    rw [hs]
    simp [map_ofNat]
    ring
  have hg : Complex.Gamma (((l : ℂ) + s) / 2) ≠ 0 := by
    refine Complex.Gamma_ne_zero_of_re_pos ?_
    simp [hs]
    linarith
  have h2 : ‖(2 : ℂ) ^ (s - 2)‖ = (2 : ℝ) ^ (-(1 / 2) : ℝ) := by
    rw [show (2 : ℂ) = ((2 : ℝ) : ℂ) by norm_num, Complex.norm_cpow_eq_rpow_re_of_pos (by norm_num)]
    congr 1
    rw [hs]
    simp
    norm_num
  rw [hc, Complex.Gamma_conj, norm_div, norm_mul, norm_mul, Complex.norm_conj, h2,
    mul_div_cancel_right₀ _ (norm_ne_zero_iff.mpr hg), mul_pow, Complex.norm_real, Real.norm_eq_abs, sq_abs,
    Real.sq_sqrt Real.pi_pos.le, ← Real.rpow_natCast, ← Real.rpow_mul (by norm_num)]
  norm_num [Real.rpow_neg_one]
  ring

/-- The table `M_lt1` is the Mellin transform of the spherical Bessel function, times the phase of the two
meshes, divided by the number of frequencies, halved at frequency zero. -/
theorem mlt1_eq (S : SbtMesh) (l m : ℕ) :
    S.mlt1 l m = (if m = 0 then 1 / 2 else 1) * Spec.besselMellin l (S.tt m) / (S.nr : ℂ) *
      Complex.exp (I * (S.tt m : ℂ) * ((S.kappaMin + S.rhoMin : ℝ) : ℂ)) := by
  induction l using Nat.twoStepInduction with
  | zero =>
    unfold SbtMesh.mlt1
    simp only
    rw [show ((0.5 : ℂ)) = 1 / 2 by norm_num, mellin_zero_forms, ← mellin_zero]
    split_ifs <;> ring
  | one =>
    unfold SbtMesh.mlt1
    simp only
    rw [mellin_one]
    unfold SbtMesh.mlt1
    simp only
    rw [show ((0.5 : ℂ)) = 1 / 2 by norm_num, mellin_zero_forms, ← mellin_zero]
    split_ifs <;> ring
  | more l ih _ =>
    rw [show S.mlt1 (l + 2) m = Complex.exp (-2 * I *
      (Real.arctan (2 * S.tt m / (2 * ((l + 1 : ℕ) : ℝ) + 1)) : ℂ)) * S.mlt1 l m by rw [SbtMesh.mlt1]]
    rw [ih, mellin_step]
    ring

private theorem exp_zpow (x : ℝ) (n : ℤ) : Real.exp x ^ n = Real.exp (n * x) := by
  rw [← Real.rpow_intCast, ← Real.exp_mul, mul_comm]

/-- A logarithmic mesh of at least two positive radii and a positive largest wave number. -/
structure LogMesh (S : SbtMesh) (r0 h : ℝ) : Prop where
  two : 2 ≤ S.nr
  pos : 0 < r0
  step : h ≠ 0
  kpos : 0 < S.kmax
  log : ∀ i, i < S.nr → S.rr i = r0 * Real.exp (i * h)

namespace LogMesh
variable {S : SbtMesh} {r0 h : ℝ}

theorem rr_zero (H : LogMesh S r0 h) : S.rr 0 = r0 := by
  rw [H.log 0 (by have := H.two; omega)]; simp

theorem drho_eq (H : LogMesh S r0 h) : S.drho = h := by
  have h2 := H.two
  unfold SbtMesh.drho meshStep
  rw [H.rr_zero, H.log (S.nr - 1) (by omega), Real.log_mul H.pos.ne' (Real.exp_pos _).ne', Real.log_exp,
    Nat.cast_sub (by omega)]
  have : (S.nr : ℝ) - 1 ≠ 0 := by
    have : (2 : ℝ) ≤ S.nr := by exact_mod_cast h2
    linarith
  push_cast
  field_simp
  ring

theorem rhoMin_eq (H : LogMesh S r0 h) : S.rhoMin = Real.log r0 := by
  unfold SbtMesh.rhoMin; rw [H.rr_zero]

theorem log_rr (H : LogMesh S r0 h) (i : ℕ) (hi : i < S.nr) : Real.log (S.rr i) = Real.log r0 + i * h := by
  rw [H.log i hi, Real.log_mul H.pos.ne' (Real.exp_pos _).ne', Real.log_exp]

theorem kk_eq (H : LogMesh S r0 h) (j : ℕ) : S.kk j = Real.exp (S.kappaMin + j * h) := by
  unfold SbtMesh.kk
  rw [H.drho_eq, Real.exp_add]

theorem log_kk (H : LogMesh S r0 h) (j : ℕ) : Real.log (S.kk j) = S.kappaMin + j * h := by
  rw [H.kk_eq, Real.log_exp]

theorem tt_eq (H : LogMesh S r0 h) (m : ℕ) : S.tt m = Real.pi * m / (S.nr * h) := by
  unfold SbtMesh.tt
  rw [H.drho_eq]
  have h2 : (0 : ℝ) < S.nr := by have := H.two; exact_mod_cast (by omega : 0 < S.nr)
  have := H.step
  push_cast
  field_simp

theorem rr15Ext_eq (H : LogMesh S r0 h) (i : ℕ) : S.rr15Ext i = Real.exp (3 / 2 * (((i : ℝ) - S.nr) * h)) := by
  unfold SbtMesh.rr15Ext SbtMesh.rrExt
  rw [H.rr_zero, H.drho_eq, Real.mul_rpow H.pos.le (Real.exp_pos _).le,
    mul_div_cancel_left₀ _ (Real.rpow_pos_of_pos H.pos _).ne', ← Real.exp_mul]
  congr 1
  ring

theorem rr15_eq (H : LogMesh S r0 h) (i : ℕ) (hi : i < S.nr) : S.rr15 i = Real.exp (3 / 2 * (i * h)) := by
  unfold SbtMesh.rr15
  rw [H.rr_zero, H.log i hi, Real.mul_rpow H.pos.le (Real.exp_pos _).le,
    mul_div_cancel_left₀ _ (Real.rpow_pos_of_pos H.pos _).ne', ← Real.exp_mul]
  congr 1
  ring

theorem rr_exp (H : LogMesh S r0 h) (i : ℕ) (hi : i < S.nr) : S.rr i = Real.exp (Real.log r0 + i * h) := by
  rw [← H.log_rr i hi, Real.exp_log]
  rw [H.log i hi]
  exact mul_pos H.pos (Real.exp_pos _)

/-- `xx` at the sum of two positions is the product of a radius and a wave number. -/
theorem xx_eq (H : LogMesh S r0 h) (i j : ℕ) (hi : i < S.nr) : S.xx (i + j) = S.rr i * S.kk j := by
  unfold SbtMesh.xx
  rw [H.rr_exp i hi, H.kk_eq, ← Real.exp_add, H.rhoMin_eq, H.drho_eq]
  congr 1
  push_cast
  ring

end LogMesh

/-- The large-`k` branch, with the input written as `F · exp(3/2 (log r - log r₀))`. -/
private theorem large_core {S : SbtMesh} {r0 h : ℝ} (H : LogMesh S r0 h) (F inp : ℕ → ℝ)
    (hinp : ∀ p < 2 * S.nr, inp p = F p * Real.exp (3 / 2 * (((p : ℝ) - S.nr) * h))) (a b : ℝ)
    (hab : a + b = S.kappaMin + S.rhoMin) (row j : ℕ) :
    (Real.exp (3 / 2 * a) : ℂ) * (ifft (2 * S.nr) (fun m => if m < S.nr then conj (rfft (2 * S.nr) inp m) * S.mlt1 row m
        else 0) (S.nr + j) * ((2 * S.nr : ℕ) : ℂ))
      = (1 / (S.nr : ℂ)) * ∑ m ∈ Finset.range S.nr, (if m = 0 then 1 / 2 else 1) *
          Spec.besselMellin row (Real.pi * m / (S.nr * h)) *
          ∑ p ∈ Finset.range (2 * S.nr), ((F p * Real.exp (3 / 2 * Spec.logMesh h a S.nr p) : ℝ) : ℂ) *
            Complex.exp (I * ((Real.pi * m / (S.nr * h) * (Spec.logMesh h a S.nr p + (b + j * h)) : ℝ) : ℂ)) := by
  have hn : S.nr ≠ 0 := by have := H.two; omega
  have hnc : (S.nr : ℂ) ≠ 0 := by exact_mod_cast hn
  have hN : ((2 * S.nr : ℕ) : ℂ) ≠ 0 := by exact_mod_cast (by omega : 2 * S.nr ≠ 0)
  have hh : (h : ℂ) ≠ 0 := by exact_mod_cast H.step
  unfold ifft
  rw [div_mul_cancel₀ _ hN]
  have hsub : ∑ m ∈ Finset.range (2 * S.nr), (if m < S.nr then conj (rfft (2 * S.nr) inp m) * S.mlt1 row m else 0) *
        Complex.exp (2 * Real.pi * I * ((m : ℂ) * ((S.nr + j : ℕ) : ℂ) / ((2 * S.nr : ℕ) : ℂ)))
      = ∑ m ∈ Finset.range S.nr, conj (rfft (2 * S.nr) inp m) * S.mlt1 row m * wN (2 * S.nr) m (S.nr + j) := by
    refine (Finset.sum_subset (fun x hx => ?_) fun x _ hx => ?_).symm.trans
      (Finset.sum_congr rfl fun m hm => ?_)
    · have := Finset.mem_range.mp hx
      exact Finset.mem_range.mpr (by omega)
    · rw [if_neg (fun h => hx (Finset.mem_range.mpr h)), zero_mul]
    · rw [if_pos (Finset.mem_range.mp hm)]
      rfl
  rw [hsub, Finset.mul_sum, Finset.mul_sum]
  refine Finset.sum_congr rfl fun m _ => ?_
  rw [rfft_conj, mlt1_eq, H.tt_eq, ← hab]
  set c : ℂ := if m = 0 then 1 / 2 else 1
  set M := Spec.besselMellin row (Real.pi * m / (S.nr * h))
  rw [show (Real.exp (3 / 2 * a) : ℂ) * ((∑ p ∈ Finset.range (2 * S.nr), (inp p : ℂ) * wN (2 * S.nr) m p) *
      (c * M / (S.nr : ℂ) * Complex.exp (I * ((Real.pi * m / (S.nr * h) : ℝ) : ℂ) * ((a + b : ℝ) : ℂ))) *
        wN (2 * S.nr) m (S.nr + j))
    = 1 / (S.nr : ℂ) * (c * M * ((∑ p ∈ Finset.range (2 * S.nr), (inp p : ℂ) * wN (2 * S.nr) m p) *
      ((Real.exp (3 / 2 * a) : ℂ) * (Complex.exp (I * ((Real.pi * m / (S.nr * h) : ℝ) : ℂ) * ((a + b : ℝ) : ℂ)) *
        wN (2 * S.nr) m (S.nr + j))))) by ring]
  congr 2
  rw [Finset.sum_mul]
  refine Finset.sum_congr rfl fun p hp => ?_
  rw [hinp p (Finset.mem_range.mp hp)]
  have h1 : ((F p * Real.exp (3 / 2 * Spec.logMesh h a S.nr p) : ℝ) : ℂ)
      = ((F p * Real.exp (3 / 2 * (((p : ℝ) - S.nr) * h)) : ℝ) : ℂ) * (Real.exp (3 / 2 * a) : ℂ) := by
    rw [← Complex.ofReal_mul]
    congr 1
    rw [mul_assoc, ← Real.exp_add]
    congr 2
    unfold Spec.logMesh
    ring
  have h2 : wN (2 * S.nr) m p * (Complex.exp (I * ((Real.pi * m / (S.nr * h) : ℝ) : ℂ) * ((a + b : ℝ) : ℂ)) *
        wN (2 * S.nr) m (S.nr + j))
      = Complex.exp (I * ((Real.pi * m / (S.nr * h) * (Spec.logMesh h a S.nr p + (b + j * h)) : ℝ) : ℂ)) := by
    unfold wN
    rw [← Complex.exp_add, ← Complex.exp_add, ← mul_one (Complex.exp (I * _)),
      ← Complex.exp_nat_mul_two_pi_mul_I m, ← Complex.exp_add]
    congr 1
    unfold Spec.logMesh
    push_cast
    field_simp
    ring
  rw [h1, ← h2]
  ring

/-- The large-`k` branch of the forward transform is the Mellin-space sum of the input continued by its
power law. -/
theorem sbtLarge_forward {S : SbtMesh} {r0 h : ℝ} (H : LogMesh S r0 h) (norm : Bool) (npl : ℤ) (row : ℕ)
    (ff : Samples) (j : ℕ) :
    sbtLarge S .forward norm npl row ff j = sbtPrefactor norm *
      Spec.talman row h (Real.log r0) S.nr (Spec.continued h npl S.nr ff) (Real.log (S.kk j)) := by
  have hin : ∀ p < 2 * S.nr, sbtLargeIn S .forward npl ff p
      = Spec.continued h npl S.nr ff p * Real.exp (3 / 2 * (((p : ℝ) - S.nr) * h)) := by
    intro p hp
    unfold sbtLargeIn Spec.continued
    simp only
    split_ifs with hlt
    · rw [H.rr15Ext_eq, SbtMesh.rrExt, H.rr_zero, H.drho_eq, mul_zpow, exp_zpow]
      have := zpow_ne_zero npl H.pos.ne'
      field_simp
    · rw [H.rr15_eq _ (by omega), Nat.cast_sub (by omega)]
  have hab : Real.log r0 + S.kappaMin = S.kappaMin + S.rhoMin := by rw [H.rhoMin_eq]; ring
  have key := large_core H _ _ hin (Real.log r0) S.kappaMin hab row j
  unfold sbtLarge Spec.talman
  simp only
  rw [H.log_kk, ← key, Complex.re_ofReal_mul]
  have hr : (S.rr 0 / S.kk 0) ^ (1.5 : ℝ) * S.postDiv j
      = Real.exp (-(3 / 2) * (S.kappaMin + j * h)) * Real.exp (3 / 2 * Real.log r0) := by
    rw [H.rr_exp 0 (by have := H.two; omega), H.kk_eq, ← Real.exp_sub, ← Real.exp_mul, SbtMesh.postDiv, H.drho_eq,
      ← Real.exp_add, ← Real.exp_add]
    congr 1
    push_cast
    ring
  linear_combination (sbtPrefactor norm) * (ifft (2 * S.nr) (fun m => if m < S.nr then
    conj (rfft (2 * S.nr) (sbtLargeIn S .forward npl ff) m) * S.mlt1 row m else 0) (S.nr + j) *
      ((2 * S.nr : ℕ) : ℂ)).re * hr

/-- The large-`k` branch of the inverse transform: the continuation below the mesh is scaled by
`(r₀/k₀)^e`. -/
theorem sbtLarge_inverse {S : SbtMesh} {r0 h : ℝ} (H : LogMesh S r0 h) (norm : Bool) (npl : ℤ) (row : ℕ)
    (ff : Samples) (j : ℕ) (hj : j < S.nr) :
    sbtLarge S .inverse norm npl row ff j = sbtPrefactor norm *
      Spec.talman row h (Real.log (S.kk 0)) S.nr (fun p => (if p < S.nr then (S.rr 0 / S.kk 0) ^ npl else 1) *
        Spec.continued h npl S.nr ff p) (Real.log (S.rr j)) := by
  have hk0 : 0 < S.kk 0 := by rw [H.kk_eq]; exact Real.exp_pos _
  have hin : ∀ p < 2 * S.nr, sbtLargeIn S .inverse npl ff p
      = ((if p < S.nr then (S.rr 0 / S.kk 0) ^ npl else 1) * Spec.continued h npl S.nr ff p) *
        Real.exp (3 / 2 * (((p : ℝ) - S.nr) * h)) := by
    intro p hp
    unfold sbtLargeIn Spec.continued
    simp only
    split_ifs with hlt
    · rw [H.rr15Ext_eq, SbtMesh.rrExt, H.rr_zero, H.drho_eq, mul_zpow, exp_zpow, div_zpow]
      have := zpow_ne_zero npl hk0.ne'
      field_simp
    · rw [H.rr15_eq _ (by omega), Nat.cast_sub (by omega), one_mul]
  have hk : Real.log (S.kk 0) = S.kappaMin := by rw [H.log_kk]; simp
  have hab : S.kappaMin + Real.log r0 = S.kappaMin + S.rhoMin := by rw [H.rhoMin_eq]
  have key := large_core H _ _ hin S.kappaMin (Real.log r0) hab row j
  unfold sbtLarge Spec.talman
  simp only
  rw [hk, H.log_rr j hj, ← key, Complex.re_ofReal_mul]
  have hr : (S.kk 0 / S.rr 0) ^ (1.5 : ℝ) * S.postDiv j
      = Real.exp (-(3 / 2) * (Real.log r0 + j * h)) * Real.exp (3 / 2 * S.kappaMin) := by
    rw [H.rr_exp 0 (by have := H.two; omega), H.kk_eq, ← Real.exp_sub, ← Real.exp_mul, SbtMesh.postDiv, H.drho_eq,
      ← Real.exp_add, ← Real.exp_add]
    congr 1
    push_cast
    ring
  linear_combination (sbtPrefactor norm) * (ifft (2 * S.nr) (fun m => if m < S.nr then
    conj (rfft (2 * S.nr) (sbtLargeIn S .inverse npl ff) m) * S.mlt1 row m else 0) (S.nr + j) *
      ((2 * S.nr : ℕ) : ℂ)).re * hr

/-- The small-`k` branch of the forward transform is the rectangle rule in `log r`. -/
theorem sbtSmall_forward {S : SbtMesh} {r0 h : ℝ} (H : LogMesh S r0 h) (jn : SphBessel) (norm : Bool) (row : ℕ)
    (ff : Samples) (j : ℕ) (hj : j < S.nr) :
    sbtSmall S jn .forward norm row ff j
      = sbtPrefactor norm * Spec.logRiemann (jn row) h S.nr S.rr ff (S.kk j) := by
  unfold sbtSmall SbtMesh.mlt2
  simp only
  rw [irfft_correlation S.nr (by have := H.two; omega) _ (fun p => jn row (S.xx p)) (fun p hp => by
    rw [if_neg (by omega)]) _ j hj, H.drho_eq]
  unfold Spec.logRiemann
  rw [mul_assoc, Finset.sum_mul]
  congr 1
  refine Finset.sum_congr rfl fun i hi => ?_
  have hi := Finset.mem_range.mp hi
  rw [if_pos hi, H.xx_eq i j hi, mul_comm (S.rr i) (S.kk j)]
  ring

/-- The small-`r` branch of the inverse transform. -/
theorem sbtSmall_inverse {S : SbtMesh} {r0 h : ℝ} (H : LogMesh S r0 h) (jn : SphBessel) (norm : Bool) (row : ℕ)
    (ff : Samples) (j : ℕ) (hj : j < S.nr) :
    sbtSmall S jn .inverse norm row ff j
      = sbtPrefactor norm * Spec.logRiemann (jn row) h S.nr S.kk ff (S.rr j) := by
  unfold sbtSmall SbtMesh.mlt2
  simp only
  rw [irfft_correlation S.nr (by have := H.two; omega) _ (fun p => jn row (S.xx p)) (fun p hp => by
    rw [if_neg (by omega)]) _ j hj, H.drho_eq]
  unfold Spec.logRiemann
  rw [mul_assoc, Finset.sum_mul]
  congr 1
  refine Finset.sum_congr rfl fun i hi => ?_
  have hi := Finset.mem_range.mp hi
  rw [if_pos hi, add_comm i j, H.xx_eq j i hj]
  ring

/-- `np.argmin` returns the first smallest position. -/
theorem argminUpTo_spec (x : ℕ → ℝ) (n : ℕ) : Spec.IsFirstMin (n + 1) x (argminUpTo x n) := by
  induction n with
  | zero =>
    refine ⟨by simp [argminUpTo], fun j hj => ?_, fun j hj => ?_⟩
    · rw [show j = 0 by omega]; simp [argminUpTo]
    · simp [argminUpTo] at hj
  | succ n ih =>
    obtain ⟨h1, h2, h3⟩ := ih
    unfold argminUpTo
    split_ifs with h
    · refine ⟨by omega, fun j hj => ?_, fun j hj => lt_of_lt_of_le h (h2 j hj)⟩
      rcases (by omega : j < n + 1 ∨ j = n + 1) with hj' | rfl
      · exact h.le.trans (h2 j hj')
      · exact le_rfl
    · refine ⟨by omega, fun j hj => ?_, h3⟩
      rcases (by omega : j < n + 1 ∨ j = n + 1) with hj' | rfl
      · exact h2 j hj'
      · exact not_lt.mp h

theorem isFirstMin_unique {n : ℕ} {x : ℕ → ℝ} {i j : ℕ} (hi : Spec.IsFirstMin n x i) (hj : Spec.IsFirstMin n x j) :
    i = j := by
  rcases lt_trichotomy i j with h | h | h
  · exact absurd (hj.2.2 i h) (not_lt.mpr (hi.2.1 j hj.1))
  · exact h
  · exact absurd (hi.2.2 j h) (not_lt.mpr (hj.2.1 i hi.1))

/-- The discrete Plancherel bound for the Mellin-space sum. -/
theorem talman_bound (l : ℕ) (h ρ₀ κ₀ : ℝ) (hh : h ≠ 0) (nr : ℕ) (hnr : 0 < nr) (F : ℕ → ℝ) :
    ∑ j ∈ Finset.range nr, Real.exp (κ₀ + j * h) ^ 3 * Spec.talman l h ρ₀ nr F (κ₀ + j * h) ^ 2
      ≤ Real.pi / 2 * ∑ p ∈ Finset.range (2 * nr), Real.exp (Spec.logMesh h ρ₀ nr p) ^ 3 * F p ^ 2 := by
  set N := 2 * nr with hN
  have hN0 : N ≠ 0 := by omega
  have hNpos : (0 : ℝ) < N := by exact_mod_cast (by omega : 0 < N)
  have hnpos : (0 : ℝ) < nr := by exact_mod_cast hnr
  have hnc : (nr : ℂ) ≠ 0 := by exact_mod_cast hnr.ne'
  have hhc : (h : ℂ) ≠ 0 := by exact_mod_cast hh
  set w : ℕ → ℝ := fun p => F p * Real.exp (3 / 2 * Spec.logMesh h ρ₀ nr p) with hw
  set u : ℕ → ℂ := fun m => Spec.besselMellin l (Real.pi * m / (nr * h)) *
    Complex.exp (I * ((Real.pi * m / (nr * h) * (ρ₀ + κ₀) : ℝ) : ℂ)) with hu
  have hun : ∀ m, ‖u m‖ ^ 2 = Real.pi / 2 := by
    intro m
    simp only [hu]
    rw [norm_mul, mul_comm I, Complex.norm_exp_ofReal_mul_I, mul_one, besselMellin_norm]
  set W : ℕ → ℂ := fun m => ∑ p ∈ Finset.range N, (w p : ℂ) * wN N m p with hW
  set U : ℕ → ℂ := fun m => if m < nr then u m else if m = nr then 0 else conj (u (N - m)) with hU
  have hUn : ∀ m, ‖U m‖ ^ 2 ≤ Real.pi / 2 := by
    intro m
    simp only [hU]
    split_ifs
    · exact (hun m).le
    · rw [norm_zero]
      have := Real.pi_pos
      norm_num
      positivity
    · rw [Complex.norm_conj]; exact (hun _).le
  have hWneg : ∀ m, m ≤ N → W (N - m) = conj (W m) := by
    intro m hm
    simp only [hW]
    rw [map_sum]
    refine Finset.sum_congr rfl fun p _ => ?_
    rw [wN_neg N m p hN0 hm, map_mul, Complex.conj_ofReal]
  set Q : ℕ → ℂ := fun q => (∑ m ∈ Finset.range N, U m * W m * wN N m q) / (N : ℂ) with hQ
  -- the scaled values are the real parts of `Q`
  have hval : ∀ j : ℕ, Real.exp (3 / 2 * (κ₀ + j * h)) * Spec.talman l h ρ₀ nr F (κ₀ + j * h) = (Q (nr + j)).re := by
    intro j
    unfold Spec.talman
    rw [← mul_assoc, ← Real.exp_add, show 3 / 2 * (κ₀ + j * h) + -(3 / 2) * (κ₀ + j * h) = 0 by ring, Real.exp_zero,
      one_mul]
    have hterm : ∀ m : ℕ, (if m = 0 then (1 : ℂ) / 2 else 1) * Spec.besselMellin l (Real.pi * m / (nr * h)) *
        ∑ p ∈ Finset.range N, ((F p * Real.exp (3 / 2 * Spec.logMesh h ρ₀ nr p) : ℝ) : ℂ) *
          Complex.exp (I * ((Real.pi * m / (nr * h) * (Spec.logMesh h ρ₀ nr p + (κ₀ + j * h)) : ℝ) : ℂ))
        = (if m = 0 then (1 : ℂ) / 2 else 1) * (u m * W m * wN N m (nr + j)) := by
      intro m
      rw [mul_assoc]
      congr 1
      simp only [hu, hW]
      rw [mul_assoc, mul_assoc]
      congr 1
      rw [Finset.sum_mul, Finset.mul_sum]
      refine Finset.sum_congr rfl fun p _ => ?_
      have h2 : Complex.exp (I * ((Real.pi * m / (nr * h) * (ρ₀ + κ₀) : ℝ) : ℂ)) * (wN N m p * wN N m (nr + j))
          = Complex.exp (I * ((Real.pi * m / (nr * h) * (Spec.logMesh h ρ₀ nr p + (κ₀ + j * h)) : ℝ) : ℂ)) := by
        unfold wN
        rw [← Complex.exp_add, ← Complex.exp_add, ← mul_one (Complex.exp (I * ((_ * (Spec.logMesh _ _ _ _ + _) : ℝ) : ℂ))),
          ← Complex.exp_nat_mul_two_pi_mul_I m, ← Complex.exp_add]
        congr 1
        unfold Spec.logMesh
        rw [hN]
        push_cast
        field_simp
        ring
      rw [← h2]
      simp only [hw]
      ring
    rw [Finset.sum_congr rfl fun m _ => hterm m]
    simp only [hQ]
    rw [show ((N : ℂ)) = ((N : ℝ) : ℂ) by push_cast; rfl, Complex.div_ofReal_re, Complex.re_sum, hN,
      sum_range_symm nr hnr (fun m => (U m * W m * wN (2 * nr) m (nr + j)).re) ?_]
    · rw [show (1 : ℂ) / (nr : ℂ) = ((1 / nr : ℝ) : ℂ) by push_cast; rfl, Complex.re_ofReal_mul, Complex.re_sum]
      have hr : Finset.range nr = insert 0 (Finset.Ico 1 nr) := by
        ext x
        simp only [Finset.mem_range, Finset.mem_insert, Finset.mem_Ico]
        omega
      rw [hr, Finset.sum_insert (by simp)]
      have h0 : U 0 = u 0 := by simp only [hU]; rw [if_pos hnr]
      have hnU : U nr = 0 := by simp [hU]
      have hrest : ∑ m ∈ Finset.Ico 1 nr, ((if m = 0 then (1 : ℂ) / 2 else 1) * (u m * W m * wN N m (nr + j))).re
          = ∑ m ∈ Finset.Ico 1 nr, (U m * W m * wN (2 * nr) m (nr + j)).re := by
        refine Finset.sum_congr rfl fun m hm => ?_
        have hm := Finset.mem_Ico.mp hm
        rw [if_neg (by omega), one_mul]
        simp only [hU]
        rw [if_pos hm.2]
      rw [hrest, if_pos rfl, h0, hnU, show (1 : ℂ) / 2 = ((1 / 2 : ℝ) : ℂ) by push_cast; rfl, Complex.re_ofReal_mul]
      simp only [zero_mul, Complex.zero_re, add_zero]
      push_cast
      rw [← hN]
      field_simp
    · intro m hm0 hm
      have hUc : U (2 * nr - m) = conj (U m) := by
        simp only [hU]
        rw [if_neg (by omega), if_neg (by omega), if_pos hm]
        congr 2
        omega
      show (U (2 * nr - m) * W (2 * nr - m) * wN (2 * nr) (2 * nr - m) (nr + j)).re = _
      rw [hUc, ← hN, hWneg m (by omega), wN_neg N m _ hN0 (by omega), ← map_mul, ← map_mul, Complex.conj_re]
  have hsq : ∀ x y : ℝ, Real.exp x ^ 3 * y ^ 2 = (Real.exp (3 / 2 * x) * y) ^ 2 := by
    intro x y
    rw [mul_pow, ← Real.exp_nat_mul, ← Real.exp_nat_mul]
    congr 2
    push_cast
    ring
  have hlow : ∑ j ∈ Finset.range nr, Real.exp (κ₀ + j * h) ^ 3 * Spec.talman l h ρ₀ nr F (κ₀ + j * h) ^ 2
      ≤ ∑ q ∈ Finset.range N, ‖Q q‖ ^ 2 := by
    rw [hN, two_mul, Finset.sum_range_add]
    have h1 : ∑ j ∈ Finset.range nr, Real.exp (κ₀ + j * h) ^ 3 * Spec.talman l h ρ₀ nr F (κ₀ + j * h) ^ 2
        ≤ ∑ j ∈ Finset.range nr, ‖Q (nr + j)‖ ^ 2 := by
      refine Finset.sum_le_sum fun j _ => ?_
      rw [hsq, hval j]
      have := Complex.abs_re_le_norm (Q (nr + j))
      rw [← sq_abs]
      exact pow_le_pow_left₀ (abs_nonneg _) this 2
    have h2 : (0 : ℝ) ≤ ∑ q ∈ Finset.range nr, ‖Q q‖ ^ 2 := Finset.sum_nonneg fun _ _ => by positivity
    linarith
  refine hlow.trans ?_
  have hp := wN_parseval N (fun m => U m * W m)
  have hQn : ∀ q, ‖Q q‖ ^ 2 = ‖∑ m ∈ Finset.range N, U m * W m * wN N m q‖ ^ 2 / (N : ℝ) ^ 2 := by
    intro q
    simp only [hQ]
    rw [norm_div, div_pow, Complex.norm_natCast]
  rw [Finset.sum_congr rfl fun q _ => hQn q, ← Finset.sum_div, hp]
  have hW2 := wN_parseval N (fun p => (w p : ℂ))
  have hWsum : ∑ m ∈ Finset.range N, ‖W m‖ ^ 2 = N * ∑ p ∈ Finset.range N, w p ^ 2 := by
    rw [← Finset.sum_congr rfl fun p (_ : p ∈ Finset.range N) =>
      (show ‖(w p : ℂ)‖ ^ 2 = w p ^ 2 by rw [Complex.norm_real, Real.norm_eq_abs, sq_abs]), ← hW2]
    refine Finset.sum_congr rfl fun m _ => ?_
    simp only [hW]
    congr 2
    exact Finset.sum_congr rfl fun p _ => by rw [wN_comm]
  have hle : ∑ m ∈ Finset.range N, ‖U m * W m‖ ^ 2 ≤ Real.pi / 2 * ∑ m ∈ Finset.range N, ‖W m‖ ^ 2 := by
    rw [Finset.mul_sum]
    refine Finset.sum_le_sum fun m _ => ?_
    rw [norm_mul, mul_pow]
    exact mul_le_mul_of_nonneg_right (hUn m) (by positivity)
  have hfin : ∑ p ∈ Finset.range N, Real.exp (Spec.logMesh h ρ₀ nr p) ^ 3 * F p ^ 2 = ∑ p ∈ Finset.range N, w p ^ 2 := by
    refine Finset.sum_congr rfl fun p _ => ?_
    rw [hsq]
    simp only [hw]
    ring
  rw [hfin, div_le_iff₀ (by positivity)]
  calc (N : ℝ) * ∑ m ∈ Finset.range N, ‖U m * W m‖ ^ 2
      ≤ N * (Real.pi / 2 * ∑ m ∈ Finset.range N, ‖W m‖ ^ 2) := mul_le_mul_of_nonneg_left hle hNpos.le
    _ = _ := by rw [hWsum]; ring

end Jrystal
