import Mathlib.Analysis.Calculus.Deriv.Mul
import Mathlib.Analysis.Calculus.Deriv.Add
import Mathlib.Algebra.Order.Star.Real
import Mathlib.Analysis.Calculus.Deriv.Inv
import Mathlib.Analysis.Calculus.FDeriv.Mul
import Mathlib.LinearAlgebra.Matrix.PosDef
import Mathlib.LinearAlgebra.Trace
import Verif.Lemmas.Occupation
import Verif.Lemmas.Reach

/- The derivative of the projector onto the columns of a real matrix (C133). -/
namespace Jrystal
open scoped BigOperators Matrix
open Matrix

namespace IdemGrad
variable {N m : ℕ}

/-- The projector onto the columns. -/
noncomputable def proj (W : Matrix (Fin N) (Fin m) ℝ) : Matrix (Fin N) (Fin N) ℝ := W * (Wᵀ * W)⁻¹ * Wᵀ

theorem gram_real {W : Matrix (Fin N) (Fin m) ℝ} (hW : LinearIndependent ℝ W.col) : IsUnit (Wᵀ * W).det := by
  have hinj : Function.Injective W.mulVec := Matrix.mulVec_injective_iff.2 hW
  have := Matrix.PosDef.conjTranspose_mul_self W hinj
  rw [Matrix.conjTranspose_eq_transpose_of_trivial] at this
  exact (Matrix.isUnit_iff_isUnit_det _).1 this.isUnit

theorem inv_sym (W : Matrix (Fin N) (Fin m) ℝ) : ((Wᵀ * W)⁻¹)ᵀ = (Wᵀ * W)⁻¹ := by
  rw [Matrix.transpose_nonsing_inv, Matrix.transpose_mul, Matrix.transpose_transpose]

theorem proj_sym (W : Matrix (Fin N) (Fin m) ℝ) : (proj W)ᵀ = proj W := by
  unfold proj
  rw [Matrix.transpose_mul, Matrix.transpose_mul, Matrix.transpose_transpose, inv_sym, Matrix.mul_assoc]

theorem proj_mul {W : Matrix (Fin N) (Fin m) ℝ} (h : IsUnit (Wᵀ * W).det) : proj W * W = W := by
  unfold proj
  rw [Matrix.mul_assoc, Matrix.mul_assoc, Matrix.nonsing_inv_mul _ h, Matrix.mul_one]

theorem proj_idem {W : Matrix (Fin N) (Fin m) ℝ} (h : IsUnit (Wᵀ * W).det) : proj W * proj W = proj W := by
  conv_lhs => rw [show proj W * proj W = proj W * W * (Wᵀ * W)⁻¹ * Wᵀ by
    conv_lhs => rhs; unfold proj
    simp only [Matrix.mul_assoc]]
  rw [proj_mul h, proj]

/-- Every factorisation with orthonormal columns gives the same projector. -/
theorem proj_factor {m' : ℕ} (hm : m' = m) {W : Matrix (Fin N) (Fin m) ℝ} (h : IsUnit (Wᵀ * W).det)
    {Q : Matrix (Fin N) (Fin m') ℝ} (hQ : Qᵀ * Q = 1) {R : Matrix (Fin m') (Fin m) ℝ} (hR : W = Q * R) :
    Q * Qᵀ = proj W := by
  subst hm
  have hS : Wᵀ * W = Rᵀ * R := by
    rw [hR, Matrix.transpose_mul, Matrix.mul_assoc, ← Matrix.mul_assoc Qᵀ, hQ, Matrix.one_mul]
  have hdet : IsUnit R.det := by
    rw [hS, Matrix.det_mul] at h
    exact isUnit_of_mul_isUnit_right h
  have hdet' : IsUnit Rᵀ.det := by rwa [Matrix.det_transpose]
  unfold proj
  rw [hS, hR, Matrix.mul_inv_rev, Matrix.transpose_mul]
  calc Q * Qᵀ = Q * (R * R⁻¹) * (Rᵀ⁻¹ * Rᵀ) * Qᵀ := by
        rw [Matrix.mul_nonsing_inv _ hdet, Matrix.nonsing_inv_mul _ hdet', Matrix.mul_one, Matrix.mul_one]
    _ = _ := by simp only [Matrix.mul_assoc]

theorem det_diff {n : ℕ} {M : ℝ → Matrix (Fin n) (Fin n) ℝ} (h : ∀ i j, DifferentiableAt ℝ (fun t => M t i j) 0) :
    DifferentiableAt ℝ (fun t => (M t).det) 0 := by
  simp only [Matrix.det_apply]
  refine DifferentiableAt.fun_sum fun σ _ => ?_
  exact (DifferentiableAt.fun_finsetProd fun i _ => h _ _).const_smul _

theorem mul_diff {a b c : ℕ} {M : ℝ → Matrix (Fin a) (Fin b) ℝ} {M' : ℝ → Matrix (Fin b) (Fin c) ℝ}
    (h : ∀ i j, DifferentiableAt ℝ (fun t => M t i j) 0) (h' : ∀ i j, DifferentiableAt ℝ (fun t => M' t i j) 0)
    (i : Fin a) (j : Fin c) : DifferentiableAt ℝ (fun t => (M t * M' t) i j) 0 := by
  simp only [Matrix.mul_apply]
  exact DifferentiableAt.fun_sum fun x _ => (h _ _).mul (h' _ _)

theorem inv_diff {n : ℕ} {M : ℝ → Matrix (Fin n) (Fin n) ℝ} (h : ∀ i j, DifferentiableAt ℝ (fun t => M t i j) 0)
    (h0 : IsUnit (M 0).det) (i j : Fin n) : DifferentiableAt ℝ (fun t => (M t)⁻¹ i j) 0 := by
  simp only [Matrix.inv_def, Matrix.smul_apply, smul_eq_mul, Ring.inverse_eq_inv']
  refine (DifferentiableAt.inv (det_diff h) h0.ne_zero).mul ?_
  simp only [Matrix.adjugate_apply]
  refine det_diff fun a b => ?_
  simp only [Matrix.updateRow_apply]
  split
  · exact differentiableAt_const _
  · exact h _ _

theorem mul_deriv {a b c : ℕ} {M : ℝ → Matrix (Fin a) (Fin b) ℝ} {M' : ℝ → Matrix (Fin b) (Fin c) ℝ}
    {D : Matrix (Fin a) (Fin b) ℝ} {D' : Matrix (Fin b) (Fin c) ℝ}
    (h : ∀ i j, HasDerivAt (fun t => M t i j) (D i j) 0) (h' : ∀ i j, HasDerivAt (fun t => M' t i j) (D' i j) 0)
    (i : Fin a) (j : Fin c) : HasDerivAt (fun t => (M t * M' t) i j) ((D * M' 0 + M 0 * D') i j) 0 := by
  simp only [Matrix.mul_apply, Matrix.add_apply]
  rw [← Finset.sum_add_distrib]
  exact HasDerivAt.fun_sum fun x _ => (h _ _).mul (h' _ _)

/-- Half of the derivative of the projector. -/
noncomputable def half (W D : Matrix (Fin N) (Fin m) ℝ) : Matrix (Fin N) (Fin N) ℝ :=
  (1 - proj W) * D * (Wᵀ * W)⁻¹ * Wᵀ

/-- The derivative of the projector along a curve. -/
theorem proj_deriv {W : ℝ → Matrix (Fin N) (Fin m) ℝ} {D : Matrix (Fin N) (Fin m) ℝ}
    (hD : ∀ i j, HasDerivAt (fun t => W t i j) (D i j) 0) (h0 : IsUnit ((W 0)ᵀ * W 0).det) (i j : Fin N) :
    HasDerivAt (fun t => proj (W t) i j)
      ((half (W 0) D + (half (W 0) D)ᵀ) i j) 0 := by
  have dW : ∀ i j, DifferentiableAt ℝ (fun t => W t i j) 0 := fun i j => (hD i j).differentiableAt
  have dS : ∀ i j, DifferentiableAt ℝ (fun t => ((W t)ᵀ * W t) i j) 0 :=
    mul_diff (fun i j => dW j i) dW
  have dP : ∀ i j, DifferentiableAt ℝ (fun t => proj (W t) i j) 0 :=
    mul_diff (mul_diff dW (inv_diff dS h0)) (fun i j => dW j i)
  set P' : Matrix (Fin N) (Fin N) ℝ := fun i j => deriv (fun t => proj (W t) i j) 0 with hP'
  have hP : ∀ i j, HasDerivAt (fun t => proj (W t) i j) (P' i j) 0 := fun i j => (dP i j).hasDerivAt
  have hunit : ∀ᶠ t in nhds (0 : ℝ), IsUnit ((W t)ᵀ * W t).det := by
    have := (det_diff dS).continuousAt.eventually_ne h0.ne_zero
    filter_upwards [this] with t ht
    exact isUnit_iff_ne_zero.2 ht
  have e1 : P' * W 0 + proj (W 0) * D = D := by
    ext a b
    have h1 := mul_deriv hP hD a b
    refine h1.unique ((hD a b).congr_of_eventuallyEq ?_)
    filter_upwards [hunit] with t ht
    rw [proj_mul ht]
  have e2 : P' * proj (W 0) + proj (W 0) * P' = P' := by
    ext a b
    have h1 := mul_deriv hP hP a b
    refine h1.unique ((hP a b).congr_of_eventuallyEq ?_)
    filter_upwards [hunit] with t ht
    rw [proj_idem ht]
  have e3 : P'ᵀ = P' := by
    ext a b
    rw [Matrix.transpose_apply]
    refine (hP b a).unique ((hP a b).congr_of_eventuallyEq (Filter.Eventually.of_forall fun t => ?_))
    exact congrFun (congrFun (proj_sym (W t)) a) b
  have e4 : P' * proj (W 0) = half (W 0) D := by
    have : P' * W 0 = (1 - proj (W 0)) * D := by
      rw [Matrix.sub_mul, Matrix.one_mul]
      exact eq_sub_of_add_eq e1
    rw [half, ← this]
    conv_lhs => rhs; unfold proj
    simp only [Matrix.mul_assoc]
  have e5 : proj (W 0) * P' = (half (W 0) D)ᵀ := by
    rw [← e4, Matrix.transpose_mul, proj_sym, e3]
  rw [← e5, ← e4, e2]
  exact hP i j

/-- The gradient of a weighted trace of the projector. -/
noncomputable def grad (c : Fin N → ℝ) (W : Matrix (Fin N) (Fin m) ℝ) : Matrix (Fin N) (Fin m) ℝ :=
  (2 : ℝ) • ((1 - proj W) * (Matrix.diagonal c * W) * (Wᵀ * W)⁻¹)

theorem grad_dot (c : Fin N → ℝ) (W D : Matrix (Fin N) (Fin m) ℝ) :
    ∑ i, c i * (half W D + (half W D)ᵀ) i i
      = ∑ i, ∑ j, grad c W i j * D i j := by
  have h1 : ∑ i, c i * (half W D + (half W D)ᵀ) i i
      = 2 * (Matrix.diagonal c * half W D).trace := by
    rw [Matrix.trace, Finset.mul_sum]
    refine Finset.sum_congr rfl fun i _ => ?_
    rw [Matrix.diag_apply, Matrix.diagonal_mul, Matrix.add_apply, Matrix.transpose_apply]
    ring
  have h2 : ∑ i, ∑ j, grad c W i j * D i j = ((grad c W)ᵀ * D).trace := by
    rw [Matrix.trace, Finset.sum_comm]
    refine Finset.sum_congr rfl fun j _ => ?_
    rw [Matrix.diag_apply, Matrix.mul_apply]
    rfl
  rw [h1, h2, grad, Matrix.transpose_smul, Matrix.smul_mul, Matrix.trace_smul, smul_eq_mul]
  congr 1
  rw [Matrix.transpose_mul, Matrix.transpose_mul, inv_sym, Matrix.transpose_mul, Matrix.diagonal_transpose,
    Matrix.transpose_sub, Matrix.transpose_one, proj_sym]
  calc (Matrix.diagonal c * half W D).trace
      = ((Matrix.diagonal c * ((1 - proj W) * D)) * ((Wᵀ * W)⁻¹ * Wᵀ)).trace := by simp only [half, Matrix.mul_assoc]
    _ = (((Wᵀ * W)⁻¹ * Wᵀ) * (Matrix.diagonal c * ((1 - proj W) * D))).trace := Matrix.trace_mul_comm _ _
    _ = _ := by simp only [Matrix.mul_assoc]

/-- The gradient vanishes if the projector connects states of equal weight only. -/
theorem grad_zero (c : Fin N → ℝ) {W : Matrix (Fin N) (Fin m) ℝ} (h : IsUnit (Wᵀ * W).det) :
    grad c W = 0 ↔ ∀ i j, c i ≠ c j → proj W i j = 0 := by
  set P := proj W with hP
  have hcomm : Matrix.diagonal c * P = P * Matrix.diagonal c ↔ ∀ i j, c i ≠ c j → P i j = 0 := by
    constructor
    · intro h i j hc
      have := congrFun (congrFun h i) j
      rw [Matrix.diagonal_mul, Matrix.mul_diagonal] at this
      have h2 : (c i - c j) * P i j = 0 := by rw [sub_mul, this]; ring
      exact (mul_eq_zero.1 h2).resolve_left (sub_ne_zero.2 hc)
    · intro h
      ext i j
      rw [Matrix.diagonal_mul, Matrix.mul_diagonal]
      by_cases hc : c i = c j
      · rw [hc]; ring
      · rw [h i j hc]; ring
  rw [← hcomm]
  constructor
  · intro hg
    have h1 : (1 - P) * (Matrix.diagonal c * W) * (Wᵀ * W)⁻¹ = 0 := (smul_eq_zero.1 hg).resolve_left two_ne_zero
    have h2 : (1 - P) * (Matrix.diagonal c * P) = 0 := by
      calc (1 - P) * (Matrix.diagonal c * P)
          = (1 - P) * (Matrix.diagonal c * W) * (Wᵀ * W)⁻¹ * Wᵀ := by
            rw [hP]
            conv_lhs => rhs; rhs; unfold proj
            simp only [Matrix.mul_assoc]
        _ = 0 := by rw [h1, Matrix.zero_mul]
    rw [Matrix.sub_mul, Matrix.one_mul, sub_eq_zero] at h2
    have h3 : (P * (Matrix.diagonal c * P))ᵀ = P * (Matrix.diagonal c * P) := by
      rw [Matrix.transpose_mul, Matrix.transpose_mul, Matrix.diagonal_transpose, hP, proj_sym, Matrix.mul_assoc]
    have h4 := congrArg Matrix.transpose h2
    rw [h3, Matrix.transpose_mul, Matrix.diagonal_transpose, hP, proj_sym, ← hP, ← h2] at h4
    exact h4.symm
  · intro hc
    have : (1 - P) * (Matrix.diagonal c * W) = 0 := by
      have h1 : Matrix.diagonal c * W = P * (Matrix.diagonal c * W) := by
        conv_lhs => rw [← proj_mul h, ← hP, ← Matrix.mul_assoc, hc, Matrix.mul_assoc]
      rw [h1, ← Matrix.mul_assoc, Matrix.sub_mul, Matrix.one_mul, hP, proj_idem h, sub_self, Matrix.zero_mul]
    unfold grad
    rw [← hP, this, Matrix.zero_mul, smul_zero]

/-- A symmetric projector that connects states of equal weight only has a whole trace in every group of them. -/
theorem whole_trace (c : Fin N → ℝ) {P : Matrix (Fin N) (Fin N) ℝ} (hi : P * P = P)
    (h : ∀ i j, c i ≠ c j → P i j = 0) (θ : ℝ) : ∃ z : ℕ, ∑ i ∈ Finset.univ.filter (fun i => c i = θ), P i i = z := by
  set B : Matrix (Fin N) (Fin N) ℝ := Matrix.diagonal (fun i => if c i = θ then 1 else 0) * P with hB
  have hBe : ∀ i j, B i j = if c i = θ then P i j else 0 := by
    intro i j
    rw [hB, Matrix.diagonal_mul]
    split <;> simp
  have hBB : B * B = B := by
    ext i j
    rw [Matrix.mul_apply, hBe i j]
    simp only [hBe]
    by_cases hc : c i = θ
    · simp only [hc, if_true]
      conv_rhs => rw [← hi, Matrix.mul_apply]
      refine Finset.sum_congr rfl fun x _ => ?_
      by_cases hx : c x = θ
      · rw [if_pos hx]
      · rw [if_neg hx, h i x (by rw [hc]; exact fun e => hx e.symm)]
        ring
    · simp [hc]
  have h1 : B.trace = ∑ i ∈ Finset.univ.filter (fun i => c i = θ), P i i := by
    rw [Matrix.trace, Finset.sum_filter]
    exact Finset.sum_congr rfl fun i _ => hBe i i
  have hl : IsIdempotentElem (Matrix.toLin' B) := by
    unfold IsIdempotentElem
    rw [Module.End.mul_eq_comp, ← Matrix.toLin'_mul, hBB]
  have h2 := LinearMap.IsIdempotentElem.isProj_range _ hl
  refine ⟨Module.finrank ℝ (LinearMap.range (Matrix.toLin' B)), ?_⟩
  rw [← h1, ← h2.trace, Matrix.trace_toLin'_eq]

end IdemGrad
end Jrystal
