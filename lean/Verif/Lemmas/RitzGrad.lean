import Verif.Lemmas.Weyl
import Verif.Lemmas.Spectrum
import Mathlib.Analysis.Matrix.Normed
import Mathlib.Analysis.Calculus.FDeriv.Mul
import Mathlib.Analysis.Calculus.Deriv.Mul
import Mathlib.Analysis.Normed.Module.FiniteDimension
import Mathlib.LinearAlgebra.Matrix.PosDef

/- The derivative of the trace of a Hermitian matrix in the column space of the parameters, and how far the
eigenvalues in that space are from exact ones (C123). -/
namespace Jrystal
open scoped BigOperators ComplexConjugate ComplexOrder
open Matrix

attribute [local instance] Matrix.frobeniusNormedAddCommGroup Matrix.frobeniusNormedSpace Matrix.frobeniusNormedRing
  Matrix.frobeniusNormedAlgebra

variable {N m : ℕ}

/-- Euclidean length of all entries of a matrix. -/
noncomputable def matSize {I J : Type*} [Fintype I] [Fintype J] (M : Matrix I J ℂ) : ℝ :=
  Real.sqrt (∑ i, ∑ j, ‖M i j‖ ^ 2)

private theorem matSize_eq {I J : Type*} [Fintype I] [Fintype J] (M : Matrix I J ℂ) : matSize M = ‖M‖ := by
  rw [frobenius_norm_def, matSize, Real.sqrt_eq_rpow]
  simp

theorem matSize_nonneg {I J : Type*} [Fintype I] [Fintype J] (M : Matrix I J ℂ) : 0 ≤ matSize M := Real.sqrt_nonneg _

theorem matSize_mul {I J K : Type*} [Fintype I] [Fintype J] [Fintype K] (A : Matrix I J ℂ) (B : Matrix J K ℂ) :
    matSize (A * B) ≤ matSize A * matSize B := by
  rw [matSize_eq, matSize_eq, matSize_eq]
  exact frobenius_norm_mul A B

theorem matSize_conjTranspose {I J : Type*} [Fintype I] [Fintype J] (A : Matrix I J ℂ) : matSize Aᴴ = matSize A := by
  rw [matSize_eq, matSize_eq]
  exact frobenius_norm_conjTranspose A

theorem matSize_smul {I J : Type*} [Fintype I] [Fintype J] (c : ℝ) (A : Matrix I J ℂ) :
    matSize ((c : ℂ) • A) = |c| * matSize A := by
  unfold matSize
  rw [← Real.sqrt_sq_eq_abs, ← Real.sqrt_mul (sq_nonneg c), Finset.mul_sum]
  congr 1
  refine Finset.sum_congr rfl fun i _ => ?_
  rw [Finset.mul_sum]
  refine Finset.sum_congr rfl fun j _ => ?_
  rw [Matrix.smul_apply, smul_eq_mul, norm_mul, mul_pow, Complex.norm_real, Real.norm_eq_abs, sq_abs]

theorem matSize_sq {I J : Type*} [Fintype I] [Fintype J] [DecidableEq J] (A : Matrix I J ℂ) :
    ((matSize A ^ 2 : ℝ) : ℂ) = (Aᴴ * A).trace := by
  unfold matSize
  rw [Real.sq_sqrt (Finset.sum_nonneg fun i _ => Finset.sum_nonneg fun j _ => sq_nonneg _), Matrix.trace]
  push_cast
  rw [Finset.sum_comm]
  refine Finset.sum_congr rfl fun j _ => ?_
  rw [Matrix.diag_apply, Matrix.mul_apply]
  refine Finset.sum_congr rfl fun i _ => ?_
  rw [Matrix.conjTranspose_apply, RCLike.star_def, Complex.conj_mul']

theorem matSize_orth {m' : ℕ} {Q : Matrix (Fin N) (Fin m) ℂ} (hQ : Qᴴ * Q = 1) (R : Matrix (Fin m) (Fin m') ℂ) :
    matSize (Q * R) = matSize R := by
  have h : ((matSize (Q * R) ^ 2 : ℝ) : ℂ) = ((matSize R ^ 2 : ℝ) : ℂ) := by
    rw [matSize_sq, matSize_sq, Matrix.conjTranspose_mul, Matrix.mul_assoc, ← Matrix.mul_assoc Qᴴ, hQ, Matrix.one_mul]
  have h' : matSize (Q * R) ^ 2 = matSize R ^ 2 := by exact_mod_cast h
  exact (pow_left_inj₀ (matSize_nonneg _) (matSize_nonneg _) two_ne_zero).1 h'

/-- Linearly independent columns have an invertible Gram matrix. -/
theorem gram_unit {W : Matrix (Fin N) (Fin m) ℂ} (hW : LinearIndependent ℂ W.col) : IsUnit (Wᴴ * W).det := by
  have hinj : Function.Injective W.mulVec := Matrix.mulVec_injective_iff.2 hW
  have := Matrix.PosDef.conjTranspose_mul_self W hinj
  exact (Matrix.isUnit_iff_isUnit_det _).1 this.isUnit

/-- The trace in the column space does not depend on the orthonormal basis. -/
theorem ritz_trace {m' : ℕ} (hm : m' = m) (F : Matrix (Fin N) (Fin N) ℂ) {W : Matrix (Fin N) (Fin m) ℂ}
    (hW : IsUnit (Wᴴ * W).det) {Q : Matrix (Fin N) (Fin m') ℂ} (hQ : Qᴴ * Q = 1) {R : Matrix (Fin m') (Fin m) ℂ}
    (hR : W = Q * R) : (Qᴴ * F * Q).trace = ((Wᴴ * W)⁻¹ * (Wᴴ * F * W)).trace := by
  subst hm
  have hS : Wᴴ * W = Rᴴ * R := by
    rw [hR, Matrix.conjTranspose_mul, Matrix.mul_assoc, ← Matrix.mul_assoc Qᴴ, hQ, Matrix.one_mul]
  have hdet : IsUnit R.det := by
    rw [hS, Matrix.det_mul] at hW
    exact isUnit_of_mul_isUnit_right hW
  have hdet' : IsUnit Rᴴ.det := by
    rw [hS, Matrix.det_mul] at hW
    exact isUnit_of_mul_isUnit_left hW
  have hT : Wᴴ * F * W = Rᴴ * (Qᴴ * F * Q) * R := by
    rw [hR, Matrix.conjTranspose_mul]
    simp only [Matrix.mul_assoc]
  rw [hS, hT, Matrix.mul_inv_rev]
  have : R⁻¹ * Rᴴ⁻¹ * (Rᴴ * (Qᴴ * F * Q) * R) = R⁻¹ * ((Qᴴ * F * Q) * R) := by
    rw [Matrix.mul_assoc, Matrix.mul_assoc Rᴴ, ← Matrix.mul_assoc Rᴴ⁻¹, Matrix.nonsing_inv_mul _ hdet', Matrix.one_mul]
  rw [this, Matrix.trace_mul_comm R⁻¹, Matrix.mul_assoc _ R, Matrix.mul_nonsing_inv _ hdet, Matrix.mul_one]

/-- Twice the residual in the dual basis: the gradient of the trace in the column space. -/
noncomputable def ritzGrad (F : Matrix (Fin N) (Fin N) ℂ) (W : Matrix (Fin N) (Fin m) ℂ) : Matrix (Fin N) (Fin m) ℂ :=
  (2 : ℂ) • ((F * W - W * ((Wᴴ * W)⁻¹ * (Wᴴ * F * W))) * (Wᴴ * W)⁻¹)

private theorem quad_deriv {E : Type*} [NormedAddCommGroup E] [NormedSpace ℝ E] (A B C : E) :
    HasDerivAt (fun t : ℝ => A + t • B + (t * t) • C) B 0 := by
  have h1 := (hasDerivAt_id (0 : ℝ)).smul_const B
  have h2 := ((hasDerivAt_id (0 : ℝ)).mul (hasDerivAt_id (0 : ℝ))).smul_const C
  have h3 := (h1.const_add A).add h2
  have e : (1 : ℝ) • B + ((1 : ℝ) * id 0 + id (0 : ℝ) * 1) • C = B := by simp
  rw [e] at h3
  exact h3

theorem ritz_deriv {F : Matrix (Fin N) (Fin N) ℂ} (hF : F.IsHermitian) {W : Matrix (Fin N) (Fin m) ℂ}
    (hW : IsUnit (Wᴴ * W).det) (D : Matrix (Fin N) (Fin m) ℂ) :
    HasDerivAt (fun t : ℝ => (((W + (t : ℂ) • D)ᴴ * (W + (t : ℂ) • D))⁻¹
      * ((W + (t : ℂ) • D)ᴴ * F * (W + (t : ℂ) • D))).trace.re) ((Dᴴ * ritzGrad F W).trace.re) 0 := by
  set S := Wᴴ * W with hS
  set T := Wᴴ * F * W with hT
  have hSt : ∀ t : ℝ, (W + (t : ℂ) • D)ᴴ * (W + (t : ℂ) • D)
      = S + t • (Dᴴ * W + Wᴴ * D) + (t * t) • (Dᴴ * D) := by
    intro t
    rw [Matrix.conjTranspose_add, Matrix.conjTranspose_smul, RCLike.star_def, Complex.conj_ofReal]
    simp only [Matrix.add_mul, Matrix.mul_add, Matrix.smul_mul, Matrix.mul_smul, hS, smul_add, smul_smul]
    ext i j
    simp only [Matrix.add_apply, Matrix.smul_apply, smul_eq_mul, Complex.real_smul]
    push_cast
    ring
  have hTt : ∀ t : ℝ, (W + (t : ℂ) • D)ᴴ * F * (W + (t : ℂ) • D)
      = T + t • (Dᴴ * F * W + Wᴴ * F * D) + (t * t) • (Dᴴ * F * D) := by
    intro t
    rw [Matrix.conjTranspose_add, Matrix.conjTranspose_smul, RCLike.star_def, Complex.conj_ofReal]
    simp only [Matrix.add_mul, Matrix.mul_add, Matrix.smul_mul, Matrix.mul_smul, hT, smul_add, smul_smul]
    ext i j
    simp only [Matrix.add_apply, Matrix.smul_apply, smul_eq_mul, Complex.real_smul]
    push_cast
    ring
  have dS := quad_deriv S (Dᴴ * W + Wᴴ * D) (Dᴴ * D)
  have dT := quad_deriv T (Dᴴ * F * W + Wᴴ * F * D) (Dᴴ * F * D)
  have hu : IsUnit S := (Matrix.isUnit_iff_isUnit_det _).2 hW
  obtain ⟨u, hu'⟩ := hu
  have hinvu : ((u⁻¹ : (Matrix (Fin m) (Fin m) ℂ)ˣ) : Matrix (Fin m) (Fin m) ℂ) = S⁻¹ := by
    rw [← hu', Matrix.coe_units_inv]
  have hcomplete : CompleteSpace (Matrix (Fin m) (Fin m) ℂ) := FiniteDimensional.complete ℝ _
  have hinv := hasFDerivAt_ringInverse (𝕜 := ℝ) u
  have hz : S + (0 : ℝ) • (Dᴴ * W + Wᴴ * D) + ((0 : ℝ) * 0) • (Dᴴ * D) = (u : Matrix (Fin m) (Fin m) ℂ) := by
    rw [hu']; simp
  have dI : HasDerivAt (fun t : ℝ => (S + t • (Dᴴ * W + Wᴴ * D) + (t * t) • (Dᴴ * D))⁻¹)
      (-(S⁻¹ * (Dᴴ * W + Wᴴ * D) * S⁻¹)) 0 := by
    rw [← hz] at hinv
    have := hinv.comp_hasDerivAt (0 : ℝ) dS
    rw [hinvu] at this
    have e : (fun t : ℝ => (S + t • (Dᴴ * W + Wᴴ * D) + (t * t) • (Dᴴ * D))⁻¹)
        = Ring.inverse ∘ fun t : ℝ => S + t • (Dᴴ * W + Wᴴ * D) + (t * t) • (Dᴴ * D) := by
      funext t
      exact Matrix.nonsing_inv_eq_ringInverse _
    rw [e]
    exact this
  have dM := dI.mul dT
  simp only [hSt, hTt]
  let tr : Matrix (Fin m) (Fin m) ℂ →ₗ[ℝ] ℝ :=
    { toFun := fun M => M.trace.re
      map_add' := by intro A B; rw [Matrix.trace_add, Complex.add_re]
      map_smul' := by
        intro c A
        rw [Matrix.trace_smul, Complex.real_smul, Complex.re_ofReal_mul]
        rfl }
  have dtr := (LinearMap.toContinuousLinearMap tr).hasFDerivAt.comp_hasDerivAt (0 : ℝ) dM
  have key : tr (-(S⁻¹ * (Dᴴ * W + Wᴴ * D) * S⁻¹) * (T + (0 : ℝ) • (Dᴴ * F * W + Wᴴ * F * D) + ((0 : ℝ) * 0) • (Dᴴ * F * D))
      + (S + (0 : ℝ) • (Dᴴ * W + Wᴴ * D) + ((0 : ℝ) * 0) • (Dᴴ * D))⁻¹ * (Dᴴ * F * W + Wᴴ * F * D))
      = (Dᴴ * ritzGrad F W).trace.re := by
    have hSh : (S⁻¹)ᴴ = S⁻¹ := by
      rw [Matrix.conjTranspose_nonsing_inv, hS, Matrix.conjTranspose_mul, Matrix.conjTranspose_conjTranspose]
    have hTh : Tᴴ = T := by
      rw [hT, Matrix.conjTranspose_mul, Matrix.conjTranspose_mul, Matrix.conjTranspose_conjTranspose, hF.eq, Matrix.mul_assoc]
    have hre : ∀ A : Matrix (Fin m) (Fin m) ℂ, (Aᴴ).trace.re = A.trace.re := by
      intro A
      rw [Matrix.trace_conjTranspose, RCLike.star_def, Complex.conj_re]
    have c1 : (S⁻¹ * (Wᴴ * F * D)).trace.re = (S⁻¹ * (Dᴴ * F * W)).trace.re := by
      rw [← hre, Matrix.trace_mul_comm S⁻¹ (Dᴴ * F * W)]
      congr 2
      simp only [Matrix.conjTranspose_mul, Matrix.conjTranspose_conjTranspose, hSh, hF.eq, Matrix.mul_assoc]
    have c2 : (S⁻¹ * (Wᴴ * D) * S⁻¹ * T).trace.re = (S⁻¹ * (Dᴴ * W) * S⁻¹ * T).trace.re := by
      rw [← hre]
      have e : (S⁻¹ * (Wᴴ * D) * S⁻¹ * T)ᴴ = T * (S⁻¹ * (Dᴴ * W) * S⁻¹) := by
        simp only [Matrix.conjTranspose_mul, Matrix.conjTranspose_conjTranspose, hSh, hTh, Matrix.mul_assoc]
      rw [e, Matrix.trace_mul_comm]
    have e0 : (S + (0 : ℝ) • (Dᴴ * W + Wᴴ * D) + ((0 : ℝ) * 0) • (Dᴴ * D)) = S := by simp
    have e1 : (T + (0 : ℝ) • (Dᴴ * F * W + Wᴴ * F * D) + ((0 : ℝ) * 0) • (Dᴴ * F * D)) = T := by simp
    rw [e0, e1]
    change (_ : Matrix (Fin m) (Fin m) ℂ).trace.re = _
    rw [Matrix.trace_add, Complex.add_re, Matrix.mul_add S⁻¹ (Dᴴ * F * W), Matrix.trace_add, Complex.add_re, c1,
      Matrix.neg_mul, Matrix.trace_neg, Complex.neg_re]
    have e2 : S⁻¹ * (Dᴴ * W + Wᴴ * D) * S⁻¹ * T = S⁻¹ * (Dᴴ * W) * S⁻¹ * T + S⁻¹ * (Wᴴ * D) * S⁻¹ * T := by
      simp only [Matrix.add_mul, Matrix.mul_add]
    rw [e2, Matrix.trace_add, Complex.add_re, c2]
    have e3 : (Dᴴ * ritzGrad F W).trace = 2 * (S⁻¹ * (Dᴴ * F * W)).trace - 2 * (S⁻¹ * (Dᴴ * W) * S⁻¹ * T).trace := by
      unfold ritzGrad
      rw [← hS, ← hT, Matrix.mul_smul, Matrix.trace_smul, smul_eq_mul, ← Matrix.mul_assoc, Matrix.trace_mul_comm,
        Matrix.mul_sub, Matrix.mul_sub, Matrix.trace_sub, mul_sub]
      simp only [Matrix.mul_assoc]
    rw [e3, Complex.sub_re, Complex.mul_re, Complex.mul_re]
    norm_num
    ring
  rw [← key]
  exact dtr

private theorem card_of_orth {I J : Type*} [Fintype I] [Fintype J] [DecidableEq J] {w : Matrix I J ℂ} (h : wᴴ * w = 1) :
    Fintype.card J ≤ Fintype.card I := by
  have h1 : (wᴴ * w).rank = Fintype.card J := by rw [h, Matrix.rank_one]
  have h2 := (Matrix.rank_mul_le_right wᴴ w).trans (Matrix.rank_le_card_height w)
  omega

/-- The eigenvalues in an invariant subspace are eigenvalues of the matrix, no one used more often than it occurs. -/
theorem spectrum_invariant {F : Matrix (Fin N) (Fin N) ℂ} {lam : Fin N → ℝ} (hF : Spec.IsSpectrum F lam)
    {Q : Matrix (Fin N) (Fin m) ℂ} (hQ : Qᴴ * Q = 1) (hinv : F * Q = Q * (Qᴴ * F * Q)) {e : Fin m → ℝ}
    (he : Spec.IsSpectrum (Qᴴ * F * Q) e) : ∃ σ : Fin m → Fin N, Function.Injective σ ∧ ∀ b, e b = lam (σ b) := by
  obtain ⟨-, V, hV, hFV⟩ := hF
  obtain ⟨-, U, hU, hMU⟩ := he
  have hV' : Vᴴ * V = 1 := Matrix.mem_unitaryGroup_iff'.1 hV
  have hV'' : V * Vᴴ = 1 := Matrix.mem_unitaryGroup_iff.1 hV
  have hU' : Uᴴ * U = 1 := Matrix.mem_unitaryGroup_iff'.1 hU
  set Z : Matrix (Fin N) (Fin m) ℂ := Vᴴ * Q * U with hZ
  have hZZ : Zᴴ * Z = 1 := by
    rw [hZ, Matrix.conjTranspose_mul, Matrix.conjTranspose_mul, Matrix.conjTranspose_conjTranspose]
    calc Uᴴ * (Qᴴ * V) * (Vᴴ * Q * U) = Uᴴ * (Qᴴ * (V * Vᴴ) * Q) * U := by simp only [Matrix.mul_assoc]
      _ = 1 := by rw [hV'', Matrix.mul_one, hQ, Matrix.mul_one, hU']
  have hdZ : Matrix.diagonal (fun i => (lam i : ℂ)) * Z = Z * Matrix.diagonal (fun i => (e i : ℂ)) := by
    have h1 : Vᴴ * (F * Q) * U = Matrix.diagonal (fun i => (lam i : ℂ)) * Z := by
      rw [hFV, hZ]
      calc Vᴴ * (V * Matrix.diagonal (fun i => (lam i : ℂ)) * Vᴴ * Q) * U
          = (Vᴴ * V) * (Matrix.diagonal (fun i => (lam i : ℂ)) * (Vᴴ * Q * U)) := by simp only [Matrix.mul_assoc]
        _ = _ := by rw [hV', Matrix.one_mul]
    rw [← h1, hinv, hMU, hZ]
    calc Vᴴ * (Q * (U * Matrix.diagonal (fun i => (e i : ℂ)) * Uᴴ)) * U
        = Vᴴ * Q * U * Matrix.diagonal (fun i => (e i : ℂ)) * (Uᴴ * U) := by simp only [Matrix.mul_assoc]
      _ = _ := by rw [hU', Matrix.mul_one]
  have hzero : ∀ a b, lam a ≠ e b → Z a b = 0 := by
    intro a b hab
    have := congrFun (congrFun hdZ a) b
    rw [Matrix.diagonal_mul, Matrix.mul_diagonal] at this
    have h2 : ((lam a : ℂ) - (e b : ℂ)) * Z a b = 0 := by rw [sub_mul, this]; ring
    rcases mul_eq_zero.1 h2 with h3 | h3
    · exact absurd (Complex.ofReal_injective (sub_eq_zero.1 h3)) hab
    · exact h3
  have hcard : ∀ θ : ℝ, Nonempty ({b // e b = θ} ↪ {a // lam a = θ}) := by
    intro θ
    rw [Function.Embedding.nonempty_iff_card_le]
    refine card_of_orth (w := Z.submatrix (fun a : {a // lam a = θ} => a.1) (fun b : {b // e b = θ} => b.1)) ?_
    ext b b'
    have h1 := congrFun (congrFun hZZ b.1) b'.1
    rw [Matrix.mul_apply] at h1 ⊢
    rw [Matrix.one_apply] at h1 ⊢
    simp only [Matrix.conjTranspose_apply, Matrix.submatrix_apply] at h1 ⊢
    rw [show (if b = b' then (1 : ℂ) else 0) = if b.1 = b'.1 then 1 else 0 from by simp only [Subtype.ext_iff], ← h1]
    rw [← Finset.sum_subtype (Finset.univ.filter fun a => lam a = θ) (fun a => by simp)
      (fun a => star (Z a b.1) * Z a b'.1), Finset.sum_filter]
    refine Finset.sum_congr rfl fun a _ => ?_
    split_ifs with ha
    · rfl
    · rw [hzero a b'.1 (by rw [b'.2]; exact ha), mul_zero]
  let f' : ∀ θ, {b // e b = θ} ↪ {a // lam a = θ} := fun θ => (hcard θ).some
  refine ⟨fun b => (f' (e b) ⟨b, rfl⟩).1, fun b b' h => ?_, fun b => ((f' (e b) ⟨b, rfl⟩).2).symm⟩
  have h1 : e b = e b' := by
    rw [← (f' (e b) ⟨b, rfl⟩).2, ← (f' (e b') ⟨b', rfl⟩).2]
    exact congrArg lam h
  have h2 : ∀ θ (hθ : e b' = θ), (f' (e b') ⟨b', rfl⟩).1 = (f' θ ⟨b', hθ⟩).1 := by
    rintro θ rfl; rfl
  have h3 : (f' (e b) ⟨b, rfl⟩) = (f' (e b) ⟨b', h1.symm⟩) := Subtype.ext (h.trans (h2 (e b) h1.symm))
  exact congrArg Subtype.val ((f' (e b)).injective h3)

private noncomputable def colOf {n : ℕ} (v : Fin n → ℂ) : Matrix (Fin n) (Fin 1) ℂ := fun i _ => v i

private theorem colOf_size {n : ℕ} (v : Fin n → ℂ) : matSize (colOf v) ^ 2 = (star v ⬝ᵥ v).re := by
  have := matSize_sq (colOf v)
  rw [Matrix.trace_fin_one, Matrix.mul_apply] at this
  have h2 : star v ⬝ᵥ v = ((matSize (colOf v) ^ 2 : ℝ) : ℂ) := by
    rw [this]; rfl
  rw [h2, Complex.ofReal_re]

private theorem dot_bound {n n' : ℕ} (w : Fin n → ℂ) (R : Matrix (Fin n) (Fin n') ℂ) (y : Fin n' → ℂ) :
    ‖star w ⬝ᵥ (R *ᵥ y)‖ ≤ matSize (colOf w) * (matSize R * matSize (colOf y)) := by
  have h1 : star w ⬝ᵥ (R *ᵥ y) = ((colOf w)ᴴ * (R * colOf y)) 0 0 := by
    rw [Matrix.mul_apply]
    rfl
  have h2 : ‖((colOf w)ᴴ * (R * colOf y)) 0 0‖ = matSize ((colOf w)ᴴ * (R * colOf y)) := by
    unfold matSize
    rw [Fin.sum_univ_one, Fin.sum_univ_one, Real.sqrt_sq (norm_nonneg _)]
  rw [h1, h2, ← matSize_conjTranspose (colOf w)]
  refine (matSize_mul _ _).trans (mul_le_mul_of_nonneg_left ?_ (matSize_nonneg _))
  exact matSize_mul _ _

theorem matSize_add {I J : Type*} [Fintype I] [Fintype J] (A B : Matrix I J ℂ) : matSize (A + B) ≤ matSize A + matSize B := by
  rw [matSize_eq, matSize_eq, matSize_eq]
  exact norm_add_le A B

theorem matSize_sub {I J : Type*} [Fintype I] [Fintype J] (A B : Matrix I J ℂ) : matSize (A - B) ≤ matSize A + matSize B := by
  rw [matSize_eq, matSize_eq, matSize_eq]
  exact norm_sub_le A B

/-- Eigenvalues in increasing order differ by at most the size of the difference of the matrices. -/
theorem spectrum_near {H H' : Matrix (Fin N) (Fin N) ℂ} {lam lam' : Fin N → ℝ} (h : Spec.IsSpectrum H lam)
    (h' : Spec.IsSpectrum H' lam') (j : Fin N) : |lam j - lam' j| ≤ matSize (H - H') := by
  have hform : ∀ v : Fin N → ℂ, |(star v ⬝ᵥ (H *ᵥ v)).re - (star v ⬝ᵥ (H' *ᵥ v)).re|
      ≤ matSize (H - H') * (star v ⬝ᵥ v).re := by
    intro v
    have h1 : (star v ⬝ᵥ (H *ᵥ v)).re - (star v ⬝ᵥ (H' *ᵥ v)).re = (star v ⬝ᵥ ((H - H') *ᵥ v)).re := by
      rw [Matrix.sub_mulVec, dotProduct_sub, Complex.sub_re]
    rw [h1, ← colOf_size]
    refine (Complex.abs_re_le_norm _).trans ((dot_bound v (H - H') v).trans (le_of_eq ?_))
    ring
  have u1 := spectrum_shift h h' (matSize (H - H')) (fun v => by
    have := (abs_le.1 (hform v)).2
    linarith) j
  have u2 := spectrum_shift h' h (matSize (H - H')) (fun v => by
    have := (abs_le.1 (hform v)).1
    linarith) j
  rw [abs_le]
  constructor <;> linarith

/-- The eigenvalues in any subspace are as close to distinct exact eigenvalues as the residual is small. -/
theorem ritz_distance {F : Matrix (Fin N) (Fin N) ℂ} {lam : Fin N → ℝ} (hF : Spec.IsSpectrum F lam)
    {Q : Matrix (Fin N) (Fin m) ℂ} (hQ : Qᴴ * Q = 1) {e : Fin m → ℝ}
    (he : Spec.IsSpectrum (Qᴴ * F * Q) e) : ∃ σ : Fin m → Fin N, Function.Injective σ ∧
      ∀ b, |e b - lam (σ b)| ≤ matSize (F * Q - Q * (Qᴴ * F * Q)) := by
  set M := Qᴴ * F * Q with hM
  set X := F * Q - Q * M with hX
  have hFh := spectrum_hermitian hF
  have hQX : Qᴴ * X = 0 := by
    rw [hX, Matrix.mul_sub, ← Matrix.mul_assoc, ← Matrix.mul_assoc, hQ, Matrix.one_mul, ← hM, sub_self]
  have hXQ : Xᴴ * Q = 0 := by
    have := congrArg Matrix.conjTranspose hQX
    rwa [Matrix.conjTranspose_mul, Matrix.conjTranspose_conjTranspose, Matrix.conjTranspose_zero] at this
  set F' := F - (X * Qᴴ + Q * Xᴴ) with hF'
  have hF'h : F'.IsHermitian := by
    unfold Matrix.IsHermitian
    rw [hF', Matrix.conjTranspose_sub, Matrix.conjTranspose_add, Matrix.conjTranspose_mul, Matrix.conjTranspose_mul,
      Matrix.conjTranspose_conjTranspose, Matrix.conjTranspose_conjTranspose, hFh.eq, add_comm (Q * Xᴴ)]
  have hF'Q : F' * Q = Q * M := by
    rw [hF', Matrix.sub_mul, Matrix.add_mul, Matrix.mul_assoc X, hQ, Matrix.mul_one, Matrix.mul_assoc Q, hXQ,
      Matrix.mul_zero, add_zero, hX, sub_sub_cancel]
  have hM' : Qᴴ * F' * Q = M := by
    rw [Matrix.mul_assoc, hF'Q, ← Matrix.mul_assoc, hQ, Matrix.one_mul]
  obtain ⟨lam', hlam'⟩ := exists_spectrum hF'h
  obtain ⟨σ, hσ, hσ'⟩ := spectrum_invariant hlam' hQ (by rw [hM', hF'Q]) (by rw [hM']; exact he)
  have hform : ∀ v : Fin N → ℂ, |(star v ⬝ᵥ (F *ᵥ v)).re - (star v ⬝ᵥ (F' *ᵥ v)).re| ≤ matSize X * (star v ⬝ᵥ v).re := by
    intro v
    set y := Qᴴ *ᵥ v with hy
    set w := v - Q *ᵥ y with hw
    have hQw : Qᴴ *ᵥ w = 0 := by
      rw [hw, Matrix.mulVec_sub, Matrix.mulVec_mulVec, hQ, Matrix.one_mulVec, ← hy, sub_self]
    have hv : v = Q *ᵥ y + w := by rw [hw]; abel
    have hsv : star v = star w + star (Q *ᵥ y) := by
      conv_lhs => rw [hv]
      rw [star_add, add_comm]
    have hQyX : star (Q *ᵥ y) ⬝ᵥ (X *ᵥ y) = 0 := by
      rw [Matrix.star_mulVec, ← Matrix.dotProduct_mulVec, Matrix.mulVec_mulVec, hQX, Matrix.zero_mulVec, dotProduct_zero]
    have h1 : star v ⬝ᵥ ((X * Qᴴ) *ᵥ v) = star w ⬝ᵥ (X *ᵥ y) := by
      rw [← Matrix.mulVec_mulVec, ← hy, hsv, add_dotProduct, hQyX, add_zero]
    have h2 : star v ⬝ᵥ ((Q * Xᴴ) *ᵥ v) = star (star w ⬝ᵥ (X *ᵥ y)) := by
      rw [← h1, Matrix.star_dotProduct v, Matrix.star_mulVec, Matrix.conjTranspose_mul,
        Matrix.conjTranspose_conjTranspose, ← Matrix.dotProduct_mulVec]
    have h3 : (star v ⬝ᵥ (F *ᵥ v)).re - (star v ⬝ᵥ (F' *ᵥ v)).re = 2 * (star w ⬝ᵥ (X *ᵥ y)).re := by
      rw [hF', Matrix.sub_mulVec, dotProduct_sub, Matrix.add_mulVec, dotProduct_add, h1, h2, Complex.sub_re,
        Complex.add_re, RCLike.star_def, Complex.conj_re]
      ring
    have hsq : (star v ⬝ᵥ v).re = matSize (colOf w) ^ 2 + matSize (colOf y) ^ 2 := by
      rw [colOf_size, colOf_size]
      have hwq : star w ⬝ᵥ (Q *ᵥ y) = 0 := by
        rw [Matrix.dotProduct_mulVec]
        have : star w ᵥ* Q = star (Qᴴ *ᵥ w) := by rw [Matrix.star_mulVec, Matrix.conjTranspose_conjTranspose]
        rw [this, hQw, star_zero, zero_dotProduct]
      have hqw : star (Q *ᵥ y) ⬝ᵥ w = 0 := by
        rw [Matrix.star_mulVec, ← Matrix.dotProduct_mulVec, hQw, dotProduct_zero]
      have hqq : star (Q *ᵥ y) ⬝ᵥ (Q *ᵥ y) = star y ⬝ᵥ y := by
        rw [Matrix.star_mulVec, ← Matrix.dotProduct_mulVec, Matrix.mulVec_mulVec, hQ, Matrix.one_mulVec]
      conv_lhs => rw [hv]
      rw [star_add, add_dotProduct, dotProduct_add, dotProduct_add, hqq, hqw, hwq, Complex.add_re, Complex.add_re,
        Complex.add_re, Complex.zero_re]
      ring
    rw [h3, hsq]
    have hb := dot_bound w X y
    have hre := Complex.abs_re_le_norm (star w ⬝ᵥ (X *ᵥ y))
    rw [abs_mul, abs_two]
    have hx0 := matSize_nonneg X
    nlinarith [sq_nonneg (matSize (colOf w) - matSize (colOf y)), mul_nonneg hx0 (sq_nonneg (matSize (colOf w) - matSize (colOf y)))]
  refine ⟨σ, hσ, fun b => ?_⟩
  have u1 := spectrum_shift hF hlam' (matSize X) (fun v => by
    have := (abs_le.1 (hform v)).2
    linarith) (σ b)
  have u2 := spectrum_shift hlam' hF (matSize X) (fun v => by
    have := (abs_le.1 (hform v)).1
    linarith) (σ b)
  rw [hσ', abs_le]
  constructor <;> linarith

/-- The residual is half the gradient times the triangular factor. -/
theorem ritz_residual {m' : ℕ} (hm : m' = m) (F : Matrix (Fin N) (Fin N) ℂ) {W : Matrix (Fin N) (Fin m) ℂ}
    (hW : IsUnit (Wᴴ * W).det) {Q : Matrix (Fin N) (Fin m') ℂ} (hQ : Qᴴ * Q = 1) {R : Matrix (Fin m') (Fin m) ℂ}
    (hR : W = Q * R) :
    matSize (F * Q - Q * (Qᴴ * F * Q)) ≤ matSize (ritzGrad F W) * matSize W / 2 ∧
    (F * Q = Q * (Qᴴ * F * Q) → ritzGrad F W = 0) := by
  subst hm
  have hS : Wᴴ * W = Rᴴ * R := by
    rw [hR, Matrix.conjTranspose_mul, Matrix.mul_assoc, ← Matrix.mul_assoc Qᴴ, hQ, Matrix.one_mul]
  have hdet : IsUnit R.det := by
    rw [hS, Matrix.det_mul] at hW
    exact isUnit_of_mul_isUnit_right hW
  have hdet' : IsUnit Rᴴ.det := by
    rw [hS, Matrix.det_mul] at hW
    exact isUnit_of_mul_isUnit_left hW
  set M := Qᴴ * F * Q with hM
  have hT : Wᴴ * F * W = Rᴴ * M * R := by
    rw [hM, hR, Matrix.conjTranspose_mul]
    simp only [Matrix.mul_assoc]
  have hG : ritzGrad F W = (2 : ℂ) • ((F * Q - Q * M) * Rᴴ⁻¹) := by
    unfold ritzGrad
    rw [hS, hT, Matrix.mul_inv_rev]
    congr 1
    have h1 : W * (R⁻¹ * Rᴴ⁻¹ * (Rᴴ * M * R)) = Q * M * R := by
      rw [hR]
      calc Q * R * (R⁻¹ * Rᴴ⁻¹ * (Rᴴ * M * R)) = Q * (R * R⁻¹) * (Rᴴ⁻¹ * Rᴴ) * M * R := by simp only [Matrix.mul_assoc]
        _ = _ := by rw [Matrix.mul_nonsing_inv _ hdet, Matrix.nonsing_inv_mul _ hdet', Matrix.mul_one, Matrix.mul_one]
    rw [h1, hR, ← Matrix.mul_assoc F, ← Matrix.sub_mul, Matrix.mul_assoc, ← Matrix.mul_assoc R,
      Matrix.mul_nonsing_inv _ hdet, Matrix.one_mul]
  have hX : F * Q - Q * M = (((1 / 2 : ℝ)) : ℂ) • (ritzGrad F W * Rᴴ) := by
    rw [hG, Matrix.smul_mul, Matrix.mul_assoc, Matrix.nonsing_inv_mul _ hdet', Matrix.mul_one, smul_smul]
    norm_num
  constructor
  · rw [hX, matSize_smul]
    have h1 := matSize_mul (ritzGrad F W) Rᴴ
    have h2 : matSize W = matSize R := by rw [hR, matSize_orth hQ]
    rw [matSize_conjTranspose, ← h2] at h1
    rw [abs_of_pos (by norm_num)]
    linarith
  · intro h
    rw [hG, h, sub_self, Matrix.zero_mul, smul_zero]

/-- The gradient is orthogonal to the columns of the parameters. -/
theorem ritzGrad_orth (F : Matrix (Fin N) (Fin N) ℂ) {W : Matrix (Fin N) (Fin m) ℂ}
    (hW : IsUnit (Wᴴ * W).det) : Wᴴ * ritzGrad F W = 0 := by
  unfold ritzGrad
  rw [Matrix.mul_smul, ← Matrix.mul_assoc, Matrix.mul_sub, ← Matrix.mul_assoc, ← Matrix.mul_assoc, ← Matrix.mul_assoc,
    Matrix.mul_nonsing_inv _ hW, Matrix.one_mul, sub_self, Matrix.zero_mul, smul_zero]

end Jrystal
