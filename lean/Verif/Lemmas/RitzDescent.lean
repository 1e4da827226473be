import Verif.Lemmas.RitzGrad
import Mathlib.LinearAlgebra.Matrix.SchurComplement
import Mathlib.Analysis.SpecialFunctions.Log.Basic
import Mathlib.Topology.Algebra.InfiniteSum.Real
import Mathlib.Analysis.Normed.Group.InfiniteSum

/- Gradient descent on the trace of a Hermitian matrix in the column space of the parameters (C135). -/
namespace Jrystal
open scoped BigOperators ComplexConjugate Topology
open Matrix

namespace RitzDescent
variable {N m : ℕ}

/-- Sum of the squares of all entries. -/
noncomputable def fs {I J : Type*} [Fintype I] [Fintype J] (A : Matrix I J ℂ) : ℝ := matSize A ^ 2

theorem fs_nonneg {I J : Type*} [Fintype I] [Fintype J] (A : Matrix I J ℂ) : 0 ≤ fs A := sq_nonneg _

theorem fs_trace {I J : Type*} [Fintype I] [Fintype J] [DecidableEq J] (A : Matrix I J ℂ) : ((fs A : ℝ) : ℂ) = (Aᴴ * A).trace :=
  matSize_sq A

theorem fs_mul {I J K : Type*} [Fintype I] [Fintype J] [Fintype K] (A : Matrix I J ℂ) (B : Matrix J K ℂ) :
    fs (A * B) ≤ fs A * fs B := by
  unfold fs
  rw [← mul_pow]
  exact pow_le_pow_left₀ (matSize_nonneg _) (matSize_mul A B) 2

theorem fs_star {I J : Type*} [Fintype I] [Fintype J] (A : Matrix I J ℂ) : fs Aᴴ = fs A := by
  unfold fs; rw [matSize_conjTranspose]

theorem fs_smul {I J : Type*} [Fintype I] [Fintype J] (c : ℝ) (A : Matrix I J ℂ) : fs ((c : ℂ) • A) = c ^ 2 * fs A := by
  unfold fs; rw [matSize_smul, mul_pow, sq_abs]

/-- The trace of a product of two squares is a square. -/
theorem trace_squares {I J K : Type*} [Fintype I] [Fintype J] [Fintype K] [DecidableEq J] [DecidableEq K] (A : Matrix I J ℂ)
    (B : Matrix K J ℂ) : (Aᴴ * A * (Bᴴ * B)).trace = ((fs (A * Bᴴ) : ℝ) : ℂ) := by
  rw [fs_trace, Matrix.conjTranspose_mul, Matrix.conjTranspose_conjTranspose, Matrix.mul_assoc B, Matrix.trace_mul_comm B]
  simp only [Matrix.mul_assoc]

theorem spectrum_square {n k : ℕ} (B : Matrix (Fin n) (Fin k) ℂ) : ∃ lam : Fin k → ℝ, Spec.IsSpectrum (Bᴴ * B) lam ∧
    (∀ i, 0 ≤ lam i) ∧ ∑ i, lam i = fs B := by
  obtain ⟨lam, hl⟩ := exists_spectrum (H := Bᴴ * B) (by
    unfold Matrix.IsHermitian
    rw [Matrix.conjTranspose_mul, Matrix.conjTranspose_conjTranspose])
  refine ⟨lam, hl, fun i => ?_, ?_⟩
  · obtain ⟨-, V, hV, h⟩ := hl
    have hV' : Vᴴ * V = 1 := Matrix.mem_unitaryGroup_iff'.1 hV
    have h1 : (B * V)ᴴ * (B * V) = Matrix.diagonal fun i => (lam i : ℂ) := by
      calc (B * V)ᴴ * (B * V) = Vᴴ * (Bᴴ * B) * V := by rw [Matrix.conjTranspose_mul]; simp only [Matrix.mul_assoc]
        _ = (Vᴴ * V) * Matrix.diagonal (fun i => (lam i : ℂ)) * (Vᴴ * V) := by rw [h]; simp only [Matrix.mul_assoc]
        _ = _ := by rw [hV', Matrix.one_mul, Matrix.mul_one]
    have h2 := congrArg Complex.re (congrFun (congrFun h1 i) i)
    rw [Matrix.diagonal_apply_eq, Complex.ofReal_re, Matrix.mul_apply, Complex.re_sum] at h2
    rw [← h2]
    refine Finset.sum_nonneg fun a _ => ?_
    rw [Matrix.conjTranspose_apply, RCLike.star_def, ← Complex.normSq_eq_conj_mul_self, Complex.ofReal_re]
    exact Complex.normSq_nonneg _
  · have h1 := spectrum_trace hl
    rw [← fs_trace] at h1
    exact_mod_cast h1.symm

theorem det_square {n k : ℕ} (B : Matrix (Fin n) (Fin k) ℂ) :
    ∃ d : ℝ, (Bᴴ * B).det = (d : ℂ) ∧ 0 ≤ d ∧ d ≤ fs B ^ k := by
  obtain ⟨lam, ⟨-, V, hV, h⟩, h0, hs⟩ := spectrum_square B
  have hV' : V * Vᴴ = 1 := Matrix.mem_unitaryGroup_iff.1 hV
  refine ⟨∏ i, lam i, ?_, Finset.prod_nonneg fun i _ => h0 i, ?_⟩
  · rw [h, Matrix.det_mul, Matrix.det_mul, mul_right_comm, ← Matrix.det_mul, hV', Matrix.det_one, one_mul, Matrix.det_diagonal]
    push_cast
    rfl
  · calc ∏ i, lam i ≤ ∏ _i : Fin k, fs B := Finset.prod_le_prod (fun i _ => h0 i) fun i _ => by
          rw [← hs]; exact Finset.single_le_sum (fun j _ => h0 j) (Finset.mem_univ i)
      _ = _ := by simp

private theorem prod_one_add_ge {ι : Type*} (s : Finset ι) (f : ι → ℝ) (hf : ∀ i, 0 ≤ f i) :
    1 + ∑ i ∈ s, f i ≤ ∏ i ∈ s, (1 + f i) := by
  classical
  induction s using Finset.induction_on with
  | empty => simp
  | insert a s ha ih =>
    rw [Finset.sum_insert ha, Finset.prod_insert ha]
    have := Finset.sum_nonneg fun i (_ : i ∈ s) => hf i
    nlinarith [hf a, mul_nonneg (hf a) this, mul_le_mul_of_nonneg_left ih (add_nonneg zero_le_one (hf a))]

theorem det_one_add_square {n k : ℕ} (B : Matrix (Fin n) (Fin k) ℂ) :
    ∃ d : ℝ, (1 + Bᴴ * B).det = (d : ℂ) ∧ 1 + fs B ≤ d := by
  obtain ⟨lam, ⟨-, V, hV, h⟩, h0, hs⟩ := spectrum_square B
  have hV' : V * Vᴴ = 1 := Matrix.mem_unitaryGroup_iff.1 hV
  refine ⟨∏ i, (1 + lam i), ?_, ?_⟩
  · have e : 1 + Bᴴ * B = V * Matrix.diagonal (fun i => ((1 + lam i : ℝ) : ℂ)) * Vᴴ := by
      have : Matrix.diagonal (fun i => ((1 + lam i : ℝ) : ℂ)) = 1 + Matrix.diagonal fun i => (lam i : ℂ) := by
        rw [← Matrix.diagonal_one, Matrix.diagonal_add]
        congr 1
        funext i
        push_cast
        rfl
      rw [this, Matrix.mul_add, Matrix.add_mul, Matrix.mul_one, hV', ← h]
    rw [e, Matrix.det_mul, Matrix.det_mul, mul_right_comm, ← Matrix.det_mul, hV', Matrix.det_one, one_mul, Matrix.det_diagonal]
    push_cast
    rfl
  · rw [← hs]
    exact prod_one_add_ge _ _ h0

/-- The gradient does not see a constant added to the matrix. -/
theorem ritzGrad_shift (F : Matrix (Fin N) (Fin N) ℂ) {W : Matrix (Fin N) (Fin m) ℂ} (hW : IsUnit (Wᴴ * W).det) (c : ℂ) :
    ritzGrad (F + c • 1) W = ritzGrad F W := by
  unfold ritzGrad
  have h1 : (F + c • 1) * W = F * W + c • W := by rw [Matrix.add_mul, Matrix.smul_mul, Matrix.one_mul]
  have h2 : (Wᴴ * W)⁻¹ * (Wᴴ * (F + c • 1) * W) = (Wᴴ * W)⁻¹ * (Wᴴ * F * W) + c • 1 := by
    rw [Matrix.mul_assoc Wᴴ, h1, Matrix.mul_add, Matrix.mul_add, Matrix.mul_smul, Matrix.mul_smul,
      Matrix.nonsing_inv_mul _ hW, Matrix.mul_assoc Wᴴ]
  rw [h1, h2, Matrix.mul_add, Matrix.mul_smul, Matrix.mul_one, add_sub_add_right_eq_sub]

/-- A Hermitian matrix is a square less a constant. -/
theorem shifted_square {F : Matrix (Fin N) (Fin N) ℂ} {lam : Fin N → ℝ} (hl : Spec.IsSpectrum F lam) :
    ∃ (c : ℝ) (K : Matrix (Fin N) (Fin N) ℂ), F + (c : ℂ) • 1 = Kᴴ * K := by
  obtain ⟨-, V, hV, h⟩ := hl
  have hV' : V * Vᴴ = 1 := Matrix.mem_unitaryGroup_iff.1 hV
  have hc : ∀ i, 0 ≤ lam i + ∑ j, |lam j| := fun i => by
    have := Finset.single_le_sum (f := fun j => |lam j|) (fun j _ => abs_nonneg _) (Finset.mem_univ i)
    have h2 := neg_abs_le (lam i)
    linarith
  refine ⟨∑ j, |lam j|, Matrix.diagonal (fun i => ((Real.sqrt (lam i + ∑ j, |lam j|) : ℝ) : ℂ)) * Vᴴ, ?_⟩
  rw [Matrix.conjTranspose_mul, Matrix.conjTranspose_conjTranspose, Matrix.diagonal_conjTranspose, Matrix.mul_assoc,
    ← Matrix.mul_assoc (Matrix.diagonal _), Matrix.diagonal_mul_diagonal, ← Matrix.mul_assoc]
  have : (Matrix.diagonal fun i => (star fun i => ((Real.sqrt (lam i + ∑ j, |lam j|) : ℝ) : ℂ)) i
      * ((Real.sqrt (lam i + ∑ j, |lam j|) : ℝ) : ℂ))
      = Matrix.diagonal (fun i => (lam i : ℂ)) + ((∑ j, |lam j| : ℝ) : ℂ) • 1 := by
    rw [Matrix.smul_one_eq_diagonal, Matrix.diagonal_add]
    congr 1
    funext i
    rw [Pi.star_apply, RCLike.star_def, Complex.conj_ofReal, ← Complex.ofReal_mul, Real.mul_self_sqrt (hc i), Complex.ofReal_add]
  rw [this, Matrix.mul_add, Matrix.add_mul, ← h, Matrix.mul_smul, Matrix.mul_one, Matrix.smul_mul, hV']

section
variable {K : Matrix (Fin N) (Fin N) ℂ} {W : Matrix (Fin N) (Fin m) ℂ} (hW : IsUnit (Wᴴ * W).det)
include hW

omit hW in
theorem gram_inv_star : ((Wᴴ * W)⁻¹)ᴴ = (Wᴴ * W)⁻¹ := by
  rw [Matrix.conjTranspose_nonsing_inv, Matrix.conjTranspose_mul, Matrix.conjTranspose_conjTranspose]

theorem dual_square : (W * (Wᴴ * W)⁻¹)ᴴ * (W * (Wᴴ * W)⁻¹) = (Wᴴ * W)⁻¹ := by
  rw [Matrix.conjTranspose_mul, gram_inv_star, Matrix.mul_assoc, ← Matrix.mul_assoc Wᴴ, Matrix.mul_nonsing_inv _ hW,
    Matrix.mul_one]

omit hW in
/-- The gradient is twice the matrix on the dual basis, less something in the column space. -/
theorem grad_split (F : Matrix (Fin N) (Fin N) ℂ) : ∃ X : Matrix (Fin m) (Fin m) ℂ,
    ritzGrad F W = (2 : ℂ) • (F * (W * (Wᴴ * W)⁻¹)) - W * X := by
  refine ⟨(2 : ℂ) • ((Wᴴ * W)⁻¹ * (Wᴴ * F * W) * (Wᴴ * W)⁻¹), ?_⟩
  unfold ritzGrad
  rw [Matrix.sub_mul, smul_sub, Matrix.mul_smul]
  simp only [Matrix.mul_assoc]

theorem grad_square {F : Matrix (Fin N) (Fin N) ℂ} (hF : Fᴴ = F) :
    (ritzGrad F W)ᴴ * ritzGrad F W = (2 : ℂ) • ((Wᴴ * W)⁻¹ * (Wᴴ * F * ritzGrad F W)) := by
  obtain ⟨X, hX⟩ := grad_split F
  have h0 := ritzGrad_orth F hW
  have h1 : (ritzGrad F W)ᴴ = (2 : ℂ) • ((Wᴴ * W)⁻¹ * (Wᴴ * F)) - Xᴴ * Wᴴ := by
    conv_lhs => rw [hX]
    rw [Matrix.conjTranspose_sub, Matrix.conjTranspose_smul, Matrix.conjTranspose_mul, Matrix.conjTranspose_mul,
      Matrix.conjTranspose_mul, gram_inv_star, hF, Matrix.mul_assoc]
    simp
  rw [h1, Matrix.sub_mul, Matrix.mul_assoc Xᴴ, h0, Matrix.mul_zero, sub_zero, Matrix.smul_mul, Matrix.mul_assoc]

theorem grad_bound (F : Matrix (Fin N) (Fin N) ℂ) : fs (ritzGrad F W) ≤ 4 * (fs F * fs (W * (Wᴴ * W)⁻¹)) := by
  obtain ⟨X, hX⟩ := grad_split F
  have h0 := ritzGrad_orth F hW
  have h0' : (ritzGrad F W)ᴴ * W = 0 := by
    have := congrArg Matrix.conjTranspose h0
    rwa [Matrix.conjTranspose_mul, Matrix.conjTranspose_conjTranspose, Matrix.conjTranspose_zero] at this
  have h1 : fs ((2 : ℂ) • (F * (W * (Wᴴ * W)⁻¹))) = fs (ritzGrad F W) + fs (W * X) := by
    have e : (2 : ℂ) • (F * (W * (Wᴴ * W)⁻¹)) = ritzGrad F W + W * X := by rw [hX, sub_add_cancel]
    have : ((fs ((2 : ℂ) • (F * (W * (Wᴴ * W)⁻¹))) : ℝ) : ℂ) = ((fs (ritzGrad F W) + fs (W * X) : ℝ) : ℂ) := by
      rw [e, fs_trace, Complex.ofReal_add, fs_trace, fs_trace, Matrix.conjTranspose_add, Matrix.add_mul, Matrix.mul_add,
        Matrix.mul_add, ← Matrix.mul_assoc _ W X, h0', Matrix.zero_mul, add_zero, Matrix.conjTranspose_mul W X,
        Matrix.mul_assoc Xᴴ Wᴴ (ritzGrad F W), h0, Matrix.mul_zero, zero_add, Matrix.trace_add]
    exact_mod_cast this
  have h2 : fs ((2 : ℂ) • (F * (W * (Wᴴ * W)⁻¹))) = 4 * fs (F * (W * (Wᴴ * W)⁻¹)) := by
    have := fs_smul 2 (F * (W * (Wᴴ * W)⁻¹))
    rw [Complex.ofReal_ofNat] at this
    rw [this]; norm_num
  have h3 := fs_nonneg (W * X)
  have h4 := fs_mul F (W * (Wᴴ * W)⁻¹)
  linarith

theorem step_gram (F : Matrix (Fin N) (Fin N) ℂ) (η : ℝ) :
    (W - (η : ℂ) • ritzGrad F W)ᴴ * (W - (η : ℂ) • ritzGrad F W)
      = Wᴴ * W + ((η : ℂ) • ritzGrad F W)ᴴ * ((η : ℂ) • ritzGrad F W) := by
  have h0 := ritzGrad_orth F hW
  have h0' : (ritzGrad F W)ᴴ * W = 0 := by
    have := congrArg Matrix.conjTranspose h0
    rwa [Matrix.conjTranspose_mul, Matrix.conjTranspose_conjTranspose, Matrix.conjTranspose_zero] at this
  rw [Matrix.conjTranspose_sub, Matrix.sub_mul, Matrix.mul_sub, Matrix.mul_sub, Matrix.mul_smul, h0, smul_zero, sub_zero,
    Matrix.conjTranspose_smul, Matrix.smul_mul _ _ W, h0', smul_zero, zero_sub, sub_neg_eq_add]

/-- Adding a square to the Gram matrix multiplies the determinant by at least one plus the square of the change in the
dual basis. -/
theorem det_growth (D : Matrix (Fin N) (Fin m) ℂ) : ∃ d : ℝ, (Wᴴ * W + Dᴴ * D).det = (Wᴴ * W).det * d ∧
    1 + fs (D * (W * (Wᴴ * W)⁻¹)ᴴ) ≤ d := by
  obtain ⟨d, h1, h2⟩ := det_one_add_square (D * (W * (Wᴴ * W)⁻¹)ᴴ)
  refine ⟨d, ?_, h2⟩
  rw [← h1]
  set L := W * (Wᴴ * W)⁻¹ with hL
  have e : Wᴴ * W + Dᴴ * D = (Wᴴ * W) * (1 + Lᴴ * (L * (Dᴴ * D))) := by
    rw [Matrix.mul_add, Matrix.mul_one, ← Matrix.mul_assoc Lᴴ, dual_square hW, ← Matrix.mul_assoc, Matrix.mul_nonsing_inv _ hW,
      Matrix.one_mul]
  rw [e, Matrix.det_mul, Matrix.det_one_add_mul_comm]
  have e2 : (D * Lᴴ)ᴴ * (D * Lᴴ) = L * (Dᴴ * D) * Lᴴ := by
    rw [Matrix.conjTranspose_mul D Lᴴ, Matrix.conjTranspose_conjTranspose]
    simp only [Matrix.mul_assoc]
  rw [e2]

/-- Adding a square to the Gram matrix lowers its inverse. -/
theorem inv_drop {D : Matrix (Fin N) (Fin m) ℂ} (h' : IsUnit (Wᴴ * W + Dᴴ * D).det)
    (hs : ((Wᴴ * W + Dᴴ * D)⁻¹)ᴴ = (Wᴴ * W + Dᴴ * D)⁻¹) {k : ℕ} (B : Matrix (Fin k) (Fin m) ℂ) :
    ((Wᴴ * W + Dᴴ * D)⁻¹ * (Bᴴ * B)).trace.re ≤ ((Wᴴ * W)⁻¹ * (Bᴴ * B)).trace.re := by
  set M := Wᴴ * W with hM
  set Q := Dᴴ * D with hQ
  set J := (M + Q)⁻¹ with hJ
  set L := W * M⁻¹ with hL
  have hQs : Qᴴ = Q := by rw [hQ, Matrix.conjTranspose_mul, Matrix.conjTranspose_conjTranspose]
  have hLL : Lᴴ * L = M⁻¹ := dual_square hW
  have e : M⁻¹ = J + (D * J)ᴴ * (D * J) + (L * Q * J)ᴴ * (L * Q * J) := by
    have e1 : (D * J)ᴴ * (D * J) = J * Q * J := by
      rw [Matrix.conjTranspose_mul, hs, hQ]; simp only [Matrix.mul_assoc]
    have e2 : (L * Q * J)ᴴ * (L * Q * J) = J * Q * M⁻¹ * Q * J := by
      rw [Matrix.conjTranspose_mul, Matrix.conjTranspose_mul, hs, hQs, ← hLL]; simp only [Matrix.mul_assoc]
    have a1 : (M + Q) * J = 1 := Matrix.mul_nonsing_inv _ h'
    have a2 : J * (M + Q) = 1 := Matrix.nonsing_inv_mul _ h'
    have b1 : M⁻¹ * M = 1 := Matrix.nonsing_inv_mul _ hW
    have b2 : M * M⁻¹ = 1 := Matrix.mul_nonsing_inv _ hW
    have c1 : M⁻¹ = J + J * Q * M⁻¹ := by
      calc M⁻¹ = J * (M + Q) * M⁻¹ := by rw [a2, Matrix.one_mul]
        _ = J * (M * M⁻¹) + J * Q * M⁻¹ := by rw [Matrix.mul_add, Matrix.add_mul, Matrix.mul_assoc J M]
        _ = _ := by rw [b2, Matrix.mul_one]
    have c2 : M⁻¹ = J + M⁻¹ * Q * J := by
      calc M⁻¹ = M⁻¹ * ((M + Q) * J) := by rw [a1, Matrix.mul_one]
        _ = M⁻¹ * M * J + M⁻¹ * Q * J := by rw [Matrix.add_mul, Matrix.mul_add]; simp only [Matrix.mul_assoc]
        _ = _ := by rw [b1, Matrix.one_mul]
    rw [e1, e2]
    calc M⁻¹ = J + J * Q * M⁻¹ := c1
      _ = J + J * Q * (J + M⁻¹ * Q * J) := by rw [← c2]
      _ = _ := by rw [Matrix.mul_add, add_assoc]; simp only [Matrix.mul_assoc]
  have t : (M⁻¹ * (Bᴴ * B)).trace = (J * (Bᴴ * B)).trace + ((fs (D * J * Bᴴ) : ℝ) : ℂ) + ((fs (L * Q * J * Bᴴ) : ℝ) : ℂ) := by
    rw [e, Matrix.add_mul, Matrix.add_mul, Matrix.trace_add, Matrix.trace_add, trace_squares, trace_squares]
  rw [t, Complex.add_re, Complex.add_re, Complex.ofReal_re, Complex.ofReal_re]
  have := fs_nonneg (D * J * Bᴴ)
  have := fs_nonneg (L * Q * J * Bᴴ)
  linarith

theorem step_energy (η : ℝ) (W' : Matrix (Fin N) (Fin m) ℂ)
    (h' : W' = W - (η : ℂ) • ritzGrad (Kᴴ * K) W) :
    ((Wᴴ * W)⁻¹ * ((K * W')ᴴ * (K * W'))).trace.re = ((Wᴴ * W)⁻¹ * ((K * W)ᴴ * (K * W))).trace.re
      - η * fs (ritzGrad (Kᴴ * K) W) + η ^ 2 * fs (W * (Wᴴ * W)⁻¹ * (K * ritzGrad (Kᴴ * K) W)ᴴ) := by
  have hF : (Kᴴ * K)ᴴ = Kᴴ * K := by rw [Matrix.conjTranspose_mul, Matrix.conjTranspose_conjTranspose]
  have hN := grad_square hW hF
  set G := ritzGrad (Kᴴ * K) W with hG
  have hre : ∀ A : Matrix (Fin m) (Fin m) ℂ, (Aᴴ).trace.re = A.trace.re := by
    intro A
    rw [Matrix.trace_conjTranspose, RCLike.star_def, Complex.conj_re]
  have c0 : ((Wᴴ * W)⁻¹ * ((K * W)ᴴ * (K * G))).trace.re = fs G / 2 := by
    have h1 : (Wᴴ * W)⁻¹ * ((K * W)ᴴ * (K * G)) = (Wᴴ * W)⁻¹ * (Wᴴ * (Kᴴ * K) * G) := by
      rw [Matrix.conjTranspose_mul]; simp only [Matrix.mul_assoc]
    have h2 := congrArg (fun A => (Matrix.trace A).re) hN
    rw [← fs_trace, Complex.ofReal_re, Matrix.trace_smul, smul_eq_mul, Complex.mul_re] at h2
    rw [h1]
    norm_num at h2
    linarith
  have c1 : ((Wᴴ * W)⁻¹ * ((K * G)ᴴ * (K * W))).trace.re = fs G / 2 := by
    rw [← c0, ← hre, Matrix.conjTranspose_mul, Matrix.conjTranspose_mul, Matrix.conjTranspose_conjTranspose, gram_inv_star,
      Matrix.trace_mul_comm]
  have c2 : ((Wᴴ * W)⁻¹ * ((K * G)ᴴ * (K * G))).trace.re = fs (W * (Wᴴ * W)⁻¹ * (K * G)ᴴ) := by
    conv_lhs => rw [← dual_square hW]
    rw [trace_squares, Complex.ofReal_re]
  have e : (Wᴴ * W)⁻¹ * ((K * W')ᴴ * (K * W')) = (Wᴴ * W)⁻¹ * ((K * W)ᴴ * (K * W))
      - (η : ℂ) • ((Wᴴ * W)⁻¹ * ((K * W)ᴴ * (K * G))) - (η : ℂ) • ((Wᴴ * W)⁻¹ * ((K * G)ᴴ * (K * W)))
      + (η : ℂ) • ((η : ℂ) • ((Wᴴ * W)⁻¹ * ((K * G)ᴴ * (K * G)))) := by
    rw [h', Matrix.mul_sub, Matrix.mul_smul, Matrix.conjTranspose_sub, Matrix.conjTranspose_smul, RCLike.star_def,
      Complex.conj_ofReal]
    simp only [Matrix.mul_sub, Matrix.sub_mul, Matrix.mul_smul, Matrix.smul_mul, smul_sub]
    abel
  rw [e, Matrix.trace_add, Matrix.trace_sub, Matrix.trace_sub]
  simp only [Matrix.trace_smul, smul_eq_mul, Complex.add_re, Complex.sub_re, Complex.re_ofReal_mul, c0, c1, c2]
  ring
end

/-- Sums in a run whose potential, energy less a multiple of the logarithm of a determinant, falls. -/
theorem bounded_sum {f n y D r η : ℕ → ℝ} {a c h B : ℝ} {k : ℕ} (ha : 0 < a) (hη : ∀ t, a ≤ η t ∧ η t ≤ c) (hh : 0 ≤ h)
    (hf0 : ∀ t, 0 ≤ f t) (hn0 : ∀ t, 0 ≤ n t) (hy : ∀ t, 0 ≤ y t ∧ y t ≤ B)
    (hf : ∀ t, f (t + 1) ≤ f t - η t * n t + h * y t) (hD0 : 0 < D 0) (hD : ∀ t, D t * (1 + y t) ≤ D (t + 1))
    (hr0 : ∀ t, 0 ≤ r t) (hDr : ∀ t, D t ≤ r t ^ k) (hr : ∀ t, r (t + 1) = r t + η t ^ 2 * n t) :
    ∃ C, ∀ T, ∑ t ∈ Finset.range T, n t ≤ C := by
  have hc : 0 ≤ c := ha.le.trans ((hη 0).1.trans (hη 0).2)
  have hB : 0 ≤ B := (hy 0).1.trans (hy 0).2
  have Dpos : ∀ t, 0 < D t := by
    intro t
    induction t with
    | zero => exact hD0
    | succ t ih => exact lt_of_lt_of_le (mul_pos ih (by linarith [(hy t).1])) (hD t)
  have hlog : ∀ t, Real.log (D t) + y t / (1 + B) ≤ Real.log (D (t + 1)) := by
    intro t
    have h1 : 0 < 1 + y t := by linarith [(hy t).1]
    have h2 := Real.log_le_log (mul_pos (Dpos t) h1) (hD t)
    rw [Real.log_mul (Dpos t).ne' h1.ne'] at h2
    have h3 := Real.one_sub_inv_le_log_of_pos h1
    have h4 : y t / (1 + B) ≤ 1 - (1 + y t)⁻¹ := by
      rw [show 1 - (1 + y t)⁻¹ = y t / (1 + y t) by field_simp; ring]
      exact div_le_div_of_nonneg_left (hy t).1 h1 (by linarith [(hy t).2])
    linarith
  have hpot : ∀ t, f (t + 1) - h * (1 + B) * Real.log (D (t + 1)) ≤ f t - h * (1 + B) * Real.log (D t) - η t * n t := by
    intro t
    have h1 := mul_le_mul_of_nonneg_left (hlog t) (mul_nonneg hh (by linarith : 0 ≤ 1 + B))
    have h2 : h * (1 + B) * (Real.log (D t) + y t / (1 + B)) = h * (1 + B) * Real.log (D t) + h * y t := by
      have : (1 + B) ≠ 0 := by linarith
      field_simp
    have := hf t
    linarith
  have hsum : ∀ T, ∑ t ∈ Finset.range T, η t * n t ≤ f 0 - h * (1 + B) * Real.log (D 0) + h * (1 + B) * Real.log (D T) := by
    intro T
    have h1 : ∑ t ∈ Finset.range T, η t * n t
        ≤ f 0 - h * (1 + B) * Real.log (D 0) - (f T - h * (1 + B) * Real.log (D T)) := by
      induction T with
      | zero => simp
      | succ T ih =>
        rw [Finset.sum_range_succ]
        have := hpot T
        linarith
    have := hf0 T
    linarith
  have hrT : ∀ T, r T ≤ r 0 + c * ∑ t ∈ Finset.range T, η t * n t := by
    intro T
    induction T with
    | zero => simp
    | succ T ih =>
      rw [Finset.sum_range_succ, hr, mul_add]
      have h1 : η T ^ 2 * n T ≤ c * (η T * n T) := by
        have h2 : 0 ≤ η T * n T := mul_nonneg (ha.le.trans (hη T).1) (hn0 T)
        nlinarith [mul_le_mul_of_nonneg_right (hη T).2 h2]
      linarith
  set Q := h * (1 + B) * k with hQ
  have hQ0 : 0 ≤ Q := mul_nonneg (mul_nonneg hh (by linarith)) (Nat.cast_nonneg k)
  set A := 2 * Q * c + 1 with hA
  have hA1 : 1 ≤ A := by have := mul_nonneg (mul_nonneg two_pos.le hQ0) hc; linarith
  have hA0 : 0 < A := by linarith
  have hlogr : ∀ T, Real.log (D T) ≤ k * (r T / A + Real.log A) := by
    intro T
    have h1 := Real.log_le_log (Dpos T) (hDr T)
    rw [Real.log_pow] at h1
    refine h1.trans (mul_le_mul_of_nonneg_left ?_ (Nat.cast_nonneg k))
    rcases (hr0 T).eq_or_lt with h0 | h0
    · rw [← h0, Real.log_zero, zero_div, zero_add]
      exact Real.log_nonneg hA1
    · have h2 := Real.log_le_sub_one_of_pos (div_pos h0 hA0)
      rw [Real.log_div h0.ne' hA0.ne'] at h2
      linarith
  refine ⟨2 * (f 0 - h * (1 + B) * Real.log (D 0) + Q * r 0 + Q * Real.log A) / a, fun T => ?_⟩
  set S := ∑ t ∈ Finset.range T, η t * n t with hS
  have hS0 : 0 ≤ S := Finset.sum_nonneg fun t _ => mul_nonneg (ha.le.trans (hη t).1) (hn0 t)
  have h1 : h * (1 + B) * Real.log (D T) ≤ Q * (r T / A) + Q * Real.log A := by
    have := mul_le_mul_of_nonneg_left (hlogr T) (mul_nonneg hh (by linarith : 0 ≤ 1 + B))
    rw [hQ]
    linarith
  have h2 : Q * (r T / A) ≤ Q * r 0 + S / 2 := by
    have e1 : r T / A ≤ r 0 / A + c * S / A := by
      rw [← add_div]
      exact div_le_div_of_nonneg_right (hrT T) hA0.le
    have e2 : r 0 / A ≤ r 0 := div_le_self (hr0 0) hA1
    have e3 : Q * (c * S / A) ≤ S / 2 := by
      rw [show Q * (c * S / A) = (Q * c * S) / A by ring, div_le_iff₀ hA0, hA]
      nlinarith [mul_nonneg (mul_nonneg hQ0 hc) hS0]
    have e4 := mul_le_mul_of_nonneg_left (e1.trans (add_le_add_left e2 _)) hQ0
    rw [mul_add] at e4
    linarith
  have h3 := hsum T
  have h4 : S ≤ 2 * (f 0 - h * (1 + B) * Real.log (D 0) + Q * r 0 + Q * Real.log A) := by linarith
  rw [le_div_iff₀ ha, Finset.sum_mul]
  refine le_trans (Finset.sum_le_sum fun t _ => ?_) h4
  rw [mul_comm]
  exact mul_le_mul_of_nonneg_right (hη t).1 (hn0 t)

/-- Gradient descent on the trace, with step sizes between two positive bounds: the parameters stay independent and
bounded, the squares of the gradients have bounded sums, and the gradient tends to zero. -/
theorem ritz_descent {F : Matrix (Fin N) (Fin N) ℂ} {lam : Fin N → ℝ} (hl : Spec.IsSpectrum F lam)
    (W : ℕ → Matrix (Fin N) (Fin m) ℂ) (hW : IsUnit ((W 0)ᴴ * W 0).det) {η : ℕ → ℝ} {a c : ℝ} (ha : 0 < a)
    (hη : ∀ t, a ≤ η t ∧ η t ≤ c) (hstep : ∀ t, W (t + 1) = W t - (η t : ℂ) • ritzGrad F (W t)) :
    (∀ t, IsUnit ((W t)ᴴ * W t).det) ∧ (∀ t, fs (W t * ((W t)ᴴ * W t)⁻¹) ≤ fs (W 0 * ((W 0)ᴴ * W 0)⁻¹)) ∧
    (∃ B, ∀ t, matSize (W t) ≤ B) ∧ (∃ C, ∀ T, ∑ t ∈ Finset.range T, matSize (ritzGrad F (W t)) ^ 2 ≤ C) ∧
    Filter.Tendsto (fun t => matSize (ritzGrad F (W t))) Filter.atTop (𝓝 0) := by
  have hu : ∀ t, IsUnit ((W t)ᴴ * W t).det := by
    intro t
    induction t with
    | zero => exact hW
    | succ t ih =>
      rw [hstep, step_gram ih]
      obtain ⟨d, h1, h2⟩ := det_growth ih ((η t : ℂ) • ritzGrad F (W t))
      rw [h1]
      refine ih.mul (isUnit_iff_ne_zero.2 (Complex.ofReal_ne_zero.2 (ne_of_gt ?_)))
      linarith [fs_nonneg ((η t : ℂ) • ritzGrad F (W t) * (W t * ((W t)ᴴ * W t)⁻¹)ᴴ)]
  obtain ⟨x, K, hK⟩ := shifted_square hl
  have hG : ∀ t, ritzGrad F (W t) = ritzGrad (Kᴴ * K) (W t) := fun t => by rw [← hK, ritzGrad_shift F (hu t)]
  simp only [hG] at hstep ⊢
  set G := fun t => ritzGrad (Kᴴ * K) (W t) with hGdef
  set L := fun t => W t * ((W t)ᴴ * W t)⁻¹ with hLdef
  have hgram : ∀ t, (W (t + 1))ᴴ * W (t + 1) = (W t)ᴴ * W t + ((η t : ℂ) • G t)ᴴ * ((η t : ℂ) • G t) := fun t => by
    rw [hstep, step_gram (hu t)]
  choose D hD hD0 hDr using fun t => det_square (W t)
  have hDpos : 0 < D 0 := lt_of_le_of_ne (hD0 0) fun h0 => by
    have := (hu 0).ne_zero
    rw [hD, ← h0] at this
    exact this (by simp)
  have hLfs : ∀ t, (((W t)ᴴ * W t)⁻¹).trace.re = fs (L t) := fun t => by
    have := fs_trace (L t)
    rw [dual_square (hu t)] at this
    rw [← this, Complex.ofReal_re]
  have hLmono : ∀ t, fs (L t) ≤ fs (L 0) := by
    intro t
    induction t with
    | zero => exact le_rfl
    | succ t ih =>
      refine le_trans ?_ ih
      rw [← hLfs, ← hLfs, hgram]
      have := inv_drop (hu t) (D := (η t : ℂ) • G t) (by rw [← hgram]; exact hu (t + 1))
        (by rw [← hgram]; exact gram_inv_star) (1 : Matrix (Fin m) (Fin m) ℂ)
      simpa using this
  have hGb : ∀ t, fs (G t) ≤ 4 * (fs (Kᴴ * K) * fs (L 0)) := fun t =>
    (grad_bound (hu t) _).trans (mul_le_mul_of_nonneg_left (mul_le_mul_of_nonneg_left (hLmono t) (fs_nonneg _)) (by norm_num))
  have hη0 : ∀ t, 0 ≤ η t := fun t => ha.le.trans (hη t).1
  have key := bounded_sum (f := fun t => (((W t)ᴴ * W t)⁻¹ * ((K * W t)ᴴ * (K * W t))).trace.re) (n := fun t => fs (G t))
    (y := fun t => fs ((η t : ℂ) • G t * (L t)ᴴ)) (D := D) (r := fun t => fs (W t)) (η := η) (h := fs K)
    (B := c ^ 2 * ((4 * (fs (Kᴴ * K) * fs (L 0))) * fs (L 0))) (k := m) ha hη (fs_nonneg K)
    (fun t => by
      conv_rhs => rw [← dual_square (hu t)]
      rw [trace_squares, Complex.ofReal_re]
      exact fs_nonneg _)
    (fun t => fs_nonneg _)
    (fun t => ⟨fs_nonneg _, by
      rw [Matrix.smul_mul, fs_smul]
      refine mul_le_mul (pow_le_pow_left₀ (hη0 t) (hη t).2 2) ?_ (fs_nonneg _) (sq_nonneg _)
      refine (fs_mul _ _).trans ?_
      rw [fs_star]
      exact mul_le_mul (hGb t) (hLmono t) (fs_nonneg _)
        (mul_nonneg (by norm_num) (mul_nonneg (fs_nonneg _) (fs_nonneg _)))⟩)
    (fun t => by
      have h1 := inv_drop (hu t) (D := (η t : ℂ) • G t) (by rw [← hgram]; exact hu (t + 1))
        (by rw [← hgram]; exact gram_inv_star) (K * W (t + 1))
      rw [← hgram] at h1
      refine h1.trans ?_
      rw [step_energy (hu t) (η t) (W (t + 1)) (hstep t)]
      have h2 : η t ^ 2 * fs (W t * ((W t)ᴴ * W t)⁻¹ * (K * ritzGrad (Kᴴ * K) (W t))ᴴ)
          ≤ fs K * fs ((η t : ℂ) • G t * (L t)ᴴ) := by
        rw [Matrix.smul_mul, fs_smul, mul_left_comm]
        refine mul_le_mul_of_nonneg_left ?_ (sq_nonneg _)
        rw [← fs_star, Matrix.conjTranspose_mul, Matrix.conjTranspose_conjTranspose, Matrix.mul_assoc]
        exact fs_mul K _
      linarith)
    hDpos
    (fun t => by
      obtain ⟨d, h1, h2⟩ := det_growth (hu t) ((η t : ℂ) • G t)
      rw [← hgram, hD, hD, ← Complex.ofReal_mul] at h1
      rw [Complex.ofReal_inj.1 h1]
      exact mul_le_mul_of_nonneg_left h2 (hD0 t))
    (fun t => fs_nonneg _) hDr
    (fun t => by
      have h1 : ((fs (W (t + 1)) : ℝ) : ℂ) = ((fs (W t) + η t ^ 2 * fs (G t) : ℝ) : ℂ) := by
        rw [fs_trace, hgram, Matrix.trace_add, ← fs_trace, ← fs_trace, fs_smul, Complex.ofReal_add]
      exact_mod_cast h1)
  obtain ⟨C, hC⟩ := key
  have hsm : Summable fun t => fs (G t) := summable_of_sum_range_le (fun t => fs_nonneg _) hC
  refine ⟨hu, hLmono, ⟨Real.sqrt (fs (W 0) + c ^ 2 * C), fun t => ?_⟩, ⟨C, hC⟩, ?_⟩
  · have h1 : fs (W t) ≤ fs (W 0) + c ^ 2 * ∑ i ∈ Finset.range t, fs (G i) := by
      induction t with
      | zero => simp
      | succ t ih =>
        have h1 : ((fs (W (t + 1)) : ℝ) : ℂ) = ((fs (W t) + η t ^ 2 * fs (G t) : ℝ) : ℂ) := by
          rw [fs_trace, hgram, Matrix.trace_add, ← fs_trace, ← fs_trace, fs_smul, Complex.ofReal_add]
        have h2 : fs (W (t + 1)) = fs (W t) + η t ^ 2 * fs (G t) := by exact_mod_cast h1
        rw [Finset.sum_range_succ, mul_add, h2]
        have := mul_le_mul_of_nonneg_right (pow_le_pow_left₀ (hη0 t) (hη t).2 2) (fs_nonneg (G t))
        linarith
    refine Real.le_sqrt_of_sq_le (h1.trans ?_)
    have := mul_le_mul_of_nonneg_left (hC t) (sq_nonneg c)
    linarith
  · have h1 := hsm.tendsto_atTop_zero
    have h2 := h1.sqrt
    rw [Real.sqrt_zero] at h2
    refine h2.congr fun t => ?_
    exact Real.sqrt_sq (matSize_nonneg _)

end RitzDescent
end Jrystal
