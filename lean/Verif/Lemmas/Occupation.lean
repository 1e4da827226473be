import Verif.Model.Occupation
import Verif.Lemmas.Proj
import Mathlib.Algebra.BigOperators.Fin
import Mathlib.LinearAlgebra.Matrix.Trace
import Mathlib.Tactic.Linarith
import Mathlib.Tactic.FieldSimp
import Mathlib.Tactic.Positivity

namespace Jrystal
open scoped BigOperators
open Matrix

theorem pyBound_le (n : ℕ) (x : ℤ) : pyBound n x ≤ n := by
  unfold pyBound; split_ifs <;> omega

theorem inSlice_zero (n : ℕ) (x : ℤ) (b : ℕ) : inSlice n 0 x b = true ↔ b < pyBound n x := by
  unfold inSlice
  have : pyBound n 0 = 0 := by unfold pyBound; simp
  rw [this]; simp

theorem sum_slice {K : Type*} [Field K] (n : ℕ) (x : ℤ) (v : K) :
    ∑ b : Fin n, (if inSlice n 0 x b then v else 0) = (pyBound n x : K) * v := by
  have h1 : ∀ b : Fin n, (if inSlice n 0 x b then v else 0)
      = (fun b : ℕ => if b < pyBound n x then v else 0) b := by
    intro b
    simp only [inSlice_zero]
  rw [Finset.sum_congr rfl (fun b _ => h1 b), Fin.sum_univ_eq_sum_range
    (fun b : ℕ => if b < pyBound n x then v else 0) n, ← Finset.sum_filter]
  have : (Finset.range n).filter (fun b => b < pyBound n x) = Finset.range (pyBound n x) := by
    ext b
    have := pyBound_le n x
    simp only [Finset.mem_filter, Finset.mem_range]; omega
  rw [this]; simp

theorem total_pair {nk nb : ℕ} {K : Type*} [AddCommMonoid K] (a b : Fin nk → Fin nb → K) :
    OccArr.total [a, b] = (∑ k, ∑ i, a k i) + ∑ k, ∑ i, b k i := by
  simp [OccArr.total]

theorem total_sumSpin {nk nb : ℕ} {K : Type*} [AddCommMonoid K] (a b : Fin nk → Fin nb → K) :
    OccArr.total (sumSpin [a, b]) = (∑ k, ∑ i, a k i) + ∑ k, ∑ i, b k i := by
  simp [OccArr.total, sumSpin, Finset.sum_add_distrib]

theorem total_ite {nk nb : ℕ} {K : Type*} [AddCommMonoid K] (r : Bool) (a b : Fin nk → Fin nb → K) :
    OccArr.total (if r then sumSpin [a, b] else [a, b])
      = (∑ k, ∑ i, a k i) + ∑ k, ∑ i, b k i := by
  cases r
  · simpa using total_pair a b
  · simpa using total_sumSpin a b

theorem sum_unravel {nk nb : ℕ} {K : Type*} [AddCommMonoid K] (v : Fin (nk * nb) → K) :
    ∑ k, ∑ b, unravel v k b = ∑ i, v i := by
  rw [← Equiv.sum_comp finProdFinEquiv v, Fintype.sum_prod_type]
  rfl

theorem sum_ravel {nk nb : ℕ} {K : Type*} [AddCommMonoid K] (a : Fin nk → Fin nb → K) :
    ∑ i, ravel a i = ∑ k, ∑ b, a k b := by
  rw [← Equiv.sum_comp finProdFinEquiv (ravel a), Fintype.sum_prod_type]
  unfold ravel
  simp

theorem sigmoid_bounds (t : ℝ) : 0 < sigmoid t ∧ sigmoid t < 1 := by
  unfold sigmoid
  have := Real.exp_pos (-t)
  constructor
  · positivity
  · rw [div_lt_one (by positivity)]; linarith

theorem sigmoid_injective : Function.Injective sigmoid := by
  intro a b h
  unfold sigmoid at h
  have h1 := Real.exp_pos (-a)
  have h2 := Real.exp_pos (-b)
  rw [div_eq_div_iff (by positivity) (by positivity)] at h
  have : Real.exp (-a) = Real.exp (-b) := by linarith
  have := Real.exp_injective this
  linarith

/-- Rows of a matrix with orthonormal columns have norm at most one. -/
theorem row_norm_le_one {n m : ℕ} (q : Matrix (Fin n) (Fin m) ℝ) (h : qᵀ * q = 1) (i : Fin n) :
    ∑ j, q i j * qᵀ j i ≤ 1 := by
  -- P = q qᵀ is idempotent and symmetric, so P_ii = Σ_l P_il² ≥ P_ii²
  set P := q * qᵀ with hP
  have hii : ∑ j, q i j * qᵀ j i = P i i := by rw [hP, Matrix.mul_apply]
  have hidem : P * P = P := by
    rw [hP, Matrix.mul_assoc, ← Matrix.mul_assoc qᵀ q qᵀ, h, Matrix.one_mul]
  have hsymm : ∀ l, P l i = P i l := by
    intro l
    have : Pᵀ = P := by rw [hP, Matrix.transpose_mul, Matrix.transpose_transpose]
    rw [← this, Matrix.transpose_apply, this]
  have h1 : P i i = ∑ l, P i l * P i l := by
    conv_lhs => rw [← hidem, Matrix.mul_apply]
    exact Finset.sum_congr rfl fun l _ => by rw [hsymm l]
  have h2 : P i i * P i i ≤ P i i := by
    conv_rhs => rw [h1]
    exact Finset.single_le_sum (f := fun l => P i l * P i l) (fun l _ => mul_self_nonneg _)
      (Finset.mem_univ i)
  rw [hii]
  by_contra hc
  push Not at hc
  have : P i i * 1 < P i i * P i i := mul_lt_mul_of_pos_left hc (by linarith)
  linarith

/-- The rows' squared norms add up to the number of columns. -/
theorem row_norm_sum {n m : ℕ} (q : Matrix (Fin n) (Fin m) ℝ) (h : qᵀ * q = 1) :
    ∑ i, ∑ j, q i j * qᵀ j i = (m : ℝ) := by
  rw [Finset.sum_comm]
  have : ∀ j, ∑ i, q i j * qᵀ j i = (1 : Matrix (Fin m) (Fin m) ℝ) j j := by
    intro j
    rw [← h, Matrix.mul_apply]
    exact Finset.sum_congr rfl fun i _ => mul_comm _ _
  simp_rw [this]
  simp

theorem qr_orth_real (qr : QR ℝ) {n m : ℕ} (w : Matrix (Fin n) (Fin m) ℝ) :
    (qr.q w)ᵀ * qr.q w = 1 := by
  have := qr.orth w
  rwa [Matrix.conjTranspose_eq_transpose_of_trivial] at this

theorem idemChannel_sum (qr : QR ℝ) {nk nb m : ℕ} (w : Matrix (Fin (nk * nb)) (Fin m) ℝ) :
    ∑ k, ∑ b, idemChannel qr w k b = ((min (nk * nb) m : ℕ) : ℝ) := by
  unfold idemChannel
  rw [sum_unravel]
  exact row_norm_sum _ (qr_orth_real qr w)

theorem idemChannel_bounds (qr : QR ℝ) {nk nb m : ℕ} (w : Matrix (Fin (nk * nb)) (Fin m) ℝ)
    (k : Fin nk) (b : Fin nb) : 0 ≤ idemChannel qr w k b ∧ idemChannel qr w k b ≤ 1 := by
  unfold idemChannel unravel
  refine ⟨Finset.sum_nonneg fun j _ => ?_, row_norm_le_one _ (qr_orth_real qr w) _⟩
  rw [Matrix.transpose_apply]; exact mul_self_nonneg _

end Jrystal
