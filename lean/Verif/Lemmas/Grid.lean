import Verif.Model.Grid
import Verif.Spec.Grid
import Mathlib.Tactic.Linarith
import Mathlib.Tactic.FieldSimp
import Mathlib.Tactic.FinCases
import Mathlib.Tactic.Positivity

namespace Jrystal
open scoped BigOperators
open Matrix

theorem sfreq_eq {n j : ℕ} (h : j < n) :
    sfreq n j = if 2 * j < n then (j : ℤ) else (j : ℤ) - n := by
  unfold sfreq
  split_ifs <;> omega

theorem sfreq_spec {n j : ℕ} (h : j < n) : Spec.IsSignedFreq n j (sfreq n j) := by
  rw [sfreq_eq h]
  unfold Spec.IsSignedFreq
  split_ifs with h2
  · refine ⟨by simp, by omega, by omega⟩
  · refine ⟨⟨-1, by ring⟩, by omega, by omega⟩

theorem isSignedFreq_unique {n j : ℕ} {f f' : ℤ} (h : Spec.IsSignedFreq n j f)
    (h' : Spec.IsSignedFreq n j f') : f = f' := by
  obtain ⟨⟨a, ha⟩, h1, h2⟩ := h
  obtain ⟨⟨b, hb⟩, h3, h4⟩ := h'
  have hd : f - f' = n * (a - b) := by linarith
  have hn : (0 : ℤ) < n ∨ n = 0 := by omega
  rcases hn with hn | hn
  · have : a - b = 0 := by
      by_contra hne
      rcases lt_or_gt_of_ne hne with hl | hl
      · have : (n : ℤ) * (a - b) ≤ n * (-1) := by apply mul_le_mul_of_nonneg_left <;> omega
        omega
      · have : (n : ℤ) * 1 ≤ n * (a - b) := by apply mul_le_mul_of_nonneg_left <;> omega
        omega
    rw [this] at hd; omega
  · subst hn; omega

theorem sfreq_inj {n i j : ℕ} (hi : i < n) (hj : j < n) (h : sfreq n i = sfreq n j) : i = j := by
  rw [sfreq_eq hi, sfreq_eq hj] at h
  split_ifs at h <;> omega

theorem sfreq_zero (n : ℕ) : sfreq n 0 = 0 := by unfold sfreq; simp

theorem sfreq_cong {n j : ℕ} (h : j < n) : ∃ m : ℤ, sfreq n j = j + n * m := by
  obtain ⟨⟨m, hm⟩, -⟩ := sfreq_spec h
  exact ⟨m, by linarith⟩

theorem fftfreq_int {n j : ℕ} (h : j < n) : fftfreq n (1 / (n : ℝ)) j = sfreq n j := by
  have : (n : ℝ) ≠ 0 := by exact_mod_cast (by omega : n ≠ 0)
  unfold fftfreq; field_simp

theorem fftfreq_one (n j : ℕ) : fftfreq n 1 j = (sfreq n j : ℝ) / n := by
  unfold fftfreq; simp

theorem gVectors_apply (A : Matrix (Fin 3) (Fin 3) ℝ) (n : Fin 3 → ℕ) (k : Idx n) (d : Fin 3) :
    gVectors A n k d = ∑ i, (sfreq (n i) (k i) : ℝ) * reciprocalVectors A i d := by
  unfold gVectors vectorGrid
  refine Finset.sum_congr rfl fun i _ => ?_
  simp only [Bool.false_eq_true, if_false]
  rw [fftfreq_int (k i).2]

theorem rVectors_apply (A : Matrix (Fin 3) (Fin 3) ℝ) (n : Fin 3 → ℕ) (j : Idx n) (d : Fin 3) :
    rVectors A n j d = ∑ i, (sfreq (n i) (j i) : ℝ) / (n i) * A i d := by
  unfold rVectors vectorGrid
  refine Finset.sum_congr rfl fun i _ => ?_
  simp only [if_true]
  rw [fftfreq_one]

theorem recip_dual (A : Matrix (Fin 3) (Fin 3) ℝ) (hA : A.det ≠ 0) :
    A * (reciprocalVectors A)ᵀ = (2 * Real.pi) • (1 : Matrix (Fin 3) (Fin 3) ℝ) := by
  unfold reciprocalVectors
  rw [transpose_smul, transpose_transpose, mul_smul_comm, mul_nonsing_inv _ (Ne.isUnit hA)]

theorem recip_dual_apply (A : Matrix (Fin 3) (Fin 3) ℝ) (hA : A.det ≠ 0) (i l : Fin 3) :
    ∑ d, A i d * reciprocalVectors A l d = if i = l then 2 * Real.pi else 0 := by
  have h := congrFun (congrFun (recip_dual A hA) i) l
  rw [mul_apply] at h
  simp only [transpose_apply] at h
  rw [h, Matrix.smul_apply, one_apply]
  split_ifs <;> simp

/-- Inner product of two combinations, one of reciprocal vectors, one of cell vectors. -/
theorem dual_dot (A : Matrix (Fin 3) (Fin 3) ℝ) (hA : A.det ≠ 0) (x y : Fin 3 → ℝ) :
    ∑ d, (∑ i, x i * reciprocalVectors A i d) * (∑ l, y l * A l d)
      = 2 * Real.pi * ∑ i, x i * y i := by
  have : ∀ d, (∑ i, x i * reciprocalVectors A i d) * (∑ l, y l * A l d)
      = ∑ i, ∑ l, x i * y l * (A l d * reciprocalVectors A i d) := by
    intro d
    rw [Finset.sum_mul_sum]
    refine Finset.sum_congr rfl fun i _ => Finset.sum_congr rfl fun l _ => by ring
  simp_rw [this]
  rw [Finset.sum_comm]
  rw [Finset.mul_sum]
  refine Finset.sum_congr rfl fun i _ => ?_
  rw [Finset.sum_comm]
  simp_rw [← Finset.mul_sum, recip_dual_apply A hA]
  simp
  ring

theorem sqrt_normSq3 (v : Fin 3 → ℝ) : Real.sqrt (normSq3 v) ^ 2 = normSq3 v := by
  apply Real.sq_sqrt
  unfold normSq3
  exact Finset.sum_nonneg fun d _ => sq_nonneg _

theorem normSq3_eq_dot (v : Fin 3 → ℝ) : normSq3 v = Spec.dot v v := by
  unfold normSq3 Spec.dot
  exact Finset.sum_congr rfl fun d _ => by ring

/-- Combination of the rows of an invertible matrix determines the coefficients. -/
theorem row_comb_inj (B : Matrix (Fin 3) (Fin 3) ℝ) (hB : B.det ≠ 0) (x y : Fin 3 → ℝ)
    (h : ∀ d, ∑ i, x i * B i d = ∑ i, y i * B i d) : x = y := by
  have h' : x ᵥ* B = y ᵥ* B := by
    funext d; simpa [vecMul, dotProduct] using h d
  exact Matrix.vecMul_injective_of_isUnit ((Matrix.isUnit_iff_isUnit_det _).2 (Ne.isUnit hB)) h'

theorem recip_det_ne_zero (A : Matrix (Fin 3) (Fin 3) ℝ) (hA : A.det ≠ 0) :
    (reciprocalVectors A).det ≠ 0 := by
  unfold reciprocalVectors
  rw [det_smul, det_transpose, det_nonsing_inv]
  have : (2 * Real.pi) ≠ 0 := by positivity
  simp [Ring.inverse_eq_inv', hA, this]

end Jrystal
