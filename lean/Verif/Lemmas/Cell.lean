import Verif.Lemmas.Grid
import Mathlib.LinearAlgebra.Matrix.DotProduct

namespace Jrystal
open scoped BigOperators
open Matrix

/-- Matrix of integer frequencies, one row per grid point. -/
noncomputable def freqMatrix (n : Fin 3 → ℕ) : Matrix (Idx n) (Fin 3) ℝ :=
  Matrix.of fun k i => (sfreq (n i) (k i) : ℝ)

/-- Matrix of fractional coordinates. -/
noncomputable def fracMatrix (n : Fin 3 → ℕ) : Matrix (Idx n) (Fin 3) ℝ :=
  Matrix.of fun k i => (sfreq (n i) (k i) : ℝ) / n i

theorem gridMatrix_g (A : Matrix (Fin 3) (Fin 3) ℝ) (n : Fin 3 → ℕ) :
    gridMatrix (gVectors A n) = freqMatrix n * reciprocalVectors A := by
  ext k d
  simp only [gridMatrix, Matrix.of_apply, Matrix.mul_apply, freqMatrix]
  exact gVectors_apply A n k d

theorem gridMatrix_r (A : Matrix (Fin 3) (Fin 3) ℝ) (n : Fin 3 → ℕ) :
    gridMatrix (rVectors A n) = fracMatrix n * A := by
  ext k d
  simp only [gridMatrix, Matrix.of_apply, Matrix.mul_apply, fracMatrix]
  exact rVectors_apply A n k d

theorem gram_isUnit {ι : Type*} [Fintype ι] (M : Matrix ι (Fin 3) ℝ)
    (h : ∀ v : Fin 3 → ℝ, M *ᵥ v = 0 → v = 0) : IsUnit (Mᵀ * M).det := by
  rw [← Matrix.isUnit_iff_isUnit_det, ← Matrix.mulVec_injective_iff_isUnit]
  intro v w hvw
  have hz : (Mᵀ * M) *ᵥ (v - w) = 0 := by rw [Matrix.mulVec_sub]; exact sub_eq_zero.2 hvw
  have : M *ᵥ (v - w) = 0 := by
    have h1 : (M *ᵥ (v - w)) ⬝ᵥ (M *ᵥ (v - w)) = 0 := by
      rw [Matrix.dotProduct_mulVec, Matrix.vecMul_mulVec, ← Matrix.dotProduct_mulVec]
      rw [hz]; simp
    exact dotProduct_self_eq_zero.1 h1
  exact sub_eq_zero.1 (h _ this)

/-- The index with `1` on axis `i` and `0` elsewhere. -/
def unitIdx (n : Fin 3 → ℕ) (h : ∀ i, 2 ≤ n i) (i : Fin 3) : Idx n :=
  fun l => if l = i then ⟨1, by have := h l; omega⟩ else ⟨0, by have := h l; omega⟩

theorem sfreq_one_ne (n : ℕ) (h : 2 ≤ n) : sfreq n 1 ≠ 0 := by
  rw [sfreq_eq (by omega)]; split_ifs <;> omega

theorem freqMatrix_inj (n : Fin 3 → ℕ) (h : ∀ i, 2 ≤ n i) (c : Fin 3 → ℝ) (hc : ∀ i, c i ≠ 0)
    (v : Fin 3 → ℝ)
    (hv : ∀ k : Idx n, ∑ i, (sfreq (n i) (k i) : ℝ) * c i * v i = 0) : v = 0 := by
  funext i
  have := hv (unitIdx n h i)
  rw [Finset.sum_eq_single i] at this
  · simp only [unitIdx, if_true] at this
    have h1 : (sfreq (n i) 1 : ℝ) ≠ 0 := by exact_mod_cast sfreq_one_ne _ (h i)
    have h2 := hc i
    simpa [h1, h2] using this
  · intro l _ hl
    simp [unitIdx, hl, sfreq_zero]
  · simp

theorem recip_one : reciprocalVectors (1 : Matrix (Fin 3) (Fin 3) ℝ) = (2 * Real.pi) • 1 := by
  unfold reciprocalVectors; simp

theorem gram_freq (n : Fin 3 → ℕ) (h : ∀ i, 2 ≤ n i) :
    IsUnit ((gridMatrix (gVectors 1 n))ᵀ * gridMatrix (gVectors 1 n)).det := by
  apply gram_isUnit
  intro v hv
  apply freqMatrix_inj n h (fun _ => 2 * Real.pi) (fun _ => by positivity)
  intro k
  have := congrFun hv k
  rw [gridMatrix_g, recip_one] at this
  simpa [Matrix.mulVec, dotProduct, freqMatrix, mul_comm] using this

theorem gram_frac (n : Fin 3 → ℕ) (h : ∀ i, 2 ≤ n i) :
    IsUnit ((gridMatrix (rVectors 1 n))ᵀ * gridMatrix (rVectors 1 n)).det := by
  apply gram_isUnit
  intro v hv
  apply freqMatrix_inj n h (fun i => 1 / (n i : ℝ)) (fun i => by
    have := h i
    have : (n i : ℝ) ≠ 0 := by exact_mod_cast (by omega : n i ≠ 0)
    positivity)
  intro k
  have := congrFun hv k
  rw [gridMatrix_r, Matrix.mul_one] at this
  simpa [Matrix.mulVec, dotProduct, fracMatrix, div_eq_mul_inv] using this

theorem g2cell_eq_transpose (A : Matrix (Fin 3) (Fin 3) ℝ) (hA : A.det ≠ 0) (n : Fin 3 → ℕ)
    (h : ∀ i, 2 ≤ n i) : g2cellVectors (gVectors A n) = Aᵀ := by
  unfold g2cellVectors
  have hb : gridMatrix (gVectors A n) = gridMatrix (gVectors 1 n) * (A⁻¹)ᵀ := by
    rw [gridMatrix_g, gridMatrix_g, recip_one, reciprocalVectors, Matrix.mul_assoc]
    simp
  simp only
  rw [hb, ← Matrix.mul_assoc, Matrix.mul_assoc _ _ (gridMatrix (gVectors 1 n)),
    Matrix.nonsing_inv_mul _ (gram_freq n h), Matrix.one_mul, ← Matrix.transpose_nonsing_inv,
    Matrix.nonsing_inv_nonsing_inv _ (Ne.isUnit hA)]

theorem r2cell_eq (A : Matrix (Fin 3) (Fin 3) ℝ) (n : Fin 3 → ℕ)
    (h : ∀ i, 2 ≤ n i) : r2cellVectors (rVectors A n) = A := by
  unfold r2cellVectors
  have hb : gridMatrix (rVectors A n) = gridMatrix (rVectors 1 n) * A := by
    rw [gridMatrix_r, gridMatrix_r, Matrix.mul_one]
  simp only
  rw [hb, ← Matrix.mul_assoc, Matrix.mul_assoc _ _ (gridMatrix (rVectors 1 n)),
    Matrix.nonsing_inv_mul _ (gram_frac n h), Matrix.one_mul]

end Jrystal
