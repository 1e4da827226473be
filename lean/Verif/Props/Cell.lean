import Verif.Lemmas.Cell

/- C07: recovering the cell from its grids. -/
namespace Jrystal
open Matrix

/-- C07: the cell is recovered from its real-space grid. -/
theorem r2cell_recovers (A : Matrix (Fin 3) (Fin 3) ℝ) (n : Fin 3 → ℕ) (h : ∀ i, 2 ≤ n i) :
    r2cellVectors (rVectors A n) = A := r2cell_eq A n h

/-- C07: converting a real grid to a G grid without giving the cell yields the G grid of the crystal. -/
theorem r2g_converts (A : Matrix (Fin 3) (Fin 3) ℝ) (n : Fin 3 → ℕ) (h : ∀ i, 2 ≤ n i) :
    r2gVectorGrid (rVectors A n) none = gVectors A n := by
  unfold r2gVectorGrid
  rw [Option.getD_none, r2cell_eq A n h]

/-- C07: with an explicit cell both conversions use that cell, on every grid. -/
theorem grid_convert_explicit (A : Matrix (Fin 3) (Fin 3) ℝ) (n : Fin 3 → ℕ)
    (f : Idx n → Fin 3 → ℝ) :
    r2gVectorGrid f (some A) = gVectors A n ∧ g2rVectorGrid f (some A) = rVectors A n := ⟨rfl, rfl⟩

/-- C07: what the code does return from a G grid is the transposed cell. -/
theorem g2cell_transposes (A : Matrix (Fin 3) (Fin 3) ℝ) (hA : A.det ≠ 0) (n : Fin 3 → ℕ)
    (h : ∀ i, 2 ≤ n i) : g2cellVectors (gVectors A n) = Aᵀ := g2cell_eq_transpose A hA n h

/-- C07 (part): the cell is recovered from its G grid exactly when it is symmetric.  Missing: general
cells, for which the claim is false (`g2cell_not_recovered`). -/
theorem g2cell_recovers_partial (A : Matrix (Fin 3) (Fin 3) ℝ) (hA : A.det ≠ 0) (n : Fin 3 → ℕ)
    (h : ∀ i, 2 ≤ n i) : g2cellVectors (gVectors A n) = A ↔ ∀ i j, A i j = A j i := by
  rw [g2cell_eq_transpose A hA n h]
  constructor
  · intro e i j
    have := congrFun (congrFun e j) i
    simpa [Matrix.transpose_apply] using this
  · intro e; ext i j; exact e j i

/-- C07 (part): for symmetric cells a G grid converts to the real grid of the crystal. -/
theorem g2r_converts_partial (A : Matrix (Fin 3) (Fin 3) ℝ) (hA : A.det ≠ 0) (n : Fin 3 → ℕ)
    (h : ∀ i, 2 ≤ n i) (hs : ∀ i j, A i j = A j i) :
    g2rVectorGrid (gVectors A n) none = rVectors A n := by
  unfold g2rVectorGrid
  rw [Option.getD_none, (g2cell_recovers_partial A hA n h).2 hs]

/-- A skew cell (hexagonal-like), used as witness. -/
def skewCell : Matrix (Fin 3) (Fin 3) ℝ := !![1, 0, 0; 1, 2, 0; 0, 1, 3]

theorem skewCell_det : skewCell.det ≠ 0 := by
  simp [skewCell, Matrix.det_fin_three]

/-- C07 is false for the G grid of a non-symmetric cell. -/
theorem g2cell_not_recovered :
    ¬ ∀ (A : Matrix (Fin 3) (Fin 3) ℝ) (n : Fin 3 → ℕ), A.det ≠ 0 → (∀ i, 2 ≤ n i) →
      g2cellVectors (gVectors A n) = A := by
  intro h
  have := (g2cell_recovers_partial skewCell skewCell_det (fun _ => 4) (by decide)).1
    (h skewCell (fun _ => 4) skewCell_det (by decide)) 0 1
  simp [skewCell] at this

/-- Witness for the hypotheses of the symmetric case: the fcc cell is symmetric and invertible. -/
example : (∀ i j, (!![0, 1, 1; 1, 0, 1; 1, 1, 0] : Matrix (Fin 3) (Fin 3) ℝ) i j
      = (!![0, 1, 1; 1, 0, 1; 1, 1, 0] : Matrix (Fin 3) (Fin 3) ℝ) j i) ∧
    (!![0, 1, 1; 1, 0, 1; 1, 1, 0] : Matrix (Fin 3) (Fin 3) ℝ).det ≠ 0 := by
  constructor
  · intro i j; fin_cases i <;> fin_cases j <;> simp
  · simp [Matrix.det_fin_three]

end Jrystal
