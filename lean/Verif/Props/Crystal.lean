import Verif.Model.Crystal
import Verif.Lemmas.Grid
import Verif.Props.Cell
import Verif.Props.FftSize
import Mathlib.LinearAlgebra.Matrix.Notation
import Mathlib.Tactic.NormNum
import Mathlib.Tactic.Linarith

/- C46, C47, C57: crystal geometry and k path. -/
namespace Jrystal
open Matrix

/-! ### C46 -/

/-- C46 (part): for a symmetric invertible cell the scaled positions are the fractional coordinates.
Missing: every non-symmetric cell (`scaledPositions_iff`). -/
theorem scaledPositions_partial {m : ℕ} (c : Crystal m) (h : c.cell.det ≠ 0)
    (hs : c.cellᵀ = c.cell) : c.scaledPositions * c.cell = c.positions := by
  unfold Crystal.scaledPositions
  have hu : IsUnit c.cell.det := isUnit_iff_ne_zero.2 h
  rw [transpose_nonsing_inv, hs, Matrix.mul_assoc, nonsing_inv_mul _ hu, Matrix.mul_one]

/-- C46 is false in general: for an invertible cell the scaled positions are the fractional coordinates
of every set of positions exactly when the cell matrix is symmetric. -/
theorem scaledPositions_iff (A : Matrix (Fin 3) (Fin 3) ℝ) (h : A.det ≠ 0) :
    (∀ (m : ℕ) (z : Fin m → ℤ) (p : Matrix (Fin m) (Fin 3) ℝ) (s : ℤ),
      (Crystal.mk z p A s).scaledPositions * A = p) ↔ Aᵀ = A := by
  constructor
  · intro hall
    have h1 := hall 3 (fun _ => 0) 1 0
    unfold Crystal.scaledPositions at h1
    simp only [Matrix.one_mul] at h1
    have hu : IsUnit Aᵀ.det := by rw [det_transpose]; exact isUnit_iff_ne_zero.2 h
    rw [transpose_nonsing_inv] at h1
    calc Aᵀ = Aᵀ * ((Aᵀ)⁻¹ * A) := by rw [h1, Matrix.mul_one]
      _ = A := by rw [← Matrix.mul_assoc, mul_nonsing_inv _ hu, Matrix.one_mul]
  · intro hs m z p s
    exact scaledPositions_partial ⟨z, p, A, s⟩ h hs

/-- A lattice as commonly written (not symmetric) is a counterexample. -/
example : skewCellᵀ ≠ skewCell ∧ skewCell.det ≠ 0 := by
  refine ⟨fun h => ?_, skewCell_det⟩
  have := congrFun (congrFun h 0) 1
  simp [skewCell, Matrix.transpose_apply] at this

/-- C46: the volume is positive. -/
theorem vol_pos {m : ℕ} (c : Crystal m) (h : c.cell.det ≠ 0) : 0 < c.vol := abs_pos.2 h

/-- C46: the volume does not depend on the choice of lattice basis. -/
theorem vol_unimodular {m : ℕ} (c : Crystal m) (U : Matrix (Fin 3) (Fin 3) ℤ)
    (hU : U.det = 1 ∨ U.det = -1) :
    Crystal.vol { c with cell := U.map (Int.cast : ℤ → ℝ) * c.cell } = c.vol := by
  unfold Crystal.vol
  have h : (U.map (Int.cast : ℤ → ℝ)).det = ((U.det : ℤ) : ℝ) := (Int.cast_det U).symm
  simp only [det_mul, abs_mul]
  rw [h]
  rcases hU with hU | hU <;> rw [hU] <;> simp

/-- C46: the volume scales with the cube of the lengths. -/
theorem vol_scale {m : ℕ} (c : Crystal m) (t : ℝ) (ht : 0 < t) :
    Crystal.vol { c with cell := t • c.cell } = t ^ 3 * c.vol := by
  unfold Crystal.vol
  simp only [det_smul, Fintype.card_fin, abs_mul, abs_pow, abs_of_pos ht]

/-- C46: the electron number is the sum of the nuclear charges and the default spin has its parity, so
a crystal without an explicit spin is always accepted. -/
theorem createCrystal_default {m : ℕ} (a : AseAtoms m) :
    ∃ c, createCrystal a none = .ok c ∧ c.numElectron = ∑ i, a.numbers i ∧
      (c.spin = 0 ∨ c.spin = 1) ∧ c.spin % 2 = c.numElectron % 2 := by
  refine ⟨Crystal.fromAse a none, ?_, rfl, ?_, ?_⟩
  · unfold createCrystal checkSpinNumber
    have : (Crystal.fromAse a none).numElectron % 2 = (Crystal.fromAse a none).spin % 2 := by
      show (∑ i, a.numbers i) % 2 = (∑ i, a.numbers i) % 2 % 2
      omega
    simp only [this, ne_eq, not_true, if_false]
  · show (∑ i, a.numbers i) % 2 = 0 ∨ (∑ i, a.numbers i) % 2 = 1
    omega
  · show (∑ i, a.numbers i) % 2 % 2 = (∑ i, a.numbers i) % 2
    omega

/-- C46: an explicit spin is accepted exactly when its parity is that of the electron number. -/
theorem createCrystal_spin {m : ℕ} (a : AseAtoms m) (s : ℤ) :
    (s % 2 = (∑ i, a.numbers i) % 2 → ∃ c, createCrystal a (some s) = .ok c ∧ c.spin = s ∧
      c.charges = a.numbers) ∧
    (s % 2 ≠ (∑ i, a.numbers i) % 2 → createCrystal a (some s) = .error .valueError) := by
  constructor
  · intro h
    refine ⟨Crystal.fromAse a (some s), ?_, rfl, rfl⟩
    unfold createCrystal checkSpinNumber
    have : (Crystal.fromAse a (some s)).numElectron % 2 = (Crystal.fromAse a (some s)).spin % 2 := h.symm
    simp only [this, ne_eq, not_true, if_false]
  · intro h
    unfold createCrystal checkSpinNumber
    have : (Crystal.fromAse a (some s)).numElectron % 2 ≠ (Crystal.fromAse a (some s)).spin % 2 :=
      fun h' => h h'.symm
    simp only [this, ne_eq, not_false_iff, if_true]

/-- C46: the reciprocal vectors are dual to the cell: `b_i · a_j = 2π δ_ij`. -/
theorem crystal_reciprocal_dual {m : ℕ} (c : Crystal m) (h : c.cell.det ≠ 0) (i j : Fin 3) :
    ∑ d, c.reciprocal i d * c.cell j d = if i = j then 2 * Real.pi else 0 := by
  have := recip_dual_apply c.cell h j i
  rw [Finset.sum_congr rfl fun d _ => mul_comm (c.reciprocal i d) (c.cell j d)]
  refine Eq.trans this ?_
  by_cases hij : i = j
  · rw [if_pos hij, if_pos hij.symm]
  · rw [if_neg hij, if_neg (Ne.symm hij)]

/-- Witness: a carbon dimer (12 electrons). -/
example : ∃ c, createCrystal (⟨![6, 6], 0, skewCell⟩ : AseAtoms 2) none = .ok c ∧ c.numElectron = 12 ∧
    c.spin = 0 := by
  obtain ⟨c, h, h1, h2, h3⟩ := createCrystal_default (⟨![6, 6], 0, skewCell⟩ : AseAtoms 2)
  have h12 : c.numElectron = 12 := by rw [h1]; simp [Fin.sum_univ_two]
  refine ⟨c, h, h12, ?_⟩
  rw [h12] at h3
  omega

/-! ### C57 -/

/-- C57 (part): `create_from_symbols` keeps charges and spin, and the fractional geometry; lengths are
rescaled.  Missing: the documented unit (Bohr) of the arguments (`createFromSymbols_wrong_unit`). -/
theorem createFromSymbols_partial {m : ℕ} (z : Fin m → ℤ) (p : Matrix (Fin m) (Fin 3) ℝ)
    (A : Matrix (Fin 3) (Fin 3) ℝ) (s : ℤ) (f : Matrix (Fin m) (Fin 3) ℝ) (hf : f * A = p) :
    let c := Crystal.createFromSymbols z p A (some s)
    c.charges = z ∧ c.spin = s ∧ f * c.cell = c.positions := by
  refine ⟨rfl, rfl, ?_⟩
  show f * ((angstrom2bohr : ℝ) • A) = (angstrom2bohr : ℝ) • p
  rw [Matrix.mul_smul, hf]

/-- C57 is false: positions and cell documented to be in Bohr are multiplied by `ANGSTROM2BOHR`, so the
crystal has the given geometry only if everything is zero; the volume of a non-degenerate cell comes
out more than six times too large. -/
theorem createFromSymbols_wrong_unit {m : ℕ} (z : Fin m → ℤ) (p : Matrix (Fin m) (Fin 3) ℝ)
    (A : Matrix (Fin 3) (Fin 3) ℝ) (s : Option ℤ) (hA : A.det ≠ 0) :
    (Crystal.createFromSymbols z p A s).cell ≠ A ∧
    (p ≠ 0 → (Crystal.createFromSymbols z p A s).positions ≠ p) ∧
    6 * |A.det| < (Crystal.createFromSymbols z p A s).vol := by
  have hc : (1.8 : ℝ) < ((angstrom2bohr : ℚ) : ℝ) ∧ ((angstrom2bohr : ℚ) : ℝ) < 1.9 := by
    unfold angstrom2bohr; constructor <;> norm_num
  have hpos : 0 < |A.det| := abs_pos.2 hA
  have hvol : 6 * |A.det| < (Crystal.createFromSymbols z p A s).vol := by
    show 6 * |A.det| < |(((angstrom2bohr : ℚ) : ℝ) • A).det|
    rw [det_smul, Fintype.card_fin, abs_mul]
    have h6 : (6 : ℝ) < |((angstrom2bohr : ℚ) : ℝ) ^ 3| := by
      rw [abs_of_pos (by have := hc.1; positivity)]
      unfold angstrom2bohr
      norm_num
    exact mul_lt_mul_of_pos_right h6 hpos
  refine ⟨fun h => ?_, fun hp h => hp ?_, hvol⟩
  · unfold Crystal.vol at hvol
    rw [h] at hvol
    linarith
  · ext i j
    have h2 := congrFun (congrFun h i) j
    have h3 : ((angstrom2bohr : ℚ) : ℝ) * p i j = p i j := h2
    have h4 : (((angstrom2bohr : ℚ) : ℝ) - 1) * p i j = 0 := by linarith
    rcases mul_eq_zero.1 h4 with h5 | h5
    · linarith [hc.1]
    · exact h5

/-! ### C47 -/

private theorem kpath_frac {q : ℕ} (f : Matrix (Fin q) (Fin 3) ℝ) (A : Matrix (Fin 3) (Fin 3) ℝ)
    (h : A.det ≠ 0) (b : ℝ) (hb : b ≠ 0) :
    (b • aseCartesianKpts f (b • A)) * Aᵀ = f := by
  unfold aseCartesianKpts
  have hu : IsUnit A.det := isUnit_iff_ne_zero.2 h
  have hinv : (b • A)⁻¹ = b⁻¹ • A⁻¹ := by
    apply Matrix.inv_eq_left_inv
    rw [Matrix.smul_mul, Matrix.mul_smul, nonsing_inv_mul _ hu, smul_smul, inv_mul_cancel₀ hb, one_smul]
  rw [hinv, transpose_smul, Matrix.mul_smul, smul_smul, mul_inv_cancel₀ hb, one_smul, Matrix.mul_assoc,
    ← transpose_mul, mul_nonsing_inv _ hu, transpose_one, Matrix.mul_one]

/-- C47: with `fractional=True` the result is exactly the fractional path of ase; the two Bohr/Angstrom
factors cancel. -/
theorem getKPath_fractional {q : ℕ} (bandpath : Matrix (Fin 3) (Fin 3) ℝ → Matrix (Fin q) (Fin 3) ℝ)
    (A : Matrix (Fin 3) (Fin 3) ℝ) (h : A.det ≠ 0) :
    getKPath bandpath A true = bandpath (((bohr2angstrom : ℚ) : ℝ) • A) := by
  have hb : ((bohr2angstrom : ℚ) : ℝ) ≠ 0 := by unfold bohr2angstrom; norm_num
  exact kpath_frac _ A h _ hb

/-- C47: with `fractional=False` the same points in Cartesian reciprocal coordinates: point `q` is
`∑ l, frac q l • b_l` with the reciprocal vectors of the crystal. -/
theorem getKPath_cartesian {q : ℕ} (bandpath : Matrix (Fin 3) (Fin 3) ℝ → Matrix (Fin q) (Fin 3) ℝ)
    (A : Matrix (Fin 3) (Fin 3) ℝ) (h : A.det ≠ 0) :
    getKPath bandpath A false = bandpath (((bohr2angstrom : ℚ) : ℝ) • A) * reciprocalVectors A := by
  have hb : ((bohr2angstrom : ℚ) : ℝ) ≠ 0 := by unfold bohr2angstrom; norm_num
  have hB : ((A⁻¹)ᵀ * (2 : Matrix (Fin 3) (Fin 3) ℝ)) * (Real.pi • 1) = reciprocalVectors A := by
    unfold reciprocalVectors
    have h2 : (2 : Matrix (Fin 3) (Fin 3) ℝ) = (2 : ℝ) • 1 := by
      ext i j
      rw [Matrix.ofNat_apply]
      simp [Matrix.one_apply]
    rw [h2, Matrix.mul_smul, Matrix.mul_smul, Matrix.mul_one, Matrix.mul_one, smul_smul, mul_comm]
  show (((bohr2angstrom : ℚ) : ℝ) • aseCartesianKpts _ _) * Aᵀ * _ = _
  rw [kpath_frac _ A h _ hb, hB]

/-- Witness: a two-point path on a skew cell. -/
example : getKPath (fun _ => !![0, 0, 0; 1/2, 0, 1/2]) skewCell true = !![0, 0, 0; 1/2, 0, 1/2] :=
  getKPath_fractional _ _ skewCell_det

/-! ### Grid sizes of the drivers -/

/-- C08/C01: the k mesh actually used equals the requested one only if the requested sizes are FFT
sizes: a request of 11 points per axis silently becomes 12. -/
theorem createGrids_kmesh_rounded :
    createGridsSizes (.scalar 64) (.scalar 11) = .ok ([64, 64, 64], [12, 12, 12]) := by
  decide +kernel

end Jrystal
