import Verif.Spec.Spectrum
import Mathlib.Analysis.Matrix.Spectrum
import Mathlib.Data.Fin.Tuple.Sort
import Mathlib.LinearAlgebra.FiniteDimensional.Lemmas

/- Separation theorem for eigenvalues of compressed Hermitian matrices. -/
namespace Jrystal
open scoped BigOperators ComplexConjugate
open Matrix

private theorem form_diag {a b : ℕ} (W : Matrix (Fin a) (Fin b) ℂ) (d : Fin a → ℝ) (y : Fin b → ℂ) :
    star y ⬝ᵥ ((Wᴴ * Matrix.diagonal (fun i => (d i : ℂ)) * W) *ᵥ y)
      = ((∑ i, d i * Complex.normSq ((W *ᵥ y) i) : ℝ) : ℂ) := by
  rw [← Matrix.mulVec_mulVec, ← Matrix.mulVec_mulVec, Matrix.dotProduct_mulVec, ← Matrix.star_mulVec]
  push_cast
  refine Finset.sum_congr rfl fun i _ => ?_
  rw [Matrix.mulVec_diagonal, Complex.normSq_eq_conj_mul_self, Pi.star_apply, RCLike.star_def]
  ring

/-- Separation: the `j`-th eigenvalue of a compression is at least the `j`-th eigenvalue. -/
theorem spectrum_separation {N m : ℕ} (hm : m ≤ N) {H : Matrix (Fin N) (Fin N) ℂ} {lam : Fin N → ℝ}
    (hH : Spec.IsSpectrum H lam) {C : Matrix (Fin N) (Fin m) ℂ} (hC : Cᴴ * C = 1)
    {mu : Fin m → ℝ} (hM : Spec.IsSpectrum (Cᴴ * H * C) mu) (j : Fin m) :
    lam (Fin.castLE hm j) ≤ mu j := by
  obtain ⟨hlam, V, hV, hH⟩ := hH
  obtain ⟨hmu, U, hU, hM⟩ := hM
  have hV' : V * Vᴴ = 1 := Matrix.mem_unitaryGroup_iff.1 hV
  have hU' : Uᴴ * U = 1 := Matrix.mem_unitaryGroup_iff'.1 hU
  let W : Matrix (Fin N) (Fin m) ℂ := Vᴴ * C * U
  have hW : Wᴴ = Uᴴ * Cᴴ * V := by
    simp only [W, Matrix.conjTranspose_mul, Matrix.conjTranspose_conjTranspose, Matrix.mul_assoc]
  have hWW : Wᴴ * W = 1 := by
    rw [hW]
    calc Uᴴ * Cᴴ * V * (Vᴴ * C * U) = Uᴴ * Cᴴ * (V * Vᴴ) * C * U := by simp only [Matrix.mul_assoc]
      _ = Uᴴ * (Cᴴ * C) * U := by rw [hV', Matrix.mul_one]; simp only [Matrix.mul_assoc]
      _ = 1 := by rw [hC, Matrix.mul_one, hU']
  have hWD : Wᴴ * Matrix.diagonal (fun i => (lam i : ℂ)) * W = Matrix.diagonal (fun i => (mu i : ℂ)) := by
    rw [hW]
    calc Uᴴ * Cᴴ * V * Matrix.diagonal (fun i => (lam i : ℂ)) * (Vᴴ * C * U)
        = Uᴴ * (Cᴴ * (V * Matrix.diagonal (fun i => (lam i : ℂ)) * Vᴴ) * C) * U := by
          simp only [Matrix.mul_assoc]
      _ = Uᴴ * (U * Matrix.diagonal (fun i => (mu i : ℂ)) * Uᴴ) * U := by rw [← hH, hM]
      _ = (Uᴴ * U) * Matrix.diagonal (fun i => (mu i : ℂ)) * (Uᴴ * U) := by
          simp only [Matrix.mul_assoc]
      _ = _ := by rw [hU', Matrix.one_mul, Matrix.mul_one]
  -- a vector supported on the first `j + 1` columns whose image has no component below `j`
  let L : (Fin m → ℂ) →ₗ[ℂ] (Fin m → ℂ) :=
    { toFun := fun y i => if i < j then (W *ᵥ y) (Fin.castLE hm i) else if i = j then 0 else y i
      map_add' := fun y z => by
        funext i
        simp only [Matrix.mulVec_add, Pi.add_apply]
        split_ifs <;> simp
      map_smul' := fun c y => by
        funext i
        simp only [Matrix.mulVec_smul, Pi.smul_apply, RingHom.id_apply]
        split_ifs <;> simp }
  have hL : ¬ Function.Injective L := by
    rw [LinearMap.injective_iff_surjective]
    intro hs
    obtain ⟨y, hy⟩ := hs (Pi.single j 1)
    have := congrFun hy j
    simp [L] at this
  obtain ⟨y, hy, hy0⟩ : ∃ y, L y = 0 ∧ y ≠ 0 := by
    by_contra h
    push Not at h
    exact hL ((injective_iff_map_eq_zero L).2 h)
  have hlow : ∀ i : Fin N, i < Fin.castLE hm j → (W *ᵥ y) i = 0 := by
    intro i hi
    have hi' : (i : ℕ) < j := hi
    have := congrFun hy ⟨i, hi'.trans j.2⟩
    simp only [L, LinearMap.coe_mk, AddHom.coe_mk] at this
    rw [if_pos (show (⟨i, hi'.trans j.2⟩ : Fin m) < j from hi')] at this
    exact this
  have hhigh : ∀ i : Fin m, j < i → y i = 0 := by
    intro i hi
    have := congrFun hy i
    simp only [L, LinearMap.coe_mk, AddHom.coe_mk] at this
    rw [if_neg (not_lt.2 hi.le), if_neg hi.ne'] at this
    exact this
  have e1 := form_diag W (fun _ => 1) y
  have e2 := form_diag W lam y
  have e3 := form_diag (1 : Matrix (Fin m) (Fin m) ℂ) mu y
  have e4 := form_diag (1 : Matrix (Fin m) (Fin m) ℂ) (fun _ => 1) y
  have hd1 : ∀ k : ℕ, (Matrix.diagonal fun _ : Fin k => ((1 : ℝ) : ℂ)) = 1 := by
    intro k; simp
  simp only [hd1, Matrix.mul_one, hWW, Matrix.conjTranspose_one, Matrix.one_mulVec, one_mul] at e1 e4
  rw [hWD] at e2
  simp only [Matrix.conjTranspose_one, Matrix.one_mul, Matrix.mul_one, Matrix.one_mulVec] at e3
  have n1 : ∑ i, Complex.normSq ((W *ᵥ y) i) = ∑ i, Complex.normSq (y i) := by
    exact_mod_cast e1.symm.trans e4
  have n2 : ∑ i, lam i * Complex.normSq ((W *ᵥ y) i) = ∑ i, mu i * Complex.normSq (y i) := by
    exact_mod_cast e2.symm.trans e3
  have hpos : 0 < ∑ i, Complex.normSq (y i) := by
    obtain ⟨i, hi⟩ := Function.ne_iff.1 hy0
    exact Finset.sum_pos' (fun _ _ => Complex.normSq_nonneg _) ⟨i, Finset.mem_univ _, Complex.normSq_pos.2 hi⟩
  have b1 : lam (Fin.castLE hm j) * ∑ i, Complex.normSq (y i) ≤ ∑ i, lam i * Complex.normSq ((W *ᵥ y) i) := by
    rw [← n1, Finset.mul_sum]
    refine Finset.sum_le_sum fun i _ => ?_
    by_cases hi : i < Fin.castLE hm j
    · rw [hlow i hi]; simp
    · exact mul_le_mul_of_nonneg_right (hlam (not_lt.1 hi)) (Complex.normSq_nonneg _)
  have b2 : ∑ i, mu i * Complex.normSq (y i) ≤ mu j * ∑ i, Complex.normSq (y i) := by
    rw [Finset.mul_sum]
    refine Finset.sum_le_sum fun i _ => ?_
    by_cases hi : j < i
    · rw [hhigh i hi]; simp
    · exact mul_le_mul_of_nonneg_right (hmu (not_lt.1 hi)) (Complex.normSq_nonneg _)
  rw [n2] at b1
  exact le_of_mul_le_mul_right (b1.trans b2) hpos

/-- The trace of a Hermitian matrix is the sum of its eigenvalues. -/
theorem spectrum_trace {N : ℕ} {H : Matrix (Fin N) (Fin N) ℂ} {lam : Fin N → ℝ}
    (hH : Spec.IsSpectrum H lam) : H.trace = ((∑ i, lam i : ℝ) : ℂ) := by
  obtain ⟨-, V, hV, rfl⟩ := hH
  rw [Matrix.trace_mul_comm, ← Matrix.mul_assoc,
    show Vᴴ * V = 1 from Matrix.mem_unitaryGroup_iff'.1 hV, Matrix.one_mul, Matrix.trace_diagonal]
  push_cast
  rfl

/-- A matrix with real eigenvalues and orthonormal eigenvectors is Hermitian. -/
theorem spectrum_hermitian {N : ℕ} {H : Matrix (Fin N) (Fin N) ℂ} {lam : Fin N → ℝ}
    (hH : Spec.IsSpectrum H lam) : H.IsHermitian := by
  obtain ⟨-, V, -, rfl⟩ := hH
  unfold Matrix.IsHermitian
  rw [Matrix.conjTranspose_mul, Matrix.conjTranspose_mul, Matrix.conjTranspose_conjTranspose,
    Matrix.diagonal_conjTranspose, Matrix.mul_assoc]
  congr 3
  funext i
  simp

/-- The ordered spectrum is unique. -/
theorem spectrum_unique {N : ℕ} {H : Matrix (Fin N) (Fin N) ℂ} {lam mu : Fin N → ℝ}
    (h : Spec.IsSpectrum H lam) (h' : Spec.IsSpectrum H mu) : lam = mu := by
  funext j
  have h1 : Spec.IsSpectrum ((1 : Matrix (Fin N) (Fin N) ℂ)ᴴ * H * 1) mu := by simpa using h'
  have h2 : Spec.IsSpectrum ((1 : Matrix (Fin N) (Fin N) ℂ)ᴴ * H * 1) lam := by simpa using h
  exact le_antisymm (spectrum_separation le_rfl h (by simp) h1 j)
    (spectrum_separation le_rfl h' (by simp) h2 j)

/-- A unitary change of basis keeps the spectrum. -/
theorem spectrum_conj {N : ℕ} {H : Matrix (Fin N) (Fin N) ℂ} {lam : Fin N → ℝ}
    (h : Spec.IsSpectrum H lam) {Q : Matrix (Fin N) (Fin N) ℂ} (hQ : Qᴴ * Q = 1) :
    Spec.IsSpectrum (Qᴴ * H * Q) lam := by
  obtain ⟨hl, V, hV, rfl⟩ := h
  refine ⟨hl, Qᴴ * V, ?_, ?_⟩
  · refine mul_mem ?_ hV
    rw [Matrix.mem_unitaryGroup_iff']
    have : Q * Qᴴ = 1 := mul_eq_one_comm.1 hQ
    simpa [Matrix.star_eq_conjTranspose] using this
  · rw [Matrix.conjTranspose_mul, Matrix.conjTranspose_conjTranspose]
    simp only [Matrix.mul_assoc]

/-- Every Hermitian matrix has a spectrum. -/
theorem exists_spectrum {N : ℕ} {H : Matrix (Fin N) (Fin N) ℂ} (hH : H.IsHermitian) :
    ∃ lam, Spec.IsSpectrum H lam := by
  let σ := Tuple.sort hH.eigenvalues
  let E : Matrix (Fin N) (Fin N) ℂ := hH.eigenvectorUnitary
  have hE : E * Eᴴ = 1 := Matrix.mem_unitaryGroup_iff.1 hH.eigenvectorUnitary.2
  refine ⟨hH.eigenvalues ∘ σ, Tuple.monotone_sort _, E.submatrix id σ, ?_, ?_⟩
  · rw [Matrix.mem_unitaryGroup_iff, Matrix.star_eq_conjTranspose, Matrix.conjTranspose_submatrix,
      Matrix.submatrix_mul_equiv, hE, Matrix.submatrix_id_id]
  · have hd : Matrix.diagonal (fun i => ((hH.eigenvalues ∘ σ) i : ℂ))
        = (Matrix.diagonal fun i => (hH.eigenvalues i : ℂ)).submatrix σ σ := by
      rw [Matrix.submatrix_diagonal_equiv]
      rfl
    rw [hd, Matrix.conjTranspose_submatrix, Matrix.submatrix_mul_equiv, Matrix.submatrix_mul_equiv]
    have := hH.spectral_theorem
    rw [Unitary.conjStarAlgAut_apply] at this
    exact this

theorem spectrum_complete {N m : ℕ} (hm : N = m) {H : Matrix (Fin N) (Fin N) ℂ} {lam : Fin N → ℝ}
    (hH : Spec.IsSpectrum H lam) {C : Matrix (Fin N) (Fin m) ℂ} (hC : Cᴴ * C = 1) {mu : Fin m → ℝ}
    (hM : Spec.IsSpectrum (Cᴴ * H * C) mu) (h : m ≤ N) (j : Fin m) : mu j = lam (Fin.castLE h j) := by
  subst hm
  rw [spectrum_unique hM (spectrum_conj hH hC)]
  rfl

theorem spectrum_attained {N m nb : ℕ} (hm : m = nb) (hN : nb ≤ N) {H V : Matrix (Fin N) (Fin N) ℂ}
    {lam : Fin N → ℝ} (hlam : Monotone lam) (hV : Vᴴ * V = 1)
    (hH : H = V * Matrix.diagonal (fun i => (lam i : ℂ)) * Vᴴ)
    (Q : Matrix (Fin N) (Fin m) ℂ) (R : Matrix (Fin m) (Fin nb) ℂ) (hQ : Qᴴ * Q = 1)
    (hw : V.submatrix id (Fin.castLE hN) = Q * R) {mu : Fin m → ℝ}
    (hM : Spec.IsSpectrum (Qᴴ * H * Q) mu) (h : m ≤ N) (j : Fin m) : mu j = lam (Fin.castLE h j) := by
  subst hm
  have hw1 : (V.submatrix id (Fin.castLE hN))ᴴ * V.submatrix id (Fin.castLE hN) = 1 := by
    rw [Matrix.conjTranspose_submatrix, ← Matrix.submatrix_mul _ _ _ id _ Function.bijective_id, hV,
      Matrix.submatrix_one _ (Fin.castLE_injective hN)]
  have hR : Rᴴ * R = 1 := by
    rw [hw, Matrix.conjTranspose_mul, Matrix.mul_assoc, ← Matrix.mul_assoc Qᴴ, hQ, Matrix.one_mul] at hw1
    exact hw1
  have hR' : R * Rᴴ = 1 := mul_eq_one_comm.1 hR
  have hs : Spec.IsSpectrum (Rᴴ * (Qᴴ * H * Q) * R) mu := spectrum_conj hM hR
  have hd : Rᴴ * (Qᴴ * H * Q) * R = Matrix.diagonal (fun i => (lam (Fin.castLE h i) : ℂ)) := by
    have e1 : Rᴴ * (Qᴴ * H * Q) * R = (V.submatrix id (Fin.castLE hN))ᴴ * H * V.submatrix id (Fin.castLE hN) := by
      rw [hw, Matrix.conjTranspose_mul]
      simp only [Matrix.mul_assoc]
    have e2 : (V.submatrix id (Fin.castLE hN))ᴴ * H * V.submatrix id (Fin.castLE hN)
        = (Vᴴ * H * V).submatrix (Fin.castLE hN) (Fin.castLE hN) := by
      rw [Matrix.submatrix_mul _ _ _ id _ Function.bijective_id,
        Matrix.submatrix_mul _ _ _ id _ Function.bijective_id, Matrix.conjTranspose_submatrix,
        Matrix.submatrix_id_id]
    have e3 : Vᴴ * H * V = Matrix.diagonal (fun i => (lam i : ℂ)) := by
      rw [hH]
      calc Vᴴ * (V * Matrix.diagonal (fun i => (lam i : ℂ)) * Vᴴ) * V
          = (Vᴴ * V) * Matrix.diagonal (fun i => (lam i : ℂ)) * (Vᴴ * V) := by simp only [Matrix.mul_assoc]
        _ = _ := by rw [hV, Matrix.one_mul, Matrix.mul_one]
    rw [e1, e2, e3, Matrix.submatrix_diagonal _ _ (Fin.castLE_injective hN)]
    rfl
  rw [hd] at hs
  have hd' : Spec.IsSpectrum (Matrix.diagonal (fun i => (lam (Fin.castLE h i) : ℂ)))
      (fun i => lam (Fin.castLE h i)) :=
    ⟨fun a b hab => hlam (by exact hab), 1, one_mem _, by simp⟩
  exact congrFun (spectrum_unique hs hd') j

end Jrystal
