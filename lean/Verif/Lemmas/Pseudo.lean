import Verif.Model.Pseudo
import Verif.Spec.Pseudo
import Verif.Lemmas.Energy
import Verif.Lemmas.Planewave
import Mathlib.Analysis.Matrix.Spectrum
import Mathlib.LinearAlgebra.Matrix.Charpoly.Basic
import Mathlib.Data.Fin.Tuple.Sort

/- Helper lemmas for the pseudopotential properties. -/
namespace Jrystal
open scoped BigOperators ComplexConjugate
open Matrix

theorem symmetrize_isSymm {m : ℕ} (D : Matrix (Fin m) (Fin m) ℝ) : (symmetrize D).IsSymm := by
  unfold symmetrize Matrix.IsSymm
  rw [Matrix.transpose_smul, Matrix.transpose_add, Matrix.transpose_transpose, add_comm]

theorem symmetrize_of_symm {m : ℕ} (D : Matrix (Fin m) (Fin m) ℝ) (h : D.IsSymm) : symmetrize D = D := by
  unfold symmetrize
  rw [h.eq, ← two_smul ℝ D, smul_smul]
  norm_num

/-- Every real symmetric matrix has an eigendecomposition with ascending eigenvalues: the contract of
`eigh` can be met. -/
theorem eigh_exists {m : ℕ} (S : Matrix (Fin m) (Fin m) ℝ) (hS : S.IsSymm) :
    ∃ (lam : Fin m → ℝ) (U : Matrix (Fin m) (Fin m) ℝ), Uᵀ * U = 1 ∧
      S = U * Matrix.diagonal lam * Uᵀ ∧ Monotone lam := by
  have hH : S.IsHermitian := by
    unfold Matrix.IsHermitian
    rw [Matrix.conjTranspose_eq_transpose_of_trivial]; exact hS
  have h1 := hH.spectral_theorem
  have hU : star (hH.eigenvectorUnitary : Matrix (Fin m) (Fin m) ℝ) *
      (hH.eigenvectorUnitary : Matrix (Fin m) (Fin m) ℝ) = 1 := Unitary.coe_star_mul_self _
  rw [Unitary.conjStarAlgAut_apply] at h1
  generalize (hH.eigenvectorUnitary : Matrix (Fin m) (Fin m) ℝ) = U at h1 hU
  rw [Matrix.star_eq_conjTranspose, Matrix.conjTranspose_eq_transpose_of_trivial] at h1 hU
  have h2 : (RCLike.ofReal ∘ hH.eigenvalues : Fin m → ℝ) = hH.eigenvalues := by
    funext i; simp
  rw [h2] at h1
  generalize hH.eigenvalues = lam at h1
  let σ := Tuple.sort lam
  refine ⟨lam ∘ σ, U.submatrix id σ, ?_, ?_, Tuple.monotone_sort lam⟩
  · ext i j
    have := congrFun (congrFun hU (σ i)) (σ j)
    simp only [Matrix.mul_apply, Matrix.transpose_apply, Matrix.submatrix_apply, id] at this ⊢
    rw [this, Matrix.one_apply, Matrix.one_apply]
    simp [σ.injective.eq_iff]
  · ext i j
    have := congrFun (congrFun h1 i) j
    rw [this]
    rw [Matrix.mul_apply, Matrix.mul_apply]
    simp only [Matrix.transpose_apply, Matrix.submatrix_apply, id, Matrix.mul_diagonal, Function.comp]
    exact (Equiv.sum_comp σ fun x => U i x * lam x * U j x).symm

/-- An instance of the contract of `eigh`. -/
noncomputable def someEigh : Eigh where
  vals S := by classical exact if h : S.IsSymm then (eigh_exists S h).choose else 0
  vecs S := by classical exact if h : S.IsSymm then (eigh_exists S h).choose_spec.choose else 0
  orth S h := by
    classical
    simp only [dif_pos h]
    exact (eigh_exists S h).choose_spec.choose_spec.1
  spec S h := by
    classical
    simp only [dif_pos h]
    exact (eigh_exists S h).choose_spec.choose_spec.2.1
  mono S h := by
    classical
    simp only [dif_pos h]
    exact (eigh_exists S h).choose_spec.choose_spec.2.2

/-- Ascending eigenvalues are determined by the matrix. -/
theorem sorted_eigs_unique {m : ℕ} (lam d : Fin m → ℝ) (U : Matrix (Fin m) (Fin m) ℝ)
    (hU : Uᵀ * U = 1) (h : Matrix.diagonal d = U * Matrix.diagonal lam * Uᵀ) (hl : Monotone lam)
    (hd : Monotone d) : lam = d := by
  have h1 : (Matrix.diagonal d).charpoly = (Matrix.diagonal lam).charpoly := by
    rw [h, Matrix.charpoly_mul_comm, ← mul_assoc, hU, one_mul]
  rw [Matrix.charpoly_diagonal, Matrix.charpoly_diagonal] at h1
  have h2 := congrArg Polynomial.roots h1
  rw [Polynomial.roots_prod _ _ (by simp [Finset.prod_ne_zero_iff, Polynomial.X_sub_C_ne_zero]),
    Polynomial.roots_prod _ _ (by simp [Finset.prod_ne_zero_iff, Polynomial.X_sub_C_ne_zero])] at h2
  simp only [Polynomial.roots_X_sub_C, Multiset.bind_singleton] at h2
  rw [Fin.univ_val_map, Fin.univ_val_map, Multiset.coe_eq_coe] at h2
  exact (List.ofFn_injective
    (h2.eq_of_pairwise' hd.sortedLE_ofFn.pairwise hl.sortedLE_ofFn.pairwise)).symm

theorem vals_diagonal (eigh : Eigh) {m : ℕ} (d : Fin m → ℝ) (hd : Monotone d) :
    eigh.vals (symmetrize (Matrix.diagonal d)) = d := by
  have hs : (Matrix.diagonal d).IsSymm := Matrix.diagonal_transpose d
  rw [symmetrize_of_symm _ hs]
  exact sorted_eigs_unique _ _ _ (eigh.orth _ hs) (eigh.spec _ hs) (eigh.mono _ hs) hd

theorem csqrt_norm (x : ℝ) : conj (csqrt x) * csqrt x = (|x| : ℝ) := by
  unfold csqrt
  split
  · rename_i h
    rw [Complex.conj_ofReal, ← Complex.ofReal_mul, Real.mul_self_sqrt h, abs_of_nonneg h]
  · rename_i h
    have h' : 0 ≤ -x := by linarith
    rw [map_mul, Complex.conj_I, Complex.conj_ofReal,
      show -Complex.I * (Real.sqrt (-x) : ℂ) * (Complex.I * (Real.sqrt (-x) : ℂ))
        = -(Complex.I * Complex.I) * ((Real.sqrt (-x) : ℂ) * (Real.sqrt (-x) : ℂ)) by ring,
      Complex.I_mul_I, ← Complex.ofReal_mul, Real.mul_self_sqrt h', abs_of_neg (by linarith)]
    simp

theorem conj_I_pow_mul (l : ℕ) : conj (Complex.I ^ l) * Complex.I ^ l = 1 := by
  rw [map_pow, Complex.conj_I, ← mul_pow]
  simp

/-- Orthogonal mixing with unit phases preserves the inner product. -/
theorem orth_mix {m : ℕ} (U : Matrix (Fin m) (Fin m) ℝ) (hU : Uᵀ * U = 1) (u : Fin m → ℂ)
    (hu : ∀ b, conj (u b) * u b = 1) (a a' : Fin m → ℂ) :
    ∑ b1, conj (u b1 * ∑ b2, ((U b1 b2 : ℝ) : ℂ) * a b2) * (u b1 * ∑ b2, ((U b1 b2 : ℝ) : ℂ) * a' b2)
      = ∑ b2, conj (a b2) * a' b2 := by
  have h1 : ∀ b1, conj (u b1 * ∑ b2, ((U b1 b2 : ℝ) : ℂ) * a b2) *
      (u b1 * ∑ b2, ((U b1 b2 : ℝ) : ℂ) * a' b2)
      = ∑ b2, ∑ b3, (((U b1 b2 * U b1 b3 : ℝ)) : ℂ) * (conj (a b2) * a' b3) := by
    intro b1
    rw [map_mul, show ∀ x y z w : ℂ, x * y * (z * w) = (x * z) * (y * w) by intros; ring, hu, one_mul,
      map_sum, Finset.sum_mul_sum]
    refine Finset.sum_congr rfl fun b2 _ => Finset.sum_congr rfl fun b3 _ => ?_
    rw [map_mul, Complex.conj_ofReal]
    push_cast
    ring
  simp_rw [h1]
  rw [Finset.sum_comm]
  refine Finset.sum_congr rfl fun b2 _ => ?_
  rw [Finset.sum_comm]
  have h2 : ∀ b3, ∑ b1, (((U b1 b2 * U b1 b3 : ℝ)) : ℂ) * (conj (a b2) * a' b3)
      = if b2 = b3 then conj (a b2) * a' b3 else 0 := by
    intro b3
    rw [← Finset.sum_mul, ← Complex.ofReal_sum]
    have := congrFun (congrFun hU b2) b3
    rw [Matrix.mul_apply] at this
    simp only [Matrix.transpose_apply] at this
    rw [this, Matrix.one_apply]
    split <;> simp
  simp_rw [h2]
  rw [Finset.sum_ite_eq Finset.univ b2]
  simp

end Jrystal
