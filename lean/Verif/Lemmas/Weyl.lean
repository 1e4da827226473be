import Verif.Lemmas.Spectrum
import Verif.Lemmas.PwMatrixNC

/- Eigenvalues move at most as far as the quadratic forms (C106). -/
namespace Jrystal
open scoped BigOperators ComplexConjugate
open Matrix

private theorem quad_diag {N : ℕ} (lam : Fin N → ℝ) (y : Fin N → ℂ) :
    (star y ⬝ᵥ (Matrix.diagonal (fun i => (lam i : ℂ)) *ᵥ y)).re = ∑ i, lam i * Complex.normSq (y i) := by
  have : star y ⬝ᵥ (Matrix.diagonal (fun i => (lam i : ℂ)) *ᵥ y) = ((∑ i, lam i * Complex.normSq (y i) : ℝ) : ℂ) := by
    push_cast
    refine Finset.sum_congr rfl fun i _ => ?_
    rw [Matrix.mulVec_diagonal, Complex.normSq_eq_conj_mul_self, Pi.star_apply, RCLike.star_def]
    ring
  rw [this, Complex.ofReal_re]

private theorem quad_one {N : ℕ} (y : Fin N → ℂ) : (star y ⬝ᵥ y).re = ∑ i, Complex.normSq (y i) := by
  have := quad_diag (fun _ : Fin N => (1 : ℝ)) y
  simpa using this

private theorem quad_comp {N m : ℕ} (H : Matrix (Fin N) (Fin N) ℂ) (C : Matrix (Fin N) (Fin m) ℂ) (u : Fin m → ℂ) :
    star (C *ᵥ u) ⬝ᵥ (H *ᵥ (C *ᵥ u)) = star u ⬝ᵥ ((Cᴴ * H * C) *ᵥ u) := by
  rw [Matrix.star_mulVec, ← Matrix.dotProduct_mulVec, Matrix.mulVec_mulVec, Matrix.mulVec_mulVec, Matrix.mul_assoc]

/-- If the quadratic form of `H` exceeds that of `H'` by at most `δ` on unit vectors, no eigenvalue of `H` exceeds
the one of `H'` of the same number by more than `δ`. -/
theorem spectrum_shift {N : ℕ} {H H' : Matrix (Fin N) (Fin N) ℂ} {lam lam' : Fin N → ℝ}
    (h : Spec.IsSpectrum H lam) (h' : Spec.IsSpectrum H' lam') (δ : ℝ)
    (hle : ∀ v : Fin N → ℂ,
      (star v ⬝ᵥ (H *ᵥ v)).re ≤ (star v ⬝ᵥ (H' *ᵥ v)).re + δ * (star v ⬝ᵥ v).re) (j : Fin N) :
    lam j ≤ lam' j + δ := by
  have hm : (j : ℕ) + 1 ≤ N := j.2
  have hherm := spectrum_hermitian h
  obtain ⟨hmono, V, hV, hH'⟩ := h'
  have hV' : Vᴴ * V = 1 := Matrix.mem_unitaryGroup_iff'.1 hV
  let C : Matrix (Fin N) (Fin (j + 1)) ℂ := V.submatrix id (Fin.castLE hm)
  have hC : Cᴴ * C = 1 := by
    show (V.submatrix id (Fin.castLE hm))ᴴ * V.submatrix id (Fin.castLE hm) = 1
    rw [Matrix.conjTranspose_submatrix, ← Matrix.submatrix_mul _ _ _ id _ Function.bijective_id, hV',
      Matrix.submatrix_one _ (Fin.castLE_injective hm)]
  have hd : Cᴴ * H' * C = Matrix.diagonal (fun i : Fin (j + 1) => (lam' (Fin.castLE hm i) : ℂ)) := by
    have e2 : Cᴴ * H' * C = (Vᴴ * H' * V).submatrix (Fin.castLE hm) (Fin.castLE hm) := by
      rw [Matrix.submatrix_mul _ _ _ id _ Function.bijective_id,
        Matrix.submatrix_mul _ _ _ id _ Function.bijective_id, Matrix.submatrix_id_id]
      rfl
    have e3 : Vᴴ * H' * V = Matrix.diagonal (fun i => (lam' i : ℂ)) := by
      rw [hH']
      calc Vᴴ * (V * Matrix.diagonal (fun i => (lam' i : ℂ)) * Vᴴ) * V
          = (Vᴴ * V) * Matrix.diagonal (fun i => (lam' i : ℂ)) * (Vᴴ * V) := by simp only [Matrix.mul_assoc]
        _ = _ := by rw [hV', Matrix.one_mul, Matrix.mul_one]
    rw [e2, e3, Matrix.submatrix_diagonal _ _ (Fin.castLE_injective hm)]
    rfl
  have hMh : (Cᴴ * H * C).IsHermitian := by
    unfold Matrix.IsHermitian
    rw [Matrix.conjTranspose_mul, Matrix.conjTranspose_mul, Matrix.conjTranspose_conjTranspose, hherm.eq,
      Matrix.mul_assoc]
  obtain ⟨mu, hmu⟩ := exists_spectrum hMh
  have hsep := spectrum_separation hm h hC hmu (Fin.last _)
  have hj : Fin.castLE hm (Fin.last (j : ℕ)) = j := Fin.ext rfl
  rw [hj] at hsep
  refine hsep.trans ?_
  obtain ⟨-, U, hU, hM⟩ := hmu
  have hU' : Uᴴ * U = 1 := Matrix.mem_unitaryGroup_iff'.1 hU
  let u : Fin (j + 1) → ℂ := U *ᵥ Pi.single (Fin.last _) 1
  have hnorm : (star u ⬝ᵥ u) = 1 := by
    have := quad_comp (1 : Matrix _ _ ℂ) U (Pi.single (Fin.last (j : ℕ)) 1)
    rw [Matrix.one_mulVec, Matrix.mul_one, hU', Matrix.one_mulVec] at this
    rw [show star u ⬝ᵥ u = _ from this]
    simp
  have hmuq : (star u ⬝ᵥ ((Cᴴ * H * C) *ᵥ u)).re = mu (Fin.last _) := by
    rw [quad_comp]
    have : Uᴴ * (Cᴴ * H * C) * U = Matrix.diagonal (fun i => (mu i : ℂ)) := by
      rw [hM]
      calc Uᴴ * (U * Matrix.diagonal (fun i => (mu i : ℂ)) * Uᴴ) * U
          = (Uᴴ * U) * Matrix.diagonal (fun i => (mu i : ℂ)) * (Uᴴ * U) := by simp only [Matrix.mul_assoc]
        _ = _ := by rw [hU', Matrix.one_mul, Matrix.mul_one]
    rw [this, quad_diag, Finset.sum_eq_single (Fin.last (j : ℕ))]
    · simp
    · intro i _ hi; simp [hi]
    · simp
  have key := hle (C *ᵥ u)
  rw [quad_comp, hmuq, quad_comp H', hd, quad_diag] at key
  have hone : (star (C *ᵥ u) ⬝ᵥ (C *ᵥ u)) = 1 := by
    have := quad_comp (1 : Matrix _ _ ℂ) C u
    rw [Matrix.one_mulVec, Matrix.mul_one, hC, Matrix.one_mulVec, hnorm] at this
    exact this
  rw [hone, Complex.one_re, mul_one] at key
  refine key.trans (add_le_add ?_ le_rfl)
  have hsum : ∑ i, Complex.normSq (u i) = 1 := by
    rw [← quad_one, hnorm, Complex.one_re]
  calc ∑ i, lam' (Fin.castLE hm i) * Complex.normSq (u i) ≤ ∑ i, lam' j * Complex.normSq (u i) :=
        Finset.sum_le_sum fun i _ => mul_le_mul_of_nonneg_right
          (hmono (show (i : ℕ) ≤ j from Nat.lt_succ_iff.1 i.2)) (Complex.normSq_nonneg _)
    _ = lam' j := by rw [← Finset.mul_sum, hsum, mul_one]

/-- The values at the grid points of the wave with coefficients `v`. -/
private noncomputable def maskWave {n : Fin 3 → ℕ} (mask : Idx n → Bool) (v : Fin (maskCount mask) → ℂ) (x : Idx n) : ℂ :=
  ∑ a, v a * omega (maskPos mask a) x

private theorem maskWave_sq {n : Fin 3 → ℕ} (mask : Idx n → Bool) (v : Fin (maskCount mask) → ℂ) (x : Idx n) :
    ∑ a, ∑ b, conj (v a) * (conj (omega (maskPos mask a) x) * omega (maskPos mask b) x) * v b
      = (Complex.normSq (maskWave mask v x) : ℂ) := by
  rw [Complex.normSq_eq_conj_mul_self]
  unfold maskWave
  rw [map_sum, Finset.sum_mul_sum]
  refine Finset.sum_congr rfl fun a _ => Finset.sum_congr rfl fun b _ => ?_
  rw [map_mul]
  ring

private theorem maskWave_parseval {n : Fin 3 → ℕ} (mask : Idx n → Bool) (v : Fin (maskCount mask) → ℂ) :
    ∑ x, Complex.normSq (maskWave mask v x) = (gridCount n : ℝ) * (star v ⬝ᵥ v).re := by
  rw [quad_one]
  have h : ((∑ x, Complex.normSq (maskWave mask v x) : ℝ) : ℂ)
      = (((gridCount n : ℝ) * ∑ a, Complex.normSq (v a) : ℝ) : ℂ) := by
    push_cast
    simp only [← maskWave_sq]
    rw [Finset.sum_comm, Finset.mul_sum]
    refine Finset.sum_congr rfl fun a _ => ?_
    rw [Finset.sum_comm]
    have : ∀ b, ∑ x, conj (v a) * (conj (omega (maskPos mask a) x) * omega (maskPos mask b) x) * v b
        = conj (v a) * v b * (if a = b then (gridCount n : ℂ) else 0) := by
      intro b
      have h2 := omega_orth (maskPos mask b) (maskPos mask a)
      have h3 : (maskPos mask b = maskPos mask a) ↔ a = b :=
        ⟨fun h => (maskList_get_inj mask h).symm, fun h => by rw [h]⟩
      rw [if_congr h3 rfl rfl] at h2
      rw [← h2, Finset.mul_sum]
      exact Finset.sum_congr rfl fun x _ => by ring
    simp only [this]
    rw [Finset.sum_eq_single a (fun b _ hb => by rw [if_neg (Ne.symm hb), mul_zero])
      (fun h => absurd (Finset.mem_univ a) h), if_pos rfl, Complex.normSq_eq_conj_mul_self]
    ring
  exact_mod_cast h

/-- The quadratic form of the plane-wave Hamiltonian. -/
private theorem planeWave_quad (A : Matrix (Fin 3) (Fin 3) ℝ) (hA : A.det ≠ 0) {n : Fin 3 → ℕ} (mask : Idx n → Bool)
    (V : Idx n → ℝ) (k : Fin 3 → ℝ) (v : Fin (maskCount mask) → ℂ) :
    (star v ⬝ᵥ (Spec.planeWaveHamiltonian (fun a => gVectors A n (maskPos mask a)) (rVectors A n) V k *ᵥ v)).re
      = (∑ a, Spec.kineticEnergy (fun e => gVectors A n (maskPos mask a) e + k e) * Complex.normSq (v a))
        + (∑ x, V x * Complex.normSq (maskWave mask v x)) / (gridCount n : ℝ) := by
  have h : star v ⬝ᵥ (Spec.planeWaveHamiltonian (fun a => gVectors A n (maskPos mask a)) (rVectors A n) V k *ᵥ v)
      = (((∑ a, Spec.kineticEnergy (fun e => gVectors A n (maskPos mask a) e + k e) * Complex.normSq (v a))
        + (∑ x, V x * Complex.normSq (maskWave mask v x)) / (gridCount n : ℝ) : ℝ) : ℂ) := by
    have hexp : ∀ a b x, Complex.exp (-(Complex.I * ((Spec.dot (fun e => gVectors A n (maskPos mask a) e
          - gVectors A n (maskPos mask b) e) (rVectors A n x) : ℝ) : ℂ)))
        = conj (omega (maskPos mask a) x) * omega (maskPos mask b) x := by
      intro a b x
      rw [← exp_grid A hA, ← Complex.conj_conj (omega (maskPos mask b) x), ← exp_grid A hA, ← Complex.exp_conj,
        ← Complex.exp_add]
      congr 1
      rw [map_neg, map_mul, Complex.conj_I, Complex.conj_ofReal]
      have : Spec.dot (fun e => gVectors A n (maskPos mask a) e - gVectors A n (maskPos mask b) e) (rVectors A n x)
          = (∑ d, gVectors A n (maskPos mask a) d * rVectors A n x d)
            - ∑ d, gVectors A n (maskPos mask b) d * rVectors A n x d := by
        unfold Spec.dot
        rw [← Finset.sum_sub_distrib]
        exact Finset.sum_congr rfl fun d _ => by ring
      rw [this]
      push_cast
      ring
    push_cast
    simp only [← maskWave_sq]
    unfold Spec.planeWaveHamiltonian
    simp only [dotProduct, mulVec, hexp, Pi.star_apply, RCLike.star_def, add_mul, Finset.sum_add_distrib, mul_add]
    refine congrArg₂ (· + ·) (Finset.sum_congr rfl fun a _ => ?_) ?_
    · rw [Finset.sum_eq_single a (fun b _ hb => by rw [if_neg (Ne.symm hb), zero_mul])
        (fun h => absurd (Finset.mem_univ a) h), if_pos rfl, Complex.normSq_eq_conj_mul_self]
      ring
    · simp only [Finset.mul_sum, Finset.sum_div, Finset.sum_mul]
      rw [Finset.sum_comm (s := (Finset.univ : Finset (Idx n)))]
      refine Finset.sum_congr rfl fun a _ => ?_
      rw [Finset.sum_comm (s := (Finset.univ : Finset (Idx n)))]
      refine Finset.sum_congr rfl fun b _ => Finset.sum_congr rfl fun x _ => ?_
      have hg : ((∏ i, n i : ℕ) : ℂ) = (gridCount n : ℂ) := rfl
      rw [← hg]
      ring
  rw [h, Complex.ofReal_re]

/-- Two plane-wave Hamiltonians with the same projectors: no eigenvalue of the first exceeds the one of the second by
more than the kinetic energies and the potentials do. -/
theorem planeWave_shift (A : Matrix (Fin 3) (Fin 3) ℝ) (hA : A.det ≠ 0) {n : Fin 3 → ℕ} (mask : Idx n → Bool)
    (V V' : Idx n → ℝ) (k k' : Fin 3 → ℝ) (P : Matrix (Fin (maskCount mask)) (Fin (maskCount mask)) ℂ) (κ δ : ℝ)
    (hk : ∀ a, Spec.kineticEnergy (fun e => gVectors A n (maskPos mask a) e + k e)
      ≤ Spec.kineticEnergy (fun e => gVectors A n (maskPos mask a) e + k' e) + κ)
    (hV : ∀ x, V x ≤ V' x + δ) {lam lam' : Fin (maskCount mask) → ℝ}
    (h : Spec.IsSpectrum (Spec.planeWaveHamiltonian (fun a => gVectors A n (maskPos mask a)) (rVectors A n) V k + P) lam)
    (h' : Spec.IsSpectrum
      (Spec.planeWaveHamiltonian (fun a => gVectors A n (maskPos mask a)) (rVectors A n) V' k' + P) lam')
    (j : Fin (maskCount mask)) : lam j ≤ lam' j + (κ + δ) := by
  refine spectrum_shift h h' (κ + δ) (fun v => ?_) j
  have hN : (0 : ℝ) < gridCount n := by
    exact_mod_cast gridCount_pos (maskPos mask j)
  rw [Matrix.add_mulVec, Matrix.add_mulVec, dotProduct_add, dotProduct_add, Complex.add_re, Complex.add_re,
    planeWave_quad A hA, planeWave_quad A hA]
  have h1 : ∑ a, Spec.kineticEnergy (fun e => gVectors A n (maskPos mask a) e + k e) * Complex.normSq (v a)
      ≤ (∑ a, Spec.kineticEnergy (fun e => gVectors A n (maskPos mask a) e + k' e) * Complex.normSq (v a))
        + κ * (star v ⬝ᵥ v).re := by
    rw [quad_one, Finset.mul_sum, ← Finset.sum_add_distrib]
    refine Finset.sum_le_sum fun a _ => ?_
    rw [← add_mul]
    exact mul_le_mul_of_nonneg_right (hk a) (Complex.normSq_nonneg _)
  have h2 : (∑ x, V x * Complex.normSq (maskWave mask v x)) / (gridCount n : ℝ)
      ≤ (∑ x, V' x * Complex.normSq (maskWave mask v x)) / (gridCount n : ℝ) + δ * (star v ⬝ᵥ v).re := by
    have h3 : δ * (star v ⬝ᵥ v).re = (∑ x, δ * Complex.normSq (maskWave mask v x)) / (gridCount n : ℝ) := by
      rw [← Finset.mul_sum, maskWave_parseval]
      field_simp
    rw [h3, ← add_div, ← Finset.sum_add_distrib]
    refine div_le_div_of_nonneg_right (Finset.sum_le_sum fun x _ => ?_) hN.le
    rw [← add_mul]
    exact mul_le_mul_of_nonneg_right (hV x) (Complex.normSq_nonneg _)
  linarith

end Jrystal
