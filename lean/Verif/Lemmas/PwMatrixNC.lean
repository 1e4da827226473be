import Verif.Props.NcHamiltonian
import Verif.Lemmas.PwMatrix
import Verif.Spec.Spectrum

/- The Hamiltonian of the norm-conserving code between plane waves (C71, C72, C101). -/
namespace Jrystal
open scoped BigOperators ComplexConjugate
open Matrix

theorem nonlocal_compress {ns nk nb M : ℕ} {ι : Type} [Fintype ι] {n : Fin 3 → ℕ} (mask : Idx n → Bool)
    (C : Fin ns → Fin nk → Fin (maskCount mask) → Fin nb → ℂ) (psi : Fin nk → ι → Fin M → Idx n → ℂ) (vol : ℝ)
    (s : Fin ns) (k : Fin nk) :
    Matrix.of (hamiltonianNonlocal (expandCoefficient mask C) psi vol s k)
      = (Matrix.of (C s k))ᴴ * Spec.projectorMatrix vol (fun (i : ι × Fin M) a => psi k i.1 i.2 (maskPos mask a))
        * Matrix.of (C s k) := by
  have hf : ∀ b β φ, ∑ x, expandCoefficient mask C s k b x * psi k β φ x
      = ∑ a, C s k a b * psi k β φ (maskPos mask a) := by
    intro b β φ
    have h : ∀ x, expandCoefficient mask C s k b x = ∑ g, C s k g b * (if x = maskPos mask g then 1 else 0) :=
      fun x => maskExpand mask (fun g => C s k g b) x
    simp only [h, Finset.sum_mul]
    rw [Finset.sum_comm]
    refine Finset.sum_congr rfl fun a _ => ?_
    rw [Finset.sum_eq_single (maskPos mask a)]
    · simp
    · intro x _ hx; simp [hx]
    · intro h; exact absurd (Finset.mem_univ _) h
  let B : Matrix (ι × Fin M) (Fin (maskCount mask)) ℂ := Matrix.of fun i a => psi k i.1 i.2 (maskPos mask a)
  have h1 : Spec.projectorMatrix vol (fun (i : ι × Fin M) a => psi k i.1 i.2 (maskPos mask a))
      = (vol : ℂ)⁻¹ • (Bᴴ * B) := by
    ext a b
    rw [Matrix.smul_apply, Matrix.mul_apply, smul_eq_mul, mul_comm, ← div_eq_mul_inv]
    rfl
  have h2 : Matrix.of (hamiltonianNonlocal (expandCoefficient mask C) psi vol s k)
      = (vol : ℂ)⁻¹ • ((B * Matrix.of (C s k))ᴴ * (B * Matrix.of (C s k))) := by
    ext i j
    rw [Matrix.of_apply, Matrix.smul_apply, Matrix.mul_apply, smul_eq_mul, mul_comm, ← div_eq_mul_inv]
    unfold hamiltonianNonlocal
    simp only [hf]
    rw [Fintype.sum_prod_type]
    congr 1
    refine Finset.sum_congr rfl fun β _ => Finset.sum_congr rfl fun φ _ => ?_
    rw [Matrix.conjTranspose_apply, Matrix.mul_apply, Matrix.mul_apply, RCLike.star_def]
    congr 1
    · congr 1
      exact Finset.sum_congr rfl fun a _ => mul_comm _ _
    · exact Finset.sum_congr rfl fun a _ => mul_comm _ _
  rw [h1, h2, Matrix.conjTranspose_mul, Matrix.mul_smul, Matrix.smul_mul]
  simp only [Matrix.mul_assoc]

/-- The Hermitian part of the matrix of the norm-conserving code is the compression of the plane-wave matrix. -/
theorem ncMatrix_compress {ns nk nb M : ℕ} {ι : Type} [Fintype ι] {n : Fin 3 → ℕ} (mask : Idx n → Bool)
    (C : Fin ns → Fin nk → Fin (maskCount mask) → Fin nb → ℂ) (psi : Fin nk → ι → Fin M → Idx n → ℂ)
    (A : Matrix (Fin 3) (Fin 3) ℝ) (hA : A.det ≠ 0) (vol : ℝ) (hvol : 0 < vol)
    (W : Idx n → ℂ) (V : Idx n → ℝ) (hV : ∀ x, V x = (W x).re) (k₀ : Fin 3 → ℝ) (s : Fin ns) (k : Fin nk)
    (H : Fin nb → Fin nb → ℂ)
    (h2 : ∀ i j, H i j = hamiltonianNonlocal (expandCoefficient mask C) psi vol s k i j
        + Spec.kineticElement (gVectors A n) k₀ (expandCoefficient mask C s k i) (expandCoefficient mask C s k j)
        + Spec.cellInner vol (waveGrid (expandCoefficient mask C) vol s k i) fun x =>
            W x * waveGrid (expandCoefficient mask C) vol s k j x) :
      (1 / 2 : ℂ) • (Matrix.of H + (Matrix.of H)ᴴ)
        = (Matrix.of (C s k))ᴴ * (Spec.planeWaveHamiltonian
            (fun a => gVectors A n (maskPos mask a)) (rVectors A n) V k₀
          + Spec.projectorMatrix vol (fun (i : ι × Fin M) a => psi k i.1 i.2 (maskPos mask a)))
          * Matrix.of (C s k) := by
  let W' : Fin 1 → Idx n → ℂ := fun _ => W
  have hH : Matrix.of H = Matrix.of (hamiltonianNonlocal (expandCoefficient mask C) psi
      vol s k) + formMatrix (expandCoefficient mask C s k) W' (gVectors A n) k₀ vol := by
    ext i j
    rw [Matrix.of_apply, h2, Matrix.add_apply, Matrix.of_apply, add_assoc]
    refine congrArg₂ (· + ·) rfl ?_
    show _ + Spec.cellInner vol (orbital (expandCoefficient mask C s k i) vol) (fun x => W' 0 x *
      orbital (expandCoefficient mask C s k j) vol x) = _
    unfold formMatrix Spec.cellInner Spec.kineticElement Spec.kineticEnergy kineticOperator
    rw [Fin.sum_univ_one, add_comm]
    refine congrArg₂ (· + ·) ?_ (Finset.sum_congr rfl fun x _ => ?_)
    · rw [mul_comm]
      refine congrArg₂ (· * ·) (Finset.sum_congr rfl fun x _ => ?_) rfl
      ring
    · rw [sum_sq_eq_dot]
      ring
  have hF : hermPart (formMatrix (unitVec mask) W' (gVectors A n) k₀ vol) = Spec.planeWaveHamiltonian
            (fun a => gVectors A n (maskPos mask a)) (rVectors A n) V k₀ := by
    ext a b
    rw [hermForm_basis A hA mask W' k₀ vol hvol, Fin.sum_univ_one]
    unfold Spec.planeWaveHamiltonian
    congr 2
    refine Finset.sum_congr rfl fun x _ => ?_
    rw [hV]
  have hh : hermPart (formMatrix (expandCoefficient mask C s k) W' (gVectors A n) k₀ vol)
      = (Matrix.of (C s k))ᴴ * hermPart (formMatrix (unitVec mask) W' (gVectors A n) k₀ vol)
        * Matrix.of (C s k) := hermForm_compress mask _ W' (gVectors A n) k₀ vol s k
  have hn := nonlocal_compress mask (C) psi vol s k
  have hs : ∀ X : Matrix (Fin (nb)) (Fin (nb)) ℂ,
      (1 / 2 : ℂ) • (X + Xᴴ) = hermPart X := by
    intro X
    ext i j
    unfold hermPart
    simp [Matrix.smul_apply]
    ring
  have ha : ∀ X Y : Matrix (Fin (nb)) (Fin (nb)) ℂ,
      X.IsHermitian → hermPart (X + Y) = X + hermPart Y := by
    intro X Y hX
    ext i j
    unfold hermPart
    have := congrFun (congrFun hX i) j
    rw [Matrix.conjTranspose_apply] at this
    have h' : conj (X j i) = X i j := this
    change (X i j + Y i j + conj (X j i + Y j i)) / 2 = X i j + (Y i j + conj (Y j i)) / 2
    rw [map_add, h']
    ring
  rw [hs, hH, ha, hh, hF]
  · rw [Matrix.mul_add, Matrix.add_mul, add_comm]
    congr 1
  · ext i j
    rw [Matrix.conjTranspose_apply, Matrix.of_apply, Matrix.of_apply, RCLike.star_def]
    exact (nonlocal_hermitian (expandCoefficient mask C) psi vol s k j i).symm

theorem planeWaveHamiltonian_hermitian {N : ℕ} {n : Fin 3 → ℕ} (G : Fin N → Fin 3 → ℝ)
    (r : Idx n → Fin 3 → ℝ) (V : Idx n → ℝ) (k : Fin 3 → ℝ) : (Spec.planeWaveHamiltonian G r V k).IsHermitian := by
  ext a b
  rw [Matrix.conjTranspose_apply, RCLike.star_def]
  unfold Spec.planeWaveHamiltonian
  rw [map_add, map_div₀, map_sum, Complex.conj_natCast]
  congr 1
  · by_cases h : a = b
    · rw [h, if_pos rfl, Complex.conj_ofReal]
    · rw [if_neg h, if_neg (Ne.symm h), map_zero]
  · congr 1
    refine Finset.sum_congr rfl fun x _ => ?_
    rw [map_mul, Complex.conj_ofReal, ← Complex.exp_conj, map_neg, map_mul, Complex.conj_I, Complex.conj_ofReal]
    have : Spec.dot (fun e => G b e - G a e) (r x) = -Spec.dot (fun e => G a e - G b e) (r x) := by
      unfold Spec.dot
      rw [← Finset.sum_neg_distrib]
      exact Finset.sum_congr rfl fun e _ => by ring
    rw [this]
    push_cast
    congr 2
    ring

theorem projectorMatrix_hermitian {N : ℕ} {ι : Type*} [Fintype ι] (vol : ℝ) (f : ι → Fin N → ℂ) :
    (Spec.projectorMatrix vol f).IsHermitian := by
  ext a b
  rw [Matrix.conjTranspose_apply, RCLike.star_def]
  unfold Spec.projectorMatrix
  rw [map_div₀, map_sum, Complex.conj_ofReal]
  congr 1
  refine Finset.sum_congr rfl fun i _ => ?_
  rw [map_mul, Complex.conj_conj, mul_comm]

end Jrystal
