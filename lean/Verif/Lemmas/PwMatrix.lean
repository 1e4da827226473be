import Verif.Lemmas.Hamiltonian
import Verif.Lemmas.Planewave
import Mathlib.LinearAlgebra.Matrix.ConjTranspose

/- The matrix of a local Hamiltonian between the plane waves of a mask. -/
namespace Jrystal
open scoped BigOperators ComplexConjugate

/-- The unit vectors of the plane waves of a mask. -/
def unitVec {n : Fin 3 → ℕ} (mask : Idx n → Bool) : Fin (maskCount mask) → Idx n → ℂ :=
  fun a x => if x = maskPos mask a then 1 else 0

theorem maskExpand {n : Fin 3 → ℕ} (mask : Idx n → Bool) (u : Fin (maskCount mask) → ℂ)
    (x : Idx n) : expandCoefficient mask (fun (_ : Fin 1) (_ : Fin 1) g (_ : Fin 1) => u g) 0 0 0 x
      = ∑ g, u g * (if x = maskPos mask g then 1 else 0) := by
  unfold expandCoefficient
  by_cases hx : mask x = true
  · obtain ⟨a, rfl⟩ := exists_maskPos mask hx
    rw [scatterMask_get]
    rw [Finset.sum_eq_single a]
    · simp
    · intro b _ hb
      rw [if_neg, mul_zero]
      intro h
      exact hb (maskList_get_inj mask h).symm
    · intro h; exact absurd (Finset.mem_univ a) h
  · rw [scatterMask_off _ _ _ (by simpa using hx)]
    symm
    refine Finset.sum_eq_zero fun b _ => ?_
    rw [if_neg, mul_zero]
    intro h
    exact hx (h ▸ maskPos_mask mask b)

theorem orbital_unit (A : Matrix (Fin 3) (Fin 3) ℝ) (hA : A.det ≠ 0) (n : Fin 3 → ℕ)
    (k x : Idx n) (vol : ℝ) :
    orbital (fun y : Idx n => if y = k then 1 else 0) vol x
      = conj (Complex.exp (-(Complex.I * ((∑ d, gVectors A n k d * rVectors A n x d : ℝ) : ℂ))))
        / (Real.sqrt vol : ℂ) := by
  rw [exp_grid A hA]
  unfold orbital
  rw [ifftn_eq, Complex.conj_conj]
  have hN := gridCount_ne k
  have : ∑ y : Idx n, (if y = k then (1 : ℂ) else 0) * omega y x = omega k x := by
    rw [Finset.sum_eq_single k]
    · simp
    · intro b _ hb; rw [if_neg hb, zero_mul]
    · intro h; exact absurd (Finset.mem_univ k) h
  rw [this]
  push_cast
  field_simp

theorem hermForm_basis (A : Matrix (Fin 3) (Fin 3) ℝ) (hA : A.det ≠ 0) {n : Fin 3 → ℕ} {m : ℕ}
    (mask : Idx n → Bool) (v : Fin m → Idx n → ℂ) (k : Fin 3 → ℝ) (vol : ℝ) (hvol : 0 < vol)
    (a b : Fin (maskCount mask)) :
    hermPart (formMatrix (unitVec mask) v (gVectors A n) k vol) a b = ∑ σ, ((if a = b then
          (Spec.kineticEnergy (fun e => gVectors A n (maskPos mask a) e + k e) : ℂ) else 0) +
        (∑ x, ((v σ x).re : ℂ) * Complex.exp (-(Complex.I * ((Spec.dot (fun e =>
          gVectors A n (maskPos mask a) e - gVectors A n (maskPos mask b) e) (rVectors A n x) : ℝ) : ℂ))))
            / ((∏ i, n i : ℕ) : ℂ)) := by
  let c : Fin (maskCount mask) → Idx n → ℂ := fun a x => if x = maskPos mask a then 1 else 0
  change hermPart (formMatrix c v (gVectors A n) k vol) a b = _
  rw [hermPart_form]
  refine Finset.sum_congr rfl fun σ _ => ?_
  congr 1
  · unfold Spec.kineticElement
    rw [Finset.sum_eq_single (maskPos mask a)]
    · by_cases hab : a = b
      · subst hab; simp [c]
      · rw [if_neg hab]
        have : maskPos mask a ≠ maskPos mask b := fun h => hab (maskList_get_inj mask h)
        simp [c, this]
    · intro x _ hx
      simp [c, hx]
    · intro h; exact absurd (Finset.mem_univ _) h
  · unfold Spec.potentialElement Spec.cellInner
    rw [Finset.mul_sum, Finset.sum_div]
    refine Finset.sum_congr rfl fun x _ => ?_
    beta_reduce
    rw [orbital_unit A hA, orbital_unit A hA, map_div₀, Complex.conj_conj, Complex.conj_ofReal]
    have hs : (Real.sqrt vol : ℂ) * (Real.sqrt vol : ℂ) = (vol : ℂ) := by
      rw [← Complex.ofReal_mul, Real.mul_self_sqrt hvol.le]
    have hs0 : (Real.sqrt vol : ℂ) ≠ 0 := by
      rw [Complex.ofReal_ne_zero]; exact (Real.sqrt_pos.mpr hvol).ne'
    have hexp : Complex.exp (-(Complex.I * ((Spec.dot (fun e =>
          gVectors A n (maskPos mask a) e - gVectors A n (maskPos mask b) e) (rVectors A n x) : ℝ) : ℂ)))
        = Complex.exp (-(Complex.I * ((∑ d, gVectors A n (maskPos mask a) d * rVectors A n x d : ℝ) : ℂ)))
          * conj (Complex.exp (-(Complex.I * ((∑ d, gVectors A n (maskPos mask b) d * rVectors A n x d : ℝ) : ℂ)))) := by
      rw [← Complex.exp_conj, ← Complex.exp_add]
      congr 1
      rw [map_neg, map_mul, Complex.conj_I, Complex.conj_ofReal]
      have : Spec.dot (fun e =>
          gVectors A n (maskPos mask a) e - gVectors A n (maskPos mask b) e) (rVectors A n x)
          = (∑ d, gVectors A n (maskPos mask a) d * rVectors A n x d)
            - ∑ d, gVectors A n (maskPos mask b) d * rVectors A n x d := by
        unfold Spec.dot
        rw [← Finset.sum_sub_distrib]
        exact Finset.sum_congr rfl fun d _ => by ring
      rw [this]
      push_cast
      ring
    rw [hexp]
    push_cast
    rw [← hs]
    field_simp

theorem hermForm_compress {ns nk nb m : ℕ} {n : Fin 3 → ℕ} (mask : Idx n → Bool)
    (C : Fin ns → Fin nk → Fin (maskCount mask) → Fin nb → ℂ) (v : Fin m → Idx n → ℂ)
    (g : Idx n → Fin 3 → ℝ) (k₀ : Fin 3 → ℝ) (vol : ℝ) (s : Fin ns) (k : Fin nk) :
    hermPart (formMatrix (expandCoefficient mask C s k) v g k₀ vol)
      = (Matrix.of (C s k)).conjTranspose * hermPart (formMatrix (unitVec mask) v g k₀ vol)
        * Matrix.of (C s k) := by
  ext i j
  refine (hermPart_mix (formMatrix (fun (a : Fin (maskCount mask)) x => if x = maskPos mask a then (1 : ℂ) else 0)
      v g k₀ vol)
    (formMatrix (expandCoefficient mask C s k) v g
      k₀ vol) (Matrix.of fun i g => C s k g i) (fun i j => formMatrix_mix _ _ _
    (fun i x => maskExpand mask (fun g => C s k g i) x) _ g k₀ vol i j) i j).trans ?_
  rw [Matrix.mul_apply]
  unfold sesq
  rw [Finset.sum_comm]
  refine Finset.sum_congr rfl fun b _ => ?_
  rw [Matrix.mul_apply, Finset.sum_mul]
  rfl

end Jrystal
