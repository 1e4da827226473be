import Verif.Lemmas.KohnSham
import Verif.Spec.KohnSham
import Verif.Lemmas.PwMatrix
import Mathlib.Analysis.Normed.Algebra.MatrixExponential
import Mathlib.Analysis.SpecialFunctions.Exponential
import Mathlib.Analysis.Calculus.LocalExtr.Basic
import Mathlib.LinearAlgebra.Matrix.PosDef
import Mathlib.LinearAlgebra.Matrix.DotProduct
import Mathlib.Analysis.Calculus.Deriv.Pow

/- Bands that minimise a function of the coefficients satisfy the equations of its derivative (C87, C101). -/
namespace Jrystal
open scoped BigOperators ComplexConjugate Matrix ComplexOrder
open KohnSham

theorem orth_matrix {nk M nb : ℕ} (C : Fin 1 → Fin nk → Fin M → Fin nb → ℂ) :
    Spec.OrthonormalBands C ↔ ∀ k, (Matrix.of (C 0 k))ᴴ * Matrix.of (C 0 k) = 1 := by
  constructor
  · intro h k
    ext i j
    rw [Matrix.mul_apply, Matrix.one_apply, ← h k i j]
    rfl
  · intro h k i j
    have := congrFun (congrFun (h k) i) j
    rw [Matrix.mul_apply, Matrix.one_apply] at this
    exact this

section
attribute [local instance] Matrix.linftyOpNormedRing Matrix.linftyOpNormedAlgebra

/-- `exp(tX)` for a skew matrix: unitary, and its derivative at 0 applied to the columns of `C`. -/
theorem unitary_curve {M nb : ℕ} (X : Matrix (Fin M) (Fin M) ℂ) (hX : Xᴴ = -X)
    (C : Matrix (Fin M) (Fin nb) ℂ) :
    ∃ U : ℝ → Matrix (Fin M) (Fin M) ℂ, U 0 = 1 ∧ (∀ t, (U t)ᴴ * U t = 1) ∧
      ∀ G b, HasDerivAt (fun t => (U t * C) G b) ((X * C) G b) 0 := by
  refine ⟨fun t => NormedSpace.exp (t • X), by simp, fun t => ?_, fun G b => ?_⟩
  · rw [← Matrix.exp_conjTranspose, Matrix.conjTranspose_smul, hX, smul_neg, star_trivial,
      ← Matrix.exp_add_of_commute _ _ ((Commute.refl (t • X)).neg_left), neg_add_cancel, NormedSpace.exp_zero]
  · have h := hasDerivAt_exp_smul_const (𝕂 := ℝ) X 0
    rw [zero_smul, NormedSpace.exp_zero, one_mul] at h
    have h2 : ∀ G G', HasDerivAt (fun t : ℝ => (NormedSpace.exp (t • X) : Matrix (Fin M) (Fin M) ℂ) G G')
        (X G G') 0 := by
      intro G G'
      have h3 : HasDerivAt (fun t : ℝ => (NormedSpace.exp (t • X) : Matrix (Fin M) (Fin M) ℂ)) X 0 := h
      exact (((Matrix.entryLinearMap ℝ ℂ G G').toContinuousLinearMap.hasFDerivAt.comp_hasDerivAt 0 h3 :))
    simp only [Matrix.mul_apply]
    exact HasDerivAt.fun_sum fun G' _ => (h2 G G').mul_const _

end

private theorem re_conj (z : ℂ) : (conj z).re = z.re := Complex.conj_re z

/-- A stationarity condition over all skew matrices makes `F` and `P` commute. -/
theorem commute_of_stationary {M : ℕ} (F P : Matrix (Fin M) (Fin M) ℂ) (hF : F.IsHermitian)
    (hP : P.IsHermitian)
    (h : ∀ X : Matrix (Fin M) (Fin M) ℂ, Xᴴ = -X → (Xᴴ * F * P).trace.re = 0) : F * P = P * F := by
  set K := F * P - P * F with hK
  have hKs : Kᴴ = -K := by
    rw [hK, Matrix.conjTranspose_sub, Matrix.conjTranspose_mul, Matrix.conjTranspose_mul, hF.eq, hP.eq,
      neg_sub]
  have h1 : (Kᴴ * (F * P)).trace.re = 0 := by rw [← Matrix.mul_assoc]; exact h K hKs
  have h2 : (Kᴴ * (P * F)).trace.re = 0 := by
    have : (Kᴴ * (P * F)).trace = -conj (Kᴴ * (F * P)).trace := by
      rw [starRingEnd_apply, ← Matrix.trace_conjTranspose, Matrix.conjTranspose_mul, Matrix.conjTranspose_mul,
        Matrix.conjTranspose_conjTranspose, hF.eq, hP.eq, Matrix.trace_mul_comm, hKs, Matrix.mul_neg,
        Matrix.trace_neg]
    rw [this, Complex.neg_re, re_conj, h1, neg_zero]
  have h3 : (Kᴴ * K).trace.re = 0 := by
    conv_lhs => rw [hK, Matrix.mul_sub, ← hK, Matrix.trace_sub, Complex.sub_re]
    rw [h1, h2, sub_zero]
  have h4 : K = 0 := by
    rw [← Matrix.trace_conjTranspose_mul_self_eq_zero_iff]
    apply Complex.ext
    · exact h3
    · have : conj (Kᴴ * K).trace = (Kᴴ * K).trace := by
        rw [starRingEnd_apply, ← Matrix.trace_conjTranspose, Matrix.conjTranspose_mul,
          Matrix.conjTranspose_conjTranspose]
      exact Complex.conj_eq_iff_im.mp this
  exact sub_eq_zero.mp h4

theorem expand_append {ns nk nb nb' : ℕ} {n : Fin 3 → ℕ} (mask : Idx n → Bool)
    (C : Fin ns → Fin nk → Fin (maskCount mask) → Fin nb → ℂ)
    (D : Fin ns → Fin nk → Fin (maskCount mask) → Fin nb' → ℂ) :
    (fun s k => Fin.append (expandCoefficient mask C s k) (expandCoefficient mask D s k))
      = expandCoefficient mask fun s k G => Fin.append (C s k G) (D s k G) := by
  funext s k b
  refine Fin.addCases (fun i => ?_) (fun i => ?_) b
  · rw [Fin.append_left]
    unfold expandCoefficient
    simp only [Fin.append_left]
  · rw [Fin.append_right]
    unfold expandCoefficient
    simp only [Fin.append_right]

theorem hasDerivAt_expand {nk nb : ℕ} {n : Fin 3 → ℕ} (mask : Idx n → Bool)
    {C : ℝ → Fin 1 → Fin nk → Fin (maskCount mask) → Fin nb → ℂ}
    {D : Fin 1 → Fin nk → Fin (maskCount mask) → Fin nb → ℂ} {t : ℝ}
    (h : ∀ k G b, HasDerivAt (fun t => C t 0 k G b) (D 0 k G b) t) (k : Fin nk) (b : Fin nb) (x : Idx n) :
    HasDerivAt (fun t => expandCoefficient mask (C t) 0 k b x) (expandCoefficient mask D 0 k b x) t := by
  unfold expandCoefficient
  cases hx : mask x with
  | false =>
    simp only [scatterMask_off mask _ x hx]
    exact hasDerivAt_const _ _
  | true =>
    obtain ⟨a, rfl⟩ := exists_maskPos mask hx
    simp only [scatterMask_get]
    exact h k a b

/-- Orthonormal bands at which the form of the Hermitian matrices `F` vanishes along every curve of orthonormal bands
satisfy the Kohn-Sham equations of `F`. -/
theorem kohnSham_of_stationary {nk M nb : ℕ} (occ : Occ 1 nk nb) (C : Fin 1 → Fin nk → Fin M → Fin nb → ℂ)
    (hC : Spec.OrthonormalBands C) (F : Fin nk → Matrix (Fin M) (Fin M) ℂ) (hF : ∀ k, (F k).IsHermitian)
    (hstat : ∀ (Ct : ℝ → Fin 1 → Fin nk → Fin M → Fin nb → ℂ) (D : Fin 1 → Fin nk → Fin M → Fin nb → ℂ),
      Ct 0 = C → (∀ k G b, HasDerivAt (fun t => Ct t 0 k G b) (D 0 k G b) 0) →
      (∀ t, Spec.OrthonormalBands (Ct t)) →
      2 * ∑ k, ∑ b, occ 0 k b * (((Matrix.of (D 0 k))ᴴ * F k * Matrix.of (C 0 k)) b b).re = 0) :
    (∀ k b, occ 0 k b ≠ 0 → ∀ G, ∑ G', F k G G' * C 0 k G' b
      = ∑ a, ((Matrix.of (C 0 k))ᴴ * F k * Matrix.of (C 0 k)) a b * C 0 k G a) ∧
    (∀ k a b, occ 0 k a ≠ occ 0 k b → ((Matrix.of (C 0 k))ᴴ * F k * Matrix.of (C 0 k)) a b = 0) := by
  have horth := (orth_matrix C).mp hC
  -- the density matrix commutes with the Hamiltonian
  have hcomm : ∀ k, F k * (Matrix.of (C 0 k) * Matrix.diagonal (fun b => (occ 0 k b : ℂ)) * (Matrix.of (C 0 k))ᴴ)
      = (Matrix.of (C 0 k) * Matrix.diagonal (fun b => (occ 0 k b : ℂ)) * (Matrix.of (C 0 k))ᴴ) * F k := by
    intro k₀
    refine commute_of_stationary _ _ (hF k₀) ?_ fun X hX => ?_
    · rw [Matrix.IsHermitian, Matrix.conjTranspose_mul, Matrix.conjTranspose_mul,
        Matrix.conjTranspose_conjTranspose, Matrix.diagonal_conjTranspose, ← Matrix.mul_assoc]
      congr 2
      congr 1
      funext b
      exact Complex.conj_ofReal _
    · obtain ⟨U, hU0, hU1, hU2⟩ := unitary_curve X hX (Matrix.of (C 0 k₀))
      let Ct : ℝ → Fin 1 → Fin nk → Fin M → Fin nb → ℂ := fun t _ k G b =>
        if k = k₀ then (U t * Matrix.of (C 0 k₀)) G b else C 0 k G b
      let D : Fin 1 → Fin nk → Fin M → Fin nb → ℂ := fun _ k G b =>
        if k = k₀ then (X * Matrix.of (C 0 k₀)) G b else 0
      have hCt0 : Ct 0 = C := by
        funext s k G b
        rw [Subsingleton.elim s 0]
        by_cases hk : k = k₀
        · simp only [Ct, if_pos hk, hU0, Matrix.one_mul]
          rw [hk]; rfl
        · simp only [Ct, if_neg hk]
      have hderCt : ∀ k G b, HasDerivAt (fun t => Ct t 0 k G b) (D 0 k G b) 0 := by
        intro k G b
        by_cases hk : k = k₀
        · simp only [Ct, D, if_pos hk]
          exact hU2 G b
        · simp only [Ct, D, if_neg hk]
          exact hasDerivAt_const _ _
      have hCtorth : ∀ t, Spec.OrthonormalBands (Ct t) := by
        intro t
        rw [orth_matrix]
        intro k
        by_cases hk : k = k₀
        · simp only [Ct, if_pos hk]
          show (U t * Matrix.of (C 0 k₀))ᴴ * (U t * Matrix.of (C 0 k₀)) = 1
          rw [Matrix.conjTranspose_mul, Matrix.mul_assoc, ← Matrix.mul_assoc _ (U t), hU1, Matrix.one_mul,
            horth]
        · simp only [Ct, if_neg hk]
          exact horth k
      have hz := hstat Ct D hCt0 hderCt hCtorth
      have hz2 : ∑ b, occ 0 k₀ b * (((Matrix.of (D 0 k₀))ᴴ * F k₀ * Matrix.of (C 0 k₀)) b b).re = 0 := by
        have : ∑ k, ∑ b, occ 0 k b * (((Matrix.of (D 0 k))ᴴ * F k * Matrix.of (C 0 k)) b b).re
            = ∑ b, occ 0 k₀ b * (((Matrix.of (D 0 k₀))ᴴ * F k₀ * Matrix.of (C 0 k₀)) b b).re := by
          refine Finset.sum_eq_single k₀ (fun k _ hk => ?_) fun h => absurd (Finset.mem_univ _) h
          have hD : Matrix.of (D 0 k) = 0 := by
            simp only [D, if_neg hk]
            rfl
          rw [hD]
          simp
        rw [this] at hz
        linarith
      have hD : Matrix.of (D 0 k₀) = X * Matrix.of (C 0 k₀) := by
        simp only [D]
        rfl
      rw [hD] at hz2
      have htr : (Xᴴ * F k₀ * (Matrix.of (C 0 k₀) * Matrix.diagonal (fun b => (occ 0 k₀ b : ℂ)) *
          (Matrix.of (C 0 k₀))ᴴ)).trace
          = ∑ b, ((X * Matrix.of (C 0 k₀))ᴴ * F k₀ * Matrix.of (C 0 k₀)) b b * (occ 0 k₀ b : ℂ) := by
        rw [← Matrix.mul_assoc, Matrix.trace_mul_comm, ← Matrix.mul_assoc, Matrix.conjTranspose_mul,
          ← Matrix.mul_assoc, ← Matrix.mul_assoc]
        unfold Matrix.trace
        refine Finset.sum_congr rfl fun b _ => ?_
        rw [Matrix.diag_apply, Matrix.mul_diagonal]
      rw [htr, Complex.re_sum, ← hz2]
      refine Finset.sum_congr rfl fun b _ => ?_
      rw [Complex.re_mul_ofReal, mul_comm]
  -- columns and elements of the commutation
  have hcol : ∀ k, F k * Matrix.of (C 0 k) * Matrix.diagonal (fun b => (occ 0 k b : ℂ))
      = Matrix.of (C 0 k) * Matrix.diagonal (fun b => (occ 0 k b : ℂ)) *
        ((Matrix.of (C 0 k))ᴴ * F k * Matrix.of (C 0 k)) := by
    intro k
    have h1 := congrArg (· * Matrix.of (C 0 k)) (hcomm k)
    simp only [Matrix.mul_assoc] at h1
    rw [horth k, Matrix.mul_one] at h1
    simp only [Matrix.mul_assoc]
    exact h1
  have hoff : ∀ k a b, occ 0 k a ≠ occ 0 k b →
      ((Matrix.of (C 0 k))ᴴ * F k * Matrix.of (C 0 k)) a b = 0 := by
    intro k a b hab
    have h1 := congrArg ((Matrix.of (C 0 k))ᴴ * ·) (hcol k)
    simp only [← Matrix.mul_assoc] at h1
    rw [horth k, Matrix.one_mul] at h1
    have h2 := congrFun (congrFun h1 a) b
    rw [Matrix.mul_diagonal] at h2
    rw [Matrix.mul_assoc (Matrix.diagonal _), Matrix.mul_assoc (Matrix.diagonal _), Matrix.diagonal_mul] at h2
    have h3 : ((occ 0 k a : ℂ) - occ 0 k b) * ((Matrix.of (C 0 k))ᴴ * F k * Matrix.of (C 0 k)) a b = 0 := by
      linear_combination -h2
    rcases mul_eq_zero.mp h3 with h4 | h4
    · exact absurd (by exact_mod_cast sub_eq_zero.mp h4) hab
    · exact h4
  refine ⟨fun k b hb G => ?_, hoff⟩
  have h1 := congrFun (congrFun (hcol k) G) b
  rw [Matrix.mul_diagonal, Matrix.mul_assoc (Matrix.of (C 0 k)), Matrix.mul_apply, Matrix.mul_apply] at h1
  have h2 : ∑ a, Matrix.of (C 0 k) G a * (Matrix.diagonal (fun b => (occ 0 k b : ℂ)) *
      ((Matrix.of (C 0 k))ᴴ * F k * Matrix.of (C 0 k))) a b
      = (∑ a, ((Matrix.of (C 0 k))ᴴ * F k * Matrix.of (C 0 k)) a b * C 0 k G a) * (occ 0 k b : ℂ) := by
    rw [Finset.sum_mul]
    refine Finset.sum_congr rfl fun a _ => ?_
    rw [Matrix.diagonal_mul, Matrix.of_apply]
    by_cases hab : occ 0 k a = occ 0 k b
    · rw [hab]; ring
    · rw [hoff k a b hab]; ring
  rw [h2] at h1
  exact mul_right_cancel₀ (by exact_mod_cast hb) h1

/-- Orthonormal bands that minimise `E`, whose derivative is given by the Hermitian matrices `F`, satisfy the
Kohn-Sham equations of `F`. -/
theorem kohnSham_of_derivative {nk M nb : ℕ} (occ : Occ 1 nk nb)
    (E : (Fin 1 → Fin nk → Fin M → Fin nb → ℂ) → ℝ) (C : Fin 1 → Fin nk → Fin M → Fin nb → ℂ)
    (hC : Spec.OrthonormalBands C) (F : Fin nk → Matrix (Fin M) (Fin M) ℂ) (hF : ∀ k, (F k).IsHermitian)
    (hder : ∀ (Ct : ℝ → Fin 1 → Fin nk → Fin M → Fin nb → ℂ) (D : Fin 1 → Fin nk → Fin M → Fin nb → ℂ),
      Ct 0 = C → (∀ k G b, HasDerivAt (fun t => Ct t 0 k G b) (D 0 k G b) 0) →
      HasDerivAt (fun t => E (Ct t))
        (2 * ∑ k, ∑ b, occ 0 k b * (((Matrix.of (D 0 k))ᴴ * F k * Matrix.of (C 0 k)) b b).re) 0)
    (hmin : ∀ C', Spec.OrthonormalBands C' → E C ≤ E C') :
    (∀ k b, occ 0 k b ≠ 0 → ∀ G, ∑ G', F k G G' * C 0 k G' b
      = ∑ a, ((Matrix.of (C 0 k))ᴴ * F k * Matrix.of (C 0 k)) a b * C 0 k G a) ∧
    (∀ k a b, occ 0 k a ≠ occ 0 k b → ((Matrix.of (C 0 k))ᴴ * F k * Matrix.of (C 0 k)) a b = 0) := by
  refine kohnSham_of_stationary occ C hC F hF fun Ct D hCt0 hderCt hCtorth => ?_
  have hloc : IsLocalMin (fun t => E (Ct t)) 0 := by
    refine Filter.Eventually.of_forall fun t => ?_
    show E (Ct 0) ≤ E (Ct t)
    rw [hCt0]
    exact hmin (Ct t) (hCtorth t)
  exact hloc.hasDerivAt_eq_zero (hder Ct D hCt0 hderCt)

end Jrystal
