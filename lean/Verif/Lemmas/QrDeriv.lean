import Verif.Lemmas.Reach
import Mathlib.Analysis.InnerProductSpace.Calculus
import Mathlib.Analysis.Calculus.FDeriv.Norm

/- The Q factor of independent columns: unique up to phases, and differentiable for the Gram-Schmidt procedure
(C124). -/
namespace Jrystal
open scoped BigOperators ComplexConjugate
open Matrix InnerProductSpace

/-- Two factorisations of independent columns into orthonormal columns and a triangular matrix agree up to the phases
of the columns. -/
theorem qr_unique (qr : QR ℂ) (ht : Spec.Triangular qr) {N m : ℕ} (hm : m ≤ N) (w : Matrix (Fin N) (Fin m) ℂ)
    (hw : IsUnit (wᴴ * w).det) (Q : Matrix (Fin N) (Fin (min N m)) ℂ) (hQ : Qᴴ * Q = 1)
    (R : Matrix (Fin (min N m)) (Fin m) ℂ)
    (hR : ∀ (i : Fin (min N m)) (j : Fin m), (j : ℕ) < (i : ℕ) → R i j = 0) (e : w = Q * R) :
    ∃ u : Fin (min N m) → ℂ, (∀ j, conj (u j) * u j = 1) ∧ ∀ i j, qr.q w i j = u j * Q i j := by
  obtain ⟨S, hS, e'⟩ := ht w
  set q := qr.q w with hq
  have hqq : qᴴ * q = 1 := qr.orth w
  let c : Fin (min N m) ≃ Fin m := finCongr (min_eq_right hm)
  let R' : Matrix (Fin (min N m)) (Fin (min N m)) ℂ := R.submatrix id c
  let S' : Matrix (Fin (min N m)) (Fin (min N m)) ℂ := S.submatrix id c
  have hT1 : R'.BlockTriangular id := fun i j h => hR i (c j) (by simpa [c] using h)
  have hT2 : S'.BlockTriangular id := fun i j h => hS i (c j) (by simpa [c] using h)
  have h1 : Q * R' = q * S' := by
    have h2 : Q * R' = (Q * R).submatrix id c := rfl
    have h3 : q * S' = (q * S).submatrix id c := rfl
    rw [h2, h3, ← e, ← e']
  have h4 : R'ᴴ * R' = (wᴴ * w).submatrix c c := by
    have : wᴴ * w = Rᴴ * R := by
      conv_lhs => rw [e]
      rw [Matrix.conjTranspose_mul, Matrix.mul_assoc, ← Matrix.mul_assoc Qᴴ, hQ, Matrix.one_mul]
    rw [this]
    rfl
  have hdet : IsUnit R'.det := by
    have h5 : IsUnit (R'ᴴ * R').det := by
      rw [h4, Matrix.det_submatrix_equiv_self]
      exact hw
    rw [Matrix.det_mul] at h5
    exact isUnit_of_mul_isUnit_right h5
  let _ : Invertible R' := Matrix.invertibleOfIsUnitDet R' hdet
  have hinv : (R'⁻¹).BlockTriangular id := Matrix.blockTriangular_inv_of_blockTriangular hT1
  set T := S' * R'⁻¹ with hTdef
  have hT : T.BlockTriangular id := hT2.mul hinv
  have hQT : Q = q * T := by
    rw [hTdef, ← Matrix.mul_assoc, ← h1, Matrix.mul_assoc, Matrix.mul_nonsing_inv _ hdet, Matrix.mul_one]
  have hTT : Tᴴ * T = 1 := by
    have h5 : Qᴴ * Q = Tᴴ * T := by
      conv_lhs => rw [hQT]
      rw [Matrix.conjTranspose_mul, Matrix.mul_assoc, ← Matrix.mul_assoc qᴴ, hqq, Matrix.one_mul]
    rw [← h5, hQ]
  have hd := triangular_unitary_diag T (fun i j h => hT h) hTT
  have hone : ∀ j, conj (T j j) * T j j = 1 := by
    intro j
    have := congrFun (congrFun hTT j) j
    rw [Matrix.mul_apply, Matrix.one_apply, if_pos rfl, Finset.sum_eq_single j] at this
    · exact this
    · intro i _ hi
      rw [hd i j hi, mul_zero]
    · intro h; exact absurd (Finset.mem_univ _) h
  refine ⟨fun j => conj (T j j), fun j => by rw [Complex.conj_conj, mul_comm]; exact hone j, fun i j => ?_⟩
  have h6 : Q i j = q i j * T j j := by
    rw [congrFun (congrFun hQT i) j, Matrix.mul_apply, Finset.sum_eq_single j]
    · intro a _ ha
      rw [hd a j ha, mul_zero]
    · intro h; exact absurd (Finset.mem_univ _) h
  rw [h6, mul_left_comm, hone, mul_one]

/-- The columns of a matrix as vectors, followed by zeros. -/
noncomputable def paddedCols {N m : ℕ} (w : Fin N → Fin m → ℂ) : Fin N → EuclideanSpace ℂ (Fin N) :=
  fun i => if h : (i : ℕ) < m then WithLp.toLp 2 (fun a => w a ⟨i, h⟩) else 0

theorem paddedCols_gs_ne {N m : ℕ} {w : Fin N → Fin m → ℂ} (hw : LinearIndependent ℂ fun (b : Fin m) (a : Fin N) => w a b)
    (i : Fin N) (hi : (i : ℕ) < m) : gramSchmidt ℂ (paddedCols w) i ≠ 0 := by
  refine gramSchmidt_ne_zero_coe i ?_
  have hlt : ∀ j : Set.Iic i, ((j : Fin N) : ℕ) < m := fun j => lt_of_le_of_lt (Fin.le_def.1 j.2) hi
  have h1 := (hw.map' (WithLp.linearEquiv 2 ℂ (Fin N → ℂ)).symm.toLinearMap (LinearEquiv.ker _)).comp
    (fun j : Set.Iic i => (⟨((j : Fin N) : ℕ), hlt j⟩ : Fin m)) (fun a b h => by
      have := congrArg Fin.val h
      exact Subtype.ext (Fin.ext this))
  have e : paddedCols w ∘ ((↑) : Set.Iic i → Fin N) = (⇑(WithLp.linearEquiv 2 ℂ (Fin N → ℂ)).symm.toLinearMap
      ∘ fun (b : Fin m) (a : Fin N) => w a b) ∘ fun j : Set.Iic i => (⟨((j : Fin N) : ℕ), hlt j⟩ : Fin m) := by
    funext j
    simp only [Function.comp, paddedCols, dif_pos (hlt j)]
    rfl
  rw [e]
  exact h1

theorem paddedCols_differentiable {N m : ℕ} (w : Fin N → Fin m → ℂ) (i : Fin N) :
    DifferentiableAt ℝ (fun w : Fin N → Fin m → ℂ => paddedCols w i) w := by
  unfold paddedCols
  by_cases hi : (i : ℕ) < m
  · simp only [dif_pos hi]
    rw [differentiableAt_piLp]
    intro a
    show DifferentiableAt ℝ (fun w : Fin N → Fin m → ℂ => w a ⟨i, hi⟩) w
    fun_prop
  · simp only [dif_neg hi]
    exact differentiableAt_const _

theorem gramSchmidt_differentiable {N m : ℕ} {w : Fin N → Fin m → ℂ}
    (hw : LinearIndependent ℂ fun (b : Fin m) (a : Fin N) => w a b) :
    ∀ (k : ℕ) (i : Fin N), (i : ℕ) = k → (i : ℕ) < m →
      DifferentiableAt ℝ (fun w : Fin N → Fin m → ℂ => gramSchmidt ℂ (paddedCols w) i) w := by
  intro k
  induction k using Nat.strong_induction_on with
  | _ k ih =>
  intro i hik hi
  have e : (fun w : Fin N → Fin m → ℂ => gramSchmidt ℂ (paddedCols w) i) = fun w => paddedCols w i
      - ∑ j ∈ Finset.Iio i, (inner ℂ (gramSchmidt ℂ (paddedCols w) j) (paddedCols w i)
          * (((‖gramSchmidt ℂ (paddedCols w) j‖ : ℝ) : ℂ) ^ 2)⁻¹) • gramSchmidt ℂ (paddedCols w) j := by
    funext w
    simp only [← div_eq_mul_inv]
    exact eq_sub_of_add_eq (gramSchmidt_def'' ℂ (paddedCols w) i).symm
  rw [e]
  refine (paddedCols_differentiable w i).sub (DifferentiableAt.fun_sum fun j hj => ?_)
  have hji : j < i := Finset.mem_Iio.1 hj
  have hjm : (j : ℕ) < m := lt_trans hji hi
  have hg := ih j (by rw [← hik]; exact hji) j rfl hjm
  have hne := paddedCols_gs_ne hw j hjm
  have hnorm : DifferentiableAt ℝ (fun w : Fin N → Fin m → ℂ => ‖gramSchmidt ℂ (paddedCols w) j‖) w :=
    hg.norm ℂ hne
  have hnc : DifferentiableAt ℝ (fun w : Fin N → Fin m → ℂ => ((‖gramSchmidt ℂ (paddedCols w) j‖ : ℝ) : ℂ) ^ 2) w :=
    (Complex.ofRealCLM.differentiableAt.comp w hnorm).pow 2
  refine DifferentiableAt.smul ((hg.inner ℂ (paddedCols_differentiable w i)).mul (hnc.inv ?_)) hg
  exact pow_ne_zero 2 (by exact_mod_cast norm_ne_zero_iff.2 hne)

/-- The Gram-Schmidt procedure is differentiable at independent columns. -/
theorem gramSchmidtQR_differentiable {N m : ℕ} {w : Fin N → Fin m → ℂ}
    (hw : LinearIndependent ℂ fun (b : Fin m) (a : Fin N) => w a b) (i : Fin N) (j : Fin (min N m)) :
    DifferentiableAt ℝ (fun w : Fin N → Fin m → ℂ => (gramSchmidtQR ℂ).q (Matrix.of w) i j) w := by
  have hj : ((Fin.castLE (min_le_left N m) j : Fin N) : ℕ) < m := lt_of_lt_of_le j.2 (min_le_right N m)
  set j' : Fin N := Fin.castLE (min_le_left N m) j with hj'
  have hg := gramSchmidt_differentiable hw _ j' rfl hj
  have hne := paddedCols_gs_ne hw j' hj
  have h1 : DifferentiableAt ℝ (fun w : Fin N → Fin m → ℂ => gramSchmidtNormed ℂ (paddedCols w) j') w := by
    unfold gramSchmidtNormed
    have hnorm : DifferentiableAt ℝ (fun w : Fin N → Fin m → ℂ => ‖gramSchmidt ℂ (paddedCols w) j'‖) w :=
      hg.norm ℂ hne
    exact ((Complex.ofRealCLM.differentiableAt.comp w hnorm).inv
      (by simpa using hne)).smul hg
  have h2 : DifferentiableAt ℝ (fun w : Fin N → Fin m → ℂ => gramSchmidtNormed ℂ (paddedCols w) j' i) w :=
    ((differentiableAt_piLp 2).1 h1) i
  refine h2.congr_of_eventuallyEq ?_
  filter_upwards [hg.continuousAt.eventually_ne hne] with v hv
  have hv' : gramSchmidtNormed ℂ (paddedCols v) j' ≠ 0 := by
    unfold gramSchmidtNormed
    simpa using hv
  have := gramSchmidtOrthonormalBasis_apply (𝕜 := ℂ) (E := EuclideanSpace ℂ (Fin N)) (by simp) hv'
  exact congrArg (fun x : EuclideanSpace ℂ (Fin N) => x i) this

end Jrystal
