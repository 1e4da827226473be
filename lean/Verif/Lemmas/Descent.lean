import Verif.Spec.Descent
import Verif.Lemmas.QrDeriv
import Verif.Lemmas.EnergyGradient
import Mathlib.Topology.Instances.Matrix
import Mathlib.LinearAlgebra.Matrix.Charpoly.Coeff

/- The gradient of a function of orthonormalised bands is perpendicular to the parameters (C134). -/
namespace Jrystal
open scoped BigOperators ComplexConjugate Matrix
open Matrix KohnSham

namespace Descent
variable {ns nk g nb : ℕ}

/-- The direction that adds `c` times band `i` to band `j`. -/
noncomputable def addDir (p : PwParams ns nk g nb) (s : Fin ns) (k : Fin nk) (i j : Fin nb) (c : ℂ) : PwParams ns nk g nb :=
  ⟨fun s' k' a b => if s' = s ∧ k' = k ∧ b = j then (c * Spec.bandMatrix p s k a i).re else 0,
    fun s' k' a b => if s' = s ∧ k' = k ∧ b = j then (c * Spec.bandMatrix p s k a i).im else 0⟩

theorem dot_addDir (p G : PwParams ns nk g nb) (s : Fin ns) (k : Fin nk) (i j : Fin nb) (c : ℂ) :
    Spec.paramDot G (addDir p s k i j c)
      = (conj c * ∑ a, conj (Spec.bandMatrix p s k a i) * Spec.bandMatrix G s k a j).re := by
  unfold Spec.paramDot
  rw [Finset.sum_eq_single s, Finset.sum_eq_single k, Finset.mul_sum, Complex.re_sum]
  · refine Finset.sum_congr rfl fun a _ => ?_
    rw [Finset.sum_eq_single j]
    · simp only [addDir, Spec.bandMatrix, and_self, if_true, Complex.mul_re, Complex.mul_im, Complex.conj_re, Complex.conj_im]
      ring
    · intro b _ hb
      simp [addDir, hb]
    · intro h; exact absurd (Finset.mem_univ _) h
  · intro k' _ hk
    exact Finset.sum_eq_zero fun a _ => Finset.sum_eq_zero fun b _ => by simp [addDir, hk]
  · intro h; exact absurd (Finset.mem_univ _) h
  · intro s' _ hs
    exact Finset.sum_eq_zero fun k' _ => Finset.sum_eq_zero fun a _ => Finset.sum_eq_zero fun b _ => by simp [addDir, hs]
  · intro h; exact absurd (Finset.mem_univ _) h

/-- A function that does not change when a multiple of band `i` is added to band `j` has a gradient whose band `j` is
perpendicular to band `i`. -/
theorem perp_core {f : PwParams ns nk g nb → ℝ} {p G : PwParams ns nk g nb} (hG : Spec.IsFullGradient f p G) (s : Fin ns)
    (k : Fin nk) (i j : Fin nb) (h : ∀ c : ℂ, ∀ᶠ t : ℝ in nhds 0, f (Spec.along p (addDir p s k i j c) t) = f p) :
    Spec.BandPerp p G s k i j := by
  have key : ∀ c : ℂ, (conj c * ∑ a, conj (Spec.bandMatrix p s k a i) * Spec.bandMatrix G s k a j).re = 0 := by
    intro c
    rw [← dot_addDir]
    have h1 := hG (Spec.along p (addDir p s k i j c)) (addDir p s k i j c) (along_zero _ _)
      (along_deriv p _).1 (along_deriv p _).2
    exact h1.unique ((hasDerivAt_const (0 : ℝ) (f p)).congr_of_eventuallyEq (h c))
  have h1 := key (∑ a, conj (Spec.bandMatrix p s k a i) * Spec.bandMatrix G s k a j)
  rw [← Complex.normSq_eq_conj_mul_self, Complex.ofReal_re] at h1
  exact Complex.normSq_eq_zero.1 h1

theorem along_addDir (p : PwParams ns nk g nb) (s : Fin ns) (k : Fin nk) (i j : Fin nb) (c : ℂ) (t : ℝ) :
    Spec.bandMatrix (Spec.along p (addDir p s k i j c) t) s k
      = Spec.bandMatrix p s k * (1 + Matrix.single i j ((t : ℂ) * c)) := by
  ext a b
  rw [Matrix.mul_add, Matrix.mul_one, Matrix.add_apply]
  by_cases hb : b = j
  · subst hb
    rw [Matrix.mul_single_apply_same]
    apply Complex.ext <;>
      simp [Spec.bandMatrix, Spec.along, addDir, Complex.mul_re, Complex.mul_im] <;> ring
  · rw [Matrix.mul_single_apply_of_ne _ _ _ _ _ hb]
    apply Complex.ext <;> simp [Spec.bandMatrix, Spec.along, addDir, hb]

theorem along_other (p : PwParams ns nk g nb) (s s' : Fin ns) (k k' : Fin nk) (i j : Fin nb) (c : ℂ) (t : ℝ)
    (h : ¬ (s' = s ∧ k' = k)) :
    Spec.bandMatrix (Spec.along p (addDir p s k i j c) t) s' k' = Spec.bandMatrix p s' k' := by
  have h2 : ∀ b, ¬ (s' = s ∧ k' = k ∧ b = j) := fun b hb => h ⟨hb.1, hb.2.1⟩
  ext a b
  apply Complex.ext <;> simp [Spec.bandMatrix, Spec.along, addDir, h2 b]

theorem add_unit (i j : Fin nb) (c : ℂ) :
    ∀ᶠ t : ℝ in nhds 0, IsUnit (1 + Matrix.single i j ((t : ℂ) * c) : Matrix (Fin nb) (Fin nb) ℂ).det := by
  have hc : Continuous fun t : ℝ => (1 + Matrix.single i j ((t : ℂ) * c) : Matrix (Fin nb) (Fin nb) ℂ).det := by
    refine Continuous.matrix_det (continuous_const.add (continuous_matrix fun a b => ?_))
    simp only [Matrix.single_apply]
    split
    · exact (Complex.continuous_ofReal).mul continuous_const
    · exact continuous_const
  have h0 : (1 + Matrix.single i j (((0 : ℝ) : ℂ) * c) : Matrix (Fin nb) (Fin nb) ℂ).det ≠ 0 := by simp
  filter_upwards [hc.continuousAt.eventually_ne h0] with t ht
  exact isUnit_iff_ne_zero.2 ht

theorem gram_mul {W : Matrix (Fin g) (Fin nb) ℂ} (hW : IsUnit (Wᴴ * W).det) {T : Matrix (Fin nb) (Fin nb) ℂ}
    (hT : IsUnit T.det) : IsUnit ((W * T)ᴴ * (W * T)).det := by
  have : (W * T)ᴴ * (W * T) = Tᴴ * (Wᴴ * W) * T := by rw [Matrix.conjTranspose_mul]; simp only [Matrix.mul_assoc]
  rw [this, Matrix.det_mul, Matrix.det_mul, Matrix.det_conjTranspose]
  exact ((hT.star).mul hW).mul hT

/-- Parameters with the same span have orthonormal bands that are unitary mixtures of each other. -/
theorem qr_span (qr : QR ℂ) (ht : Spec.Triangular qr) (hm : nb ≤ g) {W : Matrix (Fin g) (Fin nb) ℂ}
    (hW : IsUnit (Wᴴ * W).det) {T : Matrix (Fin nb) (Fin nb) ℂ} (hT : IsUnit T.det) :
    ∃ U ∈ Matrix.unitaryGroup (Fin (min g nb)) ℂ, ∀ a b, qr.q (W * T) a b = ∑ c, U b c * qr.q W a c := by
  obtain ⟨R, -, e⟩ := ht W
  obtain ⟨R', -, e'⟩ := ht (W * T)
  set q := qr.q W with hq
  set q' := qr.q (W * T) with hq'
  have o : qᴴ * q = 1 := qr.orth W
  have o' : q'ᴴ * q' = 1 := qr.orth (W * T)
  let c : Fin (min g nb) ≃ Fin nb := finCongr (min_eq_right hm)
  let S : Matrix (Fin (min g nb)) (Fin (min g nb)) ℂ := R'.submatrix id c
  have hdet : IsUnit S.det := by
    have h4 : Sᴴ * S = ((W * T)ᴴ * (W * T)).submatrix c c := by
      have : (W * T)ᴴ * (W * T) = R'ᴴ * R' := by
        conv_lhs => rw [e']
        rw [Matrix.conjTranspose_mul, Matrix.mul_assoc, ← Matrix.mul_assoc q'ᴴ, o', Matrix.one_mul]
      rw [this]
      rfl
    have h5 : IsUnit (Sᴴ * S).det := by
      rw [h4, Matrix.det_submatrix_equiv_self]
      exact gram_mul hW hT
    rw [Matrix.det_mul] at h5
    exact isUnit_of_mul_isUnit_right h5
  let V : Matrix (Fin (min g nb)) (Fin (min g nb)) ℂ := (R * T).submatrix id c * S⁻¹
  have hV : q' = q * V := by
    have h1 : q' * S = q * (R * T).submatrix id c := by
      have h2 : q' * S = (q' * R').submatrix id c := rfl
      have h3 : q * (R * T).submatrix id c = (q * (R * T)).submatrix id c := rfl
      rw [h2, h3, ← e', ← Matrix.mul_assoc, ← e]
    rw [show q * V = q * (R * T).submatrix id c * S⁻¹ from (Matrix.mul_assoc _ _ _).symm, ← h1, Matrix.mul_assoc,
      Matrix.mul_nonsing_inv _ hdet, Matrix.mul_one]
  have hVV : Vᴴ * V = 1 := by
    have h5 : q'ᴴ * q' = Vᴴ * V := by
      conv_lhs => rw [hV]
      rw [Matrix.conjTranspose_mul, Matrix.mul_assoc, ← Matrix.mul_assoc qᴴ, o, Matrix.one_mul]
    rw [← h5, o']
  refine ⟨Vᵀ, ?_, fun a b => ?_⟩
  · rw [Matrix.mem_unitaryGroup_iff']
    have h6 : V * Vᴴ = 1 := mul_eq_one_comm.1 hVV
    have h7 := congrArg Matrix.transpose h6
    rw [Matrix.transpose_mul, Matrix.transpose_one] at h7
    exact h7
  · rw [congrFun (congrFun hV a) b, Matrix.mul_apply]
    exact Finset.sum_congr rfl fun x _ => mul_comm _ _

section
variable (qr : QR ℂ) (ht : Spec.Triangular qr) (hm : nb ≤ g) (E : (Fin ns → Fin nk → Fin g → Fin (min g nb) → ℂ) → ℝ)
    (p : PwParams ns nk g nb) (hp : Spec.Independent p) (G : PwParams ns nk g nb)
    (hG : Spec.IsFullGradient (fun p => E (unitaryMatrix qr p)) p G)
include ht hm hp hG

theorem perp_phase (hphase : ∀ (u : Fin ns → Fin nk → Fin (min g nb) → ℂ), (∀ s k b, conj (u s k b) * u s k b = 1) →
      ∀ C, E (fun s k G b => u s k b * C s k G b) = E C) (s : Fin ns) (k : Fin nk) (i j : Fin nb) (hij : i ≤ j) :
    Spec.BandPerp p G s k i j := by
  refine perp_core hG s k i j fun c => ?_
  filter_upwards [add_unit i j c] with t hT
  have hu : ∀ s' k', ∃ u : Fin (min g nb) → ℂ, (∀ b, conj (u b) * u b = 1) ∧ ∀ a b,
      unitaryMatrix qr (Spec.along p (addDir p s k i j c) t) s' k' a b = u b * unitaryMatrix qr p s' k' a b := by
    intro s' k'
    simp only [← Matrix.of_apply (unitaryMatrix qr (Spec.along p (addDir p s k i j c) t) s' k'),
      ← Matrix.of_apply (unitaryMatrix qr p s' k'), unitaryMatrix_band]
    by_cases h : s' = s ∧ k' = k
    · obtain ⟨rfl, rfl⟩ := h
      rw [along_addDir]
      have hW := gram_unit (W := Spec.bandMatrix p s' k') (hp s' k')
      obtain ⟨R, hR, e⟩ := ht (Spec.bandMatrix p s' k')
      refine qr_unique qr ht hm _ (gram_mul hW hT) (qr.q (Spec.bandMatrix p s' k')) (qr.orth _)
        (R * (1 + Matrix.single i j ((t : ℂ) * c))) (fun a b hab => ?_) ?_
      · rw [Matrix.mul_add, Matrix.mul_one, Matrix.add_apply, hR a b hab, zero_add]
        by_cases hb : b = j
        · subst hb
          rw [Matrix.mul_single_apply_same, hR a i (lt_of_le_of_lt hij hab), zero_mul]
        · rw [Matrix.mul_single_apply_of_ne _ _ _ _ _ hb]
      · rw [← Matrix.mul_assoc, ← e]
    · rw [along_other p s s' k k' i j c t h]
      exact ⟨fun _ => 1, fun _ => by simp, fun a b => (one_mul _).symm⟩
  choose u hu1 hu2 using hu
  rw [← hphase (fun s' k' b => u s' k' b) hu1 (unitaryMatrix qr p)]
  congr 1
  funext s' k' a b
  exact hu2 s' k' a b

theorem perp_mix (hmix : ∀ (U : Fin ns → Fin nk → Matrix (Fin (min g nb)) (Fin (min g nb)) ℂ),
      (∀ s k, U s k ∈ Matrix.unitaryGroup (Fin (min g nb)) ℂ) → ∀ C C' : Fin ns → Fin nk → Fin g → Fin (min g nb) → ℂ,
      (∀ s k a b, C' s k a b = ∑ c, U s k b c * C s k a c) → E C' = E C) (s : Fin ns) (k : Fin nk) (i j : Fin nb) :
    Spec.BandPerp p G s k i j := by
  refine perp_core hG s k i j fun c => ?_
  filter_upwards [add_unit i j c] with t hT
  have hu : ∀ s' k', ∃ U ∈ Matrix.unitaryGroup (Fin (min g nb)) ℂ, ∀ a b,
      unitaryMatrix qr (Spec.along p (addDir p s k i j c) t) s' k' a b = ∑ x, U b x * unitaryMatrix qr p s' k' a x := by
    intro s' k'
    simp only [← Matrix.of_apply (unitaryMatrix qr (Spec.along p (addDir p s k i j c) t) s' k'),
      ← Matrix.of_apply (unitaryMatrix qr p s' k'), unitaryMatrix_band]
    have hW := gram_unit (W := Spec.bandMatrix p s' k') (hp s' k')
    by_cases h : s' = s ∧ k' = k
    · obtain ⟨rfl, rfl⟩ := h
      rw [along_addDir]
      exact qr_span qr ht hm hW hT
    · rw [along_other p s s' k k' i j c t h]
      exact ⟨1, one_mem _, fun a b => by simp [Matrix.one_apply]⟩
  choose U hU1 hU2 using hu
  exact hmix U hU1 _ _ hU2
end

theorem descend_band (p G : PwParams ns nk g nb) (η : ℝ) (s : Fin ns) (k : Fin nk) :
    Spec.bandMatrix (Spec.descend p G η) s k = Spec.bandMatrix p s k - (η : ℂ) • Spec.bandMatrix G s k := by
  ext a b
  apply Complex.ext <;> simp [Spec.bandMatrix, Spec.descend]

/-- A step along a perpendicular direction lengthens the band. -/
theorem descend_size {p G : PwParams ns nk g nb} {s : Fin ns} {k : Fin nk} {b : Fin nb} (h : Spec.BandPerp p G s k b b)
    (η : ℝ) : Spec.bandSize (Spec.descend p G η) s k b = Spec.bandSize p s k b + η ^ 2 * Spec.bandSize G s k b := by
  have h1 := congrArg Complex.re h
  rw [Complex.re_sum] at h1
  simp only [Spec.bandMatrix, Complex.mul_re, Complex.conj_re, Complex.conj_im, Complex.zero_re] at h1
  unfold Spec.bandSize
  rw [Finset.mul_sum, ← Finset.sum_add_distrib]
  have h2 : ∀ a, (Spec.descend p G η).re s k a b ^ 2 + (Spec.descend p G η).im s k a b ^ 2
      = (p.re s k a b ^ 2 + p.im s k a b ^ 2 + η ^ 2 * (G.re s k a b ^ 2 + G.im s k a b ^ 2))
        - 2 * η * (p.re s k a b * G.re s k a b - -p.im s k a b * G.im s k a b) := by
    intro a
    simp only [Spec.descend]
    ring
  rw [Finset.sum_congr rfl fun a _ => h2 a, Finset.sum_sub_distrib, ← Finset.mul_sum, h1]
  ring

theorem perp_mul {p G : PwParams ns nk g nb} {s : Fin ns} {k : Fin nk} (h : ∀ i j, Spec.BandPerp p G s k i j) :
    (Spec.bandMatrix p s k)ᴴ * Spec.bandMatrix G s k = 0 := by
  ext i j
  exact h i j

theorem col_injective {m : ℕ} {W : Matrix (Fin g) (Fin m) ℂ} {D : Matrix (Fin m) (Fin g) ℂ} (h : IsUnit (D * W).det) :
    LinearIndependent ℂ W.col := by
  rw [← Matrix.mulVec_injective_iff]
  intro x y hxy
  have h1 := congrArg (D *ᵥ ·) hxy
  simp only [Matrix.mulVec_mulVec] at h1
  exact Matrix.mulVec_injective_of_isUnit ((Matrix.isUnit_iff_isUnit_det _).2 h) h1

/-- A step along a perpendicular direction keeps the bands independent. -/
theorem descend_independent {p G : PwParams ns nk g nb} (hp : Spec.Independent p)
    (h : ∀ s k i j, Spec.BandPerp p G s k i j) (η : ℝ) : Spec.Independent (Spec.descend p G η) := by
  intro s k
  refine col_injective (W := Spec.bandMatrix (Spec.descend p G η) s k) (D := (Spec.bandMatrix p s k)ᴴ) ?_
  rw [descend_band, Matrix.mul_sub, Matrix.mul_smul, perp_mul (h s k), smul_zero, sub_zero]
  exact gram_unit (hp s k)

/-- A step in any direction keeps the bands independent except for finitely many step sizes. -/
theorem descend_finite {p : PwParams ns nk g nb} (hp : Spec.Independent p) (G : PwParams ns nk g nb) :
    {η : ℝ | ¬ Spec.Independent (Spec.descend p G η)}.Finite := by
  have key : ∀ s k, {η : ℝ | ((Spec.bandMatrix p s k)ᴴ * Spec.bandMatrix (Spec.descend p G η) s k).det = 0}.Finite := by
    intro s k
    set A := (Spec.bandMatrix p s k)ᴴ * Spec.bandMatrix p s k with hA
    set B := (Spec.bandMatrix p s k)ᴴ * Spec.bandMatrix G s k with hB
    have hu : IsUnit A.det := gram_unit (hp s k)
    have hfin : {x : ℝ | ((A⁻¹ * B).charpoly).IsRoot (x : ℂ)}.Finite :=
      ((Polynomial.finite_setOfPred_isRoot (Matrix.charpoly_monic _).ne_zero)).preimage Complex.ofReal_injective.injOn
    refine (hfin.preimage (f := fun x : ℝ => x⁻¹) inv_injective.injOn).subset ?_
    intro η hη
    have hη : ((Spec.bandMatrix p s k)ᴴ * Spec.bandMatrix (Spec.descend p G η) s k).det = 0 := hη
    rw [descend_band, Matrix.mul_sub, Matrix.mul_smul, ← hA, ← hB] at hη
    have h1 : A - (η : ℂ) • B = A * (1 - (η : ℂ) • (A⁻¹ * B)) := by
      rw [Matrix.mul_sub, Matrix.mul_one, Matrix.mul_smul, ← Matrix.mul_assoc, Matrix.mul_nonsing_inv _ hu, Matrix.one_mul]
    rw [h1, Matrix.det_mul] at hη
    have h2 := (mul_eq_zero.1 hη).resolve_left hu.ne_zero
    have h3 : (η : ℂ) ≠ 0 := by
      intro h0
      rw [h0, zero_smul, sub_zero, Matrix.det_one] at h2
      exact one_ne_zero h2
    change Polynomial.eval ((η⁻¹ : ℝ) : ℂ) (A⁻¹ * B).charpoly = 0
    rw [Matrix.eval_charpoly]
    have h4 : Matrix.scalar (Fin nb) ((η⁻¹ : ℝ) : ℂ) - A⁻¹ * B = ((η⁻¹ : ℝ) : ℂ) • (1 - (η : ℂ) • (A⁻¹ * B)) := by
      rw [smul_sub, smul_smul, Complex.ofReal_inv, inv_mul_cancel₀ h3, one_smul, Matrix.scalar_apply,
        Matrix.smul_one_eq_diagonal]
    rw [h4, Matrix.det_smul, h2, mul_zero]
  refine (Set.finite_iUnion fun s => Set.finite_iUnion fun k => key s k).subset ?_
  intro η hη
  by_contra hc
  refine hη fun s k => col_injective (W := Spec.bandMatrix (Spec.descend p G η) s k) (D := (Spec.bandMatrix p s k)ᴴ) ?_
  refine isUnit_iff_ne_zero.2 fun h0 => hc ?_
  simp only [Set.mem_iUnion]
  exact ⟨s, k, h0⟩

end Descent
end Jrystal
