import Verif.Model.Energy
import Verif.Lemmas.Braket
import Verif.Lemmas.Planewave
import Verif.Lemmas.Grid
import Verif.Props.Grid

namespace Jrystal
open scoped BigOperators ComplexConjugate

/-- `reciprocal_braket` of a left argument with one leading row. -/
theorem reciprocalBraket_one {b : ℕ} {n : Fin 3 → ℕ} (v : Idx n → ℂ) (ket : Fin b → Idx n → ℂ)
    (vol : ℝ) :
    reciprocalBraket (fun _ : Fin 1 => v) ket vol
      = .ok (vol / (gridCount n : ℝ) ^ 2 * (∑ k, conj (v k) * ∑ s, ket s k).re) := by
  have key : ∀ S : ℂ, S = ∑ k, conj (v k) * ∑ s, ket s k →
      (S * ((1 / ((1 * gridCount n : ℕ) : ℝ) : ℝ) : ℂ) * ((vol / ((1 * gridCount n : ℕ) : ℝ) : ℝ) : ℂ)).re
        = vol / (gridCount n : ℝ) ^ 2 * (∑ k, conj (v k) * ∑ s, ket s k).re := by
    intro S hS
    rw [← hS, mul_assoc, ← Complex.ofReal_mul, Complex.re_mul_ofReal, Nat.one_mul]
    rw [mul_comm, one_div, pow_two, div_mul_eq_div_div, div_eq_mul_inv _ (gridCount n : ℝ)]
    ring
  have hsum : ∑ s, ∑ k, conj (v k) * ket s k = ∑ k, conj (v k) * ∑ s, ket s k := by
    rw [Finset.sum_comm]
    exact Finset.sum_congr rfl fun k _ => by rw [Finset.mul_sum]
  unfold reciprocalBraket broadcastPairs
  by_cases hb : 1 = b
  · subst hb
    rw [dif_pos rfl]
    simp only [List.map_map, Function.comp_def]
    congr 1
    apply key
    rw [← hsum, Fin.sum_univ_def]
  · rw [dif_neg hb, dif_pos rfl]
    simp only [List.map_map, Function.comp_def]
    congr 1
    apply key
    rw [← hsum, Fin.sum_univ_def]

theorem isOrigin_iff {n : Fin 3 → ℕ} (k : Idx n) : isOrigin k = true ↔ ∀ i, (k i : ℕ) = 0 := by
  unfold isOrigin
  exact decide_eq_true_iff

theorem isOrigin_false {n : Fin 3 → ℕ} (k : Idx n) : isOrigin k = false ↔ ∃ i, (k i : ℕ) ≠ 0 := by
  rw [← Bool.not_eq_true, isOrigin_iff]
  push Not
  rfl

/-- Squared length of a reciprocal vector vanishes only at the origin. -/
theorem gVectors_sq_pos (A : Matrix (Fin 3) (Fin 3) ℝ) (hA : A.det ≠ 0) (n : Fin 3 → ℕ) (k : Idx n)
    (hk : ∃ i, (k i : ℕ) ≠ 0) : 0 < Spec.dot (gVectors A n k) (gVectors A n k) := by
  have h0 : gVectors A n k ≠ 0 := by
    intro h
    obtain ⟨i, hi⟩ := hk
    have hn : ∀ i, 0 < n i := fun i => by have := (k i).2; omega
    have := gVectors_injective A hA n (h.trans (gVectors_zero A n (zeroIdx hn) fun _ => rfl).symm)
    exact hi (by rw [this]; rfl)
  have hnn : 0 ≤ Spec.dot (gVectors A n k) (gVectors A n k) :=
    Finset.sum_nonneg fun d _ => mul_self_nonneg _
  refine lt_of_le_of_ne hnn fun h => h0 ?_
  funext d
  have := (Finset.sum_eq_zero_iff_of_nonneg fun d _ => mul_self_nonneg (gVectors A n k d)).mp h.symm d
    (Finset.mem_univ d)
  exact mul_self_eq_zero.mp this

theorem sum_sq_eq_dot (v : Fin 3 → ℝ) : ∑ d, v d ^ 2 = Spec.dot v v := normSq3_eq_dot v

/-- The Hartree potential with an explicit prefactor. -/
theorem hartreeReciprocal_eq {ns : ℕ} {n : Fin 3 → ℕ} (rho : Fin ns → Idx n → ℂ)
    (g : Idx n → Fin 3 → ℝ) (ks : Bool) (k : Idx n) :
    hartreeReciprocal rho g ks k = if isOrigin k then 0 else
      (((if ks then 4 else 2) * Real.pi / Spec.dot (g k) (g k) : ℝ) : ℂ) * ∑ s, rho s k := by
  unfold hartreeReciprocal
  rw [← sum_sq_eq_dot]
  cases isOrigin k with
  | true => cases ks <;> simp
  | false =>
    cases ks
    · simp only [Bool.false_eq_true, if_false]
      push_cast
      ring
    · simp only [Bool.false_eq_true, if_false, if_true]
      push_cast
      ring

/-- The Hartree energy in closed form. -/
theorem hartreeEnergy_eq {ns : ℕ} {n : Fin 3 → ℕ} (rho : Fin ns → Idx n → ℂ)
    (g : Idx n → Fin 3 → ℝ) (vol : ℝ) (ks : Bool) :
    hartreeEnergy rho g vol ks = .ok ((if ks then 4 else 2) * Real.pi * vol / (gridCount n : ℝ) ^ 2 *
      ∑ k ∈ Finset.univ.filter (fun k : Idx n => ∃ i, (k i : ℕ) ≠ 0),
        ‖∑ s, rho s k‖ ^ 2 / Spec.dot (g k) (g k)) := by
  unfold hartreeEnergy
  rw [reciprocalBraket_one]
  congr 1
  rw [Complex.re_sum, Finset.mul_sum, Finset.mul_sum, Finset.sum_filter]
  refine Finset.sum_congr rfl fun k _ => ?_
  rw [hartreeReciprocal_eq]
  by_cases hk : ∃ i, (k i : ℕ) ≠ 0
  · rw [if_pos hk, (isOrigin_false k).mpr hk]
    simp only [Bool.false_eq_true, if_false]
    rw [map_mul, Complex.conj_ofReal, mul_assoc, Complex.conj_mul', ← Complex.ofReal_pow,
      ← Complex.ofReal_mul, Complex.ofReal_re]
    ring
  · rw [if_neg hk]
    have : isOrigin k = true := by
      rw [isOrigin_iff]; push Not at hk; exact hk
    rw [this]
    simp

/-- Phases of lattice vectors are trivial. -/
theorem exp_lattice (A : Matrix (Fin 3) (Fin 3) ℝ) (hA : A.det ≠ 0) (n : Fin 3 → ℕ) (k : Idx n)
    (T : Fin 3 → ℝ) (hT : Spec.IsLatticeVector A T) :
    Complex.exp (-(Complex.I * ((∑ d, gVectors A n k d * T d : ℝ) : ℂ))) = 1 := by
  obtain ⟨m, hm⟩ := hT
  have : ∑ d, gVectors A n k d * T d = 2 * Real.pi * ∑ i, (sfreq (n i) (k i) : ℝ) * (m i : ℝ) := by
    rw [← dual_dot A hA]
    refine Finset.sum_congr rfl fun d _ => ?_
    rw [gVectors_apply, hm]
  rw [this, Complex.exp_eq_one_iff]
  refine ⟨-∑ i, sfreq (n i) (k i) * m i, ?_⟩
  push_cast
  ring

/-- Phase of a grid vector. -/
theorem exp_grid (A : Matrix (Fin 3) (Fin 3) ℝ) (hA : A.det ≠ 0) (n : Fin 3 → ℕ) (k t : Idx n) :
    Complex.exp (-(Complex.I * ((∑ d, gVectors A n k d * rVectors A n t d : ℝ) : ℂ)))
      = conj (omega k t) := by
  have h := grid_duality_exp A hA n k t
  have h2 : omega k t = Complex.exp (Complex.I *
      ((∑ d, gVectors A n k d * rVectors A n t d : ℝ) : ℂ)) := by
    rw [omega_prod]
    unfold Spec.dot at h
    rw [h]
    refine Finset.prod_congr rfl fun i _ => ?_
    congr 1; ring
  rw [h2, ← Complex.exp_conj]
  congr 1
  rw [map_mul, Complex.conj_I, Complex.conj_ofReal]
  ring

/-- Structure factor weighted by charges; the external potential is this times a real factor. -/
noncomputable def structureFactor {na : ℕ} {n : Fin 3 → ℕ} (pos : Fin na → Fin 3 → ℝ)
    (charge : Fin na → ℝ) (g : Idx n → Fin 3 → ℝ) (k : Idx n) : ℂ :=
  ∑ a, (charge a : ℂ) * Complex.exp (-(Complex.I * ((∑ d, g k d * pos a d : ℝ) : ℂ)))

theorem externalReciprocal_eq {na : ℕ} {n : Fin 3 → ℕ} (pos : Fin na → Fin 3 → ℝ)
    (charge : Fin na → ℝ) (g : Idx n → Fin 3 → ℝ) (vol : ℝ) (k : Idx n) :
    externalReciprocal pos charge g vol k = if isOrigin k then 0 else
      ((-(4 * Real.pi * (gridCount n : ℝ) / (vol * (Spec.dot (g k) (g k) + 1e-10))) : ℝ) : ℂ) *
        structureFactor pos charge g k := by
  unfold externalReciprocal structureFactor
  rw [sum_sq_eq_dot]
  cases isOrigin k with
  | true => simp
  | false =>
    simp only [Bool.false_eq_true, if_false]
    rw [Finset.mul_sum, neg_mul, Finset.sum_mul, neg_div, Finset.sum_div, ← Finset.sum_neg_distrib]
    refine Finset.sum_congr rfl fun a _ => ?_
    generalize Spec.dot (g k) (g k) + 1e-10 = D
    push_cast
    simp only [div_eq_mul_inv, mul_inv]
    ring

/-- The external energy in closed form. -/
theorem externalEnergy_eq {ns na : ℕ} {n : Fin 3 → ℕ} (rho : Fin ns → Idx n → ℂ)
    (pos : Fin na → Fin 3 → ℝ) (charge : Fin na → ℝ) (g : Idx n → Fin 3 → ℝ) (vol : ℝ) :
    externalEnergy rho pos charge g vol = .ok (vol / (gridCount n : ℝ) ^ 2 *
      ∑ k ∈ Finset.univ.filter (fun k : Idx n => ∃ i, (k i : ℕ) ≠ 0),
        (-(4 * Real.pi * (gridCount n : ℝ) / (vol * (Spec.dot (g k) (g k) + 1e-10)))) *
          (conj (structureFactor pos charge g k) * ∑ s, rho s k).re) := by
  unfold externalEnergy
  rw [reciprocalBraket_one]
  congr 2
  rw [Complex.re_sum, Finset.sum_filter]
  refine Finset.sum_congr rfl fun k _ => ?_
  rw [externalReciprocal_eq]
  by_cases hk : ∃ i, (k i : ℕ) ≠ 0
  · rw [if_pos hk, (isOrigin_false k).mpr hk]
    simp only [Bool.false_eq_true, if_false]
    rw [map_mul, Complex.conj_ofReal, mul_assoc, Complex.re_ofReal_mul]
  · rw [if_neg hk]
    have : isOrigin k = true := by
      rw [isOrigin_iff]; push Not at hk; exact hk
    rw [this]
    simp

theorem structureFactor_shift {na : ℕ} (A : Matrix (Fin 3) (Fin 3) ℝ) (n : Fin 3 → ℕ)
    (pos pos' : Fin na → Fin 3 → ℝ) (charge : Fin na → ℝ) (k : Idx n) (w : ℂ)
    (h : ∀ a, Complex.exp (-(Complex.I *
      ((∑ d, gVectors A n k d * (pos' a d - pos a d) : ℝ) : ℂ))) = w) :
    structureFactor pos' charge (gVectors A n) k = w * structureFactor pos charge (gVectors A n) k := by
  unfold structureFactor
  rw [Finset.mul_sum]
  refine Finset.sum_congr rfl fun a _ => ?_
  rw [← h a, mul_left_comm, ← Complex.exp_add]
  congr 2
  rw [← neg_add, ← mul_add, ← Complex.ofReal_add, ← Finset.sum_add_distrib]
  congr 3
  exact Finset.sum_congr rfl fun d _ => by ring

theorem isShift_addIdx {n : Fin 3 → ℕ} (j t : Idx n) : Spec.IsShift t j (addIdx j t) := by
  intro i
  have h : ((addIdx j t i : ℕ) : ℤ) = (((j i : ℕ) : ℤ) + (t i : ℕ)) % (n i : ℤ) := by
    show ((((j i : ℕ) + (t i : ℕ)) % n i : ℕ) : ℤ) = _
    push_cast; rfl
  rw [h]
  exact Int.dvd_self_sub_emod

end Jrystal
