import Verif.Model.Ewald
import Verif.Spec.Ewald
import Verif.Lemmas.Energy
import Verif.Props.Cell

/- C29. -/
namespace Jrystal
open scoped BigOperators

private theorem ewaldNorm_eq (r T : Fin 3 → ℝ) : ewaldNorm r T = Spec.ewaldDistance r T := by
  have hd : ∑ d, (r d - T d) ^ 2 = Spec.dot (fun d => r d - T d) (fun d => r d - T d) :=
    sum_sq_eq_dot fun d => r d - T d
  have h0 : 0 ≤ Spec.dot (fun d => r d - T d) (fun d => r d - T d) :=
    Finset.sum_nonneg fun d _ => mul_self_nonneg _
  unfold ewaldNorm Spec.ewaldDistance
  dsimp only
  rw [hd]
  have hiff : Real.sqrt (Spec.dot (fun d => r d - T d) (fun d => r d - T d) + 1e-20) ≤ 1e-9 ↔
      Spec.dot (fun d => r d - T d) (fun d => r d - T d) ≤ 99e-20 := by
    rw [Real.sqrt_le_left (by norm_num)]
    constructor <;> intro h <;> norm_num at h ⊢ <;> linarith
  by_cases h : Spec.dot (fun d => r d - T d) (fun d => r d - T d) ≤ 99e-20
  · rw [if_pos h, if_pos (hiff.mpr h)]
  · rw [if_neg h, if_neg (fun h' => h (hiff.mp h'))]

/-- C29: the value is the Ewald formula, the reciprocal sum running over the grid vectors other than
the origin and the real-space sum over the translation list. -/
theorem ewald_formula (erfc : ℝ → ℝ) {na nt : ℕ} {n : Fin 3 → ℕ} (pos : Fin na → Fin 3 → ℝ)
    (q : Fin na → ℝ) (g : Idx n → Fin 3 → ℝ) (vol eta : ℝ) (T : Fin nt → Fin 3 → ℝ) :
    ewald erfc pos q g vol eta T
      = Spec.ewald (Spec.screenedSum erfc eta T)
          (Finset.univ.filter fun k : Idx n => ∃ i, (k i : ℕ) ≠ 0) g pos q vol eta := by
  have hR : ∀ tau : Fin 3 → ℝ, ewaldReciprocal g vol eta tau = 4 * Real.pi / vol *
      ∑ k ∈ Finset.univ.filter (fun k : Idx n => ∃ i, (k i : ℕ) ≠ 0),
        Real.exp (-(Spec.dot (g k) (g k)) / (4 * eta ^ 2)) / Spec.dot (g k) (g k) *
          Real.cos (Spec.dot (g k) tau) := by
    intro tau
    unfold ewaldReciprocal
    rw [Finset.sum_filter, mul_assoc, mul_div_assoc, mul_comm]
    congr 1
    refine Finset.sum_congr rfl fun k _ => ?_
    by_cases hk : ∃ i, (k i : ℕ) ≠ 0
    · rw [if_pos hk]
      unfold ewaldGSq
      rw [(isOrigin_false k).mpr hk]
      simp only [Bool.false_eq_true, if_false]
      rw [sum_sq_eq_dot, div_div]
      rfl
    · rw [if_neg hk]
      have : isOrigin k = true := by rw [isOrigin_iff]; push Not at hk; exact hk
      rw [this]
      simp
  unfold ewald Spec.ewald
  dsimp only
  simp_rw [hR]
  have h1 : (∑ j, (∑ i, q i * (ewaldOverlap erfc eta T (ewaldTau pos i j) + 4 * Real.pi / vol *
      ∑ k ∈ Finset.univ.filter (fun k : Idx n => ∃ i, (k i : ℕ) ≠ 0),
        Real.exp (-(Spec.dot (g k) (g k)) / (4 * eta ^ 2)) / Spec.dot (g k) (g k) *
          Real.cos (Spec.dot (g k) (ewaldTau pos i j)))) * q j)
      = ∑ i, ∑ j, q i * q j * (Spec.screenedSum erfc eta T (fun d => pos j d - pos i d) + 4 * Real.pi / vol *
      ∑ k ∈ Finset.univ.filter (fun k : Idx n => ∃ i, (k i : ℕ) ≠ 0),
        Real.exp (-(Spec.dot (g k) (g k)) / (4 * eta ^ 2)) / Spec.dot (g k) (g k) *
          Real.cos (Spec.dot (g k) fun d => pos j d - pos i d)) := by
    rw [Finset.sum_comm]
    refine Finset.sum_congr rfl fun j _ => ?_
    rw [Finset.sum_mul]
    refine Finset.sum_congr rfl fun i _ => ?_
    have hov : ewaldOverlap erfc eta T (ewaldTau pos i j)
        = Spec.screenedSum erfc eta T (fun d => pos j d - pos i d) := by
      unfold ewaldOverlap Spec.screenedSum
      simp_rw [ewaldNorm_eq]
      rfl
    rw [hov]
    change q i * (_ + 4 * Real.pi / vol * ∑ k ∈ Finset.univ.filter
      (fun k : Idx n => ∃ i, (k i : ℕ) ≠ 0), _ / _ * Real.cos (Spec.dot (g k) fun d => pos j d - pos i d))
      * q j = _
    ring!
  rw [h1]
  simp only [div_eq_mul_inv, mul_inv]
  ring

/-- C29: a rigid translation of all atoms. -/
theorem ewald_translate (erfc : ℝ → ℝ) {na nt : ℕ} {n : Fin 3 → ℕ} (pos : Fin na → Fin 3 → ℝ)
    (q : Fin na → ℝ) (g : Idx n → Fin 3 → ℝ) (vol eta : ℝ) (T : Fin nt → Fin 3 → ℝ)
    (c : Fin 3 → ℝ) :
    ewald erfc (fun a d => pos a d + c d) q g vol eta T = ewald erfc pos q g vol eta T := by
  rw [ewald_formula, ewald_formula]
  unfold Spec.ewald
  simp only [add_sub_add_right_eq_sub]

/-- C29: renumbering the atoms together with their charges. -/
theorem ewald_permute (erfc : ℝ → ℝ) {na nt : ℕ} {n : Fin 3 → ℕ} (pos : Fin na → Fin 3 → ℝ)
    (q : Fin na → ℝ) (g : Idx n → Fin 3 → ℝ) (vol eta : ℝ) (T : Fin nt → Fin 3 → ℝ)
    (e : Equiv.Perm (Fin na)) :
    ewald erfc (fun a => pos (e a)) (fun a => q (e a)) g vol eta T
      = ewald erfc pos q g vol eta T := by
  rw [ewald_formula, ewald_formula]
  unfold Spec.ewald
  rw [Equiv.sum_comp e fun a => q a ^ 2, Equiv.sum_comp e q]
  congr 3
  rw [← Equiv.sum_comp e fun i => ∑ j, q i * q j * (_ + _)]
  refine Finset.sum_congr rfl fun i _ => ?_
  rw [← Equiv.sum_comp e fun j => q (e i) * q j * (_ + _)]

/-- C29: inverting every position through the origin.  No symmetry of the translation list is
needed, because every ordered pair of atoms occurs in both orders. -/
theorem ewald_invert (erfc : ℝ → ℝ) {na nt : ℕ} {n : Fin 3 → ℕ} (pos : Fin na → Fin 3 → ℝ)
    (q : Fin na → ℝ) (g : Idx n → Fin 3 → ℝ) (vol eta : ℝ) (T : Fin nt → Fin 3 → ℝ) :
    ewald erfc (fun a d => -pos a d) q g vol eta T = ewald erfc pos q g vol eta T := by
  rw [ewald_formula, ewald_formula]
  unfold Spec.ewald
  congr 3
  rw [Finset.sum_comm]
  refine Finset.sum_congr rfl fun i _ => Finset.sum_congr rfl fun j _ => ?_
  have h : (fun d => -pos i d - -pos j d) = fun d => pos j d - pos i d := by funext d; ring
  rw [h, mul_comm (q i)]

/-- C29: quadratic in the charges. -/
theorem ewald_scale (erfc : ℝ → ℝ) {na nt : ℕ} {n : Fin 3 → ℕ} (pos : Fin na → Fin 3 → ℝ)
    (q : Fin na → ℝ) (g : Idx n → Fin 3 → ℝ) (vol eta : ℝ) (T : Fin nt → Fin 3 → ℝ) (c : ℝ) :
    ewald erfc pos (fun a => c * q a) g vol eta T = c ^ 2 * ewald erfc pos q g vol eta T := by
  rw [ewald_formula, ewald_formula]
  unfold Spec.ewald
  have h1 : ∀ X : Fin na → Fin na → ℝ, ∑ i, ∑ j, c * q i * (c * q j) * X i j
      = c ^ 2 * ∑ i, ∑ j, q i * q j * X i j := fun X => by
    rw [Finset.mul_sum]
    refine Finset.sum_congr rfl fun i _ => ?_
    rw [Finset.mul_sum]
    exact Finset.sum_congr rfl fun j _ => by ring
  have h2 : ∑ i, (c * q i) ^ 2 = c ^ 2 * ∑ i, q i ^ 2 := by
    rw [Finset.mul_sum]
    exact Finset.sum_congr rfl fun j _ => by ring
  rw [h1, h2, ← Finset.mul_sum]
  ring

/-- C29: an additional atom without charge, wherever it sits (with `ewald_permute`, whatever its
number). -/
theorem ewald_zero_charge (erfc : ℝ → ℝ) {na nt : ℕ} {n : Fin 3 → ℕ} (pos : Fin na → Fin 3 → ℝ)
    (q : Fin na → ℝ) (g : Idx n → Fin 3 → ℝ) (vol eta : ℝ) (T : Fin nt → Fin 3 → ℝ)
    (x : Fin 3 → ℝ) :
    ewald erfc (Fin.cons x pos : Fin (na + 1) → Fin 3 → ℝ) (Fin.cons 0 q : Fin (na + 1) → ℝ) g vol eta T
      = ewald erfc pos q g vol eta T := by
  rw [ewald_formula, ewald_formula]
  unfold Spec.ewald
  simp [Fin.sum_univ_succ]

/-- C29: the order of the translation list is irrelevant. -/
theorem ewald_translations_order (erfc : ℝ → ℝ) {na nt : ℕ} {n : Fin 3 → ℕ}
    (pos : Fin na → Fin 3 → ℝ) (q : Fin na → ℝ) (g : Idx n → Fin 3 → ℝ) (vol eta : ℝ)
    (T : Fin nt → Fin 3 → ℝ) (e : Equiv.Perm (Fin nt)) :
    ewald erfc pos q g vol eta (fun t => T (e t)) = ewald erfc pos q g vol eta T := by
  rw [ewald_formula, ewald_formula]
  have : Spec.screenedSum erfc eta (fun t => T (e t)) = Spec.screenedSum erfc eta T := by
    funext r
    unfold Spec.screenedSum
    exact Equiv.sum_comp e fun t => erfc (eta * Spec.ewaldDistance r (T t)) / Spec.ewaldDistance r (T t)
  rw [this]

/-- C29: moving atoms by lattice vectors changes only the truncated real-space sum. -/
theorem ewald_lattice_move (erfc : ℝ → ℝ) {na nt : ℕ} (A : Matrix (Fin 3) (Fin 3) ℝ) (hA : A.det ≠ 0)
    (n : Fin 3 → ℕ) (pos L : Fin na → Fin 3 → ℝ) (hL : ∀ a, Spec.IsLatticeVector A (L a))
    (q : Fin na → ℝ) (vol eta : ℝ) (T : Fin nt → Fin 3 → ℝ) :
    ewald erfc (fun a d => pos a d + L a d) q (gVectors A n) vol eta T
        - ewald erfc pos q (gVectors A n) vol eta T
      = (1 / 2) * ∑ i, ∑ j, q i * q j *
          (Spec.screenedSum erfc eta T (fun d => (pos j d + L j d) - (pos i d + L i d))
            - Spec.screenedSum erfc eta T (fun d => pos j d - pos i d)) := by
  have hcos : ∀ (k : Idx n) (i j : Fin na),
      Real.cos (Spec.dot (gVectors A n k) fun d => (pos j d + L j d) - (pos i d + L i d))
        = Real.cos (Spec.dot (gVectors A n k) fun d => pos j d - pos i d) := by
    intro k i j
    have hz : ∀ a, ∃ z : ℤ, Spec.dot (gVectors A n k) (L a) = z * (2 * Real.pi) := by
      intro a
      obtain ⟨m, hm⟩ := hL a
      refine ⟨∑ i, sfreq (n i) (k i) * m i, ?_⟩
      have : Spec.dot (gVectors A n k) (L a)
          = 2 * Real.pi * ∑ i, (sfreq (n i) (k i) : ℝ) * (m i : ℝ) := by
        rw [← dual_dot A hA]
        refine Finset.sum_congr rfl fun d _ => ?_
        rw [gVectors_apply, hm]
      rw [this]
      push_cast
      ring
    obtain ⟨zi, hi⟩ := hz i
    obtain ⟨zj, hj⟩ := hz j
    have : (Spec.dot (gVectors A n k) fun d => (pos j d + L j d) - (pos i d + L i d))
        = (Spec.dot (gVectors A n k) fun d => pos j d - pos i d)
          + ((zj - zi : ℤ) : ℝ) * (2 * Real.pi) := by
      push_cast
      rw [sub_mul, ← hi, ← hj]
      unfold Spec.dot
      rw [← Finset.sum_sub_distrib, ← Finset.sum_add_distrib]
      exact Finset.sum_congr rfl fun d _ => by ring
    rw [this, Real.cos_add_int_mul_two_pi]
  rw [ewald_formula, ewald_formula]
  unfold Spec.ewald
  simp_rw [hcos]
  simp only [mul_add, mul_sub, Finset.sum_add_distrib, Finset.sum_sub_distrib]
  ring

/-- C29: the interaction of an atom with itself at the zero translation, which the code represents by
the distance `1e20`, is below `1e-20` in absolute value. -/
theorem ewald_self_term (erfc : ℝ → ℝ) (herf : ∀ x, 0 ≤ x → |erfc x| ≤ 1) (eta : ℝ) (heta : 0 ≤ eta)
    (r T : Fin 3 → ℝ) (h : r = T) :
    |erfc (eta * Spec.ewaldDistance r T) / Spec.ewaldDistance r T| ≤ 1e-20 := by
  have : Spec.ewaldDistance r T = 1e20 := by
    unfold Spec.ewaldDistance
    subst h
    rw [if_pos]
    unfold Spec.dot
    norm_num
  rw [this, abs_div, div_le_iff₀ (by norm_num)]
  refine (herf _ (by positivity)).trans ?_
  rw [abs_of_pos (by norm_num)]
  norm_num

/-- C29: the reciprocal sum is a sum of squares, so that it never lowers the energy: with neutral
total charge and no translations the energy is at least minus the self-energy. -/
theorem ewald_reciprocal_nonneg (erfc : ℝ → ℝ) {na : ℕ} {n : Fin 3 → ℕ} (pos : Fin na → Fin 3 → ℝ)
    (q : Fin na → ℝ) (hq : ∑ a, q a = 0) (g : Idx n → Fin 3 → ℝ) (vol eta : ℝ) (hv : 0 < vol)
    (T : Fin 0 → Fin 3 → ℝ) :
    -(eta / Real.sqrt Real.pi * ∑ a, q a ^ 2) ≤ ewald erfc pos q g vol eta T := by
  rw [ewald_formula]
  unfold Spec.ewald Spec.screenedSum
  rw [hq]
  simp only [Finset.univ_eq_empty, Finset.sum_empty, zero_add]
  have key : 0 ≤ ∑ i, ∑ j, q i * q j * (4 * Real.pi / vol *
      ∑ k ∈ Finset.univ.filter (fun k : Idx n => ∃ i, (k i : ℕ) ≠ 0),
        Real.exp (-(Spec.dot (g k) (g k)) / (4 * eta ^ 2)) / Spec.dot (g k) (g k) *
          Real.cos (Spec.dot (g k) fun d => pos j d - pos i d)) := by
    have hsw : ∑ i, ∑ j, q i * q j * (4 * Real.pi / vol *
        ∑ k ∈ Finset.univ.filter (fun k : Idx n => ∃ i, (k i : ℕ) ≠ 0),
          Real.exp (-(Spec.dot (g k) (g k)) / (4 * eta ^ 2)) / Spec.dot (g k) (g k) *
            Real.cos (Spec.dot (g k) fun d => pos j d - pos i d))
        = ∑ k ∈ Finset.univ.filter (fun k : Idx n => ∃ i, (k i : ℕ) ≠ 0), 4 * Real.pi / vol *
          (Real.exp (-(Spec.dot (g k) (g k)) / (4 * eta ^ 2)) / Spec.dot (g k) (g k)) *
          ((∑ i, q i * Real.cos (Spec.dot (g k) (pos i))) ^ 2
            + (∑ i, q i * Real.sin (Spec.dot (g k) (pos i))) ^ 2) := by
      simp_rw [Finset.mul_sum]
      rw [Finset.sum_congr rfl fun i _ => Finset.sum_comm, Finset.sum_comm]
      refine Finset.sum_congr rfl fun k _ => ?_
      rw [sq (∑ i, q i * Real.cos _), sq (∑ i, q i * Real.sin _), Finset.sum_mul_sum, Finset.sum_mul_sum, ← Finset.sum_add_distrib,
        Finset.mul_sum]
      refine Finset.sum_congr rfl fun i _ => ?_
      rw [← Finset.sum_add_distrib, Finset.mul_sum]
      refine Finset.sum_congr rfl fun j _ => ?_
      have : (Spec.dot (g k) fun d => pos j d - pos i d)
          = Spec.dot (g k) (pos j) - Spec.dot (g k) (pos i) := by
        unfold Spec.dot
        rw [← Finset.sum_sub_distrib]
        exact Finset.sum_congr rfl fun d _ => by ring
      rw [this, Real.cos_sub]
      ring
    rw [hsw]
    refine Finset.sum_nonneg fun k _ => ?_
    have : 0 ≤ Spec.dot (g k) (g k) := Finset.sum_nonneg fun d _ => mul_self_nonneg _
    have := Real.exp_nonneg (-(Spec.dot (g k) (g k)) / (4 * eta ^ 2))
    have := Real.pi_pos.le
    positivity
  nlinarith [key]

/-- The hypotheses are met: a sheared cell, a moved atom, a rock-salt pair of charges. -/
example : skewCell.det ≠ 0 ∧ Spec.IsLatticeVector skewCell (fun d => skewCell 0 d + 2 * skewCell 1 d) ∧
    (∑ a : Fin 2, (![1, -1] : Fin 2 → ℝ) a = 0) := by
  refine ⟨skewCell_det, ⟨![1, 2, 0], fun d => ?_⟩, by simp⟩
  simp [Fin.sum_univ_three]

example : ∀ x : ℝ, 0 ≤ x → |Real.exp (-x)| ≤ 1 := fun x hx => by
  rw [abs_of_pos (Real.exp_pos _)]
  exact Real.exp_le_one_iff.mpr (by linarith)

end Jrystal
