import Verif.Lemmas.Grid

/- C08, C09: k mesh and translation vectors. -/
namespace Jrystal
open scoped BigOperators
open Matrix

/-! ### C08 -/

/-- C08: every mesh point has fractional coordinates strictly inside (-1/2, 1/2). -/
theorem kVectors_fractional (A : Matrix (Fin 3) (Fin 3) ℝ) (n : Fin 3 → ℕ) (i : Idx n) :
    ∃ x : Fin 3 → ℝ, (∀ l, -(1 / 2) < x l ∧ x l < 1 / 2) ∧
      ∀ d, kVectors A n i d = ∑ l, x l * reciprocalVectors A l d := by
  refine ⟨monkhorstPack n i, fun l => ?_, fun d => rfl⟩
  unfold monkhorstPack
  have hlt : ((i l : ℕ) : ℝ) + 1 ≤ (n l : ℝ) := by exact_mod_cast (i l).2
  have h0 : (0 : ℝ) ≤ ((i l : ℕ) : ℝ) := Nat.cast_nonneg _
  have hn : (0 : ℝ) < (n l : ℝ) := by linarith
  constructor
  · have : 0 < (((i l : ℕ) : ℝ) + 0.5) / (n l : ℝ) := by positivity
    norm_num at this ⊢; linarith
  · have : (((i l : ℕ) : ℝ) + 0.5) / (n l : ℝ) < 1 := by
      rw [div_lt_one hn]; norm_num; linarith
    norm_num at this ⊢; linarith

/-- C08: the `n₁ n₂ n₃` points of the mesh are pairwise distinct. -/
theorem kVectors_distinct (A : Matrix (Fin 3) (Fin 3) ℝ) (hA : A.det ≠ 0) (n : Fin 3 → ℕ) :
    Function.Injective (kVectors A n) ∧ Fintype.card (Idx n) = n 0 * n 1 * n 2 := by
  constructor
  · intro i j h
    have := row_comb_inj _ (recip_det_ne_zero A hA) (monkhorstPack n i) (monkhorstPack n j)
      (fun d => congrFun h d)
    funext l
    have hl := congrFun this l
    unfold monkhorstPack at hl
    have hn : (n l : ℝ) ≠ 0 := by
      have := (i l).2; exact_mod_cast (by omega : n l ≠ 0)
    have : ((i l : ℕ) : ℝ) = ((j l : ℕ) : ℝ) := by
      have h2 := sub_left_inj.1 hl
      rw [div_left_inj' hn] at h2
      linarith
    exact Fin.ext (by exact_mod_cast this)
  · simp [Fintype.card_pi, Fin.prod_univ_three]

/-- C08: the mesh is closed under inversion. -/
theorem kVectors_inversion (A : Matrix (Fin 3) (Fin 3) ℝ) (n : Fin 3 → ℕ) (i : Idx n) :
    ∃ j : Idx n, kVectors A n j = - kVectors A n i := by
  refine ⟨fun l => (i l).rev, ?_⟩
  funext d
  rw [Pi.neg_apply]
  unfold kVectors
  rw [← Finset.sum_neg_distrib]
  refine Finset.sum_congr rfl fun l _ => ?_
  have : monkhorstPack n (fun l => (i l).rev) l = - monkhorstPack n i l := by
    unfold monkhorstPack
    have hn : (n l : ℝ) ≠ 0 := by
      have := (i l).2; exact_mod_cast (by omega : n l ≠ 0)
    have hr : (((i l).rev : ℕ) : ℝ) = (n l : ℝ) - (((i l : ℕ) : ℝ) + 1) := by
      rw [Fin.val_rev, Nat.cast_sub (i l).2]; push_cast; ring
    rw [hr]
    field_simp
    ring
  rw [this]; ring

/-- C08: the mesh contains Γ exactly when all sizes are odd. -/
theorem kVectors_gamma (A : Matrix (Fin 3) (Fin 3) ℝ) (hA : A.det ≠ 0) (n : Fin 3 → ℕ) :
    (∃ i : Idx n, kVectors A n i = 0) ↔ ∀ l, Odd (n l) := by
  constructor
  · rintro ⟨i, hi⟩ l
    have := row_comb_inj _ (recip_det_ne_zero A hA) (monkhorstPack n i) 0
      (fun d => by simpa [kVectors] using congrFun hi d)
    have hl := congrFun this l
    unfold monkhorstPack at hl
    have hn : (n l : ℝ) ≠ 0 := by
      have := (i l).2; exact_mod_cast (by omega : n l ≠ 0)
    refine ⟨(i l : ℕ), ?_⟩
    have h2 : (((i l : ℕ) : ℝ) + 0.5) / (n l : ℝ) = 0.5 := by simpa [sub_eq_zero] using hl
    rw [div_eq_iff hn] at h2
    have : (n l : ℝ) = 2 * ((i l : ℕ) : ℝ) + 1 := by norm_num at h2; linarith
    exact_mod_cast this
  · intro h
    choose m hm using h
    refine ⟨fun l => ⟨m l, by rw [hm l]; omega⟩, ?_⟩
    funext d
    unfold kVectors
    refine Finset.sum_eq_zero fun l _ => ?_
    have hz : monkhorstPack n (fun l => ⟨m l, by rw [hm l]; omega⟩) l = 0 := by
      unfold monkhorstPack
      have : (n l : ℝ) = 2 * (m l : ℝ) + 1 := by exact_mod_cast hm l
      have hp : (2 * (m l : ℝ) + 1) ≠ 0 := by positivity
      simp only [this]
      norm_num
      field_simp
      ring
    rw [hz, zero_mul]

/-- C08: the mesh points sum to zero. -/
theorem kVectors_sum_zero (A : Matrix (Fin 3) (Fin 3) ℝ) (n : Fin 3 → ℕ) :
    ∑ i : Idx n, kVectors A n i = 0 := by
  let e : Idx n ≃ Idx n := Equiv.piCongrRight fun _ => Fin.revPerm
  have hneg : ∀ i : Idx n, kVectors A n (e i) = - kVectors A n i := by
    intro i
    funext d
    rw [Pi.neg_apply]
    unfold kVectors
    rw [← Finset.sum_neg_distrib]
    refine Finset.sum_congr rfl fun l _ => ?_
    have : monkhorstPack n (e i) l = - monkhorstPack n i l := by
      unfold monkhorstPack
      have hn : (n l : ℝ) ≠ 0 := by
        have := (i l).2; exact_mod_cast (by omega : n l ≠ 0)
      have hr : ((e i l : ℕ) : ℝ) = (n l : ℝ) - (((i l : ℕ) : ℝ) + 1) := by
        have : e i l = (i l).rev := rfl
        rw [this, Fin.val_rev, Nat.cast_sub (i l).2]; push_cast; ring
      rw [hr]
      field_simp
      ring
    rw [this]; ring
  have h1 : ∑ i : Idx n, kVectors A n i = ∑ i : Idx n, kVectors A n (e i) :=
    (Equiv.sum_comp e _).symm
  simp_rw [hneg, Finset.sum_neg_distrib] at h1
  exact self_eq_neg.1 h1

/-- Witness: a 3×5×1 mesh satisfies the oddness condition, a 2×3×1 mesh does not. -/
example : (∀ l, Odd ((![3, 5, 1] : Fin 3 → ℕ) l)) ∧ ¬ ∀ l, Odd ((![2, 3, 1] : Fin 3 → ℕ) l) := by
  decide

/-! ### C09 -/

private theorem trans_apply (A : Matrix (Fin 3) (Fin 3) ℝ) (E : ℝ)
    (k : Idx fun _ => (translationCount A E).toNat) (d : Fin 3) :
    translationVectors A E k d
      = ∑ i, (sfreq (translationCount A E).toNat (k i) : ℝ) * A i d := by
  unfold translationVectors vectorGrid
  refine Finset.sum_congr rfl fun i _ => ?_
  simp only [Bool.false_eq_true, if_false]
  rw [fftfreq_int (k i).2]

/-- C09: every returned vector is an integer combination of the cell vectors. -/
theorem translations_lattice (A : Matrix (Fin 3) (Fin 3) ℝ) (E : ℝ)
    (k : Idx fun _ => (translationCount A E).toNat) :
    Spec.IsLatticeVector A (translationVectors A E k) :=
  ⟨fun i => sfreq _ (k i), fun d => trans_apply A E k d⟩

/-- C09: for a positive cutoff there are `n³` vectors, `n = ⌈cutoff/|a₁+a₂+a₃|²⌉ ≥ 1`, all distinct. -/
theorem translations_distinct (A : Matrix (Fin 3) (Fin 3) ℝ) (hA : A.det ≠ 0) (E : ℝ) (hE : 0 < E) :
    ∃ n : ℕ, 1 ≤ n ∧
      ((n : ℤ) = ⌈E / Spec.dot (fun d => ∑ i, A i d) (fun d => ∑ i, A i d)⌉) ∧
      Fintype.card (Idx fun _ => (translationCount A E).toNat) = n ^ 3 ∧
      Function.Injective (translationVectors A E) := by
  have hsum : 0 < normSq3 (fun d => ∑ i, A i d) := by
    rw [normSq3_eq_dot]
    unfold Spec.dot
    rcases (Finset.sum_nonneg fun d _ => mul_self_nonneg ((fun d => ∑ i, A i d) d) :
      0 ≤ ∑ d, (∑ i, A i d) * (∑ i, A i d)).lt_or_eq with h | h
    · exact h
    · exfalso
      have hz := (Finset.sum_eq_zero_iff_of_nonneg
        (fun d _ => mul_self_nonneg (∑ i, A i d))).1 h.symm
      have := row_comb_inj A hA (fun _ => 1) 0 (fun d => by
        have := mul_self_eq_zero.1 (hz d (Finset.mem_univ d))
        simpa using this)
      exact one_ne_zero (congrFun this 0)
  have hc : 1 ≤ translationCount A E := by
    unfold translationCount
    rw [sqrt_normSq3, Int.one_le_ceil_iff]
    positivity
  refine ⟨(translationCount A E).toNat, by omega, ?_, ?_, ?_⟩
  · rw [Int.toNat_of_nonneg (by omega)]
    unfold translationCount
    rw [sqrt_normSq3, normSq3_eq_dot]
  · simp [Fintype.card_pi]
  · intro k k' h
    have := row_comb_inj A hA (fun i => (sfreq _ (k i) : ℝ)) (fun i => (sfreq _ (k' i) : ℝ))
      (fun d => by
        have := congrFun h d
        rwa [trans_apply, trans_apply] at this)
    funext i
    have hi := congrFun this i
    exact Fin.ext (sfreq_inj (k i).2 (k' i).2 (by exact_mod_cast hi))

/-- C09: the zero translation is in the list as soon as the count is at least one. -/
theorem translations_zero (A : Matrix (Fin 3) (Fin 3) ℝ) (E : ℝ) (h : 1 ≤ translationCount A E) :
    ∃ k, translationVectors A E k = 0 := by
  refine ⟨fun _ => ⟨0, by beta_reduce; omega⟩, ?_⟩
  funext d
  rw [trans_apply]
  exact Finset.sum_eq_zero fun i _ => by simp [sfreq_zero]

private theorem sfreq_neg_odd (m k : ℕ) (hodd : Odd m) (hlt : k < m) :
    sfreq m ((m - k) % m) = - sfreq m k := by
  obtain ⟨c, hc⟩ := hodd
  rcases Nat.eq_zero_or_pos k with h0 | h0
  · rw [h0]; simp [sfreq_zero]
  · rw [Nat.mod_eq_of_lt (by omega), sfreq_eq (by omega), sfreq_eq hlt]
    split_ifs <;> omega

/-- C09 (part): for an odd count the list is symmetric.  Missing: even counts, for which the claim is
false (`translations_not_symmetric`). -/
theorem translations_symmetric_partial (A : Matrix (Fin 3) (Fin 3) ℝ) (E : ℝ)
    (hodd : Odd (translationCount A E).toNat)
    (k : Idx fun _ => (translationCount A E).toNat) :
    ∃ k', translationVectors A E k' = - translationVectors A E k := by
  refine ⟨fun i => ⟨((translationCount A E).toNat - (k i : ℕ)) % (translationCount A E).toNat,
    Nat.mod_lt _ (lt_of_le_of_lt (Nat.zero_le _) (k i).2)⟩, ?_⟩
  funext d
  rw [Pi.neg_apply, trans_apply, trans_apply, ← Finset.sum_neg_distrib]
  refine Finset.sum_congr rfl fun i _ => ?_
  have key := sfreq_neg_odd _ _ hodd (k i).2
  simp only [key]
  push_cast; ring

/-- C09 fails for every invertible cell and every cutoff giving an even count: some returned vector
has no opposite in the list. -/
theorem translations_not_symmetric (A : Matrix (Fin 3) (Fin 3) ℝ) (hA : A.det ≠ 0) (E : ℝ)
    (heven : Even (translationCount A E).toNat) (h1 : 1 ≤ translationCount A E) :
    ∃ k, ∀ k', translationVectors A E k' ≠ - translationVectors A E k := by
  obtain ⟨c, hc⟩ := heven
  have hcpos : 0 < c := by omega
  refine ⟨fun _ => ⟨c, by beta_reduce; omega⟩, fun k' h => ?_⟩
  have := row_comb_inj A hA (fun i => (sfreq _ (k' i) : ℝ))
    (fun i => -(sfreq (translationCount A E).toNat c : ℝ)) (fun d => by
      have := congrFun h d
      rw [Pi.neg_apply, trans_apply, trans_apply, ← Finset.sum_neg_distrib] at this
      rw [this]
      exact Finset.sum_congr rfl fun i _ => by ring)
  have h0 := congrFun this 0
  have h0' : sfreq (translationCount A E).toNat (k' 0) = - sfreq (translationCount A E).toNat c := by
    exact_mod_cast h0
  have hlt : (k' 0 : ℕ) < (translationCount A E).toNat := (k' 0).2
  rw [sfreq_eq hlt, sfreq_eq (by omega)] at h0'
  split_ifs at h0' <;> omega

/-- Witness for both parities: the unit cube gives count 2 at cutoff 6 and count 3 at cutoff 9. -/
example : translationCount 1 6 = 2 ∧ translationCount 1 9 = 3 := by
  unfold translationCount
  have h : normSq3 (fun d => ∑ i, (1 : Matrix (Fin 3) (Fin 3) ℝ) i d) = 3 := by
    have : ∀ d : Fin 3, ∑ i, (1 : Matrix (Fin 3) (Fin 3) ℝ) i d = 1 := by
      intro d; simp [Matrix.one_apply]
    simp only [normSq3, this]
    simp
  rw [sqrt_normSq3, h]
  constructor <;> norm_num

end Jrystal
