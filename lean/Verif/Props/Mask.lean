import Verif.Lemmas.HalfFreq

/- C04, C05: cubic mask and half-frequency layout. -/
namespace Jrystal
open scoped BigOperators

/-! ### C04 -/

/-- C04 (sizes other than 2): the cubic mask keeps exactly the frequencies
`-⌈G/2⌉ ≤ f ≤ ⌊G/2⌋` on every axis.  Missing: a size-2 axis, where the claim is false
(`cubicMask_size_two`). -/
theorem cubicMask_kept_partial (n : Fin 3 → ℕ) (h2 : ∀ i, n i ≠ 2) (k : Idx n) :
    cubicMask n k = true ↔
      ∀ i f, Spec.IsSignedFreq (n i) (k i) f → Spec.KeptFreq (n i) f := by
  have key : ∀ i, (∀ f, Spec.IsSignedFreq (n i) (k i) f → Spec.KeptFreq (n i) f)
      ↔ cubicMask1 (n i) (k i) = true := by
    intro i
    rw [cubicMask1_kept _ _ (k i).2 (h2 i)]
    constructor
    · intro h; exact h _ (sfreq_spec (k i).2)
    · intro h f hf
      rwa [isSignedFreq_unique hf (sfreq_spec (k i).2)]
  simp only [key, Fin.forall_fin_succ, cubicMask, Bool.and_eq_true]
  constructor
  · rintro ⟨⟨h0, h1⟩, h2⟩; exact ⟨h0, h1, h2, fun i => i.elim0⟩
  · rintro ⟨h0, h1, h2, -⟩; exact ⟨⟨h0, h1⟩, h2⟩

/-- C04: two kept frequencies differ by at most `G = ⌊(n-1)/2⌋`. -/
theorem kept_difference_bound (n : ℕ) (f f' : ℤ) (hf : Spec.KeptFreq n f)
    (hf' : Spec.KeptFreq n f') : |f - f'| ≤ (((n - 1) / 2 : ℕ) : ℤ) := by
  unfold Spec.KeptFreq at *
  rw [abs_le]; omega

/-- C04 (sizes other than 2): no aliasing.  For two kept indices the frequency difference is exactly
the signed frequency stored at the (cyclic) index difference, so each product `ψ_k conj(ψ_k')`
contributes to the density at its true frequency. -/
theorem cubicMask_no_alias_partial (n : Fin 3 → ℕ) (h2 : ∀ i, n i ≠ 2) (k k' : Idx n)
    (hk : cubicMask n k = true) (hk' : cubicMask n k' = true) (i : Fin 3) (f f' : ℤ)
    (hf : Spec.IsSignedFreq (n i) (k i) f) (hf' : Spec.IsSignedFreq (n i) (k' i) f') :
    Spec.IsSignedFreq (n i) (((k i : ℕ) + (n i - (k' i : ℕ))) % n i) (f - f') := by
  have a := (cubicMask_kept_partial n h2 k).1 hk i f hf
  have b := (cubicMask_kept_partial n h2 k').1 hk' i f' hf'
  have hb := kept_difference_bound _ _ _ a b
  have hlt := (k' i).2
  rw [abs_le] at hb
  refine ⟨?_, by omega, by omega⟩
  obtain ⟨p, hp⟩ := hf.1
  obtain ⟨q, hq⟩ := hf'.1
  have hmod := Nat.div_add_mod ((k i : ℕ) + (n i - (k' i : ℕ))) (n i)
  set r := ((k i : ℕ) + (n i - (k' i : ℕ))) % n i
  set d := ((k i : ℕ) + (n i - (k' i : ℕ))) / n i
  refine ⟨p - q + d - 1, ?_⟩
  have hmod' : ((n i : ℤ)) * d + r = (k i : ℕ) + ((n i : ℤ) - (k' i : ℕ)) := by
    have := congrArg (Nat.cast : ℕ → ℤ) hmod
    push_cast at this
    rw [Nat.cast_sub hlt.le] at this
    exact this
  have : f - f' = ((k i : ℕ) : ℤ) - (k' i : ℕ) + n i * (p - q) := by
    rw [mul_sub]; linarith
  rw [this]
  have e : (n i : ℤ) * (p - q + d - 1) = n i * (p - q) + n i * d - n i := by ring
  rw [e]; linarith

/-- C04 fails for an axis of size 2: frequency `-1` is kept although `G = 0`, and the difference of
the two kept frequencies is `1`, which the grid stores as `-1`. -/
theorem cubicMask_size_two :
    ¬ (∀ (n : Fin 3 → ℕ) (k k' : Idx n), cubicMask n k = true → cubicMask n k' = true →
      ∀ (i : Fin 3) (f f' : ℤ), Spec.IsSignedFreq (n i) (k i) f →
        Spec.IsSignedFreq (n i) (k' i) f' →
        Spec.KeptFreq (n i) f ∧
        Spec.IsSignedFreq (n i) (((k i : ℕ) + (n i - (k' i : ℕ))) % n i) (f - f')) := by
  intro h
  have := h (fun _ => 2) (fun _ => 0) (fun _ => 1) (by decide) (by decide) 0 0 (-1)
    (by simp [Spec.IsSignedFreq]) ⟨⟨-1, by simp⟩, by simp⟩
  have h2 := this.2.2.2
  norm_num at h2

/-- Witness: a 9×8×5 grid has kept indices with negative and positive frequencies. -/
example : cubicMask ![9, 8, 5]
    (fun i => ⟨(![2, 6, 4] : Fin 3 → ℕ) i, by revert i; decide⟩) = true := by decide

/-! ### C05 -/

/-- C05: on each axis the half-frequency shape is the number of indices kept by the cubic mask
(size 2 excepted, where the mask keeps 2 indices and the shape is 1: `halfShape_size_two`). -/
theorem halfShape_count_partial (n : Fin 3 → ℕ) (h0 : ∀ i, 0 < n i) (h2 : ∀ i, n i ≠ 2) (i : Fin 3) :
    halfShape n i = (((Finset.range (n i)).filter fun j => cubicMask1 (n i) j = true).card : ℤ) := by
  have hset : (Finset.range (n i)).filter (fun j => cubicMask1 (n i) j = true)
      = Finset.range ((n i - 1) / 2 / 2 + 1) ∪
        Finset.Ico (n i - ((n i - 1) / 2 + 1) / 2) (n i) := by
    ext j
    simp only [Finset.mem_filter, Finset.mem_range, Finset.mem_union, Finset.mem_Ico]
    have := h0 i
    constructor
    · rintro ⟨hj, hm⟩
      rw [cubicMask1_eq _ _ hj (h2 i)] at hm
      omega
    · intro h
      have hj : j < n i := by omega
      refine ⟨hj, ?_⟩
      rw [cubicMask1_eq _ _ hj (h2 i)]
      omega
  rw [hset, Finset.card_union_of_disjoint, Finset.card_range, Nat.card_Ico]
  · unfold halfShape
    rw [halfRange_posSize _ (h0 i), halfRange_negSize _ (h0 i)]
    have := h0 i
    omega
  · rw [Finset.disjoint_left]
    intro j
    simp only [Finset.mem_range, Finset.mem_Ico]
    have := h0 i
    omega

/-- C05 at size 2: the shape is 1 although the mask keeps both indices. -/
theorem halfShape_size_two : halfShape (fun _ => 2) 0 = 1 ∧
    ((Finset.range 2).filter fun j => cubicMask1 2 j = true).card = 2 := by decide

/-- `t` is an index of a half-frequency tensor. -/
def Spec.InHalf (n : Fin 3 → ℕ) (t : Fin 3 → ℤ) : Prop := ∀ i, 0 ≤ t i ∧ t i < halfShape n i

/-- C05: padding puts the entry carrying frequency `f` at the grid index carrying frequency `f`. -/
theorem halfPad_entry {α : Type*} [Zero α] (n : Fin 3 → ℕ) (tensor : (Fin 3 → ℤ) → α)
    (t : Fin 3 → ℤ) (ht : Spec.InHalf n t) (j : Idx n) (f : Fin 3 → ℤ)
    (hf : ∀ i, Spec.IsHalfFreq (n i) (halfShape n i) (t i) (f i))
    (hj : ∀ i, Spec.IsSignedFreq (n i) (j i) (f i)) :
    halfPadTo n tensor j = tensor t := by
  have hpos : ∀ i, 0 < n i := fun i => by have := (j i).2; omega
  have main : ∀ i, ((j i : ℤ) < (halfRange (n i)).posSize ∧ t i = j i) ∨
      ((halfRange (n i)).negStart ≤ (j i : ℤ) ∧ ¬ ((j i : ℤ) < (halfRange (n i)).posSize) ∧
        t i = (j i : ℤ) - (halfRange (n i)).negStart + (halfRange (n i)).posSize) := by
    intro i
    have hfj := isSignedFreq_unique (hj i) (sfreq_spec (j i).2)
    rw [sfreq_eq (j i).2] at hfj
    obtain ⟨⟨c, hc⟩, hk⟩ := hf i
    have ht' := ht i
    unfold Spec.KeptFreq at hk
    have h1 := halfRange_posSize _ (hpos i)
    have h2 := halfRange_negSize _ (hpos i)
    have h3 := halfRange_negStart _ (hpos i)
    have hlt := (j i).2
    have hp := hpos i
    have hsh : halfShape n i = (halfRange (n i)).posSize + (halfRange (n i)).negSize := rfl
    have hhp : 0 < halfShape n i := by omega
    -- c is 0 or -1
    have hc' : c = 0 ∨ c = -1 := by
      have l1 : -(halfShape n i) * 2 < halfShape n i * c := by omega
      have l2 : halfShape n i * c < halfShape n i * 1 := by omega
      have : c < 1 := lt_of_mul_lt_mul_left l2 hhp.le
      have : -2 < c := lt_of_mul_lt_mul_left (by linarith : halfShape n i * -2 < halfShape n i * c) hhp.le
      omega
    rcases hc' with rfl | rfl <;> split_ifs at hfj with hh <;> omega
  have hall : ∀ i, (j i : ℤ) < (halfRange (n i)).posSize ∨
      (halfRange (n i)).negStart ≤ (j i : ℤ) := fun i => by
    rcases main i with h | h
    · exact Or.inl h.1
    · exact Or.inr h.1
  rw [(halfPadTo_eq n tensor j).1 hall]
  congr 1
  funext i
  rcases main i with ⟨h, e⟩ | ⟨-, h, e⟩
  · rw [if_pos h, e]
  · rw [if_neg h, e]

/-- C05: every entry of the tensor has a frequency and a grid index carrying it. -/
theorem halfPad_total (n : Fin 3 → ℕ) (h0 : ∀ i, 0 < n i) (t : Fin 3 → ℤ) (ht : Spec.InHalf n t) :
    ∃ (f : Fin 3 → ℤ) (j : Idx n), (∀ i, Spec.IsHalfFreq (n i) (halfShape n i) (t i) (f i)) ∧
      ∀ i, Spec.IsSignedFreq (n i) (j i) (f i) := by
  have hax : ∀ i, ∃ (f : ℤ) (j : Fin (n i)), Spec.IsHalfFreq (n i) (halfShape n i) (t i) f ∧
      Spec.IsSignedFreq (n i) j f := by
    intro i
    have ht' := ht i
    have h1 := halfRange_posSize _ (h0 i)
    have h2 := halfRange_negSize _ (h0 i)
    have hsh : halfShape n i = (halfRange (n i)).posSize + (halfRange (n i)).negSize := rfl
    have hp := h0 i
    by_cases hl : t i < (halfRange (n i)).posSize
    · refine ⟨t i, ⟨(t i).toNat, by omega⟩, ⟨by simp, by unfold Spec.KeptFreq; omega⟩, ?_⟩
      refine ⟨⟨0, ?_⟩, by omega, by omega⟩
      simp; omega
    · refine ⟨t i - halfShape n i, ⟨(t i - halfShape n i + n i).toNat, by omega⟩,
        ⟨⟨-1, by ring⟩, by unfold Spec.KeptFreq; omega⟩, ?_⟩
      refine ⟨⟨-1, ?_⟩, by omega, by omega⟩
      simp; omega
  choose f j h using hax
  exact ⟨f, j, fun i => (h i).1, fun i => (h i).2⟩

/-- C05: two entries never carry the same frequency, so they never collide. -/
theorem halfPad_injective (n : Fin 3 → ℕ) (t t' f : Fin 3 → ℤ)
    (ht : Spec.InHalf n t) (ht' : Spec.InHalf n t')
    (hf : ∀ i, Spec.IsHalfFreq (n i) (halfShape n i) (t i) (f i))
    (hf' : ∀ i, Spec.IsHalfFreq (n i) (halfShape n i) (t' i) (f i)) : t = t' := by
  funext i
  obtain ⟨a, ha⟩ := (hf i).1
  obtain ⟨b, hb⟩ := (hf' i).1
  have h1 := ht i
  have h2 := ht' i
  have hd : t' i - t i = halfShape n i * (a - b) := by rw [mul_sub]; omega
  have hp : 0 < halfShape n i := by omega
  have : a - b < 1 := lt_of_mul_lt_mul_left (by omega : halfShape n i * (a - b) < halfShape n i * 1) hp.le
  have : -1 < a - b := lt_of_mul_lt_mul_left (by omega : halfShape n i * -1 < halfShape n i * (a - b)) hp.le
  have : a - b = 0 := by omega
  rw [this] at hd; omega

/-- C05: every other grid index holds zero. -/
theorem halfPad_zero {α : Type*} [Zero α] (n : Fin 3 → ℕ) (tensor : (Fin 3 → ℤ) → α) (j : Idx n)
    (hj : ∃ i f, Spec.IsSignedFreq (n i) (j i) f ∧ ¬ Spec.KeptFreq (n i) f) :
    halfPadTo n tensor j = 0 := by
  obtain ⟨i, f, hf, hk⟩ := hj
  apply (halfPadTo_eq n tensor j).2
  intro hall
  apply hk
  have hpos : 0 < n i := by have := (j i).2; omega
  rw [isSignedFreq_unique hf (sfreq_spec (j i).2), sfreq_eq (j i).2]
  have h1 := halfRange_posSize _ hpos
  have h3 := halfRange_negStart _ hpos
  have hlt := (j i).2
  have := hall i
  unfold Spec.KeptFreq
  split_ifs <;> omega

/-- C05 (sizes other than 2): the support of the padded array is the cubic mask. -/
theorem halfPad_support_partial (n : Fin 3 → ℕ) (h2 : ∀ i, n i ≠ 2) (j : Idx n) :
    cubicMask n j = true ↔ ∃ t f : Fin 3 → ℤ, Spec.InHalf n t ∧
      (∀ i, Spec.IsHalfFreq (n i) (halfShape n i) (t i) (f i)) ∧
      (∀ i, Spec.IsSignedFreq (n i) (j i) (f i)) := by
  constructor
  · intro hm
    have hk := (cubicMask_kept_partial n h2 j).1 hm
    refine ⟨fun i => if 0 ≤ sfreq (n i) (j i) then sfreq (n i) (j i)
      else sfreq (n i) (j i) + halfShape n i, fun i => sfreq (n i) (j i), fun i => ?_, fun i => ?_,
      fun i => sfreq_spec (j i).2⟩
    · have hkk := hk i _ (sfreq_spec (j i).2)
      have hpos : 0 < n i := by have := (j i).2; omega
      have h1 := halfRange_posSize _ hpos
      have h2 := halfRange_negSize _ hpos
      have hsh : halfShape n i = (halfRange (n i)).posSize + (halfRange (n i)).negSize := rfl
      unfold Spec.KeptFreq at hkk
      beta_reduce
      split_ifs <;> omega
    · refine ⟨?_, hk i _ (sfreq_spec (j i).2)⟩
      beta_reduce
      split_ifs
      · simp
      · exact ⟨-1, by ring⟩
  · rintro ⟨t, f, -, hf, hj⟩
    rw [cubicMask_kept_partial n h2]
    intro i f' hf'
    rw [isSignedFreq_unique hf' (hj i)]
    exact (hf i).2

/-- Witness: on a 9×8×5 grid the half shape is 5×4×3 hence non-trivial. -/
example : halfShape ![9, 8, 5] = ![5, 4, 3] := by decide

end Jrystal
