import Verif.Lemmas.Grid
import Verif.Model.HalfFreq

namespace Jrystal
open scoped BigOperators

theorem halfRange_posSize (n : ℕ) (h : 0 < n) :
    (halfRange n).posSize = (((n - 1) / 2 / 2 : ℕ) : ℤ) + 1 := by
  simp only [halfRange, half]; omega

theorem halfRange_negSize (n : ℕ) (h : 0 < n) :
    (halfRange n).negSize = ((((n - 1) / 2 + 1) / 2 : ℕ) : ℤ) := by
  simp only [halfRange, half]; omega

theorem halfRange_negStart (n : ℕ) (h : 0 < n) :
    (halfRange n).negStart = (n : ℤ) - ((((n - 1) / 2 + 1) / 2 : ℕ) : ℤ) := by
  simp only [halfRange, half]; omega

theorem pyBound_neg (len : ℕ) (x : ℤ) (h : x < 0) : pyBound len x = (max (x + len) 0).toNat := by
  unfold pyBound; rw [if_pos h]

theorem pyBound_nonneg (len : ℕ) (x : ℤ) (h : ¬ x < 0) : pyBound len x = min x.toNat len := by
  unfold pyBound; rw [if_neg h]

/-- The window set to `False` on one axis. -/
theorem cubicMask1_eq (n : ℕ) (j : ℕ) (hj : j < n) (h2 : n ≠ 2) :
    cubicMask1 n j = true ↔
      (j ≤ (n - 1) / 2 / 2 ∨ n - ((n - 1) / 2 + 1) / 2 ≤ j) := by
  have hup : half (half ((n : ℤ) - 1)) + 1 = (((n - 1) / 2 / 2 + 1 : ℕ) : ℤ) := by
    unfold half; omega
  have hlow : half (-half ((n : ℤ) - 1)) = -((((n - 1) / 2 + 1) / 2 : ℕ) : ℤ) := by
    unfold half; omega
  simp only [cubicMask1, inSlice]
  rw [hup, hlow]
  simp only [Bool.not_eq_true', Bool.and_eq_false_iff, decide_eq_false_iff_not]
  rw [pyBound_nonneg _ _ (by omega)]
  by_cases h1 : n = 1
  · subst h1; simp [pyBound]; omega
  rw [pyBound_neg _ _ (by omega)]
  omega

theorem cubicMask1_kept (n : ℕ) (j : ℕ) (hj : j < n) (h2 : n ≠ 2) :
    cubicMask1 n j = true ↔ Spec.KeptFreq n (sfreq n j) := by
  rw [cubicMask1_eq n j hj h2, sfreq_eq hj]
  unfold Spec.KeptFreq
  split_ifs <;> omega

theorem foldl_updates {β γ δ : Type*} (l : List β) (P : β → γ → Prop) [∀ b j, Decidable (P b j)]
    (V : β → γ → δ) (j : γ) (v : δ) (hv : ∀ b ∈ l, P b j → V b j = v) (init : γ → δ) :
    (l.foldl (fun ret b => fun j => if P b j then V b j else ret j) init) j
      = letI := Classical.propDecidable; if ∃ b ∈ l, P b j then v else init j := by
  classical
  induction l generalizing init with
  | nil => simp
  | cons b l ih =>
    rw [List.foldl_cons, ih (fun b hb => hv b (List.mem_cons_of_mem _ hb))]
    by_cases h : ∃ b ∈ l, P b j
    · rw [if_pos h, if_pos]
      obtain ⟨b', hb', hp⟩ := h
      exact ⟨b', List.mem_cons_of_mem _ hb', hp⟩
    · rw [if_neg h]
      by_cases hb : P b j
      · rw [if_pos hb, if_pos ⟨b, List.mem_cons_self, hb⟩]
        exact hv b List.mem_cons_self hb
      · rw [if_neg hb, if_neg]
        rintro ⟨b', hb', hp⟩
        rcases List.mem_cons.1 hb' with rfl | hb'
        · exact hb hp
        · exact h ⟨b', hb', hp⟩

theorem mem_blockOrder : ∀ b : Fin 3 → Bool, b ∈ blockOrder := by decide

/-- Closed form of the padded array. -/
theorem halfPadTo_eq {α : Type*} [Zero α] (n : Fin 3 → ℕ) (tensor : (Fin 3 → ℤ) → α) (j : Idx n) :
    ((∀ i, (j i : ℤ) < (halfRange (n i)).posSize ∨ (halfRange (n i)).negStart ≤ (j i : ℤ)) →
      halfPadTo n tensor j = tensor fun i => if (j i : ℤ) < (halfRange (n i)).posSize then (j i : ℤ)
        else (j i : ℤ) - (halfRange (n i)).negStart + (halfRange (n i)).posSize) ∧
    ((¬ ∀ i, (j i : ℤ) < (halfRange (n i)).posSize ∨ (halfRange (n i)).negStart ≤ (j i : ℤ)) →
      halfPadTo n tensor j = 0) := by
  have hpos : ∀ i, 0 < n i := fun i => by have := (j i).2; omega
  -- every start index already fits
  let start : (Fin 3 → Bool) → Fin 3 → ℤ := fun b i =>
    if b i then (halfRange (n i)).negStart else (halfRange (n i)).posStart
  let sz : (Fin 3 → Bool) → Fin 3 → ℤ := fun b i =>
    if b i then (halfRange (n i)).negSize else (halfRange (n i)).posSize
  have hclamp : ∀ b i, max 0 (min (start b i) ((n i : ℤ) - sz b i)) = start b i := by
    intro b i
    simp only [start, sz]
    have h1 := halfRange_posSize _ (hpos i)
    have h2 := halfRange_negSize _ (hpos i)
    have h3 := halfRange_negStart _ (hpos i)
    have h4 : (halfRange (n i)).posStart = 0 := rfl
    have := hpos i
    split_ifs <;> omega
  let P : (Fin 3 → Bool) → Idx n → Prop := fun b j =>
    ∀ i, start b i ≤ (j i : ℤ) ∧ (j i : ℤ) < start b i + sz b i
  let V : (Fin 3 → Bool) → Idx n → α := fun b j =>
    tensor fun i => ((j i : ℤ) - start b i) + if b i then (halfRange (n i)).posSize else 0
  have hfold : halfPadTo n tensor
      = blockOrder.foldl (fun ret b => fun j => if P b j then V b j else ret j) (fun _ => 0) := by
    unfold halfPadTo
    congr 1
    funext ret b j
    have : ∀ i, max 0 (min (if b i then (halfRange (n i)).negStart else (halfRange (n i)).posStart)
        ((n i : ℤ) - (if b i then (halfRange (n i)).negSize else (halfRange (n i)).posSize)))
        = start b i := fun i => hclamp b i
    simp only [dynamicUpdateSlice, this]
    rfl
  rw [hfold]
  have hax : ∀ i, (halfRange (n i)).posSize ≤ (halfRange (n i)).negStart
      ∧ (halfRange (n i)).posStart = 0
      ∧ (halfRange (n i)).negStart + (halfRange (n i)).negSize = n i := by
    intro i
    have h1 := halfRange_posSize _ (hpos i)
    have h2 := halfRange_negSize _ (hpos i)
    have h3 := halfRange_negStart _ (hpos i)
    have := hpos i
    refine ⟨by omega, rfl, by omega⟩
  have hiff : (∃ b ∈ blockOrder, P b j) ↔
      ∀ i, (j i : ℤ) < (halfRange (n i)).posSize ∨ (halfRange (n i)).negStart ≤ (j i : ℤ) := by
    refine ⟨?_, ?_⟩
    · rintro ⟨b, -, hb⟩ i
      have := hb i
      have h := hax i
      simp only [start, sz] at this
      by_cases hbi : b i
      · simp only [hbi, if_true] at this; right; omega
      · simp only [hbi] at this; left; simp at this; omega
    · intro h
      refine ⟨fun i => decide ((halfRange (n i)).negStart ≤ (j i : ℤ)), mem_blockOrder _, fun i => ?_⟩
      have hh := hax i
      have hj := (j i).2
      rcases h i with hi | hi
      · have hneg : ¬ ((halfRange (n i)).negStart ≤ (j i : ℤ)) := by omega
        simp only [start, sz, hneg, decide_false, Bool.false_eq_true, if_false]
        omega
      · have hd : decide ((halfRange (n i)).negStart ≤ (j i : ℤ)) = true := decide_eq_true hi
        simp only [start, sz, hd, if_true]
        omega
  rw [foldl_updates blockOrder P V j
    (tensor fun i => if (j i : ℤ) < (halfRange (n i)).posSize then (j i : ℤ)
        else (j i : ℤ) - (halfRange (n i)).negStart + (halfRange (n i)).posSize)]
  · exact ⟨fun h => if_pos (hiff.2 h), fun h => if_neg (mt hiff.1 h)⟩
  · intro b _ hb
    simp only [V]
    congr 1
    funext i
    have := hb i
    have h := hax i
    simp only [start, sz] at this ⊢
    by_cases hbi : b i
    · simp only [hbi, if_true] at this ⊢
      rw [if_neg (by omega)]
    · simp only [hbi] at this ⊢
      simp at this ⊢
      rw [if_pos (by omega)]
      omega

end Jrystal
