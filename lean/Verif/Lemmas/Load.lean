import Verif.Model.Load
import Verif.Spec.Load
import Mathlib.Data.List.TakeWhile

/- Lemmas for the UPF loader. -/
namespace Jrystal

theorem bind_ok_iff {α β : Type} (x : Except PyErr α) (f : α → Except PyErr β) (b : β) :
    (x >>= f) = .ok b ↔ ∃ a, x = .ok a ∧ f a = .ok b := by
  cases x with
  | error e => exact ⟨fun h => (by cases h), fun ⟨a, h, _⟩ => (by cases h)⟩
  | ok a => exact ⟨fun h => ⟨a, rfl, h⟩, fun ⟨a', h, h'⟩ => by cases h; exact h'⟩

theorem mapM_ok_iff {α β : Type} (f : α → Except PyErr β) (xs : List α) (ys : List β) :
    xs.mapM f = .ok ys ↔ List.Forall₂ (fun x y => f x = .ok y) xs ys := by
  induction xs generalizing ys with
  | nil =>
    rw [List.mapM_nil]
    constructor
    · intro h; cases h; exact .nil
    · intro h; cases h; rfl
  | cons x xs ih =>
    rw [List.mapM_cons]
    simp only [bind_ok_iff]
    constructor
    · rintro ⟨y, hy, ys', hys, h⟩
      cases h
      exact .cons hy ((ih _).1 hys)
    · intro h
      cases h with
      | cons h1 h2 => exact ⟨_, h1, _, (ih _).2 h2, rfl⟩

theorem map_ok_iff {α β : Type} (x : Except PyErr α) (f : α → β) (b : β) :
    x.map f = Except.ok b ↔ ∃ a, x = .ok a ∧ f a = b := by
  cases x with
  | error e => exact ⟨fun h => (by cases h), fun ⟨a, h, _⟩ => (by cases h)⟩
  | ok a =>
    refine ⟨fun h => ⟨a, rfl, ?_⟩, fun ⟨a', h, h'⟩ => by cases h; exact congrArg _ h'⟩
    exact Except.ok.inj h

theorem pySpace_iff (c : Char) : pySpace c = true ↔ Spec.White c := by
  unfold pySpace Spec.White
  simp only [Bool.or_eq_true, decide_eq_true_eq, List.mem_cons, List.not_mem_nil, or_false]
  omega

theorem wordsFrom_white {s : Str} (h : ∀ c ∈ s, Spec.White c) (t : Str) :
    wordsFrom (s ++ t) [] = wordsFrom t [] := by
  induction s with
  | nil => rfl
  | cons c s ih =>
    rw [List.cons_append, wordsFrom, if_pos ((pySpace_iff c).2 (h c (by simp))), if_pos rfl,
      ih fun d hd => h d (List.mem_cons_of_mem _ hd)]

theorem wordsFrom_word {w : Str} (h : ∀ c ∈ w, ¬Spec.White c) (t cur : Str) :
    wordsFrom (w ++ t) cur = wordsFrom t (cur ++ w) := by
  induction w generalizing cur with
  | nil => rw [List.nil_append, List.append_nil]
  | cons c w ih =>
    rw [List.cons_append, wordsFrom, if_neg (fun h' => h c (by simp) ((pySpace_iff c).1 h')),
      ih (fun d hd => h d (List.mem_cons_of_mem _ hd)), List.append_assoc, List.singleton_append]

theorem wordsFrom_stop {t : Str} (ht : t = [] ∨ ∃ c r, t = c :: r ∧ Spec.White c) {cur : Str}
    (hc : cur ≠ []) : wordsFrom t cur = cur :: wordsFrom t [] := by
  rcases ht with rfl | ⟨c, r, rfl, hw⟩
  · rw [wordsFrom, if_neg hc, wordsFrom, if_pos rfl]
  · rw [wordsFrom, if_pos ((pySpace_iff c).2 hw), if_neg hc, wordsFrom, if_pos ((pySpace_iff c).2 hw),
      if_pos rfl]

theorem pyWords_of_tokens {s : Str} {ws : List Str} (h : Spec.Tokens s ws) : pyWords s = ws := by
  induction h with
  | blank s h =>
    have := wordsFrom_white h []
    rw [List.append_nil] at this
    unfold pyWords
    rw [this, wordsFrom, if_pos rfl]
  | word pre w rest ws hp hw hn hr h ih =>
    unfold pyWords at ih ⊢
    rw [List.append_assoc, wordsFrom_white hp, wordsFrom_word hn, List.nil_append, wordsFrom_stop hr hw, ih]

theorem exists_tokens (s : Str) : ∃ ws, Spec.Tokens s ws := by
  induction hn : s.length using Nat.strong_induction_on generalizing s with
  | _ m ih =>
    by_cases hw : s.dropWhile pySpace = []
    · refine ⟨[], .blank s fun c hc => (pySpace_iff c).1 ?_⟩
      exact List.dropWhile_eq_nil_iff.1 hw c hc
    · have h1 : s = s.takeWhile pySpace ++ (s.dropWhile pySpace) := (List.takeWhile_append_dropWhile).symm
      set u := s.dropWhile pySpace with hu
      have h2 : u = u.takeWhile (fun c => !pySpace c) ++ u.dropWhile (fun c => !pySpace c) :=
        (List.takeWhile_append_dropWhile).symm
      have hhead : ∃ c r, u = c :: r ∧ pySpace c = false := by
        match hq : u with
        | [] => exact absurd rfl hw
        | c :: r =>
          refine ⟨c, r, rfl, ?_⟩
          have := List.head_dropWhile_not pySpace (l := s) (by rw [← hu]; simp)
          simpa [← hu] using this
      obtain ⟨c, r, hcr, hc⟩ := hhead
      have hlen : (u.dropWhile fun c => !pySpace c).length < m := by
        have ha : (u.dropWhile fun c => !pySpace c).length ≤ r.length := by
          rw [hcr, List.dropWhile_cons, if_pos (by simp [hc])]
          exact List.length_dropWhile_le _ _
        have hb : s.length = (s.takeWhile pySpace).length + u.length := by
          conv_lhs => rw [h1]
          rw [List.length_append]
        rw [hcr, List.length_cons] at hb
        omega
      obtain ⟨ws, hws⟩ := ih _ hlen _ rfl
      refine ⟨u.takeWhile (fun c => !pySpace c) :: ws, ?_⟩
      have e := h1
      rw [h2, ← List.append_assoc] at e
      rw [e]
      refine .word _ _ _ _ (fun d hd => (pySpace_iff d).1 (List.mem_takeWhile_imp hd)) ?_ (fun d hd h => ?_) ?_ hws
      · rw [hcr, List.takeWhile_cons, if_pos (by simp [hc])]
        simp
      · have := List.mem_takeWhile_imp hd
        rw [(pySpace_iff d).2 h] at this
        simp at this
      · match hq : u.dropWhile fun c => !pySpace c with
        | [] => exact Or.inl rfl
        | d :: t =>
          refine Or.inr ⟨d, t, rfl, (pySpace_iff d).1 ?_⟩
          have := List.head_dropWhile_not (fun c => !pySpace c) (l := u) (by rw [hq]; simp)
          simpa [hq] using this

theorem linesFrom_eq (s cur : Str) : ∃ l ls, linesFrom s cur = (cur ++ l) :: ls ∧ pyLines s = l :: ls ∧
    s = Spec.unlines (l :: ls) ∧ ∀ x ∈ l :: ls, '\n' ∉ x := by
  induction s generalizing cur with
  | nil => exact ⟨[], [], by simp [linesFrom], by simp [pyLines, linesFrom], rfl, by simp⟩
  | cons c s ih =>
    unfold pyLines
    by_cases hc : c = '\n'
    · obtain ⟨l, ls, h1, h2, h3, h4⟩ := ih []
      subst hc
      refine ⟨[], l :: ls, ?_, ?_, ?_, ?_⟩
      · rw [linesFrom, if_pos rfl, h1]; simp
      · rw [linesFrom, if_pos rfl, h1]; simp
      · rw [h3]; rfl
      · intro x hx
        rcases List.mem_cons.1 hx with rfl | hx
        · simp
        · exact h4 x hx
    · obtain ⟨l, ls, h1, h2, h3, h4⟩ := ih (cur ++ [c])
      obtain ⟨l', ls', h1', h2', h3', h4'⟩ := ih [c]
      have he : l :: ls = l' :: ls' := h2.symm.trans h2'
      obtain ⟨rfl, rfl⟩ := List.cons.inj he
      refine ⟨c :: l, ls, ?_, ?_, ?_, ?_⟩
      · rw [linesFrom, if_neg hc, h1]; simp
      · rw [linesFrom, if_neg hc, List.nil_append, h1']; rfl
      · conv_lhs => rw [h3]
        unfold Spec.unlines
        cases ls <;> simp [List.intercalate, List.intersperse]
      · intro x hx
        rcases List.mem_cons.1 hx with rfl | hx
        · intro h
          rcases List.mem_cons.1 h with h | h
          · exact hc h.symm
          · exact h4 l (by simp) h
        · exact h4 x (List.mem_cons_of_mem _ hx)

theorem linesFrom_line {l : Str} (h : '\n' ∉ l) (t cur : Str) :
    linesFrom (l ++ t) cur = linesFrom t (cur ++ l) := by
  induction l generalizing cur with
  | nil => simp
  | cons c l ih =>
    rw [List.cons_append, linesFrom, if_neg (fun hc => h (by simp [hc])),
      ih (fun hm => h (List.mem_cons_of_mem _ hm)), List.append_assoc, List.singleton_append]

theorem pyLines_unlines {l : Str} {ls : List Str} (h : ∀ x ∈ l :: ls, '\n' ∉ x) :
    pyLines (Spec.unlines (l :: ls)) = l :: ls := by
  induction ls generalizing l with
  | nil =>
    have := linesFrom_line (h l (by simp)) [] []
    unfold pyLines Spec.unlines
    simpa [linesFrom, List.intercalate] using this
  | cons l' ls ih =>
    have ih' := ih (l := l') fun x hx => h x (List.mem_cons_of_mem _ hx)
    have e : Spec.unlines (l :: l' :: ls) = l ++ '\n' :: Spec.unlines (l' :: ls) := by
      unfold Spec.unlines
      simp [List.intercalate, List.intersperse]
    unfold pyLines at ih' ⊢
    rw [e, linesFrom_line (h l (by simp)), linesFrom, if_pos rfl, ih']
    simp

theorem strIn_iff (sub s : Str) : strIn sub s = true ↔ sub <:+: s := by
  unfold strIn
  rw [List.any_eq_true]
  constructor
  · rintro ⟨t, ht, hp⟩
    exact (List.isPrefixOf_iff_prefix.1 hp).isInfix.trans ((List.mem_tails _ _).1 ht).isInfix
  · rintro ⟨a, b, h⟩
    refine ⟨sub ++ b, (List.mem_tails _ _).2 ⟨a, by rw [← h, List.append_assoc]⟩, ?_⟩
    exact List.isPrefixOf_iff_prefix.2 ⟨b, rfl⟩

theorem toLower_dot (c : Char) : c.toLower = '.' ↔ c = '.' := by
  unfold Char.toLower
  split
  · rename_i h
    constructor
    · intro h'
      exfalso
      have h3 : (c.val + ('a'.val - 'A'.val)).toNat = 46 := congrArg (fun d : Char => d.val.toNat) h'
      have h1 : 65 ≤ c.val.toNat := UInt32.le_iff_toNat_le.1 h.1
      have h2 : c.val.toNat ≤ 90 := UInt32.le_iff_toNat_le.1 h.2
      rw [UInt32.toNat_add] at h3
      have h4 : ('a'.val - 'A'.val).toNat = 32 := rfl
      rw [h4] at h3
      omega
    · rintro rfl
      exact absurd h (by decide)
  · exact Iff.rfl

end Jrystal
