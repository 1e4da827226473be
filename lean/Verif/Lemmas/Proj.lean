import Verif.Model.Proj
import Verif.Spec.Proj
import Mathlib.Algebra.BigOperators.Group.List.Basic
import Mathlib.Tactic.Linarith
import Mathlib.Tactic.FieldSimp
import Mathlib.Tactic.Ring
import Mathlib.Data.List.GetD

namespace Jrystal
open scoped BigOperators
set_option linter.unusedSectionVars false
variable {K : Type*} [Field K] [LinearOrder K] [IsStrictOrderedRing K]

theorem argmaxBool_spec (n : ℕ) (p : ℕ → Bool) (h : ∃ i < n, p i = true) :
    argmaxBool n p < n ∧ p (argmaxBool n p) = true ∧ ∀ i < argmaxBool n p, p i = false := by
  unfold argmaxBool
  cases hf : (List.range n).find? p with
  | none =>
    rw [List.find?_eq_none] at hf
    obtain ⟨i, hi, hp⟩ := h
    exact absurd hp (hf i (List.mem_range.2 hi))
  | some k =>
    rw [List.find?_range_eq_some] at hf
    obtain ⟨h1, h2, h3⟩ := hf
    refine ⟨by simpa using h2, by simpa using h1, fun i hi => ?_⟩
    have := h3 i (by simpa using hi)
    simpa using this

theorem argmaxBool_none (n : ℕ) (p : ℕ → Bool) (h : ∀ i < n, p i = false) :
    argmaxBool n p = 0 := by
  unfold argmaxBool
  have : (List.range n).find? p = none := by
    rw [List.find?_eq_none]
    intro i hi
    simp [h i (List.mem_range.1 hi)]
  rw [this]; rfl

theorem sortAsc_perm {n : ℕ} (x : Fin n → K) : (sortAsc x).Perm (List.ofFn x) :=
  List.mergeSort_perm _ _

theorem sortAsc_length {n : ℕ} (x : Fin n → K) : (sortAsc x).length = n := by
  rw [(sortAsc_perm x).length_eq, List.length_ofFn]

theorem sortAsc_sorted {n : ℕ} (x : Fin n → K) : (sortAsc x).Pairwise (· ≤ ·) := by
  have := List.pairwise_mergeSort (le := fun a b : K => decide (a ≤ b))
    (by intro a b c; simp; exact le_trans) (by intro a b; simp; exact le_total a b) (List.ofFn x)
  simpa [sortAsc] using this

theorem sum_map_sortAsc {n : ℕ} (x : Fin n → K) (f : K → K) :
    ((sortAsc x).map f).sum = ∑ i, f (x i) := by
  rw [((sortAsc_perm x).map f).sum_eq, List.map_ofFn, List.sum_ofFn]; rfl

theorem sum_sortAsc {n : ℕ} (x : Fin n → K) : (sortAsc x).sum = ∑ i, x i := by
  simpa using sum_map_sortAsc x id

/-- Sum of `max (a - lam) 0` over a list split at `k` into clipped and unclipped entries. -/
theorem sum_clip (l : List K) (k : ℕ) (lam : K) (h1 : ∀ a ∈ l.take k, a ≤ lam)
    (h2 : ∀ a ∈ l.drop k, lam ≤ a) (hk : k ≤ l.length) :
    (l.map fun a => max (a - lam) 0).sum
      = l.sum - (l.take k).sum - ((l.length : K) - k) * lam := by
  have hs : l.map (fun a => max (a - lam) 0)
      = (l.take k).map (fun a => max (a - lam) 0) ++ (l.drop k).map (fun a => max (a - lam) 0) := by
    rw [← List.map_append, List.take_append_drop]
  rw [hs, List.sum_append]
  have e1 : (l.take k).map (fun a => max (a - lam) 0) = (l.take k).map (fun _ => (0 : K)) := by
    apply List.map_congr_left
    intro a ha
    exact max_eq_right (by linarith [h1 a ha])
  have e2 : (l.drop k).map (fun a => max (a - lam) 0) = (l.drop k).map (fun a => a - lam) := by
    apply List.map_congr_left
    intro a ha
    exact max_eq_left (by linarith [h2 a ha])
  have gen : ∀ m : List K, (m.map fun a => a - lam).sum = m.sum - (m.length : K) * lam := by
    intro m
    induction m with
    | nil => simp
    | cons a m ih =>
      rw [List.map_cons, List.sum_cons, ih, List.sum_cons, List.length_cons]; push_cast; ring
  rw [e1, e2, gen]
  have : l.sum = (l.take k).sum + (l.drop k).sum := by
    rw [← List.sum_append, List.take_append_drop]
  rw [List.length_drop, Nat.cast_sub hk]
  simp
  linarith

/-- The multiplier obtained when the `k` smallest entries are clipped. -/
def lamk (l : List K) (s : K) (k : ℕ) : K := (l.sum - s - (l.take k).sum) / ((l.length : K) - k)

/-- The test of `pushdown` on a sorted list. -/
def downTest (l : List K) (s : K) (i : ℕ) : Bool :=
  (Ext.div (l.sum - s - cumsum l i) ((l.length : K) - i - 1)).ltFin (l.getD i 0)

theorem take_succ_sum (l : List K) (i : ℕ) (hi : i < l.length) :
    (l.take (i + 1)).sum = (l.take i).sum + l.getD i 0 := by
  rw [List.take_add_one, List.sum_append, List.getD_eq_getElem?_getD, List.getElem?_eq_getElem hi]
  simp

theorem downTest_inner (l : List K) (s : K) (i : ℕ) (hi : i + 1 < l.length) :
    downTest l s i = true ↔ lamk l s (i + 1) < l.getD i 0 := by
  have hne : (l.length : K) - i - 1 ≠ 0 := by
    have : ((i + 1 : ℕ) : K) < l.length := by exact_mod_cast hi
    push_cast at this
    intro h; linarith
  unfold downTest Ext.div lamk cumsum
  rw [if_neg hne]
  simp only [Ext.ltFin, decide_eq_true_iff]
  push_cast
  rw [show (l.length : K) - (i + 1) = (l.length : K) - i - 1 by ring]

theorem downTest_last (l : List K) (s : K) (i : ℕ) (hi : i + 1 = l.length) :
    downTest l s i = true ↔ 0 < s := by
  have hz : (l.length : K) - i - 1 = 0 := by rw [← hi]; push_cast; ring
  unfold downTest Ext.div cumsum
  rw [if_pos hz, hi, List.take_length]
  have : l.sum - s - l.sum = -s := by ring
  rw [this]
  by_cases h : 0 < s
  · rw [if_neg (by linarith), if_pos (by linarith)]; simp [Ext.ltFin, h]
  · by_cases h' : s = 0
    · subst h'; simp [Ext.ltFin]
    · have : s < 0 := lt_of_le_of_ne (not_lt.1 h) h'
      rw [if_pos (by linarith)]; simp [Ext.ltFin]; linarith

/-- Recurrence between consecutive multipliers. -/
theorem lamk_step (l : List K) (s : K) (k : ℕ) (hk : k + 1 < l.length) :
    ((l.length : K) - k) * lamk l s k
      = ((l.length : K) - k - 1) * lamk l s (k + 1) + l.getD k 0 := by
  have h0 : ((k + 1 : ℕ) : K) < l.length := by exact_mod_cast hk
  push_cast at h0
  have h1 : (l.length : K) - k ≠ 0 := by intro h; linarith
  have h2 : (l.length : K) - k - 1 ≠ 0 := by intro h; linarith
  unfold lamk
  rw [take_succ_sum l k (by omega)]
  push_cast
  rw [show (l.length : K) - (k + 1) = (l.length : K) - k - 1 by ring]
  field_simp
  ring

theorem getD_mono (l : List K) (hs : l.Pairwise (· ≤ ·)) {i j : ℕ} (hij : i ≤ j)
    (hj : j < l.length) : l.getD i 0 ≤ l.getD j 0 := by
  rw [List.getD_eq_getElem _ _ (by omega), List.getD_eq_getElem _ _ hj]
  rcases hij.lt_or_eq with h | h
  · exact List.pairwise_iff_getElem.1 hs i j (by omega) hj h
  · subst h; exact le_refl _

theorem mem_take_getD (l : List K) (k : ℕ) (a : K) (h : a ∈ l.take k) :
    ∃ i, i < k ∧ i < l.length ∧ a = l.getD i 0 := by
  obtain ⟨i, hi, rfl⟩ := List.mem_iff_getElem.1 h
  rw [List.length_take] at hi
  refine ⟨i, by omega, by omega, ?_⟩
  rw [List.getD_eq_getElem _ _ (by omega), List.getElem_take]

theorem mem_drop_getD (l : List K) (k : ℕ) (a : K) (h : a ∈ l.drop k) :
    ∃ i, k ≤ i ∧ i < l.length ∧ a = l.getD i 0 := by
  obtain ⟨i, hi, rfl⟩ := List.mem_iff_getElem.1 h
  rw [List.length_drop] at hi
  refine ⟨k + i, by omega, by omega, ?_⟩
  rw [List.getD_eq_getElem _ _ (by omega), List.getElem_drop]

/-- Core of the projector: with a positive target the multiplier selected on a sorted list clips to
the right total. -/
theorem down_core (l : List K) (hs : l.Pairwise (· ≤ ·)) (s : K) (hpos : 0 < s)
    (hl : 0 < l.length) :
    let k := argmaxBool l.length (downTest l s)
    k < l.length ∧ (∀ a ∈ l.take k, a ≤ lamk l s k) ∧ (∀ a ∈ l.drop k, lamk l s k < a) ∧
      (l.map fun a => max (a - lamk l s k) 0).sum = s := by
  intro k
  obtain ⟨hk, ht, hf⟩ := argmaxBool_spec l.length (downTest l s)
    ⟨l.length - 1, by omega, (downTest_last l s (l.length - 1) (by omega)).2 hpos⟩
  change k < l.length at hk
  change downTest l s k = true at ht
  change ∀ i < k, downTest l s i = false at hf
  have htake : ∀ a ∈ l.take k, a ≤ lamk l s k := by
    intro a ha
    obtain ⟨i, hik, hil, rfl⟩ := mem_take_getD l k a ha
    have h1 := hf (k - 1) (by omega)
    have h2 : ¬ (downTest l s (k - 1) = true) := by rw [h1]; simp
    rw [downTest_inner l s (k - 1) (by omega), not_lt] at h2
    rw [show k - 1 + 1 = k by omega] at h2
    exact le_trans (getD_mono l hs (by omega) (by omega)) h2
  have hkk : lamk l s k < l.getD k 0 := by
    rcases Nat.lt_or_ge (k + 1) l.length with h | h
    · rw [downTest_inner l s k h] at ht
      have hst := lamk_step l s k h
      have h0 : ((k + 1 : ℕ) : K) < l.length := by exact_mod_cast h
      push_cast at h0
      have hmul : ((l.length : K) - k - 1) * lamk l s (k + 1)
          < ((l.length : K) - k - 1) * l.getD k 0 :=
        mul_lt_mul_of_pos_left ht (by linarith)
      have : ((l.length : K) - k) * lamk l s k < ((l.length : K) - k) * l.getD k 0 := by
        rw [hst]; linarith
      exact lt_of_mul_lt_mul_left this (by linarith)
    · have he : k + 1 = l.length := by omega
      have hc : (l.length : K) - k = 1 := by rw [← he]; push_cast; ring
      unfold lamk
      rw [hc, div_one]
      have : l.sum = (l.take k).sum + l.getD k 0 := by
        rw [← take_succ_sum l k hk, he, List.take_length]
      linarith
  have hdrop : ∀ a ∈ l.drop k, lamk l s k < a := by
    intro a ha
    obtain ⟨i, hki, hil, rfl⟩ := mem_drop_getD l k a ha
    exact lt_of_lt_of_le hkk (getD_mono l hs hki hil)
  refine ⟨hk, htake, hdrop, ?_⟩
  rw [sum_clip l k _ htake (fun a ha => (hdrop a ha).le) hk.le]
  have h0 : (k : K) < l.length := by exact_mod_cast hk
  have hne : (l.length : K) - k ≠ 0 := by intro h; linarith
  unfold lamk
  field_simp
  ring

/-- `pushdown` in terms of the list functions. -/
theorem pushdown_eq {n : ℕ} (s : K) (x : Fin n → K) :
    pushdown s x = fun i => max (x i - lamk (sortAsc x) s
      (argmaxBool (sortAsc x).length (downTest (sortAsc x) s))) 0 := by
  have hlen := sortAsc_length x
  have hsum := sum_sortAsc x
  funext i
  have htest : (fun i => (Ext.div ((∑ i, x i) - s - cumsum (sortAsc x) i) ((n : K) - i - 1)).ltFin
      ((sortAsc x).getD i 0)) = downTest (sortAsc x) s := by
    funext i
    unfold downTest
    rw [hlen, hsum]
  unfold pushdown
  simp only [htest, hlen]
  congr 1
  congr 1
  unfold lamk
  rw [hsum, hlen]
  by_cases hk : argmaxBool n (downTest (sortAsc x) s) = 0
  · rw [if_pos hk, hk]; simp
  · rw [if_neg hk]
    unfold cumsum
    rw [show argmaxBool n (downTest (sortAsc x) s) - 1 + 1 = argmaxBool n (downTest (sortAsc x) s) by
      omega]

/-- Sorting the complement: descending order of `x` is ascending order of `1 - x`. -/
theorem sortAsc_compl {n : ℕ} (x : Fin n → K) :
    sortAsc (fun i => 1 - x i) = (sortAsc x).reverse.map (fun a => 1 - a) := by
  have hp : (sortAsc (fun i => 1 - x i)).Perm ((sortAsc x).reverse.map (fun a => 1 - a)) := by
    refine (sortAsc_perm _).trans ?_
    have h1 : (List.ofFn fun i => 1 - x i) = (List.ofFn x).map (fun a => 1 - a) := by
      rw [List.map_ofFn]; rfl
    rw [h1]
    exact (((List.reverse_perm _).trans (sortAsc_perm x)).map _).symm
  refine hp.eq_of_pairwise (le := (· ≤ ·)) (fun a b _ _ h1 h2 => le_antisymm h1 h2) (sortAsc_sorted _) ?_
  rw [List.pairwise_map, List.pairwise_reverse]
  exact (sortAsc_sorted x).imp (fun h => by linarith)

theorem take_compl_sum (l : List K) (k : ℕ) (hk : k ≤ l.length) :
    ((l.map fun a => 1 - a).take k).sum = (k : K) - (l.take k).sum := by
  have gen : ∀ m : List K, (m.map fun a => 1 - a).sum = (m.length : K) - m.sum := by
    intro m
    induction m with
    | nil => simp
    | cons a m ih =>
      rw [List.map_cons, List.sum_cons, ih, List.sum_cons, List.length_cons]; push_cast; ring
  rw [← List.map_take, gen, List.length_take, min_eq_left hk]

theorem argmaxBool_congr (n : ℕ) (p q : ℕ → Bool) (h : ∀ i < n, p i = q i) :
    argmaxBool n p = argmaxBool n q := by
  unfold argmaxBool
  congr 1
  have : ∀ l : List ℕ, (∀ i ∈ l, p i = q i) → l.find? p = l.find? q := by
    intro l
    induction l with
    | nil => intro _; rfl
    | cons a l ih =>
      intro hh
      rw [List.find?_cons, List.find?_cons, hh a List.mem_cons_self,
        ih (fun i hi => hh i (List.mem_cons_of_mem _ hi))]
  exact this _ (fun i hi => h i (List.mem_range.1 hi))

/-- The test of `pushup` is the test of `pushdown` of the complement. -/
theorem upTest_eq {n : ℕ} (s : K) (x : Fin n → K) : ∀ i < n, Ext.subLt ((sortAsc x).reverse.getD i 0)
      (Ext.div ((∑ i, x i) - s + ((i : K) + 1 - cumsum (sortAsc x).reverse i)) ((n : K) - i - 1)) 1
      = (Ext.div ((∑ i, (1 - x i)) - ((n : K) - s) - cumsum (sortAsc fun i => 1 - x i) i)
          ((n : K) - i - 1)).ltFin ((sortAsc fun i => 1 - x i).getD i 0) := by
  have hlen : (sortAsc x).reverse.length = n := by rw [List.length_reverse, sortAsc_length]
  have hS : ∑ i, (1 - x i) = (n : K) - ∑ i, x i := by
    rw [Finset.sum_sub_distrib]; simp
  intro i hi
  have hg : (sortAsc fun i => 1 - x i).getD i 0 = 1 - (sortAsc x).reverse.getD i 0 := by
    rw [sortAsc_compl, List.getD_eq_getElem _ _ (by rw [List.length_map, hlen]; exact hi),
      List.getD_eq_getElem _ _ (by rw [hlen]; exact hi), List.getElem_map]
  have hc : cumsum (sortAsc fun i => 1 - x i) i
      = ((i : K) + 1) - cumsum (sortAsc x).reverse i := by
    unfold cumsum
    rw [sortAsc_compl, take_compl_sum _ _ (by rw [hlen]; omega)]
    push_cast; ring
  rw [hg, hc, hS]
  set y := (sortAsc x).reverse.getD i 0
  set c := cumsum (sortAsc x).reverse i
  set S := ∑ i, x i
  have hnum : (n : K) - S - ((n : K) - s) - ((i : K) + 1 - c) = -(S - s + ((i : K) + 1 - c)) := by
    ring
  rw [hnum]
  set a := S - s + ((i : K) + 1 - c)
  unfold Ext.div
  by_cases hz : (n : K) - i - 1 = 0
  · rw [if_pos hz, if_pos hz]
    rcases lt_trichotomy a 0 with h | h | h
    · rw [if_neg (by linarith), if_pos h, if_pos (by linarith)]; rfl
    · rw [h]; simp [Ext.subLt, Ext.ltFin]
    · rw [if_pos h, if_neg (by linarith), if_pos (by linarith)]; rfl
  · rw [if_neg hz, if_neg hz]
    simp only [Ext.subLt, Ext.ltFin]
    rw [neg_div, decide_eq_decide]
    constructor <;> intro h <;> linarith

/-- Duality: `pushup` is `pushdown` of the complement. -/
theorem pushup_eq_compl {n : ℕ} (s : K) (x : Fin n → K) :
    pushup s x = fun i => 1 - pushdown ((n : K) - s) (fun i => 1 - x i) i := by
  have hlen : (sortAsc x).reverse.length = n := by rw [List.length_reverse, sortAsc_length]
  have hS : ∑ i, (1 - x i) = (n : K) - ∑ i, x i := by
    rw [Finset.sum_sub_distrib]; simp
  have htest := upTest_eq s x
  have hk := argmaxBool_congr n _ _ htest
  funext i
  unfold pushup pushdown
  simp only
  rw [← hk]
  set k := argmaxBool n (fun i => Ext.subLt ((sortAsc x).reverse.getD i 0)
      (Ext.div ((∑ i, x i) - s + ((i : K) + 1 - cumsum (sortAsc x).reverse i)) ((n : K) - i - 1)) 1)
    with hkdef
  have hkn : k = 0 ∨ k < n := by
    by_cases h : ∃ i < n, Ext.subLt ((sortAsc x).reverse.getD i 0)
      (Ext.div ((∑ i, x i) - s + ((i : K) + 1 - cumsum (sortAsc x).reverse i)) ((n : K) - i - 1)) 1 = true
    · right; exact (argmaxBool_spec n _ h).1
    · left
      apply argmaxBool_none
      push Not at h
      intro i hi
      simpa using h i hi
  have hlam : (if k = 0 then (s - ∑ i, x i) / (n : K)
      else (s - (∑ i, x i) - ((k : K) - cumsum (sortAsc x).reverse (k - 1))) / ((n : K) - k))
      = (if k = 0 then ((∑ i, (1 - x i)) - ((n : K) - s)) / n
        else ((∑ i, (1 - x i)) - ((n : K) - s) - cumsum (sortAsc fun i => 1 - x i) (k - 1))
          / ((n : K) - k)) := by
    rw [hS]
    by_cases h0 : k = 0
    · rw [if_pos h0, if_pos h0]; congr 1; ring
    · rw [if_neg h0, if_neg h0]
      have hlt : k < n := hkn.resolve_left h0
      congr 1
      unfold cumsum
      rw [sortAsc_compl, take_compl_sum _ _ (by rw [hlen]; omega), show k - 1 + 1 = k by omega]
      ring
  rw [hlam]
  set lam := (if k = 0 then ((∑ i, (1 - x i)) - ((n : K) - s)) / (n : K)
        else ((∑ i, (1 - x i)) - ((n : K) - s) - cumsum (sortAsc fun i => 1 - x i) (k - 1))
          / ((n : K) - k))
  rcases le_total (x i + lam) 1 with h | h
  · rw [min_eq_left h, max_eq_left (by linarith)]; ring
  · rw [min_eq_right h, max_eq_right (by linarith)]; ring

end Jrystal
