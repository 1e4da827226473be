import Verif.Lemmas.Proj
import Mathlib.Algebra.Order.Ring.Rat
import Mathlib.Algebra.Order.BigOperators.Ring.Finset
import Mathlib.Tactic.NormNum
import Mathlib.Tactic.Positivity
import Mathlib.Tactic.FinCases

/- C17: the occupation projector. -/
namespace Jrystal
open scoped BigOperators
variable {K : Type*} [Field K] [LinearOrder K] [IsStrictOrderedRing K]

omit [IsStrictOrderedRing K] in
private theorem mem_sortAsc [IsStrictOrderedRing K] {n : ℕ} (x : Fin n → K) (a : K) :
    a ∈ sortAsc x ↔ ∃ i, x i = a := by
  rw [(sortAsc_perm x).mem_iff, List.mem_ofFn]

private theorem clip_nearest {n : ℕ} (s lam : K) (x : Fin n → K) (hlam : 0 ≤ lam)
    (hx : ∀ i, 0 ≤ x i ∧ x i ≤ 1) (hsum : ∑ i, max (x i - lam) 0 = s) :
    Spec.IsNearest s x (fun i => max (x i - lam) 0) := by
  refine ⟨⟨fun i => ⟨le_max_right _ _, max_le (by linarith [(hx i).2]) zero_le_one⟩, hsum⟩, ?_⟩
  intro z hz hne
  unfold Spec.dist2
  set y : Fin n → K := fun i => max (x i - lam) 0 with hy
  have hdiff : ∑ i, (x i - z i) ^ 2 - ∑ i, (x i - y i) ^ 2
      = ∑ i, (z i - y i) ^ 2 + 2 * ∑ i, (z i - y i) * (y i - x i + lam)
        - 2 * lam * (∑ i, z i - ∑ i, y i) := by
    rw [Finset.mul_sum, ← Finset.sum_sub_distrib, ← Finset.sum_sub_distrib, Finset.mul_sum,
      ← Finset.sum_add_distrib, ← Finset.sum_sub_distrib]
    refine Finset.sum_congr rfl fun i _ => by ring
  have h1 : ∑ i, z i - ∑ i, y i = 0 := by rw [hz.2, hsum, sub_self]
  have h2 : 0 ≤ ∑ i, (z i - y i) * (y i - x i + lam) := by
    refine Finset.sum_nonneg fun i _ => ?_
    rcases le_total (x i) lam with h | h
    · have : y i = 0 := max_eq_right (by linarith)
      rw [this]
      have := (hz.1 i).1
      apply mul_nonneg <;> linarith
    · have : y i = x i - lam := max_eq_left (by linarith)
      rw [this]; ring_nf; exact le_refl _
  have h3 : 0 < ∑ i, (z i - y i) ^ 2 := by
    obtain ⟨i, hi⟩ := Function.ne_iff.1 hne
    refine Finset.sum_pos' (fun i _ => sq_nonneg _) ⟨i, Finset.mem_univ i, ?_⟩
    have : z i - y i ≠ 0 := sub_ne_zero.2 hi
    positivity
  rw [h1, mul_zero, sub_zero] at hdiff
  linarith

private theorem pushdown_nearest {n : ℕ} (hn : 0 < n) (s : K) (x : Fin n → K) (hs : 0 < s)
    (hx : ∀ i, 0 ≤ x i ∧ x i ≤ 1) (hS : s ≤ ∑ i, x i) : Spec.IsNearest s x (pushdown s x) := by
  have hlen := sortAsc_length x
  obtain ⟨hk, htake, hdrop, hsum⟩ := down_core (sortAsc x) (sortAsc_sorted x) s hs (by omega)
  rw [pushdown_eq]
  set k := argmaxBool (sortAsc x).length (downTest (sortAsc x) s)
  set lam := lamk (sortAsc x) s k with hlamdef
  apply clip_nearest s lam x _ hx
  · have := sum_map_sortAsc x (fun a => max (a - lam) 0)
    rw [← this]; exact hsum
  · rcases Nat.eq_zero_or_pos k with h0 | h0
    · rw [hlamdef, h0]
      unfold lamk
      rw [sum_sortAsc, hlen]
      simp only [List.take_zero, List.sum_nil, sub_zero, Nat.cast_zero]
      apply div_nonneg <;> [linarith; exact Nat.cast_nonneg _]
    · have hmem : (sortAsc x)[0] ∈ (sortAsc x).take k := by
        rw [List.mem_take_iff_getElem]
        exact ⟨0, by omega, rfl⟩
      have h1 := htake _ hmem
      obtain ⟨i, hi⟩ := (mem_sortAsc x _).1 (List.getElem_mem (by omega : 0 < (sortAsc x).length))
      rw [← hi] at h1
      linarith [(hx i).1]

private theorem nearest_compl {n : ℕ} (s : K) (x y : Fin n → K)
    (h : Spec.IsNearest ((n : K) - s) (fun i => 1 - x i) y) :
    Spec.IsNearest s x (fun i => 1 - y i) := by
  have hadm : ∀ (t : K) (z : Fin n → K), Spec.Admissible t z →
      Spec.Admissible ((n : K) - t) (fun i => 1 - z i) := by
    intro t z hz
    refine ⟨fun i => ⟨by linarith [(hz.1 i).2], by linarith [(hz.1 i).1]⟩, ?_⟩
    rw [Finset.sum_sub_distrib, hz.2]; simp
  refine ⟨by simpa using hadm _ _ h.1, fun z hz hne => ?_⟩
  have := h.2 (fun i => 1 - z i) (hadm _ _ hz) (fun he => hne (by
    funext i
    have := congrFun he i
    linarith))
  unfold Spec.dist2 at *
  have e1 : ∑ i, (1 - x i - y i) ^ 2 = ∑ i, (x i - (1 - y i)) ^ 2 :=
    Finset.sum_congr rfl fun i _ => by ring
  have e2 : ∑ i, (1 - x i - (1 - z i)) ^ 2 = ∑ i, (x i - z i) ^ 2 :=
    Finset.sum_congr rfl fun i _ => by ring
  rw [e1, e2] at this
  exact this

/-- C17 (part): for every `x ∈ [0,1]^n` and every target strictly between 0 and n the projector
returns the unique nearest admissible vector.  Missing: the end points `s = 0` and `s = n`, where
the claim is false for every non-constant `x` (`proj_zero_iff`, `proj_full_iff`). -/
theorem proj_nearest_partial {n : ℕ} (x : Fin n → K) (s : K) (hx : ∀ i, 0 ≤ x i ∧ x i ≤ 1)
    (h0 : 0 < s) (hn : s < n) : Spec.IsNearest s x (proj x s) := by
  have hnpos : 0 < n := by
    rcases Nat.eq_zero_or_pos n with h | h
    · subst h; simp at hn; exact absurd (h0.trans hn) (lt_irrefl _)
    · exact h
  unfold proj
  split_ifs with h
  · rw [pushup_eq_compl]
    apply nearest_compl
    apply pushdown_nearest hnpos _ _ (by linarith) (fun i => ⟨by linarith [(hx i).2], by linarith [(hx i).1]⟩)
    rw [Finset.sum_sub_distrib]; simp; linarith
  · exact pushdown_nearest hnpos s x h0 hx (not_le.1 h).le

private theorem pushdown_zero {n : ℕ} (x : Fin n → K) :
    pushdown 0 x = fun i => max (x i - (∑ i, x i) / n) 0 := by
  have hlen := sortAsc_length x
  have hk : argmaxBool (sortAsc x).length (downTest (sortAsc x) 0) = 0 := by
    apply argmaxBool_none
    intro i hi
    by_contra hne
    have ht : downTest (sortAsc x) 0 i = true := by simpa using hne
    rcases Nat.lt_or_ge (i + 1) (sortAsc x).length with h | h
    · rw [downTest_inner _ _ _ h] at ht
      -- the mean of the entries after position i is at least the entry at i
      have hge : ((sortAsc x).length - (i + 1) : ℕ) * (sortAsc x).getD i 0
          ≤ ((sortAsc x).drop (i + 1)).sum := by
        have : ∀ m : List K, (∀ a ∈ m, (sortAsc x).getD i 0 ≤ a) →
            (m.length : K) * (sortAsc x).getD i 0 ≤ m.sum := by
          intro m
          induction m with
          | nil => simp
          | cons a m ih =>
            intro hm
            rw [List.length_cons, List.sum_cons]
            push_cast
            have h1 := ih (fun b hb => hm b (List.mem_cons_of_mem _ hb))
            have h2 := hm a List.mem_cons_self
            linarith
        have hd := this ((sortAsc x).drop (i + 1)) (fun a ha => by
          obtain ⟨j, hj, hjl, rfl⟩ := mem_drop_getD _ _ _ ha
          exact getD_mono _ (sortAsc_sorted x) (by omega) hjl)
        rwa [List.length_drop] at hd
      unfold lamk at ht
      have hpos : (0 : K) < (sortAsc x).length - (i + 1 : ℕ) := by
        have : ((i + 1 : ℕ) : K) < (sortAsc x).length := by exact_mod_cast h
        linarith
      rw [div_lt_iff₀ hpos] at ht
      rw [Nat.cast_sub h.le] at hge
      have hsplit : (sortAsc x).sum = ((sortAsc x).take (i + 1)).sum + ((sortAsc x).drop (i + 1)).sum := by
        rw [← List.sum_append, List.take_append_drop]
      rw [hsplit] at ht
      rw [mul_comm] at ht
      linarith
    · have := (downTest_last (sortAsc x) 0 i (by omega)).1 ht
      exact lt_irrefl _ this
  rw [pushdown_eq, hk]
  unfold lamk
  rw [sum_sortAsc, hlen]
  simp

private theorem pushdown_zero_iff {n : ℕ} (hn : 0 < n) (x : Fin n → K) :
    ∑ i, pushdown 0 x i = 0 ↔ ∀ i j, x i = x j := by
  rw [pushdown_zero]
  have hnK : (0 : K) < n := by exact_mod_cast hn
  rw [Finset.sum_eq_zero_iff_of_nonneg (fun i _ => le_max_right _ _)]
  constructor
  · intro h
    have hle : ∀ i, x i ≤ (∑ i, x i) / n := fun i => by
      have := h i (Finset.mem_univ i)
      rw [max_eq_right_iff] at this
      linarith
    have hsum : ∑ i, ((∑ i, x i) / n - x i) = 0 := by
      rw [Finset.sum_sub_distrib]
      simp only [Finset.sum_const, Finset.card_univ, Fintype.card_fin, nsmul_eq_mul]
      field_simp; ring
    rw [Finset.sum_eq_zero_iff_of_nonneg (fun i _ => by linarith [hle i])] at hsum
    intro i j
    have h1 := hsum i (Finset.mem_univ i)
    have h2 := hsum j (Finset.mem_univ j)
    linarith
  · intro h i _
    have : ∑ j, x j = n * x i := by
      rw [Finset.sum_congr rfl (fun j _ => h j i)]; simp
    rw [this, mul_div_cancel_left₀ _ hnK.ne']; simp

/-- C17 at `s = 0`: the result is admissible exactly when all entries are equal. -/
theorem proj_zero_iff {n : ℕ} (hn : 0 < n) (x : Fin n → K) (hx : ∀ i, 0 ≤ x i ∧ x i ≤ 1) :
    Spec.Admissible 0 (proj x 0) ↔ ∀ i j, x i = x j := by
  have hnK : (0 : K) < n := by exact_mod_cast hn
  unfold proj
  split_ifs with h
  · have hz : ∀ i, x i = 0 := fun i =>
      (Finset.sum_eq_zero_iff_of_nonneg (fun i _ => (hx i).1)).1
        (le_antisymm h (Finset.sum_nonneg fun i _ => (hx i).1)) i (Finset.mem_univ i)
    refine ⟨fun _ i j => by rw [hz i, hz j], fun _ => ?_⟩
    have := proj_nearest_pushup hn x 0 hx hnK h
    exact this.1
  · rw [← pushdown_zero_iff hn x]
    refine ⟨fun ha => ha.2, fun hs => ⟨fun i => ?_, hs⟩⟩
    have h0 : pushdown 0 x i = 0 := by
      refine (Finset.sum_eq_zero_iff_of_nonneg (fun i _ => ?_)).1 hs i (Finset.mem_univ i)
      rw [pushdown_zero]; exact le_max_right _ _
    rw [h0]; exact ⟨le_refl _, zero_le_one⟩
where
  proj_nearest_pushup {n : ℕ} (hn : 0 < n) (x : Fin n → K) (s : K)
      (hx : ∀ i, 0 ≤ x i ∧ x i ≤ 1) (hs : s < n) (h : ∑ i, x i ≤ s) :
      Spec.IsNearest s x (pushup s x) := by
    rw [pushup_eq_compl]
    apply nearest_compl
    apply pushdown_nearest hn _ _ (by linarith)
      (fun i => ⟨by linarith [(hx i).2], by linarith [(hx i).1]⟩)
    rw [Finset.sum_sub_distrib]; simp; linarith

/-- C17 at `s = n`: the result is admissible exactly when all entries are equal. -/
theorem proj_full_iff {n : ℕ} (hn : 0 < n) (x : Fin n → K) (hx : ∀ i, 0 ≤ x i ∧ x i ≤ 1) :
    Spec.Admissible (n : K) (proj x n) ↔ ∀ i j, x i = x j := by
  have hle : ∑ i, x i ≤ (n : K) := by
    calc ∑ i, x i ≤ ∑ _i : Fin n, (1 : K) := Finset.sum_le_sum fun i _ => (hx i).2
      _ = n := by simp
  unfold proj
  rw [if_pos hle, pushup_eq_compl, sub_self]
  have key := pushdown_zero_iff hn (fun i => 1 - x i)
  have e : (∀ i j, (fun i => 1 - x i) i = (fun i => 1 - x i) j) ↔ ∀ i j, x i = x j := by
    refine forall_congr' fun i => forall_congr' fun j => ?_
    constructor <;> intro h
    · have := h; simp only at this; linarith
    · simp only [h]
  rw [e] at key
  rw [← key]
  constructor
  · intro ha
    have := ha.2
    rw [Finset.sum_sub_distrib] at this
    simp at this
    exact this
  · intro hs
    have h0 : ∀ i, pushdown 0 (fun i => 1 - x i) i = 0 := fun i => by
      refine (Finset.sum_eq_zero_iff_of_nonneg (fun i _ => ?_)).1 hs i (Finset.mem_univ i)
      rw [pushdown_zero]; exact le_max_right _ _
    refine ⟨fun i => by beta_reduce; rw [h0]; simp, ?_⟩
    simp [h0]

/-- C17 at `s = 0`: the total is 0 exactly when all entries are equal. -/
theorem proj_zero_sum_iff {n : ℕ} (hn : 0 < n) (x : Fin n → K) (hx : ∀ i, 0 ≤ x i ∧ x i ≤ 1) :
    ∑ i, proj x 0 i = 0 ↔ ∀ i j, x i = x j := by
  rw [← proj_zero_iff hn x hx]
  refine ⟨fun h => ?_, fun h => h.2⟩
  by_cases hS : ∑ i, x i ≤ 0
  · have hz : ∀ i, x i = 0 := fun i =>
      (Finset.sum_eq_zero_iff_of_nonneg (fun i _ => (hx i).1)).1
        (le_antisymm hS (Finset.sum_nonneg fun i _ => (hx i).1)) i (Finset.mem_univ i)
    exact (proj_zero_iff hn x hx).2 fun i j => by rw [hz i, hz j]
  · have he : proj x 0 = pushdown 0 x := by unfold proj; rw [if_neg hS]
    rw [he] at h
    exact (proj_zero_iff hn x hx).2 ((pushdown_zero_iff hn x).1 h)

/-- C17 at `s = n`: the total is `n` exactly when all entries are equal. -/
theorem proj_full_sum_iff {n : ℕ} (hn : 0 < n) (x : Fin n → K) (hx : ∀ i, 0 ≤ x i ∧ x i ≤ 1) :
    ∑ i, proj x (n : K) i = n ↔ ∀ i j, x i = x j := by
  rw [← proj_full_iff hn x hx]
  refine ⟨fun h => ?_, fun h => h.2⟩
  have hle : ∑ i, x i ≤ (n : K) := by
    calc ∑ i, x i ≤ ∑ _i : Fin n, (1 : K) := Finset.sum_le_sum fun i _ => (hx i).2
      _ = n := by simp
  have he : proj x (n : K) = fun i => 1 - pushdown 0 (fun i => 1 - x i) i := by
    unfold proj; rw [if_pos hle, pushup_eq_compl, sub_self]
  rw [he, Finset.sum_sub_distrib] at h
  have h0 : ∑ i, pushdown 0 (fun i => 1 - x i) i = 0 := by simpa using h
  have hc := (pushdown_zero_iff hn _).1 h0
  exact (proj_full_iff hn x hx).2 fun i j => by have := hc i j; linarith

/-- C17 is false at the end points: two unequal entries and `s = 0` (no electron in that channel)
give a vector with positive sum. -/
theorem proj_endpoint_counterexample :
    ¬ ∀ (n : ℕ) (x : Fin n → ℚ) (s : ℚ), 0 < n → (∀ i, 0 ≤ x i ∧ x i ≤ 1) → 0 ≤ s → s ≤ n →
      Spec.Admissible s (proj x s) := by
  intro h
  have hx : ∀ i, 0 ≤ (![1/2, 1/4] : Fin 2 → ℚ) i ∧ (![1/2, 1/4] : Fin 2 → ℚ) i ≤ 1 := by
    intro i; fin_cases i <;> norm_num
  have := (proj_zero_iff (by norm_num) (![1/2, 1/4] : Fin 2 → ℚ) hx).1
    (h 2 ![1/2, 1/4] 0 (by norm_num) hx (le_refl _) (by norm_num)) 0 1
  norm_num at this

/-- Witness: a vector that needs clipping meets the hypotheses of `proj_nearest_partial`. -/
example : Spec.IsNearest (1/2 : ℚ) ![9/10, 1/10, 3/5] (proj ![9/10, 1/10, 3/5] (1/2)) :=
  proj_nearest_partial _ _ (by intro i; fin_cases i <;> norm_num) (by norm_num) (by norm_num)

end Jrystal
