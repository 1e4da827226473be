import Verif.Model.ProjGrad
import Verif.Lemmas.Proj
import Mathlib.Data.Real.Basic
import Mathlib.Algebra.Order.BigOperators.Ring.Finset
import Mathlib.Tactic.Positivity

/- Helper lemmas for C121: the projector as a clipping, and its derivative. -/
namespace Jrystal
open scoped BigOperators

/-- The nearest number of `[0, 1]`. -/
noncomputable def clip01 (t : ℝ) : ℝ := max (min t 1) 0

theorem clip01_low {t : ℝ} (h : t ≤ 0) : clip01 t = 0 :=
  max_eq_right (le_trans (min_le_left _ _) h)

theorem clip01_high {t : ℝ} (h : 1 ≤ t) : clip01 t = 1 := by
  unfold clip01
  rw [min_eq_right h, max_eq_left zero_le_one]

theorem clip01_mid {t : ℝ} (h0 : 0 ≤ t) (h1 : t ≤ 1) : clip01 t = t := by
  unfold clip01
  rw [min_eq_left h1, max_eq_left h0]

theorem clip01_mem (t : ℝ) : 0 ≤ clip01 t ∧ clip01 t ≤ 1 :=
  ⟨le_max_right _ _, max_le (min_le_right _ _) zero_le_one⟩

theorem clip01_mono {a b : ℝ} (h : a ≤ b) : clip01 a ≤ clip01 b :=
  max_le_max (min_le_min h le_rfl) le_rfl

theorem clip01_diff {a b : ℝ} (h : a ≤ b) : clip01 b - clip01 a ≤ b - a := by
  unfold clip01
  rcases le_total a 1 with h1 | h1 <;> rcases le_total b 1 with h2 | h2 <;>
    rcases le_total a 0 with h3 | h3 <;> rcases le_total b 0 with h4 | h4 <;>
    simp only [min_eq_left, min_eq_right, max_eq_left, max_eq_right, h1, h2, h3, h4, zero_le_one] <;> linarith

/-- Clipping a common shift gives the nearest admissible vector. -/
theorem clip01_nearest {n : ℕ} (s lam : ℝ) (x : Fin n → ℝ) (hsum : ∑ i, clip01 (x i - lam) = s) :
    Spec.IsNearest s x (fun i => clip01 (x i - lam)) := by
  refine ⟨⟨fun i => clip01_mem _, hsum⟩, ?_⟩
  intro z hz hne
  unfold Spec.dist2
  set y : Fin n → ℝ := fun i => clip01 (x i - lam) with hy
  have hdiff : ∑ i, (x i - z i) ^ 2 - ∑ i, (x i - y i) ^ 2
      = ∑ i, (z i - y i) ^ 2 + 2 * ∑ i, (z i - y i) * (y i - x i + lam)
        - 2 * lam * (∑ i, z i - ∑ i, y i) := by
    rw [Finset.mul_sum, ← Finset.sum_sub_distrib, ← Finset.sum_sub_distrib, Finset.mul_sum,
      ← Finset.sum_add_distrib, ← Finset.sum_sub_distrib]
    refine Finset.sum_congr rfl fun i _ => by ring
  have h1 : ∑ i, z i - ∑ i, y i = 0 := by rw [hz.2, hsum, sub_self]
  have h2 : 0 ≤ ∑ i, (z i - y i) * (y i - x i + lam) := by
    refine Finset.sum_nonneg fun i _ => ?_
    rcases le_total (x i - lam) 0 with h | h
    · have : y i = 0 := clip01_low h
      rw [this]
      have := (hz.1 i).1
      apply mul_nonneg <;> linarith
    · rcases le_total (x i - lam) 1 with h' | h'
      · have : y i = x i - lam := clip01_mid h h'
        rw [this]; ring_nf; exact le_refl _
      · have : y i = 1 := clip01_high h'
        rw [this]
        have := (hz.1 i).2
        apply mul_nonneg_of_nonpos_of_nonpos <;> linarith
  have h3 : 0 < ∑ i, (z i - y i) ^ 2 := by
    obtain ⟨i, hi⟩ := Function.ne_iff.1 hne
    refine Finset.sum_pos' (fun i _ => sq_nonneg _) ⟨i, Finset.mem_univ i, ?_⟩
    have : z i - y i ≠ 0 := sub_ne_zero.2 hi
    positivity
  rw [h1, mul_zero, sub_zero] at hdiff
  linarith

theorem nearest_unique {n : ℕ} {s : ℝ} {x y z : Fin n → ℝ} (hy : Spec.IsNearest s x y)
    (hz : Spec.IsNearest s x z) : y = z := by
  by_contra h
  have h1 := hy.2 z hz.1 (Ne.symm h)
  have h2 := hz.2 y hy.1 h
  linarith

/-- A sum over the first `k` entries, when exactly these satisfy a condition. -/
theorem take_sum_if {α : Type*} (l : List α) (k : ℕ) (q : α → Prop) [DecidablePred q] (f : α → ℝ)
    (h1 : ∀ a ∈ l.take k, q a) (h2 : ∀ a ∈ l.drop k, ¬ q a) :
    ((l.take k).map f).sum = (l.map fun a => if q a then f a else 0).sum := by
  have hs : l.map (fun a => if q a then f a else 0) = (l.take k).map (fun a => if q a then f a else 0)
      ++ (l.drop k).map (fun a => if q a then f a else 0) := by
    rw [← List.map_append, List.take_append_drop]
  rw [hs, List.sum_append]
  have e1 : (l.take k).map (fun a => if q a then f a else 0) = (l.take k).map f :=
    List.map_congr_left fun a ha => if_pos (h1 a ha)
  have e2 : (l.drop k).map (fun a => if q a then f a else 0) = (l.drop k).map (fun _ => (0 : ℝ)) :=
    List.map_congr_left fun a ha => if_neg (h2 a ha)
  rw [e1, e2]
  simp

theorem sortPairs_perm {n : ℕ} (x v : Fin n → ℝ) :
    (sortPairs x v).Perm (List.ofFn fun i => (x i, v i)) := List.mergeSort_perm _ _

theorem sortPairs_fst {n : ℕ} (x v : Fin n → ℝ) : (sortPairs x v).map Prod.fst = sortAsc x := by
  have hp : ((sortPairs x v).map Prod.fst).Perm (sortAsc x) := by
    refine ((sortPairs_perm x v).map _).trans ?_
    rw [List.map_ofFn]
    exact (sortAsc_perm x).symm
  refine hp.eq_of_pairwise (le := (· ≤ ·)) (fun a b _ _ h1 h2 => le_antisymm h1 h2) ?_ (sortAsc_sorted _)
  rw [List.pairwise_map]
  have := List.pairwise_mergeSort (le := fun a b : ℝ × ℝ => decide (a.1 ≤ b.1))
    (by intro a b c; simp; exact le_trans) (by intro a b; simp; exact le_total a.1 b.1)
    (List.ofFn fun i => (x i, v i))
  simpa [sortPairs] using this

theorem sum_map_sortPairs {n : ℕ} (x v : Fin n → ℝ) (f : ℝ × ℝ → ℝ) :
    ((sortPairs x v).map f).sum = ∑ i, f (x i, v i) := by
  rw [((sortPairs_perm x v).map f).sum_eq, List.map_ofFn, List.sum_ofFn]; rfl

/-- Mean of `v` over a set of positions. -/
noncomputable def meanOn {n : ℕ} (A : Finset (Fin n)) (v : Fin n → ℝ) : ℝ := (∑ i ∈ A, v i) / A.card

/-- `pushdown` and its derivative in closed form. -/
theorem pushdown_closed {n : ℕ} (hn : 0 < n) (s : ℝ) (hs : 0 < s) (x : Fin n → ℝ) :
    ∃ lam, pushdown s x = (fun i => max (x i - lam) 0) ∧ ∑ i, max (x i - lam) 0 = s ∧
      ∀ v, pushdownJvp s x v = fun i => maxTangent (x i - lam) 0
        (v i - meanOn (Finset.univ.filter fun j => lam < x j) v) 0 := by
  have hlen := sortAsc_length x
  obtain ⟨hk, htake, hdrop, hsum⟩ := down_core (sortAsc x) (sortAsc_sorted x) s hs (by omega)
  have heq := pushdown_eq s x
  set k := argmaxBool (sortAsc x).length (downTest (sortAsc x) s) with hkdef
  set lam := lamk (sortAsc x) s k with hlamdef
  have hsum' : ∑ i, max (x i - lam) 0 = s := by
    rw [← sum_map_sortAsc x (fun a => max (a - lam) 0)]; exact hsum
  refine ⟨lam, heq, hsum', fun v => ?_⟩
  have htest : (fun i => (Ext.div ((∑ i, x i) - s - cumsum (sortAsc x) i) ((n : ℝ) - i - 1)).ltFin
      ((sortAsc x).getD i 0)) = downTest (sortAsc x) s := by
    funext i
    unfold downTest
    rw [hlen, sum_sortAsc]
  have hkn : argmaxBool n (downTest (sortAsc x) s) = k := by rw [hkdef, hlen]
  have hlam : (if k = 0 then ((∑ i, x i) - s) / (n : ℝ)
      else ((∑ i, x i) - s - cumsum (sortAsc x) (k - 1)) / ((n : ℝ) - k)) = lam := by
    rw [hlamdef]
    unfold lamk
    rw [sum_sortAsc, hlen]
    split_ifs with h
    · rw [h]; simp
    · unfold cumsum
      rw [show k - 1 + 1 = k by omega]
  have ht : ∀ p ∈ (sortPairs x v).take k, p.1 ≤ lam := fun p hp => htake p.1 (by
    rw [← sortPairs_fst x v, ← List.map_take]
    exact List.mem_map_of_mem hp)
  have hd : ∀ p ∈ (sortPairs x v).drop k, ¬ p.1 ≤ lam := fun p hp => not_le.2 (hdrop p.1 (by
    rw [← sortPairs_fst x v, ← List.map_drop]
    exact List.mem_map_of_mem hp))
  have hcnt : (n : ℝ) - k = ((Finset.univ.filter fun j => lam < x j).card : ℝ) := by
    have h1 := take_sum_if (sortPairs x v) k (fun p => p.1 ≤ lam) (fun _ => 1) ht hd
    rw [sum_map_sortPairs] at h1
    have hl : (sortPairs x v).length = n := by rw [(sortPairs_perm x v).length_eq, List.length_ofFn]
    simp only [List.map_const', List.sum_replicate, List.length_take, hl, nsmul_eq_mul, mul_one] at h1
    rw [min_eq_left (by omega)] at h1
    rw [h1, Finset.card_filter]
    push_cast
    rw [eq_comm, eq_sub_iff_add_eq, ← Finset.sum_add_distrib]
    rw [Finset.sum_congr rfl (fun i _ => show ((if lam < x i then (1 : ℝ) else 0)
      + if x i ≤ lam then (1 : ℝ) else 0) = 1 by
        by_cases h : x i ≤ lam
        · rw [if_neg (not_lt.2 h), if_pos h, zero_add]
        · rw [if_pos (not_le.1 h), if_neg h, add_zero])]
    simp
  have hdl : (if k = 0 then (∑ i, v i) / (n : ℝ)
      else ((∑ i, v i) - cumsum ((sortPairs x v).map Prod.snd) (k - 1)) / ((n : ℝ) - k))
      = meanOn (Finset.univ.filter fun j => lam < x j) v := by
    have h1 := take_sum_if (sortPairs x v) k (fun p => p.1 ≤ lam) Prod.snd ht hd
    rw [sum_map_sortPairs, List.map_take] at h1
    have h2 : (∑ i, v i) - (((sortPairs x v).map Prod.snd).take k).sum
        = ∑ i ∈ Finset.univ.filter (fun j => lam < x j), v i := by
      rw [h1, Finset.sum_filter, ← Finset.sum_sub_distrib]
      refine Finset.sum_congr rfl fun i _ => ?_
      by_cases h : x i ≤ lam
      · rw [if_neg (not_lt.2 h), if_pos h, sub_self]
      · rw [if_pos (not_le.1 h), if_neg h, sub_zero]
    unfold meanOn
    rw [← hcnt, ← h2]
    split_ifs with h
    · rw [h]; simp
    · unfold cumsum
      rw [show k - 1 + 1 = k by omega]
  funext i
  unfold pushdownJvp
  simp only [htest, hkn, hlam, hdl]

/-- `pushup` and its derivative in closed form. -/
theorem pushup_closed {n : ℕ} (hn : 0 < n) (s : ℝ) (hs : s < n) (x : Fin n → ℝ) :
    ∃ lam, pushup s x = (fun i => min (x i + lam) 1) ∧ ∑ i, min (x i + lam) 1 = s ∧
      ∀ v, pushupJvp s x v = fun i => minTangent (x i + lam) 1
        (v i - meanOn (Finset.univ.filter fun j => x j + lam < 1) v) 0 := by
  have hlen := sortAsc_length (fun i => 1 - x i)
  have hlenx := sortAsc_length x
  obtain ⟨hk, htake, hdrop, hsum⟩ := down_core (sortAsc fun i => 1 - x i) (sortAsc_sorted _) ((n : ℝ) - s)
    (by linarith) (by omega)
  have hdown := pushdown_eq ((n : ℝ) - s) (fun i => 1 - x i)
  set k := argmaxBool (sortAsc fun i => 1 - x i).length (downTest (sortAsc fun i => 1 - x i) ((n : ℝ) - s))
    with hkdef
  set lam := lamk (sortAsc fun i => 1 - x i) ((n : ℝ) - s) k with hlamdef
  have hflip : ∀ t : ℝ, 1 - max (1 - t - lam) 0 = min (t + lam) 1 := by
    intro t
    rcases le_total (t + lam) 1 with h | h
    · rw [min_eq_left h, max_eq_left (by linarith)]; ring
    · rw [min_eq_right h, max_eq_right (by linarith)]; ring
  have hsum' : ∑ i, min (x i + lam) 1 = s := by
    have h1 : ∑ i, max (1 - x i - lam) 0 = (n : ℝ) - s := by
      rw [← sum_map_sortAsc (fun i => 1 - x i) (fun a => max (a - lam) 0)]; exact hsum
    rw [Finset.sum_congr rfl (fun i _ => (hflip (x i)).symm), Finset.sum_sub_distrib, h1]
    simp
  refine ⟨lam, ?_, hsum', fun v => ?_⟩
  · rw [pushup_eq_compl, hdown]
    funext i
    exact hflip (x i)
  have htest : (fun i => (Ext.div ((∑ i, (1 - x i)) - ((n : ℝ) - s) - cumsum (sortAsc fun i => 1 - x i) i)
      ((n : ℝ) - i - 1)).ltFin ((sortAsc fun i => 1 - x i).getD i 0))
      = downTest (sortAsc fun i => 1 - x i) ((n : ℝ) - s) := by
    funext i
    unfold downTest
    rw [hlen, sum_sortAsc]
  have hkn : argmaxBool n (fun i => Ext.subLt ((sortAsc x).reverse.getD i 0)
      (Ext.div ((∑ i, x i) - s + ((i : ℝ) + 1 - cumsum (sortAsc x).reverse i)) ((n : ℝ) - i - 1)) 1) = k := by
    rw [argmaxBool_congr n _ _ (upTest_eq s x), htest, hkdef, hlen]
  have hS : ∑ i, (1 - x i) = (n : ℝ) - ∑ i, x i := by
    rw [Finset.sum_sub_distrib]; simp
  have hlam : (if k = 0 then (s - ∑ i, x i) / (n : ℝ)
      else (s - (∑ i, x i) - ((k : ℝ) - cumsum (sortAsc x).reverse (k - 1))) / ((n : ℝ) - k)) = lam := by
    rw [hlamdef]
    unfold lamk
    rw [sum_sortAsc, hlen, hS]
    split_ifs with h
    · rw [h]; simp
    · unfold cumsum
      rw [show k - 1 + 1 = k by omega, sortAsc_compl, take_compl_sum _ _ (by simp; omega)]
      congr 1
      ring
  have hfst : (sortPairs x v).reverse.map (fun p => 1 - p.1) = sortAsc fun i => 1 - x i := by
    rw [sortAsc_compl, ← sortPairs_fst x v, List.map_reverse, ← List.map_reverse, List.map_reverse,
      ← List.map_reverse, ← List.map_reverse, List.map_map]
    rfl
  have ht : ∀ p ∈ (sortPairs x v).reverse.take k, 1 - p.1 ≤ lam := fun p hp => htake (1 - p.1) (by
    rw [← hfst, ← List.map_take]
    exact List.mem_map_of_mem (f := fun p : ℝ × ℝ => 1 - p.1) hp)
  have hd : ∀ p ∈ (sortPairs x v).reverse.drop k, ¬ 1 - p.1 ≤ lam := fun p hp => not_le.2 (hdrop (1 - p.1) (by
    rw [← hfst, ← List.map_drop]
    exact List.mem_map_of_mem (f := fun p : ℝ × ℝ => 1 - p.1) hp))
  have hrev : ∀ f : ℝ × ℝ → ℝ, ((sortPairs x v).reverse.map f).sum = ∑ i, f (x i, v i) := by
    intro f
    rw [← sum_map_sortPairs x v f, List.map_reverse, List.sum_reverse]
  have hcnt : (n : ℝ) - k = ((Finset.univ.filter fun j => x j + lam < 1).card : ℝ) := by
    have h1 := take_sum_if (sortPairs x v).reverse k (fun p => 1 - p.1 ≤ lam) (fun _ => 1) ht hd
    rw [hrev] at h1
    have hl : (sortPairs x v).reverse.length = n := by
      rw [List.length_reverse, (sortPairs_perm x v).length_eq, List.length_ofFn]
    simp only [List.map_const', List.sum_replicate, List.length_take, hl, nsmul_eq_mul, mul_one] at h1
    rw [min_eq_left (by omega)] at h1
    rw [h1, Finset.card_filter]
    push_cast
    rw [eq_comm, eq_sub_iff_add_eq, ← Finset.sum_add_distrib]
    rw [Finset.sum_congr rfl (fun i _ => show ((if x i + lam < 1 then (1 : ℝ) else 0)
      + if 1 - x i ≤ lam then (1 : ℝ) else 0) = 1 by
        by_cases h : 1 - x i ≤ lam
        · rw [if_neg (by linarith), if_pos h, zero_add]
        · rw [if_pos (by linarith), if_neg h, add_zero])]
    simp
  have hdl : (if k = 0 then -(∑ i, v i) / (n : ℝ)
      else (-(∑ i, v i) - -cumsum ((sortPairs x v).map Prod.snd).reverse (k - 1)) / ((n : ℝ) - k))
      = -meanOn (Finset.univ.filter fun j => x j + lam < 1) v := by
    have h1 := take_sum_if (sortPairs x v).reverse k (fun p => 1 - p.1 ≤ lam) Prod.snd ht hd
    rw [hrev, List.map_take, List.map_reverse] at h1
    have h2 : (∑ i, v i) - ((((sortPairs x v).map Prod.snd).reverse).take k).sum
        = ∑ i ∈ Finset.univ.filter (fun j => x j + lam < 1), v i := by
      rw [h1, Finset.sum_filter, ← Finset.sum_sub_distrib]
      refine Finset.sum_congr rfl fun i _ => ?_
      by_cases h : 1 - x i ≤ lam
      · rw [if_neg (show ¬ x i + lam < 1 by linarith), if_pos h, sub_self]
      · rw [if_pos (show x i + lam < 1 by linarith), if_neg h, sub_zero]
    unfold meanOn
    rw [← hcnt, ← h2, ← neg_div]
    split_ifs with h
    · rw [h]; simp
    · unfold cumsum
      rw [show k - 1 + 1 = k by omega]
      congr 1
      ring
  funext i
  unfold pushupJvp
  simp only [hkn, hlam, hdl, ← sub_eq_add_neg]

/-- The projector and its derivative in closed form. -/
theorem proj_closed {n : ℕ} (s : ℝ) (h0 : 0 < s) (hn : s < n) (x : Fin n → ℝ)
    (hx : ∀ i, 0 < x i ∧ x i < 1) :
    ∃ lam, proj x s = (fun i => clip01 (x i - lam)) ∧ ∑ i, clip01 (x i - lam) = s ∧
      ∀ v i, projJvp x v s i =
        if 0 < x i - lam ∧ x i - lam < 1 then
          v i - meanOn (Finset.univ.filter fun j => 0 < x j - lam ∧ x j - lam < 1) v
        else if x i - lam = 0 ∨ x i - lam = 1 then
          (v i - meanOn (Finset.univ.filter fun j => 0 < x j - lam ∧ x j - lam < 1) v) / 2
        else 0 := by
  have hnpos : 0 < n := by
    rcases Nat.eq_zero_or_pos n with h | h
    · subst h; simp at hn; exact absurd (h0.trans hn) (lt_irrefl _)
    · exact h
  by_cases hS : ∑ i, x i ≤ s
  · obtain ⟨lam, h1, h2, h3⟩ := pushup_closed hnpos s hn x
    have hlam : 0 ≤ lam := by
      by_contra h
      push Not at h
      have : ∑ i, min (x i + lam) 1 < ∑ i, x i :=
        Finset.sum_lt_sum_of_nonempty ⟨⟨0, hnpos⟩, Finset.mem_univ _⟩
          fun i _ => lt_of_le_of_lt (min_le_left _ _) (by linarith)
      linarith
    have hc : ∀ i, clip01 (x i - -lam) = min (x i + lam) 1 := by
      intro i
      unfold clip01
      rw [sub_neg_eq_add, max_eq_left (le_min (by linarith [(hx i).1]) zero_le_one)]
    have hA : (Finset.univ.filter fun j => 0 < x j - -lam ∧ x j - -lam < 1)
        = Finset.univ.filter fun j => x j + lam < 1 := by
      ext j
      simp only [Finset.mem_filter, Finset.mem_univ, true_and, sub_neg_eq_add]
      exact ⟨fun h => h.2, fun h => ⟨by linarith [(hx j).1], h⟩⟩
    refine ⟨-lam, ?_, by rw [Finset.sum_congr rfl fun i _ => hc i]; exact h2, fun v i => ?_⟩
    · unfold proj
      rw [if_pos hS, h1]
      funext i
      exact (hc i).symm
    · unfold projJvp
      rw [if_pos hS, h3, hA]
      unfold minTangent
      simp only [sub_neg_eq_add]
      have hp : 0 < x i + lam := by linarith [(hx i).1]
      rcases lt_trichotomy (x i + lam) 1 with h | h | h
      · rw [if_pos h, if_pos ⟨hp, h⟩]
      · rw [if_neg (by linarith), if_neg (by linarith), if_neg (by rintro ⟨_, h'⟩; linarith),
          if_pos (Or.inr h), add_zero]
      · rw [if_neg (by linarith), if_pos h, if_neg (by rintro ⟨_, h'⟩; linarith),
          if_neg (by rintro (h' | h') <;> linarith)]
  · obtain ⟨lam, h1, h2, h3⟩ := pushdown_closed hnpos s h0 x
    have hlam : 0 ≤ lam := by
      by_contra h
      push Not at h
      have : ∑ i, x i < ∑ i, max (x i - lam) 0 :=
        Finset.sum_lt_sum_of_nonempty ⟨⟨0, hnpos⟩, Finset.mem_univ _⟩
          fun i _ => lt_of_lt_of_le (by linarith) (le_max_left _ _)
      linarith
    have hc : ∀ i, clip01 (x i - lam) = max (x i - lam) 0 := by
      intro i
      unfold clip01
      rw [min_eq_left (by linarith [(hx i).2])]
    have hA : (Finset.univ.filter fun j => 0 < x j - lam ∧ x j - lam < 1)
        = Finset.univ.filter fun j => lam < x j := by
      ext j
      simp only [Finset.mem_filter, Finset.mem_univ, true_and, sub_pos]
      exact ⟨fun h => h.1, fun h => ⟨h, by linarith [(hx j).2]⟩⟩
    refine ⟨lam, ?_, by rw [Finset.sum_congr rfl fun i _ => hc i]; exact h2, fun v i => ?_⟩
    · unfold proj
      rw [if_neg hS, h1]
      funext i
      exact (hc i).symm
    · unfold projJvp
      rw [if_neg hS, h3, hA]
      unfold maxTangent
      beta_reduce
      have hp : x i - lam < 1 := by linarith [(hx i).2]
      rcases lt_trichotomy (x i - lam) 0 with h | h | h
      · rw [if_neg (by linarith), if_pos h, if_neg (by rintro ⟨h', _⟩; linarith),
          if_neg (by rintro (h' | h') <;> linarith)]
      · rw [if_neg (by linarith), if_neg (by linarith), if_neg (by rintro ⟨h', _⟩; linarith),
          if_pos (Or.inl h), add_zero]
      · rw [if_pos h, if_pos ⟨h, hp⟩]

end Jrystal
