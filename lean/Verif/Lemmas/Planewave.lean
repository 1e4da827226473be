import Verif.Model.Planewave
import Verif.Spec.Planewave
import Verif.Lemmas.Fft
import Mathlib.Data.List.FinRange
import Mathlib.Data.List.Pairwise
import Mathlib.LinearAlgebra.UnitaryGroup
import Mathlib.Tactic.IntervalCases

namespace Jrystal
open scoped BigOperators ComplexConjugate

theorem mkIdx_eta {n : Fin 3 → ℕ} (k : Idx n) : mkIdx (k 0) (k 1) (k 2) = k := by
  funext i
  fin_cases i <;> rfl

theorem mem_idxList {n : Fin 3 → ℕ} (k : Idx n) : k ∈ idxList n := by
  unfold idxList
  simp only [List.mem_flatMap, List.mem_map, List.mem_finRange, true_and]
  exact ⟨k 0, k 1, k 2, mkIdx_eta k⟩

theorem rowMajor_mkIdx {n : Fin 3 → ℕ} (a : Fin (n 0)) (b : Fin (n 1)) (c : Fin (n 2)) :
    Spec.rowMajor (n := n) (mkIdx a b c) = ((a : ℕ) * n 1 + b) * n 2 + c := rfl

theorem idxList_sorted (n : Fin 3 → ℕ) :
    (idxList n).Pairwise fun k k' => Spec.rowMajor k < Spec.rowMajor k' := by
  unfold idxList
  rw [List.pairwise_flatMap]
  refine ⟨fun a _ => ?_, ?_⟩
  · rw [List.pairwise_flatMap]
    refine ⟨fun b _ => ?_, ?_⟩
    · rw [List.pairwise_map]
      refine (List.pairwise_lt_finRange _).imp fun {c c'} h => ?_
      rw [rowMajor_mkIdx, rowMajor_mkIdx]
      have : (c : ℕ) < c' := h
      omega
    · refine (List.pairwise_lt_finRange _).imp fun {b b'} h => ?_
      intro x hx y hy
      rw [List.mem_map] at hx hy
      obtain ⟨c, _, rfl⟩ := hx
      obtain ⟨c', _, rfl⟩ := hy
      rw [rowMajor_mkIdx, rowMajor_mkIdx]
      have h1 : (b : ℕ) + 1 ≤ b' := h
      have hc := c.2
      have h2 : ((a : ℕ) * n 1 + b + 1) * n 2 ≤ ((a : ℕ) * n 1 + b') * n 2 :=
        Nat.mul_le_mul_right _ (by omega)
      rw [Nat.add_mul _ 1, Nat.one_mul] at h2
      omega
  · refine (List.pairwise_lt_finRange _).imp fun {a a'} h => ?_
    intro x hx y hy
    rw [List.mem_flatMap] at hx hy
    obtain ⟨b, _, hx⟩ := hx
    obtain ⟨b', _, hy⟩ := hy
    rw [List.mem_map] at hx hy
    obtain ⟨c, _, rfl⟩ := hx
    obtain ⟨c', _, rfl⟩ := hy
    rw [rowMajor_mkIdx, rowMajor_mkIdx]
    have h1 : (a : ℕ) + 1 ≤ a' := h
    have hc := c.2
    have hb := b.2
    have h3 : ((a : ℕ) + 1) * n 1 ≤ (a' : ℕ) * n 1 := Nat.mul_le_mul_right _ h1
    rw [Nat.add_mul, Nat.one_mul] at h3
    have h2 : ((a : ℕ) * n 1 + b + 1) * n 2 ≤ ((a' : ℕ) * n 1 + b') * n 2 :=
      Nat.mul_le_mul_right _ (by omega)
    rw [Nat.add_mul _ 1, Nat.one_mul] at h2
    omega

theorem maskList_sorted {n : Fin 3 → ℕ} (mask : Idx n → Bool) :
    (maskList mask).Pairwise fun k k' => Spec.rowMajor k < Spec.rowMajor k' :=
  (idxList_sorted n).filter _

theorem mem_maskList {n : Fin 3 → ℕ} (mask : Idx n → Bool) (k : Idx n) :
    k ∈ maskList mask ↔ mask k = true := by
  unfold maskList
  rw [List.mem_filter]
  exact ⟨fun h => h.2, fun h => ⟨mem_idxList k, h⟩⟩

theorem maskPos_lt {n : Fin 3 → ℕ} (mask : Idx n → Bool) (a b : Fin (maskCount mask)) (h : a < b) :
    Spec.rowMajor (maskPos mask a) < Spec.rowMajor (maskPos mask b) :=
  List.pairwise_iff_get.mp (maskList_sorted mask) a b h

theorem maskPos_mask {n : Fin 3 → ℕ} (mask : Idx n → Bool) (a : Fin (maskCount mask)) :
    mask (maskPos mask a) = true :=
  (mem_maskList mask _).mp (List.get_mem _ _)

theorem exists_maskPos {n : Fin 3 → ℕ} (mask : Idx n → Bool) {k : Idx n} (h : mask k = true) :
    ∃ a, maskPos mask a = k := by
  rw [← mem_maskList, List.mem_iff_get] at h
  exact h

theorem maskList_get_inj {n : Fin 3 → ℕ} (mask : Idx n → Bool) :
    Function.Injective (maskPos mask) := by
  intro a b h
  have hs := maskPos_lt mask
  rcases lt_trichotomy a b with hlt | heq | hgt
  · have := hs a b hlt; rw [h] at this; omega
  · exact heq
  · have := hs b a hgt; rw [h] at this; omega

theorem foldl_update_not_mem {α β : Type*} {m : ℕ} [DecidableEq α] (f : Fin m → α) (v : Fin m → β)
    (l : List (Fin m)) (r : α → β) (x : α) (hx : ∀ g ∈ l, f g ≠ x) :
    (l.foldl (fun ret g => Function.update ret (f g) (v g)) r) x = r x := by
  induction l generalizing r with
  | nil => rfl
  | cons a t ih =>
    rw [List.foldl_cons, ih _ fun g hg => hx g (List.mem_cons_of_mem _ hg),
      Function.update_of_ne (hx a List.mem_cons_self).symm]

theorem foldl_update_mem {α β : Type*} {m : ℕ} [DecidableEq α] (f : Fin m → α)
    (hf : Function.Injective f) (v : Fin m → β) (l : List (Fin m)) (hl : l.Nodup) (r : α → β)
    (g : Fin m) (hg : g ∈ l) :
    (l.foldl (fun ret g => Function.update ret (f g) (v g)) r) (f g) = v g := by
  induction l generalizing r with
  | nil => cases hg
  | cons a t ih =>
    rw [List.nodup_cons] at hl
    rw [List.foldl_cons]
    by_cases ha : g = a
    · subst ha
      rw [foldl_update_not_mem, Function.update_self]
      intro g' hg' h
      exact hl.1 (hf h ▸ hg')
    · exact ih hl.2 _ ((List.mem_cons.mp hg).resolve_left ha)

theorem scatterMask_get {n : Fin 3 → ℕ} (mask : Idx n → Bool) (v : Fin (maskCount mask) → ℂ)
    (g : Fin (maskCount mask)) : scatterMask mask v (maskPos mask g) = v g :=
  foldl_update_mem (maskPos mask) (maskList_get_inj mask) v _ (List.nodup_finRange _) _ g
    (List.mem_finRange g)

theorem scatterMask_off {n : Fin 3 → ℕ} (mask : Idx n → Bool) (v : Fin (maskCount mask) → ℂ)
    (k : Idx n) (hk : mask k = false) : scatterMask mask v k = 0 := by
  unfold scatterMask
  rw [foldl_update_not_mem (maskPos mask) v]
  intro g _ h
  have := maskPos_mask mask g
  rw [h, hk] at this
  exact Bool.noConfusion this

/-- Number of selected positions before `maskPos mask g`. -/
theorem card_before {n : Fin 3 → ℕ} (mask : Idx n → Bool) (g : Fin (maskCount mask)) :
    (Finset.univ.filter fun k' => mask k' = true ∧
      Spec.rowMajor k' < Spec.rowMajor (maskPos mask g)).card = g := by
  have hs := maskPos_lt mask
  have hmono : ∀ a b : Fin (maskCount mask),
      Spec.rowMajor (maskPos mask a) < Spec.rowMajor (maskPos mask b) ↔ a < b := by
    intro a b
    constructor
    · intro h
      by_contra hab
      rcases lt_or_eq_of_le (not_lt.mp hab) with h1 | h1
      · have := hs b a h1; omega
      · rw [h1] at h; omega
    · exact hs a b
  have : (Finset.univ.filter fun k' => mask k' = true ∧
      Spec.rowMajor k' < Spec.rowMajor (maskPos mask g))
      = (Finset.univ.filter fun g' : Fin (maskCount mask) => g' < g).map
          ⟨(maskPos mask), maskList_get_inj mask⟩ := by
    ext k'
    simp only [Finset.mem_filter, Finset.mem_univ, true_and, Finset.mem_map,
      Function.Embedding.coeFn_mk]
    constructor
    · rintro ⟨h1, h2⟩
      obtain ⟨a, ha⟩ := exists_maskPos mask h1
      refine ⟨a, ?_, ha⟩
      rw [← hmono, ha]; exact h2
    · rintro ⟨a, ha, rfl⟩
      exact ⟨maskPos_mask mask a, (hmono a g).mpr ha⟩
  rw [this, Finset.card_map]
  have h2 : (Finset.univ.filter fun g' : Fin (maskCount mask) => g' < g) = Finset.Iio g := by
    ext a; simp
  rw [h2, Fin.card_Iio]

/-- A sum over the grid of a function supported on the mask. -/
theorem sum_mask {n : Fin 3 → ℕ} (mask : Idx n → Bool) (F : Idx n → ℂ)
    (hF : ∀ k, mask k = false → F k = 0) :
    ∑ k, F k = ∑ g, F (maskPos mask g) := by
  have h := Finset.sum_map (Finset.univ : Finset (Fin (maskCount mask)))
    ⟨(maskPos mask), maskList_get_inj mask⟩ F
  have h2 : ∑ g, F (maskPos mask g) = ∑ k ∈ (Finset.univ : Finset (Fin (maskCount mask))).map
    ⟨(maskPos mask), maskList_get_inj mask⟩, F k := h.symm
  rw [h2]
  symm
  refine Finset.sum_subset (Finset.subset_univ _) fun k _ hk => hF k ?_
  by_contra hne
  have hm : mask k = true := by simpa using hne
  obtain ⟨a, ha⟩ := exists_maskPos mask hm
  exact hk (Finset.mem_map.mpr ⟨a, Finset.mem_univ _, ha⟩)

theorem scatterMask_inner {n : Fin 3 → ℕ} (mask : Idx n → Bool) (u v : Fin (maskCount mask) → ℂ) :
    ∑ k, conj (scatterMask mask u k) * scatterMask mask v k = ∑ g, conj (u g) * v g := by
  rw [sum_mask mask]
  · exact Finset.sum_congr rfl fun g _ => by rw [scatterMask_get, scatterMask_get]
  · intro k hk
    rw [scatterMask_off mask v k hk, mul_zero]

theorem waveGrid_inner {ns nk nb : ℕ} {n : Fin 3 → ℕ} (c c' : Coef ns nk nb n) (vol : ℝ)
    (hv : 0 < vol) (s : Fin ns) (k : Fin nk) (i j : Fin nb) (hn : ∀ i, 0 < n i) :
    (vol / (∏ i, n i : ℕ) : ℝ) * ∑ x, conj (waveGrid c vol s k i x) * waveGrid c' vol s k j x
      = ∑ x, conj (c s k i x) * c' s k j x := by
  have hN : (gridCount n : ℂ) ≠ 0 := gridCount_ne (zeroIdx hn)
  have hNr : (gridCount n : ℝ) ≠ 0 := gridCount_ne_real (zeroIdx hn)
  rw [← ifftn_parseval (c s k i) (c' s k j)]
  have : ∀ x, conj (waveGrid c vol s k i x) * waveGrid c' vol s k j x
      = (((gridCount n : ℝ) / Real.sqrt vol : ℝ) : ℂ) ^ 2 *
        (conj (ifftn (c s k i) x) * ifftn (c' s k j) x) := by
    intro x
    unfold waveGrid
    rw [map_mul, Complex.conj_ofReal]
    ring
  simp_rw [this, ← Finset.mul_sum]
  rw [← mul_assoc]
  congr 1
  rw [← Complex.ofReal_pow, ← Complex.ofReal_mul, ← Complex.ofReal_natCast, Complex.ofReal_inj]
  rw [div_pow, Real.sq_sqrt hv.le]
  change vol / (gridCount n : ℝ) * ((gridCount n : ℝ) ^ 2 / vol) = _
  field_simp

theorem absoluteSquare_eq (z : ℂ) : absoluteSquare z = ‖z‖ ^ 2 := by
  unfold absoluteSquare
  rw [← Complex.normSq_eq_norm_sq, mul_comm, Complex.mul_conj]
  simp

theorem absoluteSquare_cast (z : ℂ) : (absoluteSquare z : ℂ) = conj z * z := by
  rw [absoluteSquare_eq, mul_comm, Complex.mul_conj, Complex.normSq_eq_norm_sq]

theorem absoluteSquare_nonneg (z : ℂ) : 0 ≤ absoluteSquare z := by
  rw [absoluteSquare_eq]; positivity

/-- Mixing by a unitary matrix that only mixes entries of equal weight. -/
theorem mix_weighted {m : ℕ} (U : Matrix (Fin m) (Fin m) ℂ) (hU : U ∈ Matrix.unitaryGroup (Fin m) ℂ)
    (f : Fin m → ℝ) (hf : ∀ i j, U i j ≠ 0 → f i = f j) (z : Fin m → ℂ) :
    ∑ i, absoluteSquare (∑ j, U i j * z j) * f i = ∑ j, absoluteSquare (z j) * f j := by
  have hstar : ∀ j l, ∑ i, conj (U i j) * U i l = if j = l then 1 else 0 := by
    intro j l
    have h := (Matrix.mem_unitaryGroup_iff').mp hU
    have h2 := congrFun (congrFun h j) l
    rw [Matrix.mul_apply, Matrix.one_apply] at h2
    simpa [Matrix.star_apply] using h2
  have hc : ((∑ i, absoluteSquare (∑ j, U i j * z j) * f i : ℝ) : ℂ)
      = ((∑ j, absoluteSquare (z j) * f j : ℝ) : ℂ) := by
    push_cast
    simp_rw [absoluteSquare_cast, map_sum, map_mul, Finset.sum_mul_sum, Finset.sum_mul]
    rw [Finset.sum_comm]
    refine Finset.sum_congr rfl fun j _ => ?_
    rw [Finset.sum_comm]
    have h2 : ∀ l, ∑ i, conj (U i j) * conj (z j) * (U i l * z l) * (f i : ℂ)
        = (if j = l then 1 else 0) * (conj (z j) * z l * (f j : ℂ)) := by
      intro l
      rw [← hstar j l, Finset.sum_mul]
      refine Finset.sum_congr rfl fun i _ => ?_
      by_cases h0 : U i j = 0
      · rw [h0]; simp
      · rw [hf i j h0]; ring
    simp_rw [h2]
    simp
  exact_mod_cast hc

theorem isNeg_unique {n : Fin 3 → ℕ} {k k' : Idx n} (h : Spec.IsNeg k k') : k' = negIdx k := by
  funext i
  apply Fin.ext
  have hk := (k i).2
  have hk' := (k' i).2
  obtain ⟨m, hm⟩ := h i
  show (k' i : ℕ) = (n i - (k i : ℕ)) % n i
  have hm2 : m < 2 := by
    by_contra hcon
    have : n i * 2 ≤ n i * m := Nat.mul_le_mul_left _ (by omega)
    omega
  interval_cases m
  · have h0 : (k i : ℕ) = 0 := by omega
    rw [h0]; simp; omega
  · by_cases h0 : (k i : ℕ) = 0
    · omega
    · rw [Nat.mod_eq_of_lt (by omega)]; omega

end Jrystal
