import Verif.Lemmas.CellCont
import Verif.Lemmas.RunSetup
import Verif.Props.EwaldLimit
import Verif.Model.NuclearRepulsion

/- Lemmas for C111: the Ewald energy as a function of the geometry. -/
namespace Jrystal
open scoped BigOperators
open Filter

/-- A geometry: cell and positions. -/
abbrev Geometry (m : ℕ) := (Fin 3 → Fin 3 → ℝ) × (Fin m → Fin 3 → ℝ)

section
variable {m : ℕ}

theorem ewaldNorm_pos (τ t : Fin 3 → ℝ) : 0 < ewaldNorm τ t := by
  unfold ewaldNorm
  dsimp only
  split_ifs with h
  · norm_num
  · exact lt_trans (by norm_num) (not_le.1 h)

theorem ewaldNorm_far {τ t : Fin 3 → ℝ} (h : 99e-20 < ∑ d, (τ d - t d) ^ 2) :
    ewaldNorm τ t = Real.sqrt ((∑ d, (τ d - t d) ^ 2) + 1e-20) := by
  unfold ewaldNorm
  dsimp only
  rw [if_neg]
  rw [not_le]
  refine Real.lt_sqrt_of_sq_lt ?_
  norm_num at h ⊢
  linarith

/-- Distances are continuous in the geometry, when nuclei and their images are separated. -/
theorem ewaldNorm_continuous (x : Geometry m) (hsep : Spec.Separated x.1 x.2) (i j : Fin m) (z : Fin 3 → ℤ) :
    ContinuousAt (fun y : Geometry m => ewaldNorm (ewaldTau y.2 i j) (Spec.latticePoint y.1 z)) x := by
  by_cases h : i ≠ j ∨ z ≠ 0
  · have hc : Continuous fun y : Geometry m => ∑ d, (ewaldTau y.2 i j d - Spec.latticePoint y.1 z d) ^ 2 := by
      unfold ewaldTau Spec.latticePoint
      fun_prop
    have h1 : 99e-20 < ∑ d, (ewaldTau x.2 i j d - Spec.latticePoint x.1 z d) ^ 2 := by
      refine (hsep i j z h).trans_eq ?_
      unfold Spec.dot ewaldTau
      exact Finset.sum_congr rfl fun d _ => (sq _).symm
    have h2 := hc.continuousAt.eventually (lt_mem_nhds h1)
    refine ContinuousAt.congr (f := fun y : Geometry m => Real.sqrt
      ((∑ d, (ewaldTau y.2 i j d - Spec.latticePoint y.1 z d) ^ 2) + 1e-20)) ?_ ?_
    · exact (Real.continuous_sqrt.comp (hc.add continuous_const)).continuousAt
    · filter_upwards [h2] with y hy
      exact (ewaldNorm_far hy).symm
  · push Not at h
    obtain ⟨rfl, rfl⟩ := h
    have : (fun y : Geometry m => ewaldNorm (ewaldTau y.2 i i) (Spec.latticePoint y.1 0))
        = fun _ => ewaldNorm (fun _ => 0) (fun _ => 0) := by
      funext y
      congr 1
      · funext d
        simp [ewaldTau]
      · funext d
        simp [Spec.latticePoint]
    rw [this]
    exact continuousAt_const

theorem continuousAt_gVectors (n : Fin 3 → ℕ) (x : Geometry m) (hA : (Matrix.of x.1).det ≠ 0) (k : Idx n) (d : Fin 3) :
    ContinuousAt (fun y : Geometry m => gVectors (Matrix.of y.1) n k d) x := by
  have h := (continuousOn_pi.1 (continuousOn_pi.1 (continuousOn_gVectors n) k) d).continuousAt
    ((isOpen_ne_fun (Continuous.matrix_det continuous_id) continuous_const).mem_nhds hA)
  exact h.comp (f := fun y : Geometry m => Matrix.of y.1) (x := x) continuous_fst.continuousAt

theorem ewaldGSq_pos (A : Matrix (Fin 3) (Fin 3) ℝ) (hA : A.det ≠ 0) (n : Fin 3 → ℕ) (k : Idx n) :
    0 < ewaldGSq (gVectors A n) k := by
  unfold ewaldGSq
  split_ifs with h
  · norm_num
  · have := gVectors_sq_pos A hA n k ((isOrigin_false k).1 (by simpa using h))
    unfold Spec.dot at this
    simpa only [sq] using this

/-- The Ewald energy with a fixed number of translations is continuous in the geometry. -/
theorem ewald_continuous (erfc : ℝ → ℝ) (herfc : Continuous erfc) (q : Fin m → ℝ) (n : Fin 3 → ℕ) (eta : ℝ) (N : ℕ)
    (x : Geometry m) (hA : (Matrix.of x.1).det ≠ 0) (hsep : Spec.Separated x.1 x.2) :
    ContinuousAt (fun y : Geometry m => ewald erfc y.2 q (gVectors (Matrix.of y.1) n) |(Matrix.of y.1).det| eta
      (flatRows (vectorGrid (Matrix.of y.1) (fun _ => N) false))) x := by
  have hdet : ContinuousAt (fun y : Geometry m => |(Matrix.of y.1).det|) x :=
    ((Continuous.matrix_det (A := fun y : Geometry m => Matrix.of y.1) continuous_fst).abs).continuousAt
  have hvol : |(Matrix.of x.1).det| ≠ 0 := abs_ne_zero.mpr hA
  have hover : ∀ i j, ContinuousAt (fun y : Geometry m => ewaldOverlap erfc eta
      (flatRows (vectorGrid (Matrix.of y.1) (fun _ => N) false)) (ewaldTau y.2 i j)) x := by
    intro i j
    unfold ewaldOverlap
    refine tendsto_finsetSum _ fun t _ => ?_
    have hT : ∀ y : Geometry m, flatRows (vectorGrid (Matrix.of y.1) (fun _ => N) false) t
        = Spec.latticePoint y.1 (fun i => sfreq N ((idxList fun _ => N).get t i)) := by
      intro y
      funext d
      unfold flatRows vectorGrid Spec.latticePoint
      refine Finset.sum_congr rfl fun i _ => ?_
      simp only [Bool.false_eq_true, if_false]
      rw [fftfreq_int ((idxList fun _ => N).get t i).2]
      rfl
    simp only [hT]
    have h1 := ewaldNorm_continuous x hsep i j (fun i => sfreq N ((idxList fun _ => N).get t i))
    exact ContinuousAt.div (herfc.continuousAt.comp (continuousAt_const.mul h1)) h1 (ewaldNorm_pos _ _).ne'
  have hrec : ∀ i j, ContinuousAt (fun y : Geometry m => ewaldReciprocal (gVectors (Matrix.of y.1) n)
      |(Matrix.of y.1).det| eta (ewaldTau y.2 i j)) x := by
    intro i j
    unfold ewaldReciprocal
    refine ContinuousAt.div (ContinuousAt.mul (ContinuousAt.mul (tendsto_finsetSum _ fun k _ => ?_) continuousAt_const)
      continuousAt_const) hdet hvol
    have hg := fun d => continuousAt_gVectors n x hA k d
    have h1 : ContinuousAt (fun y : Geometry m => ewaldGSq (gVectors (Matrix.of y.1) n) k) x := by
      unfold ewaldGSq
      split_ifs
      · exact continuousAt_const
      · exact tendsto_finsetSum _ fun d _ => (hg d).pow 2
    have h2 : ContinuousAt (fun y : Geometry m => if isOrigin k then (0 : ℝ) else
        Real.cos (∑ d, gVectors (Matrix.of y.1) n k d * ewaldTau y.2 i j d)) x := by
      split_ifs
      · exact continuousAt_const
      · refine Real.continuous_cos.continuousAt.comp (tendsto_finsetSum _ fun d _ => (hg d).mul ?_)
        unfold ewaldTau
        exact Continuous.continuousAt (by fun_prop)
    refine ContinuousAt.mul (ContinuousAt.div (Real.continuous_exp.continuousAt.comp ?_) h1
      (ewaldGSq_pos _ hA n k).ne') h2
    exact (h1.neg.div_const _).div_const _
  unfold ewald
  dsimp only
  refine ContinuousAt.add (ContinuousAt.div_const (tendsto_finsetSum _ fun j _ => ContinuousAt.mul
    (tendsto_finsetSum _ fun i _ => continuousAt_const.mul ((hover i j).add (hrec i j))) continuousAt_const) _) ?_
  exact continuousAt_const.sub ((continuousAt_const.div hdet hvol).div_const _)

/-- The number of translations is the same for neighbouring cells when the quotient is not an integer. -/
theorem translationCount_stable (A : Fin 3 → Fin 3 → ℝ) (hA : (Matrix.of A).det ≠ 0) (cutoff : ℝ)
    (hoff : ∀ k : ℤ, cutoff ≠ k * Spec.dot (fun d => ∑ i, A i d) (fun d => ∑ i, A i d)) :
    ∀ᶠ A' in nhds A, translationCount (Matrix.of A') cutoff = translationCount (Matrix.of A) cutoff := by
  have hp := rowSum_pos (Matrix.of A) hA
  rw [sqrt_normSq3] at hp
  have hc : ContinuousAt (fun A' : Fin 3 → Fin 3 → ℝ => cutoff / (Real.sqrt (normSq3 fun d => ∑ i, Matrix.of A' i d)) ^ 2) A := by
    refine ContinuousAt.div continuousAt_const ?_ ?_
    · unfold normSq3
      simp only [Matrix.of_apply]
      exact Continuous.continuousAt (by fun_prop)
    · rw [sqrt_normSq3]
      exact hp.ne'
  have hlt : (cutoff / (Real.sqrt (normSq3 fun d => ∑ i, Matrix.of A i d)) ^ 2) < (translationCount (Matrix.of A) cutoff : ℝ) := by
    refine lt_of_le_of_ne (Int.le_ceil _) fun h => ?_
    rw [sqrt_normSq3, div_eq_iff hp.ne'] at h
    refine hoff (translationCount (Matrix.of A) cutoff) (h.trans ?_)
    simp only [normSq3, Spec.dot, sq, Matrix.of_apply]
  have hgt : (translationCount (Matrix.of A) cutoff : ℝ) - 1 < cutoff / (Real.sqrt (normSq3 fun d => ∑ i, Matrix.of A i d)) ^ 2 := by
    have := Int.ceil_lt_add_one (cutoff / (Real.sqrt (normSq3 fun d => ∑ i, Matrix.of A i d)) ^ 2)
    unfold translationCount
    linarith
  filter_upwards [hc.eventually_lt_const hlt, hc.eventually_const_lt hgt] with A' h1 h2
  change ⌈_⌉ = _
  rw [Int.ceil_eq_iff]
  exact ⟨h2, h1.le⟩

/-- One more translation per axis adds positive terms. -/
theorem box_grow (f : (Fin 3 → ℤ) → ℝ) (hf : ∀ z, 0 < f z) (N : ℕ) :
    ∑ k : Idx (fun _ => N), f (fun i => sfreq N (k i)) < ∑ k : Idx (fun _ => N + 1), f (fun i => sfreq (N + 1) (k i)) := by
  have hinj : ∀ n : ℕ, Function.Injective fun (k : Idx fun _ => n) (i : Fin 3) => sfreq n (k i) := by
    intro n k k' hk
    funext i
    exact Fin.ext (sfreq_inj (k i).2 (k' i).2 (congrFun hk i))
  have hs : ∀ n : ℕ, ∑ k : Idx (fun _ => n), f (fun i => sfreq n (k i))
      = ∑ z ∈ (Finset.univ : Finset (Idx fun _ => n)).image (fun k i => sfreq n (k i)), f z := fun n =>
    (Finset.sum_image fun k _ k' _ hk => hinj n hk).symm
  rw [hs, hs]
  have hsub : (Finset.univ : Finset (Idx fun _ => N)).image (fun k i => sfreq N (k i))
      ⊆ (Finset.univ : Finset (Idx fun _ => N + 1)).image (fun k i => sfreq (N + 1) (k i)) := by
    intro z hz
    obtain ⟨k, -, rfl⟩ := Finset.mem_image.1 hz
    have hj : ∀ i, ∃ j : Fin (N + 1), sfreq (N + 1) j = sfreq N (k i) := by
      intro i
      have hk : (k i : ℕ) < N := (k i).2
      by_cases h : 2 * (k i : ℕ) < N
      · refine ⟨⟨k i, by omega⟩, ?_⟩
        unfold sfreq
        dsimp only
        split_ifs <;> omega
      · refine ⟨⟨k i + 1, by omega⟩, ?_⟩
        unfold sfreq
        dsimp only
        split_ifs <;> push_cast <;> omega
    choose j hj using hj
    exact Finset.mem_image.2 ⟨j, Finset.mem_univ _, funext hj⟩
  have hcard : ∀ n : ℕ, ((Finset.univ : Finset (Idx fun _ => n)).image (fun k i => sfreq n (k i))).card = n ^ 3 := by
    intro n
    rw [Finset.card_image_of_injective _ (hinj n), Finset.card_univ, Fintype.card_pi]
    simp
  obtain ⟨z, hz, hz'⟩ := Finset.exists_mem_notMem_of_card_lt_card
    (s := (Finset.univ : Finset (Idx fun _ => N)).image (fun k i => sfreq N (k i)))
    (t := (Finset.univ : Finset (Idx fun _ => N + 1)).image (fun k i => sfreq (N + 1) (k i)))
    (by rw [hcard, hcard]; exact Nat.pow_lt_pow_left (Nat.lt_succ_self N) (by norm_num))
  exact Finset.sum_lt_sum_of_subset hsub hz hz' (hf z) fun w _ _ => (hf w).le

theorem sum_flatRows_idx {n : Fin 3 → ℕ} {X : Type} (f : Idx n → X) (F : X → ℝ) :
    ∑ t, F (flatRows f t) = ∑ k, F (f k) := by
  have hnd : (idxList n).Nodup := by
    refine (idxList_sorted n).imp fun {a b} h => ?_
    rintro rfl
    exact lt_irrefl _ h
  have hbij : Function.Bijective fun t : Fin (idxList n).length => (idxList n).get t :=
    ⟨List.nodup_iff_injective_get.mp hnd, fun k => by
      obtain ⟨t, ht⟩ := List.get_of_mem (mem_idxList k)
      exact ⟨t, ht⟩⟩
  exact hbij.sum_comp fun k => F (f k)

/-- One more translation per axis makes the Ewald energy of positive charges larger. -/
theorem ewald_grow (erfc : ℝ → ℝ) (herfc : ∀ x, 0 < erfc x) (pos : Fin m → Fin 3 → ℝ) (q : Fin m → ℝ) (hq : ∀ i, 0 < q i)
    (hm : 0 < m) (A : Matrix (Fin 3) (Fin 3) ℝ) {n : Fin 3 → ℕ} (g : Idx n → Fin 3 → ℝ) (vol eta : ℝ) (N : ℕ) :
    ewald erfc pos q g vol eta (flatRows (vectorGrid A (fun _ => N) false))
      < ewald erfc pos q g vol eta (flatRows (vectorGrid A (fun _ => N + 1) false)) := by
  have hover : ∀ i j, ewaldOverlap erfc eta (flatRows (vectorGrid A (fun _ => N) false)) (ewaldTau pos i j)
      < ewaldOverlap erfc eta (flatRows (vectorGrid A (fun _ => N + 1) false)) (ewaldTau pos i j) := by
    intro i j
    have h := box_grow (fun z => erfc (eta * ewaldNorm (ewaldTau pos i j) (Spec.latticePoint A z))
      / ewaldNorm (ewaldTau pos i j) (Spec.latticePoint A z)) (fun z => div_pos (herfc _) (ewaldNorm_pos _ _)) N
    have hs : ∀ n : ℕ, ewaldOverlap erfc eta (flatRows (vectorGrid A (fun _ => n) false)) (ewaldTau pos i j)
        = ∑ k : Idx (fun _ => n), (fun z => erfc (eta * ewaldNorm (ewaldTau pos i j) (Spec.latticePoint A z))
      / ewaldNorm (ewaldTau pos i j) (Spec.latticePoint A z)) (fun i => sfreq n (k i)) := by
      intro n
      unfold ewaldOverlap
      rw [sum_flatRows_idx (vectorGrid A (fun _ => n) false) fun T => erfc (eta * ewaldNorm (ewaldTau pos i j) T) / ewaldNorm (ewaldTau pos i j) T]
      refine Finset.sum_congr rfl fun k _ => ?_
      have : vectorGrid A (fun _ => n) false k = Spec.latticePoint A fun i => sfreq n (k i) := by
        funext d
        unfold vectorGrid Spec.latticePoint
        refine Finset.sum_congr rfl fun i _ => ?_
        simp only [Bool.false_eq_true, if_false]
        rw [fftfreq_int (k i).2]
      rw [this]
    rw [hs, hs]
    exact h
  unfold ewald
  dsimp only
  refine add_lt_add_of_lt_of_le (div_lt_div_of_pos_right ?_ two_pos) le_rfl
  have hne : (Finset.univ : Finset (Fin m)).Nonempty := ⟨⟨0, hm⟩, Finset.mem_univ _⟩
  refine Finset.sum_lt_sum_of_nonempty hne fun j _ => mul_lt_mul_of_pos_right ?_ (hq j)
  refine Finset.sum_lt_sum_of_nonempty hne fun i _ => mul_lt_mul_of_pos_left ?_ (hq i)
  exact add_lt_add_of_lt_of_le (hover i j) le_rfl

end
end Jrystal
