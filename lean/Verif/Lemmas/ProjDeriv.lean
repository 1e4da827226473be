import Verif.Lemmas.ProjGrad
import Verif.Props.Proj
import Mathlib.Analysis.Calculus.FDeriv.Basic
import Mathlib.Analysis.Calculus.FDeriv.Comp
import Mathlib.Analysis.Calculus.FDeriv.Add
import Mathlib.Analysis.Calculus.FDeriv.Linear
import Mathlib.Analysis.Calculus.FDeriv.Pi
import Mathlib.Analysis.Calculus.Deriv.Prod
import Mathlib.Analysis.Calculus.Deriv.Slope
import Mathlib.Analysis.Calculus.Deriv.Mul
import Mathlib.Analysis.Calculus.Deriv.Comp
import Mathlib.Topology.Algebra.Module.FiniteDimension

/- Helper lemmas for C121: where the projector is differentiable. -/
namespace Jrystal
open scoped BigOperators Topology
open Filter

variable {n : ℕ}

/-- A clipped shift with the right total is what the projector returns. -/
theorem proj_of_clip {s lam : ℝ} (h0 : 0 < s) (hn : s < n) {x : Fin n → ℝ} (hx : ∀ i, 0 ≤ x i ∧ x i ≤ 1)
    (hsum : ∑ i, clip01 (x i - lam) = s) : proj x s = fun i => clip01 (x i - lam) :=
  nearest_unique (proj_nearest_partial x s hx h0 hn) (clip01_nearest s lam x hsum)

theorem pos_of_target {s : ℝ} (h0 : 0 < s) (hn : s < n) : 0 < n := by
  rcases Nat.eq_zero_or_pos n with h | h
  · subst h; simp at hn; exact absurd (h0.trans hn) (lt_irrefl _)
  · exact h

/-- The projector clips a common shift, on the closed cube. -/
theorem proj_clip {s : ℝ} (h0 : 0 < s) (hn : s < n) (x : Fin n → ℝ) (hx : ∀ i, 0 ≤ x i ∧ x i ≤ 1) :
    ∃ lam, proj x s = (fun i => clip01 (x i - lam)) ∧ ∑ i, clip01 (x i - lam) = s := by
  have hnpos := pos_of_target h0 hn
  suffices h : ∃ lam, ∑ i, clip01 (x i - lam) = s by
    obtain ⟨lam, h⟩ := h
    exact ⟨lam, proj_of_clip h0 hn hx h, h⟩
  by_cases hS : ∑ i, x i ≤ s
  · obtain ⟨lam, -, h2, -⟩ := pushup_closed hnpos s hn x
    have hlam : 0 ≤ lam := by
      by_contra h
      push Not at h
      have : ∑ i, min (x i + lam) 1 < ∑ i, x i :=
        Finset.sum_lt_sum_of_nonempty ⟨⟨0, hnpos⟩, Finset.mem_univ _⟩
          fun i _ => lt_of_le_of_lt (min_le_left _ _) (by linarith)
      linarith
    refine ⟨-lam, ?_⟩
    rw [← h2]
    refine Finset.sum_congr rfl fun i _ => ?_
    unfold clip01
    rw [sub_neg_eq_add, max_eq_left (le_min (by linarith [(hx i).1]) zero_le_one)]
  · obtain ⟨lam, -, h2, -⟩ := pushdown_closed hnpos s h0 x
    have hlam : 0 ≤ lam := by
      by_contra h
      push Not at h
      have : ∑ i, x i < ∑ i, max (x i - lam) 0 :=
        Finset.sum_lt_sum_of_nonempty ⟨⟨0, hnpos⟩, Finset.mem_univ _⟩
          fun i _ => lt_of_lt_of_le (by linarith) (le_max_left _ _)
      linarith
    refine ⟨lam, ?_⟩
    rw [← h2]
    refine Finset.sum_congr rfl fun i _ => ?_
    unfold clip01
    rw [min_eq_left (by linarith [(hx i).2])]

/-- The linear map that moves the active positions with their mean removed. -/
noncomputable def activeMap (A : Finset (Fin n)) : (Fin n → ℝ) →L[ℝ] (Fin n → ℝ) :=
  LinearMap.toContinuousLinearMap
    { toFun := fun v i => if i ∈ A then v i - meanOn A v else 0
      map_add' := by
        intro v w
        funext i
        simp only [Pi.add_apply, meanOn, Finset.sum_add_distrib]
        split_ifs
        · ring
        · simp
      map_smul' := by
        intro c v
        funext i
        simp only [Pi.smul_apply, smul_eq_mul, meanOn, RingHom.id_apply, ← Finset.mul_sum]
        split_ifs
        · ring
        · simp }

theorem activeMap_apply (A : Finset (Fin n)) (v : Fin n → ℝ) (i : Fin n) :
    activeMap A v i = if i ∈ A then v i - meanOn A v else 0 := rfl

theorem activeMap_sum (A : Finset (Fin n)) (v : Fin n → ℝ) : ∑ i, activeMap A v i = 0 := by
  simp only [activeMap_apply]
  rw [← Finset.sum_filter, Finset.filter_mem_eq_inter, Finset.univ_inter, Finset.sum_sub_distrib,
    Finset.sum_const, nsmul_eq_mul]
  unfold meanOn
  by_cases h : (A.card : ℝ) = 0
  · have : A = ∅ := Finset.card_eq_zero.1 (by exact_mod_cast h)
    subst this
    simp
  · rw [mul_div_cancel₀ _ h, sub_self]

/-- Away from the kinks the projector is locally affine. -/
theorem proj_hasFDerivAt {s lam : ℝ} (h0 : 0 < s) (hn : s < n) {x : Fin n → ℝ} (hx : ∀ i, 0 < x i ∧ x i < 1)
    (hsum : ∑ i, clip01 (x i - lam) = s) (hkink : ∀ i, x i - lam ≠ 0 ∧ x i - lam ≠ 1) :
    HasFDerivAt (fun x : Fin n → ℝ => proj x s)
      (activeMap (Finset.univ.filter fun j => 0 < x j - lam ∧ x j - lam < 1)) x := by
  set A := Finset.univ.filter fun j => 0 < x j - lam ∧ x j - lam < 1 with hA
  have hmem : ∀ i, i ∈ A ↔ 0 < x i - lam ∧ x i - lam < 1 := fun i => by rw [hA]; simp
  have haff : HasFDerivAt (fun z : Fin n → ℝ => (fun i => clip01 (x i - lam)) + activeMap A (z - x))
      (activeMap A) x := by
    have h1 : HasFDerivAt (fun z : Fin n → ℝ => activeMap A (z - x)) (activeMap A) x :=
      HasFDerivAt.comp (g := activeMap A) (f := fun z : Fin n → ℝ => z - x) (f' := ContinuousLinearMap.id ℝ _) x
        (activeMap A).hasFDerivAt ((hasFDerivAt_id x).sub_const x)
    have h2 := h1.const_add (fun i => clip01 (x i - lam))
    exact h2
  refine haff.congr_of_eventuallyEq ?_
  have hc : ∀ i : Fin n, ContinuousAt (fun z : Fin n → ℝ => z i - (lam + meanOn A (z - x))) x := by
    intro i
    have hm : Continuous fun z : Fin n → ℝ => meanOn A (z - x) := by
      unfold meanOn
      refine Continuous.div_const ?_ _
      exact continuous_finsetSum _ fun j _ => ((continuous_apply j).sub continuous_const)
    exact ((continuous_apply i).sub (continuous_const.add hm)).continuousAt
  have hv : ∀ i, x i - (lam + meanOn A (x - x)) = x i - lam := by
    intro i
    simp [meanOn]
  have hev : ∀ᶠ z in 𝓝 x, ∀ i : Fin n, (0 < z i ∧ z i < 1)
      ∧ (x i - lam < 0 → z i - (lam + meanOn A (z - x)) < 0)
      ∧ (0 < x i - lam → 0 < z i - (lam + meanOn A (z - x)))
      ∧ (x i - lam < 1 → z i - (lam + meanOn A (z - x)) < 1)
      ∧ (1 < x i - lam → 1 < z i - (lam + meanOn A (z - x))) := by
    rw [eventually_all]
    intro i
    have ha := (continuous_apply (A := fun _ : Fin n => ℝ) i).continuousAt (x := x)
    have hc' := hc i
    refine ((ha.eventually (lt_mem_nhds (hx i).1)).and (ha.eventually (gt_mem_nhds (hx i).2))).and ?_
    refine Eventually.and ?_ (Eventually.and ?_ (Eventually.and ?_ ?_))
    · by_cases h : x i - lam < 0
      · exact (hc'.eventually (gt_mem_nhds (by beta_reduce; rw [hv i]; exact h))).mono fun _ hz _ => hz
      · exact Eventually.of_forall fun _ h' => absurd h' h
    · by_cases h : 0 < x i - lam
      · exact (hc'.eventually (lt_mem_nhds (by beta_reduce; rw [hv i]; exact h))).mono fun _ hz _ => hz
      · exact Eventually.of_forall fun _ h' => absurd h' h
    · by_cases h : x i - lam < 1
      · exact (hc'.eventually (gt_mem_nhds (by beta_reduce; rw [hv i]; exact h))).mono fun _ hz _ => hz
      · exact Eventually.of_forall fun _ h' => absurd h' h
    · by_cases h : 1 < x i - lam
      · exact (hc'.eventually (lt_mem_nhds (by beta_reduce; rw [hv i]; exact h))).mono fun _ hz _ => hz
      · exact Eventually.of_forall fun _ h' => absurd h' h
  filter_upwards [hev] with z hz
  have hpt : ∀ i, clip01 (z i - (lam + meanOn A (z - x)))
      = ((fun i => clip01 (x i - lam)) + activeMap A (z - x)) i := by
    intro i
    obtain ⟨_, z1, z2, z3, z4⟩ := hz i
    rw [Pi.add_apply, activeMap_apply]
    rcases lt_or_gt_of_ne (hkink i).1 with h | h
    · rw [if_neg (fun h' => by linarith [((hmem i).1 h').1]), clip01_low (z1 h).le, clip01_low h.le, add_zero]
    · rcases lt_or_gt_of_ne (hkink i).2 with h' | h'
      · rw [if_pos ((hmem i).2 ⟨h, h'⟩), clip01_mid (z2 h).le (z3 h').le, clip01_mid h.le h'.le, Pi.sub_apply]
        ring
      · rw [if_neg (fun h'' => by linarith [((hmem i).1 h'').2]), clip01_high (z4 h').le, clip01_high h'.le,
          add_zero]
  rw [proj_of_clip (lam := lam + meanOn A (z - x)) h0 hn (fun i => ⟨(hz i).1.1.le, (hz i).1.2.le⟩)]
  · funext i
    exact hpt i
  · rw [Finset.sum_congr rfl fun i _ => hpt i]
    simp only [Pi.add_apply]
    rw [Finset.sum_add_distrib, hsum, activeMap_sum, add_zero]

/-- At a kink at zero the projector is not differentiable. -/
theorem proj_kink_zero {s lam : ℝ} (h0 : 0 < s) (hn : s < n) {x : Fin n → ℝ} (hx : ∀ i, 0 < x i ∧ x i < 1)
    (hsum : ∑ i, clip01 (x i - lam) = s) (i : Fin n) (hi : x i - lam = 0) :
    ¬ DifferentiableAt ℝ (fun x : Fin n → ℝ => proj x s) x := by
  intro hd
  have hline : HasDerivAt (fun t : ℝ => x + t • (Pi.single i (1 : ℝ) : Fin n → ℝ)) (Pi.single i 1) 0 := by
    have h1 : HasDerivAt (fun t : ℝ => t • (Pi.single i (1 : ℝ) : Fin n → ℝ)) ((1 : ℝ) • Pi.single i 1) 0 :=
      (hasDerivAt_id (0 : ℝ)).smul_const _
    rw [one_smul] at h1
    exact h1.const_add x
  have hd' : HasFDerivAt (fun x : Fin n → ℝ => proj x s) (fderiv ℝ (fun x : Fin n → ℝ => proj x s) x)
      (x + (0 : ℝ) • (Pi.single i (1 : ℝ) : Fin n → ℝ)) := by
    rw [zero_smul, add_zero]
    exact hd.hasFDerivAt
  have hcomp := hd'.comp_hasDerivAt (0 : ℝ) hline
  have hf := (hasDerivAt_pi.1 hcomp) i
  set d := (fderiv ℝ (fun x : Fin n → ℝ => proj x s) x) (Pi.single i 1) i
  set f : ℝ → ℝ := fun t => proj (x + t • (Pi.single i (1 : ℝ) : Fin n → ℝ)) s i with hfdef
  have hf' : HasDerivAt f d 0 := hf
  have hxt : ∀ (t : ℝ) j, (x + t • (Pi.single i (1 : ℝ) : Fin n → ℝ)) j = x j + if j = i then t else 0 := by
    intro t j
    simp only [Pi.add_apply, Pi.smul_apply, smul_eq_mul, Pi.single_apply]
    split_ifs <;> simp
  have hlam : lam = x i := by linarith
  -- an active position
  obtain ⟨j, hj⟩ : ∃ j, 0 < x j - lam := by
    by_contra h
    push Not at h
    rw [Finset.sum_eq_zero fun j _ => clip01_low (h j)] at hsum
    linarith
  have hj1 : x j - lam < 1 := by linarith [(hx j).2, (hx i).1]
  have hji : j ≠ i := by rintro rfl; linarith
  have hleft : ∀ t : ℝ, -(x i) < t → t ≤ 0 → f t = 0 := by
    intro t ht ht0
    have hpt : ∀ k, clip01 ((x + t • (Pi.single i (1 : ℝ) : Fin n → ℝ)) k - lam) = clip01 (x k - lam) := by
      intro k
      rw [hxt]
      split_ifs with h
      · subst h
        rw [clip01_low (by linarith), clip01_low (by linarith)]
      · rw [add_zero]
    rw [hfdef]
    beta_reduce
    rw [proj_of_clip (lam := lam) h0 hn]
    · beta_reduce
      rw [hpt, hi]
      exact clip01_low le_rfl
    · intro k
      rw [hxt]
      split_ifs with h
      · subst h
        exact ⟨by linarith, by linarith [(hx k).2]⟩
      · rw [add_zero]; exact ⟨(hx k).1.le, (hx k).2.le⟩
    · rw [Finset.sum_congr rfl fun k _ => hpt k]; exact hsum
  have hright : ∀ t : ℝ, 0 < t → t < 1 - x i → t < x j - lam → t / 2 ≤ f t := by
    intro t ht ht1 htj
    have hcube : ∀ k, 0 ≤ (x + t • (Pi.single i (1 : ℝ) : Fin n → ℝ)) k
        ∧ (x + t • (Pi.single i (1 : ℝ) : Fin n → ℝ)) k ≤ 1 := by
      intro k
      rw [hxt]
      split_ifs with h
      · subst h
        exact ⟨by linarith [(hx k).1], by linarith⟩
      · rw [add_zero]; exact ⟨(hx k).1.le, (hx k).2.le⟩
    obtain ⟨mu, h1, h2⟩ := proj_clip h0 hn _ hcube
    have hmu : mu ≤ lam + t / 2 := by
      by_contra hmu
      push Not at hmu
      have hlt : ∑ k, clip01 ((x + t • (Pi.single i (1 : ℝ) : Fin n → ℝ)) k - mu)
          < ∑ k, (clip01 (x k - lam) + ((if k = i then t / 2 else 0) - if k = j then t / 2 else 0)) := by
        refine Finset.sum_lt_sum (fun k _ => ?_) ⟨j, Finset.mem_univ _, ?_⟩
        · rw [hxt]
          by_cases hk : k = i
          · subst hk
            rw [if_pos rfl, if_pos rfl, if_neg (Ne.symm hji), hi, clip01_low le_rfl]
            unfold clip01
            refine max_le (le_trans (min_le_left _ _) ?_) ?_ <;> linarith
          · rw [if_neg hk, if_neg hk, add_zero, zero_sub]
            by_cases hk' : k = j
            · subst hk'
              rw [if_pos rfl, clip01_mid hj.le hj1.le]
              unfold clip01
              refine max_le (le_trans (min_le_left _ _) ?_) ?_ <;> linarith
            · rw [if_neg hk', neg_zero, add_zero]
              exact clip01_mono (by linarith)
        · rw [hxt, if_neg hji, if_neg hji, if_pos rfl, add_zero, zero_sub, clip01_mid hj.le hj1.le]
          unfold clip01
          refine max_lt (lt_of_le_of_lt (min_le_left _ _) ?_) ?_ <;> linarith
      rw [h2, Finset.sum_add_distrib, Finset.sum_sub_distrib, Finset.sum_ite_eq', Finset.sum_ite_eq', hsum] at hlt
      simp at hlt
    rw [hfdef]
    beta_reduce
    rw [h1]
    beta_reduce
    rw [hxt, if_pos rfl]
    have : clip01 (t / 2) = t / 2 := clip01_mid (by linarith) (by linarith [(hx i).1])
    rw [← this]
    exact clip01_mono (by linarith)
  have hzero : f 0 = 0 := hleft 0 (by linarith [(hx i).1]) le_rfl
  have hs := hasDerivAt_iff_tendsto_slope_zero.1 hf'
  simp only [zero_add, hzero, sub_zero, smul_eq_mul] at hs
  have hl : Tendsto (fun t : ℝ => t⁻¹ * f t) (𝓝[<] 0) (𝓝 d) :=
    hs.mono_left (nhdsWithin_mono _ fun t ht => ne_of_lt ht)
  have hr : Tendsto (fun t : ℝ => t⁻¹ * f t) (𝓝[>] 0) (𝓝 d) :=
    hs.mono_left (nhdsWithin_mono _ fun t ht => ne_of_gt ht)
  have e1 : d ≤ 0 := by
    refine le_of_tendsto hl ?_
    have : ∀ᶠ t in 𝓝[<] (0 : ℝ), -(x i) < t :=
      (lt_mem_nhds (show -(x i) < 0 by linarith [(hx i).1])).filter_mono nhdsWithin_le_nhds
    filter_upwards [this, self_mem_nhdsWithin] with t ht ht0
    rw [hleft t ht (le_of_lt ht0), mul_zero]
  have e2 : (1 / 2 : ℝ) ≤ d := by
    refine ge_of_tendsto hr ?_
    have g1 : ∀ᶠ t in 𝓝[>] (0 : ℝ), t < 1 - x i :=
      (gt_mem_nhds (show 0 < 1 - x i by linarith [(hx i).2])).filter_mono nhdsWithin_le_nhds
    have g2 : ∀ᶠ t in 𝓝[>] (0 : ℝ), t < x j - lam :=
      (gt_mem_nhds hj).filter_mono nhdsWithin_le_nhds
    filter_upwards [g1, g2, self_mem_nhdsWithin] with t t1 t2 t0
    have t0' : (0 : ℝ) < t := t0
    have := hright t t0' t1 t2
    calc (1 / 2 : ℝ) = t⁻¹ * (t / 2) := by field_simp
      _ ≤ t⁻¹ * f t := mul_le_mul_of_nonneg_left this (inv_nonneg.2 t0'.le)
  linarith

theorem clip01_compl (t : ℝ) : clip01 (1 - t) = 1 - clip01 t := by
  rcases le_total t 0 with h | h
  · rw [clip01_low h, clip01_high (by linarith), sub_zero]
  · rcases le_total t 1 with h' | h'
    · rw [clip01_mid h h', clip01_mid (by linarith) (by linarith)]
    · rw [clip01_high h', clip01_low (by linarith), sub_self]

theorem proj_compl {s : ℝ} (h0 : 0 < s) (hn : s < n) (x : Fin n → ℝ) (hx : ∀ i, 0 ≤ x i ∧ x i ≤ 1) :
    proj (fun i => 1 - x i) ((n : ℝ) - s) = fun i => 1 - proj x s i := by
  obtain ⟨lam, h1, h2⟩ := proj_clip h0 hn x hx
  have hc : ∀ i, clip01 ((1 - x i) - -lam) = 1 - clip01 (x i - lam) := by
    intro i
    rw [← clip01_compl]
    congr 1
    ring
  rw [proj_of_clip (lam := -lam) (by linarith) (by linarith)
    (fun i => ⟨by linarith [(hx i).2], by linarith [(hx i).1]⟩), h1]
  · funext i
    exact hc i
  · rw [Finset.sum_congr rfl fun i _ => hc i, Finset.sum_sub_distrib, h2]
    simp

/-- Where the projector is differentiable there is no kink. -/
theorem proj_no_kink {s lam : ℝ} (h0 : 0 < s) (hn : s < n) {x : Fin n → ℝ} (hx : ∀ i, 0 < x i ∧ x i < 1)
    (hsum : ∑ i, clip01 (x i - lam) = s) (hd : DifferentiableAt ℝ (fun x : Fin n → ℝ => proj x s) x) (i : Fin n) :
    x i - lam ≠ 0 ∧ x i - lam ≠ 1 := by
  refine ⟨fun h => proj_kink_zero h0 hn hx hsum i h hd, fun h => ?_⟩
  have hc : ∀ i, clip01 ((1 - x i) - -lam) = 1 - clip01 (x i - lam) := by
    intro i
    rw [← clip01_compl]
    congr 1
    ring
  have hsum' : ∑ i, clip01 ((1 - x i) - -lam) = (n : ℝ) - s := by
    rw [Finset.sum_congr rfl fun i _ => hc i, Finset.sum_sub_distrib, hsum]
    simp
  refine proj_kink_zero (s := (n : ℝ) - s) (by linarith) (by linarith) (x := fun i => 1 - x i)
    (fun i => ⟨by linarith [(hx i).2], by linarith [(hx i).1]⟩) hsum' i (by linarith) ?_
  have hrefl : DifferentiableAt ℝ (fun z : Fin n → ℝ => (fun i => 1 - z i : Fin n → ℝ)) (fun i => 1 - x i) :=
    differentiableAt_pi.2 fun j =>
      DifferentiableAt.const_sub (f := fun z : Fin n → ℝ => z j) (differentiableAt_apply j _) 1
  have hback : (fun i => 1 - (1 - x i)) = x := by funext i; ring
  have hcomp : DifferentiableAt ℝ (fun z : Fin n → ℝ => proj (fun i => 1 - z i) s) (fun i => 1 - x i) :=
    DifferentiableAt.comp (g := fun x : Fin n → ℝ => proj x s) (f := fun z : Fin n → ℝ => fun i => 1 - z i)
      (fun i => 1 - x i) (by beta_reduce; rw [hback]; exact hd) hrefl
  have hfin : DifferentiableAt ℝ (fun z : Fin n → ℝ => (fun i => 1 - proj (fun i => 1 - z i) s i : Fin n → ℝ))
      (fun i => 1 - x i) :=
    differentiableAt_pi.2 fun j => ((differentiableAt_pi.1 hcomp) j).const_sub 1
  refine hfin.congr_of_eventuallyEq ?_
  have hev : ∀ᶠ z : Fin n → ℝ in 𝓝 (fun i => 1 - x i), ∀ i, 0 < z i ∧ z i < 1 := by
    rw [eventually_all]
    intro k
    have ha := (continuous_apply (A := fun _ : Fin n => ℝ) k).continuousAt (x := fun i => 1 - x i)
    exact (ha.eventually (lt_mem_nhds (by linarith [(hx k).2]))).and
      (ha.eventually (gt_mem_nhds (by linarith [(hx k).1])))
  filter_upwards [hev] with z hz
  have := proj_compl h0 hn (fun i => 1 - z i) (fun i => ⟨by linarith [(hz i).2], by linarith [(hz i).1]⟩)
  have e : (fun i => 1 - (1 - z i)) = z := by funext i; ring
  rw [e] at this
  exact this

end Jrystal
