import Verif.Spec.FermiLevel
import Mathlib.Analysis.SpecialFunctions.Log.Deriv
import Mathlib.Analysis.Calculus.Deriv.Slope
import Mathlib.Analysis.Calculus.Deriv.Add
import Mathlib.Data.Fintype.Prod

/- Occupations that minimise a differentiable free energy have a Fermi level (C99). -/
namespace Jrystal
open scoped BigOperators

/-- The derivative of the entropy of one state. -/
theorem hasDerivAt_cellEntropy {eps top : ℝ} (he : 0 < eps) {f : ℝ → ℝ} {f' : ℝ} (h : HasDerivAt f f' 0)
    (h0 : 0 ≤ f 0) (h1 : f 0 ≤ top) :
    HasDerivAt (fun s => f s * Real.log (eps + f s) + (top - f s) * Real.log (eps + top - f s))
      (-(f' * Spec.entropySlope eps top (f 0))) 0 := by
  have a1 : eps + f 0 ≠ 0 := by positivity
  have a2 : eps + top - f 0 ≠ 0 := by linarith
  have d1 := h.mul ((h.const_add eps).log a1)
  have d2 := (h.const_sub top).mul ((h.const_sub (eps + top)).log a2)
  refine (d1.add d2).congr_deriv ?_
  unfold Spec.entropySlope
  field_simp
  ring

/-- A function that is least at the left end of an interval does not have a negative derivative there. -/
theorem deriv_nonneg_of_least {φ : ℝ → ℝ} {φ' δ : ℝ} (hδ : 0 < δ) (h : HasDerivAt φ φ' 0)
    (hmin : ∀ s, 0 ≤ s → s ≤ δ → φ 0 ≤ φ s) : 0 ≤ φ' := by
  have h1 := h.tendsto_slope_zero_right
  refine ge_of_tendsto h1 ?_
  have : Set.Ioc (0 : ℝ) δ ∈ nhdsWithin (0 : ℝ) (Set.Ioi 0) := Ioc_mem_nhdsGT hδ
  filter_upwards [this] with s hs
  rw [zero_add, smul_eq_mul]
  exact mul_nonneg (inv_nonneg.mpr hs.1.le) (sub_nonneg.mpr (hmin s hs.1.le hs.2))

/-- Minimising occupations have a Fermi level. -/
theorem fermiLevel_of_least {nk nb : ℕ} (E : Occ 1 nk nb → ℝ) (e : Fin nk → Fin nb → ℝ) (occ : Occ 1 nk nb)
    (t eps top : ℝ) (he : 0 < eps) (h0 : ∀ k b, 0 ≤ occ 0 k b) (h1 : ∀ k b, occ 0 k b ≤ top)
    (hd : ∀ d : Fin nk → Fin nb → ℝ, HasDerivAt (fun s : ℝ => E fun σ k b => occ σ k b + s * d k b)
      (∑ k, ∑ b, d k b * e k b) 0)
    (hmin : ∀ occ' : Occ 1 nk nb, (∀ k b, 0 ≤ occ' 0 k b ∧ occ' 0 k b ≤ top) →
      ∑ k, ∑ b, occ' 0 k b = ∑ k, ∑ b, occ 0 k b →
      E occ - t * Spec.smearingEntropy eps top occ ≤ E occ' - t * Spec.smearingEntropy eps top occ') :
    ∃ μ, Spec.FermiLevel t eps top e (occ 0) μ := by
  set D : Fin nk × Fin nb → ℝ := fun i => e i.1 i.2 - t * Spec.entropySlope eps top (occ 0 i.1 i.2) with hD
  -- moving electrons from one state to another does not gain energy
  have hpair : ∀ i j : Fin nk × Fin nb, occ 0 i.1 i.2 < top → 0 < occ 0 j.1 j.2 → D j ≤ D i := by
    intro i j hi hj
    by_cases hij : i = j
    · rw [hij]
    let d : Fin nk → Fin nb → ℝ := fun k b =>
      (if (k, b) = i then 1 else 0) - (if (k, b) = j then 1 else 0)
    have hsum : ∀ w : Fin nk → Fin nb → ℝ, ∑ k, ∑ b, d k b * w k b = w i.1 i.2 - w j.1 j.2 := by
      intro w
      have h2 : ∀ i : Fin nk × Fin nb, ∑ k, ∑ b, (if (k, b) = i then (1 : ℝ) else 0) * w k b = w i.1 i.2 := by
        intro i
        rw [← Finset.sum_product' Finset.univ Finset.univ
          (fun k b => (if (k, b) = i then (1 : ℝ) else 0) * w k b), Finset.univ_product_univ]
        rw [Finset.sum_eq_single i]
        · simp
        · intro x _ hx
          rw [if_neg (by simpa using hx), zero_mul]
        · intro h; exact absurd (Finset.mem_univ _) h
      rw [← h2 i, ← h2 j, ← Finset.sum_sub_distrib]
      refine Finset.sum_congr rfl fun k _ => ?_
      rw [← Finset.sum_sub_distrib]
      exact Finset.sum_congr rfl fun b _ => sub_mul _ _ _
    have hS : HasDerivAt (fun s : ℝ => Spec.smearingEntropy eps top
        (fun σ k b => occ σ k b + s * d k b : Occ 1 nk nb))
        (∑ k, ∑ b, d k b * Spec.entropySlope eps top (occ 0 k b)) 0 := by
      unfold Spec.smearingEntropy
      simp only [Finset.univ_unique, Finset.sum_singleton]
      have h3 : ∀ k b, HasDerivAt (fun s : ℝ => occ default k b + s * d k b) (d k b) 0 := fun k b => by
        simpa using ((hasDerivAt_id (0 : ℝ)).mul_const (d k b)).const_add (occ default k b)
      have h4 := (HasDerivAt.fun_sum (u := Finset.univ) fun k (_ : k ∈ Finset.univ) =>
        HasDerivAt.fun_sum (u := Finset.univ) fun b (_ : b ∈ Finset.univ) =>
          hasDerivAt_cellEntropy (top := top) he (h3 k b)
            (by simpa using h0 k b) (by simpa using h1 k b)).fun_neg
      refine h4.congr_deriv ?_
      simp only [zero_mul, add_zero, Finset.sum_neg_distrib, neg_neg]
      rfl
    have hφ := (hd d).sub (hS.const_mul t)
    have hpos : 0 < min (top - occ 0 i.1 i.2) (occ 0 j.1 j.2) := lt_min (by linarith) hj
    have := deriv_nonneg_of_least hpos hφ fun s hs0 hs1 => ?_
    · rw [hsum, hsum] at this
      simp only [hD]
      nlinarith
    · have hs2 := le_min_iff.mp hs1
      have hocc : (fun σ k b => occ σ k b + 0 * d k b : Occ 1 nk nb) = occ := by
        funext σ k b; ring
      simp only [Pi.sub_apply]
      rw [hocc]
      refine hmin _ (fun k b => ?_) ?_
      · have hkb0 := h0 k b
        have hkb1 := h1 k b
        by_cases hi' : (k, b) = i
        · have hj' : (k, b) ≠ j := fun h => hij (hi'.symm.trans h)
          have e1 : occ 0 k b = occ 0 i.1 i.2 := by rw [← hi']
          simp only [d, if_pos hi', if_neg hj']
          rw [e1] at hkb0 ⊢
          constructor <;> linarith [hs2.1]
        · by_cases hj' : (k, b) = j
          · have e1 : occ 0 k b = occ 0 j.1 j.2 := by rw [← hj']
            simp only [d, if_neg hi', if_pos hj']
            rw [e1] at hkb0 hkb1 ⊢
            constructor <;> linarith [hs2.2]
          · simp only [d, if_neg hi', if_neg hj']
            constructor <;> linarith
      · have := hsum fun _ _ => s
        rw [sub_self] at this
        simp only [Finset.sum_add_distrib]
        rw [show (∑ k, ∑ b, s * d k b) = 0 by
          rw [← this]; exact Finset.sum_congr rfl fun k _ => Finset.sum_congr rfl fun b _ => mul_comm _ _]
        rw [add_zero]
  -- the level between the two kinds of states
  by_cases hA : (Finset.univ.filter fun j : Fin nk × Fin nb => 0 < occ 0 j.1 j.2).Nonempty
  · obtain ⟨j, hj, hmax⟩ := Finset.exists_max_image _ D hA
    rw [Finset.mem_filter] at hj
    refine ⟨D j, fun k b => ⟨fun h => hpair (k, b) j h hj.2, fun h => hmax (k, b) ?_⟩⟩
    rw [Finset.mem_filter]
    exact ⟨Finset.mem_univ _, h⟩
  · have hA' : ∀ k b, ¬ 0 < occ 0 k b := fun k b h =>
      hA ⟨(k, b), Finset.mem_filter.mpr ⟨Finset.mem_univ _, h⟩⟩
    by_cases hB : (Finset.univ : Finset (Fin nk × Fin nb)).Nonempty
    · obtain ⟨j, _, hm⟩ := Finset.exists_min_image _ D hB
      exact ⟨D j, fun k b => ⟨fun _ => hm (k, b) (Finset.mem_univ _), fun h => absurd h (hA' k b)⟩⟩
    · exact ⟨0, fun k b => absurd ⟨(k, b), Finset.mem_univ _⟩ hB⟩

/-- The slope of the entropy is that of the Fermi-Dirac entropy up to terms of order `eps`. -/
theorem entropySlope_near {eps top f : ℝ} (he : 0 < eps) (h0 : 0 < f) (h1 : f < top) :
    |Spec.entropySlope eps top f - Real.log ((top - f) / f)| ≤ eps / f + eps / (top - f) := by
  have hg : 0 < top - f := by linarith
  have a1 : 0 < eps + f := by positivity
  have a2 : 0 < eps + top - f := by linarith
  have hr : ∀ x : ℝ, 0 < x → 0 ≤ Real.log (eps + x) - Real.log x ∧ Real.log (eps + x) - Real.log x ≤ eps / x := by
    intro x hx
    rw [← Real.log_div (by positivity) hx.ne']
    have : (eps + x) / x = 1 + eps / x := by field_simp; ring
    rw [this]
    have hp : 0 < eps / x := by positivity
    exact ⟨Real.log_nonneg (by linarith), by linarith [Real.log_le_sub_one_of_pos (by linarith : 0 < 1 + eps / x)]⟩
  have hq : ∀ x : ℝ, 0 < x → 0 ≤ 1 - x / (eps + x) ∧ 1 - x / (eps + x) ≤ eps / x := by
    intro x hx
    have : 1 - x / (eps + x) = eps / (eps + x) := by field_simp; ring
    rw [this]
    exact ⟨by positivity, by gcongr; linarith⟩
  have e1 := hr f h0
  have e2 := hr (top - f) hg
  have e3 := hq f h0
  have e4 := hq (top - f) hg
  rw [← add_sub_assoc] at e2 e4
  unfold Spec.entropySlope
  rw [Real.log_div hg.ne' h0.ne', abs_le]
  constructor <;> linarith

end Jrystal
