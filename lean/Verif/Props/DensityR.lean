import Verif.Lemmas.DensityR
import Verif.Lemmas.Xc
import Verif.Props.Planewave
import Verif.Props.Grid
import Verif.Props.Cell

/- C55: the analytic density gradient. -/
namespace Jrystal
open scoped BigOperators

private theorem vol_pos {A : Matrix (Fin 3) (Fin 3) ℝ} (hA : A.det ≠ 0) : 0 < volume A :=
  abs_pos.mpr hA

/-- C55: with occupations the result is the gradient at `r` of `Σ_skb occ |ψ_skb|²`. -/
theorem nablaDensity_gradient {ns nk nb : ℕ} {n : Fin 3 → ℕ} (r : Fin 3 → ℝ) (c : Coef ns nk nb n)
    (A : Matrix (Fin 3) (Fin 3) ℝ) (hA : A.det ≠ 0) (g : Idx n → Fin 3 → ℝ) (occ : Occ ns nk nb) :
    Spec.IsGradient
      (fun r => ∑ s, ∑ k, ∑ b, occ s k b * ‖Spec.planeWaveAt |A.det| g (c s k b) r‖ ^ 2) r
      (nablaDensity r c A g occ) := by
  have h : ∀ s k b, HasFDerivAt
      (fun r => occ s k b * ‖Spec.planeWaveAt |A.det| g (c s k b) r‖ ^ 2)
      ((occ s k b * (volume A)⁻¹) • Spec.dotForm (nablaDensityBands r c g s k b)) r := by
    intro s k b
    have h1 := (hasFDerivAt_sumSq r c g s k b).const_mul (occ s k b * (volume A)⁻¹)
    refine h1.congr_of_eventuallyEq (Filter.Eventually.of_forall fun y => ?_)
    beta_reduce
    rw [planeWaveAt_sq _ (abs_pos.mpr hA)]
    unfold volume
    rw [div_eq_mul_inv]
    ring
  have h2 := HasFDerivAt.fun_sum (u := Finset.univ) fun s _ =>
    HasFDerivAt.fun_sum (u := Finset.univ) fun k _ =>
      HasFDerivAt.fun_sum (u := Finset.univ) fun b _ => h s k b
  refine HasFDerivAt.congr_fderiv h2 ?_
  ext1 w
  simp only [_root_.sum_apply, FunLike.coe_smul, Pi.smul_apply, smul_eq_mul, dotForm_apply]
  unfold nablaDensity
  simp only [Finset.sum_div, Finset.sum_mul, Finset.mul_sum]
  rw [Finset.sum_comm (γ := Fin 3)]
  refine Finset.sum_congr rfl fun s _ => ?_
  rw [Finset.sum_comm (γ := Fin 3)]
  refine Finset.sum_congr rfl fun k _ => ?_
  rw [Finset.sum_comm (γ := Fin 3)]
  refine Finset.sum_congr rfl fun b _ => Finset.sum_congr rfl fun d _ => ?_
  rw [div_eq_mul_inv]
  ring

/-- C55: that density, sampled at the points of the real grid, is `density_grid` summed over spins. -/
theorem densityGrid_samples {ns nk nb : ℕ} {n : Fin 3 → ℕ} (c : Coef ns nk nb n)
    (A : Matrix (Fin 3) (Fin 3) ℝ) (hA : A.det ≠ 0) (occ : Occ ns nk nb) (j : Idx n) :
    ∑ s, ∑ k, ∑ b, occ s k b *
        ‖Spec.planeWaveAt |A.det| (gVectors A n) (c s k b) (rVectors A n j)‖ ^ 2
      = ∑ s, densityGrid c (volume A) occ s j := by
  refine Finset.sum_congr rfl fun s _ => ?_
  rw [densityGrid_expansion A hA c (volume A) (vol_pos hA) occ s j]
  refine Finset.sum_congr rfl fun k _ => Finset.sum_congr rfl fun b _ => ?_
  unfold Spec.planeWaveAt
  rw [norm_div, div_pow, Complex.norm_real, Real.norm_eq_abs, sq_abs, Real.sq_sqrt (abs_nonneg _)]
  rfl

/-- C55 (part): without occupations the result is the gradient of `Ω |ψ|²`.  Missing: the factor
`1/Ω`, which the code leaves out (`nablaDensityBands_iff`). -/
theorem nablaDensityBands_partial {ns nk nb : ℕ} {n : Fin 3 → ℕ} (r : Fin 3 → ℝ)
    (c : Coef ns nk nb n) (A : Matrix (Fin 3) (Fin 3) ℝ) (hA : A.det ≠ 0) (g : Idx n → Fin 3 → ℝ)
    (s : Fin ns) (k : Fin nk) (b : Fin nb) :
    Spec.IsGradient (fun r => |A.det| * ‖Spec.planeWaveAt |A.det| g (c s k b) r‖ ^ 2) r
      (nablaDensityBands r c g s k b) := by
  refine (hasFDerivAt_sumSq r c g s k b).congr_of_eventuallyEq
    (Filter.Eventually.of_forall fun y => ?_)
  beta_reduce
  rw [planeWaveAt_sq _ (abs_pos.mpr hA)]
  field_simp

/-- C55: without occupations the result is the gradient of `|ψ|²` exactly when the cell has volume
one or the gradient vanishes. -/
theorem nablaDensityBands_iff {ns nk nb : ℕ} {n : Fin 3 → ℕ} (r : Fin 3 → ℝ)
    (c : Coef ns nk nb n) (A : Matrix (Fin 3) (Fin 3) ℝ) (hA : A.det ≠ 0) (g : Idx n → Fin 3 → ℝ)
    (s : Fin ns) (k : Fin nk) (b : Fin nb) :
    Spec.IsGradient (fun r => ‖Spec.planeWaveAt |A.det| g (c s k b) r‖ ^ 2) r
        (nablaDensityBands r c g s k b)
      ↔ |A.det| = 1 ∨ nablaDensityBands r c g s k b = 0 := by
  have hv : |A.det| ≠ 0 := abs_ne_zero.mpr hA
  have h1 := (nablaDensityBands_partial r c A hA g s k b)
  have h2 : HasFDerivAt (fun r => ‖Spec.planeWaveAt |A.det| g (c s k b) r‖ ^ 2)
      (Spec.dotForm fun d => |A.det|⁻¹ * nablaDensityBands r c g s k b d) r := by
    have h3 := HasFDerivAt.const_mul h1 |A.det|⁻¹
    refine HasFDerivAt.congr_fderiv (h3.congr_of_eventuallyEq
      (Filter.Eventually.of_forall fun y => ?_)) ?_
    · beta_reduce
      rw [← mul_assoc, inv_mul_cancel₀ hv, one_mul]
    · ext1 w
      simp only [FunLike.coe_smul, Pi.smul_apply, smul_eq_mul, dotForm_apply, Finset.mul_sum]
      exact Finset.sum_congr rfl fun d _ => by ring
  constructor
  · intro h
    have e := dotForm_inj (HasFDerivAt.unique h h2)
    by_cases h0 : nablaDensityBands r c g s k b = 0
    · exact Or.inr h0
    · left
      obtain ⟨d, hd⟩ := Function.ne_iff.mp h0
      have := congrFun e d
      have hd' : nablaDensityBands r c g s k b d ≠ 0 := hd
      have h4 : |A.det|⁻¹ = 1 := by
        have : |A.det|⁻¹ * nablaDensityBands r c g s k b d
            = 1 * nablaDensityBands r c g s k b d := by rw [one_mul]; exact this.symm
        exact mul_right_cancel₀ hd' this
      exact inv_eq_one.mp h4
  · rintro (h | h)
    · unfold Spec.IsGradient
      refine HasFDerivAt.congr_fderiv h2 (congrArg _ (funext fun d => ?_))
      rw [h]; simp
    · unfold Spec.IsGradient
      refine HasFDerivAt.congr_fderiv h2 (congrArg _ (funext fun d => ?_))
      simp [h]

/-- Two plane waves on the 2 × 1 × 1 grid: `1 + i exp(i G·r)`. -/
def twoWaves : Coef 1 1 1 grid2 := fun _ _ _ x => if x = pt2 true then Complex.I else 1

/-- The code's value for these waves at the origin is `-2 G`. -/
theorem nablaDensityBands_twoWaves (A : Matrix (Fin 3) (Fin 3) ℝ) (d : Fin 3) :
    nablaDensityBands 0 twoWaves (gVectors A grid2) 0 0 0 d = -2 * gVectors A grid2 (pt2 true) d := by
  unfold nablaDensityBands twoWaves
  simp only [sum_grid2, if_neg pt2_ne, if_true]
  have h0 : gVectors A grid2 (pt2 false) d = 0 :=
    congrFun (gVectors_zero A grid2 (pt2 false) pt2_false_zero) d
  simp [h0]

/-- C55 is false without occupations: for a skew cell of volume 6 the result is not the gradient of
`|ψ|²`. -/
theorem nablaDensityBands_wrong :
    ¬ ∀ (A : Matrix (Fin 3) (Fin 3) ℝ) (n : Fin 3 → ℕ) (c : Coef 1 1 1 n) (r : Fin 3 → ℝ),
      A.det ≠ 0 → Spec.IsGradient
        (fun r => ‖Spec.planeWaveAt |A.det| (gVectors A n) (c 0 0 0) r‖ ^ 2) r
        (nablaDensityBands r c (gVectors A n) 0 0 0) := by
  intro h
  rcases (nablaDensityBands_iff 0 twoWaves skewCell skewCell_det (gVectors skewCell grid2) 0 0 0).1
    (h skewCell grid2 twoWaves 0 skewCell_det) with h1 | h1
  · simp [skewCell, Matrix.det_fin_three] at h1
    norm_num at h1
  · refine pt2_ne (gVectors_injective skewCell skewCell_det grid2 ?_)
    rw [gVectors_zero skewCell grid2 (pt2 false) pt2_false_zero]
    funext d
    have := congrFun h1 d
    rw [nablaDensityBands_twoWaves] at this
    have h2 : (0 : Fin 3 → ℝ) d = 0 := rfl
    rw [h2] at this ⊢
    linarith

/-- C55: positions given in any shape with three entries are accepted, all others are rejected. -/
theorem checkPosition_spec (r : List ℝ) :
    (r.length ≠ 3 → checkPosition r = .error .valueError) ∧
    (∀ a b c, r = [a, b, c] → ∃ v, checkPosition r = .ok v ∧ v 0 = a ∧ v 1 = b ∧ v 2 = c) := by
  constructor
  · intro h; unfold checkPosition; rw [dif_neg h]
  · rintro a b c rfl
    exact ⟨_, rfl, rfl, rfl, rfl⟩

/-- Non-vacuity: with these waves and occupation 2 the density gradient at the origin is not zero. -/
example : nablaDensity 0 twoWaves skewCell (gVectors skewCell grid2) (fun _ _ _ => 2) ≠ 0 := by
  intro h1
  refine pt2_ne (gVectors_injective skewCell skewCell_det grid2 ?_)
  rw [gVectors_zero skewCell grid2 (pt2 false) pt2_false_zero]
  funext d
  have := congrFun h1 d
  unfold nablaDensity at this
  simp only [Finset.univ_unique, Finset.sum_singleton, Fin.default_eq_zero] at this
  rw [nablaDensityBands_twoWaves] at this
  have hv : volume skewCell ≠ 0 := (vol_pos skewCell_det).ne'
  have h2 : (0 : Fin 3 → ℝ) d = 0 := rfl
  rw [h2] at this ⊢
  rw [div_eq_zero_iff] at this
  rcases this with h | h
  · linarith
  · exact absurd h hv

end Jrystal
