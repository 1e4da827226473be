import Verif.Model.DensityR
import Verif.Spec.DensityR
import Verif.Lemmas.Planewave
import Mathlib.Analysis.SpecialFunctions.Trigonometric.Deriv
import Mathlib.Analysis.Calculus.FDeriv.Mul
import Mathlib.Analysis.Calculus.FDeriv.Pow
import Mathlib.Analysis.Calculus.FDeriv.Pi

/- Helper lemmas for the density gradient. -/
namespace Jrystal
open scoped BigOperators

theorem dotForm_apply (v w : Fin 3 → ℝ) : Spec.dotForm v w = ∑ d, v d * w d := by
  simp [Spec.dotForm]

theorem dotForm_inj {v w : Fin 3 → ℝ} (h : Spec.dotForm v = Spec.dotForm w) : v = w := by
  funext d
  have := congrArg (fun L => L (Pi.single d 1)) h
  simpa [dotForm_apply, Pi.single_apply] using this

/-- Real part of the plane-wave sum. -/
noncomputable def sumRe {ι : Type*} [Fintype ι] (g : ι → Fin 3 → ℝ) (c : ι → ℂ) (r : Fin 3 → ℝ) : ℝ :=
  ∑ x, ((c x).re * Real.cos (∑ e, g x e * r e) - (c x).im * Real.sin (∑ e, g x e * r e))

/-- Imaginary part of the plane-wave sum. -/
noncomputable def sumIm {ι : Type*} [Fintype ι] (g : ι → Fin 3 → ℝ) (c : ι → ℂ) (r : Fin 3 → ℝ) : ℝ :=
  ∑ x, ((c x).re * Real.sin (∑ e, g x e * r e) + (c x).im * Real.cos (∑ e, g x e * r e))

theorem sum_exp_eq {ι : Type*} [Fintype ι] (g : ι → Fin 3 → ℝ) (c : ι → ℂ) (r : Fin 3 → ℝ) :
    ∑ x, c x * Complex.exp (Complex.I * ((∑ d, g x d * r d : ℝ) : ℂ))
      = (sumRe g c r : ℂ) + Complex.I * (sumIm g c r : ℂ) := by
  have h : ∀ x, c x * Complex.exp (Complex.I * ((∑ d, g x d * r d : ℝ) : ℂ))
      = (((c x).re * Real.cos (∑ e, g x e * r e) - (c x).im * Real.sin (∑ e, g x e * r e) : ℝ) : ℂ)
        + Complex.I * (((c x).re * Real.sin (∑ e, g x e * r e)
          + (c x).im * Real.cos (∑ e, g x e * r e) : ℝ) : ℂ) := by
    intro x
    generalize (∑ d, g x d * r d) = t
    rw [mul_comm Complex.I, Complex.exp_mul_I, ← Complex.ofReal_cos, ← Complex.ofReal_sin]
    apply Complex.ext <;> simp
  rw [Finset.sum_congr rfl fun x _ => h x, Finset.sum_add_distrib, ← Finset.mul_sum]
  unfold sumRe sumIm
  push_cast
  rfl

theorem planeWaveAt_sq {ι : Type*} [Fintype ι] (Ω : ℝ) (hΩ : 0 < Ω) (g : ι → Fin 3 → ℝ) (c : ι → ℂ)
    (r : Fin 3 → ℝ) :
    ‖Spec.planeWaveAt Ω g c r‖ ^ 2 = (sumRe g c r ^ 2 + sumIm g c r ^ 2) / Ω := by
  unfold Spec.planeWaveAt
  rw [sum_exp_eq, norm_div, div_pow, ← Complex.normSq_eq_norm_sq, ← Complex.normSq_eq_norm_sq,
    Complex.normSq_ofReal, Real.mul_self_sqrt hΩ.le]
  congr 1
  simp [Complex.normSq_apply]
  ring

theorem hasFDerivAt_sumRe {ι : Type*} [Fintype ι] (g : ι → Fin 3 → ℝ) (c : ι → ℂ) (r : Fin 3 → ℝ) :
    HasFDerivAt (sumRe g c) (Spec.dotForm fun d => -∑ x, ((c x).re * Real.sin (∑ e, g x e * r e)
      + (c x).im * Real.cos (∑ e, g x e * r e)) * g x d) r := by
  have h1 : ∀ x, HasFDerivAt (fun r : Fin 3 → ℝ => ∑ e, g x e * r e) (Spec.dotForm (g x)) r := by
    intro x
    have := (Spec.dotForm (g x)).hasFDerivAt (x := r)
    refine this.congr_of_eventuallyEq (Filter.Eventually.of_forall fun y => ?_)
    exact (dotForm_apply _ _).symm
  have h2 := HasFDerivAt.fun_sum (u := Finset.univ) fun x _ =>
    (((h1 x).cos).const_mul (c x).re).sub (((h1 x).sin).const_mul (c x).im)
  refine HasFDerivAt.congr_fderiv h2 ?_
  ext1 d
  simp only [_root_.sum_apply, dotForm_apply, FunLike.coe_sub,
    Pi.sub_apply, FunLike.coe_smul, Pi.smul_apply, smul_eq_mul]
  simp only [neg_mul, Finset.sum_neg_distrib, Finset.sum_mul]
  rw [Finset.sum_comm, ← Finset.sum_neg_distrib]
  refine Finset.sum_congr rfl fun x _ => ?_
  simp only [Finset.mul_sum, ← Finset.sum_neg_distrib, ← Finset.sum_sub_distrib]
  refine Finset.sum_congr rfl fun e _ => ?_
  ring

theorem hasFDerivAt_sumIm {ι : Type*} [Fintype ι] (g : ι → Fin 3 → ℝ) (c : ι → ℂ) (r : Fin 3 → ℝ) :
    HasFDerivAt (sumIm g c) (Spec.dotForm fun d => ∑ x, ((c x).re * Real.cos (∑ e, g x e * r e)
      - (c x).im * Real.sin (∑ e, g x e * r e)) * g x d) r := by
  have h1 : ∀ x, HasFDerivAt (fun r : Fin 3 → ℝ => ∑ e, g x e * r e) (Spec.dotForm (g x)) r := by
    intro x
    have := (Spec.dotForm (g x)).hasFDerivAt (x := r)
    refine this.congr_of_eventuallyEq (Filter.Eventually.of_forall fun y => ?_)
    exact (dotForm_apply _ _).symm
  have h2 := HasFDerivAt.fun_sum (u := Finset.univ) fun x _ =>
    (((h1 x).sin).const_mul (c x).re).add (((h1 x).cos).const_mul (c x).im)
  refine HasFDerivAt.congr_fderiv h2 ?_
  ext1 d
  simp only [_root_.sum_apply, dotForm_apply, FunLike.coe_add,
    Pi.add_apply, FunLike.coe_smul, Pi.smul_apply, smul_eq_mul]
  simp only [Finset.sum_mul]
  rw [Finset.sum_comm]
  refine Finset.sum_congr rfl fun x _ => ?_
  simp only [Finset.mul_sum, ← Finset.sum_add_distrib]
  refine Finset.sum_congr rfl fun e _ => ?_
  ring

/-- The code's band gradient is the gradient of the squared plane-wave sum. -/
theorem hasFDerivAt_sumSq {ns nk nb : ℕ} {n : Fin 3 → ℕ} (r : Fin 3 → ℝ) (c : Coef ns nk nb n)
    (g : Idx n → Fin 3 → ℝ) (s : Fin ns) (k : Fin nk) (b : Fin nb) :
    HasFDerivAt (fun r => sumRe g (c s k b) r ^ 2 + sumIm g (c s k b) r ^ 2)
      (Spec.dotForm (nablaDensityBands r c g s k b)) r := by
  have h := ((hasFDerivAt_sumRe g (c s k b) r).pow 2).add ((hasFDerivAt_sumIm g (c s k b) r).pow 2)
  refine HasFDerivAt.congr_fderiv h ?_
  ext1 w
  simp only [FunLike.coe_add, Pi.add_apply, FunLike.coe_smul,
    Pi.smul_apply, smul_eq_mul, dotForm_apply]
  simp only [Finset.mul_sum, ← Finset.sum_add_distrib]
  refine Finset.sum_congr rfl fun d _ => ?_
  unfold nablaDensityBands sumRe sumIm
  simp only [nsmul_eq_mul]
  push_cast
  ring

end Jrystal
