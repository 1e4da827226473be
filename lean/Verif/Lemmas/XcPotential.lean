import Verif.Spec.XcPotential
import Verif.Lemmas.KohnSham
import Verif.Lemmas.Xc
import Mathlib.Analysis.Calculus.Deriv.Prod

/- Lemmas for C126: the functional derivative of the exchange-correlation energy. -/
namespace Jrystal
open scoped BigOperators ComplexConjugate
open KohnSham

variable {n : Fin 3 → ℕ}

/-- The derivative by Fourier transform is antisymmetric. -/
theorem grad_adjoint (g : Idx n → Fin 3 → ℝ) (w : Idx n → ℂ) (b : Idx n → ℝ) (d : Fin 3) :
    ∑ j, (conj (w j) * gradRho g b d j).re
      = -∑ j, (ifftn (fun k => fftn w k * Complex.I * (g k d : ℂ)) j).re * b j := by
  rcases isEmpty_or_nonempty (Idx n) with he | he
  · simp
  have hN : (gridCount n : ℂ) ≠ 0 := by
    have : 0 < gridCount n := by
      obtain ⟨x⟩ := he
      exact Finset.prod_pos fun i _ => lt_of_le_of_lt (Nat.zero_le _) (x i).isLt
    exact_mod_cast this.ne'
  have h1 : ∑ j, conj (w j) * gradRho g b d j
      = -∑ j, conj (ifftn (fun k => fftn w k * Complex.I * (g k d : ℂ)) j) * (b j : ℂ) := by
    have a1 := fftn_parseval w (gradRho g b d)
    have a2 := fftn_parseval (ifftn fun k => fftn w k * Complex.I * (g k d : ℂ)) fun j => (b j : ℂ)
    unfold gradRho at a1 ⊢
    rw [fftn_ifftn'] at a1 a2
    refine mul_left_cancel₀ hN ?_
    rw [mul_neg, ← a1, ← a2, ← Finset.sum_neg_distrib]
    refine Finset.sum_congr rfl fun k _ => ?_
    rw [map_mul, map_mul, Complex.conj_I, Complex.conj_ofReal]
    ring
  have h2 := congrArg Complex.re h1
  rw [Complex.neg_re, Complex.re_sum, Complex.re_sum] at h2
  rw [h2]
  refine congrArg _ (Finset.sum_congr rfl fun j _ => ?_)
  rw [Complex.re_mul_ofReal, Complex.conj_re]

/-- The flux through the grid: integration by parts. -/
theorem flux_by_parts (g : Idx n → Fin 3 → ℝ) (q a b : Idx n → ℝ) :
    ∑ j, q j * sigmaPair g a b j = -∑ j, Spec.divergence g (fun d j => (q j : ℂ) * gradRho g a d j) j * b j := by
  have h1 : ∀ j, q j * sigmaPair g a b j
      = ∑ d, (conj ((q j : ℂ) * gradRho g a d j) * gradRho g b d j).re := by
    intro j
    unfold sigmaPair
    rw [Complex.re_sum, Finset.mul_sum]
    refine Finset.sum_congr rfl fun d _ => ?_
    rw [map_mul, Complex.conj_ofReal, mul_assoc, Complex.re_ofReal_mul]
  simp only [h1]
  rw [Finset.sum_comm]
  simp only [grad_adjoint, Finset.sum_neg_distrib]
  rw [Finset.sum_comm]
  unfold Spec.divergence
  simp only [Complex.re_sum, Finset.sum_mul]

theorem sigmaPair_comm (g : Idx n → Fin 3 → ℝ) (a b : Idx n → ℝ) (j : Idx n) : sigmaPair g a b j = sigmaPair g b a j := by
  unfold sigmaPair
  rw [Complex.re_sum, Complex.re_sum]
  refine Finset.sum_congr rfl fun d _ => ?_
  rw [← Complex.conj_re, map_mul, Complex.conj_conj, mul_comm]

theorem sigma1_pair (g : Idx n → Fin 3 → ℝ) (a : Idx n → ℝ) (j : Idx n) : sigma1 g a j = sigmaPair g a a j := by
  unfold sigma1 sigmaPair
  rw [Complex.re_sum]
  rfl

theorem hasDerivAt_ifftn {f : ℝ → Idx n → ℂ} {f' : Idx n → ℂ} {t : ℝ} (h : ∀ j, HasDerivAt (fun t => f t j) (f' j) t)
    (k : Idx n) : HasDerivAt (fun t => ifftn (f t) k) (ifftn f' k) t := by
  simp only [ifftn_eq]
  exact (HasDerivAt.fun_sum fun j _ => (h j).mul_const _).div_const _

theorem hasDerivAt_gradRho (g : Idx n → Fin 3 → ℝ) {a : ℝ → Idx n → ℝ} {a' : Idx n → ℝ} {t : ℝ}
    (h : ∀ j, HasDerivAt (fun t => a t j) (a' j) t) (d : Fin 3) (j : Idx n) :
    HasDerivAt (fun t => gradRho g (a t) d j) (gradRho g a' d j) t := by
  unfold gradRho
  exact hasDerivAt_ifftn (fun k => ((hasDerivAt_fftn (fun j => (h j).ofReal_comp) k).mul_const _).mul_const _) j

theorem hasDerivAt_sigmaPair (g : Idx n → Fin 3 → ℝ) {a b : ℝ → Idx n → ℝ} {a' b' : Idx n → ℝ} {t : ℝ}
    (ha : ∀ j, HasDerivAt (fun t => a t j) (a' j) t) (hb : ∀ j, HasDerivAt (fun t => b t j) (b' j) t) (j : Idx n) :
    HasDerivAt (fun t => sigmaPair g (a t) (b t) j) (sigmaPair g (b t) a' j + sigmaPair g (a t) b' j) t := by
  have h1 : HasDerivAt (fun t => ∑ d, conj (gradRho g (a t) d j) * gradRho g (b t) d j)
      (∑ d, (conj (gradRho g a' d j) * gradRho g (b t) d j + conj (gradRho g (a t) d j) * gradRho g b' d j)) t :=
    HasDerivAt.fun_sum fun d _ => ((hasDerivAt_gradRho g ha d j).star).mul (hasDerivAt_gradRho g hb d j)
  have h2 := (Complex.reCLM.hasFDerivAt.comp_hasDerivAt t h1)
  refine h2.congr_deriv ?_
  rw [Finset.sum_add_distrib, map_add, sigmaPair_comm g (b t) a']
  rfl

/-- The derivative of a function of several variables along a curve. -/
theorem hasDerivAt_partials {m : ℕ} {f : (Fin m → ℝ) → ℝ} {x : ℝ → Fin m → ℝ} {x' : Fin m → ℝ}
    (hf : DifferentiableAt ℝ f (x 0)) (h : ∀ i, HasDerivAt (fun t => x t i) (x' i) 0) :
    HasDerivAt (fun t => f (x t)) (∑ i, Spec.partialAt f (x 0) i * x' i) 0 := by
  have h1 := hf.hasFDerivAt.comp_hasDerivAt (0 : ℝ) (hasDerivAt_pi.2 h)
  refine h1.congr_deriv ?_
  unfold Spec.partialAt
  conv_lhs => rw [pi_eq_sum_univ' x']
  simp only [map_sum, map_smul, smul_eq_mul]
  exact Finset.sum_congr rfl fun i _ => mul_comm _ _

end Jrystal
