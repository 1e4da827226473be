import Verif.Model.Energy
import Verif.Lemmas.Energy
import Verif.Props.Grid
import Mathlib.Analysis.Calculus.Deriv.Mul
import Mathlib.Analysis.Calculus.Deriv.Add
import Mathlib.Analysis.SpecialFunctions.ExpDeriv

namespace Jrystal
open scoped BigOperators ComplexConjugate

theorem isShift_unique {n : Fin 3 → ℕ} {t j j' : Idx n} (h : Spec.IsShift t j j') :
    j' = addIdx j t := by
  funext i
  apply Fin.ext
  have h1 := h i
  have h2 := isShift_addIdx j t i
  have h3 := (j' i).2
  have h4 := (addIdx j t i).2
  obtain ⟨a, ha⟩ := h1
  obtain ⟨b, hb⟩ := h2
  have h5 : ((addIdx j t i : ℕ) : ℤ) - (j' i : ℕ) = (n i : ℤ) * (a - b) := by
    rw [mul_sub]; omega
  rcases lt_trichotomy (a - b) 0 with hc | hc | hc
  · have : (n i : ℤ) * (a - b) ≤ -(n i : ℤ) := by nlinarith
    omega
  · rw [hc, mul_zero] at h5; omega
  · have : (n i : ℤ) ≤ (n i : ℤ) * (a - b) := by nlinarith
    omega

theorem fftn_const {n : Fin 3 → ℕ} (w : ℂ) (k : Idx n) (hk : ∃ i, (k i : ℕ) ≠ 0) :
    fftn (fun _ => w) k = 0 := by
  have hn : ∀ i, 0 < n i := fun i => by have := (k i).2; omega
  have h := omega_orth (zeroIdx hn) k
  have hne : zeroIdx hn ≠ k := by
    obtain ⟨i, hi⟩ := hk
    intro h
    exact hi (by rw [← h]; rfl)
  rw [if_neg hne] at h
  rw [fftn_eq, ← Finset.mul_sum]
  have h2 : ∑ j, conj (omega k j) = ∑ j, omega (zeroIdx hn) j * conj (omega k j) :=
    Finset.sum_congr rfl fun j _ => by rw [omega_zero (zeroIdx hn) j fun _ => rfl, one_mul]
  rw [h2, h, mul_zero]

theorem gradRho_add {n : Fin 3 → ℕ} (g : Idx n → Fin 3 → ℝ) (a b : Idx n → ℝ) (d : Fin 3) (j : Idx n) :
    gradRho g (fun i => a i + b i) d j = gradRho g a d j + gradRho g b d j := by
  unfold gradRho
  rw [← ifftn_add]
  congr 1
  funext k
  have : (fun i => ((a i + b i : ℝ) : ℂ)) = fun i => (a i : ℂ) + (b i : ℂ) := by
    funext i; push_cast; rfl
  rw [this, fftn_add]
  ring

theorem gradRho_smul {n : Fin 3 → ℕ} (g : Idx n → Fin 3 → ℝ) (c : ℝ) (a : Idx n → ℝ) (d : Fin 3)
    (j : Idx n) : gradRho g (fun i => c * a i) d j = c * gradRho g a d j := by
  unfold gradRho
  rw [← ifftn_smul]
  congr 1
  funext k
  have : (fun i => ((c * a i : ℝ) : ℂ)) = fun i => (c : ℂ) * (a i : ℂ) := by
    funext i; push_cast; rfl
  rw [this, fftn_smul]
  ring

theorem ifftn_translate {n : Fin 3 → ℕ} (F F' : Idx n → ℂ) (t : Idx n)
    (h : ∀ k, F' k = F k * conj (omega k t)) (j : Idx n) : ifftn F' (addIdx j t) = ifftn F j := by
  rw [ifftn_eq, ifftn_eq]
  congr 1
  refine Finset.sum_congr rfl fun k _ => ?_
  rw [h, omega_add]
  linear_combination (F k * omega k j) * omega_mul_conj k t

theorem gradRho_translate {n : Fin 3 → ℕ} (g : Idx n → Fin 3 → ℝ) (a a' : Idx n → ℝ) (t : Idx n)
    (h : ∀ j, a' (addIdx j t) = a j) (d : Fin 3) (j : Idx n) :
    gradRho g a' d (addIdx j t) = gradRho g a d j := by
  unfold gradRho
  refine ifftn_translate _ _ t (fun k => ?_) j
  rw [fftn_translate (fun j => (a j : ℂ)) (fun j => (a' j : ℂ)) t (fun j => by rw [h j]) k]
  ring

theorem sigma1_eq {n : Fin 3 → ℕ} (g : Idx n → Fin 3 → ℝ) (a : Idx n → ℝ) (j : Idx n) :
    sigma1 g a j = ∑ d, ‖gradRho g a d j‖ ^ 2 := by
  unfold sigma1
  exact Finset.sum_congr rfl fun d _ => absoluteSquare_eq _

theorem sigmaPair_self {n : Fin 3 → ℕ} (g : Idx n → Fin 3 → ℝ) (a : Idx n → ℝ) (j : Idx n) :
    sigmaPair g a a j = ∑ d, ‖gradRho g a d j‖ ^ 2 := by
  unfold sigmaPair
  rw [Complex.re_sum]
  refine Finset.sum_congr rfl fun d _ => ?_
  rw [Complex.conj_mul']
  exact_mod_cast rfl

theorem sigmaPair_re {n : Fin 3 → ℕ} (g : Idx n → Fin 3 → ℝ) (a b : Idx n → ℝ) (j : Idx n) :
    sigmaPair g a b j = ∑ d, ((gradRho g a d j).re * (gradRho g b d j).re
      + (gradRho g a d j).im * (gradRho g b d j).im) := by
  unfold sigmaPair
  rw [Complex.re_sum]
  refine Finset.sum_congr rfl fun d _ => ?_
  simp only [Complex.mul_re, Complex.conj_re, Complex.conj_im]
  ring

theorem sigma1_two {n : Fin 3 → ℕ} (g : Idx n → Fin 3 → ℝ) (a : Idx n → ℝ) (j : Idx n) :
    sigma1 g (fun i => 2 * a i) j = 4 * sigmaPair g a a j := by
  rw [sigma1_eq, sigmaPair_self, Finset.mul_sum]
  refine Finset.sum_congr rfl fun d _ => ?_
  rw [gradRho_smul, norm_mul]
  simp
  ring

/-- Value of the energy when no imaginary part can occur. -/
theorem xcEnergy_value (lib : XcLib) (xt : String) {ns : ℕ} {n : Fin 3 → ℕ}
    (rho : Fin ns → Idx n → ℝ) (g : Idx n → Fin 3 → ℝ) (vol : ℝ) :
    xcEnergy lib xt false rho g vol
      = .ok (vol / (gridCount n : ℝ) * ∑ j, excDensity lib xt g rho j * ∑ s, rho s j) := by
  have h : ∑ s, ∑ j, xcDensity lib xt false g rho s j * (rho s j : ℂ)
      = ((∑ j, excDensity lib xt g rho j * ∑ s, rho s j : ℝ) : ℂ) := by
    rw [Finset.sum_comm]
    push_cast
    refine Finset.sum_congr rfl fun j _ => ?_
    rw [Finset.mul_sum]
    exact Finset.sum_congr rfl fun s _ => by simp [xcDensity]
  unfold xcEnergy
  dsimp only
  rw [h, Complex.ofReal_im, Complex.ofReal_re, if_pos (by norm_num)]
  congr 1
  ring

/-! The grid with two points along the first axis. -/

/-- Grid sizes `2 × 1 × 1`. -/
def grid2 : Fin 3 → ℕ := fun i => if i = 0 then 2 else 1

/-- The two points of the grid. -/
def pt2 (b : Bool) : Idx grid2
  | 0 => if b then (1 : Fin 2) else (0 : Fin 2)
  | 1 => (0 : Fin 1)
  | 2 => (0 : Fin 1)

theorem pt2_cases (k : Idx grid2) : k = pt2 false ∨ k = pt2 true := by
  have h1 : (k 1 : ℕ) = 0 := by have : (k 1 : ℕ) < 1 := (k 1).2; omega
  have h2 : (k 2 : ℕ) = 0 := by have : (k 2 : ℕ) < 1 := (k 2).2; omega
  have h0 : (k 0 : ℕ) < 2 := (k 0).2
  rcases Nat.lt_or_ge (k 0 : ℕ) 1 with h | h
  · left
    funext i
    apply Fin.ext
    fin_cases i
    · show (k 0 : ℕ) = 0; omega
    · exact h1
    · exact h2
  · right
    funext i
    apply Fin.ext
    fin_cases i
    · show (k 0 : ℕ) = 1; omega
    · exact h1
    · exact h2

theorem pt2_ne : pt2 false ≠ pt2 true := by
  intro h
  have := congrArg (fun k : Idx grid2 => (k 0 : ℕ)) h
  change (0 : ℕ) = 1 at this
  omega

theorem sum_grid2 {M : Type*} [AddCommMonoid M] (f : Idx grid2 → M) :
    ∑ k, f k = f (pt2 false) + f (pt2 true) := by
  have h : (Finset.univ : Finset (Idx grid2)) = {pt2 false, pt2 true} := by
    ext k
    simp only [Finset.mem_univ, Finset.mem_insert, Finset.mem_singleton, true_iff]
    exact pt2_cases k
  rw [h, Finset.sum_pair pt2_ne]

theorem omega_grid2 : omega (pt2 true) (pt2 true) = -1 := by
  unfold omega
  rw [Fin.sum_univ_three]
  change Complex.exp (2 * Real.pi * Complex.I *
    (((1 : ℕ) : ℂ) * ((1 : ℕ) : ℂ) / ((2 : ℕ) : ℂ) + ((0 : ℕ) : ℂ) * ((0 : ℕ) : ℂ) / ((1 : ℕ) : ℂ)
      + ((0 : ℕ) : ℂ) * ((0 : ℕ) : ℂ) / ((1 : ℕ) : ℂ))) = -1
  rw [show (2 * (Real.pi : ℂ) * Complex.I * (((1 : ℕ) : ℂ) * ((1 : ℕ) : ℂ) / ((2 : ℕ) : ℂ)
    + ((0 : ℕ) : ℂ) * ((0 : ℕ) : ℂ) / ((1 : ℕ) : ℂ) + ((0 : ℕ) : ℂ) * ((0 : ℕ) : ℂ) / ((1 : ℕ) : ℂ)))
    = Real.pi * Complex.I by push_cast; ring]
  exact Complex.exp_pi_mul_I

theorem pt2_false_zero (i : Fin 3) : (pt2 false i : ℕ) = 0 := by
  fin_cases i <;> rfl

theorem fftn_grid2 (f : Idx grid2 → ℂ) :
    fftn f (pt2 false) = f (pt2 false) + f (pt2 true) ∧
    fftn f (pt2 true) = f (pt2 false) - f (pt2 true) := by
  rw [fftn_eq, fftn_eq, sum_grid2, sum_grid2]
  rw [omega_zero _ _ pt2_false_zero, omega_zero _ _ pt2_false_zero, omega_symm (pt2 true) (pt2 false),
    omega_zero _ _ pt2_false_zero, omega_grid2]
  simp
  ring

theorem ifftn_grid2 (f : Idx grid2 → ℂ) :
    ifftn f (pt2 false) = (f (pt2 false) + f (pt2 true)) / 2 ∧
    ifftn f (pt2 true) = (f (pt2 false) - f (pt2 true)) / 2 := by
  have hc : (gridCount grid2 : ℂ) = 2 := by
    have : gridCount grid2 = 2 := by decide
    rw [this]; norm_num
  rw [ifftn_eq, ifftn_eq, sum_grid2, sum_grid2, hc]
  rw [omega_zero _ _ pt2_false_zero, omega_zero _ _ pt2_false_zero, omega_symm (pt2 true) (pt2 false),
    omega_zero _ _ pt2_false_zero, omega_grid2]
  constructor <;> ring

end Jrystal
