import Verif.Model.Run
import Mathlib.Tactic.LinearCombination

/-
Lemmas for Props/Symmetry.lean: how the arrays of the model change under a rotation of the axes.
-/
namespace Jrystal
open scoped BigOperators ComplexConjugate
open Matrix

/-- A vector times a matrix. -/
def rot3 (R : Matrix (Fin 3) (Fin 3) ℝ) (v : Fin 3 → ℝ) : Fin 3 → ℝ := fun d => ∑ e, v e * R e d

theorem orth_rows {R : Matrix (Fin 3) (Fin 3) ℝ} (hR : R * Rᵀ = 1) (e f : Fin 3) :
    ∑ d, R e d * R f d = if e = f then 1 else 0 := by
  have := congrFun (congrFun hR e) f
  rw [Matrix.mul_apply] at this
  simpa [Matrix.one_apply] using this

theorem rot3_dot {R : Matrix (Fin 3) (Fin 3) ℝ} (hR : R * Rᵀ = 1) (v w : Fin 3 → ℝ) :
    ∑ d, rot3 R v d * rot3 R w d = ∑ d, v d * w d := by
  have h := orth_rows hR
  have h00 := h 0 0
  have h01 := h 0 1
  have h02 := h 0 2
  have h11 := h 1 1
  have h12 := h 1 2
  have h22 := h 2 2
  simp only [Fin.sum_univ_three, rot3] at *
  simp at h00 h01 h02 h11 h12 h22
  linear_combination (v 0 * w 0) * h00 + (v 0 * w 1 + v 1 * w 0) * h01 +
    (v 0 * w 2 + v 2 * w 0) * h02 + (v 1 * w 1) * h11 + (v 1 * w 2 + v 2 * w 1) * h12 +
    (v 2 * w 2) * h22

theorem rot3_sq {R : Matrix (Fin 3) (Fin 3) ℝ} (hR : R * Rᵀ = 1) (v : Fin 3 → ℝ) :
    ∑ d, rot3 R v d ^ 2 = ∑ d, v d ^ 2 := by
  simpa [pow_two] using rot3_dot hR v v

theorem rot3_add (R : Matrix (Fin 3) (Fin 3) ℝ) (v w : Fin 3 → ℝ) (d : Fin 3) :
    rot3 R v d + rot3 R w d = rot3 R (fun e => v e + w e) d := by
  simp only [rot3, ← Finset.sum_add_distrib]
  exact Finset.sum_congr rfl fun e _ => by ring

theorem rot3_sub (R : Matrix (Fin 3) (Fin 3) ℝ) (v w : Fin 3 → ℝ) (d : Fin 3) :
    rot3 R v d - rot3 R w d = rot3 R (fun e => v e - w e) d := by
  simp only [rot3, ← Finset.sum_sub_distrib]
  exact Finset.sum_congr rfl fun e _ => by ring

theorem rot3_rows {m : ℕ} (P : Matrix (Fin m) (Fin 3) ℝ) (R : Matrix (Fin 3) (Fin 3) ℝ) (a : Fin m) :
    (P * R) a = rot3 R (P a) := by
  funext d
  rw [Matrix.mul_apply]
  rfl

theorem inv_rotate {R : Matrix (Fin 3) (Fin 3) ℝ} (hR : R * Rᵀ = 1) (A : Matrix (Fin 3) (Fin 3) ℝ) :
    ((A * R)⁻¹)ᵀ = (A⁻¹)ᵀ * R := by
  have h : R⁻¹ = Rᵀ := Matrix.inv_eq_right_inv hR
  rw [Matrix.mul_inv_rev, h, Matrix.transpose_mul, Matrix.transpose_transpose]

theorem reciprocalVectors_rotate {R : Matrix (Fin 3) (Fin 3) ℝ} (hR : R * Rᵀ = 1)
    (A : Matrix (Fin 3) (Fin 3) ℝ) : reciprocalVectors (A * R) = reciprocalVectors A * R := by
  rw [reciprocalVectors, inv_rotate hR, reciprocalVectors, Matrix.smul_mul]

theorem vectorGrid_rotate (B R : Matrix (Fin 3) (Fin 3) ℝ) (n : Fin 3 → ℕ) (nz : Bool) (j : Idx n) :
    vectorGrid (B * R) n nz j = rot3 R (vectorGrid B n nz j) := by
  funext d
  simp only [vectorGrid, rot3, Matrix.mul_apply, Fin.sum_univ_three]
  ring

theorem gVectors_rotate {R : Matrix (Fin 3) (Fin 3) ℝ} (hR : R * Rᵀ = 1) (A : Matrix (Fin 3) (Fin 3) ℝ)
    (n : Fin 3 → ℕ) : gVectors (A * R) n = fun k => rot3 R (gVectors A n k) := by
  funext k
  rw [gVectors, reciprocalVectors_rotate hR, vectorGrid_rotate]
  rfl

theorem kVectors_rotate {R : Matrix (Fin 3) (Fin 3) ℝ} (hR : R * Rᵀ = 1) (A : Matrix (Fin 3) (Fin 3) ℝ)
    (n : Fin 3 → ℕ) : kVectors (A * R) n = fun k => rot3 R (kVectors A n k) := by
  funext k d
  simp only [kVectors, rot3, reciprocalVectors_rotate hR, Matrix.mul_apply, Fin.sum_univ_three]
  ring

theorem vol_rotate {R : Matrix (Fin 3) (Fin 3) ℝ} (hR : R * Rᵀ = 1) (A : Matrix (Fin 3) (Fin 3) ℝ) :
    |(A * R).det| = |A.det| := by
  have h : R.det * R.det = 1 := by
    have := congrArg Matrix.det hR
    rwa [Matrix.det_mul, Matrix.det_transpose, Matrix.det_one] at this
  have h1 : |R.det| = 1 := by
    have h2 : |R.det| * |R.det| = 1 := by rw [← abs_mul, h, abs_one]
    nlinarith [abs_nonneg R.det]
  rw [Matrix.det_mul, abs_mul, h1, mul_one]

theorem sphericalMask_rotate {R : Matrix (Fin 3) (Fin 3) ℝ} (hR : R * Rᵀ = 1)
    (A : Matrix (Fin 3) (Fin 3) ℝ) (n : Fin 3 → ℕ) (cut : ℝ) :
    sphericalMask (A * R) n cut = sphericalMask A n cut := by
  funext k
  have h : normSq3 (gVectors (A * R) n k) = normSq3 (gVectors A n k) := by
    rw [gVectors_rotate hR]
    exact rot3_sq hR _
  rw [sphericalMask, sphericalMask, h]

theorem translationCount_rotate {R : Matrix (Fin 3) (Fin 3) ℝ} (hR : R * Rᵀ = 1)
    (A : Matrix (Fin 3) (Fin 3) ℝ) (cut : ℝ) : translationCount (A * R) cut = translationCount A cut := by
  have h : (fun d => ∑ i, (A * R) i d) = rot3 R (fun d => ∑ i, A i d) := by
    funext d
    simp only [rot3, Matrix.mul_apply, Fin.sum_univ_three]
    ring
  have h2 : normSq3 (fun d => ∑ i, (A * R) i d) = normSq3 (fun d => ∑ i, A i d) := by
    rw [h]
    exact rot3_sq hR _
  rw [translationCount, translationCount, h2]

theorem ewald_rotate {R : Matrix (Fin 3) (Fin 3) ℝ} (hR : R * Rᵀ = 1) (erfc : ℝ → ℝ) {na nt : ℕ}
    {n : Fin 3 → ℕ} (pos : Fin na → Fin 3 → ℝ) (q : Fin na → ℝ) (g : Idx n → Fin 3 → ℝ) (vol eta : ℝ)
    (T : Fin nt → Fin 3 → ℝ) :
    ewald erfc (fun a => rot3 R (pos a)) q (fun k => rot3 R (g k)) vol eta (fun t => rot3 R (T t)) =
      ewald erfc pos q g vol eta T := by
  have h1 : ∀ i j, ewaldTau (fun a => rot3 R (pos a)) i j = rot3 R (ewaldTau pos i j) := by
    intro i j
    funext d
    exact rot3_sub R _ _ d
  have h2 : ∀ tau t, ewaldNorm (rot3 R tau) (rot3 R t) = ewaldNorm tau t := by
    intro tau t
    simp only [ewaldNorm, rot3_sub, rot3_sq hR]
  simp only [ewald, h1, ewaldOverlap, h2, ewaldReciprocal, ewaldGSq, rot3_sq hR, rot3_dot hR]

theorem hartreeReciprocal_rotate {R : Matrix (Fin 3) (Fin 3) ℝ} (hR : R * Rᵀ = 1) {ns : ℕ}
    {n : Fin 3 → ℕ} (rho : Fin ns → Idx n → ℂ) (g : Idx n → Fin 3 → ℝ) (ks : Bool) :
    hartreeReciprocal rho (fun k => rot3 R (g k)) ks = hartreeReciprocal rho g ks := by
  funext k
  simp only [hartreeReciprocal, rot3_sq hR]

theorem externalReciprocal_rotate {R : Matrix (Fin 3) (Fin 3) ℝ} (hR : R * Rᵀ = 1) {na : ℕ}
    {n : Fin 3 → ℕ} (pos : Fin na → Fin 3 → ℝ) (charge : Fin na → ℝ) (g : Idx n → Fin 3 → ℝ) (vol : ℝ) :
    externalReciprocal (fun a => rot3 R (pos a)) charge (fun k => rot3 R (g k)) vol =
      externalReciprocal pos charge g vol := by
  funext k
  simp only [externalReciprocal, rot3_sq hR, rot3_dot hR]

theorem kineticEnergyOcc_rotate {R : Matrix (Fin 3) (Fin 3) ℝ} (hR : R * Rᵀ = 1) {ns nk nb : ℕ}
    {n : Fin 3 → ℕ} (g : Idx n → Fin 3 → ℝ) (kpts : Fin nk → Fin 3 → ℝ) (c : Coef ns nk nb n)
    (occ : Occ ns nk nb) :
    kineticEnergyOcc (fun k => rot3 R (g k)) (fun q => rot3 R (kpts q)) c occ =
      kineticEnergyOcc g kpts c occ := by
  simp only [kineticEnergyOcc, rot3_add, rot3_sq hR]

theorem ifftn_sum3 {n : Fin 3 → ℕ} (F : Fin 3 → Idx n → ℂ) (r : Fin 3 → ℂ) (j : Idx n) :
    ifftn (fun k => ∑ e, F e k * r e) j = ∑ e, ifftn (F e) j * r e := by
  simp only [ifftn, Fin.sum_univ_three]
  rw [div_mul_eq_mul_div, div_mul_eq_mul_div, div_mul_eq_mul_div, ← add_div, ← add_div]
  congr 1
  rw [Finset.sum_mul, Finset.sum_mul, Finset.sum_mul, ← Finset.sum_add_distrib,
    ← Finset.sum_add_distrib]
  exact Finset.sum_congr rfl fun k _ => by ring

theorem gradRho_rotate (R : Matrix (Fin 3) (Fin 3) ℝ) {n : Fin 3 → ℕ} (g : Idx n → Fin 3 → ℝ)
    (rho : Idx n → ℝ) (d : Fin 3) (j : Idx n) :
    gradRho (fun k => rot3 R (g k)) rho d j = ∑ e, gradRho g rho e j * (R e d : ℂ) := by
  have h : ∑ e, gradRho g rho e j * (R e d : ℂ) =
      ifftn (fun k => ∑ e, fftn (fun j => (rho j : ℂ)) k * Complex.I * (g k e : ℂ) * (R e d : ℂ)) j :=
    (ifftn_sum3 (fun e k => fftn (fun j => (rho j : ℂ)) k * Complex.I * (g k e : ℂ))
      (fun e => (R e d : ℂ)) j).symm
  rw [h]
  refine congrFun (congrArg ifftn (funext fun k => ?_)) j
  simp only [rot3]
  push_cast
  rw [Finset.mul_sum]
  exact Finset.sum_congr rfl fun e _ => by ring

theorem conj_dot_rotate {R : Matrix (Fin 3) (Fin 3) ℝ} (hR : R * Rᵀ = 1) (v w : Fin 3 → ℂ) :
    ∑ d, conj (∑ e, v e * (R e d : ℂ)) * ∑ e, w e * (R e d : ℂ) = ∑ d, conj (v d) * w d := by
  have h : ∀ e f : Fin 3, ∑ d, (R e d : ℂ) * (R f d : ℂ) = if e = f then 1 else 0 := by
    intro e f
    have := orth_rows hR e f
    have h2 := congrArg (fun x : ℝ => (x : ℂ)) this
    push_cast at h2
    rw [h2]
    split <;> simp
  have h00 := h 0 0
  have h01 := h 0 1
  have h02 := h 0 2
  have h11 := h 1 1
  have h12 := h 1 2
  have h22 := h 2 2
  simp only [Fin.sum_univ_three, map_add, map_mul, Complex.conj_ofReal] at *
  simp at h00 h01 h02 h11 h12 h22
  linear_combination (conj (v 0) * w 0) * h00 + (conj (v 0) * w 1 + conj (v 1) * w 0) * h01 +
    (conj (v 0) * w 2 + conj (v 2) * w 0) * h02 + (conj (v 1) * w 1) * h11 +
    (conj (v 1) * w 2 + conj (v 2) * w 1) * h12 + (conj (v 2) * w 2) * h22

theorem sigmaPair_rotate {R : Matrix (Fin 3) (Fin 3) ℝ} (hR : R * Rᵀ = 1) {n : Fin 3 → ℕ}
    (g : Idx n → Fin 3 → ℝ) (a b : Idx n → ℝ) (j : Idx n) :
    sigmaPair (fun k => rot3 R (g k)) a b j = sigmaPair g a b j := by
  simp only [sigmaPair, gradRho_rotate]
  rw [conj_dot_rotate hR]

theorem sigma1_eq_pair {n : Fin 3 → ℕ} (g : Idx n → Fin 3 → ℝ) (a : Idx n → ℝ) (j : Idx n) :
    sigma1 g a j = sigmaPair g a a j := by
  simp only [sigma1, sigmaPair, absoluteSquare, Complex.re_sum]

theorem excDensity_rotate {R : Matrix (Fin 3) (Fin 3) ℝ} (hR : R * Rᵀ = 1) (lib : XcLib) (xt : String)
    {ns : ℕ} {n : Fin 3 → ℕ} (g : Idx n → Fin 3 → ℝ) (rho : Fin ns → Idx n → ℝ) (j : Idx n) :
    excDensity lib xt (fun k => rot3 R (g k)) rho j = excDensity lib xt g rho j := by
  simp only [excDensity, sigma2, sigma1_eq_pair, sigmaPair_rotate hR]

theorem xcEnergy_rotate {R : Matrix (Fin 3) (Fin 3) ℝ} (hR : R * Rᵀ = 1) (lib : XcLib) (xt : String)
    {ns : ℕ} {n : Fin 3 → ℕ} (g : Idx n → Fin 3 → ℝ) (rho : Fin ns → Idx n → ℝ) (vol : ℝ) :
    xcEnergy lib xt false rho (fun k => rot3 R (g k)) vol = xcEnergy lib xt false rho g vol := by
  simp only [xcEnergy, xcDensity, Bool.false_eq_true, if_false, excDensity_rotate hR]

end Jrystal
