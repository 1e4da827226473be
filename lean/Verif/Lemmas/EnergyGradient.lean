import Verif.Spec.EnergyGradient
import Verif.Lemmas.QrDeriv
import Verif.Lemmas.RitzGrad
import Verif.Lemmas.Stationary

/- The gradient of a function of the bands in the parameters of the bands (C124). -/
namespace Jrystal
open scoped BigOperators ComplexConjugate Matrix
open KohnSham

theorem unitaryMatrix_band (qr : QR ℂ) {ns nk g nb : ℕ} (p : PwParams ns nk g nb) (s : Fin ns) (k : Fin nk) :
    Matrix.of (unitaryMatrix qr p s k) = qr.q (Spec.bandMatrix p s k) := by
  unfold unitaryMatrix Spec.bandMatrix
  have : (Matrix.of fun a b => (p.re s k a b : ℂ) + Complex.I * (p.im s k a b : ℂ))
      = fun a b => (⟨p.re s k a b, p.im s k a b⟩ : ℂ) := by
    ext a b
    rw [Matrix.of_apply, mul_comm]
    exact Complex.re_add_im ⟨p.re s k a b, p.im s k a b⟩
  rw [this]
  rfl

theorem unitaryMatrix_orth (qr : QR ℂ) {nk g nb : ℕ} (p : PwParams 1 nk g nb) :
    Spec.OrthonormalBands (unitaryMatrix qr p) := by
  rw [orth_matrix]
  intro k
  rw [unitaryMatrix_band]
  exact qr.orth _

/-- The Kohn-Sham equations make the form vanish in every direction that keeps the bands orthonormal. -/
theorem stationary_of_kohnSham {M m : ℕ} (f : Fin m → ℝ) (F : Matrix (Fin M) (Fin M) ℂ) (hF : F.IsHermitian)
    (C D : Matrix (Fin M) (Fin m) ℂ) (hD : Dᴴ * C + Cᴴ * D = 0)
    (h1 : ∀ b, f b ≠ 0 → ∀ G, ∑ G', F G G' * C G' b = ∑ a, (Cᴴ * F * C) a b * C G a)
    (h2 : ∀ a b, f a ≠ f b → (Cᴴ * F * C) a b = 0) :
    ∑ b, f b * ((Dᴴ * F * C) b b).re = 0 := by
  set H := Cᴴ * F * C with hH
  set B := Dᴴ * C with hB
  have hHh : ∀ a b, conj (H a b) = H b a := by
    intro a b
    have : Hᴴ = H := by
      rw [hH, Matrix.conjTranspose_mul, Matrix.conjTranspose_mul, Matrix.conjTranspose_conjTranspose, hF.eq,
        Matrix.mul_assoc]
    exact congrFun (congrFun this b) a
  have hBh : ∀ a b, conj (B a b) = -B b a := by
    intro a b
    have : Bᴴ = -B := by
      rw [hB, Matrix.conjTranspose_mul, Matrix.conjTranspose_conjTranspose]
      exact eq_neg_of_add_eq_zero_right hD
    exact congrFun (congrFun this b) a
  have h3 : ∀ b, (f b : ℂ) * (Dᴴ * F * C) b b = ∑ a, (f b : ℂ) * H a b * B b a := by
    intro b
    by_cases hb : f b = 0
    · simp [hb]
    · rw [Matrix.mul_assoc, Matrix.mul_apply]
      have h4 : ∀ G, (F * C) G b = ∑ a, H a b * C G a := fun G => by
        rw [Matrix.mul_apply]; exact h1 b hb G
      simp only [h4, hB, Matrix.mul_apply, Finset.mul_sum]
      rw [Finset.sum_comm]
      exact Finset.sum_congr rfl fun a _ => Finset.sum_congr rfl fun G _ => by ring
  set S : ℂ := ∑ b, ∑ a, (f b : ℂ) * H a b * B b a with hS
  have h5 : (∑ b, f b * ((Dᴴ * F * C) b b).re) = S.re := by
    rw [hS, Complex.re_sum]
    refine Finset.sum_congr rfl fun b _ => ?_
    rw [← h3 b, Complex.re_ofReal_mul]
  have h6 : conj S = -S := by
    rw [hS, map_sum, ← Finset.sum_neg_distrib]
    simp only [map_sum, map_mul, Complex.conj_ofReal, hHh, hBh]
    rw [Finset.sum_comm]
    refine Finset.sum_congr rfl fun a _ => ?_
    rw [← Finset.sum_neg_distrib]
    refine Finset.sum_congr rfl fun b _ => ?_
    by_cases hab : f a = f b
    · rw [hab]; ring
    · rw [h2 b a (fun h => hab h.symm)]; ring
  rw [h5]
  have := congrArg Complex.re h6
  rw [Complex.conj_re, Complex.neg_re] at this
  linarith

/-- A real linear function of a complex matrix, through its values on the entries. -/
theorem linear_entries {M m : ℕ} (l : (Fin M → Fin m → ℂ) →ₗ[ℝ] ℝ) (x : Fin M → Fin m → ℂ) :
    l x = ∑ a, ∑ b, (l (Pi.single a (Pi.single b 1)) * (x a b).re
      + l (Pi.single a (Pi.single b Complex.I)) * (x a b).im) := by
  have e : x = ∑ a, ∑ b, ((x a b).re • (Pi.single a (Pi.single b 1) : Fin M → Fin m → ℂ)
      + (x a b).im • (Pi.single a (Pi.single b Complex.I) : Fin M → Fin m → ℂ)) := by
    funext a b
    simp only [Finset.sum_apply, Pi.add_apply, Pi.smul_apply]
    rw [Finset.sum_eq_single a, Finset.sum_eq_single b]
    · simp only [Pi.single_eq_same, Complex.real_smul, mul_one]
      exact (Complex.re_add_im _).symm
    · intro b' _ hb
      simp [Pi.single_eq_of_ne hb.symm]
    · intro h; exact absurd (Finset.mem_univ _) h
    · intro a' _ ha
      simp [Pi.single_eq_of_ne ha.symm]
    · intro h; exact absurd (Finset.mem_univ _) h
  conv_lhs => rw [e]
  simp only [map_sum, map_add, map_smul, smul_eq_mul]
  exact Finset.sum_congr rfl fun a _ => Finset.sum_congr rfl fun b _ => by ring

/-- The complex matrix of a differentiable curve of parameters. -/
theorem hasDerivAt_band {ns nk g nb : ℕ} {P : ℝ → PwParams ns nk g nb} {d : PwParams ns nk g nb}
    (hre : ∀ s k a b, HasDerivAt (fun t => (P t).re s k a b) (d.re s k a b) 0)
    (him : ∀ s k a b, HasDerivAt (fun t => (P t).im s k a b) (d.im s k a b) 0) (s : Fin ns) (k : Fin nk) :
    HasDerivAt (fun t => (fun a b => Spec.bandMatrix (P t) s k a b : Fin g → Fin nb → ℂ))
      (fun a b => Spec.bandMatrix d s k a b) 0 := by
  refine hasDerivAt_pi.2 fun a => hasDerivAt_pi.2 fun b => ?_
  have h := (hasDerivAt_ofReal (hre s k a b)).add ((hasDerivAt_ofReal (him s k a b)).mul_const Complex.I)
  have e : (fun t => Spec.bandMatrix (P t) s k a b)
      = (fun t => (((P t).re s k a b : ℝ) : ℂ)) + fun t => (((P t).im s k a b : ℝ) : ℂ) * Complex.I := by
    funext t
    exact (Complex.re_add_im (Spec.bandMatrix (P t) s k a b)).symm
  rw [e, show Spec.bandMatrix d s k a b = (d.re s k a b : ℂ) + (d.im s k a b : ℂ) * Complex.I from
    (Complex.re_add_im (Spec.bandMatrix d s k a b)).symm]
  exact h

/-- Only zeros have length 0. -/
theorem vanishes_of_dot {ns nk g nb : ℕ} (G : PwParams ns nk g nb) (h6 : Spec.paramDot G G = 0) : Spec.Vanishes G := by
  unfold Spec.paramDot at h6
  have hnn : ∀ s k a b, 0 ≤ G.re s k a b * G.re s k a b + G.im s k a b * G.im s k a b :=
    fun s k a b => add_nonneg (mul_self_nonneg _) (mul_self_nonneg _)
  intro s k a b
  have e1 := (Finset.sum_eq_zero_iff_of_nonneg fun s _ => Finset.sum_nonneg fun k _ => Finset.sum_nonneg fun a _ =>
    Finset.sum_nonneg fun b _ => hnn s k a b).1 h6 s (Finset.mem_univ _)
  have e2 := (Finset.sum_eq_zero_iff_of_nonneg fun k _ => Finset.sum_nonneg fun a _ =>
    Finset.sum_nonneg fun b _ => hnn s k a b).1 e1 k (Finset.mem_univ _)
  have e3 := (Finset.sum_eq_zero_iff_of_nonneg fun a _ =>
    Finset.sum_nonneg fun b _ => hnn s k a b).1 e2 a (Finset.mem_univ _)
  have e4 := (Finset.sum_eq_zero_iff_of_nonneg fun b _ => hnn s k a b).1 e3 b (Finset.mem_univ _)
  constructor
  · nlinarith [mul_self_nonneg (G.re s k a b), mul_self_nonneg (G.im s k a b)]
  · nlinarith [mul_self_nonneg (G.re s k a b), mul_self_nonneg (G.im s k a b)]

theorem along_zero {ns nk g nb : ℕ} (p d : PwParams ns nk g nb) : Spec.along p d 0 = p := by
  obtain ⟨re, im⟩ := p
  simp [Spec.along]

theorem along_deriv {ns nk g nb : ℕ} (p d : PwParams ns nk g nb) :
    (∀ s k a b, HasDerivAt (fun t => (Spec.along p d t).re s k a b) (d.re s k a b) 0) ∧
    ∀ s k a b, HasDerivAt (fun t => (Spec.along p d t).im s k a b) (d.im s k a b) 0 := by
  constructor
  · intro s k a b
    have := ((hasDerivAt_id (0 : ℝ)).mul_const (d.re s k a b)).const_add (p.re s k a b)
    rw [one_mul] at this
    exact this
  · intro s k a b
    have := ((hasDerivAt_id (0 : ℝ)).mul_const (d.im s k a b)).const_add (p.im s k a b)
    rw [one_mul] at this
    exact this

/-- At a minimum and at a maximum the gradient vanishes. -/
theorem vanishes_of_extreme {ns nk g nb : ℕ} (f : PwParams ns nk g nb → ℝ) (p G : PwParams ns nk g nb)
    (hG : Spec.IsFullGradient f p G) (h : (∀ q, f p ≤ f q) ∨ ∀ q, f q ≤ f p) : Spec.Vanishes G := by
  refine vanishes_of_dot G ?_
  have h1 := hG (Spec.along p G) G (along_zero p G) (along_deriv p G).1 (along_deriv p G).2
  rcases h with h | h
  · refine IsLocalMin.hasDerivAt_eq_zero (Filter.Eventually.of_forall fun t => ?_) h1
    rw [along_zero]
    exact h _
  · refine IsLocalMax.hasDerivAt_eq_zero (Filter.Eventually.of_forall fun t => ?_) h1
    rw [along_zero]
    exact h _

/-- Orthonormal bands as parameters. -/
theorem params_of_bands {nk M nb : ℕ} (hm : nb ≤ M) (C : Fin 1 → Fin nk → Fin M → Fin (min M nb) → ℂ)
    (hC : Spec.OrthonormalBands C) : ∃ (p : PwParams 1 nk M nb) (R : Fin nk → Matrix (Fin (min M nb)) (Fin nb) ℂ),
      Spec.Independent p ∧ (∀ k (i : Fin (min M nb)) (j : Fin nb), (j : ℕ) < (i : ℕ) → R k i j = 0) ∧
      ∀ k, Spec.bandMatrix p 0 k = Matrix.of (C 0 k) * R k := by
  let c : Fin (min M nb) ≃ Fin nb := finCongr (min_eq_right hm)
  let R : Matrix (Fin (min M nb)) (Fin nb) ℂ := (1 : Matrix (Fin (min M nb)) (Fin (min M nb)) ℂ).submatrix id c.symm
  let p : PwParams 1 nk M nb := ⟨fun _ k => Matrix.of fun a b => ((Matrix.of (C 0 k) * R) a b).re,
      fun _ k => Matrix.of fun a b => ((Matrix.of (C 0 k) * R) a b).im⟩
  have hp : ∀ k, Spec.bandMatrix p 0 k = Matrix.of (C 0 k) * R := fun k => by
    ext a b
    exact Complex.ext rfl rfl
  refine ⟨p, fun _ => R, fun s k => ?_, fun k i j hij => ?_, hp⟩
  · rw [Subsingleton.elim s 0]
    have h1 : (Spec.bandMatrix p 0 k)ᴴ * Spec.bandMatrix p 0 k = 1 := by
      rw [hp, Matrix.conjTranspose_mul, Matrix.mul_assoc, ← Matrix.mul_assoc _ (Matrix.of (C 0 k)),
        (orth_matrix C).mp hC k, Matrix.one_mul]
      ext a b
      simp [R, Matrix.mul_apply, Matrix.one_apply, Finset.sum_ite_eq]
    have h2 : Function.Injective (Spec.bandMatrix p 0 k).mulVec := by
      intro x y hxy
      have := congrArg ((Spec.bandMatrix p 0 k)ᴴ.mulVec) hxy
      simpa [Matrix.mulVec_mulVec, h1] using this
    exact Matrix.mulVec_injective_iff.1 h2
  · simp only [R, Matrix.submatrix_apply, id_eq]
    refine Matrix.one_apply_ne fun h => ?_
    have := congrArg Fin.val h
    simp [c] at this
    omega

section
variable {nk M nb : ℕ} (qr : QR ℂ) (ht : Spec.Triangular qr) (hm : nb ≤ M) (occ : Occ 1 nk (min M nb))
    (E : (Fin 1 → Fin nk → Fin M → Fin (min M nb) → ℂ) → ℝ)
    (hphase : ∀ (u : Fin 1 → Fin nk → Fin (min M nb) → ℂ), (∀ s k b, conj (u s k b) * u s k b = 1) →
      ∀ C, E (fun s k G b => u s k b * C s k G b) = E C)
    (p : PwParams 1 nk M nb) (hp : Spec.Independent p)
    (F : Fin nk → Matrix (Fin M) (Fin M) ℂ) (hF : ∀ k, (F k).IsHermitian)
    (hder : ∀ (Ct : ℝ → Fin 1 → Fin nk → Fin M → Fin (min M nb) → ℂ)
      (D : Fin 1 → Fin nk → Fin M → Fin (min M nb) → ℂ),
      Ct 0 = unitaryMatrix qr p → (∀ k G b, HasDerivAt (fun t => Ct t 0 k G b) (D 0 k G b) 0) →
      HasDerivAt (fun t => E (Ct t)) (2 * ∑ k, ∑ b, occ 0 k b *
        (((Matrix.of (D 0 k))ᴴ * F k * Matrix.of (unitaryMatrix qr p 0 k)) b b).re) 0)
include ht hm hphase

/-- Parameters that are orthonormal bands times a triangular matrix give these bands, up to phases. -/
theorem energy_of_factor (p' : PwParams 1 nk M nb) (hp' : ∀ k, IsUnit ((Spec.bandMatrix p' 0 k)ᴴ * Spec.bandMatrix p' 0 k).det)
    (C : Fin 1 → Fin nk → Fin M → Fin (min M nb) → ℂ) (hC : Spec.OrthonormalBands C)
    (R : Fin nk → Matrix (Fin (min M nb)) (Fin nb) ℂ)
    (hR : ∀ k (i : Fin (min M nb)) (j : Fin nb), (j : ℕ) < (i : ℕ) → R k i j = 0)
    (e : ∀ k, Spec.bandMatrix p' 0 k = Matrix.of (C 0 k) * R k) : E (unitaryMatrix qr p') = E C := by
  choose u hu hq using fun k => qr_unique qr ht hm (Spec.bandMatrix p' 0 k) (hp' k) (Matrix.of (C 0 k))
    ((orth_matrix C).mp hC k) (R k) (hR k) (e k)
  rw [← hphase (fun _ k b => u k b) (fun s k b => hu k b) C]
  congr 1
  funext s k G b
  rw [Subsingleton.elim s 0, ← Matrix.of_apply (unitaryMatrix qr p' 0 k), unitaryMatrix_band]
  exact hq k G b

include hp hder

/-- A vanishing gradient gives the Kohn-Sham equations. -/
theorem kohnSham_of_gradient (hF : ∀ k, (F k).IsHermitian) (G : PwParams 1 nk M nb)
    (hG : Spec.IsFullGradient (fun p => E (unitaryMatrix qr p)) p G) (h0 : Spec.Vanishes G) :
    (∀ k b, occ 0 k b ≠ 0 → ∀ x, ∑ y, F k x y * unitaryMatrix qr p 0 k y b
      = ∑ a, ((Matrix.of (unitaryMatrix qr p 0 k))ᴴ * F k * Matrix.of (unitaryMatrix qr p 0 k)) a b
        * unitaryMatrix qr p 0 k x a) ∧
    (∀ k a b, occ 0 k a ≠ occ 0 k b →
      ((Matrix.of (unitaryMatrix qr p 0 k))ᴴ * F k * Matrix.of (unitaryMatrix qr p 0 k)) a b = 0) := by
  refine kohnSham_of_stationary occ _ (unitaryMatrix_orth qr p) F hF fun Ct D h1 h2 h3 => ?_
  choose R hR eR using fun k => ht (Spec.bandMatrix p 0 k)
  let P : ℝ → PwParams 1 nk M nb := fun t =>
    ⟨fun _ k => Matrix.of fun a b => ((Matrix.of (Ct t 0 k) * R k) a b).re,
      fun _ k => Matrix.of fun a b => ((Matrix.of (Ct t 0 k) * R k) a b).im⟩
  let d : PwParams 1 nk M nb := ⟨fun _ k => Matrix.of fun a b => ((Matrix.of (D 0 k) * R k) a b).re,
      fun _ k => Matrix.of fun a b => ((Matrix.of (D 0 k) * R k) a b).im⟩
  have hPb : ∀ t k, Spec.bandMatrix (P t) 0 k = Matrix.of (Ct t 0 k) * R k := by
    intro t k
    ext a b
    exact Complex.ext rfl rfl
  have hP0 : P 0 = p := by
    have h4 : ∀ k, Matrix.of (Ct 0 0 k) * R k = Spec.bandMatrix p 0 k := by
      intro k
      rw [h1, unitaryMatrix_band, ← eR k]
    have h5 : ∀ k a b, ((Matrix.of (Ct 0 0 k) * R k) a b).re = p.re 0 k a b := fun k a b => by rw [h4]; rfl
    have h6 : ∀ k a b, ((Matrix.of (Ct 0 0 k) * R k) a b).im = p.im 0 k a b := fun k a b => by rw [h4]; rfl
    obtain ⟨re, im⟩ := p
    simp only [P, PwParams.mk.injEq]
    constructor
    · funext s k
      rw [Subsingleton.elim s 0]
      ext a b
      exact h5 k a b
    · funext s k
      rw [Subsingleton.elim s 0]
      ext a b
      exact h6 k a b
  have hcur : ∀ k a b, HasDerivAt (fun t => (Matrix.of (Ct t 0 k) * R k) a b) ((Matrix.of (D 0 k) * R k) a b) 0 := by
    intro k a b
    simp only [Matrix.mul_apply, Matrix.of_apply]
    exact HasDerivAt.fun_sum fun c _ => (h2 k a c).mul_const _
  have h4 := hG P d hP0
    (fun s k a b => (Complex.reCLM.hasFDerivAt.comp_hasDerivAt (0 : ℝ) (hcur k a b) :))
    (fun s k a b => (Complex.imCLM.hasFDerivAt.comp_hasDerivAt (0 : ℝ) (hcur k a b) :))
  have h5 : Spec.paramDot G d = 0 := by
    unfold Spec.paramDot
    refine Finset.sum_eq_zero fun s _ => Finset.sum_eq_zero fun k _ => Finset.sum_eq_zero fun a _ =>
      Finset.sum_eq_zero fun b _ => ?_
    rw [(h0 s k a b).1, (h0 s k a b).2, zero_mul, zero_mul, add_zero]
  rw [h5] at h4
  have h6 : (fun t => E (unitaryMatrix qr (P t))) = fun t => E (Ct t) := by
    funext t
    refine energy_of_factor qr ht hm E hphase (P t) (fun k => ?_) (Ct t) (h3 t) R hR (hPb t)
    have h7 : (Spec.bandMatrix (P t) 0 k)ᴴ * Spec.bandMatrix (P t) 0 k
        = (Spec.bandMatrix p 0 k)ᴴ * Spec.bandMatrix p 0 k := by
      have h8 : (Spec.bandMatrix (P t) 0 k)ᴴ * Spec.bandMatrix (P t) 0 k = (R k)ᴴ * R k := by
        rw [hPb, Matrix.conjTranspose_mul, Matrix.mul_assoc, ← Matrix.mul_assoc _ (Matrix.of (Ct t 0 k)),
          (orth_matrix _).mp (h3 t) k, Matrix.one_mul]
      have h9 : (Spec.bandMatrix p 0 k)ᴴ * Spec.bandMatrix p 0 k = (R k)ᴴ * R k := by
        conv_lhs => rw [eR k]
        rw [Matrix.conjTranspose_mul, Matrix.mul_assoc, ← Matrix.mul_assoc _ (qr.q _), qr.orth, Matrix.one_mul]
      rw [h8, h9]
    rw [h7]
    exact gram_unit (hp 0 k)
  rw [h6] at h4
  exact (hder Ct D h1 h2).unique h4

/-- The derivative along a curve of parameters, through the Gram-Schmidt procedure. -/
theorem energy_curve : ∃ u : Fin nk → Fin (min M nb) → ℂ,
    ∀ (P : ℝ → PwParams 1 nk M nb) (d : PwParams 1 nk M nb), P 0 = p →
    (∀ s k a b, HasDerivAt (fun t => (P t).re s k a b) (d.re s k a b) 0) →
    (∀ s k a b, HasDerivAt (fun t => (P t).im s k a b) (d.im s k a b) 0) →
    ∃ (Ct : ℝ → Fin 1 → Fin nk → Fin M → Fin (min M nb) → ℂ) (D : Fin 1 → Fin nk → Fin M → Fin (min M nb) → ℂ),
      Ct 0 = unitaryMatrix qr p ∧ (∀ k G b, HasDerivAt (fun t => Ct t 0 k G b) (D 0 k G b) 0) ∧
      (∀ t, Spec.OrthonormalBands (Ct t)) ∧
      (∀ k x b, D 0 k x b = u k b * fderiv ℝ (fun w : Fin M → Fin nb → ℂ => (gramSchmidtQR ℂ).q (Matrix.of w) x b)
        (fun a b => Spec.bandMatrix p 0 k a b) (fun a b => Spec.bandMatrix d 0 k a b)) ∧
      HasDerivAt (fun t => E (unitaryMatrix qr (P t))) (2 * ∑ k, ∑ b, occ 0 k b *
        (((Matrix.of (D 0 k))ᴴ * F k * Matrix.of (unitaryMatrix qr p 0 k)) b b).re) 0 := by
  choose R₀ hR₀ eR₀ using fun k => gramSchmidtQR_triangular ℂ (Spec.bandMatrix p 0 k)
  choose u hu hq using fun k => qr_unique qr ht hm (Spec.bandMatrix p 0 k) (gram_unit (hp 0 k))
    ((gramSchmidtQR ℂ).q (Spec.bandMatrix p 0 k)) ((gramSchmidtQR ℂ).orth _) (R₀ k) (hR₀ k) (eR₀ k)
  refine ⟨u, fun P d hP0 hre him => ?_⟩
  let Ct : ℝ → Fin 1 → Fin nk → Fin M → Fin (min M nb) → ℂ := fun t _ k x b =>
    u k b * (gramSchmidtQR ℂ).q (Spec.bandMatrix (P t) 0 k) x b
  let D : Fin 1 → Fin nk → Fin M → Fin (min M nb) → ℂ := fun _ k x b =>
    u k b * fderiv ℝ (fun w : Fin M → Fin nb → ℂ => (gramSchmidtQR ℂ).q (Matrix.of w) x b)
        (fun a b => Spec.bandMatrix p 0 k a b) (fun a b => Spec.bandMatrix d 0 k a b)
  have hCt0 : Ct 0 = unitaryMatrix qr p := by
    funext s k x b
    rw [Subsingleton.elim s 0, ← Matrix.of_apply (unitaryMatrix qr p 0 k), unitaryMatrix_band]
    simp only [Ct, hP0]
    exact (hq k x b).symm
  have hD : ∀ k x b, HasDerivAt (fun t => Ct t 0 k x b) (D 0 k x b) 0 := by
    intro k x b
    have h1 : HasFDerivAt (fun w : Fin M → Fin nb → ℂ => (gramSchmidtQR ℂ).q (Matrix.of w) x b) _
        (fun a b => Spec.bandMatrix (P 0) 0 k a b) :=
      (gramSchmidtQR_differentiable (by rw [hP0]; exact hp 0 k) x b).hasFDerivAt
    have h2 := (h1.comp_hasDerivAt (0 : ℝ) (hasDerivAt_band hre him 0 k)).const_mul (u k b)
    rw [hP0] at h2
    exact h2
  have horth : ∀ t, Spec.OrthonormalBands (Ct t) := by
    intro t
    rw [orth_matrix]
    intro k
    have h1 : Matrix.of (Ct t 0 k) = (gramSchmidtQR ℂ).q (Spec.bandMatrix (P t) 0 k) * Matrix.diagonal (u k) := by
      ext x b
      rw [Matrix.mul_diagonal, Matrix.of_apply, mul_comm]
    rw [h1, Matrix.conjTranspose_mul, Matrix.mul_assoc, ← Matrix.mul_assoc _ ((gramSchmidtQR ℂ).q _),
      (gramSchmidtQR ℂ).orth, Matrix.one_mul, Matrix.diagonal_conjTranspose, Matrix.diagonal_mul_diagonal,
      ← Matrix.diagonal_one]
    congr 1
    funext b
    exact hu k b
  refine ⟨Ct, D, hCt0, hD, horth, fun k x b => rfl, (hder Ct D hCt0 hD).congr_of_eventuallyEq ?_⟩
  have hcont : ∀ k, ∀ᶠ t in nhds (0 : ℝ),
      ((Spec.bandMatrix (P t) 0 k)ᴴ * Spec.bandMatrix (P t) 0 k).det ≠ 0 := by
    intro k
    have h1 : ContinuousAt (fun t => (Spec.bandMatrix (P t) 0 k : Matrix (Fin M) (Fin nb) ℂ)) 0 :=
      (hasDerivAt_band hre him 0 k).continuousAt
    have h2 : ContinuousAt (fun t => ((Spec.bandMatrix (P t) 0 k)ᴴ * Spec.bandMatrix (P t) 0 k).det) 0 := by
      have h3 : Continuous fun w : Matrix (Fin M) (Fin nb) ℂ => (wᴴ * w).det :=
        (continuous_id.matrix_conjTranspose.matrix_mul continuous_id).matrix_det
      exact ContinuousAt.comp (g := fun w : Matrix (Fin M) (Fin nb) ℂ => (wᴴ * w).det) h3.continuousAt h1
    refine h2.eventually_ne ?_
    rw [hP0]
    exact (gram_unit (hp 0 k)).ne_zero
  filter_upwards [Filter.eventually_all.2 hcont] with t htt
  choose R hR eR using fun k => gramSchmidtQR_triangular ℂ (Spec.bandMatrix (P t) 0 k)
  have h1 := energy_of_factor qr ht hm E hphase (P t) (fun k => isUnit_iff_ne_zero.2 (htt k))
    (fun _ k => (gramSchmidtQR ℂ).q (Spec.bandMatrix (P t) 0 k))
    ((orth_matrix _).2 fun k => (gramSchmidtQR ℂ).orth _) R hR eR
  rw [h1]
  exact (hphase (fun _ k b => u k b) (fun s k b => hu k b) _).symm

/-- The gradient exists. -/
theorem gradient_exists : ∃ G, Spec.IsFullGradient (fun p => E (unitaryMatrix qr p)) p G := by
  obtain ⟨u, h⟩ := energy_curve qr ht hm occ E hphase p hp F hder
  let L : Fin nk → Fin M → Fin (min M nb) → (Fin M → Fin nb → ℂ) →L[ℝ] ℂ := fun k x b =>
    fderiv ℝ (fun w : Fin M → Fin nb → ℂ => (gramSchmidtQR ℂ).q (Matrix.of w) x b)
      (fun a b => Spec.bandMatrix p 0 k a b)
  let l : Fin nk → (Fin M → Fin nb → ℂ) →ₗ[ℝ] ℝ := fun k =>
    { toFun := fun v => 2 * ∑ b, occ 0 k b * (((Matrix.of fun x b => u k b * L k x b v)ᴴ * F k
        * Matrix.of (unitaryMatrix qr p 0 k)) b b).re
      map_add' := fun v w => by
        have hM : (Matrix.of fun x b => u k b * L k x b (v + w))
            = (Matrix.of fun x b => u k b * L k x b v) + Matrix.of fun x b => u k b * L k x b w := by
          ext x b
          simp [mul_add]
        rw [hM, ← mul_add, ← Finset.sum_add_distrib]
        refine congrArg (2 * ·) (Finset.sum_congr rfl fun b _ => ?_)
        rw [Matrix.conjTranspose_add, Matrix.add_mul, Matrix.add_mul, Matrix.add_apply, Complex.add_re, mul_add]
      map_smul' := fun r v => by
        have hM : (Matrix.of fun x b => u k b * L k x b (r • v))
            = (r : ℂ) • Matrix.of fun x b => u k b * L k x b v := by
          ext x b
          simp only [Matrix.of_apply, Matrix.smul_apply, map_smul, Complex.real_smul, smul_eq_mul]
          ring
        rw [hM, RingHom.id_apply, smul_eq_mul, mul_left_comm r 2, Finset.mul_sum (a := r)]
        refine congrArg (2 * ·) (Finset.sum_congr rfl fun b _ => ?_)
        rw [Matrix.conjTranspose_smul, Matrix.smul_mul, Matrix.smul_mul, Matrix.smul_apply, smul_eq_mul,
          RCLike.star_def, Complex.conj_ofReal, Complex.re_ofReal_mul, mul_left_comm] }
  refine ⟨⟨fun _ k => Matrix.of fun a b => l k (Pi.single a (Pi.single b 1)),
    fun _ k => Matrix.of fun a b => l k (Pi.single a (Pi.single b Complex.I))⟩, fun P d hP0 hre him => ?_⟩
  obtain ⟨Ct, D, h1, h2, h3, h4, h5⟩ := h P d hP0 hre him
  refine h5.congr_deriv ?_
  unfold Spec.paramDot
  rw [Fin.sum_univ_one, Finset.mul_sum]
  refine Finset.sum_congr rfl fun k _ => ?_
  have h6 : Matrix.of (D 0 k) = Matrix.of fun x b => u k b * L k x b (fun a b => Spec.bandMatrix d 0 k a b) := by
    ext x b
    exact h4 k x b
  rw [h6]
  exact linear_entries (l k) (fun a b => Spec.bandMatrix d 0 k a b)

/-- The Kohn-Sham equations make the gradient vanish. -/
theorem gradient_of_kohnSham (hF : ∀ k, (F k).IsHermitian) (G : PwParams 1 nk M nb)
    (hG : Spec.IsFullGradient (fun p => E (unitaryMatrix qr p)) p G)
    (hk : (∀ k b, occ 0 k b ≠ 0 → ∀ x, ∑ y, F k x y * unitaryMatrix qr p 0 k y b
      = ∑ a, ((Matrix.of (unitaryMatrix qr p 0 k))ᴴ * F k * Matrix.of (unitaryMatrix qr p 0 k)) a b
        * unitaryMatrix qr p 0 k x a) ∧
    (∀ k a b, occ 0 k a ≠ occ 0 k b →
      ((Matrix.of (unitaryMatrix qr p 0 k))ᴴ * F k * Matrix.of (unitaryMatrix qr p 0 k)) a b = 0)) :
    Spec.Vanishes G := by
  obtain ⟨u, h⟩ := energy_curve qr ht hm occ E hphase p hp F hder
  have hre := (along_deriv p G).1
  have him := (along_deriv p G).2
  have hP0 := along_zero p G
  obtain ⟨Ct, D, h1, h2, h3, _, h5⟩ := h (Spec.along p G) G hP0 hre him
  have h6 := (hG (Spec.along p G) G hP0 hre him).unique h5
  have h7 : ∑ k, ∑ b, occ 0 k b *
        (((Matrix.of (D 0 k))ᴴ * F k * Matrix.of (unitaryMatrix qr p 0 k)) b b).re = 0 := by
    refine Finset.sum_eq_zero fun k _ => ?_
    refine stationary_of_kohnSham (occ 0 k) (F k) (hF k) (Matrix.of (unitaryMatrix qr p 0 k)) (Matrix.of (D 0 k)) ?_
      (fun b hb x => hk.1 k b hb x) (hk.2 k)
    ext a b
    have h8 : HasDerivAt (fun t => ∑ x, conj (Ct t 0 k x a) * Ct t 0 k x b)
        (∑ x, (conj (D 0 k x a) * Ct 0 0 k x b + conj (Ct 0 0 k x a) * D 0 k x b)) 0 :=
      HasDerivAt.fun_sum fun x _ =>
        HasDerivAt.mul (Complex.conjCLE.toContinuousLinearMap.hasFDerivAt.comp_hasDerivAt (0 : ℝ) (h2 k x a) :)
          (h2 k x b)
    have h9 : (fun t => ∑ x, conj (Ct t 0 k x a) * Ct t 0 k x b) = fun _ => if a = b then 1 else 0 := by
      funext t
      exact h3 t k a b
    rw [h9] at h8
    have h10 := h8.unique (hasDerivAt_const _ _)
    rw [Finset.sum_add_distrib, h1] at h10
    exact h10
  rw [h7, mul_zero] at h6
  exact vanishes_of_dot G h6
end

end Jrystal
