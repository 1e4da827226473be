import Verif.Spec.SpinGradient
import Verif.Lemmas.EnergyGradient
import Verif.Lemmas.KohnShamNC
import Verif.Lemmas.Reach3

/- Lemmas for C126: the derivative of the energy for any number of spin channels. -/
namespace Jrystal
open scoped BigOperators ComplexConjugate Matrix
open KohnSham

section merge
variable {ns nk g nb : ℕ}

/-- Spin channels and k points as one axis. -/
def mergeAxes {α : Type*} (f : Fin ns → Fin nk → α) : Fin 1 → Fin (ns * nk) → α :=
  fun _ i => f (finProdFinEquiv.symm i).1 (finProdFinEquiv.symm i).2

/-- The inverse of `mergeAxes`. -/
def splitAxes {α : Type*} (f : Fin 1 → Fin (ns * nk) → α) : Fin ns → Fin nk → α :=
  fun s k => f 0 (finProdFinEquiv (s, k))

theorem splitAxes_merge {α : Type*} (f : Fin ns → Fin nk → α) : splitAxes (mergeAxes f) = f := by
  funext s k
  simp [splitAxes, mergeAxes]

theorem mergeAxes_split {α : Type*} (f : Fin 1 → Fin (ns * nk) → α) : mergeAxes (splitAxes f) = f := by
  funext s i
  rw [Subsingleton.elim s 0]
  show f 0 (finProdFinEquiv ((finProdFinEquiv.symm i).1, (finProdFinEquiv.symm i).2)) = f 0 i
  rw [Prod.mk.eta, Equiv.apply_symm_apply]

theorem mergeAxes_apply {α : Type*} (f : Fin ns → Fin nk → α) (s : Fin ns) (k : Fin nk) :
    mergeAxes f 0 (finProdFinEquiv (s, k)) = f s k := congrFun (congrFun (splitAxes_merge f) s) k

/-- Parameters with spin channels and k points as one axis. -/
def mergeParams (p : PwParams ns nk g nb) : PwParams 1 (ns * nk) g nb := ⟨mergeAxes p.re, mergeAxes p.im⟩

/-- The inverse of `mergeParams`. -/
def splitParams (p : PwParams 1 (ns * nk) g nb) : PwParams ns nk g nb := ⟨splitAxes p.re, splitAxes p.im⟩

theorem splitParams_merge (p : PwParams ns nk g nb) : splitParams (mergeParams p) = p := by
  obtain ⟨re, im⟩ := p
  simp only [splitParams, mergeParams, splitAxes_merge]

theorem mergeParams_split (p : PwParams 1 (ns * nk) g nb) : mergeParams (splitParams p) = p := by
  obtain ⟨re, im⟩ := p
  simp only [splitParams, mergeParams, mergeAxes_split]

theorem unitaryMatrix_merge (qr : QR ℂ) (p : PwParams ns nk g nb) :
    unitaryMatrix qr (mergeParams p) = mergeAxes (unitaryMatrix qr p) := rfl

theorem unitaryMatrix_split (qr : QR ℂ) (p : PwParams 1 (ns * nk) g nb) :
    unitaryMatrix qr (splitParams p) = splitAxes (unitaryMatrix qr p) := rfl

theorem sum_merge (f : Fin ns → Fin nk → ℝ) : ∑ i, mergeAxes f 0 i = ∑ s, ∑ k, f s k := by
  rw [← Finset.sum_product', Finset.univ_product_univ, ← Equiv.sum_comp (finProdFinEquiv (m := ns) (n := nk))]
  refine Finset.sum_congr rfl fun i _ => ?_
  exact mergeAxes_apply f i.1 i.2

theorem paramDot_merge (G d : PwParams ns nk g nb) :
    Spec.paramDot (mergeParams G) (mergeParams d) = Spec.paramDot G d := by
  unfold Spec.paramDot
  rw [Fin.sum_univ_one]
  exact sum_merge fun s k => ∑ a, ∑ b, (G.re s k a b * d.re s k a b + G.im s k a b * d.im s k a b)

theorem gradient_merge (f : PwParams ns nk g nb → ℝ) (p G : PwParams ns nk g nb) :
    Spec.IsFullGradient f p G ↔ Spec.IsFullGradient (fun q => f (splitParams q)) (mergeParams p) (mergeParams G) := by
  constructor
  · intro h P d h0 h1 h2
    have := h (fun t => splitParams (P t)) (splitParams d) (by rw [h0, splitParams_merge])
      (fun s k a b => h1 0 _ a b) fun s k a b => h2 0 _ a b
    refine this.congr_deriv ?_
    rw [← paramDot_merge, mergeParams_split]
  · intro h P d h0 h1 h2
    have := h (fun t => mergeParams (P t)) (mergeParams d) (by rw [h0]) (fun s k a b => h1 _ _ a b)
      fun s k a b => h2 _ _ a b
    rw [paramDot_merge] at this
    simp only [splitParams_merge] at this
    exact this

theorem vanishes_merge (G : PwParams ns nk g nb) : Spec.Vanishes (mergeParams G) ↔ Spec.Vanishes G := by
  constructor
  · intro h s k a b
    have := h 0 (finProdFinEquiv (s, k)) a b
    simp only [mergeParams, mergeAxes_apply] at this
    exact this
  · intro h s i a b
    exact h _ _ a b

theorem independent_merge (p : PwParams ns nk g nb) (h : Spec.Independent p) : Spec.Independent (mergeParams p) :=
  fun _ _ => h _ _
end merge

section
variable {ns nk M nb : ℕ} (qr : QR ℂ) (ht : Spec.Triangular qr) (hm : nb ≤ M) (occ : Occ ns nk (min M nb))
    (E : (Fin ns → Fin nk → Fin M → Fin (min M nb) → ℂ) → ℝ)
    (hphase : ∀ (u : Fin ns → Fin nk → Fin (min M nb) → ℂ), (∀ s k b, conj (u s k b) * u s k b = 1) →
      ∀ C, E (fun s k G b => u s k b * C s k G b) = E C)
    (p : PwParams ns nk M nb) (hp : Spec.Independent p)
    (F : Fin ns → Fin nk → Matrix (Fin M) (Fin M) ℂ) (hF : ∀ s k, (F s k).IsHermitian)
    (hder : ∀ (Ct : ℝ → Fin ns → Fin nk → Fin M → Fin (min M nb) → ℂ)
      (D : Fin ns → Fin nk → Fin M → Fin (min M nb) → ℂ),
      Ct 0 = unitaryMatrix qr p → (∀ s k G b, HasDerivAt (fun t => Ct t s k G b) (D s k G b) 0) →
      HasDerivAt (fun t => E (Ct t)) (2 * ∑ s, ∑ k, ∑ b, occ s k b *
        (((Matrix.of (D s k))ᴴ * F s k * Matrix.of (unitaryMatrix qr p s k)) b b).re) 0)
include ht hm hphase hp hF hder

/-- The gradient of a function of the bands of several channels exists, and vanishes exactly at the solutions of the
equations of its derivative. -/
theorem spin_gradient_iff :
    (∃ G, Spec.IsFullGradient (fun p => E (unitaryMatrix qr p)) p G) ∧
    ∀ G, Spec.IsFullGradient (fun p => E (unitaryMatrix qr p)) p G → (Spec.Vanishes G ↔
      (∀ s k b, occ s k b ≠ 0 → ∀ x, ∑ y, F s k x y * unitaryMatrix qr p s k y b
        = ∑ a, ((Matrix.of (unitaryMatrix qr p s k))ᴴ * F s k * Matrix.of (unitaryMatrix qr p s k)) a b
          * unitaryMatrix qr p s k x a) ∧
      (∀ s k a b, occ s k a ≠ occ s k b →
        ((Matrix.of (unitaryMatrix qr p s k))ᴴ * F s k * Matrix.of (unitaryMatrix qr p s k)) a b = 0)) := by
  set E' : (Fin 1 → Fin (ns * nk) → Fin M → Fin (min M nb) → ℂ) → ℝ := fun C => E (splitAxes C) with hE'
  have hphase' : ∀ (u : Fin 1 → Fin (ns * nk) → Fin (min M nb) → ℂ), (∀ s k b, conj (u s k b) * u s k b = 1) →
      ∀ C, E' (fun s k G b => u s k b * C s k G b) = E' C :=
    fun u hu C => hphase (splitAxes u) (fun s k b => hu _ _ _) (splitAxes C)
  have hder' : ∀ (Ct : ℝ → Fin 1 → Fin (ns * nk) → Fin M → Fin (min M nb) → ℂ)
      (D : Fin 1 → Fin (ns * nk) → Fin M → Fin (min M nb) → ℂ),
      Ct 0 = unitaryMatrix qr (mergeParams p) → (∀ k G b, HasDerivAt (fun t => Ct t 0 k G b) (D 0 k G b) 0) →
      HasDerivAt (fun t => E' (Ct t)) (2 * ∑ k, ∑ b, mergeAxes occ 0 k b *
        (((Matrix.of (D 0 k))ᴴ * mergeAxes F 0 k * Matrix.of (unitaryMatrix qr (mergeParams p) 0 k)) b b).re) 0 := by
    intro Ct D h0 h1
    have := hder (fun t => splitAxes (Ct t)) (splitAxes D) (by rw [h0, unitaryMatrix_merge, splitAxes_merge])
      fun s k G b => h1 _ G b
    refine this.congr_deriv ?_
    rw [← sum_merge fun s k => ∑ b, occ s k b * (((Matrix.of (splitAxes D s k))ᴴ * F s k *
      Matrix.of (unitaryMatrix qr p s k)) b b).re]
    refine congrArg (2 * ·) (Finset.sum_congr rfl fun i _ => ?_)
    obtain ⟨⟨s, k⟩, rfl⟩ := finProdFinEquiv.surjective i
    rw [mergeAxes_apply, mergeAxes_apply, mergeAxes_apply, unitaryMatrix_merge, mergeAxes_apply]
    rfl
  have hF' : ∀ i, (mergeAxes F 0 i).IsHermitian := fun i => hF _ _
  have hp' := independent_merge p hp
  have hEE : (fun q => E (unitaryMatrix qr (splitParams q))) = fun q => E' (unitaryMatrix qr q) := rfl
  have ex := gradient_exists qr ht hm (mergeAxes occ) E' hphase' (mergeParams p) hp' (mergeAxes F 0) hder'
  refine ⟨?_, fun G hG => ?_⟩
  · obtain ⟨G, hG⟩ := ex
    refine ⟨splitParams G, ?_⟩
    rw [gradient_merge, mergeParams_split]
    exact hG
  · rw [gradient_merge] at hG
    rw [← vanishes_merge]
    have key : Spec.Vanishes (mergeParams G) ↔ _ :=
      ⟨fun h => kohnSham_of_gradient qr ht hm (mergeAxes occ) E' hphase' (mergeParams p) hp' (mergeAxes F 0) hder' hF'
        (mergeParams G) hG h,
      fun h => gradient_of_kohnSham qr ht hm (mergeAxes occ) E' hphase' (mergeParams p) hp' (mergeAxes F 0) hder' hF'
        (mergeParams G) hG h⟩
    rw [key]
    constructor
    · rintro ⟨h1, h2⟩
      constructor
      · intro s k b hb x
        have := h1 (finProdFinEquiv (s, k)) b (by rw [mergeAxes_apply]; exact hb) x
        simp only [unitaryMatrix_merge, mergeAxes_apply] at this
        exact this
      · intro s k a b hb
        have := h2 (finProdFinEquiv (s, k)) a b (by rw [mergeAxes_apply]; exact hb)
        simp only [unitaryMatrix_merge, mergeAxes_apply] at this
        exact this
    · rintro ⟨h1, h2⟩
      exact ⟨fun i b hb x => h1 _ _ b hb x, fun i a b hab => h2 _ _ a b hab⟩
end

namespace KohnSham
variable {n : Fin 3 → ℕ} {ns nk nb M : ℕ} {ι : Type} [Fintype ι]

theorem fftn_sum (f : Fin ns → Idx n → ℂ) (k : Idx n) : ∑ s, fftn (f s) k = fftn (fun j => ∑ s, f s j) k := by
  simp only [fftn_eq]
  rw [Finset.sum_comm]
  exact Finset.sum_congr rfl fun j _ => by rw [Finset.sum_mul]

theorem fftn_total (ρ : Fin ns → Idx n → ℝ) (k : Idx n) :
    ∑ s, fftn (fun j => (ρ s j : ℂ)) k = fftn (fun j => ((∑ s, ρ s j : ℝ) : ℂ)) k := by
  rw [fftn_sum]
  simp only [Complex.ofReal_sum]

theorem hartreeRealSpace_total (ρ : Fin ns → Idx n → ℝ) (g : Idx n → Fin 3 → ℝ) (ks : Bool) :
    hartreeRealSpace ρ g ks = hartreeRealSpace (fun _ : Fin 1 => fun j => ∑ s, ρ s j) g ks := by
  unfold hartreeRealSpace hartreeReciprocal
  simp only [fftn_total, Fin.sum_univ_one]

/-- The potential energy of a density, through the matrix elements of the potential. -/
theorem potential_density (vol : ℝ) (v : Idx n → ℝ) (o : Fin nk → Fin nb → ℝ) (c d : Fin nk → Fin nb → Idx n → ℂ) :
    vol / (gridCount n : ℝ) * ∑ j, v j *
        (∑ k, ∑ b, 2 * (conj (orbital (d k b) vol j) * orbital (c k b) vol j).re * o k b)
      = 2 * ∑ k, ∑ b, o k b * (Spec.potentialElement vol v (orbital (d k b) vol) (orbital (c k b) vol)).re := by
  have hel : ∀ k b, (Spec.potentialElement vol v
      (orbital (d k b) vol) (orbital (c k b) vol)).re
      = vol / (gridCount n : ℝ) *
        ∑ j, v j * (conj (orbital (d k b) vol j) * orbital (c k b) vol j).re := by
    intro k b
    unfold Spec.potentialElement Spec.cellInner
    rw [Complex.re_ofReal_mul, Complex.re_sum]
    congr 1
    refine Finset.sum_congr rfl fun j _ => ?_
    rw [mul_left_comm, Complex.re_ofReal_mul]
  simp_rw [hel, Finset.mul_sum]
  rw [Finset.sum_comm]
  refine Finset.sum_congr rfl fun k _ => ?_
  rw [Finset.sum_comm]
  refine Finset.sum_congr rfl fun b _ => ?_
  refine Finset.sum_congr rfl fun j _ => ?_
  ring

/-- The energy of any number of channels in a local potential `V` and with projectors, `X` being the
exchange-correlation energy. -/
noncomputable def spinSum (X : (Fin ns → Idx n → ℝ) → ℝ) (V : Idx n → ℝ) (psi : Fin nk → ι → Fin M → Idx n → ℂ)
    (g : Idx n → Fin 3 → ℝ) (kpts : Fin nk → Fin 3 → ℝ) (vol : ℝ) (occ : Occ ns nk nb) (c : Coef ns nk nb n) : ℝ :=
  kineticEnergyOcc g kpts c occ + vol / (gridCount n : ℝ) * ∑ j, V j * ∑ s, densityGrid c vol occ s j
    + hartreeSum g vol (fun j => ∑ s, densityGrid c vol occ s j) + X (densityGrid c vol occ)
    + ∑ s, ∑ k, ∑ b, occ s k b * (hamiltonianNonlocal c psi vol s k b b).re

theorem hasDerivAt_spinSum (X : (Fin ns → Idx n → ℝ) → ℝ) (V : Idx n → ℝ) (psi : Fin nk → ι → Fin M → Idx n → ℂ)
    (g : Idx n → Fin 3 → ℝ) (kpts : Fin nk → Fin 3 → ℝ) (vol : ℝ) (occ : Occ ns nk nb)
    (c : ℝ → Coef ns nk nb n) (d : Coef ns nk nb n)
    (h : ∀ s k b x, HasDerivAt (fun t => c t s k b x) (d s k b x) 0) (v : Fin ns → Idx n → ℝ)
    (hv : Spec.IsDensityGradient vol X (densityGrid (c 0) vol occ) v) (U : Fin ns → Idx n → ℝ)
    (hU : ∀ s j, U s j = V j + (hartreeRealSpace (densityGrid (c 0) vol occ) g true j).re + v s j) :
    HasDerivAt (fun t => spinSum X V psi g kpts vol occ (c t))
      (2 * ∑ s, ∑ k, ∑ b, occ s k b * (hamiltonianNonlocal (fun s k => Fin.append (c 0 s k) (d s k)) psi vol s k
          (Fin.natAdd nb b) (Fin.castAdd nb b)
        + Spec.kineticElement g (kpts k) (d s k b) (c 0 s k b)
        + Spec.potentialElement vol (U s) (orbital (d s k b) vol) (orbital (c 0 s k b) vol)).re) 0 := by
  set rho' : Fin ns → Idx n → ℝ := fun s j =>
    ∑ k, ∑ b, 2 * (conj (orbital (d s k b) vol j) * orbital (c 0 s k b) vol j).re * occ s k b with hrho'
  have hrho : ∀ s j, HasDerivAt (fun t => densityGrid (c t) vol occ s j) (rho' s j) 0 := fun s j =>
    hasDerivAt_density (c := fun t _ => c t s) (d := fun _ => d s) (fun k b x => h s k b x) vol (fun _ => occ s) j
  have hkin : HasDerivAt (fun t => kineticEnergyOcc g kpts (c t) occ)
      (∑ s, ∑ k, ∑ b, 2 * (Spec.kineticElement g (kpts k) (d s k b) (c 0 s k b)).re * occ s k b) 0 := by
    have h1 : ∀ t, kineticEnergyOcc g kpts (c t) occ
        = ∑ s, kineticEnergyOcc g kpts (fun _ : Fin 1 => c t s) (fun _ => occ s) := by
      intro t
      unfold kineticEnergyOcc
      simp only [Fin.sum_univ_one]
      rw [Finset.sum_div]
    simp only [h1]
    exact HasDerivAt.fun_sum fun s _ => hasDerivAt_kinetic (c := fun t _ => c t s) (d := fun _ => d s)
      (fun k b x => h s k b x) g kpts (fun _ => occ s)
  have htot : ∀ j, HasDerivAt (fun t => ∑ s, densityGrid (c t) vol occ s j) (∑ s, rho' s j) 0 := fun j =>
    HasDerivAt.fun_sum fun s _ => hrho s j
  have hext : HasDerivAt (fun t => vol / (gridCount n : ℝ) * ∑ j, V j * ∑ s, densityGrid (c t) vol occ s j)
      (vol / (gridCount n : ℝ) * ∑ j, V j * ∑ s, rho' s j) 0 :=
    (HasDerivAt.fun_sum fun j _ => (htot j).const_mul _).const_mul _
  have hhar := hasDerivAt_hartree htot g vol
  rw [← hartreeRealSpace_total] at hhar
  have hxc := hv (fun t => densityGrid (c t) vol occ) rho' rfl hrho
  have hnl : HasDerivAt (fun t => ∑ s, ∑ k, ∑ b, occ s k b * (hamiltonianNonlocal (c t) psi vol s k b b).re)
      (∑ s, ∑ k, ∑ b, occ s k b * (2 * (hamiltonianNonlocal (fun s k => Fin.append (c 0 s k) (d s k)) psi vol s k
        (Fin.natAdd nb b) (Fin.castAdd nb b)).re)) 0 :=
    HasDerivAt.fun_sum fun s _ => HasDerivAt.fun_sum fun k _ => HasDerivAt.fun_sum fun b _ =>
      (hasDerivAt_nonlocal (c := fun t _ => c t s) (d := fun _ => d s) (fun k b x => h s k b x) psi vol k b).const_mul _
  have hall := (((hkin.fun_add hext).fun_add hhar).fun_add hxc).fun_add hnl
  refine hall.congr_deriv ?_
  have hpot : ∀ s, vol / (gridCount n : ℝ) * ∑ j, U s j * rho' s j
      = 2 * ∑ k, ∑ b, occ s k b * (Spec.potentialElement vol (U s) (orbital (d s k b) vol)
        (orbital (c 0 s k b) vol)).re := fun s => potential_density vol (U s) (occ s) (c 0 s) (d s)
  have hsum : vol / (gridCount n : ℝ) * ∑ j, V j * ∑ s, rho' s j
      + vol / (gridCount n : ℝ) * ∑ j, (hartreeRealSpace (densityGrid (c 0) vol occ) g true j).re * ∑ s, rho' s j
      + ∑ s, Spec.cellIntegral vol (fun j => v s j * rho' s j)
      = ∑ s, 2 * ∑ k, ∑ b, occ s k b * (Spec.potentialElement vol (U s) (orbital (d s k b) vol)
        (orbital (c 0 s k b) vol)).re := by
    simp only [← hpot, hU]
    have e1 : ∀ w : Idx n → ℝ, vol / (gridCount n : ℝ) * ∑ j, w j * ∑ s, rho' s j
        = ∑ s, vol / (gridCount n : ℝ) * ∑ j, w j * rho' s j := by
      intro w
      rw [← Finset.mul_sum, Finset.sum_comm]
      congr 1
      exact Finset.sum_congr rfl fun j _ => by rw [Finset.mul_sum]
    rw [e1, e1, ← Finset.sum_add_distrib, ← Finset.sum_add_distrib]
    refine Finset.sum_congr rfl fun s _ => ?_
    unfold Spec.cellIntegral
    rw [show ((∏ i, n i : ℕ) : ℝ) = (gridCount n : ℝ) from rfl, ← mul_add, ← mul_add, ← Finset.sum_add_distrib,
      ← Finset.sum_add_distrib]
    congr 1
    exact Finset.sum_congr rfl fun j _ => by ring
  have hR : 2 * ∑ s, ∑ k, ∑ b, occ s k b * (hamiltonianNonlocal (fun s k => Fin.append (c 0 s k) (d s k)) psi vol s k
          (Fin.natAdd nb b) (Fin.castAdd nb b)
        + Spec.kineticElement g (kpts k) (d s k b) (c 0 s k b)
        + Spec.potentialElement vol (U s) (orbital (d s k b) vol) (orbital (c 0 s k b) vol)).re
      = ∑ s, ∑ k, ∑ b, 2 * (Spec.kineticElement g (kpts k) (d s k b) (c 0 s k b)).re * occ s k b
        + (∑ s, 2 * ∑ k, ∑ b, occ s k b * (Spec.potentialElement vol (U s) (orbital (d s k b) vol)
        (orbital (c 0 s k b) vol)).re)
        + ∑ s, ∑ k, ∑ b, occ s k b * (2 * (hamiltonianNonlocal (fun s k => Fin.append (c 0 s k) (d s k)) psi vol s k
        (Fin.natAdd nb b) (Fin.castAdd nb b)).re) := by
    simp only [Finset.mul_sum]
    simp only [← Finset.sum_add_distrib]
    refine Finset.sum_congr rfl fun s _ => Finset.sum_congr rfl fun k _ => Finset.sum_congr rfl fun b _ => ?_
    simp only [Complex.add_re]
    ring
  rw [hR, ← hsum]
  ring

theorem nonlocal_conj (c : Coef ns nk nb n) (psi : Fin nk → ι → Fin M → Idx n → ℂ) (vol : ℝ) (s : Fin ns)
    (k : Fin nk) (i j : Fin nb) :
    conj (hamiltonianNonlocal c psi vol s k j i) = hamiltonianNonlocal c psi vol s k i j := by
  unfold hamiltonianNonlocal
  dsimp only
  rw [map_div₀, Complex.conj_ofReal, map_sum]
  refine congrArg (· / (vol : ℂ)) (Finset.sum_congr rfl fun β _ => ?_)
  rw [map_sum]
  refine Finset.sum_congr rfl fun φ _ => ?_
  rw [map_mul, Complex.conj_conj, mul_comm]

theorem kineticElement_conj (g : Idx n → Fin 3 → ℝ) (k : Fin 3 → ℝ) (c c' : Idx n → ℂ) :
    conj (Spec.kineticElement g k c' c) = Spec.kineticElement g k c c' := by
  unfold Spec.kineticElement
  rw [map_sum]
  refine Finset.sum_congr rfl fun x _ => ?_
  rw [map_mul, map_mul, Complex.conj_conj, Complex.conj_ofReal, mul_comm (c' x)]

theorem cellInner_conj (vol : ℝ) (V : Idx n → ℝ) (f f' : Idx n → ℂ) :
    conj (Spec.cellInner vol f' fun x => (V x : ℂ) * f x) = Spec.cellInner vol f fun x => (V x : ℂ) * f' x := by
  unfold Spec.cellInner
  rw [map_mul, Complex.conj_ofReal, map_sum]
  refine congrArg _ (Finset.sum_congr rfl fun x _ => ?_)
  rw [map_mul, map_mul, Complex.conj_conj, Complex.conj_ofReal]
  ring

/-- One matrix element of the textbook Hamiltonian on the plane waves between two sets of bands. -/
theorem element_compress (psi : Fin nk → ι → Fin M → Idx n → ℂ)
    (mask : Idx n → Bool) (A : Matrix (Fin 3) (Fin 3) ℝ) (hA : A.det ≠ 0) (k₀ : Fin 3 → ℝ) (vol : ℝ)
    (hvol : 0 < vol) (C : Fin ns → Fin nk → Fin (maskCount mask) → Fin nb → ℂ) (U : Idx n → ℝ) (s : Fin ns) (k : Fin nk)
    (i j : Fin nb) :
    hamiltonianNonlocal (expandCoefficient mask C) psi vol s k i j
        + Spec.kineticElement (gVectors A n) k₀ (expandCoefficient mask C s k i) (expandCoefficient mask C s k j)
        + Spec.potentialElement vol U (orbital (expandCoefficient mask C s k i) vol)
            (orbital (expandCoefficient mask C s k j) vol)
      = ((Matrix.of (C s k))ᴴ * (Spec.planeWaveHamiltonian
            (fun a => gVectors A n (maskPos mask a)) (rVectors A n) U k₀
          + Spec.projectorMatrix vol (fun (i : ι × Fin M) a => psi k i.1 i.2 (maskPos mask a)))
          * Matrix.of (C s k)) i j := by
  let H : Fin nb → Fin nb → ℂ := fun i j => hamiltonianNonlocal (expandCoefficient mask C) psi vol s k i j
        + Spec.kineticElement (gVectors A n) k₀ (expandCoefficient mask C s k i) (expandCoefficient mask C s k j)
        + Spec.cellInner vol (waveGrid (expandCoefficient mask C) vol s k i) fun x =>
            (U x : ℂ) * waveGrid (expandCoefficient mask C) vol s k j x
  have h6 := ncMatrix_compress mask C psi A hA vol hvol (fun x => (U x : ℂ)) U (fun x => rfl) k₀ s k H
    (fun i j => rfl)
  have hHh : (Matrix.of H)ᴴ = Matrix.of H := by
    ext i j
    rw [Matrix.conjTranspose_apply, Matrix.of_apply, Matrix.of_apply, RCLike.star_def]
    simp only [H, map_add]
    exact congrArg₂ (· + ·) (congrArg₂ (· + ·) (nonlocal_conj _ _ _ _ _ _ _) (kineticElement_conj _ _ _ _))
      (cellInner_conj _ _ _ _)
  rw [hHh, ← two_smul ℂ (Matrix.of H), smul_smul, show (1 / 2 : ℂ) * 2 = 1 by norm_num, one_smul] at h6
  exact congrFun (congrFun h6 i) j

/-- The derivative in the compact layout is given by the textbook Hamiltonian on the plane waves. -/
theorem compact_spin_deriv (X : (Fin ns → Idx n → ℝ) → ℝ) (V : Idx n → ℝ) (psi : Fin nk → ι → Fin M → Idx n → ℂ)
    (mask : Idx n → Bool) (A : Matrix (Fin 3) (Fin 3) ℝ) (hA : A.det ≠ 0) (kpts : Fin nk → Fin 3 → ℝ) (vol : ℝ)
    (hvol : 0 < vol) (occ : Occ ns nk nb)
    (C : ℝ → Fin ns → Fin nk → Fin (maskCount mask) → Fin nb → ℂ)
    (D : Fin ns → Fin nk → Fin (maskCount mask) → Fin nb → ℂ)
    (h : ∀ s k G b, HasDerivAt (fun t => C t s k G b) (D s k G b) 0) (v : Fin ns → Idx n → ℝ)
    (hv : Spec.IsDensityGradient vol X (densityGrid (expandCoefficient mask (C 0)) vol occ) v) (U : Fin ns → Idx n → ℝ)
    (hU : ∀ s j, U s j = V j
      + (hartreeRealSpace (densityGrid (expandCoefficient mask (C 0)) vol occ) (gVectors A n) true j).re + v s j) :
    HasDerivAt (fun t => spinSum X V psi (gVectors A n) kpts vol occ (expandCoefficient mask (C t)))
      (2 * ∑ s, ∑ k, ∑ b, occ s k b * (((Matrix.of (D s k))ᴴ * (Spec.planeWaveHamiltonian
            (fun a => gVectors A n (maskPos mask a)) (rVectors A n) (U s) (kpts k)
          + Spec.projectorMatrix vol (fun (i : ι × Fin M) a => psi k i.1 i.2 (maskPos mask a)))
          * Matrix.of (C 0 s k)) b b).re) 0 := by
  have hx : ∀ s k b x, HasDerivAt (fun t => expandCoefficient mask (C t) s k b x) (expandCoefficient mask D s k b x) 0 :=
    fun s k b x => hasDerivAt_expand mask (C := fun t _ => C t s) (D := fun _ => D s) (fun k G b => h s k G b) k b x
  have hd := hasDerivAt_spinSum X V psi (gVectors A n) kpts vol occ (fun t => expandCoefficient mask (C t))
    (expandCoefficient mask D) hx v hv U hU
  refine hd.congr_deriv ?_
  refine congrArg (2 * ·) (Finset.sum_congr rfl fun s _ => Finset.sum_congr rfl fun k _ =>
    Finset.sum_congr rfl fun b _ => ?_)
  have h8 : ∀ F : Matrix (Fin (maskCount mask)) (Fin (maskCount mask)) ℂ,
      ((Matrix.of fun G => Fin.append (C 0 s k G) (D s k G))ᴴ * F * Matrix.of fun G => Fin.append (C 0 s k G) (D s k G))
        (Fin.natAdd nb b) (Fin.castAdd nb b) = ((Matrix.of (D s k))ᴴ * F * Matrix.of (C 0 s k)) b b := by
    intro F
    simp only [Matrix.mul_apply, Matrix.conjTranspose_apply, Matrix.of_apply, Fin.append_left, Fin.append_right]
  have h9 := element_compress psi mask A hA (kpts k) vol hvol (fun s k G => Fin.append (C 0 s k G) (D s k G)) (U s) s k
    (Fin.natAdd nb b) (Fin.castAdd nb b)
  rw [h8, ← expand_append] at h9
  simp only [Fin.append_left, Fin.append_right] at h9
  rw [← h9]

theorem hasDerivAt_spinSum_occ (X : (Fin ns → Idx n → ℝ) → ℝ) (V : Idx n → ℝ) (psi : Fin nk → ι → Fin M → Idx n → ℂ)
    (g : Idx n → Fin 3 → ℝ) (kpts : Fin nk → Fin 3 → ℝ) (vol : ℝ) (o : ℝ → Occ ns nk nb) (o' : Occ ns nk nb)
    (c : Coef ns nk nb n) (h : ∀ s k b, HasDerivAt (fun t => o t s k b) (o' s k b) 0) (v : Fin ns → Idx n → ℝ)
    (hv : Spec.IsDensityGradient vol X (densityGrid c vol (o 0)) v) (U : Fin ns → Idx n → ℝ)
    (hU : ∀ s j, U s j = V j + (hartreeRealSpace (densityGrid c vol (o 0)) g true j).re + v s j) :
    HasDerivAt (fun t => spinSum X V psi g kpts vol (o t) c)
      (∑ s, ∑ k, ∑ b, o' s k b * (hamiltonianNonlocal c psi vol s k b b
        + Spec.kineticElement g (kpts k) (c s k b) (c s k b)
        + Spec.potentialElement vol (U s) (orbital (c s k b) vol) (orbital (c s k b) vol)).re) 0 := by
  set rho' : Fin ns → Idx n → ℝ := fun s j => ∑ k, ∑ b, absoluteSquare (orbital (c s k b) vol j) * o' s k b with hrho'
  have hrho : ∀ s j, HasDerivAt (fun t => densityGrid c vol (o t) s j) (rho' s j) 0 := fun s j =>
    HasDerivAt.fun_sum fun k _ => HasDerivAt.fun_sum fun b _ => (h s k b).const_mul _
  have hkin : HasDerivAt (fun t => kineticEnergyOcc g kpts c (o t))
      (∑ s, ∑ k, ∑ b, o' s k b * (Spec.kineticElement g (kpts k) (c s k b) (c s k b)).re) 0 := by
    have h1 : ∀ o : Occ ns nk nb, kineticEnergyOcc g kpts c o
        = ∑ s, ∑ k, ∑ b, o s k b * (Spec.kineticElement g (kpts k) (c s k b) (c s k b)).re := by
      intro o
      have e : kineticEnergyOcc g kpts c o = ∑ s, kineticEnergyOcc g kpts (fun _ : Fin 1 => c s) (fun _ => o s) := by
        unfold kineticEnergyOcc
        simp only [Fin.sum_univ_one]
        rw [Finset.sum_div]
      rw [e]
      exact Finset.sum_congr rfl fun s _ => kinetic_elements g kpts _ _
    simp only [h1]
    exact HasDerivAt.fun_sum fun s _ => HasDerivAt.fun_sum fun k _ => HasDerivAt.fun_sum fun b _ =>
      (h s k b).mul_const _
  have htot : ∀ j, HasDerivAt (fun t => ∑ s, densityGrid c vol (o t) s j) (∑ s, rho' s j) 0 := fun j =>
    HasDerivAt.fun_sum fun s _ => hrho s j
  have hext : HasDerivAt (fun t => vol / (gridCount n : ℝ) * ∑ j, V j * ∑ s, densityGrid c vol (o t) s j)
      (vol / (gridCount n : ℝ) * ∑ j, V j * ∑ s, rho' s j) 0 :=
    (HasDerivAt.fun_sum fun j _ => (htot j).const_mul _).const_mul _
  have hhar := hasDerivAt_hartree htot g vol
  rw [← hartreeRealSpace_total] at hhar
  have hxc := hv (fun t => densityGrid c vol (o t)) rho' rfl hrho
  have hnl : HasDerivAt (fun t => ∑ s, ∑ k, ∑ b, o t s k b * (hamiltonianNonlocal c psi vol s k b b).re)
      (∑ s, ∑ k, ∑ b, o' s k b * (hamiltonianNonlocal c psi vol s k b b).re) 0 :=
    HasDerivAt.fun_sum fun s _ => HasDerivAt.fun_sum fun k _ => HasDerivAt.fun_sum fun b _ => (h s k b).mul_const _
  have hall := (((hkin.fun_add hext).fun_add hhar).fun_add hxc).fun_add hnl
  refine hall.congr_deriv ?_
  have hpot : ∀ s, vol / (gridCount n : ℝ) * ∑ j, U s j * rho' s j
      = ∑ k, ∑ b, o' s k b * (Spec.potentialElement vol (U s) (orbital (c s k b) vol) (orbital (c s k b) vol)).re := by
    intro s
    have hp := potential_density vol (U s) (o' s) (c s) (c s)
    have e : ∀ j, ∑ k, ∑ b, 2 * (conj (orbital (c s k b) vol j) * orbital (c s k b) vol j).re * o' s k b
        = 2 * rho' s j := by
      intro j
      simp only [hrho', Finset.mul_sum]
      exact Finset.sum_congr rfl fun k _ => Finset.sum_congr rfl fun b _ => by
        unfold absoluteSquare
        ring
    simp only [e, mul_left_comm (U s _) 2] at hp
    rw [← Finset.mul_sum, mul_left_comm] at hp
    linarith
  have hsum : vol / (gridCount n : ℝ) * ∑ j, V j * ∑ s, rho' s j
      + vol / (gridCount n : ℝ) * ∑ j, (hartreeRealSpace (densityGrid c vol (o 0)) g true j).re * ∑ s, rho' s j
      + ∑ s, Spec.cellIntegral vol (fun j => v s j * rho' s j)
      = ∑ s, ∑ k, ∑ b, o' s k b * (Spec.potentialElement vol (U s) (orbital (c s k b) vol)
        (orbital (c s k b) vol)).re := by
    simp only [← hpot, hU]
    have e1 : ∀ w : Idx n → ℝ, vol / (gridCount n : ℝ) * ∑ j, w j * ∑ s, rho' s j
        = ∑ s, vol / (gridCount n : ℝ) * ∑ j, w j * rho' s j := by
      intro w
      rw [← Finset.mul_sum, Finset.sum_comm]
      congr 1
      exact Finset.sum_congr rfl fun j _ => by rw [Finset.mul_sum]
    rw [e1, e1, ← Finset.sum_add_distrib, ← Finset.sum_add_distrib]
    refine Finset.sum_congr rfl fun s _ => ?_
    unfold Spec.cellIntegral
    rw [show ((∏ i, n i : ℕ) : ℝ) = (gridCount n : ℝ) from rfl, ← mul_add, ← mul_add, ← Finset.sum_add_distrib,
      ← Finset.sum_add_distrib]
    congr 1
    exact Finset.sum_congr rfl fun j _ => by ring
  have hR : ∑ s, ∑ k, ∑ b, o' s k b * (hamiltonianNonlocal c psi vol s k b b
        + Spec.kineticElement g (kpts k) (c s k b) (c s k b)
        + Spec.potentialElement vol (U s) (orbital (c s k b) vol) (orbital (c s k b) vol)).re
      = ∑ s, ∑ k, ∑ b, o' s k b * (Spec.kineticElement g (kpts k) (c s k b) (c s k b)).re
        + (∑ s, ∑ k, ∑ b, o' s k b * (Spec.potentialElement vol (U s) (orbital (c s k b) vol)
        (orbital (c s k b) vol)).re)
        + ∑ s, ∑ k, ∑ b, o' s k b * (hamiltonianNonlocal c psi vol s k b b).re := by
    simp only [← Finset.sum_add_distrib]
    refine Finset.sum_congr rfl fun s _ => Finset.sum_congr rfl fun k _ => Finset.sum_congr rfl fun b _ => ?_
    simp only [Complex.add_re]
    ring
  rw [hR, ← hsum]
  ring

/-- `total_energy` of any number of channels. -/
theorem totalEnergy_spinSum (lib : XcLib) (xt : String) {na : ℕ} (pos : Fin na → Fin 3 → ℝ) (charge : Fin na → ℝ)
    (g : Idx n → Fin 3 → ℝ) (kpts : Fin nk → Fin 3 → ℝ) (vol : ℝ) (X : (Fin ns → Idx n → ℝ) → ℝ)
    (hX : ∀ r, xcEnergy lib xt false r g vol = .ok (X r)) (occ : Occ ns nk nb) (c : Coef ns nk nb n) :
    totalEnergy lib c pos charge g kpts vol (some occ) false xt
      = .ok (spinSum X (fun j => (externalPotential pos charge g vol j).re) (fun _ (_ : Fin 0) (_ : Fin 0) _ => 0) g kpts
        vol occ c) := by
  have hG : waveToDensityReciprocal (waveGrid c vol) occ = fun s => fftn fun j => (densityGrid c vol occ s j : ℂ) := by
    unfold waveToDensityReciprocal
    rw [waveToDensity_eq]
  have hext : externalEnergy (fun s => fftn fun j => (densityGrid c vol occ s j : ℂ)) pos charge g vol
      = .ok (vol / (gridCount n : ℝ) * ∑ j, (externalPotential pos charge g vol j).re
        * ∑ s, densityGrid c vol occ s j) := by
    unfold externalEnergy
    rw [reciprocalBraket_one]
    simp only [fftn_total]
    rw [braket_real]
    rfl
  have hhar : hartreeEnergy (fun s => fftn fun j => (densityGrid c vol occ s j : ℂ)) g vol false
      = .ok (hartreeSum g vol fun j => ∑ s, densityGrid c vol occ s j) := by
    rw [hartreeEnergy_eq]
    unfold hartreeSum
    simp only [Bool.false_eq_true, if_false, fftn_total, absoluteSquare_eq]
  unfold totalEnergy totalEnergySplit occOrOnes
  dsimp only
  rw [waveToDensity_eq, hG, hext, hhar, hX]
  dsimp only
  congr 1
  unfold spinSum hamiltonianNonlocal
  simp

/-- The energy of valence electrons of any number of channels. -/
theorem energyNC_spinSum (lib : XcLib) (xt : String) (vloc : Idx n → ℂ) (psi : Fin nk → ι → Fin M → Idx n → ℂ)
    (g : Idx n → Fin 3 → ℝ) (kpts : Fin nk → Fin 3 → ℝ) (vol : ℝ) (X : (Fin ns → Idx n → ℝ) → ℝ)
    (hX : ∀ r, xcEnergy lib xt false r g vol = .ok (X r)) (occ : Occ ns nk nb) (c : Coef ns nk nb n) :
    Spec.EnergyNC lib xt vloc psi g kpts vol c occ (spinSum X (fun j => (ifftn vloc j).re) psi g kpts vol occ c) := by
  refine ⟨hartreeSum g vol fun j => ∑ s, densityGrid c vol occ s j,
    vol / (gridCount n : ℝ) * ∑ j, (ifftn vloc j).re * ∑ s, densityGrid c vol occ s j,
    ∑ s, ∑ k, ∑ b, occ s k b * (hamiltonianNonlocal c psi vol s k b b).re, X (densityGrid c vol occ), ?_, ?_, ?_, hX _, ?_⟩
  · unfold densityGridReciprocal
    rw [hartreeEnergy_eq]
    unfold hartreeSum
    simp only [Bool.false_eq_true, if_false, fftn_total, absoluteSquare_eq]
  · unfold energyLocal densityGridReciprocal
    rw [reciprocalBraket_one]
    simp only [fftn_total]
    rw [braket_real]
  · unfold energyNonlocal
    simp only [Complex.re_sum, Complex.re_mul_ofReal]
    congr 1
    exact Finset.sum_congr rfl fun s _ => Finset.sum_congr rfl fun k _ => Finset.sum_congr rfl fun b _ => mul_comm _ _
  · unfold spinSum
    ring

end KohnSham
end Jrystal
