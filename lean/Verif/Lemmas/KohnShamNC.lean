import Verif.Lemmas.Stationary
import Verif.Lemmas.Janak
import Verif.Lemmas.PwMatrixNC

/- The derivative of the energy of valence electrons along a curve of coefficients (C101). -/
namespace Jrystal
namespace KohnSham
open scoped BigOperators ComplexConjugate

variable {n : Fin 3 → ℕ} {nk nb M : ℕ} {ι : Type} [Fintype ι]

/-- The energy of valence electrons of one spin channel without exceptions. -/
noncomputable def valenceSum (lib : XcLib) (xt : String) (vloc : Idx n → ℂ)
    (psi : Fin nk → ι → Fin M → Idx n → ℂ) (g : Idx n → Fin 3 → ℝ) (kpts : Fin nk → Fin 3 → ℝ) (vol : ℝ)
    (occ : Occ 1 nk nb) (c : Coef 1 nk nb n) : ℝ :=
  localSum lib xt (fun j => (ifftn vloc j).re) g kpts vol occ c
    + ∑ k, ∑ b, occ 0 k b * (hamiltonianNonlocal c psi vol 0 k b b).re

theorem energyNC_valenceSum (lib : XcLib) (xt : String) (hg : pyIn "gga" xt = false)
    (vloc : Idx n → ℂ) (psi : Fin nk → ι → Fin M → Idx n → ℂ) (g : Idx n → Fin 3 → ℝ)
    (kpts : Fin nk → Fin 3 → ℝ) (vol : ℝ) (c : Coef 1 nk nb n) (occ : Occ 1 nk nb) (e : ℝ) :
    Spec.EnergyNC lib xt vloc psi g kpts vol c occ e ↔ e = valenceSum lib xt vloc psi g kpts vol occ c := by
  rw [energyNC_occEnergy lib xt hg]
  unfold occEnergy valenceSum localSum
  rw [kinetic_elements]
  simp only [mul_add, Finset.sum_add_distrib]
  constructor <;> intro h <;> rw [h] <;> ring

/-- Derivative of the projector energy of one band. -/
theorem hasDerivAt_nonlocal {c : ℝ → Coef 1 nk nb n} {d : Coef 1 nk nb n} {t : ℝ}
    (h : ∀ k b x, HasDerivAt (fun t => c t 0 k b x) (d 0 k b x) t) (psi : Fin nk → ι → Fin M → Idx n → ℂ)
    (vol : ℝ) (k : Fin nk) (b : Fin nb) :
    HasDerivAt (fun t => (hamiltonianNonlocal (c t) psi vol 0 k b b).re)
      (2 * (hamiltonianNonlocal (fun s k => Fin.append (c t s k) (d s k)) psi vol 0 k (Fin.natAdd nb b)
        (Fin.castAdd nb b)).re) t := by
  have hf : ∀ β φ, HasDerivAt (fun t => ∑ x, c t 0 k b x * psi k β φ x) (∑ x, d 0 k b x * psi k β φ x) t :=
    fun β φ => HasDerivAt.fun_sum fun x _ => (h k b x).mul_const _
  have h1 : HasDerivAt (fun t => (∑ β, ∑ φ, absoluteSquare (∑ x, c t 0 k b x * psi k β φ x)) / vol)
      ((∑ β, ∑ φ, 2 * (conj (∑ x, d 0 k b x * psi k β φ x) * ∑ x, c t 0 k b x * psi k β φ x).re) / vol) t :=
    (HasDerivAt.fun_sum fun β _ => HasDerivAt.fun_sum fun φ _ =>
      hasDerivAt_absoluteSquare (hf β φ)).div_const _
  have h2 : (fun t => (hamiltonianNonlocal (c t) psi vol 0 k b b).re)
      = fun t => (∑ β, ∑ φ, absoluteSquare (∑ x, c t 0 k b x * psi k β φ x)) / vol := by
    funext t
    unfold hamiltonianNonlocal
    rw [Complex.div_ofReal_re, Complex.re_sum]
    congr 1
    refine Finset.sum_congr rfl fun β _ => ?_
    rw [Complex.re_sum]
    refine Finset.sum_congr rfl fun φ _ => ?_
    beta_reduce
    rw [absoluteSquare_eq, mul_comm, Complex.mul_conj', ← Complex.ofReal_pow, Complex.ofReal_re]
  rw [h2]
  refine h1.congr_deriv ?_
  unfold hamiltonianNonlocal
  simp only [Fin.append_left, Fin.append_right]
  rw [Complex.div_ofReal_re, Complex.re_sum]
  simp only [Complex.re_sum, Finset.mul_sum, Finset.sum_div, mul_div_assoc]

/-- The derivative of the energy of valence electrons along a curve. -/
theorem hasDerivAt_valenceSum (lib : XcLib) (xt : String) (hg : pyIn "gga" xt = false)
    (vloc : Idx n → ℂ) (psi : Fin nk → ι → Fin M → Idx n → ℂ) (g : Idx n → Fin 3 → ℝ)
    (kpts : Fin nk → Fin 3 → ℝ) (vol : ℝ) (occ : Occ 1 nk nb)
    {c : ℝ → Coef 1 nk nb n} {d : Coef 1 nk nb n} {t : ℝ}
    (h : ∀ k b x, HasDerivAt (fun t => c t 0 k b x) (d 0 k b x) t)
    (hd : ∀ j, ∀ x ∈ splitPlus xt, DifferentiableAt ℝ (lib.lda x) (densityGrid (c t) vol occ 0 j))
    (v : Idx n → ℝ)
    (hv : ∀ j, v j = (ifftn vloc j + hartreeRealSpace (densityGrid (c t) vol occ) g true j
      + vxcDensity lib xt g (densityGrid (c t) vol occ) 0 j).re) :
    HasDerivAt (fun t => valenceSum lib xt vloc psi g kpts vol occ (c t))
      (2 * ∑ k, ∑ b, occ 0 k b * (hamiltonianNonlocal (fun s k => Fin.append (c t s k) (d s k)) psi vol 0 k
          (Fin.natAdd nb b) (Fin.castAdd nb b)
        + Spec.kineticElement g (kpts k) (d 0 k b) (c t 0 k b)
        + Spec.potentialElement vol v (orbital (d 0 k b) vol) (orbital (c t 0 k b) vol)).re) t := by
  have h1 := hasDerivAt_localSum lib xt hg (fun j => (ifftn vloc j).re) g kpts vol occ h hd v fun j => by
    rw [hv, Complex.add_re, Complex.add_re]
    rfl
  have h2 : HasDerivAt (fun t => ∑ k, ∑ b, occ 0 k b * (hamiltonianNonlocal (c t) psi vol 0 k b b).re)
      (∑ k, ∑ b, occ 0 k b * (2 * (hamiltonianNonlocal (fun s k => Fin.append (c t s k) (d s k)) psi vol 0 k
        (Fin.natAdd nb b) (Fin.castAdd nb b)).re)) t :=
    HasDerivAt.fun_sum fun k _ => HasDerivAt.fun_sum fun b _ => (hasDerivAt_nonlocal h psi vol k b).const_mul _
  refine (h1.fun_add h2).congr_deriv ?_
  simp only [Finset.mul_sum]
  rw [← Finset.sum_add_distrib]
  refine Finset.sum_congr rfl fun k _ => ?_
  rw [← Finset.sum_add_distrib]
  refine Finset.sum_congr rfl fun b _ => ?_
  simp only [Complex.add_re]
  ring

/-- The real part of a potential is what the two orders of a matrix element have in common. -/
theorem cellInner_symm_re (vol : ℝ) (W : Idx n → ℂ) (v : Idx n → ℝ) (hv : ∀ j, v j = (W j).re) (f f' : Idx n → ℂ) :
    ((Spec.cellInner vol f fun x => W x * f' x) + Spec.cellInner vol f' fun x => W x * f x).re
      = 2 * (Spec.potentialElement vol v f f').re := by
  unfold Spec.potentialElement Spec.cellInner
  rw [← mul_add, ← Finset.sum_add_distrib, Complex.re_ofReal_mul, Complex.re_ofReal_mul, Complex.re_sum,
    Complex.re_sum, mul_left_comm, Finset.mul_sum (a := (2 : ℝ))]
  congr 1
  refine Finset.sum_congr rfl fun j _ => ?_
  beta_reduce
  rw [hv]
  simp only [Complex.add_re, Complex.mul_re, Complex.mul_im, Complex.conj_re, Complex.conj_im, Complex.ofReal_re,
    Complex.ofReal_im]
  ring

end KohnSham
end Jrystal
