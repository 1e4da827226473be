import Verif.Lemmas.Hamiltonian
import Verif.Lemmas.Xc
import Verif.Props.Planewave
import Verif.Props.Energy
import Mathlib.Analysis.Calculus.Deriv.Add
import Mathlib.Analysis.Calculus.Deriv.Mul
import Mathlib.Analysis.Calculus.Deriv.Comp
import Mathlib.Analysis.Complex.RealDeriv
import Mathlib.Analysis.Calculus.Deriv.Star

/- Derivatives of the energy terms along a curve of densities or coefficients (C87). -/
namespace Jrystal
namespace KohnSham
open scoped BigOperators ComplexConjugate

variable {n : Fin 3 → ℕ}

theorem hasDerivAt_conj {f : ℝ → ℂ} {f' : ℂ} {t : ℝ} (h : HasDerivAt f f' t) :
    HasDerivAt (fun t => conj (f t)) (conj f') t := h.star

theorem hasDerivAt_re {f : ℝ → ℂ} {f' : ℂ} {t : ℝ} (h : HasDerivAt f f' t) :
    HasDerivAt (fun t => (f t).re) f'.re t :=
  (Complex.reCLM.hasFDerivAt.comp_hasDerivAt t h :)

theorem hasDerivAt_ofReal {f : ℝ → ℝ} {f' : ℝ} {t : ℝ} (h : HasDerivAt f f' t) :
    HasDerivAt (fun t => ((f t : ℝ) : ℂ)) (f' : ℂ) t :=
  (Complex.ofRealCLM.hasFDerivAt.comp_hasDerivAt t h :)

/-- Derivative of `|z|²`. -/
theorem hasDerivAt_absoluteSquare {z : ℝ → ℂ} {z' : ℂ} {t : ℝ} (h : HasDerivAt z z' t) :
    HasDerivAt (fun t => absoluteSquare (z t)) (2 * (conj z' * z t).re) t := by
  have h1 := hasDerivAt_re ((hasDerivAt_conj h).fun_mul h)
  refine h1.congr_deriv ?_
  rw [Complex.add_re, two_mul]
  congr 1
  rw [Complex.mul_re, Complex.mul_re, Complex.conj_re, Complex.conj_im, Complex.conj_re, Complex.conj_im]
  ring

theorem hasDerivAt_fftn {f : ℝ → Idx n → ℂ} {f' : Idx n → ℂ} {t : ℝ}
    (h : ∀ j, HasDerivAt (fun t => f t j) (f' j) t) (k : Idx n) :
    HasDerivAt (fun t => fftn (f t) k) (fftn f' k) t := by
  simp_rw [fftn_eq]
  exact HasDerivAt.fun_sum fun j _ => (h j).mul_const _

theorem hasDerivAt_orbital {f : ℝ → Idx n → ℂ} {f' : Idx n → ℂ} {t : ℝ}
    (h : ∀ j, HasDerivAt (fun t => f t j) (f' j) t) (vol : ℝ) (j : Idx n) :
    HasDerivAt (fun t => orbital (f t) vol j) (orbital f' vol j) t := by
  unfold orbital
  simp_rw [ifftn_eq]
  exact ((HasDerivAt.fun_sum fun k _ => (h k).mul_const _).div_const _).mul_const _

/-- A bracket with a potential given in reciprocal space, in real space. -/
theorem braket_real (F : Idx n → ℂ) (rho : Idx n → ℝ) (vol : ℝ) :
    vol / (gridCount n : ℝ) ^ 2 * (∑ k, conj (F k) * fftn (fun j => (rho j : ℂ)) k).re
      = vol / (gridCount n : ℝ) * ∑ j, (ifftn F j).re * rho j := by
  have h : ∑ k, conj (F k) * fftn (fun j => (rho j : ℂ)) k
      = (gridCount n : ℂ) * ∑ j, conj (ifftn F j) * (rho j : ℂ) := by
    rw [← fftn_parseval, fftn_ifftn']
  have h2 : (∑ k, conj (F k) * fftn (fun j => (rho j : ℂ)) k).re
      = (gridCount n : ℝ) * ∑ j, (ifftn F j).re * rho j := by
    rw [h, ← Complex.ofReal_natCast, Complex.re_ofReal_mul, Complex.re_sum]
    congr 1
    refine Finset.sum_congr rfl fun j _ => ?_
    rw [Complex.re_mul_ofReal, Complex.conj_re]
  rw [h2]
  by_cases hN : (gridCount n : ℝ) = 0
  · rw [hN]; simp
  · field_simp

/-- The external energy of one density channel. -/
theorem externalEnergy_real {na : ℕ} (rho : Idx n → ℝ) (pos : Fin na → Fin 3 → ℝ)
    (charge : Fin na → ℝ) (g : Idx n → Fin 3 → ℝ) (vol : ℝ) :
    externalEnergy (fun _ : Fin 1 => fftn fun j => (rho j : ℂ)) pos charge g vol
      = .ok (vol / (gridCount n : ℝ) * ∑ j, (externalPotential pos charge g vol j).re * rho j) := by
  unfold externalEnergy
  rw [reciprocalBraket_one]
  simp only [Finset.univ_unique, Finset.sum_singleton]
  rw [braket_real]
  rfl

/-- The Hartree energy of one density channel as a sum over reciprocal vectors. -/
noncomputable def hartreeSum (g : Idx n → Fin 3 → ℝ) (vol : ℝ) (rho : Idx n → ℝ) : ℝ :=
  2 * Real.pi * vol / (gridCount n : ℝ) ^ 2 *
    ∑ k ∈ Finset.univ.filter (fun k : Idx n => ∃ i, (k i : ℕ) ≠ 0),
      absoluteSquare (fftn (fun j => (rho j : ℂ)) k) / Spec.dot (g k) (g k)

theorem hartreeEnergy_sum (rho : Idx n → ℝ) (g : Idx n → Fin 3 → ℝ) (vol : ℝ) :
    hartreeEnergy (fun _ : Fin 1 => fftn fun j => (rho j : ℂ)) g vol false
      = .ok (hartreeSum g vol rho) := by
  rw [hartreeEnergy_eq]
  unfold hartreeSum
  simp only [Bool.false_eq_true, if_false, Finset.univ_unique, Finset.sum_singleton,
    absoluteSquare_eq]

/-- The derivative of the Hartree energy is the Kohn-Sham Hartree potential. -/
theorem hasDerivAt_hartree {rho : ℝ → Idx n → ℝ} {rho' : Idx n → ℝ} {t : ℝ}
    (h : ∀ j, HasDerivAt (fun t => rho t j) (rho' j) t) (g : Idx n → Fin 3 → ℝ) (vol : ℝ) :
    HasDerivAt (fun t => hartreeSum g vol (rho t))
      (vol / (gridCount n : ℝ) *
        ∑ j, (hartreeRealSpace (fun _ : Fin 1 => rho t) g true j).re * rho' j) t := by
  have h1 : ∀ k, HasDerivAt (fun t => absoluteSquare (fftn (fun j => (rho t j : ℂ)) k))
      (2 * (conj (fftn (fun j => (rho' j : ℂ)) k) * fftn (fun j => (rho t j : ℂ)) k).re) t := fun k =>
    hasDerivAt_absoluteSquare (hasDerivAt_fftn (fun j => hasDerivAt_ofReal (h j)) k)
  have h2 := (HasDerivAt.fun_sum (u := Finset.univ.filter (fun k : Idx n => ∃ i, (k i : ℕ) ≠ 0))
    fun k _ => (h1 k).div_const (Spec.dot (g k) (g k))).const_mul
      (2 * Real.pi * vol / (gridCount n : ℝ) ^ 2)
  refine h2.congr_deriv ?_
  unfold hartreeRealSpace
  rw [← braket_real, Complex.re_sum, Finset.sum_filter, Finset.mul_sum, Finset.mul_sum]
  refine Finset.sum_congr rfl fun k _ => ?_
  rw [hartreeReciprocal_eq]
  by_cases hk : ∃ i, (k i : ℕ) ≠ 0
  · rw [if_pos hk, (isOrigin_false k).mpr hk]
    simp only [Bool.false_eq_true, if_false, if_true, Finset.univ_unique, Finset.sum_singleton]
    rw [map_mul, Complex.conj_ofReal, mul_assoc ((_ : ℝ) : ℂ), Complex.re_ofReal_mul]
    have : (conj (fftn (fun j => (rho' j : ℂ)) k) * fftn (fun j => (rho t j : ℂ)) k).re
        = (conj (fftn (fun j => (rho t j : ℂ)) k) * fftn (fun j => (rho' j : ℂ)) k).re := by
      rw [Complex.mul_re, Complex.mul_re, Complex.conj_re, Complex.conj_im, Complex.conj_re,
        Complex.conj_im]
      ring
    rw [this]
    ring
  · rw [if_neg hk]
    have : isOrigin k = true := by
      rw [isOrigin_iff]; push Not at hk; exact hk
    rw [this]
    simp

/-- The LDA exchange-correlation energy of one density channel. -/
theorem xcEnergy_lda (lib : XcLib) (xt : String) (hg : pyIn "gga" xt = false) (rho : Idx n → ℝ)
    (g : Idx n → Fin 3 → ℝ) (vol : ℝ) :
    xcEnergy lib xt false (fun _ : Fin 1 => rho) g vol
      = .ok (vol / (gridCount n : ℝ) * ∑ j, excLda1 lib (splitPlus xt) (rho j) * rho j) := by
  rw [xcEnergy_value]
  congr 2
  refine Finset.sum_congr rfl fun j _ => ?_
  unfold excDensity
  simp [hg, chan]

/-- Its derivative is the exchange-correlation potential. -/
theorem hasDerivAt_xc (lib : XcLib) (xt : String) (hg : pyIn "gga" xt = false)
    {rho : ℝ → Idx n → ℝ} {rho' : Idx n → ℝ} {t : ℝ}
    (h : ∀ j, HasDerivAt (fun t => rho t j) (rho' j) t) (g : Idx n → Fin 3 → ℝ) (vol : ℝ)
    (hd : ∀ j, ∀ x ∈ splitPlus xt, DifferentiableAt ℝ (lib.lda x) (rho t j)) :
    HasDerivAt (fun t => vol / (gridCount n : ℝ) * ∑ j, excLda1 lib (splitPlus xt) (rho t j) * rho t j)
      (vol / (gridCount n : ℝ) *
        ∑ j, (xcDensity lib xt true g (fun _ : Fin 1 => rho t) 0 j).re * rho' j) t := by
  have hdiff : ∀ j, DifferentiableAt ℝ (excLda1 lib (splitPlus xt)) (rho t j) := by
    intro j
    have hl : ∀ l : List String, (∀ x ∈ l, DifferentiableAt ℝ (lib.lda x) (rho t j)) →
        DifferentiableAt ℝ (excLda1 lib l) (rho t j) := by
      intro l
      induction l with
      | nil => intro _; unfold excLda1; simp
      | cons a l ih =>
        intro hl
        have h1 := hl a List.mem_cons_self
        have h2 := ih fun x hx => hl x (List.mem_cons_of_mem _ hx)
        have : excLda1 lib (a :: l) = fun r => lib.lda a r + excLda1 lib l r := by
          funext r; simp [excLda1, ldaPoint1]
        rw [this]
        exact h1.add h2
    exact hl _ (hd j)
  refine HasDerivAt.const_mul _ ?_
  refine HasDerivAt.fun_sum fun j _ => ?_
  have h1 := ((hdiff j).hasDerivAt.comp t (h j)).mul (h j)
  refine h1.congr_deriv ?_
  have h2 : (xcDensity lib xt true g (fun _ : Fin 1 => rho t) 0 j).re
      = vxcLda1 (excLda1 lib (splitPlus xt)) (rho t j) := by
    unfold xcDensity vxcDensity
    simp [hg, chan]
  rw [h2]
  unfold vxcLda1
  simp only [Function.comp_apply]
  ring

/-- Derivative of the density of one spin channel. -/
theorem hasDerivAt_density {nk nb : ℕ} {c : ℝ → Coef 1 nk nb n} {d : Coef 1 nk nb n} {t : ℝ}
    (h : ∀ k b x, HasDerivAt (fun t => c t 0 k b x) (d 0 k b x) t) (vol : ℝ) (occ : Occ 1 nk nb)
    (j : Idx n) :
    HasDerivAt (fun t => densityGrid (c t) vol occ 0 j)
      (∑ k, ∑ b, 2 * (conj (orbital (d 0 k b) vol j) * orbital (c t 0 k b) vol j).re * occ 0 k b) t :=
  HasDerivAt.fun_sum fun k _ => HasDerivAt.fun_sum fun b _ =>
    (hasDerivAt_absoluteSquare (hasDerivAt_orbital (h k b) vol j)).mul_const _

/-- Derivative of the kinetic energy of one spin channel. -/
theorem hasDerivAt_kinetic {nk nb : ℕ} {c : ℝ → Coef 1 nk nb n} {d : Coef 1 nk nb n} {t : ℝ}
    (h : ∀ k b x, HasDerivAt (fun t => c t 0 k b x) (d 0 k b x) t) (g : Idx n → Fin 3 → ℝ)
    (kpts : Fin nk → Fin 3 → ℝ) (occ : Occ 1 nk nb) :
    HasDerivAt (fun t => kineticEnergyOcc g kpts (c t) occ)
      (∑ k, ∑ b, 2 * (Spec.kineticElement g (kpts k) (d 0 k b) (c t 0 k b)).re * occ 0 k b) t := by
  have h1 : HasDerivAt (fun t => kineticEnergyOcc g kpts (c t) occ)
      ((∑ k, ∑ b, (∑ x, (∑ e, (g x e + kpts k e) ^ 2) *
        (2 * (conj (d 0 k b x) * c t 0 k b x).re)) * occ 0 k b) / 2) t := by
    unfold kineticEnergyOcc
    simp only [Finset.univ_unique, Finset.sum_singleton]
    exact (HasDerivAt.fun_sum fun k _ => HasDerivAt.fun_sum fun b _ =>
      (HasDerivAt.fun_sum fun x _ => (hasDerivAt_absoluteSquare (h k b x)).const_mul _).mul_const _).div_const _
  refine h1.congr_deriv ?_
  rw [Finset.sum_div]
  refine Finset.sum_congr rfl fun k _ => ?_
  rw [Finset.sum_div]
  refine Finset.sum_congr rfl fun b _ => ?_
  unfold Spec.kineticElement
  rw [Complex.re_sum, Finset.mul_sum, Finset.sum_mul, Finset.sum_mul, Finset.sum_div]
  refine Finset.sum_congr rfl fun x _ => ?_
  rw [Complex.re_ofReal_mul, sum_sq_eq_dot fun e => g x e + kpts k e]
  unfold Spec.kineticEnergy
  ring

/-- The energy of one spin channel in a local potential `V`. -/
noncomputable def localSum (lib : XcLib) (xt : String) {nk nb : ℕ} (V : Idx n → ℝ) (g : Idx n → Fin 3 → ℝ)
    (kpts : Fin nk → Fin 3 → ℝ) (vol : ℝ) (occ : Occ 1 nk nb) (c : Coef 1 nk nb n) : ℝ :=
  kineticEnergyOcc g kpts c occ +
    vol / (gridCount n : ℝ) * ∑ j, V j * densityGrid c vol occ 0 j +
    hartreeSum g vol (densityGrid c vol occ 0) +
    vol / (gridCount n : ℝ) * ∑ j, excLda1 lib (splitPlus xt) (densityGrid c vol occ 0 j) *
      densityGrid c vol occ 0 j

/-- Its derivative along a curve. -/
theorem hasDerivAt_localSum (lib : XcLib) (xt : String) (hg : pyIn "gga" xt = false) {nk nb : ℕ}
    (V : Idx n → ℝ) (g : Idx n → Fin 3 → ℝ)
    (kpts : Fin nk → Fin 3 → ℝ) (vol : ℝ) (occ : Occ 1 nk nb)
    {c : ℝ → Coef 1 nk nb n} {d : Coef 1 nk nb n} {t : ℝ}
    (h : ∀ k b x, HasDerivAt (fun t => c t 0 k b x) (d 0 k b x) t)
    (hd : ∀ j, ∀ x ∈ splitPlus xt, DifferentiableAt ℝ (lib.lda x) (densityGrid (c t) vol occ 0 j))
    (v : Idx n → ℝ)
    (hvj : ∀ j, v j = V j + (hartreeRealSpace (densityGrid (c t) vol occ) g true j).re
      + (xcDensity lib xt true g (densityGrid (c t) vol occ) 0 j).re) :
    HasDerivAt (fun t => localSum lib xt V g kpts vol occ (c t))
      (2 * ∑ k, ∑ b, occ 0 k b * (Spec.kineticElement g (kpts k) (d 0 k b) (c t 0 k b)
        + Spec.potentialElement vol v (orbital (d 0 k b) vol) (orbital (c t 0 k b) vol)).re) t := by
  have hrho := hasDerivAt_density h vol occ
  have hext : HasDerivAt (fun t => vol / (gridCount n : ℝ) *
      ∑ j, V j * densityGrid (c t) vol occ 0 j) _ t :=
    (HasDerivAt.fun_sum fun j _ => (hrho j).const_mul _).const_mul _
  have hsum := (((hasDerivAt_kinetic h g kpts occ).fun_add hext).fun_add
    (hasDerivAt_hartree hrho g vol)).fun_add (hasDerivAt_xc lib xt hg hrho g vol hd)
  refine hsum.congr_deriv ?_
  have hone : (fun _ : Fin 1 => densityGrid (c t) vol occ 0) = densityGrid (c t) vol occ := by
    funext s
    rw [Subsingleton.elim s 0]
  rw [hone]
  set rho' : Idx n → ℝ := fun j =>
    ∑ k, ∑ b, 2 * (conj (orbital (d 0 k b) vol j) * orbital (c t 0 k b) vol j).re * occ 0 k b with hrho'
  have hpot : vol / (gridCount n : ℝ) * ∑ j, v j * rho' j
      = 2 * ∑ k, ∑ b, occ 0 k b * (Spec.potentialElement vol v
        (orbital (d 0 k b) vol) (orbital (c t 0 k b) vol)).re := by
    have hel : ∀ k b, (Spec.potentialElement vol v
        (orbital (d 0 k b) vol) (orbital (c t 0 k b) vol)).re
        = vol / (gridCount n : ℝ) *
          ∑ j, v j * (conj (orbital (d 0 k b) vol j) * orbital (c t 0 k b) vol j).re := by
      intro k b
      unfold Spec.potentialElement Spec.cellInner
      rw [Complex.re_ofReal_mul, Complex.re_sum]
      congr 1
      refine Finset.sum_congr rfl fun j _ => ?_
      rw [mul_left_comm, Complex.re_ofReal_mul]
    simp_rw [hel, hrho', Finset.mul_sum]
    rw [Finset.sum_comm]
    refine Finset.sum_congr rfl fun k _ => ?_
    rw [Finset.sum_comm]
    refine Finset.sum_congr rfl fun b _ => ?_
    refine Finset.sum_congr rfl fun j _ => ?_
    ring
  have hsplit : vol / (gridCount n : ℝ) * ∑ j, v j * rho' j
      = vol / (gridCount n : ℝ) * ∑ j, V j * rho' j
        + vol / (gridCount n : ℝ) *
          ∑ j, (hartreeRealSpace (densityGrid (c t) vol occ) g true j).re * rho' j
        + vol / (gridCount n : ℝ) *
          ∑ j, (xcDensity lib xt true g (densityGrid (c t) vol occ) 0 j).re * rho' j := by
    rw [← mul_add, ← mul_add, ← Finset.sum_add_distrib, ← Finset.sum_add_distrib]
    congr 1
    refine Finset.sum_congr rfl fun j _ => ?_
    rw [hvj]
    ring
  have hkin : ∑ k, ∑ b, 2 * (Spec.kineticElement g (kpts k) (d 0 k b) (c t 0 k b)).re * occ 0 k b
      = 2 * ∑ k, ∑ b, occ 0 k b * (Spec.kineticElement g (kpts k) (d 0 k b) (c t 0 k b)).re := by
    simp_rw [Finset.mul_sum]
    exact Finset.sum_congr rfl fun k _ => Finset.sum_congr rfl fun b _ => by ring
  have hR : 2 * ∑ k, ∑ b, occ 0 k b * (Spec.kineticElement g (kpts k) (d 0 k b) (c t 0 k b)
        + Spec.potentialElement vol v (orbital (d 0 k b) vol)
            (orbital (c t 0 k b) vol)).re
      = 2 * ∑ k, ∑ b, occ 0 k b * (Spec.kineticElement g (kpts k) (d 0 k b) (c t 0 k b)).re
        + 2 * ∑ k, ∑ b, occ 0 k b * (Spec.potentialElement vol v
          (orbital (d 0 k b) vol) (orbital (c t 0 k b) vol)).re := by
    rw [← mul_add, ← Finset.sum_add_distrib]
    congr 1
    refine Finset.sum_congr rfl fun k _ => ?_
    rw [← Finset.sum_add_distrib]
    refine Finset.sum_congr rfl fun b _ => ?_
    rw [Complex.add_re, mul_add]
  rw [hkin, hR, ← hpot, hsplit]
  simp only [hrho']
  ring

/-- The total energy of one spin channel without exceptions. -/
noncomputable def energySum (lib : XcLib) (xt : String) {nk nb na : ℕ} (pos : Fin na → Fin 3 → ℝ)
    (charge : Fin na → ℝ) (g : Idx n → Fin 3 → ℝ) (kpts : Fin nk → Fin 3 → ℝ) (vol : ℝ)
    (occ : Occ 1 nk nb) (c : Coef 1 nk nb n) : ℝ :=
  kineticEnergyOcc g kpts c occ +
    vol / (gridCount n : ℝ) * ∑ j, (externalPotential pos charge g vol j).re * densityGrid c vol occ 0 j +
    hartreeSum g vol (densityGrid c vol occ 0) +
    vol / (gridCount n : ℝ) * ∑ j, excLda1 lib (splitPlus xt) (densityGrid c vol occ 0 j) *
      densityGrid c vol occ 0 j

theorem totalEnergy_energySum (lib : XcLib) (xt : String) (hg : pyIn "gga" xt = false) {nk nb na : ℕ}
    (pos : Fin na → Fin 3 → ℝ) (charge : Fin na → ℝ) (g : Idx n → Fin 3 → ℝ)
    (kpts : Fin nk → Fin 3 → ℝ) (vol : ℝ) (occ : Occ 1 nk nb) (c : Coef 1 nk nb n) :
    totalEnergy lib c pos charge g kpts vol (some occ) false xt
      = .ok (energySum lib xt pos charge g kpts vol occ c) := by
  have hw : waveToDensity (waveGrid c vol) occ = fun _ : Fin 1 => densityGrid c vol occ 0 := by
    rw [waveToDensity_eq]
    funext s
    rw [Subsingleton.elim s 0]
  have hG : waveToDensityReciprocal (waveGrid c vol) occ
      = fun _ : Fin 1 => fftn fun j => (densityGrid c vol occ 0 j : ℂ) := by
    unfold waveToDensityReciprocal
    rw [hw]
  unfold totalEnergy totalEnergySplit occOrOnes
  dsimp only
  rw [hw, hG, externalEnergy_real, hartreeEnergy_sum, xcEnergy_lda lib xt hg]
  rfl

/-- The derivative of the total energy of one spin channel along a curve. -/
theorem hasDerivAt_energySum (lib : XcLib) (xt : String) (hg : pyIn "gga" xt = false) {nk nb na : ℕ}
    (pos : Fin na → Fin 3 → ℝ) (charge : Fin na → ℝ) (g : Idx n → Fin 3 → ℝ)
    (kpts : Fin nk → Fin 3 → ℝ) (vol : ℝ) (occ : Occ 1 nk nb)
    {c : ℝ → Coef 1 nk nb n} {d : Coef 1 nk nb n} {t : ℝ}
    (h : ∀ k b x, HasDerivAt (fun t => c t 0 k b x) (d 0 k b x) t)
    (hd : ∀ j, ∀ x ∈ splitPlus xt, DifferentiableAt ℝ (lib.lda x) (densityGrid (c t) vol occ 0 j))
    (v : Fin 1 → Idx n → ℂ)
    (hv : effectivePotential lib xt true (densityGrid (c t) vol occ) pos charge g vol = ⟨1, v⟩) :
    HasDerivAt (fun t => energySum lib xt pos charge g kpts vol occ (c t))
      (2 * ∑ k, ∑ b, occ 0 k b * (Spec.kineticElement g (kpts k) (d 0 k b) (c t 0 k b)
        + Spec.potentialElement vol (fun x => (v 0 x).re) (orbital (d 0 k b) vol)
            (orbital (c t 0 k b) vol)).re) t := by
  have hvj : ∀ j, v 0 j = hartreeRealSpace (densityGrid (c t) vol occ) g true j
      + externalPotential pos charge g vol j
      + xcDensity lib xt true g (densityGrid (c t) vol occ) 0 j := by
    intro j
    have h1 : (⟨1, v⟩ : Σ m : ℕ, Fin m → Idx n → ℂ) = ⟨1, fun s j =>
        hartreeRealSpace (densityGrid (c t) vol occ) g true j + externalPotential pos charge g vol j
        + xcDensity lib xt true g (densityGrid (c t) vol occ) s j⟩ := by
      rw [← hv]; rfl
    have h2 := eq_of_heq (Sigma.mk.inj h1).2
    rw [h2]
  exact hasDerivAt_localSum lib xt hg _ g kpts vol occ h hd _ fun j => by
    rw [hvj, Complex.add_re, Complex.add_re]
    ring

end KohnSham
end Jrystal
