import Verif.Lemmas.KohnSham
import Verif.Lemmas.FermiLevel
import Verif.Props.Hamiltonian
import Verif.Props.NcHamiltonian

/- The derivative of the energy with respect to the occupations (C99). -/
namespace Jrystal
namespace KohnSham
open scoped BigOperators ComplexConjugate

variable {n : Fin 3 → ℕ} {nk nb : ℕ}

theorem hasDerivAt_density_occ (c : Coef 1 nk nb n) (vol : ℝ) {occ : ℝ → Occ 1 nk nb} {o' : Fin nk → Fin nb → ℝ}
    {t : ℝ} (h : ∀ k b, HasDerivAt (fun t => occ t 0 k b) (o' k b) t) (j : Idx n) :
    HasDerivAt (fun t => densityGrid c vol (occ t) 0 j)
      (∑ k, ∑ b, absoluteSquare (orbital (c 0 k b) vol j) * o' k b) t :=
  HasDerivAt.fun_sum fun k _ => HasDerivAt.fun_sum fun b _ => (h k b).const_mul _

theorem kinetic_elements (g : Idx n → Fin 3 → ℝ) (kpts : Fin nk → Fin 3 → ℝ) (c : Coef 1 nk nb n)
    (occ : Occ 1 nk nb) :
    kineticEnergyOcc g kpts c occ
      = ∑ k, ∑ b, occ 0 k b * (Spec.kineticElement g (kpts k) (c 0 k b) (c 0 k b)).re := by
  unfold kineticEnergyOcc
  simp only [Finset.univ_unique, Finset.sum_singleton]
  rw [Finset.sum_div]
  refine Finset.sum_congr rfl fun k _ => ?_
  rw [Finset.sum_div]
  refine Finset.sum_congr rfl fun b _ => ?_
  unfold Spec.kineticElement
  rw [Complex.re_sum, Finset.sum_mul, Finset.mul_sum, Finset.sum_div]
  refine Finset.sum_congr rfl fun x _ => ?_
  rw [Complex.re_ofReal_mul, sum_sq_eq_dot fun e => g x e + kpts k e]
  unfold Spec.kineticEnergy
  have : (conj (c 0 k b x) * c 0 k b x).re = absoluteSquare (c 0 k b x) := by
    rw [absoluteSquare_eq, mul_comm, Complex.mul_conj', ← Complex.ofReal_pow, Complex.ofReal_re]
  rw [this]
  show _ * absoluteSquare (c 0 k b x) * occ 0 k b / 2 = _
  ring

/-- The energy of one spin channel as a function of the occupations: energies `a` per electron, a potential `V`,
the Hartree and the exchange-correlation energy. -/
noncomputable def occEnergy (lib : XcLib) (xt : String) (a : Fin nk → Fin nb → ℝ) (V : Idx n → ℝ)
    (g : Idx n → Fin 3 → ℝ) (vol : ℝ) (c : Coef 1 nk nb n) (occ : Occ 1 nk nb) : ℝ :=
  (∑ k, ∑ b, occ 0 k b * a k b) +
    vol / (gridCount n : ℝ) * ∑ j, V j * densityGrid c vol occ 0 j +
    hartreeSum g vol (densityGrid c vol occ 0) +
    vol / (gridCount n : ℝ) * ∑ j, excLda1 lib (splitPlus xt) (densityGrid c vol occ 0 j) *
      densityGrid c vol occ 0 j

theorem hasDerivAt_occEnergy (lib : XcLib) (xt : String) (hg : pyIn "gga" xt = false) (a : Fin nk → Fin nb → ℝ)
    (V : Idx n → ℝ) (g : Idx n → Fin 3 → ℝ) (vol : ℝ) (c : Coef 1 nk nb n) {occ : ℝ → Occ 1 nk nb}
    {o' : Fin nk → Fin nb → ℝ} {t : ℝ} (h : ∀ k b, HasDerivAt (fun t => occ t 0 k b) (o' k b) t)
    (hd : ∀ j, ∀ x ∈ splitPlus xt, DifferentiableAt ℝ (lib.lda x) (densityGrid c vol (occ t) 0 j)) :
    HasDerivAt (fun t => occEnergy lib xt a V g vol c (occ t))
      (∑ k, ∑ b, o' k b * (a k b + vol / (gridCount n : ℝ) * ∑ j, (V j +
        (hartreeRealSpace (densityGrid c vol (occ t)) g true j).re +
        (xcDensity lib xt true g (densityGrid c vol (occ t)) 0 j).re) *
          absoluteSquare (orbital (c 0 k b) vol j))) t := by
  have hrho := hasDerivAt_density_occ c vol h
  have hkin : HasDerivAt (fun t => ∑ k, ∑ b, occ t 0 k b * a k b) (∑ k, ∑ b, o' k b * a k b) t :=
    HasDerivAt.fun_sum fun k _ => HasDerivAt.fun_sum fun b _ => (h k b).mul_const _
  have hext : HasDerivAt (fun t => vol / (gridCount n : ℝ) * ∑ j, V j * densityGrid c vol (occ t) 0 j) _ t :=
    (HasDerivAt.fun_sum fun j _ => (hrho j).const_mul _).const_mul _
  have hsum := ((hkin.fun_add hext).fun_add
    (hasDerivAt_hartree hrho g vol)).fun_add (hasDerivAt_xc lib xt hg hrho g vol hd)
  refine hsum.congr_deriv ?_
  have hone : (fun _ : Fin 1 => densityGrid c vol (occ t) 0) = densityGrid c vol (occ t) := by
    funext s
    rw [Subsingleton.elim s 0]
  rw [hone]
  set W : Idx n → ℝ := fun j => V j + (hartreeRealSpace (densityGrid c vol (occ t)) g true j).re +
        (xcDensity lib xt true g (densityGrid c vol (occ t)) 0 j).re with hW
  have hpot : ∑ k, ∑ b, o' k b * (vol / (gridCount n : ℝ) * ∑ j, W j * absoluteSquare (orbital (c 0 k b) vol j))
      = vol / (gridCount n : ℝ) * ∑ j, W j * ∑ k, ∑ b, absoluteSquare (orbital (c 0 k b) vol j) * o' k b := by
    simp_rw [Finset.mul_sum]
    symm
    rw [Finset.sum_comm]
    refine Finset.sum_congr rfl fun k _ => ?_
    rw [Finset.sum_comm]
    refine Finset.sum_congr rfl fun b _ => Finset.sum_congr rfl fun j _ => ?_
    ring
  simp_rw [mul_add, Finset.sum_add_distrib]
  rw [hpot]
  simp only [hW, add_mul, Finset.sum_add_distrib, mul_add]
  ring

/-- A real potential between an orbital and itself. -/
theorem cellInner_self_re (vol : ℝ) (V : Idx n → ℂ) (w : Idx n → ℂ) :
    (Spec.cellInner vol w fun x => V x * w x).re
      = vol / (gridCount n : ℝ) * ∑ j, (V j).re * absoluteSquare (w j) := by
  unfold Spec.cellInner
  rw [Complex.re_ofReal_mul, Complex.re_sum]
  congr 1
  refine Finset.sum_congr rfl fun j _ => ?_
  have : conj (w j) * (V j * w j) = V j * ((absoluteSquare (w j) : ℝ) : ℂ) := by
    rw [absoluteSquare_eq, mul_left_comm, mul_comm (conj (w j)), Complex.mul_conj', Complex.ofReal_pow]
  rw [this, Complex.re_mul_ofReal]

theorem totalEnergy_occEnergy (lib : XcLib) (xt : String) (hg : pyIn "gga" xt = false) {na : ℕ}
    (pos : Fin na → Fin 3 → ℝ) (charge : Fin na → ℝ) (g : Idx n → Fin 3 → ℝ)
    (kpts : Fin nk → Fin 3 → ℝ) (vol : ℝ) (c : Coef 1 nk nb n) (occ : Occ 1 nk nb) :
    totalEnergy lib c pos charge g kpts vol (some occ) false xt
      = .ok (occEnergy lib xt (fun k b => (Spec.kineticElement g (kpts k) (c 0 k b) (c 0 k b)).re)
          (fun j => (externalPotential pos charge g vol j).re) g vol c occ) := by
  rw [totalEnergy_energySum lib xt hg, energySum, kinetic_elements]
  rfl

/-- The elements of the Hamiltonian on the diagonal. -/
theorem hamiltonian_diag (lib : XcLib) (xt : String) {na : ℕ}
    (pos : Fin na → Fin 3 → ℝ) (charge : Fin na → ℝ) (g : Idx n → Fin 3 → ℝ)
    (kpts : Fin nk → Fin 3 → ℝ) (vol : ℝ) (c : Coef 1 nk nb n) (rho : Fin 1 → Idx n → ℝ) :
    ∃ H : Fin nk → Matrix (Fin nb) (Fin nb) ℂ,
      (∀ k, hamiltonianMatrix lib xt true c pos charge rho g kpts vol 0 k = .ok (H k)) ∧
      ∀ k b, (H k b b).re = (Spec.kineticElement g (kpts k) (c 0 k b) (c 0 k b)).re +
        vol / (gridCount n : ℝ) * ∑ j, ((externalPotential pos charge g vol j).re +
          (hartreeRealSpace rho g true j).re + (xcDensity lib xt true g rho 0 j).re) *
            absoluteSquare (orbital (c 0 k b) vol j) := by
  obtain ⟨v, hv, hH⟩ := hamiltonianMatrix_elements_partial lib xt true c pos charge rho g kpts vol (Or.inl rfl)
  choose H hH1 hH2 using hH 0
  refine ⟨H, hH1, fun k b => ?_⟩
  have hvj : ∀ j, v 0 j = hartreeRealSpace rho g true j + externalPotential pos charge g vol j
      + xcDensity lib xt true g rho 0 j := by
    intro j
    have h1 : (⟨1, v⟩ : Σ m : ℕ, Fin m → Idx n → ℂ) = ⟨1, fun s j =>
        hartreeRealSpace rho g true j + externalPotential pos charge g vol j
        + xcDensity lib xt true g rho s j⟩ := by
      rw [← hv]; rfl
    rw [eq_of_heq (Sigma.mk.inj h1).2]
  rw [hH2 k, Complex.add_re, orbital_eq]
  congr 1
  unfold Spec.potentialElement
  rw [cellInner_self_re]
  congr 1
  refine Finset.sum_congr rfl fun j _ => ?_
  rw [Complex.ofReal_re]
  beta_reduce
  rw [hvj, Complex.add_re, Complex.add_re]
  ring

/-- The energy of valence electrons. -/
theorem energyNC_occEnergy (lib : XcLib) (xt : String) (hg : pyIn "gga" xt = false) {M : ℕ} {ι : Type} [Fintype ι]
    (vloc : Idx n → ℂ) (psi : Fin nk → ι → Fin M → Idx n → ℂ) (g : Idx n → Fin 3 → ℝ)
    (kpts : Fin nk → Fin 3 → ℝ) (vol : ℝ) (c : Coef 1 nk nb n) (occ : Occ 1 nk nb) (e : ℝ) :
    Spec.EnergyNC lib xt vloc psi g kpts vol c occ e ↔
      e = occEnergy lib xt (fun k b => (Spec.kineticElement g (kpts k) (c 0 k b) (c 0 k b)).re +
        (hamiltonianNonlocal c psi vol 0 k b b).re) (fun j => (ifftn vloc j).re) g vol c occ := by
  have hw : densityGrid c vol occ = fun _ : Fin 1 => densityGrid c vol occ 0 := by
    funext s
    rw [Subsingleton.elim s 0]
  have hG : densityGridReciprocal c vol occ = fun _ : Fin 1 => fftn fun j => (densityGrid c vol occ 0 j : ℂ) := by
    funext s
    rw [Subsingleton.elim s 0]
    rfl
  have hloc : energyLocal (fun _ : Fin 1 => fftn fun j => (densityGrid c vol occ 0 j : ℂ)) vloc vol
      = .ok (vol / (gridCount n : ℝ) * ∑ j, (ifftn vloc j).re * densityGrid c vol occ 0 j) := by
    unfold energyLocal
    rw [reciprocalBraket_one]
    simp only [Finset.univ_unique, Finset.sum_singleton]
    rw [braket_real]
  have hnl : energyNonlocal c psi vol (some occ)
      = .ok (∑ k, ∑ b, occ 0 k b * (hamiltonianNonlocal c psi vol 0 k b b).re) := by
    unfold energyNonlocal
    simp only [Finset.univ_unique, Finset.sum_singleton, Complex.re_sum, Complex.re_mul_ofReal]
    congr 1
    exact Finset.sum_congr rfl fun k _ => Finset.sum_congr rfl fun b _ => mul_comm _ _
  have key : occEnergy lib xt (fun k b => (Spec.kineticElement g (kpts k) (c 0 k b) (c 0 k b)).re +
        (hamiltonianNonlocal c psi vol 0 k b b).re) (fun j => (ifftn vloc j).re) g vol c occ
      = kineticEnergyOcc g kpts c occ + hartreeSum g vol (densityGrid c vol occ 0)
        + vol / (gridCount n : ℝ) * ∑ j, (ifftn vloc j).re * densityGrid c vol occ 0 j
        + ∑ k, ∑ b, occ 0 k b * (hamiltonianNonlocal c psi vol 0 k b b).re
        + vol / (gridCount n : ℝ) * ∑ j, excLda1 lib (splitPlus xt) (densityGrid c vol occ 0 j) *
          densityGrid c vol occ 0 j := by
    unfold occEnergy
    rw [kinetic_elements]
    simp only [mul_add, Finset.sum_add_distrib]
    ring
  unfold Spec.EnergyNC
  rw [hG, hw, hartreeEnergy_sum, hloc, hnl, xcEnergy_lda lib xt hg, key]
  constructor
  · rintro ⟨har, loc, nloc, exc, h1, h2, h3, h4, h5⟩
    rw [h5, ← Except.ok.inj h1, ← Except.ok.inj h2, ← Except.ok.inj h3, ← Except.ok.inj h4]
  · intro h
    exact ⟨_, _, _, _, rfl, rfl, rfl, rfl, h⟩

/-- The diagonal elements of the Hamiltonian of valence electrons. -/
theorem ncHamiltonian_diag (lib : XcLib) (xt : String) {M : ℕ} {ι : Type} [Fintype ι]
    (vloc : Idx n → ℂ) (psi : Fin nk → ι → Fin M → Idx n → ℂ) (g : Idx n → Fin 3 → ℝ)
    (kpts : Fin nk → Fin 3 → ℝ) (vol : ℝ) (c : Coef 1 nk nb n) (rho : Fin 1 → Idx n → ℝ) :
    ∃ H : Fin 1 → Fin nk → Fin nb → Fin nb → ℂ,
      ncHamiltonianMatrix lib xt true c rho vloc psi g kpts vol = .ok ⟨nk, H⟩ ∧
      ∀ k b, (H 0 k b b).re = ((Spec.kineticElement g (kpts k) (c 0 k b) (c 0 k b)).re +
          (hamiltonianNonlocal c psi vol 0 k b b).re) +
        vol / (gridCount n : ℝ) * ∑ j, ((ifftn vloc j).re +
          (hartreeRealSpace rho g true j).re + (xcDensity lib xt true g rho 0 j).re) *
            absoluteSquare (orbital (c 0 k b) vol j) := by
  obtain ⟨H, h1, h2⟩ := ncHamiltonian_elements_partial lib xt true c rho vloc psi g kpts vol (Or.inl rfl)
  refine ⟨H, h1, fun k b => ?_⟩
  rw [h2, Complex.add_re, Complex.add_re, cellInner_self_re, orbital_eq]
  rw [add_comm (hamiltonianNonlocal c psi vol 0 k b b).re]
  congr 2

end KohnSham
end Jrystal
