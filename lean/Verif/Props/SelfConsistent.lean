import Verif.Lemmas.SelfConsistent
import Verif.Props.FermiLevel
import Verif.Props.EnergyGradient

/- C125: where the gradient of the free energy vanishes, the bands and the occupations belong together. -/
namespace Jrystal
open scoped BigOperators ComplexConjugate Matrix
open KohnSham

private theorem simplex_occ {na nk nb : ℕ} {n : Fin 3 → ℕ} (E : GsEnv na nk n) (hmeth : E.method = "simplex-projector")
    (hr : E.restricted = true) (hm : nb ≤ maskCount E.mask) (P : (Fin nk → Fin nb → ℝ) × (Fin nk → Fin nb → ℝ)) :
    ∃ (o : OccArr nk nb ℝ) (hl : o.length = 1),
      occupation E.qrR (.simplex P.1 P.2) E.ne E.spin E.method E.restricted = .ok o ∧
      ∀ (s : Fin 1) k (b : Fin (min (maskCount E.mask) nb)),
        Spec.occEntry E.ne E.spin true 0 k (Fin.cast (min_eq_right hm) b) P
          = o.get (Fin.cast hl.symm s) k (Fin.castLE (min_le_right _ _) b) := by
  refine ⟨simplexProjector P.1 P.2 E.ne E.spin true, by simp [simplexProjector, sumSpin], by simp [occupation, hmeth, hr], ?_⟩
  intro s k b
  rw [Subsingleton.elim s 0]
  rfl

private theorem free_value {na nk nb : ℕ} {n : Fin 3 → ℕ} (E : GsEnv na nk n) (hmeth : E.method = "simplex-projector")
    (hr : E.restricted = true) (hg : pyIn "gga" E.xc = false) (hm : nb ≤ maskCount E.mask) (temp : ℝ)
    (w : PwParams 1 nk (maskCount E.mask) nb) (P : (Fin nk → Fin nb → ℝ) × (Fin nk → Fin nb → ℝ)) :
    (gsFree E temp ⟨w, .simplex P.1 P.2⟩).map (fun r => r.1) = .ok
      (occEnergy E.lib E.xc (fun k b => (Spec.kineticElement E.g (E.kpts k) (pwCoeff E.qrC E.mask w 0 k b)
          (pwCoeff E.qrC E.mask w 0 k b)).re) (fun j => (externalPotential E.pos E.charge E.g E.vol j).re) E.g E.vol
          (pwCoeff E.qrC E.mask w)
          (fun _ k b => Spec.occEntry E.ne E.spin true 0 k (Fin.cast (min_eq_right hm) b) P)
        - temp * Spec.smearingEntropy E.eps (2 / nk)
          (fun (_ : Fin 1) k b => Spec.occEntry E.ne E.spin true 0 k (Fin.cast (min_eq_right hm) b) P)) := by
  obtain ⟨o, hl, ho, hy⟩ := simplex_occ E hmeth hr hm P
  have hs := gsState_eq E ⟨w, .simplex P.1 P.2⟩ o ho hl hm _ hy
  have he := gsEntropy_eq E ⟨w, .simplex P.1 P.2⟩ o ho hl hm _ hy
  have h3 : (3 - ((1 : ℕ) : ℝ)) / nk = 2 / nk := by norm_num
  unfold gsFree
  rw [gsTotal_of_state E ⟨w, .simplex P.1 P.2⟩ _ _ hs, totalEnergy_occEnergy E.lib E.xc hg, he, h3]
  rfl

private theorem freeNC_value {na nk nb M : ℕ} {ι : Type} [Fintype ι] {n : Fin 3 → ℕ} (E : GsEnv na nk n)
    (vloc : Idx n → ℂ) (psi : Fin nk → ι → Fin M → Idx n → ℂ) (hmeth : E.method = "simplex-projector")
    (hr : E.restricted = true) (hg : pyIn "gga" E.xc = false) (hm : nb ≤ maskCount E.mask) (temp : ℝ)
    (w : PwParams 1 nk (maskCount E.mask) nb) (P : (Fin nk → Fin nb → ℝ) × (Fin nk → Fin nb → ℝ)) :
    (gsFreeNC E vloc psi temp ⟨w, .simplex P.1 P.2⟩).map (fun r => r.1) = .ok
      (occEnergy E.lib E.xc (fun k b => (Spec.kineticElement E.g (E.kpts k) (pwCoeff E.qrC E.mask w 0 k b)
          (pwCoeff E.qrC E.mask w 0 k b)).re + (hamiltonianNonlocal (pwCoeff E.qrC E.mask w) psi E.vol 0 k b b).re)
          (fun j => (ifftn vloc j).re) E.g E.vol (pwCoeff E.qrC E.mask w)
          (fun _ k b => Spec.occEntry E.ne E.spin true 0 k (Fin.cast (min_eq_right hm) b) P)
        - temp * Spec.smearingEntropy E.eps (2 / nk)
          (fun (_ : Fin 1) k b => Spec.occEntry E.ne E.spin true 0 k (Fin.cast (min_eq_right hm) b) P)) := by
  obtain ⟨o, hl, ho, hy⟩ := simplex_occ E hmeth hr hm P
  have hs := gsState_eq E ⟨w, .simplex P.1 P.2⟩ o ho hl hm _ hy
  have he := gsEntropy_eq E ⟨w, .simplex P.1 P.2⟩ o ho hl hm _ hy
  have h3 : (3 - ((1 : ℕ) : ℝ)) / nk = 2 / nk := by norm_num
  unfold gsFreeNC
  rw [gsTotalNC_of_state E vloc psi ⟨w, .simplex P.1 P.2⟩ _ _ hs _
    ((energyNC_occEnergy E.lib E.xc hg vloc psi E.g E.kpts E.vol (pwCoeff E.qrC E.mask w) _ _).mpr rfl), he, h3]
  rfl

/-- C125, all-electron driver: the function that a spin-restricted run with `simplex-projector` minimises has, for fixed
bands, a gradient in the occupation parameters, and the gradient vanishes exactly if the partly filled bands of each
spin channel share a Fermi level with respect to the band energies, the diagonal elements of `hamiltonian_matrix` for
the density at hand.  Missing: parameters where the occupations have no derivative, a set of measure zero
(`simplexProjector_differentiable_ae`), two channels and GGA, where the diagonal elements are not the derivatives
(`totalEnergy_occupation_polarised_wrong`, `vxc_gga_derivative_wrong`). -/
theorem driver_gradient_fermiLevel_partial {na nk nb : ℕ} {n : Fin 3 → ℕ} (E : GsEnv na nk n) (hk : 0 < nk)
    (hmeth : E.method = "simplex-projector") (hr : E.restricted = true) (hg : pyIn "gga" E.xc = false)
    (hm : nb ≤ maskCount E.mask) (heps : 0 < E.eps) (hpar : E.ne % 2 = E.spin % 2) (h0 : |E.spin| < E.ne)
    (hb : E.ne + |E.spin| < 2 * nb) (temp : ℝ) (w : PwParams 1 nk (maskCount E.mask) nb)
    (f : (Fin nk → Fin nb → ℝ) × (Fin nk → Fin nb → ℝ) → ℝ)
    (hf : ∀ P, (gsFree E temp ⟨w, .simplex P.1 P.2⟩).map (fun r => r.1) = .ok (f P))
    (P : (Fin nk → Fin nb → ℝ) × (Fin nk → Fin nb → ℝ))
    (hP : ∀ sp k b, DifferentiableAt ℝ (Spec.occEntry E.ne E.spin true sp k b) P)
    (occ : Occ 1 nk (min (maskCount E.mask) nb))
    (hocc : ∀ k b, occ 0 k b = Spec.occEntry E.ne E.spin true 0 k (Fin.cast (min_eq_right hm) b) P)
    (hd : ∀ j, ∀ x ∈ splitPlus E.xc,
      DifferentiableAt ℝ (E.lib.lda x) (densityGrid (pwCoeff E.qrC E.mask w) E.vol occ 0 j)) :
    (∃ G, Spec.IsOccGradient f P G) ∧
    ∃ H : Fin nk → Matrix (Fin (min (maskCount E.mask) nb)) (Fin (min (maskCount E.mask) nb)) ℂ,
      (∀ k, hamiltonianMatrix E.lib E.xc true (pwCoeff E.qrC E.mask w) E.pos E.charge
        (densityGrid (pwCoeff E.qrC E.mask w) E.vol occ) E.g E.kpts E.vol 0 k = .ok (H k)) ∧
      ∀ G, Spec.IsOccGradient f P G → (G = 0 ↔ ∃ μ, Spec.PartlyFilledLevel E.ne E.spin P temp E.eps (2 / nk)
        (fun k b => (H k (Fin.cast (min_eq_right hm).symm b) (Fin.cast (min_eq_right hm).symm b)).re)
        (fun k b => Spec.occEntry E.ne E.spin true 0 k b P) μ) := by
  obtain ⟨H, h1, h2⟩ := hamiltonian_diag E.lib E.xc E.pos E.charge E.g E.kpts E.vol (pwCoeff E.qrC E.mask w)
    (densityGrid (pwCoeff E.qrC E.mask w) E.vol occ)
  have key := occGradient_level hk E.ne E.spin hpar h0 hb P hP
    (fun o => occEnergy E.lib E.xc (fun k b => (Spec.kineticElement E.g (E.kpts k) (pwCoeff E.qrC E.mask w 0 k b)
          (pwCoeff E.qrC E.mask w 0 k b)).re) (fun j => (externalPotential E.pos E.charge E.g E.vol j).re) E.g E.vol
          (pwCoeff E.qrC E.mask w) (fun _ k b => o k (Fin.cast (min_eq_right hm) b))
        - temp * Spec.smearingEntropy E.eps (2 / nk)
          (fun (_ : Fin 1) k b => o k (Fin.cast (min_eq_right hm) b))) f
    (fun P => Except.ok.inj ((hf P).symm.trans (free_value E hmeth hr hg hm temp w P)))
    (fun k b => (H k (Fin.cast (min_eq_right hm).symm b) (Fin.cast (min_eq_right hm).symm b)).re
      - temp * Spec.entropySlope E.eps (2 / nk) (Spec.occEntry E.ne E.spin true 0 k b P))
    (fun o d ho hod => by
      have := hasDerivAt_freeEnergy E.lib E.xc hg (min_eq_right hm) _ _ E.g E.vol (pwCoeff E.qrC E.mask w) temp E.eps
        (2 / nk) heps o d hod
        (fun k b => by rw [ho]; exact (partlyFilled_bounds hk E.ne E.spin hpar h0 hb P k b).1)
        (fun k b => by rw [ho]; exact (partlyFilled_bounds hk E.ne E.spin hpar h0 hb P k b).2.1)
        occ (fun k b => by rw [ho]; exact hocc k b) hd (fun k b => (H k b b).re) (fun k b => h2 k b)
      refine this.congr_deriv ?_
      rw [ho])
  refine ⟨key.1, H, h1, fun G hG => (key.2 G hG).trans ?_⟩
  exact level_of_equal E.ne E.spin P temp E.eps (2 / nk) _ _

/-- C125, norm-conserving driver.  Missing: as in `driver_gradient_fermiLevel_partial`. -/
theorem driverNC_gradient_fermiLevel_partial {na nk nb M : ℕ} {ι : Type} [Fintype ι] {n : Fin 3 → ℕ} (E : GsEnv na nk n)
    (vloc : Idx n → ℂ) (psi : Fin nk → ι → Fin M → Idx n → ℂ) (hk : 0 < nk)
    (hmeth : E.method = "simplex-projector") (hr : E.restricted = true) (hg : pyIn "gga" E.xc = false)
    (hm : nb ≤ maskCount E.mask) (heps : 0 < E.eps) (hpar : E.ne % 2 = E.spin % 2) (h0 : |E.spin| < E.ne)
    (hb : E.ne + |E.spin| < 2 * nb) (temp : ℝ) (w : PwParams 1 nk (maskCount E.mask) nb)
    (f : (Fin nk → Fin nb → ℝ) × (Fin nk → Fin nb → ℝ) → ℝ)
    (hf : ∀ P, (gsFreeNC E vloc psi temp ⟨w, .simplex P.1 P.2⟩).map (fun r => r.1) = .ok (f P))
    (P : (Fin nk → Fin nb → ℝ) × (Fin nk → Fin nb → ℝ))
    (hP : ∀ sp k b, DifferentiableAt ℝ (Spec.occEntry E.ne E.spin true sp k b) P)
    (occ : Occ 1 nk (min (maskCount E.mask) nb))
    (hocc : ∀ k b, occ 0 k b = Spec.occEntry E.ne E.spin true 0 k (Fin.cast (min_eq_right hm) b) P)
    (hd : ∀ j, ∀ x ∈ splitPlus E.xc,
      DifferentiableAt ℝ (E.lib.lda x) (densityGrid (pwCoeff E.qrC E.mask w) E.vol occ 0 j)) :
    (∃ G, Spec.IsOccGradient f P G) ∧
    ∃ H : Fin 1 → Fin nk → Fin (min (maskCount E.mask) nb) → Fin (min (maskCount E.mask) nb) → ℂ,
      ncHamiltonianMatrix E.lib E.xc true (pwCoeff E.qrC E.mask w)
        (densityGrid (pwCoeff E.qrC E.mask w) E.vol occ) vloc psi E.g E.kpts E.vol = .ok ⟨nk, H⟩ ∧
      ∀ G, Spec.IsOccGradient f P G → (G = 0 ↔ ∃ μ, Spec.PartlyFilledLevel E.ne E.spin P temp E.eps (2 / nk)
        (fun k b => (H 0 k (Fin.cast (min_eq_right hm).symm b) (Fin.cast (min_eq_right hm).symm b)).re)
        (fun k b => Spec.occEntry E.ne E.spin true 0 k b P) μ) := by
  obtain ⟨H, h1, h2⟩ := ncHamiltonian_diag E.lib E.xc vloc psi E.g E.kpts E.vol (pwCoeff E.qrC E.mask w)
    (densityGrid (pwCoeff E.qrC E.mask w) E.vol occ)
  have key := occGradient_level hk E.ne E.spin hpar h0 hb P hP
    (fun o => occEnergy E.lib E.xc (fun k b => (Spec.kineticElement E.g (E.kpts k) (pwCoeff E.qrC E.mask w 0 k b)
          (pwCoeff E.qrC E.mask w 0 k b)).re + (hamiltonianNonlocal (pwCoeff E.qrC E.mask w) psi E.vol 0 k b b).re)
          (fun j => (ifftn vloc j).re) E.g E.vol
          (pwCoeff E.qrC E.mask w) (fun _ k b => o k (Fin.cast (min_eq_right hm) b))
        - temp * Spec.smearingEntropy E.eps (2 / nk)
          (fun (_ : Fin 1) k b => o k (Fin.cast (min_eq_right hm) b))) f
    (fun P => Except.ok.inj ((hf P).symm.trans (freeNC_value E vloc psi hmeth hr hg hm temp w P)))
    (fun k b => (H 0 k (Fin.cast (min_eq_right hm).symm b) (Fin.cast (min_eq_right hm).symm b)).re
      - temp * Spec.entropySlope E.eps (2 / nk) (Spec.occEntry E.ne E.spin true 0 k b P))
    (fun o d ho hod => by
      have := hasDerivAt_freeEnergy E.lib E.xc hg (min_eq_right hm) _ _ E.g E.vol (pwCoeff E.qrC E.mask w) temp E.eps
        (2 / nk) heps o d hod
        (fun k b => by rw [ho]; exact (partlyFilled_bounds hk E.ne E.spin hpar h0 hb P k b).1)
        (fun k b => by rw [ho]; exact (partlyFilled_bounds hk E.ne E.spin hpar h0 hb P k b).2.1)
        occ (fun k b => by rw [ho]; exact hocc k b) hd (fun k b => (H 0 k b b).re) (fun k b => h2 k b)
      refine this.congr_deriv ?_
      rw [ho])
  refine ⟨key.1, H, h1, fun G hG => (key.2 G hG).trans ?_⟩
  exact level_of_equal E.ne E.spin P temp E.eps (2 / nk) _ _

/-- C125, what the shared level means: with smearing, a band that a spin channel fills partly has the occupation of the
Fermi-Dirac distribution at the level of the channel, with an error in the exponent that is proportional to `eps`;
without smearing its energy is the level. -/
theorem partlyFilled_fermiDirac {nk nb : ℕ} (hk : 0 < nk) (ne spin : ℤ) (hpar : ne % 2 = spin % 2) (h0 : |spin| < ne)
    (hb : ne + |spin| < 2 * nb) (P : (Fin nk → Fin nb → ℝ) × (Fin nk → Fin nb → ℝ)) {t eps : ℝ} (heps : 0 < eps)
    {e : Fin nk → Fin nb → ℝ} {μ : Fin 2 → ℝ}
    (h : Spec.PartlyFilledLevel ne spin P t eps (2 / nk) e (fun k b => Spec.occEntry ne spin true 0 k b P) μ)
    (sp : Fin 2) (k : Fin nk) (b : Fin nb) (hf : Spec.Fractional ne spin P sp k b) :
    (t = 0 → e k b = μ sp) ∧
    (0 < t → ∃ r, |r| ≤ eps / Spec.occEntry ne spin true 0 k b P + eps / (2 / nk - Spec.occEntry ne spin true 0 k b P) ∧
      Spec.occEntry ne spin true 0 k b P = 2 / nk / (1 + Real.exp ((e k b - μ sp) / t + r))) := by
  have h1 := h sp k b hf
  obtain ⟨f0, f1⟩ := (partlyFilled_bounds hk ne spin hpar h0 hb P k b).2.2 sp hf
  refine ⟨fun ht => ?_, fun ht => ?_⟩
  · rw [← h1, ht]
    ring
  · have h2 : Spec.FermiLevel t eps (2 / nk) (fun (_ : Fin 1) (_ : Fin 1) => e k b)
        (fun _ _ => Spec.occEntry ne spin true 0 k b P) (μ sp) := fun _ _ => ⟨fun _ => h1.ge, fun _ => h1.le⟩
    exact fermiLevel_fermiDirac ht heps h2 0 0 f0 f1

/-- C125: the gradient of the function that a spin-restricted all-electron run minimises vanishes, in the plane-wave and
in the occupation parameters, exactly at self-consistent solutions: with `F` the Hamiltonian on the plane waves and `H`
the result of `hamiltonian_matrix`, both for the density of the state itself, the occupied bands solve
`F C_b = Σ_a H_ab C_a`, bands of different occupation are not mixed, and the partly filled bands of each spin channel
share a Fermi level.  Missing: as in `driver_gradient_kohnSham_partial` and `driver_gradient_fermiLevel_partial`. -/
theorem driver_gradient_selfConsistent_partial {na nk nb : ℕ} {n : Fin 3 → ℕ} (E : GsEnv na nk n) (hk : 0 < nk)
    (ht : Spec.Triangular E.qrC) (hmeth : E.method = "simplex-projector") (hr : E.restricted = true)
    (hg : pyIn "gga" E.xc = false) (hm : nb ≤ maskCount E.mask) (heps : 0 < E.eps) (hpar : E.ne % 2 = E.spin % 2)
    (h0 : |E.spin| < E.ne) (hb : E.ne + |E.spin| < 2 * nb) (temp : ℝ)
    (f : PwParams 1 nk (maskCount E.mask) nb → (Fin nk → Fin nb → ℝ) × (Fin nk → Fin nb → ℝ) → ℝ)
    (hf : ∀ w P, (gsFree E temp ⟨w, .simplex P.1 P.2⟩).map (fun r => r.1) = .ok (f w P))
    (p : PwParams 1 nk (maskCount E.mask) nb) (hp : Spec.Independent p)
    (P : (Fin nk → Fin nb → ℝ) × (Fin nk → Fin nb → ℝ))
    (hP : ∀ sp k b, DifferentiableAt ℝ (Spec.occEntry E.ne E.spin true sp k b) P)
    (occ : Occ 1 nk (min (maskCount E.mask) nb))
    (hocc : ∀ k b, occ 0 k b = Spec.occEntry E.ne E.spin true 0 k (Fin.cast (min_eq_right hm) b) P)
    (hd : ∀ j, ∀ x ∈ splitPlus E.xc,
      DifferentiableAt ℝ (E.lib.lda x) (densityGrid (pwCoeff E.qrC E.mask p) E.vol occ 0 j)) :
    gsDensity E ⟨p, .simplex P.1 P.2⟩ = .ok ⟨1, densityGrid (pwCoeff E.qrC E.mask p) E.vol occ⟩ ∧
    (∃ G, Spec.IsFullGradient (fun w => f w P) p G) ∧ (∃ K, Spec.IsOccGradient (f p) P K) ∧
    ∃ (F : Fin nk → Matrix (Fin (maskCount E.mask)) (Fin (maskCount E.mask)) ℂ)
      (H : Fin nk → Matrix (Fin (min (maskCount E.mask) nb)) (Fin (min (maskCount E.mask) nb)) ℂ),
      (∀ k, hamiltonianMatrixBasis E.lib E.xc true E.mask E.pos E.charge
        (densityGrid (pwCoeff E.qrC E.mask p) E.vol occ) E.g (E.kpts k) E.vol = .ok (F k)) ∧
      (∀ k, hamiltonianMatrix E.lib E.xc true (pwCoeff E.qrC E.mask p) E.pos E.charge
        (densityGrid (pwCoeff E.qrC E.mask p) E.vol occ) E.g E.kpts E.vol 0 k = .ok (H k)) ∧
      ∀ G K, Spec.IsFullGradient (fun w => f w P) p G → Spec.IsOccGradient (f p) P K →
        (Spec.Vanishes G ∧ K = 0 ↔
          (∀ k b, occ 0 k b ≠ 0 → ∀ x, ∑ y, F k x y * pwCoeff E.qrC E.mask p 0 k b (maskPos E.mask y)
            = ∑ a, H k a b * pwCoeff E.qrC E.mask p 0 k a (maskPos E.mask x)) ∧
          (∀ k a b, occ 0 k a ≠ occ 0 k b → H k a b = 0) ∧
          ∃ μ, Spec.PartlyFilledLevel E.ne E.spin P temp E.eps (2 / nk)
            (fun k b => (H k (Fin.cast (min_eq_right hm).symm b) (Fin.cast (min_eq_right hm).symm b)).re)
            (fun k b => Spec.occEntry E.ne E.spin true 0 k b P) μ) := by
  obtain ⟨o, hl, ho, hy⟩ := simplex_occ E hmeth hr hm P
  have hocc' : ∀ s k b, occ s k b = o.get (Fin.cast hl.symm s) k (Fin.castLE (min_le_right _ _) b) := by
    intro s k b
    rw [← hy s k b, Subsingleton.elim s 0]
    exact hocc k b
  obtain ⟨h1, h2, F, H, hF, hH, h3⟩ := driver_gradient_kohnSham_partial E ht hg hm (.simplex P.1 P.2) o ho hl occ hocc'
    temp (fun w => f w P) (fun w => hf w P) p hp hd
  obtain ⟨h4, H', hH', h5⟩ := driver_gradient_fermiLevel_partial E hk hmeth hr hg hm heps hpar h0 hb temp p (f p)
    (fun P => hf p P) P hP occ hocc hd
  have hHH : H' = H := by
    funext k
    exact Except.ok.inj ((hH' k).symm.trans (hH k))
  subst hHH
  refine ⟨h1, h2, h4, F, H', hF, hH', fun G K hG hK => ?_⟩
  rw [h3 G hG, h5 K hK, and_assoc]

/-- C125, norm-conserving driver; the equations of the bands are those of the Hermitian part of `hamiltonian_matrix`,
which is what `eigh` diagonalises.  Missing: as in `driverNC_gradient_kohnSham_partial` and
`driverNC_gradient_fermiLevel_partial`. -/
theorem driverNC_gradient_selfConsistent_partial {na nk nb M : ℕ} {ι : Type} [Fintype ι] {n : Fin 3 → ℕ}
    (E : GsEnv na nk n) (vloc : Idx n → ℂ) (psi : Fin nk → ι → Fin M → Idx n → ℂ) (hk : 0 < nk)
    (ht : Spec.Triangular E.qrC) (hmeth : E.method = "simplex-projector") (hr : E.restricted = true)
    (hg : pyIn "gga" E.xc = false) (hm : nb ≤ maskCount E.mask) (heps : 0 < E.eps) (hpar : E.ne % 2 = E.spin % 2)
    (h0 : |E.spin| < E.ne) (hb : E.ne + |E.spin| < 2 * nb)
    (A : Matrix (Fin 3) (Fin 3) ℝ) (hA : A.det ≠ 0) (hgA : E.g = gVectors A n) (hvol : 0 < E.vol) (temp : ℝ)
    (f : PwParams 1 nk (maskCount E.mask) nb → (Fin nk → Fin nb → ℝ) × (Fin nk → Fin nb → ℝ) → ℝ)
    (hf : ∀ w P, (gsFreeNC E vloc psi temp ⟨w, .simplex P.1 P.2⟩).map (fun r => r.1) = .ok (f w P))
    (p : PwParams 1 nk (maskCount E.mask) nb) (hp : Spec.Independent p)
    (P : (Fin nk → Fin nb → ℝ) × (Fin nk → Fin nb → ℝ))
    (hP : ∀ sp k b, DifferentiableAt ℝ (Spec.occEntry E.ne E.spin true sp k b) P)
    (occ : Occ 1 nk (min (maskCount E.mask) nb))
    (hocc : ∀ k b, occ 0 k b = Spec.occEntry E.ne E.spin true 0 k (Fin.cast (min_eq_right hm) b) P)
    (hd : ∀ j, ∀ x ∈ splitPlus E.xc,
      DifferentiableAt ℝ (E.lib.lda x) (densityGrid (pwCoeff E.qrC E.mask p) E.vol occ 0 j))
    (V : Idx n → ℝ) (hV : ∀ x, V x = (ifftn vloc x
      + hartreeRealSpace (densityGrid (pwCoeff E.qrC E.mask p) E.vol occ) (gVectors A n) true x
      + vxcDensity E.lib E.xc (gVectors A n) (densityGrid (pwCoeff E.qrC E.mask p) E.vol occ) 0 x).re)
    (F : Fin nk → Matrix (Fin (maskCount E.mask)) (Fin (maskCount E.mask)) ℂ)
    (hF : ∀ k, F k = Spec.planeWaveHamiltonian (fun a => gVectors A n (maskPos E.mask a)) (rVectors A n) V (E.kpts k)
      + Spec.projectorMatrix E.vol (fun (i : ι × Fin M) a => psi k i.1 i.2 (maskPos E.mask a))) :
    gsDensity E ⟨p, .simplex P.1 P.2⟩ = .ok ⟨1, densityGrid (pwCoeff E.qrC E.mask p) E.vol occ⟩ ∧
    (∃ G, Spec.IsFullGradient (fun w => f w P) p G) ∧ (∃ K, Spec.IsOccGradient (f p) P K) ∧
    ∃ H : Fin 1 → Fin nk → Fin (min (maskCount E.mask) nb) → Fin (min (maskCount E.mask) nb) → ℂ,
      ncHamiltonianMatrix E.lib E.xc true (pwCoeff E.qrC E.mask p)
        (densityGrid (pwCoeff E.qrC E.mask p) E.vol occ) vloc psi E.g E.kpts E.vol = .ok ⟨nk, H⟩ ∧
      ∀ G K, Spec.IsFullGradient (fun w => f w P) p G → Spec.IsOccGradient (f p) P K →
        (Spec.Vanishes G ∧ K = 0 ↔
          (∀ k b, occ 0 k b ≠ 0 → ∀ x, ∑ y, F k x y * pwCoeff E.qrC E.mask p 0 k b (maskPos E.mask y)
            = ∑ a, (H 0 k a b + conj (H 0 k b a)) / 2 * pwCoeff E.qrC E.mask p 0 k a (maskPos E.mask x)) ∧
          (∀ k a b, occ 0 k a ≠ occ 0 k b → (H 0 k a b + conj (H 0 k b a)) / 2 = 0) ∧
          ∃ μ, Spec.PartlyFilledLevel E.ne E.spin P temp E.eps (2 / nk)
            (fun k b => (H 0 k (Fin.cast (min_eq_right hm).symm b) (Fin.cast (min_eq_right hm).symm b)).re)
            (fun k b => Spec.occEntry E.ne E.spin true 0 k b P) μ) := by
  obtain ⟨o, hl, ho, hy⟩ := simplex_occ E hmeth hr hm P
  have hocc' : ∀ s k b, occ s k b = o.get (Fin.cast hl.symm s) k (Fin.castLE (min_le_right _ _) b) := by
    intro s k b
    rw [← hy s k b, Subsingleton.elim s 0]
    exact hocc k b
  obtain ⟨h1, h2, H, hH, h3⟩ := driverNC_gradient_kohnSham_partial E vloc psi ht hg hm (.simplex P.1 P.2) o ho hl occ
    hocc' A hA hgA hvol temp (fun w => f w P) (fun w => hf w P) p hp hd V hV F hF
  obtain ⟨h4, H', hH', h5⟩ := driverNC_gradient_fermiLevel_partial E vloc psi hk hmeth hr hg hm heps hpar h0 hb temp p
    (f p) (fun P => hf p P) P hP occ hocc hd
  have hHH : H' = H := by
    simpa using Except.ok.inj (hH'.symm.trans hH)
  subst hHH
  refine ⟨h1, h2, h4, H', hH', fun G K hG hK => ?_⟩
  rw [h3 G hG, h5 K hK, and_assoc]

/-- The hypotheses of the theorems above are met: two plane waves, two bands, two electrons, smearing, and parameters
where the occupations have derivatives; for valence electrons one projector. -/
example : ∃ (f f' : PwParams 1 1 (maskCount trainedTwoWaves.mask) 2 → (Fin 1 → Fin 2 → ℝ) × (Fin 1 → Fin 2 → ℝ) → ℝ)
    (p : PwParams 1 1 (maskCount trainedTwoWaves.mask) 2) (P : (Fin 1 → Fin 2 → ℝ) × (Fin 1 → Fin 2 → ℝ)),
    Spec.Triangular trainedTwoWaves.qrC ∧ trainedTwoWaves.method = "simplex-projector" ∧
    trainedTwoWaves.restricted = true ∧ pyIn "gga" trainedTwoWaves.xc = false ∧ 2 ≤ maskCount trainedTwoWaves.mask ∧
    0 < trainedTwoWaves.eps ∧ trainedTwoWaves.ne % 2 = trainedTwoWaves.spin % 2 ∧
    |trainedTwoWaves.spin| < trainedTwoWaves.ne ∧ trainedTwoWaves.ne + |trainedTwoWaves.spin| < 2 * ((2 : ℕ) : ℤ) ∧
    (1 : Matrix (Fin 3) (Fin 3) ℝ).det ≠ 0 ∧ trainedTwoWaves.g = gVectors 1 ![2, 1, 1] ∧ 0 < trainedTwoWaves.vol ∧
    (∀ w P, (gsFree trainedTwoWaves 1 ⟨w, .simplex P.1 P.2⟩).map (fun r => r.1) = .ok (f w P)) ∧
    (∀ w P, (gsFreeNC trainedTwoWaves (fun _ => 1) (fun _ (_ : Fin 1) (_ : Fin 1) _ => 1) 1
      ⟨w, .simplex P.1 P.2⟩).map (fun r => r.1) = .ok (f' w P)) ∧
    Spec.Independent p ∧
    (∀ sp k b, DifferentiableAt ℝ (Spec.occEntry trainedTwoWaves.ne trainedTwoWaves.spin true sp k b) P) ∧
    ∀ x r, DifferentiableAt ℝ (trainedTwoWaves.lib.lda x) r := by
  have hm : 2 ≤ maskCount trainedTwoWaves.mask := (by decide : 2 ≤ maskCount (n := ![2, 1, 1]) fun _ => true)
  have hg : pyIn "gga" trainedTwoWaves.xc = false := by decide +kernel
  have m1 : (MeasureTheory.volume : MeasureTheory.Measure (Fin 2 → ℝ)).IsAddHaarMeasure :=
    MeasureTheory.isAddHaarMeasure_volume_pi _
  have m2 : (MeasureTheory.volume : MeasureTheory.Measure (Fin 1 → Fin 2 → ℝ)).IsAddHaarMeasure :=
    inferInstanceAs (MeasureTheory.Measure.pi
      fun _ : Fin 1 => (MeasureTheory.volume : MeasureTheory.Measure (Fin 2 → ℝ))).IsAddHaarMeasure
  have m3 : (MeasureTheory.volume : MeasureTheory.Measure ((Fin 1 → Fin 2 → ℝ) × (Fin 1 → Fin 2 → ℝ))).IsAddHaarMeasure :=
    MeasureTheory.Measure.prod.instIsAddHaarMeasure _ _
  obtain ⟨P, hP⟩ := (simplexProjector_differentiable_ae (nk := 1) (nb := 2) Nat.one_pos 2 0 rfl (by norm_num)
    (by norm_num) true).exists
  obtain ⟨C, hC⟩ := orthonormalBands_nonempty (nk := 1) (min_le_left (maskCount trainedTwoWaves.mask) 2)
  obtain ⟨p, -, hp, -⟩ := params_of_bands hm C hC
  exact ⟨_, _, p, P, gramSchmidtQR_triangular ℂ, rfl, rfl, hg, hm, by norm_num [trainedTwoWaves], rfl,
    by norm_num [trainedTwoWaves], by norm_num [trainedTwoWaves], by simp, rfl, by norm_num [trainedTwoWaves],
    fun w P => free_value trainedTwoWaves rfl rfl hg hm 1 w P,
    fun w P => freeNC_value trainedTwoWaves _ _ rfl rfl hg hm 1 w P, hp, hP, fun x r => differentiableAt_const _⟩

end Jrystal
