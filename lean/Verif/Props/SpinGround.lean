import Verif.Lemmas.SpinGround
import Verif.Spec.SpinGround
import Verif.Props.SpinGradient
import Verif.Props.Limit

/- C127: ground states and Kohn-Sham states, for spin channels and every functional. -/
namespace Jrystal
open scoped BigOperators ComplexConjugate Matrix
open KohnSham

private theorem projectorMatrix_none {N : ℕ} (vol : ℝ) (f : Fin 0 × Fin 0 → Fin N → ℂ) : Spec.projectorMatrix vol f = 0 := by
  funext a b
  simp [Spec.projectorMatrix]

private theorem occupied_matrix {N nb m : ℕ} (F : Matrix (Fin N) (Fin N) ℂ) (C : Matrix (Fin N) (Fin nb) ℂ)
    (σ : Fin m → Fin nb) : (Cᴴ * F * C).submatrix σ σ
      = Matrix.of fun i j => ∑ x, conj (C x (σ i)) * ∑ y, F x y * C y (σ j) := by
  ext i j
  rw [Matrix.submatrix_apply, Matrix.mul_assoc, Matrix.mul_apply]
  refine Finset.sum_congr rfl fun x _ => ?_
  rw [Matrix.conjTranspose_apply, Matrix.mul_apply]
  rfl

section
variable {ns nk nb : ℕ} {n : Fin 3 → ℕ}

private theorem total_iff (lib : XcLib) (xt : String) {na : ℕ} (pos : Fin na → Fin 3 → ℝ) (charge : Fin na → ℝ)
    (g : Idx n → Fin 3 → ℝ) (kpts : Fin nk → Fin 3 → ℝ) (vol : ℝ) (X : (Fin ns → Idx n → ℝ) → ℝ)
    (hX : ∀ r, xcEnergy lib xt false r g vol = .ok (X r)) (c : Coef ns nk nb n) (occ : Occ ns nk nb) (e : ℝ) :
    totalEnergy lib c pos charge g kpts vol (some occ) false xt = .ok e ↔
      e = spinSum X (fun j => (externalPotential pos charge g vol j).re) (fun _ (_ : Fin 0) (_ : Fin 0) _ => 0) g kpts
        vol occ c := by
  have h1 := totalEnergy_spinSum lib xt pos charge g kpts vol X hX occ c
  exact ⟨fun h => Except.ok.inj (h.symm.trans h1), fun h => by rw [h]; exact h1⟩

private theorem totalNC_iff (lib : XcLib) (xt : String) {M : ℕ} {ι : Type} [Fintype ι] (vloc : Idx n → ℂ)
    (psi : Fin nk → ι → Fin M → Idx n → ℂ)
    (g : Idx n → Fin 3 → ℝ) (kpts : Fin nk → Fin 3 → ℝ) (vol : ℝ) (X : (Fin ns → Idx n → ℝ) → ℝ)
    (hX : ∀ r, xcEnergy lib xt false r g vol = .ok (X r)) (c : Coef ns nk nb n) (occ : Occ ns nk nb) (e : ℝ) :
    Spec.EnergyNC lib xt vloc psi g kpts vol c occ e ↔
      e = spinSum X (fun j => (ifftn vloc j).re) psi g kpts vol occ c := by
  have h1 := energyNC_spinSum lib xt vloc psi g kpts vol X hX occ c
  exact ⟨fun h => energyNC_unique h h1, fun h => by rw [h]; exact h1⟩

/-- C127: a state of least free energy solves the Kohn-Sham equations of the textbook Hamiltonian of its own density,
in every spin channel and with every functional that has a functional derivative `v` at its density; and unless the
occupations are fixed each channel has a Fermi level. -/
theorem ground_kohnSham_spin (lib : XcLib) (xt : String) {na : ℕ} (pos : Fin na → Fin 3 → ℝ) (charge : Fin na → ℝ)
    (A : Matrix (Fin 3) (Fin 3) ℝ) (hA : A.det ≠ 0) (kpts : Fin nk → Fin 3 → ℝ) (vol : ℝ) (hvol : 0 < vol)
    (X : (Fin ns → Idx n → ℝ) → ℝ) (hX : ∀ r, xcEnergy lib xt false r (gVectors A n) vol = .ok (X r))
    (t eps : ℝ) (heps : 0 < eps) (mask : Idx n → Bool) (ne spin : ℤ) (restricted : Bool) (method : String)
    (c : Coef ns nk nb n) (occ : Occ ns nk nb) (e : ℝ)
    (h : Spec.GroundWithin 0 t eps mask ne spin restricted method
      (fun c occ e => totalEnergy lib c pos charge (gVectors A n) kpts vol (some occ) false xt = .ok e) c occ e)
    (v : Fin ns → Idx n → ℝ) (hv : Spec.IsDensityGradient vol X (densityGrid c vol occ) v)
    (U : Fin ns → Idx n → ℝ) (hU : ∀ s j, U s j = (externalPotential pos charge (gVectors A n) vol j).re
      + (hartreeRealSpace (densityGrid c vol occ) (gVectors A n) true j).re + v s j)
    (F : Fin ns → Fin nk → Matrix (Fin (maskCount mask)) (Fin (maskCount mask)) ℂ)
    (hF : ∀ s k, F s k
      = Spec.planeWaveHamiltonian (fun a => gVectors A n (maskPos mask a)) (rVectors A n) (U s) (kpts k)) :
    Spec.KohnShamBands F occ (fun s k b y => c s k b (maskPos mask y)) ∧
    (¬ (method = "uniform" ∨ method = "gamma") → ∀ s, ∃ μ, Spec.FermiLevel t eps ((3 - (ns : ℝ)) / nk)
      (fun k b => Spec.bandEnergy (F s k) fun y => c s k b (maskPos mask y)) (occ s) μ) := by
  have hE := total_iff (nb := nb) lib xt pos charge (gVectors A n) kpts vol X hX
  have hF' : ∀ s k, F s k = Spec.planeWaveHamiltonian (fun a => gVectors A n (maskPos mask a)) (rVectors A n) (U s) (kpts k)
      + Spec.projectorMatrix vol (fun (i : Fin 0 × Fin 0) a => (fun _ (_ : Fin 0) (_ : Fin 0) _ => 0 :
        Fin nk → Fin 0 → Fin 0 → Idx n → ℂ) k i.1 i.2 (maskPos mask a)) :=
    fun s k => by rw [hF, projectorMatrix_none, add_zero]
  exact ⟨spin_ground_kohnSham X _ _ mask A hA kpts vol hvol hE v hv U hU F hF' h, fun hm s =>
    spin_ground_level X _ _ mask A hA kpts vol hvol hE v hv U hU F hF' hm heps h s⟩

/-- C127 for valence electrons, with the projectors of a norm-conserving pseudopotential. -/
theorem groundNC_kohnSham_spin (lib : XcLib) (xt : String) {M : ℕ} {ι : Type} [Fintype ι] (vloc : Idx n → ℂ)
    (psi : Fin nk → ι → Fin M → Idx n → ℂ)
    (A : Matrix (Fin 3) (Fin 3) ℝ) (hA : A.det ≠ 0) (kpts : Fin nk → Fin 3 → ℝ) (vol : ℝ) (hvol : 0 < vol)
    (X : (Fin ns → Idx n → ℝ) → ℝ) (hX : ∀ r, xcEnergy lib xt false r (gVectors A n) vol = .ok (X r))
    (t eps : ℝ) (heps : 0 < eps) (mask : Idx n → Bool) (ne spin : ℤ) (restricted : Bool) (method : String)
    (c : Coef ns nk nb n) (occ : Occ ns nk nb) (e : ℝ)
    (h : Spec.GroundWithin 0 t eps mask ne spin restricted method
      (Spec.EnergyNC lib xt vloc psi (gVectors A n) kpts vol) c occ e)
    (v : Fin ns → Idx n → ℝ) (hv : Spec.IsDensityGradient vol X (densityGrid c vol occ) v)
    (U : Fin ns → Idx n → ℝ) (hU : ∀ s j, U s j = (ifftn vloc j).re
      + (hartreeRealSpace (densityGrid c vol occ) (gVectors A n) true j).re + v s j)
    (F : Fin ns → Fin nk → Matrix (Fin (maskCount mask)) (Fin (maskCount mask)) ℂ)
    (hF : ∀ s k, F s k
      = Spec.planeWaveHamiltonian (fun a => gVectors A n (maskPos mask a)) (rVectors A n) (U s) (kpts k)
      + Spec.projectorMatrix vol (fun (i : ι × Fin M) a => psi k i.1 i.2 (maskPos mask a))) :
    Spec.KohnShamBands F occ (fun s k b y => c s k b (maskPos mask y)) ∧
    (¬ (method = "uniform" ∨ method = "gamma") → ∀ s, ∃ μ, Spec.FermiLevel t eps ((3 - (ns : ℝ)) / nk)
      (fun k b => Spec.bandEnergy (F s k) fun y => c s k b (maskPos mask y)) (occ s) μ) := by
  have hE := totalNC_iff (nb := nb) lib xt vloc psi (gVectors A n) kpts vol X hX
  exact ⟨spin_ground_kohnSham X _ _ mask A hA kpts vol hvol hE v hv U hU F hF h, fun hm s =>
    spin_ground_level X _ _ mask A hA kpts vol hvol hE v hv U hU F hF hm heps h s⟩

/-- C127: without smearing, in each spin channel and at each k point where a band is empty, the energies of the occupied
bands (listed by `σ`; the eigenvalues `mu` of the textbook Hamiltonian between them) are the lowest eigenvalues `lam` of
the textbook Hamiltonian on all selected plane waves.  Missing: k points without an empty band. -/
theorem ground_lowest_spin_partial (lib : XcLib) (xt : String) {na : ℕ} (pos : Fin na → Fin 3 → ℝ) (charge : Fin na → ℝ)
    (A : Matrix (Fin 3) (Fin 3) ℝ) (hA : A.det ≠ 0) (kpts : Fin nk → Fin 3 → ℝ) (vol : ℝ) (hvol : 0 < vol)
    (X : (Fin ns → Idx n → ℝ) → ℝ) (hX : ∀ r, xcEnergy lib xt false r (gVectors A n) vol = .ok (X r))
    (eps : ℝ) (heps : 0 < eps) (mask : Idx n → Bool) (ne spin : ℤ) (restricted : Bool) (method : String)
    (hm : ¬ (method = "uniform" ∨ method = "gamma")) (c : Coef ns nk nb n) (occ : Occ ns nk nb) (e : ℝ)
    (h : Spec.GroundWithin 0 0 eps mask ne spin restricted method
      (fun c occ e => totalEnergy lib c pos charge (gVectors A n) kpts vol (some occ) false xt = .ok e) c occ e)
    (v : Fin ns → Idx n → ℝ) (hv : Spec.IsDensityGradient vol X (densityGrid c vol occ) v)
    (U : Fin ns → Idx n → ℝ) (hU : ∀ s j, U s j = (externalPotential pos charge (gVectors A n) vol j).re
      + (hartreeRealSpace (densityGrid c vol occ) (gVectors A n) true j).re + v s j)
    (F : Fin ns → Fin nk → Matrix (Fin (maskCount mask)) (Fin (maskCount mask)) ℂ)
    (hF : ∀ s k, F s k
      = Spec.planeWaveHamiltonian (fun a => gVectors A n (maskPos mask a)) (rVectors A n) (U s) (kpts k))
    (s : Fin ns) (k : Fin nk) (b : Fin nb) (hb : occ s k b = 0) {m : ℕ} (σ : Fin m → Fin nb)
    (hσ : Function.Injective σ) (hrange : ∀ b, 0 < occ s k b ↔ ∃ i, σ i = b)
    (mu : Fin m → ℝ) (hmu : Spec.IsSpectrum (Matrix.of fun i j => ∑ x, conj (c s k (σ i) (maskPos mask x)) *
      ∑ y, F s k x y * c s k (σ j) (maskPos mask y)) mu)
    (lam : Fin (maskCount mask) → ℝ) (hlam : Spec.IsSpectrum (F s k) lam) :
    ∃ hm : m ≤ maskCount mask, ∀ j, mu j = lam (Fin.castLE hm j) := by
  have hE := total_iff (nb := nb) lib xt pos charge (gVectors A n) kpts vol X hX
  have hF' : ∀ s k, F s k = Spec.planeWaveHamiltonian (fun a => gVectors A n (maskPos mask a)) (rVectors A n) (U s) (kpts k)
      + Spec.projectorMatrix vol (fun (i : Fin 0 × Fin 0) a => (fun _ (_ : Fin 0) (_ : Fin 0) _ => 0 :
        Fin nk → Fin 0 → Fin 0 → Idx n → ℂ) k i.1 i.2 (maskPos mask a)) :=
    fun s k => by rw [hF, projectorMatrix_none, add_zero]
  exact spin_lowest X _ _ mask A hA kpts vol hvol hE v hv U hU F hF' hm heps h s k b hb hlam σ hσ hrange
    (by rw [occupied_matrix]; exact hmu)

/-- C127, valence electrons.  Missing: as in `ground_lowest_spin_partial`. -/
theorem groundNC_lowest_spin_partial (lib : XcLib) (xt : String) {M : ℕ} {ι : Type} [Fintype ι] (vloc : Idx n → ℂ)
    (psi : Fin nk → ι → Fin M → Idx n → ℂ)
    (A : Matrix (Fin 3) (Fin 3) ℝ) (hA : A.det ≠ 0) (kpts : Fin nk → Fin 3 → ℝ) (vol : ℝ) (hvol : 0 < vol)
    (X : (Fin ns → Idx n → ℝ) → ℝ) (hX : ∀ r, xcEnergy lib xt false r (gVectors A n) vol = .ok (X r))
    (eps : ℝ) (heps : 0 < eps) (mask : Idx n → Bool) (ne spin : ℤ) (restricted : Bool) (method : String)
    (hm : ¬ (method = "uniform" ∨ method = "gamma")) (c : Coef ns nk nb n) (occ : Occ ns nk nb) (e : ℝ)
    (h : Spec.GroundWithin 0 0 eps mask ne spin restricted method
      (Spec.EnergyNC lib xt vloc psi (gVectors A n) kpts vol) c occ e)
    (v : Fin ns → Idx n → ℝ) (hv : Spec.IsDensityGradient vol X (densityGrid c vol occ) v)
    (U : Fin ns → Idx n → ℝ) (hU : ∀ s j, U s j = (ifftn vloc j).re
      + (hartreeRealSpace (densityGrid c vol occ) (gVectors A n) true j).re + v s j)
    (F : Fin ns → Fin nk → Matrix (Fin (maskCount mask)) (Fin (maskCount mask)) ℂ)
    (hF : ∀ s k, F s k
      = Spec.planeWaveHamiltonian (fun a => gVectors A n (maskPos mask a)) (rVectors A n) (U s) (kpts k)
      + Spec.projectorMatrix vol (fun (i : ι × Fin M) a => psi k i.1 i.2 (maskPos mask a)))
    (s : Fin ns) (k : Fin nk) (b : Fin nb) (hb : occ s k b = 0) {m : ℕ} (σ : Fin m → Fin nb)
    (hσ : Function.Injective σ) (hrange : ∀ b, 0 < occ s k b ↔ ∃ i, σ i = b)
    (mu : Fin m → ℝ) (hmu : Spec.IsSpectrum (Matrix.of fun i j => ∑ x, conj (c s k (σ i) (maskPos mask x)) *
      ∑ y, F s k x y * c s k (σ j) (maskPos mask y)) mu)
    (lam : Fin (maskCount mask) → ℝ) (hlam : Spec.IsSpectrum (F s k) lam) :
    ∃ hm : m ≤ maskCount mask, ∀ j, mu j = lam (Fin.castLE hm j) := by
  have hE := totalNC_iff (nb := nb) lib xt vloc psi (gVectors A n) kpts vol X hX
  exact spin_lowest X _ _ mask A hA kpts vol hvol hE v hv U hU F hF hm heps h s k b hb hlam σ hσ hrange
    (by rw [occupied_matrix]; exact hmu)

end

/-- C127 for whole calculations: with a good enough optimiser the density that a calculation reports is, up to `δ`,
that of a self-consistent state of the textbook equations, in all spin channels and with every functional that has a
functional derivative `W` at the densities of ground states; at the temperature of the configuration if the run is not
stopped early or there is no smearing.  Missing: how good the optimiser has to be is not computed. -/
theorem run_selfConsistent_spin_partial (L : RunLib) (cfg : RunConfig) {m : ℕ} (a : AseAtoms m) (size ksize : Fin 3 → ℤ)
    (ne spin : ℤ) (H : Spec.AdmissibleRun L cfg a size ksize ne spin)
    (hC : Spec.Triangular L.qrC) (hR : Spec.Triangular L.qrR) (hxc : Spec.ContinuousXc L.xc cfg.xc)
    (heps : 0 < cfg.eps) (hspin : cfg.occupation = "simplex-projector" → cfg.restricted = true → spin = 0)
    (hg : cfg.occupation = "gamma" → ∀ i, ksize i ≤ 1)
    (A : Matrix (Fin 3) (Fin 3) ℝ) (hA : A = (angstrom2bohr : ℝ) • a.cell)
    (pos : Fin m → Fin 3 → ℝ) (hpos : ∀ i d, pos i d = angstrom2bohr * a.positions i d)
    (z : Fin m → ℝ) (hz : ∀ i, z i = a.numbers i) (he : 3 ≤ cfg.epoch) (hw : 2 ≤ cfg.window)
    {n kn : Fin 3 → ℕ} (hn : Spec.LeastGrid size n) (hkn : Spec.LeastGrid ksize kn)
    (mask : Idx n → Bool) (hmask : createFreqMask cfg A n = .ok mask)
    (ns nb : ℕ) (hns : ns = if cfg.restricted then 1 else 2) (hnb : nb = (ne.toNat + 1) / 2 + cfg.emptyBands)
    (X : (Fin ns → Idx n → ℝ) → ℝ) (hX : ∀ r, xcEnergy L.xc cfg.xc false r (gVectors A n) |A.det| = .ok (X r))
    (W : (Fin ns → Idx n → ℝ) → Fin ns → Idx n → ℝ)
    (hW : ∀ t (c : Coef ns (idxList kn).length nb n) occ e, Spec.GroundWithin 0 t cfg.eps mask ne spin cfg.restricted
      cfg.occupation (fun c occ e => totalEnergy L.xc c pos z (gVectors A n) (flatRows (kVectors A kn)) |A.det|
        (some occ) false cfg.xc = .ok e) c occ e →
      Spec.IsDensityGradient |A.det| X (densityGrid c |A.det| occ) (W (densityGrid c |A.det| occ)))
    (ham : (Idx n → ℝ) → Fin (idxList kn).length → Matrix (Fin (maskCount mask)) (Fin (maskCount mask)) ℂ)
    (hham : ham = fun U k => Spec.planeWaveHamiltonian (fun x => gVectors A n (maskPos mask x)) (rVectors A n) U
      (flatRows (kVectors A kn) k)) (δ : ℝ) (hδ : 0 < δ) :
    ∃ ε, 0 < ε ∧ ∀ opt : Optimizer, Spec.NearOptimizer ε opt →
      (∀ {ns nk g nb : ℕ} (f : GsParams ns nk g nb → Except PyErr ℝ) (p : GsParams ns nk g nb × opt.State),
        Spec.KeepsShape p.1.occ (opt.step f p).1.occ) →
      ∃ rep, runAtoms { L with optimizer := .ok opt } cfg a = .ok ⟨n, rep⟩ ∧
        (∃ i : ℕ, 0 < i ∧ (i : ℤ) < cfg.epoch ∧
          Spec.SelfConsistentNear (nb := nb) δ (temperature cfg.smearing cfg.epoch i) cfg.eps |A.det| mask ne spin
            cfg.restricted cfg.occupation (gVectors A n) ham
            (fun j => (externalPotential pos z (gVectors A n) |A.det| j).re) W rep.density) ∧
        (cfg.threshold ≤ 0 ∨ cfg.smearing ≤ 0 →
          Spec.SelfConsistentNear (nb := nb) δ (max cfg.smearing 0) cfg.eps |A.det| mask ne spin
            cfg.restricted cfg.occupation (gVectors A n) ham
            (fun j => (externalPotential pos z (gVectors A n) |A.det| j).re) W rep.density) := by
  have hdet : A.det ≠ 0 := by rw [hA]; exact fromAse_det a none H.cell
  have key : ∀ (t₀ t total parts : ℝ) (density : Σ S : ℕ, Fin S → Idx n → ℝ),
      Spec.ReportNear (ns := ns) (nk := (idxList kn).length) (nb := nb) δ t₀ t cfg.eps |A.det| mask ne spin
        cfg.restricted cfg.occupation (fun c occ e => totalEnergy L.xc c pos z (gVectors A n) (flatRows (kVectors A kn))
          |A.det| (some occ) false cfg.xc = .ok e) total parts density →
      Spec.SelfConsistentNear (nb := nb) δ t cfg.eps |A.det| mask ne spin cfg.restricted cfg.occupation (gVectors A n) ham
        (fun j => (externalPotential pos z (gVectors A n) |A.det| j).re) W density := by
    intro t₀ t total parts density h
    obtain ⟨c, occ, e, ρ, h1, -, h2, h3⟩ := h.parts
    refine ⟨c, occ, _, ρ, _, h1.physical, h2, rfl, h3, fun s => rfl, ?_⟩
    subst hham
    exact ground_kohnSham_spin L.xc cfg.xc pos z A hdet _ |A.det| (abs_pos.mpr hdet) X hX t cfg.eps heps mask ne spin
      cfg.restricted cfg.occupation c occ e h1 _ (hW t c occ e h1) _ (fun _ _ => rfl) _ (fun _ _ => rfl)
  obtain ⟨ε, hε, hlim⟩ := run_limit_partial L cfg a size ksize ne spin H hC hR hxc heps hspin hg A hA pos hpos z hz he hw
    hn hkn mask hmask ns nb hns hnb _ rfl δ hδ
  refine ⟨ε, hε, fun opt h1 h2 => ?_⟩
  obtain ⟨rep, h3, ⟨i, h4, h5, h6⟩, h7⟩ := hlim opt h1 h2
  exact ⟨rep, h3, ⟨i, h4, h5, key _ _ _ _ _ h6⟩, fun h => key _ _ _ _ _ (h7 h)⟩

/-- C127 for whole calculations of the norm-conserving driver.  Missing: as in `run_selfConsistent_spin_partial`. -/
theorem ncRun_selfConsistent_spin_partial (L : NcLib) (cfg : NcConfig) {m : ℕ} (a : AseAtoms m) (size ksize : Fin 3 → ℤ)
    (P : NcLists) (ne spin : ℤ) (H : Spec.AdmissibleRunNC L cfg a size ksize P ne spin)
    (hC : Spec.Triangular L.qrC) (hR : Spec.Triangular L.qrR) (hxc : Spec.ContinuousXc L.xc cfg.xc)
    (heps : 0 < cfg.eps) (hspin : cfg.occupation = "simplex-projector" → cfg.restricted = true → spin = 0)
    (hg : cfg.occupation = "gamma" → ∀ i, ksize i ≤ 1)
    (A : Matrix (Fin 3) (Fin 3) ℝ) (hA : A = (angstrom2bohr : ℝ) • a.cell)
    (pos : Fin m → Fin 3 → ℝ) (hpos : ∀ i d, pos i d = angstrom2bohr * a.positions i d)
    (he : 3 ≤ cfg.epoch) (hw : 2 ≤ cfg.window)
    {n kn : Fin 3 → ℕ} (hn : Spec.LeastGrid size n) (hkn : Spec.LeastGrid ksize kn)
    (mask : Idx n → Bool) (hmask : createFreqMask cfg.toRunConfig A n = .ok mask)
    (vloc : Idx n → ℂ)
    (hvloc : localReciprocal L.jn L.csLoc (ncLocalAtom P pos) (gVectors A n) |A.det| "sbt" = .ok vloc)
    (bs : List (BetaArr (idxList kn).length n)) (hbs : ncBetas L P (gVectors A n) (flatRows (kVectors A kn)) = .ok bs)
    (ns nb : ℕ) (hns : ns = if cfg.restricted then 1 else 2) (hnb : nb = (ne.toNat + 1) / 2 + cfg.emptyBands)
    (X : (Fin ns → Idx n → ℝ) → ℝ) (hX : ∀ r, xcEnergy L.xc cfg.xc false r (gVectors A n) |A.det| = .ok (X r))
    (W : (Fin ns → Idx n → ℝ) → Fin ns → Idx n → ℝ)
    (hW : ∀ t (c : Coef ns (idxList kn).length nb n) occ e, Spec.GroundWithin 0 t cfg.eps mask ne spin cfg.restricted
      cfg.occupation (Spec.EnergyNC L.xc cfg.xc vloc (nlPsiAll L.eigh L.sph (fun a : Fin m => ncSpecies P bs a) pos
        (gVectors A n) (flatRows (kVectors A kn))) (gVectors A n) (flatRows (kVectors A kn)) |A.det|) c occ e →
      Spec.IsDensityGradient |A.det| X (densityGrid c |A.det| occ) (W (densityGrid c |A.det| occ)))
    (ham : (Idx n → ℝ) → Fin (idxList kn).length → Matrix (Fin (maskCount mask)) (Fin (maskCount mask)) ℂ)
    (hham : ham = fun U k => Spec.planeWaveHamiltonian (fun x => gVectors A n (maskPos mask x)) (rVectors A n) U
      (flatRows (kVectors A kn) k) + Spec.projectorMatrix |A.det| (fun (i : (Σ a : Fin m, Fin (ncSpecies P bs a).nbeta) ×
        Fin (2 * nlLMax (fun a : Fin m => ncSpecies P bs a) + 1)) x => nlPsiAll L.eigh L.sph
        (fun a : Fin m => ncSpecies P bs a) pos (gVectors A n) (flatRows (kVectors A kn)) k i.1 i.2 (maskPos mask x)))
    (δ : ℝ) (hδ : 0 < δ) :
    ∃ ε, 0 < ε ∧ ∀ opt : Optimizer, Spec.NearOptimizer ε opt →
      (∀ {ns nk g nb : ℕ} (f : GsParams ns nk g nb → Except PyErr ℝ) (p : GsParams ns nk g nb × opt.State),
        Spec.KeepsShape p.1.occ (opt.step f p).1.occ) →
      ∃ rep, runAtomsNC { L with optimizer := .ok opt } cfg a = .ok ⟨n, rep⟩ ∧
        (∃ i : ℕ, 0 < i ∧ (i : ℤ) < cfg.epoch ∧
          Spec.SelfConsistentNear (nb := nb) δ (temperature cfg.smearing cfg.epoch i) cfg.eps |A.det| mask ne spin
            cfg.restricted cfg.occupation (gVectors A n) ham (fun j => (ifftn vloc j).re) W rep.density) ∧
        (cfg.threshold ≤ 0 ∨ cfg.smearing ≤ 0 →
          Spec.SelfConsistentNear (nb := nb) δ (max cfg.smearing 0) cfg.eps |A.det| mask ne spin
            cfg.restricted cfg.occupation (gVectors A n) ham (fun j => (ifftn vloc j).re) W rep.density) := by
  have hdet : A.det ≠ 0 := by rw [hA]; exact fromAse_det a none H.cell
  have key : ∀ (t₀ t total parts : ℝ) (density : Σ S : ℕ, Fin S → Idx n → ℝ),
      Spec.ReportNear (ns := ns) (nk := (idxList kn).length) (nb := nb) δ t₀ t cfg.eps |A.det| mask ne spin
        cfg.restricted cfg.occupation (Spec.EnergyNC L.xc cfg.xc vloc (nlPsiAll L.eigh L.sph
          (fun a : Fin m => ncSpecies P bs a) pos (gVectors A n) (flatRows (kVectors A kn))) (gVectors A n)
          (flatRows (kVectors A kn)) |A.det|) total parts density →
      Spec.SelfConsistentNear (nb := nb) δ t cfg.eps |A.det| mask ne spin cfg.restricted cfg.occupation (gVectors A n) ham
        (fun j => (ifftn vloc j).re) W density := by
    intro t₀ t total parts density h
    obtain ⟨c, occ, e, ρ, h1, -, h2, h3⟩ := h.parts
    refine ⟨c, occ, _, ρ, _, h1.physical, h2, rfl, h3, fun s => rfl, ?_⟩
    subst hham
    exact groundNC_kohnSham_spin L.xc cfg.xc vloc _ A hdet _ |A.det| (abs_pos.mpr hdet) X hX t cfg.eps heps mask ne spin
      cfg.restricted cfg.occupation c occ e h1 _ (hW t c occ e h1) _ (fun _ _ => rfl) _ (fun _ _ => rfl)
  obtain ⟨ε, hε, hlim⟩ := ncRun_limit_partial L cfg a size ksize P ne spin H hC hR hxc heps hspin hg A hA pos hpos he hw
    hn hkn mask hmask vloc hvloc bs hbs ns nb hns hnb _ rfl δ hδ
  refine ⟨ε, hε, fun opt h1 h2 => ?_⟩
  obtain ⟨rep, h3, ⟨i, h4, h5, h6⟩, h7⟩ := hlim opt h1 h2
  exact ⟨rep, h3, ⟨i, h4, h5, key _ _ _ _ _ h6⟩, fun h => key _ _ _ _ _ (h7 h)⟩

/-- A functional whose exchange energy per electron is minus the density. -/
private noncomputable def linearLib : XcLib := ⟨fun _ r => -r, fun _ _ _ => 0, fun _ _ _ => 0, fun _ _ _ _ _ _ => 0⟩

private theorem linearLib_continuous : Spec.ContinuousXc linearLib "lda_x" :=
  ⟨fun _ _ _ => continuousOn_id.neg, fun _ _ _ => continuousOn_const, fun _ _ _ => continuousOn_const,
      fun _ _ _ => continuousOn_const⟩

private theorem linearLib_derivative {n : Fin 3 → ℕ} (g : Idx n → Fin 3 → ℝ) (vol : ℝ) (X : (Fin 2 → Idx n → ℝ) → ℝ)
    (hX : ∀ r, xcEnergy linearLib "lda_x" false r g vol = .ok (X r)) (ρ : Fin 2 → Idx n → ℝ) :
    ∃ v, Spec.IsDensityGradient vol X ρ v := by
  have h1 : splitPlus "lda_x" = ["lda_x"] := by decide +kernel
  have h3 : isExchange "lda_x" = true := by decide +kernel
  refine ⟨_, xcEnergy_derivative_lda2 linearLib "lda_x" (by decide +kernel) g vol X hX ρ _ (fun x => rfl) fun j => ?_⟩
  simp only [excLda2, linearLib, h1, List.map_cons, List.map_nil, List.sum_cons, List.sum_nil, ldaPoint2, h3, if_true]
  fun_prop

/-- The hypotheses of `run_selfConsistent_spin_partial`, and so those of `ground_kohnSham_spin`, hold for the lithium
atom, which has two spin channels and three electrons: with a good enough optimiser the calculation without a
convergence test reports the density of a self-consistent state. -/
example {δ : ℝ} (hδ : 0 < δ) : ∃ (opt : Optimizer) (n kn : Fin 3 → ℕ) (mask : Idx n → Bool)
    (rep : GsReport EnergyParts n) (W : (Fin 2 → Idx n → ℝ) → Fin 2 → Idx n → ℝ),
    Spec.LeastGrid (fun _ => 4) n ∧ Spec.LeastGrid (fun _ => 2) kn ∧
    createFreqMask lithiumConfig ((angstrom2bohr : ℝ) • (1 : Matrix (Fin 3) (Fin 3) ℝ)) n = .ok mask ∧
    runAtoms { lithiumLib linearLib with
      qrC := gramSchmidtQR ℂ, qrR := gramSchmidtQR ℝ, optimizer := .ok opt } { lithiumConfig with threshold := 0 }
      (⟨fun _ => 3, 0, 1⟩ : AseAtoms 1) = .ok ⟨n, rep⟩ ∧
    Spec.SelfConsistentNear (ns := 2) (nk := (idxList kn).length) (nb := 2 + lithiumConfig.emptyBands) δ
      (max lithiumConfig.smearing 0) lithiumConfig.eps |((angstrom2bohr : ℝ) • (1 : Matrix (Fin 3) (Fin 3) ℝ)).det| mask 3 1
      false lithiumConfig.occupation (gVectors ((angstrom2bohr : ℝ) • 1) n)
      (fun U k => Spec.planeWaveHamiltonian (fun x => gVectors ((angstrom2bohr : ℝ) • 1) n (maskPos mask x))
        (rVectors ((angstrom2bohr : ℝ) • 1) n) U (flatRows (kVectors ((angstrom2bohr : ℝ) • 1) kn) k))
      (fun j => (externalPotential (fun (_ : Fin 1) _ => (angstrom2bohr : ℝ) * 0) (fun _ => ((3 : ℤ) : ℝ))
        (gVectors ((angstrom2bohr : ℝ) • 1) n) |((angstrom2bohr : ℝ) • (1 : Matrix (Fin 3) (Fin 3) ℝ)).det| j).re)
      W rep.density := by
  let L : RunLib := { lithiumLib linearLib with
      qrC := gramSchmidtQR ℂ, qrR := gramSchmidtQR ℝ, optimizer := .ok (nearOptimizer 1) }
  let cfg : RunConfig := { lithiumConfig with threshold := 0 }
  have H : Spec.AdmissibleRun L cfg (⟨fun _ => 3, 0, 1⟩ : AseAtoms 1) (fun _ => 4) (fun _ => 2) 3 1 :=
    { lithium_admissible linearLib with optimizer := ⟨nearOptimizer 1, rfl, nearOptimizer_keeps 1⟩ }
  obtain ⟨n, kn, -, mask, -, hn, hkn, hmask, -⟩ := run_history L cfg _ _ _ _ _ H (gramSchmidtQR_triangular ℂ)
    (gramSchmidtQR_triangular ℝ) linearLib_continuous (by norm_num [cfg, lithiumConfig])
    (fun _ h => absurd h (by decide)) (fun h => absurd h (by decide)) 1
    (fun o ho => by cases Except.ok.inj ho; exact nearOptimizer_near one_pos) _ rfl _ (fun _ _ => rfl) _ (fun _ => rfl)
  have hX : ∀ r : Fin 2 → Idx n → ℝ, xcEnergy linearLib "lda_x" false r (gVectors ((angstrom2bohr : ℝ) • 1) n)
    |((angstrom2bohr : ℝ) • (1 : Matrix (Fin 3) (Fin 3) ℝ)).det| = .ok _ := fun r => xcEnergy_value _ _ _ _ _
  choose W hW using linearLib_derivative _ _ _ hX
  obtain ⟨ε, hε, h⟩ := run_selfConsistent_spin_partial L cfg _ _ _ _ _ H (gramSchmidtQR_triangular ℂ)
    (gramSchmidtQR_triangular ℝ) linearLib_continuous (by norm_num [cfg, lithiumConfig])
    (fun _ h => absurd h (by decide)) (fun h => absurd h (by decide)) _ rfl _ (fun _ _ => rfl) _ (fun _ => rfl)
    (by decide) (by decide) hn hkn mask hmask 2 _ rfl rfl _ hX W (fun _ _ _ _ _ => hW _) _ rfl δ hδ
  obtain ⟨rep, h1, -, h2⟩ := h (nearOptimizer ε) (nearOptimizer_near hε) (nearOptimizer_keeps ε)
  exact ⟨_, n, kn, mask, rep, W, hn, hkn, hmask, h1, h2 (Or.inl le_rfl)⟩

private theorem spin_no_xc {ns : ℕ} {n : Fin 3 → ℕ} (rho : Fin ns → Idx n → ℝ) (g : Idx n → Fin 3 → ℝ) (vol : ℝ)
    (xt : String) :
    xcEnergy ⟨fun _ _ => 0, fun _ _ _ => 0, fun _ _ _ => 0, fun _ _ _ _ _ _ => 0⟩ xt false rho g vol = .ok 0 := by
  rw [xcEnergy_value]
  have h : ∀ j, excDensity ⟨fun _ _ => 0, fun _ _ _ => 0, fun _ _ _ => 0, fun _ _ _ _ _ _ => 0⟩ xt g rho j = 0 := by
    intro j
    unfold excDensity
    simp [excGga2, excGga1, excLda2, excLda1, ggaPoint2, ggaPoint1, ldaPoint2, ldaPoint1]
  simp [h]

private theorem spin_no_nuclei {ns : ℕ} {n : Fin 3 → ℕ} (rho : Fin ns → Idx n → ℂ) (pos : Fin 0 → Fin 3 → ℝ)
    (charge : Fin 0 → ℝ) (g : Idx n → Fin 3 → ℝ) (vol : ℝ) : externalEnergy rho pos charge g vol = .ok 0 := by
  rw [externalEnergy_eq]
  simp [structureFactor]

private theorem spin_total_trained (c : Coef 2 1 2 ![2, 1, 1]) (occ : Occ 2 1 2) :
    ∃ har, hartreeEnergy (densityGridReciprocal c 1 occ) (gVectors 1 ![2, 1, 1]) 1 false = .ok har ∧
      totalEnergy trainedTwoWaves.lib c trainedTwoWaves.pos trainedTwoWaves.charge trainedTwoWaves.g
        trainedTwoWaves.kpts trainedTwoWaves.vol (some occ) false trainedTwoWaves.xc
        = .ok (kineticEnergyOcc (gVectors 1 ![2, 1, 1]) (fun _ _ => 0) c occ + har) := by
  obtain ⟨har, hh⟩ : ∃ h, hartreeEnergy (densityGridReciprocal c 1 occ) (gVectors 1 ![2, 1, 1]) 1 false = .ok h :=
    ⟨_, hartreeEnergy_eq _ _ _ _⟩
  refine ⟨har, hh, ?_⟩
  unfold totalEnergy totalEnergySplit
  simp only [waveToDensity_eq, waveToDensityReciprocal_eq, occOrOnes]
  simp only [trainedTwoWaves, spin_no_nuclei, spin_no_xc, hh]
  simp

/-- The hypotheses of `ground_lowest_spin_partial` are met: one electron in the first of two bands of each of two spin
channels, with two plane waves. -/
example : ∃ (c : Coef 2 1 2 ![2, 1, 1]) (occ : Occ 2 1 2) (X : (Fin 2 → Idx ![2, 1, 1] → ℝ) → ℝ)
    (v : Fin 2 → Idx ![2, 1, 1] → ℝ), 0 < trainedTwoWaves.vol ∧ trainedTwoWaves.g = gVectors 1 ![2, 1, 1] ∧
    (∀ r, xcEnergy trainedTwoWaves.lib trainedTwoWaves.xc false r (gVectors 1 ![2, 1, 1]) trainedTwoWaves.vol = .ok (X r)) ∧
    Spec.GroundWithin 0 0 1e-8 (fun _ => true) 2 0 false "idempotent"
      (fun c occ e => totalEnergy trainedTwoWaves.lib c trainedTwoWaves.pos trainedTwoWaves.charge trainedTwoWaves.g
        trainedTwoWaves.kpts trainedTwoWaves.vol (some occ) false trainedTwoWaves.xc = .ok e) c occ 0 ∧
    Spec.IsDensityGradient trainedTwoWaves.vol X (densityGrid c trainedTwoWaves.vol occ) v ∧
    (∀ s, occ s 0 1 = 0) ∧ Function.Injective (fun _ : Fin 1 => (0 : Fin 2)) ∧
    ∀ s b, 0 < occ s 0 b ↔ ∃ i : Fin 1, (fun _ : Fin 1 => (0 : Fin 2)) i = b := by
  let c : Coef 2 1 2 ![2, 1, 1] := fun _ _ b x => if x = twoPoint rfl b then 1 else 0
  let occ : Occ 2 1 2 := fun _ _ b => if b = 0 then 1 else 0
  have hnn : ∀ s k b, 0 ≤ occ s k b := fun s k b => by simp only [occ]; split_ifs <;> norm_num
  refine ⟨c, occ, fun _ => 0, 0, by norm_num [trainedTwoWaves], rfl, fun r => spin_no_xc _ _ _ _,
    ⟨⟨fun s k i j => ?_, fun s k b x hx => (by cases hx), rfl, hnn, fun s k b => ?_, ?_, ?_⟩, ?_,
      fun h => absurd h (by decide), fun c' occ' e' hp _ he => ?_⟩, ?_, fun s => if_neg (by decide),
    Function.injective_of_subsingleton _, fun s b => ?_⟩
  · have : ∀ x, conj (c s k i x) * c s k j x = if x = twoPoint rfl i then (if i = j then 1 else 0) else 0 := by
      intro x
      simp only [c]
      by_cases h : x = twoPoint rfl i
      · subst h
        simp only [if_true, map_one, one_mul, twoPoint_inj]
      · simp [h]
    rw [Finset.sum_congr rfl fun x _ => this x, Finset.sum_ite_eq' Finset.univ (twoPoint rfl i)]
    simp
  · have : Spec.kShare "idempotent" 1 * Spec.pauli false = 1 := by simp [Spec.kShare, Spec.pauli]
    rw [this]
    simp only [occ]
    split_ifs <;> norm_num
  · simp [occ]
  · intro s s' _ _
    simp [occ]
  · obtain ⟨har, hh, ht⟩ := spin_total_trained c occ
    rw [ht]
    have hk : kineticEnergyOcc (gVectors 1 ![2, 1, 1]) (fun _ _ => 0) c occ = 0 := by
      rw [(kinetic_nonneg _ _ _ _ hnn).2]
      intro s k b x ho hc d
      have hb : b = 0 := by
        by_contra h
        exact ho (if_neg h)
      have hx : x = twoPoint rfl b := by
        by_contra h
        exact hc (if_neg h)
      rw [hx, gVectors_zero 1 ![2, 1, 1] (twoPoint rfl b) fun i => by
        unfold twoPoint
        simp [hb]]
      simp
    have hd : densityGridReciprocal c 1 occ
        = fun s => fftn fun j => (((fun _ _ => 0 : Fin 2 → Idx ![2, 1, 1] → ℝ) s j + (fun _ => 1 : Fin 2 → ℝ) s : ℝ) : ℂ) := by
      funext s
      unfold densityGridReciprocal
      congr 1
      funext j
      congr 1
      rw [densityGrid_expansion 1 (by simp) c 1 one_pos]
      have h1 : ∀ b : Fin 2, ‖∑ x, c s 0 b x * Complex.exp (Complex.I * ((Spec.dot (gVectors 1 ![2, 1, 1] x)
          (rVectors 1 ![2, 1, 1] j) : ℝ) : ℂ))‖ ^ 2 = 1 := by
        intro b
        rw [Finset.sum_eq_single (twoPoint rfl b)]
        · simp only [c]
          rw [if_pos trivial, one_mul, mul_comm Complex.I, Complex.norm_exp_ofReal_mul_I, one_pow]
        · intro x _ hx
          simp only [c]
          rw [if_neg hx, zero_mul]
        · intro h; exact absurd (Finset.mem_univ _) h
      simp only [Fin.sum_univ_one, Fin.isValue, h1]
      simp [occ]
    have hz : har = 0 := by
      rw [hd, hartree_constant, hartreeEnergy_eq] at hh
      have := Except.ok.inj hh
      rw [← this]
      simp [fftn_eq]
    rw [hk, hz, add_zero]
  · obtain ⟨har, h1, h2⟩ := spin_total_trained c' occ'
    obtain ⟨har', h3, h4, -⟩ := hartree_nonneg 1 (by simp) (n := ![2, 1, 1])
      (fun i => by fin_cases i <;> decide) (densityGridReciprocal c' 1 occ') 1 one_pos false
    have h5 := (kinetic_nonneg (gVectors 1 ![2, 1, 1]) (fun _ _ => 0) c' occ' hp.nonneg).1
    have h6 : e' = _ := Except.ok.inj (he.symm.trans h2)
    have h7 : har = har' := Except.ok.inj (h1.symm.trans h3)
    rw [h6, h7]
    linarith
  · intro r d _ _
    simpa [Spec.cellIntegral] using hasDerivAt_const (0 : ℝ) (0 : ℝ)
  · simp only [occ]
    fin_cases b <;> simp

end Jrystal
