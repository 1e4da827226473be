import Verif.Props.FermiLevel
import Verif.Props.KohnShamNC
import Verif.Props.BandOpt
import Verif.Props.BandRun
import Verif.Props.BandRunNC

/- C102: the occupied bands of a ground state are the lowest bands of the band calculation. -/
namespace Jrystal
open scoped BigOperators ComplexConjugate
open KohnSham Matrix

private theorem wave_gather {nk : ℕ} {n : Fin 3 → ℕ} (mask : Idx n → Bool) (v : Idx n → ℂ)
    (hv : ∀ x, mask x = false → v x = 0) :
    expandCoefficient mask (gatherMask mask (fun (_ : Fin 1) (_ : Fin nk) (_ : Fin 1) => v))
      = fun (_ : Fin 1) (_ : Fin nk) (_ : Fin 1) => v :=
  (gather_expand mask).2 _ fun _ _ _ x hx => hv x hx

private theorem one_form {N : ℕ} (F : Matrix (Fin N) (Fin N) ℂ) (u : Fin N → ℂ) (U : Matrix (Fin N) (Fin 1) ℂ)
    (hU : ∀ G, U G 0 = u G) : (Uᴴ * F * U) 0 0 = star u ⬝ᵥ (F *ᵥ u) := by
  rw [Matrix.mul_assoc, Matrix.mul_apply]
  refine Finset.sum_congr rfl fun G _ => ?_
  rw [Matrix.conjTranspose_apply, hU, Pi.star_apply, Matrix.mul_apply]
  congr 1
  exact Finset.sum_congr rfl fun G' _ => by rw [hU]

/-- The Hamiltonian between plane waves is the textbook one. -/
private theorem basis_textbook (lib : XcLib) (xt : String) {na : ℕ} {n : Fin 3 → ℕ} (mask : Idx n → Bool)
    (pos : Fin na → Fin 3 → ℝ) (charge : Fin na → ℝ) (dens : Fin 1 → Idx n → ℝ)
    (A : Matrix (Fin 3) (Fin 3) ℝ) (hA : A.det ≠ 0) (k : Fin 3 → ℝ) (vol : ℝ) (hvol : 0 < vol)
    (V : Fin 1 → Idx n → ℝ) (hV : Spec.KohnShamPotential lib xt pos charge (gVectors A n) vol dens V) :
    hamiltonianMatrixBasis lib xt true mask pos charge dens (gVectors A n) k vol
      = .ok (Spec.planeWaveHamiltonian (fun a => gVectors A n (maskPos mask a)) (rVectors A n) (V 0) k) := by
  obtain ⟨H, h1, h2⟩ := hamiltonianMatrixBasis_elements lib xt true A hA mask pos charge dens k
    vol hvol 1 _ (effectivePotential_channels lib xt dens pos charge (gVectors A n) vol).1
  rw [h1]
  congr 1
  ext a b
  rw [h2, Fin.sum_univ_one]
  unfold Spec.planeWaveHamiltonian
  congr 2
  refine Finset.sum_congr rfl fun x _ => ?_
  rw [hV]
  rfl

/-- C102: the occupied bands of a ground state (no smearing) are the lowest bands of the crystal.  Take a k point at
which a band is empty, and the `m` occupied bands there, listed by `σ`.  The eigenvalues `mu` of what
`hamiltonian_matrix` returns for the ground state, restricted to the occupied bands, are the lowest `m` eigenvalues
`lam` of the textbook Hamiltonian on all selected plane waves with the Kohn-Sham potential of the density of the
state: the levels that the band calculation finds at this k point (C91).  One spin channel, LDA, occupations that
are optimised.  Missing: two channels and GGA, where ground states do not solve the Kohn-Sham equations of the
Hamiltonian of the code (`totalEnergy_derivative_polarised_wrong`, `vxc_gga_derivative_wrong`). -/
theorem ground_lowest_partial (lib : XcLib) (xt : String) (hg : pyIn "gga" xt = false)
    {nk nb na : ℕ} {n : Fin 3 → ℕ} (pos : Fin na → Fin 3 → ℝ) (charge : Fin na → ℝ)
    (A : Matrix (Fin 3) (Fin 3) ℝ) (hA : A.det ≠ 0) (kpts : Fin nk → Fin 3 → ℝ) (vol : ℝ) (hvol : 0 < vol)
    (eps : ℝ) (heps : 0 < eps) (mask : Idx n → Bool)
    (ne spin : ℤ) (method : String) (hm : ¬ (method = "uniform" ∨ method = "gamma"))
    (c : Coef 1 nk nb n) (occ : Occ 1 nk nb) (e : ℝ)
    (h : Spec.GroundWithin 0 0 eps mask ne spin true method
      (fun c occ e => totalEnergy lib c pos charge (gVectors A n) kpts vol (some occ) false xt = .ok e) c occ e)
    (hd : ∀ j, ∀ x ∈ splitPlus xt, DifferentiableAt ℝ (lib.lda x) (densityGrid c vol occ 0 j))
    (V : Fin 1 → Idx n → ℝ)
    (hV : Spec.KohnShamPotential lib xt pos charge (gVectors A n) vol (densityGrid c vol occ) V)
    (k : Fin nk) (b : Fin nb) (hb : occ 0 k b = 0) {m : ℕ} (σ : Fin m → Fin nb) (hσ : Function.Injective σ)
    (hrange : ∀ b, 0 < occ 0 k b ↔ ∃ i, σ i = b) :
    ∃ (H : Matrix (Fin nb) (Fin nb) ℂ) (hm : m ≤ maskCount mask),
      hamiltonianMatrix lib xt true c pos charge (densityGrid c vol occ) (gVectors A n) kpts vol 0 k = .ok H ∧
      ∀ mu lam, Spec.IsSpectrum (H.submatrix σ σ) mu →
        Spec.IsSpectrum (Spec.planeWaveHamiltonian (fun a => gVectors A n (maskPos mask a)) (rVectors A n) (V 0)
          (kpts k)) lam → ∀ j, mu j = lam (Fin.castLE hm j) := by
  have hc : expandCoefficient mask (gatherMask mask c) = c := (gather_expand mask).2 c h.physical.selected
  have hbasis := basis_textbook lib xt mask pos charge (densityGrid c vol occ) A hA (kpts k) vol hvol V hV
  set F := Spec.planeWaveHamiltonian (fun a => gVectors A n (maskPos mask a)) (rVectors A n) (V 0) (kpts k) with hFdef
  have hF : F.IsHermitian := planeWaveHamiltonian_hermitian _ _ _ _
  have hcomp : ∀ {nb' : ℕ} (c' : Coef 1 nk nb' n), expandCoefficient mask (gatherMask mask c') = c' →
      hamiltonianMatrix lib xt true c' pos charge (densityGrid c vol occ) (gVectors A n) kpts vol 0 k
        = .ok ((Matrix.of (gatherMask mask c' 0 k))ᴴ * F * Matrix.of (gatherMask mask c' 0 k)) := by
    intro nb' c' hc'
    obtain ⟨F', h1, -, h2⟩ := hamiltonianMatrix_compress lib xt true mask (gatherMask mask c') pos charge
      (densityGrid c vol occ) (gVectors A n) kpts vol k
    obtain rfl : F' = F := Except.ok.inj (h1.symm.trans hbasis)
    have := h2 0
    rw [hc'] at this
    exact this
  obtain ⟨F', H, h1, h2, h3, h4⟩ := ground_kohnSham_partial lib xt hg pos charge (gVectors A n) kpts vol 0 eps mask ne
    spin method c occ e h hd
  have hF' : F' k = F := Except.ok.inj ((h1 k).symm.trans hbasis)
  have hH : H k = (Matrix.of (gatherMask mask c 0 k))ᴴ * F * Matrix.of (gatherMask mask c 0 k) :=
    Except.ok.inj ((h2 k).symm.trans (hcomp c hc))
  have hE : ∀ (c : Coef 1 nk nb n) occ e,
      totalEnergy lib c pos charge (gVectors A n) kpts vol (some occ) false xt = .ok e ↔ _ :=
    totalEnergy_sqForm lib xt hg pos charge (gVectors A n) kpts vol
  have hmain : ∀ {lam : Fin (maskCount mask) → ℝ}, Spec.IsSpectrum F lam → ∀ {mu : Fin m → ℝ},
      Spec.IsSpectrum (((Matrix.of (gatherMask mask c 0 k))ᴴ * F * Matrix.of (gatherMask mask c 0 k)).submatrix
        σ σ) mu → ∃ hm : m ≤ maskCount mask, ∀ j, mu j = lam (Fin.castLE hm j) := by
    intro lam hlam mu hmu
    refine lowest_waves lib xt hg _ (gVectors A n) vol _ _ hE hm heps h hd k b hb F ?_ ?_ ?_ hlam σ hσ hrange hmu
    · intro v hv
      obtain ⟨Hv, hv2, hv3⟩ := hamiltonian_diag lib xt pos charge (gVectors A n) kpts vol
        (fun (_ : Fin 1) (_ : Fin nk) (_ : Fin 1) => v) (densityGrid c vol occ)
      have h5 := Except.ok.inj ((hv2 k).symm.trans (hcomp _ (wave_gather mask v hv)))
      have h6 := hv3 k 0
      rw [h5, one_form F (fun G => v (maskPos mask G)) _ fun G => rfl, kinetic_sqForm] at h6
      rw [h6]
      rfl
    · intro b hb G
      rw [← hH, Matrix.mul_apply, Matrix.mul_apply, ← hF']
      refine (h3 k b hb G).trans ?_
      exact Finset.sum_congr rfl fun a _ => mul_comm _ _
    · intro a b hab
      rw [← hH]
      exact h4 k a b hab
  obtain ⟨lam₀, hlam₀⟩ := planeWaveHamiltonian_spectrum (fun a => gVectors A n (maskPos mask a)) (rVectors A n) (V 0)
    (kpts k)
  obtain ⟨mu₀, hmu₀⟩ : ∃ mu, Spec.IsSpectrum (((Matrix.of (gatherMask mask c 0 k))ᴴ * F
      * Matrix.of (gatherMask mask c 0 k)).submatrix σ σ) mu := by
    refine exists_spectrum (Matrix.IsHermitian.submatrix ?_ σ)
    unfold Matrix.IsHermitian
    rw [Matrix.conjTranspose_mul, Matrix.conjTranspose_mul, Matrix.conjTranspose_conjTranspose, hF.eq, Matrix.mul_assoc]
  refine ⟨_, (hmain hlam₀ hmu₀).1, hcomp c hc, fun mu lam hmu hlam j => ?_⟩
  obtain ⟨_, h5⟩ := hmain hlam hmu
  exact h5 j

/-- C102, valence electrons: the same for the Hermitian part of the Hamiltonian of the norm-conserving code and the
textbook Hamiltonian with the projectors.  Missing: as in `ground_lowest_partial`. -/
theorem groundNC_lowest_partial (lib : XcLib) (xt : String) (hg : pyIn "gga" xt = false)
    {nk nb M : ℕ} {ι : Type} [Fintype ι] {n : Fin 3 → ℕ} (mask : Idx n → Bool) (vloc : Idx n → ℂ)
    (psi : Fin nk → ι → Fin M → Idx n → ℂ) (A : Matrix (Fin 3) (Fin 3) ℝ) (hA : A.det ≠ 0)
    (kpts : Fin nk → Fin 3 → ℝ) (vol : ℝ) (hvol : 0 < vol) (eps : ℝ) (heps : 0 < eps) (ne spin : ℤ)
    (method : String) (hm : ¬ (method = "uniform" ∨ method = "gamma"))
    (c : Coef 1 nk nb n) (occ : Occ 1 nk nb) (e : ℝ)
    (h : Spec.GroundWithin 0 0 eps mask ne spin true method
      (Spec.EnergyNC lib xt vloc psi (gVectors A n) kpts vol) c occ e)
    (hd : ∀ j, ∀ x ∈ splitPlus xt, DifferentiableAt ℝ (lib.lda x) (densityGrid c vol occ 0 j))
    (V : Fin 1 → Idx n → ℝ)
    (hV : Spec.KohnShamPotentialNC lib xt vloc (gVectors A n) (densityGrid c vol occ) V)
    (k : Fin nk) (b : Fin nb) (hb : occ 0 k b = 0) {m : ℕ} (σ : Fin m → Fin nb) (hσ : Function.Injective σ)
    (hrange : ∀ b, 0 < occ 0 k b ↔ ∃ i, σ i = b) :
    ∃ (H : Fin 1 → Fin nk → Fin nb → Fin nb → ℂ) (hm : m ≤ maskCount mask),
      ncHamiltonianMatrix lib xt true c (densityGrid c vol occ) vloc psi (gVectors A n) kpts vol = .ok ⟨nk, H⟩ ∧
      ∀ mu lam, Spec.IsSpectrum (((1 / 2 : ℂ) • (Matrix.of (H 0 k) + (Matrix.of (H 0 k))ᴴ)).submatrix σ σ) mu →
        Spec.IsSpectrum (Spec.planeWaveHamiltonian (fun a => gVectors A n (maskPos mask a)) (rVectors A n) (V 0) (kpts k)
          + Spec.projectorMatrix vol (fun (i : ι × Fin M) a => psi k i.1 i.2 (maskPos mask a))) lam →
        ∀ j, mu j = lam (Fin.castLE hm j) := by
  have hc : expandCoefficient mask (gatherMask mask c) = c := (gather_expand mask).2 c h.physical.selected
  set F := Spec.planeWaveHamiltonian (fun a => gVectors A n (maskPos mask a)) (rVectors A n) (V 0) (kpts k)
    + Spec.projectorMatrix vol (fun (i : ι × Fin M) a => psi k i.1 i.2 (maskPos mask a)) with hFdef
  have hF : F.IsHermitian := (planeWaveHamiltonian_hermitian _ _ _ _).add (projectorMatrix_hermitian _ _)
  obtain ⟨H, h2, h3, h4⟩ := groundNC_kohnSham_partial lib xt hg mask vloc psi A hA kpts vol hvol 0 eps ne
    spin method c occ e h hd (V 0) (hV 0)
    (fun k => Spec.planeWaveHamiltonian (fun a => gVectors A n (maskPos mask a)) (rVectors A n) (V 0) (kpts k)
      + Spec.projectorMatrix vol (fun (i : ι × Fin M) a => psi k i.1 i.2 (maskPos mask a))) (fun _ => rfl)
  have hcomp : ∀ {nb' : ℕ} (c' : Coef 1 nk nb' n), expandCoefficient mask (gatherMask mask c') = c' → ∀ H',
      ncHamiltonianMatrix lib xt true c' (densityGrid c vol occ) vloc psi (gVectors A n) kpts vol = .ok ⟨nk, H'⟩ →
      (1 / 2 : ℂ) • (Matrix.of (H' 0 k) + (Matrix.of (H' 0 k))ᴴ)
        = (Matrix.of (gatherMask mask c' 0 k))ᴴ * F * Matrix.of (gatherMask mask c' 0 k) := by
    intro nb' c' hc' H' hH'
    obtain ⟨H'', h5, h6⟩ := ncHamiltonian_elements_partial lib xt true c' (densityGrid c vol occ) vloc psi
      (gVectors A n) kpts vol (Or.inl rfl)
    have : H' = H'' := by
      have := Except.ok.inj (hH'.symm.trans h5)
      simpa using this
    subst this
    refine ncMatrix_compress mask (gatherMask mask c') psi A hA vol hvol _ (V 0) (hV 0) (kpts k) 0 k (H' 0 k) ?_
    rw [hc']
    exact fun i j => h6 0 k i j
  have hH := hcomp c hc H h2
  have hHab : ∀ a b, (H 0 k a b + conj (H 0 k b a)) / 2
      = ((Matrix.of (gatherMask mask c 0 k))ᴴ * F * Matrix.of (gatherMask mask c 0 k)) a b := by
    intro a b
    rw [← hH, Matrix.smul_apply, Matrix.add_apply, Matrix.conjTranspose_apply, Matrix.of_apply, Matrix.of_apply,
      smul_eq_mul, RCLike.star_def]
    ring
  have hE : ∀ (c : Coef 1 nk nb n) occ e, Spec.EnergyNC lib xt vloc psi (gVectors A n) kpts vol c occ e ↔ _ :=
    energyNC_sqForm lib xt hg vloc psi (gVectors A n) kpts vol
  have hmain : ∀ {lam : Fin (maskCount mask) → ℝ}, Spec.IsSpectrum F lam → ∀ {mu : Fin m → ℝ},
      Spec.IsSpectrum (((Matrix.of (gatherMask mask c 0 k))ᴴ * F * Matrix.of (gatherMask mask c 0 k)).submatrix
        σ σ) mu → ∃ hm : m ≤ maskCount mask, ∀ j, mu j = lam (Fin.castLE hm j) := by
    intro lam hlam mu hmu
    refine lowest_waves lib xt hg _ (gVectors A n) vol _ _ hE hm heps h hd k b hb F ?_ ?_ ?_ hlam σ hσ hrange hmu
    · intro v hv
      obtain ⟨Hv, hv2, hv3⟩ := ncHamiltonian_diag lib xt vloc psi (gVectors A n) kpts vol
        (fun (_ : Fin 1) (_ : Fin nk) (_ : Fin 1) => v) (densityGrid c vol occ)
      have h5 := congrArg Complex.re (congrFun (congrFun (hcomp _ (wave_gather mask v hv) Hv hv2) 0) 0)
      have h6 := hv3 k 0
      rw [one_form F (fun G => v (maskPos mask G)) _ fun G => rfl] at h5
      rw [← h5]
      rw [kinetic_sqForm, nonlocal_sqForm, ← sqForm_elim] at h6
      refine Eq.trans h6.symm ?_
      change _ = ((1 / 2 : ℂ) * (Hv 0 k 0 0 + conj (Hv 0 k 0 0))).re
      rw [Complex.add_conj, show (1 / 2 : ℂ) = ((1 / 2 : ℝ) : ℂ) by norm_num, ← Complex.ofReal_mul, Complex.ofReal_re]
      ring_nf
    · intro b hb G
      rw [Matrix.mul_apply, Matrix.mul_apply]
      refine (h3 k b hb G).trans ?_
      refine Finset.sum_congr rfl fun a _ => ?_
      rw [hHab, mul_comm]
      rfl
    · intro a b hab
      rw [← hHab]
      exact h4 k a b hab
  obtain ⟨lam₀, hlam₀⟩ := exists_spectrum hF
  obtain ⟨mu₀, hmu₀⟩ : ∃ mu, Spec.IsSpectrum (((Matrix.of (gatherMask mask c 0 k))ᴴ * F
      * Matrix.of (gatherMask mask c 0 k)).submatrix σ σ) mu := by
    refine exists_spectrum (Matrix.IsHermitian.submatrix ?_ σ)
    unfold Matrix.IsHermitian
    rw [Matrix.conjTranspose_mul, Matrix.conjTranspose_mul, Matrix.conjTranspose_conjTranspose, hF.eq, Matrix.mul_assoc]
  refine ⟨H, (hmain hlam₀ hmu₀).1, h2, fun mu lam hmu hlam j => ?_⟩
  rw [hH] at hmu
  obtain ⟨_, h5⟩ := hmain hlam hmu
  exact h5 j

/-- The hypotheses of `ground_lowest_partial` are met: two electrons in the first of two bands made of two plane
waves. -/
example : ∃ (c : Coef 1 1 2 ![2, 1, 1]) (occ : Occ 1 1 2) (V : Fin 1 → Idx ![2, 1, 1] → ℝ),
    Spec.GroundWithin 0 0 1e-8 (fun _ => true) 2 0 true "idempotent"
      (fun c occ e => totalEnergy trainedTwoWaves.lib c trainedTwoWaves.pos trainedTwoWaves.charge
        (gVectors 1 ![2, 1, 1]) trainedTwoWaves.kpts 1 (some occ) false trainedTwoWaves.xc = .ok e) c occ 0 ∧
    (∀ j, ∀ x ∈ splitPlus trainedTwoWaves.xc,
      DifferentiableAt ℝ (trainedTwoWaves.lib.lda x) (densityGrid c 1 occ 0 j)) ∧
    Spec.KohnShamPotential trainedTwoWaves.lib trainedTwoWaves.xc trainedTwoWaves.pos trainedTwoWaves.charge
      (gVectors 1 ![2, 1, 1]) 1 (densityGrid c 1 occ) V ∧
    occ 0 0 1 = 0 ∧ Function.Injective (fun _ : Fin 1 => (0 : Fin 2)) ∧
    ∀ b, 0 < occ 0 0 b ↔ ∃ i : Fin 1, (fun _ : Fin 1 => (0 : Fin 2)) i = b := by
  obtain ⟨c, occ, h1, h2, h3⟩ := twoWaves_ground
  refine ⟨c, occ, _, h3, fun j x _ => differentiableAt_const _, fun _ _ => rfl, h2, Function.injective_of_subsingleton _,
    fun b => ?_⟩
  fin_cases b
  · exact ⟨fun _ => ⟨0, rfl⟩, fun _ => by show 0 < occ 0 0 0; rw [h1]; norm_num⟩
  · refine ⟨fun h => ?_, fun ⟨_, h⟩ => absurd (show (0 : Fin 2) = 1 from h) (by decide)⟩
    change 0 < occ 0 0 1 at h
    rw [h2] at h
    exact absurd h (lt_irrefl _)

/-- C102 for whole calculations: with an optimiser of the bands that gets within `δ`, and no smearing, a
spin-restricted all-electron band calculation whose first stage found a ground state saves, at every point of its
path that is also a k point of the ground-state calculation with an empty band, energies within `δ` of the occupied
levels of that ground state.  Missing: as in `ground_lowest_partial`; and first stages that end near a ground state
but not in one. -/
theorem bandRun_lowest_partial (L : RunLib) (T : BandTools) (cfg : RunConfig) (b : BandConfig) {m : ℕ}
    (a : AseAtoms m) (size ksize : Fin 3 → ℤ) (ne spin : ℤ) {num : ℕ} {frac : Matrix (Fin num) (Fin 3) ℝ}
    (H : Spec.AdmissibleBand L T cfg b a size ksize ne spin num frac) (hr : cfg.restricted = true)
    (hC : Spec.Triangular L.qrC) (hR : Spec.Triangular L.qrR) (hxc : Spec.ContinuousXc L.xc cfg.xc)
    (hgga : pyIn "gga" cfg.xc = false) (heps : 0 < cfg.eps) (hcold : cfg.smearing ≤ 0)
    (hspin : cfg.occupation = "simplex-projector" → spin = 0)
    (hm : ¬ (cfg.occupation = "uniform" ∨ cfg.occupation = "gamma"))
    (ε : ℝ) (hopt : ∀ opt, L.optimizer = .ok opt → Spec.NearOptimizer ε opt)
    (δ : ℝ) (hband : ∀ opt, T.optimizer = .ok opt → Spec.NearBandOptimizer δ opt)
    (he : 0 < b.epoch) (hf : 0 < b.fineEpoch)
    (A : Matrix (Fin 3) (Fin 3) ℝ) (hA : A = (angstrom2bohr : ℝ) • a.cell)
    (pos : Fin m → Fin 3 → ℝ) (hpos : ∀ i d, pos i d = angstrom2bohr * a.positions i d)
    (z : Fin m → ℝ) (hz : ∀ i, z i = a.numbers i)
    (k : Fin num → Fin 3 → ℝ) (hk : Spec.HasCoordinates A frac k) :
    ∃ n kn, ∃ mask : Idx n → Bool, ∃ nb0, ∃ c : Coef 1 (idxList kn).length nb0 n, ∃ occ e values,
      Spec.LeastGrid size n ∧ Spec.LeastGrid ksize kn ∧ createFreqMask cfg A n = .ok mask ∧
      Spec.GroundWithin ε 0 cfg.eps mask ne spin true cfg.occupation
        (fun c occ e => totalEnergy L.xc c pos z (gVectors A n) (flatRows (kVectors A kn)) |A.det| (some occ)
          false cfg.xc = .ok e) c occ e ∧
      bandAtoms L T cfg b a = .ok ⟨String.join (List.ofFn fun i => T.symbol (a.numbers i)) ++ "_band_structure.npy",
        1, num, (ne.toNat + 1) / 2 + b.emptyBands, values⟩ ∧
      (Spec.GroundWithin 0 0 cfg.eps mask ne spin true cfg.occupation
        (fun c occ e => totalEnergy L.xc c pos z (gVectors A n) (flatRows (kVectors A kn)) |A.det| (some occ)
          false cfg.xc = .ok e) c occ e →
        (∀ j, ∀ x ∈ splitPlus cfg.xc, DifferentiableAt ℝ (L.xc.lda x) (densityGrid c |A.det| occ 0 j)) →
        ∀ (i : Fin (idxList kn).length) (q : Fin num), k q = flatRows (kVectors A kn) i →
        ∀ b₀, occ 0 i b₀ = 0 →
        ∀ {m' : ℕ} (σ : Fin m' → Fin nb0), Function.Injective σ → (∀ b, 0 < occ 0 i b ↔ ∃ l, σ l = b) →
        ∃ M, hamiltonianMatrix L.xc cfg.xc true c pos z (densityGrid c |A.det| occ) (gVectors A n)
            (flatRows (kVectors A kn)) |A.det| 0 i = .ok M ∧
          ∀ mu, Spec.IsSpectrum (M.submatrix σ σ) mu →
          ∀ s (j : Fin m') (hj : (j : ℕ) < (ne.toNat + 1) / 2 + b.emptyBands),
            mu j ≤ values s q ⟨j, hj⟩ ∧ values s q ⟨j, hj⟩ ≤ mu j + δ) := by
  obtain ⟨n, kn, mask, nb0, j, c, occ, e, values, h1, h2, h3, h4, h5, h6, h7, hb, h8⟩ := bandRun_ground_state_partial L T
    cfg b a size ksize ne spin H hr hC hR hxc heps hspin (fun h => absurd (Or.inr h) hm) ε hopt δ hband he hf A hA
    pos hpos z hz k hk
  have ht : temperature cfg.smearing cfg.epoch j = 0 := if_neg (not_lt.mpr hcold)
  rw [ht] at h6
  have hdet : A.det ≠ 0 := by
    rw [hA]
    exact fromAse_det a cfg.spin H.cell
  refine ⟨n, kn, mask, nb0, c, occ, e, values, h1, h2, h3, h6, h7, fun h6 hd i q hq b₀ hb₀ m' σ hσ hrange => ?_⟩
  obtain ⟨V, hV⟩ : ∃ V : Fin 1 → Idx n → ℝ,
      Spec.KohnShamPotential L.xc cfg.xc pos z (gVectors A n) |A.det| (densityGrid c |A.det| occ) V :=
    ⟨_, fun _ _ => rfl⟩
  obtain ⟨M, hle, hM, hlow⟩ := ground_lowest_partial L.xc cfg.xc hgga pos z A hdet (flatRows (kVectors A kn)) |A.det|
    (abs_pos.mpr hdet) cfg.eps heps mask ne spin cfg.occupation hm c occ e h6 hd V hV i b₀ hb₀ σ hσ hrange
  refine ⟨M, hM, fun mu hmu s j hj => ?_⟩
  obtain ⟨lam, hlam⟩ := planeWaveHamiltonian_spectrum (fun a => gVectors A n (maskPos mask a)) (rVectors A n) (V 0) (k q)
  have h9 := h8 V hV s q lam hlam ⟨j, hj⟩
  rw [hq] at hlam
  rw [hlow mu lam hmu hlam j]
  exact h9

end Jrystal
