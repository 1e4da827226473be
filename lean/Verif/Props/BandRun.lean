import Verif.Spec.BandRun
import Verif.Props.BandOpt
import Verif.Props.GroundState

/- C90 and C91: a whole all-electron band-structure calculation. -/
namespace Jrystal
open scoped BigOperators ComplexConjugate
open Matrix RunSetup

/-- What a successful ground-state calculation went through. -/
theorem runAtoms_inv (L : RunLib) (cfg : RunConfig) {m : ℕ} (a : AseAtoms m) {n : Fin 3 → ℕ}
    {rep : GsReport EnergyParts n} (h : runAtoms L cfg a = .ok ⟨n, rep⟩) :
    createCrystal a cfg.spin = .ok (Crystal.fromAse a cfg.spin) ∧
      ∃ kn, runSizes cfg = .ok (n, kn) ∧ runGrid L cfg (Crystal.fromAse a cfg.spin) n kn = .ok rep := by
  unfold runAtoms createCrystal at h
  unfold createCrystal
  simp only at h ⊢
  cases hc : checkSpinNumber (Crystal.fromAse a cfg.spin).numElectron (Crystal.fromAse a cfg.spin).spin with
  | error e => rw [hc] at h; cases h
  | ok u =>
    rw [hc] at h
    simp only at h ⊢
    refine ⟨trivial, ?_⟩
    unfold runCrystal at h
    cases hs : runSizes cfg with
    | error e => rw [hs] at h; cases h
    | ok nn =>
      obtain ⟨n', kn⟩ := nn
      rw [hs] at h
      simp only at h
      cases hg : runGrid L cfg (Crystal.fromAse a cfg.spin) n' kn with
      | error e => rw [hg] at h; cases h
      | ok r =>
        rw [hg] at h
        simp only [Except.ok.injEq, Sigma.mk.injEq] at h
        obtain ⟨rfl, h⟩ := h
        exact ⟨kn, rfl, hg.trans (congrArg _ (eq_of_heq h))⟩

/-- The path of the driver consists of the k points with the fractional coordinates of ase. -/
theorem coordinates_eq {q : ℕ} {A : Matrix (Fin 3) (Fin 3) ℝ} (hA : A.det ≠ 0)
    {frac : Matrix (Fin q) (Fin 3) ℝ} {k : Fin q → Fin 3 → ℝ} (h : Spec.HasCoordinates A frac k) :
    (fun i => getKPath (fun _ => frac) A false i) = k := by
  have hu : IsUnit A.det := isUnit_iff_ne_zero.2 hA
  rw [getKPath_cartesian _ _ hA]
  have h1 : Matrix.of k * Aᵀ = (2 * Real.pi) • frac := by
    ext i l
    rw [Matrix.mul_apply, Matrix.smul_apply, smul_eq_mul, ← h i l]
    rfl
  have h2 : Matrix.of k = (2 * Real.pi) • (frac * (A⁻¹)ᵀ) := by
    have := congrArg (fun M => M * (A⁻¹)ᵀ) h1
    simp only [Matrix.mul_assoc, ← Matrix.transpose_mul, nonsing_inv_mul _ hu, Matrix.transpose_one,
      Matrix.mul_one, Matrix.smul_mul] at this
    exact this
  have h3 : frac * reciprocalVectors A = Matrix.of k := by
    rw [h2]
    unfold reciprocalVectors
    rw [Matrix.mul_smul]
  simp only [h3]
  rfl

/-- There are k points with given fractional coordinates. -/
theorem coordinates_exist {q : ℕ} {A : Matrix (Fin 3) (Fin 3) ℝ} (hA : A.det ≠ 0)
    (frac : Matrix (Fin q) (Fin 3) ℝ) : ∃ k, Spec.HasCoordinates A frac k := by
  have hu : IsUnit A.det := isUnit_iff_ne_zero.2 hA
  refine ⟨fun i => ((2 * Real.pi) • (frac * (A⁻¹)ᵀ)) i, fun i l => ?_⟩
  have h : ((2 * Real.pi) • (frac * (A⁻¹)ᵀ)) * Aᵀ = (2 * Real.pi) • frac := by
    rw [Matrix.smul_mul, Matrix.mul_assoc, ← Matrix.transpose_mul, mul_nonsing_inv _ hu, Matrix.transpose_one,
      Matrix.mul_one]
  exact congrFun (congrFun h i) l

/-- What an admissible band calculation has built when the optimisation of the orbitals starts. -/
theorem bandAtoms_setup (L : RunLib) (T : BandTools) (cfg : RunConfig) (b : BandConfig) {m : ℕ} (a : AseAtoms m)
    (size ksize : Fin 3 → ℤ) (ne spin : ℤ) {num : ℕ} {frac : Matrix (Fin num) (Fin 3) ℝ}
    (H : Spec.AdmissibleBand L T cfg b a size ksize ne spin num frac)
    (k : Fin num → Fin 3 → ℝ) (hk : Spec.HasCoordinates ((angstrom2bohr : ℝ) • a.cell) frac k)
    {n : Fin 3 → ℕ} {rep : GsReport EnergyParts n} (hrun : runAtoms L cfg a = .ok ⟨n, rep⟩)
    {mask : Idx n → Bool} (hmask : createFreqMask cfg ((angstrom2bohr : ℝ) • a.cell) n = .ok mask)
    (hn : Spec.LeastGrid size n) :
    ∃ opt, T.optimizer = .ok opt ∧ ((angstrom2bohr : ℝ) • a.cell).det ≠ 0 ∧
      (ne.toNat + 1) / 2 + b.emptyBands ≤ maskCount mask ∧
      ∃ p0, ∀ (r : ℕ → ℕ → ℕ → ℝ),
        bandCalc (bandRunEnv L T cfg (Crystal.fromAse a cfg.spin) n mask rep.density.2) num num L.devices
          b.parallelPath (bandUpdate opt (ns := if cfg.restricted then 1 else 2) (nb := (ne.toNat + 1) / 2 + b.emptyBands)
            (bandRunEnv L T cfg (Crystal.fromAse a cfg.spin) n mask rep.density.2)) b.epoch b.fineEpoch
          (p0, opt.init p0) (pathAt k) = .ok r →
        bandAtoms L T cfg b a = .ok ⟨String.join (List.ofFn fun i => T.symbol (a.numbers i)) ++ "_band_structure.npy",
          if cfg.restricted then 1 else 2, num, (ne.toNat + 1) / 2 + b.emptyBands, fun s q j => r s q j⟩ := by
  obtain ⟨hc, kn, hs, hg⟩ := runAtoms_inv L cfg a hrun
  obtain ⟨opt, hopt⟩ := H.bandOptimizer
  have hdet : ((angstrom2bohr : ℝ) • a.cell).det ≠ 0 := by
    rw [Matrix.det_smul]
    refine mul_ne_zero (pow_ne_zero _ ?_) H.cell
    norm_num [angstrom2bohr]
  have hw := H.bandWaves n hn mask hmask
  rw [← maskCount_card] at hw
  have hne : (Crystal.fromAse a cfg.spin).numElectron = ne := H.electrons.symm
  subst hne
  refine ⟨opt, hopt, hdet, hw, L.pwDraw (if cfg.restricted then 1 else 2) 1 (maskCount mask) _, fun r hr => ?_⟩
  unfold bandAtoms
  rw [hc]
  simp only
  unfold bandCrystal
  simp only [hs]
  have hm' : createFreqMask cfg (Crystal.fromAse a cfg.spin).cell n = .ok mask := hmask
  simp only [hm']
  have hp : bandPoints T b (Crystal.fromAse a cfg.spin).cell = .ok ⟨num, k⟩ := by
    unfold bandPoints
    rw [H.number]
    have := H.path
    rw [show (Crystal.fromAse a cfg.spin).cell = (angstrom2bohr : ℝ) • a.cell from rfl, this]
    simp only [coordinates_eq hdet hk]
  simp only [hp]
  unfold bandGrid
  simp only [hg, hopt, H.number, Option.getD_some]
  rw [show bandCalc (bandRunEnv L T cfg (Crystal.fromAse a cfg.spin) n mask rep.density.2) num num L.devices
      b.parallelPath (bandUpdate opt (bandRunEnv L T cfg (Crystal.fromAse a cfg.spin) n mask rep.density.2)) b.epoch
      b.fineEpoch (L.pwDraw (if cfg.restricted then 1 else 2) 1
        (maskCount (bandRunEnv L T cfg (Crystal.fromAse a cfg.spin) n mask rep.density.2).mask)
        (driverBands (Crystal.fromAse a cfg.spin).numElectron.toNat b.emptyBands), opt.init (L.pwDraw (if cfg.restricted then 1 else 2) 1
        (maskCount (bandRunEnv L T cfg (Crystal.fromAse a cfg.spin) n mask rep.density.2).mask)
        (driverBands (Crystal.fromAse a cfg.spin).numElectron.toNat b.emptyBands))) (pathAt k) = .ok r from hr]
  rfl

private theorem pathAt_fin {X : Type*} [Inhabited X] {q : ℕ} (path : Fin q → X) (i : Fin q) :
    pathAt path i = path i := dif_pos i.2

/-- C90, for every spin setting: an admissible band calculation succeeds and saves, under the name made of the
symbols of the atoms, one array of the requested numbers of k points and bands for each spin.  Entries ascend
with the band and are upper bounds of the eigenvalues, at their own k point, of the sum of the Hamiltonians of
the density channels; they are exact for a complete set of bands. -/
theorem bandRun_channels (L : RunLib) (T : BandTools) (cfg : RunConfig) (b : BandConfig) {m : ℕ} (a : AseAtoms m)
    (size ksize : Fin 3 → ℤ) (ne spin : ℤ) {num : ℕ} {frac : Matrix (Fin num) (Fin 3) ℝ}
    (H : Spec.AdmissibleBand L T cfg b a size ksize ne spin num frac)
    (A : Matrix (Fin 3) (Fin 3) ℝ) (hA : A = (angstrom2bohr : ℝ) • a.cell)
    (pos : Fin m → Fin 3 → ℝ) (hpos : ∀ i d, pos i d = angstrom2bohr * a.positions i d)
    (z : Fin m → ℝ) (hz : ∀ i, z i = a.numbers i)
    (k : Fin num → Fin 3 → ℝ) (hk : Spec.HasCoordinates A frac k) :
    ∃ n rep, ∃ mask : Idx n → Bool, ∃ values,
      runAtoms L cfg a = .ok ⟨n, rep⟩ ∧ Spec.LeastGrid size n ∧ createFreqMask cfg A n = .ok mask ∧
      bandAtoms L T cfg b a = .ok ⟨String.join (List.ofFn fun i => T.symbol (a.numbers i)) ++ "_band_structure.npy",
        if cfg.restricted then 1 else 2, num, (ne.toNat + 1) / 2 + b.emptyBands, values⟩ ∧
      ∃ hb : (ne.toNat + 1) / 2 + b.emptyBands ≤ maskCount mask,
        ∀ V, Spec.KohnShamPotential L.xc cfg.xc pos z (gVectors A n) |A.det| rep.density.2 V →
        ∀ s q lam, Spec.IsSpectrum (∑ σ, Spec.planeWaveHamiltonian (fun i => gVectors A n (maskPos mask i))
          (rVectors A n) (V σ) (k q)) lam →
          Monotone (values s q) ∧ (∀ j, lam (Fin.castLE hb j) ≤ values s q j) ∧
          ((ne.toNat + 1) / 2 + b.emptyBands = maskCount mask → ∀ j, values s q j = lam (Fin.castLE hb j)) := by
  obtain ⟨n, kn, rep, mask, hrun, hn, -, hmask, -⟩ := run_energy_partial L cfg a size ksize ne spin
    H.toAdmissibleRun A hA pos hpos z hz
  subst hA
  obtain rfl : pos = fun i d => (angstrom2bohr : ℝ) * a.positions i d := funext fun i => funext fun d => hpos i d
  obtain rfl : z = fun i => (a.numbers i : ℝ) := funext hz
  obtain ⟨opt, -, hdet, hw, p0, hsave⟩ := bandAtoms_setup L T cfg b a size ksize ne spin H k hk hrun hmask hn
  obtain ⟨r, h1, h2⟩ := bandCalc_channels (bandRunEnv L T cfg (Crystal.fromAse a cfg.spin) n mask rep.density.2)
    ((angstrom2bohr : ℝ) • a.cell) hdet rfl (vol_pos (Crystal.fromAse a cfg.spin) hdet) _ (fun _ _ => rfl) hw num L.devices b.parallelPath H.parallel
    (Nat.mod_eq_zero_of_dvd H.share) (bandUpdate opt _) b.epoch b.fineEpoch (p0, opt.init p0) (pathAt k)
  refine ⟨n, rep, mask, fun s q j => r s q j, hrun, hn, hmask, hsave r h1, hw, fun V hV s q lam hl => ?_⟩
  obtain rfl : V = fun σ x => (hartreeRealSpace rep.density.2 (gVectors ((angstrom2bohr : ℝ) • a.cell) n) true x
    + externalPotential (fun i d => (angstrom2bohr : ℝ) * a.positions i d) (fun i => (a.numbers i : ℝ)) (gVectors ((angstrom2bohr : ℝ) • a.cell) n)
      |((angstrom2bohr : ℝ) • a.cell).det| x
    + vxcDensity L.xc cfg.xc (gVectors ((angstrom2bohr : ℝ) • a.cell) n) rep.density.2 σ x).re :=
    funext fun σ => funext fun x => hV σ x
  have hl' := hl
  rw [← pathAt_fin k q] at hl'
  obtain ⟨g1, g2, g3⟩ := h2 s s.2 q q.2 lam hl'
  exact ⟨fun j j' hj => g2 j j' hj j'.2, fun j => g1 j j.2, fun hc j => g3 hc j j.2⟩

/-- C90 (part): a spin-restricted admissible band calculation saves upper bounds of the Kohn-Sham eigenvalues of
the density of the ground-state calculation, in ascending order at every k point, which are exact for a complete
set of bands.  Missing: spin-unrestricted calculations, where the bounds are those of `bandRun_channels`. -/
theorem bandRun_complete_partial (L : RunLib) (T : BandTools) (cfg : RunConfig) (b : BandConfig) {m : ℕ}
    (a : AseAtoms m) (size ksize : Fin 3 → ℤ) (ne spin : ℤ) {num : ℕ} {frac : Matrix (Fin num) (Fin 3) ℝ}
    (H : Spec.AdmissibleBand L T cfg b a size ksize ne spin num frac) (hr : cfg.restricted = true)
    (A : Matrix (Fin 3) (Fin 3) ℝ) (hA : A = (angstrom2bohr : ℝ) • a.cell)
    (pos : Fin m → Fin 3 → ℝ) (hpos : ∀ i d, pos i d = angstrom2bohr * a.positions i d)
    (z : Fin m → ℝ) (hz : ∀ i, z i = a.numbers i)
    (k : Fin num → Fin 3 → ℝ) (hk : Spec.HasCoordinates A frac k) :
    ∃ n rep, ∃ mask : Idx n → Bool, ∃ dens values,
      runAtoms L cfg a = .ok ⟨n, rep⟩ ∧ rep.density = ⟨1, dens⟩ ∧ Spec.LeastGrid size n ∧
      createFreqMask cfg A n = .ok mask ∧
      bandAtoms L T cfg b a = .ok ⟨String.join (List.ofFn fun i => T.symbol (a.numbers i)) ++ "_band_structure.npy",
        1, num, (ne.toNat + 1) / 2 + b.emptyBands, values⟩ ∧
      ∃ hb : (ne.toNat + 1) / 2 + b.emptyBands ≤ maskCount mask,
        ∀ V : Fin 1 → Idx n → ℝ, Spec.KohnShamPotential L.xc cfg.xc pos z (gVectors A n) |A.det| dens V →
        ∀ s q lam, Spec.IsSpectrum (Spec.planeWaveHamiltonian (fun i => gVectors A n (maskPos mask i))
          (rVectors A n) (V 0) (k q)) lam →
          Monotone (values s q) ∧ (∀ j, lam (Fin.castLE hb j) ≤ values s q j) ∧
          ((ne.toNat + 1) / 2 + b.emptyBands = maskCount mask → ∀ j, values s q j = lam (Fin.castLE hb j)) := by
  obtain ⟨n', rep', hrun', -, hone, -⟩ := run_complete_partial L cfg a size ksize ne spin H.toAdmissibleRun
  obtain ⟨n, rep, mask, values, hrun, hn, hmask, hband, hb, hval⟩ := bandRun_channels L T cfg b a size ksize ne spin
    H A hA pos hpos z hz k hk
  rw [hrun] at hrun'
  obtain ⟨rfl, hrep⟩ := Sigma.mk.inj (Except.ok.inj hrun')
  obtain rfl := eq_of_heq hrep
  have hS : (if cfg.restricted = true then 1 else 2) = 1 := by rw [hr]; rfl
  rw [hS] at hone
  generalize (if cfg.restricted = true then 1 else 2) = S' at *
  subst hS
  obtain ⟨parts, ew, total, S, dens⟩ := rep
  obtain rfl : S = 1 := hone
  refine ⟨n, _, mask, dens, values, hrun, rfl, hn, hmask, hband, hb, fun V hV s q lam hl => hval V hV s q lam ?_⟩
  rw [Fin.sum_univ_one]
  exact hl

/-- C90, the rest of the property is false: in a spin-unrestricted calculation whose two density channels make
the same potential, the saved entries bound twice the Kohn-Sham eigenvalues, and are twice the eigenvalues for a
complete set of bands. -/
theorem bandRun_doubled (L : RunLib) (T : BandTools) (cfg : RunConfig) (b : BandConfig) {m : ℕ}
    (a : AseAtoms m) (size ksize : Fin 3 → ℤ) (ne spin : ℤ) {num : ℕ} {frac : Matrix (Fin num) (Fin 3) ℝ}
    (H : Spec.AdmissibleBand L T cfg b a size ksize ne spin num frac) (hr : cfg.restricted = false)
    (A : Matrix (Fin 3) (Fin 3) ℝ) (hA : A = (angstrom2bohr : ℝ) • a.cell)
    (pos : Fin m → Fin 3 → ℝ) (hpos : ∀ i d, pos i d = angstrom2bohr * a.positions i d)
    (z : Fin m → ℝ) (hz : ∀ i, z i = a.numbers i)
    (k : Fin num → Fin 3 → ℝ) (hk : Spec.HasCoordinates A frac k) :
    ∃ n rep, ∃ mask : Idx n → Bool, ∃ dens values,
      runAtoms L cfg a = .ok ⟨n, rep⟩ ∧ rep.density = ⟨2, dens⟩ ∧ createFreqMask cfg A n = .ok mask ∧
      bandAtoms L T cfg b a = .ok ⟨String.join (List.ofFn fun i => T.symbol (a.numbers i)) ++ "_band_structure.npy",
        2, num, (ne.toNat + 1) / 2 + b.emptyBands, values⟩ ∧
      ∃ hb : (ne.toNat + 1) / 2 + b.emptyBands ≤ maskCount mask,
        ∀ V : Fin 2 → Idx n → ℝ, Spec.KohnShamPotential L.xc cfg.xc pos z (gVectors A n) |A.det| dens V →
        V 1 = V 0 →
        ∀ s q lam, Spec.IsSpectrum (Spec.planeWaveHamiltonian (fun i => gVectors A n (maskPos mask i))
          (rVectors A n) (V 0) (k q)) lam →
          (∀ j, 2 * lam (Fin.castLE hb j) ≤ values s q j) ∧
          ((ne.toNat + 1) / 2 + b.emptyBands = maskCount mask → ∀ j, values s q j = 2 * lam (Fin.castLE hb j)) := by
  obtain ⟨n', rep', hrun', -, htwo, -⟩ := run_complete_partial L cfg a size ksize ne spin H.toAdmissibleRun
  obtain ⟨n, rep, mask, values, hrun, hn, hmask, hband, hb, hval⟩ := bandRun_channels L T cfg b a size ksize ne spin
    H A hA pos hpos z hz k hk
  rw [hrun] at hrun'
  obtain ⟨rfl, hrep⟩ := Sigma.mk.inj (Except.ok.inj hrun')
  obtain rfl := eq_of_heq hrep
  have hS : (if cfg.restricted = true then 1 else 2) = 2 := by rw [hr]; rfl
  rw [hS] at htwo
  generalize (if cfg.restricted = true then 1 else 2) = S' at *
  subst hS
  obtain ⟨parts, ew, total, S, dens⟩ := rep
  obtain rfl : S = 2 := htwo
  refine ⟨n, _, mask, dens, values, hrun, rfl, hmask, hband, hb, fun V hV hVV s q lam hl => ?_⟩
  have hl2 : Spec.IsSpectrum (∑ σ, Spec.planeWaveHamiltonian (fun i => gVectors A n (maskPos mask i))
      (rVectors A n) (V σ) (k q)) fun j => 2 * lam j := by
    rw [Fin.sum_univ_two, hVV, ← two_smul ℂ]
    obtain ⟨hmono, U, hU, hH⟩ := hl
    refine ⟨fun i j hij => mul_le_mul_of_nonneg_left (hmono hij) (by norm_num), U, hU, ?_⟩
    have hd : Matrix.diagonal (fun i => ((2 * lam i : ℝ) : ℂ)) = (2 : ℂ) • Matrix.diagonal fun i => (lam i : ℂ) := by
      rw [← Matrix.diagonal_smul]
      congr 1
      funext i
      simp
    rw [hd, Matrix.mul_smul, Matrix.smul_mul, ← hH]
  obtain ⟨-, h1, h2⟩ := hval V hV s q _ hl2
  exact ⟨h1, h2⟩

/-- C91 (part): with an optimiser that gets within `ε` of the minimum, at least one step per k point and a QR
factorisation, every entry of the file of a spin-restricted band calculation is within `ε` of the exact
Kohn-Sham eigenvalue of the density of the ground-state calculation.  Missing: spin-unrestricted calculations,
where the entries belong to the sum of the Hamiltonians (`bandRun_doubled`). -/
theorem bandRun_near_partial (L : RunLib) (T : BandTools) (cfg : RunConfig) (b : BandConfig) {m : ℕ}
    (a : AseAtoms m) (size ksize : Fin 3 → ℤ) (ne spin : ℤ) {num : ℕ} {frac : Matrix (Fin num) (Fin 3) ℝ}
    (H : Spec.AdmissibleBand L T cfg b a size ksize ne spin num frac) (hr : cfg.restricted = true)
    (hC : Spec.Triangular L.qrC) (ε : ℝ) (hopt : ∀ opt, T.optimizer = .ok opt → Spec.NearBandOptimizer ε opt)
    (he : 0 < b.epoch) (hf : 0 < b.fineEpoch)
    (A : Matrix (Fin 3) (Fin 3) ℝ) (hA : A = (angstrom2bohr : ℝ) • a.cell)
    (pos : Fin m → Fin 3 → ℝ) (hpos : ∀ i d, pos i d = angstrom2bohr * a.positions i d)
    (z : Fin m → ℝ) (hz : ∀ i, z i = a.numbers i)
    (k : Fin num → Fin 3 → ℝ) (hk : Spec.HasCoordinates A frac k) :
    ∃ n rep, ∃ mask : Idx n → Bool, ∃ dens values,
      runAtoms L cfg a = .ok ⟨n, rep⟩ ∧ rep.density = ⟨1, dens⟩ ∧ Spec.LeastGrid size n ∧
      createFreqMask cfg A n = .ok mask ∧
      bandAtoms L T cfg b a = .ok ⟨String.join (List.ofFn fun i => T.symbol (a.numbers i)) ++ "_band_structure.npy",
        1, num, (ne.toNat + 1) / 2 + b.emptyBands, values⟩ ∧
      ∃ hb : (ne.toNat + 1) / 2 + b.emptyBands ≤ maskCount mask,
        ∀ V : Fin 1 → Idx n → ℝ, Spec.KohnShamPotential L.xc cfg.xc pos z (gVectors A n) |A.det| dens V →
        ∀ s q lam, Spec.IsSpectrum (Spec.planeWaveHamiltonian (fun i => gVectors A n (maskPos mask i))
          (rVectors A n) (V 0) (k q)) lam →
          ∀ j, lam (Fin.castLE hb j) ≤ values s q j ∧ values s q j ≤ lam (Fin.castLE hb j) + ε := by
  obtain ⟨n, kn, rep, mask, hrun, hn, -, hmask, -⟩ := run_energy_partial L cfg a size ksize ne spin
    H.toAdmissibleRun A hA pos hpos z hz
  obtain ⟨n', rep', hrun', -, hone, -⟩ := run_complete_partial L cfg a size ksize ne spin H.toAdmissibleRun
  rw [hrun] at hrun'
  obtain ⟨rfl, hrep⟩ := Sigma.mk.inj (Except.ok.inj hrun')
  obtain rfl := eq_of_heq hrep
  subst hA
  obtain rfl : pos = fun i d => (angstrom2bohr : ℝ) * a.positions i d := funext fun i => funext fun d => hpos i d
  obtain rfl : z = fun i => (a.numbers i : ℝ) := funext hz
  obtain ⟨opt, hopteq, hdet, hw, p0, hsave⟩ := bandAtoms_setup L T cfg b a size ksize ne spin H k hk hrun hmask hn
  have hS : (if cfg.restricted = true then 1 else 2) = 1 := by rw [hr]; rfl
  rw [hS] at hone
  generalize (if cfg.restricted = true then 1 else 2) = S' at *
  subst hS
  obtain ⟨parts, ew, total, S, dens⟩ := rep
  obtain rfl : S = 1 := hone
  obtain ⟨r, h1, h2⟩ := bandCalc_near_partial (bandRunEnv L T cfg (Crystal.fromAse a cfg.spin) n mask dens)
    (fun w _ => by obtain ⟨R, -, h⟩ := hC w; exact ⟨R, h⟩)
    ((angstrom2bohr : ℝ) • a.cell) hdet rfl (vol_pos (Crystal.fromAse a cfg.spin) hdet) _ (fun _ => rfl) hw num
    L.devices b.parallelPath H.parallel H.points (Nat.mod_eq_zero_of_dvd H.share) (bandUpdate opt _) ε
    (fun q p => hopt opt hopteq _ p) b.epoch b.fineEpoch he hf (p0, opt.init p0) (pathAt k)
  refine ⟨n, _, mask, dens, fun s q j => r s q j, hrun, rfl, hn, hmask, hsave r h1, hw, fun V hV s q lam hl j => ?_⟩
  have e : V 0 = fun x => (hartreeRealSpace dens (gVectors ((angstrom2bohr : ℝ) • a.cell) n) true x
    + externalPotential (fun i d => (angstrom2bohr : ℝ) * a.positions i d) (fun i => (a.numbers i : ℝ)) (gVectors ((angstrom2bohr : ℝ) • a.cell) n)
      |((angstrom2bohr : ℝ) • a.cell).det| x
    + vxcDensity L.xc cfg.xc (gVectors ((angstrom2bohr : ℝ) • a.cell) n) dens 0 x).re := funext fun x => hV 0 x
  rw [e, ← pathAt_fin k q] at hl
  exact h2 s s.2 q q.2 lam hl j j.2

/-- C91 (part), everything together: with optimisers that get within `ε` and `δ` of their minima, a
spin-restricted band calculation saves energies within `δ` of the Kohn-Sham eigenvalues of the density of a
state whose free energy is within `ε` of the lowest one. -/
theorem bandRun_ground_state_partial (L : RunLib) (T : BandTools) (cfg : RunConfig) (b : BandConfig) {m : ℕ}
    (a : AseAtoms m) (size ksize : Fin 3 → ℤ) (ne spin : ℤ) {num : ℕ} {frac : Matrix (Fin num) (Fin 3) ℝ}
    (H : Spec.AdmissibleBand L T cfg b a size ksize ne spin num frac) (hr : cfg.restricted = true)
    (hC : Spec.Triangular L.qrC) (hR : Spec.Triangular L.qrR) (hxc : Spec.ContinuousXc L.xc cfg.xc)
    (heps : 0 < cfg.eps) (hspin : cfg.occupation = "simplex-projector" → spin = 0)
    (hg : cfg.occupation = "gamma" → ∀ i, ksize i ≤ 1)
    (ε : ℝ) (hopt : ∀ opt, L.optimizer = .ok opt → Spec.NearOptimizer ε opt)
    (δ : ℝ) (hband : ∀ opt, T.optimizer = .ok opt → Spec.NearBandOptimizer δ opt)
    (he : 0 < b.epoch) (hf : 0 < b.fineEpoch)
    (A : Matrix (Fin 3) (Fin 3) ℝ) (hA : A = (angstrom2bohr : ℝ) • a.cell)
    (pos : Fin m → Fin 3 → ℝ) (hpos : ∀ i d, pos i d = angstrom2bohr * a.positions i d)
    (z : Fin m → ℝ) (hz : ∀ i, z i = a.numbers i)
    (k : Fin num → Fin 3 → ℝ) (hk : Spec.HasCoordinates A frac k) :
    ∃ n kn, ∃ mask : Idx n → Bool, ∃ nb0 j, ∃ c : Coef 1 (idxList kn).length nb0 n, ∃ occ e values,
      Spec.LeastGrid size n ∧ Spec.LeastGrid ksize kn ∧ createFreqMask cfg A n = .ok mask ∧
      nb0 = (ne.toNat + 1) / 2 + cfg.emptyBands ∧ j < cfg.epoch.toNat ∧
      Spec.GroundWithin ε (temperature cfg.smearing cfg.epoch j) cfg.eps mask ne spin true cfg.occupation
        (fun c occ e => totalEnergy L.xc c pos z (gVectors A n) (flatRows (kVectors A kn)) |A.det| (some occ)
          false cfg.xc = .ok e) c occ e ∧
      bandAtoms L T cfg b a = .ok ⟨String.join (List.ofFn fun i => T.symbol (a.numbers i)) ++ "_band_structure.npy",
        1, num, (ne.toNat + 1) / 2 + b.emptyBands, values⟩ ∧
      ∃ hb : (ne.toNat + 1) / 2 + b.emptyBands ≤ maskCount mask,
        ∀ V : Fin 1 → Idx n → ℝ,
          Spec.KohnShamPotential L.xc cfg.xc pos z (gVectors A n) |A.det| (densityGrid c |A.det| occ) V →
        ∀ s q lam, Spec.IsSpectrum (Spec.planeWaveHamiltonian (fun i => gVectors A n (maskPos mask i))
          (rVectors A n) (V 0) (k q)) lam →
          ∀ j, lam (Fin.castLE hb j) ≤ values s q j ∧ values s q j ≤ lam (Fin.castLE hb j) + δ := by
  obtain ⟨n, kn, rep, mask, h1, h2, h3, h4, ns, nb, h5, ⟨j, c, occ, hj, hG, hd⟩, -⟩ := run_ground_state L cfg a size
    ksize ne spin H.toAdmissibleRun hC hR hxc heps (fun h _ => hspin h) hg ε hopt A hA pos hpos z hz
  obtain ⟨n', rep', mask', dens, values, g1, g2, -, g4, g5, hb, g6⟩ := bandRun_near_partial L T cfg b a size ksize ne
    spin H hr hC δ hband he hf A hA pos hpos z hz k hk
  rw [h1] at g1
  obtain ⟨rfl, hrep⟩ := Sigma.mk.inj (Except.ok.inj g1)
  obtain rfl := eq_of_heq hrep
  rw [h4] at g4
  obtain rfl := Except.ok.inj g4
  rw [hd.1] at g2
  obtain ⟨rfl, hdd⟩ := Sigma.mk.inj g2
  obtain rfl := eq_of_heq hdd
  rw [hr] at hG
  exact ⟨n, kn, mask, nb, j, c, occ, _, values, h2, h3, h4, h5, hj, hG, g5, hb, g6⟩

/-- C90: the geometry of a band run, as of a ground-state run (`run_geometry`). -/
theorem bandRun_geometry (L : RunLib) (T : BandTools) (cfg : RunConfig) (b : BandConfig) {m : ℕ}
    (a : AseAtoms m) :
    (∀ name, cfg.crystal = some name → L.read (some (L.pkgPath ++ "/geometry/" ++ name ++ ".xyz")) = .ok ⟨m, a⟩ →
      bandRun L T cfg b = bandAtoms L T cfg b a) ∧
    (cfg.crystal = none → L.read cfg.crystalFile = .ok ⟨m, a⟩ → bandRun L T cfg b = bandAtoms L T cfg b a) := by
  constructor
  · intro name h hr
    unfold bandRun crystalPath
    rw [h]
    simp only [hr]
  · intro h hr
    unfold bandRun crystalPath
    rw [h]
    simp only [hr]

private theorem bandAll_inv {P κ : Type*} {N devices : ℕ} {parallel : Bool} {ns nb num nout : ℕ}
    {first fine : P → κ → P} {eig : P → κ → (ℕ → ℕ → ℝ)} {p0 : P} {path : ℕ → κ} {r : ℕ → ℕ → ℕ → ℝ}
    (h : bandAllElectrons N devices parallel ns nb num nout first fine eig p0 path = .ok r) :
    N % devices = 0 ∧ (parallel = true ∨ devices ≤ 1) ∧ N * ns * nb = num * ns * nout := by
  unfold bandAllElectrons at h
  simp only at h
  by_cases h1 : N % devices ≠ 0
  · rw [if_pos h1] at h; cases h
  rw [if_neg h1] at h
  by_cases h2 : (if parallel = true then devices else 1) < devices
  · rw [if_pos h2] at h; cases h
  rw [if_neg h2] at h
  by_cases h3 : N * ns * nb ≠ num * ns * nout
  · rw [if_pos h3] at h; cases h
  refine ⟨not_not.1 h1, ?_, not_not.1 h3⟩
  cases parallel with
  | true => exact Or.inl rfl
  | false => exact Or.inr (not_lt.1 h2)

private theorem points_le {q ns G nb num : ℕ} (h : q * ns * min G nb = num * ns * nb) (hb : 0 < nb) (hs : 0 < ns) :
    num ≤ q := by
  by_contra hlt
  have h1 : q * ns * min G nb ≤ q * ns * nb := Nat.mul_le_mul_left _ (min_le_right _ _)
  have h2 : q * ns * nb < num * ns * nb :=
    Nat.mul_lt_mul_of_pos_right (Nat.mul_lt_mul_of_pos_right (not_le.1 hlt) hs) hb
  omega

/-- C90: what a saved band structure presupposes.  A ground-state calculation of the same geometry succeeded, the
configuration gave the number of k points, ase found a path with at least that many points, the devices share
the points evenly and all of them are in use. -/
theorem bandRun_saved (L : RunLib) (T : BandTools) (cfg : RunConfig) (b : BandConfig) {m : ℕ} (a : AseAtoms m)
    (f : BandFile) (h : bandAtoms L T cfg b a = .ok f) :
    (∃ r, runAtoms L cfg a = .ok r) ∧ b.numKpoints = some f.kpts ∧ (∃ opt, T.optimizer = .ok opt) ∧
      (∃ q frac, T.bandpath (((bohr2angstrom : ℚ) : ℝ) • (angstrom2bohr : ℝ) • a.cell) b.kPath (some f.kpts) =
        .ok ⟨q, frac⟩ ∧ L.devices ∣ q ∧ (0 < f.bands → 0 < f.spins → f.kpts ≤ q)) ∧
      (b.parallelPath = true ∨ L.devices ≤ 1) ∧
      f.name = String.join (List.ofFn fun i => T.symbol (a.numbers i)) ++ "_band_structure.npy" ∧
      f.spins = (if cfg.restricted then 1 else 2) ∧
      f.bands = ((∑ i, a.numbers i).toNat + 1) / 2 + b.emptyBands := by
  unfold bandAtoms at h
  cases hc : createCrystal a cfg.spin with
  | error e => rw [hc] at h; cases h
  | ok c =>
    obtain rfl : Crystal.fromAse a cfg.spin = c := by
      unfold createCrystal at hc
      simp only at hc
      cases hq : checkSpinNumber (Crystal.fromAse a cfg.spin).numElectron (Crystal.fromAse a cfg.spin).spin with
      | error e => rw [hq] at hc; cases hc
      | ok u => rw [hq] at hc; exact Except.ok.inj hc
    rw [hc] at h
    simp only at h
    unfold bandCrystal at h
    cases hs : runSizes cfg with
    | error e => rw [hs] at h; cases h
    | ok nn =>
      obtain ⟨n, kn⟩ := nn
      rw [hs] at h
      simp only at h
      cases hm : createFreqMask cfg (Crystal.fromAse a cfg.spin).cell n with
      | error e => rw [hm] at h; cases h
      | ok mask =>
        rw [hm] at h
        simp only at h
        cases hp : bandPoints T b (Crystal.fromAse a cfg.spin).cell with
        | error e => rw [hp] at h; cases h
        | ok qq =>
          obtain ⟨q, path⟩ := qq
          rw [hp] at h
          simp only at h
          unfold bandGrid at h
          cases hr : runGrid L cfg (Crystal.fromAse a cfg.spin) n kn with
          | error e => rw [hr] at h; cases h
          | ok rep =>
            rw [hr] at h
            simp only at h
            cases ho : T.optimizer with
            | error e => rw [ho] at h; cases h
            | ok opt =>
              rw [ho] at h
              simp only at h
              generalize hbc : bandCalc _ _ _ _ _ _ _ _ _ _ = bc at h
              cases bc with
              | error e => cases h
              | ok r =>
                simp only at h
                cases hnk : b.numKpoints with
                | none => rw [hnk] at h; cases h
                | some num =>
                  rw [hnk] at h
                  simp only [Except.ok.injEq] at h
                  subst h
                  rw [hnk] at hbc
                  simp only [Option.getD_some] at hbc
                  obtain ⟨g1, g2, g3⟩ := bandAll_inv hbc
                  unfold bandPoints at hp
                  cases hbp : T.bandpath (((bohr2angstrom : ℚ) : ℝ) • (Crystal.fromAse a cfg.spin).cell) b.kPath
                      b.numKpoints with
                  | error e => rw [hbp] at hp; cases hp
                  | ok qf =>
                    obtain ⟨q', frac⟩ := qf
                    rw [hbp] at hp
                    simp only [Except.ok.injEq, Sigma.mk.injEq] at hp
                    obtain ⟨rfl, -⟩ := hp
                    refine ⟨?_, rfl, ⟨opt, rfl⟩, ⟨q', frac, ?_, ?_, ?_⟩, ?_, rfl, rfl, rfl⟩
                    · unfold runAtoms runCrystal
                      rw [hc, hs]
                      simp only [hr]
                      exact ⟨_, rfl⟩
                    · rw [hnk] at hbp
                      exact hbp
                    · exact Nat.dvd_of_mod_eq_zero g1
                    · intro hb hsp
                      exact points_le g3 hb hsp
                    · exact g2

/-- C90 fails for a configuration that leaves the number of k points to ase: an otherwise admissible calculation
goes through, then ends with a `TypeError` instead of saving. -/
theorem bandRun_unnumbered (L : RunLib) (T : BandTools) (cfg : RunConfig) (b : BandConfig) {m : ℕ} (a : AseAtoms m)
    (size ksize : Fin 3 → ℤ) (ne spin : ℤ) {num : ℕ} {frac : Matrix (Fin num) (Fin 3) ℝ}
    (H : Spec.AdmissibleBand L T cfg b a size ksize ne spin num frac)
    (hp : T.bandpath (((bohr2angstrom : ℚ) : ℝ) • (angstrom2bohr : ℝ) • a.cell) b.kPath none = .ok ⟨num, frac⟩) :
    bandAtoms L T cfg { b with numKpoints := none } a = .error .typeError := by
  obtain ⟨n, kn, rep, mask, hrun, hn, -, hmask, -⟩ := run_energy_partial L cfg a size ksize ne spin
    H.toAdmissibleRun _ rfl _ (fun _ _ => rfl) _ (fun _ => rfl)
  obtain ⟨hc, kn, hs, hg⟩ := runAtoms_inv L cfg a hrun
  obtain ⟨opt, hopt⟩ := H.bandOptimizer
  have hdet := fromAse_det a cfg.spin H.cell
  have hw := H.bandWaves n hn mask hmask
  rw [← maskCount_card] at hw
  have hne : (Crystal.fromAse a cfg.spin).numElectron = ne := H.electrons.symm
  subst hne
  have hm' : createFreqMask cfg (Crystal.fromAse a cfg.spin).cell n = .ok mask := hmask
  obtain ⟨k, hp'⟩ : ∃ k, bandPoints T { b with numKpoints := none } (Crystal.fromAse a cfg.spin).cell
      = .ok ⟨num, k⟩ := by
    unfold bandPoints
    rw [show (Crystal.fromAse a cfg.spin).cell = (angstrom2bohr : ℝ) • a.cell from rfl, hp]
    exact ⟨_, rfl⟩
  obtain ⟨r, h1, -⟩ := bandCalc_channels (nb := driverBands (Crystal.fromAse a cfg.spin).numElectron.toNat b.emptyBands)
    (bandRunEnv L T cfg (Crystal.fromAse a cfg.spin) n mask rep.density.2)
    (Crystal.fromAse a cfg.spin).cell hdet rfl (vol_pos (Crystal.fromAse a cfg.spin) hdet) _ (fun _ _ => rfl) hw num
    L.devices b.parallelPath H.parallel (Nat.mod_eq_zero_of_dvd H.share) (bandUpdate opt _) b.epoch b.fineEpoch
    (L.pwDraw (if cfg.restricted then 1 else 2) 1 (maskCount mask) _,
      opt.init (L.pwDraw (if cfg.restricted then 1 else 2) 1 (maskCount mask) _)) (pathAt k)
  unfold bandAtoms bandCrystal bandGrid
  simp only [hc, hs, hm', hp', hg, hopt, Option.getD_none]
  generalize hbc : bandCalc (bandRunEnv L T cfg (Crystal.fromAse a cfg.spin) n mask rep.density.2) _ _ _ _ _ _ _ _ _ = bc
  cases bc with
  | error e => exact absurd (h1.symm.trans hbc) nofun
  | ok r' => rfl

/-! ### Concrete cases -/

/-- Orbital parameters where `f` is at most `ε` above each of its values, if there are any. -/
private theorem nearBand_exists {ns nk g nb : ℕ} (ε : ℝ) (f : PwParams ns nk g nb → Except PyErr ℝ)
    (p : PwParams ns nk g nb) : ∃ q : PwParams ns nk g nb,
      (∃ r : PwParams ns nk g nb, ∀ q' v, f q' = .ok v → ∃ v', f r = .ok v' ∧ v' ≤ v + ε) →
      ∀ q' v, f q' = .ok v → ∃ v', f q = .ok v' ∧ v' ≤ v + ε := by
  by_cases h : ∃ r : PwParams ns nk g nb, ∀ q' v, f q' = .ok v → ∃ v', f r = .ok v' ∧ v' ≤ v + ε
  · obtain ⟨r, h⟩ := h
    exact ⟨r, fun _ => h⟩
  · exact ⟨p, fun h' => absurd h' h⟩

/-- An optimiser of orbitals that gets within `ε` of the minimum. -/
noncomputable def nearBandOptimizer (ε : ℝ) : BandOptimizer where
  State := Unit
  init := fun _ => ()
  step := fun f p => ((nearBand_exists ε f p.1).choose, ())

theorem nearBandOptimizer_near {ε : ℝ} (hε : 0 < ε) : Spec.NearBandOptimizer ε (nearBandOptimizer ε) := by
  intro ns nk g nb f p ⟨m, hm⟩
  refine (nearBand_exists ε f p.1).choose_spec ?_
  let S : Set ℝ := {v | ∃ q : PwParams ns nk g nb, f q = .ok v}
  have hne : S.Nonempty := by
    obtain ⟨v, hv, -⟩ := hm p.1
    exact ⟨v, p.1, hv⟩
  have hbd : BddBelow S := ⟨m, fun v ⟨q, hv⟩ => by
    obtain ⟨w, hw, hle⟩ := hm q
    rw [hv] at hw
    rw [Except.ok.inj hw]
    exact hle⟩
  obtain ⟨v, ⟨r, hv⟩, hlt⟩ := Real.lt_sInf_add_pos hne hε
  refine ⟨r, fun q' w hw => ⟨v, hv, ?_⟩⟩
  have := csInf_le hbd (⟨q', hw⟩ : w ∈ S)
  linarith

/-- External parts of a band calculation for the examples: `ase` returns as many points as it is asked for, from
the centre of the Brillouin zone to its border. -/
noncomputable def lithiumTools (ε : ℝ) : BandTools where
  symbol := fun z => if z = 3 then "Li" else "X"
  bandpath := fun _ _ num => .ok ⟨num.getD 8, fun i l => if l = 0 then (i : ℝ) / (2 * num.getD 8) else 0⟩
  eigh := someEigvalsh
  optimizer := .ok (nearBandOptimizer ε)

/-- Sixteen k points, one empty band. -/
def lithiumBands : BandConfig where
  kPath := some "GX"
  numKpoints := some 16
  parallelPath := true
  emptyBands := 1
  epoch := 4
  fineEpoch := 2

/-- The hypotheses of `bandRun_channels` and `bandRun_doubled` hold for the lithium atom. -/
theorem lithium_band (ε : ℝ) (xc : XcLib) : ∃ frac, Spec.AdmissibleBand (lithiumLib xc) (lithiumTools ε) lithiumConfig
    lithiumBands (⟨fun _ => 3, 0, 1⟩ : AseAtoms 1) (fun _ => 4) (fun _ => 2) 3 1 16 frac :=
  ⟨_, { lithium_admissible xc with
    number := rfl
    path := rfl
    points := by norm_num
    share := by show 8 ∣ 16; norm_num
    parallel := Or.inl rfl
    bandWaves := fun n hn mask hm => le_trans (by decide) ((lithium_admissible xc).waves n hn mask hm)
    bandOptimizer := ⟨_, rfl⟩ }⟩

/-- `bandRun_unnumbered` for the lithium atom when ase returns sixteen points by default. -/
example (ε : ℝ) (xc : XcLib) : bandAtoms (lithiumLib xc) { lithiumTools ε with
      bandpath := fun _ _ _ => .ok ⟨16, fun i l => if l = 0 then (i : ℝ) / 32 else 0⟩ } lithiumConfig
    { lithiumBands with numKpoints := none } (⟨fun _ => 3, 0, 1⟩ : AseAtoms 1) = .error .typeError :=
  bandRun_unnumbered _ _ _ lithiumBands _ (fun _ => 4) (fun _ => 2) 3 1 { lithium_admissible xc with
    number := rfl
    path := rfl
    points := by norm_num
    share := by show 8 ∣ 16; norm_num
    parallel := Or.inl rfl
    bandWaves := fun n hn mask hm => le_trans (by decide) ((lithium_admissible xc).waves n hn mask hm)
    bandOptimizer := ⟨_, rfl⟩ } rfl

/-- A spin-restricted calculation of the beryllium atom, with Gram and Schmidt's factorisation and optimisers that
get within `ε` and `δ` of the minimum. -/
noncomputable def berylliumLib (ε : ℝ) : RunLib :=
  { lithiumLib diracLib with
    read := fun _ => .ok ⟨1, ⟨fun _ => 4, 0, 1⟩⟩
    qrC := gramSchmidtQR ℂ
    qrR := gramSchmidtQR ℝ
    optimizer := .ok (nearOptimizer ε) }

noncomputable def berylliumConfig : RunConfig := { lithiumConfig with restricted := true }

/-- The hypotheses of `bandRun_complete_partial`, `bandRun_near_partial` and `bandRun_ground_state_partial` hold
for the beryllium atom. -/
theorem beryllium_band {ε δ : ℝ} (hε : 0 < ε) (hδ : 0 < δ) :
    ∃ frac k, Spec.AdmissibleBand (berylliumLib ε) (lithiumTools δ) berylliumConfig lithiumBands
        (⟨fun _ => 4, 0, 1⟩ : AseAtoms 1) (fun _ => 4) (fun _ => 2) 4 0 16 frac ∧
      Spec.HasCoordinates ((angstrom2bohr : ℝ) • (1 : Matrix (Fin 3) (Fin 3) ℝ)) frac k ∧
      berylliumConfig.restricted = true ∧ Spec.Triangular (berylliumLib ε).qrC ∧ Spec.Triangular (berylliumLib ε).qrR ∧
      Spec.ContinuousXc (berylliumLib ε).xc berylliumConfig.xc ∧ 0 < berylliumConfig.eps ∧
      berylliumConfig.occupation ≠ "gamma" ∧
      (∀ opt, (berylliumLib ε).optimizer = .ok opt → Spec.NearOptimizer ε opt) ∧
      (∀ opt, (lithiumTools δ).optimizer = .ok opt → Spec.NearBandOptimizer δ opt) := by
  have H : Spec.AdmissibleRun (berylliumLib ε) berylliumConfig (⟨fun _ => 4, 0, 1⟩ : AseAtoms 1) (fun _ => 4)
      (fun _ => 2) 4 0 :=
    { lithium_admissible diracLib with
      electrons := by simp
      unpaired := rfl
      placeable := ⟨by decide, Or.inr (Or.inl ⟨rfl, by decide, by decide⟩)⟩
      optimizer := ⟨nearOptimizer ε, rfl, nearOptimizer_keeps ε⟩ }
  have hne : (angstrom2bohr : ℝ) ≠ 0 := angstrom_ne
  refine ⟨_, fun i l => if l = 0 then 2 * Real.pi * ((i : ℝ) / (2 * 16)) / angstrom2bohr else 0, { H with
    number := rfl
    path := rfl
    points := by norm_num
    share := by show 8 ∣ 16; norm_num
    parallel := Or.inl rfl
    bandWaves := fun n hn mask hm => le_trans (by decide) (H.waves n hn mask hm)
    bandOptimizer := ⟨_, rfl⟩ }, ?_, rfl, gramSchmidtQR_triangular ℂ, gramSchmidtQR_triangular ℝ, diracLib_continuous,
    by norm_num [berylliumConfig, lithiumConfig], by decide, ?_, ?_⟩
  · intro i l
    fin_cases l <;> simp [Fin.sum_univ_three, Matrix.one_apply] 
    field_simp
  · intro opt h
    cases h
    exact nearOptimizer_near hε
  · intro opt h
    cases h
    exact nearBandOptimizer_near hδ

/-- The hypothesis of `bandRun_saved`: the calculation of the lithium atom saves a file. -/
example (ε : ℝ) (xc : XcLib) : ∃ f, bandRun (lithiumLib xc) (lithiumTools ε) lithiumConfig lithiumBands = .ok f ∧
    f.name = "Li_band_structure.npy" ∧ f.spins = 2 ∧ f.kpts = 16 ∧ f.bands = 3 := by
  obtain ⟨frac, H⟩ := lithium_band ε xc
  obtain ⟨k, hk⟩ := coordinates_exist (fromAse_det (⟨fun _ => 3, 0, 1⟩ : AseAtoms 1) none (by simp)) frac
  obtain ⟨n, rep, mask, values, -, -, -, h, -⟩ := bandRun_channels _ _ _ _ _ _ _ _ _ H _ rfl _ (fun _ _ => rfl) _
    (fun _ => rfl) k hk
  refine ⟨_, h, ?_, rfl, rfl, rfl⟩
  simp [lithiumTools]

end Jrystal
