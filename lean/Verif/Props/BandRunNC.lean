import Verif.Spec.BandRunNC
import Verif.Props.BandOptNC
import Verif.Props.BandRun
import Verif.Props.GroundState
import Verif.Props.RunNC

/- C93 and C94: a whole norm-conserving band-structure calculation. -/
namespace Jrystal
open scoped BigOperators ComplexConjugate
open Matrix RunSetup

/-! ### The nonlocal matrix -/

/-- The separable operator between single plane waves. -/
private theorem projector_nonlocal {N M : ℕ} {ι : Type} [Fintype ι] {n : Fin 3 → ℕ} (w : Fin N → Idx n)
    (psi : Fin 1 → ι → Fin M → Idx n → ℂ) (vol : ℝ) (x y : Fin N) :
    Spec.projectorMatrix vol (fun (i : ι × Fin M) x => psi 0 i.1 i.2 (w x)) x y
      = hamiltonianNonlocal (ns := 1) (nk := 1) (fun _ _ x => Pi.single (w x) (1 : ℂ)) psi vol 0 0 x y := by
  unfold Spec.projectorMatrix hamiltonianNonlocal
  simp only
  rw [Fintype.sum_prod_type]
  have h : ∀ (x : Fin N) (β : ι) (φ : Fin M), ∑ j, (Pi.single (w x) (1 : ℂ) : Idx n → ℂ) j * psi 0 β φ j
      = psi 0 β φ (w x) := by
    intro x β φ
    rw [Finset.sum_eq_single (w x)]
    · rw [Pi.single_eq_same, one_mul]
    · intro j _ hj
      rw [Pi.single_eq_of_ne hj, zero_mul]
    · intro h
      exact absurd (Finset.mem_univ _) h
  simp only [h]

private theorem overlap_single {X : Type} [Fintype X] [DecidableEq X] (B : X → ℂ) (x : X) :
    Spec.overlap B (Pi.single x (1 : ℂ)) = conj (B x) := by
  unfold Spec.overlap
  rw [Finset.sum_eq_single x]
  · rw [Pi.single_eq_same, mul_one]
  · intro j _ hj
    rw [Pi.single_eq_of_ne hj, mul_zero]
  · intro h
    exact absurd (Finset.mem_univ _) h

/-- The nonlocal operator of the driver between plane waves, for all D matrices and positions. -/
theorem nonlocalMatrix_actual (L : NcLib) {m q N : ℕ} {n : Fin 3 → ℕ} (S : Fin m → NlSpecies q n)
    (pos : Fin m → Fin 3 → ℝ) (g : Idx n → Fin 3 → ℝ) (w : Fin N → Idx n) (k : Fin q → Fin 3 → ℝ) (i : Fin q)
    (vol : ℝ) :
    Spec.projectorMatrix vol (fun (j : (Σ a, Fin (S a).nbeta) × Fin (2 * nlLMax S + 1)) x =>
        nlPsiAll L.eigh L.sph (rowSpecies S fun a => (S a).beta i) pos g (fun _ => k i) 0 j.1 j.2 (w x))
      = Spec.nonlocalMatrix (sphericalRow L.sph) S
          (fun a => Matrix.diagonal fun j => |L.eigh.vals (symmetrize (S a).dmat) j|) (-pos) vol
          (2 * nlLMax S + 1) g w k i := by
  ext x y
  refine (projector_nonlocal w (nlPsiAll L.eigh L.sph (rowSpecies S fun a => (S a).beta i) pos g
    (fun _ => k i)) vol x y).trans ?_
  rw [nonlocal_actual]
  unfold Spec.nonlocalMatrix
  refine Finset.sum_congr rfl fun a _ => ?_
  unfold projections
  simp only [overlap_single]
  rfl

/-- The nonlocal operator of the driver between plane waves, where the code has it right. -/
private theorem nonlocalMatrix_partial (L : NcLib) {m q N : ℕ} {n : Fin 3 → ℕ} (S : Fin m → NlSpecies q n)
    (pos : Fin m → Fin 3 → ℝ) (A : Matrix (Fin 3) (Fin 3) ℝ) (hA : A.det ≠ 0)
    (hD : ∀ a, ∃ d, (S a).dmat = Matrix.diagonal d ∧ Monotone d ∧ ∀ b, 0 ≤ d b)
    (σ : Equiv.Perm (Fin m)) (hs : ∀ a, S (σ a) = S a)
    (hpos : ∀ a, Spec.IsLatticeVector A (pos (σ a) + pos a))
    (w : Fin N → Idx n) (k : Fin q → Fin 3 → ℝ) (i : Fin q) (vol : ℝ) :
    Spec.projectorMatrix vol (fun (j : (Σ a, Fin (S a).nbeta) × Fin (2 * nlLMax S + 1)) x =>
        nlPsiAll L.eigh L.sph (rowSpecies S fun a => (S a).beta i) pos (gVectors A n) (fun _ => k i) 0 j.1 j.2 (w x))
      = Spec.nonlocalMatrix (sphericalRow L.sph) S (fun a => (S a).dmat) pos vol
          (2 * nlLMax S + 1) (gVectors A n) w k i := by
  ext x y
  refine (projector_nonlocal w (nlPsiAll L.eigh L.sph (rowSpecies S fun a => (S a).beta i) pos
    (gVectors A n) (fun _ => k i)) vol x y).trans ?_
  have hs' : ∀ a, rowSpecies S (fun a => (S a).beta i) (σ a) = rowSpecies S (fun a => (S a).beta i) a := by
    intro a
    have key : ∀ x y : NlSpecies q n, x = y → (⟨x.nbeta, x.ang, x.dmat, fun _ => x.beta i⟩ : NlSpecies 1 n)
        = ⟨y.nbeta, y.ang, y.dmat, fun _ => y.beta i⟩ := by
      rintro x _ rfl
      rfl
    exact key _ _ (hs a)
  refine (nonlocal_partial L.eigh L.sph A hA (rowSpecies S fun a => (S a).beta i) pos (fun _ => k i) hD σ hs' hpos
    _ vol 0 0 x y).trans ?_
  unfold Spec.nonlocalMatrix
  refine Finset.sum_congr rfl fun a _ => ?_
  unfold projections
  simp only [overlap_single]
  rfl

/-- C93 (part): the nonlocal matrix of the code, with the absolute eigenvalues of the D matrices and atoms at the
opposite positions, is the textbook one for atoms in pairs related by inversion and diagonal D matrices with
non-negative ascending entries.  Missing: other crystals and D matrices, for which the code differs (C44). -/
theorem nonlocalMatrix_textbook_partial (L : NcLib) {m q N : ℕ} {n : Fin 3 → ℕ} (S : Fin m → NlSpecies q n)
    (pos : Fin m → Fin 3 → ℝ) (A : Matrix (Fin 3) (Fin 3) ℝ) (hA : A.det ≠ 0)
    (hD : ∀ a, ∃ d, (S a).dmat = Matrix.diagonal d ∧ Monotone d ∧ ∀ b, 0 ≤ d b)
    (σ : Equiv.Perm (Fin m)) (hs : ∀ a, S (σ a) = S a)
    (hpos : ∀ a, Spec.IsLatticeVector A (pos (σ a) + pos a))
    (w : Fin N → Idx n) (k : Fin q → Fin 3 → ℝ) (i : Fin q) (vol : ℝ) :
    Spec.nonlocalMatrix (sphericalRow L.sph) S
        (fun a => Matrix.diagonal fun j => |L.eigh.vals (symmetrize (S a).dmat) j|) (-pos) vol
        (2 * nlLMax S + 1) (gVectors A n) w k i
      = Spec.nonlocalMatrix (sphericalRow L.sph) S (fun a => (S a).dmat) pos vol (2 * nlLMax S + 1) (gVectors A n) w
          k i :=
  (nonlocalMatrix_actual L S pos _ w k i vol).symm.trans
    (nonlocalMatrix_partial L S pos A hA hD σ hs hpos w k i vol)

/-! ### The run -/

/-- What a successful norm-conserving ground-state calculation went through. -/
theorem runAtomsNC_inv (L : NcLib) (cfg : NcConfig) {m : ℕ} (a : AseAtoms m) {n : Fin 3 → ℕ}
    {rep : GsReport (EnergyParts × ℝ) n} (h : runAtomsNC L cfg a = .ok ⟨n, rep⟩) :
    createCrystal a cfg.spin = .ok (Crystal.fromAse a cfg.spin) ∧
      ∃ P kn, createPseudo L cfg (List.ofFn fun i => L.symbol (a.numbers i)) = .ok P ∧
        runSizes cfg.toRunConfig = .ok (n, kn) ∧ runGridNC L cfg (Crystal.fromAse a cfg.spin) P n kn = .ok rep := by
  unfold runAtomsNC createCrystal at h
  unfold createCrystal
  simp only at h ⊢
  cases hc : checkSpinNumber (Crystal.fromAse a cfg.spin).numElectron (Crystal.fromAse a cfg.spin).spin with
  | error e => rw [hc] at h; cases h
  | ok u =>
    rw [hc] at h
    simp only at h ⊢
    refine ⟨trivial, ?_⟩
    cases hP : createPseudo L cfg (List.ofFn fun i => L.symbol (a.numbers i)) with
    | error e => rw [hP] at h; cases h
    | ok P =>
      rw [hP] at h
      simp only at h
      unfold runCrystalNC at h
      cases hs : runSizes cfg.toRunConfig with
      | error e => rw [hs] at h; cases h
      | ok nn =>
        obtain ⟨n', kn⟩ := nn
        rw [hs] at h
        simp only at h
        cases hg : runGridNC L cfg (Crystal.fromAse a cfg.spin) P n' kn with
        | error e => rw [hg] at h; cases h
        | ok r =>
          rw [hg] at h
          simp only [Except.ok.injEq, Sigma.mk.injEq] at h
          obtain ⟨rfl, h⟩ := h
          exact ⟨P, kn, rfl, rfl, hg.trans (congrArg _ (eq_of_heq h))⟩

private theorem pathAt_eq {X : Type*} [Inhabited X] {q : ℕ} (path : Fin q → X) (i : Fin q) :
    pathAt path i = path i := dif_pos i.2

/-- The points of the path with their rows of the projector arrays. -/
private noncomputable def points {m q : ℕ} {n : Fin 3 → ℕ} (S : Fin m → NlSpecies q n) (k : Fin q → Fin 3 → ℝ) :
    ℕ → (Fin 3 → ℝ) × BetaRow S :=
  fun i => (pathAt k i, pathAt (fun j a => (S a).beta j) i)

private theorem points_eq {m q : ℕ} {n : Fin 3 → ℕ} (S : Fin m → NlSpecies q n) (k : Fin q → Fin 3 → ℝ) (i : Fin q) :
    points S k i = (k i, fun a => (S a).beta i) :=
  Prod.ext (pathAt_eq k i) (pathAt_eq (fun j a => (S a).beta j) i)

private theorem file_eq (name : String) (r : ℕ → ℕ → ℝ) {R R' B B' : ℕ} (h1 : R = R') (h2 : B = B') :
    (⟨name, R, B, fun i j => r i j⟩ : BandFileNC) = ⟨name, R', B', fun i j => r i j⟩ := by
  subst h1 h2
  rfl

/-- What an admissible band calculation has built when the optimisation of the orbitals starts. -/
private theorem setup (L : NcLib) (T : BandTools) (cfg : NcConfig) (b : BandConfig) {m : ℕ} (a : AseAtoms m)
    (size ksize : Fin 3 → ℤ) (P : NcLists) (ne spin : ℤ) {q : ℕ} {frac : Matrix (Fin q) (Fin 3) ℝ}
    (H : Spec.AdmissibleBandNC L T cfg b a size ksize P ne spin q frac)
    (k : Fin q → Fin 3 → ℝ) (hk : Spec.HasCoordinates ((angstrom2bohr : ℝ) • a.cell) frac k)
    {n : Fin 3 → ℕ} {rep : GsReport (EnergyParts × ℝ) n} (hrun : runAtomsNC L cfg a = .ok ⟨n, rep⟩)
    {mask : Idx n → Bool} (hmask : createFreqMask cfg.toRunConfig ((angstrom2bohr : ℝ) • a.cell) n = .ok mask)
    {vloc : Idx n → ℂ} (hv : localReciprocal L.jn L.csLoc (ncLocalAtom P (Crystal.fromAse a cfg.spin).positions)
      (gVectors (Crystal.fromAse a cfg.spin).cell n) (Crystal.fromAse a cfg.spin).vol "sbt" = .ok vloc)
    {bs : List (BetaArr q n)} (hbs : ncBetas L P (gVectors (Crystal.fromAse a cfg.spin).cell n) k = .ok bs)
    (hn : Spec.LeastGrid size n) :
    ∃ opt, T.optimizer = .ok opt ∧ ((angstrom2bohr : ℝ) • a.cell).det ≠ 0 ∧
      (ne.toNat + 1) / 2 + b.emptyBands ≤ maskCount mask ∧
      ∃ p0, ∀ (r : ℕ → ℕ → ℝ),
        bandCalcNC (bandRunEnvNC L T cfg (Crystal.fromAse a cfg.spin) n mask rep.density.2 vloc
            (fun a : Fin m => ncSpecies P bs a)) rep.density.1 q L.devices b.parallelPath
          (bandUpdateNC opt (nb := (ne.toNat + 1) / 2 + b.emptyBands)
            (bandRunEnvNC L T cfg (Crystal.fromAse a cfg.spin) n mask rep.density.2 vloc
              (fun a : Fin m => ncSpecies P bs a))) b.epoch b.fineEpoch
          (p0, opt.init p0) (points (fun a : Fin m => ncSpecies P bs a) k) = .ok r →
        bandAtomsNC L T cfg b false a = .ok
          ⟨String.ofList (List.ofFn fun i => L.symbol (a.numbers i)).flatten ++ "_band_structure.npy",
            q * rep.density.1, (ne.toNat + 1) / 2 + b.emptyBands, fun i j => r i j⟩ := by
  obtain ⟨hc, P', kn, hP', hs, hg⟩ := runAtomsNC_inv L cfg a hrun
  have hPP := H.loaded
  rw [hP'] at hPP
  obtain rfl := Except.ok.inj hPP
  obtain ⟨opt, hopt⟩ := H.bandOptimizer
  have hdet : ((angstrom2bohr : ℝ) • a.cell).det ≠ 0 := by
    rw [Matrix.det_smul]
    refine mul_ne_zero (pow_ne_zero _ ?_) H.cell
    norm_num [angstrom2bohr]
  have hw := H.bandWaves n hn mask hmask
  rw [← maskCount_card] at hw
  have hne : P'.valence.sum = ne := H.electrons.symm
  subst hne
  refine ⟨opt, hopt, hdet, hw, L.pwDraw 1 1 (maskCount mask) _, fun r hr => ?_⟩
  unfold bandAtomsNC
  rw [hc]
  simp only [hP']
  unfold bandCrystalNC
  simp only [hs]
  have hm' : createFreqMask cfg.toRunConfig (Crystal.fromAse a cfg.spin).cell n = .ok mask := hmask
  simp only [hm']
  have hp : bandPoints T b (Crystal.fromAse a cfg.spin).cell = .ok ⟨q, k⟩ := by
    unfold bandPoints
    have := H.path
    rw [show (Crystal.fromAse a cfg.spin).cell = (angstrom2bohr : ℝ) • a.cell from rfl, this]
    simp only [coordinates_eq hdet hk]
  simp only [hp]
  unfold bandGridNC
  simp only [hv, hbs, hg, Bool.false_eq_true, if_false]
  unfold bandLoopNC
  simp only [hopt]
  rw [if_neg (not_not.2 (Nat.mod_eq_zero_of_dvd H.share))]
  obtain ⟨e, he, -⟩ := bandEigNC_channels (bandRunEnvNC L T cfg (Crystal.fromAse a cfg.spin) n mask rep.density.2 vloc
      (fun a : Fin m => ncSpecies P' bs a)) ((angstrom2bohr : ℝ) • a.cell) hdet rfl
      (vol_pos (Crystal.fromAse a cfg.spin) hdet) _ (fun _ _ => rfl)
      (L.pwDraw 1 1 (maskCount mask) (driverBands P'.valence.sum.toNat b.emptyBands))
      (points (fun a : Fin m => ncSpecies P' bs a) k 0)
  refine (show _ = _ from ?_)
  have he' : bandEigNC (bandRunEnvNC L T cfg (Crystal.fromAse a cfg.spin) n mask rep.density.2 vloc
      (fun a : Fin m => ncSpecies P' bs a)) (L.pwDraw 1 1 (maskCount (bandRunEnvNC L T cfg (Crystal.fromAse a cfg.spin) n
        mask rep.density.2 vloc (fun a : Fin m => ncSpecies P' bs a)).mask)
        (driverBands P'.valence.sum.toNat b.emptyBands))
      (pathAt k 0, pathAt (fun j a => (ncSpecies P' bs a).beta j) 0) = .ok ⟨rep.density.1, e⟩ := he
  rw [he']
  simp only
  have hr' : bandCalcNC (bandRunEnvNC L T cfg (Crystal.fromAse a cfg.spin) n mask rep.density.2 vloc
            (fun a : Fin m => ncSpecies P' bs a)) rep.density.1 q L.devices b.parallelPath
          (bandUpdateNC opt (bandRunEnvNC L T cfg (Crystal.fromAse a cfg.spin) n mask rep.density.2 vloc
              (fun a : Fin m => ncSpecies P' bs a))) b.epoch b.fineEpoch
          (L.pwDraw 1 1 (maskCount (bandRunEnvNC L T cfg (Crystal.fromAse a cfg.spin) n
        mask rep.density.2 vloc (fun a : Fin m => ncSpecies P' bs a)).mask)
        (driverBands P'.valence.sum.toNat b.emptyBands), opt.init (L.pwDraw 1 1 (maskCount (bandRunEnvNC L T cfg (Crystal.fromAse a cfg.spin) n
        mask rep.density.2 vloc (fun a : Fin m => ncSpecies P' bs a)).mask)
        (driverBands P'.valence.sum.toNat b.emptyBands)))
          (fun i => (pathAt k i, pathAt (fun j a => (ncSpecies P' bs a).beta j) i)) = .ok r := hr
  rw [hr']
  exact congrArg Except.ok (file_eq _ r rfl (min_eq_right hw))

/-- C93: an admissible norm-conserving band calculation succeeds and saves, under the name made of the symbols of
the atoms, one row of the requested number of bands for each k point of the path and each channel of the density of
the ground-state calculation, all k points of the first channel first.  The entries of a row ascend, they are upper
bounds of the eigenvalues of the same index of the Kohn-Sham Hamiltonian of that channel and k point, with the
nonlocal part of the code, and they are these eigenvalues for a complete set of bands. -/
theorem bandRunNC_channels (L : NcLib) (T : BandTools) (cfg : NcConfig) (b : BandConfig) {m : ℕ} (a : AseAtoms m)
    (size ksize : Fin 3 → ℤ) (P : NcLists) (ne spin : ℤ) {q : ℕ} {frac : Matrix (Fin q) (Fin 3) ℝ}
    (H : Spec.AdmissibleBandNC L T cfg b a size ksize P ne spin q frac)
    (A : Matrix (Fin 3) (Fin 3) ℝ) (hA : A = (angstrom2bohr : ℝ) • a.cell)
    (pos : Fin m → Fin 3 → ℝ) (hpos : ∀ i d, pos i d = angstrom2bohr * a.positions i d)
    (k : Fin q → Fin 3 → ℝ) (hk : Spec.HasCoordinates A frac k) :
    ∃ n rep, ∃ mask : Idx n → Bool, ∃ vloc bs values,
      runAtomsNC L cfg a = .ok ⟨n, rep⟩ ∧ rep.density.1 = (if cfg.restricted then 1 else 2) ∧
      Spec.LeastGrid size n ∧ createFreqMask cfg.toRunConfig A n = .ok mask ∧
      localReciprocal L.jn L.csLoc (ncLocalAtom P pos) (gVectors A n) |A.det| "sbt" = .ok vloc ∧
      ncBetas L P (gVectors A n) k = .ok bs ∧
      bandAtomsNC L T cfg b false a = .ok
        ⟨String.ofList (List.ofFn fun i => L.symbol (a.numbers i)).flatten ++ "_band_structure.npy",
          q * rep.density.1, (ne.toNat + 1) / 2 + b.emptyBands, values⟩ ∧
      ∃ hb : (ne.toNat + 1) / 2 + b.emptyBands ≤ maskCount mask,
        ∀ V, Spec.KohnShamPotentialNC L.xc cfg.xc vloc (gVectors A n) rep.density.2 V →
        ∀ (σ : Fin rep.density.1) (i : Fin q) (row : Fin (q * rep.density.1)) lam, (row : ℕ) = i + q * σ →
          Spec.IsSpectrum (Spec.planeWaveHamiltonian (fun x => gVectors A n (maskPos mask x)) (rVectors A n) (V σ) (k i)
            + Spec.nonlocalMatrix (sphericalRow L.sph) (fun a : Fin m => ncSpecies P bs a)
              (fun a => Matrix.diagonal fun j => |L.eigh.vals (symmetrize (ncSpecies P bs a).dmat) j|) (-pos) |A.det|
              (2 * nlLMax (fun a : Fin m => ncSpecies P bs a) + 1) (gVectors A n) (maskPos mask) k i) lam →
          Monotone (values row) ∧ (∀ j, lam (Fin.castLE hb j) ≤ values row j) ∧
          ((ne.toNat + 1) / 2 + b.emptyBands = maskCount mask → ∀ j, values row j = lam (Fin.castLE hb j)) := by
  obtain ⟨n, kn, rep, mask, vloc, -, hrun, hn, -, hmask, hv, -, hd, -⟩ := ncRun_complete_partial L cfg a size ksize P
    ne spin H.toAdmissibleRunNC A hA pos hpos _ fun _ => rfl
  subst hA
  obtain rfl : pos = fun i d => (angstrom2bohr : ℝ) * a.positions i d := funext fun i => funext fun d => hpos i d
  obtain ⟨bs, hbs⟩ := ncBetas_ok L cfg _ P H.loaded H.mesh H.processors
    (gVectors ((angstrom2bohr : ℝ) • a.cell) n) k
  obtain ⟨opt, -, hdet, hw, p0, hsave⟩ := setup L T cfg b a size ksize P ne spin H k hk hrun hmask hv hbs hn
  obtain ⟨r, h1, h2⟩ := bandCalcNC_channels (bandRunEnvNC L T cfg (Crystal.fromAse a cfg.spin) n mask rep.density.2 vloc
      (fun a : Fin m => ncSpecies P bs a)) ((angstrom2bohr : ℝ) • a.cell) hdet rfl
      (vol_pos (Crystal.fromAse a cfg.spin) hdet) _ (fun _ _ => rfl) q L.devices b.parallelPath
      (Nat.mod_eq_zero_of_dvd H.share) (bandUpdateNC opt _) b.epoch b.fineEpoch (p0, opt.init p0)
      (points (fun a : Fin m => ncSpecies P bs a) k)
  refine ⟨n, rep, mask, vloc, bs, fun i j => r i j, hrun, hd, hn, hmask, hv, hbs, hsave r h1, hw,
    fun V hV σ i row lam hrow hl => ?_⟩
  obtain rfl : V = fun σ x => (ifftn vloc x + hartreeRealSpace rep.density.2 (gVectors ((angstrom2bohr : ℝ) • a.cell) n)
      true x + vxcDensity L.xc cfg.xc (gVectors ((angstrom2bohr : ℝ) • a.cell) n) rep.density.2 σ x).re :=
    funext fun σ => funext fun x => hV σ x
  rw [← nonlocalMatrix_actual] at hl
  obtain ⟨g1, g2, g3⟩ := h2 i i.2 σ lam (by rw [points_eq]; exact hl)
  refine ⟨fun j j' hj => ?_, fun j => ?_, fun hc j => ?_⟩
  · simp only [hrow]
    exact g2 j j' hj (lt_of_lt_of_eq j'.2 (min_eq_right hw).symm)
  · simp only [hrow]
    exact g1 j (lt_of_lt_of_eq j.2 (min_eq_right hw).symm)
  · simp only [hrow]
    exact g3 hc.ge j (lt_of_lt_of_le j.2 hw)

/-- C93 (part): with an optimiser that gets within `ε` of the minimum, at least one step per k point and a QR
factorisation, every entry of the file of a spin-restricted norm-conserving band calculation is within `ε` of the
exact Kohn-Sham eigenvalue of the density of the ground-state calculation, with the nonlocal part of the code.
Missing: spin-unrestricted calculations, where the optimiser minimises another quantity
(`bandTraceNC_channels`). -/
theorem bandRunNC_near_partial (L : NcLib) (T : BandTools) (cfg : NcConfig) (b : BandConfig) {m : ℕ} (a : AseAtoms m)
    (size ksize : Fin 3 → ℤ) (P : NcLists) (ne spin : ℤ) {q : ℕ} {frac : Matrix (Fin q) (Fin 3) ℝ}
    (H : Spec.AdmissibleBandNC L T cfg b a size ksize P ne spin q frac) (hr : cfg.restricted = true)
    (hC : Spec.Triangular L.qrC) (ε : ℝ) (hopt : ∀ opt, T.optimizer = .ok opt → Spec.NearBandOptimizer ε opt)
    (he : 0 < b.epoch) (hf : 0 < b.fineEpoch)
    (A : Matrix (Fin 3) (Fin 3) ℝ) (hA : A = (angstrom2bohr : ℝ) • a.cell)
    (pos : Fin m → Fin 3 → ℝ) (hpos : ∀ i d, pos i d = angstrom2bohr * a.positions i d)
    (k : Fin q → Fin 3 → ℝ) (hk : Spec.HasCoordinates A frac k) :
    ∃ n rep, ∃ mask : Idx n → Bool, ∃ vloc bs dens values,
      runAtomsNC L cfg a = .ok ⟨n, rep⟩ ∧ rep.density = ⟨1, dens⟩ ∧
      Spec.LeastGrid size n ∧ createFreqMask cfg.toRunConfig A n = .ok mask ∧
      localReciprocal L.jn L.csLoc (ncLocalAtom P pos) (gVectors A n) |A.det| "sbt" = .ok vloc ∧
      ncBetas L P (gVectors A n) k = .ok bs ∧
      bandAtomsNC L T cfg b false a = .ok
        ⟨String.ofList (List.ofFn fun i => L.symbol (a.numbers i)).flatten ++ "_band_structure.npy",
          q, (ne.toNat + 1) / 2 + b.emptyBands, values⟩ ∧
      ∃ hb : (ne.toNat + 1) / 2 + b.emptyBands ≤ maskCount mask,
        ∀ V : Fin 1 → Idx n → ℝ, Spec.KohnShamPotentialNC L.xc cfg.xc vloc (gVectors A n) dens V →
        ∀ (i : Fin q) lam,
          Spec.IsSpectrum (Spec.planeWaveHamiltonian (fun x => gVectors A n (maskPos mask x)) (rVectors A n) (V 0) (k i)
            + Spec.nonlocalMatrix (sphericalRow L.sph) (fun a : Fin m => ncSpecies P bs a)
              (fun a => Matrix.diagonal fun j => |L.eigh.vals (symmetrize (ncSpecies P bs a).dmat) j|) (-pos) |A.det|
              (2 * nlLMax (fun a : Fin m => ncSpecies P bs a) + 1) (gVectors A n) (maskPos mask) k i) lam →
          ∀ j, lam (Fin.castLE hb j) ≤ values i j ∧ values i j ≤ lam (Fin.castLE hb j) + ε := by
  obtain ⟨n, kn, rep, mask, vloc, -, hrun, hn, -, hmask, hv, -, hd, -⟩ := ncRun_complete_partial L cfg a size ksize P
    ne spin H.toAdmissibleRunNC A hA pos hpos _ fun _ => rfl
  subst hA
  obtain rfl : pos = fun i d => (angstrom2bohr : ℝ) * a.positions i d := funext fun i => funext fun d => hpos i d
  obtain ⟨bs, hbs⟩ := ncBetas_ok L cfg _ P H.loaded H.mesh H.processors
    (gVectors ((angstrom2bohr : ℝ) • a.cell) n) k
  obtain ⟨opt, hopteq, hdet, hw, p0, hsave⟩ := setup L T cfg b a size ksize P ne spin H k hk hrun hmask hv hbs hn
  rw [hr] at hd
  obtain ⟨parts, ew, total, S, dens⟩ := rep
  obtain rfl : S = 1 := hd
  obtain ⟨r, h1, h2⟩ := bandCalcNC_near_partial (fun i => smooth_pos (hn i).1)
      (bandRunEnvNC L T cfg (Crystal.fromAse a cfg.spin) n mask dens vloc
      (fun a : Fin m => ncSpecies P bs a)) (fun w _ => by obtain ⟨R, -, h⟩ := hC w; exact ⟨R, h⟩)
      ((angstrom2bohr : ℝ) • a.cell) hdet rfl
      (vol_pos (Crystal.fromAse a cfg.spin) hdet) _ (fun _ => rfl) hw q L.devices b.parallelPath H.points
      (Nat.mod_eq_zero_of_dvd H.share) (bandUpdateNC opt _) ε (fun k p => hopt opt hopteq _ p) b.epoch b.fineEpoch he hf
      (p0, opt.init p0) (points (fun a : Fin m => ncSpecies P bs a) k)
  refine ⟨n, _, mask, vloc, bs, dens, fun i j => r i j, hrun, rfl, hn, hmask, hv, hbs, (hsave r h1).trans
    (congrArg _ (file_eq _ r (mul_one q) rfl)), hw, fun V hV i lam hl j => ?_⟩
  have e : V 0 = fun x => (ifftn vloc x + hartreeRealSpace dens (gVectors ((angstrom2bohr : ℝ) • a.cell) n)
      true x + vxcDensity L.xc cfg.xc (gVectors ((angstrom2bohr : ℝ) • a.cell) n) dens 0 x).re :=
    funext fun x => hV 0 x
  rw [e, ← nonlocalMatrix_actual] at hl
  exact h2 i i.2 lam (by rw [points_eq]; exact hl) j j.2

/-- C93 (part), everything together: with optimisers that get within `ε` and `δ` of their minima, a spin-restricted
norm-conserving band calculation saves energies within `δ` of the Kohn-Sham eigenvalues of the density of a state
whose free energy is within `ε` of the lowest one.  For atoms in pairs related by inversion and diagonal D matrices
with non-negative ascending entries the nonlocal part is the textbook one.  Missing: other crystals and D
matrices, and spin-unrestricted calculations. -/
theorem bandRunNC_ground_state_partial (L : NcLib) (T : BandTools) (cfg : NcConfig) (b : BandConfig) {m : ℕ}
    (a : AseAtoms m) (size ksize : Fin 3 → ℤ) (P : NcLists) (ne spin : ℤ) {q : ℕ} {frac : Matrix (Fin q) (Fin 3) ℝ}
    (H : Spec.AdmissibleBandNC L T cfg b a size ksize P ne spin q frac) (hr : cfg.restricted = true)
    (hC : Spec.Triangular L.qrC) (hR : Spec.Triangular L.qrR) (hxc : Spec.ContinuousXc L.xc cfg.xc)
    (heps : 0 < cfg.eps) (hspin : cfg.occupation = "simplex-projector" → spin = 0)
    (hg : cfg.occupation = "gamma" → ∀ i, ksize i ≤ 1)
    (ε : ℝ) (hopt : ∀ opt, L.optimizer = .ok opt → Spec.NearOptimizer ε opt)
    (δ : ℝ) (hband : ∀ opt, T.optimizer = .ok opt → Spec.NearBandOptimizer δ opt)
    (he : 0 < b.epoch) (hf : 0 < b.fineEpoch)
    (A : Matrix (Fin 3) (Fin 3) ℝ) (hA : A = (angstrom2bohr : ℝ) • a.cell)
    (pos : Fin m → Fin 3 → ℝ) (hpos : ∀ i d, pos i d = angstrom2bohr * a.positions i d)
    (k : Fin q → Fin 3 → ℝ) (hk : Spec.HasCoordinates A frac k) :
    ∃ n kn, ∃ mask : Idx n → Bool, ∃ vloc bs bs0 nb0 j, ∃ c : Coef 1 (idxList kn).length nb0 n, ∃ occ e values,
      Spec.LeastGrid size n ∧ Spec.LeastGrid ksize kn ∧ createFreqMask cfg.toRunConfig A n = .ok mask ∧
      localReciprocal L.jn L.csLoc (ncLocalAtom P pos) (gVectors A n) |A.det| "sbt" = .ok vloc ∧
      ncBetas L P (gVectors A n) k = .ok bs ∧ ncBetas L P (gVectors A n) (flatRows (kVectors A kn)) = .ok bs0 ∧
      nb0 = (ne.toNat + 1) / 2 + cfg.emptyBands ∧ j < cfg.epoch.toNat ∧
      Spec.GroundWithin ε (temperature cfg.smearing cfg.epoch j) cfg.eps mask ne spin true cfg.occupation
        (Spec.EnergyNC L.xc cfg.xc vloc (nlPsiAll L.eigh L.sph (fun a : Fin m => ncSpecies P bs0 a) pos
          (gVectors A n) (flatRows (kVectors A kn))) (gVectors A n) (flatRows (kVectors A kn)) |A.det|) c occ e ∧
      bandAtomsNC L T cfg b false a = .ok
        ⟨String.ofList (List.ofFn fun i => L.symbol (a.numbers i)).flatten ++ "_band_structure.npy",
          q, (ne.toNat + 1) / 2 + b.emptyBands, values⟩ ∧
      ((∀ a : Fin m, ∃ d, (ncSpecies P bs a).dmat = Matrix.diagonal d ∧ Monotone d ∧ ∀ b, 0 ≤ d b) →
        (∃ τ : Equiv.Perm (Fin m), (∀ a : Fin m, ncSpecies P bs (τ a) = ncSpecies P bs a) ∧
          ∀ a, Spec.IsLatticeVector A (pos (τ a) + pos a)) →
        ∃ hb : (ne.toNat + 1) / 2 + b.emptyBands ≤ maskCount mask,
          ∀ V : Fin 1 → Idx n → ℝ,
            Spec.KohnShamPotentialNC L.xc cfg.xc vloc (gVectors A n) (densityGrid c |A.det| occ) V →
          ∀ (i : Fin q) lam,
            Spec.IsSpectrum (Spec.planeWaveHamiltonian (fun x => gVectors A n (maskPos mask x)) (rVectors A n) (V 0)
                (k i)
              + Spec.nonlocalMatrix (sphericalRow L.sph) (fun a : Fin m => ncSpecies P bs a)
                (fun a => (ncSpecies P bs a).dmat) pos |A.det|
                (2 * nlLMax (fun a : Fin m => ncSpecies P bs a) + 1) (gVectors A n) (maskPos mask) k i) lam →
            ∀ j, lam (Fin.castLE hb j) ≤ values i j ∧ values i j ≤ lam (Fin.castLE hb j) + δ) := by
  obtain ⟨n, kn, rep, mask, vloc, bs0, h1, h2, h3, h4, h5, h6, ns, nb, h7, ⟨j, c, occ, hj, hG, hd⟩, -⟩ :=
    ncRun_ground_state L cfg a size ksize P ne spin H.toAdmissibleRunNC hC hR hxc heps (fun h _ => hspin h) hg ε hopt A hA
      pos hpos
  obtain ⟨n', rep', mask', vloc', bs, dens, values, g1, g2, -, g4, g5, g6, g7, hb, g8⟩ := bandRunNC_near_partial L T cfg b
    a size ksize P ne spin H hr hC δ hband he hf A hA pos hpos k hk
  rw [h1] at g1
  obtain ⟨rfl, hrep⟩ := Sigma.mk.inj (Except.ok.inj g1)
  obtain rfl := eq_of_heq hrep
  rw [h4] at g4
  obtain rfl := Except.ok.inj g4
  rw [h5] at g5
  obtain rfl := Except.ok.inj g5
  rw [hd] at g2
  obtain ⟨rfl, hdd⟩ := Sigma.mk.inj g2
  obtain rfl := eq_of_heq hdd
  rw [hr] at hG
  have hdet : A.det ≠ 0 := by
    rw [hA]
    exact fromAse_det a cfg.spin H.cell
  refine ⟨n, kn, mask, vloc, bs, bs0, nb, j, c, occ, _, values, h2, h3, h4, h5, g6, h6, h7, hj, hG, g7,
    fun hD ⟨τ, hτ, hinv⟩ => ⟨hb, fun V hV i lam hl => ?_⟩⟩
  rw [← nonlocalMatrix_textbook_partial L _ pos A hdet hD τ hτ hinv] at hl
  exact g8 V hV i lam hl

/-- C93 fails for a ground state supplied by the user: nothing is ever saved, and an otherwise admissible
calculation ends with a `NameError`. -/
theorem bandRunNC_supplied (L : NcLib) (T : BandTools) (cfg : NcConfig) (b : BandConfig) {m : ℕ} (a : AseAtoms m) :
    (∀ f, bandAtomsNC L T cfg b true a ≠ .ok f) ∧
      ∀ (size ksize : Fin 3 → ℤ) (P : NcLists) (ne spin : ℤ) (q : ℕ) (frac : Matrix (Fin q) (Fin 3) ℝ),
        Spec.AdmissibleBandNC L T cfg b a size ksize P ne spin q frac →
        bandAtomsNC L T cfg b true a = .error .nameError := by
  have hgrid : ∀ (c : Crystal m) (P : NcLists) (n kn : Fin 3 → ℕ) (mask : Idx n → Bool) {q : ℕ}
      (path : Fin q → Fin 3 → ℝ) f, bandGridNC L T cfg b true c P n kn mask path ≠ .ok f := by
    intro c P n kn mask q path f h
    unfold bandGridNC at h
    cases h1 : localReciprocal L.jn L.csLoc (ncLocalAtom P c.positions) (gVectors c.cell n) c.vol "sbt" with
    | error e => rw [h1] at h; cases h
    | ok vloc =>
      cases h2 : ncBetas L P (gVectors c.cell n) path with
      | error e => rw [h1] at h; simp only [h2] at h; cases h
      | ok bs =>
        rw [h1] at h
        simp only [h2, if_true] at h
        cases h3 : T.optimizer with
        | error e => rw [h3] at h; cases h
        | ok opt =>
          rw [h3] at h
          simp only at h
          split_ifs at h
  constructor
  · intro f h
    unfold bandAtomsNC at h
    cases hc : createCrystal a cfg.spin with
    | error e => rw [hc] at h; cases h
    | ok c =>
      rw [hc] at h
      simp only at h
      cases hP : createPseudo L cfg (List.ofFn fun i => L.symbol (a.numbers i)) with
      | error e => rw [hP] at h; cases h
      | ok P =>
        rw [hP] at h
        simp only at h
        unfold bandCrystalNC at h
        cases hs : runSizes cfg.toRunConfig with
        | error e => rw [hs] at h; cases h
        | ok nn =>
          obtain ⟨n, kn⟩ := nn
          rw [hs] at h
          simp only at h
          cases hm : createFreqMask cfg.toRunConfig c.cell n with
          | error e => rw [hm] at h; cases h
          | ok mask =>
            rw [hm] at h
            simp only at h
            cases hp : bandPoints T b c.cell with
            | error e => rw [hp] at h; cases h
            | ok qq =>
              rw [hp] at h
              exact hgrid _ _ _ _ _ _ _ h
  · intro size ksize P ne spin q frac H
    obtain ⟨n, kn, rep, mask, vloc, -, hrun, hn, -, hmask, hv, -⟩ := ncRun_complete_partial L cfg a size ksize P
      ne spin H.toAdmissibleRunNC _ rfl _ (fun _ _ => rfl) _ fun _ => rfl
    obtain ⟨hc, P', kn', hP', hs, hg⟩ := runAtomsNC_inv L cfg a hrun
    have hPP := H.loaded
    rw [hP'] at hPP
    obtain rfl := Except.ok.inj hPP
    obtain ⟨opt, hopt⟩ := H.bandOptimizer
    obtain ⟨k, hp⟩ : ∃ k, bandPoints T b (Crystal.fromAse a cfg.spin).cell = .ok ⟨q, k⟩ := by
      unfold bandPoints
      rw [show (Crystal.fromAse a cfg.spin).cell = (angstrom2bohr : ℝ) • a.cell from rfl, H.path]
      exact ⟨_, rfl⟩
    obtain ⟨bs, hbs⟩ := ncBetas_ok L cfg _ P' H.loaded H.mesh H.processors
      (gVectors (Crystal.fromAse a cfg.spin).cell n) k
    have hm' : createFreqMask cfg.toRunConfig (Crystal.fromAse a cfg.spin).cell n = .ok mask := hmask
    have hv' : localReciprocal L.jn L.csLoc (ncLocalAtom P' (Crystal.fromAse a cfg.spin).positions)
      (gVectors (Crystal.fromAse a cfg.spin).cell n) (Crystal.fromAse a cfg.spin).vol "sbt" = .ok vloc := hv
    unfold bandAtomsNC bandCrystalNC bandGridNC
    simp only [hc, hP', hs, hm', hp, hv', hbs, if_true, hopt]
    rw [if_neg (not_not.2 (Nat.mod_eq_zero_of_dvd H.share))]

/-- C93: the geometry of a norm-conserving band run, as of a ground-state run (`run_geometry`). -/
theorem bandRunNC_geometry (L : NcLib) (T : BandTools) (cfg : NcConfig) (b : BandConfig) (supplied : Bool) {m : ℕ}
    (a : AseAtoms m) :
    (∀ name, cfg.crystal = some name → L.read (some (L.pkgPath ++ "/geometry/" ++ name ++ ".xyz")) = .ok ⟨m, a⟩ →
      bandRunNC L T cfg b supplied = bandAtomsNC L T cfg b supplied a) ∧
    (cfg.crystal = none → L.read cfg.crystalFile = .ok ⟨m, a⟩ →
      bandRunNC L T cfg b supplied = bandAtomsNC L T cfg b supplied a) := by
  constructor
  · intro name h hr
    unfold bandRunNC crystalPath
    rw [h]
    simp only [hr]
  · intro h hr
    unfold bandRunNC crystalPath
    rw [h]
    simp only [hr]

/-- C93: whenever a norm-conserving band calculation saves a file, for any configuration and geometry, the
ground-state calculation succeeded, the rows are those of all k points of ase, in a number that the devices in use
share, for all channels of its density, and the name is made of the symbols of the atoms; there are at most as many
bands as requested. -/
theorem bandRunNC_saved (L : NcLib) (T : BandTools) (cfg : NcConfig) (b : BandConfig) (supplied : Bool) {m : ℕ}
    (a : AseAtoms m) (hcell : a.cell.det ≠ 0) (f : BandFileNC) (h : bandAtomsNC L T cfg b supplied a = .ok f) :
    supplied = false ∧ (∃ opt, T.optimizer = .ok opt) ∧
      ∃ n rep P q frac, runAtomsNC L cfg a = .ok ⟨n, rep⟩ ∧
        createPseudo L cfg (List.ofFn fun i => L.symbol (a.numbers i)) = .ok P ∧
        T.bandpath (((bohr2angstrom : ℚ) : ℝ) • (angstrom2bohr : ℝ) • a.cell) b.kPath b.numKpoints = .ok ⟨q, frac⟩ ∧
        (if b.parallelPath then L.devices else 1) ∣ q ∧ f.rows = q * rep.density.1 ∧
        f.bands ≤ (P.valence.sum.toNat + 1) / 2 + b.emptyBands ∧
        f.name = String.ofList (List.ofFn fun i => L.symbol (a.numbers i)).flatten ++ "_band_structure.npy" := by
  cases supplied with
  | true => exact absurd h ((bandRunNC_supplied L T cfg b a).1 f)
  | false =>
  refine ⟨rfl, ?_⟩
  have hdet := fromAse_det a cfg.spin hcell
  unfold bandAtomsNC at h
  cases hc : createCrystal a cfg.spin with
  | error e => rw [hc] at h; cases h
  | ok c =>
    obtain rfl : Crystal.fromAse a cfg.spin = c := by
      unfold createCrystal at hc
      simp only at hc
      cases hq : checkSpinNumber (Crystal.fromAse a cfg.spin).numElectron (Crystal.fromAse a cfg.spin).spin with
      | error e => rw [hq] at hc; cases hc
      | ok u => rw [hq] at hc; exact Except.ok.inj hc
    rw [hc] at h
    simp only at h
    cases hP : createPseudo L cfg (List.ofFn fun i => L.symbol (a.numbers i)) with
    | error e => rw [hP] at h; cases h
    | ok P =>
    rw [hP] at h
    simp only at h
    unfold bandCrystalNC at h
    cases hs : runSizes cfg.toRunConfig with
    | error e => rw [hs] at h; cases h
    | ok nn =>
      obtain ⟨n, kn⟩ := nn
      rw [hs] at h
      simp only at h
      cases hm : createFreqMask cfg.toRunConfig (Crystal.fromAse a cfg.spin).cell n with
      | error e => rw [hm] at h; cases h
      | ok mask =>
        rw [hm] at h
        simp only at h
        unfold bandPoints at h
        cases hbp : T.bandpath (((bohr2angstrom : ℚ) : ℝ) • (Crystal.fromAse a cfg.spin).cell) b.kPath
            b.numKpoints with
        | error e => rw [hbp] at h; cases h
        | ok qf =>
          obtain ⟨q, frac⟩ := qf
          rw [hbp] at h
          simp only at h
          unfold bandGridNC at h
          generalize hv : localReciprocal L.jn L.csLoc _ _ _ _ = lv at h
          cases lv with
          | error e => cases h
          | ok vloc =>
          simp only at h
          generalize hb : ncBetas L P _ _ = lb at h
          cases lb with
          | error e => cases h
          | ok bs =>
          simp only [Bool.false_eq_true, if_false] at h
          cases hr : runGridNC L cfg (Crystal.fromAse a cfg.spin) P n kn with
          | error e => rw [hr] at h; cases h
          | ok rep =>
            rw [hr] at h
            simp only at h
            unfold bandLoopNC at h
            cases ho : T.optimizer with
            | error e => rw [ho] at h; cases h
            | ok opt =>
              rw [ho] at h
              simp only at h
              by_cases hd : q % (if b.parallelPath then L.devices else 1) ≠ 0
              · rw [if_pos hd] at h; cases h
              rw [if_neg hd] at h
              generalize he : bandEigNC (bandRunEnvNC L T cfg (Crystal.fromAse a cfg.spin) n mask rep.density.2 vloc
                (fun a : Fin m => ncSpecies P bs a)) _ _ = be at h
              cases be with
              | error e => cases h
              | ok Ke =>
                obtain ⟨K, ev⟩ := Ke
                simp only at h
                generalize hbc : bandCalcNC (bandRunEnvNC L T cfg (Crystal.fromAse a cfg.spin) n mask rep.density.2 vloc
                  (fun a : Fin m => ncSpecies P bs a)) K _ _ _ _ _ _ _ _ = bc at h
                cases bc with
                | error e => cases h
                | ok r =>
                  simp only [Except.ok.injEq] at h
                  subst h
                  obtain ⟨e', g1, -⟩ := bandEigNC_channels (bandRunEnvNC L T cfg (Crystal.fromAse a cfg.spin) n mask
                    rep.density.2 vloc (fun a : Fin m => ncSpecies P bs a)) (Crystal.fromAse a cfg.spin).cell hdet rfl
                    (vol_pos (Crystal.fromAse a cfg.spin) hdet) _ (fun _ _ => rfl) _ _
                  have hK := g1.symm.trans he
                  obtain rfl : rep.density.1 = K := (Sigma.mk.inj (Except.ok.inj hK)).1
                  refine ⟨⟨opt, rfl⟩, n, rep, P, q, frac, ?_, rfl, hbp, Nat.dvd_of_mod_eq_zero (not_not.1 hd), rfl,
                    min_le_right _ _, rfl⟩
                  unfold runAtomsNC runCrystalNC
                  rw [hc]
                  simp only [hP, hs, hr]

/-! ### Concrete cases -/

/-- The hypotheses of `bandRunNC_channels` and of the second half of `bandRunNC_supplied` hold for the silicon pair,
with two spin channels. -/
theorem silicon_band (ε : ℝ) (xc : XcLib) (eigh : Eigh) (jn : SphBessel) (csLoc csBeta : Spline) :
    ∃ P frac, Spec.AdmissibleBandNC (siliconLib xc eigh jn csLoc csBeta) (lithiumTools ε) siliconConfig lithiumBands
      siliconAtoms (fun _ => 4) (fun _ => 2) P 4 0 16 frac := by
  obtain ⟨P, H⟩ := silicon_admissible xc eigh jn csLoc csBeta
  exact ⟨P, _, { H with
    path := rfl
    points := by norm_num
    share := by show 8 ∣ 16; norm_num
    bandWaves := fun n hn mask hm => le_trans (by decide) (H.waves n hn mask hm)
    bandOptimizer := ⟨_, rfl⟩ }⟩

/-- The hypothesis of `bandRunNC_saved`: the calculation of the silicon pair saves 32 rows of 3 bands; with a supplied
ground state it saves nothing. -/
example (ε : ℝ) (xc : XcLib) (eigh : Eigh) (jn : SphBessel) (csLoc csBeta : Spline) :
    (∃ f, bandRunNC (siliconLib xc eigh jn csLoc csBeta) (lithiumTools ε) siliconConfig lithiumBands false = .ok f ∧
      f.name = "SiSi_band_structure.npy" ∧ f.rows = 32 ∧ f.bands = 3) ∧
    bandRunNC (siliconLib xc eigh jn csLoc csBeta) (lithiumTools ε) siliconConfig lithiumBands true
      = .error .nameError := by
  obtain ⟨P, frac, H⟩ := silicon_band ε xc eigh jn csLoc csBeta
  obtain ⟨k, hk⟩ := coordinates_exist (fromAse_det siliconAtoms none (by simp [siliconAtoms])) frac
  obtain ⟨n, rep, mask, vloc, bs, values, -, hd, -, -, -, -, h, -⟩ := bandRunNC_channels _ _ _ _ _ _ _ _ _ _ H _ rfl _
    (fun _ _ => rfl) k hk
  have e : ∀ s, bandRunNC (siliconLib xc eigh jn csLoc csBeta) (lithiumTools ε) siliconConfig lithiumBands s =
      bandAtomsNC (siliconLib xc eigh jn csLoc csBeta) (lithiumTools ε) siliconConfig lithiumBands s siliconAtoms :=
    fun s => (bandRunNC_geometry _ _ _ _ _ _).1 "li" rfl rfl
  rw [e, e, h]
  refine ⟨⟨_, rfl, ?_, ?_, rfl⟩, (bandRunNC_supplied _ _ _ _ _).2 _ _ _ _ _ _ _ H⟩
  · simp [siliconLib]
  · show 16 * rep.density.1 = 32
    rw [hd]
    rfl

/-- Two atoms of the small file around the origin. -/
noncomputable def pairAtoms : AseAtoms 2 :=
  ⟨fun _ => 14, Matrix.of ![![1 / 8, 1 / 8, 1 / 8], ![-1 / 8, -1 / 8, -1 / 8]], 1⟩

/-- A spin-restricted calculation of this pair, with Gram and Schmidt's factorisation and an optimiser that gets
within `ε` of the minimum. -/
noncomputable def pairLib (ε : ℝ) (eigh : Eigh) (jn : SphBessel) (csLoc csBeta : Spline) : NcLib :=
  { siliconLib diracLib eigh jn csLoc csBeta with
    read := fun _ => .ok ⟨2, pairAtoms⟩
    qrC := gramSchmidtQR ℂ
    qrR := gramSchmidtQR ℝ
    optimizer := .ok (nearOptimizer ε) }

noncomputable def pairConfig : NcConfig :=
  { siliconConfig with restricted := true }

/-- The hypotheses of `bandRunNC_near_partial` and `bandRunNC_ground_state_partial` hold for this pair. -/
theorem pair_band {ε δ : ℝ} (hε : 0 < ε) (hδ : 0 < δ) (eigh : Eigh) (jn : SphBessel) (csLoc csBeta : Spline) :
    ∃ P frac k, Spec.AdmissibleBandNC (pairLib ε eigh jn csLoc csBeta) (lithiumTools δ) pairConfig lithiumBands
        pairAtoms (fun _ => 4) (fun _ => 2) P 4 0 16 frac ∧
      Spec.HasCoordinates ((angstrom2bohr : ℝ) • (1 : Matrix (Fin 3) (Fin 3) ℝ)) frac k ∧
      pairConfig.restricted = true ∧ Spec.Triangular (pairLib ε eigh jn csLoc csBeta).qrC ∧
      Spec.Triangular (pairLib ε eigh jn csLoc csBeta).qrR ∧
      Spec.ContinuousXc (pairLib ε eigh jn csLoc csBeta).xc pairConfig.xc ∧ 0 < pairConfig.eps ∧
      pairConfig.occupation ≠ "gamma" ∧
      (∀ opt, (pairLib ε eigh jn csLoc csBeta).optimizer = .ok opt → Spec.NearOptimizer ε opt) ∧
      (∀ opt, (lithiumTools δ).optimizer = .ok opt → Spec.NearBandOptimizer δ opt) ∧
      ∀ {n : Fin 3 → ℕ} bs, ncBetas (pairLib ε eigh jn csLoc csBeta) P
          (gVectors ((angstrom2bohr : ℝ) • (1 : Matrix (Fin 3) (Fin 3) ℝ)) n) k = .ok bs →
        (∀ a : Fin 2, ∃ d, (ncSpecies P bs a).dmat = Matrix.diagonal d ∧ Monotone d ∧ ∀ b, 0 ≤ d b) ∧
        ∃ τ : Equiv.Perm (Fin 2), (∀ a : Fin 2, ncSpecies P bs (τ a) = ncSpecies P bs a) ∧
          ∀ a, Spec.IsLatticeVector ((angstrom2bohr : ℝ) • (1 : Matrix (Fin 3) (Fin 3) ℝ))
            ((fun d => (angstrom2bohr : ℝ) * pairAtoms.positions (τ a) d)
              + fun d => (angstrom2bohr : ℝ) * pairAtoms.positions a d) := by
  obtain ⟨P, h1, h2, h3, h4, h5, h6⟩ := silicon_loaded diracLib eigh jn csLoc csBeta
  obtain ⟨P', H0⟩ := silicon_admissible diracLib eigh jn csLoc csBeta
  have hPP := H0.loaded
  rw [h1] at hPP
  obtain rfl := Except.ok.inj hPP
  have H : Spec.AdmissibleRunNC (pairLib ε eigh jn csLoc csBeta) pairConfig pairAtoms (fun _ => 4) (fun _ => 2) P 4 0 :=
    { H0 with
      cell := by simp [pairAtoms]
      loaded := h1
      occupation := Or.inr ⟨rfl, by show (if true then 8 else 1) ∣ _; decide⟩
      optimizer := ⟨nearOptimizer ε, rfl, nearOptimizer_keeps ε⟩ }
  have hne : (angstrom2bohr : ℝ) ≠ 0 := angstrom_ne
  refine ⟨P, _, fun i l => if l = 0 then 2 * Real.pi * ((i : ℝ) / (2 * 16)) / angstrom2bohr else 0, { H with
    path := rfl
    points := by norm_num
    share := by show 8 ∣ 16; norm_num
    bandWaves := fun n hn mask hm => le_trans (by decide) (H.waves n hn mask hm)
    bandOptimizer := ⟨_, rfl⟩ }, ?_, rfl, gramSchmidtQR_triangular ℂ, gramSchmidtQR_triangular ℝ, diracLib_continuous,
    by norm_num [pairConfig, siliconConfig, lithiumConfig], by decide, ?_, ?_, fun {n} bs hbs => ?_⟩
  · intro i l
    fin_cases l <;> simp [Fin.sum_univ_three, Matrix.one_apply]
    rw [show ((lithiumBands.numKpoints.getD 8 : ℕ) : ℝ) = 16 by norm_num [lithiumBands]]
    field_simp
  · intro opt h
    cases h
    exact nearOptimizer_near hε
  · intro opt h
    cases h
    exact nearBandOptimizer_near hδ
  · have hb : ∃ x : BetaArr 16 n, x.1 = 1 ∧ bs = [x, x] := by
      unfold ncBetas at hbs
      rw [if_neg (by show ¬ 4 / 2 = 0; norm_num), h2, h3, h5] at hbs
      simp only [betaSbtGrid] at hbs
      generalize hx : betaOfLists (pairLib ε eigh jn csLoc csBeta) [2, 2] [[1, 0]] [1] _ = bx at hbs
      cases bx with
      | error e => cases hbs
      | ok x =>
        simp only [Except.ok.injEq] at hbs
        refine ⟨x, ?_, hbs.symm⟩
        unfold betaOfLists betaSbtSingle at hx
        simp [Except.map] at hx
        rw [← hx]
    obtain ⟨⟨nb, x⟩, hx, rfl⟩ := hb
    obtain rfl : nb = 1 := hx
    have hs : ∀ a : Fin 2, ncSpecies P [⟨1, x⟩, ⟨1, x⟩] a = ncSpecies P [⟨1, x⟩, ⟨1, x⟩] 0 := by
      intro a
      unfold ncSpecies
      rw [h5, h6]
      fin_cases a <;> rfl
    refine ⟨fun a => ?_, Equiv.swap 0 1, fun a => ?_, fun a => ⟨0, fun d => ?_⟩⟩
    · rw [hs a]
      refine ⟨fun _ => 1, ?_, fun _ _ _ => le_rfl, fun _ => zero_le_one⟩
      unfold ncSpecies
      rw [h6]
      ext i j
      obtain ⟨i, hi⟩ := i
      obtain ⟨j, hj⟩ := j
      obtain rfl : i = 0 := Nat.lt_one_iff.1 hi
      obtain rfl : j = 0 := Nat.lt_one_iff.1 hj
      simp
    · rw [hs a, hs]
    · fin_cases a <;> fin_cases d <;> simp [pairAtoms] <;> ring

end Jrystal
