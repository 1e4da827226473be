import Verif.Lemmas.FirstUpdate
import Verif.Props.EwaldLimit
import Verif.Props.BandRunNC

/- C96: the Ewald settings only shift the reported energy. -/
namespace Jrystal
open scoped BigOperators

/-- The report with another repulsion energy. -/
private noncomputable def reshift {X : Type} {n : Fin 3 → ℕ} (ew : ℝ) (r : GsReport X n) : GsReport X n :=
  ⟨r.parts, ew, (r.total - r.repulsion) + ew, r.density⟩

private theorem gsRun_reshift {P X : Type*} {n : Fin 3 → ℕ} {Y : Type}
    (dens : P → Except PyErr (Σ S : ℕ, Fin S → Idx n → ℝ))
    (total : P → Except PyErr ℝ) (parts : P → Except PyErr Y) (ew ew' : ℝ) (upd : P × X → ℝ → P × X)
    (epoch : ℤ) (smearing : ℝ) (window : ℤ) (th : ℝ) (p0 : P × X) :
    gsRun dens total parts ew' upd epoch smearing window th p0
      = (gsRun dens total parts ew upd epoch smearing window th p0).map (reshift ew') := by
  unfold gsRun
  cases gsLoop upd (fun p => total p.1) (temperature smearing epoch) epoch.toNat 0 p0
      (Checker.new window th) none with
  | error e => rfl
  | ok pe =>
    obtain ⟨p, etot⟩ := pe
    dsimp only
    cases dens p.1 with
    | error e => rfl
    | ok d =>
      dsimp only
      cases parts p.1 with
      | error e => rfl
      | ok x =>
        dsimp only
        cases etot with
        | none => rfl
        | some e =>
          show Except.ok _ = Except.ok (reshift ew' _)
          unfold reshift
          simp

private theorem runLoop_reshift (L : RunLib) (cfg : RunConfig) (e x : ℝ) {na nk : ℕ} {n : Fin 3 → ℕ}
    (E : GsEnv na nk n) (ew ew' : ℝ) :
    runLoop L { cfg with ewaldEta := e, ewaldCutoff := x } E ew' = (runLoop L cfg E ew).map (reshift ew') := by
  unfold runLoop
  cases L.optimizer with
  | error e => rfl
  | ok opt =>
    dsimp only
    cases gsInit (empty := cfg.emptyBands) E L.occDraw
        (L.pwDraw (if cfg.restricted then 1 else 2) nk (maskCount E.mask)
          (driverBands E.ne.toNat cfg.emptyBands)) with
    | error e => rfl
    | ok p =>
      dsimp only
      rw [← firstUpdate_map]
      exact congrArg _ (gsRun_reshift _ _ _ ew ew' _ _ _ _ _ _)

private theorem runLoopNC_reshift (L : RunLib) (cfg : RunConfig) (e x : ℝ) (util : ℕ) {na nk M : ℕ} {ι : Type}
    [Fintype ι] {n : Fin 3 → ℕ} (E : GsEnv na nk n) (vloc : Idx n → ℂ)
    (psi : Fin nk → ι → Fin M → Idx n → ℂ) (ew ew' : ℝ) :
    runLoopNC L { cfg with ewaldEta := e, ewaldCutoff := x } util E vloc psi ew'
      = (runLoopNC L cfg util E vloc psi ew).map (reshift ew') := by
  unfold runLoopNC
  cases L.optimizer with
  | error e => rfl
  | ok opt =>
    dsimp only
    cases gsInitNC (empty := cfg.emptyBands) E L.occDraw
        (L.pwDraw (if cfg.restricted then 1 else 2) nk (maskCount E.mask)
          (driverBands E.ne.toNat cfg.emptyBands)) with
    | error e => rfl
    | ok p =>
      dsimp only
      by_cases h : occPlaceable util p.occ = false
      · rw [if_pos h, if_pos h]
        rfl
      · rw [if_neg h, if_neg h]
        rw [← firstUpdate_map]
        exact congrArg _ (gsRun_reshift _ _ _ ew ew' _ _ _ _ _ _)

private theorem repulsion_ok (erfc : ℝ → ℝ) (cfg : RunConfig) {m : ℕ} (c : Crystal m) (hc : c.cell.det ≠ 0)
    (hx : 0 < cfg.ewaldCutoff) (n : Fin 3 → ℕ) :
    runRepulsion erfc cfg c n = .ok (driverRepulsion erfc c (gVectors c.cell n) cfg.ewaldEta
      (flatRows (translationVectors c.cell cfg.ewaldCutoff))) := by
  have hpos : 0 < translationCount c.cell cfg.ewaldCutoff := by
    unfold translationCount
    refine Int.ceil_pos.mpr (div_pos hx ?_)
    exact rowSum_pos c.cell hc
  unfold runRepulsion
  rw [if_neg (by omega), if_neg (by omega)]

private theorem runGrid_ew (L : RunLib) (cfg : RunConfig) (e x : ℝ) {m : ℕ} (c : Crystal m)
    (hc : c.cell.det ≠ 0) (h0 : 0 < cfg.ewaldCutoff) (hx : 0 < x) (n kn : Fin 3 → ℕ) :
    runGrid L { cfg with ewaldEta := e, ewaldCutoff := x } c n kn
      = (runGrid L cfg c n kn).map (reshift (driverRepulsion L.erfc c (gVectors c.cell n) e
          (flatRows (translationVectors c.cell x)))) := by
  unfold runGrid
  rw [repulsion_ok L.erfc cfg c hc h0 n,
    repulsion_ok L.erfc { cfg with ewaldEta := e, ewaldCutoff := x } c hc hx n]
  change (match createFreqMask cfg c.cell n with | .error e => _ | .ok mask => _) = _
  cases createFreqMask cfg c.cell n with
  | error e => rfl
  | ok mask =>
    dsimp only
    split_ifs
    all_goals first | rfl | exact runLoop_reshift L cfg e x _ _ _

private theorem runGridNC_ew (L : NcLib) (cfg : NcConfig) (e x : ℝ) {m : ℕ} (c : Crystal m) (P : NcLists)
    (hc : c.cell.det ≠ 0) (h0 : 0 < cfg.ewaldCutoff) (hx : 0 < x) (n kn : Fin 3 → ℕ) :
    runGridNC L { cfg with ewaldEta := e, ewaldCutoff := x } c P n kn
      = (runGridNC L cfg c P n kn).map (reshift (driverRepulsion L.erfc c (gVectors c.cell n) e
          (flatRows (translationVectors c.cell x)))) := by
  unfold runGridNC
  rw [repulsion_ok L.erfc cfg.toRunConfig c hc h0 n,
    repulsion_ok L.erfc ({ cfg with ewaldEta := e, ewaldCutoff := x } : NcConfig).toRunConfig c hc hx n]
  change (match createFreqMask cfg.toRunConfig c.cell n with | .error e => _ | .ok mask => _) = _
  cases createFreqMask cfg.toRunConfig c.cell n with
  | error e => rfl
  | ok mask =>
    dsimp only
    cases localReciprocal L.jn L.csLoc (ncLocalAtom P c.positions) (gVectors c.cell n) c.vol "sbt" with
    | error e => rfl
    | ok vloc =>
      dsimp only
      split_ifs
      all_goals first
        | rfl
        | (cases ncBetas L P (gVectors c.cell n) (flatRows (kVectors c.cell kn)) with
          | error e => rfl
          | ok bs => exact runLoopNC_reshift L.toRunLib cfg.toRunConfig e x _ _ _ _ _ _)

private theorem runAtoms_ew (L : RunLib) (cfg : RunConfig) (e x : ℝ) {m : ℕ} (a : AseAtoms m)
    (hc : a.cell.det ≠ 0) (h0 : 0 < cfg.ewaldCutoff) (hx : 0 < x) :
    runAtoms L { cfg with ewaldEta := e, ewaldCutoff := x } a
      = (runAtoms L cfg a).map fun q => ⟨q.1, reshift (driverRepulsion L.erfc (Crystal.fromAse a cfg.spin)
          (gVectors (Crystal.fromAse a cfg.spin).cell q.1) e
          (flatRows (translationVectors (Crystal.fromAse a cfg.spin).cell x))) q.2⟩ := by
  unfold runAtoms
  have hcr : ∀ c, createCrystal a cfg.spin = .ok c → c = Crystal.fromAse a cfg.spin := by
    intro c h
    unfold createCrystal at h
    dsimp only at h
    split at h
    · cases h
    · exact (Except.ok.inj h).symm
  change (match createCrystal a cfg.spin with | .error e => _ | .ok c => _) = _
  cases hcc : createCrystal a cfg.spin with
  | error e => rfl
  | ok c =>
    have := hcr c hcc
    subst this
    dsimp only
    unfold runCrystal
    change (match runSizes cfg with | .error e => _ | .ok (n, kn) => _) = _
    cases runSizes cfg with
    | error e => rfl
    | ok s =>
      obtain ⟨n, kn⟩ := s
      dsimp only
      rw [runGrid_ew L cfg e x _ (fromAse_det a cfg.spin hc) h0 hx n kn]
      cases runGrid L cfg (Crystal.fromAse a cfg.spin) n kn <;> rfl

private theorem runAtomsNC_ew (L : NcLib) (cfg : NcConfig) (e x : ℝ) {m : ℕ} (a : AseAtoms m)
    (hc : a.cell.det ≠ 0) (h0 : 0 < cfg.ewaldCutoff) (hx : 0 < x) :
    runAtomsNC L { cfg with ewaldEta := e, ewaldCutoff := x } a
      = (runAtomsNC L cfg a).map fun q => ⟨q.1, reshift (driverRepulsion L.erfc (Crystal.fromAse a cfg.spin)
          (gVectors (Crystal.fromAse a cfg.spin).cell q.1) e
          (flatRows (translationVectors (Crystal.fromAse a cfg.spin).cell x))) q.2⟩ := by
  unfold runAtomsNC
  have hcr : ∀ c, createCrystal a cfg.spin = .ok c → c = Crystal.fromAse a cfg.spin := by
    intro c h
    unfold createCrystal at h
    dsimp only at h
    split at h
    · cases h
    · exact (Except.ok.inj h).symm
  change (match createCrystal a cfg.spin with | .error e => _ | .ok c => _) = _
  cases hcc : createCrystal a cfg.spin with
  | error e => rfl
  | ok c =>
    have := hcr c hcc
    subst this
    dsimp only
    change (match createPseudo L cfg _ with | .error e => _ | .ok P => _) = _
    cases createPseudo L cfg (List.ofFn fun i => L.symbol (a.numbers i)) with
    | error e => rfl
    | ok P =>
      dsimp only
      unfold runCrystalNC
      change (match runSizes cfg.toRunConfig with | .error e => _ | .ok (n, kn) => _) = _
      cases runSizes cfg.toRunConfig with
      | error e => rfl
      | ok s =>
        obtain ⟨n, kn⟩ := s
        dsimp only
        rw [runGridNC_ew L cfg e x _ P (fromAse_det a cfg.spin hc) h0 hx n kn]
        cases runGridNC L cfg (Crystal.fromAse a cfg.spin) P n kn <;> rfl

/-- The repulsion energy of a successful all-electron run. -/
theorem run_repulsion (L : RunLib) (cfg : RunConfig) {m : ℕ} (a : AseAtoms m) (hcell : a.cell.det ≠ 0)
    (h0 : 0 < cfg.ewaldCutoff) {n : Fin 3 → ℕ} {r : GsReport EnergyParts n} (h : runAtoms L cfg a = .ok ⟨n, r⟩) :
    runRepulsion L.erfc cfg (Crystal.fromAse a cfg.spin) n = .ok r.repulsion := by
  have h1 := runAtoms_ew L cfg cfg.ewaldEta cfg.ewaldCutoff a hcell h0 h0
  change runAtoms L cfg a = _ at h1
  rw [h] at h1
  have h2 := eq_of_heq (Sigma.mk.inj (Except.ok.inj h1)).2
  rw [repulsion_ok L.erfc cfg _ (fromAse_det a cfg.spin hcell) h0 n, h2]
  rfl

/-- The repulsion energy of a successful norm-conserving run. -/
theorem ncRun_repulsion (L : NcLib) (cfg : NcConfig) {m : ℕ} (a : AseAtoms m) (hcell : a.cell.det ≠ 0)
    (h0 : 0 < cfg.ewaldCutoff) {n : Fin 3 → ℕ} {r : GsReport (EnergyParts × ℝ) n}
    (h : runAtomsNC L cfg a = .ok ⟨n, r⟩) :
    runRepulsion L.erfc cfg.toRunConfig (Crystal.fromAse a cfg.spin) n = .ok r.repulsion := by
  have h1 := runAtomsNC_ew L cfg cfg.ewaldEta cfg.ewaldCutoff a hcell h0 h0
  change runAtomsNC L cfg a = _ at h1
  rw [h] at h1
  have h2 := eq_of_heq (Sigma.mk.inj (Except.ok.inj h1)).2
  rw [repulsion_ok L.erfc cfg.toRunConfig _ (fromAse_det a cfg.spin hcell) h0 n, h2]
  rfl

/-- C96: another splitting parameter `e` and another positive real-space cutoff `x` change neither the
error of a failing all-electron calculation, nor the energies, the density and the total energy without the repulsion
of the nuclei of a finished one. -/
theorem run_ewald_settings (L : RunLib) (cfg : RunConfig) (e x : ℝ) {m : ℕ} (a : AseAtoms m)
    (hcell : a.cell.det ≠ 0) (h0 : 0 < cfg.ewaldCutoff) (hx : 0 < x) :
    (∀ err, runAtoms L cfg a = .error err →
      runAtoms L { cfg with ewaldEta := e, ewaldCutoff := x } a = .error err) ∧
    ∀ n (r : GsReport EnergyParts n), runAtoms L cfg a = .ok ⟨n, r⟩ →
      ∃ r' : GsReport EnergyParts n, runAtoms L { cfg with ewaldEta := e, ewaldCutoff := x } a = .ok ⟨n, r'⟩ ∧
        r'.parts = r.parts ∧ r'.density = r.density ∧ r'.total - r'.repulsion = r.total - r.repulsion := by
  rw [runAtoms_ew L cfg e x a hcell h0 hx]
  refine ⟨fun err h => by rw [h]; rfl, fun n r h => ?_⟩
  rw [h]
  refine ⟨_, rfl, rfl, rfl, ?_⟩
  unfold reshift
  ring

/-- C96: the same for calculations with norm-conserving pseudopotentials. -/
theorem ncRun_ewald_settings (L : NcLib) (cfg : NcConfig) (e x : ℝ) {m : ℕ} (a : AseAtoms m)
    (hcell : a.cell.det ≠ 0) (h0 : 0 < cfg.ewaldCutoff) (hx : 0 < x) :
    (∀ err, runAtomsNC L cfg a = .error err →
      runAtomsNC L { cfg with ewaldEta := e, ewaldCutoff := x } a = .error err) ∧
    ∀ n (r : GsReport (EnergyParts × ℝ) n), runAtomsNC L cfg a = .ok ⟨n, r⟩ →
      ∃ r' : GsReport (EnergyParts × ℝ) n,
        runAtomsNC L { cfg with ewaldEta := e, ewaldCutoff := x } a = .ok ⟨n, r'⟩ ∧
        r'.parts = r.parts ∧ r'.density = r.density ∧ r'.total - r'.repulsion = r.total - r.repulsion := by
  rw [runAtomsNC_ew L cfg e x a hcell h0 hx]
  refine ⟨fun err h => by rw [h]; rfl, fun n r h => ?_⟩
  rw [h]
  refine ⟨_, rfl, rfl, rfl, ?_⟩
  unfold reshift
  ring

/-- C96: an all-electron band-structure calculation saves the same file, or fails with the same error, whatever
the splitting parameter and the positive cutoff. -/
theorem bandRun_ewald_settings (L : RunLib) (T : BandTools) (cfg : RunConfig) (b : BandConfig) (e x : ℝ) {m : ℕ}
    (a : AseAtoms m) (hcell : a.cell.det ≠ 0) (h0 : 0 < cfg.ewaldCutoff) (hx : 0 < x) :
    bandAtoms L T { cfg with ewaldEta := e, ewaldCutoff := x } b a = bandAtoms L T cfg b a := by
  unfold bandAtoms
  change (match createCrystal a cfg.spin with | .error e => _ | .ok c => _) = _
  have hcr : ∀ c, createCrystal a cfg.spin = .ok c → c = Crystal.fromAse a cfg.spin := by
    intro c h
    unfold createCrystal at h
    dsimp only at h
    split at h
    · cases h
    · exact (Except.ok.inj h).symm
  cases hcc : createCrystal a cfg.spin with
  | error e => rfl
  | ok c =>
    have := hcr c hcc
    subst this
    dsimp only
    unfold bandCrystal
    change (match runSizes cfg with | .error e => _ | .ok (n, kn) => _) = _
    cases runSizes cfg with
    | error e => rfl
    | ok s =>
      obtain ⟨n, kn⟩ := s
      dsimp only
      change (match createFreqMask cfg _ n with | .error e => _ | .ok mask => _) = _
      cases createFreqMask cfg (Crystal.fromAse a cfg.spin).cell n with
      | error e => rfl
      | ok mask =>
        dsimp only
        cases bandPoints T b (Crystal.fromAse a cfg.spin).cell with
        | error e => rfl
        | ok path =>
          dsimp only
          unfold bandGrid
          rw [runGrid_ew L cfg e x _ (fromAse_det a cfg.spin hcell) h0 hx n kn]
          cases runGrid L cfg (Crystal.fromAse a cfg.spin) n kn with
          | error e => rfl
          | ok r => rfl

/-- C96: the same for band structures with norm-conserving pseudopotentials. -/
theorem bandRunNC_ewald_settings (L : NcLib) (T : BandTools) (cfg : NcConfig) (b : BandConfig) (supplied : Bool)
    (e x : ℝ) {m : ℕ} (a : AseAtoms m) (hcell : a.cell.det ≠ 0) (h0 : 0 < cfg.ewaldCutoff) (hx : 0 < x) :
    bandAtomsNC L T { cfg with ewaldEta := e, ewaldCutoff := x } b supplied a
      = bandAtomsNC L T cfg b supplied a := by
  unfold bandAtomsNC
  change (match createCrystal a cfg.spin with | .error e => _ | .ok c => _) = _
  have hcr : ∀ c, createCrystal a cfg.spin = .ok c → c = Crystal.fromAse a cfg.spin := by
    intro c h
    unfold createCrystal at h
    dsimp only at h
    split at h
    · cases h
    · exact (Except.ok.inj h).symm
  cases hcc : createCrystal a cfg.spin with
  | error e => rfl
  | ok c =>
    have := hcr c hcc
    subst this
    dsimp only
    change (match createPseudo L cfg _ with | .error e => _ | .ok P => _) = _
    cases createPseudo L cfg (List.ofFn fun i => L.symbol (a.numbers i)) with
    | error e => rfl
    | ok P =>
      dsimp only
      unfold bandCrystalNC
      change (match runSizes cfg.toRunConfig with | .error e => _ | .ok (n, kn) => _) = _
      cases runSizes cfg.toRunConfig with
      | error e => rfl
      | ok s =>
        obtain ⟨n, kn⟩ := s
        dsimp only
        change (match createFreqMask cfg.toRunConfig _ n with | .error e => _ | .ok mask => _) = _
        cases createFreqMask cfg.toRunConfig (Crystal.fromAse a cfg.spin).cell n with
        | error e => rfl
        | ok mask =>
          dsimp only
          cases bandPoints T b (Crystal.fromAse a cfg.spin).cell with
          | error e => rfl
          | ok path =>
            dsimp only
            unfold bandGridNC
            rw [runGridNC_ew L cfg e x _ P (fromAse_det a cfg.spin hcell) h0 hx n kn]
            cases runGridNC L cfg (Crystal.fromAse a cfg.spin) P n kn with
            | error e => rfl
            | ok r => rfl

/-- C96: with the true complementary error function and separated nuclei, two splitting parameters `e ≤ e'` give
total energies that agree up to the error of `Spec.splittingError` on large enough grids with large enough cutoffs;
the density is the same. -/
theorem run_eta_independent {m : ℕ} (a : AseAtoms m) (hcell : a.cell.det ≠ 0)
    (hsep : Spec.Separated ((angstrom2bohr : ℝ) • a.cell) fun i d => (angstrom2bohr : ℝ) * a.positions i d)
    (e e' : ℝ) (he : 0 < e) (hee : e ≤ e') (ε : ℝ) (hε : 0 < ε) :
    ∃ N : ℕ, ∀ (L : RunLib) (cfg : RunConfig) (x : ℝ) (n : Fin 3 → ℕ) (r : GsReport EnergyParts n),
      L.erfc = Spec.erfc → cfg.ewaldEta = e → (N : ℝ) ≤ cfg.ewaldCutoff → (N : ℝ) ≤ x → (∀ i, N ≤ n i) →
      runAtoms L cfg a = .ok ⟨n, r⟩ →
      ∃ r' : GsReport EnergyParts n, runAtoms L { cfg with ewaldEta := e', ewaldCutoff := x } a = .ok ⟨n, r'⟩ ∧
        r'.parts = r.parts ∧ r'.density = r.density ∧
        |r'.total - r.total| < Spec.splittingError ((angstrom2bohr : ℝ) • a.cell)
          (fun i => (a.numbers i : ℝ)) e e' + ε := by
  have hdet := fromAse_det a none hcell
  obtain ⟨N, hN⟩ := nuclearRepulsion_eta_independent ((angstrom2bohr : ℝ) • a.cell) hdet
    (fun i d => (angstrom2bohr : ℝ) * a.positions i d) hsep (fun i => (a.numbers i : ℝ)) e e' he hee ε hε
  refine ⟨N + 1, fun L cfg x n r hL hc h1 h2 h3 hr => ?_⟩
  push_cast at h1 h2
  have hNn : (0 : ℝ) ≤ N := Nat.cast_nonneg N
  have h0 : 0 < cfg.ewaldCutoff := by linarith
  have hx : 0 < x := by linarith
  obtain ⟨r', hr', hp, hd, ht⟩ := (run_ewald_settings L cfg e' x a hcell h0 hx).2 n r hr
  refine ⟨r', hr', hp, hd, ?_⟩
  obtain ⟨E, E', hE, hE', hlt⟩ := hN n n cfg.ewaldCutoff x (fun i => by have := h3 i; omega)
    (fun i => by have := h3 i; omega) (by linarith) (by linarith)
  have k1 := run_repulsion L cfg a hcell h0 hr
  have k2 := run_repulsion L _ a hcell hx hr'
  rw [runRepulsion_eq, hL] at k1 k2
  have e1 : E = r.repulsion := Except.ok.inj (hE.symm.trans (hc ▸ k1))
  have e2 : E' = r'.repulsion := Except.ok.inj (hE'.symm.trans k2)
  have : r'.total - r.total = -(E - E') := by rw [e1, e2]; linarith
  rw [this, abs_neg]
  exact hlt

/-- The hypotheses are met by the lithium calculation, here repeated with a splitting parameter of 1/2 and a cutoff of
5. -/
example (xc : XcLib) : ∃ rep : GsReport EnergyParts fun _ => 4,
    runAtoms (lithiumLib xc) { lithiumConfig with ewaldEta := 1 / 2, ewaldCutoff := 5 }
      (⟨fun _ => 3, 0, 1⟩ : AseAtoms 1) = .ok ⟨fun _ => 4, rep⟩ := by
  obtain ⟨rep, h, -⟩ := lithium_runs xc
  have h' : runAtoms (lithiumLib xc) lithiumConfig (⟨fun _ => 3, 0, 1⟩ : AseAtoms 1) = .ok ⟨fun _ => 4, rep⟩ := h
  obtain ⟨r', hr', -⟩ := (run_ewald_settings (lithiumLib xc) lithiumConfig (1 / 2) 5
    (⟨fun _ => 3, 0, 1⟩ : AseAtoms 1) (by simp) (by norm_num [lithiumConfig]) (by norm_num)).2 _ rep h'
  exact ⟨r', hr'⟩

/-- A lone lithium atom in a cell of one ångström is separated from its images. -/
theorem lithium_separated : Spec.Separated ((angstrom2bohr : ℝ) • (1 : Matrix (Fin 3) (Fin 3) ℝ))
    (fun (i : Fin 1) d => (angstrom2bohr : ℝ) * (0 : Matrix (Fin 1) (Fin 3) ℝ) i d) := by
  intro i j z h
  obtain rfl : i = j := Subsingleton.elim _ _
  obtain ⟨d, hd⟩ := Function.ne_iff.mp (h.resolve_left fun h => h rfl)
  have hz : (1 : ℝ) ≤ (z d : ℝ) * z d := by
    have : (1 : ℤ) ≤ z d * z d := by
      have := mul_self_pos.mpr hd
      omega
    exact_mod_cast this
  have hl : ∀ d, Spec.latticePoint ((angstrom2bohr : ℝ) • (1 : Matrix (Fin 3) (Fin 3) ℝ)) z d
      = (angstrom2bohr : ℝ) * z d := by
    intro d
    unfold Spec.latticePoint
    simp [Matrix.one_apply, mul_comm]
  unfold Spec.dot
  simp_rw [hl]
  have h2 := Finset.single_le_sum (f := fun d => (0 - (angstrom2bohr : ℝ) * (z d : ℝ)) * (0 - (angstrom2bohr : ℝ) * z d))
    (fun d _ => mul_self_nonneg _) (Finset.mem_univ d)
  have h3 : (1 : ℝ) ≤ (angstrom2bohr : ℝ) := by
    have : (1 : ℚ) ≤ angstrom2bohr := by decide +kernel
    exact_mod_cast this
  have h4 : (99e-20 : ℝ) < (0 - (angstrom2bohr : ℝ) * (z d : ℝ)) * (0 - (angstrom2bohr : ℝ) * z d) := by
    have : (0 - (angstrom2bohr : ℝ) * (z d : ℝ)) * (0 - (angstrom2bohr : ℝ) * z d)
        = (angstrom2bohr : ℝ) * angstrom2bohr * ((z d : ℝ) * z d) := by ring
    rw [this]
    have h5 : (1 : ℝ) ≤ (angstrom2bohr : ℝ) * angstrom2bohr := by nlinarith
    have h6 : (1 : ℝ) ≤ (angstrom2bohr : ℝ) * angstrom2bohr * ((z d : ℝ) * z d) := by nlinarith
    norm_num
    linarith
  simpa using h4.trans_le h2

end Jrystal
