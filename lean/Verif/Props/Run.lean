import Verif.Lemmas.FirstUpdate
import Verif.Model.Run
import Verif.Spec.Run
import Verif.Props.Driver
import Verif.Props.FftSize
import Verif.Props.Mesh
import Verif.Props.Crystal
import Verif.Props.Ewald
import Verif.Lemmas.RunSetup

/- C79: a whole ground-state calculation, from the configuration to the report. -/
namespace Jrystal
open scoped BigOperators ComplexConjugate
open Matrix RunSetup

private theorem proper_ok {g : GridArg} {size : Fin 3 → ℤ} (h : Spec.SizesOk g size) :
    ∃ a b c : ℕ, properGridSize g = .ok [a, b, c] ∧ Spec.LeastGrid size ![a, b, c] := by
  obtain ⟨hg, hs⟩ := h
  have hv : properGridSize g = properGridSize (.vec [size 0, size 1, size 2]) := by
    rcases hg with rfl | ⟨rfl, h1, h2⟩
    · rfl
    · rw [h1, h2]; rfl
  obtain ⟨h1, h2⟩ := properGridSize_vec [size 0, size 1, size 2]
  obtain ⟨out, ho⟩ := h2.1 (by simp [hs])
  have h3 := h1 out ho
  rw [hv, ho]
  cases h3 with
  | cons ha h3 =>
    cases h3 with
    | cons hb h3 =>
      cases h3 with
      | cons hc h3 =>
        cases h3
        refine ⟨_, _, _, rfl, fun i => ?_⟩
        fin_cases i
        · exact ha
        · exact hb
        · exact hc

/-- C79: the grids of a run are the least admissible ones that hold the requested sizes. -/
theorem run_sizes (cfg : RunConfig) (size ksize : Fin 3 → ℤ) (hg : Spec.SizesOk cfg.gridSizes size)
    (hk : Spec.SizesOk cfg.kGridSizes ksize) :
    ∃ n kn, runSizes cfg = .ok (n, kn) ∧ Spec.LeastGrid size n ∧ Spec.LeastGrid ksize kn := by
  obtain ⟨a, b, c, h1, h2⟩ := proper_ok hg
  obtain ⟨a', b', c', h1', h2'⟩ := proper_ok hk
  refine ⟨![a, b, c], ![a', b', c'], ?_, h2, h2'⟩
  unfold runSizes createGridsSizes
  rw [h1, h1']
  rfl

private theorem gsInit_ok {na nk ns empty : ℕ} {n : Fin 3 → ℕ} (E : GsEnv na nk n)
    (draw : ∀ n m : ℕ, Matrix (Fin n) (Fin m) ℝ)
    (pw0 : PwParams ns nk (maskCount E.mask) (driverBands E.ne.toNat empty))
    (q : OccParams nk (driverBands E.ne.toNat empty))
    (h : occParamInit draw (driverBands E.ne.toNat empty) E.ne nk E.spin E.method E.restricted = .ok q) :
    gsInit E draw pw0 = .ok ⟨pw0, q⟩ := by
  unfold gsInit
  rw [h]
  rfl

/-- What an admissible run has built when its loop starts. -/
theorem run_setup (L : RunLib) (cfg : RunConfig) {m : ℕ} (a : AseAtoms m) (size ksize : Fin 3 → ℤ)
    (ne spin : ℤ) (H : Spec.AdmissibleRun L cfg a size ksize ne spin) :
    ∃ n kn mask, ∃ opt : Optimizer, ∃ ew : ℝ, ∃ q : OccParams (idxList kn).length
        (driverBands (runEnv L cfg (Crystal.fromAse a cfg.spin) n kn mask).ne.toNat cfg.emptyBands),
      L.optimizer = .ok opt ∧ Spec.LeastGrid size n ∧ Spec.LeastGrid ksize kn ∧
      createFreqMask cfg ((angstrom2bohr : ℝ) • a.cell) n = .ok mask ∧
      ew = ewald L.erfc (Crystal.fromAse a cfg.spin).positions (fun i => (a.numbers i : ℝ))
        (gVectors (Crystal.fromAse a cfg.spin).cell n) (Crystal.fromAse a cfg.spin).vol cfg.ewaldEta
        (flatRows (translationVectors (Crystal.fromAse a cfg.spin).cell cfg.ewaldCutoff)) ∧
      (Crystal.fromAse a cfg.spin).cell.det ≠ 0 ∧
      (Crystal.fromAse a cfg.spin).numElectron = ne ∧ (Crystal.fromAse a cfg.spin).spin = spin ∧
      driverBands (runEnv L cfg (Crystal.fromAse a cfg.spin) n kn mask).ne.toNat cfg.emptyBands
        ≤ maskCount mask ∧
      Spec.Placeable cfg.occupation (Crystal.fromAse a cfg.spin).numElectron (Crystal.fromAse a cfg.spin).spin
        cfg.emptyBands ∧
      (∀ p t, Spec.KeepsShape p.1.occ (runUpdate opt (ns := if cfg.restricted then 1 else 2)
        (nb := driverBands (runEnv L cfg (Crystal.fromAse a cfg.spin) n kn mask).ne.toNat cfg.emptyBands)
        (runEnv L cfg (Crystal.fromAse a cfg.spin) n kn mask) p t).1.occ) ∧
      ∃ pw0 : PwParams (if cfg.restricted then 1 else 2) (idxList kn).length
          (maskCount (runEnv L cfg (Crystal.fromAse a cfg.spin) n kn mask).mask)
          (driverBands (runEnv L cfg (Crystal.fromAse a cfg.spin) n kn mask).ne.toNat cfg.emptyBands),
        gsInit (empty := cfg.emptyBands) (runEnv L cfg (Crystal.fromAse a cfg.spin) n kn mask) L.occDraw pw0
          = .ok ⟨pw0, q⟩ ∧
        ∀ rep, gsCalc (runEnv L cfg (Crystal.fromAse a cfg.spin) n kn mask) ew
            (runUpdate opt (runEnv L cfg (Crystal.fromAse a cfg.spin) n kn mask)) cfg.epoch cfg.smearing
            cfg.window cfg.threshold (⟨pw0, q⟩, opt.init ⟨pw0, q⟩) = .ok rep →
          runAtoms L cfg a = .ok ⟨n, rep⟩ := by
  obtain ⟨n, kn, hs, hn, hkn⟩ := run_sizes cfg size ksize H.sizes H.ksizes
  obtain ⟨opt, hopt, hstep⟩ := H.optimizer
  set c := Crystal.fromAse a cfg.spin with hc
  have hcell : c.cell = (angstrom2bohr : ℝ) • a.cell := rfl
  have hcne : c.numElectron = ne := H.electrons.symm
  have hcs : c.spin = spin := by
    rw [H.unpaired, H.electrons, hc]
    unfold Crystal.fromAse
    cases cfg.spin <;> rfl
  have hdet : c.cell.det ≠ 0 := by
    rw [hcell, Matrix.det_smul]
    refine mul_ne_zero (pow_ne_zero _ ?_) H.cell
    norm_num [angstrom2bohr]
  have hcreate : createCrystal a cfg.spin = .ok c := by
    have h1 : checkSpinNumber c.numElectron c.spin = .ok () := by
      rw [hcne, hcs]
      exact if_neg (by simp [H.placeable.1])
    unfold createCrystal
    simp only [← hc, h1]
  obtain ⟨mask, hmk⟩ : ∃ mask, createFreqMask cfg c.cell n = .ok mask := by
    unfold createFreqMask
    rcases H.method with h | h
    · exact ⟨_, if_pos h⟩
    · rw [h]; exact ⟨_, rfl⟩
  have hcount := H.waves n hn mask (hcell ▸ hmk)
  rw [← maskCount_card] at hcount
  have htr := translationCount_pos c.cell hdet cfg.ewaldCutoff H.ewald
  have hrep : runRepulsion L.erfc cfg c n = .ok (driverRepulsion L.erfc c (gVectors c.cell n) cfg.ewaldEta
      (flatRows (translationVectors c.cell cfg.ewaldCutoff))) := by
    unfold runRepulsion
    rw [if_neg (by omega), if_neg (by omega)]
  have hdv : (idxList kn).length % (if cfg.parallelK then L.devices else 1) = 0 := by
    rw [idxList_length]
    exact Nat.mod_eq_zero_of_dvd (H.devices kn hkn)
  have hpl : Spec.Placeable cfg.occupation c.numElectron c.spin cfg.emptyBands := by
    rw [hcne, hcs]; exact H.placeable
  obtain ⟨q, hq⟩ := occParamInit_ok (nk := (idxList kn).length) L.occDraw c.numElectron c.spin cfg.occupation
    cfg.restricted hpl
  refine ⟨n, kn, mask, opt, _, q, hopt, hn, hkn, hmk, rfl, hdet, hcne, hcs, ?_, hpl, fun p t => hstep _ p,
    L.pwDraw (if cfg.restricted then 1 else 2) (idxList kn).length _ _, ?_, fun rep hrun => ?_⟩
  · show driverBands c.numElectron.toNat cfg.emptyBands ≤ maskCount mask
    rw [hcne]; exact hcount
  · exact gsInit_ok (runEnv L cfg c n kn mask) _ _ q hq
  · have hloop : runLoop L cfg (runEnv L cfg c n kn mask) (driverRepulsion L.erfc c (gVectors c.cell n)
        cfg.ewaldEta (flatRows (translationVectors c.cell cfg.ewaldCutoff))) = .ok rep := by
      unfold runLoop
      simp only [hopt]
      have hinit : gsInit (empty := cfg.emptyBands) (runEnv L cfg c n kn mask) L.occDraw
          (L.pwDraw (if cfg.restricted then 1 else 2) (idxList kn).length _ _) = .ok ⟨_, q⟩ :=
        gsInit_ok (runEnv L cfg c n kn mask) _ _ q hq
      rw [hinit]
      exact (firstUpdate_keep H.noFault _ _ _).trans hrun
    unfold runAtoms
    rw [hcreate]
    unfold runCrystal runGrid
    simp only [hs, hmk, hrep, hdv, ne_eq, not_true_eq_false, if_false]
    rw [hloop]

/-- C79: every admissible calculation succeeds and returns a physical density: non-negative, with one channel
per spin, holding all electrons and the requested polarisation. -/
theorem run_complete_partial (L : RunLib) (cfg : RunConfig) {m : ℕ} (a : AseAtoms m) (size ksize : Fin 3 → ℤ)
    (ne spin : ℤ) (H : Spec.AdmissibleRun L cfg a size ksize ne spin) :
    ∃ n rep, runAtoms L cfg a = .ok ⟨n, rep⟩ ∧ Spec.LeastGrid size n ∧
      rep.density.1 = (if cfg.restricted then 1 else 2) ∧
      (∀ s j, 0 ≤ rep.density.2 s j) ∧
      ∑ s, Spec.cellIntegral |((angstrom2bohr : ℝ) • a.cell).det| (rep.density.2 s) = ne ∧
      ∀ s s' : Fin rep.density.1, (s : ℕ) = 0 → (s' : ℕ) = 1 →
        Spec.cellIntegral |((angstrom2bohr : ℝ) • a.cell).det| (rep.density.2 s)
          - Spec.cellIntegral |((angstrom2bohr : ℝ) • a.cell).det| (rep.density.2 s') = spin := by
  obtain ⟨n, kn, mask, opt, ew, q, -, hn, hkn, hmk, -, hdet, hcne, hcs, hbands, hpl, hupd, pw0, hinit, hrun⟩ :=
    run_setup L cfg a size ksize ne spin H
  obtain ⟨rep, h1, h2, h3, h4, h5⟩ := driver_density_partial (empty := cfg.emptyBands)
    (fun i => smooth_pos (hn i).1) (idxList_length_pos fun i => smooth_pos (hkn i).1)
    (runEnv L cfg (Crystal.fromAse a cfg.spin) n kn mask) (vol_pos _ hdet)
    L.occDraw rfl hbands hpl pw0 ⟨pw0, q⟩ (opt.init ⟨pw0, q⟩) hinit ew (runUpdate opt _)
    hupd cfg.epoch H.epochs cfg.smearing cfg.window cfg.threshold
  refine ⟨n, rep, hrun rep h1, hn, h2, h3, ?_, ?_⟩
  · rw [← hcne]; exact h4
  · rw [← hcs]; exact h5

/-- C79: what an admissible calculation reports, in terms of the crystal in atomic units.  The repulsion is
the Ewald sum of the nuclei; the total without it is the total energy of a state that the selected plane
waves can describe; the components and the density belong to such a state as well. -/
theorem run_energy_partial (L : RunLib) (cfg : RunConfig) {m : ℕ} (a : AseAtoms m) (size ksize : Fin 3 → ℤ)
    (ne spin : ℤ) (H : Spec.AdmissibleRun L cfg a size ksize ne spin)
    (A : Matrix (Fin 3) (Fin 3) ℝ) (hA : A = (angstrom2bohr : ℝ) • a.cell)
    (pos : Fin m → Fin 3 → ℝ) (hpos : ∀ i d, pos i d = angstrom2bohr * a.positions i d)
    (z : Fin m → ℝ) (hz : ∀ i, z i = a.numbers i) :
    ∃ n kn rep, ∃ mask : Idx n → Bool, runAtoms L cfg a = .ok ⟨n, rep⟩ ∧ Spec.LeastGrid size n ∧
      Spec.LeastGrid ksize kn ∧ createFreqMask cfg A n = .ok mask ∧
      rep.repulsion = ewald L.erfc pos z (gVectors A n) |A.det| cfg.ewaldEta
        (flatRows (translationVectors A cfg.ewaldCutoff)) ∧
      ∃ ns nb, ∃ c c' : Coef ns (idxList kn).length nb n, ∃ occ occ',
        Spec.PhysicalState mask ne spin cfg.restricted (Spec.kShare cfg.occupation (idxList kn).length) c occ ∧
        Spec.PhysicalState mask ne spin cfg.restricted (Spec.kShare cfg.occupation (idxList kn).length) c' occ' ∧
        totalEnergy L.xc c pos z (gVectors A n) (flatRows (kVectors A kn)) |A.det| (some occ) false cfg.xc
          = .ok (rep.total - rep.repulsion) ∧
        totalEnergySplit L.xc c' pos z (gVectors A n) (flatRows (kVectors A kn)) |A.det| (some occ') false cfg.xc
          = .ok rep.parts ∧
        rep.density = ⟨ns, densityGrid c' |A.det| occ'⟩ := by
  obtain ⟨n, kn, mask, opt, ew, q, -, hn, hkn, hmk, hew, hdet, hcne, hcs, hbands, hpl, hupd, pw0, hinit, hrun⟩ :=
    run_setup L cfg a size ksize ne spin H
  obtain ⟨rep, c, c', occ, occ', h1, h2, h3, h4, h5, h6, h7⟩ := driver_attained_partial (empty := cfg.emptyBands)
    (fun i => smooth_pos (hn i).1) (idxList_length_pos fun i => smooth_pos (hkn i).1)
    (runEnv L cfg (Crystal.fromAse a cfg.spin) n kn mask) (vol_pos _ hdet)
    L.occDraw rfl hbands hpl pw0 ⟨pw0, q⟩ (opt.init ⟨pw0, q⟩) hinit ew (runUpdate opt _)
    hupd cfg.epoch H.epochs cfg.smearing cfg.window cfg.threshold
  subst hA
  obtain rfl : pos = fun i d => (angstrom2bohr : ℝ) * a.positions i d := funext fun i => funext fun d => hpos i d
  obtain rfl : z = fun i => (a.numbers i : ℝ) := funext hz
  subst hcne hcs
  exact ⟨n, kn, rep, mask, hrun rep h1, hn, hkn, hmk, h2.trans hew, _, _, c, c', occ, occ', h3, h4, h5, h6, h7⟩

/-- An optimiser that never changes the parameters. -/
def idleOptimizer : Optimizer := ⟨Unit, fun _ => (), fun _ p => p⟩

/-- External parts for the example: an `ase` that always returns a lithium atom in a cube. -/
noncomputable def lithiumLib (xc : XcLib) : RunLib where
  pkgPath := "/jrystal"
  read := fun _ => .ok ⟨1, ⟨fun _ => 3, 0, 1⟩⟩
  erfc := fun _ => 0
  xc := xc
  qrC := trivialQR ℂ
  qrR := trivialQR ℝ
  devices := 8
  pwDraw := fun _ _ _ _ => ⟨fun _ _ _ _ => 0, fun _ _ _ _ => 0⟩
  occDraw := fun _ _ => 0
  optimizer := .ok idleOptimizer

/-- A spin-unrestricted calculation of the doublet on a 4 × 4 × 4 grid with 8 k points. -/
noncomputable def lithiumConfig : RunConfig where
  crystal := some "li"
  crystalFile := some "other.xyz"
  spin := none
  gridSizes := .vec [4, 4, 4]
  kGridSizes := .scalar 2
  maskMethod := "cubic"
  cutoff := 0
  emptyBands := 2
  occupation := "simplex-projector"
  restricted := false
  xc := "lda_x"
  eps := 1e-8
  smearing := 0
  epoch := 3
  window := 2
  threshold := 1e-6
  ewaldEta := 0.1
  ewaldCutoff := 20
  parallelK := true

/-- The hypotheses of `run_complete_partial`, `run_energy_partial` and `run_sizes` hold for the lithium
atom. -/
theorem lithium_admissible (xc : XcLib) : Spec.AdmissibleRun (lithiumLib xc) lithiumConfig
    (⟨fun _ => 3, 0, 1⟩ : AseAtoms 1) (fun _ => 4) (fun _ => 2) 3 1 where
  cell := by simp
  sizes := ⟨Or.inl rfl, fun _ => by norm_num⟩
  ksizes := ⟨Or.inr ⟨rfl, rfl, rfl⟩, fun _ => by norm_num⟩
  electrons := by simp
  unpaired := rfl
  placeable := ⟨by decide, Or.inr (Or.inl ⟨rfl, by decide, by decide⟩)⟩
  method := Or.inl rfl
  waves := fun n hn mask hm => by
    obtain rfl : n = fun _ => 4 := funext fun i => least_eq (k := 4) (hn i) smooth4
    have : mask = cubicMask _ := by
      unfold createFreqMask at hm
      rw [if_pos (show lithiumConfig.maskMethod = "cubic" from rfl)] at hm
      injection hm with hm
      exact hm.symm
    subst this
    decide +kernel
  ewald := by norm_num [lithiumConfig]
  devices := fun kn hkn => by
    obtain rfl : kn = fun _ => 2 := funext fun i => least_eq (k := 2) (hkn i) smooth2
    show (if true then 8 else 1) ∣ _
    decide
  optimizer := ⟨idleOptimizer, rfl, fun f p => keeps_self _⟩
  epochs := by decide

/-- The calculation of the lithium atom succeeds. -/
theorem lithium_runs (xc : XcLib) : ∃ rep : GsReport EnergyParts fun _ => 4,
    runCalc (lithiumLib xc) lithiumConfig = .ok ⟨fun _ => 4, rep⟩ ∧ rep.density.1 = 2 := by
  have H : Spec.AdmissibleRun (lithiumLib xc) lithiumConfig (⟨fun _ => 3, 0, 1⟩ : AseAtoms 1) (fun _ => 4)
      (fun _ => 2) 3 1 := lithium_admissible xc
  obtain ⟨n, rep, h1, h2, h3, -⟩ := run_complete_partial _ _ _ _ _ _ _ H
  obtain rfl : n = fun _ => 4 := funext fun i => least_eq (k := 4) (h2 i) smooth4
  exact ⟨rep, h1, h3⟩

/-- C79: the geometry of a run.  A crystal name selects the file of that name in the package, whatever
`crystal_file_path` says; without a name the file path is used. -/
theorem run_geometry (L : RunLib) (cfg : RunConfig) {m : ℕ} (a : AseAtoms m) :
    (∀ name, cfg.crystal = some name → L.read (some (L.pkgPath ++ "/geometry/" ++ name ++ ".xyz")) = .ok ⟨m, a⟩ →
      runCalc L cfg = runAtoms L cfg a) ∧
    (cfg.crystal = none → L.read cfg.crystalFile = .ok ⟨m, a⟩ → runCalc L cfg = runAtoms L cfg a) := by
  constructor
  · intro name h hr
    unfold runCalc crystalPath
    rw [h]
    simp only [hr]
  · intro h hr
    unfold runCalc crystalPath
    rw [h]
    simp only [hr]

/-- C79: a run is refused when the electrons and the spin differ in parity, when the mask is unknown, when the
optimiser cannot be made. -/
theorem run_refused (L : RunLib) (cfg : RunConfig) {m : ℕ} (a : AseAtoms m)
    (h : (∃ s, cfg.spin = some s ∧ s % 2 ≠ (∑ i, a.numbers i) % 2) ∨
      (cfg.maskMethod ≠ "cubic" ∧ cfg.maskMethod ≠ "spherical") ∨ ∃ e, L.optimizer = .error e) :
    ∃ e, runAtoms L cfg a = .error e := by
  unfold runAtoms
  cases hc : createCrystal a cfg.spin with
  | error e => exact ⟨e, rfl⟩
  | ok c =>
    simp only
    rcases h with ⟨s, hs, hp⟩ | h | ⟨e, h⟩
    · exfalso
      rw [hs, (createCrystal_spin a s).2 hp] at hc
      cases hc
    · unfold runCrystal runGrid
      cases runSizes cfg with
      | error e => exact ⟨e, rfl⟩
      | ok q =>
        obtain ⟨n, kn⟩ := q
        have : createFreqMask cfg c.cell n = .error .valueError := by
          unfold createFreqMask
          rw [if_neg h.1, if_neg h.2]
        simp only [this]
        exact ⟨_, rfl⟩
    · unfold runCrystal runGrid
      cases runSizes cfg with
      | error e => exact ⟨e, rfl⟩
      | ok q =>
        obtain ⟨n, kn⟩ := q
        simp only
        cases createFreqMask cfg c.cell n with
        | error e => exact ⟨e, rfl⟩
        | ok mask =>
          simp only
          cases runRepulsion L.erfc cfg c n with
          | error e => exact ⟨e, rfl⟩
          | ok ew =>
            simp only
            generalize (if cfg.parallelK = true then L.devices else 1) = dv
            by_cases h' : (idxList kn).length % dv ≠ 0
            · rw [if_pos h']
              exact ⟨_, rfl⟩
            · rw [if_neg h']
              have : runLoop L cfg (runEnv L cfg c n kn mask) ew = .error e := by
                unfold runLoop
                rw [h]
              rw [this]
              exact ⟨_, rfl⟩

end Jrystal
