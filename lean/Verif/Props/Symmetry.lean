import Verif.Lemmas.FirstUpdate
import Verif.Lemmas.Run
import Verif.Spec.Symmetry
import Verif.Props.Energy
import Verif.Props.Ewald
import Verif.Props.Driver
import Verif.Props.Run

/- C76–C78: what a whole ground-state calculation makes of physically equivalent inputs. -/
namespace Jrystal
open scoped BigOperators ComplexConjugate
open Matrix

/-- A run sees the geometry only through the four energies, the mask, the volume and the electron
numbers. -/
private theorem runLoop_regeo (L : RunLib) (cfg : RunConfig) {na na' nk : ℕ} {n : Fin 3 → ℕ}
    (E : GsEnv na nk n) (g : Idx n → Fin 3 → ℝ) (kpts : Fin nk → Fin 3 → ℝ) (pos : Fin na' → Fin 3 → ℝ)
    (charge : Fin na' → ℝ) (ew : ℝ)
    (h : ∀ {ns nb : ℕ} (p : GsParams ns nk (maskCount E.mask) nb),
      gsParts (regeo E g kpts pos charge) p = gsParts E p) :
    runLoop L cfg (regeo E g kpts pos charge) ew = runLoop L cfg E ew := by
  have h1 : ∀ {ns nb : ℕ} (p : GsParams ns nk (maskCount E.mask) nb),
      gsTotal (regeo E g kpts pos charge) p = gsTotal E p := by
    intro ns nb p
    unfold gsTotal
    rw [h]
  have h2 : ∀ {ns nb : ℕ} (t : ℝ) (p : GsParams ns nk (maskCount E.mask) nb),
      gsFree (regeo E g kpts pos charge) t p = gsFree E t p := by
    intro ns nb t p
    unfold gsFree
    rw [h1]
    rfl
  have e1 : ∀ {ns nb : ℕ}, gsParts (ns := ns) (nb := nb) (regeo E g kpts pos charge) = gsParts E :=
    funext fun p => h p
  have e2 : ∀ {ns nb : ℕ}, gsTotal (ns := ns) (nb := nb) (regeo E g kpts pos charge) = gsTotal E :=
    funext fun p => h1 p
  have e3 : ∀ {ns nb : ℕ} (opt : Optimizer),
      runUpdate (ns := ns) (nb := nb) opt (regeo E g kpts pos charge) = runUpdate opt E := by
    intro ns nb opt
    funext p t
    have h3 : (fun q : GsParams ns nk (maskCount E.mask) nb =>
        (gsFree (regeo E g kpts pos charge) t q).map fun r => r.1) =
        fun q => (gsFree E t q).map fun r => r.1 := funext fun q => by rw [h2]
    exact congrArg (fun f => opt.step f p) h3
  unfold runLoop
  cases L.optimizer with
  | error e => rfl
  | ok opt =>
    simp only
    unfold gsCalc
    have e6 : ∀ {ns nb : ℕ} (t : ℝ), gsFree (ns := ns) (nb := nb) (regeo E g kpts pos charge) t = gsFree E t :=
      fun t => funext fun p => h2 t p
    rw [e1, e2, e3, e6]
    have e4 : ∀ {ns nb : ℕ}, gsDensity (ns := ns) (nb := nb) (regeo E g kpts pos charge) = gsDensity E :=
      funext fun p => rfl
    rw [e4]
    have e5 : ∀ x, gsInit (ns := if cfg.restricted then 1 else 2) (empty := cfg.emptyBands)
        (regeo E g kpts pos charge) L.occDraw x = gsInit (empty := cfg.emptyBands) E L.occDraw x := fun x => rfl
    rw [e5]
    dsimp only [regeo]
    cases gsInit (empty := cfg.emptyBands) E L.occDraw
        (L.pwDraw (if cfg.restricted then 1 else 2) nk (maskCount E.mask)
          (driverBands E.ne.toNat cfg.emptyBands)) <;> rfl

private theorem gsParts_rotate {R : Matrix (Fin 3) (Fin 3) ℝ} (hR : R * Rᵀ = 1) {na nk ns nb : ℕ}
    {n : Fin 3 → ℕ} (E : GsEnv na nk n) (p : GsParams ns nk (maskCount E.mask) nb) :
    gsParts (regeo E (fun k => rot3 R (E.g k)) (fun q => rot3 R (E.kpts q)) (fun a => rot3 R (E.pos a))
      E.charge) p = gsParts E p := by
  unfold gsParts
  show (match gsState E p with | .error e => _ | .ok ⟨_, _, c, o⟩ => _) = _
  cases gsState E p with
  | error e => rfl
  | ok r =>
    obtain ⟨S, B, c, o⟩ := r
    simp only [regeo, hartreeEnergy, externalEnergy, hartreeReciprocal_rotate hR,
      externalReciprocal_rotate hR, xcEnergy_rotate hR, kineticEnergyOcc_rotate hR]

/-- Two crystals with the same electrons for which mask, repulsion and energies agree give the same run. -/
private theorem runCrystal_congr (L : RunLib) (cfg : RunConfig) {m m' : ℕ} (c : Crystal m) (c' : Crystal m')
    (hmask : ∀ n, createFreqMask cfg c'.cell n = createFreqMask cfg c.cell n)
    (hrep : ∀ n, runRepulsion L.erfc cfg c' n = runRepulsion L.erfc cfg c n)
    (hvol : c'.vol = c.vol) (hne : c'.numElectron = c.numElectron) (hspin : c'.spin = c.spin)
    (hparts : ∀ (n kn : Fin 3 → ℕ) (mask : Idx n → Bool) {ns nb : ℕ}
      (p : GsParams ns (idxList kn).length (maskCount mask) nb),
      gsParts (regeo (runEnv L cfg c n kn mask) (gVectors c'.cell n) (flatRows (kVectors c'.cell kn))
        c'.positions (fun a => (c'.charges a : ℝ))) p = gsParts (runEnv L cfg c n kn mask) p) :
    runCrystal L cfg c' = runCrystal L cfg c := by
  unfold runCrystal runGrid
  cases runSizes cfg with
  | error e => rfl
  | ok nn =>
    obtain ⟨n, kn⟩ := nn
    simp only
    rw [hmask, hrep]
    cases createFreqMask cfg c.cell n with
    | error e => rfl
    | ok mask =>
      simp only
      cases runRepulsion L.erfc cfg c n with
      | error e => rfl
      | ok ew =>
        simp only
        have he : runEnv L cfg c' n kn mask = regeo (runEnv L cfg c n kn mask) (gVectors c'.cell n)
            (flatRows (kVectors c'.cell kn)) c'.positions (fun a => (c'.charges a : ℝ)) := by
          unfold runEnv regeo
          rw [hvol, hne, hspin]
        have hl : runLoop L cfg (runEnv L cfg c' n kn mask) ew = runLoop L cfg (runEnv L cfg c n kn mask) ew := by
          rw [he]
          exact runLoop_regeo L cfg (runEnv L cfg c n kn mask) _ _ _ _ ew (fun p => hparts n kn mask p)
        rw [hl]

/-- C76: rotating or reflecting the whole geometry changes nothing: the calculation raises the same
exception or reports the same energies, total and density (on the grid of the rotated cell). -/
theorem run_rotated (L : RunLib) (cfg : RunConfig) {m : ℕ} (a : AseAtoms m)
    (R : Matrix (Fin 3) (Fin 3) ℝ) (hR : R * Rᵀ = 1) :
    runAtoms L cfg (Spec.rotated R a) = runAtoms L cfg a := by
  have hf : Crystal.fromAse (Spec.rotated R a) cfg.spin = ⟨(Crystal.fromAse a cfg.spin).charges,
      (Crystal.fromAse a cfg.spin).positions * R, (Crystal.fromAse a cfg.spin).cell * R,
      (Crystal.fromAse a cfg.spin).spin⟩ := by
    unfold Crystal.fromAse Spec.rotated
    simp only [Matrix.smul_mul]
  generalize hc : Crystal.fromAse a cfg.spin = c at hf
  unfold runAtoms createCrystal
  rw [hf, hc]
  have hn : (⟨c.charges, c.positions * R, c.cell * R, c.spin⟩ : Crystal m).numElectron = c.numElectron := rfl
  simp only [hn]
  cases checkSpinNumber c.numElectron c.spin with
  | error e => rfl
  | ok u =>
    simp only
    refine runCrystal_congr L cfg c _ (fun n => ?_) (fun n => repulsion_rotate hR _ _ _ _ _ _ _)
      (vol_rotate hR _) rfl rfl (fun n kn mask ns nb p => ?_)
    · unfold createFreqMask
      rw [sphericalMask_rotate hR]
    · have key : ∀ g' k' p', g' = (fun k => rot3 R ((runEnv L cfg c n kn mask).g k)) →
          k' = (fun q => rot3 R ((runEnv L cfg c n kn mask).kpts q)) →
          p' = (fun a => rot3 R ((runEnv L cfg c n kn mask).pos a)) →
          gsParts (regeo (runEnv L cfg c n kn mask) g' k' p' (runEnv L cfg c n kn mask).charge) p =
            gsParts (runEnv L cfg c n kn mask) p := by
        rintro _ _ _ rfl rfl rfl
        exact gsParts_rotate hR (runEnv L cfg c n kn mask) p
      have e1 := gVectors_rotate hR c.cell n
      have e2 : flatRows (kVectors (c.cell * R) kn) = fun q => rot3 R (flatRows (kVectors c.cell kn) q) := by
        funext q
        simp only [flatRows, kVectors_rotate hR]
      have e3 : (fun a => (c.positions * R) a) = fun a => rot3 R (c.positions a) :=
        funext fun a => rot3_rows _ _ a
      exact key _ _ _ e1 e2 e3

/-- Hypotheses met: a rotation by the angle of the 3-4-5 triangle, and a reflection. -/
example : (!![3 / 5, 4 / 5, 0; -4 / 5, 3 / 5, 0; 0, 0, 1] : Matrix (Fin 3) (Fin 3) ℝ) *
      (!![3 / 5, 4 / 5, 0; -4 / 5, 3 / 5, 0; 0, 0, 1] : Matrix (Fin 3) (Fin 3) ℝ)ᵀ = 1 ∧
    (!![1, 0, 0; 0, 1, 0; 0, 0, -1] : Matrix (Fin 3) (Fin 3) ℝ) *
      (!![1, 0, 0; 0, 1, 0; 0, 0, -1] : Matrix (Fin 3) (Fin 3) ℝ)ᵀ = 1 := by
  constructor
  · ext i j
    fin_cases i <;> fin_cases j <;> simp [Matrix.mul_apply, Fin.sum_univ_three] <;> norm_num
  · ext i j
    fin_cases i <;> fin_cases j <;> simp [Matrix.mul_apply, Fin.sum_univ_three]

/-- The energies of a set-up whose electrons feel the same nuclei. -/
private theorem gsParts_nuclei {na na' nk ns nb : ℕ} {n : Fin 3 → ℕ} (E : GsEnv na nk n)
    (pos : Fin na' → Fin 3 → ℝ) (charge : Fin na' → ℝ)
    (h : ∀ {S : ℕ} (rho : Fin S → Idx n → ℂ),
      externalEnergy rho pos charge E.g E.vol = externalEnergy rho E.pos E.charge E.g E.vol)
    (p : GsParams ns nk (maskCount E.mask) nb) :
    gsParts (regeo E E.g E.kpts pos charge) p = gsParts E p := by
  unfold gsParts
  show (match gsState E p with | .error e => _ | .ok ⟨_, _, c, o⟩ => _) = _
  cases gsState E p with
  | error e => rfl
  | ok r =>
    obtain ⟨S, B, c, o⟩ := r
    simp only [regeo, h]

/-- C77: the order in which the geometry file lists the atoms does not matter. -/
theorem run_reordered (L : RunLib) (cfg : RunConfig) {m : ℕ} (a : AseAtoms m) (e : Equiv.Perm (Fin m)) :
    runAtoms L cfg (Spec.reordered e a) = runAtoms L cfg a := by
  have hs : ∑ i, a.numbers (e i) = ∑ i, a.numbers i := Equiv.sum_comp e a.numbers
  have hf : Crystal.fromAse (Spec.reordered e a) cfg.spin =
      ⟨fun i => (Crystal.fromAse a cfg.spin).charges (e i),
        Matrix.of fun i => (Crystal.fromAse a cfg.spin).positions (e i),
        (Crystal.fromAse a cfg.spin).cell, (Crystal.fromAse a cfg.spin).spin⟩ := by
    unfold Crystal.fromAse Spec.reordered
    simp only [hs]
    rfl
  generalize hc : Crystal.fromAse a cfg.spin = c at hf
  unfold runAtoms createCrystal
  rw [hf, hc]
  have hn : (⟨fun i => c.charges (e i), Matrix.of fun i => c.positions (e i), c.cell, c.spin⟩ :
      Crystal m).numElectron = c.numElectron := Equiv.sum_comp e c.charges
  simp only [hn]
  cases checkSpinNumber c.numElectron c.spin with
  | error e => rfl
  | ok u =>
    simp only
    refine runCrystal_congr L cfg c _ (fun n => rfl) (fun n => ?_) rfl hn rfl (fun n kn mask ns nb p => ?_)
    · unfold runRepulsion
      have hw : ∀ {nt : ℕ} (T : Fin nt → Fin 3 → ℝ), driverRepulsion L.erfc
          (⟨fun i => c.charges (e i), Matrix.of fun i => c.positions (e i), c.cell, c.spin⟩ : Crystal m)
          (gVectors c.cell n) cfg.ewaldEta T = driverRepulsion L.erfc c (gVectors c.cell n) cfg.ewaldEta T :=
        fun T => ewald_permute L.erfc c.positions (fun a => (c.charges a : ℝ)) _ _ _ T e
      simp only [hw]
    · exact gsParts_nuclei (runEnv L cfg c n kn mask) _ _
        (fun rho => external_permute rho c.positions (fun a => (c.charges a : ℝ)) _ _ e) p

private theorem external_zero_charge {ns na : ℕ} {n : Fin 3 → ℕ} (rho : Fin ns → Idx n → ℂ)
    (pos : Fin na → Fin 3 → ℝ) (charge : Fin na → ℝ) (g : Idx n → Fin 3 → ℝ) (vol : ℝ) (x : Fin 3 → ℝ) :
    externalEnergy rho (Fin.cons x pos : Fin (na + 1) → Fin 3 → ℝ) (Fin.cons 0 charge : Fin (na + 1) → ℝ) g vol
      = externalEnergy rho pos charge g vol := by
  rw [externalEnergy_eq, externalEnergy_eq]
  congr 2
  refine Finset.sum_congr rfl fun k _ => ?_
  have : structureFactor (Fin.cons x pos : Fin (na + 1) → Fin 3 → ℝ) (Fin.cons 0 charge : Fin (na + 1) → ℝ) g k
      = structureFactor pos charge g k := by
    unfold structureFactor
    rw [Fin.sum_univ_succ]
    simp
  rw [this]

/-- C77: a site without nuclear charge does not matter. -/
theorem run_withGhost (L : RunLib) (cfg : RunConfig) {m : ℕ} (a : AseAtoms m) (x : Fin 3 → ℝ) :
    runAtoms L cfg (Spec.withGhost x a) = runAtoms L cfg a := by
  have hs : ∑ i, (Fin.cons 0 a.numbers : Fin (m + 1) → ℤ) i = ∑ i, a.numbers i := by
    rw [Fin.sum_univ_succ]
    simp
  have hf : Crystal.fromAse (Spec.withGhost x a) cfg.spin =
      ⟨Fin.cons 0 (Crystal.fromAse a cfg.spin).charges,
        Matrix.of (Fin.cons (fun d => (angstrom2bohr : ℝ) * x d)
          fun i => (Crystal.fromAse a cfg.spin).positions i),
        (Crystal.fromAse a cfg.spin).cell, (Crystal.fromAse a cfg.spin).spin⟩ := by
    unfold Crystal.fromAse Spec.withGhost
    simp only [hs]
    congr 1
    ext i d
    refine Fin.cases ?_ (fun i => ?_) i <;> simp
  generalize hc : Crystal.fromAse a cfg.spin = c at hf
  unfold runAtoms createCrystal
  rw [hf, hc]
  have hn : (⟨Fin.cons 0 c.charges, Matrix.of (Fin.cons (fun d => (angstrom2bohr : ℝ) * x d)
      fun i => c.positions i), c.cell, c.spin⟩ : Crystal (m + 1)).numElectron = c.numElectron := by
    unfold Crystal.numElectron
    rw [Fin.sum_univ_succ]
    simp
  have hq : (fun i => (((Fin.cons 0 c.charges : Fin (m + 1) → ℤ) i : ℤ) : ℝ)) =
      Fin.cons 0 fun a => (c.charges a : ℝ) := by
    funext i
    refine Fin.cases ?_ (fun i => ?_) i <;> simp
  simp only [hn]
  cases checkSpinNumber c.numElectron c.spin with
  | error e => rfl
  | ok u =>
    simp only
    refine runCrystal_congr L cfg c _ (fun n => rfl) (fun n => ?_) rfl hn rfl (fun n kn mask ns nb p => ?_)
    · unfold runRepulsion
      have hw : ∀ {nt : ℕ} (T : Fin nt → Fin 3 → ℝ), driverRepulsion L.erfc
          (⟨Fin.cons 0 c.charges, Matrix.of (Fin.cons (fun d => (angstrom2bohr : ℝ) * x d)
            fun i => c.positions i), c.cell, c.spin⟩ : Crystal (m + 1))
          (gVectors c.cell n) cfg.ewaldEta T = driverRepulsion L.erfc c (gVectors c.cell n) cfg.ewaldEta T := by
        intro nt T
        unfold driverRepulsion
        simp only [hq]
        exact ewald_zero_charge L.erfc c.positions (fun a => (c.charges a : ℝ)) _ _ _ T _
      simp only [hw]
    · refine gsParts_nuclei (runEnv L cfg c n kn mask) _ _ (fun rho => ?_) p
      have := external_zero_charge rho c.positions (fun a => (c.charges a : ℝ)) (runEnv L cfg c n kn mask).g
        (runEnv L cfg c n kn mask).vol (fun d => (angstrom2bohr : ℝ) * x d)
      rw [← hq] at this
      exact this

private theorem runLoop_ew (L : RunLib) (cfg : RunConfig) {na nk : ℕ} {n : Fin 3 → ℕ} (E : GsEnv na nk n)
    (ew ew' : ℝ) : runLoop L cfg E ew' = (runLoop L cfg E ew).map fun r =>
      ⟨r.parts, ew', r.total + (ew' - ew), r.density⟩ := by
  unfold runLoop
  cases L.optimizer with
  | error e => rfl
  | ok opt =>
    simp only
    cases gsInit (empty := cfg.emptyBands) E L.occDraw
        (L.pwDraw (if cfg.restricted then 1 else 2) nk (maskCount E.mask)
          (driverBands E.ne.toNat cfg.emptyBands)) with
    | error e => rfl
    | ok p =>
      dsimp only
      rw [← firstUpdate_map]
      exact congrArg _ (gsRun_ew _ _ _ ew ew' _ _ _ _ _ _)

private theorem gsParts_shifted (L : RunLib) (cfg : RunConfig) {m : ℕ} (c : Crystal m) (hA : c.cell.det ≠ 0)
    (v : Fin m → Fin 3 → ℝ) (hv : ∀ i, Spec.IsLatticeVector c.cell (v i)) (n kn : Fin 3 → ℕ)
    (mask : Idx n → Bool) {ns nb : ℕ} (p : GsParams ns (idxList kn).length (maskCount mask) nb) :
    gsParts (regeo (runEnv L cfg c n kn mask) (gVectors (shifted c v).cell n)
      (flatRows (kVectors (shifted c v).cell kn)) (shifted c v).positions
      (fun a => ((shifted c v).charges a : ℝ))) p = gsParts (runEnv L cfg c n kn mask) p := by
  refine gsParts_nuclei (runEnv L cfg c n kn mask) _ _ (fun rho => ?_) p
  refine external_lattice c.cell hA rho c.positions (fun i d => c.positions i d + v i d) _ _ fun i => ?_
  simpa using hv i

/-- C78: moving all atoms rigidly by one lattice vector changes nothing. -/
theorem run_lattice_shift (L : RunLib) (cfg : RunConfig) {m : ℕ} (a : AseAtoms m) (hA : a.cell.det ≠ 0)
    (v : Fin 3 → ℝ) (hv : Spec.IsLatticeVector a.cell v) :
    runAtoms L cfg (Spec.moved (fun _ => v) a) = runAtoms L cfg a := by
  have hA' := fromAse_det a cfg.spin hA
  have hv' := fromAse_lattice a cfg.spin v hv
  unfold runAtoms createCrystal
  rw [fromAse_moved]
  generalize Crystal.fromAse a cfg.spin = c at hA' hv' ⊢
  have hn : (shifted c fun _ d => (angstrom2bohr : ℝ) * v d).numElectron = c.numElectron := rfl
  have hs : (shifted c fun _ d => (angstrom2bohr : ℝ) * v d).spin = c.spin := rfl
  simp only [hn, hs]
  cases checkSpinNumber c.numElectron c.spin with
  | error e => rfl
  | ok u =>
    simp only
    refine runCrystal_congr L cfg c _ (fun n => rfl) (fun n => ?_) rfl hn rfl
      (fun n kn mask ns nb p => gsParts_shifted L cfg c hA' _ (fun _ => hv') n kn mask p)
    unfold runRepulsion
    have hw : ∀ {nt : ℕ} (T : Fin nt → Fin 3 → ℝ), driverRepulsion L.erfc
        (shifted c fun _ d => (angstrom2bohr : ℝ) * v d) (gVectors c.cell n) cfg.ewaldEta T =
        driverRepulsion L.erfc c (gVectors c.cell n) cfg.ewaldEta T :=
      fun T => ewald_translate L.erfc c.positions (fun a => (c.charges a : ℝ)) _ _ _ T _
    have hc : (shifted c fun _ d => (angstrom2bohr : ℝ) * v d).cell = c.cell := rfl
    simp only [hc, hw]
    rfl

/-- C78: moving single atoms by (different) lattice vectors changes neither the energies nor the density;
the total changes exactly as the reported nuclear repulsion does. -/
theorem run_lattice_move (L : RunLib) (cfg : RunConfig) {m : ℕ} (a : AseAtoms m) (hA : a.cell.det ≠ 0)
    (v : Fin m → Fin 3 → ℝ) (hv : ∀ i, Spec.IsLatticeVector a.cell (v i)) {n : Fin 3 → ℕ}
    (r : GsReport EnergyParts n) (hr : runAtoms L cfg a = .ok ⟨n, r⟩) :
    ∃ r' : GsReport EnergyParts n, runAtoms L cfg (Spec.moved v a) = .ok ⟨n, r'⟩ ∧ r'.parts = r.parts ∧
      r'.density = r.density ∧ r'.total - r'.repulsion = r.total - r.repulsion := by
  have hA' := fromAse_det a cfg.spin hA
  have hv' := fun i => fromAse_lattice a cfg.spin (v i) (hv i)
  unfold runAtoms createCrystal at hr ⊢
  rw [fromAse_moved]
  generalize Crystal.fromAse a cfg.spin = c at hA' hv' hr ⊢
  have hn : (shifted c fun i d => (angstrom2bohr : ℝ) * v i d).numElectron = c.numElectron := rfl
  have hs : (shifted c fun i d => (angstrom2bohr : ℝ) * v i d).spin = c.spin := rfl
  simp only [hn, hs] at hr ⊢
  generalize hw : (fun i d => (angstrom2bohr : ℝ) * v i d) = w at hv' ⊢
  cases hck : checkSpinNumber c.numElectron c.spin with
  | error e => rw [hck] at hr; simp at hr
  | ok u =>
    rw [hck] at hr
    simp only at hr ⊢
    unfold runCrystal runGrid at hr ⊢
    cases hz : runSizes cfg with
    | error e => rw [hz] at hr; simp at hr
    | ok nn =>
      obtain ⟨n', kn⟩ := nn
      rw [hz] at hr
      simp only at hr ⊢
      have hc : (shifted c w).cell = c.cell := rfl
      rw [hc]
      cases hm : createFreqMask cfg c.cell n' with
      | error e => rw [hm] at hr; simp at hr
      | ok mask =>
        rw [hm] at hr
        simp only at hr ⊢
        obtain ⟨ew, hew⟩ : ∃ ew, runRepulsion L.erfc cfg c n' = .ok ew := by
          cases h : runRepulsion L.erfc cfg c n' with
          | error e => rw [h] at hr; simp at hr
          | ok ew => exact ⟨ew, rfl⟩
        rw [hew] at hr
        simp only at hr
        obtain ⟨ew', hew'⟩ : ∃ ew', runRepulsion L.erfc cfg (shifted c w) n' = .ok ew' := by
          unfold runRepulsion at hew ⊢
          rw [hc]
          by_cases h1 : translationCount c.cell cfg.ewaldCutoff = 0
          · rw [if_pos h1] at hew; simp at hew
          rw [if_neg h1] at hew ⊢
          by_cases h2 : translationCount c.cell cfg.ewaldCutoff < 0
          · rw [if_pos h2] at hew; simp at hew
          rw [if_neg h2]
          exact ⟨_, rfl⟩
        rw [hew']
        simp only
        by_cases hd : (idxList kn).length % (if cfg.parallelK then L.devices else 1) ≠ 0
        · rw [if_pos hd] at hr; simp at hr
        rw [if_neg hd] at hr ⊢
        have he : runEnv L cfg (shifted c w) n' kn mask = regeo (runEnv L cfg c n' kn mask)
            (gVectors (shifted c w).cell n') (flatRows (kVectors (shifted c w).cell kn)) (shifted c w).positions
            (fun a => ((shifted c w).charges a : ℝ)) := rfl
        have hl : runLoop L cfg (runEnv L cfg (shifted c w) n' kn mask) ew' =
            runLoop L cfg (runEnv L cfg c n' kn mask) ew' := by
          rw [he]
          exact runLoop_regeo L cfg (runEnv L cfg c n' kn mask) _ _ _ _ ew'
            (fun p => gsParts_shifted L cfg c hA' w (fun i => by rw [← hw]; exact hv' i) n' kn mask p)
        rw [hl, runLoop_ew L cfg _ ew ew']
        cases hq : runLoop L cfg (runEnv L cfg c n' kn mask) ew with
        | error e => rw [hq] at hr; simp at hr
        | ok q =>
          rw [hq] at hr
          simp only [Except.ok.injEq, Sigma.mk.injEq] at hr
          obtain ⟨rfl, hr⟩ := hr
          obtain rfl := eq_of_heq hr
          refine ⟨_, rfl, rfl, rfl, ?_⟩
          have hrep : q.repulsion = ew := by
            have h := runLoop_ew L cfg (runEnv L cfg c n' kn mask) ew ew
            rw [hq] at h
            exact congrArg GsReport.repulsion (Except.ok.inj h)
          show q.total + (ew' - ew) - ew' = q.total - q.repulsion
          rw [hrep]
          ring

/-- C78: a calculation that is refused is refused, with the same exception, after moving atoms by lattice
vectors. -/
theorem run_lattice_refused (L : RunLib) (cfg : RunConfig) {m : ℕ} (a : AseAtoms m) (hA : a.cell.det ≠ 0)
    (v : Fin m → Fin 3 → ℝ) (hv : ∀ i, Spec.IsLatticeVector a.cell (v i)) (e : PyErr)
    (hr : runAtoms L cfg a = .error e) : runAtoms L cfg (Spec.moved v a) = .error e := by
  have hA' := fromAse_det a cfg.spin hA
  have hv' := fun i => fromAse_lattice a cfg.spin (v i) (hv i)
  unfold runAtoms createCrystal at hr ⊢
  rw [fromAse_moved]
  generalize Crystal.fromAse a cfg.spin = c at hA' hv' hr ⊢
  have hn : (shifted c fun i d => (angstrom2bohr : ℝ) * v i d).numElectron = c.numElectron := rfl
  have hs : (shifted c fun i d => (angstrom2bohr : ℝ) * v i d).spin = c.spin := rfl
  simp only [hn, hs] at hr ⊢
  generalize hw : (fun i d => (angstrom2bohr : ℝ) * v i d) = w at hv' ⊢
  cases hck : checkSpinNumber c.numElectron c.spin with
  | error e => rw [hck] at hr; exact hr
  | ok u =>
    rw [hck] at hr
    simp only at hr ⊢
    unfold runCrystal runGrid at hr ⊢
    cases hz : runSizes cfg with
    | error e => rw [hz] at hr; exact hr
    | ok nn =>
      obtain ⟨n', kn⟩ := nn
      rw [hz] at hr
      simp only at hr ⊢
      have hc : (shifted c w).cell = c.cell := rfl
      rw [hc]
      cases hm : createFreqMask cfg c.cell n' with
      | error e => rw [hm] at hr; exact hr
      | ok mask =>
        rw [hm] at hr
        simp only at hr ⊢
        cases hew : runRepulsion L.erfc cfg c n' with
        | error e' =>
          rw [hew] at hr
          have hew' : runRepulsion L.erfc cfg (shifted c w) n' = .error e' := by
            unfold runRepulsion at hew ⊢
            rw [hc]
            by_cases h1 : translationCount c.cell cfg.ewaldCutoff = 0
            · rw [if_pos h1] at hew ⊢; exact hew
            rw [if_neg h1] at hew ⊢
            by_cases h2 : translationCount c.cell cfg.ewaldCutoff < 0
            · rw [if_pos h2] at hew ⊢; exact hew
            rw [if_neg h2] at hew
            cases hew
          rw [hew']
          exact hr
        | ok ew =>
          rw [hew] at hr
          simp only at hr
          obtain ⟨ew', hew'⟩ : ∃ ew', runRepulsion L.erfc cfg (shifted c w) n' = .ok ew' := by
            unfold runRepulsion at hew ⊢
            rw [hc]
            by_cases h1 : translationCount c.cell cfg.ewaldCutoff = 0
            · rw [if_pos h1] at hew; simp at hew
            rw [if_neg h1] at hew ⊢
            by_cases h2 : translationCount c.cell cfg.ewaldCutoff < 0
            · rw [if_pos h2] at hew; simp at hew
            rw [if_neg h2]
            exact ⟨_, rfl⟩
          rw [hew']
          simp only
          by_cases hd : (idxList kn).length % (if cfg.parallelK then L.devices else 1) ≠ 0
          · rw [if_pos hd] at hr ⊢; exact hr
          rw [if_neg hd] at hr ⊢
          have he : runEnv L cfg (shifted c w) n' kn mask = regeo (runEnv L cfg c n' kn mask)
              (gVectors (shifted c w).cell n') (flatRows (kVectors (shifted c w).cell kn)) (shifted c w).positions
              (fun a => ((shifted c w).charges a : ℝ)) := rfl
          have hl : runLoop L cfg (runEnv L cfg (shifted c w) n' kn mask) ew' =
              runLoop L cfg (runEnv L cfg c n' kn mask) ew' := by
            rw [he]
            exact runLoop_regeo L cfg (runEnv L cfg c n' kn mask) _ _ _ _ ew'
              (fun p => gsParts_shifted L cfg c hA' w (fun i => by rw [← hw]; exact hv' i) n' kn mask p)
          rw [hl, runLoop_ew L cfg _ ew ew']
          cases hq : runLoop L cfg (runEnv L cfg c n' kn mask) ew with
          | error e => rw [hq] at hr; exact hr
          | ok q => rw [hq] at hr; cases hr

/-- Hypotheses of `run_lattice_move` and `run_lattice_shift` met: a successful calculation of one atom in a
cube, moved along two cell vectors. -/
example (xc : XcLib) : ∃ rep : GsReport EnergyParts fun _ => 4,
    runAtoms (lithiumLib xc) lithiumConfig (⟨fun _ => 3, 0, 1⟩ : AseAtoms 1) = .ok ⟨fun _ => 4, rep⟩ ∧
    (1 : Matrix (Fin 3) (Fin 3) ℝ).det ≠ 0 ∧
    Spec.IsLatticeVector (1 : Matrix (Fin 3) (Fin 3) ℝ) ![1, -2, 0] := by
  obtain ⟨rep, h, -⟩ := lithium_runs xc
  exact ⟨rep, h, by simp, ![1, -2, 0], fun d => by fin_cases d <;> simp [Fin.sum_univ_three, Matrix.one_apply]⟩

end Jrystal
