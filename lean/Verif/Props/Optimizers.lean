import Verif.Props.Run

/-
C114: the number of electrons and the optimiser.  The configuration may name every optimiser of `optax`
(/repo/jrystal/calc/opt_utils.py:153-168).  `uniform` and `gamma` occupations are wrapped in `stop_gradient`, but
the array itself is a parameter, and an optimiser that adds noise to the gradient (`noisy_sgd`) changes it although
its gradient is zero.  The optimisers with weight decay (`adamw`, `lamb`, `lion`) would do so too, but they must
be given the parameters, and the drivers do not pass them
(/repo/jrystal/calc/calc_ground_state_energy_all_electrons.py:179,
/repo/jrystal/calc/calc_ground_state_energy_normcons.py:234).
-/
namespace Jrystal
open scoped BigOperators ComplexConjugate
open RunSetup

/-- An optimiser that adds noise, seen at a parameter array whose gradient is zero: step number `j` adds the
array `ξ j`, indexed by spin, k point and band.  The state holds the number of steps that were made. -/
def Spec.AddsNoise (ξ : ℕ → ℕ → ℕ → ℕ → ℝ) (opt : Optimizer) : Prop :=
  ∃ count : opt.State → ℕ,
    ∀ {ns nk g nb : ℕ}, (∀ p : GsParams ns nk g nb, count (opt.init p) = 0) ∧
      ∀ (f : GsParams ns nk g nb → Except PyErr ℝ) (p : GsParams ns nk g nb × opt.State) (o : OccArr nk nb ℝ),
        p.1.occ = .arr o → count (opt.step f p).2 = count p.2 + 1 ∧
          (opt.step f p).1.occ = .arr (o.mapIdx fun s a k b => a k b + ξ (count p.2) s k b)

private theorem setup_any (L : RunLib) (cfg : RunConfig) {m : ℕ} (a : AseAtoms m) (size ksize : Fin 3 → ℤ)
    (ne spin : ℤ) (H : Spec.AdmissibleRun L cfg a size ksize ne spin) :
    ∃ n kn mask, ∃ ew : ℝ, Spec.LeastGrid size n ∧ Spec.LeastGrid ksize kn ∧
      (Crystal.fromAse a cfg.spin).cell.det ≠ 0 ∧
      (Crystal.fromAse a cfg.spin).numElectron = ne ∧ (Crystal.fromAse a cfg.spin).spin = spin ∧
      driverBands (Crystal.fromAse a cfg.spin).numElectron.toNat cfg.emptyBands ≤ maskCount mask ∧
      ∀ opt b, runAtoms { L with optimizer := .ok opt, updateFault := b } cfg a =
        match runLoop { L with optimizer := .ok opt, updateFault := b } cfg (runEnv L cfg (Crystal.fromAse a cfg.spin) n kn mask) ew with
        | .error e => .error e
        | .ok rep => .ok ⟨n, rep⟩ := by
  obtain ⟨n, kn, hs, hn, hkn⟩ := run_sizes cfg size ksize H.sizes H.ksizes
  set c := Crystal.fromAse a cfg.spin with hc
  have hcell : c.cell = (angstrom2bohr : ℝ) • a.cell := rfl
  have hcne : c.numElectron = ne := H.electrons.symm
  have hcs : c.spin = spin := by
    rw [H.unpaired, H.electrons, hc]
    unfold Crystal.fromAse
    cases cfg.spin <;> rfl
  have hdet : c.cell.det ≠ 0 := by
    rw [hcell, Matrix.det_smul]
    refine mul_ne_zero (pow_ne_zero _ ?_) H.cell
    norm_num [angstrom2bohr]
  have hcreate : createCrystal a cfg.spin = .ok c := by
    have h1 : checkSpinNumber c.numElectron c.spin = .ok () := by
      rw [hcne, hcs]
      exact if_neg (by simp [H.placeable.1])
    unfold createCrystal
    simp only [← hc, h1]
  obtain ⟨mask, hmk⟩ : ∃ mask, createFreqMask cfg c.cell n = .ok mask := by
    unfold createFreqMask
    rcases H.method with h | h
    · exact ⟨_, if_pos h⟩
    · rw [h]; exact ⟨_, rfl⟩
  have hcount := H.waves n hn mask (hcell ▸ hmk)
  rw [← maskCount_card] at hcount
  have htr := translationCount_pos c.cell hdet cfg.ewaldCutoff H.ewald
  have hrep : runRepulsion L.erfc cfg c n = .ok (driverRepulsion L.erfc c (gVectors c.cell n) cfg.ewaldEta
      (flatRows (translationVectors c.cell cfg.ewaldCutoff))) := by
    unfold runRepulsion
    rw [if_neg (by omega), if_neg (by omega)]
  have hdv : (idxList kn).length % (if cfg.parallelK then L.devices else 1) = 0 := by
    rw [idxList_length]
    exact Nat.mod_eq_zero_of_dvd (H.devices kn hkn)
  refine ⟨n, kn, mask, driverRepulsion L.erfc c (gVectors c.cell n) cfg.ewaldEta
    (flatRows (translationVectors c.cell cfg.ewaldCutoff)), hn, hkn, hdet, hcne, hcs, ?_, fun opt b => ?_⟩
  · rw [hcne]; exact hcount
  · unfold runAtoms
    rw [hcreate]
    unfold runCrystal runGrid
    simp only [hs, hmk, hrep, hdv, ne_eq, not_true_eq_false, if_false]
    rfl

theorem noise_density_total {na nk ns nb : ℕ} {n : Fin 3 → ℕ} (hn : ∀ i, 0 < n i)
    (E : GsEnv na nk n) (hv : 0 < E.vol) (p : GsParams ns nk (maskCount E.mask) nb) (o : OccArr nk nb ℝ)
    (ho : occupation E.qrR p.occ E.ne E.spin E.method E.restricted = .ok o) (hl : o.length = ns)
    (hm : nb ≤ maskCount E.mask) :
    ∃ ρ : Fin ns → Idx n → ℝ, gsDensity E p = .ok ⟨ns, ρ⟩ ∧
      ∑ s, Spec.cellIntegral E.vol (ρ s) = (o.map fun a => ∑ k, ∑ b, a k b).sum := by
  have hs := gsState_eq E p o ho hl hm
    (fun s k b => o.get (Fin.cast hl.symm s) k (Fin.castLE (min_le_right _ _) b)) fun _ _ _ => rfl
  refine ⟨_, by unfold gsDensity; rw [hs], ?_⟩
  subst hl
  rw [← Fin.sum_univ_fun_getElem]
  refine Finset.sum_congr rfl fun s _ => ?_
  rw [densityGrid_integral E.qrC hn E.mask p.pw E.vol hv]
  exact Finset.sum_congr rfl fun k _ =>
    Fintype.sum_equiv (finCongr (min_eq_right hm)) _ _ fun _ => rfl

/-- The array after `j` steps of added noise. -/
def noisyArr {nk nb : ℕ} (ξ : ℕ → ℕ → ℕ → ℕ → ℝ) (o : OccArr nk nb ℝ) : ℕ → OccArr nk nb ℝ
  | 0 => o
  | j + 1 => (noisyArr ξ o j).mapIdx fun s a k b => a k b + ξ j s k b

theorem noisyArr_length {nk nb : ℕ} (ξ : ℕ → ℕ → ℕ → ℕ → ℝ) (o : OccArr nk nb ℝ) (j : ℕ) :
    (noisyArr ξ o j).length = o.length := by
  induction j with
  | zero => rfl
  | succ j ih => rw [noisyArr, List.length_mapIdx, ih]

theorem noise_step_sum {nk nb : ℕ} (x : ℕ → ℕ → ℕ → ℝ) (o : OccArr nk nb ℝ) :
    ((o.mapIdx fun s (a : Fin nk → Fin nb → ℝ) k b => a k b + x s k b).map fun a => ∑ k, ∑ b, a k b).sum
      = (o.map fun a => ∑ k, ∑ b, a k b).sum + ∑ s : Fin o.length, ∑ k : Fin nk, ∑ b : Fin nb, x s k b := by
  induction o generalizing x with
  | nil => simp
  | cons a o ih =>
    rw [List.mapIdx_cons, List.map_cons, List.sum_cons, ih fun s => x (s + 1), List.map_cons, List.sum_cons]
    rw [show (∑ s : Fin (a :: o).length, ∑ k : Fin nk, ∑ b : Fin nb, x s k b)
      = (∑ k : Fin nk, ∑ b : Fin nb, x 0 k b) + ∑ s : Fin o.length, ∑ k : Fin nk, ∑ b : Fin nb, x (s + 1) k b from
        Fin.sum_univ_succ (n := o.length) _]
    simp only [Finset.sum_add_distrib]
    ring

theorem noisyArr_sum {nk nb : ℕ} (ξ : ℕ → ℕ → ℕ → ℕ → ℝ) (o : OccArr nk nb ℝ) (j : ℕ) :
    ((noisyArr ξ o j).map fun a => ∑ k, ∑ b, a k b).sum = (o.map fun a => ∑ k, ∑ b, a k b).sum
      + ∑ i ∈ Finset.range j, ∑ s ∈ Finset.range o.length, ∑ k ∈ Finset.range nk, ∑ b ∈ Finset.range nb,
        ξ i s k b := by
  induction j with
  | zero => simp [noisyArr]
  | succ j ih =>
    rw [noisyArr, noise_step_sum, ih, Finset.sum_range_succ, noisyArr_length, add_assoc]
    congr 2
    simp only [Finset.sum_range]

/-- C114 is false for optimisers that add noise.  With `uniform` or `gamma` occupations, in every configuration
that is admissible with some other optimiser, the calculation succeeds, and its density holds the electrons of the
crystal and all of the noise that the steps have added. -/
theorem run_noise (L : RunLib) (cfg : RunConfig) {m : ℕ} (a : AseAtoms m) (size ksize : Fin 3 → ℤ)
    (ne spin : ℤ) (H : Spec.AdmissibleRun L cfg a size ksize ne spin)
    (hmeth : cfg.occupation = "uniform" ∨ cfg.occupation = "gamma")
    (opt : Optimizer) (ξ : ℕ → ℕ → ℕ → ℕ → ℝ) (hd : Spec.AddsNoise ξ opt) :
    ∃ n kn rep, ∃ k : ℕ, runAtoms { L with optimizer := .ok opt } cfg a = .ok ⟨n, rep⟩ ∧ Spec.LeastGrid ksize kn ∧
      (0 < k ∧ (k : ℤ) ≤ cfg.epoch ∧ (2 ≤ cfg.epoch → 2 ≤ cfg.window → 2 ≤ k)) ∧
      ∑ s, Spec.cellIntegral |((angstrom2bohr : ℝ) • a.cell).det| (rep.density.2 s) = ne +
        ∑ i ∈ Finset.range k, ∑ s ∈ Finset.range (if cfg.restricted then 1 else 2),
          ∑ q ∈ Finset.range (kn 0 * kn 1 * kn 2),
            ∑ b ∈ Finset.range ((ne.toNat + 1) / 2 + cfg.emptyBands), ξ i s q b := by
  obtain ⟨n, kn, mask, ew, hn, hkn, hdet, hcne, hcs, hbands, hrun⟩ := setup_any L cfg a size ksize ne spin H
  obtain ⟨count, hd⟩ := hd
  set c := Crystal.fromAse a cfg.spin with hc
  set E := runEnv L cfg c n kn mask with hE
  have hpl : Spec.Placeable E.method E.ne E.spin cfg.emptyBands := by
    have := H.placeable
    rw [← hcne, ← hcs] at this
    exact this
  have hkl : 0 < (idxList kn).length := idxList_length_pos fun i => smooth_pos (hkn i).1
  obtain ⟨q, hq⟩ := occParamInit_ok (nk := (idxList kn).length) L.occDraw E.ne E.spin cfg.occupation
    cfg.restricted hpl
  obtain ⟨o, ho, -, hsum⟩ := trained_occupation_partial L.qrR L.occDraw hkl E.ne E.spin cfg.occupation
    cfg.restricted hpl q q hq (keeps_refl _)
  have harr : q = .arr o := by
    rcases hmeth with h | h <;> rw [h] at ho hq <;> cases q <;> simp_all [occupation, occParamInit]
  have hocc : ∀ x : OccArr (idxList kn).length (driverBands E.ne.toNat cfg.emptyBands) ℝ,
      occupation E.qrR (.arr x) E.ne E.spin E.method E.restricted = .ok x := fun x => by
    show occupation L.qrR (.arr x) E.ne E.spin cfg.occupation cfg.restricted = _
    rcases hmeth with h | h <;> rw [h] <;> simp [occupation]
  have hns : o.length = if cfg.restricted then 1 else 2 := by
    have := congrArg List.length hsum
    rw [List.length_map] at this
    rw [this]
    cases cfg.restricted <;> rfl
  have htot : (o.map fun a => ∑ k, ∑ b, a k b).sum = ne := by
    rw [hsum, ← hcne]
    cases cfg.restricted
    · simp; show ((E.ne : ℝ) + E.spin) / 2 + ((E.ne : ℝ) - E.spin) / 2 = E.ne; ring
    · simp; rfl
  let p0 : GsParams (if cfg.restricted then 1 else 2) (idxList kn).length (maskCount E.mask)
    (driverBands E.ne.toNat cfg.emptyBands) := ⟨L.pwDraw _ _ _ _, q⟩
  have htraj : ∀ j, count (Spec.trajectory (runUpdate opt E) (temperature cfg.smearing cfg.epoch)
      (p0, opt.init p0) j).2 = j ∧ (Spec.trajectory (runUpdate opt E) (temperature cfg.smearing cfg.epoch)
      (p0, opt.init p0) j).1.occ = .arr (noisyArr ξ o j) := by
    intro j
    induction j with
    | zero => exact ⟨hd.1 _, harr⟩
    | succ j ih =>
      have := hd.2 (fun q => (gsFree E (temperature cfg.smearing cfg.epoch j) q).map fun r => r.1) _ _ ih.2
      rw [ih.1] at this
      exact this
  obtain ⟨p', e', j, v, hl, -, hj, hj2, -, rfl, hp'⟩ := gsLoop_first (runUpdate opt E)
    (fun p => gsTotal E p.1) (temperature cfg.smearing cfg.epoch)
    (fun p => ∃ x : OccArr (idxList kn).length (driverBands E.ne.toNat cfg.emptyBands) ℝ,
      p.1.occ = .arr x ∧ x.length = if cfg.restricted then 1 else 2)
    (fun p t ⟨x, hx, hxl⟩ => ⟨_, (hd.2 _ p x hx).2, List.length_mapIdx.trans hxl⟩)
    (fun p ⟨x, hx, hxl⟩ => by
      obtain ⟨r, hr⟩ := gsParts_ok E p.1 x (by rw [hx]; exact hocc x) hxl hbands
      exact ⟨_, gsTotal_of_parts E p.1 r hr⟩)
    (p0, opt.init p0) cfg.epoch.toNat (by have := H.epochs; omega) cfg.window cfg.threshold ⟨o, harr, hns⟩
  have hfin := (htraj (j + 1)).2
  rw [← hp'] at hfin
  have hlen : (noisyArr ξ o (j + 1)).length = if cfg.restricted then 1 else 2 := by
    rw [← hns, noisyArr_length]
  have hofin : occupation E.qrR p'.1.occ E.ne E.spin E.method E.restricted = .ok (noisyArr ξ o (j + 1)) := by
    rw [hfin]; exact hocc _
  obtain ⟨ρ, hρ, hint⟩ := noise_density_total (fun i => smooth_pos (hn i).1) E (vol_pos _ hdet) p'.1 _ hofin hlen hbands
  obtain ⟨r, hr⟩ := gsParts_ok E p'.1 _ hofin hlen hbands
  refine ⟨n, kn, ⟨r, ew, v + ew, ⟨_, ρ⟩⟩, j + 1, ?_, hkn, ⟨by omega, by omega, fun h1 h2 => ?_⟩, ?_⟩
  · have hloop : runLoop { L with optimizer := .ok opt } cfg E ew = .ok ⟨r, ew, v + ew, ⟨_, ρ⟩⟩ := by
      unfold runLoop
      simp only
      have hinit : gsInit (empty := cfg.emptyBands) E L.occDraw
          (L.pwDraw (if cfg.restricted then 1 else 2) (idxList kn).length (maskCount E.mask)
            (driverBands E.ne.toNat cfg.emptyBands)) = .ok p0 := by
        unfold gsInit
        rw [show occParamInit L.occDraw _ E.ne _ E.spin E.method E.restricted = .ok q from hq]
        rfl
      rw [hinit]
      refine (firstUpdate_keep H.noFault _ _ _).trans ?_
      show gsRun _ _ _ _ _ _ _ _ _ _ = _
      unfold gsRun
      rw [hl]
      simp only [hρ, hr]
    have h := hrun opt L.updateFault
    rw [hloop] at h
    exact h
  · have := hj2 (by omega) h2
    omega
  · refine hint.trans ?_
    rw [noisyArr_sum, htot, hns]
    rw [show kn 0 * kn 1 * kn 2 = (idxList kn).length from (idxList_length kn).symm]
    rw [show (ne.toNat + 1) / 2 + cfg.emptyBands = driverBands E.ne.toNat cfg.emptyBands by rw [← hcne]; rfl]

/-- C114 is false: when the noise of no number of steps adds up to zero, the density never holds the electrons of
the crystal. -/
theorem run_noise_wrong (L : RunLib) (cfg : RunConfig) {m : ℕ} (a : AseAtoms m)
    (size ksize : Fin 3 → ℤ) (ne spin : ℤ) (H : Spec.AdmissibleRun L cfg a size ksize ne spin)
    (hmeth : cfg.occupation = "uniform" ∨ cfg.occupation = "gamma")
    (opt : Optimizer) (ξ : ℕ → ℕ → ℕ → ℕ → ℝ) (hd : Spec.AddsNoise ξ opt)
    (hξ : ∀ k kn, 0 < k → Spec.LeastGrid ksize kn →
      ∑ i ∈ Finset.range k, ∑ s ∈ Finset.range (if cfg.restricted then 1 else 2),
        ∑ q ∈ Finset.range (kn 0 * kn 1 * kn 2),
          ∑ b ∈ Finset.range ((ne.toNat + 1) / 2 + cfg.emptyBands), ξ i s q b ≠ 0) :
    ∃ n rep, runAtoms { L with optimizer := .ok opt } cfg a = .ok ⟨n, rep⟩ ∧
      ∑ s, Spec.cellIntegral |((angstrom2bohr : ℝ) • a.cell).det| (rep.density.2 s) ≠ ne := by
  obtain ⟨n, kn, rep, k, h1, hkn, ⟨h2, -⟩, h3⟩ := run_noise L cfg a size ksize ne spin H hmeth opt ξ hd
  exact ⟨n, rep, h1, fun h => hξ k kn h2 hkn (by rw [h3] at h; linarith)⟩

/-- C114, C118: an optimiser that must be given more than the gradient and its own state, as every optimiser with
weight decay or with a line search, ends the calculation with its exception in the first step, in every
configuration that is admissible with some other optimiser. -/
theorem run_update_fault (L : RunLib) (cfg : RunConfig) {m : ℕ} (a : AseAtoms m) (size ksize : Fin 3 → ℤ)
    (ne spin : ℤ) (H : Spec.AdmissibleRun L cfg a size ksize ne spin) (e : PyErr) :
    runAtoms { L with updateFault := some e } cfg a = .error e := by
  obtain ⟨n, kn, mask, ew, hn, hkn, hdet, hcne, hcs, hbands, hrun⟩ := setup_any L cfg a size ksize ne spin H
  obtain ⟨opt, hopt, -⟩ := H.optimizer
  set c := Crystal.fromAse a cfg.spin with hc
  set E := runEnv L cfg c n kn mask with hE
  have hpl : Spec.Placeable E.method E.ne E.spin cfg.emptyBands := by
    have := H.placeable
    rw [← hcne, ← hcs] at this
    exact this
  have hkl : 0 < (idxList kn).length := idxList_length_pos fun i => smooth_pos (hkn i).1
  obtain ⟨q, hq⟩ := occParamInit_ok (nk := (idxList kn).length) L.occDraw E.ne E.spin cfg.occupation
    cfg.restricted hpl
  obtain ⟨o, ho, -, hsum⟩ := trained_occupation_partial L.qrR L.occDraw hkl E.ne E.spin cfg.occupation
    cfg.restricted hpl q q hq (keeps_refl _)
  have hns : o.length = if cfg.restricted then 1 else 2 := by
    have := congrArg List.length hsum
    rw [List.length_map] at this
    rw [this]
    cases cfg.restricted <;> rfl
  let p0 : GsParams (if cfg.restricted then 1 else 2) (idxList kn).length (maskCount E.mask)
    (driverBands E.ne.toNat cfg.emptyBands) := ⟨L.pwDraw _ _ _ _, q⟩
  have ho' : occupation E.qrR p0.occ E.ne E.spin E.method E.restricted = .ok o := ho
  obtain ⟨r, hr⟩ := gsParts_ok E p0 o ho' hns hbands
  obtain ⟨x, hx⟩ : ∃ x, gsFree E (temperature cfg.smearing cfg.epoch 0) p0 = .ok x := by
    unfold gsFree gsEntropy
    rw [gsTotal_of_parts E p0 r hr, ho']
    exact ⟨_, rfl⟩
  have hloop : runLoop { L with optimizer := .ok opt, updateFault := some e } cfg E ew = .error e := by
    unfold runLoop
    simp only
    have hinit : gsInit (empty := cfg.emptyBands) E L.occDraw
        (L.pwDraw (if cfg.restricted then 1 else 2) (idxList kn).length (maskCount E.mask)
          (driverBands E.ne.toNat cfg.emptyBands)) = .ok p0 := by
      unfold gsInit
      rw [show occParamInit L.occDraw _ E.ne _ E.spin E.method E.restricted = .ok q from hq]
      rfl
    rw [hinit]
    dsimp only
    exact (if_pos H.epochs).trans (by rw [hx])
  have h := hrun opt (some e)
  rw [hloop, ← hopt] at h
  exact h

/-- C114, the part that holds: with an optimiser that moves no parameter whose gradient is zero, or with a
trainable occupation method and any optimiser at all that keeps the shapes, every admissible calculation
reports a density with all electrons. -/
theorem run_electrons_partial (L : RunLib) (cfg : RunConfig) {m : ℕ} (a : AseAtoms m) (size ksize : Fin 3 → ℤ)
    (ne spin : ℤ) (H : Spec.AdmissibleRun L cfg a size ksize ne spin) :
    ∃ n rep, runAtoms L cfg a = .ok ⟨n, rep⟩ ∧
      ∑ s, Spec.cellIntegral |((angstrom2bohr : ℝ) • a.cell).det| (rep.density.2 s) = ne := by
  obtain ⟨n, rep, h1, -, -, -, h2, -⟩ := run_complete_partial L cfg a size ksize ne spin H
  exact ⟨n, rep, h1, h2⟩

/-- An optimiser that adds the noise `ξ j` to an occupation array in step number `j`, and leaves the rest. -/
def noisyOptimizer (ξ : ℕ → ℕ → ℕ → ℕ → ℝ) : Optimizer where
  State := ℕ
  init := fun _ => 0
  step := fun _ p => (⟨p.1.pw,
    match p.1.occ with
    | .arr o => .arr (o.mapIdx fun s a k b => a k b + ξ p.2 s k b)
    | .idem q => .idem q
    | .simplex u v => .simplex u v⟩, p.2 + 1)

theorem noisyOptimizer_adds (ξ : ℕ → ℕ → ℕ → ℕ → ℝ) : Spec.AddsNoise ξ (noisyOptimizer ξ) := by
  refine ⟨fun n => n, fun {ns nk g nb} => ⟨fun _ => rfl, fun f p o h => ⟨rfl, ?_⟩⟩⟩
  simp only [noisyOptimizer, h]

theorem lithium_uniform (xc : XcLib) : Spec.AdmissibleRun (lithiumLib xc) { lithiumConfig with occupation := "uniform" }
    (⟨fun _ => 3, 0, 1⟩ : AseAtoms 1) (fun _ => 4) (fun _ => 2) 3 1 := by
  have H := lithium_admissible xc
  exact ⟨H.cell, H.sizes, H.ksizes, H.electrons, H.unpaired, ⟨by decide, Or.inl ⟨Or.inl rfl, by decide, by decide⟩⟩,
      H.method, H.waves, H.ewald, H.devices, H.optimizer, H.epochs, H.noFault⟩

/-- The hypotheses hold for the lithium atom with uniform occupations and noise that moves one occupation. -/
example (xc : XcLib) : ∃ n rep, runAtoms { lithiumLib xc with
        optimizer := .ok (noisyOptimizer fun _ s k b => if s = 0 ∧ k = 0 ∧ b = 0 then 1 / 10 else 0) }
      { lithiumConfig with occupation := "uniform" } (⟨fun _ => 3, 0, 1⟩ : AseAtoms 1) = .ok ⟨n, rep⟩ ∧
    ∑ s, Spec.cellIntegral |((angstrom2bohr : ℝ) • (1 : Matrix (Fin 3) (Fin 3) ℝ)).det| (rep.density.2 s) ≠ 3 := by
  have h := run_noise_wrong _ _ _ _ _ _ _ (lithium_uniform xc) (Or.inl rfl) _
    (fun _ s k b => if s = 0 ∧ k = 0 ∧ b = 0 then 1 / 10 else 0) (noisyOptimizer_adds _) (fun k kn hk hkn => by
      have hp : ∀ i, 0 < kn i := fun i => smooth_pos (hkn i).1
      have h0 : 0 < kn 0 * kn 1 * kn 2 := Nat.mul_pos (Nat.mul_pos (hp 0) (hp 1)) (hp 2)
      refine ne_of_gt (Finset.sum_pos (fun i _ => ?_) ⟨0, Finset.mem_range.2 hk⟩)
      refine Finset.sum_pos' (fun s _ => Finset.sum_nonneg fun q _ => Finset.sum_nonneg fun b _ => by positivity)
        ⟨0, Finset.mem_range.2 (by split_ifs <;> decide), ?_⟩
      refine Finset.sum_pos' (fun q _ => Finset.sum_nonneg fun b _ => by positivity)
        ⟨0, Finset.mem_range.2 h0, ?_⟩
      refine Finset.sum_pos' (fun b _ => by positivity) ⟨0, Finset.mem_range.2 (by decide), ?_⟩
      norm_num)
  exact_mod_cast h

/-- The lithium atom with an optimiser that must be given the parameters: no density, but a `ValueError`. -/
example (xc : XcLib) : runAtoms { lithiumLib xc with updateFault := some .valueError }
    lithiumConfig (⟨fun _ => 3, 0, 1⟩ : AseAtoms 1) = .error .valueError :=
  run_update_fault _ _ _ _ _ _ _ (lithium_admissible xc) _

end Jrystal
