import Verif.Props.Optimizers
import Verif.Props.RunNC

/-
C114 for calculations with pseudopotentials.
-/
namespace Jrystal
open scoped BigOperators ComplexConjugate
open RunSetup

private theorem setup_anyNC (L : NcLib) (cfg : NcConfig) {m : ℕ} (a : AseAtoms m) (size ksize : Fin 3 → ℤ)
    (P : NcLists) (ne spin : ℤ) (H : Spec.AdmissibleRunNC L cfg a size ksize P ne spin)
    (c : Crystal m) (hc : c = Crystal.fromAse a cfg.spin) :
    ∃ n kn mask vloc bs, Spec.LeastGrid size n ∧ Spec.LeastGrid ksize kn ∧
      c.cell.det ≠ 0 ∧ c.spin = spin ∧ driverBands ne.toNat cfg.emptyBands ≤ maskCount mask ∧
      ∀ opt b, runAtomsNC { L with optimizer := .ok opt, updateFault := b } cfg a =
        match runLoopNC { L.toRunLib with optimizer := .ok opt, updateFault := b } cfg.toRunConfig
          (if cfg.parallelK then L.devices else 1) (runEnvNC L cfg c P n kn mask) vloc
          (nlPsiAll L.eigh L.sph (fun a : Fin m => ncSpecies P bs a) c.positions
            (gVectors c.cell n) (flatRows (kVectors c.cell kn)))
          (driverRepulsion L.erfc c (gVectors c.cell n) cfg.ewaldEta
            (flatRows (translationVectors c.cell cfg.ewaldCutoff))) with
        | .error e => .error e
        | .ok rep => .ok ⟨n, rep⟩ := by
  obtain ⟨n, kn, hs, hn, hkn⟩ := run_sizes cfg.toRunConfig size ksize H.sizes H.ksizes
  have hcell : c.cell = (angstrom2bohr : ℝ) • a.cell := by rw [hc]; rfl
  have hcne : c.numElectron = ∑ i, a.numbers i := by rw [hc]; rfl
  have hcs : c.spin = spin := by
    rw [H.unpaired, hc]
    unfold Crystal.fromAse
    cases cfg.spin <;> rfl
  have hdet : c.cell.det ≠ 0 := by rw [hc]; exact fromAse_det a cfg.spin H.cell
  have hcreate : createCrystal a cfg.spin = .ok c := by
    have h1 : checkSpinNumber c.numElectron c.spin = .ok () := by
      rw [hcne, hcs]
      exact if_neg (by simp [H.parity])
    unfold createCrystal
    simp only [← hc, h1]
  obtain ⟨mask, hmk⟩ : ∃ mask, createFreqMask cfg.toRunConfig c.cell n = .ok mask := by
    unfold createFreqMask
    rcases H.method with h | h
    · exact ⟨_, if_pos h⟩
    · rw [h]; exact ⟨_, rfl⟩
  have hcount := H.waves n hn mask (hcell ▸ hmk)
  rw [← RunSetup.maskCount_card] at hcount
  have htr := RunSetup.translationCount_pos c.cell hdet cfg.ewaldCutoff H.ewald
  have hrep : runRepulsion L.erfc cfg.toRunConfig c n = .ok (driverRepulsion L.erfc c (gVectors c.cell n)
      cfg.ewaldEta (flatRows (translationVectors c.cell cfg.ewaldCutoff))) := by
    unfold runRepulsion
    rw [if_neg (by omega), if_neg (by omega)]
  have hdv : (idxList kn).length % (if cfg.parallelK then L.devices else 1) = 0 := by
    rw [RunSetup.idxList_length]
    exact Nat.mod_eq_zero_of_dvd (H.devices kn hkn)
  obtain ⟨vloc, hv⟩ := (local_errors L.jn L.csLoc (ncLocalAtom P c.positions) (gVectors c.cell n) c.vol
    "sbt").1 ⟨.inl rfl, H.atoms⟩
  obtain ⟨bs, hbs⟩ := ncBetas_ok L cfg _ P H.loaded H.mesh H.processors (gVectors c.cell n)
    (flatRows (kVectors c.cell kn))
  refine ⟨n, kn, mask, vloc, bs, hn, hkn, hdet, hcs, hcount, fun opt b => ?_⟩
  have hload : createPseudo { L with optimizer := .ok opt, updateFault := b } cfg (List.ofFn fun i => L.symbol (a.numbers i)) = .ok P :=
    H.loaded
  have hbs' : ncBetas { L with optimizer := .ok opt, updateFault := b } P (gVectors c.cell n) (flatRows (kVectors c.cell kn)) = .ok bs :=
    hbs
  unfold runAtomsNC
  rw [hcreate]
  simp only [hload]
  unfold runCrystalNC runGridNC
  simp only [hs, hmk, hrep, hv, hdv, hbs', ne_eq, not_true_eq_false, if_false]
  rfl

/-- C114 is false for optimisers that add noise, also with norm-conserving pseudopotentials: with `uniform` or
`gamma` occupations, in every configuration that is admissible with some other optimiser, the calculation succeeds,
and its density holds the valence electrons and all of the noise that the steps have added. -/
theorem ncRun_noise (L : NcLib) (cfg : NcConfig) {m : ℕ} (a : AseAtoms m) (size ksize : Fin 3 → ℤ)
    (P : NcLists) (ne spin : ℤ) (H : Spec.AdmissibleRunNC L cfg a size ksize P ne spin)
    (hmeth : cfg.occupation = "uniform" ∨ cfg.occupation = "gamma")
    (opt : Optimizer) (ξ : ℕ → ℕ → ℕ → ℕ → ℝ) (hd : Spec.AddsNoise ξ opt) :
    ∃ n kn rep, ∃ k : ℕ, runAtomsNC { L with optimizer := .ok opt } cfg a = .ok ⟨n, rep⟩ ∧ Spec.LeastGrid ksize kn ∧
      (0 < k ∧ (k : ℤ) ≤ cfg.epoch ∧ (2 ≤ cfg.epoch → 2 ≤ cfg.window → 2 ≤ k)) ∧
      ∑ s, Spec.cellIntegral |((angstrom2bohr : ℝ) • a.cell).det| (rep.density.2 s) = ne +
        ∑ i ∈ Finset.range k, ∑ q ∈ Finset.range (kn 0 * kn 1 * kn 2),
          ∑ b ∈ Finset.range ((ne.toNat + 1) / 2 + cfg.emptyBands), ξ i 0 q b := by
  obtain ⟨count, hd⟩ := hd
  obtain ⟨n, kn, mask, vloc, bs, hn, hkn, hdet, hcs, hbands, hrun⟩ := setup_anyNC L cfg a size ksize P ne spin H _ rfl
  have hne := H.electrons
  subst hne
  set c := Crystal.fromAse a cfg.spin with hc
  obtain ⟨psi, hpsi⟩ : ∃ psi, psi = nlPsiAll L.eigh L.sph (fun a : Fin m => ncSpecies P bs a) c.positions
    (gVectors c.cell n) (flatRows (kVectors c.cell kn)) := ⟨_, rfl⟩
  rw [← hpsi] at hrun
  set E := runEnvNC L cfg c P n kn mask with hE
  have hr : cfg.restricted = true := by
    rcases H.occupation with ⟨h, -⟩ | ⟨h, -⟩
    · exact h
    · rcases hmeth with h1 | h1 <;> rw [h] at h1 <;> exact absurd h1 (by decide)
  have hpl : Spec.Placeable E.method E.ne E.spin cfg.emptyBands := by
    have := H.placeable
    rw [← hcs] at this
    exact this
  have hkl : 0 < (idxList kn).length := idxList_length_pos fun i => smooth_pos (hkn i).1
  obtain ⟨q, hq⟩ := occParamInit_ok (nk := (idxList kn).length) L.occDraw E.ne E.spin cfg.occupation
    true hpl
  obtain ⟨o, ho, -, hsum⟩ := trained_occupation_partial L.qrR L.occDraw hkl E.ne E.spin cfg.occupation
    true hpl q q hq (keeps_refl _)
  have harr : q = .arr o := by
    rcases hmeth with h | h <;> rw [h] at ho hq <;> cases q <;> simp_all [occupation, occParamInit]
  have hocc : ∀ x : OccArr (idxList kn).length (driverBands E.ne.toNat cfg.emptyBands) ℝ,
      occupation E.qrR (.arr x) E.ne E.spin E.method E.restricted = .ok x := fun x => by
    show occupation L.qrR (.arr x) E.ne E.spin cfg.occupation cfg.restricted = _
    rcases hmeth with h | h <;> rw [h] <;> simp [occupation]
  have hns : o.length = if cfg.restricted then 1 else 2 := by
    have := congrArg List.length hsum
    rw [List.length_map] at this
    rw [this, hr]
    rfl
  have htot : (o.map fun a => ∑ k, ∑ b, a k b).sum = (P.valence.sum : ℤ) := by
    rw [hsum]
    simp only [if_true, List.sum_cons, List.sum_nil, add_zero]
    rfl
  let p0 : GsParams (if cfg.restricted then 1 else 2) (idxList kn).length (maskCount E.mask)
    (driverBands E.ne.toNat cfg.emptyBands) := ⟨L.pwDraw _ _ _ _, q⟩
  have htraj : ∀ j, count (Spec.trajectory (runUpdateNC opt E vloc psi) (temperature cfg.smearing cfg.epoch)
      (p0, opt.init p0) j).2 = j ∧ (Spec.trajectory (runUpdateNC opt E vloc psi)
      (temperature cfg.smearing cfg.epoch) (p0, opt.init p0) j).1.occ = .arr (noisyArr ξ o j) := by
    intro j
    induction j with
    | zero => exact ⟨hd.1 _, harr⟩
    | succ j ih =>
      have := hd.2 (fun q => (gsFreeNC E vloc psi (temperature cfg.smearing cfg.epoch j) q).map fun r => r.1) _ _ ih.2
      rw [ih.1] at this
      exact this
  obtain ⟨p', e', j, v, hl, -, hj, hj2, -, rfl, hp'⟩ := gsLoop_first (runUpdateNC opt E vloc psi)
    (fun p => gsTotalNC E vloc psi p.1) (temperature cfg.smearing cfg.epoch)
    (fun p => ∃ x : OccArr (idxList kn).length (driverBands E.ne.toNat cfg.emptyBands) ℝ,
      p.1.occ = .arr x ∧ x.length = if cfg.restricted then 1 else 2)
    (fun p t ⟨x, hx, hxl⟩ => ⟨_, (hd.2 _ p x hx).2, List.length_mapIdx.trans hxl⟩)
    (fun p ⟨x, hx, hxl⟩ => by
      obtain ⟨r, hr⟩ := gsPartsNC_ok E vloc psi p.1 x (by rw [hx]; exact hocc x) hxl hbands
      exact ⟨_, gsTotalNC_of_parts E vloc psi p.1 r hr⟩)
    (p0, opt.init p0) cfg.epoch.toNat (by have := H.epochs; omega) cfg.window cfg.threshold ⟨o, harr, hns⟩
  have hfin := (htraj (j + 1)).2
  rw [← hp'] at hfin
  have hlen : (noisyArr ξ o (j + 1)).length = if cfg.restricted then 1 else 2 := by
    rw [← hns, noisyArr_length]
  have hofin : occupation E.qrR p'.1.occ E.ne E.spin E.method E.restricted = .ok (noisyArr ξ o (j + 1)) := by
    rw [hfin]; exact hocc _
  obtain ⟨ρ, hρ, hint⟩ := noise_density_total (fun i => smooth_pos (hn i).1) E (vol_pos _ hdet) p'.1 _ hofin hlen hbands
  obtain ⟨r, hr'⟩ := gsPartsNC_ok E vloc psi p'.1 _ hofin hlen hbands
  obtain ⟨ew, hew⟩ : ∃ ew, ew = driverRepulsion L.erfc c (gVectors c.cell n) cfg.ewaldEta
    (flatRows (translationVectors c.cell cfg.ewaldCutoff)) := ⟨_, rfl⟩
  rw [← hew] at hrun
  refine ⟨n, kn, ⟨r, ew, v + ew, ⟨_, ρ⟩⟩, j + 1, ?_, hkn, ⟨by omega, by omega, fun h1 h2 => ?_⟩, ?_⟩
  · have hloop : runLoopNC { L.toRunLib with optimizer := .ok opt } cfg.toRunConfig
        (if cfg.parallelK then L.devices else 1) E vloc psi ew = .ok ⟨r, ew, v + ew, ⟨_, ρ⟩⟩ := by
      unfold runLoopNC
      simp only
      have hinit : gsInitNC (empty := cfg.emptyBands) E L.occDraw
          (L.pwDraw (if cfg.restricted then 1 else 2) (idxList kn).length (maskCount E.mask)
            (driverBands E.ne.toNat cfg.emptyBands)) = .ok p0 := by
        unfold gsInitNC
        rw [show occParamInit L.occDraw _ E.ne _ E.spin E.method true = .ok q from hq]
        rfl
      rw [hinit]
      have hplace : occPlaceable (if cfg.parallelK then L.devices else 1) p0.occ = true := by
        show occPlaceable _ q = true
        rw [harr]
        show decide _ = true
        rw [idxList_length]
        exact decide_eq_true (Nat.mod_eq_zero_of_dvd (H.devices kn hkn))
      refine (if_neg fun h => Bool.noConfusion (hplace.symm.trans h)).trans ?_
      refine (firstUpdate_keep H.noFault _ _ _).trans ?_
      show gsRun _ _ _ _ _ _ _ _ _ _ = _
      unfold gsRun
      rw [hl]
      simp only [hρ, hr']
    have h := hrun opt L.updateFault
    rw [hloop] at h
    exact h
  · have := hj2 (by omega) h2
    omega
  · refine hint.trans ?_
    rw [noisyArr_sum, htot, hns, hr]
    rw [show kn 0 * kn 1 * kn 2 = (idxList kn).length from (idxList_length kn).symm]
    simp only [if_true, Finset.sum_range_one]
    rfl

/-- C114 is false: when the noise of no number of steps adds up to zero, the density never holds the valence
electrons. -/
theorem ncRun_noise_wrong (L : NcLib) (cfg : NcConfig) {m : ℕ} (a : AseAtoms m)
    (size ksize : Fin 3 → ℤ) (P : NcLists) (ne spin : ℤ) (H : Spec.AdmissibleRunNC L cfg a size ksize P ne spin)
    (hmeth : cfg.occupation = "uniform" ∨ cfg.occupation = "gamma")
    (opt : Optimizer) (ξ : ℕ → ℕ → ℕ → ℕ → ℝ) (hd : Spec.AddsNoise ξ opt)
    (hξ : ∀ k kn, 0 < k → Spec.LeastGrid ksize kn →
      ∑ i ∈ Finset.range k, ∑ q ∈ Finset.range (kn 0 * kn 1 * kn 2),
        ∑ b ∈ Finset.range ((ne.toNat + 1) / 2 + cfg.emptyBands), ξ i 0 q b ≠ 0) :
    ∃ n rep, runAtomsNC { L with optimizer := .ok opt } cfg a = .ok ⟨n, rep⟩ ∧
      ∑ s, Spec.cellIntegral |((angstrom2bohr : ℝ) • a.cell).det| (rep.density.2 s) ≠ ne := by
  obtain ⟨n, kn, rep, k, h1, hkn, ⟨h2, -⟩, h3⟩ := ncRun_noise L cfg a size ksize P ne spin H hmeth opt ξ hd
  exact ⟨n, rep, h1, fun h => hξ k kn h2 hkn (by rw [h3] at h; linarith)⟩

/-- C114, C118: with pseudopotentials, too, an optimiser that must be given more than the gradient and its own state
ends the calculation with its exception in the first step. -/
theorem ncRun_update_fault (L : NcLib) (cfg : NcConfig) {m : ℕ} (a : AseAtoms m) (size ksize : Fin 3 → ℤ)
    (P : NcLists) (ne spin : ℤ) (H : Spec.AdmissibleRunNC L cfg a size ksize P ne spin) (e : PyErr) :
    runAtomsNC { L with updateFault := some e } cfg a = .error e := by
  obtain ⟨opt, hopt, -⟩ := H.optimizer
  obtain ⟨n, kn, mask, vloc, bs, hn, hkn, hdet, hcs, hbands, hrun⟩ := setup_anyNC L cfg a size ksize P ne spin H _ rfl
  have hne := H.electrons
  subst hne
  set c := Crystal.fromAse a cfg.spin with hc
  obtain ⟨psi, hpsi⟩ : ∃ psi, psi = nlPsiAll L.eigh L.sph (fun a : Fin m => ncSpecies P bs a) c.positions
    (gVectors c.cell n) (flatRows (kVectors c.cell kn)) := ⟨_, rfl⟩
  rw [← hpsi] at hrun
  set E := runEnvNC L cfg c P n kn mask with hE
  have hpl : Spec.Placeable E.method E.ne E.spin cfg.emptyBands := by
    have := H.placeable
    rw [← hcs] at this
    exact this
  have hkl : 0 < (idxList kn).length := idxList_length_pos fun i => smooth_pos (hkn i).1
  obtain ⟨q, hq⟩ := occParamInit_ok (nk := (idxList kn).length) L.occDraw E.ne E.spin cfg.occupation
    true hpl
  let p0 : GsParams (if cfg.restricted then 1 else 2) (idxList kn).length (maskCount E.mask)
    (driverBands E.ne.toNat cfg.emptyBands) := ⟨L.pwDraw _ _ _ _, q⟩
  have hinit : gsInitNC (empty := cfg.emptyBands) E L.occDraw
      (L.pwDraw (if cfg.restricted then 1 else 2) (idxList kn).length (maskCount E.mask)
        (driverBands E.ne.toNat cfg.emptyBands)) = .ok p0 := by
    unfold gsInitNC
    rw [show occParamInit L.occDraw _ E.ne _ E.spin E.method true = .ok q from hq]
    rfl
  generalize hew : driverRepulsion L.erfc c (gVectors c.cell n) cfg.ewaldEta
    (flatRows (translationVectors c.cell cfg.ewaldCutoff)) = ew at hrun
  have hloop : runLoopNC { L.toRunLib with optimizer := .ok opt, updateFault := some e } cfg.toRunConfig
      (if cfg.parallelK then L.devices else 1) E vloc psi ew = .error e := by
    unfold runLoopNC
    simp only
    rw [hinit]
    dsimp only
    have hplace : occPlaceable (if cfg.parallelK then L.devices else 1) q = true := by
      rcases H.occupation with ⟨-, h | h⟩ | ⟨h, hd⟩
      · rw [h] at hq
        simp only [occParamInit] at hq
        cases hq
        show decide _ = true
        rw [idxList_length]
        exact decide_eq_true (Nat.mod_eq_zero_of_dvd (H.devices kn hkn))
      · rw [h] at hq
        simp only [occParamInit] at hq
        cases hq
        show decide _ = true
        rw [idxList_length]
        exact decide_eq_true (Nat.mod_eq_zero_of_dvd (H.devices kn hkn))
      · rw [h] at hq
        simp only [occParamInit] at hq
        cases hq
        exact decide_eq_true (Nat.mod_eq_zero_of_dvd hd)
    refine (if_neg fun h => Bool.noConfusion (hplace.symm.trans h)).trans ?_
    refine (if_pos H.epochs).trans ?_
    have hq' : occParamInit L.occDraw (driverBands E.ne.toNat cfg.emptyBands) E.ne (idxList kn).length E.spin
        cfg.occupation cfg.restricted = .ok q := by
      rw [← hq]
      rcases H.occupation with ⟨h, -⟩ | ⟨h, -⟩
      · rw [h]
      · rw [h]; rfl
    obtain ⟨o, ho, -, hsum⟩ := trained_occupation_partial L.qrR L.occDraw hkl E.ne E.spin cfg.occupation
      cfg.restricted hpl q q hq' (keeps_refl _)
    have hns : o.length = if cfg.restricted then 1 else 2 := by
      have := congrArg List.length hsum
      rw [List.length_map] at this
      rw [this]
      cases cfg.restricted <;> rfl
    have ho' : occupation E.qrR p0.occ E.ne E.spin E.method E.restricted = .ok o := ho
    obtain ⟨r, hr⟩ := gsPartsNC_ok E vloc psi p0 o ho' hns hbands
    obtain ⟨x, hx⟩ : ∃ x, gsFreeNC E vloc psi (temperature cfg.smearing cfg.epoch 0) p0 = .ok x := by
      unfold gsFreeNC gsEntropy
      rw [gsTotalNC_of_parts E vloc psi p0 r hr, ho']
      exact ⟨_, rfl⟩
    rw [hx]
  have h := hrun opt (some e)
  rw [hloop, ← hopt] at h
  exact h

/-- C114, the part that holds, with pseudopotentials: with an optimiser that moves no parameter whose gradient is
zero, or with the simplex projector and any optimiser that keeps the shapes, the density holds all valence
electrons. -/
theorem ncRun_electrons_partial (L : NcLib) (cfg : NcConfig) {m : ℕ} (a : AseAtoms m) (size ksize : Fin 3 → ℤ)
    (P : NcLists) (ne spin : ℤ) (H : Spec.AdmissibleRunNC L cfg a size ksize P ne spin) :
    ∃ n rep, runAtomsNC L cfg a = .ok ⟨n, rep⟩ ∧
      ∑ s, Spec.cellIntegral |((angstrom2bohr : ℝ) • a.cell).det| (rep.density.2 s) = ne := by
  obtain ⟨n, kn, rep, mask, vloc, bs, h1, -, -, -, -, -, -, -, h2, -⟩ := ncRun_complete_partial L cfg a size ksize P ne
    spin H _ rfl _ (fun _ _ => rfl) _ fun _ => rfl
  exact ⟨n, rep, h1, h2⟩

/-- The hypotheses hold for the silicon pair with uniform occupations and noise that moves one occupation. -/
example (xc : XcLib) (eigh : Eigh) (jn : SphBessel) (csLoc csBeta : Spline) : ∃ n rep,
    runAtomsNC { siliconLib xc eigh jn csLoc csBeta with
        optimizer := .ok (noisyOptimizer fun _ s k b => if s = 0 ∧ k = 0 ∧ b = 0 then 1 / 10 else 0) }
      { siliconConfig with occupation := "uniform", restricted := true } siliconAtoms = .ok ⟨n, rep⟩ ∧
    ∑ s, Spec.cellIntegral |((angstrom2bohr : ℝ) • siliconAtoms.cell).det| (rep.density.2 s) ≠ 4 := by
  obtain ⟨P, H⟩ := silicon_admissible xc eigh jn csLoc csBeta
  have H' : Spec.AdmissibleRunNC (siliconLib xc eigh jn csLoc csBeta)
      { siliconConfig with occupation := "uniform", restricted := true } siliconAtoms (fun _ => 4) (fun _ => 2) P 4 0 :=
    { H with
      placeable := ⟨by decide, Or.inl ⟨Or.inl rfl, by decide, by decide⟩⟩
      occupation := Or.inl ⟨rfl, Or.inl rfl⟩ }
  have h := ncRun_noise_wrong _ _ _ _ _ _ _ _ H' (Or.inl rfl) _
    (fun _ s k b => if s = 0 ∧ k = 0 ∧ b = 0 then 1 / 10 else 0) (noisyOptimizer_adds _) (fun k kn hk hkn => by
      have hp : ∀ i, 0 < kn i := fun i => smooth_pos (hkn i).1
      have h0 : 0 < kn 0 * kn 1 * kn 2 := Nat.mul_pos (Nat.mul_pos (hp 0) (hp 1)) (hp 2)
      refine ne_of_gt (Finset.sum_pos (fun i _ => ?_) ⟨0, Finset.mem_range.2 hk⟩)
      refine Finset.sum_pos' (fun q _ => Finset.sum_nonneg fun b _ => by positivity)
        ⟨0, Finset.mem_range.2 h0, ?_⟩
      refine Finset.sum_pos' (fun b _ => by positivity) ⟨0, Finset.mem_range.2 (by decide), ?_⟩
      norm_num)
  exact_mod_cast h

/-- The silicon pair with an optimiser that must be given the parameters. -/
example (xc : XcLib) (eigh : Eigh) (jn : SphBessel) (csLoc csBeta : Spline) :
    runAtomsNC { siliconLib xc eigh jn csLoc csBeta with updateFault := some .valueError }
      siliconConfig siliconAtoms = .error .valueError := by
  obtain ⟨P, H⟩ := silicon_admissible xc eigh jn csLoc csBeta
  exact ncRun_update_fault _ _ _ _ _ _ _ _ H _

end Jrystal
