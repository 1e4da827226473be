import Verif.Lemmas.Variational
import Verif.Props.GroundState
import Verif.Props.EwaldRun

/- C97: the variational principle for whole calculations.  A calculation without smearing whose optimiser comes
within `ε` of the minimum reports at most `ε` more than any calculation among fewer states. -/
namespace Jrystal
open scoped BigOperators ComplexConjugate
open RunSetup

theorem leastGrid_unique {size : Fin 3 → ℤ} {n n' : Fin 3 → ℕ} (h : Spec.LeastGrid size n)
    (h' : Spec.LeastGrid size n') : n' = n :=
  funext fun i => le_antisymm ((h' i).2.2 _ (h i).1 (h i).2.1) ((h i).2.2 _ (h' i).1 (h' i).2.1)

/-- What an all-electron calculation reports, whatever its optimiser. -/
private theorem attained_states (L : RunLib) (cfg : RunConfig) {m : ℕ} (a : AseAtoms m) (size ksize : Fin 3 → ℤ)
    (ne spin : ℤ) (H : Spec.AdmissibleRun L cfg a size ksize ne spin) :
    ∃ n kn rep, ∃ mask : Idx n → Bool, runAtoms L cfg a = .ok ⟨n, rep⟩ ∧ Spec.LeastGrid size n ∧
      Spec.LeastGrid ksize kn ∧ createFreqMask cfg ((angstrom2bohr : ℝ) • a.cell) n = .ok mask ∧
      ∃ ns nb, nb = (ne.toNat + 1) / 2 + cfg.emptyBands ∧ ns = (if cfg.restricted then 1 else 2) ∧
        (∃ c occ, Attained (ns := ns) (nk := (idxList kn).length) (nb := nb) mask ne spin cfg.restricted cfg.occupation
            (fun c occ e => totalEnergy L.xc c (fun i d => (angstrom2bohr : ℝ) * a.positions i d)
              (fun i => (a.numbers i : ℝ)) (gVectors ((angstrom2bohr : ℝ) • a.cell) n)
              (flatRows (kVectors ((angstrom2bohr : ℝ) • a.cell) kn)) |((angstrom2bohr : ℝ) • a.cell).det| (some occ)
              false cfg.xc = .ok e)
            c occ (rep.parts.kin + rep.parts.har + rep.parts.ext + rep.parts.xc)) ∧
        ∃ c occ, Attained (ns := ns) (nk := (idxList kn).length) (nb := nb) mask ne spin cfg.restricted cfg.occupation
            (fun c occ e => totalEnergy L.xc c (fun i d => (angstrom2bohr : ℝ) * a.positions i d)
              (fun i => (a.numbers i : ℝ)) (gVectors ((angstrom2bohr : ℝ) • a.cell) n)
              (flatRows (kVectors ((angstrom2bohr : ℝ) • a.cell) kn)) |((angstrom2bohr : ℝ) • a.cell).det| (some occ)
              false cfg.xc = .ok e)
            c occ (rep.total - rep.repulsion) := by
  obtain ⟨n, kn, mask, opt, ew, q, -, hn, hkn, hmk, hew, hdet, hcne, hcs, hbands, hpl, hupd, pw0, hinit, hrun⟩ :=
    run_setup L cfg a size ksize ne spin H
  subst hcne hcs
  obtain ⟨rep, h1, h2, h3⟩ := run_attained (empty := cfg.emptyBands)
    (fun i => smooth_pos (hn i).1) (idxList_length_pos fun i => smooth_pos (hkn i).1)
    (runEnv L cfg (Crystal.fromAse a cfg.spin) n kn mask) (vol_pos _ hdet) L.occDraw rfl hbands hpl ⟨pw0, q⟩
    (opt.init ⟨pw0, q⟩) (gsInit_occ hinit) ew
    (fun c occ e => totalEnergy L.xc c (fun i d => (angstrom2bohr : ℝ) * a.positions i d)
      (fun i => (a.numbers i : ℝ)) (gVectors ((angstrom2bohr : ℝ) • a.cell) n)
      (flatRows (kVectors ((angstrom2bohr : ℝ) • a.cell) kn)) |((angstrom2bohr : ℝ) • a.cell).det| (some occ)
      false cfg.xc = .ok e)
    (gsTotal _) (fun p c occ v hs hv => (gsTotal_of_state _ p _ _ hs).symm.trans hv) (gsParts _)
    (fun p o ho hl => by
      obtain ⟨q, hq⟩ := gsParts_ok _ p o ho hl hbands
      exact ⟨_, gsTotal_of_parts _ p q hq⟩)
    (fun p o ho hl => gsParts_ok _ p o ho hl hbands) (fun q => q.kin + q.har + q.ext + q.xc)
    (fun p y hy => gsTotal_of_parts _ p y hy) (runUpdate opt _) hupd cfg.epoch H.epochs cfg.smearing cfg.window
    cfg.threshold
  exact ⟨n, kn, rep, mask, hrun rep h1, hn, hkn, hmk, _, _, min_eq_right hbands, rfl, h2, h3⟩

private theorem mask_grows {cfg cfg' : RunConfig} (E : Spec.Enlarges cfg cfg') {A : Matrix (Fin 3) (Fin 3) ℝ}
    {n : Fin 3 → ℕ} {mask mask' : Idx n → Bool} (h : createFreqMask cfg A n = .ok mask)
    (h' : createFreqMask cfg' A n = .ok mask') (x : Idx n) (hx : mask x = true) : mask' x = true := by
  unfold createFreqMask at h h'
  rw [E.maskMethod] at h'
  split_ifs at h h' with h1 h2
  · rw [← Except.ok.inj h'] 
    rw [← Except.ok.inj h] at hx
    exact hx
  · rw [← Except.ok.inj h']
    rw [← Except.ok.inj h] at hx
    unfold sphericalMask at hx ⊢
    simp only [decide_eq_true_eq] at hx ⊢
    linarith [E.cutoff]

private theorem given_fit {method : String} {ne spin : ℤ} {empty : ℕ} (h : Spec.Placeable method ne spin empty)
    (hfix : method = "uniform" ∨ method = "gamma") : ne + |spin| ≤ 2 * ((ne.toNat + 1) / 2 + empty : ℕ) := by
  have h2 : |spin| ≤ ne ∧ |spin| ≤ 2 * empty + ne % 2 := by
    rcases h.2 with h | h | h
    · exact h.2
    · rcases hfix with rfl | rfl <;> exact absurd h.1 (by decide)
    · rcases hfix with rfl | rfl <;> exact absurd h.1 (by decide)
  have := abs_nonneg spin
  push_cast
  omega

/-- C97: the variational principle.  Let a calculation without smearing have an optimiser that comes within `ε` of
the minimum.  Then it reports at most `ε` more than every calculation of the same crystal among fewer states: with
a lower cutoff, fewer bands, prescribed occupations or one spin channel instead of two, and with any optimiser,
starting point, smearing and number of devices.  This holds for the sum of the reported energies and, with at least
two epochs and a window of at least two values, for the total energy. -/
theorem run_variational (L L' : RunLib) (hlib : L'.xc = L.xc) (herfc : L'.erfc = L.erfc) (cfg cfg' : RunConfig)
    (E : Spec.Enlarges cfg cfg') {m : ℕ} (a : AseAtoms m) (size ksize : Fin 3 → ℤ) (ne spin : ℤ)
    (H : Spec.AdmissibleRun L cfg a size ksize ne spin) (H' : Spec.AdmissibleRun L' cfg' a size ksize ne spin)
    (hC : Spec.Triangular L'.qrC) (hR : Spec.Triangular L'.qrR) (hxc : Spec.ContinuousXc L'.xc cfg'.xc)
    (heps : 0 < cfg'.eps) (hspin : cfg'.occupation = "simplex-projector" → cfg'.restricted = true → spin = 0)
    (hg : cfg.occupation = "gamma" → ∀ i, ksize i ≤ 1)
    (hlim : cfg'.restricted ≠ cfg.restricted → spin = 0 ∧ Spec.UnpolarisedLimit L.xc cfg.xc)
    (ε : ℝ) (hopt : ∀ opt, L'.optimizer = .ok opt → Spec.NearOptimizer ε opt) (hsm : cfg'.smearing ≤ 0) :
    ∃ n, ∃ rep rep' : GsReport EnergyParts n, runAtoms L cfg a = .ok ⟨n, rep⟩ ∧ runAtoms L' cfg' a = .ok ⟨n, rep'⟩ ∧
      rep'.parts.kin + rep'.parts.har + rep'.parts.ext + rep'.parts.xc
        ≤ rep.parts.kin + rep.parts.har + rep.parts.ext + rep.parts.xc + ε ∧
      (2 ≤ cfg'.epoch → 2 ≤ cfg'.window → rep'.total ≤ rep.total + ε) := by
  have hg' : cfg'.occupation = "gamma" → ∀ i, ksize i ≤ 1 := by
    intro h
    rcases E.occupation with h1 | h1 | h1
    · exact hg (h1 ▸ h)
    · rw [h1] at h; exact absurd h (by decide)
    · rw [h1] at h; exact absurd h (by decide)
  obtain ⟨n, kn, rep, mask, hr, hn, hkn, hmk, ns, nb, hnb, hns, ⟨c1, o1, hA1⟩, c2, o2, hA2⟩ :=
    attained_states L cfg a size ksize ne spin H
  obtain ⟨n', kn', rep', mask', hr', hn', hkn', hmk', ns', nb', hnb', ⟨j1, d1, q1, -, hG1, -⟩, hG2⟩ :=
    run_ground_state L' cfg' a size ksize ne spin H' hC hR hxc heps hspin hg' ε hopt _ rfl _ (fun _ _ => rfl) _
      fun _ => rfl
  obtain rfl := leastGrid_unique hn hn'
  obtain rfl := leastGrid_unique hkn hkn'
  have hnbs : nb ≤ nb' := by
    rw [hnb, hnb']
    exact Nat.add_le_add_left E.bands _
  have hcard : nb' ≤ Fintype.card {x // mask' x = true} := by
    rw [hnb']
    exact H'.waves _ hn _ hmk'
  have hrepeq : rep'.repulsion = rep.repulsion := by
    have h1 := run_repulsion L cfg a H.cell H.ewald hr
    have h2 := run_repulsion L' cfg' a H'.cell H'.ewald hr'
    have : runRepulsion L'.erfc cfg' (Crystal.fromAse a cfg'.spin) n'
        = runRepulsion L.erfc cfg (Crystal.fromAse a cfg.spin) n' := by
      unfold runRepulsion
      rw [herfc, E.spin, E.eta, E.ewald]
    rw [this, h1] at h2
    exact (Except.ok.inj h2).symm
  have hfit : cfg.occupation = "uniform" ∨ cfg.occupation = "gamma" → ne + |spin| ≤ 2 * nb := fun h => by
    rw [hnb]
    exact given_fit H.placeable h
  -- the comparison, for one state of each calculation
  have key : ∀ {c : Coef ns (idxList kn').length nb n'} {occ : Occ ns (idxList kn').length nb} {e : ℝ}
      {d : Coef ns' (idxList kn').length nb' n'} {q : Occ ns' (idxList kn').length nb'} {e' : ℝ} {j : ℕ},
      Attained mask ne spin cfg.restricted cfg.occupation
        (fun c occ e => totalEnergy L.xc c (fun i d => (angstrom2bohr : ℝ) * a.positions i d)
          (fun i => (a.numbers i : ℝ)) (gVectors ((angstrom2bohr : ℝ) • a.cell) n')
          (flatRows (kVectors ((angstrom2bohr : ℝ) • a.cell) kn')) |((angstrom2bohr : ℝ) • a.cell).det| (some occ)
          false cfg.xc = .ok e) c occ e →
      Spec.GroundWithin ε (temperature cfg'.smearing cfg'.epoch j) cfg'.eps mask' ne spin cfg'.restricted
        cfg'.occupation
        (fun c occ e => totalEnergy L'.xc c (fun i d => (angstrom2bohr : ℝ) * a.positions i d)
          (fun i => (a.numbers i : ℝ)) (gVectors ((angstrom2bohr : ℝ) • a.cell) n')
          (flatRows (kVectors ((angstrom2bohr : ℝ) • a.cell) kn')) |((angstrom2bohr : ℝ) • a.cell).det| (some occ)
          false cfg'.xc = .ok e) d q e' → e' ≤ e + ε := by
    intro c occ e d q e' j hA hG
    rw [temperature_zero _ hsm, hlib, E.xc] at hG
    have hns' := hG.physical.channels
    rcases E.channels with hch | ⟨hch, hch'⟩
    · rw [hch] at hns' hG
      obtain rfl : ns' = ns := hns'.trans hns.symm
      refine ground_below hnbs ?_ (mask_grows E hmk hmk') hcard E.occupation (fun h => one_kpoint hkn (hg h)) hfit
        hA hG
      exact fun c occ c' occ' e hP he => (hP.totalEnergy ..).trans he
    · obtain ⟨rfl, hl⟩ := hlim (by rw [hch, hch']; decide)
      rw [hch] at hns hA
      rw [hch'] at hns' hG
      obtain rfl : ns = 1 := hns
      obtain rfl : ns' = 2 := hns'
      refine ground_below hnbs ?_ (mask_grows E hmk hmk') hcard E.occupation (fun h => one_kpoint hkn (hg h)) hfit
        (hA.doubled (energy' := fun c occ e => totalEnergy L.xc c (fun i d => (angstrom2bohr : ℝ) * a.positions i d)
          (fun i => (a.numbers i : ℝ)) (gVectors ((angstrom2bohr : ℝ) • a.cell) n')
          (flatRows (kVectors ((angstrom2bohr : ℝ) • a.cell) kn')) |((angstrom2bohr : ℝ) • a.cell).det| (some occ)
          false cfg.xc = .ok e) fun he => ?_) hG
      · exact fun c occ c' occ' e hP he => (hP.totalEnergy ..).trans he
      rw [← he]
      unfold totalEnergy
      rw [(energies_restricted L.xc cfg.xc hl.lda hl.gga c (fun _ => c 0) occ (fun _ k b => occ 0 k b / 2)
        (fun _ => rfl) (fun _ _ _ => rfl) _ _ _ _ _).1]
  refine ⟨n', rep, rep', hr, hr', key hA1 hG1, fun he hw => ?_⟩
  obtain ⟨j2, d2, q2, -, hG2⟩ := hG2 he hw
  have := key hA2 hG2
  rw [hrepeq] at this
  linarith

/-- What a norm-conserving calculation reports, whatever its optimiser. -/
private theorem attained_statesNC (L : NcLib) (cfg : NcConfig) {m : ℕ} (a : AseAtoms m) (size ksize : Fin 3 → ℤ)
    (P : NcLists) (ne spin : ℤ) (H : Spec.AdmissibleRunNC L cfg a size ksize P ne spin) :
    ∃ n kn rep, ∃ mask : Idx n → Bool, ∃ vloc bs, runAtomsNC L cfg a = .ok ⟨n, rep⟩ ∧ Spec.LeastGrid size n ∧
      Spec.LeastGrid ksize kn ∧ createFreqMask cfg.toRunConfig ((angstrom2bohr : ℝ) • a.cell) n = .ok mask ∧
      localReciprocal L.jn L.csLoc (ncLocalAtom P fun i d => (angstrom2bohr : ℝ) * a.positions i d)
        (gVectors ((angstrom2bohr : ℝ) • a.cell) n) |((angstrom2bohr : ℝ) • a.cell).det| "sbt" = .ok vloc ∧
      ncBetas L P (gVectors ((angstrom2bohr : ℝ) • a.cell) n)
        (flatRows (kVectors ((angstrom2bohr : ℝ) • a.cell) kn)) = .ok bs ∧
      ∃ ns nb, nb = (ne.toNat + 1) / 2 + cfg.emptyBands ∧ ns = (if cfg.restricted then 1 else 2) ∧
        (∃ c occ, Attained (ns := ns) (nk := (idxList kn).length) (nb := nb) mask ne spin cfg.restricted cfg.occupation
            (Spec.EnergyNC L.xc cfg.xc vloc (nlPsiAll L.eigh L.sph (fun a : Fin m => ncSpecies P bs a)
              (fun i d => (angstrom2bohr : ℝ) * a.positions i d) (gVectors ((angstrom2bohr : ℝ) • a.cell) n)
              (flatRows (kVectors ((angstrom2bohr : ℝ) • a.cell) kn))) (gVectors ((angstrom2bohr : ℝ) • a.cell) n)
              (flatRows (kVectors ((angstrom2bohr : ℝ) • a.cell) kn)) |((angstrom2bohr : ℝ) • a.cell).det|)
            c occ (rep.parts.1.kin + rep.parts.1.har + rep.parts.1.ext + rep.parts.2 + rep.parts.1.xc)) ∧
        ∃ c occ, Attained (ns := ns) (nk := (idxList kn).length) (nb := nb) mask ne spin cfg.restricted cfg.occupation
            (Spec.EnergyNC L.xc cfg.xc vloc (nlPsiAll L.eigh L.sph (fun a : Fin m => ncSpecies P bs a)
              (fun i d => (angstrom2bohr : ℝ) * a.positions i d) (gVectors ((angstrom2bohr : ℝ) • a.cell) n)
              (flatRows (kVectors ((angstrom2bohr : ℝ) • a.cell) kn))) (gVectors ((angstrom2bohr : ℝ) • a.cell) n)
              (flatRows (kVectors ((angstrom2bohr : ℝ) • a.cell) kn)) |((angstrom2bohr : ℝ) • a.cell).det|)
            c occ (rep.total - rep.repulsion) := by
  obtain ⟨n, kn, mask, vloc, bs, opt, q, hn, hkn, hmk, hv, hbs, hopteq, hdet, hne, hcs, hcount, hpl, hr, hstep, pw0,
    hinit, hrun⟩ := ncRun_start L cfg a size ksize P ne spin H
  subst hne hcs
  have hinit' : occParamInit L.occDraw
      (driverBands (runEnvNC L cfg (Crystal.fromAse a cfg.spin) P n kn mask).ne.toNat cfg.emptyBands)
      (runEnvNC L cfg (Crystal.fromAse a cfg.spin) P n kn mask).ne (idxList kn).length
      (runEnvNC L cfg (Crystal.fromAse a cfg.spin) P n kn mask).spin
      (runEnvNC L cfg (Crystal.fromAse a cfg.spin) P n kn mask).method
      (runEnvNC L cfg (Crystal.fromAse a cfg.spin) P n kn mask).restricted = .ok q := by
    have := gsInitNC_occ hinit
    rw [← this]
    rcases hr with hr | ⟨h1, h2⟩
    · change occParamInit _ _ _ _ _ _ cfg.restricted = _
      rw [hr]
    · change occParamInit _ _ _ _ _ cfg.occupation _ = occParamInit _ _ _ _ _ cfg.occupation _
      simp only [occParamInit, h1, h2, if_false]
  let psi := nlPsiAll L.eigh L.sph (fun a : Fin m => ncSpecies P bs a) (Crystal.fromAse a cfg.spin).positions
    (gVectors (Crystal.fromAse a cfg.spin).cell n) (flatRows (kVectors (Crystal.fromAse a cfg.spin).cell kn))
  obtain ⟨rep, h1, h2, h3⟩ := run_attained (empty := cfg.emptyBands)
    (fun i => smooth_pos (hn i).1) (idxList_length_pos fun i => smooth_pos (hkn i).1)
    (runEnvNC L cfg (Crystal.fromAse a cfg.spin) P n kn mask) (vol_pos _ hdet) L.occDraw rfl hcount hpl ⟨pw0, q⟩
    (opt.init ⟨pw0, q⟩) hinit'
    (driverRepulsion L.erfc (Crystal.fromAse a cfg.spin) (gVectors (Crystal.fromAse a cfg.spin).cell n) cfg.ewaldEta
      (flatRows (translationVectors (Crystal.fromAse a cfg.spin).cell cfg.ewaldCutoff)))
    (Spec.EnergyNC L.xc cfg.xc vloc psi (gVectors (Crystal.fromAse a cfg.spin).cell n)
      (flatRows (kVectors (Crystal.fromAse a cfg.spin).cell kn)) (Crystal.fromAse a cfg.spin).vol)
    (gsTotalNC _ vloc psi)
    (fun p c occ v hs hval => by
      obtain ⟨e, he⟩ := energyNC_exists L.xc cfg.xc vloc psi (gVectors (Crystal.fromAse a cfg.spin).cell n)
        (flatRows (kVectors (Crystal.fromAse a cfg.spin).cell kn)) (Crystal.fromAse a cfg.spin).vol c occ
      have h1 := gsTotalNC_of_state _ vloc psi p c occ hs e he
      rw [h1] at hval
      rw [← Except.ok.inj hval]
      exact he)
    (gsPartsNC _ vloc psi)
    (fun p o ho hl => by
      obtain ⟨q, hq⟩ := gsPartsNC_ok _ vloc psi p o ho hl hcount
      exact ⟨_, gsTotalNC_of_parts _ vloc psi p q hq⟩)
    (fun p o ho hl => gsPartsNC_ok _ vloc psi p o ho hl hcount)
    (fun q => q.1.kin + q.1.har + q.1.ext + q.2 + q.1.xc)
    (fun p y hy => gsTotalNC_of_parts _ vloc psi p y hy) (runUpdateNC opt _ vloc
      psi)
    (fun p t => hstep _ p) cfg.epoch
    H.epochs cfg.smearing cfg.window cfg.threshold
  exact ⟨n, kn, rep, mask, vloc, bs, hrun rep h1, hn, hkn, hmk, hv, hbs, _, _, min_eq_right hcount, rfl, h2, h3⟩

/-- C97: the variational principle for calculations with norm-conserving pseudopotentials. -/
theorem ncRun_variational (L : NcLib) (M : RunLib) (hlib : M.xc = L.xc) (herfc : M.erfc = L.erfc)
    (cfg cfg' : NcConfig) (E : Spec.Enlarges cfg.toRunConfig cfg'.toRunConfig) {m : ℕ} (a : AseAtoms m)
    (size ksize : Fin 3 → ℤ) (P : NcLists) (ne spin : ℤ)
    (H : Spec.AdmissibleRunNC L cfg a size ksize P ne spin)
    (H' : Spec.AdmissibleRunNC { L with toRunLib := M } cfg' a size ksize P ne spin)
    (hC : Spec.Triangular M.qrC) (hR : Spec.Triangular M.qrR) (hxc : Spec.ContinuousXc M.xc cfg'.xc)
    (heps : 0 < cfg'.eps) (hspin : cfg'.occupation = "simplex-projector" → cfg'.restricted = true → spin = 0)
    (hg : cfg.occupation = "gamma" → ∀ i, ksize i ≤ 1)
    (hlim : cfg'.restricted ≠ cfg.restricted → spin = 0 ∧ Spec.UnpolarisedLimit L.xc cfg.xc)
    (ε : ℝ) (hopt : ∀ opt, M.optimizer = .ok opt → Spec.NearOptimizer ε opt) (hsm : cfg'.smearing ≤ 0) :
    ∃ n, ∃ rep rep' : GsReport (EnergyParts × ℝ) n, runAtomsNC L cfg a = .ok ⟨n, rep⟩ ∧
      runAtomsNC { L with toRunLib := M } cfg' a = .ok ⟨n, rep'⟩ ∧
      rep'.parts.1.kin + rep'.parts.1.har + rep'.parts.1.ext + rep'.parts.2 + rep'.parts.1.xc
        ≤ rep.parts.1.kin + rep.parts.1.har + rep.parts.1.ext + rep.parts.2 + rep.parts.1.xc + ε ∧
      (2 ≤ cfg'.epoch → 2 ≤ cfg'.window → rep'.total ≤ rep.total + ε) := by
  have hg' : cfg'.occupation = "gamma" → ∀ i, ksize i ≤ 1 := by
    intro h
    rcases E.occupation with h1 | h1 | h1
    · exact hg (h1 ▸ h)
    · rw [h1] at h; exact absurd h (by decide)
    · rw [h1] at h; exact absurd h (by decide)
  obtain ⟨n, kn, rep, mask, vloc, bs, hr, hn, hkn, hmk, hvl, hbs, ns, nb, hnb, hns, ⟨c1, o1, hA1⟩, c2, o2, hA2⟩ :=
    attained_statesNC L cfg a size ksize P ne spin H
  obtain ⟨n', kn', rep', mask', vloc', bs', hr', hn', hkn', hmk', hvl', hbs', ns', nb', hnb',
    ⟨j1, d1, q1, -, hG1, -⟩, hG2⟩ :=
    ncRun_ground_state { L with toRunLib := M } cfg' a size ksize P ne spin H' hC hR hxc heps hspin hg' ε hopt _ rfl _
      (fun _ _ => rfl)
  obtain rfl := leastGrid_unique hn hn'
  obtain rfl := leastGrid_unique hkn hkn'
  obtain rfl : vloc' = vloc := Except.ok.inj (hvl'.symm.trans hvl)
  obtain rfl : bs' = bs := Except.ok.inj (hbs'.symm.trans hbs)
  have hnbs : nb ≤ nb' := by
    rw [hnb, hnb']
    exact Nat.add_le_add_left E.bands _
  have hcard : nb' ≤ Fintype.card {x // mask' x = true} := by
    rw [hnb']
    exact H'.waves _ hn _ hmk'
  have hrepeq : rep'.repulsion = rep.repulsion := by
    have h1 := ncRun_repulsion L cfg a H.cell H.ewald hr
    have h2 := ncRun_repulsion { L with toRunLib := M } cfg' a H'.cell H'.ewald hr'
    have : runRepulsion M.erfc cfg'.toRunConfig (Crystal.fromAse a cfg'.spin) n'
        = runRepulsion L.erfc cfg.toRunConfig (Crystal.fromAse a cfg.spin) n' := by
      unfold runRepulsion
      rw [herfc, E.spin, E.eta, E.ewald]
    exact Except.ok.inj (h2.symm.trans (this.trans h1))
  have hfit : cfg.occupation = "uniform" ∨ cfg.occupation = "gamma" → ne + |spin| ≤ 2 * nb := fun h => by
    rw [hnb]
    exact given_fit H.placeable h
  -- the comparison, for one state of each calculation
  have key : ∀ {c : Coef ns (idxList kn').length nb n'} {occ : Occ ns (idxList kn').length nb} {e : ℝ}
      {d : Coef ns' (idxList kn').length nb' n'} {q : Occ ns' (idxList kn').length nb'} {e' : ℝ} {j : ℕ},
      Attained mask ne spin cfg.restricted cfg.occupation
        (Spec.EnergyNC L.xc cfg.xc vloc' (nlPsiAll L.eigh L.sph (fun a : Fin m => ncSpecies P bs' a)
          (fun i d => (angstrom2bohr : ℝ) * a.positions i d) (gVectors ((angstrom2bohr : ℝ) • a.cell) n')
          (flatRows (kVectors ((angstrom2bohr : ℝ) • a.cell) kn'))) (gVectors ((angstrom2bohr : ℝ) • a.cell) n')
          (flatRows (kVectors ((angstrom2bohr : ℝ) • a.cell) kn')) |((angstrom2bohr : ℝ) • a.cell).det|) c occ e →
      Spec.GroundWithin ε (temperature cfg'.smearing cfg'.epoch j) cfg'.eps mask' ne spin cfg'.restricted
        cfg'.occupation
        (Spec.EnergyNC M.xc cfg'.xc vloc' (nlPsiAll L.eigh L.sph (fun a : Fin m => ncSpecies P bs' a)
          (fun i d => (angstrom2bohr : ℝ) * a.positions i d) (gVectors ((angstrom2bohr : ℝ) • a.cell) n')
          (flatRows (kVectors ((angstrom2bohr : ℝ) • a.cell) kn'))) (gVectors ((angstrom2bohr : ℝ) • a.cell) n')
          (flatRows (kVectors ((angstrom2bohr : ℝ) • a.cell) kn')) |((angstrom2bohr : ℝ) • a.cell).det|)
        d q e' → e' ≤ e + ε := by
    intro c occ e d q e' j hA hG
    rw [temperature_zero _ hsm, hlib, E.xc] at hG
    have hns' := hG.physical.channels
    rcases E.channels with hch | ⟨hch, hch'⟩
    · rw [hch] at hns' hG
      obtain rfl : ns' = ns := hns'.trans hns.symm
      refine ground_below hnbs ?_ (mask_grows E hmk hmk') hcard E.occupation (fun h => one_kpoint hkn (hg h)) hfit
        hA hG
      exact fun c occ c' occ' e hP he => hP.energyNC _ _ _ _ _ _ _ _ he
    · obtain ⟨rfl, hl⟩ := hlim (by rw [hch, hch']; decide)
      rw [hch] at hns hA
      rw [hch'] at hns' hG
      obtain rfl : ns = 1 := hns
      obtain rfl : ns' = 2 := hns'
      refine ground_below hnbs ?_ (mask_grows E hmk hmk') hcard E.occupation (fun h => one_kpoint hkn (hg h)) hfit
        (hA.doubled (fun he => energyNC_doubled L.xc cfg.xc hl _ _ _ _ _ c occ e he)) hG
      exact fun c occ c' occ' e hP he => hP.energyNC _ _ _ _ _ _ _ _ he
  refine ⟨n', rep, rep', hr, hr', key hA1 hG1, fun he hw => ?_⟩
  obtain ⟨j2, d2, q2, -, hG2⟩ := hG2 he hw
  have := key hA2 hG2
  rw [hrepeq] at this
  linarith

private theorem enlarges_self (cfg : RunConfig) : Spec.Enlarges cfg cfg :=
  ⟨rfl, rfl, rfl, rfl, rfl, rfl, rfl, le_rfl, le_rfl, Or.inl rfl, Or.inl rfl⟩

/-- C97: a higher cutoff is never worse.  Raising the cutoff of the spherical mask keeps a calculation admissible
and raises its total energy by at most `ε`. -/
theorem run_larger_cutoff (L : RunLib) (cfg : RunConfig) {m : ℕ} (a : AseAtoms m) (size ksize : Fin 3 → ℤ)
    (ne spin : ℤ) (H : Spec.AdmissibleRun L cfg a size ksize ne spin)
    (hC : Spec.Triangular L.qrC) (hR : Spec.Triangular L.qrR) (hxc : Spec.ContinuousXc L.xc cfg.xc)
    (heps : 0 < cfg.eps) (hspin : cfg.occupation = "simplex-projector" → cfg.restricted = true → spin = 0)
    (hg : cfg.occupation = "gamma" → ∀ i, ksize i ≤ 1)
    (ε : ℝ) (hopt : ∀ opt, L.optimizer = .ok opt → Spec.NearOptimizer ε opt) (hsm : cfg.smearing ≤ 0)
    (he : 2 ≤ cfg.epoch) (hw : 2 ≤ cfg.window) (x : ℝ) (hx : cfg.cutoff ≤ x) :
    ∃ n, ∃ rep rep' : GsReport EnergyParts n, runAtoms L cfg a = .ok ⟨n, rep⟩ ∧
      runAtoms L { cfg with cutoff := x } a = .ok ⟨n, rep'⟩ ∧ rep'.total ≤ rep.total + ε := by
  have E : Spec.Enlarges cfg { cfg with cutoff := x } :=
    ⟨rfl, rfl, rfl, rfl, rfl, rfl, rfl, hx, le_rfl, Or.inl rfl, Or.inl rfl⟩
  have H' : Spec.AdmissibleRun L { cfg with cutoff := x } a size ksize ne spin := by
    refine ⟨H.cell, H.sizes, H.ksizes, H.electrons, H.unpaired, H.placeable, H.method, fun n hn mask' hm' => ?_,
      H.ewald, H.devices, H.optimizer, H.epochs, H.noFault⟩
    obtain ⟨mask, hm⟩ : ∃ mask, createFreqMask cfg ((angstrom2bohr : ℝ) • a.cell) n = .ok mask := by
      unfold createFreqMask
      rcases H.method with h | h <;> rw [h]
      · exact ⟨_, rfl⟩
      · exact ⟨_, rfl⟩
    exact (H.waves n hn mask hm).trans
      (Fintype.card_le_of_injective (fun k => ⟨k.1, mask_grows E hm hm' k.1 k.2⟩)
        fun k k' h => Subtype.ext (congrArg (fun z => z.1) h))
  obtain ⟨n, rep, rep', h1, h2, -, h3⟩ := run_variational L L rfl rfl cfg _ E a size ksize ne spin H H' hC hR hxc heps
    hspin hg (fun h => absurd rfl h) ε hopt hsm
  exact ⟨n, rep, rep', h1, h2, h3 he hw⟩

/-- C97: results are reproducible.  Two calculations of the same configuration without smearing whose optimisers
come within `ε` of the minimum report total energies that differ by at most `ε`, whatever the starting points, the
optimisers, the orthogonalisations and the machines are. -/
theorem run_reproducible (L L' : RunLib) (hlib : L'.xc = L.xc) (herfc : L'.erfc = L.erfc) (cfg : RunConfig)
    {m : ℕ} (a : AseAtoms m) (size ksize : Fin 3 → ℤ) (ne spin : ℤ)
    (H : Spec.AdmissibleRun L cfg a size ksize ne spin) (H' : Spec.AdmissibleRun L' cfg a size ksize ne spin)
    (hC : Spec.Triangular L.qrC) (hR : Spec.Triangular L.qrR) (hC' : Spec.Triangular L'.qrC)
    (hR' : Spec.Triangular L'.qrR) (hxc : Spec.ContinuousXc L.xc cfg.xc)
    (heps : 0 < cfg.eps) (hspin : cfg.occupation = "simplex-projector" → cfg.restricted = true → spin = 0)
    (hg : cfg.occupation = "gamma" → ∀ i, ksize i ≤ 1)
    (ε : ℝ) (hopt : ∀ opt, L.optimizer = .ok opt → Spec.NearOptimizer ε opt)
    (hopt' : ∀ opt, L'.optimizer = .ok opt → Spec.NearOptimizer ε opt) (hsm : cfg.smearing ≤ 0)
    (he : 2 ≤ cfg.epoch) (hw : 2 ≤ cfg.window) :
    ∃ n, ∃ rep rep' : GsReport EnergyParts n, runAtoms L cfg a = .ok ⟨n, rep⟩ ∧ runAtoms L' cfg a = .ok ⟨n, rep'⟩ ∧
      |rep'.total - rep.total| ≤ ε := by
  obtain ⟨n, rep, rep', h1, h2, -, h3⟩ := run_variational L L' hlib herfc cfg cfg (enlarges_self cfg) a size ksize ne
    spin H H' hC' hR' (hlib ▸ hxc) heps hspin hg (fun h => absurd rfl h) ε hopt' hsm
  obtain ⟨n', r', r, k2, k1, -, k3⟩ := run_variational L' L hlib.symm herfc.symm cfg cfg (enlarges_self cfg) a size
    ksize ne spin H' H hC hR hxc heps hspin hg (fun h => absurd rfl h) ε hopt hsm
  rw [h2] at k2
  rw [h1] at k1
  obtain rfl := (Sigma.mk.inj (Except.ok.inj k2)).1
  obtain rfl := eq_of_heq (Sigma.mk.inj (Except.ok.inj k2)).2
  obtain rfl := eq_of_heq (Sigma.mk.inj (Except.ok.inj k1)).2
  refine ⟨n, rep, rep', h1, h2, abs_le.mpr ⟨?_, ?_⟩⟩
  · linarith [k3 he hw]
  · linarith [h3 he hw]

/-- C97: the two kinds of free occupations are equivalent.  Without smearing and with optimisers that come within
`ε` of the minimum, the total energies with `idempotent` and with `simplex-projector` occupations differ by at
most `ε`. -/
theorem run_free_occupations (L : RunLib) (cfg : RunConfig) {m : ℕ} (a : AseAtoms m) (size ksize : Fin 3 → ℤ)
    (ne : ℤ) (H : Spec.AdmissibleRun L { cfg with occupation := "idempotent" } a size ksize ne 0)
    (hfit : 0 < ne ∧ (cfg.emptyBands = 0 → ne % 2 = 1))
    (hC : Spec.Triangular L.qrC) (hR : Spec.Triangular L.qrR) (hxc : Spec.ContinuousXc L.xc cfg.xc)
    (heps : 0 < cfg.eps)
    (ε : ℝ) (hopt : ∀ opt, L.optimizer = .ok opt → Spec.NearOptimizer ε opt) (hsm : cfg.smearing ≤ 0)
    (he : 2 ≤ cfg.epoch) (hw : 2 ≤ cfg.window) :
    ∃ n, ∃ rep rep' : GsReport EnergyParts n,
      runAtoms L { cfg with occupation := "idempotent" } a = .ok ⟨n, rep⟩ ∧
      runAtoms L { cfg with occupation := "simplex-projector" } a = .ok ⟨n, rep'⟩ ∧
      |rep'.total - rep.total| ≤ ε := by
  have H' : Spec.AdmissibleRun L { cfg with occupation := "simplex-projector" } a size ksize ne 0 := by
    refine ⟨H.cell, H.sizes, H.ksizes, H.electrons, H.unpaired, ⟨H.placeable.1, Or.inr (Or.inl ⟨rfl, ?_, ?_⟩)⟩,
      H.method, H.waves, H.ewald, H.devices, H.optimizer, H.epochs, H.noFault⟩
    · simpa using hfit.1
    · have := hfit.2
      have := hfit.1
      show |(0 : ℤ)| < 2 * (cfg.emptyBands : ℤ) + ne % 2
      rw [abs_zero]
      omega
  obtain ⟨n, rep, rep', h1, h2, -, h3⟩ := run_variational L L rfl rfl { cfg with occupation := "idempotent" }
    { cfg with occupation := "simplex-projector" }
    ⟨rfl, rfl, rfl, rfl, rfl, rfl, rfl, le_rfl, le_rfl, Or.inr (Or.inr rfl), Or.inl rfl⟩ a size ksize ne
    0 H H' hC hR hxc heps (fun _ _ => rfl) (fun h => absurd h (show ¬ "idempotent" = "gamma" by decide))
    (fun h => absurd rfl h) ε hopt hsm
  obtain ⟨n', r', r, k2, k1, -, k3⟩ := run_variational L L rfl rfl { cfg with occupation := "simplex-projector" }
    { cfg with occupation := "idempotent" }
    ⟨rfl, rfl, rfl, rfl, rfl, rfl, rfl, le_rfl, le_rfl, Or.inr (Or.inl rfl), Or.inl rfl⟩ a size ksize ne
    0 H' H hC hR hxc heps (fun _ _ => rfl) (fun h => absurd h (show ¬ "simplex-projector" = "gamma" by decide))
    (fun h => absurd rfl h) ε hopt hsm
  rw [h2] at k2
  rw [h1] at k1
  obtain rfl := (Sigma.mk.inj (Except.ok.inj k2)).1
  obtain rfl := eq_of_heq (Sigma.mk.inj (Except.ok.inj k2)).2
  obtain rfl := eq_of_heq (Sigma.mk.inj (Except.ok.inj k1)).2
  refine ⟨n, rep, rep', h1, h2, abs_le.mpr ⟨?_, ?_⟩⟩
  · linarith [k3 he hw]
  · linarith [h3 he hw]

/-- C97 for norm-conserving runs: two calculations of the same configuration with the same pseudopotentials agree
within `ε`. -/
theorem ncRun_reproducible (L : NcLib) (M : RunLib) (hlib : M.xc = L.xc) (herfc : M.erfc = L.erfc)
    (cfg : NcConfig) {m : ℕ} (a : AseAtoms m) (size ksize : Fin 3 → ℤ) (P : NcLists) (ne spin : ℤ)
    (H : Spec.AdmissibleRunNC L cfg a size ksize P ne spin)
    (H' : Spec.AdmissibleRunNC { L with toRunLib := M } cfg a size ksize P ne spin)
    (hC : Spec.Triangular L.qrC) (hR : Spec.Triangular L.qrR) (hC' : Spec.Triangular M.qrC)
    (hR' : Spec.Triangular M.qrR) (hxc : Spec.ContinuousXc L.xc cfg.xc)
    (heps : 0 < cfg.eps) (hspin : cfg.occupation = "simplex-projector" → cfg.restricted = true → spin = 0)
    (hg : cfg.occupation = "gamma" → ∀ i, ksize i ≤ 1)
    (ε : ℝ) (hopt : ∀ opt, L.optimizer = .ok opt → Spec.NearOptimizer ε opt)
    (hopt' : ∀ opt, M.optimizer = .ok opt → Spec.NearOptimizer ε opt) (hsm : cfg.smearing ≤ 0)
    (he : 2 ≤ cfg.epoch) (hw : 2 ≤ cfg.window) :
    ∃ n, ∃ rep rep' : GsReport (EnergyParts × ℝ) n, runAtomsNC L cfg a = .ok ⟨n, rep⟩ ∧
      runAtomsNC { L with toRunLib := M } cfg a = .ok ⟨n, rep'⟩ ∧ |rep'.total - rep.total| ≤ ε := by
  obtain ⟨n, rep, rep', h1, h2, -, h3⟩ := ncRun_variational L M hlib herfc cfg cfg (enlarges_self _) a size ksize P ne
    spin H H' hC' hR' (hlib ▸ hxc) heps hspin hg (fun h => absurd rfl h) ε hopt' hsm
  obtain ⟨n', r', r, k2, k1, -, k3⟩ := ncRun_variational { L with toRunLib := M } L.toRunLib hlib.symm herfc.symm cfg
    cfg (enlarges_self _) a size ksize P ne spin H' H hC hR hxc heps hspin hg (fun h => absurd rfl h) ε hopt hsm
  rw [h2] at k2
  change runAtomsNC L cfg a = _ at k1
  rw [h1] at k1
  obtain rfl := (Sigma.mk.inj (Except.ok.inj k2)).1
  obtain rfl := eq_of_heq (Sigma.mk.inj (Except.ok.inj k2)).2
  obtain rfl := eq_of_heq (Sigma.mk.inj (Except.ok.inj k1)).2
  refine ⟨n, rep, rep', h1, h2, abs_le.mpr ⟨?_, ?_⟩⟩
  · linarith [k3 he hw]
  · linarith [h3 he hw]

/-! ### Concrete cases -/

/-- The hypotheses of `run_variational` hold for the lithium atom: prescribed occupations and an optimiser that
does nothing against free occupations, two further bands and an optimiser that comes within `ε` of the minimum. -/
example {ε : ℝ} (hε : 0 < ε) :
    let L := lithiumLib diracLib
    let L' : RunLib := { lithiumLib diracLib with
      qrC := gramSchmidtQR ℂ, qrR := gramSchmidtQR ℝ, optimizer := .ok (nearOptimizer ε) }
    let cfg : RunConfig := { lithiumConfig with occupation := "uniform", smearing := 1 / 10 }
    let cfg' : RunConfig := { lithiumConfig with emptyBands := 4 }
    Spec.Enlarges cfg cfg' ∧
      Spec.AdmissibleRun L cfg (⟨fun _ => 3, 0, 1⟩ : AseAtoms 1) (fun _ => 4) (fun _ => 2) 3 1 ∧
      Spec.AdmissibleRun L' cfg' (⟨fun _ => 3, 0, 1⟩ : AseAtoms 1) (fun _ => 4) (fun _ => 2) 3 1 ∧
      Spec.Triangular L'.qrC ∧ Spec.Triangular L'.qrR ∧ Spec.ContinuousXc L'.xc cfg'.xc ∧ 0 < cfg'.eps ∧
      cfg'.restricted = cfg.restricted ∧ cfg'.restricted = false ∧ cfg.occupation ≠ "gamma" ∧
      (∀ opt, L'.optimizer = .ok opt → Spec.NearOptimizer ε opt) ∧ cfg'.smearing ≤ 0 ∧ 2 ≤ cfg'.epoch ∧
      2 ≤ cfg'.window := by
  intro L L' cfg cfg'
  have H := lithium_admissible diracLib
  refine ⟨⟨rfl, rfl, rfl, rfl, rfl, rfl, rfl, le_rfl, by decide, Or.inr (Or.inr rfl), Or.inl rfl⟩,
    ⟨H.cell, H.sizes, H.ksizes, H.electrons, H.unpaired, ⟨by decide, Or.inl ⟨Or.inl rfl, by decide, by decide⟩⟩,
      H.method, H.waves, H.ewald, H.devices, H.optimizer, H.epochs, H.noFault⟩,
    ⟨H.cell, H.sizes, H.ksizes, H.electrons, H.unpaired,
      ⟨by decide, Or.inr (Or.inl ⟨rfl, by decide, by decide⟩)⟩, H.method, fun n hn mask hm => ?_, H.ewald, H.devices,
      ⟨nearOptimizer ε, rfl, nearOptimizer_keeps ε⟩, H.epochs, H.noFault⟩,
    gramSchmidtQR_triangular ℂ, gramSchmidtQR_triangular ℝ, diracLib_continuous, by norm_num [cfg', lithiumConfig],
    rfl, rfl, by decide, ?_, le_rfl, by decide, by decide⟩
  · obtain rfl : n = fun _ => 4 := funext fun i => least_eq (k := 4) (hn i) smooth4
    have : mask = cubicMask _ := by
      unfold createFreqMask at hm
      rw [if_pos (show cfg'.maskMethod = "cubic" from rfl)] at hm
      exact (Except.ok.inj hm).symm
    subst this
    decide +kernel
  · intro opt h
    cases h
    exact nearOptimizer_near hε

/-- The lithium atom with a spherical mask: there are cutoffs for which the calculation is admissible. -/
example {ε : ℝ} : ∃ x : ℝ,
    let L : RunLib := { lithiumLib diracLib with
      qrC := gramSchmidtQR ℂ, qrR := gramSchmidtQR ℝ, optimizer := .ok (nearOptimizer ε) }
    Spec.AdmissibleRun L { lithiumConfig with maskMethod := "spherical", cutoff := x }
      (⟨fun _ => 3, 0, 1⟩ : AseAtoms 1) (fun _ => 4) (fun _ => 2) 3 1 := by
  have H := lithium_admissible diracLib
  refine ⟨∑ k : Idx fun _ => 4, (Real.sqrt (normSq3 (gVectors ((angstrom2bohr : ℝ) • (1 : Matrix (Fin 3) (Fin 3) ℝ))
    (fun _ => 4) k))) ^ 2, H.cell, H.sizes, H.ksizes, H.electrons, H.unpaired, H.placeable, Or.inr rfl,
    fun n hn mask hm => ?_, H.ewald, H.devices, ⟨nearOptimizer ε, rfl, nearOptimizer_keeps ε⟩, H.epochs, H.noFault⟩
  obtain rfl : n = fun _ => 4 := funext fun i => least_eq (k := 4) (hn i) smooth4
  have hall : ∀ k, mask k = true := by
    intro k
    unfold createFreqMask at hm
    rw [if_neg (by decide), if_pos rfl] at hm
    rw [← Except.ok.inj hm]
    unfold sphericalMask
    simp only [decide_eq_true_eq]
    have h1 := Finset.single_le_sum (s := Finset.univ) (f := fun k : Idx fun _ => 4 =>
      (Real.sqrt (normSq3 (gVectors ((angstrom2bohr : ℝ) • (1 : Matrix (Fin 3) (Fin 3) ℝ)) (fun _ => 4) k))) ^ 2)
      (fun k _ => sq_nonneg _) (Finset.mem_univ k)
    have h2 : (0 : ℝ) ≤ (Real.sqrt (normSq3 (gVectors ((angstrom2bohr : ℝ) • (1 : Matrix (Fin 3) (Fin 3) ℝ))
      (fun _ => 4) k))) ^ 2 := sq_nonneg _
    linarith
  have hcard : Fintype.card {k // mask k = true} = Fintype.card (Idx fun _ : Fin 3 => 4) :=
    Fintype.card_congr (Equiv.subtypeUnivEquiv hall)
  rw [hcard]
  decide +kernel

/-- The hypotheses of `ncRun_variational` hold for the silicon pair, here with two free spin channels against one
channel. -/
example {ε : ℝ} (hε : 0 < ε) (eigh : Eigh) (jn : SphBessel) (csLoc csBeta : Spline) :
    let L := siliconLib diracLib eigh jn csLoc csBeta
    let M : RunLib := { L.toRunLib with
      qrC := gramSchmidtQR ℂ, qrR := gramSchmidtQR ℝ, optimizer := .ok (nearOptimizer ε) }
    let cfg : NcConfig := { siliconConfig with restricted := true, occupation := "uniform" }
    ∃ P, Spec.Enlarges cfg.toRunConfig siliconConfig.toRunConfig ∧
      Spec.AdmissibleRunNC L cfg siliconAtoms (fun _ => 4) (fun _ => 2) P 4 0 ∧
      Spec.AdmissibleRunNC { L with toRunLib := M } siliconConfig siliconAtoms (fun _ => 4) (fun _ => 2) P 4 0 ∧
      siliconConfig.restricted ≠ cfg.restricted ∧ Spec.UnpolarisedLimit L.xc cfg.xc ∧
      (∀ opt, M.optimizer = .ok opt → Spec.NearOptimizer ε opt) ∧ siliconConfig.smearing ≤ 0 := by
  intro L M cfg
  obtain ⟨P, H⟩ := silicon_admissible diracLib eigh jn csLoc csBeta
  refine ⟨P, ⟨rfl, rfl, rfl, rfl, rfl, rfl, rfl, le_rfl, by decide, Or.inr (Or.inr rfl), Or.inr ⟨rfl, rfl⟩⟩,
    { H with
      placeable := ⟨by decide, Or.inl ⟨Or.inl rfl, by decide, by decide⟩⟩
      occupation := Or.inl ⟨rfl, Or.inl rfl⟩ },
    { H with optimizer := ⟨nearOptimizer ε, rfl, nearOptimizer_keeps ε⟩ }, by decide, ?_, ?_, le_rfl⟩
  · refine ⟨fun x hx he => ?_, fun x hx he => ?_⟩ <;>
    · have : x = "lda_x" := by
        have : splitPlus "lda_x" = ["lda_x"] := by decide
        simpa [cfg, siliconConfig, lithiumConfig, this] using hx
      subst this
      exact absurd he (by decide)
  · intro opt h
    cases h
    exact nearOptimizer_near hε

end Jrystal
