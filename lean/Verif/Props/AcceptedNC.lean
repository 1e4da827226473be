import Verif.Props.Accepted
import Verif.Props.RunNC

/- C119: which inputs a norm-conserving ground-state calculation refuses. -/
namespace Jrystal
open scoped BigOperators ComplexConjugate
open Matrix RunSetup

private theorem bcLen_spin (r : Bool) (l : ℕ) (h : l = 1 ∨ l = if r then 1 else 2) :
    ∃ S, bcLen (if r then 1 else 2) l = .ok S := by
  unfold bcLen
  rcases h with rfl | rfl
  · cases r
    · exact ⟨_, rfl⟩
    · exact ⟨_, rfl⟩
  · rw [if_pos rfl]
    exact ⟨_, rfl⟩

private theorem gsState_ok_iffNC {na nk nb : ℕ} {n : Fin 3 → ℕ} (E : GsEnv na nk n) (r : Bool)
    (p : GsParams (if r then 1 else 2) nk (maskCount E.mask) nb) (o : OccArr nk nb ℝ)
    (ho : occupation E.qrR p.occ E.ne E.spin E.method E.restricted = .ok o)
    (hl : o.length = 1 ∨ o.length = if r then 1 else 2) :
    (∃ x, gsState E p = .ok x) ↔ nb ≤ maskCount E.mask ∨ maskCount E.mask = 1 ∨ nb = 1 := by
  rw [← bcLen_bands]
  obtain ⟨S, h1⟩ := bcLen_spin r o.length hl
  unfold gsState
  rw [ho]
  simp only [h1]
  cases bcLen (min (maskCount E.mask) nb) nb with
  | error e => exact ⟨fun ⟨_, h⟩ => (by cases h), fun ⟨_, h⟩ => (by cases h)⟩
  | ok B => exact ⟨fun _ => ⟨_, rfl⟩, fun _ => ⟨_, rfl⟩⟩

private theorem gsPartsNC_total {na nk ns nb M : ℕ} {ι : Type} [Fintype ι] {n : Fin 3 → ℕ} (E : GsEnv na nk n)
    (vloc : Idx n → ℂ) (psi : Fin nk → ι → Fin M → Idx n → ℂ)
    (p : GsParams ns nk (maskCount E.mask) nb) {r} (h : gsState E p = .ok r) :
    (∃ q, gsPartsNC E vloc psi p = .ok q) ∧ ∃ d, gsDensity E p = .ok d := by
  obtain ⟨S, B, c, o⟩ := r
  constructor
  · obtain ⟨h1, hh⟩ : ∃ h, hartreeEnergy (densityGridReciprocal c E.vol o) E.g E.vol false = .ok h :=
      ⟨_, hartreeEnergy_eq _ _ _ _⟩
    obtain ⟨x, hx⟩ : ∃ x, energyLocal (densityGridReciprocal c E.vol o) vloc E.vol = .ok x :=
      ⟨_, reciprocalBraket_one _ _ _⟩
    obtain ⟨y, hy⟩ : ∃ y, xcEnergy E.lib E.xc false (densityGrid c E.vol o) E.g E.vol = .ok y :=
      ⟨_, xcEnergy_value _ _ _ _ _⟩
    unfold gsPartsNC
    rw [h]
    simp only [hh, hx, hy, energyNonlocal]
    exact ⟨_, rfl⟩
  · unfold gsDensity
    rw [h]
    exact ⟨_, rfl⟩

/-- The occupation parameters of the driver, where they can be placed on the devices. -/
private theorem placed_iff (draw : ∀ n m : ℕ, Matrix (Fin n) (Fin m) ℝ) (util nk nb : ℕ) (ne spin : ℤ)
    (method : String) (hutil : nk % util = 0) :
    (∃ q : OccParams nk nb, occParamInit draw nb ne nk spin method true = .ok q ∧ occPlaceable util q = true) ↔
      method = "uniform" ∨ method = "gamma" ∨ method = "simplex-projector" ∧ util ∣ nb := by
  unfold occParamInit
  by_cases h1 : method = "idempotent"
  · subst h1
    rw [if_pos rfl]
    constructor
    · rintro ⟨q, hq, hp⟩
      cases hi : idempotentParamInit draw nk nb ne spin true with
      | error e => rw [hi] at hq; cases hq
      | ok p =>
        rw [hi] at hq
        obtain rfl := Except.ok.inj hq
        cases hp
    · rintro (h | h | ⟨h, -⟩)
      · exact absurd h (by decide)
      · exact absurd h (by decide)
      · exact absurd h (by decide)
  · rw [if_neg h1]
    by_cases h2 : method = "uniform"
    · rw [if_pos h2]
      exact ⟨fun _ => Or.inl h2, fun _ => ⟨_, rfl, by simp [occPlaceable, hutil]⟩⟩
    · rw [if_neg h2]
      by_cases h3 : method = "gamma"
      · rw [if_pos h3]
        exact ⟨fun _ => Or.inr (Or.inl h3), fun _ => ⟨_, rfl, by simp [occPlaceable, hutil]⟩⟩
      · rw [if_neg h3]
        by_cases h4 : method = "simplex-projector"
        · rw [if_pos h4]
          constructor
          · rintro ⟨q, hq, hp⟩
            obtain rfl := Except.ok.inj hq
            exact Or.inr (Or.inr ⟨h4, Nat.dvd_of_mod_eq_zero (by simpa [occPlaceable] using hp)⟩)
          · rintro (h | h | ⟨-, h⟩)
            · contradiction
            · contradiction
            · exact ⟨_, rfl, by simpa [occPlaceable] using Nat.mod_eq_zero_of_dvd h⟩
        · rw [if_neg h4]
          constructor
          · rintro ⟨_, h, -⟩
            cases h
          · rintro (h | h | ⟨h, -⟩) <;> contradiction

private theorem occupation_shapeNC (qr : QR ℝ) (draw : ∀ n m : ℕ, Matrix (Fin n) (Fin m) ℝ) {nk nb : ℕ}
    (ne spin : ℤ) (method : String) (r : Bool) (q0 q : OccParams nk nb)
    (h0 : occParamInit draw nb ne nk spin method true = .ok q0) (hk : Spec.KeepsShape q0 q) :
    ∃ o, occupation qr q ne spin method r = .ok o ∧ (o.length = 1 ∨ o.length = if r then 1 else 2) := by
  unfold occParamInit at h0
  unfold occupation
  by_cases h1 : method = "idempotent"
  · rw [if_pos h1] at h0 ⊢
    cases hi : idempotentParamInit draw nk nb ne spin true with
    | error e => rw [hi] at h0; cases h0
    | ok p =>
      rw [hi] at h0
      obtain rfl := Except.ok.inj h0
      cases q with
      | idem p' => exact ⟨_, rfl, Or.inr (by unfold idempotentOcc; cases r <;> rfl)⟩
      | arr => exact hk.elim
      | simplex => exact hk.elim
  · rw [if_neg h1] at h0 ⊢
    by_cases h2 : method = "uniform"
    · rw [if_pos h2] at h0 ⊢
      obtain rfl := Except.ok.inj h0
      cases q with
      | idem p' => exact hk.elim
      | arr o => exact ⟨_, rfl, Or.inl (by rw [show o = _ from hk]; rfl)⟩
      | simplex => exact hk.elim
    · rw [if_neg h2] at h0 ⊢
      by_cases h3 : method = "gamma"
      · rw [if_pos h3] at h0 ⊢
        obtain rfl := Except.ok.inj h0
        cases q with
        | idem p' => exact hk.elim
        | arr o => exact ⟨_, rfl, Or.inl (by rw [show o = _ from hk]; rfl)⟩
        | simplex => exact hk.elim
      · rw [if_neg h3] at h0 ⊢
        by_cases h4 : method = "simplex-projector"
        · rw [if_pos h4] at h0 ⊢
          obtain rfl := Except.ok.inj h0
          cases q with
          | idem p' => exact hk.elim
          | arr o => exact hk.elim
          | simplex => exact ⟨_, rfl, Or.inr (by unfold simplexProjector; cases r <;> rfl)⟩
        · rw [if_neg h4] at h0
          cases h0

private theorem runLoopNC_iff (L : RunLib) (cfg : RunConfig) (util : ℕ) {na nk M : ℕ} {ι : Type} [Fintype ι]
    {n : Fin 3 → ℕ} (E : GsEnv na nk n) (vloc : Idx n → ℂ) (psi : Fin nk → ι → Fin M → Idx n → ℂ) (ew : ℝ)
    (hr : E.restricted = cfg.restricted)
    (hkeep : ∀ opt, L.optimizer = .ok opt → ∀ {ns nk g nb : ℕ} (f : GsParams ns nk g nb → Except PyErr ℝ)
      (p : GsParams ns nk g nb × opt.State), Spec.KeepsShape p.1.occ (opt.step f p).1.occ) :
    (∃ rep, runLoopNC L cfg util E vloc psi ew = .ok rep) ↔
      (∃ opt, L.optimizer = .ok opt) ∧
      (∃ q : OccParams nk (driverBands E.ne.toNat cfg.emptyBands),
        occParamInit L.occDraw (driverBands E.ne.toNat cfg.emptyBands) E.ne nk E.spin E.method true = .ok q ∧
          occPlaceable util q = true) ∧
      0 < cfg.epoch ∧ L.updateFault = none ∧
      (driverBands E.ne.toNat cfg.emptyBands ≤ maskCount E.mask ∨ maskCount E.mask = 1 ∨
        driverBands E.ne.toNat cfg.emptyBands = 1) := by
  have hns : (if cfg.restricted then 1 else 2) = if E.restricted then 1 else 2 := by rw [hr]
  unfold runLoopNC
  cases hopt : L.optimizer with
  | error e => exact ⟨fun ⟨_, h⟩ => (by cases h), fun ⟨⟨_, h⟩, _⟩ => (by cases h)⟩
  | ok opt =>
    dsimp only
    unfold gsInitNC
    cases hq : occParamInit L.occDraw (driverBands E.ne.toNat cfg.emptyBands) E.ne nk E.spin E.method true with
    | error e => exact ⟨fun ⟨_, h⟩ => (by cases h), fun ⟨_, ⟨_, h, _⟩, _⟩ => (by cases h)⟩
    | ok q =>
      simp only [Except.map]
      cases hpl : occPlaceable util q with
      | false =>
        rw [if_pos rfl]
        refine ⟨fun ⟨_, h⟩ => (by cases h), fun ⟨_, ⟨q', h, h'⟩, _⟩ => ?_⟩
        obtain rfl := Except.ok.inj h
        rw [hpl] at h'
        cases h'
      | true =>
      rw [if_neg (by simp)]
      generalize hpw : L.pwDraw (if cfg.restricted then 1 else 2) nk (maskCount E.mask)
        (driverBands E.ne.toNat cfg.emptyBands) = pw
      have hocc : ∀ p : GsParams (if cfg.restricted then 1 else 2) nk (maskCount E.mask)
          (driverBands E.ne.toNat cfg.emptyBands), Spec.KeepsShape q p.occ →
          ((∃ r, gsState E p = .ok r) ↔ driverBands E.ne.toNat cfg.emptyBands ≤ maskCount E.mask ∨
            maskCount E.mask = 1 ∨ driverBands E.ne.toNat cfg.emptyBands = 1) := by
        intro p hp
        obtain ⟨o, h1, h2⟩ := occupation_shapeNC E.qrR L.occDraw _ _ _ E.restricted q p.occ hq hp
        exact gsState_ok_iffNC E cfg.restricted p o h1 (h2.imp id fun h => h.trans hns.symm)
      constructor
      · rintro ⟨rep, h⟩
        have hf : L.updateFault = none ∧ gsCalcNC E vloc psi ew (runUpdateNC opt E vloc psi) cfg.epoch cfg.smearing
            cfg.window cfg.threshold (⟨pw, q⟩, opt.init ⟨pw, q⟩) = .ok rep := by
          unfold firstUpdate at h
          cases hu : L.updateFault with
          | none => rw [hu] at h; exact ⟨rfl, h⟩
          | some f =>
            exfalso
            rw [hu] at h
            dsimp only at h
            by_cases he : 0 < cfg.epoch
            · rw [if_pos he] at h
              cases hg : gsFreeNC E vloc psi (temperature cfg.smearing cfg.epoch 0) ⟨pw, q⟩ with
              | error e => rw [hg] at h; cases h
              | ok v => rw [hg] at h; cases h
            · rw [if_neg he] at h
              exact he (gsRun_epoch _ _ _ _ _ _ _ _ _ _ h).1
        obtain ⟨he, -⟩ := gsRun_epoch _ _ _ _ _ _ _ _ _ _ hf.2
        refine ⟨⟨opt, rfl⟩, ⟨q, rfl, hpl⟩, he, hf.1, ?_⟩
        rw [← hocc ⟨pw, q⟩ (keeps_refl q)]
        by_contra hn
        have htot : ∃ e, gsTotalNC E vloc psi (⟨pw, q⟩ : GsParams (if cfg.restricted then 1 else 2) nk
            (maskCount E.mask) (driverBands E.ne.toNat cfg.emptyBands)) = .error e := by
          cases hs : gsState E (⟨pw, q⟩ : GsParams (if cfg.restricted then 1 else 2) nk (maskCount E.mask)
            (driverBands E.ne.toNat cfg.emptyBands)) with
          | error e =>
            refine ⟨e, ?_⟩
            unfold gsTotalNC gsPartsNC
            rw [hs]
          | ok r => exact absurd ⟨r, hs⟩ hn
        obtain ⟨e, hte⟩ := htot
        have h2 := hf.2
        unfold gsCalcNC gsRun at h2
        obtain ⟨k, hk⟩ : ∃ k, cfg.epoch.toNat = k + 1 := ⟨cfg.epoch.toNat - 1, by omega⟩
        rw [hk] at h2
        unfold gsLoop at h2
        simp only [hte] at h2
        cases h2
      · rintro ⟨-, -, he, hf, hb⟩
        rw [firstUpdate_keep hf]
        obtain ⟨p', e', j, v, h1, h2, -, -, -, h4, -⟩ := gsLoop_first (runUpdateNC opt E vloc psi)
          (fun p => gsTotalNC E vloc psi p.1)
          (temperature cfg.smearing cfg.epoch) (fun p => Spec.KeepsShape q p.1.occ)
          (fun p t hp => keeps_trans hp (hkeep opt hopt _ p))
          (fun p hp => by
            obtain ⟨r, hr⟩ := (hocc p.1 hp).2 hb
            obtain ⟨⟨x, hx⟩, -⟩ := gsPartsNC_total E vloc psi p.1 hr
            exact ⟨_, gsTotalNC_of_parts E vloc psi p.1 x hx⟩)
          (⟨pw, q⟩, opt.init ⟨pw, q⟩) cfg.epoch.toNat (by omega) cfg.window cfg.threshold (keeps_refl q)
        obtain ⟨r, hr⟩ := (hocc p'.1 h2).2 hb
        obtain ⟨⟨x, hx⟩, d, hd⟩ := gsPartsNC_total E vloc psi p'.1 hr
        unfold gsCalcNC gsRun
        rw [h1]
        simp only [hd, hx, h4]
        exact ⟨_, rfl⟩

/-- C119, norm-conserving calculations: which input is accepted, exactly.  As `run_accepted`, for files with at least one
point of positive radius. -/
theorem ncRun_accepted (L : NcLib) (cfg : NcConfig) {m : ℕ} (a : AseAtoms m) (hcell : a.cell.det ≠ 0)
    (hcut : 0 ≤ cfg.cutoff)
    (hmesh : ∀ P, createPseudo L cfg (List.ofFn fun i => L.symbol (a.numbers i)) = .ok P → ∀ r ∈ P.rGrid, r ≠ [])
    (hkeep : ∀ opt, L.optimizer = .ok opt → ∀ {ns nk g nb : ℕ} (f : GsParams ns nk g nb → Except PyErr ℝ)
      (p : GsParams ns nk g nb × opt.State), Spec.KeepsShape p.1.occ (opt.step f p).1.occ) :
    (∃ r, runAtomsNC L cfg a = .ok r) ↔
      ∃ size ksize P, Spec.ConsistentNC (fun w b => b ≤ w ∨ w = 1) L cfg a size ksize P P.valence.sum
        (cfg.spin.getD ((∑ i, a.numbers i) % 2)) := by
  set c := Crystal.fromAse a cfg.spin with hc
  have hcc : c.cell = (angstrom2bohr : ℝ) • a.cell := rfl
  have hcne : c.numElectron = ∑ i, a.numbers i := rfl
  have hcs : c.spin = cfg.spin.getD ((∑ i, a.numbers i) % 2) := by
    rw [hc]
    unfold Crystal.fromAse
    cases cfg.spin <;> rfl
  have hdet : c.cell.det ≠ 0 := fromAse_det a cfg.spin hcell
  have hcreate : ∀ c', createCrystal a cfg.spin = .ok c' → c' = c ∧ c.numElectron % 2 = c.spin % 2 := by
    intro c' h
    unfold createCrystal checkSpinNumber at h
    simp only [← hc] at h
    by_cases hp : c.numElectron % 2 = c.spin % 2
    · rw [if_neg (by simpa using hp)] at h
      exact ⟨(Except.ok.inj h).symm, hp⟩
    · rw [if_pos hp] at h
      cases h
  have hloop : ∀ (P : NcLists) n kn mask vloc (bs : List (BetaArr (idxList kn).length n)) ew,
      createFreqMask cfg.toRunConfig c.cell n = .ok mask → (∀ i, 0 < n i) →
      (idxList kn).length % (if cfg.parallelK then L.devices else 1) = 0 →
      ((∃ rep, runLoopNC L.toRunLib cfg.toRunConfig (if cfg.parallelK then L.devices else 1)
          (runEnvNC L cfg c P n kn mask) vloc
          (nlPsiAll L.eigh L.sph (fun a : Fin m => ncSpecies P bs a) c.positions
            (gVectors c.cell n) (flatRows (kVectors c.cell kn))) ew = .ok rep) ↔ (∃ opt, L.optimizer = .ok opt) ∧
        (cfg.occupation = "uniform" ∨ cfg.occupation = "gamma" ∨ cfg.occupation = "simplex-projector" ∧
          (if cfg.parallelK then L.devices else 1) ∣ (P.valence.sum.toNat + 1) / 2 + cfg.emptyBands) ∧
        0 < cfg.epoch ∧ L.updateFault = none ∧
        ((P.valence.sum.toNat + 1) / 2 + cfg.emptyBands ≤ Fintype.card {k // mask k = true} ∨
          Fintype.card {k // mask k = true} = 1)) := by
    intro P n kn mask vloc bs ew hmk hn hdv
    have h1 : 1 ≤ maskCount mask := by
      rw [maskCount_card]
      exact Fintype.card_pos_iff.2 ⟨⟨_, mask_constant cfg.toRunConfig hcut c.cell hn mask hmk⟩⟩
    rw [runLoopNC_iff L.toRunLib cfg.toRunConfig _ (runEnvNC L cfg c P n kn mask) vloc _ ew rfl hkeep]
    have h2 : (driverBands (runEnvNC L cfg c P n kn mask).ne.toNat cfg.emptyBands
        ≤ maskCount (runEnvNC L cfg c P n kn mask).mask ∨ maskCount (runEnvNC L cfg c P n kn mask).mask = 1 ∨
        driverBands (runEnvNC L cfg c P n kn mask).ne.toNat cfg.emptyBands = 1) ↔
        ((P.valence.sum.toNat + 1) / 2 + cfg.emptyBands ≤ Fintype.card {k // mask k = true} ∨
          Fintype.card {k // mask k = true} = 1) := by
      rw [← maskCount_card]
      show (driverBands P.valence.sum.toNat cfg.emptyBands ≤ maskCount mask ∨ maskCount mask = 1 ∨
        driverBands P.valence.sum.toNat cfg.emptyBands = 1) ↔ _
      unfold driverBands
      omega
    rw [h2]
    exact and_congr_right fun _ => and_congr_left fun _ =>
      placed_iff L.occDraw _ _ _ P.valence.sum c.spin cfg.occupation hdv
  constructor
  · rintro ⟨r, h⟩
    unfold runAtomsNC at h
    cases hcr : createCrystal a cfg.spin with
    | error e => rw [hcr] at h; cases h
    | ok c' =>
      obtain ⟨rfl, hpar⟩ := hcreate c' hcr
      rw [hcr] at h
      dsimp only at h
      cases hP : createPseudo L cfg (List.ofFn fun i => L.symbol (a.numbers i)) with
      | error e => rw [hP] at h; cases h
      | ok P =>
      rw [hP] at h
      dsimp only at h
      unfold runCrystalNC at h
      cases hs : runSizes cfg.toRunConfig with
      | error e => rw [hs] at h; cases h
      | ok q =>
        obtain ⟨n, kn⟩ := q
        rw [hs] at h
        dsimp only at h
        obtain ⟨size, ksize, hg, hk⟩ := runSizes_ok hs
        obtain ⟨n', kn', hs', hn, hkn⟩ := run_sizes cfg.toRunConfig size ksize hg hk
        rw [hs] at hs'
        obtain ⟨rfl, rfl⟩ := Prod.mk.inj (Except.ok.inj hs')
        cases hgr : runGridNC L cfg c P n kn with
        | error e => rw [hgr] at h; cases h
        | ok rep =>
          unfold runGridNC at hgr
          cases hmk : createFreqMask cfg.toRunConfig c.cell n with
          | error e => rw [hmk] at hgr; cases hgr
          | ok mask =>
            rw [hmk] at hgr
            dsimp only at hgr
            cases hrp : runRepulsion L.erfc cfg.toRunConfig c n with
            | error e => rw [hrp] at hgr; cases hgr
            | ok ew =>
              rw [hrp] at hgr
              dsimp only at hgr
              cases hv : localReciprocal L.jn L.csLoc (ncLocalAtom P c.positions) (gVectors c.cell n) c.vol "sbt" with
              | error e => rw [hv] at hgr; cases hgr
              | ok vloc =>
              rw [hv] at hgr
              dsimp only at hgr
              by_cases hd : (idxList kn).length % (if cfg.parallelK then L.devices else 1) ≠ 0
              · rw [if_pos hd] at hgr
                cases hgr
              · rw [if_neg hd] at hgr
                cases hb : ncBetas L P (gVectors c.cell n) (flatRows (kVectors c.cell kn)) with
                | error e => rw [hb] at hgr; cases hgr
                | ok bs =>
                rw [hb] at hgr
                dsimp only at hgr
                obtain ⟨h1, h2, h3, h4, h5⟩ := (hloop P n kn mask vloc bs ew hmk (fun i => smooth_pos (hn i).1)
                  (not_not.1 hd)).1 ⟨rep, hgr⟩
                refine ⟨size, ksize, P, ?_, hg, hk, hP, rfl, rfl, ?_, ?_, h2, ?_, ?_, ?_, ?_, h1, h3, h4⟩
                · by_contra hm
                  rw [(local_errors L.jn L.csLoc (ncLocalAtom P c.positions) (gVectors c.cell n) c.vol
                    "sbt").2 fun h => hm h.2] at hv
                  cases hv
                · rw [← hcs]; exact hpar
                · unfold createFreqMask at hmk
                  by_contra hno
                  push Not at hno
                  rw [if_neg hno.1, if_neg hno.2] at hmk
                  cases hmk
                · intro n1 hn1 mask1 hm1
                  obtain rfl := same_grid hn1 hn
                  rw [← hcc, hmk] at hm1
                  obtain rfl := Except.ok.inj hm1
                  exact h5
                · by_contra hE
                  have := translationCount_neg c.cell cfg.ewaldCutoff hE
                  unfold runRepulsion at hrp
                  by_cases h0 : translationCount c.cell cfg.ewaldCutoff = 0
                  · rw [if_pos h0] at hrp
                    cases hrp
                  · rw [if_neg h0, if_pos (by omega)] at hrp
                    cases hrp
                · intro kn1 hkn1
                  obtain rfl := same_grid hkn1 hkn
                  rw [← idxList_length]
                  exact Nat.dvd_of_mod_eq_zero (not_not.1 hd)
                · unfold ncBetas at hb
                  by_contra hcpu
                  rw [if_pos (by omega)] at hb
                  cases hb
  · rintro ⟨size, ksize, P, H⟩
    obtain ⟨n, kn, hs, hn, hkn⟩ := run_sizes cfg.toRunConfig size ksize H.sizes H.ksizes
    have hpar : c.numElectron % 2 = c.spin % 2 := by rw [hcs]; exact H.parity
    have hcr : createCrystal a cfg.spin = .ok c := by
      unfold createCrystal checkSpinNumber
      simp only [← hc]
      rw [if_neg (by simpa using hpar)]
    obtain ⟨mask, hmk⟩ : ∃ mask, createFreqMask cfg.toRunConfig c.cell n = .ok mask := by
      unfold createFreqMask
      rcases H.method with h | h
      · exact ⟨_, if_pos h⟩
      · rw [h]; exact ⟨_, rfl⟩
    have htr := translationCount_pos c.cell hdet cfg.ewaldCutoff H.ewald
    obtain ⟨ew, hrep⟩ : ∃ ew, runRepulsion L.erfc cfg.toRunConfig c n = .ok ew := by
      unfold runRepulsion
      rw [if_neg (by omega), if_neg (by omega)]
      exact ⟨_, rfl⟩
    have hdv : (idxList kn).length % (if cfg.parallelK then L.devices else 1) = 0 := by
      rw [idxList_length]
      exact Nat.mod_eq_zero_of_dvd (H.devices kn hkn)
    obtain ⟨vloc, hv⟩ := (local_errors L.jn L.csLoc (ncLocalAtom P c.positions) (gVectors c.cell n) c.vol
      "sbt").1 ⟨.inl rfl, H.atoms⟩
    obtain ⟨bs, hbs⟩ := ncBetas_ok L cfg _ P H.loaded (hmesh P H.loaded) H.processors (gVectors c.cell n)
      (flatRows (kVectors c.cell kn))
    obtain ⟨rep, hl⟩ := (hloop P n kn mask vloc bs ew hmk (fun i => smooth_pos (hn i).1) hdv).2
      ⟨H.optimizer, H.occupation, H.epochs, H.noFault, H.waves n hn mask (hcc ▸ hmk)⟩
    refine ⟨⟨n, rep⟩, ?_⟩
    unfold runAtomsNC runCrystalNC runGridNC
    simp only [hcr, H.loaded, hs, hmk, hrep, hv, hdv, hbs, ne_eq, not_true_eq_false, if_false]
    rw [hl]

/-- C119, norm-conserving calculations: consistent input is accepted, and unless exactly one plane wave is selected, only
consistent input is. -/
theorem ncRun_refuses_partial (L : NcLib) (cfg : NcConfig) {m : ℕ} (a : AseAtoms m) (hcell : a.cell.det ≠ 0)
    (hcut : 0 ≤ cfg.cutoff)
    (hmesh : ∀ P, createPseudo L cfg (List.ofFn fun i => L.symbol (a.numbers i)) = .ok P → ∀ r ∈ P.rGrid, r ≠ [])
    (hkeep : ∀ opt, L.optimizer = .ok opt → ∀ {ns nk g nb : ℕ} (f : GsParams ns nk g nb → Except PyErr ℝ)
      (p : GsParams ns nk g nb × opt.State), Spec.KeepsShape p.1.occ (opt.step f p).1.occ) :
    ((∃ size ksize P, Spec.ConsistentNC (fun w b => b ≤ w) L cfg a size ksize P P.valence.sum
        (cfg.spin.getD ((∑ i, a.numbers i) % 2))) → ∃ r, runAtomsNC L cfg a = .ok r) ∧
    ((∀ size n, Spec.SizesOk cfg.gridSizes size → Spec.LeastGrid size n →
        ∀ mask, createFreqMask cfg.toRunConfig ((angstrom2bohr : ℝ) • a.cell) n = .ok mask →
          Fintype.card {k // mask k = true} ≠ 1) →
      (¬ ∃ size ksize P, Spec.ConsistentNC (fun w b => b ≤ w) L cfg a size ksize P P.valence.sum
        (cfg.spin.getD ((∑ i, a.numbers i) % 2))) → ∃ e, runAtomsNC L cfg a = .error e) := by
  have key := ncRun_accepted L cfg a hcell hcut hmesh hkeep
  refine ⟨fun ⟨size, ksize, P, H⟩ => key.2 ⟨size, ksize, P,
    { H with waves := fun n hn mask hm => Or.inl (H.waves n hn mask hm) }⟩, fun hone hno => ?_⟩
  cases hr : runAtomsNC L cfg a with
  | error e => exact ⟨e, rfl⟩
  | ok r =>
    exfalso
    obtain ⟨size, ksize, P, H⟩ := key.1 ⟨r, hr⟩
    exact hno ⟨size, ksize, P, { H with waves := fun n hn mask hm =>
      (H.waves n hn mask hm).resolve_right (hone size n H.sizes hn mask hm) }⟩

/-- C119, norm-conserving calculations with a single plane wave: they return for any number of bands, although more than
two valence electrons have no state. -/
theorem ncRun_one_wave (L : NcLib) (cfg : NcConfig) {m : ℕ} (a : AseAtoms m) (size ksize : Fin 3 → ℤ) (P : NcLists)
    (ne spin : ℤ) (hcell : a.cell.det ≠ 0) (hcut : 0 ≤ cfg.cutoff) (hmesh : ∀ r ∈ P.rGrid, r ≠ [])
    (hkeep : ∀ opt, L.optimizer = .ok opt → ∀ {ns nk g nb : ℕ} (f : GsParams ns nk g nb → Except PyErr ℝ)
      (p : GsParams ns nk g nb × opt.State), Spec.KeepsShape p.1.occ (opt.step f p).1.occ)
    (H : Spec.ConsistentNC (fun w _ => w = 1) L cfg a size ksize P ne spin) (hne : 2 < ne) :
    (∃ r, runAtomsNC L cfg a = .ok r) ∧
    ∀ n, Spec.LeastGrid size n →
      ∀ mask, createFreqMask cfg.toRunConfig ((angstrom2bohr : ℝ) • a.cell) n = .ok mask →
      ∀ (ns nk nb : ℕ) (c : Coef ns nk nb n) (occ : Occ ns nk nb),
        ¬ Spec.PhysicalState mask ne spin cfg.restricted (1 / nk) c occ := by
  obtain rfl := H.electrons
  obtain rfl := H.unpaired
  refine ⟨(ncRun_accepted L cfg a hcell hcut ?_ hkeep).2 ⟨size, ksize, P,
    { H with waves := fun n hn mask hm => Or.inr (H.waves n hn mask hm) }⟩, ?_⟩
  · intro P' hP'
    rw [H.loaded] at hP'
    obtain rfl := Except.ok.inj hP'
    exact hmesh
  intro n hn mask hm ns nk nb c occ h
  have := physical_electrons h
  have h1 : Fintype.card {k // mask k = true} = 1 := H.waves n hn mask hm
  omega

/-! ### Witnesses -/

private theorem silicon_consistent (xc : XcLib) (eigh : Eigh) (jn : SphBessel) (csLoc csBeta : Spline) :
    ∃ P, Spec.ConsistentNC (fun w b => b ≤ w) (siliconLib xc eigh jn csLoc csBeta) siliconConfig siliconAtoms
      (fun _ => 4) (fun _ => 2) P 4 0 ∧ ∀ r ∈ P.rGrid, r ≠ [] := by
  obtain ⟨P, H⟩ := silicon_admissible xc eigh jn csLoc csBeta
  exact ⟨P, ⟨H.atoms, H.sizes, H.ksizes, H.loaded, H.electrons, H.unpaired, H.parity, H.method,
    Or.inr (Or.inr (H.occupation.resolve_left (by simp [siliconConfig, lithiumConfig]))), H.waves, H.ewald, H.devices,
    H.processors, ⟨_, rfl⟩, H.epochs, rfl⟩, H.mesh⟩

/-- `ncRun_accepted` and `ncRun_refuses_partial` speak of calculations: the silicon pair is accepted. -/
example (xc : XcLib) (eigh : Eigh) (jn : SphBessel) (csLoc csBeta : Spline) :
    ∃ r, runAtomsNC (siliconLib xc eigh jn csLoc csBeta) siliconConfig siliconAtoms = .ok r := by
  obtain ⟨P, H, hm⟩ := silicon_consistent xc eigh jn csLoc csBeta
  have h1 := H.electrons
  have h2 := H.unpaired
  refine (ncRun_refuses_partial _ siliconConfig _ (by simp [siliconAtoms]) (by simp [siliconConfig, lithiumConfig])
    ?_ idle_keeps).1 ⟨_, _, P, by rw [← h1, ← h2]; exact H⟩
  intro P' hP'
  rw [H.loaded] at hP'
  obtain rfl := Except.ok.inj hP'
  exact hm

/-- The hypotheses of `ncRun_one_wave` hold for the silicon pair on a grid of one point. -/
example (xc : XcLib) (eigh : Eigh) (jn : SphBessel) (csLoc csBeta : Spline) :
    ∃ P, Spec.ConsistentNC (fun w _ => w = 1) (siliconLib xc eigh jn csLoc csBeta)
      { siliconConfig with gridSizes := .scalar 1 } siliconAtoms (fun _ => 1) (fun _ => 2) P 4 0 ∧
      ∀ r ∈ P.rGrid, r ≠ [] := by
  obtain ⟨P, H, hm⟩ := silicon_consistent xc eigh jn csLoc csBeta
  exact ⟨P, { H with
    sizes := ⟨Or.inr ⟨rfl, rfl, rfl⟩, fun _ => by norm_num⟩
    waves := fun n hn mask hm => by
      obtain rfl : n = fun _ => 1 := funext fun i => least_eq (k := 1) (hn i) smooth1
      obtain rfl := Except.ok.inj (show Except.ok (cubicMask _) = Except.ok mask from hm)
      decide +kernel }, hm⟩

end Jrystal
