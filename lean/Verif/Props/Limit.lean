import Verif.Spec.Limit
import Verif.Lemmas.GroundAttained
import Verif.Props.FermiLevel
import Verif.Props.Smearing
import Verif.Props.Variational

/- C100: the better the optimiser, the nearer the report of a calculation to that of an exact ground state. -/
namespace Jrystal
open scoped BigOperators
open RunSetup

section
variable {ns nk nb : ℕ} {n : Fin 3 → ℕ}

private theorem within_mono {ε ε' t eps : ℝ} (hle : ε ≤ ε') {mask : Idx n → Bool} {ne spin : ℤ} {r : Bool}
    {method : String} {energy : Coef ns nk nb n → Occ ns nk nb → ℝ → Prop} {c : Coef ns nk nb n}
    {occ : Occ ns nk nb} {e : ℝ} (h : Spec.GroundWithin ε t eps mask ne spin r method energy c occ e) :
    Spec.GroundWithin ε' t eps mask ne spin r method energy c occ e :=
  ⟨h.physical, h.value, h.given, fun c' occ' e' a b d => by linarith [h.least c' occ' e' a b d]⟩

/-- One accuracy for the temperatures of finitely many steps. -/
private theorem limit_steps {eps : ℝ} (heps : 0 < eps) (mask : Idx n → Bool) (ne spin : ℤ) (r : Bool)
    (method : String) {energy : Coef ns nk nb n → Occ ns nk nb → ℝ → Prop} {f : Coef ns nk nb n × Occ ns nk nb → ℝ}
    (hf : ContinuousOn f {x | ∀ s k b, 0 ≤ x.2 s k b}) (hen : ∀ c occ e, energy c occ e ↔ e = f (c, occ))
    (vol : ℝ) {δ : ℝ} (hδ : 0 < δ) (temp : ℕ → ℝ) (N : ℕ) :
    ∃ ε, 0 < ε ∧ ∀ i < N, ∀ c occ e, Spec.GroundWithin ε (temp i) eps mask ne spin r method energy c occ e →
      ∃ c' occ' e', Spec.GroundWithin 0 (temp i) eps mask ne spin r method energy c' occ' e' ∧ |e - e'| ≤ δ ∧
        ∀ s x, |densityGrid c vol occ s x - densityGrid c' vol occ' s x| ≤ δ := by
  induction N with
  | zero => exact ⟨1, one_pos, fun i hi => absurd hi (Nat.not_lt_zero i)⟩
  | succ N ih =>
    obtain ⟨ε₁, h1, ih⟩ := ih
    obtain ⟨ε₂, h2, hnear⟩ := ground_near (t := temp N) (mask := mask) (ne := ne) (spin := spin) (r := r)
      (method := method) heps hf hen
      (fun x => (f x, densityGrid x.1 vol x.2)) (hf.prodMk (continuous_densityGrid vol).continuousOn) hδ
    refine ⟨min ε₁ ε₂, lt_min h1 h2, fun i hi c occ e h => ?_⟩
    rcases Nat.lt_succ_iff_lt_or_eq.mp hi with hi | rfl
    · exact ih i hi c occ e (within_mono (min_le_left _ _) h)
    · obtain ⟨c', occ', e', h3, h4⟩ := hnear c occ e (within_mono (min_le_right _ _) h)
      rw [Prod.dist_eq, max_lt_iff, Real.dist_eq] at h4
      refine ⟨c', occ', e', h3, ?_, fun s x => ?_⟩
      · rw [(hen _ _ _).mp h.value, (hen _ _ _).mp h3.value]
        exact h4.1.le
      · rw [← Real.dist_eq]
        exact (dist_le_pi_dist _ _ x).trans ((dist_le_pi_dist _ _ s).trans h4.2.le)

/-- The report of a history. -/
private theorem limit_report {ε δ eps vol : ℝ} {mask : Idx n → Bool} {ne spin : ℤ} {r : Bool}
    {method : String} {energy : Coef ns nk nb n → Occ ns nk nb → ℝ → Prop} {w : ℤ} {th sm : ℝ} {epoch : ℤ}
    {en : ℕ → ℝ} {j : ℕ} {total parts ew : ℝ} {density : Σ S : ℕ, Fin S → Idx n → ℝ}
    (hnear : ∀ i < epoch.toNat, ∀ c occ e,
      Spec.GroundWithin ε (temperature sm epoch i) eps mask ne spin r method energy c occ e →
      ∃ c' occ' e', Spec.GroundWithin 0 (temperature sm epoch i) eps mask ne spin r method energy c' occ' e' ∧
        |e - e'| ≤ δ ∧ ∀ s x, |densityGrid c vol occ s x - densityGrid c' vol occ' s x| ≤ δ)
    (hs : Spec.StopsAt w th epoch en j) (hj : 0 < j) (he : 3 ≤ epoch) (htot : total = en j + ew)
    (hparts : parts = en (j + 1))
    (hall : ∀ i, ∃ c occ, Spec.GroundWithin ε (temperature sm epoch i) eps mask ne spin r method energy c occ
      (en (i + 1)) ∧ (i = j → density = ⟨ns, densityGrid c vol occ⟩)) :
    (∃ i : ℕ, 0 < i ∧ (i : ℤ) < epoch ∧
      Spec.ReportNear δ (temperature sm epoch (i - 1)) (temperature sm epoch i) eps vol mask ne spin r method energy
        (total - ew) parts density) ∧
    (th ≤ 0 ∨ sm ≤ 0 → Spec.ReportNear δ (max sm 0) (max sm 0) eps vol mask ne spin r method energy
        (total - ew) parts density) := by
  have hjlt := hs.within
  have key : Spec.ReportNear δ (temperature sm epoch (j - 1)) (temperature sm epoch j) eps vol mask ne spin r method
      energy (total - ew) parts density := by
    constructor
    · obtain ⟨c, occ, h, -⟩ := hall (j - 1)
      rw [Nat.sub_add_cancel hj] at h
      obtain ⟨c', occ', e', h1, h2, -⟩ := hnear (j - 1) (by omega) c occ _ h
      exact ⟨c', occ', e', h1, by rw [htot, add_sub_cancel_right]; exact h2⟩
    · obtain ⟨c, occ, h, hd⟩ := hall j
      obtain ⟨c', occ', e', h1, h2, h3⟩ := hnear j (by omega) c occ _ h
      exact ⟨c', occ', e', _, h1, by rw [hparts]; exact h2, hd rfl, h3⟩
  refine ⟨⟨j, hj, by omega, key⟩, fun h => ?_⟩
  have ht : temperature sm epoch (j - 1) = max sm 0 ∧ temperature sm epoch j = max sm 0 := by
    rcases h with h | h
    · exact history_final hs he (Or.inl h) sm
    · rw [temperature_zero sm h, temperature_zero sm h, max_eq_right h]
      exact ⟨rfl, rfl⟩
  rw [ht.1, ht.2] at key
  exact key

end

/-- C100, whole all-electron calculation (part).  For every tolerance `δ` there is an accuracy `ε` such that with
every optimiser of that accuracy the calculation reports energies and a density within `δ` of those of exact
ground states.  The temperature is the one of the step at which the loop ends; it is the requested one when there
is no convergence test or no smearing.  Missing: a temperature near to the requested one when the convergence
test ends the loop early (`stops_hot`). -/
theorem run_limit_partial (L : RunLib) (cfg : RunConfig) {m : ℕ} (a : AseAtoms m) (size ksize : Fin 3 → ℤ)
    (ne spin : ℤ) (H : Spec.AdmissibleRun L cfg a size ksize ne spin)
    (hC : Spec.Triangular L.qrC) (hR : Spec.Triangular L.qrR) (hxc : Spec.ContinuousXc L.xc cfg.xc)
    (heps : 0 < cfg.eps) (hspin : cfg.occupation = "simplex-projector" → cfg.restricted = true → spin = 0)
    (hg : cfg.occupation = "gamma" → ∀ i, ksize i ≤ 1)
    (A : Matrix (Fin 3) (Fin 3) ℝ) (hA : A = (angstrom2bohr : ℝ) • a.cell)
    (pos : Fin m → Fin 3 → ℝ) (hpos : ∀ i d, pos i d = angstrom2bohr * a.positions i d)
    (z : Fin m → ℝ) (hz : ∀ i, z i = a.numbers i) (he : 3 ≤ cfg.epoch) (hw : 2 ≤ cfg.window)
    {n kn : Fin 3 → ℕ} (hn : Spec.LeastGrid size n) (hkn : Spec.LeastGrid ksize kn)
    (mask : Idx n → Bool) (hmask : createFreqMask cfg A n = .ok mask)
    (ns nb : ℕ) (hns : ns = if cfg.restricted then 1 else 2) (hnb : nb = (ne.toNat + 1) / 2 + cfg.emptyBands)
    (energy : Coef ns (idxList kn).length nb n → Occ ns (idxList kn).length nb → ℝ → Prop)
    (henergy : energy = fun c occ e => totalEnergy L.xc c pos z (gVectors A n) (flatRows (kVectors A kn)) |A.det|
      (some occ) false cfg.xc = .ok e)
    (δ : ℝ) (hδ : 0 < δ) :
    ∃ ε, 0 < ε ∧ ∀ opt : Optimizer, Spec.NearOptimizer ε opt →
      (∀ {ns nk g nb : ℕ} (f : GsParams ns nk g nb → Except PyErr ℝ) (p : GsParams ns nk g nb × opt.State),
        Spec.KeepsShape p.1.occ (opt.step f p).1.occ) →
      ∃ rep, runAtoms { L with optimizer := .ok opt } cfg a = .ok ⟨n, rep⟩ ∧
        (∃ i : ℕ, 0 < i ∧ (i : ℤ) < cfg.epoch ∧
          Spec.ReportNear δ (temperature cfg.smearing cfg.epoch (i - 1)) (temperature cfg.smearing cfg.epoch i)
            cfg.eps |A.det| mask ne spin cfg.restricted cfg.occupation energy (rep.total - rep.repulsion)
            (rep.parts.kin + rep.parts.har + rep.parts.ext + rep.parts.xc) rep.density) ∧
        (cfg.threshold ≤ 0 ∨ cfg.smearing ≤ 0 →
          Spec.ReportNear δ (max cfg.smearing 0) (max cfg.smearing 0) cfg.eps |A.det| mask ne spin cfg.restricted
            cfg.occupation energy (rep.total - rep.repulsion)
            (rep.parts.kin + rep.parts.har + rep.parts.ext + rep.parts.xc) rep.density) := by
  subst henergy
  obtain ⟨f, hf1, hf2⟩ := continuousOn_totalEnergy (ns := ns) (nb := nb) L.xc cfg.xc hxc pos z (gVectors A n)
    (flatRows (kVectors A kn)) |A.det|
  have hen : ∀ c occ e, totalEnergy L.xc c pos z (gVectors A n) (flatRows (kVectors A kn)) |A.det|
      (some occ) false cfg.xc = .ok e ↔ e = f (c, occ) := fun c occ e =>
    ⟨fun h => Except.ok.inj (h.symm.trans (hf2 c occ)), fun h => by rw [h]; exact hf2 c occ⟩
  obtain ⟨ε, hε, hnear⟩ := limit_steps heps mask ne spin cfg.restricted cfg.occupation hf1 hen |A.det| hδ
    (temperature cfg.smearing cfg.epoch) cfg.epoch.toNat
  refine ⟨ε, hε, fun opt hopt hkeep => ?_⟩
  obtain ⟨n', kn', rep, mask', a1, a2, a3, a4, ns', nb', a5, a6, en, j, h1, h2, h3, h4, h5⟩ :=
    run_history { L with optimizer := .ok opt } cfg a size ksize ne spin
      { H with optimizer := ⟨opt, rfl, hkeep⟩ } hC hR hxc heps hspin hg ε
      (fun o ho => by cases Except.ok.inj ho; exact hopt) A hA pos hpos z hz
  obtain rfl := leastGrid_unique hn a2
  obtain rfl := leastGrid_unique hkn a3
  obtain rfl : mask' = mask := Except.ok.inj (a4.symm.trans hmask)
  obtain rfl : ns' = ns := a6.trans hns.symm
  obtain rfl : nb' = nb := a5.trans hnb.symm
  exact ⟨rep, a1, limit_report hnear h1 (h2 (by omega) hw) he h3 h4
    fun i => (h5 i).imp fun _ h => h.imp fun _ h => ⟨h.1, fun hi => (h.2 hi).1⟩⟩

/-- C100, whole norm-conserving calculation (part).  Missing: the same. -/
theorem ncRun_limit_partial (L : NcLib) (cfg : NcConfig) {m : ℕ} (a : AseAtoms m) (size ksize : Fin 3 → ℤ)
    (P : NcLists) (ne spin : ℤ) (H : Spec.AdmissibleRunNC L cfg a size ksize P ne spin)
    (hC : Spec.Triangular L.qrC) (hR : Spec.Triangular L.qrR) (hxc : Spec.ContinuousXc L.xc cfg.xc)
    (heps : 0 < cfg.eps) (hspin : cfg.occupation = "simplex-projector" → cfg.restricted = true → spin = 0)
    (hg : cfg.occupation = "gamma" → ∀ i, ksize i ≤ 1)
    (A : Matrix (Fin 3) (Fin 3) ℝ) (hA : A = (angstrom2bohr : ℝ) • a.cell)
    (pos : Fin m → Fin 3 → ℝ) (hpos : ∀ i d, pos i d = angstrom2bohr * a.positions i d)
    (he : 3 ≤ cfg.epoch) (hw : 2 ≤ cfg.window)
    {n kn : Fin 3 → ℕ} (hn : Spec.LeastGrid size n) (hkn : Spec.LeastGrid ksize kn)
    (mask : Idx n → Bool) (hmask : createFreqMask cfg.toRunConfig A n = .ok mask)
    (vloc : Idx n → ℂ)
    (hvloc : localReciprocal L.jn L.csLoc (ncLocalAtom P pos) (gVectors A n) |A.det| "sbt" = .ok vloc)
    (bs : List (BetaArr (idxList kn).length n)) (hbs : ncBetas L P (gVectors A n) (flatRows (kVectors A kn)) = .ok bs)
    (ns nb : ℕ) (hns : ns = if cfg.restricted then 1 else 2) (hnb : nb = (ne.toNat + 1) / 2 + cfg.emptyBands)
    (energy : Coef ns (idxList kn).length nb n → Occ ns (idxList kn).length nb → ℝ → Prop)
    (henergy : energy = Spec.EnergyNC L.xc cfg.xc vloc (nlPsiAll L.eigh L.sph (fun a : Fin m => ncSpecies P bs a) pos
      (gVectors A n) (flatRows (kVectors A kn))) (gVectors A n) (flatRows (kVectors A kn)) |A.det|)
    (δ : ℝ) (hδ : 0 < δ) :
    ∃ ε, 0 < ε ∧ ∀ opt : Optimizer, Spec.NearOptimizer ε opt →
      (∀ {ns nk g nb : ℕ} (f : GsParams ns nk g nb → Except PyErr ℝ) (p : GsParams ns nk g nb × opt.State),
        Spec.KeepsShape p.1.occ (opt.step f p).1.occ) →
      ∃ rep, runAtomsNC { L with optimizer := .ok opt } cfg a = .ok ⟨n, rep⟩ ∧
        (∃ i : ℕ, 0 < i ∧ (i : ℤ) < cfg.epoch ∧
          Spec.ReportNear δ (temperature cfg.smearing cfg.epoch (i - 1)) (temperature cfg.smearing cfg.epoch i)
            cfg.eps |A.det| mask ne spin cfg.restricted cfg.occupation energy (rep.total - rep.repulsion)
            (rep.parts.1.kin + rep.parts.1.har + rep.parts.1.ext + rep.parts.2 + rep.parts.1.xc) rep.density) ∧
        (cfg.threshold ≤ 0 ∨ cfg.smearing ≤ 0 →
          Spec.ReportNear δ (max cfg.smearing 0) (max cfg.smearing 0) cfg.eps |A.det| mask ne spin cfg.restricted
            cfg.occupation energy (rep.total - rep.repulsion)
            (rep.parts.1.kin + rep.parts.1.har + rep.parts.1.ext + rep.parts.2 + rep.parts.1.xc) rep.density) := by
  subst henergy
  obtain ⟨f, hf1, hf2⟩ := continuousOn_energyNC (ns := ns) (nb := nb) L.xc cfg.xc hxc vloc
    (nlPsiAll L.eigh L.sph (fun a : Fin m => ncSpecies P bs a) pos (gVectors A n) (flatRows (kVectors A kn)))
    (gVectors A n) (flatRows (kVectors A kn)) |A.det|
  obtain ⟨ε, hε, hnear⟩ := limit_steps heps mask ne spin cfg.restricted cfg.occupation hf1 (energyNC_function hf2)
    |A.det| hδ (temperature cfg.smearing cfg.epoch) cfg.epoch.toNat
  refine ⟨ε, hε, fun opt hopt hkeep => ?_⟩
  obtain ⟨n', kn', rep, mask', vloc', bs', a1, a2, a3, a4, a7, a8, ns', nb', a5, a6, en, j, h1, h2, h3, h4, h5⟩ :=
    ncRun_history { L with optimizer := .ok opt } cfg a size ksize P ne spin
      { H with optimizer := ⟨opt, rfl, hkeep⟩ } hC hR hxc heps hspin hg ε
      (fun o ho => by cases Except.ok.inj ho; exact hopt) A hA pos hpos
  obtain rfl := leastGrid_unique hn a2
  obtain rfl := leastGrid_unique hkn a3
  obtain rfl : mask' = mask := Except.ok.inj (a4.symm.trans hmask)
  obtain rfl : vloc' = vloc := Except.ok.inj (a7.symm.trans hvloc)
  obtain rfl : bs' = bs := Except.ok.inj (a8.symm.trans hbs)
  obtain rfl : ns' = ns := a6.trans hns.symm
  obtain rfl : nb' = nb := a5.trans hnb.symm
  exact ⟨rep, a1, limit_report hnear h1 (h2 (by omega) hw) he h3 h4
    fun i => (h5 i).imp fun _ h => h.imp fun _ h => ⟨h.1, fun hi => (h.2 hi).1⟩⟩

/-- The hypotheses of `run_limit_partial` hold for the lithium atom: with a good enough optimiser the calculation
without a convergence test reports the ground state at the temperature of its configuration. -/
example {δ : ℝ} (hδ : 0 < δ) : ∃ (opt : Optimizer) (n kn : Fin 3 → ℕ) (mask : Idx n → Bool)
    (rep : GsReport EnergyParts n), Spec.LeastGrid (fun _ => 4) n ∧ Spec.LeastGrid (fun _ => 2) kn ∧
    createFreqMask lithiumConfig ((angstrom2bohr : ℝ) • (1 : Matrix (Fin 3) (Fin 3) ℝ)) n = .ok mask ∧
    runAtoms { lithiumLib diracLib with
      qrC := gramSchmidtQR ℂ, qrR := gramSchmidtQR ℝ, optimizer := .ok opt } { lithiumConfig with threshold := 0 }
      (⟨fun _ => 3, 0, 1⟩ : AseAtoms 1) = .ok ⟨n, rep⟩ ∧
    Spec.ReportNear (ns := 2) (nk := (idxList kn).length) (nb := 2 + lithiumConfig.emptyBands) δ
      (max lithiumConfig.smearing 0) (max lithiumConfig.smearing 0) lithiumConfig.eps
      |((angstrom2bohr : ℝ) • (1 : Matrix (Fin 3) (Fin 3) ℝ)).det| mask 3 1 false lithiumConfig.occupation
      (fun c occ e => totalEnergy diracLib c (fun (_ : Fin 1) _ => (angstrom2bohr : ℝ) * 0) (fun _ => ((3 : ℤ) : ℝ))
        (gVectors ((angstrom2bohr : ℝ) • 1) n) (flatRows (kVectors ((angstrom2bohr : ℝ) • 1) kn))
        |((angstrom2bohr : ℝ) • (1 : Matrix (Fin 3) (Fin 3) ℝ)).det| (some occ) false lithiumConfig.xc = .ok e)
      (rep.total - rep.repulsion) (rep.parts.kin + rep.parts.har + rep.parts.ext + rep.parts.xc) rep.density := by
  let L : RunLib := { lithiumLib diracLib with
      qrC := gramSchmidtQR ℂ, qrR := gramSchmidtQR ℝ, optimizer := .ok (nearOptimizer 1) }
  let cfg : RunConfig := { lithiumConfig with threshold := 0 }
  have H : Spec.AdmissibleRun L cfg (⟨fun _ => 3, 0, 1⟩ : AseAtoms 1) (fun _ => 4) (fun _ => 2) 3 1 :=
    { lithium_admissible diracLib with optimizer := ⟨nearOptimizer 1, rfl, nearOptimizer_keeps 1⟩ }
  obtain ⟨n, kn, -, mask, -, hn, hkn, hmask, -⟩ := run_history L cfg _ _ _ _ _ H (gramSchmidtQR_triangular ℂ)
    (gramSchmidtQR_triangular ℝ) diracLib_continuous (by norm_num [cfg, lithiumConfig])
    (fun _ h => absurd h (by decide)) (fun h => absurd h (by decide)) 1
    (fun o ho => by cases Except.ok.inj ho; exact nearOptimizer_near one_pos) _ rfl _ (fun _ _ => rfl) _ (fun _ => rfl)
  obtain ⟨ε, hε, h⟩ := run_limit_partial L cfg _ _ _ _ _ H (gramSchmidtQR_triangular ℂ)
    (gramSchmidtQR_triangular ℝ) diracLib_continuous (by norm_num [cfg, lithiumConfig])
    (fun _ h => absurd h (by decide)) (fun h => absurd h (by decide)) _ rfl _ (fun _ _ => rfl) _ (fun _ => rfl)
    (by decide) (by decide) hn hkn mask hmask 2 _ rfl rfl _ rfl δ hδ
  obtain ⟨rep, h1, -, h2⟩ := h (nearOptimizer ε) (nearOptimizer_near hε) (nearOptimizer_keeps ε)
  exact ⟨_, n, kn, mask, rep, hn, hkn, hmask, h1, h2 (Or.inl le_rfl)⟩

end Jrystal
