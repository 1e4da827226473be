import Verif.Spec.Accepted
import Verif.Lemmas.FirstUpdate
import Verif.Props.Run
import Verif.Props.Mask
import Mathlib.LinearAlgebra.Matrix.Rank

/- C119: which inputs a ground-state calculation refuses. -/
namespace Jrystal
open scoped BigOperators ComplexConjugate
open Matrix RunSetup

/-! ### Sizes -/

private theorem proper_sizes {g : GridArg} {a b c : ℕ} (h : properGridSize g = .ok [a, b, c]) :
    ∃ size, Spec.SizesOk g size := by
  cases g with
  | other => cases h
  | scalar x =>
    have h' : properGridSize (.vec [x, x, x]) = .ok [a, b, c] := h
    have := (properGridSize_vec [x, x, x]).2.2 ⟨_, h'⟩
    exact ⟨fun _ => x, Or.inr ⟨rfl, rfl, rfl⟩, fun _ => this x (by simp)⟩
  | vec l =>
    have h1 := (properGridSize_vec l).1 _ h
    have h2 := (properGridSize_vec l).2.2 ⟨_, h⟩
    match l, h1 with
    | [x, y, z], _ =>
      refine ⟨![x, y, z], Or.inl rfl, fun i => ?_⟩
      fin_cases i
      · exact h2 x (by simp)
      · exact h2 y (by simp)
      · exact h2 z (by simp)

private theorem threeSizes_ok {e : PyErr} {l : List ℕ} {n : Fin 3 → ℕ} (h : threeSizes e l = .ok n) :
    ∃ a b c, l = [a, b, c] := by
  match l, h with
  | [a, b, c], _ => exact ⟨a, b, c, rfl⟩

theorem runSizes_ok {cfg : RunConfig} {n kn : Fin 3 → ℕ} (h : runSizes cfg = .ok (n, kn)) :
    ∃ size ksize, Spec.SizesOk cfg.gridSizes size ∧ Spec.SizesOk cfg.kGridSizes ksize := by
  unfold runSizes createGridsSizes at h
  cases h1 : properGridSize cfg.gridSizes with
  | error e => rw [h1] at h; cases h
  | ok l =>
    rw [h1] at h
    cases h2 : properGridSize cfg.kGridSizes with
    | error e => rw [h2] at h; cases h
    | ok l' =>
      rw [h2] at h
      dsimp only at h
      cases h3 : threeSizes .assertionError l with
      | error e => rw [h3] at h; cases h
      | ok n1 =>
        rw [h3] at h
        dsimp only at h
        cases h4 : threeSizes .valueError l' with
        | error e => rw [h4] at h; cases h
        | ok n2 =>
          obtain ⟨_, _, _, rfl⟩ := threeSizes_ok h3
          obtain ⟨_, _, _, rfl⟩ := threeSizes_ok h4
          obtain ⟨s, hs⟩ := proper_sizes h1
          obtain ⟨s', hs'⟩ := proper_sizes h2
          exact ⟨s, s', hs, hs'⟩

theorem same_grid {size : Fin 3 → ℤ} {n n' : Fin 3 → ℕ} (h : Spec.LeastGrid size n)
    (h' : Spec.LeastGrid size n') : n = n' :=
  funext fun i => le_antisymm ((h i).2.2 _ (h' i).1 (h' i).2.1) ((h' i).2.2 _ (h i).1 (h i).2.1)

theorem translationCount_neg (A : Matrix (Fin 3) (Fin 3) ℝ) (E : ℝ) (hE : ¬ 0 < E) :
    translationCount A E ≤ 0 := by
  unfold translationCount
  rw [Int.ceil_le]
  exact_mod_cast div_nonpos_of_nonpos_of_nonneg (not_lt.1 hE) (sq_nonneg _)

/-- Every selection contains the constant wave, unless the cutoff energy is negative. -/
theorem mask_constant (cfg : RunConfig) (hcut : 0 ≤ cfg.cutoff) (A : Matrix (Fin 3) (Fin 3) ℝ) {n : Fin 3 → ℕ}
    (hn : ∀ i, 0 < n i) (mask : Idx n → Bool) (h : createFreqMask cfg A n = .ok mask) :
    mask (fun i => ⟨0, hn i⟩) = true := by
  unfold createFreqMask at h
  split_ifs at h
  · obtain rfl := Except.ok.inj h
    have key : ∀ i, cubicMask1 (n i) 0 = true := by
      intro i
      have := hn i
      unfold cubicMask1 inSlice pyBound half
      simp only [Bool.not_eq_true', Bool.and_eq_false_iff, decide_eq_false_iff_not]
      left
      rw [if_neg (by omega)]
      omega
    unfold cubicMask
    simp only [key, Bool.and_self]
  · obtain rfl := Except.ok.inj h
    rw [sphericalMask_iff]
    have h0 : gVectors A n (fun i => ⟨0, hn i⟩) = 0 := gVectors_zero A n _ fun _ => rfl
    rw [h0]
    simpa [Spec.kineticEnergy, Spec.dot] using hcut

/-! ### One state -/

theorem bcLen_bands (g b : ℕ) : (∃ B, bcLen (min g b) b = .ok B) ↔ b ≤ g ∨ g = 1 ∨ b = 1 := by
  unfold bcLen
  constructor
  · rintro ⟨B, h⟩
    split_ifs at h with h1 h2 h3 <;> omega
  · intro h
    by_cases h1 : min g b = b
    · exact ⟨_, if_pos h1⟩
    · rw [if_neg h1]
      by_cases h2 : min g b = 1
      · exact ⟨_, if_pos h2⟩
      · rw [if_neg h2]
        exact ⟨_, if_pos (by omega)⟩

private theorem gsState_ok_iff {na nk ns nb : ℕ} {n : Fin 3 → ℕ} (E : GsEnv na nk n)
    (p : GsParams ns nk (maskCount E.mask) nb) (o : OccArr nk nb ℝ)
    (ho : occupation E.qrR p.occ E.ne E.spin E.method E.restricted = .ok o) (hl : o.length = ns) :
    (∃ r, gsState E p = .ok r) ↔ nb ≤ maskCount E.mask ∨ maskCount E.mask = 1 ∨ nb = 1 := by
  rw [← bcLen_bands]
  have h1 : bcLen ns o.length = .ok ns := by
    unfold bcLen
    rw [if_pos hl.symm]
  unfold gsState
  rw [ho]
  simp only [h1]
  cases bcLen (min (maskCount E.mask) nb) nb with
  | error e => exact ⟨fun ⟨_, h⟩ => (by cases h), fun ⟨_, h⟩ => (by cases h)⟩
  | ok B => exact ⟨fun _ => ⟨_, rfl⟩, fun _ => ⟨_, rfl⟩⟩

private theorem gsParts_total {na nk ns nb : ℕ} {n : Fin 3 → ℕ} (E : GsEnv na nk n)
    (p : GsParams ns nk (maskCount E.mask) nb) {r} (h : gsState E p = .ok r) :
    (∃ q, gsParts E p = .ok q) ∧ ∃ d, gsDensity E p = .ok d := by
  obtain ⟨S, B, c, o⟩ := r
  constructor
  · obtain ⟨h1, hh⟩ : ∃ h, hartreeEnergy (densityGridReciprocal c E.vol o) E.g E.vol false = .ok h :=
      ⟨_, hartreeEnergy_eq _ _ _ _⟩
    obtain ⟨x, hx⟩ : ∃ x, externalEnergy (densityGridReciprocal c E.vol o) E.pos E.charge E.g E.vol = .ok x :=
      ⟨_, externalEnergy_eq _ _ _ _ _⟩
    obtain ⟨y, hy⟩ : ∃ y, xcEnergy E.lib E.xc false (densityGrid c E.vol o) E.g E.vol = .ok y :=
      ⟨_, xcEnergy_value _ _ _ _ _⟩
    unfold gsParts
    rw [h]
    simp only [hh, hx, hy]
    exact ⟨_, rfl⟩
  · unfold gsDensity
    rw [h]
    exact ⟨_, rfl⟩

private theorem occupation_shape (qr : QR ℝ) (draw : ∀ n m : ℕ, Matrix (Fin n) (Fin m) ℝ) {nk nb : ℕ}
    (ne spin : ℤ) (method : String) (r : Bool) (q0 q : OccParams nk nb)
    (h0 : occParamInit draw nb ne nk spin method r = .ok q0) (hk : Spec.KeepsShape q0 q) :
    ∃ o, occupation qr q ne spin method r = .ok o ∧ o.length = if r then 1 else 2 := by
  unfold occParamInit at h0
  unfold occupation
  by_cases h1 : method = "idempotent"
  · rw [if_pos h1] at h0 ⊢
    cases hi : idempotentParamInit draw nk nb ne spin true with
    | error e => rw [hi] at h0; cases h0
    | ok p =>
      rw [hi] at h0
      obtain rfl := Except.ok.inj h0
      cases q with
      | idem p' => exact ⟨_, rfl, by unfold idempotentOcc; cases r <;> rfl⟩
      | arr => exact hk.elim
      | simplex => exact hk.elim
  · rw [if_neg h1] at h0 ⊢
    by_cases h2 : method = "uniform"
    · rw [if_pos h2] at h0 ⊢
      obtain rfl := Except.ok.inj h0
      cases q with
      | idem p' => exact hk.elim
      | arr o => exact ⟨_, rfl, by rw [show o = _ from hk]; unfold uniformOcc; cases r <;> rfl⟩
      | simplex => exact hk.elim
    · rw [if_neg h2] at h0 ⊢
      by_cases h3 : method = "gamma"
      · rw [if_pos h3] at h0 ⊢
        obtain rfl := Except.ok.inj h0
        cases q with
        | idem p' => exact hk.elim
        | arr o => exact ⟨_, rfl, by rw [show o = _ from hk]; unfold gammaOcc; cases r <;> rfl⟩
        | simplex => exact hk.elim
      · rw [if_neg h3] at h0 ⊢
        by_cases h4 : method = "simplex-projector"
        · rw [if_pos h4] at h0 ⊢
          obtain rfl := Except.ok.inj h0
          cases q with
          | idem p' => exact hk.elim
          | arr o => exact hk.elim
          | simplex => exact ⟨_, rfl, by unfold simplexProjector; cases r <;> rfl⟩
        · rw [if_neg h4] at h0
          cases h0

private theorem occParamInit_iff (draw : ∀ n m : ℕ, Matrix (Fin n) (Fin m) ℝ) (nk nb : ℕ) (ne spin : ℤ)
    (method : String) (r : Bool) (hpar : ne % 2 = spin % 2) :
    (∃ q : OccParams nk nb, occParamInit draw nb ne nk spin method r = .ok q) ↔
      method = "uniform" ∨ method = "gamma" ∨ method = "simplex-projector" ∨
        method = "idempotent" ∧ 0 ≤ ne + spin := by
  unfold occParamInit
  by_cases h1 : method = "idempotent"
  · subst h1
    rw [if_pos rfl]
    have hc : checkSpinNumber ne spin = .ok () := if_neg (by simpa using hpar)
    unfold idempotentParamInit
    rw [hc]
    simp only [bind, Except.bind]
    by_cases h2 : (ne + spin) / 2 < 0
    · rw [if_pos h2]
      constructor
      · rintro ⟨_, h⟩
        cases h
      · rintro (h | h | h | ⟨-, h⟩)
        · exact absurd h (by decide)
        · exact absurd h (by decide)
        · exact absurd h (by decide)
        · omega
    · rw [if_neg h2]
      exact ⟨fun _ => Or.inr (Or.inr (Or.inr ⟨trivial, by omega⟩)), fun _ => ⟨_, rfl⟩⟩
  · rw [if_neg h1]
    by_cases h2 : method = "uniform"
    · rw [if_pos h2]
      exact ⟨fun _ => Or.inl h2, fun _ => ⟨_, rfl⟩⟩
    · rw [if_neg h2]
      by_cases h3 : method = "gamma"
      · rw [if_pos h3]
        exact ⟨fun _ => Or.inr (Or.inl h3), fun _ => ⟨_, rfl⟩⟩
      · rw [if_neg h3]
        by_cases h4 : method = "simplex-projector"
        · rw [if_pos h4]
          exact ⟨fun _ => Or.inr (Or.inr (Or.inl h4)), fun _ => ⟨_, rfl⟩⟩
        · rw [if_neg h4]
          constructor
          · rintro ⟨_, h⟩
            cases h
          · rintro (h | h | h | ⟨h, -⟩) <;> contradiction

/-! ### The loop -/

private theorem gsLoop_error {P : Type*} (upd : P → ℝ → P) (energy : P → Except PyErr ℝ) (temp : ℕ → ℝ)
    (h : ∀ p, ∃ e, energy p = .error e) (k i : ℕ) (p : P) (chk : Checker) (x : Option ℝ) (hk : 0 < k) :
    ∃ e, gsLoop upd energy temp k i p chk x = .error e := by
  obtain ⟨k, rfl⟩ : ∃ l, k = l + 1 := ⟨k - 1, by omega⟩
  obtain ⟨e, he⟩ := h p
  unfold gsLoop
  rw [he]
  exact ⟨_, rfl⟩

theorem gsRun_epoch {P X : Type*} {n : Fin 3 → ℕ} {Y : Type}
    (dens : P → Except PyErr (Σ S : ℕ, Fin S → Idx n → ℝ)) (total : P → Except PyErr ℝ)
    (parts : P → Except PyErr Y) (ew : ℝ) (upd : P × X → ℝ → P × X) (epoch : ℤ) (smearing : ℝ) (window : ℤ)
    (th : ℝ) (p0 : P × X) {r} (h : gsRun dens total parts ew upd epoch smearing window th p0 = .ok r) :
    0 < epoch ∧ ∃ q d, dens q = .ok d := by
  unfold gsRun at h
  cases hl : gsLoop upd (fun p => total p.1) (temperature smearing epoch) epoch.toNat 0 p0
      (Checker.new window th) none with
  | error e => rw [hl] at h; cases h
  | ok q =>
    rw [hl] at h
    obtain ⟨q, et⟩ := q
    dsimp only at h
    cases hd : dens q.1 with
    | error e => rw [hd] at h; cases h
    | ok d =>
      refine ⟨?_, _, _, hd⟩
      by_contra hneg
      have h0 : epoch.toNat = 0 := by omega
      rw [h0] at hl
      obtain ⟨-, rfl⟩ := Prod.mk.inj (Except.ok.inj hl)
      rw [hd] at h
      dsimp only at h
      cases hp : parts q.1 with
      | error e => rw [hp] at h; cases h
      | ok pp => rw [hp] at h; cases h

private theorem runLoop_iff (L : RunLib) (cfg : RunConfig) {na nk : ℕ} {n : Fin 3 → ℕ} (E : GsEnv na nk n) (ew : ℝ)
    (hr : E.restricted = cfg.restricted)
    (hkeep : ∀ opt, L.optimizer = .ok opt → ∀ {ns nk g nb : ℕ} (f : GsParams ns nk g nb → Except PyErr ℝ)
      (p : GsParams ns nk g nb × opt.State), Spec.KeepsShape p.1.occ (opt.step f p).1.occ) :
    (∃ rep, runLoop L cfg E ew = .ok rep) ↔
      (∃ opt, L.optimizer = .ok opt) ∧
      (∃ q : OccParams nk (driverBands E.ne.toNat cfg.emptyBands),
        occParamInit L.occDraw (driverBands E.ne.toNat cfg.emptyBands) E.ne nk E.spin E.method E.restricted = .ok q) ∧
      0 < cfg.epoch ∧ L.updateFault = none ∧
      (driverBands E.ne.toNat cfg.emptyBands ≤ maskCount E.mask ∨ maskCount E.mask = 1 ∨
        driverBands E.ne.toNat cfg.emptyBands = 1) := by
  have hns : (if cfg.restricted then 1 else 2) = if E.restricted then 1 else 2 := by rw [hr]
  unfold runLoop
  cases hopt : L.optimizer with
  | error e => exact ⟨fun ⟨_, h⟩ => (by cases h), fun ⟨⟨_, h⟩, _⟩ => (by cases h)⟩
  | ok opt =>
    dsimp only
    unfold gsInit
    cases hq : occParamInit L.occDraw (driverBands E.ne.toNat cfg.emptyBands) E.ne nk E.spin E.method
        E.restricted with
    | error e => exact ⟨fun ⟨_, h⟩ => (by cases h), fun ⟨_, ⟨_, h⟩, _⟩ => (by cases h)⟩
    | ok q =>
      simp only [Except.map]
      generalize hpw : L.pwDraw (if cfg.restricted then 1 else 2) nk (maskCount E.mask)
        (driverBands E.ne.toNat cfg.emptyBands) = pw
      have hocc : ∀ p : GsParams (if cfg.restricted then 1 else 2) nk (maskCount E.mask)
          (driverBands E.ne.toNat cfg.emptyBands), Spec.KeepsShape q p.occ →
          ((∃ r, gsState E p = .ok r) ↔ driverBands E.ne.toNat cfg.emptyBands ≤ maskCount E.mask ∨
            maskCount E.mask = 1 ∨ driverBands E.ne.toNat cfg.emptyBands = 1) := by
        intro p hp
        obtain ⟨o, h1, h2⟩ := occupation_shape E.qrR L.occDraw _ _ _ _ q p.occ hq hp
        exact gsState_ok_iff E p o h1 (h2.trans hns.symm)
      constructor
      · rintro ⟨rep, h⟩
        have hf : L.updateFault = none ∧ gsCalc E ew (runUpdate opt E) cfg.epoch cfg.smearing cfg.window
            cfg.threshold (⟨pw, q⟩, opt.init ⟨pw, q⟩) = .ok rep := by
          unfold firstUpdate at h
          cases hu : L.updateFault with
          | none => rw [hu] at h; exact ⟨rfl, h⟩
          | some f =>
            exfalso
            rw [hu] at h
            dsimp only at h
            by_cases he : 0 < cfg.epoch
            · rw [if_pos he] at h
              cases hg : gsFree E (temperature cfg.smearing cfg.epoch 0) ⟨pw, q⟩ with
              | error e => rw [hg] at h; cases h
              | ok v => rw [hg] at h; cases h
            · rw [if_neg he] at h
              exact he (gsRun_epoch _ _ _ _ _ _ _ _ _ _ h).1
        obtain ⟨he, -⟩ := gsRun_epoch _ _ _ _ _ _ _ _ _ _ hf.2
        refine ⟨⟨opt, rfl⟩, ⟨q, rfl⟩, he, hf.1, ?_⟩
        rw [← hocc ⟨pw, q⟩ (keeps_refl q)]
        by_contra hn
        have htot : ∃ e, gsTotal E (⟨pw, q⟩ : GsParams (if cfg.restricted then 1 else 2) nk (maskCount E.mask)
            (driverBands E.ne.toNat cfg.emptyBands)) = .error e := by
          cases hs : gsState E (⟨pw, q⟩ : GsParams (if cfg.restricted then 1 else 2) nk (maskCount E.mask)
            (driverBands E.ne.toNat cfg.emptyBands)) with
          | error e =>
            refine ⟨e, ?_⟩
            unfold gsTotal gsParts
            rw [hs]
          | ok r => exact absurd ⟨r, hs⟩ hn
        obtain ⟨e, hte⟩ := htot
        have h2 := hf.2
        unfold gsCalc gsRun at h2
        obtain ⟨k, hk⟩ : ∃ k, cfg.epoch.toNat = k + 1 := ⟨cfg.epoch.toNat - 1, by omega⟩
        rw [hk] at h2
        unfold gsLoop at h2
        simp only [hte] at h2
        cases h2
      · rintro ⟨-, -, he, hf, hb⟩
        rw [firstUpdate_keep hf]
        obtain ⟨p', e', j, v, h1, h2, -, -, -, h4, -⟩ := gsLoop_first (runUpdate opt E) (fun p => gsTotal E p.1)
          (temperature cfg.smearing cfg.epoch) (fun p => Spec.KeepsShape q p.1.occ)
          (fun p t hp => keeps_trans hp (hkeep opt hopt _ p))
          (fun p hp => by
            obtain ⟨r, hr⟩ := (hocc p.1 hp).2 hb
            obtain ⟨⟨x, hx⟩, -⟩ := gsParts_total E p.1 hr
            exact ⟨_, gsTotal_of_parts E p.1 x hx⟩)
          (⟨pw, q⟩, opt.init ⟨pw, q⟩) cfg.epoch.toNat (by omega) cfg.window cfg.threshold (keeps_refl q)
        obtain ⟨r, hr⟩ := (hocc p'.1 h2).2 hb
        obtain ⟨⟨x, hx⟩, d, hd⟩ := gsParts_total E p'.1 hr
        unfold gsCalc gsRun
        rw [h1]
        simp only [hd, hx, h4]
        exact ⟨_, rfl⟩

/-! ### Whole calculations -/

/-- C119: which input a ground-state calculation accepts, exactly.  For every cell with a volume, every cutoff energy
that is not negative and every optimiser that keeps the shape of the occupation parameters, the calculation returns
if and only if its input is consistent, where the code takes the plane waves to be enough when there is one for each
band, or just one. -/
theorem run_accepted (L : RunLib) (cfg : RunConfig) {m : ℕ} (a : AseAtoms m) (hcell : a.cell.det ≠ 0)
    (hcut : 0 ≤ cfg.cutoff)
    (hkeep : ∀ opt, L.optimizer = .ok opt → ∀ {ns nk g nb : ℕ} (f : GsParams ns nk g nb → Except PyErr ℝ)
      (p : GsParams ns nk g nb × opt.State), Spec.KeepsShape p.1.occ (opt.step f p).1.occ) :
    (∃ r, runAtoms L cfg a = .ok r) ↔
      ∃ size ksize, Spec.Consistent (fun w b => b ≤ w ∨ w = 1) L cfg a size ksize (∑ i, a.numbers i)
        (cfg.spin.getD ((∑ i, a.numbers i) % 2)) := by
  set c := Crystal.fromAse a cfg.spin with hc
  have hcc : c.cell = (angstrom2bohr : ℝ) • a.cell := rfl
  have hcne : c.numElectron = ∑ i, a.numbers i := rfl
  have hcs : c.spin = cfg.spin.getD ((∑ i, a.numbers i) % 2) := by
    rw [hc]
    unfold Crystal.fromAse
    cases cfg.spin <;> rfl
  have hdet : c.cell.det ≠ 0 := by
    rw [hcc, Matrix.det_smul]
    refine mul_ne_zero (pow_ne_zero _ ?_) hcell
    norm_num [angstrom2bohr]
  have hcreate : ∀ c', createCrystal a cfg.spin = .ok c' → c' = c ∧ c.numElectron % 2 = c.spin % 2 := by
    intro c' h
    unfold createCrystal checkSpinNumber at h
    simp only [← hc] at h
    by_cases hp : c.numElectron % 2 = c.spin % 2
    · rw [if_neg (by simpa using hp)] at h
      exact ⟨(Except.ok.inj h).symm, hp⟩
    · rw [if_pos hp] at h
      cases h
  have hloop : ∀ n kn mask ew, createFreqMask cfg c.cell n = .ok mask → (∀ i, 0 < n i) →
      c.numElectron % 2 = c.spin % 2 →
      ((∃ rep, runLoop L cfg (runEnv L cfg c n kn mask) ew = .ok rep) ↔ (∃ opt, L.optimizer = .ok opt) ∧
        (cfg.occupation = "uniform" ∨ cfg.occupation = "gamma" ∨ cfg.occupation = "simplex-projector" ∨
          cfg.occupation = "idempotent" ∧ 0 ≤ c.numElectron + c.spin) ∧ 0 < cfg.epoch ∧ L.updateFault = none ∧
        ((c.numElectron.toNat + 1) / 2 + cfg.emptyBands ≤ Fintype.card {k // mask k = true} ∨
          Fintype.card {k // mask k = true} = 1)) := by
    intro n kn mask ew hmk hn hpar
    have h1 : 1 ≤ maskCount mask := by
      rw [maskCount_card]
      exact Fintype.card_pos_iff.2 ⟨⟨_, mask_constant cfg hcut c.cell hn mask hmk⟩⟩
    rw [runLoop_iff L cfg (runEnv L cfg c n kn mask) ew rfl hkeep]
    have h2 : (driverBands (runEnv L cfg c n kn mask).ne.toNat cfg.emptyBands
        ≤ maskCount (runEnv L cfg c n kn mask).mask ∨ maskCount (runEnv L cfg c n kn mask).mask = 1 ∨
        driverBands (runEnv L cfg c n kn mask).ne.toNat cfg.emptyBands = 1) ↔
        ((c.numElectron.toNat + 1) / 2 + cfg.emptyBands ≤ Fintype.card {k // mask k = true} ∨
          Fintype.card {k // mask k = true} = 1) := by
      rw [← maskCount_card]
      show (driverBands c.numElectron.toNat cfg.emptyBands ≤ maskCount mask ∨ maskCount mask = 1 ∨
        driverBands c.numElectron.toNat cfg.emptyBands = 1) ↔ _
      unfold driverBands
      omega
    rw [h2]
    exact and_congr_right fun _ => and_congr_left fun _ =>
      occParamInit_iff L.occDraw _ _ c.numElectron c.spin cfg.occupation cfg.restricted hpar
  constructor
  · rintro ⟨r, h⟩
    unfold runAtoms at h
    cases hcr : createCrystal a cfg.spin with
    | error e => rw [hcr] at h; cases h
    | ok c' =>
      obtain ⟨rfl, hpar⟩ := hcreate c' hcr
      rw [hcr] at h
      dsimp only at h
      unfold runCrystal at h
      cases hs : runSizes cfg with
      | error e => rw [hs] at h; cases h
      | ok q =>
        obtain ⟨n, kn⟩ := q
        rw [hs] at h
        dsimp only at h
        obtain ⟨size, ksize, hg, hk⟩ := runSizes_ok hs
        obtain ⟨n', kn', hs', hn, hkn⟩ := run_sizes cfg size ksize hg hk
        rw [hs] at hs'
        obtain ⟨rfl, rfl⟩ := Prod.mk.inj (Except.ok.inj hs')
        cases hgr : runGrid L cfg c n kn with
        | error e => rw [hgr] at h; cases h
        | ok rep =>
          unfold runGrid at hgr
          cases hmk : createFreqMask cfg c.cell n with
          | error e => rw [hmk] at hgr; cases hgr
          | ok mask =>
            rw [hmk] at hgr
            dsimp only at hgr
            cases hrp : runRepulsion L.erfc cfg c n with
            | error e => rw [hrp] at hgr; cases hgr
            | ok ew =>
              rw [hrp] at hgr
              dsimp only at hgr
              generalize hdv : (if cfg.parallelK then L.devices else 1) = dv at hgr
              by_cases hd : (idxList kn).length % dv ≠ 0
              · rw [if_pos hd] at hgr
                cases hgr
              · rw [if_neg hd] at hgr
                obtain ⟨h1, h2, h3, h4, h5⟩ := (hloop n kn mask ew hmk (fun i => smooth_pos (hn i).1) hpar).1 ⟨rep, hgr⟩
                refine ⟨size, ksize, hg, hk, rfl, rfl, ?_, ?_, ?_, ?_, ?_, ?_, h1, h3, h4⟩
                · rw [← hcs]; exact hpar
                · unfold createFreqMask at hmk
                  by_contra hno
                  push Not at hno
                  rw [if_neg hno.1, if_neg hno.2] at hmk
                  cases hmk
                · rw [← hcs]; exact h2
                · intro n1 hn1 mask1 hm1
                  obtain rfl := same_grid hn1 hn
                  rw [← hcc, hmk] at hm1
                  obtain rfl := Except.ok.inj hm1
                  exact h5
                · by_contra hE
                  have := translationCount_neg c.cell cfg.ewaldCutoff hE
                  unfold runRepulsion at hrp
                  by_cases h0 : translationCount c.cell cfg.ewaldCutoff = 0
                  · rw [if_pos h0] at hrp
                    cases hrp
                  · rw [if_neg h0, if_pos (by omega)] at hrp
                    cases hrp
                · intro kn1 hkn1
                  obtain rfl := same_grid hkn1 hkn
                  rw [hdv, ← idxList_length]
                  exact Nat.dvd_of_mod_eq_zero (not_not.1 hd)
  · rintro ⟨size, ksize, H⟩
    obtain ⟨n, kn, hs, hn, hkn⟩ := run_sizes cfg size ksize H.sizes H.ksizes
    have hpar : c.numElectron % 2 = c.spin % 2 := by rw [hcs]; exact H.parity
    have hcr : createCrystal a cfg.spin = .ok c := by
      unfold createCrystal checkSpinNumber
      simp only [← hc]
      rw [if_neg (by simpa using hpar)]
    obtain ⟨mask, hmk⟩ : ∃ mask, createFreqMask cfg c.cell n = .ok mask := by
      unfold createFreqMask
      rcases H.method with h | h
      · exact ⟨_, if_pos h⟩
      · rw [h]; exact ⟨_, rfl⟩
    have htr := translationCount_pos c.cell hdet cfg.ewaldCutoff H.ewald
    obtain ⟨ew, hrep⟩ : ∃ ew, runRepulsion L.erfc cfg c n = .ok ew := by
      unfold runRepulsion
      rw [if_neg (by omega), if_neg (by omega)]
      exact ⟨_, rfl⟩
    have hdv : ¬ (idxList kn).length % (if cfg.parallelK then L.devices else 1) ≠ 0 := by
      rw [idxList_length]
      exact not_not.2 (Nat.mod_eq_zero_of_dvd (H.devices kn hkn))
    obtain ⟨rep, hl⟩ := (hloop n kn mask ew hmk (fun i => smooth_pos (hn i).1) hpar).2
      ⟨H.optimizer, by rw [hcs]; exact H.occupation, H.epochs, H.noFault, H.waves n hn mask (hcc ▸ hmk)⟩
    refine ⟨⟨n, rep⟩, ?_⟩
    unfold runAtoms runCrystal runGrid
    simp only [hcr, hs, hmk, hrep]
    rw [if_neg hdv]
    simp only [hl]

/-- C119: a calculation whose input is consistent returns; and unless exactly one plane wave is selected, only such a
calculation does.  Missing: input with a single plane wave and several bands is accepted (`run_one_wave`), and so is a
spin that the bands cannot hold (`run_spin_excess`). -/
theorem run_refuses_partial (L : RunLib) (cfg : RunConfig) {m : ℕ} (a : AseAtoms m) (hcell : a.cell.det ≠ 0)
    (hcut : 0 ≤ cfg.cutoff)
    (hkeep : ∀ opt, L.optimizer = .ok opt → ∀ {ns nk g nb : ℕ} (f : GsParams ns nk g nb → Except PyErr ℝ)
      (p : GsParams ns nk g nb × opt.State), Spec.KeepsShape p.1.occ (opt.step f p).1.occ) :
    ((∃ size ksize, Spec.Consistent (fun w b => b ≤ w) L cfg a size ksize (∑ i, a.numbers i)
        (cfg.spin.getD ((∑ i, a.numbers i) % 2))) → ∃ r, runAtoms L cfg a = .ok r) ∧
    ((∀ size n, Spec.SizesOk cfg.gridSizes size → Spec.LeastGrid size n →
        ∀ mask, createFreqMask cfg ((angstrom2bohr : ℝ) • a.cell) n = .ok mask →
          Fintype.card {k // mask k = true} ≠ 1) →
      (¬ ∃ size ksize, Spec.Consistent (fun w b => b ≤ w) L cfg a size ksize (∑ i, a.numbers i)
        (cfg.spin.getD ((∑ i, a.numbers i) % 2))) → ∃ e, runAtoms L cfg a = .error e) := by
  rw [run_accepted L cfg a hcell hcut hkeep]
  refine ⟨fun ⟨size, ksize, H⟩ => ⟨size, ksize, { H with waves := fun n hn mask hm => Or.inl (H.waves n hn mask hm) }⟩,
    fun hone hno => ?_⟩
  cases hr : runAtoms L cfg a with
  | error e => exact ⟨e, rfl⟩
  | ok r =>
    exfalso
    obtain ⟨size, ksize, H⟩ := (run_accepted L cfg a hcell hcut hkeep).1 ⟨r, hr⟩
    exact hno ⟨size, ksize, { H with waves := fun n hn mask hm =>
      (H.waves n hn mask hm).resolve_right (hone size n H.sizes hn mask hm) }⟩

private theorem orthonormal_card {nb : ℕ} {n : Fin 3 → ℕ} (mask : Idx n → Bool) (v : Fin nb → Idx n → ℂ)
    (ho : ∀ i j, ∑ x, conj (v i x) * v j x = if i = j then 1 else 0)
    (hs : ∀ b x, mask x = false → v b x = 0) : nb ≤ Fintype.card {k // mask k = true} := by
  let V : Matrix {k // mask k = true} (Fin nb) ℂ := fun x b => v b x.1
  have hV : Vᴴ * V = 1 := by
    ext i j
    rw [Matrix.mul_apply, Matrix.one_apply, ← ho i j]
    have h1 : ∑ x, conj (v i x) * v j x = ∑ x ∈ Finset.univ.filter (fun x => mask x = true), conj (v i x) * v j x := by
      rw [Finset.sum_filter]
      refine Finset.sum_congr rfl fun x _ => ?_
      split_ifs with h
      · rfl
      · rw [hs i x (by simpa using h)]
        simp
    rw [h1]
    exact (Finset.sum_subtype (Finset.univ.filter fun x => mask x = true) (by simp)
      fun x => conj (v i x) * v j x).symm
  have h2 : (Vᴴ * V).rank ≤ Fintype.card {k // mask k = true} :=
    (Matrix.rank_mul_le_right _ _).trans (Matrix.rank_le_card_height V)
  rw [hV, Matrix.rank_one, Fintype.card_fin] at h2
  exact h2

/-- By the Pauli principle a state of plane waves holds at most two electrons for each of them. -/
theorem physical_electrons {ns nk nb : ℕ} {n : Fin 3 → ℕ} {mask : Idx n → Bool} {ne spin : ℤ} {restricted : Bool}
    {c : Coef ns nk nb n} {occ : Occ ns nk nb}
    (h : Spec.PhysicalState mask ne spin restricted (1 / nk) c occ) :
    ne ≤ 2 * (Fintype.card {k // mask k = true} : ℤ) := by
  rcases Nat.eq_zero_or_pos nk with hk | hk
  · subst hk
    have := h.electrons
    simp at this
    have h0 : ne = 0 := by exact_mod_cast this.symm
    omega
  · have hns : 0 < ns := by
      rw [h.channels]
      split_ifs <;> norm_num
    have hb := orthonormal_card mask (fun b => c ⟨0, hns⟩ ⟨0, hk⟩ b) (h.orthonormal _ _) (h.selected _ _)
    have h1 : (ne : ℝ) ≤ 2 * nb := by
      rw [← h.electrons]
      calc ∑ s, ∑ k, ∑ b, occ s k b ≤ ∑ _s : Fin ns, ∑ _k : Fin nk, ∑ _b : Fin nb, 1 / nk * Spec.pauli restricted :=
            Finset.sum_le_sum fun s _ => Finset.sum_le_sum fun k _ => Finset.sum_le_sum fun b _ => h.pauli s k b
        _ = 2 * nb := by
            simp only [Finset.sum_const, Finset.card_univ, Fintype.card_fin, nsmul_eq_mul]
            have : (ns : ℝ) * Spec.pauli restricted = 2 := by
              rw [h.channels]
              unfold Spec.pauli
              cases restricted <;> norm_num
            have hk' : (nk : ℝ) ≠ 0 := by positivity
            field_simp
            linear_combination (nb : ℝ) * this
    have h2 : ne ≤ 2 * (nb : ℤ) := by exact_mod_cast h1
    omega

/-- C119, single plane wave: with exactly one selected plane wave the calculation returns for any number of bands.  With
more than two electrons there is nothing that it could describe: no orthonormal orbitals of the selected plane waves hold
the electrons. -/
theorem run_one_wave (L : RunLib) (cfg : RunConfig) {m : ℕ} (a : AseAtoms m) (size ksize : Fin 3 → ℤ) (ne spin : ℤ)
    (hcell : a.cell.det ≠ 0) (hcut : 0 ≤ cfg.cutoff)
    (hkeep : ∀ opt, L.optimizer = .ok opt → ∀ {ns nk g nb : ℕ} (f : GsParams ns nk g nb → Except PyErr ℝ)
      (p : GsParams ns nk g nb × opt.State), Spec.KeepsShape p.1.occ (opt.step f p).1.occ)
    (H : Spec.Consistent (fun w _ => w = 1) L cfg a size ksize ne spin) (hne : 2 < ne) :
    (∃ r, runAtoms L cfg a = .ok r) ∧
    ∀ n, Spec.LeastGrid size n → ∀ mask, createFreqMask cfg ((angstrom2bohr : ℝ) • a.cell) n = .ok mask →
      ∀ (ns nk nb : ℕ) (c : Coef ns nk nb n) (occ : Occ ns nk nb),
        ¬ Spec.PhysicalState mask ne spin cfg.restricted (1 / nk) c occ := by
  obtain rfl := H.electrons
  obtain rfl := H.unpaired
  refine ⟨(run_accepted L cfg a hcell hcut hkeep).2 ⟨size, ksize,
    { H with waves := fun n hn mask hm => Or.inr (H.waves n hn mask hm) }⟩, ?_⟩
  intro n hn mask hm ns nk nb c occ h
  have := physical_electrons h
  have h1 : Fintype.card {k // mask k = true} = 1 := H.waves n hn mask hm
  omega

/-- C119, spin: a spin that the bands cannot hold is not refused.  With two spin channels, `b` bands and more than `b`
electrons of one spin the calculation returns, although no occupation of the bands holds the electrons. -/
theorem run_spin_excess (L : RunLib) (cfg : RunConfig) {m : ℕ} (a : AseAtoms m) (size ksize : Fin 3 → ℤ) (ne spin : ℤ)
    (hcell : a.cell.det ≠ 0) (hcut : 0 ≤ cfg.cutoff)
    (hkeep : ∀ opt, L.optimizer = .ok opt → ∀ {ns nk g nb : ℕ} (f : GsParams ns nk g nb → Except PyErr ℝ)
      (p : GsParams ns nk g nb × opt.State), Spec.KeepsShape p.1.occ (opt.step f p).1.occ)
    (H : Spec.Consistent (fun w b => b ≤ w) L cfg a size ksize ne spin) (hr : cfg.restricted = false)
    (hne : 2 * ((ne.toNat + 1) / 2 + cfg.emptyBands : ℕ) < ne + spin) :
    (∃ r, runAtoms L cfg a = .ok r) ∧
    ∀ n (mask : Idx n → Bool) (ns nk : ℕ) (c : Coef ns nk ((ne.toNat + 1) / 2 + cfg.emptyBands) n) (occ : Occ ns nk _),
        ¬ Spec.PhysicalState mask ne spin cfg.restricted (1 / nk) c occ := by
  obtain rfl := H.electrons
  obtain rfl := H.unpaired
  refine ⟨(run_accepted L cfg a hcell hcut hkeep).2 ⟨size, ksize,
    { H with waves := fun n hn mask hm => Or.inl (H.waves n hn mask hm) }⟩, ?_⟩
  intro n mask ns nk c occ h
  rw [hr] at h
  generalize ((∑ i, a.numbers i).toNat + 1) / 2 + cfg.emptyBands = nb at *
  generalize (∑ i, a.numbers i) = ne at *
  generalize cfg.spin.getD (ne % 2) = spin at *
  obtain rfl : ns = 2 := h.channels
  have h1 := h.electrons
  have h2 := h.polarisation 0 1 rfl rfl
  rw [Fin.sum_univ_two] at h1
  have h3 : ∑ k, ∑ b, occ 0 k b ≤ (nb : ℝ) := by
    calc ∑ k, ∑ b, occ 0 k b ≤ ∑ _k : Fin nk, ∑ _b : Fin nb, 1 / (nk : ℝ) * Spec.pauli false :=
          Finset.sum_le_sum fun k _ => Finset.sum_le_sum fun b _ => h.pauli 0 k b
      _ ≤ nb := by
          simp only [Finset.sum_const, Finset.card_univ, Fintype.card_fin, nsmul_eq_mul, Spec.pauli]
          rcases Nat.eq_zero_or_pos nk with rfl | hk
          · simp
          · have hk' : (nk : ℝ) ≠ 0 := by positivity
            apply le_of_eq
            simp only [Bool.false_eq_true, if_false]
            field_simp
  have h4 : ((ne + spin : ℤ) : ℝ) ≤ ((2 * nb : ℕ) : ℝ) := by
    push_cast
    linarith
  have h5 : ne + spin ≤ ((2 * nb : ℕ) : ℤ) := by exact_mod_cast h4
  push_cast at h5
  omega

/-! ### Witnesses -/

theorem idle_keeps (opt : Optimizer) (h : Except.ok (ε := PyErr) idleOptimizer = .ok opt) {ns nk g nb : ℕ}
    (f : GsParams ns nk g nb → Except PyErr ℝ) (p : GsParams ns nk g nb × opt.State) :
    Spec.KeepsShape p.1.occ (opt.step f p).1.occ := by
  obtain rfl := Except.ok.inj h
  exact keeps_self _

theorem lithium_consistent (xc : XcLib) : Spec.Consistent (fun w b => b ≤ w) (lithiumLib xc) lithiumConfig
    (⟨fun _ => 3, 0, 1⟩ : AseAtoms 1) (fun _ => 4) (fun _ => 2) 3 1 :=
  let H := lithium_admissible xc
  ⟨H.sizes, H.ksizes, H.electrons, H.unpaired, by decide, H.method, Or.inr (Or.inr (Or.inl rfl)), H.waves, H.ewald,
    H.devices, ⟨_, rfl⟩, H.epochs, rfl⟩

/-- `run_accepted` and both halves of `run_refuses_partial` speak of calculations: the lithium atom is accepted, and with
an unknown occupation method it is refused. -/
example (xc : XcLib) : (∃ r, runAtoms (lithiumLib xc) lithiumConfig (⟨fun _ => 3, 0, 1⟩ : AseAtoms 1) = .ok r) ∧
    ∃ e, runAtoms (lithiumLib xc) { lithiumConfig with occupation := "fermi" } (⟨fun _ => 3, 0, 1⟩ : AseAtoms 1)
      = .error e := by
  constructor
  · exact (run_refuses_partial _ lithiumConfig _ (by simp) (by simp [lithiumConfig]) idle_keeps).1
      ⟨_, _, lithium_consistent xc⟩
  · refine (run_refuses_partial _ { lithiumConfig with occupation := "fermi" } _ (by simp)
      (by simp [lithiumConfig]) idle_keeps).2 ?_ ?_
    · intro size n hs hn mask hm
      have h4 : ∀ i, size i = 4 := by
        rcases hs.1 with h | ⟨h, -, -⟩
        · have h : GridArg.vec [4, 4, 4] = .vec [size 0, size 1, size 2] := h
          simp only [GridArg.vec.injEq, List.cons.injEq, and_true] at h
          intro i
          fin_cases i
          · exact h.1.symm
          · exact h.2.1.symm
          · exact h.2.2.symm
        · cases h
      obtain rfl : n = fun _ => 4 := funext fun i => least_eq (k := 4) (by have := hn i; rwa [h4 i] at this) smooth4
      obtain rfl := Except.ok.inj (show Except.ok (cubicMask _) = Except.ok mask from hm)
      decide +kernel
    · rintro ⟨size, ksize, H⟩
      have h := H.occupation
      exact absurd h (by simp)

theorem smooth1 : Spec.Smooth7 1 := ⟨0, 0, 0, 0, rfl⟩

/-- The hypotheses of `run_one_wave` hold for a lithium atom on a grid of one point. -/
theorem lithium_one_wave (xc : XcLib) : Spec.Consistent (fun w _ => w = 1) (lithiumLib xc) { lithiumConfig with gridSizes := .scalar 1 }
    (⟨fun _ => 3, 0, 1⟩ : AseAtoms 1) (fun _ => 1) (fun _ => 2) 3 1 :=
  { lithium_consistent xc with
    sizes := ⟨Or.inr ⟨rfl, rfl, rfl⟩, fun _ => by norm_num⟩
    waves := fun n hn mask hm => by
      obtain rfl : n = fun _ => 1 := funext fun i => least_eq (k := 1) (hn i) smooth1
      obtain rfl := Except.ok.inj (show Except.ok (cubicMask _) = Except.ok mask from hm)
      decide +kernel }

/-- The hypotheses of `run_spin_excess` hold for a lithium atom with spin 7 in four bands. -/
example (xc : XcLib) : Spec.Consistent (fun w b => b ≤ w) (lithiumLib xc) { lithiumConfig with spin := some 7 }
    (⟨fun _ => 3, 0, 1⟩ : AseAtoms 1) (fun _ => 4) (fun _ => 2) 3 7 ∧
    (2 : ℤ) * (((3 : ℤ).toNat + 1) / 2 + lithiumConfig.emptyBands : ℕ) < 3 + 7 :=
  ⟨{ lithium_consistent xc with
      unpaired := rfl
      parity := by decide
      occupation := Or.inr (Or.inr (Or.inl rfl)) }, by decide⟩

end Jrystal
