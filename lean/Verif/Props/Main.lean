import Verif.Model.Main
import Verif.Props.Config

/-
C104: the command line program and the process settings of a calculation.
-/
namespace Jrystal

/-! ### The program -/

/-- C104: the program runs a driver exactly when the logo, the mode, the configuration file and the switch in
it are there; it then hands the driver the configuration of the named file (`config.yaml` by default), and
the driver is the one for mode and switch. -/
theorem mainCall_iff (logo : Bool) (files : String → Option Cfg) (args : MainArgs) (d : Driver) (c : Cfg) :
    mainCall logo files args = .ok (d, c) ↔
      logo = true ∧ (args.mode = none ∨ args.mode = some "energy" ∨ args.mode = some "band") ∧
      ∃ file v, files (args.config.getD "config.yaml") = some file ∧ getConfig (some file) = .ok c ∧
        c.find "use_pseudopotential" = some v ∧
        d = (if args.mode = some "band" then (if v.truthy then .bandNormcons else .bandAllElectrons)
             else (if v.truthy then .energyNormcons else .energyAllElectrons)) := by
  obtain ⟨mode, conf, load⟩ := args
  unfold mainCall
  dsimp only
  cases logo
  · simp
  simp only [Bool.not_true, Bool.false_eq_true, if_false, true_and]
  by_cases hm : mode.getD "energy" ≠ "energy" ∧ mode.getD "energy" ≠ "band"
  · rw [if_pos hm]
    constructor
    · intro h; exact absurd h (by simp)
    · rintro ⟨(rfl | rfl | rfl), -⟩
      · exact absurd rfl hm.1
      · exact absurd rfl hm.1
      · exact absurd rfl hm.2
  · rw [if_neg hm]
    have hmode : mode = none ∨ mode = some "energy" ∨ mode = some "band" := by
      cases mode with
      | none => exact .inl rfl
      | some m =>
        simp only [Option.getD_some, ne_eq, not_and_or, not_not] at hm
        rcases hm with rfl | rfl
        · exact .inr (.inl rfl)
        · exact .inr (.inr rfl)
    cases hf : files (conf.getD "config.yaml") with
    | none => simp
    | some file =>
      dsimp only
      cases hg : getConfig (some file) with
      | error e =>
        simp only [Option.some.injEq, reduceCtorEq, false_iff, not_and, not_exists]
        rintro - f v rfl h
        rw [hg] at h
        exact absurd h (by simp)
      | ok r =>
        dsimp only
        cases hv : r.find "use_pseudopotential" with
        | none =>
          have : mainDispatch mode file = .error .attributeError := by
            unfold mainDispatch
            rw [if_neg hm, hg]
            simp [Cfg.attr, hv]
          rw [this]
          simp only [Option.some.injEq, reduceCtorEq, false_iff, not_and, not_exists]
          rintro - f v rfl h h'
          rw [hg] at h
          rw [← Except.ok.inj h, hv] at h'
          exact absurd h' (by simp)
        | some v =>
          have key := mainDispatch_spec mode file r hg v hv
          have hd : mainDispatch mode file = .ok (if mode = some "band" then
              (if v.truthy then .bandNormcons else .bandAllElectrons)
              else (if v.truthy then .energyNormcons else .energyAllElectrons)) := by
            rcases hmode with rfl | rfl | rfl
            · cases ht : v.truthy
              · simpa using key.2.1 (.inl rfl) ht
              · simpa using key.1 (.inl rfl) ht
            · cases ht : v.truthy
              · simpa using key.2.1 (.inr rfl) ht
              · simpa using key.1 (.inr rfl) ht
            · cases ht : v.truthy
              · simpa using key.2.2.2.1 rfl ht
              · simpa using key.2.2.1 rfl ht
          rw [hd]
          constructor
          · intro h
            have := Except.ok.inj h
            have h1 : _ = d := congrArg Prod.fst this
            have h2 : r = c := congrArg Prod.snd this
            exact ⟨hmode, file, v, rfl, by rw [hg, h2], by rw [← h2]; exact hv, h1.symm⟩
          · rintro ⟨-, f, w, h1, h2, h3, h4⟩
            have e1 : file = f := Option.some.inj h1
            rw [← e1, hg] at h2
            have e2 := Except.ok.inj h2
            rw [← e2, hv] at h3
            have e3 := Option.some.inj h3
            rw [h4, ← e2, ← e3]

/-- The right hand side is met: a file that asks for pseudopotentials, in mode `band`. -/
example : ∃ c, mainCall true
    (fun f => if f = "si.yaml" then
      some [("use_pseudopotential", .bool true), ("band_structure_empty_bands", .int 2)] else none)
    ⟨some "band", some "si.yaml", none⟩ = .ok (.bandNormcons, c) := ⟨_, rfl⟩

/-- C104, refuted: the option `-l`, documented as loading the output of an energy calculation for the band
structure, changes nothing. -/
theorem mainCall_ignores_load (logo : Bool) (files : String → Option Cfg) (mode config load : Option String) :
    mainCall logo files ⟨mode, config, load⟩ = mainCall logo files ⟨mode, config, none⟩ := rfl

/-! ### Process settings -/

private def envAfter (st : ProcState) : String → Option String :=
  setEnviron (setEnviron (setEnviron st.environ "OPENBLAS_NUM_THREADS" "4") "MKL_NUM_THREADS" "4")
    "OMP_NUM_THREADS" "4"

private theorem setEnvParams_eq (config : Cfg) (st : ProcState) (nans verbose x64 : CfgVal)
    (h1 : config.find "jax_debug_nans" = some nans) (h2 : config.find "verbose" = some verbose)
    (h3 : config.find "jax_enable_x64" = some x64) :
    setEnvParams config st =
      ({ environ := envAfter st, debugNans := nans.truthy, x64 := x64.truthy
         verbosity := if verbose.truthy then .info else .warning
         logged := st.logged ++ (if verbose.truthy then
           ["Versbose mode is on.",
            if x64.truthy then "Precision: Double (64 bit)." else "Precision: Single (32 bit)."]
           else ["Versbose mode is off."]) }, .ok ()) := by
  unfold setEnvParams
  simp only [Cfg.attr, h1, h2, h3]
  cases verbose.truthy
  · simp [logWarning, envAfter]
  · cases x64.truthy <;> simp [logInfo, envAfter]

/-- C104: after the settings of a calculation are made without error, the two JAX switches and the log level
are those of its configuration, the three thread variables are 4, every other environment variable is what
it was, and the log grows by the lines of the level: two at level INFO, where the precision is the one in force,
and one otherwise. -/
theorem setEnvParams_spec (config : Cfg) (st st' : ProcState) (h : setEnvParams config st = (st', .ok ())) :
    (∃ v, config.find "jax_debug_nans" = some v ∧ st'.debugNans = v.truthy) ∧
    (∃ v, config.find "jax_enable_x64" = some v ∧ st'.x64 = v.truthy) ∧
    (∃ v, config.find "verbose" = some v ∧ (st'.verbosity = .info ↔ v.truthy = true)) ∧
    (∀ k, st'.environ k =
      if k ∈ ["OPENBLAS_NUM_THREADS", "MKL_NUM_THREADS", "OMP_NUM_THREADS"] then some "4"
      else st.environ k) ∧
    (st'.verbosity = .info → st'.logged = st.logged ++ ["Versbose mode is on.",
      if st'.x64 then "Precision: Double (64 bit)." else "Precision: Single (32 bit)."]) ∧
    (st'.verbosity = .warning → st'.logged = st.logged ++ ["Versbose mode is off."]) := by
  cases h1 : config.find "jax_debug_nans" with
  | none =>
    unfold setEnvParams at h
    simp [Cfg.attr, h1] at h
  | some nans =>
    cases h2 : config.find "verbose" with
    | none =>
      unfold setEnvParams at h
      simp [Cfg.attr, h1, h2] at h
    | some verbose =>
      cases h3 : config.find "jax_enable_x64" with
      | none =>
        unfold setEnvParams at h
        simp only [Cfg.attr, h1, h2, h3] at h
        cases hv : verbose.truthy <;> simp [hv] at h
      | some x64 =>
        rw [setEnvParams_eq config st nans verbose x64 h1 h2 h3] at h
        have e := (congrArg Prod.fst h).symm
        dsimp only at e
        subst e
        refine ⟨⟨_, rfl, rfl⟩, ⟨_, rfl, rfl⟩, ⟨_, rfl, ?_⟩, ?_, ?_, ?_⟩
        · cases verbose.truthy <;> simp
        · intro k
          simp only [envAfter, setEnviron, List.mem_cons, List.not_mem_nil, or_false]
          by_cases a : k = "OMP_NUM_THREADS"
          · simp [a]
          · by_cases b : k = "MKL_NUM_THREADS"
            · simp [b]
            · by_cases c : k = "OPENBLAS_NUM_THREADS"
              · simp [c]
              · simp [a, b, c]
        · intro hv
          cases ht : verbose.truthy
          · rw [ht] at hv; exact absurd hv (by simp)
          · simp
        · intro hv
          cases ht : verbose.truthy
          · simp
          · rw [ht] at hv; exact absurd hv (by simp)

/-- The hypothesis is met by the default configuration, in any process. -/
example (st : ProcState) : ∃ st', setEnvParams defaultConfig st = (st', .ok ()) :=
  ⟨_, setEnvParams_eq _ st (.bool false) (.bool true) (.bool true) rfl rfl rfl⟩

/-- C104: the settings of an earlier calculation in the same process do not leak into a later one: after the
later one has made its settings, switches, log level and environment are the same as without the earlier
one, even if the earlier one failed on the way. -/
theorem setEnvParams_no_leak (first second : Cfg) (st s1 s2 : ProcState)
    (h1 : setEnvParams second (setEnvParams first st).1 = (s1, .ok ()))
    (h2 : setEnvParams second st = (s2, .ok ())) :
    s1.environ = s2.environ ∧ s1.debugNans = s2.debugNans ∧ s1.x64 = s2.x64 ∧ s1.verbosity = s2.verbosity := by
  have a := setEnvParams_spec _ _ _ h1
  have b := setEnvParams_spec _ _ _ h2
  have henv : ∀ k, k ∉ ["OPENBLAS_NUM_THREADS", "MKL_NUM_THREADS", "OMP_NUM_THREADS"] →
      (setEnvParams first st).1.environ k = st.environ k := by
    intro k hk
    have hk' : envAfter st k = st.environ k := by
      simp only [List.mem_cons, List.not_mem_nil, or_false, not_or] at hk
      simp [envAfter, setEnviron, hk.1, hk.2.1, hk.2.2]
    have hall : (setEnvParams first st).1.environ = envAfter st := by
      unfold setEnvParams
      dsimp only
      cases first.attr "jax_debug_nans" with
      | error e => rfl
      | ok nans =>
        dsimp only
        cases first.attr "verbose" with
        | error e => rfl
        | ok verbose =>
          dsimp only
          cases verbose.truthy <;> cases first.attr "jax_enable_x64" with
          | error e => rfl
          | ok x => simp [logInfo, logWarning, envAfter]; try (cases x.truthy <;> rfl)
    rw [hall, hk']
  refine ⟨?_, ?_, ?_, ?_⟩
  · funext k
    rw [a.2.2.2.1 k, b.2.2.2.1 k]
    split_ifs with hk
    · rfl
    · exact henv k hk
  · obtain ⟨v, hv, e⟩ := a.1
    obtain ⟨w, hw, e'⟩ := b.1
    rw [hv] at hw
    rw [e, e', Option.some.inj hw]
  · obtain ⟨v, hv, e⟩ := a.2.1
    obtain ⟨w, hw, e'⟩ := b.2.1
    rw [hv] at hw
    rw [e, e', Option.some.inj hw]
  · obtain ⟨v, hv, e⟩ := a.2.2.1
    obtain ⟨w, hw, e'⟩ := b.2.2.1
    rw [hv] at hw
    have := e.trans ((by rw [Option.some.inj hw] : v.truthy = true ↔ w.truthy = true).trans e'.symm)
    cases h3 : s1.verbosity <;> cases h4 : s2.verbosity <;> rw [h3, h4] at this <;> simp_all

/-- C104: settings fail exactly when the configuration lacks one of the three switches, with
`AttributeError`. -/
theorem setEnvParams_error_iff (config : Cfg) (st : ProcState) (e : PyErr) :
    (setEnvParams config st).2 = .error e ↔
      e = .attributeError ∧ (config.find "jax_debug_nans" = none ∨ config.find "verbose" = none ∨
        config.find "jax_enable_x64" = none) := by
  cases h1 : config.find "jax_debug_nans" with
  | none =>
    unfold setEnvParams
    simp [Cfg.attr, h1, eq_comm]
  | some nans =>
    cases h2 : config.find "verbose" with
    | none =>
      unfold setEnvParams
      simp [Cfg.attr, h1, h2, eq_comm]
    | some verbose =>
      cases h3 : config.find "jax_enable_x64" with
      | none =>
        unfold setEnvParams
        simp only [Cfg.attr, h1, h2, h3]
        cases verbose.truthy <;> simp [eq_comm]
      | some x64 =>
        rw [setEnvParams_eq config st nans verbose x64 h1 h2 h3]
        simp

end Jrystal
