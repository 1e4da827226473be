import Verif.Props.Driver
import Verif.Props.Convergence

/- The loop of the drivers is the loop of C37, and what follows for the step at which it ends. -/
namespace Jrystal

/-- Along a trajectory whose energies are defined the loop that may raise is the loop of C37. -/
theorem gsLoop_refines {P : Type*} (upd : P → ℝ → P) (energy : P → Except PyErr ℝ) (en : P → ℝ) (temp : ℕ → ℝ)
    (p0 : P) (hen : ∀ i, energy (Spec.trajectory upd temp p0 i) = .ok (en (Spec.trajectory upd temp p0 i))) (k : ℕ) :
    ∀ (i : ℕ) (s : LoopState P), s.params = Spec.trajectory upd temp p0 i → ∀ e : Option ℝ, s.etot = e.map some →
      ∃ e', gsLoop upd energy temp k i s.params s.checker e
          = .ok ((loopFrom upd (fun p => some (en p)) temp k i s).params, e') ∧
        (loopFrom upd (fun p => some (en p)) temp k i s).etot = e'.map some := by
  induction k with
  | zero => exact fun i s _ e he => ⟨e, rfl, he⟩
  | succ k ih =>
    intro i s hs e he
    unfold gsLoop loopFrom
    rw [show energy s.params = .ok (en s.params) by rw [hs, hen]]
    simp only
    by_cases hc : (s.checker.check (some (en s.params))).2 = true
    · rw [if_pos hc, if_pos (show (loopBody upd (fun p => some (en p)) temp s i).converged = true from hc)]
      exact ⟨some (en s.params), rfl, rfl⟩
    · rw [if_neg hc, if_neg (show ¬ (loopBody upd (fun p => some (en p)) temp s i).converged = true from hc)]
      exact ih (i + 1) (loopBody upd (fun p => some (en p)) temp s i)
        (by show upd s.params (temp i) = _; rw [hs]; rfl) (some (en s.params)) rfl

/-- Where a run with defined energies stops and what it reports. -/
theorem gsRun_history {P X : Type*} {n : Fin 3 → ℕ} {Y : Type}
    (dens : P → Except PyErr (Σ S : ℕ, Fin S → Idx n → ℝ)) (total : P → Except PyErr ℝ) (parts : P → Except PyErr Y)
    (ew : ℝ) (upd : P × X → ℝ → P × X) (epoch : ℤ) (smearing : ℝ) (window : ℤ) (th : ℝ) (p0 : P × X) (en : ℕ → ℝ)
    (hen : ∀ i, total (Spec.trajectory upd (temperature smearing epoch) p0 i).1 = .ok (en i)) (rep : GsReport Y n)
    (h : gsRun dens total parts ew upd epoch smearing window th p0 = .ok rep) :
    ∃ j, Spec.StopsAt window th epoch en j ∧ rep.total = en j + ew ∧ rep.repulsion = ew ∧
      parts (Spec.trajectory upd (temperature smearing epoch) p0 (j + 1)).1 = .ok rep.parts ∧
      dens (Spec.trajectory upd (temperature smearing epoch) p0 (j + 1)).1 = .ok rep.density := by
  classical
  let ent : P × X → ℝ := fun p => match total p.1 with | .ok v => v | .error _ => 0
  have hent : ∀ i, ent (Spec.trajectory upd (temperature smearing epoch) p0 i) = en i := fun i => by
    show (match total _ with | .ok v => v | .error _ => 0) = _
    rw [hen i]
  obtain ⟨e', h1, h2⟩ := gsLoop_refines upd (fun p => total p.1) ent (temperature smearing epoch) p0
    (fun i => by rw [hent]; exact hen i) epoch.toNat 0 ⟨p0, none, false, Checker.new window th, 0⟩ rfl none rfl
  change (optimise upd (fun p => some (ent p)) (temperature smearing epoch) epoch window th p0).etot = _ at h2
  change gsLoop _ _ _ _ _ p0 (Checker.new window th) none = .ok
    ((optimise upd (fun p => some (ent p)) (temperature smearing epoch) epoch window th p0).params, e') at h1
  obtain ⟨m, m1, m2, m3, m4, m5, m6⟩ :=
    optimise_spec upd (fun p => some (ent p)) (temperature smearing epoch) epoch window th p0
  have henl : ∀ j, Spec.energies upd (fun p => some (ent p)) (temperature smearing epoch) p0 j
      = (List.range j).map fun l => some (en l) := fun j => by
    unfold Spec.energies
    simp only [hent]
  rw [optimise_energy_partial, m1] at h2
  unfold gsRun at h
  rw [h1, m6] at h
  simp only at h
  cases hd : dens (Spec.trajectory upd (temperature smearing epoch) p0 m).1 with
  | error e => rw [hd] at h; cases h
  | ok d =>
    rw [hd] at h
    simp only at h
    cases hp : parts (Spec.trajectory upd (temperature smearing epoch) p0 m).1 with
    | error e => rw [hp] at h; cases h
    | ok y =>
      rw [hp] at h
      simp only at h
      by_cases hm0 : m = 0
      · rw [if_pos hm0] at h2
        cases e' with
        | none => cases h
        | some v => cases h2
      · obtain ⟨j, rfl⟩ : ∃ j, m = j + 1 := ⟨m - 1, by omega⟩
        rw [if_neg hm0, Nat.add_sub_cancel, hent] at h2
        cases e' with
        | none => cases h2
        | some v =>
          obtain rfl : en j = v := by simpa using h2
          injection h with h
          subst h
          refine ⟨j, ⟨by omega, fun i hi => ?_, ?_⟩, rfl, rfl, hp, hd⟩
          · rw [← henl]
            exact m3 (i + 1) (Nat.succ_pos i) (by omega)
          · rw [← henl]
            cases hc : (optimise upd (fun p => some (ent p)) (temperature smearing epoch) epoch window th
                p0).converged with
            | true => exact Or.inr (m4.1 hc).2
            | false =>
              have := m5 hc
              exact Or.inl (by omega)

end Jrystal
