import Verif.Model.Convergence
import Verif.Spec.Convergence
import Mathlib.Tactic.NormNum
import Mathlib.Tactic.Linarith
import Mathlib.Tactic.Positivity
import Mathlib.Tactic.Ring

/- C36–C38: convergence checker, optimisation loop, temperature schedule. -/
namespace Jrystal

/-! ### C36 -/

/-- Values passed to `check` after the last `reset` of a history of calls. -/
def Spec.sinceReset : List CheckOp → List FVal :=
  List.foldl (fun acc op => match op with
    | .check v => acc ++ [v]
    | .reset => []) []

/-- Invariant: the stored history is the last `w` submitted values. -/
private def Inv (w : ℤ) (t : ℝ) (c : Checker) (sub : List FVal) : Prop :=
  c.windowSize = w ∧ c.threshold = t ∧ c.history = sub.drop (sub.length - w.toNat)

private theorem inv_check {w : ℤ} {t : ℝ} {c : Checker} {sub : List FVal} (h : Inv w t c sub)
    (v : FVal) : Inv w t (c.check v).1 (sub ++ [v]) := by
  obtain ⟨h1, h2, h3⟩ := h
  have hh : (c.check v).1 = ⟨c.windowSize, c.threshold, c.push v⟩ := by
    unfold Checker.check
    simp only
    generalize c.push v = h
    split_ifs <;> rfl
  rw [hh]
  refine ⟨h1, h2, ?_⟩
  unfold Checker.push
  simp only
  rw [h1, h3]
  by_cases hw : w ≤ 0
  · have hw0 : w.toNat = 0 := by omega
    simp only [hw0, Nat.sub_zero, List.drop_length, List.nil_append, List.length_singleton]
    rw [if_pos (by omega)]
    simp
  · split_ifs with hl
    · simp only [List.length_append, List.length_drop, List.length_singleton] at hl
      have hge : w.toNat ≤ sub.length := by omega
      rw [← List.drop_one, List.length_append, List.length_singleton,
        show sub.length + 1 - w.toNat = (sub.length - w.toNat) + 1 by omega]
      rw [← List.drop_append_of_le_length (by omega), List.drop_drop]
    · simp only [List.length_append, List.length_drop, List.length_singleton] at hl
      rw [List.length_append, List.length_singleton,
        show sub.length - w.toNat = 0 by omega, show sub.length + 1 - w.toNat = 0 by omega]
      simp

private theorem inv_run (w : ℤ) (t : ℝ) (ops : List CheckOp) :
    Inv w t ((Checker.new w t).run ops) (Spec.sinceReset ops) := by
  unfold Checker.run Spec.sinceReset
  have : ∀ (ops : List CheckOp) (c : Checker) (sub : List FVal), Inv w t c sub →
      Inv w t (ops.foldl Checker.step c) (ops.foldl (fun acc op => match op with
        | .check v => acc ++ [v]
        | .reset => []) sub) := by
    intro ops
    induction ops with
    | nil => intro c sub h; exact h
    | cons op ops ih =>
      intro c sub h
      rw [List.foldl_cons, List.foldl_cons]
      cases op with
      | check v => exact ih _ _ (inv_check h v)
      | reset => exact ih _ _ ⟨h.1, h.2.1, by simp [Checker.step, Checker.reset]⟩
  exact this ops _ _ ⟨rfl, rfl, by simp [Checker.new]⟩

private theorem allFinite_eq_some (h : List FVal) (xs : List ℝ) :
    allFinite h = some xs ↔ h = xs.map some := by
  induction h generalizing xs with
  | nil => cases xs <;> simp [allFinite]
  | cons a l ih =>
    cases a with
    | none => cases xs <;> simp [allFinite]
    | some a =>
      cases xs with
      | nil => simp [allFinite]
      | cons x xs =>
        simp only [allFinite, Option.map_eq_some_iff, List.cons.injEq, List.map_cons,
          Option.some.injEq]
        constructor
        · rintro ⟨ys, h1, h2, h3⟩
          exact ⟨h2, by rw [← h3]; exact (ih ys).1 h1⟩
        · rintro ⟨h1, h2⟩
          exact ⟨xs, (ih xs).2 h2, h1, rfl⟩

private theorem fltLt_std (h : List FVal) (t : ℝ) :
    fltLt (npStd h) t ↔ ∃ xs : List ℝ, 0 < xs.length ∧ h = xs.map some ∧
      Real.sqrt (Spec.variance xs) < t := by
  unfold npStd
  cases hm : allFinite h with
  | none =>
    simp only [fltLt, false_iff]
    rintro ⟨xs, -, he, -⟩
    rw [(allFinite_eq_some h xs).2 he] at hm
    cases hm
  | some xs =>
    have he := (allFinite_eq_some h xs).1 hm
    simp only
    by_cases h0 : xs.length = 0
    · rw [if_pos h0]
      simp only [fltLt, false_iff]
      rintro ⟨ys, hy, he', -⟩
      have : xs.length = ys.length := by
        have := congrArg List.length (he.symm.trans he'); simpa using this
      omega
    · rw [if_neg h0]
      simp only [fltLt]
      have hv : Real.sqrt ((xs.map fun x => (x - xs.sum / xs.length) * (x - xs.sum / xs.length)).sum
          / xs.length) = Real.sqrt (Spec.variance xs) := by
        unfold Spec.variance
        simp only [sq]
      rw [hv]
      constructor
      · intro hlt; exact ⟨xs, by omega, he, hlt⟩
      · rintro ⟨ys, -, he', hlt⟩
        have : xs = ys := by
          have := he.symm.trans he'
          exact (List.map_injective_iff.2 (Option.some_injective _)) this
        rw [this]; exact hlt

/-- C36: after any history of `check` and `reset` calls, `check(v)` returns `True` exactly when the
values submitted since the last reset, including `v`, end in a quiet window. -/
theorem check_iff (w : ℤ) (t : ℝ) (ops : List CheckOp) (v : FVal) :
    (((Checker.new w t).run ops).check v).2 = true ↔
      Spec.Quiet w t (Spec.sinceReset (ops ++ [.check v])) := by
  have hsub : Spec.sinceReset (ops ++ [.check v]) = Spec.sinceReset ops ++ [v] := by
    unfold Spec.sinceReset; rw [List.foldl_append]; rfl
  rw [hsub]
  have hi := inv_run w t ops
  have hi' := inv_check hi v
  generalize (Checker.new w t).run ops = c at hi hi'
  generalize Spec.sinceReset ops ++ [v] = sub at hi'
  obtain ⟨h1, h2, -⟩ := hi
  obtain ⟨-, -, h3⟩ := hi'
  have hres : (c.check v).2 = true ↔
      ¬ (((c.check v).1.history.length : ℤ) < w) ∧ fltLt (npStd (c.check v).1.history) t := by
    subst h1 h2
    unfold Checker.check
    simp only
    generalize c.push v = h
    split_ifs with ha hb
    · simp [ha]
    · simp only [true_iff]; exact ⟨ha, hb⟩
    · simp only [false_iff]; exact fun hx => hb hx.2
  rw [hres, h3, fltLt_std]
  unfold Spec.Quiet
  constructor
  · rintro ⟨hl, xs, h0, he, hs⟩
    refine ⟨xs, h0, ?_, ?_, hs⟩
    · have := congrArg List.length he
      rw [List.length_drop, List.length_map] at this
      rw [List.length_drop] at hl
      omega
    · rw [← he]; exact List.drop_suffix _ _
  · rintro ⟨xs, h0, hw, hsuf, hs⟩
    have hlen := hsuf.length_le
    rw [List.length_map] at hlen
    refine ⟨?_, xs, h0, ?_, hs⟩
    · rw [List.length_drop]; omega
    · have := List.suffix_iff_eq_drop.1 hsuf
      rw [List.length_map] at this
      rw [this, show w.toNat = xs.length by omega]

/-- C36: the stored history never exceeds `window_size` values, and it is exactly the most recent
submitted values. -/
theorem checker_history (w : ℤ) (t : ℝ) (ops : List CheckOp) :
    (((Checker.new w t).run ops).history.length : ℤ) ≤ max w 0 ∧
      ((Checker.new w t).run ops).history <:+ Spec.sinceReset ops ∧
      ((Checker.new w t).run ops).history.length = min w.toNat (Spec.sinceReset ops).length := by
  obtain ⟨-, -, h⟩ := inv_run w t ops
  rw [h]
  refine ⟨?_, List.drop_suffix _ _, ?_⟩
  · rw [List.length_drop]; omega
  · rw [List.length_drop]; omega

/-- C36: a checker is fully restored by `reset`. -/
theorem reset_restores (w : ℤ) (t : ℝ) (ops : List CheckOp) :
    ((Checker.new w t).run ops).reset = Checker.new w t := by
  obtain ⟨h1, h2, -⟩ := inv_run w t ops
  unfold Checker.reset
  rw [h1, h2]; rfl

/-- C36: with a non-positive threshold, or a non-positive window, it never fires. -/
theorem check_never (w : ℤ) (t : ℝ) (h : t ≤ 0 ∨ w ≤ 0) (ops : List CheckOp) (v : FVal) :
    (((Checker.new w t).run ops).check v).2 = false := by
  rw [← Bool.not_eq_true, check_iff]
  rintro ⟨xs, h0, hw, -, hs⟩
  rcases h with h | h
  · exact absurd (lt_of_lt_of_le hs h) (not_lt.2 (Real.sqrt_nonneg _))
  · omega

/-- Witness: two equal energies after a reset converge for window 2, and different ones do not. -/
example : (((Checker.new 2 1e-5).run [.check (some 7), .reset, .check (some 1)]).check (some 1)).2
    = true := by
  rw [check_iff]
  refine ⟨[1, 1], by simp, by simp, ?_, ?_⟩
  · simp [Spec.sinceReset]
  · simp only [Spec.variance]; norm_num

/-! ### C37 -/

/-- The parameters after `k` updates if no convergence test interfered. -/
def Spec.trajectory {P : Type*} (grad : P → ℝ → P) (temp : ℕ → ℝ) (p0 : P) : ℕ → P
  | 0 => p0
  | k + 1 => grad (Spec.trajectory grad temp p0 k) (temp k)

/-- The energies evaluated in the first `k` steps. -/
def Spec.energies {P : Type*} (grad : P → ℝ → P) (energy : P → FVal) (temp : ℕ → ℝ) (p0 : P)
    (k : ℕ) : List FVal :=
  (List.range k).map fun i => energy (Spec.trajectory grad temp p0 i)

private structure LInv {P : Type*} (grad : P → ℝ → P) (energy : P → FVal) (temp : ℕ → ℝ) (p0 : P)
    (w : ℤ) (th : ℝ) (k : ℕ) (s : LoopState P) : Prop where
  params : s.params = Spec.trajectory grad temp p0 k
  updates : s.updates = k
  etot : s.etot = if k = 0 then none else some (energy (Spec.trajectory grad temp p0 (k - 1)))
  checker : s.checker = (Checker.new w th).run
    ((Spec.energies grad energy temp p0 k).map CheckOp.check)

private theorem sinceReset_checks (l : List FVal) : Spec.sinceReset (l.map CheckOp.check) = l := by
  unfold Spec.sinceReset
  have : ∀ (l acc : List FVal), (l.map CheckOp.check).foldl (fun acc op => match op with
      | .check v => acc ++ [v]
      | .reset => []) acc = acc ++ l := by
    intro l
    induction l with
    | nil => intro acc; simp
    | cons a l ih => intro acc; rw [List.map_cons, List.foldl_cons, ih]; simp
  simpa using this l []

private theorem energies_succ {P : Type*} (grad : P → ℝ → P) (energy : P → FVal) (temp : ℕ → ℝ)
    (p0 : P) (k : ℕ) : Spec.energies grad energy temp p0 (k + 1)
      = Spec.energies grad energy temp p0 k ++ [energy (Spec.trajectory grad temp p0 k)] := by
  unfold Spec.energies; rw [List.range_succ]; simp

private theorem body_inv {P : Type*} {grad : P → ℝ → P} {energy : P → FVal} {temp : ℕ → ℝ} {p0 : P}
    {w : ℤ} {th : ℝ} {k : ℕ} {s : LoopState P} (h : LInv grad energy temp p0 w th k s) :
    LInv grad energy temp p0 w th (k + 1) (loopBody grad energy temp s k) ∧
    ((loopBody grad energy temp s k).converged = true ↔
      Spec.Quiet w th (Spec.energies grad energy temp p0 (k + 1))) := by
  have hc : (loopBody grad energy temp s k).converged = true ↔
      Spec.Quiet w th (Spec.energies grad energy temp p0 (k + 1)) := by
    show (s.checker.check (energy s.params)).2 = true ↔ _
    rw [h.checker, check_iff, h.params, ← List.map_singleton, ← List.map_append, ← energies_succ,
      sinceReset_checks]
  refine ⟨⟨?_, ?_, ?_, ?_⟩, hc⟩
  · show grad s.params (temp k) = _
    rw [h.params]; rfl
  · show s.updates + 1 = _
    rw [h.updates]
  · show some (energy s.params) = _
    rw [h.params, if_neg (Nat.succ_ne_zero k), Nat.add_sub_cancel]
  · show (s.checker.check (energy s.params)).1 = _
    rw [energies_succ, List.map_append]
    unfold Checker.run
    rw [List.foldl_append, h.checker, h.params]
    rfl

private theorem loop_spec {P : Type*} {grad : P → ℝ → P} {energy : P → FVal} {temp : ℕ → ℝ} {p0 : P}
    {w : ℤ} {th : ℝ} (n : ℕ) : ∀ (k : ℕ) (s : LoopState P), LInv grad energy temp p0 w th k s →
    s.converged = false → (∀ j, j ≤ k → 0 < j → ¬ Spec.Quiet w th (Spec.energies grad energy temp p0 j)) →
    ∃ m, LInv grad energy temp p0 w th m (loopFrom grad energy temp n k s) ∧ m ≤ k + n ∧
      (∀ j, j < m → 0 < j → ¬ Spec.Quiet w th (Spec.energies grad energy temp p0 j)) ∧
      ((loopFrom grad energy temp n k s).converged = true ↔
        0 < m ∧ Spec.Quiet w th (Spec.energies grad energy temp p0 m)) ∧
      ((loopFrom grad energy temp n k s).converged = false → m = k + n) := by
  induction n with
  | zero =>
    intro k s h hc hq
    refine ⟨k, h, by omega, fun j hj => hq j hj.le, ?_, fun _ => by omega⟩
    show s.converged = true ↔ _
    rw [hc]
    constructor
    · intro hh; cases hh
    · rintro ⟨h0, hh⟩; exact absurd hh (hq k le_rfl h0)
  | succ n ih =>
    intro k s h hc hq
    obtain ⟨hb, hbc⟩ := body_inv h
    by_cases hcv : (loopBody grad energy temp s k).converged = true
    · have e : loopFrom grad energy temp (n + 1) k s = loopBody grad energy temp s k := by
        show (if (loopBody grad energy temp s k).converged then _ else _) = _
        rw [if_pos hcv]
      rw [e]
      refine ⟨k + 1, hb, by omega, fun j hj h0 => hq j (by omega) h0, ?_, ?_⟩
      · rw [hbc]; simp
      · intro hf; rw [hcv] at hf; cases hf
    · have e : loopFrom grad energy temp (n + 1) k s
          = loopFrom grad energy temp n (k + 1) (loopBody grad energy temp s k) := by
        show (if (loopBody grad energy temp s k).converged then _ else _) = _
        rw [if_neg hcv]
      rw [e]
      obtain ⟨m, m1, m2, m3, m4, m5⟩ := ih (k + 1) _ hb (by simpa using hcv) (by
        intro j hj h0
        rcases Nat.lt_or_ge k j with hlt | hge
        · have : j = k + 1 := by omega
          rw [this, ← hbc]; exact hcv
        · exact hq j hge h0)
      exact ⟨m, m1, by omega, m3, m4, fun hh => by have := m5 hh; omega⟩

/-- C37: for every update rule, energy function, temperature schedule, epoch count, window,
threshold and start, the loop makes exactly `m` updates, where `m` is the first step at which the
energies evaluated so far end in a quiet window, or `epoch` if there is none; the flag `converged`
tells which; the returned parameters are the `m`-th iterate; and the checker is in the state reached
by submitting the evaluated energies in order. -/
theorem optimise_spec {P : Type*} (grad : P → ℝ → P) (energy : P → FVal) (temp : ℕ → ℝ)
    (epoch w : ℤ) (th : ℝ) (p0 : P) :
    ∃ m : ℕ, (optimise grad energy temp epoch w th p0).updates = m ∧ m ≤ epoch.toNat ∧
      (∀ j, 0 < j → j < m → ¬ Spec.Quiet w th (Spec.energies grad energy temp p0 j)) ∧
      ((optimise grad energy temp epoch w th p0).converged = true ↔
        0 < m ∧ Spec.Quiet w th (Spec.energies grad energy temp p0 m)) ∧
      ((optimise grad energy temp epoch w th p0).converged = false → m = epoch.toNat) ∧
      (optimise grad energy temp epoch w th p0).params = Spec.trajectory grad temp p0 m := by
  obtain ⟨m, h1, h2, h3, h4, h5⟩ := loop_spec (grad := grad) (energy := energy) (temp := temp)
    (p0 := p0) (w := w) (th := th) epoch.toNat 0 ⟨p0, none, false, Checker.new w th, 0⟩
    ⟨rfl, rfl, rfl, rfl⟩ rfl (fun j hj h0 => by omega)
  refine ⟨m, h1.updates, by omega, fun j h0 hj => h3 j hj h0, h4, fun h => ?_, h1.params⟩
  have := h5 h; omega

/-- C37 (part): the reported energy is the energy of the last iterate but one.  Missing: that it is
the energy of the returned parameters, which is false (`optimise_energy_stale`). -/
theorem optimise_energy_partial {P : Type*} (grad : P → ℝ → P) (energy : P → FVal) (temp : ℕ → ℝ)
    (epoch w : ℤ) (th : ℝ) (p0 : P) :
    (optimise grad energy temp epoch w th p0).etot =
      if (optimise grad energy temp epoch w th p0).updates = 0 then none
      else some (energy (Spec.trajectory grad temp p0
        ((optimise grad energy temp epoch w th p0).updates - 1))) := by
  obtain ⟨m, h1, -⟩ := loop_spec (grad := grad) (energy := energy) (temp := temp)
    (p0 := p0) (w := w) (th := th) epoch.toNat 0 ⟨p0, none, false, Checker.new w th, 0⟩
    ⟨rfl, rfl, rfl, rfl⟩ rfl (fun j hj h0 => by omega)
  have hu : (optimise grad energy temp epoch w th p0).updates = m := h1.updates
  rw [hu]; exact h1.etot

/-- C37 (part): if the last update left the parameters unchanged, the reported energy is that of the
returned parameters. -/
theorem optimise_energy_fixed_partial {P : Type*} (grad : P → ℝ → P) (energy : P → FVal)
    (temp : ℕ → ℝ) (epoch w : ℤ) (th : ℝ) (p0 : P)
    (h0 : 0 < (optimise grad energy temp epoch w th p0).updates)
    (hfix : ∀ t, grad (Spec.trajectory grad temp p0
      ((optimise grad energy temp epoch w th p0).updates - 1)) t
      = Spec.trajectory grad temp p0 ((optimise grad energy temp epoch w th p0).updates - 1)) :
    (optimise grad energy temp epoch w th p0).etot =
      some (energy (optimise grad energy temp epoch w th p0).params) := by
  obtain ⟨m, h1, -, -, -, -, hp⟩ := optimise_spec grad energy temp epoch w th p0
  rw [optimise_energy_partial, if_neg h0.ne', hp, h1]
  rw [h1] at h0 hfix
  obtain ⟨k, rfl⟩ : ∃ k, m = k + 1 := ⟨m - 1, by omega⟩
  rw [Nat.add_sub_cancel] at hfix ⊢
  show _ = some (energy (grad _ _))
  rw [hfix]

/-- C37 is false: gradient descent on `x²` with step 1/4 from 1, one epoch, reports energy 1 while
the returned parameter 1/2 has energy 1/4. -/
theorem optimise_energy_stale :
    (optimise (fun (x : ℝ) _ => x - 1 / 4 * (2 * x)) (fun x => some (x ^ 2)) (fun _ => 0) 1 20 1e-5
      1).etot = some (some 1) ∧
    (optimise (fun (x : ℝ) _ => x - 1 / 4 * (2 * x)) (fun x => some (x ^ 2)) (fun _ => 0) 1 20 1e-5
      1).params = 1 / 2 := by
  obtain ⟨m, h1, h2, -, h4, h5, hp⟩ := optimise_spec (fun (x : ℝ) _ => x - 1 / 4 * (2 * x))
    (fun x => some (x ^ 2)) (fun _ => 0) 1 20 1e-5 1
  have hm : m = 1 := by
    cases hc : (optimise (fun (x : ℝ) _ => x - 1 / 4 * (2 * x)) (fun x => some (x ^ 2)) (fun _ => 0)
      1 20 1e-5 1).converged with
    | true =>
      have := (h4.1 hc).1
      have h2' : m ≤ 1 := h2
      omega
    | false => exact h5 hc
  subst hm
  rw [optimise_energy_partial, h1, hp]
  constructor
  · norm_num [Spec.trajectory]
  · norm_num [Spec.trajectory]

/-- C37 is false for `epoch ≤ 0`: the energy that the driver logs afterwards is unbound. -/
theorem optimise_no_epoch {P : Type*} (grad : P → ℝ → P) (energy : P → FVal) (temp : ℕ → ℝ)
    (epoch w : ℤ) (h : epoch ≤ 0) (th : ℝ) (p0 : P) :
    (optimise grad energy temp epoch w th p0).etot = none ∧
      (optimise grad energy temp epoch w th p0).params = p0 := by
  have : epoch.toNat = 0 := by omega
  unfold optimise
  rw [this]
  exact ⟨rfl, rfl⟩

/-- Witness: a constant energy with window 3 stops after exactly 3 of 10 epochs. -/
example : (optimise (fun (x : ℝ) _ => x + 1) (fun _ => some 5) (fun _ => 0) 10 3 1e-5 0).updates = 3 := by
  obtain ⟨m, h1, h2, h3, h4, h5, -⟩ := optimise_spec (fun (x : ℝ) _ => x + 1) (fun _ => some 5)
    (fun _ => 0) 10 3 1e-5 0
  rw [h1]
  have hq : ∀ k : ℕ, Spec.Quiet 3 1e-5 (Spec.energies (fun (x : ℝ) _ => x + 1) (fun _ => some 5)
      (fun _ => 0) 0 k) ↔ 3 ≤ k := by
    intro k
    have he : Spec.energies (fun (x : ℝ) _ => x + 1) (fun _ => some 5) (fun _ => 0) 0 k
        = List.replicate k (some 5) := by
      unfold Spec.energies; simp
    rw [he]
    constructor
    · rintro ⟨xs, -, hl, hs, -⟩
      have := hs.length_le
      simp at this; omega
    · intro hk
      refine ⟨[5, 5, 5], by simp, by simp, ?_, ?_⟩
      · refine ⟨List.replicate (k - 3) (some 5), ?_⟩
        show _ ++ List.replicate 3 (some 5) = _
        rw [← List.replicate_add]; congr 1; omega
      · simp only [Spec.variance]; norm_num
  cases hc : (optimise (fun (x : ℝ) _ => x + 1) (fun _ => some 5) (fun _ => 0) 10 3 1e-5 0).converged with
  | true =>
    have h6 := (hq m).1 (h4.1 hc).2
    by_contra hne
    exact h3 3 (by omega) (by omega) ((hq 3).2 le_rfl)
  | false =>
    have h6 : m = 10 := h5 hc
    exact absurd ((hq 3).2 le_rfl) (h3 3 (by omega) (by omega))

/-! ### C38 -/

private theorem decay_eq {sm : ℝ} (h0 : 0 < sm) (h1 : sm < 100) {epoch : ℤ} (he : 2 ≤ epoch) (i : ℕ) :
    temperature sm epoch i = max (100 * (sm / 100) ^ ((i : ℝ) / ((epoch / 2 : ℤ) : ℝ))) sm := by
  have hr : sm / 100 < 1 := by linarith
  have hr0 : sm / 100 ≠ 0 := by positivity
  have hs : ¬ (epoch / 2 ≤ 0) := by omega
  unfold temperature exponentialDecay
  rw [if_pos h0, if_neg hs, if_neg hr0]
  simp only
  rw [if_pos hr]
  by_cases hi : (i : ℤ) ≤ 0
  · have : i = 0 := by omega
    rw [if_pos hi, this]; simp
  · rw [if_neg hi]

/-- C38 (part): for `0 < smearing < 100` and at least two epochs the temperature never increases,
stays between `smearing` and 100, starts at 100 and equals `smearing` from step `epoch // 2` on.
Missing: fewer than two epochs (`temperature_short`) and `smearing > 100` (`temperature_hot`). -/
theorem temperature_anneals_partial (sm : ℝ) (h0 : 0 < sm) (h1 : sm < 100) (epoch : ℤ)
    (he : 2 ≤ epoch) :
    (∀ i j : ℕ, i ≤ j → temperature sm epoch j ≤ temperature sm epoch i) ∧
    (∀ i : ℕ, sm ≤ temperature sm epoch i ∧ temperature sm epoch i ≤ 100) ∧
    temperature sm epoch 0 = 100 ∧
    (∀ i : ℕ, epoch / 2 ≤ i → temperature sm epoch i = sm) := by
  have hr0 : 0 < sm / 100 := by positivity
  have hr1 : sm / 100 ≤ 1 := by linarith
  have hs : (0 : ℝ) < ((epoch / 2 : ℤ) : ℝ) := by
    have : 0 < epoch / 2 := by omega
    exact_mod_cast this
  have hmono : ∀ i j : ℕ, i ≤ j → temperature sm epoch j ≤ temperature sm epoch i := by
    intro i j hij
    rw [decay_eq h0 h1 he, decay_eq h0 h1 he]
    refine max_le_max ?_ le_rfl
    refine mul_le_mul_of_nonneg_left ?_ (by norm_num)
    refine Real.rpow_le_rpow_of_exponent_ge hr0 hr1 ?_
    exact div_le_div_of_nonneg_right (by exact_mod_cast hij) hs.le
  have hz : temperature sm epoch 0 = 100 := by
    rw [decay_eq h0 h1 he]; simp; linarith
  refine ⟨hmono, fun i => ⟨?_, ?_⟩, hz, fun i hi => ?_⟩
  · rw [decay_eq h0 h1 he]; exact le_max_right _ _
  · rw [← hz]; exact hmono 0 i (Nat.zero_le i)
  · rw [decay_eq h0 h1 he]
    refine max_eq_right ?_
    have hge : (1 : ℝ) ≤ (i : ℝ) / ((epoch / 2 : ℤ) : ℝ) := by
      rw [le_div_iff₀ hs, one_mul]
      have : (epoch / 2 : ℤ) ≤ (i : ℤ) := hi
      exact_mod_cast this
    have := Real.rpow_le_rpow_of_exponent_ge hr0 hr1 hge
    rw [Real.rpow_one] at this
    calc 100 * (sm / 100) ^ ((i : ℝ) / ((epoch / 2 : ℤ) : ℝ)) ≤ 100 * (sm / 100) :=
          mul_le_mul_of_nonneg_left this (by norm_num)
      _ = sm := by ring

/-- C38: no smearing, no temperature. -/
theorem temperature_zero (sm : ℝ) (h : sm ≤ 0) (epoch : ℤ) (i : ℕ) : temperature sm epoch i = 0 := by
  unfold temperature; rw [if_neg (not_lt.2 h)]

/-- C38: before the target is reached the decay is geometric with ratio
`(smearing/100)^(1/(epoch // 2))`. -/
theorem temperature_geometric (sm : ℝ) (h0 : 0 < sm) (h1 : sm < 100) (epoch : ℤ) (he : 2 ≤ epoch)
    (i : ℕ) (hi : (i : ℤ) + 1 ≤ epoch / 2) :
    temperature sm epoch (i + 1)
      = temperature sm epoch i * (sm / 100) ^ (1 / ((epoch / 2 : ℤ) : ℝ)) := by
  have hr0 : 0 < sm / 100 := by positivity
  have hr1 : sm / 100 ≤ 1 := by linarith
  have hs : (0 : ℝ) < ((epoch / 2 : ℤ) : ℝ) := by
    have : 0 < epoch / 2 := by omega
    exact_mod_cast this
  have key : ∀ j : ℕ, (j : ℤ) ≤ epoch / 2 →
      temperature sm epoch j = 100 * (sm / 100) ^ ((j : ℝ) / ((epoch / 2 : ℤ) : ℝ)) := by
    intro j hj
    rw [decay_eq h0 h1 he]
    refine max_eq_left ?_
    have hle : (j : ℝ) / ((epoch / 2 : ℤ) : ℝ) ≤ 1 := by
      rw [div_le_one hs]
      have : (j : ℤ) ≤ (epoch / 2 : ℤ) := hj
      exact_mod_cast this
    have := Real.rpow_le_rpow_of_exponent_ge hr0 hr1 hle
    rw [Real.rpow_one] at this
    calc sm = 100 * (sm / 100) := by ring
      _ ≤ _ := mul_le_mul_of_nonneg_left this (by norm_num)
  rw [key (i + 1) (by push_cast; omega), key i (by omega), mul_assoc, ← Real.rpow_add hr0]
  congr 2
  push_cast; ring

/-- C38 is false for a single epoch: the temperature stays at 100. -/
theorem temperature_short (sm : ℝ) (h0 : 0 < sm) (epoch : ℤ) (he : epoch ≤ 1) (i : ℕ) :
    temperature sm epoch i = 100 := by
  unfold temperature exponentialDecay
  rw [if_pos h0, if_pos (by omega)]

/-- C38 is false for `smearing > 100`: the temperature rises (strictly, between step 0 and the end)
instead of falling. -/
theorem temperature_hot (sm : ℝ) (h : 100 < sm) (epoch : ℤ) (he : 2 ≤ epoch) :
    temperature sm epoch 0 = 100 ∧ ∀ i : ℕ, epoch / 2 ≤ i → temperature sm epoch i = sm := by
  have hr : ¬ (sm / 100 < 1) := by linarith
  have hr1 : 1 ≤ sm / 100 := by linarith
  have hr0 : sm / 100 ≠ 0 := by linarith
  have hs : ¬ (epoch / 2 ≤ 0) := by omega
  have hsR : (0 : ℝ) < ((epoch / 2 : ℤ) : ℝ) := by
    have : 0 < epoch / 2 := by omega
    exact_mod_cast this
  unfold temperature exponentialDecay
  rw [if_pos (by linarith), if_neg hs, if_neg hr0]
  simp only [if_neg hr]
  constructor
  · simp only [Nat.cast_zero, le_refl, if_true]
    exact min_eq_left h.le
  · intro i hi
    rw [if_pos (by linarith), if_neg hs, if_neg hr0, if_neg (by omega)]
    refine min_eq_right ?_
    have hge : (1 : ℝ) ≤ (i : ℝ) / ((epoch / 2 : ℤ) : ℝ) := by
      rw [le_div_iff₀ hsR, one_mul]
      have : (epoch / 2 : ℤ) ≤ (i : ℤ) := hi
      exact_mod_cast this
    have := Real.rpow_le_rpow_of_exponent_le hr1 hge
    rw [Real.rpow_one] at this
    calc sm = 100 * (sm / 100) := by ring
      _ ≤ _ := mul_le_mul_of_nonneg_left this (by norm_num)

/-- Witness: the default configuration (smearing 0.001, 5000 epochs). -/
example : temperature 0.001 5000 2500 = 0.001 :=
  (temperature_anneals_partial 0.001 (by norm_num) (by norm_num) 5000 (by norm_num)).2.2.2 2500
    (by norm_num)

end Jrystal
