import Mathlib.Analysis.SpecialFunctions.Pow.Real
import Mathlib.Analysis.Real.Sqrt

/-
Model of /repo/jrystal/calc/convergence.py, of the temperature schedule and of the optimisation loop
of the ground-state drivers
(/repo/jrystal/calc/calc_ground_state_energy_all_electrons.py:176-247,
/repo/jrystal/calc/calc_ground_state_energy_normcons.py:226-308; the loops are the same text).
-/
namespace Jrystal

/-- A floating-point value up to rounding: `some x` is finite, `none` is `nan` or `±inf`
(/repo/jrystal/calc/convergence.py:20-32). -/
abbrev FVal := Option ℝ

/-- The finite values of a list, `none` if one of them is not finite
(/repo/jrystal/calc/convergence.py:20-32). -/
def allFinite : List FVal → Option (List ℝ)
  | [] => some []
  | none :: _ => none
  | some x :: l => (allFinite l).map (x :: ·)

/-- `np.std(history)`: population standard deviation of a list.  Empty input and any non-finite entry
give `nan` (`none`) (/repo/jrystal/calc/convergence.py:20-32). -/
noncomputable def npStd (h : List FVal) : FVal :=
  match allFinite h with
  | none => none
  | some xs =>
    if xs.length = 0 then none
    else
      let m := xs.sum / xs.length
      some (Real.sqrt ((xs.map fun x => (x - m) * (x - m)).sum / xs.length))

/-- `a < b` on floats, `False` when `a` is `nan`.  (`np.std` is never infinite for finite input.)
(/repo/jrystal/calc/convergence.py:20-32). -/
def fltLt (a : FVal) (b : ℝ) : Prop :=
  match a with
  | none => False
  | some x => x < b

/-- Attributes of `ConvergenceChecker` (/repo/jrystal/calc/convergence.py:13-18). -/
structure Checker where
  windowSize : ℤ
  threshold : ℝ
  history : List FVal

/-- `__init__` (/repo/jrystal/calc/convergence.py:15-18); `create_convergence_checker` passes the window and
the threshold of the configuration (/repo/jrystal/calc/convergence.py:6-10). -/
def Checker.new (w : ℤ) (t : ℝ) : Checker := ⟨w, t, []⟩

/-- The stored history after `append` and the conditional `pop(0)`
(/repo/jrystal/calc/convergence.py:21-24). -/
def Checker.push (c : Checker) (v : FVal) : List FVal :=
  let h1 := c.history ++ [v]
  if (h1.length : ℤ) > c.windowSize then h1.tail else h1

open Classical in
/-- `check` (/repo/jrystal/calc/convergence.py:20-32): new state and result. -/
noncomputable def Checker.check (c : Checker) (v : FVal) : Checker × Bool :=
  let c' : Checker := ⟨c.windowSize, c.threshold, c.push v⟩
  if (c'.history.length : ℤ) < c.windowSize then (c', false)
  else if fltLt (npStd c'.history) c.threshold then (c', true)
  else (c', false)

/-- `reset` (/repo/jrystal/calc/convergence.py:34-35). -/
def Checker.reset (c : Checker) : Checker := ⟨c.windowSize, c.threshold, []⟩

/-- A call on a checker (/repo/jrystal/calc/convergence.py:20-35). -/
inductive CheckOp where
  | check (v : FVal)
  | reset

/-- Effect of one call (/repo/jrystal/calc/convergence.py:20-35). -/
noncomputable def Checker.step (c : Checker) : CheckOp → Checker
  | .check v => (c.check v).1
  | .reset => c.reset

/-- State after a history of calls (/repo/jrystal/calc/convergence.py:20-35). -/
noncomputable def Checker.run (c : Checker) (ops : List CheckOp) : Checker := ops.foldl Checker.step c

/-- `optax.exponential_decay` with `transition_begin = 0`, `staircase = False` and an end value, as
documented: constant for non-positive `transition_steps` or zero rate; clipped from below for rates
below one, from above otherwise (/repo/jrystal/calc/calc_ground_state_energy_all_electrons.py:185-190). -/
noncomputable def exponentialDecay (init : ℝ) (steps : ℤ) (rate endv : ℝ) (count : ℕ) : ℝ :=
  if steps ≤ 0 then init
  else if rate = 0 then init
  else
    let v := if (count : ℤ) ≤ 0 then init else init * rate ^ ((count : ℝ) / (steps : ℝ))
    if rate < 1 then max v endv else min v endv

/-- `temperature_scheduler`
(/repo/jrystal/calc/calc_ground_state_energy_all_electrons.py:184-194,
/repo/jrystal/calc/calc_ground_state_energy_normcons.py:239-249). -/
noncomputable def temperature (smearing : ℝ) (epoch : ℤ) (i : ℕ) : ℝ :=
  if smearing > 0 then exponentialDecay 100 (epoch / 2) (smearing / 100) smearing i
  else 0

/-- Loop variables: parameters and optimiser state, the total energy (unbound before the first
iteration), the flag `converged`, the checker and the number of updates made
(/repo/jrystal/calc/calc_ground_state_energy_all_electrons.py:204-215). -/
structure LoopState (P : Type*) where
  params : P
  etot : Option FVal
  converged : Bool
  checker : Checker
  updates : ℕ

/-- One iteration of the loop body
(/repo/jrystal/calc/calc_ground_state_energy_all_electrons.py:205-215).  `grad p t` is the updated
parameter/optimiser pair, `energy p` the total energy that `update` returns: it is evaluated at the
parameters before the update (lines 177-182). -/
noncomputable def loopBody {P : Type*} (grad : P → ℝ → P) (energy : P → FVal) (temp : ℕ → ℝ)
    (s : LoopState P) (i : ℕ) : LoopState P :=
  let e := energy s.params
  let r := s.checker.check e
  ⟨grad s.params (temp i), some e, r.2, r.1, s.updates + 1⟩

/-- `for i in range(i, i + k)` with `break` on convergence
(/repo/jrystal/calc/calc_ground_state_energy_all_electrons.py:205-215). -/
noncomputable def loopFrom {P : Type*} (grad : P → ℝ → P) (energy : P → FVal) (temp : ℕ → ℝ) :
    ℕ → ℕ → LoopState P → LoopState P
  | 0, _, s => s
  | k + 1, i, s =>
    let s' := loopBody grad energy temp s i
    if s'.converged then s' else loopFrom grad energy temp k (i + 1) s'

/-- The loop from the initial state
(/repo/jrystal/calc/calc_ground_state_energy_all_electrons.py:105, 198-220).  `range(epoch)` is empty
for non-positive `epoch`. -/
noncomputable def optimise {P : Type*} (grad : P → ℝ → P) (energy : P → FVal) (temp : ℕ → ℝ)
    (epoch : ℤ) (w : ℤ) (th : ℝ) (p0 : P) : LoopState P :=
  loopFrom grad energy temp epoch.toNat 0 ⟨p0, none, false, Checker.new w th, 0⟩

end Jrystal
