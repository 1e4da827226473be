import Verif.Spec.Reach
import Verif.Model.Run

/- Specification vocabulary for C89: what it means that a state is within `ε` of the ground state. -/
namespace Jrystal

/-- The occupations that the methods `uniform` and `gamma` prescribe: the `(ne + spin) / 2` lowest bands hold an
electron of spin up and the `(ne - spin) / 2` lowest ones an electron of spin down, at every k point alike or,
with `gamma`, at the first k point only; a single channel holds both spins. -/
noncomputable def Spec.givenOccupation (method : String) (ne spin : ℤ) {ns nk nb : ℕ} : Occ ns nk nb :=
  fun s k b =>
    let up : ℝ := if ((b : ℕ) : ℤ) < (ne + spin) / 2 then 1 else 0
    let down : ℝ := if ((b : ℕ) : ℤ) < (ne - spin) / 2 then 1 else 0
    (if method = "gamma" then if (k : ℕ) = 0 then 1 else 0 else 1 / (nk : ℝ)) *
      (if ns = 1 then up + down else if (s : ℕ) = 0 then up else down)

/-- A state whose free energy at temperature `t` is, up to `ε`, the least that physical states have; `e` is its
energy.  `energy c occ e` says that `e` is the energy of a state.  With `uniform` and `gamma` the occupations
are given and states with other ones do not compete. -/
structure Spec.GroundWithin {ns nk nb : ℕ} {n : Fin 3 → ℕ} (ε t eps : ℝ) (mask : Idx n → Bool) (ne spin : ℤ)
    (restricted : Bool) (method : String) (energy : Coef ns nk nb n → Occ ns nk nb → ℝ → Prop)
    (c : Coef ns nk nb n) (occ : Occ ns nk nb) (e : ℝ) : Prop where
  physical : Spec.PhysicalState mask ne spin restricted (Spec.kShare method nk) c occ
  value : energy c occ e
  given : method = "uniform" ∨ method = "gamma" → occ = Spec.givenOccupation method ne spin
  least : ∀ c' occ' e', Spec.PhysicalState mask ne spin restricted (Spec.kShare method nk) c' occ' →
    (method = "uniform" ∨ method = "gamma" → occ' = occ) → energy c' occ' e' →
    e - t * Spec.smearingEntropy eps ((3 - (ns : ℝ)) / nk) occ
      ≤ e' - t * Spec.smearingEntropy eps ((3 - (ns : ℝ)) / nk) occ' + ε

/-- An optimiser that gets within `ε` of the minimum: one step from any parameters, for a function that is
bounded below on the parameters of the same kind, ends where the function is at most `ε` above each of its
values. -/
def Spec.NearOptimizer (ε : ℝ) (opt : Optimizer) : Prop :=
  ∀ {ns nk g nb : ℕ} (f : GsParams ns nk g nb → Except PyErr ℝ) (p : GsParams ns nk g nb × opt.State),
    (∃ m, ∀ q : GsParams ns nk g nb, Spec.KeepsShape p.1.occ q.occ → ∃ v, f q = .ok v ∧ m ≤ v) →
    ∀ (q : GsParams ns nk g nb) (v : ℝ), Spec.KeepsShape p.1.occ q.occ → f q = .ok v →
      ∃ v', f (opt.step f p).1 = .ok v' ∧ v' ≤ v + ε

end Jrystal
