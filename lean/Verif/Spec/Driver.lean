import Verif.Model.Occupation
import Verif.Model.Planewave

/- Specification vocabulary for the driver properties (C66–C70). -/
namespace Jrystal
open scoped BigOperators ComplexConjugate

/-- What one optimiser step may do to the occupation parameters.  Trainable arrays keep their kind and
their number of columns and may change in any other way.  The `uniform` and `gamma` occupations are
wrapped in `stop_gradient`, so their gradient is zero and they stay what they are. -/
def Spec.KeepsShape {nk nb : ℕ} : OccParams nk nb → OccParams nk nb → Prop
  | .idem p, .idem q => q.mUp = p.mUp ∧ q.mDown = p.mDown
  | .arr o, .arr o' => o' = o
  | .simplex _ _, .simplex _ _ => True
  | _, _ => False

/-- The configurations for which an occupation method can place `ne` electrons with `spin` unpaired ones
in `⌈ne/2⌉ + empty` bands. -/
def Spec.Placeable (method : String) (ne spin : ℤ) (empty : ℕ) : Prop :=
  ne % 2 = spin % 2 ∧
  (((method = "uniform" ∨ method = "gamma") ∧ |spin| ≤ ne ∧ |spin| ≤ 2 * empty + ne % 2) ∨
   (method = "simplex-projector" ∧ |spin| < ne ∧ |spin| < 2 * empty + ne % 2) ∨
   (method = "idempotent" ∧ spin = 0 ∧ 0 ≤ ne))

/-- The share of the crystal that one k point stands for: all points count alike, except that `gamma`
puts everything on the first one. -/
noncomputable def Spec.kShare (method : String) (nk : ℕ) : ℝ := if method = "gamma" then 1 else 1 / nk

/-- Electrons one orbital can hold by the Pauli principle: one per spin. -/
def Spec.pauli (restricted : Bool) : ℝ := if restricted then 2 else 1

/-- A state that plane waves can describe: orthonormal orbitals made of the selected plane waves and
occupations which hold all electrons, with `spin` more of them in the first of two channels, and which
are between zero and the Pauli limit times the `share` of a k point. -/
structure Spec.PhysicalState {ns nk nb : ℕ} {n : Fin 3 → ℕ} (mask : Idx n → Bool) (ne spin : ℤ)
    (restricted : Bool) (share : ℝ) (c : Coef ns nk nb n) (occ : Occ ns nk nb) : Prop where
  orthonormal : ∀ s k i j, ∑ x, conj (c s k i x) * c s k j x = if i = j then 1 else 0
  selected : ∀ s k b x, mask x = false → c s k b x = 0
  channels : ns = if restricted then 1 else 2
  nonneg : ∀ s k b, 0 ≤ occ s k b
  pauli : ∀ s k b, occ s k b ≤ share * Spec.pauli restricted
  electrons : ∑ s, ∑ k, ∑ b, occ s k b = ne
  polarisation : ∀ s s' : Fin ns, (s : ℕ) = 0 → (s' : ℕ) = 1 →
    (∑ k, ∑ b, occ s k b) - ∑ k, ∑ b, occ s' k b = spin

end Jrystal
