import Verif.Model.Occupation
import Verif.Model.Energy
import Verif.Model.Pseudo
import Verif.Spec.Driver
import Mathlib.Topology.ContinuousOn
import Mathlib.Analysis.Complex.Basic

/- Specification vocabulary for the completeness of the parametrisation (C88, C89). -/
namespace Jrystal
open Matrix

/-- The second half of the contract of `jnp.linalg.qr`: the argument is the returned factor times an upper
triangular matrix. -/
def Spec.Triangular {F : Type*} [CommRing F] [StarRing F] (qr : QR F) : Prop :=
  ∀ {n m : ℕ} (w : Matrix (Fin n) (Fin m) F), ∃ R : Matrix (Fin (min n m)) (Fin m) F,
    (∀ (i : Fin (min n m)) (j : Fin m), (j : ℕ) < (i : ℕ) → R i j = 0) ∧ w = qr.q w * R

/-- The occupations that a method can be trained to: all physical ones for `idempotent`; for
`simplex-projector` those in which no channel has both an empty and a full state (and, spin-restricted, no
unpaired electrons are asked for). -/
def Spec.Trainable {ns nk nb : ℕ} (method : String) (spin : ℤ) (restricted : Bool) (occ : Occ ns nk nb) : Prop :=
  method = "idempotent" ∨
  method = "simplex-projector" ∧ (restricted = true → spin = 0) ∧
    ∀ s, (∀ k b, occ s k b ≠ 0) ∨ ∀ k b, occ s k b ≠ Spec.kShare method nk * Spec.pauli restricted

/-- The entropy of occupations with at most `top` electrons in a state, with the number `eps` that keeps the
logarithm finite. -/
noncomputable def Spec.smearingEntropy {ns nk nb : ℕ} (eps top : ℝ) (occ : Occ ns nk nb) : ℝ :=
  -∑ s, ∑ k, ∑ b, (occ s k b * Real.log (eps + occ s k b) +
    (top - occ s k b) * Real.log (eps + top - occ s k b))

/-- `e` is the energy of a state of valence electrons in the local potential `vloc` and the nonlocal
potential `psi`: kinetic, Hartree, local, nonlocal and exchange-correlation energy. -/
def Spec.EnergyNC (lib : XcLib) (xt : String) {ns nk nb M : ℕ} {ι : Type} [Fintype ι] {n : Fin 3 → ℕ}
    (vloc : Idx n → ℂ) (psi : Fin nk → ι → Fin M → Idx n → ℂ) (g : Idx n → Fin 3 → ℝ)
    (kpts : Fin nk → Fin 3 → ℝ) (vol : ℝ) (c : Coef ns nk nb n) (occ : Occ ns nk nb) (e : ℝ) : Prop :=
  ∃ har loc nloc exc, hartreeEnergy (densityGridReciprocal c vol occ) g vol false = .ok har ∧
    energyLocal (densityGridReciprocal c vol occ) vloc vol = .ok loc ∧
    energyNonlocal c psi vol (some occ) = .ok nloc ∧
    xcEnergy lib xt false (densityGrid c vol occ) g vol = .ok exc ∧
    e = kineticEnergyOcc g kpts c occ + har + loc + nloc + exc

/-- The functionals named in a configuration are continuous on nonnegative densities (and squared gradients). -/
structure Spec.ContinuousXc (lib : XcLib) (xt : String) : Prop where
  lda : pyIn "gga" xt = false → ∀ x ∈ splitPlus xt, ContinuousOn (lib.lda x) (Set.Ici 0)
  ldaPol : pyIn "gga" xt = false → ∀ x ∈ splitPlus xt,
    ContinuousOn (fun p : ℝ × ℝ => lib.ldaPol x p.1 p.2) {p | 0 ≤ p.1 ∧ 0 ≤ p.2}
  gga : pyIn "gga" xt = true → ∀ x ∈ splitPlus xt,
    ContinuousOn (fun p : ℝ × ℝ => lib.gga x p.1 p.2) {p | 0 ≤ p.1 ∧ 0 ≤ p.2}
  ggaPol : pyIn "gga" xt = true → ∀ x ∈ splitPlus xt,
    ContinuousOn (fun p : ℝ × ℝ × ℝ × ℝ × ℝ => lib.ggaPol x p.1 p.2.1 p.2.2.1 p.2.2.2.1 p.2.2.2.2)
      {p | 0 ≤ p.1 ∧ 0 ≤ p.2.1 ∧ 0 ≤ p.2.2.1 ∧ 0 ≤ p.2.2.2.2}

end Jrystal
