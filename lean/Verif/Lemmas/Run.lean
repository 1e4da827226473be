import Verif.Lemmas.Symmetry
import Verif.Spec.Symmetry
import Verif.Spec.Grid
import Verif.Model.Run
import Mathlib.Tactic.NormNum
import Mathlib.Tactic.Ring

/- Helper lemmas about whole calculations. -/
namespace Jrystal
open scoped BigOperators ComplexConjugate
open Matrix

/-- The same set-up with another description of the geometry. -/
def regeo {na na' nk : ℕ} {n : Fin 3 → ℕ} (E : GsEnv na nk n) (g : Idx n → Fin 3 → ℝ)
    (kpts : Fin nk → Fin 3 → ℝ) (pos : Fin na' → Fin 3 → ℝ) (charge : Fin na' → ℝ) : GsEnv na' nk n :=
  { lib := E.lib, qrC := E.qrC, qrR := E.qrR, mask := E.mask, g := g, kpts := kpts, vol := E.vol,
    pos := pos, charge := charge, ne := E.ne, spin := E.spin, method := E.method,
    restricted := E.restricted, xc := E.xc, eps := E.eps }

theorem repulsion_rotate {R : Matrix (Fin 3) (Fin 3) ℝ} (hR : R * Rᵀ = 1) (erfc : ℝ → ℝ)
    (cfg : RunConfig) {m : ℕ} (q : Fin m → ℤ) (P : Matrix (Fin m) (Fin 3) ℝ)
    (A : Matrix (Fin 3) (Fin 3) ℝ) (s : ℤ) (n : Fin 3 → ℕ) :
    runRepulsion erfc cfg (⟨q, P * R, A * R, s⟩ : Crystal m) n =
      runRepulsion erfc cfg (⟨q, P, A, s⟩ : Crystal m) n := by
  have ht : ∀ N N' : ℕ, N = N' → driverRepulsion erfc (⟨q, P * R, A * R, s⟩ : Crystal m)
      (gVectors (A * R) n) cfg.ewaldEta (flatRows (vectorGrid (A * R) (fun _ => N) false)) =
      driverRepulsion erfc (⟨q, P, A, s⟩ : Crystal m) (gVectors A n) cfg.ewaldEta
        (flatRows (vectorGrid A (fun _ => N') false)) := by
    intro N N' hN
    subst hN
    have e2 : flatRows (vectorGrid (A * R) (fun _ => N) false) =
        fun t => rot3 R (flatRows (vectorGrid A (fun _ => N) false) t) := by
      funext t
      exact vectorGrid_rotate _ _ _ _ _
    have e3 : (⟨q, P * R, A * R, s⟩ : Crystal m).vol = (⟨q, P, A, s⟩ : Crystal m).vol := vol_rotate hR A
    unfold driverRepulsion
    rw [e2, e3, gVectors_rotate hR]
    refine Eq.trans ?_ (ewald_rotate hR erfc (fun a => P a) _ _ _ _ _)
    exact congrArg (fun pos => ewald erfc pos _ _ _ _ _) (funext fun a => rot3_rows _ _ a)
  have hcount := translationCount_rotate hR A cfg.ewaldCutoff
  unfold runRepulsion translationVectors
  simp only [hcount]
  rw [ht _ _ (by rw [hcount])]

/-- A run with another Ewald energy. -/
theorem gsRun_ew {P X : Type*} {n : Fin 3 → ℕ} {Y : Type}
    (dens : P → Except PyErr (Σ S : ℕ, Fin S → Idx n → ℝ)) (total : P → Except PyErr ℝ)
    (parts : P → Except PyErr Y) (ew ew' : ℝ) (upd : P × X → ℝ → P × X) (epoch : ℤ) (smearing : ℝ)
    (window : ℤ) (th : ℝ) (p0 : P × X) :
    gsRun dens total parts ew' upd epoch smearing window th p0 =
      (gsRun dens total parts ew upd epoch smearing window th p0).map fun r =>
        ⟨r.parts, ew', r.total + (ew' - ew), r.density⟩ := by
  unfold gsRun
  cases gsLoop upd (fun p => total p.1) (temperature smearing epoch) epoch.toNat 0 p0
      (Checker.new window th) none with
  | error e => rfl
  | ok r =>
    obtain ⟨p, etot⟩ := r
    simp only
    cases dens p.1 with
    | error e => rfl
    | ok d =>
      simp only
      cases parts p.1 with
      | error e => rfl
      | ok q =>
        cases etot with
        | none => rfl
        | some e =>
          simp only [Except.map]
          congr 2
          ring

/-- The crystal with every atom moved. -/
def shifted {m : ℕ} (c : Crystal m) (v : Fin m → Fin 3 → ℝ) : Crystal m :=
  ⟨c.charges, Matrix.of fun i d => c.positions i d + v i d, c.cell, c.spin⟩

theorem fromAse_moved {m : ℕ} (a : AseAtoms m) (spin : Option ℤ) (v : Fin m → Fin 3 → ℝ) :
    Crystal.fromAse (Spec.moved v a) spin =
      shifted (Crystal.fromAse a spin) fun i d => (angstrom2bohr : ℝ) * v i d := by
  unfold Crystal.fromAse Spec.moved shifted
  congr 1
  ext i d
  simp [mul_add]

theorem angstrom_ne : (angstrom2bohr : ℝ) ≠ 0 := by
  have : angstrom2bohr ≠ 0 := by decide +kernel
  exact_mod_cast this

theorem fromAse_det {m : ℕ} (a : AseAtoms m) (spin : Option ℤ) (h : a.cell.det ≠ 0) :
    (Crystal.fromAse a spin).cell.det ≠ 0 := by
  show ((angstrom2bohr : ℝ) • a.cell).det ≠ 0
  rw [Matrix.det_smul]
  exact mul_ne_zero (pow_ne_zero _ angstrom_ne) h

theorem fromAse_lattice {m : ℕ} (a : AseAtoms m) (spin : Option ℤ) (v : Fin 3 → ℝ)
    (h : Spec.IsLatticeVector a.cell v) :
    Spec.IsLatticeVector (Crystal.fromAse a spin).cell fun d => (angstrom2bohr : ℝ) * v d := by
  obtain ⟨z, hz⟩ := h
  refine ⟨z, fun d => ?_⟩
  beta_reduce
  rw [hz, Finset.mul_sum]
  refine Finset.sum_congr rfl fun i _ => ?_
  show _ = (z i : ℝ) * ((angstrom2bohr : ℝ) • a.cell) i d
  rw [Matrix.smul_apply, smul_eq_mul]
  ring

end Jrystal
