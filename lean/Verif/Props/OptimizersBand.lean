import Verif.Props.OptimizersNC
import Verif.Props.BandRunNC

/-
C118 for band structures: they begin with a ground-state calculation with the same optimiser
(/repo/jrystal/calc/calc_band_structure_all_electrons.py:72, 91,
/repo/jrystal/calc/calc_band_structure_normcons.py:128-131, 164).
-/
namespace Jrystal

/-- C118: no band structure is saved with an optimiser that must be given more than the gradient and its own
state. -/
theorem bandRun_update_fault (L : RunLib) (T : BandTools) (cfg : RunConfig) (b : BandConfig) {m : ℕ} (a : AseAtoms m)
    (size ksize : Fin 3 → ℤ) (ne spin : ℤ) (H : Spec.AdmissibleRun L cfg a size ksize ne spin) (e : PyErr) :
    ∃ e', bandAtoms { L with updateFault := some e } T cfg b a = .error e' := by
  cases h : bandAtoms { L with updateFault := some e } T cfg b a with
  | error e' => exact ⟨e', rfl⟩
  | ok f =>
    obtain ⟨⟨r, hr⟩, -⟩ := bandRun_saved _ T cfg b a f h
    rw [run_update_fault L cfg a size ksize ne spin H e] at hr
    cases hr

/-- C118 with pseudopotentials. -/
theorem bandRunNC_update_fault (L : NcLib) (T : BandTools) (cfg : NcConfig) (b : BandConfig) (supplied : Bool) {m : ℕ}
    (a : AseAtoms m) (size ksize : Fin 3 → ℤ) (P : NcLists) (ne spin : ℤ)
    (H : Spec.AdmissibleRunNC L cfg a size ksize P ne spin) (e : PyErr) :
    ∃ e', bandAtomsNC { L with updateFault := some e } T cfg b supplied a = .error e' := by
  cases h : bandAtomsNC { L with updateFault := some e } T cfg b supplied a with
  | error e' => exact ⟨e', rfl⟩
  | ok f =>
    obtain ⟨-, -, n, rep, -, -, -, hr, -⟩ := bandRunNC_saved _ T cfg b supplied a H.cell f h
    rw [ncRun_update_fault L cfg a size ksize P ne spin H e] at hr
    cases hr

/-- The band structure of lithium with an optimiser that must be given the parameters. -/
example (ε : ℝ) (xc : XcLib) :
    ∃ e, bandAtoms { lithiumLib xc with updateFault := some .valueError } (lithiumTools ε) lithiumConfig lithiumBands
      (⟨fun _ => 3, 0, 1⟩ : AseAtoms 1) = .error e :=
  bandRun_update_fault _ _ _ _ _ _ _ _ _ (lithium_admissible xc) _

end Jrystal
