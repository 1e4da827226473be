import Verif.Model.Run
import Verif.Spec.Run
import Verif.Props.Driver
import Verif.Props.FftSize
import Verif.Props.Mesh
import Verif.Props.Crystal
import Verif.Props.Ewald

/- Facts about the set-up of a run, shared by the all-electron and the norm-conserving driver. -/
namespace Jrystal.RunSetup
open scoped BigOperators

theorem occParamInit_ok (draw : ∀ n m : ℕ, Matrix (Fin n) (Fin m) ℝ) {nk empty : ℕ} (ne spin : ℤ)
    (method : String) (r : Bool) (hp : Spec.Placeable method ne spin empty) :
    ∃ q : OccParams nk (driverBands ne.toNat empty),
      occParamInit draw (driverBands ne.toNat empty) ne nk spin method r = .ok q := by
  obtain ⟨hpar, hp⟩ := hp
  unfold occParamInit
  rcases hp with ⟨rfl | rfl, -⟩ | ⟨rfl, -⟩ | ⟨rfl, rfl, h⟩
  · exact ⟨_, rfl⟩
  · exact ⟨_, rfl⟩
  · exact ⟨_, rfl⟩
  · rw [if_pos rfl]
    have h1 : checkSpinNumber ne 0 = .ok () := if_neg (by rw [hpar]; simp)
    have h2 : ¬ (ne + 0) / 2 < 0 := by omega
    unfold idempotentParamInit
    rw [h1]
    simp only [bind, Except.bind, h2, if_false, if_true]
    exact ⟨_, rfl⟩

theorem smooth_pos {m : ℕ} (h : Spec.Smooth7 m) : 0 < m := by
  obtain ⟨a, b, c, d, rfl⟩ := h
  positivity

theorem idxList_length_pos {n : Fin 3 → ℕ} (hn : ∀ i, 0 < n i) : 0 < (idxList n).length :=
  List.length_pos_of_mem (mem_idxList (fun i => ⟨0, hn i⟩))

theorem maskCount_card {n : Fin 3 → ℕ} (mask : Idx n → Bool) :
    maskCount mask = Fintype.card {k // mask k = true} := by
  have hb : Function.Bijective (fun g : Fin (maskCount mask) =>
      (⟨maskPos mask g, maskPos_mask mask g⟩ : {k // mask k = true})) := by
    refine ⟨fun g g' h => maskList_get_inj _ (congrArg Subtype.val h), fun k => ?_⟩
    obtain ⟨g, hg⟩ := exists_maskPos mask k.2
    exact ⟨g, Subtype.ext hg⟩
  rw [← Fintype.card_of_bijective hb, Fintype.card_fin]

theorem idxList_length (n : Fin 3 → ℕ) : (idxList n).length = n 0 * n 1 * n 2 := by
  unfold idxList
  simp [List.length_flatMap, Nat.mul_assoc]

theorem translationCount_pos (A : Matrix (Fin 3) (Fin 3) ℝ) (hA : A.det ≠ 0) (E : ℝ) (hE : 0 < E) :
    0 < translationCount A E := by
  obtain ⟨k, h1, -, h2, -⟩ := translations_distinct A hA E hE
  by_contra h
  have h0 : (translationCount A E).toNat = 0 := by omega
  rw [h0] at h2
  simp at h2
  have : 0 < k ^ 3 := by positivity
  omega

theorem least_eq {S : ℕ → Prop} {k m : ℕ} (h : Spec.LeastAtLeast S k m) (hk : S k) : m = k :=
  le_antisymm (h.2.2 k hk le_rfl) (by exact_mod_cast h.2.1)

theorem smooth4 : Spec.Smooth7 4 := ⟨2, 0, 0, 0, rfl⟩

theorem smooth2 : Spec.Smooth7 2 := ⟨1, 0, 0, 0, rfl⟩

theorem keeps_self {nk nb : ℕ} (a : OccParams nk nb) : Spec.KeepsShape a a := by
  cases a <;> simp [Spec.KeepsShape]

end Jrystal.RunSetup
