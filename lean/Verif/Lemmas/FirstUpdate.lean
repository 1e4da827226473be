import Verif.Model.Run

/- Helper lemmas about the first call of `update`. -/
namespace Jrystal

variable {X Y Z : Type*}

theorem firstUpdate_keep {b : Option PyErr} (h : b = none) (k : ℤ) (l : Except PyErr X) (r : Except PyErr Y) :
    firstUpdate b k l r = r := by
  subst h
  rfl

theorem firstUpdate_map (b : Option PyErr) (k : ℤ) (l : Except PyErr X) (r : Except PyErr Y) (f : Y → Z) :
    firstUpdate b k l (r.map f) = (firstUpdate b k l r).map f := by
  unfold firstUpdate
  cases b with
  | none => rfl
  | some f =>
  dsimp only
  split_ifs
  · cases l <;> rfl
  · rfl

theorem firstUpdate_error (b : Option PyErr) (k : ℤ) (l : Except PyErr X) (r : Except PyErr Y) (h : ∃ e, r = .error e) :
    ∃ e, firstUpdate b k l r = .error e := by
  unfold firstUpdate
  cases b with
  | none => exact h
  | some f =>
  dsimp only
  split_ifs
  · cases l
    · exact ⟨_, rfl⟩
    · exact ⟨_, rfl⟩
  · exact h

end Jrystal
