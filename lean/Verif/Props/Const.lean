import Verif.Model.Const
import Mathlib.Algebra.Order.Field.Rat
import Mathlib.Tactic.NormNum
import Mathlib.Tactic.Ring
import Mathlib.Algebra.Order.Ring.Abs
import Mathlib.Data.List.Nodup

/- C53: tables of elements and conversion constants. -/
namespace Jrystal

private theorem dictGet_mem {κ ν : Type*} [DecidableEq κ] {d : List (κ × ν)} {k : κ} {v : ν}
    (h : dictGet d k = some v) : (k, v) ∈ d := by
  unfold dictGet at h
  rw [Option.map_eq_some_iff] at h
  obtain ⟨p, hp, rfl⟩ := h
  have h1 := List.find?_some hp
  have h2 := List.mem_of_find?_eq_some hp
  simp only [decide_eq_true_eq] at h1
  rw [← h1]
  exact List.mem_reverse.1 h2

private theorem s2n_entries : ∀ p ∈ symbol2number, dictGet number2symbol p.2 = some p.1 := by
  decide +kernel

private theorem n2s_entries : ∀ p ∈ number2symbol, dictGet symbol2number p.2 = some p.1 := by
  decide +kernel

/-- C53: the two tables are inverse to each other: a symbol has number `z` exactly when number `z`
has that symbol. -/
theorem element_tables_inverse (s : String) (z : ℕ) :
    dictGet symbol2number s = some z ↔ dictGet number2symbol z = some s :=
  ⟨fun h => s2n_entries _ (dictGet_mem h), fun h => n2s_entries _ (dictGet_mem h)⟩

private theorem keys_numbers : ∀ p ∈ number2symbol, 1 ≤ p.1 ∧ p.1 ≤ 118 := by decide +kernel

private theorem numbers_have : ∀ z : Fin 118, (dictGet number2symbol (z + 1)).isSome := by
  decide +kernel

/-- C53: exactly the numbers 1..118 are keys. -/
theorem element_numbers (z : ℕ) : (∃ s, dictGet number2symbol z = some s) ↔ 1 ≤ z ∧ z ≤ 118 := by
  constructor
  · rintro ⟨s, h⟩; exact keys_numbers _ (dictGet_mem h)
  · rintro ⟨h1, h2⟩
    have := numbers_have ⟨z - 1, by omega⟩
    rw [show (⟨z - 1, by omega⟩ : Fin 118).val + 1 = z by simp; omega] at this
    exact Option.isSome_iff_exists.1 this

/-- C53: distinct elements have distinct symbols. -/
theorem element_symbols_injective (z z' : ℕ) (s : String) (h : dictGet number2symbol z = some s)
    (h' : dictGet number2symbol z' = some s) : z = z' := by
  have h1 := (element_tables_inverse s z).2 h
  have h2 := (element_tables_inverse s z').2 h'
  rw [h1] at h2
  exact Option.some_injective _ h2

/-- C53: the conversion constants are reciprocal within `2e-9`. -/
theorem conversion_constants :
    |bohr2angstrom * angstrom2bohr - 1| ≤ 2 / 10 ^ 9 ∧ |ev2hartree * hartree2ev - 1| ≤ 2 / 10 ^ 9 := by
  unfold bohr2angstrom angstrom2bohr ev2hartree hartree2ev
  constructor <;> rw [abs_le] <;> constructor <;> norm_num

/-- C53: converting a length there and back changes it by at most `2e-9` relative, for every length;
the same for energies. -/
theorem conversion_round_trip (x : ℚ) :
    |x * angstrom2bohr * bohr2angstrom - x| ≤ 2 / 10 ^ 9 * |x| ∧
    |x * ev2hartree * hartree2ev - x| ≤ 2 / 10 ^ 9 * |x| := by
  obtain ⟨h1, h2⟩ := conversion_constants
  constructor
  · have e : x * angstrom2bohr * bohr2angstrom - x
        = (bohr2angstrom * angstrom2bohr - 1) * x := by ring
    rw [e, abs_mul]
    exact mul_le_mul_of_nonneg_right h1 (abs_nonneg x)
  · have e : x * ev2hartree * hartree2ev - x = (ev2hartree * hartree2ev - 1) * x := by ring
    rw [e, abs_mul]
    exact mul_le_mul_of_nonneg_right h2 (abs_nonneg x)

/-- Witness. -/
example : dictGet symbol2number "Si" = some 14 ∧ dictGet number2symbol 14 = some "Si" ∧
    dictGet symbol2number "Xx" = none := by decide +kernel

end Jrystal
