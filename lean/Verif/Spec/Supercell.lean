import Verif.Spec.Driver
import Verif.Model.Grid

/- Specification vocabulary for C109: crystals described with a larger cell. -/
namespace Jrystal
open scoped BigOperators

/-- The second crystal is the first one described with the cell that has `q i` times the edge `i`: each atom of the
first occurs in the second once for every cell of the first inside the larger cell. -/
structure Spec.Supercell {m m' : ℕ} {Z : Type*} (q : Fin 3 → ℕ) (A A' : Matrix (Fin 3) (Fin 3) ℝ)
    (pos : Fin m → Fin 3 → ℝ) (pos' : Fin m' → Fin 3 → ℝ) (z : Fin m → Z) (z' : Fin m' → Z) : Prop where
  cell : ∀ i d, A' i d = q i * A i d
  atoms : ∃ σ : Fin m' ≃ Fin m × Idx q, ∀ a, z' a = z (σ a).1 ∧
    ∀ d, pos' a d = pos (σ a).1 d + ∑ i, ((σ a).2 i : ℝ) * A i d

/-- The plane waves selected for the larger cell contain those of the smaller cell at every k point that is folded
to one of the larger cell: the wave with the frequencies `f` is selected and so are those with `q f + t` for all
`|t| < q / 2`.  The frequency at the lower end of an axis with an even number of points is not selected. -/
structure Spec.FoldedWaves {n n' : Fin 3 → ℕ} (q : Fin 3 → ℕ) (mask : Idx n → Bool) (mask' : Idx n' → Bool) :
    Prop where
  inner : ∀ x, mask x = true → ∀ i, 2 * (x i : ℕ) ≠ n i
  selected : ∀ x x', mask x = true → (∀ i, 2 * |sfreq (n' i) (x' i) - q i * sfreq (n i) (x i)| < q i) →
    mask' x' = true

end Jrystal
