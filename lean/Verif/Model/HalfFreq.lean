import Verif.Model.Grid

/- Model of the half-frequency layout of /repo/jrystal/_src/grid.py:37-90. -/
namespace Jrystal

/-- One axis of `_half_frequency_ranges` (/repo/jrystal/_src/grid.py:43-53). -/
structure HalfRange where
  posStart : ℤ
  posSize : ℤ
  negStart : ℤ
  negSize : ℤ

/-- Loop body of `_half_frequency_ranges` (/repo/jrystal/_src/grid.py:43-53). -/
def halfRange (size : ℕ) : HalfRange :=
  let gmax : ℤ := half ((size : ℤ) - 1)
  let lower : ℤ := half (-gmax)
  let upper : ℤ := half gmax
  let negStart := lower + size
  { posStart := 0, posSize := upper + 1, negStart := negStart, negSize := size - negStart }

/-- `half_frequency_shape` (/repo/jrystal/_src/grid.py:57-69). -/
def halfShape (n : Fin 3 → ℕ) : Fin 3 → ℤ :=
  fun i => (halfRange (n i)).posSize + (halfRange (n i)).negSize

/-- `lax.dynamic_update_slice`: the start index is clamped so that the update fits, then the block
of shape `usize` is overwritten (used at /repo/jrystal/_src/grid.py:89). -/
def dynamicUpdateSlice {α : Type*} {n : Fin 3 → ℕ} (ret : Idx n → α) (usize : Fin 3 → ℤ)
    (u : (Fin 3 → ℤ) → α) (start : Fin 3 → ℤ) : Idx n → α :=
  let s : Fin 3 → ℤ := fun i => max 0 (min (start i) ((n i : ℤ) - usize i))
  fun j => if ∀ i, s i ≤ (j i : ℤ) ∧ (j i : ℤ) < s i + usize i then u (fun i => (j i : ℤ) - s i)
    else ret j

/-- `itertools.product` of the three `(pos, neg)` pairs in the order in which both `updates` and
`start_indices` are built (/repo/jrystal/_src/grid.py:79-85); `true` selects the negative block. -/
def blockOrder : List (Fin 3 → Bool) :=
  [![false, false, false], ![false, false, true], ![false, true, false], ![false, true, true],
   ![true, false, false], ![true, false, true], ![true, true, false], ![true, true, true]]

/-- `_half_frequency_pad_to` (/repo/jrystal/_src/grid.py:72-90) for one batch element.  `tensor`
has shape `halfShape n` (the code asserts this, line 78; only entries inside the shape are read).
`jnp.split(u, [pos_size])` cuts an axis into `[0:pos]` and `[pos:]`, so the block with a negative
part on axis `i` reads the tensor at offset `pos_size`. -/
def halfPadTo {α : Type*} [Zero α] (n : Fin 3 → ℕ) (tensor : (Fin 3 → ℤ) → α) : Idx n → α :=
  blockOrder.foldl (fun ret b =>
    dynamicUpdateSlice ret
      (fun i => if b i then (halfRange (n i)).negSize else (halfRange (n i)).posSize)
      (fun o => tensor fun i => o i + if b i then (halfRange (n i)).posSize else 0)
      (fun i => if b i then (halfRange (n i)).negStart else (halfRange (n i)).posStart))
    (fun _ => 0)

end Jrystal
