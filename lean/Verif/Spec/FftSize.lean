/-
Specification vocabulary for FFT sizes (property C01).  Nothing here refers to the model.
-/
namespace Jrystal.Spec

/-- Products of powers of 2, 3, 5 and 7. -/
def Smooth7 (m : Nat) : Prop := ∃ a b c d : Nat, m = 2 ^ a * 3 ^ b * 5 ^ c * 7 ^ d

/-- The form documented in the docstring of `fft_factor`
(/repo/jrystal/_src/utils.py:230-238): at most one factor 11 and one factor 13 are allowed too. -/
def DocumentedSize (m : Nat) : Prop :=
  ∃ a b c d e f : Nat, e ≤ 1 ∧ f ≤ 1 ∧ m = 2 ^ a * 3 ^ b * 5 ^ c * 7 ^ d * 11 ^ e * 13 ^ f

/-- `m` is the least natural number that satisfies `S` and is at least the integer `n`. -/
def LeastAtLeast (S : Nat → Prop) (n : Int) (m : Nat) : Prop :=
  S m ∧ n ≤ m ∧ ∀ k : Nat, S k → n ≤ k → m ≤ k

end Jrystal.Spec
