import Verif.Model.FftSize
import Verif.Spec.FftSize
import Mathlib.Tactic.Ring
import Mathlib.Tactic.IntervalCases
import Mathlib.Algebra.Order.Ring.Nat
import Mathlib.Data.Nat.Prime.Basic
import Mathlib.Tactic.NormNum.Prime

namespace Jrystal
open Spec

/-- Exponent of `p` in `m`, with fuel. -/
def vp (p : Nat) : Nat → Nat → Nat
  | 0, _ => 0
  | fuel + 1, m => if m % p = 0 then vp p fuel (m / p) + 1 else 0

theorem cufft_sorted : cufftFactors.Pairwise (· < ·) := by decide +kernel

theorem cufft_mem_form :
    ∀ m ∈ cufftFactors, m ≤ 2048 ∧
      m = 2 ^ (vp 2 12 m) * 3 ^ (vp 3 12 m) * 5 ^ (vp 5 12 m) * 7 ^ (vp 7 12 m) := by
  decide +kernel

theorem cufft_complete_bounded :
    ∀ a ∈ List.range 12, ∀ b ∈ List.range 7, ∀ c ∈ List.range 5, ∀ d ∈ List.range 4,
      2 ^ a * 3 ^ b * 5 ^ c * 7 ^ d ≤ 2048 → 2 ^ a * 3 ^ b * 5 ^ c * 7 ^ d ∈ cufftFactors := by
  decide +kernel

theorem exp_lt_of_pow_le {p m k : Nat} (hp : 2 ≤ p) (hk : m < p ^ k) {a r : Nat} (hr : 0 < r)
    (h : p ^ a * r ≤ m) : a < k := by
  by_contra hge
  have h1 : p ^ k ≤ p ^ a := Nat.pow_le_pow_right (by omega) (by omega)
  have h2 : p ^ a ≤ p ^ a * r := Nat.le_mul_of_pos_right _ hr
  omega

theorem cufft_mem_iff (m : Nat) : m ∈ cufftFactors ↔ Smooth7 m ∧ m ≤ 2048 := by
  constructor
  · intro h
    have := cufft_mem_form m h
    exact ⟨⟨_, _, _, _, this.2⟩, this.1⟩
  · rintro ⟨⟨a, b, c, d, rfl⟩, hle⟩
    have pa : 0 < 2 ^ a := by positivity
    have pb : 0 < 3 ^ b := by positivity
    have pc : 0 < 5 ^ c := by positivity
    have pd : 0 < 7 ^ d := by positivity
    have ha : a < 12 := exp_lt_of_pow_le (p := 2) (k := 12) (m := 2048) (r := 3 ^ b * 5 ^ c * 7 ^ d)
      (by norm_num) (by norm_num) (by positivity) ((le_of_eq (by ring)).trans hle)
    have hb : b < 7 := exp_lt_of_pow_le (p := 3) (k := 7) (m := 2048) (r := 2 ^ a * 5 ^ c * 7 ^ d)
      (by norm_num) (by norm_num) (by positivity) ((le_of_eq (by ring)).trans hle)
    have hc : c < 5 := exp_lt_of_pow_le (p := 5) (k := 5) (m := 2048) (r := 2 ^ a * 3 ^ b * 7 ^ d)
      (by norm_num) (by norm_num) (by positivity) ((le_of_eq (by ring)).trans hle)
    have hd : d < 4 := exp_lt_of_pow_le (p := 7) (k := 4) (m := 2048) (r := 2 ^ a * 3 ^ b * 5 ^ c)
      (by norm_num) (by norm_num) (by positivity) ((le_of_eq (by ring)).trans hle)
    exact cufft_complete_bounded a (by simpa using ha) b (by simpa using hb) c (by simpa using hc)
      d (by simpa using hd) hle

theorem filter_head_least {l : List Nat} (hs : l.Pairwise (· < ·)) (n : Int) {f : Nat} {t : List Nat}
    (h : l.filter (fun (f : Nat) => decide ((f : Int) - n ≥ 0)) = f :: t) :
    f ∈ l ∧ n ≤ f ∧ ∀ k ∈ l, n ≤ (k : Int) → f ≤ k := by
  have hf : f ∈ l.filter (fun (f : Nat) => decide ((f : Int) - n ≥ 0)) := by rw [h]; simp
  rw [List.mem_filter] at hf
  refine ⟨hf.1, by simpa using hf.2, ?_⟩
  intro k hk hnk
  have hk' : k ∈ l.filter (fun (f : Nat) => decide ((f : Int) - n ≥ 0)) := by
    rw [List.mem_filter]; exact ⟨hk, by simpa using hnk⟩
  rw [h] at hk'
  have hp := hs.filter (fun (f : Nat) => decide ((f : Int) - n ≥ 0))
  rw [h] at hp
  rcases List.mem_cons.1 hk' with rfl | hk'
  · exact le_refl _
  · exact le_of_lt (List.rel_of_pairwise_cons hp hk')

end Jrystal
