import Verif.Model.Braket

namespace Jrystal

theorem bcIdx_self {a : ℕ} (k : Fin a) : bcIdx a k = some k := by
  unfold bcIdx
  by_cases h1 : a = 1
  · rw [dif_pos h1]
    congr 1
    apply Fin.ext
    have := k.2
    show 0 = (k : ℕ)
    omega
  · rw [dif_neg h1, dif_pos k.2]

theorem bcGet_self {n : Fin 3 → ℕ} {a : ℕ} (f : Fin a → Idx n → ℂ) (k : Fin a) :
    bcGet f (k : ℕ) = f k := by
  unfold bcGet
  rw [bcIdx_self]

theorem bcGet_one {n : Fin 3 → ℕ} (f : Fin 1 → Idx n → ℂ) (k : ℕ) : bcGet f k = f 0 := rfl

end Jrystal
