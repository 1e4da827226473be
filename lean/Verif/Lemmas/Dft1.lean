import Verif.Lemmas.Fft
import Verif.Model.SbtFft

/- One-dimensional discrete Fourier transforms over `range N`. -/
namespace Jrystal
open scoped BigOperators ComplexConjugate
open Complex (I)

/-- `exp(2πi ab/N)`. -/
noncomputable def wN (N a b : ℕ) : ℂ := Complex.exp (2 * Real.pi * I * ((a : ℂ) * (b : ℂ) / (N : ℂ)))

theorem wN_comm (N a b : ℕ) : wN N a b = wN N b a := by unfold wN; rw [mul_comm (a : ℂ)]

theorem wN_conj (N a b : ℕ) : conj (wN N a b) = Complex.exp (-(2 * Real.pi * I * ((a : ℂ) * (b : ℂ) / (N : ℂ)))) := by
  unfold wN
  rw [← Complex.exp_conj]
  congr 1
  simp only [map_mul, map_ofNat, Complex.conj_ofReal, Complex.conj_I, map_div₀, Complex.conj_natCast]
  ring

theorem wN_add (N a b c : ℕ) : wN N a (b + c) = wN N a b * wN N a c := by
  unfold wN
  rw [← Complex.exp_add]
  congr 1
  push_cast
  ring

theorem wN_neg (N a b : ℕ) (hN : N ≠ 0) (h : a ≤ N) : wN N (N - a) b = conj (wN N a b) := by
  rw [wN_conj]
  unfold wN
  have hn : (N : ℂ) ≠ 0 := by exact_mod_cast hN
  rw [Nat.cast_sub h]
  rw [show 2 * Real.pi * I * (((N : ℂ) - a) * b / N)
    = -(2 * Real.pi * I * ((a : ℂ) * b / N)) + (b : ℂ) * (2 * Real.pi * I) by field_simp; ring]
  rw [Complex.exp_add, Complex.exp_nat_mul_two_pi_mul_I, mul_one]

theorem wN_norm (N a b : ℕ) : ‖wN N a b‖ = 1 := by
  unfold wN
  rw [show 2 * Real.pi * I * ((a : ℂ) * (b : ℂ) / (N : ℂ)) = ((2 * Real.pi * (a * b / N) : ℝ) : ℂ) * I by
    push_cast; ring]
  exact Complex.norm_exp_ofReal_mul_I _

theorem wN_half (n j : ℕ) (hn : n ≠ 0) : wN (2 * n) n j = (-1) ^ j := by
  unfold wN
  have h : (n : ℂ) ≠ 0 := by exact_mod_cast hn
  rw [show 2 * Real.pi * I * ((n : ℂ) * (j : ℂ) / ((2 * n : ℕ) : ℂ)) = (j : ℂ) * (Real.pi * I) by
    push_cast; field_simp]
  rw [Complex.exp_nat_mul, Complex.exp_pi_mul_I]

theorem wN_zero (N j : ℕ) : wN N 0 j = 1 := by simp [wN]

theorem wN_orth (N a b : ℕ) (ha : a < N) (hb : b < N) :
    ∑ m ∈ Finset.range N, wN N m a * conj (wN N m b) = if a = b then (N : ℂ) else 0 := by
  have h := sum_exp_axis N ⟨a, ha⟩ ⟨b, hb⟩
  simp only [Fin.mk.injEq] at h
  rw [← h, Finset.sum_range]
  refine Finset.sum_congr rfl fun x _ => ?_
  rw [wN_comm N x a, wN_comm N x b, wN_conj]
  rfl

/-- Splitting of a sum that is symmetric under `m ↦ 2n - m`. -/
theorem sum_range_symm (n : ℕ) (hn : 0 < n) (y : ℕ → ℝ) (hy : ∀ m, 0 < m → m < n → y (2 * n - m) = y m) :
    ∑ m ∈ Finset.range (2 * n), y m = y 0 + y n + 2 * ∑ m ∈ Finset.Ico 1 n, y m := by
  obtain ⟨k, rfl⟩ : ∃ k, n = k + 1 := ⟨n - 1, by omega⟩
  rw [two_mul (k + 1), Finset.sum_range_add, Finset.sum_range_succ', Finset.sum_Ico_eq_sum_range]
  rw [Finset.sum_range_succ' (fun x => y (k + 1 + x))]
  have h2 : ∑ i ∈ Finset.range k, y (k + 1 + (i + 1)) = ∑ i ∈ Finset.range k, y (1 + i) := by
    rw [← Finset.sum_range_reflect (fun i => y (1 + i))]
    refine Finset.sum_congr rfl fun i hi => ?_
    have hi := Finset.mem_range.mp hi
    have := hy (1 + (k - 1 - i)) (by omega) (by omega)
    rw [← this]
    congr 1
    omega
  have h1 : ∑ i ∈ Finset.range k, y (i + 1) = ∑ i ∈ Finset.range k, y (1 + i) :=
    Finset.sum_congr rfl fun i _ => by rw [add_comm]
  rw [h2, h1]
  simp only [Nat.add_sub_cancel, add_zero]
  ring

/-- Parseval: the sum of squares of a Fourier sum. -/
theorem wN_parseval (N : ℕ) (X : ℕ → ℂ) :
    ∑ q ∈ Finset.range N, ‖∑ m ∈ Finset.range N, X m * wN N m q‖ ^ 2
      = N * ∑ m ∈ Finset.range N, ‖X m‖ ^ 2 := by
  have key : ((∑ q ∈ Finset.range N, ‖∑ m ∈ Finset.range N, X m * wN N m q‖ ^ 2 : ℝ) : ℂ)
      = ((N * ∑ m ∈ Finset.range N, ‖X m‖ ^ 2 : ℝ) : ℂ) := by
    push_cast
    simp_rw [← Complex.mul_conj', map_sum, map_mul, Finset.sum_mul, Finset.mul_sum]
    rw [Finset.sum_comm]
    refine Finset.sum_congr rfl fun m hm => ?_
    rw [Finset.sum_comm]
    rw [Finset.sum_eq_single m]
    · have := wN_orth N m m (Finset.mem_range.mp hm) (Finset.mem_range.mp hm)
      rw [if_pos rfl] at this
      rw [← this, Finset.sum_mul]
      refine Finset.sum_congr rfl fun q _ => ?_
      rw [wN_comm N m q]
      ring
    · intro m' hm' hne
      have := wN_orth N m m' (Finset.mem_range.mp hm) (Finset.mem_range.mp hm')
      rw [if_neg (fun h => hne h.symm)] at this
      calc _ = X m * conj (X m') * ∑ q ∈ Finset.range N, wN N q m * conj (wN N q m') := by
            rw [Finset.mul_sum]
            refine Finset.sum_congr rfl fun q _ => ?_
            rw [wN_comm N m q, wN_comm N m' q]
            ring
        _ = 0 := by rw [this, mul_zero]
    · intro h
      exact absurd hm h
  exact_mod_cast key

theorem rfft_conj (N : ℕ) (x : ℕ → ℝ) (m : ℕ) :
    conj (rfft N x m) = ∑ p ∈ Finset.range N, (x p : ℂ) * wN N m p := by
  unfold rfft
  rw [map_sum]
  refine Finset.sum_congr rfl fun p _ => ?_
  rw [map_mul, Complex.conj_ofReal, ← wN_conj, Complex.conj_conj]

theorem ifft_conj_real (N : ℕ) (z : ℕ → ℝ) (m : ℕ) :
    conj (ifft N (fun p => (z p : ℂ)) m) = (∑ q ∈ Finset.range N, (z q : ℂ) * conj (wN N m q)) / (N : ℂ) := by
  unfold ifft
  rw [map_div₀, map_sum, Complex.conj_natCast]
  congr 1
  refine Finset.sum_congr rfl fun q _ => ?_
  rw [map_mul, Complex.conj_ofReal, wN_comm N m q]
  rfl

/-- The correlation theorem behind the small-`k` branch. -/
theorem irfft_correlation (n : ℕ) (hn : 0 < n) (x z : ℕ → ℝ) (hx : ∀ p, n ≤ p → x p = 0) (c : ℝ) (j : ℕ)
    (hj : j < n) :
    irfft n (fun m => conj (rfft (2 * n) x m) * conj (ifft (2 * n) (fun p => (z p : ℂ)) m) * (c : ℂ)) j
        * ((2 * n : ℕ) : ℝ)
      = c * ∑ p ∈ Finset.range n, x p * z (p + j) := by
  set N := 2 * n with hN
  have hN0 : N ≠ 0 := by omega
  have hNc : (N : ℂ) ≠ 0 := by exact_mod_cast hN0
  set X : ℕ → ℂ := fun m => conj (rfft N x m) * conj (ifft N (fun p => (z p : ℂ)) m) * (c : ℂ) with hX
  set Z : ℕ → ℂ := fun m => X m * wN N m j with hZ
  have hsum : ∑ m ∈ Finset.range N, Z m = ((c * ∑ p ∈ Finset.range n, x p * z (p + j) : ℝ) : ℂ) := by
    have h1 : ∀ m, Z m = (c : ℂ) / N * ∑ p ∈ Finset.range N, ∑ q ∈ Finset.range N,
        (x p : ℂ) * (z q : ℂ) * (wN N m (p + j) * conj (wN N m q)) := by
      intro m
      simp only [hZ, hX]
      rw [rfft_conj, ifft_conj_real]
      rw [show (∑ p ∈ Finset.range N, (x p : ℂ) * wN N m p) *
          ((∑ q ∈ Finset.range N, (z q : ℂ) * conj (wN N m q)) / (N : ℂ)) * (c : ℂ) * wN N m j
        = (c : ℂ) / N * ((∑ p ∈ Finset.range N, (x p : ℂ) * wN N m p) *
          (∑ q ∈ Finset.range N, (z q : ℂ) * conj (wN N m q)) * wN N m j) by ring]
      congr 1
      rw [Finset.sum_mul_sum, Finset.sum_mul]
      refine Finset.sum_congr rfl fun p _ => ?_
      rw [Finset.sum_mul]
      refine Finset.sum_congr rfl fun q _ => ?_
      rw [wN_add]
      ring
    simp_rw [h1]
    rw [← Finset.mul_sum, Finset.sum_comm]
    have h2 : ∀ p ∈ Finset.range N, ∑ m ∈ Finset.range N, ∑ q ∈ Finset.range N,
        (x p : ℂ) * (z q : ℂ) * (wN N m (p + j) * conj (wN N m q))
        = (N : ℂ) * ((x p : ℂ) * (z (p + j) : ℂ)) := by
      intro p _
      by_cases hp : n ≤ p
      · simp [hx p hp]
      · push Not at hp
        rw [Finset.sum_comm]
        rw [Finset.sum_eq_single (p + j)]
        · rw [← Finset.mul_sum, wN_orth N (p + j) (p + j) (by omega) (by omega), if_pos rfl]
          ring
        · intro q hq hne
          rw [← Finset.mul_sum, wN_orth N (p + j) q (by omega) (Finset.mem_range.mp hq),
            if_neg (fun h => hne h.symm), mul_zero]
        · intro h
          exact absurd (Finset.mem_range.mpr (by omega)) h
    rw [Finset.sum_congr rfl h2, ← Finset.mul_sum]
    have h3 : ∑ p ∈ Finset.range N, (x p : ℂ) * (z (p + j) : ℂ)
        = ∑ p ∈ Finset.range n, (x p : ℂ) * (z (p + j) : ℂ) := by
      refine (Finset.sum_subset (fun a ha => ?_) fun a _ ha => ?_).symm
      · have := Finset.mem_range.mp ha
        exact Finset.mem_range.mpr (by omega)
      · have : n ≤ a := by
          by_contra h
          exact ha (Finset.mem_range.mpr (by omega))
        simp [hx a this]
    rw [h3]
    push_cast
    field_simp
  have hsym : ∀ m, 0 < m → m < n → (Z (N - m)).re = (Z m).re := by
    intro m _ hm
    have hc : Z (N - m) = conj (Z m) := by
      simp only [hZ, hX]
      rw [map_mul, map_mul, map_mul, Complex.conj_conj, Complex.conj_conj, Complex.conj_ofReal,
        wN_neg N m j hN0 (by omega)]
      congr 3
      · rw [rfft_conj]
        have := congrArg conj (rfft_conj N x m)
        rw [Complex.conj_conj, map_sum] at this
        rw [this]
        refine Finset.sum_congr rfl fun p _ => ?_
        rw [wN_neg N m p hN0 (by omega), map_mul, Complex.conj_ofReal]
      · rw [ifft_conj_real]
        have := congrArg conj (ifft_conj_real N z m)
        rw [Complex.conj_conj, map_div₀, map_sum, Complex.conj_natCast] at this
        rw [this]
        congr 1
        refine Finset.sum_congr rfl fun p _ => ?_
        rw [wN_neg N m p hN0 (by omega), map_mul, Complex.conj_ofReal]
    rw [hc, Complex.conj_re]
  have hre := congrArg Complex.re hsum
  rw [Complex.ofReal_re, Complex.re_sum, hN, sum_range_symm n hn (fun m => (Z m).re) hsym] at hre
  rw [← hre]
  unfold irfft
  have hNr : ((2 * n : ℕ) : ℝ) ≠ 0 := by exact_mod_cast hN0
  rw [div_mul_cancel₀ _ hNr]
  have e0 : Z 0 = X 0 := by simp only [hZ]; rw [wN_zero, mul_one]
  have en : (Z n).re = (X n).re * (-1) ^ j := by
    simp only [hZ]
    rw [hN, wN_half n j (by omega)]
    rw [show ((-1 : ℂ)) ^ j = (((-1 : ℝ) ^ j : ℝ) : ℂ) by push_cast; rfl, Complex.re_mul_ofReal]
  rw [e0, en]
  rfl

end Jrystal
