import Verif.Model.Fft
import Mathlib.RingTheory.RootsOfUnity.Complex
import Mathlib.Algebra.Field.GeomSum
import Mathlib.Algebra.BigOperators.Field
import Mathlib.Tactic.Ring
import Mathlib.Tactic.FieldSimp
import Mathlib.Tactic.Linarith

namespace Jrystal
open scoped BigOperators ComplexConjugate

/-- Fourier factor `exp(2πi Σ k_i j_i / n_i)`. -/
noncomputable def omega {n : Fin 3 → ℕ} (k j : Idx n) : ℂ :=
  Complex.exp (2 * Real.pi * Complex.I * ∑ i, ((k i : ℕ) : ℂ) * ((j i : ℕ) : ℂ) / (n i : ℂ))

theorem omega_symm {n : Fin 3 → ℕ} (k j : Idx n) : omega k j = omega j k := by
  unfold omega
  simp_rw [mul_comm ((k _ : ℕ) : ℂ)]

theorem conj_omega {n : Fin 3 → ℕ} (k j : Idx n) :
    conj (omega k j) = Complex.exp (-(2 * Real.pi * Complex.I *
      ∑ i, ((k i : ℕ) : ℂ) * ((j i : ℕ) : ℂ) / (n i : ℂ))) := by
  unfold omega
  rw [← Complex.exp_conj]
  congr 1
  simp only [map_mul, map_ofNat, Complex.conj_ofReal, Complex.conj_I, map_sum, map_div₀,
    Complex.conj_natCast]
  ring

theorem fftn_eq {n : Fin 3 → ℕ} (f : Idx n → ℂ) (k : Idx n) :
    fftn f k = ∑ j, f j * conj (omega k j) := by
  unfold fftn
  simp_rw [conj_omega]

theorem ifftn_eq {n : Fin 3 → ℕ} (F : Idx n → ℂ) (j : Idx n) :
    ifftn F j = (∑ k, F k * omega k j) / (gridCount n : ℂ) := rfl

theorem omega_prod {n : Fin 3 → ℕ} (k j : Idx n) :
    omega k j = ∏ i, Complex.exp (2 * Real.pi * Complex.I *
      (((k i : ℕ) : ℂ) * ((j i : ℕ) : ℂ) / (n i : ℂ))) := by
  unfold omega
  rw [Finset.mul_sum, Complex.exp_sum]

theorem omega_mul_conj {n : Fin 3 → ℕ} (k j : Idx n) : omega k j * conj (omega k j) = 1 := by
  rw [conj_omega, omega, ← Complex.exp_add]
  simp

theorem norm_omega {n : Fin 3 → ℕ} (k j : Idx n) : ‖omega k j‖ = 1 := by
  have h := omega_mul_conj k j
  rw [Complex.mul_conj'] at h
  have h2 : ‖omega k j‖ ^ 2 = 1 := by exact_mod_cast h
  have h0 := norm_nonneg (omega k j)
  nlinarith

/-- Geometric sum on one axis. -/
theorem sum_exp_axis (n : ℕ) (a b : Fin n) :
    ∑ x : Fin n, Complex.exp (2 * Real.pi * Complex.I * (((a : ℕ) : ℂ) * ((x : ℕ) : ℂ) / (n : ℂ))) *
      Complex.exp (-(2 * Real.pi * Complex.I * (((b : ℕ) : ℂ) * ((x : ℕ) : ℂ) / (n : ℂ))))
      = if a = b then (n : ℂ) else 0 := by
  have hn : (n : ℂ) ≠ 0 := by
    have : n ≠ 0 := by have := a.2; omega
    exact_mod_cast this
  set ζ : ℂ := Complex.exp (2 * Real.pi * Complex.I * ((((a : ℕ) : ℂ) - ((b : ℕ) : ℂ)) / (n : ℂ))) with hζ
  have hterm : ∀ x : Fin n, Complex.exp (2 * Real.pi * Complex.I *
      (((a : ℕ) : ℂ) * ((x : ℕ) : ℂ) / (n : ℂ))) *
      Complex.exp (-(2 * Real.pi * Complex.I * (((b : ℕ) : ℂ) * ((x : ℕ) : ℂ) / (n : ℂ))))
      = ζ ^ (x : ℕ) := by
    intro x
    rw [hζ, ← Complex.exp_add, ← Complex.exp_nat_mul]
    congr 1
    field_simp
    ring
  simp_rw [hterm]
  rw [Fin.sum_univ_eq_sum_range (fun x => ζ ^ x) n]
  by_cases hab : a = b
  · rw [if_pos hab]
    have : ζ = 1 := by rw [hζ, hab]; simp
    rw [this]; simp
  · rw [if_neg hab]
    have h1 : ζ ≠ 1 := by
      intro h
      rw [hζ, Complex.exp_eq_one_iff] at h
      obtain ⟨m, hm⟩ := h
      have h2 : (2 * (Real.pi : ℂ) * Complex.I) ≠ 0 := Complex.two_pi_I_ne_zero
      have h3 : (((a : ℕ) : ℂ) - ((b : ℕ) : ℂ)) / (n : ℂ) = (m : ℂ) := by
        apply mul_left_cancel₀ h2
        rw [hm]; ring
      have h4 : ((a : ℕ) : ℂ) - ((b : ℕ) : ℂ) = (m : ℂ) * (n : ℂ) := by
        rw [← h3]; field_simp
      have h5 : ((a : ℕ) : ℤ) - ((b : ℕ) : ℤ) = m * (n : ℤ) := by exact_mod_cast h4
      have ha := a.2
      have hb := b.2
      have hne : (a : ℕ) ≠ (b : ℕ) := fun h => hab (Fin.ext h)
      have hm0 : m = 0 := by
        by_contra hm0
        rcases lt_or_gt_of_ne hm0 with hlt | hgt
        · have : m * (n : ℤ) ≤ (-1) * (n : ℤ) := by
            apply mul_le_mul_of_nonneg_right <;> omega
          omega
        · have : 1 * (n : ℤ) ≤ m * (n : ℤ) := by
            apply mul_le_mul_of_nonneg_right <;> omega
          omega
      rw [hm0] at h5
      omega
    have hpow : ζ ^ n = 1 := by
      rw [hζ, ← Complex.exp_nat_mul, Complex.exp_eq_one_iff]
      refine ⟨((a : ℕ) : ℤ) - ((b : ℕ) : ℤ), ?_⟩
      push_cast
      field_simp
    have := geom_sum_eq h1 n
    rw [this, hpow]
    simp

/-- Orthogonality of the Fourier factors. -/
theorem omega_orth {n : Fin 3 → ℕ} (k k' : Idx n) :
    ∑ j, omega k j * conj (omega k' j) = if k = k' then (gridCount n : ℂ) else 0 := by
  have h1 : ∀ j : Idx n, omega k j * conj (omega k' j)
      = ∏ i, (Complex.exp (2 * Real.pi * Complex.I * (((k i : ℕ) : ℂ) * ((j i : ℕ) : ℂ) / (n i : ℂ))) *
        Complex.exp (-(2 * Real.pi * Complex.I * (((k' i : ℕ) : ℂ) * ((j i : ℕ) : ℂ) / (n i : ℂ))))) := by
    intro j
    rw [Finset.prod_mul_distrib, ← omega_prod, conj_omega, Finset.mul_sum, ← Finset.sum_neg_distrib,
      Complex.exp_sum]
  simp_rw [h1]
  have h2 := Finset.prod_univ_sum (fun i : Fin 3 => (Finset.univ : Finset (Fin (n i))))
    (fun i x => Complex.exp (2 * Real.pi * Complex.I * (((k i : ℕ) : ℂ) * ((x : ℕ) : ℂ) / (n i : ℂ))) *
        Complex.exp (-(2 * Real.pi * Complex.I * (((k' i : ℕ) : ℂ) * ((x : ℕ) : ℂ) / (n i : ℂ)))))
  rw [Fintype.piFinset_univ] at h2
  rw [← h2]
  simp_rw [sum_exp_axis]
  by_cases h : k = k'
  · rw [if_pos h]
    subst h
    simp [gridCount]
  · rw [if_neg h]
    have : ∃ i, k i ≠ k' i := by
      by_contra hh
      push Not at hh
      exact h (funext hh)
    obtain ⟨i, hi⟩ := this
    exact Finset.prod_eq_zero (Finset.mem_univ i) (if_neg hi)

theorem omega_orth' {n : Fin 3 → ℕ} (j j' : Idx n) :
    ∑ k, omega k j * conj (omega k j') = if j = j' then (gridCount n : ℂ) else 0 := by
  simp_rw [fun k => omega_symm k j, fun k => omega_symm k j']
  exact omega_orth j j'

theorem gridCount_pos {n : Fin 3 → ℕ} (k : Idx n) : 0 < gridCount n := by
  unfold gridCount
  exact Finset.prod_pos fun i _ => by have := (k i).2; omega

theorem gridCount_ne {n : Fin 3 → ℕ} (k : Idx n) : (gridCount n : ℂ) ≠ 0 := by
  have := gridCount_pos k
  exact_mod_cast this.ne'

theorem gridCount_ne_real {n : Fin 3 → ℕ} (k : Idx n) : (gridCount n : ℝ) ≠ 0 := by
  have := gridCount_pos k
  exact_mod_cast this.ne'

theorem ifftn_fftn' {n : Fin 3 → ℕ} (f : Idx n → ℂ) : ifftn (fftn f) = f := by
  funext j
  rw [ifftn_eq, div_eq_iff (gridCount_ne j)]
  simp_rw [fftn_eq, Finset.sum_mul]
  rw [Finset.sum_comm]
  have : ∀ j', ∑ k, f j' * conj (omega k j') * omega k j
      = f j' * if j = j' then (gridCount n : ℂ) else 0 := by
    intro j'
    rw [← omega_orth' j j', Finset.mul_sum]
    exact Finset.sum_congr rfl fun k _ => by ring
  simp_rw [this]
  simp

theorem fftn_ifftn' {n : Fin 3 → ℕ} (F : Idx n → ℂ) : fftn (ifftn F) = F := by
  funext k
  rw [fftn_eq]
  simp_rw [ifftn_eq, div_mul_eq_mul_div]
  rw [← Finset.sum_div, div_eq_iff (gridCount_ne k)]
  simp_rw [Finset.sum_mul]
  rw [Finset.sum_comm]
  have : ∀ k', ∑ j, F k' * omega k' j * conj (omega k j)
      = F k' * if k' = k then (gridCount n : ℂ) else 0 := by
    intro k'
    rw [← omega_orth k' k, Finset.mul_sum]
    exact Finset.sum_congr rfl fun j _ => by ring
  simp_rw [this]
  simp

/-- Parseval. -/
theorem fftn_parseval {n : Fin 3 → ℕ} (f g : Idx n → ℂ) :
    ∑ k, conj (fftn f k) * fftn g k = (gridCount n : ℂ) * ∑ j, conj (f j) * g j := by
  simp_rw [fftn_eq, map_sum, map_mul, Complex.conj_conj, Finset.sum_mul_sum]
  rw [Finset.sum_comm]
  have : ∀ j, ∑ k, ∑ j', conj (f j) * omega k j * (g j' * conj (omega k j'))
      = (gridCount n : ℂ) * (conj (f j) * g j) := by
    intro j
    rw [Finset.sum_comm]
    have h2 : ∀ j', ∑ k, conj (f j) * omega k j * (g j' * conj (omega k j'))
        = conj (f j) * g j' * if j = j' then (gridCount n : ℂ) else 0 := by
      intro j'
      rw [← omega_orth' j j', Finset.mul_sum]
      exact Finset.sum_congr rfl fun k _ => by ring
    simp_rw [h2]
    simp
    ring
  simp_rw [this]
  rw [Finset.mul_sum]

/-- Parseval for the inverse transform. -/
theorem ifftn_parseval {n : Fin 3 → ℕ} (F G : Idx n → ℂ) :
    (gridCount n : ℂ) * ∑ j, conj (ifftn F j) * ifftn G j = ∑ k, conj (F k) * G k := by
  rw [← fftn_parseval, fftn_ifftn', fftn_ifftn']

theorem fftn_add {n : Fin 3 → ℕ} (f g : Idx n → ℂ) (k : Idx n) :
    fftn (fun j => f j + g j) k = fftn f k + fftn g k := by
  simp_rw [fftn_eq, add_mul, Finset.sum_add_distrib]

theorem fftn_smul {n : Fin 3 → ℕ} (c : ℂ) (f : Idx n → ℂ) (k : Idx n) :
    fftn (fun j => c * f j) k = c * fftn f k := by
  simp_rw [fftn_eq, Finset.mul_sum, mul_assoc]

theorem ifftn_add {n : Fin 3 → ℕ} (f g : Idx n → ℂ) (k : Idx n) :
    ifftn (fun j => f j + g j) k = ifftn f k + ifftn g k := by
  simp_rw [ifftn_eq, add_mul, Finset.sum_add_distrib, add_div]

theorem ifftn_smul {n : Fin 3 → ℕ} (c : ℂ) (f : Idx n → ℂ) (k : Idx n) :
    ifftn (fun j => c * f j) k = c * ifftn f k := by
  simp_rw [ifftn_eq, mul_assoc, ← Finset.mul_sum, mul_div_assoc]

theorem ifftn_sum {n : Fin 3 → ℕ} {ι : Type*} (s : Finset ι) (F : ι → Idx n → ℂ) (j : Idx n) :
    ifftn (fun k => ∑ a ∈ s, F a k) j = ∑ a ∈ s, ifftn (F a) j := by
  simp_rw [ifftn_eq, Finset.sum_mul]
  rw [Finset.sum_comm, Finset.sum_div]

theorem fftn_sum {n : Fin 3 → ℕ} {ι : Type*} (s : Finset ι) (F : ι → Idx n → ℂ) (j : Idx n) :
    fftn (fun k => ∑ a ∈ s, F a k) j = ∑ a ∈ s, fftn (F a) j := by
  simp_rw [fftn_eq, Finset.sum_mul]
  rw [Finset.sum_comm]

/-- Index of `-k`. -/
def negIdx {n : Fin 3 → ℕ} (k : Idx n) : Idx n :=
  fun i => ⟨(n i - (k i : ℕ)) % n i, Nat.mod_lt _ (by have := (k i).2; omega)⟩

/-- Index of `j + t`. -/
def addIdx {n : Fin 3 → ℕ} (j t : Idx n) : Idx n :=
  fun i => ⟨((j i : ℕ) + (t i : ℕ)) % n i, Nat.mod_lt _ (by have := (j i).2; omega)⟩

theorem exp_axis_mod (n a b : ℕ) (hn : n ≠ 0) :
    Complex.exp (2 * Real.pi * Complex.I * (((a % n : ℕ) : ℂ) * (b : ℂ) / (n : ℂ)))
      = Complex.exp (2 * Real.pi * Complex.I * ((a : ℂ) * (b : ℂ) / (n : ℂ))) := by
  rw [Complex.exp_eq_exp_iff_exists_int]
  refine ⟨-(((a / n : ℕ) : ℤ) * (b : ℤ)), ?_⟩
  have hn' : (n : ℂ) ≠ 0 := by exact_mod_cast hn
  have h : (a : ℂ) = (n : ℂ) * ((a / n : ℕ) : ℂ) + ((a % n : ℕ) : ℂ) := by
    have := Nat.div_add_mod a n
    exact_mod_cast this.symm
  rw [h]
  simp only [Int.cast_neg, Int.cast_mul, Int.cast_natCast]
  field_simp
  ring

theorem omega_neg {n : Fin 3 → ℕ} (k j : Idx n) : omega (negIdx k) j = conj (omega k j) := by
  rw [conj_omega, omega_prod, Finset.mul_sum, ← Finset.sum_neg_distrib, Complex.exp_sum]
  refine Finset.prod_congr rfl fun i _ => ?_
  have hk := (k i).2
  have hn : n i ≠ 0 := by omega
  show Complex.exp (2 * Real.pi * Complex.I *
    ((((n i - (k i : ℕ)) % n i : ℕ) : ℂ) * ((j i : ℕ) : ℂ) / (n i : ℂ))) = _
  rw [exp_axis_mod _ _ _ hn, Complex.exp_eq_exp_iff_exists_int]
  refine ⟨((j i : ℕ) : ℤ), ?_⟩
  have hn' : (n i : ℂ) ≠ 0 := by exact_mod_cast hn
  rw [Nat.cast_sub hk.le]
  push_cast
  field_simp
  ring

theorem omega_add {n : Fin 3 → ℕ} (k j t : Idx n) : omega k (addIdx j t) = omega k j * omega k t := by
  rw [omega_symm k, omega_symm k j, omega_symm k t, omega_prod, omega_prod, omega_prod,
    ← Finset.prod_mul_distrib]
  refine Finset.prod_congr rfl fun i _ => ?_
  have hj := (j i).2
  have hn : n i ≠ 0 := by omega
  show Complex.exp (2 * Real.pi * Complex.I *
    (((((j i : ℕ) + (t i : ℕ)) % n i : ℕ) : ℂ) * ((k i : ℕ) : ℂ) / (n i : ℂ))) = _
  rw [exp_axis_mod _ _ _ hn, ← Complex.exp_add]
  congr 1
  push_cast
  ring

theorem negIdx_negIdx {n : Fin 3 → ℕ} (k : Idx n) : negIdx (negIdx k) = k := by
  funext i
  apply Fin.ext
  have hk := (k i).2
  show (n i - (n i - (k i : ℕ)) % n i) % n i = k i
  by_cases h0 : (k i : ℕ) = 0
  · rw [h0]; simp
  · rw [Nat.mod_eq_of_lt (by omega : n i - (k i : ℕ) < n i), Nat.mod_eq_of_lt (by omega)]
    omega

/-- `negIdx` as a permutation. -/
def negEquiv (n : Fin 3 → ℕ) : Equiv.Perm (Idx n) := ⟨negIdx, negIdx, negIdx_negIdx, negIdx_negIdx⟩

theorem addIdx_neg {n : Fin 3 → ℕ} (j t : Idx n) : addIdx (addIdx j t) (negIdx t) = j := by
  funext i
  apply Fin.ext
  have hj := (j i).2
  have ht := (t i).2
  show (((j i : ℕ) + (t i : ℕ)) % n i + (n i - (t i : ℕ)) % n i) % n i = j i
  rw [← Nat.add_mod, show (j i : ℕ) + (t i : ℕ) + (n i - (t i : ℕ)) = (j i : ℕ) + n i by omega,
    Nat.add_mod_right, Nat.mod_eq_of_lt hj]

/-- Translation by `t` as a permutation. -/
def addEquiv {n : Fin 3 → ℕ} (t : Idx n) : Equiv.Perm (Idx n) :=
  ⟨fun j => addIdx j t, fun j => addIdx j (negIdx t), fun j => addIdx_neg j t, fun j => by
    have := addIdx_neg j (negIdx t)
    rwa [negIdx_negIdx] at this⟩

/-- The transform of a real array is Hermitian. -/
theorem fftn_real_neg {n : Fin 3 → ℕ} (f : Idx n → ℝ) (k : Idx n) :
    fftn (fun j => (f j : ℂ)) (negIdx k) = conj (fftn (fun j => (f j : ℂ)) k) := by
  rw [fftn_eq, fftn_eq, map_sum]
  refine Finset.sum_congr rfl fun j _ => ?_
  rw [omega_neg, map_mul, Complex.conj_ofReal]

/-- An array whose spectrum is Hermitian is real. -/
theorem ifftn_hermitian_real {n : Fin 3 → ℕ} (F : Idx n → ℂ) (h : ∀ k, F (negIdx k) = conj (F k))
    (j : Idx n) : conj (ifftn F j) = ifftn F j := by
  rw [ifftn_eq, map_div₀, Complex.conj_natCast, map_sum]
  congr 1
  rw [← Equiv.sum_comp (negEquiv n) (fun k => F k * omega k j)]
  refine Finset.sum_congr rfl fun k _ => ?_
  show conj (F k * omega k j) = F (negIdx k) * omega (negIdx k) j
  rw [h, omega_neg, map_mul]

/-- Zero index. -/
def zeroIdx {n : Fin 3 → ℕ} (hn : ∀ i, 0 < n i) : Idx n := fun i => ⟨0, hn i⟩

theorem omega_zero {n : Fin 3 → ℕ} (k j : Idx n) (hk : ∀ i, (k i : ℕ) = 0) : omega k j = 1 := by
  unfold omega
  simp [hk]

theorem fftn_zero {n : Fin 3 → ℕ} (f : Idx n → ℂ) (k : Idx n) (hk : ∀ i, (k i : ℕ) = 0) :
    fftn f k = ∑ j, f j := by
  rw [fftn_eq]
  exact Finset.sum_congr rfl fun j _ => by rw [omega_zero k j hk]; simp

/-- Transform of a translated array: `f'(j + t) = f(j)`. -/
theorem fftn_translate {n : Fin 3 → ℕ} (f f' : Idx n → ℂ) (t : Idx n)
    (h : ∀ j, f' (addIdx j t) = f j) (k : Idx n) : fftn f' k = fftn f k * conj (omega k t) := by
  rw [fftn_eq, fftn_eq, Finset.sum_mul, ← Equiv.sum_comp (addEquiv t)]
  refine Finset.sum_congr rfl fun j _ => ?_
  show f' (addIdx j t) * conj (omega k (addIdx j t)) = _
  rw [h, omega_add, map_mul]
  ring

end Jrystal
