import Verif.Lemmas.Grid
import Mathlib.Analysis.SpecialFunctions.Complex.Circle

/- C02, C03, C06: duality of the grids, spherical mask, maximum cutoff. -/
namespace Jrystal
open scoped BigOperators
open Matrix

/-! ### C02 -/

/-- C02: `G_k · r_j = 2π Σ k_i j_i / n_i` modulo `2π`. -/
theorem grid_duality (A : Matrix (Fin 3) (Fin 3) ℝ) (hA : A.det ≠ 0) (n : Fin 3 → ℕ) (k j : Idx n) :
    ∃ m : ℤ, Spec.dot (gVectors A n k) (rVectors A n j)
      = 2 * Real.pi * (∑ i, ((k i : ℕ) : ℝ) * ((j i : ℕ) : ℝ) / (n i : ℝ)) + 2 * Real.pi * m := by
  have hdot : Spec.dot (gVectors A n k) (rVectors A n j)
      = 2 * Real.pi * ∑ i, (sfreq (n i) (k i) : ℝ) * ((sfreq (n i) (j i) : ℝ) / n i) := by
    unfold Spec.dot
    simp_rw [gVectors_apply, rVectors_apply]
    exact dual_dot A hA _ _
  choose p hp using fun i => sfreq_cong (k i).2
  choose q hq using fun i => sfreq_cong (j i).2
  refine ⟨∑ i, ((k i : ℕ) * q i + p i * (j i : ℕ) + n i * p i * q i), ?_⟩
  rw [hdot, ← mul_add]
  congr 1
  push_cast
  rw [← Finset.sum_add_distrib]
  refine Finset.sum_congr rfl fun i _ => ?_
  have hn : (n i : ℝ) ≠ 0 := by
    have := (k i).2
    exact_mod_cast (by omega : n i ≠ 0)
  rw [hp i, hq i]
  push_cast
  field_simp
  ring

/-- C02: `exp(i G_k·r_j)` is the kernel of the discrete Fourier transform. -/
theorem grid_duality_exp (A : Matrix (Fin 3) (Fin 3) ℝ) (hA : A.det ≠ 0) (n : Fin 3 → ℕ)
    (k j : Idx n) :
    Complex.exp (Complex.I * (Spec.dot (gVectors A n k) (rVectors A n j) : ℝ))
      = ∏ i, Complex.exp (2 * Real.pi * Complex.I * ((k i : ℕ) : ℂ) * ((j i : ℕ) : ℂ) / (n i : ℂ)) := by
  obtain ⟨m, hm⟩ := grid_duality A hA n k j
  rw [hm, ← Complex.exp_sum, Complex.exp_eq_exp_iff_exists_int]
  refine ⟨m, ?_⟩
  push_cast
  rw [mul_add, Finset.mul_sum, Finset.mul_sum]
  congr 1
  · refine Finset.sum_congr rfl fun i _ => by ring
  · ring

/-- C02: the vector at index zero is zero. -/
theorem gVectors_zero (A : Matrix (Fin 3) (Fin 3) ℝ) (n : Fin 3 → ℕ) (k : Idx n)
    (hk : ∀ i, (k i : ℕ) = 0) : gVectors A n k = 0 := by
  funext d
  rw [gVectors_apply]
  refine Finset.sum_eq_zero fun i _ => ?_
  rw [hk i, sfreq_zero]; simp

/-- C02: no other index carries the zero vector; more generally the vectors are distinct. -/
theorem gVectors_injective (A : Matrix (Fin 3) (Fin 3) ℝ) (hA : A.det ≠ 0) (n : Fin 3 → ℕ) :
    Function.Injective (gVectors A n) := by
  intro k k' h
  have := row_comb_inj _ (recip_det_ne_zero A hA) (fun i => (sfreq (n i) (k i) : ℝ))
    (fun i => (sfreq (n i) (k' i) : ℝ)) (fun d => by
      have := congrFun h d
      rwa [gVectors_apply, gVectors_apply] at this)
  funext i
  have hi := congrFun this i
  exact Fin.ext (sfreq_inj (k i).2 (k' i).2 (by exact_mod_cast hi))

/-- C02: cell vectors times transposed reciprocal vectors is `2π` times the identity. -/
theorem reciprocal_dual (A : Matrix (Fin 3) (Fin 3) ℝ) (hA : A.det ≠ 0) :
    A * (reciprocalVectors A)ᵀ = (2 * Real.pi) • (1 : Matrix (Fin 3) (Fin 3) ℝ) :=
  recip_dual A hA

/-- C02: the real-space grid point at index `j` is the point with fractional coordinates
`j_i / n_i`, up to a lattice vector. -/
theorem rVectors_fraction (A : Matrix (Fin 3) (Fin 3) ℝ) (n : Fin 3 → ℕ) (j : Idx n) :
    Spec.IsLatticeVector A
      (fun d => rVectors A n j d - ∑ i, ((j i : ℕ) : ℝ) / (n i : ℝ) * A i d) := by
  choose q hq using fun i => sfreq_cong (j i).2
  refine ⟨q, fun d => ?_⟩
  beta_reduce
  rw [rVectors_apply, ← Finset.sum_sub_distrib]
  refine Finset.sum_congr rfl fun i _ => ?_
  have hn : (n i : ℝ) ≠ 0 := by
    have := (j i).2
    exact_mod_cast (by omega : n i ≠ 0)
  rw [hq i]
  push_cast
  field_simp
  ring

/-- Witness for the hypotheses of C02: a skew cell is invertible. -/
example : (!![1, 0, 0; 1, 2, 0; 0, 1, 3] : Matrix (Fin 3) (Fin 3) ℝ).det ≠ 0 := by
  simp [Matrix.det_fin_three]

/-! ### C03 -/

/-- C03: the spherical mask is the kinetic-energy cutoff set. -/
theorem sphericalMask_iff (A : Matrix (Fin 3) (Fin 3) ℝ) (n : Fin 3 → ℕ) (E : ℝ) (k : Idx n) :
    sphericalMask A n E k = true ↔ Spec.kineticEnergy (gVectors A n k) ≤ E := by
  unfold sphericalMask Spec.kineticEnergy
  rw [decide_eq_true_iff, sqrt_normSq3, normSq3_eq_dot]
  constructor <;> intro h <;> linarith

/-- C03: the magnitudes of the vectors are their Euclidean lengths, and the mask compares half their squares
with the cutoff. -/
theorem gridVectorRadius_spec {I : Type*} (v : I → Fin 3 → ℝ) (k : I) :
    0 ≤ gridVectorRadius v k ∧ gridVectorRadius v k ^ 2 = Spec.dot (v k) (v k) ∧
      ∀ (A : Matrix (Fin 3) (Fin 3) ℝ) (n : Fin 3 → ℕ) (E : ℝ) (j : Idx n),
        sphericalMask A n E j = true ↔ gridVectorRadius (gVectors A n) j ^ 2 / 2 ≤ E := by
  refine ⟨Real.sqrt_nonneg _, ?_, fun A n E j => ?_⟩
  · unfold gridVectorRadius
    rw [sqrt_normSq3, normSq3_eq_dot]
  · rw [sphericalMask_iff]
    unfold gridVectorRadius Spec.kineticEnergy
    rw [sqrt_normSq3, normSq3_eq_dot]

/-- C03: the mask grows with the cutoff. -/
theorem sphericalMask_mono (A : Matrix (Fin 3) (Fin 3) ℝ) (n : Fin 3 → ℕ) {E E' : ℝ} (h : E ≤ E')
    (k : Idx n) (hk : sphericalMask A n E k = true) : sphericalMask A n E' k = true := by
  rw [sphericalMask_iff] at *
  linarith

/-- C03: the zero vector is in the mask exactly for non-negative cutoffs. -/
theorem sphericalMask_zero (A : Matrix (Fin 3) (Fin 3) ℝ) (n : Fin 3 → ℕ) (E : ℝ) (k : Idx n)
    (hk : ∀ i, (k i : ℕ) = 0) : sphericalMask A n E k = true ↔ 0 ≤ E := by
  rw [sphericalMask_iff, gVectors_zero A n k hk]
  simp [Spec.kineticEnergy, Spec.dot]

/-- C03: the mask does not distinguish `G` from `-G`. -/
theorem sphericalMask_neg (A : Matrix (Fin 3) (Fin 3) ℝ) (n : Fin 3 → ℕ) (E : ℝ) (k k' : Idx n)
    (h : gVectors A n k' = - gVectors A n k) :
    sphericalMask A n E k' = sphericalMask A n E k := by
  have : Spec.kineticEnergy (gVectors A n k') = Spec.kineticEnergy (gVectors A n k) := by
    rw [h]; simp [Spec.kineticEnergy, Spec.dot]
  have h1 := sphericalMask_iff A n E k
  have h2 := sphericalMask_iff A n E k'
  rw [this, ← h1] at h2
  exact Bool.eq_iff_iff.2 h2

/-- C03: `-G` is on the grid whenever no component of the index is the Nyquist index `n_i/2`
(in particular at every index of a grid with odd sizes). -/
theorem gVectors_neg_exists (A : Matrix (Fin 3) (Fin 3) ℝ) (n : Fin 3 → ℕ) (k : Idx n)
    (hk : ∀ i, 2 * (k i : ℕ) ≠ n i) : ∃ k' : Idx n, gVectors A n k' = - gVectors A n k := by
  refine ⟨fun i => ⟨(n i - (k i : ℕ)) % n i, Nat.mod_lt _ (by have := (k i).2; omega)⟩, ?_⟩
  funext d
  rw [Pi.neg_apply, gVectors_apply, gVectors_apply, ← Finset.sum_neg_distrib]
  refine Finset.sum_congr rfl fun i _ => ?_
  have hlt := (k i).2
  have key : sfreq (n i) ((n i - (k i : ℕ)) % n i) = - sfreq (n i) (k i) := by
    rcases Nat.eq_zero_or_pos (k i : ℕ) with h0 | h0
    · rw [h0]; simp [sfreq_zero]
    · rw [Nat.mod_eq_of_lt (by omega), sfreq_eq (by omega), sfreq_eq hlt]
      have := hk i
      split_ifs <;> omega
  simp only [key]
  push_cast; ring

/-- Witness: index (1,2,0) on a 3×5×1 grid has no Nyquist component. -/
example : ∀ i, 2 * ((![1, 2, 0] : Fin 3 → ℕ) i) ≠ (![3, 5, 1] : Fin 3 → ℕ) i := by decide

/-! ### C06 -/

/-- C06: the estimate is an upper bound of the kinetic energies of the masked vectors. -/
theorem estimateMaxCutoff_upper (A : Matrix (Fin 3) (Fin 3) ℝ) (n : Fin 3 → ℕ) (mask : Idx n → Bool)
    (hne : (Finset.univ : Finset (Idx n)).Nonempty) (k : Idx n) (hk : mask k = true) :
    Spec.kineticEnergy (gVectors A n k) ≤ estimateMaxCutoffEnergy A n mask hne := by
  unfold estimateMaxCutoffEnergy
  refine le_trans (le_of_eq ?_) (Finset.le_sup' _ (Finset.mem_univ k))
  rw [sqrt_normSq3, normSq3_eq_dot, hk]
  simp [Spec.kineticEnergy]

/-- C06: the estimate is attained by a masked vector, or is zero when the mask is empty. -/
theorem estimateMaxCutoff_attained (A : Matrix (Fin 3) (Fin 3) ℝ) (n : Fin 3 → ℕ)
    (mask : Idx n → Bool) (hne : (Finset.univ : Finset (Idx n)).Nonempty) :
    (∃ k, mask k = true ∧ estimateMaxCutoffEnergy A n mask hne = Spec.kineticEnergy (gVectors A n k))
      ∨ ((∀ k, mask k = false) ∧ estimateMaxCutoffEnergy A n mask hne = 0) := by
  by_cases hall : ∀ k, mask k = false
  · right
    refine ⟨hall, ?_⟩
    unfold estimateMaxCutoffEnergy
    obtain ⟨k, -, hk⟩ := Finset.exists_mem_eq_sup' hne (fun k =>
      (Real.sqrt (normSq3 (gVectors A n k))) ^ 2 / 2 * (if mask k then (1 : ℝ) else 0))
    rw [hk, hall k]; simp
  · left
    push Not at hall
    obtain ⟨k0, hk0⟩ := hall
    have hk0' : mask k0 = true := by simpa using hk0
    obtain ⟨k, -, hk⟩ := Finset.exists_mem_eq_sup' hne (fun k =>
      (Real.sqrt (normSq3 (gVectors A n k))) ^ 2 / 2 * (if mask k then (1 : ℝ) else 0))
    by_cases hmk : mask k = true
    · refine ⟨k, hmk, ?_⟩
      unfold estimateMaxCutoffEnergy
      rw [hk, sqrt_normSq3, normSq3_eq_dot, hmk]; simp [Spec.kineticEnergy]
    · refine ⟨k0, hk0', le_antisymm ?_ (estimateMaxCutoff_upper A n mask hne k0 hk0')⟩
      have : estimateMaxCutoffEnergy A n mask hne = 0 := by
        unfold estimateMaxCutoffEnergy; rw [hk]; simp [hmk]
      rw [this]
      unfold Spec.kineticEnergy Spec.dot
      have : 0 ≤ ∑ d, gVectors A n k0 d * gVectors A n k0 d :=
        Finset.sum_nonneg fun d _ => mul_self_nonneg _
      linarith

/-- C06: the sphere with the estimated cutoff contains the mask. -/
theorem estimateMaxCutoff_contains (A : Matrix (Fin 3) (Fin 3) ℝ) (n : Fin 3 → ℕ)
    (mask : Idx n → Bool) (hne : (Finset.univ : Finset (Idx n)).Nonempty) (k : Idx n)
    (hk : mask k = true) :
    sphericalMask A n (estimateMaxCutoffEnergy A n mask hne) k = true :=
  (sphericalMask_iff _ _ _ _).2 (estimateMaxCutoff_upper A n mask hne k hk)

/-- C06: the sphere of any smaller cutoff misses a vector of the (non-empty) mask. -/
theorem estimateMaxCutoff_tight (A : Matrix (Fin 3) (Fin 3) ℝ) (n : Fin 3 → ℕ)
    (mask : Idx n → Bool) (hne : (Finset.univ : Finset (Idx n)).Nonempty) (hm : ∃ k, mask k = true)
    (E : ℝ) (hE : E < estimateMaxCutoffEnergy A n mask hne) :
    ∃ k, mask k = true ∧ sphericalMask A n E k = false := by
  rcases estimateMaxCutoff_attained A n mask hne with ⟨k, hk, he⟩ | ⟨hall, -⟩
  · refine ⟨k, hk, ?_⟩
    have : ¬ sphericalMask A n E k = true := by
      rw [sphericalMask_iff, ← he]; exact not_le.2 hE
    simpa using this
  · obtain ⟨k, hk⟩ := hm
    rw [hall k] at hk; exact absurd hk (by simp)

/-- Witness: the index set of a 2×3×4 grid is non-empty and has a non-trivial mask. -/
example : (Finset.univ : Finset (Idx ![2, 3, 4])).Nonempty := by
  refine ⟨fun i => ⟨0, ?_⟩, Finset.mem_univ _⟩
  fin_cases i <;> simp

end Jrystal
