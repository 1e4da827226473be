import Verif.Lemmas.Planewave
import Verif.Props.Grid
import Verif.Props.Cell
import Verif.Props.Occupation

/- C10–C14 (and the density part of C16). -/
namespace Jrystal
open scoped BigOperators ComplexConjugate

/-! ### C10 -/

/-- C10: on a selected grid index the expanded array holds the compact coefficient whose number is
the count of selected indices before it in row-major order; elsewhere it is zero. -/
theorem expandCoefficient_spec {ns nk nb : ℕ} {n : Fin 3 → ℕ} (mask : Idx n → Bool)
    (c : Fin ns → Fin nk → Fin (maskCount mask) → Fin nb → ℂ) (s : Fin ns) (k : Fin nk) (b : Fin nb)
    (x : Idx n) :
    (mask x = false → expandCoefficient mask c s k b x = 0) ∧
    (mask x = true → ∃ h : (Finset.univ.filter fun y => mask y = true ∧
        Spec.rowMajor y < Spec.rowMajor x).card < maskCount mask,
      expandCoefficient mask c s k b x = c s k ⟨_, h⟩ b) := by
  refine ⟨fun h => scatterMask_off mask _ x h, fun h => ?_⟩
  obtain ⟨a, rfl⟩ := exists_maskPos mask h
  have hc := card_before mask a
  refine ⟨hc ▸ a.2, ?_⟩
  have : (⟨_, hc ▸ a.2⟩ : Fin (maskCount mask)) = a := Fin.ext hc
  rw [this]
  exact scatterMask_get mask _ a

/-- C10: the size of the compact axis is the number of selected indices, and this is the size that
`param_init` uses. -/
theorem maskCount_spec {n : Fin 3 → ℕ} (mask : Idx n → Bool) :
    maskCount mask = (Finset.univ.filter fun y => mask y = true).card := by
  have h : (Finset.univ.filter fun y => mask y = true)
      = (Finset.univ : Finset (Fin (maskCount mask))).map
        ⟨maskPos mask, maskList_get_inj mask⟩ := by
    ext y
    simp only [Finset.mem_filter, Finset.mem_univ, true_and, Finset.mem_map,
      Function.Embedding.coeFn_mk]
    exact ⟨fun h => exists_maskPos mask h, fun ⟨a, ha⟩ => ha ▸ maskPos_mask mask a⟩
  rw [h, Finset.card_map, Finset.card_univ, Fintype.card_fin]

/-- C10/C11: `param_init` makes arrays of shape `(1 or 2, kpt, number of selected indices, band)`. -/
theorem paramShape_spec {n : Fin 3 → ℕ} (nb nk : ℕ) (mask : Idx n → Bool) (restricted : Bool) :
    paramShape nb nk mask restricted
      = [if restricted then 1 else 2, nk, (Finset.univ.filter fun y => mask y = true).card, nb] := by
  rw [← maskCount_spec]
  unfold paramShape
  have : ∀ l : List (Idx n), (l.map fun k => if mask k then 1 else 0).sum = (l.filter mask).length := by
    intro l
    induction l with
    | nil => rfl
    | cons a t ih =>
      rw [List.map_cons, List.sum_cons, ih, List.filter_cons]
      split
      · simp; omega
      · simp
  rw [this]
  rfl

/-- C10: inner products of bands are the same in the two layouts. -/
theorem expandCoefficient_inner {ns nk nb : ℕ} {n : Fin 3 → ℕ} (mask : Idx n → Bool)
    (c c' : Fin ns → Fin nk → Fin (maskCount mask) → Fin nb → ℂ) (s : Fin ns) (k : Fin nk)
    (b b' : Fin nb) :
    ∑ x, conj (expandCoefficient mask c s k b x) * expandCoefficient mask c' s k b' x
      = ∑ g, conj (c s k g b) * c' s k g b' :=
  scatterMask_inner mask _ _

/-- C10: gathering the selected positions (the computation `squeeze_coefficient` documents) inverts
the expansion, and expanding gathered coefficients restores an array that vanishes off the mask. -/
theorem gather_expand {ns nk nb : ℕ} {n : Fin 3 → ℕ} (mask : Idx n → Bool) :
    (∀ c : Fin ns → Fin nk → Fin (maskCount mask) → Fin nb → ℂ,
      gatherMask mask (expandCoefficient mask c) = c) ∧
    (∀ c : Coef ns nk nb n, (∀ s k b x, mask x = false → c s k b x = 0) →
      expandCoefficient mask (gatherMask mask c) = c) := by
  refine ⟨fun c => ?_, fun c hc => ?_⟩
  · funext s k g b
    exact scatterMask_get mask _ g
  · funext s k b x
    cases h : mask x with
    | false => rw [hc s k b x h]; exact scatterMask_off mask _ x h
    | true =>
      obtain ⟨a, rfl⟩ := exists_maskPos mask h
      exact scatterMask_get mask _ a

/-- C10 fails for `squeeze_coefficient` itself: it raises on every input. -/
theorem squeezeCoefficient_fails {ns nk nb : ℕ} {n : Fin 3 → ℕ} (mask : Idx n → Bool)
    (c : Coef ns nk nb n) : squeezeCoefficient mask c = .error .attributeError := rfl

/-- Two of eight indices selected: the second compact coefficient goes to the second of them. -/
example : maskCount (n := fun _ => 2) (fun k => k 0 = 1 && k 1 = 0) = 2 := by
  rw [maskCount_spec]; decide

/-! ### C11 -/

/-- C11: for all parameters the returned bands are orthonormal at each spin and k point. -/
theorem pwCoeff_orthonormal (qr : QR ℂ) {ns nk nb : ℕ} {n : Fin 3 → ℕ} (mask : Idx n → Bool)
    (p : PwParams ns nk (maskCount mask) nb) (s : Fin ns) (k : Fin nk) :
    Spec.Orthonormal' (fun u v : Idx n → ℂ => ∑ x, conj (u x) * v x) (pwCoeff qr mask p s k) := by
  intro i j
  show ∑ x, conj (pwCoeff qr mask p s k i x) * pwCoeff qr mask p s k j x = _
  unfold pwCoeff
  rw [expandCoefficient_inner]
  have h := congrFun (congrFun (qr.orth (Matrix.of fun a b =>
    (p.re s k a b : ℂ) + Complex.I * (p.im s k a b : ℂ))) i) j
  rw [Matrix.mul_apply, Matrix.one_apply] at h
  rw [← h]
  rfl

/-- C11: they vanish outside the frequency mask. -/
theorem pwCoeff_support (qr : QR ℂ) {ns nk nb : ℕ} {n : Fin 3 → ℕ} (mask : Idx n → Bool)
    (p : PwParams ns nk (maskCount mask) nb) (s : Fin ns) (k : Fin nk) (b) (x : Idx n)
    (hx : mask x = false) : pwCoeff qr mask p s k b x = 0 :=
  scatterMask_off mask _ x hx

/-- C11: the wave functions are orthonormal for the inner product of the cell. -/
theorem waveGrid_orthonormal (qr : QR ℂ) {ns nk nb : ℕ} {n : Fin 3 → ℕ} (hn : ∀ i, 0 < n i)
    (mask : Idx n → Bool) (p : PwParams ns nk (maskCount mask) nb) (vol : ℝ) (hv : 0 < vol)
    (s : Fin ns) (k : Fin nk) :
    Spec.Orthonormal' (Spec.cellInner vol) (waveGrid (pwCoeff qr mask p) vol s k) := by
  intro i j
  unfold Spec.cellInner
  rw [waveGrid_inner _ _ vol hv s k i j hn]
  exact pwCoeff_orthonormal qr mask p s k i j

/-- C11: more generally `wave_grid` is an isometry: inner products of wave functions are inner
products of coefficients, for all coefficient arrays. -/
theorem waveGrid_isometry {ns nk nb : ℕ} {n : Fin 3 → ℕ} (hn : ∀ i, 0 < n i) (c c' : Coef ns nk nb n)
    (vol : ℝ) (hv : 0 < vol) (s : Fin ns) (k : Fin nk) (i j : Fin nb) :
    Spec.cellInner vol (waveGrid c vol s k i) (waveGrid c' vol s k j)
      = ∑ x, conj (c s k i x) * c' s k j x :=
  waveGrid_inner c c' vol hv s k i j hn

/-- A mask, parameters and a QR routine meeting the hypotheses: two bands on two plane waves. -/
example : ∃ p : PwParams 1 1 (maskCount (n := fun _ => 2) (fun k => k 0 = 1 && k 1 = 0)) 2,
    Spec.Orthonormal' (Spec.cellInner 1)
      (waveGrid (pwCoeff (trivialQR ℂ) _ p) 1 0 0) :=
  ⟨⟨fun _ _ => 0, fun _ _ => 0⟩, waveGrid_orthonormal _ (by simp) _ _ 1 one_pos _ _⟩

/-! ### C12 -/

/-- C12: `wave_grid` holds the values of the plane-wave expansion at the grid points. -/
theorem waveGrid_expansion {ns nk nb : ℕ} (A : Matrix (Fin 3) (Fin 3) ℝ) (hA : A.det ≠ 0)
    {n : Fin 3 → ℕ} (c : Coef ns nk nb n) (vol : ℝ) (s : Fin ns) (k : Fin nk) (b : Fin nb)
    (j : Idx n) :
    waveGrid c vol s k b j = (∑ x, c s k b x *
      Complex.exp (Complex.I * (Spec.dot (gVectors A n x) (rVectors A n j) : ℝ)))
        / (Real.sqrt vol : ℂ) := by
  have hN := gridCount_ne j
  have : ∀ x, Complex.exp (Complex.I * (Spec.dot (gVectors A n x) (rVectors A n j) : ℝ))
      = omega x j := by
    intro x
    rw [grid_duality_exp A hA, omega_prod]
    refine Finset.prod_congr rfl fun i _ => ?_
    congr 1; ring
  simp_rw [this]
  unfold waveGrid
  rw [ifftn_eq]
  push_cast
  field_simp

example : ∃ c : Coef 1 1 1 (fun _ => 3), ∀ j,
    waveGrid c 1 0 0 0 j = (∑ x, c 0 0 0 x *
      Complex.exp (Complex.I * (Spec.dot (gVectors skewCell _ x) (rVectors skewCell _ j) : ℝ)))
        / (Real.sqrt 1 : ℂ) :=
  ⟨fun _ _ _ _ => 1, fun _ => waveGrid_expansion skewCell skewCell_det _ _ _ _ _ _⟩

/-! ### C13 -/

/-- C13: with non-negative occupations the density is non-negative everywhere. -/
theorem densityGrid_nonneg {ns nk nb : ℕ} {n : Fin 3 → ℕ} (c : Coef ns nk nb n) (vol : ℝ)
    (occ : Occ ns nk nb) (hocc : ∀ s k b, 0 ≤ occ s k b) (s : Fin ns) (j : Idx n) :
    0 ≤ densityGrid c vol occ s j :=
  Finset.sum_nonneg fun k _ => Finset.sum_nonneg fun b _ =>
    mul_nonneg (absoluteSquare_nonneg _) (hocc s k b)

/-- C13: for all parameters and occupations the density of a spin integrates to the sum of the
occupations of that spin. -/
theorem densityGrid_integral (qr : QR ℂ) {ns nk nb : ℕ} {n : Fin 3 → ℕ} (hn : ∀ i, 0 < n i)
    (mask : Idx n → Bool) (p : PwParams ns nk (maskCount mask) nb) (vol : ℝ) (hv : 0 < vol)
    (occ : Occ ns nk _) (s : Fin ns) :
    Spec.cellIntegral vol (densityGrid (pwCoeff qr mask p) vol occ s) = ∑ k, ∑ b, occ s k b := by
  unfold Spec.cellIntegral densityGrid
  rw [Finset.sum_comm]
  rw [Finset.mul_sum]
  refine Finset.sum_congr rfl fun k _ => ?_
  rw [Finset.sum_comm, Finset.mul_sum]
  refine Finset.sum_congr rfl fun b _ => ?_
  rw [← Finset.sum_mul, ← mul_assoc]
  have h := waveGrid_orthonormal qr hn mask p vol hv s k b b
  rw [if_pos rfl] at h
  unfold Spec.cellInner at h
  simp_rw [← absoluteSquare_cast] at h
  have h2 : (vol / (∏ i, n i : ℕ)) *
      ∑ x, absoluteSquare (waveGrid (pwCoeff qr mask p) vol s k b x) = 1 := by
    exact_mod_cast h
  unfold densityGridBands
  rw [h2, one_mul]

/-- C13: `density_grid` and `wave_to_density` of the wave functions are the same array. -/
theorem waveToDensity_eq {ns nk nb : ℕ} {n : Fin 3 → ℕ} (c : Coef ns nk nb n) (vol : ℝ)
    (occ : Occ ns nk nb) : waveToDensity (waveGrid c vol) occ = densityGrid c vol occ := by
  funext s j
  unfold waveToDensity densityGrid densityGridBands
  rw [Fintype.sum_prod_type]

/-- C13: the density is the occupation-weighted sum of squared moduli of the plane-wave sums. -/
theorem densityGrid_expansion {ns nk nb : ℕ} (A : Matrix (Fin 3) (Fin 3) ℝ) (hA : A.det ≠ 0)
    {n : Fin 3 → ℕ} (c : Coef ns nk nb n) (vol : ℝ) (hv : 0 < vol) (occ : Occ ns nk nb) (s : Fin ns)
    (j : Idx n) :
    densityGrid c vol occ s j = ∑ k, ∑ b, occ s k b * (‖∑ x, c s k b x *
      Complex.exp (Complex.I * (Spec.dot (gVectors A n x) (rVectors A n j) : ℝ))‖ ^ 2 / vol) := by
  unfold densityGrid densityGridBands
  refine Finset.sum_congr rfl fun k _ => Finset.sum_congr rfl fun b _ => ?_
  rw [absoluteSquare_eq, waveGrid_expansion A hA, norm_div, div_pow, Complex.norm_real,
    Real.norm_eq_abs, abs_of_nonneg (Real.sqrt_nonneg _), Real.sq_sqrt hv.le, mul_comm]

example : ∃ occ : Occ 1 1 1, (∀ s k b, 0 ≤ occ s k b) ∧ ∑ k, ∑ b, occ 0 k b = 2 :=
  ⟨fun _ _ _ => 2, fun _ _ _ => by norm_num, by simp⟩

/-! ### C14 -/

/-- C14: at `G = 0` the reciprocal density is `N/vol` times the number of electrons of the spin. -/
theorem densityReciprocal_zero (qr : QR ℂ) {ns nk nb : ℕ} {n : Fin 3 → ℕ}
    (mask : Idx n → Bool) (p : PwParams ns nk (maskCount mask) nb) (vol : ℝ) (hv : 0 < vol)
    (occ : Occ ns nk _) (s : Fin ns) (x0 : Idx n) (h0 : ∀ i, (x0 i : ℕ) = 0) :
    densityGridReciprocal (pwCoeff qr mask p) vol occ s x0
      = (((∏ i, n i : ℕ) / vol * ∑ k, ∑ b, occ s k b : ℝ) : ℂ) := by
  have hn : ∀ i, 0 < n i := fun i => by have := (x0 i).2; omega
  unfold densityGridReciprocal
  rw [fftn_zero _ x0 h0, ← Complex.ofReal_sum, Complex.ofReal_inj,
    ← densityGrid_integral qr hn mask p vol hv occ s]
  unfold Spec.cellIntegral
  have hN : ((∏ i, n i : ℕ) : ℝ) ≠ 0 := gridCount_ne_real x0
  field_simp

/-- C14: the value at the index of `-G` is the complex conjugate of the value at `G`, for all
coefficients and occupations. -/
theorem densityReciprocal_hermitian {ns nk nb : ℕ} {n : Fin 3 → ℕ} (c : Coef ns nk nb n) (vol : ℝ)
    (occ : Occ ns nk nb) (s : Fin ns) (x x' : Idx n) (h : Spec.IsNeg x x') :
    densityGridReciprocal c vol occ s x' = conj (densityGridReciprocal c vol occ s x) := by
  rw [isNeg_unique h]
  exact fftn_real_neg _ _

/-- C14: the same array from `wave_to_density_reciprocal`. -/
theorem waveToDensityReciprocal_eq {ns nk nb : ℕ} {n : Fin 3 → ℕ} (c : Coef ns nk nb n) (vol : ℝ)
    (occ : Occ ns nk nb) :
    waveToDensityReciprocal (waveGrid c vol) occ = densityGridReciprocal c vol occ := by
  unfold waveToDensityReciprocal densityGridReciprocal
  rw [waveToDensity_eq]

/-- Opposite indices exist: on a 3 × 3 × 3 grid, (1,2,0) and (2,1,0). -/
example : Spec.IsNeg (n := fun _ => 3) ![1, 2, 0] ![2, 1, 0] := by
  intro i; fin_cases i <;> decide

/-! ### C16, density part -/

/-- C16: mixing bands of equal occupation by a unitary matrix (in particular multiplying bands by
phases) does not change the density. -/
theorem densityGrid_mix {ns nk nb : ℕ} {n : Fin 3 → ℕ} (c c' : Coef ns nk nb n) (vol : ℝ)
    (occ : Occ ns nk nb) (U : Fin ns → Fin nk → Matrix (Fin nb) (Fin nb) ℂ)
    (hU : ∀ s k, U s k ∈ Matrix.unitaryGroup (Fin nb) ℂ)
    (hocc : ∀ s k i j, U s k i j ≠ 0 → occ s k i = occ s k j)
    (hc : ∀ s k i x, c' s k i x = ∑ j, U s k i j * c s k j x) :
    densityGrid c' vol occ = densityGrid c vol occ := by
  funext s x
  unfold densityGrid densityGridBands
  refine Finset.sum_congr rfl fun k _ => ?_
  rw [← mix_weighted (U s k) (hU s k) (occ s k) (hocc s k) (fun j => waveGrid c vol s k j x)]
  refine Finset.sum_congr rfl fun i _ => ?_
  congr 2
  unfold waveGrid
  have : c' s k i = fun x => ∑ j, U s k i j * c s k j x := funext (hc s k i)
  rw [this, ifftn_sum, Finset.sum_mul]
  refine Finset.sum_congr rfl fun j _ => ?_
  rw [ifftn_smul]; ring

/-- A non-trivial admissible mixing: exchange of two bands with equal occupation. -/
example : (!![0, 1; 1, 0] : Matrix (Fin 2) (Fin 2) ℂ) ∈ Matrix.unitaryGroup (Fin 2) ℂ := by
  rw [Matrix.mem_unitaryGroup_iff]
  ext i j
  fin_cases i <;> fin_cases j <;> simp [Matrix.mul_apply, Matrix.star_apply]

end Jrystal
