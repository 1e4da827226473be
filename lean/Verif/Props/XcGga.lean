import Verif.Props.Xc

/- C56, C58: what the gradient correction of the GGA potential computes. -/
namespace Jrystal
open scoped BigOperators

private theorem sum_mkIdx {n : Fin 3 → ℕ} (f : Idx n → ℂ) :
    ∑ k, f k = ∑ x, ∑ y, ∑ z, f (mkIdx x y z) := by
  let e : Fin (n 0) × Fin (n 1) × Fin (n 2) ≃ Idx n :=
    { toFun := fun p => mkIdx p.1 p.2.1 p.2.2
      invFun := fun k => (k 0, k 1, k 2)
      left_inv := fun _ => rfl
      right_inv := fun k => by funext i; fin_cases i <;> rfl }
  rw [← Equiv.sum_comp e f, Fintype.sum_prod_type]
  refine Finset.sum_congr rfl fun x _ => ?_
  rw [Fintype.sum_prod_type]
  rfl

/-- C58, why the GGA potential fails: the inverse transform of its gradients acts, for every fixed `x`, on the axes
`y`, `z` and the Cartesian components, instead of `x`, `y` and `z`. -/
theorem gga_gradient_axes {n : Fin 3 → ℕ} (F : Idx n → Fin 3 → ℂ) (j : Idx n) (d : Fin 3) :
    ifftnYZD F j d = ifftn (n := ![n 1, n 2, 3]) (fun w => F (mkIdx (j 0) (w 0) (w 1)) (w 2)) (mkIdx (j 1) (j 2) d) := by
  unfold ifftnYZD ifftn
  rw [sum_mkIdx]
  have h : gridCount ![n 1, n 2, 3] = n 1 * n 2 * 3 := by simp [gridCount, Fin.prod_univ_three]
  rw [h]
  congr 1
  refine Finset.sum_congr rfl fun y _ => Finset.sum_congr rfl fun z _ => Finset.sum_congr rfl fun e _ => ?_
  congr 2
  rw [Fin.sum_univ_three]
  congr 1
  show _ = ((y : ℕ) : ℂ) * ((j 1 : ℕ) : ℂ) / (n 1 : ℂ) + ((z : ℕ) : ℂ) * ((j 2 : ℕ) : ℂ) / (n 2 : ℂ) +
    ((e : ℕ) : ℂ) * ((d : ℕ) : ℂ) / ((3 : ℕ) : ℂ)
  push_cast
  ring

/-- C58, the second fault: before that, the function whose gradient is taken is transformed along `z` only. -/
theorem gga_factor_axis {n : Fin 3 → ℕ} (f : Idx n → ℂ) (j : Idx n) :
    fftZ f j = fftn (n := ![1, 1, n 2]) (fun w => f (mkIdx (j 0) (j 1) (w 2))) (mkIdx (0 : Fin 1) (0 : Fin 1) (j 2)) := by
  unfold fftZ fftn
  rw [sum_mkIdx]
  show _ = ∑ _x : Fin 1, ∑ _y : Fin 1, ∑ z : Fin (n 2), _
  rw [Fin.sum_univ_one, Fin.sum_univ_one]
  refine Finset.sum_congr rfl fun z _ => ?_
  rw [Fin.sum_univ_three]
  show _ = f (mkIdx (j 0) (j 1) z) * Complex.exp (-(2 * Real.pi * Complex.I * (((0 : ℕ) : ℂ) * ((0 : ℕ) : ℂ) / ((1 : ℕ) : ℂ) +
    ((0 : ℕ) : ℂ) * ((0 : ℕ) : ℂ) / ((1 : ℕ) : ℂ) + ((j 2 : ℕ) : ℂ) * ((z : ℕ) : ℂ) / (n 2 : ℂ))))
  simp

private theorem fourier_uniform (A : Matrix (Fin 3) (Fin 3) ℝ) {n : Fin 3 → ℕ} (c : ℝ) (k : Idx n) (d : Fin 3) :
    fftn (fun _ => (c : ℂ)) k = 0 ∨ gVectors A n k d = 0 := by
  by_cases h : ∃ i, (k i : ℕ) ≠ 0
  · exact Or.inl (fftn_const _ k h)
  · push Not at h
    exact Or.inr (congrFun (gVectors_zero A n k h) d)

private theorem gradRho_uniform (A : Matrix (Fin 3) (Fin 3) ℝ) {n : Fin 3 → ℕ} (c : ℝ) (j : Idx n) (d : Fin 3) :
    gradRho (gVectors A n) (fun _ => c) d j = 0 := by
  unfold gradRho ifftn
  rw [Finset.sum_eq_zero, zero_div]
  intro k _
  rcases fourier_uniform A c k d with h | h <;> simp [h]

private theorem gradRhoKs_uniform (A : Matrix (Fin 3) (Fin 3) ℝ) {n : Fin 3 → ℕ} (c : ℝ) (j : Idx n) (d : Fin 3) :
    gradRhoKs (gVectors A n) (fun _ => c) j d = 0 := by
  unfold gradRhoKs ifftnYZD
  rw [Finset.sum_eq_zero, zero_div]
  intro y _
  refine Finset.sum_eq_zero fun z _ => Finset.sum_eq_zero fun e _ => ?_
  rcases fourier_uniform A c (mkIdx (j 0) y z) e with h | h <;> simp [h]

private theorem laplRho_uniform (A : Matrix (Fin 3) (Fin 3) ℝ) {n : Fin 3 → ℕ} (c : ℝ) (j : Idx n) :
    laplRho (gVectors A n) (fun _ => c) j = 0 := by
  unfold laplRho ifftn
  rw [Finset.sum_eq_zero, zero_div]
  intro k _
  by_cases h : fftn (fun _ => (c : ℂ)) k = 0
  · simp [h]
  · have : ∀ d, gVectors A n k d = 0 := fun d => (fourier_uniform A c k d).resolve_left h
    simp [this]

/-- C56, GGA: for a uniform density the potential has no gradient correction; it is the derivative `d (n e(n)) / d n` of the energy
of a uniform density, in every cell and on every grid. -/
theorem gga_potential_uniform (lib : XcLib) (xt : String) (hx : pyIn "gga" xt = true) (A : Matrix (Fin 3) (Fin 3) ℝ)
    {n : Fin 3 → ℕ} (c : ℝ) (j : Idx n) {e' : ℝ}
    (he : HasDerivAt (fun x => excDensity lib xt (gVectors A n) (fun _ : Fin 1 => fun _ => x) j) e' c) :
    HasDerivAt (fun x => x * excDensity lib xt (gVectors A n) (fun _ : Fin 1 => fun _ => x) j)
      (vxcDensity lib xt (gVectors A n) (fun _ : Fin 1 => fun _ => c) 0 j).re c ∧
    (vxcDensity lib xt (gVectors A n) (fun _ : Fin 1 => fun _ => c) 0 j).im = 0 := by
  have hs : ∀ (x : ℝ) (i : Idx n), sigma1 (gVectors A n) (fun _ => x) i = 0 := by
    intro x i
    rw [sigma1_eq]
    simp [gradRho_uniform]
  have h1 : ∀ x, excDensity lib xt (gVectors A n) (fun _ : Fin 1 => fun _ => x) j = excGga1 lib (splitPlus xt) x 0 := by
    intro x
    unfold excDensity
    simp only [hx, if_true]
    rw [if_neg (by decide)]
    simp only [chan]
    simp [hs]
  have h2 : vxcDensity lib xt (gVectors A n) (fun _ : Fin 1 => fun _ => c) 0 j =
      ((deriv (fun x => excGga1 lib (splitPlus xt) x 0) c * c + excGga1 lib (splitPlus xt) c 0 : ℝ) : ℂ) := by
    unfold vxcDensity
    simp only [hx, if_true]
    rw [if_neg (by decide)]
    have hc : chan (fun _ : Fin 1 => fun _ : Idx n => c) 0 = fun _ => c := by
      simp [chan]
    rw [hc]
    unfold vxcGga1
    simp only
    rw [ifftn_fftn']
    simp only [gradRhoKs_uniform, laplRho_uniform, mul_zero, Finset.sum_const_zero, add_zero, sub_zero, hs]
  simp only [h1] at he ⊢
  rw [h2]
  refine ⟨?_, Complex.ofReal_im _⟩
  rw [Complex.ofReal_re, he.deriv, add_comm, mul_comm e']
  have := (hasDerivAt_id' c).fun_mul he
  rwa [one_mul] at this

/-- The hypotheses of `gga_potential_uniform` hold for the functional with energy `n + s` per electron, at every density. -/
example (A : Matrix (Fin 3) (Fin 3) ℝ) (n : Fin 3 → ℕ) (c : ℝ) (j : Idx n) :
    pyIn "gga" "gga_x_pbe" = true ∧
    HasDerivAt (fun x => excDensity { sigmaLib with gga := fun _ n s => n + s } "gga_x_pbe" (gVectors A n)
      (fun _ : Fin 1 => fun _ => x) j) 1 c := by
  have hg : pyIn "gga" "gga_x_pbe" = true := by decide +kernel
  have hs : splitPlus "gga_x_pbe" = ["gga_x_pbe"] := by decide +kernel
  refine ⟨hg, ?_⟩
  have h : (fun x => excDensity { sigmaLib with gga := fun _ n s => n + s } "gga_x_pbe" (gVectors A n)
      (fun _ : Fin 1 => fun _ => x) j) = fun x => x := by
    funext x
    unfold excDensity
    simp only [hg, if_true, hs]
    rw [if_neg (by decide)]
    have h0 : sigma1 (gVectors A n) (fun _ => x) j = 0 := by
      rw [sigma1_eq]
      simp [gradRho_uniform]
    simp [excGga1, ggaPoint1, chan, h0]
  rw [h]
  exact hasDerivAt_id' c

end Jrystal
