import Verif.Lemmas.XcPotential

/- C126: the functional derivative of the exchange-correlation energy. -/
namespace Jrystal
open scoped BigOperators ComplexConjugate
open KohnSham

variable {n : Fin 3 → ℕ}

private theorem energy_sum (lib : XcLib) (xt : String) {ns : ℕ} (g : Idx n → Fin 3 → ℝ) (vol : ℝ)
    (X : (Fin ns → Idx n → ℝ) → ℝ) (hX : ∀ r, xcEnergy lib xt false r g vol = .ok (X r)) (r : Fin ns → Idx n → ℝ) :
    X r = vol / (gridCount n : ℝ) * ∑ j, excDensity lib xt g r j * ∑ s, r s j :=
  Except.ok.inj ((hX r).symm.trans (xcEnergy_value lib xt r g vol))

/-- C126, LDA with two spin channels: the functional derivative of the exchange-correlation energy with respect to the
density of channel `s` is `ε + n ∂ε/∂ρ_s`, with `ε` the energy per electron and `n` the density of both channels. -/
theorem xcEnergy_derivative_lda2 (lib : XcLib) (xt : String) (hg : pyIn "gga" xt = false) (g : Idx n → Fin 3 → ℝ)
    (vol : ℝ) (X : (Fin 2 → Idx n → ℝ) → ℝ) (hX : ∀ r, xcEnergy lib xt false r g vol = .ok (X r)) (ρ : Fin 2 → Idx n → ℝ)
    (e : (Fin 2 → ℝ) → ℝ) (he : ∀ x, e x = excLda2 lib (splitPlus xt) (x 0) (x 1))
    (hd : ∀ j, DifferentiableAt ℝ e fun s => ρ s j) :
    Spec.IsDensityGradient vol X ρ fun s j => e (fun s => ρ s j) +
      (ρ 0 j + ρ 1 j) * Spec.partialAt e (fun s => ρ s j) s := by
  intro r d h0 h1
  have hval : ∀ t, X (r t) = vol / (gridCount n : ℝ) * ∑ j, e (fun s => r t s j) * (r t 0 j + r t 1 j) := by
    intro t
    rw [energy_sum lib xt g vol X hX]
    refine congrArg _ (Finset.sum_congr rfl fun j _ => ?_)
    rw [Fin.sum_univ_two, he]
    unfold excDensity
    rw [hg]
    rfl
  simp only [hval]
  have hj : ∀ j, HasDerivAt (fun t => e (fun s => r t s j) * (r t 0 j + r t 1 j))
      ((∑ i, Spec.partialAt e (fun s => ρ s j) i * d i j) * (ρ 0 j + ρ 1 j)
        + e (fun s => ρ s j) * (d 0 j + d 1 j)) 0 := by
    intro j
    have a1 := hasDerivAt_partials (f := e) (x := fun t s => r t s j) (x' := fun s => d s j)
      (by rw [h0]; exact hd j) fun i => h1 i j
    have a2 := a1.fun_mul ((h1 0 j).fun_add (h1 1 j))
    rw [h0] at a2
    exact a2
  refine ((HasDerivAt.fun_sum fun j (_ : j ∈ Finset.univ) => hj j).const_mul (vol / (gridCount n : ℝ))).congr_deriv ?_
  rw [Fin.sum_univ_two]
  unfold Spec.cellIntegral
  rw [show ((∏ i, n i : ℕ) : ℝ) = (gridCount n : ℝ) from rfl, ← mul_add, ← Finset.sum_add_distrib]
  refine congrArg _ (Finset.sum_congr rfl fun j _ => ?_)
  rw [Fin.sum_univ_two]
  ring

/-- C126, GGA without spin polarisation: the functional derivative is `ε + n ∂ε/∂n - 2 ∇·(n ∂ε/∂σ ∇n)`, with `ε` the
energy per electron as a function of the density `n` and of `σ = |∇n|²`. -/
theorem xcEnergy_derivative_gga1 (lib : XcLib) (xt : String) (hg : pyIn "gga" xt = true) (g : Idx n → Fin 3 → ℝ)
    (vol : ℝ) (X : (Fin 1 → Idx n → ℝ) → ℝ) (hX : ∀ r, xcEnergy lib xt false r g vol = .ok (X r)) (ρ : Fin 1 → Idx n → ℝ)
    (e : (Fin 2 → ℝ) → ℝ) (he : ∀ x, e x = excGga1 lib (splitPlus xt) (x 0) (x 1))
    (x : Idx n → Fin 2 → ℝ) (hx : ∀ j, x j = ![ρ 0 j, sigma1 g (ρ 0) j]) (hd : ∀ j, DifferentiableAt ℝ e (x j)) :
    Spec.IsDensityGradient vol X ρ fun _ j => e (x j) + ρ 0 j * Spec.partialAt e (x j) 0
      - 2 * Spec.divergence g (fun d j => ((ρ 0 j * Spec.partialAt e (x j) 1 : ℝ) : ℂ) * gradRho g (ρ 0) d j) j := by
  intro r d h0 h1
  have hval : ∀ t, X (r t) = vol / (gridCount n : ℝ) * ∑ j, e ![r t 0 j, sigmaPair g (r t 0) (r t 0) j] * r t 0 j := by
    intro t
    rw [energy_sum lib xt g vol X hX]
    refine congrArg _ (Finset.sum_congr rfl fun j _ => ?_)
    rw [Fin.sum_univ_one, he]
    unfold excDensity
    rw [hg, ← sigma1_pair]
    rfl
  have hx' : ∀ j, x j = ![ρ 0 j, sigmaPair g (ρ 0) (ρ 0) j] := fun j => by rw [hx, sigma1_pair]
  simp only [hval]
  have hj : ∀ j, HasDerivAt (fun t => e ![r t 0 j, sigmaPair g (r t 0) (r t 0) j] * r t 0 j)
      ((Spec.partialAt e (x j) 0 * d 0 j + Spec.partialAt e (x j) 1 *
        (sigmaPair g (ρ 0) (d 0) j + sigmaPair g (ρ 0) (d 0) j)) * ρ 0 j + e (x j) * d 0 j) 0 := by
    intro j
    have b : ∀ i, HasDerivAt (fun t => (![r t 0 j, sigmaPair g (r t 0) (r t 0) j] : Fin 2 → ℝ) i)
        ((![d 0 j, sigmaPair g (r 0 0) (d 0) j + sigmaPair g (r 0 0) (d 0) j] : Fin 2 → ℝ) i) 0 := by
      intro i
      fin_cases i
      · exact h1 0 j
      · exact hasDerivAt_sigmaPair g (fun j => h1 0 j) (fun j => h1 0 j) j
    have a1 := hasDerivAt_partials (f := e) (x := fun t => ![r t 0 j, sigmaPair g (r t 0) (r t 0) j])
      (by rw [h0, ← hx']; exact hd j) b
    have a2 := a1.fun_mul (h1 0 j)
    rw [h0, ← hx', Fin.sum_univ_two] at a2
    exact a2
  refine ((HasDerivAt.fun_sum fun j (_ : j ∈ Finset.univ) => hj j).const_mul (vol / (gridCount n : ℝ))).congr_deriv ?_
  rw [Fin.sum_univ_one]
  unfold Spec.cellIntegral
  rw [show ((∏ i, n i : ℕ) : ℝ) = (gridCount n : ℝ) from rfl]
  refine congrArg _ ?_
  have hf := flux_by_parts g (fun j => ρ 0 j * Spec.partialAt e (x j) 1) (ρ 0) (d 0)
  have e1 : ∑ j, ((Spec.partialAt e (x j) 0 * d 0 j + Spec.partialAt e (x j) 1 *
        (sigmaPair g (ρ 0) (d 0) j + sigmaPair g (ρ 0) (d 0) j)) * ρ 0 j + e (x j) * d 0 j)
      = ∑ j, (e (x j) + ρ 0 j * Spec.partialAt e (x j) 0) * d 0 j
        + 2 * ∑ j, ρ 0 j * Spec.partialAt e (x j) 1 * sigmaPair g (ρ 0) (d 0) j := by
    rw [Finset.mul_sum, ← Finset.sum_add_distrib]
    exact Finset.sum_congr rfl fun j _ => by ring
  rw [e1, hf]
  simp only [sub_mul, mul_assoc]
  rw [Finset.sum_sub_distrib, ← Finset.mul_sum]
  ring

/-- C126, GGA with two spin channels: the functional derivative with respect to the density of channel `s` is
`ε + n ∂ε/∂ρ_s - ∇·(2 n ∂ε/∂σ_ss ∇ρ_s + n ∂ε/∂σ_ud ∇ρ_s')`, with `n` the density of both channels, `s'` the other
channel and `ε` the energy per electron as a function of the densities and of `σ_uu`, `σ_ud` and `σ_dd`. -/
theorem xcEnergy_derivative_gga2 (lib : XcLib) (xt : String) (hg : pyIn "gga" xt = true) (g : Idx n → Fin 3 → ℝ)
    (vol : ℝ) (X : (Fin 2 → Idx n → ℝ) → ℝ) (hX : ∀ r, xcEnergy lib xt false r g vol = .ok (X r)) (ρ : Fin 2 → Idx n → ℝ)
    (e : (Fin 5 → ℝ) → ℝ) (he : ∀ x, e x = excGga2 lib (splitPlus xt) (x 0) (x 1) (x 2) (x 3) (x 4))
    (x : Idx n → Fin 5 → ℝ) (hx : ∀ j, x j = ![ρ 0 j, ρ 1 j, sigma2 g (ρ 0) (ρ 1) 0 j, sigma2 g (ρ 0) (ρ 1) 1 j,
      sigma2 g (ρ 0) (ρ 1) 2 j]) (hd : ∀ j, DifferentiableAt ℝ e (x j))
    (a : Fin 5 → Idx n → ℝ) (ha : ∀ i j, a i j = (ρ 0 j + ρ 1 j) * Spec.partialAt e (x j) i) :
    Spec.IsDensityGradient vol X ρ ![
      fun j => e (x j) + a 0 j - Spec.divergence g (fun d j => ((2 * a 2 j : ℝ) : ℂ) * gradRho g (ρ 0) d j) j
        - Spec.divergence g (fun d j => (a 3 j : ℂ) * gradRho g (ρ 1) d j) j,
      fun j => e (x j) + a 1 j - Spec.divergence g (fun d j => ((2 * a 4 j : ℝ) : ℂ) * gradRho g (ρ 1) d j) j
        - Spec.divergence g (fun d j => (a 3 j : ℂ) * gradRho g (ρ 0) d j) j] := by
  intro r d h0 h1
  set y : ℝ → Idx n → Fin 5 → ℝ := fun t j => ![r t 0 j, r t 1 j, sigmaPair g (r t 0) (r t 0) j,
    sigmaPair g (r t 0) (r t 1) j, sigmaPair g (r t 1) (r t 1) j] with hy
  have hval : ∀ t, X (r t) = vol / (gridCount n : ℝ) * ∑ j, e (y t j) * (r t 0 j + r t 1 j) := by
    intro t
    rw [energy_sum lib xt g vol X hX]
    refine congrArg _ (Finset.sum_congr rfl fun j _ => ?_)
    rw [Fin.sum_univ_two, he]
    unfold excDensity
    rw [hg]
    rfl
  have hy0 : ∀ j, y 0 j = x j := by
    intro j
    rw [hx]
    simp only [hy, h0]
    rfl
  simp only [hval]
  have hj : ∀ j, HasDerivAt (fun t => e (y t j) * (r t 0 j + r t 1 j))
      ((Spec.partialAt e (x j) 0 * d 0 j + Spec.partialAt e (x j) 1 * d 1 j
        + Spec.partialAt e (x j) 2 * (sigmaPair g (ρ 0) (d 0) j + sigmaPair g (ρ 0) (d 0) j)
        + Spec.partialAt e (x j) 3 * (sigmaPair g (ρ 1) (d 0) j + sigmaPair g (ρ 0) (d 1) j)
        + Spec.partialAt e (x j) 4 * (sigmaPair g (ρ 1) (d 1) j + sigmaPair g (ρ 1) (d 1) j)) * (ρ 0 j + ρ 1 j)
        + e (x j) * (d 0 j + d 1 j)) 0 := by
    intro j
    have b : ∀ i, HasDerivAt (fun t => y t j i)
        ((![d 0 j, d 1 j, sigmaPair g (r 0 0) (d 0) j + sigmaPair g (r 0 0) (d 0) j,
          sigmaPair g (r 0 1) (d 0) j + sigmaPair g (r 0 0) (d 1) j,
          sigmaPair g (r 0 1) (d 1) j + sigmaPair g (r 0 1) (d 1) j] : Fin 5 → ℝ) i) 0 := by
      intro i
      fin_cases i
      · exact h1 0 j
      · exact h1 1 j
      · exact hasDerivAt_sigmaPair g (fun j => h1 0 j) (fun j => h1 0 j) j
      · exact hasDerivAt_sigmaPair g (fun j => h1 0 j) (fun j => h1 1 j) j
      · exact hasDerivAt_sigmaPair g (fun j => h1 1 j) (fun j => h1 1 j) j
    have a1 := hasDerivAt_partials (f := e) (x := fun t => y t j) (by rw [hy0]; exact hd j) b
    have a2 := a1.fun_mul ((h1 0 j).fun_add (h1 1 j))
    rw [Fin.sum_univ_five] at a2
    simp only [hy0] at a2
    rw [h0] at a2
    exact a2
  refine ((HasDerivAt.fun_sum fun j (_ : j ∈ Finset.univ) => hj j).const_mul (vol / (gridCount n : ℝ))).congr_deriv ?_
  rw [Fin.sum_univ_two]
  unfold Spec.cellIntegral
  rw [show ((∏ i, n i : ℕ) : ℝ) = (gridCount n : ℝ) from rfl, ← mul_add]
  refine congrArg _ ?_
  have f2 := flux_by_parts g (fun j => 2 * a 2 j) (ρ 0) (d 0)
  have f3 := flux_by_parts g (a 3) (ρ 1) (d 0)
  have f3' := flux_by_parts g (a 3) (ρ 0) (d 1)
  have f4 := flux_by_parts g (fun j => 2 * a 4 j) (ρ 1) (d 1)
  have e1 : ∑ j, ((Spec.partialAt e (x j) 0 * d 0 j + Spec.partialAt e (x j) 1 * d 1 j
        + Spec.partialAt e (x j) 2 * (sigmaPair g (ρ 0) (d 0) j + sigmaPair g (ρ 0) (d 0) j)
        + Spec.partialAt e (x j) 3 * (sigmaPair g (ρ 1) (d 0) j + sigmaPair g (ρ 0) (d 1) j)
        + Spec.partialAt e (x j) 4 * (sigmaPair g (ρ 1) (d 1) j + sigmaPair g (ρ 1) (d 1) j)) * (ρ 0 j + ρ 1 j)
        + e (x j) * (d 0 j + d 1 j))
      = ∑ j, (e (x j) + a 0 j) * d 0 j + ∑ j, (e (x j) + a 1 j) * d 1 j
        + ∑ j, 2 * a 2 j * sigmaPair g (ρ 0) (d 0) j + ∑ j, a 3 j * sigmaPair g (ρ 1) (d 0) j
        + ∑ j, a 3 j * sigmaPair g (ρ 0) (d 1) j + ∑ j, 2 * a 4 j * sigmaPair g (ρ 1) (d 1) j := by
    simp only [← Finset.sum_add_distrib, ha]
    exact Finset.sum_congr rfl fun j _ => by ring
  rw [e1, f2, f3, f3', f4]
  simp only [Matrix.cons_val_zero, Matrix.cons_val_one, sub_mul, Finset.sum_sub_distrib]
  ring

/-- The hypotheses of the three theorems are met: densities that vary over the grid and functionals that depend on
the densities and on their gradients. -/
example : let lib : XcLib := ⟨fun _ r => -r, fun _ u d => u * d, fun _ r s => r * s, fun _ u d suu sud sdd => u * d + suu * sdd + sud⟩
    let ρ : Fin 2 → Idx ![2, 1, 1] → ℝ := fun s j => 1 + (s : ℕ) + (j 0 : ℕ)
    (pyIn "gga" "lda_c" = false ∧ (∀ j, DifferentiableAt ℝ (fun x : Fin 2 → ℝ => excLda2 lib (splitPlus "lda_c") (x 0) (x 1))
      fun s => ρ s j)) ∧
    (pyIn "gga" "gga_c" = true ∧ (∀ y, DifferentiableAt ℝ (fun x : Fin 2 → ℝ => excGga1 lib (splitPlus "gga_c") (x 0) (x 1)) y) ∧
      ∀ y, DifferentiableAt ℝ
        (fun x : Fin 5 → ℝ => excGga2 lib (splitPlus "gga_c") (x 0) (x 1) (x 2) (x 3) (x 4)) y) := by
  have h1 : splitPlus "lda_c" = ["lda_c"] := by decide +kernel
  have h2 : splitPlus "gga_c" = ["gga_c"] := by decide +kernel
  have h3 : isExchange "lda_c" = false := by decide +kernel
  have h4 : isExchange "gga_c" = false := by decide +kernel
  refine ⟨⟨by decide +kernel, fun j => ?_⟩, by decide +kernel, fun y => ?_, fun y => ?_⟩
  · simp only [excLda2, h1, List.map_cons, List.map_nil, List.sum_cons, List.sum_nil, ldaPoint2, h3, Bool.false_eq_true,
      if_false]
    fun_prop
  · simp only [excGga1, h2, List.map_cons, List.map_nil, List.sum_cons, List.sum_nil, ggaPoint1]
    fun_prop
  · simp only [excGga2, h2, List.map_cons, List.map_nil, List.sum_cons, List.sum_nil, ggaPoint2, h4, Bool.false_eq_true,
      if_false]
    fun_prop

end Jrystal
