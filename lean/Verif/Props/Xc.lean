import Verif.Lemmas.Xc
import Verif.Spec.Xc
import Verif.Lemmas.Symmetry
import Verif.Props.Cell
import Mathlib.Analysis.SpecialFunctions.Pow.Deriv

/- C27, C28, C56, C58. -/
namespace Jrystal
open scoped BigOperators ComplexConjugate

/-! ### C28: gradient invariants -/

/-- C28: the diagonal entries of `sigma_r_fn` are non-negative and the mixed one obeys the
Cauchy–Schwarz bound. -/
theorem sigma_admissible {n : Fin 3 → ℕ} (g : Idx n → Fin 3 → ℝ) (up dn : Idx n → ℝ) (j : Idx n) :
    0 ≤ sigma2 g up dn 0 j ∧ 0 ≤ sigma2 g up dn 2 j ∧
      sigma2 g up dn 1 j ^ 2 ≤ sigma2 g up dn 0 j * sigma2 g up dn 2 j := by
  show 0 ≤ sigmaPair g up up j ∧ 0 ≤ sigmaPair g dn dn j ∧
    sigmaPair g up dn j ^ 2 ≤ sigmaPair g up up j * sigmaPair g dn dn j
  refine ⟨?_, ?_, ?_⟩
  · rw [sigmaPair_self]; exact Finset.sum_nonneg fun d _ => by positivity
  · rw [sigmaPair_self]; exact Finset.sum_nonneg fun d _ => by positivity
  · rw [sigmaPair_re, sigmaPair_re, sigmaPair_re]
    have h := Finset.sum_mul_sq_le_sq_mul_sq (Finset.univ : Finset (Fin 3 × Bool))
      (fun p => if p.2 then (gradRho g up p.1 j).re else (gradRho g up p.1 j).im)
      (fun p => if p.2 then (gradRho g dn p.1 j).re else (gradRho g dn p.1 j).im)
    simp only [Fintype.sum_prod_type, Fintype.sum_bool, if_true, Bool.false_eq_true, if_false,
      sq] at h ⊢
    exact h

/-- C28: the unpolarised invariant is non-negative and, for a sum of two densities, is
`uu + 2 ud + dd`. -/
theorem sigma_total {n : Fin 3 → ℕ} (g : Idx n → Fin 3 → ℝ) (up dn : Idx n → ℝ) (j : Idx n) :
    sigma1 g (fun i => up i + dn i) j
      = sigma2 g up dn 0 j + 2 * sigma2 g up dn 1 j + sigma2 g up dn 2 j ∧
    0 ≤ sigma1 g (fun i => up i + dn i) j := by
  refine ⟨?_, ?_⟩
  · show _ = sigmaPair g up up j + 2 * sigmaPair g up dn j + sigmaPair g dn dn j
    rw [sigma1_eq, sigmaPair_re, sigmaPair_re, sigmaPair_re, Finset.mul_sum, ← Finset.sum_add_distrib,
      ← Finset.sum_add_distrib]
    refine Finset.sum_congr rfl fun d _ => ?_
    rw [gradRho_add, ← Complex.normSq_eq_norm_sq, Complex.normSq_apply]
    simp only [Complex.add_re, Complex.add_im]
    ring
  · rw [sigma1_eq]; exact Finset.sum_nonneg fun d _ => by positivity

/-- C28: constant densities have zero invariants. -/
theorem sigma_constant {n : Fin 3 → ℕ} (A : Matrix (Fin 3) (Fin 3) ℝ) (a b : ℝ) (j : Idx n) :
    sigma1 (gVectors A n) (fun _ => a) j = 0 ∧
    ∀ r, sigma2 (gVectors A n) (fun _ => a) (fun _ => b) r j = 0 := by
  have h : ∀ w d, gradRho (gVectors A n) (fun _ => w) d j = 0 := by
    intro w d
    unfold gradRho
    rw [ifftn_eq, Finset.sum_eq_zero, zero_div]
    intro k _
    by_cases hk : ∃ i, (k i : ℕ) ≠ 0
    · rw [fftn_const _ k hk]; simp
    · push Not at hk
      have : gVectors A n k d = 0 := by
        rw [gVectors_apply]
        refine Finset.sum_eq_zero fun i _ => ?_
        rw [hk i, sfreq_zero]; simp
      rw [this]; simp
  refine ⟨?_, fun r => ?_⟩
  · rw [sigma1_eq]; exact Finset.sum_eq_zero fun d _ => by rw [h]; simp
  · fin_cases r
    · show sigmaPair _ _ _ j = 0
      rw [sigmaPair_re]; exact Finset.sum_eq_zero fun d _ => by rw [h]; simp
    · show sigmaPair _ _ _ j = 0
      rw [sigmaPair_re]; exact Finset.sum_eq_zero fun d _ => by rw [h]; simp
    · show sigmaPair _ _ _ j = 0
      rw [sigmaPair_re]; exact Finset.sum_eq_zero fun d _ => by rw [h]; simp

private theorem exp_omega (A : Matrix (Fin 3) (Fin 3) ℝ) (hA : A.det ≠ 0) {n : Fin 3 → ℕ} (k j : Idx n) :
    Complex.exp (Complex.I * (Spec.dot (gVectors A n k) (rVectors A n j) : ℝ)) = omega k j := by
  have h := exp_grid A hA n k j
  have h2 : Complex.exp (Complex.I * (Spec.dot (gVectors A n k) (rVectors A n j) : ℝ))
      = conj (Complex.exp (-(Complex.I * ((∑ d, gVectors A n k d * rVectors A n j d : ℝ) : ℂ)))) := by
    rw [← Complex.exp_conj, map_neg, map_mul, Complex.conj_I, Complex.conj_ofReal]
    congr 1
    unfold Spec.dot
    ring
  rw [h2, h, Complex.conj_conj]

/-- C28: the gradient used for the invariants is the exact gradient, at the grid points, of the
trigonometric interpolant of the density, which takes the given values there. -/
theorem gradRho_is_gradient (A : Matrix (Fin 3) (Fin 3) ℝ) (hA : A.det ≠ 0) {n : Fin 3 → ℕ}
    (rho : Idx n → ℝ) (j : Idx n) :
    Spec.interpolant A rho (rVectors A n j) = rho j ∧
    ∀ d, HasDerivAt (fun t : ℝ => Spec.interpolant A rho fun e =>
      rVectors A n j e + if e = d then t else 0) (gradRho (gVectors A n) rho d j) 0 := by
  constructor
  · have h := congrFun (ifftn_fftn' fun j => (rho j : ℂ)) j
    rw [ifftn_eq] at h
    rw [← h]
    unfold Spec.interpolant
    congr 1
    exact Finset.sum_congr rfl fun k _ => by rw [exp_omega A hA]
  · intro d
    unfold Spec.interpolant gradRho
    rw [ifftn_eq]
    refine HasDerivAt.div_const ?_ _
    refine HasDerivAt.fun_sum fun k _ => ?_
    have hdot : ∀ t : ℝ, Spec.dot (gVectors A n k) (fun e => rVectors A n j e + if e = d then t else 0)
        = Spec.dot (gVectors A n k) (rVectors A n j) + gVectors A n k d * t := by
      intro t
      unfold Spec.dot
      simp_rw [mul_add, Finset.sum_add_distrib]
      congr 1
      rw [Finset.sum_eq_single d]
      · rw [if_pos rfl]
      · intro e _ he; rw [if_neg he, mul_zero]
      · simp
    simp_rw [hdot]
    have h1 : HasDerivAt (fun t : ℝ => Complex.I * ((Spec.dot (gVectors A n k) (rVectors A n j)
        + gVectors A n k d * t : ℝ) : ℂ)) (Complex.I * (gVectors A n k d : ℂ)) 0 := by
      have h2 : HasDerivAt (fun t : ℝ => Spec.dot (gVectors A n k) (rVectors A n j)
          + gVectors A n k d * t) (gVectors A n k d) 0 := by
        simpa using ((hasDerivAt_id (0 : ℝ)).const_mul (gVectors A n k d)).const_add
          (Spec.dot (gVectors A n k) (rVectors A n j))
      exact h2.ofReal_comp.const_mul Complex.I
    have h3 := h1.cexp
    rw [mul_zero, add_zero, exp_omega A hA] at h3
    have h4 := h3.const_mul (fftn (fun j => (rho j : ℂ)) k)
    rw [show fftn (fun j => (rho j : ℂ)) k * Complex.I * (gVectors A n k d : ℂ) * omega k j
      = fftn (fun j => (rho j : ℂ)) k * (omega k j * (Complex.I * (gVectors A n k d : ℂ))) by ring]
    exact h4

/-- A density with a non-zero invariant, so the statements are not about zero only. -/
example : sigma1 (fun k _ => if k = pt2 true then 1 else 0 : Idx grid2 → Fin 3 → ℝ)
    (fun k => if k = pt2 true then 1 else 0) (pt2 true) ≠ 0 := by
  rw [sigma1_eq]
  unfold gradRho
  simp_rw [(ifftn_grid2 _).2, (fftn_grid2 _).2]
  simp [pt2_ne]

/-! ### C27: spin-polarised exchange -/

private theorem excDensity_one (lib : XcLib) (xt : String) {n : Fin 3 → ℕ} (g : Idx n → Fin 3 → ℝ)
    (rho : Idx n → ℝ) (j : Idx n) :
    excDensity lib xt g (fun _ : Fin 1 => rho) j
      = if pyIn "gga" xt then excGga1 lib (splitPlus xt) (rho j) (sigma1 g rho j)
        else excLda1 lib (splitPlus xt) (rho j) := by
  unfold excDensity
  simp [chan]

private theorem excDensity_two (lib : XcLib) (xt : String) {n : Fin 3 → ℕ} (g : Idx n → Fin 3 → ℝ)
    (up dn : Idx n → ℝ) (j : Idx n) :
    excDensity lib xt g ![up, dn] j
      = if pyIn "gga" xt then excGga2 lib (splitPlus xt) (up j) (dn j) (sigmaPair g up up j)
          (sigmaPair g up dn j) (sigmaPair g dn dn j)
        else excLda2 lib (splitPlus xt) (up j) (dn j) := by
  unfold excDensity
  simp [chan, sigma2]

/-- C27: with equal spin densities the polarised energy is the unpolarised energy of the summed
density, for every functional whose correlation parts satisfy that consistency pointwise (a contract
of the functional library; nothing is assumed of exchange parts). -/
theorem xc_unpolarised_limit (lib : XcLib) (xt : String)
    (hlda : ∀ x ∈ splitPlus xt, isExchange x = false → ∀ u, lib.ldaPol x u u = lib.lda x (2 * u))
    (hgga : ∀ x ∈ splitPlus xt, isExchange x = false → ∀ u s, lib.ggaPol x u u s s s
      = lib.gga x (2 * u) (4 * s))
    {n : Fin 3 → ℕ} (g : Idx n → Fin 3 → ℝ) (rho : Idx n → ℝ) (vol : ℝ) :
    (∀ j, excDensity lib xt g ![rho, rho] j = excDensity lib xt g (fun _ : Fin 1 => fun i => 2 * rho i) j) ∧
    xcEnergy lib xt false ![rho, rho] g vol
      = xcEnergy lib xt false (fun _ : Fin 1 => fun i => rho i + rho i) g vol := by
  have h : ∀ j, excDensity lib xt g ![rho, rho] j
      = excDensity lib xt g (fun _ : Fin 1 => fun i => 2 * rho i) j := by
    intro j
    rw [excDensity_one, excDensity_two]
    split
    · unfold excGga1 excGga2
      rw [sigma1_two]
      congr 1
      refine List.map_congr_left fun x hx => ?_
      unfold ggaPoint1 ggaPoint2
      cases he : isExchange x with
      | true => simp only [if_true]; ring
      | false =>
        simp only [Bool.false_eq_true, if_false]
        exact hgga x hx he _ _
    · unfold excLda1 excLda2
      congr 1
      refine List.map_congr_left fun x hx => ?_
      unfold ldaPoint1 ldaPoint2
      cases he : isExchange x with
      | true => simp only [if_true]; ring
      | false =>
        simp only [Bool.false_eq_true, if_false]
        exact hlda x hx he _
  refine ⟨h, ?_⟩
  rw [xcEnergy_value, xcEnergy_value]
  congr 2
  refine Finset.sum_congr rfl fun j _ => ?_
  rw [h]
  simp_rw [← two_mul]
  simp
  left
  ring

/-- C27: for a sum of correlation functionals the polarised energy is the cell sum of the library's
polarised functional, first channel as spin up, times the total density. -/
theorem correlation_polarised (lib : XcLib) (xt : String)
    (hx : ∀ x ∈ splitPlus xt, isExchange x = false)
    {n : Fin 3 → ℕ} (g : Idx n → Fin 3 → ℝ) (up dn : Idx n → ℝ) (vol : ℝ) :
    (pyIn "gga" xt = false → xcEnergy lib xt false ![up, dn] g vol = .ok (vol / ((∏ i, n i : ℕ) : ℝ) *
      ∑ j, ((splitPlus xt).map fun x => lib.ldaPol x (up j) (dn j)).sum * (up j + dn j))) ∧
    (pyIn "gga" xt = true → xcEnergy lib xt false ![up, dn] g vol = .ok (vol / ((∏ i, n i : ℕ) : ℝ) *
      ∑ j, ((splitPlus xt).map fun x => lib.ggaPol x (up j) (dn j) (sigmaPair g up up j)
        (sigmaPair g up dn j) (sigmaPair g dn dn j)).sum * (up j + dn j))) := by
  constructor
  all_goals
    intro hg
    rw [xcEnergy_value]
    simp_rw [excDensity_two, hg]
    congr 1
    change vol / ((∏ i, n i : ℕ) : ℝ) * _ = _
    congr 1
    refine Finset.sum_congr rfl fun j _ => ?_
    rw [Fin.sum_univ_two]
    simp only [excGga2, excLda2, if_true, Bool.false_eq_true, if_false, Matrix.cons_val_zero,
      Matrix.cons_val_one]
    congr 2
    refine List.map_congr_left fun x hxm => ?_
    simp [ggaPoint2, ldaPoint2, hx x hxm]

example : (∀ x ∈ splitPlus "lda_c_pw", isExchange x = false) ∧ pyIn "gga" "lda_c_pw" = false ∧
    (∀ x ∈ splitPlus "gga_c_pbe", isExchange x = false) ∧ pyIn "gga" "gga_c_pbe" = true := by
  decide +kernel

/-- C27: the exact deviation from the spin-scaling relation `(E[2 n_up] + E[2 n_dn]) / 2`, for any sum
of exchange functionals, LDA or GGA. -/
theorem exchange_spin_scaling_error (lib : XcLib) (xt : String)
    (hx : ∀ x ∈ splitPlus xt, isExchange x = true)
    {n : Fin 3 → ℕ} (g : Idx n → Fin 3 → ℝ) (up dn : Idx n → ℝ) (vol : ℝ) :
    ∃ E Eup Edn, xcEnergy lib xt false ![up, dn] g vol = .ok E ∧
      xcEnergy lib xt false (fun _ : Fin 1 => fun i => 2 * up i) g vol = .ok Eup ∧
      xcEnergy lib xt false (fun _ : Fin 1 => fun i => 2 * dn i) g vol = .ok Edn ∧
      E - (Eup + Edn) / 2 = vol / ((∏ i, n i : ℕ) : ℝ) * ∑ j,
        (excDensity lib xt g (fun _ : Fin 1 => fun i => 2 * dn i) j
          - excDensity lib xt g (fun _ : Fin 1 => fun i => 2 * up i) j) * (up j - dn j) / 2 := by
  have h : ∀ j, excDensity lib xt g ![up, dn] j
      = (excDensity lib xt g (fun _ : Fin 1 => fun i => 2 * up i) j
        + excDensity lib xt g (fun _ : Fin 1 => fun i => 2 * dn i) j) / 2 := by
    intro j
    rw [excDensity_one, excDensity_one, excDensity_two]
    have key : ∀ (l : List String) (f a b : String → ℝ), (∀ x ∈ l, f x = (a x + b x) / 2) →
        (l.map f).sum = ((l.map a).sum + (l.map b).sum) / 2 := by
      intro l f a b
      induction l with
      | nil => simp
      | cons x l ih =>
        intro hl
        have h1 := ih fun y hy => hl y (List.mem_cons_of_mem _ hy)
        have h2 := hl x List.mem_cons_self
        simp only [List.map_cons, List.sum_cons]
        rw [h1, h2]; ring
    split
    · unfold excGga1 excGga2
      rw [sigma1_two, sigma1_two]
      refine key _ _ _ _ fun x hxm => ?_
      unfold ggaPoint1 ggaPoint2
      rw [hx x hxm, if_pos rfl]
      ring
    · unfold excLda1 excLda2
      refine key _ _ _ _ fun x hxm => ?_
      unfold ldaPoint1 ldaPoint2
      rw [hx x hxm, if_pos rfl]
      ring
  refine ⟨_, _, _, xcEnergy_value _ _ _ _ _, xcEnergy_value _ _ _ _ _, xcEnergy_value _ _ _ _ _, ?_⟩
  change vol / (gridCount n : ℝ) * _ - (vol / (gridCount n : ℝ) * _ + vol / (gridCount n : ℝ) * _) / 2
    = vol / (gridCount n : ℝ) * _
  rw [← mul_add, mul_div_assoc, ← mul_sub]
  congr 1
  rw [← Finset.sum_add_distrib, Finset.sum_div, ← Finset.sum_sub_distrib]
  refine Finset.sum_congr rfl fun j _ => ?_
  rw [h]
  simp
  ring

/-- C27, what holds: the spin-scaling relation is satisfied when the two spin densities agree at
every point where the exchange energies per electron differ (in particular for equal densities). -/
theorem exchange_spin_scaling_partial (lib : XcLib) (xt : String)
    (hx : ∀ x ∈ splitPlus xt, isExchange x = true)
    {n : Fin 3 → ℕ} (g : Idx n → Fin 3 → ℝ) (up dn : Idx n → ℝ) (vol : ℝ)
    (h : ∀ j, up j = dn j ∨ excDensity lib xt g (fun _ : Fin 1 => fun i => 2 * dn i) j
      = excDensity lib xt g (fun _ : Fin 1 => fun i => 2 * up i) j) :
    ∃ E Eup Edn, xcEnergy lib xt false ![up, dn] g vol = .ok E ∧
      xcEnergy lib xt false (fun _ : Fin 1 => fun i => 2 * up i) g vol = .ok Eup ∧
      xcEnergy lib xt false (fun _ : Fin 1 => fun i => 2 * dn i) g vol = .ok Edn ∧
      E = (Eup + Edn) / 2 := by
  obtain ⟨E, Eup, Edn, h1, h2, h3, h4⟩ := exchange_spin_scaling_error lib xt hx g up dn vol
  refine ⟨E, Eup, Edn, h1, h2, h3, ?_⟩
  rw [Finset.sum_eq_zero, mul_zero] at h4
  · linarith
  · intro j _
    rcases h j with h | h
    · rw [h]; ring
    · rw [h]; ring

/-- C27: for an LDA exchange functional whose energy per electron is strictly decreasing in the
density, the code's energy is never below the exact spin-scaled value, and equal to it only for
pointwise equal spin densities. -/
theorem exchange_spin_scaling_iff (lib : XcLib) (xt : String) (hs : splitPlus xt = [xt])
    (hx : isExchange xt = true) (hg : pyIn "gga" xt = false)
    (hmono : StrictAntiOn (lib.lda xt) (Set.Ici 0))
    {n : Fin 3 → ℕ} (g : Idx n → Fin 3 → ℝ) (up dn : Idx n → ℝ) (vol : ℝ) (hv : 0 < vol)
    (hup : ∀ j, 0 ≤ up j) (hdn : ∀ j, 0 ≤ dn j) :
    ∃ E Eup Edn, xcEnergy lib xt false ![up, dn] g vol = .ok E ∧
      xcEnergy lib xt false (fun _ : Fin 1 => fun i => 2 * up i) g vol = .ok Eup ∧
      xcEnergy lib xt false (fun _ : Fin 1 => fun i => 2 * dn i) g vol = .ok Edn ∧
      (Eup + Edn) / 2 ≤ E ∧ (E = (Eup + Edn) / 2 ↔ ∀ j, up j = dn j) := by
  obtain ⟨E, Eup, Edn, h1, h2, h3, h4⟩ := exchange_spin_scaling_error lib xt
    (by rw [hs]; simpa using hx) g up dn vol
  have he : ∀ (a : Idx n → ℝ) j, excDensity lib xt g (fun _ : Fin 1 => a) j = lib.lda xt (a j) := by
    intro a j
    rw [excDensity_one, hg, hs]
    simp [excLda1, ldaPoint1]
  simp_rw [he] at h4
  have hterm : ∀ j, 0 ≤ (lib.lda xt (2 * dn j) - lib.lda xt (2 * up j)) * (up j - dn j) / 2 ∧
      ((lib.lda xt (2 * dn j) - lib.lda xt (2 * up j)) * (up j - dn j) / 2 = 0 → up j = dn j) := by
    intro j
    have m1 : 2 * up j ∈ Set.Ici (0 : ℝ) := by have := hup j; simp; linarith
    have m2 : 2 * dn j ∈ Set.Ici (0 : ℝ) := by have := hdn j; simp; linarith
    rcases lt_trichotomy (up j) (dn j) with h | h | h
    · have := hmono m1 m2 (by linarith)
      have hp : 0 < (lib.lda xt (2 * dn j) - lib.lda xt (2 * up j)) * (up j - dn j) :=
        mul_pos_of_neg_of_neg (by linarith) (by linarith)
      exact ⟨by linarith, fun h0 => by linarith⟩
    · rw [h]; simp
    · have := hmono m2 m1 (by linarith)
      have hp : 0 < (lib.lda xt (2 * dn j) - lib.lda xt (2 * up j)) * (up j - dn j) :=
        mul_pos (by linarith) (by linarith)
      exact ⟨by linarith, fun h0 => by linarith⟩
  have hsum : 0 ≤ ∑ j, (lib.lda xt (2 * dn j) - lib.lda xt (2 * up j)) * (up j - dn j) / 2 :=
    Finset.sum_nonneg fun j _ => (hterm j).1
  have hpre : 0 ≤ vol / ((∏ i, n i : ℕ) : ℝ) := by positivity
  refine ⟨E, Eup, Edn, h1, h2, h3, ?_, ?_⟩
  · have := mul_nonneg hpre hsum
    linarith
  · constructor
    · intro hE j
      have h5 : vol / ((∏ i, n i : ℕ) : ℝ) *
          ∑ j, (lib.lda xt (2 * dn j) - lib.lda xt (2 * up j)) * (up j - dn j) / 2 = 0 := by
        rw [← h4]; linarith
      have hN : ((∏ i, n i : ℕ) : ℝ) ≠ 0 := gridCount_ne_real j
      have h6 := (mul_eq_zero.mp h5).resolve_left (div_ne_zero hv.ne' hN)
      exact (hterm j).2 ((Finset.sum_eq_zero_iff_of_nonneg fun j _ => (hterm j).1).mp h6 j
        (Finset.mem_univ j))
    · intro h
      rw [Finset.sum_eq_zero, mul_zero] at h4
      · linarith
      · intro j _; rw [h j]; ring

/-- Dirac exchange: energy per electron `-(3/4)(3 n/π)^(1/3)`, for every name. -/
noncomputable def diracLib : XcLib where
  lda _ n := -(3 / 4) * (3 / Real.pi) ^ (1 / 3 : ℝ) * n ^ (1 / 3 : ℝ)
  ldaPol _ _ _ := 0
  gga _ _ _ := 0
  ggaPol _ _ _ _ _ _ := 0

private theorem dirac_anti : StrictAntiOn (diracLib.lda "lda_x") (Set.Ici 0) := by
  intro a ha b hb hab
  have h1 : a ^ (1 / 3 : ℝ) < b ^ (1 / 3 : ℝ) := Real.rpow_lt_rpow ha hab (by norm_num)
  have h2 : (0 : ℝ) < (3 / Real.pi) ^ (1 / 3 : ℝ) := Real.rpow_pos_of_pos (by positivity) _
  show -(3 / 4) * (3 / Real.pi) ^ (1 / 3 : ℝ) * b ^ (1 / 3 : ℝ)
    < -(3 / 4) * (3 / Real.pi) ^ (1 / 3 : ℝ) * a ^ (1 / 3 : ℝ)
  nlinarith

/-- C27 fails: for Dirac exchange ("lda_x") and one fully polarised electron the code's energy is not
the spin-scaled value. -/
theorem exchange_spin_scaling_fails : ∃ (n : Fin 3 → ℕ) (g : Idx n → Fin 3 → ℝ) (up dn : Idx n → ℝ)
    (E Eup Edn : ℝ), xcEnergy diracLib "lda_x" false ![up, dn] g 1 = .ok E ∧
      xcEnergy diracLib "lda_x" false (fun _ : Fin 1 => fun i => 2 * up i) g 1 = .ok Eup ∧
      xcEnergy diracLib "lda_x" false (fun _ : Fin 1 => fun i => 2 * dn i) g 1 = .ok Edn ∧
      (Eup + Edn) / 2 < E := by
  obtain ⟨E, Eup, Edn, h1, h2, h3, h4, h5⟩ := exchange_spin_scaling_iff diracLib "lda_x"
    (by decide +kernel) (by decide +kernel) (by decide +kernel) dirac_anti (n := fun _ => 1)
    (fun _ _ => 0) (fun _ => 1) (fun _ => 0) 1 one_pos (fun _ => zero_le_one) (fun _ => le_refl _)
  refine ⟨_, _, _, _, E, Eup, Edn, h1, h2, h3, lt_of_le_of_ne h4 fun h => ?_⟩
  exact one_ne_zero (h5.mp h.symm fun _ => 0)

/-- Names of combined exchange-correlation functionals contain `_x`, so a polarised density is
handled by the exchange scaling although the functional has a correlation part: the polarised
functional of the library is never called. -/
theorem xc_combined_is_exchange (lib lib' : XcLib) (h : lib.lda = lib'.lda) (up dn : ℝ) :
    excLda2 lib (splitPlus "lda_xc_teter93") up dn = excLda2 lib' (splitPlus "lda_xc_teter93") up dn := by
  have hs : splitPlus "lda_xc_teter93" = ["lda_xc_teter93"] := by decide +kernel
  have hx : isExchange "lda_xc_teter93" = true := by decide +kernel
  rw [hs]
  simp [excLda2, ldaPoint2, hx, h]

/-- Contracts met: the limit theorem applies to exchange plus a correlation functional. -/
example : splitPlus "lda_x+lda_c_pw" = ["lda_x", "lda_c_pw"] ∧ isExchange "lda_x" = true ∧
    isExchange "lda_c_pw" = false ∧ pyIn "gga" "lda_x+lda_c_pw" = false := by decide +kernel

/-! ### C56: LDA potential -/

private theorem hasDerivAt_update {n : Fin 3 → ℕ} (f : Idx n → ℝ → ℝ) (rho : Idx n → ℝ) (j : Idx n)
    (v : ℝ) (h : HasDerivAt (f j) v (rho j)) :
    HasDerivAt (fun t => ∑ i, f i (Function.update rho j t i)) v (rho j) := by
  have h1 : ∀ i ∈ (Finset.univ : Finset (Idx n)),
      HasDerivAt (fun t => f i (Function.update rho j t i)) (if i = j then v else 0) (rho j) := by
    intro i _
    by_cases hi : i = j
    · subst hi
      simpa using h
    · simp only [Function.update_of_ne hi, if_neg hi]
      exact hasDerivAt_const _ _
  have h2 := HasDerivAt.fun_sum h1
  simpa using h2

/-- C56: for an unpolarised density and an LDA functional, the Kohn–Sham potential at a grid point is
the derivative of the reported energy with respect to the density at that point, divided by the
volume element. -/
theorem vxc_lda_unpolarised_partial (lib : XcLib) (xt : String) (hg : pyIn "gga" xt = false)
    {n : Fin 3 → ℕ} (g : Idx n → Fin 3 → ℝ) (rho : Idx n → ℝ) (vol : ℝ) (j : Idx n)
    (hd : ∀ x ∈ splitPlus xt, DifferentiableAt ℝ (lib.lda x) (rho j)) :
    ∃ (E : ℝ → ℝ) (v : ℝ),
      (∀ t, xcEnergy lib xt false (fun _ : Fin 1 => Function.update rho j t) g vol = .ok (E t)) ∧
      xcDensity lib xt true g (fun _ : Fin 1 => rho) 0 j = (v : ℂ) ∧
      HasDerivAt E (vol / ((∏ i, n i : ℕ) : ℝ) * v) (rho j) := by
  refine ⟨_, vxcLda1 (excLda1 lib (splitPlus xt)) (rho j), fun t => xcEnergy_value _ _ _ _ _, ?_, ?_⟩
  · unfold xcDensity vxcDensity
    simp [hg, chan]
  · refine HasDerivAt.const_mul _ ?_
    have hdiff : DifferentiableAt ℝ (excLda1 lib (splitPlus xt)) (rho j) := by
      unfold excLda1 ldaPoint1
      generalize splitPlus xt = l at hd
      induction l with
      | nil => simp
      | cons x l ih =>
        simp only [List.map_cons, List.sum_cons]
        exact (hd x List.mem_cons_self).add (ih fun y hy => hd y (List.mem_cons_of_mem _ hy))
    have h := hasDerivAt_update (fun _ t => excLda1 lib (splitPlus xt) t * t) rho j
      (vxcLda1 (excLda1 lib (splitPlus xt)) (rho j)) (by
        have := hdiff.hasDerivAt.fun_mul (hasDerivAt_id' (rho j))
        rw [mul_one] at this
        exact this)
    refine h.congr_of_eventuallyEq (Filter.Eventually.of_forall fun t => ?_)
    refine Finset.sum_congr rfl fun i _ => ?_
    rw [excDensity_one, hg]
    simp

/-- C56 for a polarised density: the derivative of the reported energy with respect to the spin-up
density differs from the potential the code returns by `n_dn ∂ε/∂n_up`. -/
theorem vxc_lda_polarised_error (lib : XcLib) (xt : String) (hg : pyIn "gga" xt = false)
    {n : Fin 3 → ℕ} (g : Idx n → Fin 3 → ℝ) (up dn : Idx n → ℝ) (vol : ℝ) (j : Idx n)
    (hd : DifferentiableAt ℝ (fun x => excLda2 lib (splitPlus xt) x (dn j)) (up j)) :
    ∃ (E : ℝ → ℝ) (v : ℝ),
      (∀ t, xcEnergy lib xt false ![Function.update up j t, dn] g vol = .ok (E t)) ∧
      xcDensity lib xt true g ![up, dn] 0 j = (v : ℂ) ∧
      HasDerivAt E (vol / ((∏ i, n i : ℕ) : ℝ) *
        (v + dn j * deriv (fun x => excLda2 lib (splitPlus xt) x (dn j)) (up j))) (up j) := by
  refine ⟨_, (vxcLda2 (excLda2 lib (splitPlus xt)) (up j) (dn j)).1,
    fun t => xcEnergy_value _ _ _ _ _, ?_, ?_⟩
  · unfold xcDensity vxcDensity
    simp [hg, chan]
  · refine HasDerivAt.const_mul _ ?_
    have h := hasDerivAt_update (fun i t => excLda2 lib (splitPlus xt) t (dn i) * (t + dn i)) up j
      ((vxcLda2 (excLda2 lib (splitPlus xt)) (up j) (dn j)).1
        + dn j * deriv (fun x => excLda2 lib (splitPlus xt) x (dn j)) (up j)) (by
        have := hd.hasDerivAt.fun_mul ((hasDerivAt_id' (up j)).add_const (dn j))
        rw [mul_one] at this
        rw [show (vxcLda2 (excLda2 lib (splitPlus xt)) (up j) (dn j)).1
            + dn j * deriv (fun x => excLda2 lib (splitPlus xt) x (dn j)) (up j)
          = deriv (fun x => excLda2 lib (splitPlus xt) x (dn j)) (up j) * (up j + dn j)
            + excLda2 lib (splitPlus xt) (up j) (dn j) by unfold vxcLda2; ring]
        exact this)
    refine h.congr_of_eventuallyEq (Filter.Eventually.of_forall fun t => ?_)
    refine Finset.sum_congr rfl fun i _ => ?_
    rw [excDensity_two, hg]
    simp

/-- C56: the same for the second spin channel. -/
theorem vxc_lda_polarised_error_down (lib : XcLib) (xt : String) (hg : pyIn "gga" xt = false)
    {n : Fin 3 → ℕ} (g : Idx n → Fin 3 → ℝ) (up dn : Idx n → ℝ) (vol : ℝ) (j : Idx n)
    (hd : DifferentiableAt ℝ (fun x => excLda2 lib (splitPlus xt) (up j) x) (dn j)) :
    ∃ (E : ℝ → ℝ) (v : ℝ),
      (∀ t, xcEnergy lib xt false ![up, Function.update dn j t] g vol = .ok (E t)) ∧
      xcDensity lib xt true g ![up, dn] 1 j = (v : ℂ) ∧
      HasDerivAt E (vol / ((∏ i, n i : ℕ) : ℝ) *
        (v + up j * deriv (fun x => excLda2 lib (splitPlus xt) (up j) x) (dn j))) (dn j) := by
  refine ⟨_, (vxcLda2 (excLda2 lib (splitPlus xt)) (up j) (dn j)).2,
    fun t => xcEnergy_value _ _ _ _ _, ?_, ?_⟩
  · unfold xcDensity vxcDensity
    simp [hg, chan]
  · refine HasDerivAt.const_mul _ ?_
    have h := hasDerivAt_update (fun i t => excLda2 lib (splitPlus xt) (up i) t * (up i + t)) dn j
      ((vxcLda2 (excLda2 lib (splitPlus xt)) (up j) (dn j)).2
        + up j * deriv (fun x => excLda2 lib (splitPlus xt) (up j) x) (dn j)) (by
        have := hd.hasDerivAt.fun_mul ((hasDerivAt_id' (dn j)).const_add (up j))
        rw [mul_one] at this
        rw [show (vxcLda2 (excLda2 lib (splitPlus xt)) (up j) (dn j)).2
            + up j * deriv (fun x => excLda2 lib (splitPlus xt) (up j) x) (dn j)
          = deriv (fun x => excLda2 lib (splitPlus xt) (up j) x) (dn j) * (up j + dn j)
            + excLda2 lib (splitPlus xt) (up j) (dn j) by unfold vxcLda2; ring]
        exact this)
    refine h.congr_of_eventuallyEq (Filter.Eventually.of_forall fun t => ?_)
    refine Finset.sum_congr rfl fun i _ => ?_
    rw [excDensity_two, hg]
    simp

/-- The differentiability hypotheses of both channels are met by Dirac exchange. -/
example : DifferentiableAt ℝ (fun x => excLda2 diracLib ["lda_x"] x 1) 1 ∧
    DifferentiableAt ℝ (fun x => excLda2 diracLib ["lda_x"] 1 x) 1 := by
  have hx : isExchange "lda_x" = true := by decide +kernel
  have h : DifferentiableAt ℝ (fun x : ℝ => -(3 / 4) * (3 / Real.pi) ^ (1 / 3 : ℝ) * (2 * x) ^ (1 / 3 : ℝ)) 1 :=
    DifferentiableAt.const_mul ((Real.differentiableAt_rpow_const_of_ne (1 / 3) (x := 2 * 1)
      (by norm_num)).comp 1 (differentiableAt_id.const_mul 2)) _
  constructor
  · refine DifferentiableAt.congr_of_eventuallyEq ((h.add_const
      (-(3 / 4) * (3 / Real.pi) ^ (1 / 3 : ℝ) * (2 * 1) ^ (1 / 3 : ℝ))).const_mul 0.5)
      (Filter.Eventually.of_forall fun x => ?_)
    simp [excLda2, ldaPoint2, hx, diracLib]
  · refine DifferentiableAt.congr_of_eventuallyEq ((h.const_add
      (-(3 / 4) * (3 / Real.pi) ^ (1 / 3 : ℝ) * (2 * 1) ^ (1 / 3 : ℝ))).const_mul 0.5)
      (Filter.Eventually.of_forall fun x => ?_)
    simp [excLda2, ldaPoint2, hx, diracLib]

/-- C56 fails for polarised densities: Dirac exchange, one point, `n_up = n_dn = 1`. -/
theorem vxc_lda_polarised_wrong : ∃ (n : Fin 3 → ℕ) (g : Idx n → Fin 3 → ℝ) (up dn : Idx n → ℝ)
    (j : Idx n) (E : ℝ → ℝ) (v E' : ℝ),
      (∀ t, xcEnergy diracLib "lda_x" false ![Function.update up j t, dn] g 1 = .ok (E t)) ∧
      xcDensity diracLib "lda_x" true g ![up, dn] 0 j = (v : ℂ) ∧
      HasDerivAt E (1 / ((∏ i, n i : ℕ) : ℝ) * E') (up j) ∧ E' ≠ v := by
  have hs : splitPlus "lda_x" = ["lda_x"] := by decide +kernel
  have hx : isExchange "lda_x" = true := by decide +kernel
  set c := (3 / Real.pi) ^ (1 / 3 : ℝ) with hc
  have hcpos : 0 < c := Real.rpow_pos_of_pos (by positivity) _
  have hfun : (fun x : ℝ => excLda2 diracLib (splitPlus "lda_x") x 1)
      = fun x => 0.5 * (-(3 / 4) * c * (2 * x) ^ (1 / 3 : ℝ) + -(3 / 4) * c * (2 * 1) ^ (1 / 3 : ℝ)) := by
    funext x
    rw [hs]
    simp [excLda2, ldaPoint2, hx, diracLib, hc]
  have hder : HasDerivAt (fun x : ℝ => excLda2 diracLib (splitPlus "lda_x") x 1)
      (0.5 * (-(3 / 4) * c * (2 * (1 / 3) * (2 * 1) ^ (1 / 3 - 1 : ℝ)))) 1 := by
    rw [hfun]
    have h1 : HasDerivAt (fun x : ℝ => 2 * x) 2 1 := by
      simpa using (hasDerivAt_id (1 : ℝ)).const_mul 2
    have h2 := h1.rpow_const (p := 1 / 3) (Or.inl (by norm_num))
    exact ((h2.const_mul (-(3 / 4) * c)).add_const _).const_mul 0.5
  obtain ⟨E, v, h1, h2, h3⟩ := vxc_lda_polarised_error diracLib "lda_x" (by decide +kernel)
    (n := fun _ => 1) (fun _ _ => 0) (fun _ => 1) (fun _ => 1) 1 (fun _ => 0) hder.differentiableAt
  refine ⟨_, _, _, _, _, E, v, _, h1, h2, h3, ?_⟩
  rw [hder.deriv]
  have h4 : (0 : ℝ) < (2 * 1) ^ (1 / 3 - 1 : ℝ) := Real.rpow_pos_of_pos (by norm_num) _
  have h5 : 0 < c * (2 * 1) ^ (1 / 3 - 1 : ℝ) := mul_pos hcpos h4
  intro h
  norm_num at h h4
  exact absurd h hcpos.ne'

/-- The differentiability hypothesis of the unpolarised theorem is met by Dirac exchange at a
positive density. -/
example : ∀ x ∈ splitPlus "lda_x", DifferentiableAt ℝ (diracLib.lda x) 1 := by
  intro x _
  show DifferentiableAt ℝ (fun n : ℝ => -(3 / 4) * (3 / Real.pi) ^ (1 / 3 : ℝ) * n ^ (1 / 3 : ℝ)) 1
  exact DifferentiableAt.const_mul (Real.differentiableAt_rpow_const_of_ne (1 / 3) one_ne_zero)
    (-(3 / 4) * (3 / Real.pi) ^ (1 / 3 : ℝ))

/-! ### C58: translation -/

private theorem sigma1_translate {n : Fin 3 → ℕ} (g : Idx n → Fin 3 → ℝ) (a a' : Idx n → ℝ) (t : Idx n)
    (h : ∀ j, a' (addIdx j t) = a j) (j : Idx n) : sigma1 g a' (addIdx j t) = sigma1 g a j := by
  unfold sigma1
  exact Finset.sum_congr rfl fun d _ => by rw [gradRho_translate g a a' t h]

private theorem sigmaPair_translate {n : Fin 3 → ℕ} (g : Idx n → Fin 3 → ℝ) (a a' b b' : Idx n → ℝ)
    (t : Idx n) (ha : ∀ j, a' (addIdx j t) = a j) (hb : ∀ j, b' (addIdx j t) = b j) (j : Idx n) :
    sigmaPair g a' b' (addIdx j t) = sigmaPair g a b j := by
  unfold sigmaPair
  refine congrArg Complex.re ?_
  exact Finset.sum_congr rfl fun d _ => by
    rw [gradRho_translate g a a' t ha, gradRho_translate g b b' t hb]

private theorem chan_translate {ns : ℕ} {n : Fin 3 → ℕ} (rho rho' : Fin ns → Idx n → ℝ) (t : Idx n)
    (h : ∀ s j, rho' s (addIdx j t) = rho s j) (i : ℕ) (j : Idx n) :
    chan rho' i (addIdx j t) = chan rho i j := by
  unfold chan
  split
  · exact h _ _
  · rfl

/-- C58: the exchange-correlation energy density of a translated density is the translated energy
density, and the energy is unchanged (LDA and GGA). -/
theorem xc_translate (lib : XcLib) (xt : String) {ns : ℕ} {n : Fin 3 → ℕ} (g : Idx n → Fin 3 → ℝ)
    (rho rho' : Fin ns → Idx n → ℝ) (vol : ℝ) (t : Idx n)
    (h : ∀ s j j', Spec.IsShift t j j' → rho' s j' = rho s j) :
    (∀ j j', Spec.IsShift t j j' → excDensity lib xt g rho' j' = excDensity lib xt g rho j) ∧
    xcEnergy lib xt false rho' g vol = xcEnergy lib xt false rho g vol := by
  have h0 : ∀ s j, rho' s (addIdx j t) = rho s j := fun s j => h s j _ (isShift_addIdx j t)
  have h1 : ∀ j, excDensity lib xt g rho' (addIdx j t) = excDensity lib xt g rho j := by
    intro j
    have hc := chan_translate rho rho' t h0
    have e0 : sigma2 g (chan rho' 0) (chan rho' 1) 0 (addIdx j t) = sigma2 g (chan rho 0) (chan rho 1) 0 j :=
      sigmaPair_translate g _ _ _ _ t (hc 0) (hc 0) j
    have e1 : sigma2 g (chan rho' 0) (chan rho' 1) 1 (addIdx j t) = sigma2 g (chan rho 0) (chan rho 1) 1 j :=
      sigmaPair_translate g _ _ _ _ t (hc 0) (hc 1) j
    have e2 : sigma2 g (chan rho' 0) (chan rho' 1) 2 (addIdx j t) = sigma2 g (chan rho 0) (chan rho 1) 2 j :=
      sigmaPair_translate g _ _ _ _ t (hc 1) (hc 1) j
    unfold excDensity
    dsimp only
    rw [hc 0 j, hc 1 j, e0, e1, e2, sigma1_translate g _ _ t (hc 0) j]
  refine ⟨fun j j' hj => by rw [isShift_unique hj]; exact h1 j, ?_⟩
  rw [xcEnergy_value, xcEnergy_value]
  congr 2
  rw [← Equiv.sum_comp (addEquiv t)]
  refine Finset.sum_congr rfl fun j _ => ?_
  show excDensity lib xt g rho' (addIdx j t) * ∑ s, rho' s (addIdx j t) = _
  rw [h1]
  simp_rw [h0]

/-- C58: the LDA potential of a translated density is the translated potential. -/
theorem vxc_translate_partial (lib : XcLib) (xt : String) (hg : pyIn "gga" xt = false) {ns : ℕ}
    {n : Fin 3 → ℕ} (g : Idx n → Fin 3 → ℝ) (rho rho' : Fin ns → Idx n → ℝ) (t : Idx n)
    (h : ∀ s j j', Spec.IsShift t j j' → rho' s j' = rho s j) (s : Fin ns) (j j' : Idx n)
    (hj : Spec.IsShift t j j') :
    xcDensity lib xt true g rho' s j' = xcDensity lib xt true g rho s j := by
  have hc := chan_translate rho rho' t fun s j => h s j _ (isShift_addIdx j t)
  rw [isShift_unique hj]
  unfold xcDensity vxcDensity
  simp only [if_true, hg, Bool.false_eq_true, if_false]
  rw [hc 0 j, hc 1 j]

/-- A GGA functional whose energy per electron is `σ`, for the counterexample. -/
noncomputable def sigmaLib : XcLib where
  lda _ _ := 0
  ldaPol _ _ _ := 0
  gga _ _ s := s
  ggaPol _ _ _ _ _ _ := 0

private theorem gVec2 (d : Fin 3) : gVectors 1 grid2 (pt2 false) d = 0 ∧
    gVectors 1 grid2 (pt2 true) d = if d = 0 then -(2 * Real.pi) else 0 := by
  constructor
  · rw [gVectors_apply]
    refine Finset.sum_eq_zero fun i _ => ?_
    rw [pt2_false_zero i, sfreq_zero]; simp
  · rw [gVectors_apply, Fin.sum_univ_three]
    change (sfreq 2 1 : ℝ) * _ + (sfreq 1 0 : ℝ) * _ + (sfreq 1 0 : ℝ) * _ = _
    have h1 : sfreq 2 1 = -1 := by decide
    have h2 : sfreq 1 0 = 0 := by decide
    rw [h1, h2]
    unfold reciprocalVectors
    fin_cases d <;> simp

private theorem grad2 (rho : Idx grid2 → ℝ) (j : Bool) (d : Fin 3) :
    ‖gradRho (gVectors 1 grid2) rho d (pt2 j)‖
      = if d = 0 then Real.pi * |rho (pt2 false) - rho (pt2 true)| else 0 := by
  have hval : gradRho (gVectors 1 grid2) rho d (pt2 j)
      = (if j then (-1 : ℂ) else 1) * (((rho (pt2 false) - rho (pt2 true) : ℝ) : ℂ) * Complex.I *
        ((if d = 0 then -(2 * Real.pi) else 0 : ℝ) : ℂ)) / 2 := by
    unfold gradRho
    cases j with
    | false =>
      rw [(ifftn_grid2 _).1, (fftn_grid2 _).1, (fftn_grid2 _).2, (gVec2 d).1, (gVec2 d).2]
      push_cast; simp
    | true =>
      rw [(ifftn_grid2 _).2, (fftn_grid2 _).1, (fftn_grid2 _).2, (gVec2 d).1, (gVec2 d).2]
      push_cast; simp
  rw [hval]
  have hn : ‖(if j then (-1 : ℂ) else 1)‖ = 1 := by cases j <;> simp
  rw [norm_div, norm_mul, norm_mul, norm_mul, hn, Complex.norm_real, Complex.norm_real, Complex.norm_I]
  by_cases hd : d = 0
  · simp only [hd, if_true]
    rw [norm_neg]
    simp only [Real.norm_eq_abs]
    rw [abs_of_pos (by positivity : (0 : ℝ) < 2 * Real.pi)]
    simp
    ring
  · simp [hd]

private theorem sig2 (rho : Idx grid2 → ℝ) (j : Bool) :
    sigma1 (gVectors 1 grid2) rho (pt2 j) = Real.pi ^ 2 * (rho (pt2 false) - rho (pt2 true)) ^ 2 := by
  rw [sigma1_eq]
  simp_rw [grad2]
  rw [Fin.sum_univ_three]
  simp [mul_pow]

private theorem lapl2 (rho : Idx grid2 → ℝ) (j : Bool) :
    laplRho (gVectors 1 grid2) rho (pt2 j)
      = (((if j then 1 else -1) * (2 * Real.pi ^ 2) * (rho (pt2 false) - rho (pt2 true)) : ℝ) : ℂ) := by
  have h1 : ∑ d, gVectors 1 grid2 (pt2 false) d ^ 2 = 0 :=
    Finset.sum_eq_zero fun d _ => by rw [(gVec2 d).1]; simp
  have h2 : ∑ d, gVectors 1 grid2 (pt2 true) d ^ 2 = 4 * Real.pi ^ 2 := by
    simp_rw [(gVec2 _).2]
    rw [Fin.sum_univ_three]
    simp
    ring
  unfold laplRho
  cases j with
  | false =>
    rw [(ifftn_grid2 _).1, (fftn_grid2 _).1, (fftn_grid2 _).2, h1, h2]
    push_cast; simp; ring
  | true =>
    rw [(ifftn_grid2 _).2, (fftn_grid2 _).1, (fftn_grid2 _).2, h1, h2]
    push_cast; simp; ring

private theorem mk2 (j : Bool) (y : Fin (grid2 1)) (z : Fin (grid2 2)) :
    mkIdx (pt2 j 0) y z = pt2 j := by
  have hy : (y : ℕ) = 0 := by have : (y : ℕ) < 1 := y.2; omega
  have hz : (z : ℕ) = 0 := by have : (z : ℕ) < 1 := z.2; omega
  funext i
  apply Fin.ext
  fin_cases i
  · rfl
  · exact hy
  · exact hz

private theorem fftZ2 (f : Idx grid2 → ℂ) (j : Bool) : fftZ f (pt2 j) = f (pt2 j) := by
  unfold fftZ
  have : ∀ z : Fin (grid2 2), mkIdx (pt2 j 0) (pt2 j 1) z = pt2 j := fun z => mk2 j _ z
  change ∑ z : Fin 1, _ = _
  rw [Fin.sum_univ_one]
  rw [show mkIdx (pt2 j 0) (pt2 j 1) (0 : Fin 1) = pt2 j from this _]
  rw [show (((pt2 j 2 : Fin (grid2 2)) : ℕ) : ℂ) = 0 by cases j <;> exact Nat.cast_zero]
  simp

private theorem ifftnYZD2 (F : Idx grid2 → Fin 3 → ℂ) (j : Bool) (d : Fin 3)
    (h1 : F (pt2 j) 1 = 0) (h2 : F (pt2 j) 2 = 0) :
    ifftnYZD F (pt2 j) d = F (pt2 j) 0 / 3 := by
  unfold ifftnYZD
  change (∑ y : Fin 1, ∑ z : Fin 1, _) / ((1 * 1 * 3 : ℕ) : ℂ) = _
  rw [Fin.sum_univ_one, Fin.sum_univ_one, Fin.sum_univ_three]
  rw [show mkIdx (pt2 j 0) (0 : Fin 1) (0 : Fin 1) = pt2 j from mk2 j _ _, h1, h2]
  rw [show (((pt2 j 2 : Fin (grid2 2)) : ℕ) : ℂ) = 0 by cases j <;> exact Nat.cast_zero,
    show (((pt2 j 1 : Fin (grid2 1)) : ℕ) : ℂ) = 0 by cases j <;> exact Nat.cast_zero]
  simp

private theorem ggaValue2 (q : Idx grid2 → ℝ) (j : Bool) (hq : (q (pt2 false) - q (pt2 true)) ^ 2 = 1) :
    vxcGga1 (fun _ s => s) (gVectors 1 grid2) q (sigma1 (gVectors 1 grid2) q) (pt2 j)
      = ((Real.pi ^ 2 - 2 * ((if j then -(4 * Real.pi ^ 2 / 3) * q (pt2 true)
          * (q (pt2 false) - q (pt2 true)) else 0) +
        q (pt2 j) * ((if j then 1 else -1) * (2 * Real.pi ^ 2) * (q (pt2 false) - q (pt2 true)))) : ℝ) : ℂ) := by
  have hpi := Real.pi_pos
  have hsig : ∀ i, sigma1 (gVectors 1 grid2) q (pt2 i) = Real.pi ^ 2 := by
    intro i; rw [sig2, hq, mul_one]
  unfold vxcGga1
  dsimp only
  rw [ifftn_fftn']
  have hgt : ∀ i t, whereGt (sigma1 (gVectors 1 grid2) q (pt2 i)) t = t := by
    intro i t
    unfold whereGt
    rw [hsig]
    exact if_pos (by positivity)
  have ht3 : ∑ d, gradFftKs (gVectors 1 grid2) (fun i => (whereGt (sigma1 (gVectors 1 grid2) q i)
        (deriv (fun x => x) (sigma1 (gVectors 1 grid2) q i) * q i) : ℂ)) (pt2 j) d *
        gradRhoKs (gVectors 1 grid2) q (pt2 j) d
      = ((if j then -(4 * Real.pi ^ 2 / 3) * q (pt2 true) * (q (pt2 false) - q (pt2 true)) else 0 : ℝ) : ℂ) := by
    have hz1 : ∀ (i : Bool) (d : Fin 3), d ≠ 0 → gVectors 1 grid2 (pt2 i) d = 0 := by
      intro i d hd
      cases i
      · exact (gVec2 d).1
      · rw [(gVec2 d).2, if_neg hd]
    have hterm : ∀ d, gradFftKs (gVectors 1 grid2) (fun i => (whereGt (sigma1 (gVectors 1 grid2) q i)
        (deriv (fun x => x) (sigma1 (gVectors 1 grid2) q i) * q i) : ℂ)) (pt2 j) d *
        gradRhoKs (gVectors 1 grid2) q (pt2 j) d
        = (Complex.I * (gVectors 1 grid2 (pt2 j) 0 : ℂ) * (q (pt2 j) : ℂ) / 3) *
          (fftn (fun i => (q i : ℂ)) (pt2 j) * Complex.I * (gVectors 1 grid2 (pt2 j) 0 : ℂ) / 3) := by
      intro d
      unfold gradFftKs gradRhoKs
      rw [ifftnYZD2 _ j d (by rw [hz1 j 1 (by decide)]; simp) (by rw [hz1 j 2 (by decide)]; simp),
        ifftnYZD2 _ j d (by rw [hz1 j 1 (by decide)]; simp) (by rw [hz1 j 2 (by decide)]; simp),
        fftZ2, hgt]
      simp
    simp_rw [hterm]
    rw [Finset.sum_const, Finset.card_univ, Fintype.card_fin]
    cases j with
    | false => rw [(gVec2 0).1]; simp
    | true =>
      rw [(gVec2 0).2, (fftn_grid2 _).2]
      simp only [if_true]
      push_cast
      have := Complex.I_sq
      simp only [nsmul_eq_mul]
      push_cast
      linear_combination (4 * (Real.pi : ℂ) ^ 2 * (q (pt2 true) : ℂ) *
        ((q (pt2 false) : ℂ) - (q (pt2 true) : ℂ)) / 3) * this
  rw [ht3, lapl2, hgt, hsig]
  simp only [deriv_const, zero_mul, zero_add]
  rw [show deriv (fun x : ℝ => x) (Real.pi ^ 2) = 1 from deriv_id _]
  push_cast
  simp

private theorem ggaPot2 (rho : Idx grid2 → ℝ) (j : Bool) :
    xcDensity sigmaLib "gga_x_pbe" true (gVectors 1 grid2) (fun _ : Fin 1 => rho) 0 (pt2 j)
      = vxcGga1 (fun _ s => s) (gVectors 1 grid2) rho (sigma1 (gVectors 1 grid2) rho) (pt2 j) := by
  have hs : splitPlus "gga_x_pbe" = ["gga_x_pbe"] := by decide +kernel
  have hg : pyIn "gga" "gga_x_pbe" = true := by decide +kernel
  unfold xcDensity vxcDensity
  rw [hs, hg]
  have he : excGga1 sigmaLib ["gga_x_pbe"] = fun _ s => s := by
    funext a b
    simp [excGga1, ggaPoint1, sigmaLib]
  simp [chan, he]

/-- C58 fails for the GGA potential: `vxc_gga_recp` transforms the wrong axes, so that the potential
does not follow a translation of the density by one grid step. -/
theorem vxc_gga_translate_wrong : ∃ (lib : XcLib) (rho rho' : Fin 1 → Idx grid2 → ℝ) (t j j' : Idx grid2),
    (∀ s i i', Spec.IsShift t i i' → rho' s i' = rho s i) ∧ Spec.IsShift t j j' ∧
    xcDensity lib "gga_x_pbe" true (gVectors 1 grid2) rho' 0 j'
      ≠ xcDensity lib "gga_x_pbe" true (gVectors 1 grid2) rho 0 j := by
  -- first density: one electron at the second point
  let rho : Idx grid2 → ℝ := fun k => if k = pt2 true then 1 else 0
  let rho' : Idx grid2 → ℝ := fun k => if k = pt2 true then 0 else 1
  have r0 : rho (pt2 false) = 0 := if_neg pt2_ne
  have r1 : rho (pt2 true) = 1 := if_pos rfl
  have r0' : rho' (pt2 false) = 1 := if_neg pt2_ne
  have r1' : rho' (pt2 true) = 0 := if_pos rfl
  have hpi := Real.pi_pos
  have hshift : Spec.IsShift (pt2 true) (pt2 true) (pt2 false) := by
    intro i
    fin_cases i
    · exact ⟨1, by rfl⟩
    · exact ⟨0, by rfl⟩
    · exact ⟨0, by rfl⟩
  have hshift' : addIdx (pt2 false) (pt2 true) = pt2 true := by
    funext i; apply Fin.ext; fin_cases i <;> rfl
  refine ⟨sigmaLib, fun _ => rho, fun _ => rho', pt2 true, pt2 true, pt2 false, ?_, hshift, ?_⟩
  · intro _ i i' hi
    rw [isShift_unique hi]
    rcases pt2_cases i with h | h
    · rw [h, hshift']; exact r1'.trans r0.symm
    · rw [h, ← isShift_unique hshift]; exact r0'.trans r1.symm
  · rw [ggaPot2, ggaPot2, ggaValue2 rho' false (by rw [r0', r1']; norm_num), ggaValue2 rho true (by rw [r0, r1]; norm_num)]
    rw [r0', r1', r0, r1]
    intro h
    rw [Complex.ofReal_inj] at h
    norm_num at h
    nlinarith [mul_pos hpi hpi]

/-- C87 fails for GGA functionals: the potential the band Hamiltonian uses is not the derivative of the
exchange-correlation energy with respect to the density at a grid point.  (On a grid of two points, with the
energy per particle equal to the squared density gradient.) -/
theorem vxc_gga_derivative_wrong : ∃ (lib : XcLib) (rho : Idx grid2 → ℝ) (j : Idx grid2) (E : ℝ → ℝ) (E' : ℝ),
    (∀ t, xcEnergy lib "gga_x_pbe" false (fun _ : Fin 1 => fun i => rho i + if i = j then t else 0)
      (gVectors 1 grid2) 1 = .ok (E t)) ∧ HasDerivAt E E' 0 ∧
    (E' : ℂ) ≠ 1 / (gridCount grid2 : ℂ) *
      xcDensity lib "gga_x_pbe" true (gVectors 1 grid2) (fun _ : Fin 1 => rho) 0 j := by
  have hs : splitPlus "gga_x_pbe" = ["gga_x_pbe"] := by decide +kernel
  have hg : pyIn "gga" "gga_x_pbe" = true := by decide +kernel
  have hpi := Real.pi_pos
  let rho : Idx grid2 → ℝ := fun k => if k = pt2 true then 0 else 1
  have r0 : rho (pt2 false) = 1 := if_neg pt2_ne
  have r1 : rho (pt2 true) = 0 := if_pos rfl
  have hc : gridCount grid2 = 2 := by decide
  have he : ∀ q : Idx grid2 → ℝ, xcEnergy sigmaLib "gga_x_pbe" false (fun _ : Fin 1 => q) (gVectors 1 grid2) 1
      = .ok (1 / 2 * (Real.pi ^ 2 * (q (pt2 false) - q (pt2 true)) ^ 2 * (q (pt2 false) + q (pt2 true)))) := by
    intro q
    rw [xcEnergy_value, hc, sum_grid2]
    unfold excDensity
    rw [hs, hg]
    have he : excGga1 sigmaLib ["gga_x_pbe"] = fun _ s => s := by
      funext a b
      simp [excGga1, ggaPoint1, sigmaLib]
    simp only [he, chan, if_true, sig2, Finset.univ_unique, Finset.sum_singleton]
    simp [sig2]
    ring
  refine ⟨sigmaLib, rho, pt2 false, fun t => 1 / 2 * (Real.pi ^ 2 * (1 + t) ^ 3), 3 / 2 * Real.pi ^ 2,
    fun t => ?_, ?_, ?_⟩
  · rw [he]
    beta_reduce
    rw [r0, r1, if_pos rfl, if_neg pt2_ne.symm]
    congr 1
    ring
  · have h1 : HasDerivAt (fun t : ℝ => 1 + t) 1 0 := (hasDerivAt_id 0).const_add 1
    refine (((h1.pow 3).const_mul (Real.pi ^ 2)).const_mul (1 / 2)).congr_deriv ?_
    norm_num
    ring
  · rw [ggaPot2, ggaValue2 rho false (by rw [r0, r1]; norm_num), hc, r0, r1]
    intro h
    have h2 : (3 / 2 * Real.pi ^ 2 : ℝ) = 1 / 2 * (Real.pi ^ 2 - 2 * ((if false then -(4 * Real.pi ^ 2 / 3) * 0
          * (1 - 0) else 0) + 1 * ((if false then 1 else -1) * (2 * Real.pi ^ 2) * (1 - 0)))) := by
      have := h
      apply Complex.ofReal_injective
      rw [this]
      push_cast
      simp
    norm_num at h2
    nlinarith [mul_pos hpi hpi]

/-- The exchange of the first two axes. -/
def swapXY : Matrix (Fin 3) (Fin 3) ℝ := !![0, 1, 0; 1, 0, 0; 0, 0, 1]

theorem swapXY_orthogonal : swapXY * swapXY.transpose = 1 := by
  ext i j
  fin_cases i <;> fin_cases j <;> simp [swapXY, Matrix.mul_apply, Fin.sum_univ_three]

private theorem ifftnYZD2' (F : Idx grid2 → Fin 3 → ℂ) (j : Bool) (d : Fin 3)
    (h0 : F (pt2 j) 0 = 0) (h2 : F (pt2 j) 2 = 0) :
    ifftnYZD F (pt2 j) d = F (pt2 j) 1 * Complex.exp (2 * Real.pi * Complex.I * (((d : ℕ) : ℂ) / 3)) / 3 := by
  unfold ifftnYZD
  change (∑ y : Fin 1, ∑ z : Fin 1, _) / ((1 * 1 * 3 : ℕ) : ℂ) = _
  rw [Fin.sum_univ_one, Fin.sum_univ_one, Fin.sum_univ_three]
  rw [show mkIdx (pt2 j 0) (0 : Fin 1) (0 : Fin 1) = pt2 j from mk2 j _ _, h0, h2]
  rw [show (((pt2 j 2 : Fin (grid2 2)) : ℕ) : ℂ) = 0 by cases j <;> exact Nat.cast_zero,
    show (((pt2 j 1 : Fin (grid2 1)) : ℕ) : ℂ) = 0 by cases j <;> exact Nat.cast_zero]
  simp

/-- The three squared cube roots of one add to zero. -/
private theorem roots_sq_sum : ∑ d : Fin 3, Complex.exp (2 * Real.pi * Complex.I * (((d : ℕ) : ℂ) / 3)) ^ 2 = 0 := by
  have h := (Complex.isPrimitiveRoot_exp 3 (by norm_num)).pow_of_coprime 2 (by decide)
  have hs := h.geom_sum_eq_zero (by norm_num)
  rw [Finset.sum_range] at hs
  rw [← hs]
  refine Finset.sum_congr rfl fun d _ => ?_
  rw [← Complex.exp_nat_mul, ← Complex.exp_nat_mul, ← Complex.exp_nat_mul]
  congr 1
  push_cast
  ring

/-- C92 fails for GGA functionals: the potential the band Hamiltonian uses depends on the orientation of the
crystal.  Exchanging the first two coordinate axes changes it, although the density and the lattice are the same.
(On a grid of two points, with the energy per particle equal to the squared density gradient.) -/
theorem vxc_gga_rotate_wrong : ∃ (lib : XcLib) (R : Matrix (Fin 3) (Fin 3) ℝ) (rho : Fin 1 → Idx grid2 → ℝ)
    (j : Idx grid2), R * R.transpose = 1 ∧
    xcDensity lib "gga_x_pbe" true (gVectors (1 * R) grid2) rho 0 j
      ≠ xcDensity lib "gga_x_pbe" true (gVectors 1 grid2) rho 0 j := by
  let rho : Idx grid2 → ℝ := fun k => if k = pt2 true then 1 else 0
  have r0 : rho (pt2 false) = 0 := if_neg pt2_ne
  have r1 : rho (pt2 true) = 1 := if_pos rfl
  have hpi := Real.pi_pos
  refine ⟨sigmaLib, swapXY, fun _ => rho, pt2 true, swapXY_orthogonal, ?_⟩
  have hs : splitPlus "gga_x_pbe" = ["gga_x_pbe"] := by decide +kernel
  have hg : pyIn "gga" "gga_x_pbe" = true := by decide +kernel
  have he : excGga1 sigmaLib ["gga_x_pbe"] = fun _ s => s := by
    funext a b
    simp [excGga1, ggaPoint1, sigmaLib]
  have hl : xcDensity sigmaLib "gga_x_pbe" true (gVectors (1 * swapXY) grid2) (fun _ : Fin 1 => rho) 0 (pt2 true) =
      vxcGga1 (fun _ s => s) (gVectors (1 * swapXY) grid2) rho (sigma1 (gVectors (1 * swapXY) grid2) rho) (pt2 true) := by
    unfold xcDensity vxcDensity
    rw [hs, hg]
    simp [chan, he]
  rw [hl, ggaPot2, ggaValue2 rho true (by rw [r0, r1]; norm_num), r0, r1]
  have hG := gVectors_rotate swapXY_orthogonal 1 grid2
  have g0 : ∀ i, gVectors (1 * swapXY) grid2 (pt2 i) 0 = 0 := by
    intro i
    rw [hG]
    cases i <;> simp [rot3, swapXY, gVec2]
  have g2 : ∀ i, gVectors (1 * swapXY) grid2 (pt2 i) 2 = 0 := by
    intro i
    rw [hG]
    cases i <;> simp [rot3, swapXY, gVec2]
  have hsig : ∀ i, sigma1 (gVectors (1 * swapXY) grid2) rho i = Real.pi ^ 2 := by
    intro i
    rw [hG, sigma1_eq_pair, sigmaPair_rotate swapXY_orthogonal, ← sigma1_eq_pair]
    rcases pt2_cases i with h | h <;> rw [h, sig2, r0, r1] <;> norm_num
  have hlap : laplRho (gVectors (1 * swapXY) grid2) rho = laplRho (gVectors 1 grid2) rho := by
    unfold laplRho
    rw [hG]
    simp only [rot3_sq swapXY_orthogonal]
  unfold vxcGga1
  dsimp only
  rw [ifftn_fftn', hlap, lapl2, r0, r1]
  have ht3 : ∀ f : Idx grid2 → ℂ, ∑ d, gradFftKs (gVectors (1 * swapXY) grid2) f (pt2 true) d *
      gradRhoKs (gVectors (1 * swapXY) grid2) rho (pt2 true) d = 0 := by
    intro f
    unfold gradFftKs gradRhoKs
    have hr := roots_sq_sum
    have : ∀ d, ifftnYZD (fun k d => Complex.I * (gVectors (1 * swapXY) grid2 k d : ℂ) * fftZ f k) (pt2 true) d *
        ifftnYZD (fun k d => fftn (fun j => (rho j : ℂ)) k * Complex.I * (gVectors (1 * swapXY) grid2 k d : ℂ)) (pt2 true) d =
        (Complex.I * (gVectors (1 * swapXY) grid2 (pt2 true) 1 : ℂ) * fftZ f (pt2 true) / 3 *
          (fftn (fun j => (rho j : ℂ)) (pt2 true) * Complex.I * (gVectors (1 * swapXY) grid2 (pt2 true) 1 : ℂ) / 3)) *
          Complex.exp (2 * Real.pi * Complex.I * (((d : ℕ) : ℂ) / 3)) ^ 2 := by
      intro d
      rw [ifftnYZD2' _ true d (by rw [g0]; simp) (by rw [g2]; simp),
        ifftnYZD2' _ true d (by rw [g0]; simp) (by rw [g2]; simp)]
      ring
    simp_rw [this]
    rw [← Finset.mul_sum, hr, mul_zero]
  rw [ht3]
  have hgt : ∀ t, whereGt (sigma1 (gVectors (1 * swapXY) grid2) rho (pt2 true)) t = t := by
    intro t
    unfold whereGt
    rw [hsig]
    exact if_pos (by positivity)
  rw [hgt, hsig, show deriv (fun x : ℝ => x) (Real.pi ^ 2) = 1 from deriv_id _]
  simp only [deriv_const, zero_mul, zero_add]
  intro h
  norm_cast at h
  norm_num at h
  nlinarith [mul_pos hpi hpi]

end Jrystal
