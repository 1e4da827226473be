import Verif.Props.Xc

/- C131: where the density has no gradient the gradient corrections are left out. -/
namespace Jrystal
open scoped BigOperators ComplexConjugate
open Matrix

private theorem sigma1_norm {n : Fin 3 → ℕ} (g : Idx n → Fin 3 → ℝ) (a : Idx n → ℝ) (j : Idx n) :
    sigma1 g a j = ∑ d, ‖gradRho g a d j‖ ^ 2 := by
  unfold sigma1 absoluteSquare
  refine Finset.sum_congr rfl fun d _ => ?_
  rw [← Complex.normSq_eq_conj_mul_self, Complex.ofReal_re, Complex.sq_norm]

/-- C131: the potential of a gradient functional for an unpolarised density does not depend on the slope of
the functional in the squared gradient at points where the gradient of the density vanishes: two functionals
with equal energies and equal slopes in the density at all points, and equal slopes in the squared gradient
at the points with a gradient, have the same potential. -/
theorem vxc_gga_stationary (lib lib' : XcLib) (xt : String) (hg : pyIn "gga" xt = true) {n : Fin 3 → ℕ}
    (g : Idx n → Fin 3 → ℝ) (rho : Fin 1 → Idx n → ℝ) (E E' : ℝ → ℝ → ℝ)
    (hE : E = excGga1 lib (splitPlus xt)) (hE' : E' = excGga1 lib' (splitPlus xt)) (sq : Idx n → ℝ)
    (hsq : ∀ j, sq j = ∑ d, ‖gradRho g (rho 0) d j‖ ^ 2)
    (h0 : ∀ j, E (rho 0 j) (sq j) = E' (rho 0 j) (sq j))
    (h1 : ∀ j, deriv (fun x => E x (sq j)) (rho 0 j) = deriv (fun x => E' x (sq j)) (rho 0 j))
    (h2 : ∀ j, (∃ d, gradRho g (rho 0) d j ≠ 0) →
      deriv (fun x => E (rho 0 j) x) (sq j) = deriv (fun x => E' (rho 0 j) x) (sq j)) (j : Idx n) :
    vxcDensity lib xt g rho 0 j = vxcDensity lib' xt g rho 0 j := by
  have hs : sigma1 g (rho 0) = sq := by
    funext j
    rw [hsq, sigma1_norm]
  have hc : chan rho 0 = rho 0 := rfl
  have hw : ∀ i, whereGt (sq i) (deriv (fun x => E (rho 0 i) x) (sq i) * rho 0 i)
      = whereGt (sq i) (deriv (fun x => E' (rho 0 i) x) (sq i) * rho 0 i) := by
    intro i
    unfold whereGt
    by_cases h : sq i > 0
    · have : ∃ d, gradRho g (rho 0) d i ≠ 0 := by
        by_contra hne
        push Not at hne
        rw [hsq i, Finset.sum_eq_zero fun d _ => by rw [hne d]; simp] at h
        exact lt_irrefl _ h
      rw [h2 i this]
    · rw [if_neg h, if_neg h]
  unfold vxcDensity
  simp only [hg, if_true, show ¬((1 : ℕ) = 2) by decide, if_false, hc, hs, ← hE, ← hE']
  unfold vxcGga1
  simp only [h0, h1, hw]

/-- C131: the same for two spin channels, where the slopes in the squared gradients of the two channels are
left out at the points where that channel has no gradient. -/
theorem vxc_gga_stationary_polarised (lib lib' : XcLib) (xt : String) (hg : pyIn "gga" xt = true) {n : Fin 3 → ℕ}
    (g : Idx n → Fin 3 → ℝ) (rho : Fin 2 → Idx n → ℝ) (E E' : ℝ → ℝ → ℝ → ℝ → ℝ → ℝ)
    (hE : E = excGga2 lib (splitPlus xt)) (hE' : E' = excGga2 lib' (splitPlus xt)) (uu ud dd : Idx n → ℝ)
    (huu : ∀ j, uu j = ∑ d, ‖gradRho g (rho 0) d j‖ ^ 2)
    (hud : ∀ j, ud j = (∑ d, conj (gradRho g (rho 0) d j) * gradRho g (rho 1) d j).re)
    (hdd : ∀ j, dd j = ∑ d, ‖gradRho g (rho 1) d j‖ ^ 2)
    (h0 : ∀ j, E (rho 0 j) (rho 1 j) (uu j) (ud j) (dd j) = E' (rho 0 j) (rho 1 j) (uu j) (ud j) (dd j))
    (h1 : ∀ j, deriv (fun x => E x (rho 1 j) (uu j) (ud j) (dd j)) (rho 0 j)
      = deriv (fun x => E' x (rho 1 j) (uu j) (ud j) (dd j)) (rho 0 j))
    (h1' : ∀ j, deriv (fun x => E (rho 0 j) x (uu j) (ud j) (dd j)) (rho 1 j)
      = deriv (fun x => E' (rho 0 j) x (uu j) (ud j) (dd j)) (rho 1 j))
    (h2 : ∀ j, (∃ d, gradRho g (rho 0) d j ≠ 0) → deriv (fun x => E (rho 0 j) (rho 1 j) x (ud j) (dd j)) (uu j)
      = deriv (fun x => E' (rho 0 j) (rho 1 j) x (ud j) (dd j)) (uu j))
    (h3 : ∀ j, deriv (fun x => E (rho 0 j) (rho 1 j) (uu j) x (dd j)) (ud j)
      = deriv (fun x => E' (rho 0 j) (rho 1 j) (uu j) x (dd j)) (ud j))
    (h4 : ∀ j, (∃ d, gradRho g (rho 1) d j ≠ 0) → deriv (fun x => E (rho 0 j) (rho 1 j) (uu j) (ud j) x) (dd j)
      = deriv (fun x => E' (rho 0 j) (rho 1 j) (uu j) (ud j) x) (dd j)) (s : Fin 2) (j : Idx n) :
    vxcDensity lib xt g rho s j = vxcDensity lib' xt g rho s j := by
  have hself : ∀ (a : Idx n → ℝ) j, sigmaPair g a a j = ∑ d, ‖gradRho g a d j‖ ^ 2 := by
    intro a j
    unfold sigmaPair
    rw [Complex.re_sum]
    refine Finset.sum_congr rfl fun d _ => ?_
    rw [← Complex.normSq_eq_conj_mul_self, Complex.ofReal_re, Complex.sq_norm]
  have hw : ∀ (q : Idx n → ℝ) (a : Idx n → ℝ) (_ : ∀ j, q j = ∑ d, ‖gradRho g a d j‖ ^ 2) (D D' : Idx n → ℝ)
      (_ : ∀ j, (∃ d, gradRho g a d j ≠ 0) → D j = D' j) i,
      whereGt (q i) (D i * a i) = whereGt (q i) (D' i * a i) := by
    intro q a hq D D' hD i
    unfold whereGt
    by_cases h : q i > 0
    · have : ∃ d, gradRho g a d i ≠ 0 := by
        by_contra hne
        push Not at hne
        rw [hq i, Finset.sum_eq_zero fun d _ => by rw [hne d]; simp] at h
        exact lt_irrefl _ h
      rw [hD i this]
    · rw [if_neg h, if_neg h]
  have hs : sigma2 g (rho 0) (rho 1) = fun i => if i = 0 then uu else if i = 1 then ud else dd := by
    funext i j
    fin_cases i
    · exact (hself _ j).trans (huu j).symm
    · exact (hud j).symm
    · exact (hself _ j).trans (hdd j).symm
  have c0 : chan rho 0 = rho 0 := rfl
  have c1 : chan rho 1 = rho 1 := rfl
  unfold vxcDensity
  simp only [hg, if_true, c0, c1, hs, ← hE, ← hE']
  unfold vxcGga2
  simp only [show ((1 : Fin 3) = 0) = False by decide, show ((2 : Fin 3) = 0) = False by decide,
    show ((2 : Fin 3) = 1) = False by decide, if_true, if_false, h0, h1, h1', h3,
    hw uu (rho 0) huu _ _ h2, hw dd (rho 1) hdd _ _ h4]

/-- Two functionals that differ in their slope at zero gradient only. -/
example : ∃ lib lib' : XcLib, ∃ rho : Fin 1 → Idx (fun _ => 4) → ℝ,
    deriv (fun x => excGga1 lib ["gga_x_pbe"] 1 x) 0 ≠ deriv (fun x => excGga1 lib' ["gga_x_pbe"] 1 x) 0 ∧
    ∀ j, vxcDensity lib "gga_x_pbe" (gVectors 1 fun _ => 4) rho 0 j
      = vxcDensity lib' "gga_x_pbe" (gVectors 1 fun _ => 4) rho 0 j := by
  have hsp : splitPlus "gga_x_pbe" = ["gga_x_pbe"] := by decide +kernel
  have hE : ∀ lib : XcLib, excGga1 lib ["gga_x_pbe"] = fun r s => lib.gga "gga_x_pbe" r s := by
    intro lib
    funext r s
    simp [excGga1, ggaPoint1]
  have hgr : ∀ d (j : Idx fun _ => 4), gradRho (gVectors 1 fun _ => 4) (fun _ => (1 : ℝ)) d j = 0 := by
    intro d j
    have h := (sigma_constant (n := fun _ => 4) 1 1 1 j).1
    rw [sigma1_norm, Finset.sum_eq_zero_iff_of_nonneg fun _ _ => by positivity] at h
    simpa using h d (Finset.mem_univ d)
  refine ⟨⟨fun _ _ => 0, fun _ _ _ => 0, fun _ _ s => s, fun _ _ _ _ _ _ => 0⟩,
    ⟨fun _ _ => 0, fun _ _ _ => 0, fun _ _ _ => 0, fun _ _ _ _ _ _ => 0⟩, fun _ _ => 1, ?_, fun j => ?_⟩
  · rw [hE, hE]
    simp
  · refine vxc_gga_stationary _ _ _ (by decide +kernel) _ _ _ _ rfl rfl (fun _ => 0) ?_ ?_ ?_ ?_ j
    · intro j
      simp [hgr]
    · intro j
      simp [hsp, hE]
    · intro j
      simp [hsp, hE]
    · rintro j ⟨d, hd⟩
      exact absurd (hgr d j) hd

example : ∃ lib lib' : XcLib, ∃ rho : Fin 2 → Idx (fun _ => 4) → ℝ,
    deriv (fun x => excGga2 lib ["gga_c_pbe"] 1 1 x 0 0) 0 ≠ deriv (fun x => excGga2 lib' ["gga_c_pbe"] 1 1 x 0 0) 0 ∧
    ∀ s j, vxcDensity lib "gga_c_pbe" (gVectors 1 fun _ => 4) rho s j
      = vxcDensity lib' "gga_c_pbe" (gVectors 1 fun _ => 4) rho s j := by
  have hsp : splitPlus "gga_c_pbe" = ["gga_c_pbe"] := by decide +kernel
  have hgr : ∀ d (j : Idx fun _ => 4), gradRho (gVectors 1 fun _ => 4) (fun _ => (1 : ℝ)) d j = 0 := by
    intro d j
    have h := (sigma_constant (n := fun _ => 4) 1 1 1 j).1
    rw [sigma1_norm, Finset.sum_eq_zero_iff_of_nonneg fun _ _ => by positivity] at h
    simpa using h d (Finset.mem_univ d)
  have hE : ∀ lib : XcLib, excGga2 lib ["gga_c_pbe"] = lib.ggaPol "gga_c_pbe" := by
    intro lib
    have hx : isExchange "gga_c_pbe" = false := by decide +kernel
    funext a b u v w
    simp [excGga2, ggaPoint2, hx]
  refine ⟨⟨fun _ _ => 0, fun _ _ _ => 0, fun _ _ _ => 0, fun _ _ _ u _ _ => u⟩,
    ⟨fun _ _ => 0, fun _ _ _ => 0, fun _ _ _ => 0, fun _ _ _ _ _ _ => 0⟩, fun _ _ => 1, ?_, fun s j => ?_⟩
  · simp [hE]
  · refine vxc_gga_stationary_polarised _ _ _ (by decide +kernel) _ _ _ _ rfl rfl (fun _ => 0) (fun _ => 0)
      (fun _ => 0) ?_ ?_ ?_ ?_ ?_ ?_ ?_ ?_ ?_ s j
    · intro j; simp [hgr]
    · intro j; simp [hgr]
    · intro j; simp [hgr]
    · intro j; simp [hsp, hE]
    · intro j; simp [hsp, hE]
    · intro j; simp [hsp, hE]
    · rintro j ⟨d, hd⟩; exact absurd (hgr d j) hd
    · intro j; simp [hsp, hE]
    · rintro j ⟨d, hd⟩; exact absurd (hgr d j) hd

end Jrystal
