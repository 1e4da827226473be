import Verif.Spec.Scaling
import Verif.Props.CellContinuity

/- Lemmas for C112: the quantities of a calculation under a uniform scaling of the crystal. -/
namespace Jrystal
open scoped BigOperators ComplexConjugate
open Matrix

theorem inv_scaled (A : Matrix (Fin 3) (Fin 3) ℝ) {s : ℝ} (hs : 0 < s) : (s • A)⁻¹ = s⁻¹ • A⁻¹ := by
  by_cases hA : IsUnit A.det
  · have := invertibleOfNonzero hs.ne'
    rw [Matrix.inv_smul (A := A) s hA, invOf_eq_inv]
  · rw [Matrix.nonsing_inv_apply_not_isUnit A hA, smul_zero, Matrix.nonsing_inv_apply_not_isUnit]
    rw [Matrix.det_smul]
    exact fun h' => hA (isUnit_of_mul_isUnit_right h')

theorem reciprocalVectors_scaled (A : Matrix (Fin 3) (Fin 3) ℝ) {s : ℝ} (hs : 0 < s) (i d : Fin 3) :
    reciprocalVectors (s • A) i d = s⁻¹ * reciprocalVectors A i d := by
  simp only [reciprocalVectors, inv_scaled A hs, Matrix.smul_apply, Matrix.transpose_apply, smul_eq_mul]
  ring

theorem gVectors_scaled (A : Matrix (Fin 3) (Fin 3) ℝ) {s : ℝ} (hs : 0 < s) (n : Fin 3 → ℕ) :
    gVectors (s • A) n = fun x d => s⁻¹ * gVectors A n x d := by
  funext x d
  simp only [gVectors_apply, reciprocalVectors_scaled A hs, Finset.mul_sum]
  exact Finset.sum_congr rfl fun i _ => by ring

theorem kVectors_scaled (A : Matrix (Fin 3) (Fin 3) ℝ) {s : ℝ} (hs : 0 < s) (n : Fin 3 → ℕ) :
    flatRows (kVectors (s • A) n) = fun x d => s⁻¹ * flatRows (kVectors A n) x d := by
  funext x d
  unfold flatRows
  simp only [kVectors, reciprocalVectors_scaled A hs, Finset.mul_sum]
  exact Finset.sum_congr rfl fun i _ => by ring

theorem vol_scaled (A : Matrix (Fin 3) (Fin 3) ℝ) {s : ℝ} (hs : 0 < s) : |(s • A).det| = s ^ 3 * |A.det| := by
  rw [Matrix.det_smul, Fintype.card_fin, abs_mul, abs_of_pos (pow_pos hs 3)]

theorem dot_scaled (s : ℝ) (v : Fin 3 → ℝ) :
    Spec.dot (fun d => s⁻¹ * v d) (fun d => s⁻¹ * v d) = s⁻¹ ^ 2 * Spec.dot v v := by
  unfold Spec.dot
  rw [Finset.mul_sum]
  exact Finset.sum_congr rfl fun d _ => by ring

theorem densityGrid_scaled {ns nk nb : ℕ} {n : Fin 3 → ℕ} (c : Coef ns nk nb n) {vol s : ℝ} (hv : 0 < vol) (hs : 0 < s)
    (occ : Occ ns nk nb) : densityGrid c (s ^ 3 * vol) occ = fun σ j => s⁻¹ ^ 3 * densityGrid c vol occ σ j := by
  funext σ j
  unfold densityGrid densityGridBands waveGrid
  simp only [absoluteSquare_eq, Finset.mul_sum]
  refine Finset.sum_congr rfl fun k _ => Finset.sum_congr rfl fun b _ => ?_
  rw [norm_mul, norm_mul, Complex.norm_real, Complex.norm_real, mul_pow, mul_pow, Real.norm_eq_abs, Real.norm_eq_abs,
    sq_abs, sq_abs, div_pow, div_pow, Real.sq_sqrt hv.le, Real.sq_sqrt (by positivity)]
  field_simp

theorem densityGridReciprocal_scaled {ns nk nb : ℕ} {n : Fin 3 → ℕ} (c : Coef ns nk nb n) {vol s : ℝ} (hv : 0 < vol)
    (hs : 0 < s) (occ : Occ ns nk nb) :
    densityGridReciprocal c (s ^ 3 * vol) occ
      = fun σ j => ((s⁻¹ ^ 3 : ℝ) : ℂ) * densityGridReciprocal c vol occ σ j := by
  funext σ j
  unfold densityGridReciprocal
  rw [← fftn_smul, densityGrid_scaled c hv hs]
  congr 1
  funext i
  push_cast
  ring

theorem kinetic_scaled {ns nk nb : ℕ} {n : Fin 3 → ℕ} (g : Idx n → Fin 3 → ℝ) (kpts : Fin nk → Fin 3 → ℝ)
    (c : Coef ns nk nb n) (occ : Occ ns nk nb) (s : ℝ) :
    kineticEnergyOcc (fun x d => s⁻¹ * g x d) (fun x d => s⁻¹ * kpts x d) c occ = kineticEnergyOcc g kpts c occ / s ^ 2 := by
  unfold kineticEnergyOcc
  rw [div_right_comm]
  congr 1
  rw [Finset.sum_div]
  refine Finset.sum_congr rfl fun σ _ => ?_
  rw [Finset.sum_div]
  refine Finset.sum_congr rfl fun k _ => ?_
  rw [Finset.sum_div]
  refine Finset.sum_congr rfl fun b _ => ?_
  rw [Finset.sum_mul, Finset.sum_mul, Finset.sum_div]
  refine Finset.sum_congr rfl fun x _ => ?_
  rw [Finset.sum_mul, Finset.sum_mul, Finset.sum_mul, Finset.sum_mul, Finset.sum_div]
  refine Finset.sum_congr rfl fun d _ => ?_
  rw [← mul_add, mul_pow, inv_pow]
  ring

theorem hartree_scaled {ns : ℕ} {n : Fin 3 → ℕ} (rho : Fin ns → Idx n → ℂ) (g : Idx n → Fin 3 → ℝ) {vol s : ℝ}
    (hs : 0 < s) {h h' : ℝ} (e : hartreeEnergy rho g vol false = .ok h)
    (e' : hartreeEnergy (fun σ j => ((s⁻¹ ^ 3 : ℝ) : ℂ) * rho σ j) (fun x d => s⁻¹ * g x d) (s ^ 3 * vol) false = .ok h') :
    h' = h / s := by
  rw [hartreeEnergy_eq] at e e'
  rw [← Except.ok.inj e, ← Except.ok.inj e', Finset.mul_sum, Finset.mul_sum, Finset.sum_div]
  refine Finset.sum_congr rfl fun k _ => ?_
  rw [dot_scaled, ← Finset.mul_sum, norm_mul, Complex.norm_real, Real.norm_of_nonneg (by positivity), mul_pow]
  simp only [Bool.false_eq_true, if_false]
  have : s ≠ 0 := hs.ne'
  rcases eq_or_ne (Spec.dot (g k) (g k)) 0 with h0 | h0
  · simp [h0]
  · field_simp

theorem structureFactor_scaled {na : ℕ} {n : Fin 3 → ℕ} (pos : Fin na → Fin 3 → ℝ) (z : Fin na → ℝ)
    (g : Idx n → Fin 3 → ℝ) {s : ℝ} (hs : 0 < s) (k : Idx n) :
    structureFactor (fun a d => s * pos a d) z (fun x d => s⁻¹ * g x d) k = structureFactor pos z g k := by
  unfold structureFactor
  have : s ≠ 0 := hs.ne'
  refine Finset.sum_congr rfl fun a _ => ?_
  congr 5
  exact Finset.sum_congr rfl fun d _ => by field_simp

theorem structureFactor_norm {na : ℕ} {n : Fin 3 → ℕ} (pos : Fin na → Fin 3 → ℝ) (z : Fin na → ℝ)
    (g : Idx n → Fin 3 → ℝ) (k : Idx n) : ‖structureFactor pos z g k‖ ≤ ∑ a, |z a| := by
  unfold structureFactor
  refine (norm_sum_le _ _).trans (Finset.sum_le_sum fun a _ => ?_)
  rw [norm_mul, Complex.norm_real, Real.norm_eq_abs, ← mul_neg, mul_comm Complex.I, ← Complex.ofReal_neg,
    Complex.norm_exp_ofReal_mul_I, mul_one]

/-- The energy in the potential of the nuclei scales like `1/s` up to the regularisation of that potential. -/
theorem external_scaled {ns nk nb na : ℕ} {n : Fin 3 → ℕ} (hn : ∀ i, 0 < n i) {c : Coef ns nk nb n}
    {A : Matrix (Fin 3) (Fin 3) ℝ} (hA : A.det ≠ 0) {occ : Occ ns nk nb} {mask : Idx n → Bool} {ne spin : ℤ} {r : Bool}
    {share : ℝ} (h : Spec.PhysicalState mask ne spin r share c occ) (pos : Fin na → Fin 3 → ℝ) (z : Fin na → ℝ)
    {s : ℝ} (hs : 0 < s) {x x' : ℝ}
    (e : externalEnergy (densityGridReciprocal c |A.det| occ) pos z (gVectors A n) |A.det| = .ok x)
    (e' : externalEnergy (densityGridReciprocal c |(s • A).det| occ) (fun a d => s * pos a d) z (gVectors (s • A) n)
      |(s • A).det| = .ok x') :
    |x' - x / s| ≤ |s ^ 2 - 1| / s * ((∑ a, |z a|) * ne * Spec.regularisation A n) := by
  have hv : 0 < |A.det| := abs_pos.mpr hA
  rw [vol_scaled A hs, gVectors_scaled A hs, densityGridReciprocal_scaled c hv hs] at e'
  rw [externalEnergy_eq] at e e'
  rw [← Except.ok.inj e, ← Except.ok.inj e', Finset.mul_sum, Finset.mul_sum, Finset.sum_div,
    ← Finset.sum_sub_distrib]
  unfold Spec.regularisation
  rw [Finset.mul_sum, Finset.mul_sum, Finset.mul_sum]
  refine (Finset.abs_sum_le_sum_abs _ _).trans (Finset.sum_le_sum fun k hk => ?_)
  rw [structureFactor_scaled pos z _ hs, dot_scaled, ← Finset.mul_sum,
    mul_left_comm (conj (structureFactor pos z (gVectors A n) k)), Complex.re_ofReal_mul]
  have hd : 0 < Spec.dot (gVectors A n k) (gVectors A n k) :=
    gVectors_sq_pos A hA n k (Finset.mem_filter.1 hk).2
  have hN : (0 : ℝ) < gridCount n := by exact_mod_cast gridCount_pos k
  have hq : |(conj (structureFactor pos z (gVectors A n) k) * ∑ σ, densityGridReciprocal c |A.det| occ σ k).re|
      ≤ (∑ a, |z a|) * ((gridCount n : ℝ) / |A.det| * ne) := by
    refine (Complex.abs_re_le_norm _).trans ?_
    rw [norm_mul, RCLike.norm_conj]
    exact mul_le_mul (structureFactor_norm pos z _ k) (density_fourier_bound hn hv h k) (norm_nonneg _)
      (Finset.sum_nonneg fun a _ => abs_nonneg _)
  generalize Spec.dot (gVectors A n k) (gVectors A n k) = w at hd ⊢
  generalize (conj (structureFactor pos z (gVectors A n) k) * ∑ σ, densityGridReciprocal c |A.det| occ σ k).re = q at hq ⊢
  generalize (∑ a, |z a|) = Z at hq ⊢
  generalize |A.det| = V at hv hq ⊢
  generalize (gridCount n : ℝ) = N at hN hq ⊢
  have hδ : (0 : ℝ) < 1e-10 := by norm_num
  generalize (1e-10 : ℝ) = δ at hδ ⊢
  have hsn : s ≠ 0 := hs.ne'
  have hden : 0 < (w + s ^ 2 * δ) * (w + δ) := by positivity
  have key : s ^ 3 * V / N ^ 2 * (-(4 * Real.pi * N / (s ^ 3 * V * (s⁻¹ ^ 2 * w + δ))) * (s⁻¹ ^ 3 * q))
      - V / N ^ 2 * (-(4 * Real.pi * N / (V * (w + δ))) * q) / s
      = (s ^ 2 - 1) / s * (4 * Real.pi / V) * (δ / ((w + s ^ 2 * δ) * (w + δ))) * (V / N * q) := by
    have e1 : s⁻¹ ^ 2 * w + δ = (w + s ^ 2 * δ) / s ^ 2 := by field_simp
    have h1 : w + s ^ 2 * δ ≠ 0 := by positivity
    have h2 : w + δ ≠ 0 := by positivity
    rw [e1]
    field_simp
    ring
  rw [key, abs_mul, abs_mul, abs_mul, abs_div, abs_of_pos hs, abs_of_pos (show 0 < 4 * Real.pi / V by positivity),
    abs_of_pos (div_pos hδ hden)]
  have hq' : |V / N * q| ≤ Z * ne := by
    rw [abs_mul, abs_of_pos (div_pos hv hN)]
    calc V / N * |q| ≤ V / N * (Z * (N / V * ne)) := mul_le_mul_of_nonneg_left hq (by positivity)
      _ = Z * ne := by field_simp
  have hfrac : δ / ((w + s ^ 2 * δ) * (w + δ)) ≤ δ / w ^ 2 := by
    refine div_le_div_of_nonneg_left hδ.le (by positivity) ?_
    nlinarith [mul_pos hd hδ, mul_pos (pow_pos hs 2) hδ, mul_pos (mul_pos (pow_pos hs 2) hδ) hδ,
      mul_pos (mul_pos (pow_pos hs 2) hδ) hd]
  calc |s ^ 2 - 1| / s * (4 * Real.pi / V) * (δ / ((w + s ^ 2 * δ) * (w + δ))) * |V / N * q|
      ≤ |s ^ 2 - 1| / s * (4 * Real.pi / V) * (δ / w ^ 2) * (Z * ne) :=
        mul_le_mul (mul_le_mul_of_nonneg_left hfrac (by positivity)) hq' (abs_nonneg _) (by positivity)
    _ = |s ^ 2 - 1| / s * (Z * ne * (4 * Real.pi / V * (δ / w ^ 2))) := by ring

theorem gradRho_scaled {n : Fin 3 → ℕ} (g : Idx n → Fin 3 → ℝ) (t : ℝ) (a : Idx n → ℝ) (d : Fin 3) (j : Idx n) :
    gradRho (fun x d => t * g x d) (fun i => t ^ 3 * a i) d j = ((t ^ 4 : ℝ) : ℂ) * gradRho g a d j := by
  rw [gradRho_smul]
  unfold gradRho
  rw [← ifftn_smul, ← ifftn_smul]
  congr 1
  funext k
  push_cast
  ring

theorem sigmaPair_scaled {n : Fin 3 → ℕ} (g : Idx n → Fin 3 → ℝ) (t : ℝ) (a b : Idx n → ℝ) (j : Idx n) :
    sigmaPair (fun x d => t * g x d) (fun i => t ^ 3 * a i) (fun i => t ^ 3 * b i) j = t ^ 8 * sigmaPair g a b j := by
  unfold sigmaPair
  rw [← Complex.re_ofReal_mul, Finset.mul_sum]
  congr 1
  refine Finset.sum_congr rfl fun d _ => ?_
  rw [gradRho_scaled, gradRho_scaled, map_mul, Complex.conj_ofReal]
  push_cast
  ring

theorem sigma1_scaled {n : Fin 3 → ℕ} (g : Idx n → Fin 3 → ℝ) (t : ℝ) (a : Idx n → ℝ) (j : Idx n) :
    sigma1 (fun x d => t * g x d) (fun i => t ^ 3 * a i) j = t ^ 8 * sigma1 g a j := by
  unfold sigma1
  rw [Finset.mul_sum]
  refine Finset.sum_congr rfl fun d _ => ?_
  rw [absoluteSquare_eq, absoluteSquare_eq, gradRho_scaled, norm_mul, Complex.norm_real, mul_pow, Real.norm_eq_abs, sq_abs]
  ring

theorem chan_scaled {ns : ℕ} {n : Fin 3 → ℕ} (rho : Fin ns → Idx n → ℝ) (t : ℝ) (i : ℕ) :
    chan (fun σ j => t * rho σ j) i = fun j => t * chan rho i j := by
  unfold chan
  split
  · rfl
  · funext j
    simp

theorem excDensity_scaled {lib : XcLib} {xt : String} (H : Spec.Homogeneous lib xt) {ns : ℕ} {n : Fin 3 → ℕ}
    (g : Idx n → Fin 3 → ℝ) (rho : Fin ns → Idx n → ℝ) (hrho : ∀ σ j, 0 ≤ rho σ j) {t : ℝ} (ht : 0 < t) (j : Idx n) :
    excDensity lib xt (fun x d => t * g x d) (fun σ j => t ^ 3 * rho σ j) j = t * excDensity lib xt g rho j := by
  have hc : ∀ i j, 0 ≤ chan rho i j := fun i j => by
    unfold chan
    split
    · exact hrho _ _
    · exact le_rfl
  have hsp : ∀ a : Idx n → ℝ, 0 ≤ sigmaPair g a a j := fun a => by
    rw [sigmaPair_self]
    exact Finset.sum_nonneg fun d _ => by positivity
  have hs1 : ∀ a : Idx n → ℝ, 0 ≤ sigma1 g a j := fun a => by
    rw [sigma1_eq]
    exact Finset.sum_nonneg fun d _ => by positivity
  have hsum : ∀ (l : List String) (f f' : String → ℝ), (∀ x ∈ l, f' x = t * f x) → (l.map f').sum = t * (l.map f).sum := by
    intro l f f' h
    induction l with
    | nil => simp
    | cons x l ih =>
      rw [List.map_cons, List.map_cons, List.sum_cons, List.sum_cons, h x List.mem_cons_self,
        ih fun y hy => h y (List.mem_cons_of_mem x hy), mul_add]
  unfold excDensity
  simp only [chan_scaled, sigma1_scaled, sigma2, sigmaPair_scaled]
  by_cases hgga : pyIn "gga" xt = true
  · rw [if_pos hgga, if_pos hgga]
    split
    · refine hsum _ _ _ fun x hx => ?_
      unfold ggaPoint2
      split
      · rw [show 2 * (t ^ 3 * chan rho 0 j) = t ^ 3 * (2 * chan rho 0 j) by ring,
          show 2 * (t ^ 3 * chan rho 1 j) = t ^ 3 * (2 * chan rho 1 j) by ring,
          show 4 * (t ^ 8 * sigmaPair g (chan rho 0) (chan rho 0) j) = t ^ 8 * (4 * sigmaPair g (chan rho 0) (chan rho 0) j)
            by ring,
          show 4 * (t ^ 8 * sigmaPair g (chan rho 1) (chan rho 1) j) = t ^ 8 * (4 * sigmaPair g (chan rho 1) (chan rho 1) j)
            by ring,
          H.gga hgga x hx t _ _ ht (mul_nonneg two_pos.le (hc 0 j)) (mul_nonneg (by norm_num) (hsp _)),
          H.gga hgga x hx t _ _ ht (mul_nonneg two_pos.le (hc 1 j)) (mul_nonneg (by norm_num) (hsp _))]
        ring
      · exact H.ggaPol hgga x hx t _ _ _ _ _ ht (hc 0 j) (hc 1 j) (hsp _) (hsp _)
    · exact hsum _ _ _ fun x hx => H.gga hgga x hx t _ _ ht (hc 0 j) (hs1 _)
  · have hgga' : pyIn "gga" xt = false := by simpa using hgga
    rw [if_neg hgga, if_neg hgga]
    split
    · refine hsum _ _ _ fun x hx => ?_
      unfold ldaPoint2
      split
      · rw [show 2 * (t ^ 3 * chan rho 0 j) = t ^ 3 * (2 * chan rho 0 j) by ring,
          show 2 * (t ^ 3 * chan rho 1 j) = t ^ 3 * (2 * chan rho 1 j) by ring,
          H.lda hgga' x hx t _ ht (mul_nonneg two_pos.le (hc 0 j)),
          H.lda hgga' x hx t _ ht (mul_nonneg two_pos.le (hc 1 j))]
        ring
      · exact H.ldaPol hgga' x hx t _ _ ht (hc 0 j) (hc 1 j)
    · exact hsum _ _ _ fun x hx => H.lda hgga' x hx t _ ht (hc 0 j)

theorem xc_scaled {lib : XcLib} {xt : String} (H : Spec.Homogeneous lib xt) {ns : ℕ} {n : Fin 3 → ℕ}
    (g : Idx n → Fin 3 → ℝ) (rho : Fin ns → Idx n → ℝ) (hrho : ∀ σ j, 0 ≤ rho σ j) {vol s : ℝ} (hs : 0 < s) {x x' : ℝ}
    (e : xcEnergy lib xt false rho g vol = .ok x)
    (e' : xcEnergy lib xt false (fun σ j => s⁻¹ ^ 3 * rho σ j) (fun x d => s⁻¹ * g x d) (s ^ 3 * vol) = .ok x') :
    x' = x / s := by
  rw [xcEnergy_value] at e e'
  rw [← Except.ok.inj e, ← Except.ok.inj e', Finset.mul_sum, Finset.mul_sum, Finset.sum_div]
  refine Finset.sum_congr rfl fun j _ => ?_
  rw [excDensity_scaled H g rho hrho (inv_pos.mpr hs), ← Finset.mul_sum]
  have : s ≠ 0 := hs.ne'
  field_simp

end Jrystal
