import Verif.Spec.SelfConsistent
import Verif.Lemmas.FermiLevel
import Verif.Lemmas.Janak
import Verif.Lemmas.Reach3

/- Lemmas for C125. -/
namespace Jrystal
open scoped BigOperators

variable {nk nb : ℕ}

/-- The gradient of a function of the summed occupations with respect to the parameters. -/
theorem occGradient_level (hk : 0 < nk) (ne spin : ℤ) (hpar : ne % 2 = spin % 2) (h0 : |spin| < ne)
    (hb : ne + |spin| < 2 * nb) (P : (Fin nk → Fin nb → ℝ) × (Fin nk → Fin nb → ℝ))
    (hd : ∀ sp k b, DifferentiableAt ℝ (Spec.occEntry ne spin true sp k b) P)
    (Φ : (Fin nk → Fin nb → ℝ) → ℝ) (f : (Fin nk → Fin nb → ℝ) × (Fin nk → Fin nb → ℝ) → ℝ)
    (hf : ∀ P, f P = Φ fun k b => Spec.occEntry ne spin true 0 k b P) (e : Fin nk → Fin nb → ℝ)
    (hder : ∀ (o : ℝ → Fin nk → Fin nb → ℝ) (d : Fin nk → Fin nb → ℝ),
      (o 0 = fun k b => Spec.occEntry ne spin true 0 k b P) → (∀ k b, HasDerivAt (fun t => o t k b) (d k b) 0) →
      HasDerivAt (fun t => Φ (o t)) (∑ k, ∑ b, d k b * e k b) 0) :
    (∃ G, Spec.IsOccGradient f P G) ∧
    ∀ G, Spec.IsOccGradient f P G → (G = 0 ↔
      ∀ sp k b k' b', Spec.Fractional ne spin P sp k b → Spec.Fractional ne spin P sp k' b' → e k b = e k' b') := by
  set eps : Fin 2 → Fin nk → Fin nb → ℝ := fun _ => e with heps
  have hj : ∀ D : (Fin nk → Fin nb → ℝ) × (Fin nk → Fin nb → ℝ), Spec.energyJvp ne spin true eps P D
      = ∑ k, ∑ b, fderiv ℝ (Spec.occEntry ne spin true 0 k b) P D * e k b := by
    intro D
    unfold Spec.energyJvp
    rw [Fin.sum_univ_two]
    have h1 : ∀ k b, (simplexProjectorJvp P.1 P.2 D.1 D.2 ne spin true).getD ((1 : Fin 2) : ℕ) 0 k b = 0 := fun _ _ => rfl
    simp only [h1, mul_zero, Finset.sum_const_zero, add_zero]
    refine Finset.sum_congr rfl fun k _ => Finset.sum_congr rfl fun b _ => ?_
    rw [mul_comm]
    congr 1
    exact (simplexProjectorJvp_derivative_partial hk ne spin hpar h0 hb true P.1 P.2 hd D.1 D.2 0 k b).symm
  have hcurve : ∀ (c : ℝ → (Fin nk → Fin nb → ℝ) × (Fin nk → Fin nb → ℝ))
      (d : (Fin nk → Fin nb → ℝ) × (Fin nk → Fin nb → ℝ)),
      c 0 = P → (∀ k b, HasDerivAt (fun t => (c t).1 k b) (d.1 k b) 0) →
      (∀ k b, HasDerivAt (fun t => (c t).2 k b) (d.2 k b) 0) →
      HasDerivAt (fun t => f (c t)) (Spec.energyJvp ne spin true eps P d) 0 := by
    intro c d hc h1 h2
    have hcd : HasDerivAt c d 0 :=
      (hasDerivAt_pi.2 fun k => hasDerivAt_pi.2 fun b => h1 k b : HasDerivAt (fun t => (c t).1) d.1 0).prodMk
        (hasDerivAt_pi.2 fun k => hasDerivAt_pi.2 fun b => h2 k b : HasDerivAt (fun t => (c t).2) d.2 0)
    have ho : ∀ k b, HasDerivAt (fun t => Spec.occEntry ne spin true 0 k b (c t))
        (fderiv ℝ (Spec.occEntry ne spin true 0 k b) P d) 0 := by
      intro k b
      have hP : HasFDerivAt (Spec.occEntry ne spin true 0 k b) (fderiv ℝ (Spec.occEntry ne spin true 0 k b) P) (c 0) := by
        rw [hc]
        exact (hd 0 k b).hasFDerivAt
      exact hP.comp_hasDerivAt (0 : ℝ) hcd
    have := hder (fun t k b => Spec.occEntry ne spin true 0 k b (c t)) _ (by rw [hc]) ho
    rw [hj]
    simp only [hf]
    exact this
  -- the product with the gradient, as a linear map
  set L : ((Fin nk → Fin nb → ℝ) × (Fin nk → Fin nb → ℝ)) →ₗ[ℝ] ℝ :=
    ∑ k, ∑ b, e k b • (fderiv ℝ (Spec.occEntry ne spin true 0 k b) P).toLinearMap with hL
  have hLj : ∀ D, L D = Spec.energyJvp ne spin true eps P D := by
    intro D
    rw [hj, hL]
    simp only [LinearMap.sum_apply, LinearMap.smul_apply, smul_eq_mul]
    exact Finset.sum_congr rfl fun _ _ => Finset.sum_congr rfl fun _ _ => mul_comm _ _
  have hexp : ∀ v : Fin nk → Fin nb → ℝ, v = ∑ k, ∑ b, v k b • (Pi.single k (Pi.single b 1) : Fin nk → Fin nb → ℝ) := by
    intro v
    funext k b
    simp only [Finset.sum_apply, Pi.smul_apply, smul_eq_mul, Pi.single_apply]
    rw [Finset.sum_eq_single k (fun j _ hj => Finset.sum_eq_zero fun _ _ => by rw [if_neg hj.symm]; simp)
        (fun h => absurd (Finset.mem_univ _) h),
      Finset.sum_eq_single b (fun j _ hj => by rw [if_pos rfl, Pi.single_apply, if_neg hj.symm]; simp)
        (fun h => absurd (Finset.mem_univ _) h)]
    simp
  have hex : Spec.IsOccGradient f P (fun k b => L (Pi.single k (Pi.single b 1), 0), fun k b => L (0, Pi.single k (Pi.single b 1))) := by
    intro c d hc h1 h2
    refine (hcurve c d hc h1 h2).congr_deriv ?_
    rw [← hLj]
    have hsplit : d = (LinearMap.inl ℝ _ _) d.1 + (LinearMap.inr ℝ _ _) d.2 := by simp
    have e1 : L ((LinearMap.inl ℝ (Fin nk → Fin nb → ℝ) (Fin nk → Fin nb → ℝ)) d.1)
        = ∑ k, ∑ b, L (Pi.single k (Pi.single b 1), 0) * d.1 k b := by
      conv_lhs => rw [hexp d.1]
      simp only [map_sum, map_smul, smul_eq_mul]
      exact Finset.sum_congr rfl fun _ _ => Finset.sum_congr rfl fun _ _ => mul_comm _ _
    have e2 : L ((LinearMap.inr ℝ (Fin nk → Fin nb → ℝ) (Fin nk → Fin nb → ℝ)) d.2)
        = ∑ k, ∑ b, L (0, Pi.single k (Pi.single b 1)) * d.2 k b := by
      conv_lhs => rw [hexp d.2]
      simp only [map_sum, map_smul, smul_eq_mul]
      exact Finset.sum_congr rfl fun _ _ => Finset.sum_congr rfl fun _ _ => mul_comm _ _
    conv_lhs => rw [hsplit]
    rw [map_add, e1, e2]
  refine ⟨⟨_, hex⟩, fun G hG => ?_⟩
  have hGj : ∀ D : (Fin nk → Fin nb → ℝ) × (Fin nk → Fin nb → ℝ),
      ∑ k, ∑ b, G.1 k b * D.1 k b + ∑ k, ∑ b, G.2 k b * D.2 k b = Spec.energyJvp ne spin true eps P D := by
    intro D
    have hlin : ∀ a d : ℝ, HasDerivAt (fun t : ℝ => a + t * d) d 0 := fun a d => by
      simpa using ((hasDerivAt_id (0 : ℝ)).mul_const d).const_add a
    refine (hG (fun t => (fun k b => P.1 k b + t * D.1 k b, fun k b => P.2 k b + t * D.2 k b)) D (by simp)
      (fun k b => hlin _ _) fun k b => hlin _ _).unique (hcurve _ D (by simp) (fun k b => hlin _ _) fun k b => hlin _ _)
  have hst := occupation_stationary hk ne spin hpar h0 hb true P hd eps
  refine Iff.trans ⟨fun h D => ?_, fun h => ?_⟩ hst
  · rw [← hGj, h]
    simp
  · have hsq := (hGj G).trans (h G)
    have h1 : ∀ v : Fin nk → Fin nb → ℝ, 0 ≤ ∑ k, ∑ b, v k b * v k b := fun v =>
      Finset.sum_nonneg fun _ _ => Finset.sum_nonneg fun _ _ => mul_self_nonneg _
    have h2 : ∀ v : Fin nk → Fin nb → ℝ, ∑ k, ∑ b, v k b * v k b = 0 → v = 0 := by
      intro v hv
      funext k b
      have a1 := (Finset.sum_eq_zero_iff_of_nonneg
        fun k _ => Finset.sum_nonneg fun b _ => mul_self_nonneg (v k b)).1 hv k (Finset.mem_univ k)
      exact mul_self_eq_zero.1 ((Finset.sum_eq_zero_iff_of_nonneg fun b _ => mul_self_nonneg (v k b)).1 a1 b
        (Finset.mem_univ b))
    have a := h1 G.1
    have b := h1 G.2
    exact Prod.ext (h2 _ (by linarith)) (h2 _ (by linarith))

/-- Equal values within each channel are a level for each channel. -/
theorem level_of_equal (ne spin : ℤ) (P : (Fin nk → Fin nb → ℝ) × (Fin nk → Fin nb → ℝ)) (t eps top : ℝ)
    (e f : Fin nk → Fin nb → ℝ) :
    (∀ sp k b k' b', Spec.Fractional ne spin P sp k b → Spec.Fractional ne spin P sp k' b' →
      e k b - t * Spec.entropySlope eps top (f k b) = e k' b' - t * Spec.entropySlope eps top (f k' b')) ↔
    ∃ μ, Spec.PartlyFilledLevel ne spin P t eps top e f μ := by
  classical
  constructor
  · intro h
    have h1 : ∀ sp, ∃ m, ∀ k b, Spec.Fractional ne spin P sp k b → e k b - t * Spec.entropySlope eps top (f k b) = m := by
      intro sp
      by_cases hx : ∃ k b, Spec.Fractional ne spin P sp k b
      · obtain ⟨k, b, hkb⟩ := hx
        exact ⟨_, fun k' b' hf => h sp k' b' k b hf hkb⟩
      · exact ⟨0, fun k b hf => absurd ⟨k, b, hf⟩ hx⟩
    choose μ hμ using h1
    exact ⟨μ, fun sp k b hf => hμ sp k b hf⟩
  · rintro ⟨μ, h⟩ sp k b k' b' h1 h2
    rw [h sp k b h1, h sp k' b' h2]

/-- The summed occupation of a band that one channel fills partly is neither empty nor full. -/
theorem partlyFilled_bounds (hk : 0 < nk) (ne spin : ℤ) (hpar : ne % 2 = spin % 2) (h0 : |spin| < ne)
    (hb : ne + |spin| < 2 * nb) (P : (Fin nk → Fin nb → ℝ) × (Fin nk → Fin nb → ℝ)) (k : Fin nk) (b : Fin nb) :
    0 ≤ Spec.occEntry ne spin true 0 k b P ∧ Spec.occEntry ne spin true 0 k b P ≤ 2 / nk ∧
    ∀ sp, Spec.Fractional ne spin P sp k b →
      0 < Spec.occEntry ne spin true 0 k b P ∧ Spec.occEntry ne spin true 0 k b P < 2 / nk := by
  obtain ⟨u0, u1, d0, d1⟩ := occ_targets hk hpar h0 hb
  have hkR : (0 : ℝ) < nk := by exact_mod_cast hk
  have hch : ∀ (m : ℝ) (p : Fin nk → Fin nb → ℝ), 0 < m → m < ((nk * nb : ℕ) : ℝ) →
      0 ≤ occChan nk nb m p k b ∧ occChan nk nb m p k b ≤ 1 / nk := by
    intro m p m0 m1
    obtain ⟨lam, e2, -, -⟩ := proj_closed (n := nk * nb) m m0 m1 (ravel fun k b => sigmoid (p k b)) (fun i => sigmoid_bounds _)
    have e1 : occChan nk nb m p k b = proj (ravel fun k b => sigmoid (p k b)) m (finProdFinEquiv (k, b)) / nk := rfl
    obtain ⟨z0, z1⟩ := clip01_mem (ravel (fun k b => sigmoid (p k b)) (finProdFinEquiv (k, b)) - lam)
    rw [e1, e2]
    exact ⟨div_nonneg z0 hkR.le, div_le_div_of_nonneg_right z1 hkR.le⟩
  obtain ⟨c1, c2, c3⟩ := occ_entries ne spin k b P
  obtain ⟨a1, a2⟩ := hch _ P.1 u0 u1
  obtain ⟨b1, b2⟩ := hch _ P.2 d0 d1
  have htwo : (2 : ℝ) / nk = 1 / nk + 1 / nk := by ring
  rw [c3, htwo]
  refine ⟨by linarith, by linarith, fun sp hf => ?_⟩
  obtain ⟨f1, f2⟩ := hf
  fin_cases sp
  · have g1 : 0 < Spec.occEntry ne spin false 0 k b P := f1
    have g2 : Spec.occEntry ne spin false 0 k b P < 1 / nk := f2
    rw [c1] at g1 g2
    exact ⟨by linarith, by linarith⟩
  · have g1 : 0 < Spec.occEntry ne spin false 1 k b P := f1
    have g2 : Spec.occEntry ne spin false 1 k b P < 1 / nk := f2
    rw [c2] at g1 g2
    exact ⟨by linarith, by linarith⟩

open KohnSham in
/-- The change of energy and entropy with the occupations. -/
theorem hasDerivAt_freeEnergy (lib : XcLib) (xt : String) (hg : pyIn "gga" xt = false) {B : ℕ} (hB : B = nb)
    {n : Fin 3 → ℕ} (a : Fin nk → Fin B → ℝ) (V : Idx n → ℝ) (g : Idx n → Fin 3 → ℝ) (vol : ℝ) (c : Coef 1 nk B n)
    (temp eps top : ℝ) (heps : 0 < eps) (o : ℝ → Fin nk → Fin nb → ℝ) (d : Fin nk → Fin nb → ℝ)
    (h : ∀ k b, HasDerivAt (fun t => o t k b) (d k b) 0) (h0 : ∀ k b, 0 ≤ o 0 k b) (h1 : ∀ k b, o 0 k b ≤ top)
    (occ : Occ 1 nk B) (hocc : ∀ k b, occ 0 k b = o 0 k (Fin.cast hB b))
    (hd : ∀ j, ∀ x ∈ splitPlus xt, DifferentiableAt ℝ (lib.lda x) (densityGrid c vol occ 0 j))
    (e : Fin nk → Fin B → ℝ) (he : ∀ k b, e k b = a k b + vol / (gridCount n : ℝ) * ∑ j, (V j +
        (hartreeRealSpace (densityGrid c vol occ) g true j).re +
        (xcDensity lib xt true g (densityGrid c vol occ) 0 j).re) * absoluteSquare (orbital (c 0 k b) vol j)) :
    HasDerivAt (fun t => occEnergy lib xt a V g vol c (fun _ k b => o t k (Fin.cast hB b))
        - temp * Spec.smearingEntropy eps top (fun (_ : Fin 1) k b => o t k (Fin.cast hB b)))
      (∑ k, ∑ b, d k b * (e k (Fin.cast hB.symm b) - temp * Spec.entropySlope eps top (o 0 k b))) 0 := by
  subst hB
  have h2 : occ = fun _ k b => o 0 k b := by
    funext s k b
    rw [Subsingleton.elim s 0, hocc]
    rfl
  have d1 := hasDerivAt_occEnergy lib xt hg a V g vol c (occ := fun t _ k b => o t k b) (t := 0) h
    (by rw [← h2]; exact hd)
  have d2 : HasDerivAt (fun t => Spec.smearingEntropy eps top (fun (_ : Fin 1) k b => o t k b))
      (∑ k, ∑ b, d k b * Spec.entropySlope eps top (o 0 k b)) 0 := by
    unfold Spec.smearingEntropy
    simp only [Fin.sum_univ_one]
    refine (HasDerivAt.fun_neg (HasDerivAt.fun_sum fun k _ => HasDerivAt.fun_sum fun b _ =>
      hasDerivAt_cellEntropy heps (h k b) (h0 k b) (h1 k b))).congr_deriv ?_
    simp only [Finset.sum_neg_distrib, neg_neg]
  refine (d1.sub (d2.const_mul temp)).congr_deriv ?_
  rw [Finset.mul_sum, ← Finset.sum_sub_distrib]
  refine Finset.sum_congr rfl fun k _ => ?_
  rw [Finset.mul_sum, ← Finset.sum_sub_distrib]
  refine Finset.sum_congr rfl fun b _ => ?_
  have h3 : e k (Fin.cast rfl b) = e k b := rfl
  rw [h3, he, h2]
  ring

end Jrystal
