import Verif.Spec.SpinLevel
import Verif.Lemmas.SpinGradient
import Verif.Lemmas.SelfConsistent

/- Lemmas for C126: the equations of the bands and of the occupations. -/
namespace Jrystal
open scoped BigOperators ComplexConjugate Matrix
open KohnSham

/-- Two ways to write the equations of one k point. -/
theorem kohnShamBands_point {M m : ℕ} (f : Fin m → ℝ) (F : Matrix (Fin M) (Fin M) ℂ) (hF : F.IsHermitian)
    (C : Fin M → Fin m → ℂ) (hC : ∀ i j, ∑ G, conj (C G i) * C G j = if i = j then 1 else 0) :
    ((∀ b, f b ≠ 0 → ∀ x, ∑ y, F x y * C y b = ∑ a, ((Matrix.of C)ᴴ * F * Matrix.of C) a b * C x a) ∧
      ∀ a b, f a ≠ f b → ((Matrix.of C)ᴴ * F * Matrix.of C) a b = 0) ↔
    ∀ b, f b ≠ 0 → ∃ h : Fin m → ℂ, (∀ a, f a ≠ f b → h a = 0) ∧ ∀ x, ∑ y, F x y * C y b = ∑ a, h a * C x a := by
  have hel : ∀ a b, ((Matrix.of C)ᴴ * F * Matrix.of C) a b = ∑ x, conj (C x a) * ∑ y, F x y * C y b := by
    intro a b
    rw [Matrix.mul_assoc, Matrix.mul_apply]
    refine Finset.sum_congr rfl fun x _ => ?_
    rw [Matrix.conjTranspose_apply, Matrix.mul_apply]
    rfl
  constructor
  · rintro ⟨h1, h2⟩ b hb
    exact ⟨fun a => ((Matrix.of C)ᴴ * F * Matrix.of C) a b, fun a hab => h2 a b hab, h1 b hb⟩
  · intro h
    have key : ∀ b, f b ≠ 0 → ∀ g : Fin m → ℂ, (∀ x, ∑ y, F x y * C y b = ∑ a, g a * C x a) →
        ∀ a, ((Matrix.of C)ᴴ * F * Matrix.of C) a b = g a := by
      intro b hb g hg a
      rw [hel]
      simp only [hg, Finset.mul_sum]
      rw [Finset.sum_comm]
      have : ∀ c, ∑ x, conj (C x a) * (g c * C x c) = g c * if a = c then 1 else 0 := by
        intro c
        rw [← hC, Finset.mul_sum]
        exact Finset.sum_congr rfl fun x _ => by ring
      simp only [this]
      simp
    refine ⟨fun b hb x => ?_, fun a b hab => ?_⟩
    · obtain ⟨g, -, h2⟩ := h b hb
      simp only [key b hb g h2]
      exact h2 x
    · by_cases hb : f b = 0
      · have ha : f a ≠ 0 := by rw [← hb]; exact hab
        obtain ⟨g, h1, h2⟩ := h a ha
        have h3 := (key a ha g h2 b).trans (h1 b hab.symm)
        have h4 : ((Matrix.of C)ᴴ * F * Matrix.of C).IsHermitian := Matrix.isHermitian_conjTranspose_mul_mul _ hF
        rw [← h4.apply, h3, star_zero]
      · obtain ⟨g, h1, h2⟩ := h b hb
        rw [key b hb g h2, h1 a hab]

theorem pwCoeff_maskPos {ns nk nb : ℕ} {n : Fin 3 → ℕ} (qr : QR ℂ) (mask : Idx n → Bool)
    (p : PwParams ns nk (maskCount mask) nb) (s : Fin ns) (k : Fin nk) (b) (y) :
    pwCoeff qr mask p s k b (maskPos mask y) = unitaryMatrix qr p s k y b := by
  unfold pwCoeff expandCoefficient
  rw [scatterMask_get]

theorem expand_phases {ns nk nb : ℕ} {n : Fin 3 → ℕ} (mask : Idx n → Bool) (u : Fin ns → Fin nk → Fin nb → ℂ)
    (C : Fin ns → Fin nk → Fin (maskCount mask) → Fin nb → ℂ) :
    expandCoefficient mask (fun s k G b => u s k b * C s k G b) = phased u (expandCoefficient mask C) := by
  funext s k b x
  unfold phased expandCoefficient
  cases hx : mask x with
  | false => rw [scatterMask_off mask _ x hx, scatterMask_off mask _ x hx, mul_zero]
  | true =>
    obtain ⟨a, rfl⟩ := exists_maskPos mask hx
    rw [scatterMask_get, scatterMask_get]

section
variable {ns nk nb M : ℕ} {ι : Type} [Fintype ι] {n : Fin 3 → ℕ}

/-- Phases of the bands do not change the energy. -/
theorem spinSum_phased (lib : XcLib) (xt : String) (X : (Fin ns → Idx n → ℝ) → ℝ) (V : Idx n → ℝ)
    (psi : Fin nk → ι → Fin M → Idx n → ℂ) (g : Idx n → Fin 3 → ℝ) (kpts : Fin nk → Fin 3 → ℝ) (vol : ℝ)
    (hX : ∀ r, xcEnergy lib xt false r g vol = .ok (X r)) (occ : Occ ns nk nb) (u : Fin ns → Fin nk → Fin nb → ℂ)
    (hu : ∀ s k b, conj (u s k b) * u s k b = 1) (c : Coef ns nk nb n) :
    spinSum X V psi g kpts vol occ (phased u c) = spinSum X V psi g kpts vol occ c := by
  have hV : (fun j => (ifftn (fftn fun j => (V j : ℂ)) j).re) = V := by
    funext j
    rw [ifftn_fftn]
    rfl
  have h1 := energyNC_spinSum lib xt (fftn fun j => (V j : ℂ)) psi g kpts vol X hX occ (phased u c)
  have h2 := energyNC_spinSum lib xt (fftn fun j => (V j : ℂ)) psi g kpts vol X hX occ c
  rw [hV] at h1 h2
  exact energyNC_unique ((energyNC_phased u hu).1 h1) h2

/-- The gradient of the energy of any number of channels in the parameters of the plane waves. -/
theorem spinSum_gradient (lib : XcLib) (xt : String) (X : (Fin ns → Idx n → ℝ) → ℝ) (qr : QR ℂ) (ht : Spec.Triangular qr)
    (mask : Idx n → Bool) (hm : nb ≤ maskCount mask) (V : Idx n → ℝ) (psi : Fin nk → ι → Fin M → Idx n → ℂ)
    (A : Matrix (Fin 3) (Fin 3) ℝ) (hA : A.det ≠ 0) (kpts : Fin nk → Fin 3 → ℝ) (vol : ℝ) (hvol : 0 < vol)
    (hX : ∀ r, xcEnergy lib xt false r (gVectors A n) vol = .ok (X r)) (occ : Occ ns nk (min (maskCount mask) nb))
    (p : PwParams ns nk (maskCount mask) nb) (hp : Spec.Independent p) (v : Fin ns → Idx n → ℝ)
    (hv : Spec.IsDensityGradient vol X (densityGrid (pwCoeff qr mask p) vol occ) v) (U : Fin ns → Idx n → ℝ)
    (hU : ∀ s j, U s j = V j
      + (hartreeRealSpace (densityGrid (pwCoeff qr mask p) vol occ) (gVectors A n) true j).re + v s j)
    (F : Fin ns → Fin nk → Matrix (Fin (maskCount mask)) (Fin (maskCount mask)) ℂ)
    (hF : ∀ s k, F s k = Spec.planeWaveHamiltonian (fun a => gVectors A n (maskPos mask a)) (rVectors A n) (U s) (kpts k)
      + Spec.projectorMatrix vol (fun (i : ι × Fin M) a => psi k i.1 i.2 (maskPos mask a))) :
    (∃ G, Spec.IsFullGradient (fun q => spinSum X V psi (gVectors A n) kpts vol occ (pwCoeff qr mask q)) p G) ∧
    ∀ G, Spec.IsFullGradient (fun q => spinSum X V psi (gVectors A n) kpts vol occ (pwCoeff qr mask q)) p G →
      (Spec.Vanishes G ↔ Spec.KohnShamBands F occ fun s k b y => pwCoeff qr mask p s k b (maskPos mask y)) := by
  have hherm : ∀ s k, (F s k).IsHermitian := by
    intro s k
    rw [hF s k]
    exact (planeWaveHamiltonian_hermitian _ _ _ _).add (projectorMatrix_hermitian _ _)
  have key := spin_gradient_iff qr ht hm occ
    (fun C => spinSum X V psi (gVectors A n) kpts vol occ (expandCoefficient mask C))
    (fun u hu C => by
      beta_reduce
      rw [expand_phases]
      exact spinSum_phased lib xt X V psi _ kpts vol hX occ u hu _) p hp F hherm
    (fun Ct D h0 h1 => by
      have := compact_spin_deriv X V psi mask A hA kpts vol hvol occ Ct D h1 v (by rw [h0]; exact hv) U
        (by rw [h0]; exact hU)
      rw [h0] at this
      simp only [hF]
      exact this)
  refine ⟨key.1, fun G hG => (key.2 G hG).trans ?_⟩
  unfold Spec.KohnShamBands
  simp only [pwCoeff_maskPos]
  have horth : ∀ s k i j, ∑ G, conj (unitaryMatrix qr p s k G i) * unitaryMatrix qr p s k G j = if i = j then 1 else 0 := by
    intro s k i j
    have := unitaryMatrix_orth qr (mergeParams p) (finProdFinEquiv (s, k)) i j
    rw [unitaryMatrix_merge, mergeAxes_apply] at this
    exact this
  have hpt := fun s k => kohnShamBands_point (occ s k) (F s k) (hherm s k) (unitaryMatrix qr p s k) (horth s k)
  constructor
  · rintro ⟨h1, h2⟩ s k
    exact (hpt s k).1 ⟨h1 s k, h2 s k⟩
  · intro h
    exact ⟨fun s k => ((hpt s k).2 (h s k)).1, fun s k => ((hpt s k).2 (h s k)).2⟩

/-- The derivative of the energy in the occupations is the energy of the band. -/
theorem spinSum_occ (X : (Fin ns → Idx n → ℝ) → ℝ) (qr : QR ℂ) (mask : Idx n → Bool) (V : Idx n → ℝ)
    (psi : Fin nk → ι → Fin M → Idx n → ℂ) (A : Matrix (Fin 3) (Fin 3) ℝ) (hA : A.det ≠ 0) (kpts : Fin nk → Fin 3 → ℝ)
    (vol : ℝ) (hvol : 0 < vol) (p : PwParams ns nk (maskCount mask) nb) (o : ℝ → Occ ns nk (min (maskCount mask) nb))
    (o' : Occ ns nk (min (maskCount mask) nb)) (h : ∀ s k b, HasDerivAt (fun t => o t s k b) (o' s k b) 0)
    (v : Fin ns → Idx n → ℝ)
    (hv : Spec.IsDensityGradient vol X (densityGrid (pwCoeff qr mask p) vol (o 0)) v) (U : Fin ns → Idx n → ℝ)
    (hU : ∀ s j, U s j = V j
      + (hartreeRealSpace (densityGrid (pwCoeff qr mask p) vol (o 0)) (gVectors A n) true j).re + v s j)
    (F : Fin ns → Fin nk → Matrix (Fin (maskCount mask)) (Fin (maskCount mask)) ℂ)
    (hF : ∀ s k, F s k = Spec.planeWaveHamiltonian (fun a => gVectors A n (maskPos mask a)) (rVectors A n) (U s) (kpts k)
      + Spec.projectorMatrix vol (fun (i : ι × Fin M) a => psi k i.1 i.2 (maskPos mask a))) :
    HasDerivAt (fun t => spinSum X V psi (gVectors A n) kpts vol (o t) (pwCoeff qr mask p))
      (∑ s, ∑ k, ∑ b, o' s k b * Spec.bandEnergy (F s k) fun y => pwCoeff qr mask p s k b (maskPos mask y)) 0 := by
  refine (hasDerivAt_spinSum_occ X V psi (gVectors A n) kpts vol o o' (pwCoeff qr mask p) h v hv U hU).congr_deriv ?_
  refine Finset.sum_congr rfl fun s _ => Finset.sum_congr rfl fun k _ => Finset.sum_congr rfl fun b _ => ?_
  have e := element_compress psi mask A hA (kpts k) vol hvol (unitaryMatrix qr p) (U s) s k b b
  rw [← hF s k] at e
  have e2 : ((Matrix.of (unitaryMatrix qr p s k))ᴴ * F s k * Matrix.of (unitaryMatrix qr p s k)) b b
      = ∑ x, conj (unitaryMatrix qr p s k x b) * ∑ y, F s k x y * unitaryMatrix qr p s k y b := by
    rw [Matrix.mul_assoc, Matrix.mul_apply]
    refine Finset.sum_congr rfl fun x _ => ?_
    rw [Matrix.conjTranspose_apply, Matrix.mul_apply]
    rfl
  unfold Spec.bandEnergy
  simp only [pwCoeff_maskPos]
  rw [← e2]
  exact congrArg (o' s k b * ·) (congrArg Complex.re e)
end

section
variable {nk nb ns : ℕ}

/-- The gradient of a function of the occupations, one row for each channel or one for both, with respect to the
parameters. -/
theorem occGradient_rows (hk : 0 < nk) (ne spin : ℤ) (hpar : ne % 2 = spin % 2) (h0 : |spin| < ne)
    (hb : ne + |spin| < 2 * nb) (r : Bool) (hns : ns = if r then 1 else 2)
    (P : (Fin nk → Fin nb → ℝ) × (Fin nk → Fin nb → ℝ))
    (hd : ∀ sp k b, DifferentiableAt ℝ (Spec.occEntry ne spin r sp k b) P)
    (Φ : (Fin ns → Fin nk → Fin nb → ℝ) → ℝ) (f : (Fin nk → Fin nb → ℝ) × (Fin nk → Fin nb → ℝ) → ℝ)
    (hf : ∀ P, f P = Φ fun (s : Fin ns) k b => Spec.occEntry ne spin r s k b P) (e : Fin ns → Fin nk → Fin nb → ℝ)
    (hder : ∀ (o : ℝ → Fin ns → Fin nk → Fin nb → ℝ) (d : Fin ns → Fin nk → Fin nb → ℝ),
      (o 0 = fun (s : Fin ns) k b => Spec.occEntry ne spin r s k b P) → (∀ s k b, HasDerivAt (fun t => o t s k b) (d s k b) 0) →
      HasDerivAt (fun t => Φ (o t)) (∑ s, ∑ k, ∑ b, d s k b * e s k b) 0) :
    (∃ G, Spec.IsOccGradient f P G) ∧
    ∀ G, Spec.IsOccGradient f P G → (G = 0 ↔
      ∀ (sp : Fin 2) (s : Fin ns), (s : ℕ) = Spec.rowOf r sp → ∀ k b k' b', Spec.Fractional ne spin P sp k b →
        Spec.Fractional ne spin P sp k' b' → e s k b = e s k' b') := by
  set eps : Fin 2 → Fin nk → Fin nb → ℝ := fun sp => if h : (sp : ℕ) < ns then e ⟨sp, h⟩ else 0 with heps
  have hj : ∀ D : (Fin nk → Fin nb → ℝ) × (Fin nk → Fin nb → ℝ), Spec.energyJvp ne spin r eps P D
      = ∑ s : Fin ns, ∑ k, ∑ b, fderiv ℝ (Spec.occEntry ne spin r s k b) P D * e s k b := by
    intro D
    have hx : ∀ (s : ℕ) k b, (simplexProjectorJvp P.1 P.2 D.1 D.2 ne spin r).getD s 0 k b
        = fderiv ℝ (Spec.occEntry ne spin r s k b) P D := fun s k b =>
      (simplexProjectorJvp_derivative_partial hk ne spin hpar h0 hb r P.1 P.2 hd D.1 D.2 s k b).symm
    unfold Spec.energyJvp
    simp only [hx]
    cases r with
    | true =>
      simp only [if_true] at hns
      subst hns
      rw [Fin.sum_univ_two, Fin.sum_univ_one]
      simp [heps, mul_comm]
    | false =>
      simp only [Bool.false_eq_true, if_false] at hns
      subst hns
      rw [Fin.sum_univ_two, Fin.sum_univ_two]
      simp [heps, mul_comm]
  have hcurve : ∀ (c : ℝ → (Fin nk → Fin nb → ℝ) × (Fin nk → Fin nb → ℝ))
      (d : (Fin nk → Fin nb → ℝ) × (Fin nk → Fin nb → ℝ)),
      c 0 = P → (∀ k b, HasDerivAt (fun t => (c t).1 k b) (d.1 k b) 0) →
      (∀ k b, HasDerivAt (fun t => (c t).2 k b) (d.2 k b) 0) →
      HasDerivAt (fun t => f (c t)) (Spec.energyJvp ne spin r eps P d) 0 := by
    intro c d hc h1 h2
    have hcd : HasDerivAt c d 0 :=
      (hasDerivAt_pi.2 fun k => hasDerivAt_pi.2 fun b => h1 k b : HasDerivAt (fun t => (c t).1) d.1 0).prodMk
        (hasDerivAt_pi.2 fun k => hasDerivAt_pi.2 fun b => h2 k b : HasDerivAt (fun t => (c t).2) d.2 0)
    have ho : ∀ (s : Fin ns) k b, HasDerivAt (fun t => Spec.occEntry ne spin r s k b (c t))
        (fderiv ℝ (Spec.occEntry ne spin r s k b) P d) 0 := by
      intro s k b
      have hP : HasFDerivAt (Spec.occEntry ne spin r s k b) (fderiv ℝ (Spec.occEntry ne spin r s k b) P) (c 0) := by
        rw [hc]
        exact (hd s k b).hasFDerivAt
      exact hP.comp_hasDerivAt (0 : ℝ) hcd
    have := hder (fun t s k b => Spec.occEntry ne spin r s k b (c t)) _ (by rw [hc]) ho
    rw [hj]
    simp only [hf]
    exact this
  -- the product with the gradient, as a linear map
  set L : ((Fin nk → Fin nb → ℝ) × (Fin nk → Fin nb → ℝ)) →ₗ[ℝ] ℝ :=
    ∑ s : Fin ns, ∑ k, ∑ b, e s k b • (fderiv ℝ (Spec.occEntry ne spin r s k b) P).toLinearMap with hL
  have hLj : ∀ D, L D = Spec.energyJvp ne spin r eps P D := by
    intro D
    rw [hj, hL]
    simp only [LinearMap.sum_apply, LinearMap.smul_apply, smul_eq_mul]
    exact Finset.sum_congr rfl fun _ _ => Finset.sum_congr rfl fun _ _ => Finset.sum_congr rfl fun _ _ => mul_comm _ _
  have hexp : ∀ v : Fin nk → Fin nb → ℝ, v = ∑ k, ∑ b, v k b • (Pi.single k (Pi.single b 1) : Fin nk → Fin nb → ℝ) := by
    intro v
    funext k b
    simp only [Finset.sum_apply, Pi.smul_apply, smul_eq_mul, Pi.single_apply]
    rw [Finset.sum_eq_single k (fun j _ hj => Finset.sum_eq_zero fun _ _ => by rw [if_neg hj.symm]; simp)
        (fun h => absurd (Finset.mem_univ _) h),
      Finset.sum_eq_single b (fun j _ hj => by rw [if_pos rfl, Pi.single_apply, if_neg hj.symm]; simp)
        (fun h => absurd (Finset.mem_univ _) h)]
    simp
  have hex : Spec.IsOccGradient f P (fun k b => L (Pi.single k (Pi.single b 1), 0), fun k b => L (0, Pi.single k (Pi.single b 1))) := by
    intro c d hc h1 h2
    refine (hcurve c d hc h1 h2).congr_deriv ?_
    rw [← hLj]
    have hsplit : d = (LinearMap.inl ℝ _ _) d.1 + (LinearMap.inr ℝ _ _) d.2 := by simp
    have e1 : L ((LinearMap.inl ℝ (Fin nk → Fin nb → ℝ) (Fin nk → Fin nb → ℝ)) d.1)
        = ∑ k, ∑ b, L (Pi.single k (Pi.single b 1), 0) * d.1 k b := by
      conv_lhs => rw [hexp d.1]
      simp only [map_sum, map_smul, smul_eq_mul]
      exact Finset.sum_congr rfl fun _ _ => Finset.sum_congr rfl fun _ _ => mul_comm _ _
    have e2 : L ((LinearMap.inr ℝ (Fin nk → Fin nb → ℝ) (Fin nk → Fin nb → ℝ)) d.2)
        = ∑ k, ∑ b, L (0, Pi.single k (Pi.single b 1)) * d.2 k b := by
      conv_lhs => rw [hexp d.2]
      simp only [map_sum, map_smul, smul_eq_mul]
      exact Finset.sum_congr rfl fun _ _ => Finset.sum_congr rfl fun _ _ => mul_comm _ _
    conv_lhs => rw [hsplit]
    rw [map_add, e1, e2]
  refine ⟨⟨_, hex⟩, fun G hG => ?_⟩
  have hGj : ∀ D : (Fin nk → Fin nb → ℝ) × (Fin nk → Fin nb → ℝ),
      ∑ k, ∑ b, G.1 k b * D.1 k b + ∑ k, ∑ b, G.2 k b * D.2 k b = Spec.energyJvp ne spin r eps P D := by
    intro D
    have hlin : ∀ a d : ℝ, HasDerivAt (fun t : ℝ => a + t * d) d 0 := fun a d => by
      simpa using ((hasDerivAt_id (0 : ℝ)).mul_const d).const_add a
    refine (hG (fun t => (fun k b => P.1 k b + t * D.1 k b, fun k b => P.2 k b + t * D.2 k b)) D (by simp)
      (fun k b => hlin _ _) fun k b => hlin _ _).unique (hcurve _ D (by simp) (fun k b => hlin _ _) fun k b => hlin _ _)
  have hst := occupation_stationary hk ne spin hpar h0 hb r P hd eps
  have hrow : (∀ sp k b k' b', Spec.Fractional ne spin P sp k b → Spec.Fractional ne spin P sp k' b' →
        eps (Spec.rowOf r sp) k b = eps (Spec.rowOf r sp) k' b') ↔
      ∀ (sp : Fin 2) (s : Fin ns), (s : ℕ) = Spec.rowOf r sp → ∀ k b k' b', Spec.Fractional ne spin P sp k b →
        Spec.Fractional ne spin P sp k' b' → e s k b = e s k' b' := by
    have hlt : ∀ sp : Fin 2, (Spec.rowOf r sp : ℕ) < ns := by
      intro sp
      rw [hns]
      cases r
      · exact (Spec.rowOf false sp).isLt
      · exact Nat.one_pos
    have hval : ∀ (sp : Fin 2) (s : Fin ns), (s : ℕ) = Spec.rowOf r sp → eps (Spec.rowOf r sp) = e s := by
      intro sp s hs
      simp only [heps, dif_pos (hlt sp)]
      exact congrArg e (Fin.ext hs.symm)
    constructor
    · intro h sp s hs k b k' b' h1 h2
      rw [← hval sp s hs]
      exact h sp k b k' b' h1 h2
    · intro h sp k b k' b' h1 h2
      rw [hval sp ⟨_, hlt sp⟩ rfl]
      exact h sp ⟨_, hlt sp⟩ rfl k b k' b' h1 h2
  refine Iff.trans ?_ (hst.trans hrow)
  refine ⟨fun h D => ?_, fun h => ?_⟩
  · rw [← hGj, h]
    simp
  · have hsq := (hGj G).trans (h G)
    have h1 : ∀ v : Fin nk → Fin nb → ℝ, 0 ≤ ∑ k, ∑ b, v k b * v k b := fun v =>
      Finset.sum_nonneg fun _ _ => Finset.sum_nonneg fun _ _ => mul_self_nonneg _
    have h2 : ∀ v : Fin nk → Fin nb → ℝ, ∑ k, ∑ b, v k b * v k b = 0 → v = 0 := by
      intro v hv
      funext k b
      have a1 := (Finset.sum_eq_zero_iff_of_nonneg
        fun k _ => Finset.sum_nonneg fun b _ => mul_self_nonneg (v k b)).1 hv k (Finset.mem_univ k)
      exact mul_self_eq_zero.1 ((Finset.sum_eq_zero_iff_of_nonneg fun b _ => mul_self_nonneg (v k b)).1 a1 b
        (Finset.mem_univ b))
    have a := h1 G.1
    have b := h1 G.2
    exact Prod.ext (h2 _ (by linarith)) (h2 _ (by linarith))

/-- Equal values within each channel are a level for each channel. -/
theorem levels_of_equal (ne spin : ℤ) (r : Bool) (P : (Fin nk → Fin nb → ℝ) × (Fin nk → Fin nb → ℝ)) (t eps top : ℝ)
    (e f : Fin ns → Fin nk → Fin nb → ℝ) :
    (∀ (sp : Fin 2) (s : Fin ns), (s : ℕ) = Spec.rowOf r sp → ∀ k b k' b', Spec.Fractional ne spin P sp k b →
        Spec.Fractional ne spin P sp k' b' →
      e s k b - t * Spec.entropySlope eps top (f s k b) = e s k' b' - t * Spec.entropySlope eps top (f s k' b')) ↔
    ∃ μ, Spec.ChannelLevels ne spin r P t eps top e f μ := by
  classical
  constructor
  · intro h
    have h1 : ∀ sp : Fin 2, ∃ m, ∀ s : Fin ns, (s : ℕ) = Spec.rowOf r sp → ∀ k b, Spec.Fractional ne spin P sp k b →
        e s k b - t * Spec.entropySlope eps top (f s k b) = m := by
      intro sp
      by_cases hx : ∃ s : Fin ns, (s : ℕ) = Spec.rowOf r sp ∧ ∃ k b, Spec.Fractional ne spin P sp k b
      · obtain ⟨s, hs, k, b, hkb⟩ := hx
        refine ⟨e s k b - t * Spec.entropySlope eps top (f s k b), fun s' hs' k' b' hf => ?_⟩
        have : s' = s := Fin.ext (hs'.trans hs.symm)
        subst this
        exact h sp s' hs' k' b' k b hf hkb
      · exact ⟨0, fun s hs k b hf => absurd ⟨s, hs, k, b, hf⟩ hx⟩
    choose μ hμ using h1
    exact ⟨μ, fun sp s hs k b hf => hμ sp s hs k b hf⟩
  · rintro ⟨μ, h⟩ sp s hs k b k' b' h1 h2
    rw [h sp s hs k b h1, h sp s hs k' b' h2]

/-- The occupations lie between empty and full; those of partly filled bands strictly. -/
theorem rows_bounds (hk : 0 < nk) (ne spin : ℤ) (hpar : ne % 2 = spin % 2) (h0 : |spin| < ne)
    (hb : ne + |spin| < 2 * nb) (r : Bool) (hns : ns = if r then 1 else 2)
    (P : (Fin nk → Fin nb → ℝ) × (Fin nk → Fin nb → ℝ)) (s : Fin ns) (k : Fin nk) (b : Fin nb) :
    0 ≤ Spec.occEntry ne spin r s k b P ∧ Spec.occEntry ne spin r s k b P ≤ (3 - (ns : ℝ)) / nk ∧
    ∀ sp : Fin 2, (s : ℕ) = Spec.rowOf r sp → Spec.Fractional ne spin P sp k b →
      0 < Spec.occEntry ne spin r s k b P ∧ Spec.occEntry ne spin r s k b P < (3 - (ns : ℝ)) / nk := by
  cases r with
  | true =>
    simp only [if_true] at hns
    subst hns
    obtain ⟨h1, h2, h3⟩ := partlyFilled_bounds hk ne spin hpar h0 hb P k b
    have h4 : (3 - ((1 : ℕ) : ℝ)) / nk = 2 / nk := by norm_num
    rw [h4, Subsingleton.elim s 0]
    exact ⟨h1, h2, fun sp _ hf => h3 sp hf⟩
  | false =>
    simp only [Bool.false_eq_true, if_false] at hns
    subst hns
    obtain ⟨u0, u1, d0, d1⟩ := occ_targets hk hpar h0 hb
    have hkR : (0 : ℝ) < nk := by exact_mod_cast hk
    have hch : ∀ (m : ℝ) (p : Fin nk → Fin nb → ℝ), 0 < m → m < ((nk * nb : ℕ) : ℝ) →
        0 ≤ occChan nk nb m p k b ∧ occChan nk nb m p k b ≤ 1 / nk := by
      intro m p m0 m1
      obtain ⟨lam, e2, -, -⟩ := proj_closed (n := nk * nb) m m0 m1 (ravel fun k b => sigmoid (p k b))
        (fun i => sigmoid_bounds _)
      have e1 : occChan nk nb m p k b = proj (ravel fun k b => sigmoid (p k b)) m (finProdFinEquiv (k, b)) / nk := rfl
      obtain ⟨z0, z1⟩ := clip01_mem (ravel (fun k b => sigmoid (p k b)) (finProdFinEquiv (k, b)) - lam)
      rw [e1, e2]
      exact ⟨div_nonneg z0 hkR.le, div_le_div_of_nonneg_right z1 hkR.le⟩
    obtain ⟨c1, c2, -⟩ := occ_entries ne spin k b P
    have h4 : (3 - ((2 : ℕ) : ℝ)) / nk = 1 / nk := by norm_num
    rw [h4]
    have h5 : ∀ sp : Fin 2, (s : ℕ) = Spec.rowOf false sp → Spec.Fractional ne spin P sp k b →
        0 < Spec.occEntry ne spin false s k b P ∧ Spec.occEntry ne spin false s k b P < 1 / nk := by
      intro sp hs hf
      have : (s : ℕ) = sp := hs
      rw [this]
      exact hf
    refine ⟨?_, ?_, h5⟩
    · fin_cases s
      · exact c1 ▸ (hch _ P.1 u0 u1).1
      · exact c2 ▸ (hch _ P.2 d0 d1).1
    · fin_cases s
      · exact c1 ▸ (hch _ P.1 u0 u1).2
      · exact c2 ▸ (hch _ P.2 d0 d1).2

/-- The change of the smearing entropy with the occupations. -/
theorem hasDerivAt_entropy {B : ℕ} (hB : B = nb) (eps top : ℝ) (heps : 0 < eps)
    (o : ℝ → Fin ns → Fin nk → Fin nb → ℝ) (d : Fin ns → Fin nk → Fin nb → ℝ)
    (h : ∀ s k b, HasDerivAt (fun t => o t s k b) (d s k b) 0) (h0 : ∀ s k b, 0 ≤ o 0 s k b)
    (h1 : ∀ s k b, o 0 s k b ≤ top) :
    HasDerivAt (fun t => Spec.smearingEntropy eps top (fun s k (b : Fin B) => o t s k (Fin.cast hB b)))
      (∑ s, ∑ k, ∑ b, d s k b * Spec.entropySlope eps top (o 0 s k b)) 0 := by
  subst hB
  unfold Spec.smearingEntropy
  refine (HasDerivAt.fun_neg (HasDerivAt.fun_sum fun s _ => HasDerivAt.fun_sum fun k _ => HasDerivAt.fun_sum fun b _ =>
    hasDerivAt_cellEntropy heps (h s k b) (h0 s k b) (h1 s k b))).congr_deriv ?_
  simp only [Finset.sum_neg_distrib, neg_neg]
end

end Jrystal
