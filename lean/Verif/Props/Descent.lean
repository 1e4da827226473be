import Verif.Lemmas.Descent
import Verif.Lemmas.SpinGround
import Verif.Props.IdemGrad

/- C134: gradient descent does not make the parameters degenerate. -/
namespace Jrystal
open scoped BigOperators ComplexConjugate Matrix
open KohnSham

section
variable {ns nk nb : ℕ} {n : Fin 3 → ℕ}

private theorem expand_mix (mask : Idx n → Bool) {B : ℕ} (U : Fin ns → Fin nk → Matrix (Fin B) (Fin B) ℂ)
    (C C' : Fin ns → Fin nk → Fin (maskCount mask) → Fin B → ℂ)
    (h : ∀ s k a b, C' s k a b = ∑ c, U s k b c * C s k a c) (s : Fin ns) (k : Fin nk) (b : Fin B) (x : Idx n) :
    expandCoefficient mask C' s k b x = ∑ c, U s k b c * expandCoefficient mask C s k c x := by
  unfold expandCoefficient
  cases hx : mask x with
  | false =>
    rw [scatterMask_off mask _ x hx]
    refine (Finset.sum_eq_zero fun c _ => ?_).symm
    rw [scatterMask_off mask _ x hx, mul_zero]
  | true =>
    obtain ⟨a, rfl⟩ := exists_maskPos mask hx
    simp only [scatterMask_get]
    exact h s k a b

private theorem spin_perp {M : ℕ} {ι : Type} [Fintype ι] (lib : XcLib) (xt : String) (X : (Fin ns → Idx n → ℝ) → ℝ)
    (V : Idx n → ℝ) (psi : Fin nk → ι → Fin M → Idx n → ℂ) (qr : QR ℂ) (ht : Spec.Triangular qr) (mask : Idx n → Bool)
    (hm : nb ≤ maskCount mask) (g : Idx n → Fin 3 → ℝ) (kpts : Fin nk → Fin 3 → ℝ) (vol : ℝ)
    (hX : ∀ r, xcEnergy lib xt false r g vol = .ok (X r)) (occ : Occ ns nk (min (maskCount mask) nb)) (K : ℝ)
    (f : PwParams ns nk (maskCount mask) nb → ℝ)
    (hf : ∀ w, f w = spinSum X V psi g kpts vol occ (pwCoeff qr mask w) - K)
    (p : PwParams ns nk (maskCount mask) nb) (hp : Spec.Independent p) (G : PwParams ns nk (maskCount mask) nb)
    (hG : Spec.IsFullGradient f p G) :
    (∀ s k i j, i ≤ j → Spec.BandPerp p G s k i j) ∧
    ((∀ s k b b', occ s k b = occ s k b') → ∀ s k i j, Spec.BandPerp p G s k i j) := by
  rw [show f = fun w => (fun C => spinSum X V psi g kpts vol occ (expandCoefficient mask C) - K) (unitaryMatrix qr w) from
    funext hf] at hG
  constructor
  · refine Descent.perp_phase qr ht hm (fun C => spinSum X V psi g kpts vol occ (expandCoefficient mask C) - K) p hp G hG
      fun u hu C => ?_
    rw [expand_phases, spinSum_phased lib xt X V psi g kpts vol hX occ u hu]
  · intro he
    refine Descent.perp_mix qr ht hm (fun C => spinSum X V psi g kpts vol occ (expandCoefficient mask C) - K) p hp G hG
      fun U hU C C' h => ?_
    rw [spinSum_mix X V psi g kpts vol (expandCoefficient mask C) (expandCoefficient mask C') occ U hU
      (fun s k i j _ => he s k i j) (expand_mix mask U C C' h)]

private theorem proj_span {N m : ℕ} {W : Matrix (Fin N) (Fin m) ℝ} {T : Matrix (Fin m) (Fin m) ℝ} (hT : IsUnit T.det) :
    IdemGrad.proj (W * T) = IdemGrad.proj W := by
  have hT' : IsUnit Tᵀ.det := by rwa [Matrix.det_transpose]
  have e : (W * T)ᵀ * (W * T) = Tᵀ * (Wᵀ * W) * T := by rw [Matrix.transpose_mul]; simp only [Matrix.mul_assoc]
  unfold IdemGrad.proj
  rw [e, Matrix.mul_inv_rev, Matrix.mul_inv_rev, Matrix.transpose_mul]
  calc W * T * (T⁻¹ * ((Wᵀ * W)⁻¹ * Tᵀ⁻¹)) * (Tᵀ * Wᵀ)
      = W * (T * T⁻¹) * (Wᵀ * W)⁻¹ * (Tᵀ⁻¹ * Tᵀ) * Wᵀ := by simp only [Matrix.mul_assoc]
    _ = _ := by rw [Matrix.mul_nonsing_inv _ hT, Matrix.nonsing_inv_mul _ hT', Matrix.mul_one, Matrix.mul_one]

private theorem add_unit_real {m : ℕ} (D : Matrix (Fin m) (Fin m) ℝ) : ∀ᶠ t : ℝ in nhds 0, IsUnit (1 + t • D).det := by
  have hc : Continuous fun t : ℝ => (1 + t • D).det :=
    Continuous.matrix_det (continuous_const.add (continuous_id.smul continuous_const))
  have h0 : (1 + (0 : ℝ) • D).det ≠ 0 := by simp
  filter_upwards [hc.continuousAt.eventually_ne h0] with t ht
  exact isUnit_iff_ne_zero.2 ht

private theorem step_independent {N m : ℕ} {W K : Matrix (Fin N) (Fin m) ℝ} (hW : LinearIndependent ℝ W.col)
    (h : Wᵀ * K = 0) (η : ℝ) : LinearIndependent ℝ (W - η • K).col := by
  rw [← Matrix.mulVec_injective_iff]
  intro x y hxy
  have h1 := congrArg (Wᵀ *ᵥ ·) hxy
  simp only [Matrix.mulVec_mulVec, Matrix.mul_sub, Matrix.mul_smul, h, smul_zero, sub_zero] at h1
  exact Matrix.mulVec_injective_of_isUnit ((Matrix.isUnit_iff_isUnit_det _).2 (IdemGrad.gram_real hW)) h1

private theorem dot_trace {N m : ℕ} (K W : Matrix (Fin N) (Fin m) ℝ) (D : Matrix (Fin m) (Fin m) ℝ) :
    ∑ i, ∑ j, K i j * (W * D) i j = ∑ i, ∑ j, (Wᵀ * K) i j * D i j := by
  have e : ∀ {a : ℕ} (A B : Matrix (Fin a) (Fin m) ℝ), ∑ i, ∑ j, A i j * B i j = (Aᵀ * B).trace := by
    intro a A B
    rw [Matrix.trace, Finset.sum_comm]
    refine Finset.sum_congr rfl fun j _ => ?_
    rw [Matrix.diag_apply, Matrix.mul_apply]
    rfl
  rw [e, e, Matrix.transpose_mul, Matrix.transpose_transpose, Matrix.mul_assoc]

private theorem zero_of_dots {m : ℕ} {A : Matrix (Fin m) (Fin m) ℝ} (h : ∀ D : Matrix (Fin m) (Fin m) ℝ,
    ∑ i, ∑ j, A i j * D i j = 0) : A = 0 := by
  ext i j
  have h1 := (Finset.sum_eq_zero_iff_of_nonneg fun i _ => Finset.sum_nonneg fun j _ => mul_self_nonneg _).1 (h A) i
    (Finset.mem_univ _)
  have h2 := (Finset.sum_eq_zero_iff_of_nonneg fun j _ => mul_self_nonneg _).1 h1 j (Finset.mem_univ _)
  exact mul_self_eq_zero.1 h2

private theorem idem_perp {qr : QR ℝ} (ht : Spec.Triangular qr) {mu md : ℕ} (r : Bool)
    (f : Matrix (Fin (nk * nb)) (Fin mu) ℝ × Matrix (Fin (nk * nb)) (Fin md) ℝ → ℝ)
    (hf : ∀ W W' : Matrix (Fin (nk * nb)) (Fin mu) ℝ × Matrix (Fin (nk * nb)) (Fin md) ℝ,
      idempotentOcc qr ⟨mu, md, W.1, W.2⟩ r = idempotentOcc qr ⟨mu, md, W'.1, W'.2⟩ r → f W = f W')
    (W : Matrix (Fin (nk * nb)) (Fin mu) ℝ × Matrix (Fin (nk * nb)) (Fin md) ℝ) (hu : LinearIndependent ℝ W.1.col)
    (hd : LinearIndependent ℝ W.2.col) (K : Matrix (Fin (nk * nb)) (Fin mu) ℝ × Matrix (Fin (nk * nb)) (Fin md) ℝ)
    (hK : Spec.IsPairGradient f W K) :
    W.1ᵀ * K.1 = 0 ∧ W.2ᵀ * K.2 = 0 ∧
    ∀ η : ℝ, LinearIndependent ℝ (W.1 - η • K.1).col ∧ LinearIndependent ℝ (W.2 - η • K.2).col := by
  have hch : ∀ {m : ℕ} {W : Matrix (Fin (nk * nb)) (Fin m) ℝ} {T : Matrix (Fin m) (Fin m) ℝ},
      LinearIndependent ℝ W.col → IsUnit T.det → idemChannel (nk := nk) (nb := nb) qr (W * T) = idemChannel qr W := by
    intro m W T hW hT
    have hWT : LinearIndependent ℝ (W * T).col := by
      rw [← Matrix.mulVec_injective_iff]
      have := (Matrix.mulVec_injective_iff.2 hW).comp
        (Matrix.mulVec_injective_of_isUnit ((Matrix.isUnit_iff_isUnit_det _).2 hT))
      intro x y hxy
      apply this
      simpa only [Function.comp, Matrix.mulVec_mulVec] using hxy
    funext k b
    rw [idemChannel_proj ht (columns_le hWT) (IdemGrad.gram_real hWT),
      idemChannel_proj ht (columns_le hW) (IdemGrad.gram_real hW), proj_span hT]
  have key : ∀ (D1 : Matrix (Fin mu) (Fin mu) ℝ) (D2 : Matrix (Fin md) (Fin md) ℝ),
      ∑ i, ∑ j, (W.1ᵀ * K.1) i j * D1 i j + ∑ i, ∑ j, (W.2ᵀ * K.2) i j * D2 i j = 0 := by
    intro D1 D2
    have hline : ∀ {m : ℕ} (W : Matrix (Fin (nk * nb)) (Fin m) ℝ) (D : Matrix (Fin m) (Fin m) ℝ) (i) (j),
        HasDerivAt (fun t : ℝ => (W * (1 + t • D) : Matrix (Fin (nk * nb)) (Fin m) ℝ) i j) ((W * D) i j) 0 := by
      intro m W D i j
      have : (fun t : ℝ => (W * (1 + t • D) : Matrix (Fin (nk * nb)) (Fin m) ℝ) i j) = fun t => W i j + t * (W * D) i j := by
        funext t
        rw [Matrix.mul_add, Matrix.mul_one, Matrix.mul_smul, Matrix.add_apply, Matrix.smul_apply, smul_eq_mul]
      rw [this]
      simpa using ((hasDerivAt_id (0 : ℝ)).mul_const ((W * D) i j)).const_add (W i j)
    have h1 := hK (fun t => (W.1 * (1 + t • D1), W.2 * (1 + t • D2))) (W.1 * D1, W.2 * D2) (by simp)
      (hline W.1 D1) (hline W.2 D2)
    rw [← dot_trace, ← dot_trace]
    refine h1.unique ((hasDerivAt_const (0 : ℝ) (f W)).congr_of_eventuallyEq ?_)
    filter_upwards [add_unit_real D1, add_unit_real D2] with t t1 t2
    refine hf _ _ ?_
    unfold idempotentOcc
    dsimp only
    rw [hch hu t1, hch hd t2]
  have e1 : W.1ᵀ * K.1 = 0 := zero_of_dots fun D => by simpa using key D 0
  have e2 : W.2ᵀ * K.2 = 0 := zero_of_dots fun D => by simpa using key 0 D
  exact ⟨e1, e2, fun η => ⟨step_independent hu e1 η, step_independent hd e2 η⟩⟩

/-- C134, all-electron driver: the gradient in the plane-wave parameters of every band is perpendicular to the
parameters of this and of all earlier bands.  So a step of gradient descent never shortens a band, and only finitely many
step sizes can make the bands dependent; with equally occupied bands none can. -/
theorem driver_descent {na : ℕ} (E : GsEnv na nk n)
    (ht : Spec.Triangular E.qrC) (hm : nb ≤ maskCount E.mask) (q : OccParams nk nb) (o : OccArr nk nb ℝ)
    (ho : occupation E.qrR q E.ne E.spin E.method E.restricted = .ok o) (hl : o.length = ns)
    (X : (Fin ns → Idx n → ℝ) → ℝ) (hX : ∀ r, xcEnergy E.lib E.xc false r E.g E.vol = .ok (X r)) (temp : ℝ)
    (f : PwParams ns nk (maskCount E.mask) nb → ℝ)
    (hf : ∀ w, (gsFree E temp ⟨w, q⟩).map (fun r => r.1) = .ok (f w))
    (p : PwParams ns nk (maskCount E.mask) nb) (hp : Spec.Independent p) (G : PwParams ns nk (maskCount E.mask) nb)
    (hG : Spec.IsFullGradient f p G) :
    (∀ s k i j, i ≤ j → Spec.BandPerp p G s k i j) ∧
    (∀ η s k b, Spec.bandSize (Spec.descend p G η) s k b = Spec.bandSize p s k b + η ^ 2 * Spec.bandSize G s k b) ∧
    {η : ℝ | ¬ Spec.Independent (Spec.descend p G η)}.Finite ∧
    ((∀ s k b b', o.get s k b = o.get s k b') → (∀ s k i j, Spec.BandPerp p G s k i j) ∧
      ∀ η, Spec.Independent (Spec.descend p G η)) := by
  have hs := fun w => gsState_eq E ⟨w, q⟩ o ho hl hm (fun s k b => o.get (Fin.cast hl.symm s) k (Fin.castLE (min_le_right _ _) b))
    fun _ _ _ => rfl
  obtain ⟨h1, h2⟩ := spin_perp E.lib E.xc X (fun j => (externalPotential E.pos E.charge E.g E.vol j).re) (fun _ (_ : Fin 0) (_ : Fin 0) _ => 0) E.qrC ht
    E.mask hm E.g E.kpts E.vol hX (fun s k b => o.get (Fin.cast hl.symm s) k (Fin.castLE (min_le_right _ _) b))
    (temp * fermiDirac (fun s : Fin o.length => o.get s) E.eps) f (fun w => by
      have h1 := hf w
      unfold gsFree gsEntropy at h1
      rw [gsTotal_of_state E ⟨w, q⟩ _ _ (hs w), totalEnergy_spinSum E.lib E.xc E.pos E.charge E.g E.kpts E.vol X hX] at h1
      simp only [ho] at h1
      exact (Except.ok.inj h1).symm) p hp G hG
  exact ⟨h1, fun η s k b => Descent.descend_size (h1 s k b b le_rfl) η, Descent.descend_finite hp G,
    fun he => ⟨h2 fun s k b b' => he _ _ _ _, Descent.descend_independent hp (h2 fun s k b b' => he _ _ _ _)⟩⟩

/-- C134, all-electron driver, whole runs: if all bands of a channel and k point are equally occupied, then with probability one over
the random start every step of gradient descent, with any step sizes and temperatures, has independent bands and a
gradient, and no band is ever shorter than at the start. -/
theorem driver_descent_run {na : ℕ} (E : GsEnv na nk n)
    (ht : Spec.Triangular E.qrC) (hm : nb ≤ maskCount E.mask) (q : OccParams nk nb) (o : OccArr nk nb ℝ)
    (ho : occupation E.qrR q E.ne E.spin E.method E.restricted = .ok o) (hl : o.length = ns)
    (heq : ∀ s k b b', o.get s k b = o.get s k b')
    (occ : Occ ns nk (min (maskCount E.mask) nb))
    (hocc : ∀ s k b, occ s k b = o.get (Fin.cast hl.symm s) k (Fin.castLE (min_le_right _ _) b))
    (A : Matrix (Fin 3) (Fin 3) ℝ) (hA : A.det ≠ 0) (hgA : E.g = gVectors A n) (hvol : 0 < E.vol)
    (X : (Fin ns → Idx n → ℝ) → ℝ) (hX : ∀ r, xcEnergy E.lib E.xc false r E.g E.vol = .ok (X r))
    (hX' : ∀ p, ∃ v, Spec.IsDensityGradient E.vol X (densityGrid (pwCoeff E.qrC E.mask p) E.vol occ) v)
    (temp η : ℕ → ℝ) (f : ℕ → PwParams ns nk (maskCount E.mask) nb → ℝ)
    (hf : ∀ t w, (gsFree E (temp t) ⟨w, q⟩).map (fun r => r.1) = .ok (f t w)) :
    ∀ᵐ w ∂Spec.uniformDraw ns nk (maskCount E.mask) nb, ∀ p G : ℕ → PwParams ns nk (maskCount E.mask) nb,
      p 0 = Spec.paramsOf w →
      (∀ t, (∃ D, Spec.IsFullGradient (f t) (p t) D) → Spec.IsFullGradient (f t) (p t) (G t)) →
      (∀ t, p (t + 1) = Spec.descend (p t) (G t) (η t)) →
      ∀ t, Spec.Independent (p t) ∧ Spec.IsFullGradient (f t) (p t) (G t) ∧
        ∀ s k b, Spec.bandSize (p 0) s k b ≤ Spec.bandSize (p t) s k b := by
  filter_upwards [draw_independent.1 hm] with w hw
  intro p G h0 hG hstep
  have grad : ∀ t, Spec.Independent (p t) → Spec.IsFullGradient (f t) (p t) (G t) := by
    intro t ht'
    obtain ⟨v, hv⟩ := hX' (p t)
    exact hG t (driver_gradient_spin E ht hm q o ho hl occ hocc A hA hgA hvol X hX (temp t) (f t) (hf t) _ ht' v hv _
      (fun _ _ => rfl) _ (fun _ _ => rfl)).2.1
  have key : ∀ t, Spec.Independent (p t) ∧ ∀ s k b, Spec.bandSize (p 0) s k b ≤ Spec.bandSize (p t) s k b := by
    intro t
    induction t with
    | zero => exact ⟨by rw [h0]; exact hw, fun _ _ _ => le_rfl⟩
    | succ t ih =>
      obtain ⟨-, d2, -, d4⟩ := driver_descent E ht hm q o ho hl X hX (temp t) (f t) (hf t) (p t) ih.1 (G t) (grad t ih.1)
      rw [hstep]
      refine ⟨(d4 heq).2 _, fun s k b => (ih.2 s k b).trans ?_⟩
      rw [d2]
      exact le_add_of_nonneg_right (mul_nonneg (sq_nonneg _)
        (Finset.sum_nonneg fun _ _ => add_nonneg (sq_nonneg _) (sq_nonneg _)))
  exact fun t => ⟨(key t).1, grad t (key t).1, (key t).2⟩

/-- C134, all-electron driver with `idempotent`: the gradient in the occupation parameters is perpendicular to them, and no
step of gradient descent can make their columns dependent. -/
theorem driver_idempotent_descent {na mu md : ℕ} (E : GsEnv na nk n)
    (htR : Spec.Triangular E.qrR) (hmeth : E.method = "idempotent") (temp : ℝ)
    (w : PwParams ns nk (maskCount E.mask) nb)
    (f : Matrix (Fin (nk * nb)) (Fin mu) ℝ × Matrix (Fin (nk * nb)) (Fin md) ℝ → ℝ)
    (hf : ∀ W, (gsFree E temp ⟨w, .idem ⟨mu, md, W.1, W.2⟩⟩).map (fun r => r.1) = .ok (f W))
    (W : Matrix (Fin (nk * nb)) (Fin mu) ℝ × Matrix (Fin (nk * nb)) (Fin md) ℝ) (hu : LinearIndependent ℝ W.1.col)
    (hd : LinearIndependent ℝ W.2.col) (K : Matrix (Fin (nk * nb)) (Fin mu) ℝ × Matrix (Fin (nk * nb)) (Fin md) ℝ)
    (hK : Spec.IsPairGradient f W K) :
    W.1ᵀ * K.1 = 0 ∧ W.2ᵀ * K.2 = 0 ∧
    ∀ η : ℝ, LinearIndependent ℝ (W.1 - η • K.1).col ∧ LinearIndependent ℝ (W.2 - η • K.2).col := by
  refine idem_perp htR E.restricted f (fun W W' h => ?_) W hu hd K hK
  have ho : occupation E.qrR (.idem ⟨mu, md, W.1, W.2⟩) E.ne E.spin E.method E.restricted
      = occupation E.qrR (.idem ⟨mu, md, W'.1, W'.2⟩) E.ne E.spin E.method E.restricted := by
    simp only [occupation, hmeth, h]
  refine Except.ok.inj ((hf W).symm.trans (Eq.trans ?_ (hf W')))
  simp only [gsFree, gsTotal, gsParts, gsEntropy, gsState, ho]

/-- C134, norm-conserving driver: the gradient in the plane-wave parameters of every band is perpendicular to the
parameters of this and of all earlier bands.  So a step of gradient descent never shortens a band, and only finitely many
step sizes can make the bands dependent; with equally occupied bands none can. -/
theorem driverNC_descent {na M : ℕ} {ι : Type} [Fintype ι] (E : GsEnv na nk n) (vloc : Idx n → ℂ)
    (psi : Fin nk → ι → Fin M → Idx n → ℂ)
    (ht : Spec.Triangular E.qrC) (hm : nb ≤ maskCount E.mask) (q : OccParams nk nb) (o : OccArr nk nb ℝ)
    (ho : occupation E.qrR q E.ne E.spin E.method E.restricted = .ok o) (hl : o.length = ns)
    (X : (Fin ns → Idx n → ℝ) → ℝ) (hX : ∀ r, xcEnergy E.lib E.xc false r E.g E.vol = .ok (X r)) (temp : ℝ)
    (f : PwParams ns nk (maskCount E.mask) nb → ℝ)
    (hf : ∀ w, (gsFreeNC E vloc psi temp ⟨w, q⟩).map (fun r => r.1) = .ok (f w))
    (p : PwParams ns nk (maskCount E.mask) nb) (hp : Spec.Independent p) (G : PwParams ns nk (maskCount E.mask) nb)
    (hG : Spec.IsFullGradient f p G) :
    (∀ s k i j, i ≤ j → Spec.BandPerp p G s k i j) ∧
    (∀ η s k b, Spec.bandSize (Spec.descend p G η) s k b = Spec.bandSize p s k b + η ^ 2 * Spec.bandSize G s k b) ∧
    {η : ℝ | ¬ Spec.Independent (Spec.descend p G η)}.Finite ∧
    ((∀ s k b b', o.get s k b = o.get s k b') → (∀ s k i j, Spec.BandPerp p G s k i j) ∧
      ∀ η, Spec.Independent (Spec.descend p G η)) := by
  have hs := fun w => gsState_eq E ⟨w, q⟩ o ho hl hm (fun s k b => o.get (Fin.cast hl.symm s) k (Fin.castLE (min_le_right _ _) b))
    fun _ _ _ => rfl
  obtain ⟨h1, h2⟩ := spin_perp E.lib E.xc X (fun j => (ifftn vloc j).re) psi E.qrC ht
    E.mask hm E.g E.kpts E.vol hX (fun s k b => o.get (Fin.cast hl.symm s) k (Fin.castLE (min_le_right _ _) b))
    (temp * fermiDirac (fun s : Fin o.length => o.get s) E.eps) f (fun w => by
      have h1 := hf w
      unfold gsFreeNC gsEntropy at h1
      rw [gsTotalNC_of_state E vloc psi ⟨w, q⟩ _ _ (hs w) _
        (energyNC_spinSum E.lib E.xc vloc psi E.g E.kpts E.vol X hX _ _)] at h1
      simp only [ho] at h1
      exact (Except.ok.inj h1).symm) p hp G hG
  exact ⟨h1, fun η s k b => Descent.descend_size (h1 s k b b le_rfl) η, Descent.descend_finite hp G,
    fun he => ⟨h2 fun s k b b' => he _ _ _ _, Descent.descend_independent hp (h2 fun s k b b' => he _ _ _ _)⟩⟩

/-- C134, norm-conserving driver, whole runs: if all bands of a channel and k point are equally occupied, then with probability one over
the random start every step of gradient descent, with any step sizes and temperatures, has independent bands and a
gradient, and no band is ever shorter than at the start. -/
theorem driverNC_descent_run {na M : ℕ} {ι : Type} [Fintype ι] (E : GsEnv na nk n) (vloc : Idx n → ℂ)
    (psi : Fin nk → ι → Fin M → Idx n → ℂ)
    (ht : Spec.Triangular E.qrC) (hm : nb ≤ maskCount E.mask) (q : OccParams nk nb) (o : OccArr nk nb ℝ)
    (ho : occupation E.qrR q E.ne E.spin E.method E.restricted = .ok o) (hl : o.length = ns)
    (heq : ∀ s k b b', o.get s k b = o.get s k b')
    (occ : Occ ns nk (min (maskCount E.mask) nb))
    (hocc : ∀ s k b, occ s k b = o.get (Fin.cast hl.symm s) k (Fin.castLE (min_le_right _ _) b))
    (A : Matrix (Fin 3) (Fin 3) ℝ) (hA : A.det ≠ 0) (hgA : E.g = gVectors A n) (hvol : 0 < E.vol)
    (X : (Fin ns → Idx n → ℝ) → ℝ) (hX : ∀ r, xcEnergy E.lib E.xc false r E.g E.vol = .ok (X r))
    (hX' : ∀ p, ∃ v, Spec.IsDensityGradient E.vol X (densityGrid (pwCoeff E.qrC E.mask p) E.vol occ) v)
    (temp η : ℕ → ℝ) (f : ℕ → PwParams ns nk (maskCount E.mask) nb → ℝ)
    (hf : ∀ t w, (gsFreeNC E vloc psi (temp t) ⟨w, q⟩).map (fun r => r.1) = .ok (f t w)) :
    ∀ᵐ w ∂Spec.uniformDraw ns nk (maskCount E.mask) nb, ∀ p G : ℕ → PwParams ns nk (maskCount E.mask) nb,
      p 0 = Spec.paramsOf w →
      (∀ t, (∃ D, Spec.IsFullGradient (f t) (p t) D) → Spec.IsFullGradient (f t) (p t) (G t)) →
      (∀ t, p (t + 1) = Spec.descend (p t) (G t) (η t)) →
      ∀ t, Spec.Independent (p t) ∧ Spec.IsFullGradient (f t) (p t) (G t) ∧
        ∀ s k b, Spec.bandSize (p 0) s k b ≤ Spec.bandSize (p t) s k b := by
  filter_upwards [draw_independent.1 hm] with w hw
  intro p G h0 hG hstep
  have grad : ∀ t, Spec.Independent (p t) → Spec.IsFullGradient (f t) (p t) (G t) := by
    intro t ht'
    obtain ⟨v, hv⟩ := hX' (p t)
    exact hG t (driverNC_gradient_spin E vloc psi ht hm q o ho hl occ hocc A hA hgA hvol X hX (temp t) (f t) (hf t) _ ht' v hv _
      (fun _ _ => rfl) _ (fun _ _ => rfl)).2.1
  have key : ∀ t, Spec.Independent (p t) ∧ ∀ s k b, Spec.bandSize (p 0) s k b ≤ Spec.bandSize (p t) s k b := by
    intro t
    induction t with
    | zero => exact ⟨by rw [h0]; exact hw, fun _ _ _ => le_rfl⟩
    | succ t ih =>
      obtain ⟨-, d2, -, d4⟩ := driverNC_descent E vloc psi ht hm q o ho hl X hX (temp t) (f t) (hf t) (p t) ih.1 (G t) (grad t ih.1)
      rw [hstep]
      refine ⟨(d4 heq).2 _, fun s k b => (ih.2 s k b).trans ?_⟩
      rw [d2]
      exact le_add_of_nonneg_right (mul_nonneg (sq_nonneg _)
        (Finset.sum_nonneg fun _ _ => add_nonneg (sq_nonneg _) (sq_nonneg _)))
  exact fun t => ⟨(key t).1, grad t (key t).1, (key t).2⟩

/-- C134, norm-conserving driver with `idempotent`: the gradient in the occupation parameters is perpendicular to them, and no
step of gradient descent can make their columns dependent. -/
theorem driverNC_idempotent_descent {na M mu md : ℕ} {ι : Type} [Fintype ι] (E : GsEnv na nk n) (vloc : Idx n → ℂ)
    (psi : Fin nk → ι → Fin M → Idx n → ℂ)
    (htR : Spec.Triangular E.qrR) (hmeth : E.method = "idempotent") (temp : ℝ)
    (w : PwParams ns nk (maskCount E.mask) nb)
    (f : Matrix (Fin (nk * nb)) (Fin mu) ℝ × Matrix (Fin (nk * nb)) (Fin md) ℝ → ℝ)
    (hf : ∀ W, (gsFreeNC E vloc psi temp ⟨w, .idem ⟨mu, md, W.1, W.2⟩⟩).map (fun r => r.1) = .ok (f W))
    (W : Matrix (Fin (nk * nb)) (Fin mu) ℝ × Matrix (Fin (nk * nb)) (Fin md) ℝ) (hu : LinearIndependent ℝ W.1.col)
    (hd : LinearIndependent ℝ W.2.col) (K : Matrix (Fin (nk * nb)) (Fin mu) ℝ × Matrix (Fin (nk * nb)) (Fin md) ℝ)
    (hK : Spec.IsPairGradient f W K) :
    W.1ᵀ * K.1 = 0 ∧ W.2ᵀ * K.2 = 0 ∧
    ∀ η : ℝ, LinearIndependent ℝ (W.1 - η • K.1).col ∧ LinearIndependent ℝ (W.2 - η • K.2).col := by
  refine idem_perp htR E.restricted f (fun W W' h => ?_) W hu hd K hK
  have ho : occupation E.qrR (.idem ⟨mu, md, W.1, W.2⟩) E.ne E.spin E.method E.restricted
      = occupation E.qrR (.idem ⟨mu, md, W'.1, W'.2⟩) E.ne E.spin E.method E.restricted := by
    simp only [occupation, hmeth, h]
  refine Except.ok.inj ((hf W).symm.trans (Eq.trans ?_ (hf W')))
  simp only [gsFreeNC, gsTotalNC, gsPartsNC, gsEntropy, gsState, ho]

private theorem slice_full {m : ℕ} (b : Fin m) : inSlice m 0 ((2 * (m : ℤ) + 0) / 2) b = true := by
  have := b.isLt
  unfold inSlice pyBound
  simp only [Bool.and_eq_true, decide_eq_true_eq]
  split_ifs <;> omega

private theorem slice_full' {m : ℕ} (b : Fin m) : inSlice m 0 ((2 * (m : ℤ) - 0) / 2) b = true := by
  rw [sub_zero, ← add_zero (2 * (m : ℤ))]; exact slice_full b

/-- C134: in a closed shell without empty bands the occupations `uniform` and `gamma` are the same for all bands, as the
theorems on whole runs require. -/
theorem closed_shell_equal (nk m : ℕ) (r : Bool) :
    driverBands (2 * m) 0 = m ∧
    (∀ s k b b', (uniformOcc (K := ℝ) nk (2 * m) 0 (some m) r).get s k b
      = (uniformOcc (K := ℝ) nk (2 * m) 0 (some m) r).get s k b') ∧
    ∀ s k b b', (gammaOcc (K := ℝ) nk (2 * m) 0 (some m) r).get s k b
      = (gammaOcc (K := ℝ) nk (2 * m) 0 (some m) r).get s k b' := by
  refine ⟨by unfold driverBands; omega, ?_, ?_⟩
  · have h : ∀ a ∈ uniformOcc (K := ℝ) nk (2 * m) 0 (some m) r, ∀ k b b', a k b = a k b' := by
      intro a ha k b b'
      have e := fun b : Fin m => slice_full b
      have e' := fun b : Fin m => slice_full' b
      cases r <;> simp only [uniformOcc, sumSpin, resolveBands, e, e', Bool.false_eq_true, if_true, if_false, List.mem_cons,
        List.not_mem_nil, or_false, List.map_cons, List.map_nil] at ha
      · rcases ha with rfl | rfl <;> rfl
      · subst ha; rfl
    exact fun s k b b' => h _ (List.get_mem _ _) k b b'
  · have h : ∀ a ∈ gammaOcc (K := ℝ) nk (2 * m) 0 (some m) r, ∀ k b b', a k b = a k b' := by
      intro a ha k b b'
      have e := fun b : Fin m => slice_full b
      have e' := fun b : Fin m => slice_full' b
      cases r <;> simp only [gammaOcc, sumSpin, resolveBands, e, e', Bool.false_eq_true, if_true, if_false, List.mem_cons,
        List.not_mem_nil, or_false, List.map_cons, List.map_nil] at ha
      · rcases ha with rfl | rfl <;> rfl
      · subst ha; rfl
    exact fun s k b b' => h _ (List.get_mem _ _) k b b'

end

/-- The same two spin channels with four electrons in two bands each. -/
noncomputable def fullTwoWaves : GsEnv 0 1 ![2, 1, 1] := { spinTwoWaves with method := "uniform", ne := 4, spin := 0 }

/-- The hypotheses of the theorems on plane-wave parameters are met: two spin channels with a gradient functional and
smearing, and all bands occupied; for valence electrons one projector.  The case for `idempotent` is the one beside the
theorems of C133. -/
example : ∃ (X : (Fin 2 → Idx ![2, 1, 1] → ℝ) → ℝ) (o : OccArr 1 2 ℝ)
    (f f' : ℝ → PwParams 2 1 (maskCount fullTwoWaves.mask) 2 → ℝ) (hl : o.length = 2),
    Spec.Triangular fullTwoWaves.qrC ∧ 2 ≤ maskCount fullTwoWaves.mask ∧
    occupation fullTwoWaves.qrR (.arr (uniformOcc 1 4 0 (some 2) false)) fullTwoWaves.ne fullTwoWaves.spin
      fullTwoWaves.method fullTwoWaves.restricted = .ok o ∧ (∀ s k b b', o.get s k b = o.get s k b') ∧
    (1 : Matrix (Fin 3) (Fin 3) ℝ).det ≠ 0 ∧ fullTwoWaves.g = gVectors 1 ![2, 1, 1] ∧ 0 < fullTwoWaves.vol ∧
    (∀ r, xcEnergy fullTwoWaves.lib fullTwoWaves.xc false r fullTwoWaves.g fullTwoWaves.vol = .ok (X r)) ∧
    (∀ temp w, (gsFree fullTwoWaves temp ⟨w, .arr (uniformOcc 1 4 0 (some 2) false)⟩).map (fun r => r.1) = .ok (f temp w)) ∧
    (∀ temp w, (gsFreeNC fullTwoWaves (fun _ => 1) (fun _ (_ : Fin 1) (_ : Fin 1) _ => 1) temp
      ⟨w, .arr (uniformOcc 1 4 0 (some 2) false)⟩).map (fun r => r.1) = .ok (f' temp w)) ∧
    ∀ (occ : Occ 2 1 (min (maskCount fullTwoWaves.mask) 2)) (p : PwParams 2 1 (maskCount fullTwoWaves.mask) 2), ∃ v,
      Spec.IsDensityGradient fullTwoWaves.vol X
      (densityGrid (pwCoeff fullTwoWaves.qrC fullTwoWaves.mask p) fullTwoWaves.vol occ) v := by
  have hm : 2 ≤ maskCount fullTwoWaves.mask := (by decide : 2 ≤ maskCount (n := ![2, 1, 1]) fun _ => true)
  have hX : ∀ r : Fin 2 → Idx ![2, 1, 1] → ℝ, xcEnergy fullTwoWaves.lib fullTwoWaves.xc false r fullTwoWaves.g
    fullTwoWaves.vol = .ok _ := fun r => xcEnergy_value _ _ _ _ _
  have h2 : splitPlus "gga_c" = ["gga_c"] := by decide +kernel
  have h4 : isExchange "gga_c" = false := by decide +kernel
  have ho : occupation fullTwoWaves.qrR (.arr (uniformOcc 1 4 0 (some 2) false)) fullTwoWaves.ne fullTwoWaves.spin
      fullTwoWaves.method fullTwoWaves.restricted = .ok (uniformOcc 1 4 0 (some 2) false) := by
    simp [occupation, fullTwoWaves]
  have hs := fun w : PwParams 2 1 (maskCount fullTwoWaves.mask) 2 =>
    gsState_eq fullTwoWaves ⟨w, .arr (uniformOcc 1 4 0 (some 2) false)⟩ _ ho rfl hm _ fun _ _ _ => rfl
  have hf : ∀ (temp : ℝ) (w : PwParams 2 1 (maskCount fullTwoWaves.mask) 2), ∃ e : ℝ,
      (gsFree fullTwoWaves temp ⟨w, .arr (uniformOcc 1 4 0 (some 2) false)⟩).map (fun r => r.1) = .ok e := by
    intro temp w
    unfold gsFree gsEntropy
    rw [gsTotal_of_state fullTwoWaves _ _ _ (hs w), totalEnergy_spinSum fullTwoWaves.lib fullTwoWaves.xc fullTwoWaves.pos
      fullTwoWaves.charge fullTwoWaves.g fullTwoWaves.kpts fullTwoWaves.vol _ hX]
    simp only [ho]
    exact ⟨_, rfl⟩
  have hf' : ∀ (temp : ℝ) (w : PwParams 2 1 (maskCount fullTwoWaves.mask) 2), ∃ e : ℝ,
      (gsFreeNC fullTwoWaves (fun _ => 1) (fun _ (_ : Fin 1) (_ : Fin 1) _ => 1) temp
        ⟨w, .arr (uniformOcc 1 4 0 (some 2) false)⟩).map (fun r => r.1) = .ok e := by
    intro temp w
    unfold gsFreeNC gsEntropy
    rw [gsTotalNC_of_state fullTwoWaves _ _ _ _ _ (hs w) _ (energyNC_spinSum fullTwoWaves.lib fullTwoWaves.xc _ _
      fullTwoWaves.g fullTwoWaves.kpts fullTwoWaves.vol _ hX _ _)]
    simp only [ho]
    exact ⟨_, rfl⟩
  choose f hf using hf
  choose f' hf' using hf'
  refine ⟨_, _, f, f', rfl, gramSchmidtQR_triangular ℂ, hm, ho, (closed_shell_equal 1 2 false).2.1, by simp, rfl,
    by norm_num [fullTwoWaves, spinTwoWaves, trainedTwoWaves], hX, hf, hf', fun occ p => ?_⟩
  refine ⟨_, xcEnergy_derivative_gga2 fullTwoWaves.lib fullTwoWaves.xc (by decide +kernel) fullTwoWaves.g fullTwoWaves.vol _
    hX _ _ (fun x => rfl) _ (fun j => rfl) (fun j => ?_) _ (fun i j => rfl)⟩
  simp only [excGga2, fullTwoWaves, spinTwoWaves, h2, List.map_cons, List.map_nil, List.sum_cons, List.sum_nil, ggaPoint2, h4,
    Bool.false_eq_true, if_false]
  fun_prop

end Jrystal
