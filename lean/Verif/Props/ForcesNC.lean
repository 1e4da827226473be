import Verif.Props.StabilityNC

/- C107 for norm-conserving pseudopotentials: the theorem of Hellmann and Feynman. -/
namespace Jrystal
open scoped BigOperators ComplexConjugate

private theorem wave_diff (y : ℝ → ℝ) (hy : Differentiable ℝ y) :
    Differentiable ℝ fun t => Complex.exp (-(Complex.I * ((y t : ℝ) : ℂ))) := by
  have h1 : Differentiable ℝ fun t => ((y t : ℝ) : ℂ) := Complex.ofRealCLM.differentiable.comp hy
  exact ((h1.const_mul Complex.I).neg).cexp

private theorem line_diff {D : ℕ} (g p v : Fin D → ℝ) : Differentiable ℝ fun t : ℝ => ∑ d, g d * (p d + t * v d) := by
  fun_prop

private theorem conj_diff {f : ℝ → ℂ} (hf : Differentiable ℝ f) : Differentiable ℝ fun t => conj (f t) :=
  (Complex.conjCLE : ℂ ≃L[ℝ] ℂ).differentiable.comp hf

private theorem re_diff {f : ℝ → ℂ} (hf : Differentiable ℝ f) : Differentiable ℝ fun t => (f t).re :=
  Complex.reCLM.differentiable.comp hf

/-- C107 for valence electrons: while the atoms move along straight lines the energy of a fixed state is a
differentiable function of time. -/
theorem energyNC_slope (lib : XcLib) (xt : String) (jn : SphBessel) (cs : Spline) (eigh : Eigh) (sph : SphHarm)
    (P : NcLists) {m nk : ℕ} (hm : 0 < m) {n : Fin 3 → ℕ} (hn : ∀ i, 0 < n i) (sp : Fin m → NlSpecies nk n)
    (g : Idx n → Fin 3 → ℝ) (kpts : Fin nk → Fin 3 → ℝ) (vol : ℝ) (pos v : Fin m → Fin 3 → ℝ) (vloc : ℝ → Idx n → ℂ)
    (hloc : ∀ t, localReciprocal jn cs (ncLocalAtom P fun a d => pos a d + t * v a d) g vol "sbt" = .ok (vloc t))
    {ns nb : ℕ} (c : Coef ns nk nb n) (occ : Occ ns nk nb) (t₀ e₀ : ℝ)
    (h₀ : Spec.EnergyNC lib xt (vloc t₀) (nlPsiAll eigh sph sp (fun a d => pos a d + t₀ * v a d) g kpts) g kpts vol c occ
      e₀) :
    ∃ E : ℝ → ℝ, (∀ t, Spec.EnergyNC lib xt (vloc t) (nlPsiAll eigh sph sp (fun a d => pos a d + t * v a d) g kpts) g kpts
      vol c occ (E t)) ∧ Differentiable ℝ E := by
  obtain ⟨har, -, -, exc, b1, -, -, b4, -⟩ := h₀
  obtain ⟨w, hw⟩ := local_waves jn cs P hm hn g vol
  obtain ⟨u, hu⟩ := projector_waves eigh sph sp g kpts
  refine ⟨fun t => kineticEnergyOcc g kpts c occ + har
      + (vol / (gridCount n : ℝ) ^ 2 * (∑ k, conj (vloc t k) * ∑ s, densityGridReciprocal c vol occ s k).re)
      + (∑ s, ∑ k, ∑ b, hamiltonianNonlocal c (nlPsiAll eigh sph sp (fun a d => pos a d + t * v a d) g kpts) vol s k b b
          * (occ s k b : ℂ)).re + exc, fun t => ⟨har, _, _, exc, b1, ?_, rfl, b4, rfl⟩, ?_⟩
  · unfold energyLocal
    rw [reciprocalBraket_one]
  · refine Differentiable.add_const _ (Differentiable.add (Differentiable.const_add _ (Differentiable.const_mul ?_ _)) ?_)
    · refine re_diff (Differentiable.fun_sum fun k _ => Differentiable.mul_const (conj_diff ?_) _)
      have e : (fun t => vloc t k) = fun t => ∑ a, w k a *
          Complex.exp (-(Complex.I * ((∑ d, g k d * (pos a d + t * v a d) : ℝ) : ℂ))) := by
        funext t
        exact hw _ _ (hloc t) k
      rw [e]
      exact Differentiable.fun_sum fun a _ => (wave_diff _ (line_diff (g k) (pos a) (v a))).const_mul _
    · refine re_diff (Differentiable.fun_sum fun s _ => Differentiable.fun_sum fun k _ => Differentiable.fun_sum fun b _ =>
        Differentiable.mul_const ?_ _)
      have hf : ∀ β φ, Differentiable ℝ fun t => ∑ x, c s k b x *
          nlPsiAll eigh sph sp (fun a d => pos a d + t * v a d) g kpts k β φ x := by
        intro β φ
        refine Differentiable.fun_sum fun x _ => Differentiable.const_mul ?_ _
        simp only [hu]
        exact (wave_diff _ (line_diff (fun d => kpts k d + g x d) (pos β.1) (v β.1))).const_mul _
      unfold hamiltonianNonlocal
      exact Differentiable.div_const (Differentiable.fun_sum fun β _ => Differentiable.fun_sum fun φ _ =>
        (conj_diff (hf β φ)).mul (hf β φ)) _

/-- C107 for valence electrons: the least free energy along a motion of the atoms is Lipschitz continuous, with one
constant for all motions; at almost every time it is differentiable, and then its derivative is that of the energy of any
ground state of this time with its waves and occupations held fixed: the electrons need not be followed (Hellmann and
Feynman). -/
theorem groundNC_hellmannFeynman (lib : XcLib) (xt : String) (jn : SphBessel) (cs : Spline) (eigh : Eigh) (sph : SphHarm)
    (P : NcLists) {m nk : ℕ} (hm : 0 < m) {n : Fin 3 → ℕ} (hn : ∀ i, 0 < n i) (sp : Fin m → NlSpecies nk n)
    (g : Idx n → Fin 3 → ℝ) (kpts : Fin nk → Fin 3 → ℝ) (vol : ℝ) (hv : 0 < vol) :
    ∃ K, 0 ≤ K ∧ ∀ (ns nb : ℕ) (mask : Idx n → Bool) (ne spin : ℤ) (r : Bool) (method : String) (T eps : ℝ)
      (pos v : Fin m → Fin 3 → ℝ) (vloc : ℝ → Idx n → ℂ),
      (∀ t, localReciprocal jn cs (ncLocalAtom P fun a d => pos a d + t * v a d) g vol "sbt" = .ok (vloc t)) →
      ∀ F : ℝ → ℝ, (∀ t, IsGLB (Spec.freeEnergies (ns := ns) (nk := nk) (nb := nb) T eps mask ne spin r method
        (Spec.EnergyNC lib xt (vloc t) (nlPsiAll eigh sph sp (fun a d => pos a d + t * v a d) g kpts) g kpts vol))
        (F t)) →
      (∀ t t', |F t - F t'| ≤ ne * K * (∑ a, Spec.length (v a)) * |t - t'|) ∧
      (∀ᵐ t, DifferentiableAt ℝ F t) ∧
      ∀ t, DifferentiableAt ℝ F t → ∀ (c : Coef ns nk nb n) (occ : Occ ns nk nb) e,
        Spec.GroundWithin 0 T eps mask ne spin r method
          (Spec.EnergyNC lib xt (vloc t) (nlPsiAll eigh sph sp (fun a d => pos a d + t * v a d) g kpts) g kpts vol)
          c occ e →
        ∃ E : ℝ → ℝ, (∀ s, Spec.EnergyNC lib xt (vloc s) (nlPsiAll eigh sph sp (fun a d => pos a d + s * v a d) g kpts) g
            kpts vol c occ (E s)) ∧ HasDerivAt E (deriv F t) t := by
  obtain ⟨K, hK, hdis⟩ := energyNC_displaced lib xt jn cs eigh sph P hm hn sp g kpts vol hv
  refine ⟨K, hK, ?_⟩
  intro ns nb mask ne spin r method T eps pos v vloc hloc F hF
  have hlen : ∀ t t' : ℝ, ∀ a, Spec.length (fun d => (pos a d + t * v a d) - (pos a d + t' * v a d))
      = |t - t'| * Spec.length (v a) := by
    intro t t' a
    unfold Spec.length
    rw [← Real.sqrt_sq_eq_abs, ← Real.sqrt_mul (sq_nonneg _), Finset.mul_sum]
    congr 1
    exact Finset.sum_congr rfl fun d _ => by ring
  have hone : ∀ t t', F t ≤ F t' + ne * K * (∑ a, Spec.length (v a)) * |t - t'| := by
    intro t t'
    rw [← sub_le_iff_le_add]
    refine (hF t').2 ?_
    rintro f ⟨c, occ, e, hp, hgiven, he, rfl⟩
    obtain ⟨E, hE, -⟩ := energyNC_slope lib xt jn cs eigh sph P hm hn sp g kpts vol pos v vloc hloc c occ t' e he
    have a1 := hdis hp _ _ _ _ (hloc t) (hloc t') _ _ (hE t) he
    simp only [hlen] at a1
    have a2 := (hF t).1 ⟨c, occ, E t, hp, hgiven, hE t, rfl⟩
    have a3 : ∑ a, |t - t'| * Spec.length (v a) = (∑ a, Spec.length (v a)) * |t - t'| := by
      rw [Finset.sum_mul]
      exact Finset.sum_congr rfl fun a _ => by ring
    rw [a3, ← mul_assoc] at a1
    linarith [(abs_le.mp a1).2]
  have hlip : ∀ t t', |F t - F t'| ≤ ne * K * (∑ a, Spec.length (v a)) * |t - t'| := by
    intro t t'
    rw [abs_le]
    have h1 := hone t t'
    have h2 := hone t' t
    rw [abs_sub_comm] at h2
    constructor <;> linarith
  refine ⟨hlip, ?_, fun t ht c occ e hgr => ?_⟩
  · have hL : LipschitzWith (Real.toNNReal (ne * K * ∑ a, Spec.length (v a))) F := by
      refine LipschitzWith.of_dist_le_mul fun t t' => ?_
      rw [Real.dist_eq, Real.dist_eq]
      refine (hlip t t').trans (mul_le_mul_of_nonneg_right ?_ (abs_nonneg _))
      exact Real.le_coe_toNNReal _
    exact hL.ae_differentiableAt_real
  · obtain ⟨E, hE, hd⟩ := energyNC_slope lib xt jn cs eigh sph P hm hn sp g kpts vol pos v vloc hloc c occ t e hgr.value
    refine ⟨E, hE, ?_⟩
    have he : E t = e := by
      obtain ⟨x1, x2, x3, x4, y1, y2, y3, y4, y5⟩ := hE t
      obtain ⟨x1', x2', x3', x4', z1, z2, z3, z4, z5⟩ := hgr.value
      obtain rfl := Except.ok.inj (y1.symm.trans z1)
      obtain rfl := Except.ok.inj (y2.symm.trans z2)
      obtain rfl := Except.ok.inj (y3.symm.trans z3)
      obtain rfl := Except.ok.inj (y4.symm.trans z4)
      rw [y5, z5]
    have hFt : F t = e - T * Spec.smearingEntropy eps ((3 - (ns : ℝ)) / nk) occ := by
      refine le_antisymm ((hF t).1 ⟨c, occ, e, hgr.physical, hgr.given, hgr.value, rfl⟩) ((hF t).2 ?_)
      rintro f ⟨c', occ', e', hp, hgiven, he', rfl⟩
      have := hgr.least c' occ' e' hp (fun hm => (hgiven hm).trans (hgr.given hm).symm) he'
      linarith
    have hmin : IsLocalMin (fun s => E s - F s) t := by
      refine Filter.Eventually.of_forall fun s => ?_
      have h1 := (hF s).1 ⟨c, occ, E s, hgr.physical, hgr.given, hE s, rfl⟩
      show E t - F t ≤ E s - F s
      rw [he, hFt]
      linarith
    have h0 := hmin.hasDerivAt_eq_zero ((hd t).hasDerivAt.sub ht.hasDerivAt)
    rw [sub_eq_zero] at h0
    rw [← h0]
    exact (hd t).hasDerivAt

/-- The hypotheses of `groundNC_hellmannFeynman` hold for the silicon pair on its way along lines: the local potential
exists at every time, at every time there is a ground state, and the least energies are a function of the time. -/
theorem silicon_moving (eigh : Eigh) (jn : SphBessel) (csLoc csBeta : Spline) (pos v : Fin 2 → Fin 3 → ℝ) :
    let L : NcLib := siliconLib diracLib eigh jn csLoc csBeta
    let A : Matrix (Fin 3) (Fin 3) ℝ := (angstrom2bohr : ℝ) • siliconAtoms.cell
    ∃ (P : NcLists) (n kn : Fin 3 → ℕ) (mask : Idx n → Bool) (bs : List (BetaArr (idxList kn).length n))
      (vloc : ℝ → Idx n → ℂ) (F : ℝ → ℝ), (∀ i, 0 < n i) ∧ 0 < |A.det| ∧
      ncBetas L P (gVectors A n) (flatRows (kVectors A kn)) = .ok bs ∧
      (∀ t, localReciprocal jn csLoc (ncLocalAtom P fun a d => pos a d + t * v a d) (gVectors A n) |A.det| "sbt"
        = .ok (vloc t)) ∧ ∀ t,
      IsGLB (Spec.freeEnergies (ns := 2) (nk := (idxList kn).length) (nb := 8) 0 siliconConfig.eps mask 4 0 false
        siliconConfig.occupation (Spec.EnergyNC diracLib siliconConfig.xc (vloc t) (nlPsiAll eigh L.sph
          (fun a : Fin 2 => ncSpecies P bs a) (fun a d => pos a d + t * v a d) (gVectors A n) (flatRows (kVectors A kn)))
          (gVectors A n) (flatRows (kVectors A kn)) |A.det|)) (F t) ∧
      ∃ c occ e, Spec.GroundWithin (ns := 2) (nk := (idxList kn).length) (nb := 8) 0 0 siliconConfig.eps mask 4 0 false
        siliconConfig.occupation (Spec.EnergyNC diracLib siliconConfig.xc (vloc t) (nlPsiAll eigh L.sph
          (fun a : Fin 2 => ncSpecies P bs a) (fun a d => pos a d + t * v a d) (gVectors A n) (flatRows (kVectors A kn)))
          (gVectors A n) (flatRows (kVectors A kn)) |A.det|) c occ e := by
  intro L A
  obtain ⟨P, H⟩ := silicon_admissible diracLib eigh jn csLoc csBeta
  obtain ⟨n, kn, rep, mask, vl, bs, -, hn, hkn, -, -, hbs, ns, nb, hnb, hns, en, j, -, -, -, -, h⟩ := ncRun_history
    { L with qrC := gramSchmidtQR ℂ, qrR := gramSchmidtQR ℝ, optimizer := .ok (nearOptimizer 1) } siliconConfig siliconAtoms
    (fun _ => 4) (fun _ => 2) P 4 0 { H with optimizer := ⟨nearOptimizer 1, rfl, nearOptimizer_keeps 1⟩ }
    (gramSchmidtQR_triangular ℂ) (gramSchmidtQR_triangular ℝ) diracLib_continuous
    (by norm_num [siliconConfig, lithiumConfig]) (fun _ _ => rfl) (fun h => absurd h (by decide)) 1
    (fun o ho => by cases Except.ok.inj ho; exact nearOptimizer_near one_pos) A rfl _ (fun _ _ => rfl)
  obtain ⟨c, occ, hgr, -⟩ := h 0
  obtain rfl : ns = 2 := hns
  obtain rfl : nb = 8 := hnb
  have hn0 : ∀ i, 0 < n i := fun i => RunSetup.smooth_pos (hn i).1
  have : Nonempty (Idx n) := ⟨fun i => ⟨0, hn0 i⟩⟩
  obtain ⟨k₀, hk₀⟩ := Finite.exists_max fun k => Real.sqrt (Spec.dot (gVectors A n k) (gVectors A n k))
  have hloc : ∀ t : ℝ, ∃ w, localReciprocal jn csLoc (ncLocalAtom P fun a d => pos a d + t * v a d) (gVectors A n) |A.det|
      "sbt" = .ok w := fun t => by
    obtain ⟨w, hw, -⟩ := local_formula jn csLoc two_pos (ncLocalAtom P fun a d => pos a d + t * v a d) (gVectors A n)
      |A.det| _ ⟨⟨k₀, rfl⟩, fun _ ⟨k, e⟩ => e ▸ hk₀ k⟩
    exact ⟨w, hw⟩
  choose vloc hvloc using hloc
  have hex := fun t : ℝ => groundNC_attained diracLib siliconConfig.xc diracLib_continuous (ns := 2)
    (nk := (idxList kn).length) (nb := 8) (vloc t) (nlPsiAll eigh L.sph
      (fun a : Fin 2 => ncSpecies P bs a) (fun a d => pos a d + t * v a d) (gVectors A n) (flatRows (kVectors A kn)))
    (gVectors A n) (flatRows (kVectors A kn)) |A.det|
    0 siliconConfig.eps (by norm_num [siliconConfig, lithiumConfig]) mask 4 0 false siliconConfig.occupation
    ⟨c, occ, hgr.physical, hgr.given⟩
  choose c' occ' e' h' using hex
  exact ⟨P, n, kn, mask, bs, vloc, _, hn0, by
    rw [abs_pos]
    exact fromAse_det siliconAtoms none H.cell, hbs, hvloc, fun t => ⟨ground_isGLB (h' t), c' t, occ' t, e' t, h' t⟩⟩

end Jrystal
