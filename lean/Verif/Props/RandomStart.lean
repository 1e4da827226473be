import Mathlib.MeasureTheory.Measure.Haar.Disintegration
import Mathlib.LinearAlgebra.Matrix.Charpoly.Coeff
import Mathlib.Topology.Instances.Matrix
import Verif.Spec.RandomStart
import Verif.Props.SpinGradient

/- C132: random starting parameters are usable with probability one. -/
namespace Jrystal
open scoped BigOperators ComplexConjugate Matrix
open MeasureTheory KohnSham

/-- A matrix that depends linearly on parameters is regular for almost every value of them, if it is the unit matrix for
one value. -/
theorem det_ne_zero_ae {V : Type} [NormedAddCommGroup V] [NormedSpace ℝ V] [MeasurableSpace V] [BorelSpace V]
    [FiniteDimensional ℝ V] (μ : Measure V) [μ.IsAddHaarMeasure] {m : ℕ} (T : V →ₗ[ℝ] Matrix (Fin m) (Fin m) ℂ) (e : V)
    (he : T e = 1) : ∀ᵐ w ∂μ, (T w).det ≠ 0 := by
  have hc : Continuous fun w => (T w).det := T.continuous_of_finiteDimensional.matrix_det
  have hs : MeasurableSet {w | (T w).det ≠ 0} := (isOpen_compl_singleton.preimage hc).measurableSet
  have hprop : ProperSpace V := FiniteDimensional.proper_real V
  refine ae_mem_of_ae_add_linearMap_mem (LinearMap.toSpanSingleton ℝ V e) MeasureTheory.volume μ hs fun y => ?_
  have hfin : {t : ℝ | ((-T y).charpoly).IsRoot (t : ℂ)}.Finite :=
    ((Polynomial.finite_setOfPred_isRoot (Matrix.charpoly_monic _).ne_zero)).preimage Complex.ofReal_injective.injOn
  filter_upwards [hfin.countable.ae_notMem MeasureTheory.volume] with t ht h0
  apply ht
  change Polynomial.eval (t : ℂ) (-T y).charpoly = 0
  rw [Matrix.eval_charpoly, ← h0]
  congr 1
  rw [LinearMap.toSpanSingleton_apply, map_add, map_smul, he]
  ext i j
  simp [Matrix.scalar_apply, Matrix.diagonal_apply, Matrix.one_apply]
  split <;> ring

/-- The square block of the first plane waves. -/
private noncomputable def block {ns nk g nb : ℕ} (h : nb ≤ g) (s : Fin ns) (k : Fin nk) :
    (Spec.WaveArray ns nk g nb × Spec.WaveArray ns nk g nb) →ₗ[ℝ] Matrix (Fin nb) (Fin nb) ℂ where
  toFun w := Matrix.of fun i j => ⟨w.1 (s, k, Fin.castLE h i, j), w.2 (s, k, Fin.castLE h i, j)⟩
  map_add' w w' := by ext i j; exact Complex.ext rfl rfl
  map_smul' c w := by ext i j; apply Complex.ext <;> simp

/-- C132: the bands of almost all parameters are independent, if there are not more bands than plane waves. -/
theorem params_independent_ae {ns nk g nb : ℕ} (h : nb ≤ g) :
    ∀ᵐ w : Spec.WaveArray ns nk g nb × Spec.WaveArray ns nk g nb, Spec.Independent (Spec.paramsOf w) := by
  have m0 : (MeasureTheory.volume : Measure (Spec.WaveArray ns nk g nb)).IsAddHaarMeasure :=
    isAddHaarMeasure_volume_pi _
  have m : (MeasureTheory.volume : Measure (Spec.WaveArray ns nk g nb × Spec.WaveArray ns nk g nb)).IsAddHaarMeasure :=
    Measure.prod.instIsAddHaarMeasure _ _
  unfold Spec.Independent
  rw [ae_all_iff]
  intro s
  rw [ae_all_iff]
  intro k
  filter_upwards [det_ne_zero_ae MeasureTheory.volume (block h s k)
    ((fun x => if (x.2.2.1 : ℕ) = x.2.2.2 then 1 else 0), 0) (by
      ext i j
      simp only [block, LinearMap.coe_mk, AddHom.coe_mk, Matrix.of_apply, Matrix.one_apply, Fin.val_castLE, Fin.ext_iff]
      split <;> exact Complex.ext rfl rfl)] with w hw
  have h1 := Matrix.linearIndependent_cols_of_det_ne_zero hw
  exact LinearIndependent.of_comp (LinearMap.funLeft ℂ ℂ (Fin.castLE h)) h1

private theorem uniformArray_eq (ns nk g nb : ℕ) : ∃ S : Set (Spec.WaveArray ns nk g nb),
    Spec.uniformArray ns nk g nb = MeasureTheory.volume.restrict S := by
  unfold Spec.uniformArray
  rw [← Measure.restrict_pi_pi]
  exact ⟨_, rfl⟩

theorem uniformDraw_ac (ns nk g nb : ℕ) : Spec.uniformDraw ns nk g nb ≪ MeasureTheory.volume := by
  obtain ⟨S, hS⟩ := uniformArray_eq ns nk g nb
  unfold Spec.uniformDraw
  rw [hS, Measure.prod_restrict]
  exact Measure.restrict_le_self.absolutelyContinuous

instance uniformDraw_probability (ns nk g nb : ℕ) : IsProbabilityMeasure (Spec.uniformDraw ns nk g nb) := by
  have h : IsProbabilityMeasure ((MeasureTheory.volume : Measure ℝ).restrict (Set.Ico 0 1)) := ⟨by simp⟩
  unfold Spec.uniformDraw Spec.uniformArray
  infer_instance

/-- C132: parameters drawn uniformly and independently from `[0, 1)` have independent bands with probability one exactly
if there are not more bands than plane waves below the cutoff; otherwise no draw has. -/
theorem draw_independent {ns nk g nb : ℕ} :
    (nb ≤ g → ∀ᵐ w ∂Spec.uniformDraw ns nk g nb, Spec.Independent (Spec.paramsOf w)) ∧
    (g < nb → 0 < ns → 0 < nk → ∀ p : PwParams ns nk g nb, ¬ Spec.Independent p) := by
  refine ⟨fun h => (uniformDraw_ac ns nk g nb).ae_le (params_independent_ae h), fun h h1 h2 p hp => ?_⟩
  have := (hp ⟨0, h1⟩ ⟨0, h2⟩).fintype_card_le_finrank
  simp at this
  omega

private theorem both_ae {α β : Type} [MeasureSpace α] [MeasureSpace β] [SFinite (MeasureTheory.volume : Measure α)]
    [SFinite (MeasureTheory.volume : Measure β)] {p : α → Prop} {q : β → Prop} (hp : ∀ᵐ a, p a) (hq : ∀ᵐ b, q b) :
    ∀ᵐ x : α × β, p x.1 ∧ q x.2 := by
  filter_upwards [Measure.quasiMeasurePreserving_fst.ae hp, Measure.quasiMeasurePreserving_snd.ae hq] with x h1 h2
  exact ⟨h1, h2⟩

/-- C132, all-electron driver: at random starting parameters the function that a run minimises has a gradient, with
probability one, for every occupation method and functional; `hX'` asks for a functional derivative at the densities. -/
theorem draw_gradient {na ns nk nb : ℕ} {n : Fin 3 → ℕ} (E : GsEnv na nk n)
    (ht : Spec.Triangular E.qrC) (hm : nb ≤ maskCount E.mask)
    (q : OccParams nk nb) (o : OccArr nk nb ℝ)
    (ho : occupation E.qrR q E.ne E.spin E.method E.restricted = .ok o) (hl : o.length = ns)
    (occ : Occ ns nk (min (maskCount E.mask) nb))
    (hocc : ∀ s k b, occ s k b = o.get (Fin.cast hl.symm s) k (Fin.castLE (min_le_right _ _) b))
    (A : Matrix (Fin 3) (Fin 3) ℝ) (hA : A.det ≠ 0) (hgA : E.g = gVectors A n) (hvol : 0 < E.vol)
    (X : (Fin ns → Idx n → ℝ) → ℝ) (hX : ∀ r, xcEnergy E.lib E.xc false r E.g E.vol = .ok (X r))
    (hX' : ∀ p, ∃ v, Spec.IsDensityGradient E.vol X (densityGrid (pwCoeff E.qrC E.mask p) E.vol occ) v)
    (temp : ℝ) (f : PwParams ns nk (maskCount E.mask) nb → ℝ)
    (hf : ∀ w, (gsFree E temp ⟨w, q⟩).map (fun r => r.1) = .ok (f w)) :
    ∀ᵐ w ∂Spec.uniformDraw ns nk (maskCount E.mask) nb, ∃ G, Spec.IsFullGradient f (Spec.paramsOf w) G := by
  filter_upwards [draw_independent.1 hm] with w hw
  obtain ⟨v, hv⟩ := hX' (Spec.paramsOf w)
  exact (driver_gradient_spin E ht hm q o ho hl occ hocc A hA hgA hvol X hX temp f hf _ hw v hv _
    (fun _ _ => rfl) _ (fun _ _ => rfl)).2.1

/-- C132, all-electron driver with `simplex-projector`: for almost all plane-wave and occupation parameters, the minimised
function has a gradient in both, and it vanishes exactly at self-consistent solutions.  No parameters outside a set of
measure zero are left out. -/
theorem selfConsistent_ae {na ns nk nb : ℕ} {n : Fin 3 → ℕ} (E : GsEnv na nk n) (hk : 0 < nk)
    (ht : Spec.Triangular E.qrC) (hmeth : E.method = "simplex-projector") (hns : ns = if E.restricted then 1 else 2)
    (hm : nb ≤ maskCount E.mask) (heps : 0 < E.eps) (hpar : E.ne % 2 = E.spin % 2) (h0 : |E.spin| < E.ne)
    (hb : E.ne + |E.spin| < 2 * nb) (A : Matrix (Fin 3) (Fin 3) ℝ) (hA : A.det ≠ 0) (hgA : E.g = gVectors A n)
    (hvol : 0 < E.vol) (X : (Fin ns → Idx n → ℝ) → ℝ) (hX : ∀ r, xcEnergy E.lib E.xc false r E.g E.vol = .ok (X r))
    (v : (Fin ns → Idx n → ℝ) → Fin ns → Idx n → ℝ)
    (hv : ∀ p (occ : Occ ns nk (min (maskCount E.mask) nb)), (∀ s k b, 0 ≤ occ s k b) →
      Spec.IsDensityGradient E.vol X (densityGrid (pwCoeff E.qrC E.mask p) E.vol occ)
        (v (densityGrid (pwCoeff E.qrC E.mask p) E.vol occ)))
    (temp : ℝ) (f : PwParams ns nk (maskCount E.mask) nb → (Fin nk → Fin nb → ℝ) × (Fin nk → Fin nb → ℝ) → ℝ)
    (hf : ∀ w P, (gsFree E temp ⟨w, .simplex P.1 P.2⟩).map (fun r => r.1) = .ok (f w P)) :
    ∀ᵐ x : (Spec.WaveArray ns nk (maskCount E.mask) nb × Spec.WaveArray ns nk (maskCount E.mask) nb) ×
        ((Fin nk → Fin nb → ℝ) × (Fin nk → Fin nb → ℝ)),
      ∀ (occ : Occ ns nk (min (maskCount E.mask) nb))
        (ρ : Fin ns → Idx n → ℝ) (U : Fin ns → Idx n → ℝ)
        (F : Fin ns → Fin nk → Matrix (Fin (maskCount E.mask)) (Fin (maskCount E.mask)) ℂ),
      (∀ s k b, occ s k b = Spec.occEntry E.ne E.spin E.restricted s k (Fin.cast (min_eq_right hm) b) x.2) →
      ρ = densityGrid (pwCoeff E.qrC E.mask (Spec.paramsOf x.1)) E.vol occ →
      (∀ s j, U s j = (externalPotential E.pos E.charge E.g E.vol j).re + (hartreeRealSpace ρ E.g true j).re + v ρ s j) →
      (∀ s k, F s k
        = Spec.planeWaveHamiltonian (fun a => E.g (maskPos E.mask a)) (rVectors A n) (U s) (E.kpts k)) →
      gsDensity E ⟨Spec.paramsOf x.1, .simplex x.2.1 x.2.2⟩ = .ok ⟨ns, ρ⟩ ∧
      ∃ G K, Spec.IsFullGradient (fun w => f w x.2) (Spec.paramsOf x.1) G ∧
        Spec.IsOccGradient (f (Spec.paramsOf x.1)) x.2 K ∧
        (Spec.Vanishes G ∧ K = 0 ↔
          (Spec.KohnShamBands F occ fun s k b y => pwCoeff E.qrC E.mask (Spec.paramsOf x.1) s k b (maskPos E.mask y)) ∧
          ∃ μ, Spec.ChannelLevels E.ne E.spin E.restricted x.2 temp E.eps ((3 - (ns : ℝ)) / nk)
            (fun s k b => Spec.bandEnergy (F s k) fun y =>
              pwCoeff E.qrC E.mask (Spec.paramsOf x.1) s k (Fin.cast (min_eq_right hm).symm b) (maskPos E.mask y))
            (fun s k b => Spec.occEntry E.ne E.spin E.restricted s k b x.2) μ) := by
  filter_upwards [both_ae (params_independent_ae (ns := ns) (nk := nk) hm)
    (simplexProjector_differentiable_ae hk E.ne E.spin hpar h0 hb E.restricted)] with x hx occ ρ U F hocc hρ hU hF
  subst hρ
  have hn : ∀ s k b, 0 ≤ occ s k b := fun s k b => by
    rw [hocc]
    exact (rows_bounds hk E.ne E.spin hpar h0 hb E.restricted hns x.2 s k _).1
  obtain ⟨h1, ⟨G, hG⟩, ⟨K, hK⟩, h2⟩ := driver_selfConsistent_spin_partial E hk ht hmeth hns hm heps hpar h0 hb A hA
    hgA hvol X hX temp f hf (Spec.paramsOf x.1) hx.1 x.2 hx.2 occ hocc _ (hv _ occ hn) U hU F hF
  exact ⟨h1, G, K, hG, hK, h2 G K hG hK⟩

/-- C132, norm-conserving driver: at random starting parameters the function that a run minimises has a gradient, with
probability one, for every occupation method and functional; `hX'` asks for a functional derivative at the densities. -/
theorem draw_gradientNC {na M ns nk nb : ℕ} {ι : Type} [Fintype ι] {n : Fin 3 → ℕ} (E : GsEnv na nk n)
    (vloc : Idx n → ℂ) (psi : Fin nk → ι → Fin M → Idx n → ℂ)
    (ht : Spec.Triangular E.qrC) (hm : nb ≤ maskCount E.mask)
    (q : OccParams nk nb) (o : OccArr nk nb ℝ)
    (ho : occupation E.qrR q E.ne E.spin E.method E.restricted = .ok o) (hl : o.length = ns)
    (occ : Occ ns nk (min (maskCount E.mask) nb))
    (hocc : ∀ s k b, occ s k b = o.get (Fin.cast hl.symm s) k (Fin.castLE (min_le_right _ _) b))
    (A : Matrix (Fin 3) (Fin 3) ℝ) (hA : A.det ≠ 0) (hgA : E.g = gVectors A n) (hvol : 0 < E.vol)
    (X : (Fin ns → Idx n → ℝ) → ℝ) (hX : ∀ r, xcEnergy E.lib E.xc false r E.g E.vol = .ok (X r))
    (hX' : ∀ p, ∃ v, Spec.IsDensityGradient E.vol X (densityGrid (pwCoeff E.qrC E.mask p) E.vol occ) v)
    (temp : ℝ) (f : PwParams ns nk (maskCount E.mask) nb → ℝ)
    (hf : ∀ w, (gsFreeNC E vloc psi temp ⟨w, q⟩).map (fun r => r.1) = .ok (f w)) :
    ∀ᵐ w ∂Spec.uniformDraw ns nk (maskCount E.mask) nb, ∃ G, Spec.IsFullGradient f (Spec.paramsOf w) G := by
  filter_upwards [draw_independent.1 hm] with w hw
  obtain ⟨v, hv⟩ := hX' (Spec.paramsOf w)
  exact (driverNC_gradient_spin E vloc psi ht hm q o ho hl occ hocc A hA hgA hvol X hX temp f hf _ hw v hv _
    (fun _ _ => rfl) _ (fun _ _ => rfl)).2.1

/-- C132, norm-conserving driver with `simplex-projector`: for almost all plane-wave and occupation parameters, the minimised
function has a gradient in both, and it vanishes exactly at self-consistent solutions.  No parameters outside a set of
measure zero are left out. -/
theorem selfConsistentNC_ae {na M ns nk nb : ℕ} {ι : Type} [Fintype ι] {n : Fin 3 → ℕ} (E : GsEnv na nk n)
    (vloc : Idx n → ℂ) (psi : Fin nk → ι → Fin M → Idx n → ℂ) (hk : 0 < nk)
    (ht : Spec.Triangular E.qrC) (hmeth : E.method = "simplex-projector") (hns : ns = if E.restricted then 1 else 2)
    (hm : nb ≤ maskCount E.mask) (heps : 0 < E.eps) (hpar : E.ne % 2 = E.spin % 2) (h0 : |E.spin| < E.ne)
    (hb : E.ne + |E.spin| < 2 * nb) (A : Matrix (Fin 3) (Fin 3) ℝ) (hA : A.det ≠ 0) (hgA : E.g = gVectors A n)
    (hvol : 0 < E.vol) (X : (Fin ns → Idx n → ℝ) → ℝ) (hX : ∀ r, xcEnergy E.lib E.xc false r E.g E.vol = .ok (X r))
    (v : (Fin ns → Idx n → ℝ) → Fin ns → Idx n → ℝ)
    (hv : ∀ p (occ : Occ ns nk (min (maskCount E.mask) nb)), (∀ s k b, 0 ≤ occ s k b) →
      Spec.IsDensityGradient E.vol X (densityGrid (pwCoeff E.qrC E.mask p) E.vol occ)
        (v (densityGrid (pwCoeff E.qrC E.mask p) E.vol occ)))
    (temp : ℝ) (f : PwParams ns nk (maskCount E.mask) nb → (Fin nk → Fin nb → ℝ) × (Fin nk → Fin nb → ℝ) → ℝ)
    (hf : ∀ w P, (gsFreeNC E vloc psi temp ⟨w, .simplex P.1 P.2⟩).map (fun r => r.1) = .ok (f w P)) :
    ∀ᵐ x : (Spec.WaveArray ns nk (maskCount E.mask) nb × Spec.WaveArray ns nk (maskCount E.mask) nb) ×
        ((Fin nk → Fin nb → ℝ) × (Fin nk → Fin nb → ℝ)),
      ∀ (occ : Occ ns nk (min (maskCount E.mask) nb))
        (ρ : Fin ns → Idx n → ℝ) (U : Fin ns → Idx n → ℝ)
        (F : Fin ns → Fin nk → Matrix (Fin (maskCount E.mask)) (Fin (maskCount E.mask)) ℂ),
      (∀ s k b, occ s k b = Spec.occEntry E.ne E.spin E.restricted s k (Fin.cast (min_eq_right hm) b) x.2) →
      ρ = densityGrid (pwCoeff E.qrC E.mask (Spec.paramsOf x.1)) E.vol occ →
      (∀ s j, U s j = (ifftn vloc j).re + (hartreeRealSpace ρ E.g true j).re + v ρ s j) →
      (∀ s k, F s k
        = Spec.planeWaveHamiltonian (fun a => E.g (maskPos E.mask a)) (rVectors A n) (U s) (E.kpts k)
      + Spec.projectorMatrix E.vol (fun (i : ι × Fin M) a => psi k i.1 i.2 (maskPos E.mask a))) →
      gsDensity E ⟨Spec.paramsOf x.1, .simplex x.2.1 x.2.2⟩ = .ok ⟨ns, ρ⟩ ∧
      ∃ G K, Spec.IsFullGradient (fun w => f w x.2) (Spec.paramsOf x.1) G ∧
        Spec.IsOccGradient (f (Spec.paramsOf x.1)) x.2 K ∧
        (Spec.Vanishes G ∧ K = 0 ↔
          (Spec.KohnShamBands F occ fun s k b y => pwCoeff E.qrC E.mask (Spec.paramsOf x.1) s k b (maskPos E.mask y)) ∧
          ∃ μ, Spec.ChannelLevels E.ne E.spin E.restricted x.2 temp E.eps ((3 - (ns : ℝ)) / nk)
            (fun s k b => Spec.bandEnergy (F s k) fun y =>
              pwCoeff E.qrC E.mask (Spec.paramsOf x.1) s k (Fin.cast (min_eq_right hm).symm b) (maskPos E.mask y))
            (fun s k b => Spec.occEntry E.ne E.spin E.restricted s k b x.2) μ) := by
  filter_upwards [both_ae (params_independent_ae (ns := ns) (nk := nk) hm)
    (simplexProjector_differentiable_ae hk E.ne E.spin hpar h0 hb E.restricted)] with x hx occ ρ U F hocc hρ hU hF
  subst hρ
  have hn : ∀ s k b, 0 ≤ occ s k b := fun s k b => by
    rw [hocc]
    exact (rows_bounds hk E.ne E.spin hpar h0 hb E.restricted hns x.2 s k _).1
  obtain ⟨h1, ⟨G, hG⟩, ⟨K, hK⟩, h2⟩ := driverNC_selfConsistent_spin_partial E vloc psi hk ht hmeth hns hm heps hpar h0 hb A hA
    hgA hvol X hX temp f hf (Spec.paramsOf x.1) hx.1 x.2 hx.2 occ hocc _ (hv _ occ hn) U hU F hF
  exact ⟨h1, G, K, hG, hK, h2 G K hG hK⟩

/-- The hypotheses of the theorems above are met: two plane waves and two bands in each of two spin channels, smearing,
a GGA functional; for valence electrons one projector.  The draws are a probability space, so there are draws with
independent bands. -/
example : ∃ (X : (Fin 2 → Idx ![2, 1, 1] → ℝ) → ℝ) (v : (Fin 2 → Idx ![2, 1, 1] → ℝ) → Fin 2 → Idx ![2, 1, 1] → ℝ)
    (f f' : PwParams 2 1 (maskCount spinTwoWaves.mask) 2 → (Fin 1 → Fin 2 → ℝ) × (Fin 1 → Fin 2 → ℝ) → ℝ),
    Spec.Triangular spinTwoWaves.qrC ∧ spinTwoWaves.method = "simplex-projector" ∧
    2 = (if spinTwoWaves.restricted then 1 else 2) ∧ 2 ≤ maskCount spinTwoWaves.mask ∧
    0 < spinTwoWaves.eps ∧ spinTwoWaves.ne % 2 = spinTwoWaves.spin % 2 ∧
    |spinTwoWaves.spin| < spinTwoWaves.ne ∧ spinTwoWaves.ne + |spinTwoWaves.spin| < 2 * ((2 : ℕ) : ℤ) ∧
    (1 : Matrix (Fin 3) (Fin 3) ℝ).det ≠ 0 ∧ spinTwoWaves.g = gVectors 1 ![2, 1, 1] ∧ 0 < spinTwoWaves.vol ∧
    (∀ r, xcEnergy spinTwoWaves.lib spinTwoWaves.xc false r spinTwoWaves.g spinTwoWaves.vol = .ok (X r)) ∧
    (∀ (p : PwParams 2 1 (maskCount spinTwoWaves.mask) 2) (occ : Occ 2 1 (min (maskCount spinTwoWaves.mask) 2)),
      Spec.IsDensityGradient spinTwoWaves.vol X
        (densityGrid (pwCoeff spinTwoWaves.qrC spinTwoWaves.mask p) spinTwoWaves.vol occ)
        (v (densityGrid (pwCoeff spinTwoWaves.qrC spinTwoWaves.mask p) spinTwoWaves.vol occ))) ∧
    (∀ w P, (gsFree spinTwoWaves 1 ⟨w, .simplex P.1 P.2⟩).map (fun r => r.1) = .ok (f w P)) ∧
    (∀ w P, (gsFreeNC spinTwoWaves (fun _ => 1) (fun _ (_ : Fin 1) (_ : Fin 1) _ => 1) 1
      ⟨w, .simplex P.1 P.2⟩).map (fun r => r.1) = .ok (f' w P)) ∧
    ∃ w, Spec.Independent (Spec.paramsOf (ns := 2) (nk := 1) (g := maskCount spinTwoWaves.mask) (nb := 2) w) := by
  have hm : 2 ≤ maskCount spinTwoWaves.mask := (by decide : 2 ≤ maskCount (n := ![2, 1, 1]) fun _ => true)
  have hX : ∀ r : Fin 2 → Idx ![2, 1, 1] → ℝ, xcEnergy spinTwoWaves.lib spinTwoWaves.xc false r spinTwoWaves.g
    spinTwoWaves.vol = .ok _ := fun r => xcEnergy_value _ _ _ _ _
  have h2 : splitPlus "gga_c" = ["gga_c"] := by decide +kernel
  have h4 : isExchange "gga_c" = false := by decide +kernel
  refine ⟨_, fun ρ => Classical.epsilon (Spec.IsDensityGradient spinTwoWaves.vol _ ρ), _, _, gramSchmidtQR_triangular ℂ,
    rfl, rfl, hm,
    by norm_num [spinTwoWaves, trainedTwoWaves], rfl,
    by norm_num [spinTwoWaves, trainedTwoWaves], by norm_num [spinTwoWaves, trainedTwoWaves], by simp, rfl,
    by norm_num [spinTwoWaves, trainedTwoWaves], hX, fun p occ => Classical.epsilon_spec ?_,
    fun w P => free_rows spinTwoWaves rfl rfl hm _ hX 1 w P,
    fun w P => freeNC_rows spinTwoWaves _ _ rfl rfl hm _ hX 1 w P, (draw_independent.1 hm).exists⟩
  refine ⟨_, xcEnergy_derivative_gga2 spinTwoWaves.lib spinTwoWaves.xc (by decide +kernel) spinTwoWaves.g spinTwoWaves.vol _
    hX _ _ (fun x => rfl) _ (fun j => rfl) (fun j => ?_) _ (fun i j => rfl)⟩
  simp only [excGga2, spinTwoWaves, h2, List.map_cons, List.map_nil, List.sum_cons, List.sum_nil, ggaPoint2, h4,
    Bool.false_eq_true, if_false]
  fun_prop

end Jrystal
