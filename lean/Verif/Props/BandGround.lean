import Verif.Lemmas.RitzGround
import Verif.Props.BandDescent

/- C137: gradient descent finds the lowest band energy from any start that is not orthogonal to the lowest state. -/
namespace Jrystal
open scoped BigOperators ComplexConjugate Topology
open Matrix

private theorem entry_pos {I J : Type*} [Fintype I] [Fintype J] (A : Matrix I J ℂ) {i : I} {j : J} (h : A i j ≠ 0) :
    0 < RitzDescent.fs A := by
  unfold RitzDescent.fs matSize
  rw [Real.sq_sqrt (Finset.sum_nonneg fun i _ => Finset.sum_nonneg fun j _ => sq_nonneg _)]
  refine lt_of_lt_of_le (pow_pos (norm_pos_iff.2 h) 2) ?_
  refine (Finset.single_le_sum (f := fun j => ‖A i j‖ ^ 2) (fun j _ => sq_nonneg _) (Finset.mem_univ j)).trans ?_
  exact Finset.single_le_sum (f := fun i => ∑ j, ‖A i j‖ ^ 2) (fun i _ => Finset.sum_nonneg fun j _ => sq_nonneg _)
    (Finset.mem_univ i)

private theorem ground_core {ns g nb : ℕ} {qr : QR ℂ} (htri : Spec.Triangular qr) (hnb0 : 0 < nb) (hnb : nb ≤ g)
    {F : Matrix (Fin g) (Fin g) ℂ} {lam : Fin g → ℝ} (hl : Spec.IsSpectrum F lam) {a c : ℝ} (ha : 0 < a) (η : ℕ → ℝ)
    (hη : ∀ i, a ≤ η i ∧ η i ≤ c) (p G : ℕ → PwParams ns 1 g nb) (hp : Spec.Independent (p 0))
    (hG : ∀ i, (∃ D, Spec.IsParamGradient (spinTrace qr F) (p i) D) → Spec.IsParamGradient (spinTrace qr F) (p i) (G i))
    (hstep : ∀ i, p (i + 1) = Spec.descend (p i) (G i) (η i)) (s : Fin ns) (u : Fin g → ℂ)
    (hu : F *ᵥ u = (lam ⟨0, by omega⟩ : ℂ) • u) (hov : ∃ b, ∑ a, conj (u a) * Spec.bandMatrix (p 0) s 0 a b ≠ 0)
    (e : ℕ → Fin (min g nb) → ℝ)
    (he : ∀ i, Spec.IsSpectrum ((Matrix.of (unitaryMatrix qr (p i) s 0))ᴴ * F * Matrix.of (unitaryMatrix qr (p i) s 0)) (e i)) :
    Filter.Tendsto (fun i => e i ⟨0, by omega⟩) Filter.atTop (𝓝 (lam ⟨0, by omega⟩)) ∧ (∀ i, lam ⟨0, by omega⟩ ≤ e i ⟨0, by omega⟩)
      ∧ ∃ D, ∀ T, ∑ i ∈ Finset.range T, (e i ⟨0, by omega⟩ - lam ⟨0, by omega⟩) ≤ D := by
  obtain ⟨hind, -⟩ := descent_core htri hnb hl ha η hη p G hp hG hstep
  have hrun : ∀ i, Spec.bandMatrix (p (i + 1)) s 0 = Spec.bandMatrix (p i) s 0
      - (η i : ℂ) • ritzGrad F (Spec.bandMatrix (p i) s 0) := fun i => by
    obtain ⟨D, h1, h2⟩ := spinTrace_gradient htri hnb (spectrum_hermitian hl) (p i) (hind i).1
    rw [hstep, Descent.descend_band, gradient_unique (hind i).2 h1, h2 s]
  obtain ⟨B, hB⟩ := (RitzDescent.ritz_descent hl (fun i => Spec.bandMatrix (p i) s 0) (gram_unit (hp s 0)) ha hη hrun).2.2.1
  have hfs : ∀ i, RitzDescent.fs (Spec.bandMatrix (p i) s 0) ≤ B ^ 2 + 1 := fun i => by
    have := pow_le_pow_left₀ (matSize_nonneg (Spec.bandMatrix (p i) s 0)) (hB i) 2
    unfold RitzDescent.fs
    linarith
  have hB0 : 0 < B ^ 2 + 1 := by positivity
  set U : Matrix (Fin g) (Fin 1) ℂ := Matrix.of fun a _ => u a with hUdef
  have hU : F * U = ((lam ⟨0, by omega⟩ : ℝ) : ℂ) • U := by
    ext a j
    exact congrFun hu a
  have h0 : 0 < RitzDescent.fs ((Spec.bandMatrix (p 0) s 0)ᴴ * U) := by
    obtain ⟨b, hb⟩ := hov
    refine entry_pos _ (i := b) (j := 0) fun hz => hb ?_
    have := congrArg conj hz
    rw [Matrix.mul_apply, map_sum, map_zero] at this
    rw [← this]
    refine Finset.sum_congr rfl fun a _ => ?_
    rw [map_mul, Matrix.conjTranspose_apply, RCLike.star_def, Complex.conj_conj, mul_comm]
    rfl
  have hlow : ∀ i, lam ⟨0, by omega⟩ ≤ e i ⟨0, by omega⟩ := fun i =>
    spectrum_separation (min_le_left _ _) hl (qr.orth _) (he i) ⟨0, by omega⟩
  obtain ⟨D, hD⟩ := RitzDescent.ground_sum (n := fun i => RitzDescent.fs ((Spec.bandMatrix (p i) s 0)ᴴ * U))
    (x := fun i => e i ⟨0, by omega⟩) (η := η) (l := lam ⟨0, by omega⟩) (C := (B ^ 2 + 1) * RitzDescent.fs U) ha hB0 h0
    (fun i => (hη i).1)
    hlow
    (fun i => by
      obtain ⟨R, hR⟩ := qr_factor htri (p i) s
      exact RitzDescent.ground_step (spectrum_hermitian hl) (gram_unit ((hind i).1 s 0)) (ha.le.trans (hη i).1) (hrun i) hU
        (Q := Matrix.of (unitaryMatrix qr (p i) s 0)) (qr.orth _) hR (he i) (fun j => (he i).1 (Fin.le_def.2 (Nat.zero_le _)))
        (hlow i) hB0 (hfs i))
    (fun i => by
      refine (RitzDescent.fs_mul _ _).trans ?_
      rw [RitzDescent.fs_star]
      exact mul_le_mul_of_nonneg_right (hfs i) (RitzDescent.fs_nonneg U))
  exact ⟨RitzDescent.ground_limit hlow hD, hlow, D, hD⟩

/-- The lowest eigenvector. -/
private theorem lowest_vector {g : ℕ} (hg : 0 < g) {F : Matrix (Fin g) (Fin g) ℂ} {lam : Fin g → ℝ}
    (hl : Spec.IsSpectrum F lam) : ∃ u : Fin g → ℂ, u ≠ 0 ∧ F *ᵥ u = (lam ⟨0, hg⟩ : ℂ) • u := by
  obtain ⟨-, V, hV, rfl⟩ := hl
  have hV2 : Vᴴ * V = 1 := Matrix.mem_unitaryGroup_iff'.1 hV
  refine ⟨fun a => V a ⟨0, hg⟩, fun h0 => ?_, ?_⟩
  · have h1 := congrFun (congrFun hV2 ⟨0, hg⟩) ⟨0, hg⟩
    rw [Matrix.mul_apply, Matrix.one_apply_eq, Finset.sum_eq_zero fun a _ => by rw [congrFun h0 a, Pi.zero_apply, mul_zero]] at h1
    exact zero_ne_one h1
  · have h1 : V * Matrix.diagonal (fun i => (lam i : ℂ)) * Vᴴ * V = V * Matrix.diagonal fun i => (lam i : ℂ) := by
      rw [Matrix.mul_assoc, hV2, Matrix.mul_one]
    funext a
    have h2 := congrFun (congrFun h1 a) ⟨0, hg⟩
    rw [Matrix.mul_diagonal] at h2
    rw [Pi.smul_apply, smul_eq_mul, mul_comm, ← h2]
    rfl

private noncomputable def overlap {ns nk g nb : ℕ} (u : Fin g → ℂ) (s : Fin ns) (k : Fin nk) (b : Fin nb) :
    (Spec.WaveArray ns nk g nb × Spec.WaveArray ns nk g nb) →ₗ[ℝ] Matrix (Fin 1) (Fin 1) ℂ where
  toFun w := Matrix.of fun _ _ => ∑ a, conj (u a) * (⟨w.1 (s, k, a, b), w.2 (s, k, a, b)⟩ : ℂ)
  map_add' w w' := by
    ext i j
    simp only [Matrix.of_apply, Matrix.add_apply, ← Finset.sum_add_distrib, ← mul_add]
    rfl
  map_smul' c w := by
    ext i j
    simp only [Matrix.of_apply, Matrix.smul_apply, Finset.smul_sum, RingHom.id_apply]
    refine Finset.sum_congr rfl fun a _ => ?_
    rw [← mul_smul_comm]
    congr 1
    apply Complex.ext <;> simp

/-- Random starting parameters have an overlap with any given state with probability one. -/
theorem draw_overlap {ns nk g nb : ℕ} (hnb : 0 < nb) (u : Fin g → ℂ) (hu : u ≠ 0) :
    ∀ᵐ w ∂Spec.uniformDraw ns nk g nb, ∀ s k, ∃ b, ∑ a, conj (u a) * Spec.bandMatrix (Spec.paramsOf w) s k a b ≠ 0 := by
  have key : ∀ᵐ w : Spec.WaveArray ns nk g nb × Spec.WaveArray ns nk g nb,
      ∀ s k, ∃ b, ∑ a, conj (u a) * Spec.bandMatrix (Spec.paramsOf w) s k a b ≠ 0 := by
    have m0 : (MeasureTheory.volume : MeasureTheory.Measure (Spec.WaveArray ns nk g nb)).IsAddHaarMeasure :=
      MeasureTheory.isAddHaarMeasure_volume_pi _
    have m : (MeasureTheory.volume :
        MeasureTheory.Measure (Spec.WaveArray ns nk g nb × Spec.WaveArray ns nk g nb)).IsAddHaarMeasure :=
      MeasureTheory.Measure.prod.instIsAddHaarMeasure _ _
    obtain ⟨a0, ha0⟩ := Function.ne_iff.1 hu
    have ha0 : conj (u a0) ≠ 0 := (map_ne_zero _).2 ha0
    rw [MeasureTheory.ae_all_iff]
    intro s
    rw [MeasureTheory.ae_all_iff]
    intro k
    filter_upwards [det_ne_zero_ae MeasureTheory.volume (overlap u s k ⟨0, hnb⟩)
      ((fun x => if x.2.2.1 = a0 then (conj (u a0))⁻¹.re else 0), fun x => if x.2.2.1 = a0 then (conj (u a0))⁻¹.im else 0) (by
        ext i j
        rw [Subsingleton.elim j i, Matrix.one_apply_eq]
        simp only [overlap, LinearMap.coe_mk, AddHom.coe_mk, Matrix.of_apply]
        rw [Finset.sum_eq_single a0 (fun a _ ha => ?_) (fun h => absurd (Finset.mem_univ _) h)]
        · rw [if_pos rfl, if_pos rfl]
          exact mul_inv_cancel₀ ha0
        · rw [if_neg ha, if_neg ha]
          exact mul_zero _)] with w hw
    refine ⟨⟨0, hnb⟩, fun h0 => hw ?_⟩
    rw [Matrix.det_fin_one]
    exact h0
  exact (uniformDraw_ac ns nk g nb).ae_le key

/-- C137, all-electron driver: gradient descent at a k point, with step sizes between any two positive bounds and from
independent bands.  If some band is not orthogonal to a state of lowest energy, the lowest reported energy converges to
the lowest exact eigenvalue from above, and its errors have a bounded sum: the best of `T` steps is within `D / T`. -/
theorem band_descent_ground {na ns nb : ℕ} {n : Fin 3 → ℕ} (E : BandEnv na 1 n) (htri : Spec.Triangular E.qr)
    (hnb0 : 0 < nb) (hnb : nb ≤ maskCount E.mask)
    (A : Matrix (Fin 3) (Fin 3) ℝ) (hA : A.det ≠ 0) (hg : E.g = gVectors A n) (hvol : 0 < E.vol)
    (V : Idx n → ℝ)
    (hV : ∀ x, V x = (hartreeRealSpace E.dens E.g true x + externalPotential E.pos E.charge E.g E.vol x
      + vxcDensity E.lib E.xc E.g E.dens 0 x).re)
    (k : Fin 3 → ℝ) (lam : Fin (maskCount E.mask) → ℝ)
    (hl : Spec.IsSpectrum (Spec.planeWaveHamiltonian (fun a => gVectors A n (maskPos E.mask a))
      (rVectors A n) V k) lam)
    (t : PwParams ns 1 (maskCount E.mask) nb → ℝ) (ht : ∀ q, bandTrace E q k = .ok (t q))
    (a c : ℝ) (ha : 0 < a)
    (η : ℕ → ℝ) (hη : ∀ i, a ≤ η i ∧ η i ≤ c) (p G : ℕ → PwParams ns 1 (maskCount E.mask) nb)
    (hp : Spec.Independent (p 0))
    (hG : ∀ i, (∃ D, Spec.IsParamGradient t (p i) D) → Spec.IsParamGradient t (p i) (G i))
    (hstep : ∀ i, p (i + 1) = Spec.descend (p i) (G i) (η i))
    (s : Fin ns) (u : Fin (maskCount E.mask) → ℂ)
    (hu : Spec.planeWaveHamiltonian (fun a => gVectors A n (maskPos E.mask a)) (rVectors A n) V k *ᵥ u
      = (lam ⟨0, by omega⟩ : ℂ) • u)
    (hov : ∃ b, ∑ a, conj (u a) * Spec.bandMatrix (p 0) s 0 a b ≠ 0) :
    ∃ e : ℕ → Fin (min (maskCount E.mask) nb) → ℝ, (∀ i, bandEig E (p i) k s = .ok (e i)) ∧
      Filter.Tendsto (fun i => e i ⟨0, by omega⟩) Filter.atTop (𝓝 (lam ⟨0, by omega⟩)) ∧
      (∀ i, lam ⟨0, by omega⟩ ≤ e i ⟨0, by omega⟩) ∧
      ∃ D, ∀ T, ∑ i ∈ Finset.range T, (e i ⟨0, by omega⟩ - lam ⟨0, by omega⟩) ≤ D := by
  rw [bandTrace_spin E A hA hg hvol V hV k t ht] at hG
  have hb := basis_planeWave E A hA hg hvol (fun _ => V) (fun σ x => by
    rw [hV, Subsingleton.elim σ 0]) k
  rw [Fin.sum_univ_one] at hb
  choose e g1 g2 g3 using fun i => bandEig_spectrum E (p i) k _ hb s
  exact ⟨e, g1, ground_core htri hnb0 hnb hl ha η hη p G hp hG hstep s u hu hov e g3⟩

/-- C137, all-electron driver: from random starting parameters this happens with probability one, for all step sizes. -/
theorem band_descent_ground_random {na ns nb : ℕ} {n : Fin 3 → ℕ} (E : BandEnv na 1 n) (htri : Spec.Triangular E.qr)
    (hnb0 : 0 < nb) (hnb : nb ≤ maskCount E.mask)
    (A : Matrix (Fin 3) (Fin 3) ℝ) (hA : A.det ≠ 0) (hg : E.g = gVectors A n) (hvol : 0 < E.vol)
    (V : Idx n → ℝ)
    (hV : ∀ x, V x = (hartreeRealSpace E.dens E.g true x + externalPotential E.pos E.charge E.g E.vol x
      + vxcDensity E.lib E.xc E.g E.dens 0 x).re)
    (k : Fin 3 → ℝ) (lam : Fin (maskCount E.mask) → ℝ)
    (hl : Spec.IsSpectrum (Spec.planeWaveHamiltonian (fun a => gVectors A n (maskPos E.mask a))
      (rVectors A n) V k) lam)
    (t : PwParams ns 1 (maskCount E.mask) nb → ℝ) (ht : ∀ q, bandTrace E q k = .ok (t q)) :
    ∀ᵐ w ∂Spec.uniformDraw ns 1 (maskCount E.mask) nb, ∀ (a c : ℝ) (η : ℕ → ℝ), 0 < a → (∀ i, a ≤ η i ∧ η i ≤ c) →
      ∀ p G : ℕ → PwParams ns 1 (maskCount E.mask) nb, p 0 = Spec.paramsOf w →
      (∀ i, (∃ D, Spec.IsParamGradient t (p i) D) → Spec.IsParamGradient t (p i) (G i)) →
      (∀ i, p (i + 1) = Spec.descend (p i) (G i) (η i)) →
      ∀ s, ∃ e : ℕ → Fin (min (maskCount E.mask) nb) → ℝ, (∀ i, bandEig E (p i) k s = .ok (e i)) ∧
      Filter.Tendsto (fun i => e i ⟨0, by omega⟩) Filter.atTop (𝓝 (lam ⟨0, by omega⟩)) ∧
      (∀ i, lam ⟨0, by omega⟩ ≤ e i ⟨0, by omega⟩) ∧
      ∃ D, ∀ T, ∑ i ∈ Finset.range T, (e i ⟨0, by omega⟩ - lam ⟨0, by omega⟩) ≤ D := by
  obtain ⟨u, hu0, hu⟩ := lowest_vector (by omega) hl
  filter_upwards [draw_independent.1 hnb, draw_overlap (ns := ns) (nk := 1) hnb0 u hu0] with w h1 h2 a c η ha hη p G h0 hG hstep s
  exact band_descent_ground E htri hnb0 hnb A hA hg hvol V hV k lam hl t ht a c ha η hη p G (by rw [h0]; exact h1) hG hstep s u
    hu (by rw [h0]; exact h2 s 0)

/-- C137, norm-conserving driver: gradient descent at a k point, with step sizes between any two positive bounds and from
independent bands.  If some band is not orthogonal to a state of lowest energy, the lowest reported energy converges to
the lowest exact eigenvalue from above, and its errors have a bounded sum: the best of `T` steps is within `D / T`. -/
theorem band_descent_groundNC {M nb : ℕ} {ι β : Type} [Fintype ι] {n : Fin 3 → ℕ} (hn : ∀ i, 0 < n i)
    (E : BandEnvNC 1 M ι β n) (htri : Spec.Triangular E.qr) (hnb0 : 0 < nb) (hnb : nb ≤ maskCount E.mask)
    (A : Matrix (Fin 3) (Fin 3) ℝ) (hA : A.det ≠ 0) (hg : E.g = gVectors A n) (hvol : 0 < E.vol)
    (V : Idx n → ℝ)
    (hV : ∀ x, V x = (ifftn E.vloc x + hartreeRealSpace E.dens E.g true x
      + vxcDensity E.lib E.xc E.g E.dens 0 x).re)
    (k : (Fin 3 → ℝ) × β) (lam : Fin (maskCount E.mask) → ℝ)
    (hl : Spec.IsSpectrum (Spec.planeWaveHamiltonian (fun a => gVectors A n (maskPos E.mask a))
        (rVectors A n) V k.1 + Spec.projectorMatrix E.vol
          (fun (i : ι × Fin M) a => E.psi k i.1 i.2 (maskPos E.mask a))) lam)
    (t : PwParams 1 1 (maskCount E.mask) nb → ℝ) (ht : ∀ q, bandTraceNC E q k = .ok (t q))
    (a c : ℝ) (ha : 0 < a)
    (η : ℕ → ℝ) (hη : ∀ i, a ≤ η i ∧ η i ≤ c) (p G : ℕ → PwParams 1 1 (maskCount E.mask) nb)
    (hp : Spec.Independent (p 0))
    (hG : ∀ i, (∃ D, Spec.IsParamGradient t (p i) D) → Spec.IsParamGradient t (p i) (G i))
    (hstep : ∀ i, p (i + 1) = Spec.descend (p i) (G i) (η i))
    (u : Fin (maskCount E.mask) → ℂ)
    (hu : (Spec.planeWaveHamiltonian (fun a => gVectors A n (maskPos E.mask a)) (rVectors A n) V k.1
      + Spec.projectorMatrix E.vol (fun (i : ι × Fin M) a => E.psi k i.1 i.2 (maskPos E.mask a))) *ᵥ u
      = (lam ⟨0, by omega⟩ : ℂ) • u)
    (hov : ∃ b, ∑ a, conj (u a) * Spec.bandMatrix (p 0) 0 0 a b ≠ 0) :
    ∃ e : ℕ → Fin (min (maskCount E.mask) nb) → ℝ, (∀ i, bandEigNC E (p i) k = .ok ⟨1, fun _ => e i⟩) ∧
      Filter.Tendsto (fun i => e i ⟨0, by omega⟩) Filter.atTop (𝓝 (lam ⟨0, by omega⟩)) ∧
      (∀ i, lam ⟨0, by omega⟩ ≤ e i ⟨0, by omega⟩) ∧
      ∃ D, ∀ T, ∑ i ∈ Finset.range T, (e i ⟨0, by omega⟩ - lam ⟨0, by omega⟩) ≤ D := by
  rw [bandTraceNC_spin hn E A hA hg hvol V hV k t ht] at hG
  choose e g0 g1 g3 using fun i => bandEigNC_eq E A hA hg hvol V hV (p i) k
  exact ⟨e, g1, ground_core htri hnb0 hnb hl ha η hη p G hp hG hstep 0 u hu hov e g3⟩

/-- C137, norm-conserving driver: from random starting parameters this happens with probability one, for all step sizes. -/
theorem band_descent_ground_randomNC {M nb : ℕ} {ι β : Type} [Fintype ι] {n : Fin 3 → ℕ} (hn : ∀ i, 0 < n i)
    (E : BandEnvNC 1 M ι β n) (htri : Spec.Triangular E.qr) (hnb0 : 0 < nb) (hnb : nb ≤ maskCount E.mask)
    (A : Matrix (Fin 3) (Fin 3) ℝ) (hA : A.det ≠ 0) (hg : E.g = gVectors A n) (hvol : 0 < E.vol)
    (V : Idx n → ℝ)
    (hV : ∀ x, V x = (ifftn E.vloc x + hartreeRealSpace E.dens E.g true x
      + vxcDensity E.lib E.xc E.g E.dens 0 x).re)
    (k : (Fin 3 → ℝ) × β) (lam : Fin (maskCount E.mask) → ℝ)
    (hl : Spec.IsSpectrum (Spec.planeWaveHamiltonian (fun a => gVectors A n (maskPos E.mask a))
        (rVectors A n) V k.1 + Spec.projectorMatrix E.vol
          (fun (i : ι × Fin M) a => E.psi k i.1 i.2 (maskPos E.mask a))) lam)
    (t : PwParams 1 1 (maskCount E.mask) nb → ℝ) (ht : ∀ q, bandTraceNC E q k = .ok (t q)) :
    ∀ᵐ w ∂Spec.uniformDraw 1 1 (maskCount E.mask) nb, ∀ (a c : ℝ) (η : ℕ → ℝ), 0 < a → (∀ i, a ≤ η i ∧ η i ≤ c) →
      ∀ p G : ℕ → PwParams 1 1 (maskCount E.mask) nb, p 0 = Spec.paramsOf w →
      (∀ i, (∃ D, Spec.IsParamGradient t (p i) D) → Spec.IsParamGradient t (p i) (G i)) →
      (∀ i, p (i + 1) = Spec.descend (p i) (G i) (η i)) →
      ∃ e : ℕ → Fin (min (maskCount E.mask) nb) → ℝ, (∀ i, bandEigNC E (p i) k = .ok ⟨1, fun _ => e i⟩) ∧
      Filter.Tendsto (fun i => e i ⟨0, by omega⟩) Filter.atTop (𝓝 (lam ⟨0, by omega⟩)) ∧
      (∀ i, lam ⟨0, by omega⟩ ≤ e i ⟨0, by omega⟩) ∧
      ∃ D, ∀ T, ∑ i ∈ Finset.range T, (e i ⟨0, by omega⟩ - lam ⟨0, by omega⟩) ≤ D := by
  obtain ⟨u, hu0, hu⟩ := lowest_vector (by omega) hl
  filter_upwards [draw_independent.1 hnb, draw_overlap (ns := 1) (nk := 1) hnb0 u hu0] with w h1 h2 a c η ha hη p G h0 hG hstep
  exact band_descent_groundNC hn E htri hnb0 hnb A hA hg hvol V hV k lam hl t ht a c ha η hη p G (by rw [h0]; exact h1) hG hstep
    u hu (by rw [h0]; exact h2 0 0)

/-- The hypotheses of `band_descent_ground` and `band_descent_ground_random` are met: two plane waves, one band and two
spins, with step sizes that shrink from two to one. -/
example (lib : XcLib) :
    Spec.Triangular (twoWaveTrained lib).qr ∧ ∃ hnb : 1 ≤ maskCount (twoWaveTrained lib).mask,
    (1 : Matrix (Fin 3) (Fin 3) ℝ).det ≠ 0 ∧ (twoWaveTrained lib).g = gVectors 1 ![2, 1, 1] ∧
    0 < (twoWaveTrained lib).vol ∧
    ∃ (V : Idx ![2, 1, 1] → ℝ) (lam : Fin (maskCount (twoWaveTrained lib).mask) → ℝ)
      (t : PwParams 2 1 (maskCount (twoWaveTrained lib).mask) 1 → ℝ)
      (p G : ℕ → PwParams 2 1 (maskCount (twoWaveTrained lib).mask) 1)
      (u : Fin (maskCount (twoWaveTrained lib).mask) → ℂ),
      (∀ x, V x = (hartreeRealSpace (twoWaveTrained lib).dens (twoWaveTrained lib).g true x
        + externalPotential (twoWaveTrained lib).pos (twoWaveTrained lib).charge (twoWaveTrained lib).g 1 x
        + vxcDensity lib "lda_x" (twoWaveTrained lib).g (twoWaveTrained lib).dens 0 x).re) ∧
      Spec.IsSpectrum (Spec.planeWaveHamiltonian (fun a => gVectors 1 ![2, 1, 1]
        (maskPos (twoWaveTrained lib).mask a)) (rVectors 1 ![2, 1, 1]) V 0) lam ∧
      (∀ q, bandTrace (twoWaveTrained lib) q 0 = .ok (t q)) ∧ Spec.Independent (p 0) ∧
      (∀ i : ℕ, (1 : ℝ) ≤ 1 + 1 / (i + 1) ∧ 1 + 1 / ((i : ℝ) + 1) ≤ 2) ∧
      (∀ i, (∃ D, Spec.IsParamGradient t (p i) D) → Spec.IsParamGradient t (p i) (G i)) ∧
      (∀ i, p (i + 1) = Spec.descend (p i) (G i) (1 + 1 / (i + 1))) ∧
      Spec.planeWaveHamiltonian (fun a => gVectors 1 ![2, 1, 1] (maskPos (twoWaveTrained lib).mask a))
        (rVectors 1 ![2, 1, 1]) V 0 *ᵥ u = (lam ⟨0, by omega⟩ : ℂ) • u ∧
      ∀ s, ∃ b, ∑ a, conj (u a) * Spec.bandMatrix (p 0) s 0 a b ≠ 0 := by
  let V : Idx ![2, 1, 1] → ℝ := fun x => (hartreeRealSpace (twoWaveTrained lib).dens (twoWaveTrained lib).g true x
        + externalPotential (twoWaveTrained lib).pos (twoWaveTrained lib).charge (twoWaveTrained lib).g 1 x
        + vxcDensity lib "lda_x" (twoWaveTrained lib).g (twoWaveTrained lib).dens 0 x).re
  obtain ⟨lam, hl⟩ := planeWaveHamiltonian_spectrum (fun a => gVectors 1 ![2, 1, 1]
        (maskPos (twoWaveTrained lib).mask a)) (rVectors 1 ![2, 1, 1]) V 0
  have hdet : (1 : Matrix (Fin 3) (Fin 3) ℝ).det ≠ 0 := by simp
  have hvol : 0 < (twoWaveTrained lib).vol := by norm_num [twoWaveTrained, twoWaveBand]
  have hN : 1 ≤ maskCount (twoWaveTrained lib).mask := (by decide : 1 ≤ maskCount (n := ![2, 1, 1]) (fun _ => true))
  choose t ht using fun q : PwParams 2 1 (maskCount (twoWaveTrained lib).mask) 1 =>
    (show ∃ t, bandTrace (twoWaveTrained lib) q 0 = .ok t by
      obtain ⟨t, e, h, -⟩ := bandTrace_bound (twoWaveTrained lib) 1 hdet rfl hvol V (fun _ => rfl) q 0 lam hl
      exact ⟨t, h⟩)
  obtain ⟨u, hu0, hu⟩ := lowest_vector hN hl
  obtain ⟨w, hw, hov⟩ := (((draw_independent (ns := 2) (nk := 1) (g := maskCount (twoWaveTrained lib).mask) (nb := 1)).1 hN).and
    (draw_overlap one_pos u hu0)).exists
  obtain ⟨p, G, h0, h1, h2⟩ := descent_run_exists t (fun i => 1 + 1 / ((i : ℝ) + 1)) (Spec.paramsOf w)
  refine ⟨gramSchmidtQR_triangular ℂ, hN, hdet, rfl, hvol, V, lam, t, p, G, u, fun _ => rfl, hl, ht, by rw [h0]; exact hw,
    fun i => ?_, h1, h2, hu, by rw [h0]; exact fun s => hov s 0⟩
  have hi : (0 : ℝ) < (i : ℝ) + 1 := by positivity
  have h3 : 1 / ((i : ℝ) + 1) ≤ 1 := by
    rw [div_le_one hi]
    linarith [(Nat.cast_nonneg i : (0 : ℝ) ≤ i)]
  exact ⟨le_add_of_nonneg_right (by positivity), by linarith⟩

/-- The hypotheses of `band_descent_groundNC` and `band_descent_ground_randomNC` are met: two plane waves, one projector,
one band and unit steps. -/
example (lib : XcLib) :
    let E : BandEnvNC 1 1 (Fin 1) Unit ![2, 1, 1] := { twoWaveBandNC lib with qr := gramSchmidtQR ℂ }
    (∀ i, 0 < ![2, 1, 1] i) ∧ Spec.Triangular E.qr ∧ ∃ hnb : 1 ≤ maskCount E.mask,
    (1 : Matrix (Fin 3) (Fin 3) ℝ).det ≠ 0 ∧ E.g = gVectors 1 ![2, 1, 1] ∧ 0 < E.vol ∧
    ∃ (V : Idx ![2, 1, 1] → ℝ) (lam : Fin (maskCount E.mask) → ℝ) (t : PwParams 1 1 (maskCount E.mask) 1 → ℝ)
      (p G : ℕ → PwParams 1 1 (maskCount E.mask) 1) (u : Fin (maskCount E.mask) → ℂ),
      (∀ x, V x = (ifftn E.vloc x + hartreeRealSpace E.dens E.g true x + vxcDensity lib "lda_x" E.g E.dens 0 x).re) ∧
      Spec.IsSpectrum (Spec.planeWaveHamiltonian (fun a => gVectors 1 ![2, 1, 1] (maskPos E.mask a))
        (rVectors 1 ![2, 1, 1]) V (fun _ => 1) + Spec.projectorMatrix E.vol
          (fun (i : Fin 1 × Fin 1) a => E.psi (fun _ => 1, ()) i.1 i.2 (maskPos E.mask a))) lam ∧
      (∀ q, bandTraceNC E q (fun _ => 1, ()) = .ok (t q)) ∧ Spec.Independent (p 0) ∧
      (∀ i, (∃ D, Spec.IsParamGradient t (p i) D) → Spec.IsParamGradient t (p i) (G i)) ∧
      (∀ i, p (i + 1) = Spec.descend (p i) (G i) 1) ∧
      (Spec.planeWaveHamiltonian (fun a => gVectors 1 ![2, 1, 1] (maskPos E.mask a))
        (rVectors 1 ![2, 1, 1]) V (fun _ => 1) + Spec.projectorMatrix E.vol
          (fun (i : Fin 1 × Fin 1) a => E.psi (fun _ => 1, ()) i.1 i.2 (maskPos E.mask a))) *ᵥ u
        = (lam ⟨0, by omega⟩ : ℂ) • u ∧
      ∃ b, ∑ a, conj (u a) * Spec.bandMatrix (p 0) 0 0 a b ≠ 0 := by
  intro E
  have hn : ∀ i, 0 < ![2, 1, 1] i := by decide
  have hdet : (1 : Matrix (Fin 3) (Fin 3) ℝ).det ≠ 0 := by simp
  have hvol : 0 < E.vol := by norm_num [E, twoWaveBandNC]
  let V : Idx ![2, 1, 1] → ℝ := fun x =>
    (ifftn E.vloc x + hartreeRealSpace E.dens E.g true x + vxcDensity lib "lda_x" E.g E.dens 0 x).re
  obtain ⟨lam, hl⟩ := planeWaveHamiltonianNC_spectrum (fun a => gVectors 1 ![2, 1, 1] (maskPos E.mask a))
    (rVectors 1 ![2, 1, 1]) V (fun _ => 1) E.vol
    (fun (i : Fin 1 × Fin 1) a => E.psi (fun _ => 1, ()) i.1 i.2 (maskPos E.mask a))
  choose t ht using fun q : PwParams 1 1 (maskCount E.mask) 1 =>
    (show ∃ t, bandTraceNC E q (fun _ => 1, ()) = .ok t by
      obtain ⟨t, e, h, -⟩ := bandTraceNC_bound hn E 1 hdet rfl hvol V (fun _ => rfl) q (fun _ => 1, ()) lam hl
      exact ⟨t, h⟩)
  have hN : 1 ≤ maskCount E.mask := (by decide : 1 ≤ maskCount (n := ![2, 1, 1]) (fun _ => true))
  obtain ⟨u, hu0, hu⟩ := lowest_vector hN hl
  obtain ⟨w, hw, hov⟩ := (((draw_independent (ns := 1) (nk := 1) (g := maskCount E.mask) (nb := 1)).1 hN).and
    (draw_overlap one_pos u hu0)).exists
  obtain ⟨p, G, h0, h1, h2⟩ := descent_run_exists t (fun _ => 1) (Spec.paramsOf w)
  exact ⟨hn, gramSchmidtQR_triangular ℂ, hN, hdet, rfl, hvol, V, lam, t, p, G, u, fun _ => rfl, hl, ht, by rw [h0]; exact hw,
    h1, h2, hu, by rw [h0]; exact hov 0 0⟩

end Jrystal
