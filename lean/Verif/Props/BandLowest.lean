import Verif.Props.BandDescent

/- C136: gradient descent with short steps from a good start finds the lowest band energies. -/
namespace Jrystal
open scoped BigOperators ComplexConjugate Topology
open Matrix

private theorem short_step {h η x y : ℝ} (hh : 0 ≤ h) (hη0 : 0 ≤ η) (hη : η ≤ 1 / (1 + h * y)) (hx : x ≤ y)
    (hpos : 0 < 1 + h * y) : η * (h * x) ≤ 1 := by
  rw [le_div_iff₀ hpos] at hη
  have := mul_le_mul_of_nonneg_left (mul_le_mul_of_nonneg_left hx hh) hη0
  linarith

private theorem trace_falls {ns g nb : ℕ} {qr : QR ℂ} (htri : Spec.Triangular qr) (hnb : nb ≤ g)
    {F : Matrix (Fin g) (Fin g) ℂ} {lam : Fin g → ℝ} (hl : Spec.IsSpectrum F lam) (p0 : PwParams ns 1 g nb)
    (hp : Spec.Independent p0) :
    ∃ c > 0, ∀ (a : ℝ) (η : ℕ → ℝ), 0 < a → (∀ i, a ≤ η i ∧ η i ≤ c) → ∀ p G : ℕ → PwParams ns 1 g nb,
      p 0 = p0 → (∀ i, (∃ D, Spec.IsParamGradient (spinTrace qr F) (p i) D) → Spec.IsParamGradient (spinTrace qr F) (p i) (G i)) →
      (∀ i, p (i + 1) = Spec.descend (p i) (G i) (η i)) →
      ∀ i, spinTrace qr F (p (i + 1)) ≤ spinTrace qr F (p i) := by
  obtain ⟨h, hh, hfall⟩ := RitzDescent.ritz_falls hl nb
  set L : Fin ns → ℝ := fun s => RitzDescent.fs (Spec.bandMatrix p0 s 0
    * ((Spec.bandMatrix p0 s 0)ᴴ * Spec.bandMatrix p0 s 0)⁻¹) with hL
  have hL0 : ∀ s, 0 ≤ L s := fun s => RitzDescent.fs_nonneg _
  have hS0 : 0 ≤ ∑ s, L s := Finset.sum_nonneg fun s _ => hL0 s
  have hpos : 0 < 1 + h * ∑ s, L s := by have := mul_nonneg hh hS0; linarith
  refine ⟨1 / (1 + h * ∑ s, L s), by positivity, fun a η ha hη p G h0 hG hstep i => ?_⟩
  subst h0
  have hind := (descent_core htri hnb hl ha η hη p G hp hG hstep).1
  have grad : ∀ i s, Spec.bandMatrix (G i) s 0 = ritzGrad F (Spec.bandMatrix (p i) s 0) := by
    intro i s
    obtain ⟨D, h1, h2⟩ := spinTrace_gradient htri hnb (spectrum_hermitian hl) (p i) (hind i).1
    rw [gradient_unique (hind i).2 h1]
    exact h2 s
  have hrun : ∀ s i, Spec.bandMatrix (p (i + 1)) s 0 = Spec.bandMatrix (p i) s 0
      - (η i : ℂ) • ritzGrad F (Spec.bandMatrix (p i) s 0) := fun s i => by
    rw [hstep, Descent.descend_band, grad]
  unfold spinTrace
  refine Finset.sum_le_sum fun s _ => ?_
  have hLi := (RitzDescent.ritz_descent hl (fun i => Spec.bandMatrix (p i) s 0) (gram_unit (hp s 0)) ha hη (hrun s)).2.1 i
  obtain ⟨R, hR⟩ := qr_factor htri (p i) s
  obtain ⟨R', hR'⟩ := qr_factor htri (p (i + 1)) s
  have hq := ritz_trace (min_eq_right hnb) F (gram_unit ((hind i).1 s 0))
    (show (Matrix.of (unitaryMatrix qr (p i) s 0))ᴴ * Matrix.of (unitaryMatrix qr (p i) s 0) = 1 from qr.orth _) hR
  have hq' := ritz_trace (min_eq_right hnb) F (gram_unit ((hind (i + 1)).1 s 0))
    (show (Matrix.of (unitaryMatrix qr (p (i + 1)) s 0))ᴴ * Matrix.of (unitaryMatrix qr (p (i + 1)) s 0) = 1
      from qr.orth _) hR'
  rw [hq, hq']
  have hη0 : 0 ≤ η i := ha.le.trans (hη i).1
  refine hfall _ _ (η i) (gram_unit ((hind i).1 s 0)) hη0 ?_ (hrun s i)
  have h1 := hLi.trans (Finset.single_le_sum (f := L) (fun s _ => hL0 s) (Finset.mem_univ s))
  exact short_step hh hη0 (hη i).2 h1 hpos

private theorem limit_lowest {ns g nb : ℕ} {qr : QR ℂ} (hnb0 : 0 < nb) (hnb : nb < g)
    {F : Matrix (Fin g) (Fin g) ℂ} {lam : Fin g → ℝ} (hl : Spec.IsSpectrum F lam) (p : ℕ → PwParams ns 1 g nb)
    (hfall : ∀ i, spinTrace qr F (p (i + 1)) ≤ spinTrace qr F (p i))
    (hgap : spinTrace qr F (p 0) < ns * ∑ b : Fin (min g nb), lam (Fin.castLE (min_le_left _ _) b)
      + (lam ⟨nb, hnb⟩ - lam ⟨nb - 1, by omega⟩)) (e : Fin ns → ℕ → Fin (min g nb) → ℝ)
    (he : ∀ s i, Spec.IsSpectrum ((Matrix.of (unitaryMatrix qr (p i) s 0))ᴴ * F * Matrix.of (unitaryMatrix qr (p i) s 0))
      (e s i))
    (hlim : ∀ s, ∃ σ : Fin (min g nb) → Fin g, Function.Injective σ ∧
      ∀ b, Filter.Tendsto (fun i => e s i b) Filter.atTop (𝓝 (lam (σ b)))) (s : Fin ns) (b : Fin (min g nb)) :
    Filter.Tendsto (fun i => e s i b) Filter.atTop (𝓝 (lam (Fin.castLE (min_le_left _ _) b))) := by
  choose σ hσ hlim using hlim
  have hm : min g nb = nb := min_eq_right hnb.le
  have hsum : ∀ i, ∑ s, ∑ b, e s i b ≤ spinTrace qr F (p 0) := by
    intro i
    have h1 : ∑ s, ∑ b, e s i b = spinTrace qr F (p i) := by
      unfold spinTrace
      exact Finset.sum_congr rfl fun s _ => by rw [spectrum_trace (he s i), Complex.ofReal_re]
    rw [h1]
    exact antitone_nat_of_succ_le (f := fun i => spinTrace qr F (p i)) hfall (Nat.zero_le i)
  have htot : ∑ s, ∑ b, lam (σ s b) ≤ spinTrace qr F (p 0) :=
    le_of_tendsto' (tendsto_finsetSum _ fun s _ => tendsto_finsetSum _ fun b _ => hlim s b) hsum
  have hge : ∀ s b, lam (Fin.castLE (min_le_left _ _) b) ≤ lam (σ s b) := fun s b =>
    ge_of_tendsto' (hlim s b) fun i => spectrum_separation (min_le_left _ _) hl (qr.orth _) (he s i) b
  have hone : ∑ b, lam (σ s b) < ∑ b : Fin (min g nb), lam (Fin.castLE (min_le_left _ _) b)
      + (lam ⟨nb, hnb⟩ - lam ⟨nb - 1, by omega⟩) := by
    have h1 := Finset.single_le_sum (f := fun s => ∑ b, lam (σ s b)
      - ∑ b : Fin (min g nb), lam (Fin.castLE (min_le_left _ _) b))
      (fun s _ => sub_nonneg.2 (Finset.sum_le_sum fun b _ => hge s b)) (Finset.mem_univ s)
    rw [Finset.sum_sub_distrib, Finset.sum_const, Finset.card_univ, Fintype.card_fin, nsmul_eq_mul] at h1
    linarith
  have hmono : Monotone fun b => lam (σ s b) := fun b b' hb =>
    le_of_tendsto_of_tendsto' (hlim s b) (hlim s b') fun i => (he s i).1 hb
  have h := RitzDescent.lowest_of_sum (m := min g nb) (by omega) (by omega) hl.1 hmono (hge s) (hσ s) (fun _ => rfl)
    (by
      have e1 : (⟨min g nb, by omega⟩ : Fin g) = ⟨nb, hnb⟩ := Fin.ext hm
      have e2 : (⟨min g nb - 1, by omega⟩ : Fin g) = ⟨nb - 1, by omega⟩ := Fin.ext (by simp only [hm])
      rw [e1, e2]
      exact hone) b
  rw [← h]
  exact hlim s b

/-- C136, all-electron driver: for every start with independent bands there is a step size up to which gradient descent
never raises the objective.  If the start exceeds the sum of the lowest energies by less than the gap above the
top band, each reported energy then converges to the lowest eigenvalue for its band. -/
theorem band_descent_lowest {na ns nb : ℕ} {n : Fin 3 → ℕ} (E : BandEnv na 1 n) (htri : Spec.Triangular E.qr)
    (hnb0 : 0 < nb) (hnb : nb < maskCount E.mask)
    (A : Matrix (Fin 3) (Fin 3) ℝ) (hA : A.det ≠ 0) (hg : E.g = gVectors A n) (hvol : 0 < E.vol)
    (V : Idx n → ℝ)
    (hV : ∀ x, V x = (hartreeRealSpace E.dens E.g true x + externalPotential E.pos E.charge E.g E.vol x
      + vxcDensity E.lib E.xc E.g E.dens 0 x).re)
    (k : Fin 3 → ℝ) (lam : Fin (maskCount E.mask) → ℝ)
    (hl : Spec.IsSpectrum (Spec.planeWaveHamiltonian (fun a => gVectors A n (maskPos E.mask a))
      (rVectors A n) V k) lam)
    (t : PwParams ns 1 (maskCount E.mask) nb → ℝ) (ht : ∀ q, bandTrace E q k = .ok (t q))
    (p0 : PwParams ns 1 (maskCount E.mask) nb) (hp : Spec.Independent p0) :
    ∃ c > 0, ∀ (a : ℝ) (η : ℕ → ℝ), 0 < a → (∀ i, a ≤ η i ∧ η i ≤ c) → ∀ p G : ℕ → PwParams ns 1 (maskCount E.mask) nb,
      p 0 = p0 → (∀ i, (∃ D, Spec.IsParamGradient t (p i) D) → Spec.IsParamGradient t (p i) (G i)) →
      (∀ i, p (i + 1) = Spec.descend (p i) (G i) (η i)) →
      (∀ i, t (p (i + 1)) ≤ t (p i)) ∧
      (t p0 < ns * ∑ b : Fin (min (maskCount E.mask) nb), lam (Fin.castLE (min_le_left _ _) b)
          + (lam ⟨nb, hnb⟩ - lam ⟨nb - 1, by omega⟩) →
        ∀ s, ∃ e : ℕ → Fin (min (maskCount E.mask) nb) → ℝ, (∀ i, bandEig E (p i) k s = .ok (e i)) ∧
          ∀ b, Filter.Tendsto (fun i => e i b) Filter.atTop (𝓝 (lam (Fin.castLE (min_le_left _ _) b)))) := by
  have hspin := bandTrace_spin E A hA hg hvol V hV k t ht
  obtain ⟨c, hc, hfall⟩ := trace_falls htri hnb.le hl p0 hp
  refine ⟨c, hc, fun a η ha hη p G h0 hG hstep => ?_⟩
  rw [hspin] at hG ⊢
  have h1 := hfall a η ha hη p G h0 hG hstep
  refine ⟨h1, fun hgap => ?_⟩
  subst h0
  have hb := basis_planeWave E A hA hg hvol (fun _ => V) (fun σ x => by
    rw [hV, Subsingleton.elim σ 0]) k
  rw [Fin.sum_univ_one] at hb
  choose e g1 g2 g3 using fun s i => bandEig_spectrum E (p i) k _ hb s
  have hlim := (descent_core htri hnb.le hl ha η hη p G hp hG hstep).2.2.2.2
  exact fun s => ⟨e s, g1 s, limit_lowest hnb0 hnb hl p h1 hgap e g3 (fun s => hlim s (e s) (g3 s)) s⟩

/-- C136, norm-conserving driver: for every start with independent bands there is a step size up to which gradient descent
never raises the objective.  If the start exceeds the sum of the lowest energies by less than the gap above the
top band, each reported energy then converges to the lowest eigenvalue for its band. -/
theorem band_descent_lowestNC {M nb : ℕ} {ι β : Type} [Fintype ι] {n : Fin 3 → ℕ} (hn : ∀ i, 0 < n i)
    (E : BandEnvNC 1 M ι β n) (htri : Spec.Triangular E.qr) (hnb0 : 0 < nb) (hnb : nb < maskCount E.mask)
    (A : Matrix (Fin 3) (Fin 3) ℝ) (hA : A.det ≠ 0) (hg : E.g = gVectors A n) (hvol : 0 < E.vol)
    (V : Idx n → ℝ)
    (hV : ∀ x, V x = (ifftn E.vloc x + hartreeRealSpace E.dens E.g true x
      + vxcDensity E.lib E.xc E.g E.dens 0 x).re)
    (k : (Fin 3 → ℝ) × β) (lam : Fin (maskCount E.mask) → ℝ)
    (hl : Spec.IsSpectrum (Spec.planeWaveHamiltonian (fun a => gVectors A n (maskPos E.mask a))
        (rVectors A n) V k.1 + Spec.projectorMatrix E.vol
          (fun (i : ι × Fin M) a => E.psi k i.1 i.2 (maskPos E.mask a))) lam)
    (t : PwParams 1 1 (maskCount E.mask) nb → ℝ) (ht : ∀ q, bandTraceNC E q k = .ok (t q))
    (p0 : PwParams 1 1 (maskCount E.mask) nb) (hp : Spec.Independent p0) :
    ∃ c > 0, ∀ (a : ℝ) (η : ℕ → ℝ), 0 < a → (∀ i, a ≤ η i ∧ η i ≤ c) → ∀ p G : ℕ → PwParams 1 1 (maskCount E.mask) nb,
      p 0 = p0 → (∀ i, (∃ D, Spec.IsParamGradient t (p i) D) → Spec.IsParamGradient t (p i) (G i)) →
      (∀ i, p (i + 1) = Spec.descend (p i) (G i) (η i)) →
      (∀ i, t (p (i + 1)) ≤ t (p i)) ∧
      (t p0 < ∑ b : Fin (min (maskCount E.mask) nb), lam (Fin.castLE (min_le_left _ _) b)
          + (lam ⟨nb, hnb⟩ - lam ⟨nb - 1, by omega⟩) →
        ∃ e : ℕ → Fin (min (maskCount E.mask) nb) → ℝ, (∀ i, bandEigNC E (p i) k = .ok ⟨1, fun _ => e i⟩) ∧
          ∀ b, Filter.Tendsto (fun i => e i b) Filter.atTop (𝓝 (lam (Fin.castLE (min_le_left _ _) b)))) := by
  have hspin := bandTraceNC_spin hn E A hA hg hvol V hV k t ht
  obtain ⟨c, hc, hfall⟩ := trace_falls htri hnb.le hl p0 hp
  refine ⟨c, hc, fun a η ha hη p G h0 hG hstep => ?_⟩
  rw [hspin] at hG ⊢
  have h1 := hfall a η ha hη p G h0 hG hstep
  refine ⟨h1, fun hgap => ?_⟩
  subst h0
  choose e g0 g1 g3 using fun i => bandEigNC_eq E A hA hg hvol V hV (p i) k
  have hlim := (descent_core htri hnb.le hl ha η hη p G hp hG hstep).2.2.2.2
  refine ⟨e, g1, limit_lowest hnb0 hnb hl p h1 (by rw [Nat.cast_one, one_mul]; exact hgap) (fun _ => e) (fun s i => ?_)
    (fun s => ?_) 0⟩
  · rw [Subsingleton.elim s 0]; exact g3 i
  · exact hlim 0 e g3

/-- The lowest states are independent parameters that meet the condition on the start whenever there is a gap. -/
theorem lowest_start_exists {na ns nb : ℕ} {n : Fin 3 → ℕ} (E : BandEnv na 1 n) (htri : Spec.Triangular E.qr)
    (hnb : nb < maskCount E.mask)
    (A : Matrix (Fin 3) (Fin 3) ℝ) (hA : A.det ≠ 0) (hg : E.g = gVectors A n) (hvol : 0 < E.vol)
    (V : Idx n → ℝ)
    (hV : ∀ x, V x = (hartreeRealSpace E.dens E.g true x + externalPotential E.pos E.charge E.g E.vol x
      + vxcDensity E.lib E.xc E.g E.dens 0 x).re)
    (k : Fin 3 → ℝ) (lam : Fin (maskCount E.mask) → ℝ)
    (hl : Spec.IsSpectrum (Spec.planeWaveHamiltonian (fun a => gVectors A n (maskPos E.mask a))
      (rVectors A n) V k) lam)
    (t : PwParams ns 1 (maskCount E.mask) nb → ℝ) (ht : ∀ q, bandTrace E q k = .ok (t q))
    (hgap : lam ⟨nb - 1, by omega⟩ < lam ⟨nb, hnb⟩) :
    ∃ p0, Spec.Independent p0 ∧ ∀ d, ∃ r > 0, ∀ x, |x| < r →
      t (Spec.along p0 d x) < ns * ∑ b : Fin (min (maskCount E.mask) nb), lam (Fin.castLE (min_le_left _ _) b)
        + (lam ⟨nb, hnb⟩ - lam ⟨nb - 1, by omega⟩) := by
  obtain ⟨p0, h1, h2, h3⟩ := band_gradient_zero_any (ns := ns) E htri hnb.le A hA hg hvol V hV k lam hl t ht
    (Fin.castLE hnb.le) (Fin.strictMono_castLE hnb.le)
  refine ⟨p0, h1, fun d => ?_⟩
  obtain ⟨t', e, g1, g2, -, -, g3⟩ := bandTrace_bound E A hA hg hvol V hV p0 k lam hl
  rw [ht] at g1
  injection g1 with g1
  have h4 : t p0 = ns * ∑ b : Fin (min (maskCount E.mask) nb), lam (Fin.castLE (min_le_left _ _) b) := by
    rw [g1]
    refine g3.2 fun s b => ?_
    obtain ⟨e', q1, q2⟩ := h3 s
    rw [g2 s] at q1
    injection q1 with q1
    rw [q1, q2 b]
    rfl
  have hc := (h2 d).continuousAt
  have h5 : t (Spec.along p0 d 0) = t p0 := by
    congr 1
    simp [Spec.along]
  have hev := hc.eventually (gt_mem_nhds (show t (Spec.along p0 d 0)
      < ns * ∑ b : Fin (min (maskCount E.mask) nb), lam (Fin.castLE (min_le_left _ _) b)
        + (lam ⟨nb, hnb⟩ - lam ⟨nb - 1, by omega⟩) by rw [h5, h4]; linarith))
  obtain ⟨r, hr, h⟩ := Metric.eventually_nhds_iff.1 hev
  exact ⟨r, hr, fun x hx => h (by rwa [Real.dist_eq, sub_zero])⟩

/-- The hypotheses of `band_descent_lowest` are met: two plane waves at the zone centre and one band, with a gap between the
two energies and independent parameters below it. -/
example (lib : XcLib) :
    Spec.Triangular (twoWaveTrained lib).qr ∧ ∃ hnb : 1 < maskCount (twoWaveTrained lib).mask,
    (1 : Matrix (Fin 3) (Fin 3) ℝ).det ≠ 0 ∧ (twoWaveTrained lib).g = gVectors 1 ![2, 1, 1] ∧
    0 < (twoWaveTrained lib).vol ∧
    ∃ (V : Idx ![2, 1, 1] → ℝ) (lam : Fin (maskCount (twoWaveTrained lib).mask) → ℝ)
      (t : PwParams 2 1 (maskCount (twoWaveTrained lib).mask) 1 → ℝ),
      (∀ x, V x = (hartreeRealSpace (twoWaveTrained lib).dens (twoWaveTrained lib).g true x
        + externalPotential (twoWaveTrained lib).pos (twoWaveTrained lib).charge (twoWaveTrained lib).g 1 x
        + vxcDensity lib "lda_x" (twoWaveTrained lib).g (twoWaveTrained lib).dens 0 x).re) ∧
      Spec.IsSpectrum (Spec.planeWaveHamiltonian (fun a => gVectors 1 ![2, 1, 1]
        (maskPos (twoWaveTrained lib).mask a)) (rVectors 1 ![2, 1, 1]) V 0) lam ∧
      (∀ q, bandTrace (twoWaveTrained lib) q 0 = .ok (t q)) ∧
      ∃ p0, Spec.Independent p0 ∧ ∀ d, ∃ r > 0, ∀ x, |x| < r → t (Spec.along p0 d x)
        < (2 : ℕ) * ∑ b : Fin (min (maskCount (twoWaveTrained lib).mask) 1), lam (Fin.castLE (min_le_left _ _) b)
          + (lam ⟨1, hnb⟩ - lam ⟨1 - 1, by omega⟩) := by
  let V : Idx ![2, 1, 1] → ℝ := fun x => (hartreeRealSpace (twoWaveTrained lib).dens (twoWaveTrained lib).g true x
        + externalPotential (twoWaveTrained lib).pos (twoWaveTrained lib).charge (twoWaveTrained lib).g 1 x
        + vxcDensity lib "lda_x" (twoWaveTrained lib).g (twoWaveTrained lib).dens 0 x).re
  obtain ⟨lam, hl⟩ := planeWaveHamiltonian_spectrum (fun a => gVectors 1 ![2, 1, 1]
        (maskPos (twoWaveTrained lib).mask a)) (rVectors 1 ![2, 1, 1]) V 0
  have hdet : (1 : Matrix (Fin 3) (Fin 3) ℝ).det ≠ 0 := by simp
  have hvol : 0 < (twoWaveTrained lib).vol := by norm_num [twoWaveTrained, twoWaveBand]
  have hN : 1 < maskCount (twoWaveTrained lib).mask := (by decide : 1 < maskCount (n := ![2, 1, 1]) (fun _ => true))
  have hN2 : maskCount (twoWaveTrained lib).mask = 2 := (by decide : maskCount (n := ![2, 1, 1]) (fun _ => true) = 2)
  choose t ht using fun q : PwParams 2 1 (maskCount (twoWaveTrained lib).mask) 1 =>
    (show ∃ t, bandTrace (twoWaveTrained lib) q 0 = .ok t by
      obtain ⟨t, e, h, -⟩ := bandTrace_bound (twoWaveTrained lib) 1 hdet rfl hvol V (fun _ => rfl) q 0 lam hl
      exact ⟨t, h⟩)
  have hgap : lam ⟨1 - 1, by omega⟩ < lam ⟨1, hN⟩ := by
    obtain ⟨p, h1, h2, h3⟩ := band_gradient_zero_not_lowest (twoWaveTrained lib) (gramSchmidtQR_triangular ℂ) 1 hdet rfl hvol
      V (fun _ => rfl) 0 lam hl twoWave_waves t ht
    obtain ⟨e, q1, q2⟩ := h3 0
    obtain ⟨e', q3, σ, -, q4⟩ := ((band_gradient_accuracy (twoWaveTrained lib) (gramSchmidtQR_triangular ℂ) hN.le 1 hdet rfl
      hvol V (fun _ => rfl) 0 lam hl t ht p h1).2 _ h2).2 0
    rw [q1] at q3
    injection q3 with q3
    subst q3
    have b : Fin (min (maskCount (twoWaveTrained lib).mask) 1) := ⟨0, by omega⟩
    have q5 := q4 b
    have z : Spec.paramSize (⟨fun _ _ _ _ => 0, fun _ _ _ _ => 0⟩ :
        PwParams 2 1 (maskCount (twoWaveTrained lib).mask) 1) 0 0 = 0 := by simp [Spec.paramSize]
    rw [z, zero_mul, zero_div] at q5
    have q6 : e b = lam (σ b) := sub_eq_zero.1 (abs_eq_zero.1 (le_antisymm q5 (abs_nonneg _)))
    have q7 := q2 b
    rw [q6] at q7
    have q8 : Fin.castLE (min_le_left (maskCount (twoWaveTrained lib).mask) 1) b = ⟨1 - 1, by omega⟩ := by
      apply Fin.ext
      have := b.2
      show (b : ℕ) = 0
      omega
    rw [q8] at q7
    refine lt_of_lt_of_le q7 (hl.1 (Fin.le_def.2 ?_))
    have := (σ b).2
    show (σ b : ℕ) ≤ 1
    omega
  exact ⟨gramSchmidtQR_triangular ℂ, hN, hdet, rfl, hvol, V, lam, t, fun _ => rfl, hl, ht,
    lowest_start_exists (twoWaveTrained lib) (gramSchmidtQR_triangular ℂ) hN 1 hdet rfl hvol V (fun _ => rfl) 0 lam hl t ht hgap⟩

/-- The lowest states meet the condition on the start with pseudopotentials too. -/
theorem lowest_start_existsNC {M nb : ℕ} {ι β : Type} [Fintype ι] {n : Fin 3 → ℕ} (hn : ∀ i, 0 < n i)
    (E : BandEnvNC 1 M ι β n) (htri : Spec.Triangular E.qr) (hnb : nb < maskCount E.mask)
    (A : Matrix (Fin 3) (Fin 3) ℝ) (hA : A.det ≠ 0) (hg : E.g = gVectors A n) (hvol : 0 < E.vol)
    (V : Idx n → ℝ)
    (hV : ∀ x, V x = (ifftn E.vloc x + hartreeRealSpace E.dens E.g true x
      + vxcDensity E.lib E.xc E.g E.dens 0 x).re)
    (k : (Fin 3 → ℝ) × β) (lam : Fin (maskCount E.mask) → ℝ)
    (hl : Spec.IsSpectrum (Spec.planeWaveHamiltonian (fun a => gVectors A n (maskPos E.mask a))
        (rVectors A n) V k.1 + Spec.projectorMatrix E.vol
          (fun (i : ι × Fin M) a => E.psi k i.1 i.2 (maskPos E.mask a))) lam)
    (t : PwParams 1 1 (maskCount E.mask) nb → ℝ) (ht : ∀ q, bandTraceNC E q k = .ok (t q))
    (hgap : lam ⟨nb - 1, by omega⟩ < lam ⟨nb, hnb⟩) :
    ∃ p0, Spec.Independent p0 ∧ ∀ d, ∃ r > 0, ∀ x, |x| < r →
      t (Spec.along p0 d x) < ∑ b : Fin (min (maskCount E.mask) nb), lam (Fin.castLE (min_le_left _ _) b)
        + (lam ⟨nb, hnb⟩ - lam ⟨nb - 1, by omega⟩) := by
  obtain ⟨p0, h1, h2, h3⟩ := band_gradient_zero_anyNC hn E htri hnb.le A hA hg hvol V hV k lam hl t ht
    (Fin.castLE hnb.le) (Fin.strictMono_castLE hnb.le)
  refine ⟨p0, h1, fun d => ?_⟩
  obtain ⟨t', e, g1, g2, -, -, g3⟩ := bandTraceNC_bound hn E A hA hg hvol V hV p0 k lam hl
  rw [ht] at g1
  injection g1 with g1
  have h4 : t p0 = ∑ b : Fin (min (maskCount E.mask) nb), lam (Fin.castLE (min_le_left _ _) b) := by
    rw [g1]
    refine g3.2 fun b => ?_
    obtain ⟨e', q1, q2⟩ := h3
    rw [g2] at q1
    have q3 : e = e' := by
      injection q1 with q1
      have := (Sigma.mk.inj_iff.1 q1).2
      exact congrFun (eq_of_heq this) 0
    rw [q3, q2 b]
    rfl
  have hc := (h2 d).continuousAt
  have h5 : t (Spec.along p0 d 0) = t p0 := by
    congr 1
    simp [Spec.along]
  have hev := hc.eventually (gt_mem_nhds (show t (Spec.along p0 d 0)
      < ∑ b : Fin (min (maskCount E.mask) nb), lam (Fin.castLE (min_le_left _ _) b)
        + (lam ⟨nb, hnb⟩ - lam ⟨nb - 1, by omega⟩) by rw [h5, h4]; linarith))
  obtain ⟨r, hr, h⟩ := Metric.eventually_nhds_iff.1 hev
  exact ⟨r, hr, fun x hx => h (by rwa [Real.dist_eq, sub_zero])⟩

private theorem waves_gap {N : ℕ} {lam : Fin N → ℝ} (hm : Monotone lam) (h : ∀ h0 : 0 < N, lam ≠ fun _ => lam ⟨0, h0⟩)
    (hN : N = 2) : lam ⟨1 - 1, by omega⟩ < lam ⟨1, by omega⟩ := by
  subst hN
  refine lt_of_le_of_ne (hm (Fin.zero_le _)) fun heq => h two_pos (funext fun i => ?_)
  fin_cases i
  · rfl
  · exact heq.symm

/-- The hypotheses of `band_descent_lowestNC` are met: two plane waves at the zone centre and one band, with a gap between
the two energies and independent parameters below it. -/
example (lib : XcLib) :
    let E : BandEnvNC 1 1 (Fin 1) Unit ![2, 1, 1] := { twoWaveBandNC lib with qr := gramSchmidtQR ℂ, psi := fun _ _ _ _ => 0 }
    (∀ i, 0 < ![2, 1, 1] i) ∧ Spec.Triangular E.qr ∧ ∃ hnb : 1 < maskCount E.mask,
    (1 : Matrix (Fin 3) (Fin 3) ℝ).det ≠ 0 ∧ E.g = gVectors 1 ![2, 1, 1] ∧ 0 < E.vol ∧
    ∃ (V : Idx ![2, 1, 1] → ℝ) (lam : Fin (maskCount E.mask) → ℝ) (t : PwParams 1 1 (maskCount E.mask) 1 → ℝ),
      (∀ x, V x = (ifftn E.vloc x + hartreeRealSpace E.dens E.g true x + vxcDensity lib "lda_x" E.g E.dens 0 x).re) ∧
      Spec.IsSpectrum (Spec.planeWaveHamiltonian (fun a => gVectors 1 ![2, 1, 1] (maskPos E.mask a))
        (rVectors 1 ![2, 1, 1]) V 0 + Spec.projectorMatrix E.vol
          (fun (i : Fin 1 × Fin 1) a => E.psi (0, ()) i.1 i.2 (maskPos E.mask a))) lam ∧
      (∀ q, bandTraceNC E q (0, ()) = .ok (t q)) ∧
      ∃ p0, Spec.Independent p0 ∧ ∀ d, ∃ r > 0, ∀ x, |x| < r → t (Spec.along p0 d x)
        < ∑ b : Fin (min (maskCount E.mask) 1), lam (Fin.castLE (min_le_left _ _) b)
          + (lam ⟨1, hnb⟩ - lam ⟨1 - 1, by omega⟩) := by
  intro E
  have hn : ∀ i, 0 < ![2, 1, 1] i := by decide
  have hdet : (1 : Matrix (Fin 3) (Fin 3) ℝ).det ≠ 0 := by simp
  have hvol : 0 < E.vol := by norm_num [E, twoWaveBandNC]
  let V : Idx ![2, 1, 1] → ℝ := fun x =>
    (ifftn E.vloc x + hartreeRealSpace E.dens E.g true x + vxcDensity lib "lda_x" E.g E.dens 0 x).re
  obtain ⟨lam, hl⟩ := planeWaveHamiltonianNC_spectrum (fun a => gVectors 1 ![2, 1, 1] (maskPos E.mask a))
    (rVectors 1 ![2, 1, 1]) V 0 E.vol
    (fun (i : Fin 1 × Fin 1) a => E.psi (0, ()) i.1 i.2 (maskPos E.mask a))
  have hN : 1 < maskCount E.mask := (by decide : 1 < maskCount (n := ![2, 1, 1]) (fun _ => true))
  choose t ht using fun q : PwParams 1 1 (maskCount E.mask) 1 =>
    (show ∃ t, bandTraceNC E q (0, ()) = .ok t by
      obtain ⟨t, e, h, -⟩ := bandTraceNC_bound hn E 1 hdet rfl hvol V (fun _ => rfl) q (0, ()) lam hl
      exact ⟨t, h⟩)
  have hgap : lam ⟨1 - 1, by omega⟩ < lam ⟨1, hN⟩ := waves_gap hl.1 (fun _ hc => by
    obtain ⟨a, b, hab⟩ : ∃ a b : Fin (maskCount E.mask), Spec.kineticEnergy (fun d => gVectors 1 ![2, 1, 1]
        (maskPos E.mask a) d + (0 : Fin 3 → ℝ) d) ≠ Spec.kineticEnergy (fun d => gVectors 1 ![2, 1, 1]
        (maskPos E.mask b) d + (0 : Fin 3 → ℝ) d) := twoWave_waves
    obtain ⟨-, U, hU, hH⟩ := hl
    rw [hc, show Matrix.diagonal (fun _ : Fin (maskCount E.mask) => ((lam ⟨0, by omega⟩ : ℝ) : ℂ))
        = ((lam ⟨0, by omega⟩ : ℝ) : ℂ) • (1 : Matrix _ _ ℂ) from (Matrix.smul_one_eq_diagonal _).symm, Matrix.mul_smul,
      Matrix.mul_one, Matrix.smul_mul, show U * Uᴴ = 1 from Matrix.mem_unitaryGroup_iff.1 hU] at hH
    have hd : ∀ c : Fin (maskCount E.mask), Spec.planeWaveHamiltonian (fun a => gVectors 1 ![2, 1, 1] (maskPos E.mask a))
        (rVectors 1 ![2, 1, 1]) V 0 c c = ((lam ⟨0, by omega⟩ : ℝ) : ℂ) := fun c => by
      have h1 := congrFun (congrFun hH c) c
      have hz : Spec.projectorMatrix E.vol (fun (i : Fin 1 × Fin 1) a => E.psi (0, ()) i.1 i.2 (maskPos E.mask a)) c c
        = 0 := by simp [Spec.projectorMatrix, E]
      rw [Matrix.add_apply, hz, add_zero, Matrix.smul_apply, Matrix.one_apply_eq, smul_eq_mul, mul_one] at h1
      exact h1
    have h3 := (hd a).trans (hd b).symm
    unfold Spec.planeWaveHamiltonian at h3
    simp only [if_true, sub_self] at h3
    exact hab (Complex.ofReal_inj.1 (add_right_cancel h3))) (by decide : maskCount (n := ![2, 1, 1]) (fun _ => true) = 2)
  exact ⟨hn, gramSchmidtQR_triangular ℂ, hN, hdet, rfl, hvol, V, lam, t, fun _ => rfl, hl, ht,
    lowest_start_existsNC hn E (gramSchmidtQR_triangular ℂ) hN 1 hdet rfl hvol V (fun _ => rfl) (0, ()) lam hl t ht hgap⟩

end Jrystal
