import Verif.Lemmas.RitzPath
import Verif.Lemmas.Descent
import Verif.Props.BandGradient
import Verif.Props.RandomStart

/- C135: gradient descent on the band objective converges to exact eigenvalues. -/
namespace Jrystal
open scoped BigOperators ComplexConjugate Topology
open Matrix

private theorem product_small {ns g nb : ℕ} {p G : ℕ → PwParams ns 1 g nb} {s : Fin ns}
    (hB : ∃ B, ∀ i, Spec.paramSize (p i) s 0 ≤ B)
    (h0 : Filter.Tendsto (fun i => Spec.paramSize (G i) s 0) Filter.atTop (𝓝 0)) {ε : ℝ} (hε : 0 < ε) :
    ∃ T, ∀ i ≥ T, Spec.paramSize (G i) s 0 * Spec.paramSize (p i) s 0 / 2 ≤ ε := by
  obtain ⟨B, hB⟩ := hB
  have hB0 : 0 ≤ B := (Real.sqrt_nonneg _).trans (hB 0)
  have h1 := (h0.mul_const B).div_const 2
  rw [zero_mul, zero_div] at h1
  obtain ⟨T, hT⟩ := Filter.eventually_atTop.1 (h1.eventually (gt_mem_nhds hε))
  refine ⟨T, fun i hi => le_trans ?_ (hT i hi).le⟩
  exact div_le_div_of_nonneg_right (mul_le_mul_of_nonneg_left (hB i) (Real.sqrt_nonneg _)) two_pos.le

private theorem best_step {ns g nb : ℕ} {p G : ℕ → PwParams ns 1 g nb} (hB : ∀ s, ∃ B, ∀ i, Spec.paramSize (p i) s 0 ≤ B)
    (C : Fin ns → ℝ) (hC : ∀ s T, ∑ i ∈ Finset.range T, Spec.paramSize (G i) s 0 ^ 2 ≤ C s) :
    ∃ C', ∀ T, 0 < T → ∃ i < T, ∀ s, Spec.paramSize (G i) s 0 * Spec.paramSize (p i) s 0 / 2 ≤ C' / Real.sqrt T := by
  choose B hB using hB
  have hB0 : ∀ s, 0 ≤ B s := fun s => (Real.sqrt_nonneg _).trans (hB s 0)
  have hC0 : ∀ s, 0 ≤ C s := fun s => by simpa using hC s 0
  refine ⟨Real.sqrt (∑ s, C s) * (∑ s, B s) / 2, fun T hT => ?_⟩
  have hT' : (0 : ℝ) < T := Nat.cast_pos.2 hT
  have hsum : ∑ i ∈ Finset.range T, ∑ s, Spec.paramSize (G i) s 0 ^ 2 ≤ ∑ _i ∈ Finset.range T, (∑ s, C s) / T := by
    rw [Finset.sum_comm, Finset.sum_const, Finset.card_range, nsmul_eq_mul, mul_div_cancel₀ _ hT'.ne']
    exact Finset.sum_le_sum fun s _ => hC s T
  obtain ⟨i, hi, h⟩ := Finset.exists_le_of_sum_le (Finset.nonempty_range_iff.2 hT.ne') hsum
  refine ⟨i, Finset.mem_range.1 hi, fun s => ?_⟩
  have h1 : Spec.paramSize (G i) s 0 ≤ Real.sqrt (∑ s, C s) / Real.sqrt T := by
    rw [← Real.sqrt_div (Finset.sum_nonneg fun s _ => hC0 s)]
    refine Real.le_sqrt_of_sq_le (le_trans ?_ h)
    exact Finset.single_le_sum (f := fun s => Spec.paramSize (G i) s 0 ^ 2) (fun s _ => sq_nonneg _) (Finset.mem_univ s)
  have h2 : Spec.paramSize (p i) s 0 ≤ ∑ s, B s :=
    (hB s i).trans (Finset.single_le_sum (fun s _ => hB0 s) (Finset.mem_univ s))
  have h3 := mul_le_mul h1 h2 (Real.sqrt_nonneg _) (by positivity)
  calc _ ≤ Real.sqrt (∑ s, C s) / Real.sqrt T * (∑ s, B s) / 2 := div_le_div_of_nonneg_right h3 two_pos.le
    _ = _ := by ring

theorem descent_core {ns g nb : ℕ} {qr : QR ℂ} (htri : Spec.Triangular qr) (hnb : nb ≤ g)
    {F : Matrix (Fin g) (Fin g) ℂ} {lam : Fin g → ℝ} (hl : Spec.IsSpectrum F lam) {a c : ℝ} (ha : 0 < a) (η : ℕ → ℝ)
    (hη : ∀ i, a ≤ η i ∧ η i ≤ c) (p G : ℕ → PwParams ns 1 g nb) (hp : Spec.Independent (p 0))
    (hG : ∀ i, (∃ D, Spec.IsParamGradient (spinTrace qr F) (p i) D) → Spec.IsParamGradient (spinTrace qr F) (p i) (G i))
    (hstep : ∀ i, p (i + 1) = Spec.descend (p i) (G i) (η i)) :
    (∀ i, Spec.Independent (p i) ∧ Spec.IsParamGradient (spinTrace qr F) (p i) (G i)) ∧
    (∀ s, ∃ B, ∀ i, Spec.paramSize (p i) s 0 ≤ B) ∧
    (∀ s, Filter.Tendsto (fun i => Spec.paramSize (G i) s 0) Filter.atTop (𝓝 0)) ∧
    (∃ C, ∀ T, 0 < T → ∃ i < T, ∀ s, Spec.paramSize (G i) s 0 * Spec.paramSize (p i) s 0 / 2 ≤ C / Real.sqrt T) ∧
    ∀ s (e : ℕ → Fin (min g nb) → ℝ),
      (∀ i, Spec.IsSpectrum ((Matrix.of (unitaryMatrix qr (p i) s 0))ᴴ * F * Matrix.of (unitaryMatrix qr (p i) s 0)) (e i)) →
      ∃ σ : Fin (min g nb) → Fin g, Function.Injective σ ∧
        ∀ b, Filter.Tendsto (fun i => e i b) Filter.atTop (𝓝 (lam (σ b))) := by
  have hherm := spectrum_hermitian hl
  have grad : ∀ i, Spec.Independent (p i) → Spec.IsParamGradient (spinTrace qr F) (p i) (G i) ∧
      ∀ s, Spec.bandMatrix (G i) s 0 = ritzGrad F (Spec.bandMatrix (p i) s 0) := by
    intro i hi
    obtain ⟨D, h1, h2⟩ := spinTrace_gradient htri hnb hherm (p i) hi
    have h3 := hG i ⟨D, h1⟩
    exact ⟨h3, by rw [gradient_unique h3 h1]; exact h2⟩
  have hind : ∀ i, Spec.Independent (p i) := by
    intro i
    induction i with
    | zero => exact hp
    | succ i ih =>
      intro s k
      rw [Subsingleton.elim k 0, hstep]
      refine Descent.col_injective (W := Spec.bandMatrix (Spec.descend (p i) (G i) (η i)) s 0)
        (D := (Spec.bandMatrix (p i) s 0)ᴴ) ?_
      rw [Descent.descend_band, (grad i ih).2 s, Matrix.mul_sub, Matrix.mul_smul, ritzGrad_orth F (W := Spec.bandMatrix (p i) s 0) (gram_unit (ih s 0)),
        smul_zero, sub_zero]
      exact gram_unit (ih s 0)
  have hrun : ∀ s i, Spec.bandMatrix (p (i + 1)) s 0 = Spec.bandMatrix (p i) s 0
      - (η i : ℂ) • ritzGrad F (Spec.bandMatrix (p i) s 0) := fun s i => by
    rw [hstep, Descent.descend_band, (grad i (hind i)).2 s]
  have run : ∀ s, _ := fun s => RitzDescent.ritz_descent hl (fun i => Spec.bandMatrix (p i) s 0) (gram_unit (hp s 0)) ha hη
    (hrun s)
  have hB : ∀ s, ∃ B, ∀ i, Spec.paramSize (p i) s 0 ≤ B := fun s => by
    obtain ⟨B, hB⟩ := (run s).2.2.1
    exact ⟨B, fun i => by rw [paramSize_eq]; exact hB i⟩
  have h0 : ∀ s, Filter.Tendsto (fun i => Spec.paramSize (G i) s 0) Filter.atTop (𝓝 0) := fun s =>
    (run s).2.2.2.2.congr fun i => by rw [paramSize_eq, (grad i (hind i)).2 s]
  refine ⟨fun i => ⟨hind i, (grad i (hind i)).1⟩, hB, h0, ?_, fun s e he => RitzDescent.settle e lam (fun b => ?_) fun ε hε => ?_⟩
  · choose C hC using fun s => (run s).2.2.2.1
    exact best_step hB C fun s T => by
      refine le_trans (le_of_eq (Finset.sum_congr rfl fun i _ => ?_)) (hC s T)
      rw [paramSize_eq, (grad i (hind i)).2 s]
  · exact RitzDescent.descent_moves (min_eq_right hnb) hl (fun i => Spec.bandMatrix (p i) s 0) (gram_unit (hp s 0)) ha hη
      (hrun s) (fun i => Matrix.of (unitaryMatrix qr (p i) s 0)) (fun i => qr.orth _) (fun i => qr_factor htri (p i) s) e he b
  · obtain ⟨T, hT⟩ := product_small (hB s) (h0 s) hε
    refine ⟨T, fun i hi => ?_⟩
    obtain ⟨σ, h1, h2⟩ := spectra_distance htri hnb hl (p i) (G i) (hind i) s ((grad i (hind i)).2 s) (he i)
    exact ⟨σ, h1, fun b => (h2 b).trans (hT i hi)⟩

/-- C135, all-electron driver: gradient descent at a k point, with step sizes between any two positive bounds and from
independent bands.  The bands stay independent and bounded, the gradient tends to zero, and each reported energy
converges to an exact eigenvalue, different bands to different ones. -/
theorem band_descent_converges {na ns nb : ℕ} {n : Fin 3 → ℕ} (E : BandEnv na 1 n) (htri : Spec.Triangular E.qr)
    (hnb : nb ≤ maskCount E.mask)
    (A : Matrix (Fin 3) (Fin 3) ℝ) (hA : A.det ≠ 0) (hg : E.g = gVectors A n) (hvol : 0 < E.vol)
    (V : Idx n → ℝ)
    (hV : ∀ x, V x = (hartreeRealSpace E.dens E.g true x + externalPotential E.pos E.charge E.g E.vol x
      + vxcDensity E.lib E.xc E.g E.dens 0 x).re)
    (k : Fin 3 → ℝ) (lam : Fin (maskCount E.mask) → ℝ)
    (hl : Spec.IsSpectrum (Spec.planeWaveHamiltonian (fun a => gVectors A n (maskPos E.mask a))
      (rVectors A n) V k) lam)
    (t : PwParams ns 1 (maskCount E.mask) nb → ℝ) (ht : ∀ q, bandTrace E q k = .ok (t q)) (a c : ℝ) (ha : 0 < a)
    (η : ℕ → ℝ) (hη : ∀ i, a ≤ η i ∧ η i ≤ c) (p G : ℕ → PwParams ns 1 (maskCount E.mask) nb)
    (hp : Spec.Independent (p 0))
    (hG : ∀ i, (∃ D, Spec.IsParamGradient t (p i) D) → Spec.IsParamGradient t (p i) (G i))
    (hstep : ∀ i, p (i + 1) = Spec.descend (p i) (G i) (η i)) :
    (∀ i, Spec.Independent (p i) ∧ Spec.IsParamGradient t (p i) (G i)) ∧
    (∀ s, ∃ B, ∀ i, Spec.paramSize (p i) s 0 ≤ B) ∧
    (∀ s, Filter.Tendsto (fun i => Spec.paramSize (G i) s 0) Filter.atTop (𝓝 0)) ∧
    ∀ s, ∃ e : ℕ → Fin (min (maskCount E.mask) nb) → ℝ, (∀ i, bandEig E (p i) k s = .ok (e i)) ∧
      ∃ σ : Fin (min (maskCount E.mask) nb) → Fin (maskCount E.mask), Function.Injective σ ∧
        ∀ b, Filter.Tendsto (fun i => e i b) Filter.atTop (𝓝 (lam (σ b))) := by
  have hcore := descent_core htri hnb hl ha η hη p G hp
  rw [← bandTrace_spin E A hA hg hvol V hV k t ht] at hcore
  obtain ⟨h1, h2, h3, -, h4⟩ := hcore hG hstep
  refine ⟨h1, h2, h3, fun s => ?_⟩
  have hb := basis_planeWave E A hA hg hvol (fun _ => V) (fun σ x => by
    rw [hV, Subsingleton.elim σ 0]) k
  rw [Fin.sum_univ_one] at hb
  choose e g1 g2 g3 using fun i => bandEig_spectrum E (p i) k _ hb s
  exact ⟨e, g1, h4 s e g3⟩

/-- C135, norm-conserving driver: gradient descent at a k point, with step sizes between any two positive bounds and from
independent bands.  The bands stay independent and bounded, the gradient tends to zero, and each reported energy
converges to an exact eigenvalue, different bands to different ones. -/
theorem band_descent_convergesNC {M nb : ℕ} {ι β : Type} [Fintype ι] {n : Fin 3 → ℕ} (hn : ∀ i, 0 < n i)
    (E : BandEnvNC 1 M ι β n) (htri : Spec.Triangular E.qr)
    (hnb : nb ≤ maskCount E.mask)
    (A : Matrix (Fin 3) (Fin 3) ℝ) (hA : A.det ≠ 0) (hg : E.g = gVectors A n) (hvol : 0 < E.vol)
    (V : Idx n → ℝ)
    (hV : ∀ x, V x = (ifftn E.vloc x + hartreeRealSpace E.dens E.g true x
      + vxcDensity E.lib E.xc E.g E.dens 0 x).re)
    (k : (Fin 3 → ℝ) × β) (lam : Fin (maskCount E.mask) → ℝ)
    (hl : Spec.IsSpectrum (Spec.planeWaveHamiltonian (fun a => gVectors A n (maskPos E.mask a))
        (rVectors A n) V k.1 + Spec.projectorMatrix E.vol
          (fun (i : ι × Fin M) a => E.psi k i.1 i.2 (maskPos E.mask a))) lam)
    (t : PwParams 1 1 (maskCount E.mask) nb → ℝ) (ht : ∀ q, bandTraceNC E q k = .ok (t q)) (a c : ℝ) (ha : 0 < a)
    (η : ℕ → ℝ) (hη : ∀ i, a ≤ η i ∧ η i ≤ c) (p G : ℕ → PwParams 1 1 (maskCount E.mask) nb)
    (hp : Spec.Independent (p 0))
    (hG : ∀ i, (∃ D, Spec.IsParamGradient t (p i) D) → Spec.IsParamGradient t (p i) (G i))
    (hstep : ∀ i, p (i + 1) = Spec.descend (p i) (G i) (η i)) :
    (∀ i, Spec.Independent (p i) ∧ Spec.IsParamGradient t (p i) (G i)) ∧
    (∀ s, ∃ B, ∀ i, Spec.paramSize (p i) s 0 ≤ B) ∧
    (∀ s, Filter.Tendsto (fun i => Spec.paramSize (G i) s 0) Filter.atTop (𝓝 0)) ∧
    ∃ e : ℕ → Fin (min (maskCount E.mask) nb) → ℝ, (∀ i, bandEigNC E (p i) k = .ok ⟨1, fun _ => e i⟩) ∧
      ∃ σ : Fin (min (maskCount E.mask) nb) → Fin (maskCount E.mask), Function.Injective σ ∧
        ∀ b, Filter.Tendsto (fun i => e i b) Filter.atTop (𝓝 (lam (σ b))) := by
  have hcore := descent_core htri hnb hl ha η hη p G hp
  rw [← bandTraceNC_spin hn E A hA hg hvol V hV k t ht] at hcore
  obtain ⟨h1, h2, h3, -, h4⟩ := hcore hG hstep
  choose e g0 g1 g3 using fun i => bandEigNC_eq E A hA hg hvol V hV (p i) k
  exact ⟨h1, h2, h3, e, g1, h4 0 e g3⟩

/-- C135, all-electron driver: how fast gradient descent is.  Among the first `T` steps there is one whose reported energies
are all within a constant over the square root of `T` of exact eigenvalues. -/
theorem band_descent_rate {na ns nb : ℕ} {n : Fin 3 → ℕ} (E : BandEnv na 1 n) (htri : Spec.Triangular E.qr)
    (hnb : nb ≤ maskCount E.mask)
    (A : Matrix (Fin 3) (Fin 3) ℝ) (hA : A.det ≠ 0) (hg : E.g = gVectors A n) (hvol : 0 < E.vol)
    (V : Idx n → ℝ)
    (hV : ∀ x, V x = (hartreeRealSpace E.dens E.g true x + externalPotential E.pos E.charge E.g E.vol x
      + vxcDensity E.lib E.xc E.g E.dens 0 x).re)
    (k : Fin 3 → ℝ) (lam : Fin (maskCount E.mask) → ℝ)
    (hl : Spec.IsSpectrum (Spec.planeWaveHamiltonian (fun a => gVectors A n (maskPos E.mask a))
      (rVectors A n) V k) lam)
    (t : PwParams ns 1 (maskCount E.mask) nb → ℝ) (ht : ∀ q, bandTrace E q k = .ok (t q)) (a c : ℝ) (ha : 0 < a)
    (η : ℕ → ℝ) (hη : ∀ i, a ≤ η i ∧ η i ≤ c) (p G : ℕ → PwParams ns 1 (maskCount E.mask) nb)
    (hp : Spec.Independent (p 0))
    (hG : ∀ i, (∃ D, Spec.IsParamGradient t (p i) D) → Spec.IsParamGradient t (p i) (G i))
    (hstep : ∀ i, p (i + 1) = Spec.descend (p i) (G i) (η i)) :
    ∃ C, ∀ T : ℕ, 0 < T → ∃ i < T, ∀ s, ∃ e, bandEig E (p i) k s = .ok e ∧
      ∃ σ : Fin (min (maskCount E.mask) nb) → Fin (maskCount E.mask), Function.Injective σ ∧
        ∀ b, |e b - lam (σ b)| ≤ C / Real.sqrt T := by
  have hgrad := fun i hi => (band_gradient_accuracy E htri hnb A hA hg hvol V hV k lam hl t ht (p i) hi).2
  have hcore := descent_core htri hnb hl ha η hη p G hp
  rw [← bandTrace_spin E A hA hg hvol V hV k t ht] at hcore
  obtain ⟨h1, -, -, ⟨C, hC⟩, -⟩ := hcore hG hstep
  refine ⟨C, fun T hT => ?_⟩
  obtain ⟨i, hi, h⟩ := hC T hT
  refine ⟨i, hi, fun s => ?_⟩
  obtain ⟨-, g⟩ := hgrad i (h1 i).1 (G i) (h1 i).2
  obtain ⟨e, g1, σ, g2, g3⟩ := g s
  exact ⟨e, g1, σ, g2, fun b => (g3 b).trans (h s)⟩

/-- C135, norm-conserving driver: how fast gradient descent is.  Among the first `T` steps there is one whose reported
energies are all within a constant over the square root of `T` of exact eigenvalues. -/
theorem band_descent_rateNC {M nb : ℕ} {ι β : Type} [Fintype ι] {n : Fin 3 → ℕ} (hn : ∀ i, 0 < n i)
    (E : BandEnvNC 1 M ι β n) (htri : Spec.Triangular E.qr)
    (hnb : nb ≤ maskCount E.mask)
    (A : Matrix (Fin 3) (Fin 3) ℝ) (hA : A.det ≠ 0) (hg : E.g = gVectors A n) (hvol : 0 < E.vol)
    (V : Idx n → ℝ)
    (hV : ∀ x, V x = (ifftn E.vloc x + hartreeRealSpace E.dens E.g true x
      + vxcDensity E.lib E.xc E.g E.dens 0 x).re)
    (k : (Fin 3 → ℝ) × β) (lam : Fin (maskCount E.mask) → ℝ)
    (hl : Spec.IsSpectrum (Spec.planeWaveHamiltonian (fun a => gVectors A n (maskPos E.mask a))
        (rVectors A n) V k.1 + Spec.projectorMatrix E.vol
          (fun (i : ι × Fin M) a => E.psi k i.1 i.2 (maskPos E.mask a))) lam)
    (t : PwParams 1 1 (maskCount E.mask) nb → ℝ) (ht : ∀ q, bandTraceNC E q k = .ok (t q)) (a c : ℝ) (ha : 0 < a)
    (η : ℕ → ℝ) (hη : ∀ i, a ≤ η i ∧ η i ≤ c) (p G : ℕ → PwParams 1 1 (maskCount E.mask) nb)
    (hp : Spec.Independent (p 0))
    (hG : ∀ i, (∃ D, Spec.IsParamGradient t (p i) D) → Spec.IsParamGradient t (p i) (G i))
    (hstep : ∀ i, p (i + 1) = Spec.descend (p i) (G i) (η i)) :
    ∃ C, ∀ T : ℕ, 0 < T → ∃ i < T, ∃ e, bandEigNC E (p i) k = .ok ⟨1, fun _ => e⟩ ∧
      ∃ σ : Fin (min (maskCount E.mask) nb) → Fin (maskCount E.mask), Function.Injective σ ∧
        ∀ b, |e b - lam (σ b)| ≤ C / Real.sqrt T := by
  have hgrad := fun i hi => (band_gradient_accuracyNC hn E htri hnb A hA hg hvol V hV k lam hl t ht (p i) hi).2
  have hcore := descent_core htri hnb hl ha η hη p G hp
  rw [← bandTraceNC_spin hn E A hA hg hvol V hV k t ht] at hcore
  obtain ⟨h1, -, -, ⟨C, hC⟩, -⟩ := hcore hG hstep
  refine ⟨C, fun T hT => ?_⟩
  obtain ⟨i, hi, h⟩ := hC T hT
  obtain ⟨-, e, g1, σ, g2, g3⟩ := hgrad i (h1 i).1 (G i) (h1 i).2
  exact ⟨i, hi, e, g1, σ, g2, fun b => (g3 b).trans (h 0)⟩

private theorem descend_along {ns nk g nb : ℕ} (p G : PwParams ns nk g nb) (η : ℝ) :
    Spec.descend p G η = Spec.along p G (-η) := by
  simp only [Spec.descend, Spec.along, neg_mul, sub_eq_add_neg]

/-- C135, all-electron driver: a whole band structure, where the k point may change at any step and the parameters are
carried over.  Whatever the step sizes, the bands stay independent and every gradient exists. -/
theorem band_path_run {na ns nb : ℕ} {n : Fin 3 → ℕ} (E : BandEnv na 1 n) (htri : Spec.Triangular E.qr)
    (hnb : nb ≤ maskCount E.mask)
    (A : Matrix (Fin 3) (Fin 3) ℝ) (hA : A.det ≠ 0) (hg : E.g = gVectors A n) (hvol : 0 < E.vol)
    (t : (Fin 3 → ℝ) → PwParams ns 1 (maskCount E.mask) nb → ℝ) (ht : ∀ k q, bandTrace E q k = .ok (t k q))
    (k : ℕ → Fin 3 → ℝ) (η : ℕ → ℝ) (p G : ℕ → PwParams ns 1 (maskCount E.mask) nb) (hp : Spec.Independent (p 0))
    (hG : ∀ i, (∃ D, Spec.IsParamGradient (t (k i)) (p i) D) → Spec.IsParamGradient (t (k i)) (p i) (G i))
    (hstep : ∀ i, p (i + 1) = Spec.descend (p i) (G i) (η i)) (i : ℕ) :
    Spec.Independent (p i) ∧ Spec.IsParamGradient (t (k i)) (p i) (G i) := by
  have key : ∀ i, Spec.Independent (p i) → Spec.IsParamGradient (t (k i)) (p i) (G i) ∧ Spec.Independent (p (i + 1)) := by
    intro i hi
    obtain ⟨lam, hl⟩ := planeWaveHamiltonian_spectrum (fun a => gVectors A n (maskPos E.mask a)) (rVectors A n)
      (fun x => (hartreeRealSpace E.dens E.g true x + externalPotential E.pos E.charge E.g E.vol x
        + vxcDensity E.lib E.xc E.g E.dens 0 x).re) (k i)
    have h := band_gradient_accuracy E htri hnb A hA hg hvol _ (fun _ => rfl) (k i) lam hl (t (k i)) (ht (k i)) (p i) hi
    have h1 := hG i h.1
    exact ⟨h1, by rw [hstep, descend_along]; exact (h.2 _ h1).1 _⟩
  have hind : ∀ i, Spec.Independent (p i) := fun i => by
    induction i with
    | zero => exact hp
    | succ i ih => exact (key i ih).2
  exact ⟨hind i, (key i (hind i)).1⟩

/-- C135, norm-conserving driver: a whole band structure, where the k point may change at any step and the parameters are
carried over.  Whatever the step sizes, the bands stay independent and every gradient exists. -/
theorem band_path_runNC {M nb : ℕ} {ι β : Type} [Fintype ι] {n : Fin 3 → ℕ} (hn : ∀ i, 0 < n i)
    (E : BandEnvNC 1 M ι β n) (htri : Spec.Triangular E.qr) (hnb : nb ≤ maskCount E.mask)
    (A : Matrix (Fin 3) (Fin 3) ℝ) (hA : A.det ≠ 0) (hg : E.g = gVectors A n) (hvol : 0 < E.vol)
    (t : (Fin 3 → ℝ) × β → PwParams 1 1 (maskCount E.mask) nb → ℝ) (ht : ∀ k q, bandTraceNC E q k = .ok (t k q))
    (k : ℕ → (Fin 3 → ℝ) × β) (η : ℕ → ℝ) (p G : ℕ → PwParams 1 1 (maskCount E.mask) nb) (hp : Spec.Independent (p 0))
    (hG : ∀ i, (∃ D, Spec.IsParamGradient (t (k i)) (p i) D) → Spec.IsParamGradient (t (k i)) (p i) (G i))
    (hstep : ∀ i, p (i + 1) = Spec.descend (p i) (G i) (η i)) (i : ℕ) :
    Spec.Independent (p i) ∧ Spec.IsParamGradient (t (k i)) (p i) (G i) := by
  have key : ∀ i, Spec.Independent (p i) → Spec.IsParamGradient (t (k i)) (p i) (G i) ∧ Spec.Independent (p (i + 1)) := by
    intro i hi
    obtain ⟨lam, hl⟩ := planeWaveHamiltonianNC_spectrum (fun a => gVectors A n (maskPos E.mask a)) (rVectors A n)
      (fun x => (ifftn E.vloc x + hartreeRealSpace E.dens E.g true x + vxcDensity E.lib E.xc E.g E.dens 0 x).re) (k i).1
      E.vol (fun (j : ι × Fin M) a => E.psi (k i) j.1 j.2 (maskPos E.mask a))
    have h := band_gradient_accuracyNC hn E htri hnb A hA hg hvol _ (fun _ => rfl) (k i) lam hl (t (k i)) (ht (k i)) (p i) hi
    have h1 := hG i h.1
    exact ⟨h1, by rw [hstep, descend_along]; exact (h.2 _ h1).1 _⟩
  have hind : ∀ i, Spec.Independent (p i) := fun i => by
    induction i with
    | zero => exact hp
    | succ i ih => exact (key i ih).2
  exact ⟨hind i, (key i (hind i)).1⟩

/-- Every start and every step sizes have a run that the theorems above speak about. -/
theorem descent_run_exists {ns nk g nb : ℕ} (t : PwParams ns nk g nb → ℝ) (η : ℕ → ℝ) (p0 : PwParams ns nk g nb) :
    ∃ p G : ℕ → PwParams ns nk g nb, p 0 = p0 ∧
      (∀ i, (∃ D, Spec.IsParamGradient t (p i) D) → Spec.IsParamGradient t (p i) (G i)) ∧
      ∀ i, p (i + 1) = Spec.descend (p i) (G i) (η i) := by
  classical
  let gr : PwParams ns nk g nb → PwParams ns nk g nb := fun q =>
    if h : ∃ D, Spec.IsParamGradient t q D then h.choose else q
  let p : ℕ → PwParams ns nk g nb := fun i => Nat.rec p0 (fun i q => Spec.descend q (gr q) (η i)) i
  refine ⟨p, fun i => gr (p i), rfl, fun i h => ?_, fun i => rfl⟩
  show Spec.IsParamGradient t (p i) (gr (p i))
  simp only [gr, dif_pos h]
  exact h.choose_spec

/-- The hypotheses of `band_descent_converges` and `band_descent_rate` are met: two plane waves, two spins and one band, from a random start,
with step sizes between one and two. -/
example (lib : XcLib) :
    Spec.Triangular (twoWaveTrained lib).qr ∧ 1 ≤ maskCount (twoWaveTrained lib).mask ∧
    (1 : Matrix (Fin 3) (Fin 3) ℝ).det ≠ 0 ∧ (twoWaveTrained lib).g = gVectors 1 ![2, 1, 1] ∧
    0 < (twoWaveTrained lib).vol ∧
    ∃ (V : Idx ![2, 1, 1] → ℝ) (lam : Fin (maskCount (twoWaveTrained lib).mask) → ℝ)
      (t : PwParams 2 1 (maskCount (twoWaveTrained lib).mask) 1 → ℝ)
      (p G : ℕ → PwParams 2 1 (maskCount (twoWaveTrained lib).mask) 1),
      (∀ x, V x = (hartreeRealSpace (twoWaveTrained lib).dens (twoWaveTrained lib).g true x
        + externalPotential (twoWaveTrained lib).pos (twoWaveTrained lib).charge (twoWaveTrained lib).g 1 x
        + vxcDensity lib "lda_x" (twoWaveTrained lib).g (twoWaveTrained lib).dens 0 x).re) ∧
      Spec.IsSpectrum (Spec.planeWaveHamiltonian (fun a => gVectors 1 ![2, 1, 1]
        (maskPos (twoWaveTrained lib).mask a)) (rVectors 1 ![2, 1, 1]) V 0) lam ∧
      (∀ q, bandTrace (twoWaveTrained lib) q 0 = .ok (t q)) ∧ Spec.Independent (p 0) ∧
      (∀ i : ℕ, (1 : ℝ) ≤ 1 + 1 / (i + 1) ∧ 1 + 1 / ((i : ℝ) + 1) ≤ 2) ∧
      (∀ i, (∃ D, Spec.IsParamGradient t (p i) D) → Spec.IsParamGradient t (p i) (G i)) ∧
      ∀ i, p (i + 1) = Spec.descend (p i) (G i) (1 + 1 / (i + 1)) := by
  let V : Idx ![2, 1, 1] → ℝ := fun x => (hartreeRealSpace (twoWaveTrained lib).dens (twoWaveTrained lib).g true x
        + externalPotential (twoWaveTrained lib).pos (twoWaveTrained lib).charge (twoWaveTrained lib).g 1 x
        + vxcDensity lib "lda_x" (twoWaveTrained lib).g (twoWaveTrained lib).dens 0 x).re
  obtain ⟨lam, hl⟩ := planeWaveHamiltonian_spectrum (fun a => gVectors 1 ![2, 1, 1]
        (maskPos (twoWaveTrained lib).mask a)) (rVectors 1 ![2, 1, 1]) V 0
  have hdet : (1 : Matrix (Fin 3) (Fin 3) ℝ).det ≠ 0 := by simp
  have hvol : 0 < (twoWaveTrained lib).vol := by norm_num [twoWaveTrained, twoWaveBand]
  have hN : 1 ≤ maskCount (twoWaveTrained lib).mask := (by decide : 1 ≤ maskCount (n := ![2, 1, 1]) (fun _ => true))
  choose t ht using fun q : PwParams 2 1 (maskCount (twoWaveTrained lib).mask) 1 =>
    (show ∃ t, bandTrace (twoWaveTrained lib) q 0 = .ok t by
      obtain ⟨t, e, h, -⟩ := bandTrace_bound (twoWaveTrained lib) 1 hdet rfl hvol V (fun _ => rfl) q 0 lam hl
      exact ⟨t, h⟩)
  obtain ⟨w, hw⟩ := (draw_independent (ns := 2) (nk := 1) (g := maskCount (twoWaveTrained lib).mask) (nb := 1)).1 hN |>.exists
  obtain ⟨p, G, h0, h1, h2⟩ := descent_run_exists t (fun i => 1 + 1 / ((i : ℝ) + 1)) (Spec.paramsOf w)
  refine ⟨gramSchmidtQR_triangular ℂ, hN, hdet, rfl, hvol, V, lam, t, p, G, fun _ => rfl, hl, ht, by rw [h0]; exact hw,
    fun i => ?_, h1, h2⟩
  have hi : (0 : ℝ) < (i : ℝ) + 1 := by positivity
  have h3 : 1 / ((i : ℝ) + 1) ≤ 1 := by
    rw [div_le_one hi]
    linarith [(Nat.cast_nonneg i : (0 : ℝ) ≤ i)]
  exact ⟨le_add_of_nonneg_right (by positivity), by linarith⟩

/-- The hypotheses of the theorems of the norm-conserving driver are met: two plane waves, one projector and one band, from
a random start, with step size one. -/
example (lib : XcLib) :
    let E : BandEnvNC 1 1 (Fin 1) Unit ![2, 1, 1] := { twoWaveBandNC lib with qr := gramSchmidtQR ℂ }
    (∀ i, 0 < ![2, 1, 1] i) ∧ Spec.Triangular E.qr ∧ 1 ≤ maskCount E.mask ∧
    (1 : Matrix (Fin 3) (Fin 3) ℝ).det ≠ 0 ∧ E.g = gVectors 1 ![2, 1, 1] ∧ 0 < E.vol ∧
    ∃ (V : Idx ![2, 1, 1] → ℝ) (lam : Fin (maskCount E.mask) → ℝ) (t : PwParams 1 1 (maskCount E.mask) 1 → ℝ)
      (p G : ℕ → PwParams 1 1 (maskCount E.mask) 1),
      (∀ x, V x = (ifftn E.vloc x + hartreeRealSpace E.dens E.g true x + vxcDensity lib "lda_x" E.g E.dens 0 x).re) ∧
      Spec.IsSpectrum (Spec.planeWaveHamiltonian (fun a => gVectors 1 ![2, 1, 1] (maskPos E.mask a))
        (rVectors 1 ![2, 1, 1]) V (fun _ => 1) + Spec.projectorMatrix E.vol
          (fun (i : Fin 1 × Fin 1) a => E.psi (fun _ => 1, ()) i.1 i.2 (maskPos E.mask a))) lam ∧
      (∀ q, bandTraceNC E q (fun _ => 1, ()) = .ok (t q)) ∧ Spec.Independent (p 0) ∧
      (∀ i, (∃ D, Spec.IsParamGradient t (p i) D) → Spec.IsParamGradient t (p i) (G i)) ∧
      ∀ i, p (i + 1) = Spec.descend (p i) (G i) 1 := by
  intro E
  have hn : ∀ i, 0 < ![2, 1, 1] i := by decide
  have hdet : (1 : Matrix (Fin 3) (Fin 3) ℝ).det ≠ 0 := by simp
  have hvol : 0 < E.vol := by norm_num [E, twoWaveBandNC]
  let V : Idx ![2, 1, 1] → ℝ := fun x =>
    (ifftn E.vloc x + hartreeRealSpace E.dens E.g true x + vxcDensity lib "lda_x" E.g E.dens 0 x).re
  obtain ⟨lam, hl⟩ := planeWaveHamiltonianNC_spectrum (fun a => gVectors 1 ![2, 1, 1] (maskPos E.mask a))
    (rVectors 1 ![2, 1, 1]) V (fun _ => 1) E.vol
    (fun (i : Fin 1 × Fin 1) a => E.psi (fun _ => 1, ()) i.1 i.2 (maskPos E.mask a))
  choose t ht using fun q : PwParams 1 1 (maskCount E.mask) 1 =>
    (show ∃ t, bandTraceNC E q (fun _ => 1, ()) = .ok t by
      obtain ⟨t, e, h, -⟩ := bandTraceNC_bound hn E 1 hdet rfl hvol V (fun _ => rfl) q (fun _ => 1, ()) lam hl
      exact ⟨t, h⟩)
  have hN : 1 ≤ maskCount E.mask := (by decide : 1 ≤ maskCount (n := ![2, 1, 1]) (fun _ => true))
  obtain ⟨w, hw⟩ := (draw_independent (ns := 1) (nk := 1) (g := maskCount E.mask) (nb := 1)).1 hN |>.exists
  obtain ⟨p, G, h0, h1, h2⟩ := descent_run_exists t (fun _ => 1) (Spec.paramsOf w)
  exact ⟨hn, gramSchmidtQR_triangular ℂ, hN, hdet, rfl, hvol, V, lam, t, p, G, fun _ => rfl, hl, ht, by rw [h0]; exact hw,
    h1, h2⟩

end Jrystal
