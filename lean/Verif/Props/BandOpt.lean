import Verif.Model.BandOpt
import Verif.Lemmas.Spectrum
import Verif.Props.Hamiltonian
import Verif.Props.Band
import Verif.Props.Occupation
import Verif.Props.Planewave

/- C71 and C72: band energies are bounds of the exact eigenvalues, and what the optimisation minimises. -/
namespace Jrystal
open scoped BigOperators ComplexConjugate
open Matrix

/-- The matrix between the plane waves of the mask is the sum of the Hamiltonians of the density channels. -/
theorem basis_planeWave {na d : ℕ} {n : Fin 3 → ℕ} (E : BandEnv na d n)
    (A : Matrix (Fin 3) (Fin 3) ℝ) (hA : A.det ≠ 0) (hg : E.g = gVectors A n) (hvol : 0 < E.vol)
    (V : Fin d → Idx n → ℝ)
    (hV : ∀ σ x, V σ x = (hartreeRealSpace E.dens E.g true x + externalPotential E.pos E.charge E.g E.vol x
      + vxcDensity E.lib E.xc E.g E.dens σ x).re) (k : Fin 3 → ℝ) :
    hamiltonianMatrixBasis E.lib E.xc true E.mask E.pos E.charge E.dens E.g k E.vol
      = .ok (∑ σ, Spec.planeWaveHamiltonian (fun a => gVectors A n (maskPos E.mask a)) (rVectors A n) (V σ) k) := by
  obtain ⟨H, h1, h2⟩ := hamiltonianMatrixBasis_elements E.lib E.xc true A hA E.mask E.pos E.charge E.dens k
    E.vol hvol d _ (effectivePotential_channels E.lib E.xc E.dens E.pos E.charge (gVectors A n) E.vol).1
  rw [hg, h1]
  congr 1
  ext a b
  rw [h2, Matrix.sum_apply]
  refine Finset.sum_congr rfl fun σ _ => ?_
  unfold Spec.planeWaveHamiltonian
  congr 2
  refine Finset.sum_congr rfl fun x _ => ?_
  rw [hV, hg]
  rfl

private theorem symmetrized {N : ℕ} (M : Matrix (Fin N) (Fin N) ℂ) : ((1 / 2 : ℂ) • (M + Mᴴ)).IsHermitian := by
  unfold Matrix.IsHermitian
  rw [Matrix.conjTranspose_smul, Matrix.conjTranspose_add, Matrix.conjTranspose_conjTranspose, add_comm]
  congr 1
  norm_num

private theorem eigh_hermitian (eh : Eigvalsh) {N : ℕ} {M : Matrix (Fin N) (Fin N) ℂ} (h : M.IsHermitian) :
    Spec.IsSpectrum M (eh.vals M) := by
  have := eh.spec M
  rw [h.eq, ← two_smul ℂ M, smul_smul] at this
  simpa using this

private theorem unitary_orth {ns nk g nb : ℕ} (qr : QR ℂ) (p : PwParams ns nk g nb) (s : Fin ns) (k : Fin nk) :
    (Matrix.of (unitaryMatrix qr p s k))ᴴ * Matrix.of (unitaryMatrix qr p s k) = 1 := qr.orth _

/-- The reported energies of a spin are the eigenvalues of the compression to its orbitals. -/
theorem bandEig_spectrum {na d ns nb : ℕ} {n : Fin 3 → ℕ} (E : BandEnv na d n)
    (p : PwParams ns 1 (maskCount E.mask) nb) (k : Fin 3 → ℝ) (F)
    (hF : hamiltonianMatrixBasis E.lib E.xc true E.mask E.pos E.charge E.dens E.g k E.vol = .ok F) (s : Fin ns) :
    ∃ e, bandEig E p k s = .ok e ∧
      hamiltonianMatrix E.lib E.xc true (pwCoeff E.qr E.mask p) E.pos E.charge E.dens E.g
        (fun _ : Fin 1 => k) E.vol s 0 = .ok ((Matrix.of (unitaryMatrix E.qr p s 0))ᴴ * F
          * Matrix.of (unitaryMatrix E.qr p s 0)) ∧
      Spec.IsSpectrum ((Matrix.of (unitaryMatrix E.qr p s 0))ᴴ * F * Matrix.of (unitaryMatrix E.qr p s 0)) e := by
  obtain ⟨F', h1, h2, h3⟩ := hamiltonianMatrix_compress E.lib E.xc true E.mask (unitaryMatrix E.qr p) E.pos
    E.charge E.dens E.g (fun _ : Fin 1 => k) E.vol 0
  obtain rfl : F' = F := by
    rw [hF] at h1
    injection h1 with h1
    exact h1.symm
  have h4 := h3 s
  refine ⟨_, ?_, h4, eigh_hermitian E.eigh ?_⟩
  · unfold bandEig pwCoeff
    rw [h4]
  · unfold Matrix.IsHermitian
    rw [Matrix.conjTranspose_mul, Matrix.conjTranspose_mul, Matrix.conjTranspose_conjTranspose, h2.eq,
      Matrix.mul_assoc]

/-- The Hamiltonian of the specification has real eigenvalues, for every potential. -/
theorem planeWaveHamiltonian_spectrum {N : ℕ} {n : Fin 3 → ℕ} (G : Fin N → Fin 3 → ℝ)
    (r : Idx n → Fin 3 → ℝ) (V : Idx n → ℝ) (k : Fin 3 → ℝ) :
    ∃ lam, Spec.IsSpectrum (Spec.planeWaveHamiltonian G r V k) lam := by
  refine exists_spectrum ?_
  ext a b
  rw [Matrix.conjTranspose_apply]
  unfold Spec.planeWaveHamiltonian
  rw [RCLike.star_def, map_add, map_div₀, map_sum, Complex.conj_natCast]
  congr 1
  · by_cases h : b = a
    · subst h
      rw [if_pos rfl, Complex.conj_ofReal]
    · rw [if_neg h, if_neg fun h' => h h'.symm, map_zero]
  · congr 1
    refine Finset.sum_congr rfl fun x _ => ?_
    rw [map_mul, Complex.conj_ofReal, ← Complex.exp_conj, map_neg, map_mul, Complex.conj_I, Complex.conj_ofReal]
    congr 2
    have : Spec.dot (fun e => G b e - G a e) (r x) = -Spec.dot (fun e => G a e - G b e) (r x) := by
      unfold Spec.dot
      rw [← Finset.sum_neg_distrib]
      exact Finset.sum_congr rfl fun d _ => by ring
    rw [this]
    push_cast
    ring

/-- The contract of the eigenvalue routine can be met. -/
noncomputable def someEigvalsh : Eigvalsh where
  vals M := (exists_spectrum (symmetrized M)).choose
  spec M := (exists_spectrum (symmetrized M)).choose_spec

theorem orthonormal_le {N m : ℕ} {w : Matrix (Fin N) (Fin m) ℂ} (h : wᴴ * w = 1) : m ≤ N := by
  have h1 : (wᴴ * w).rank = m := by rw [h, Matrix.rank_one, Fintype.card_fin]
  have h2 := (Matrix.rank_mul_le_right wᴴ w).trans (Matrix.rank_le_height w)
  omega

/-- A QR routine that returns matrices with orthonormal columns unchanged. -/
noncomputable def keepingQR : QR ℂ where
  q {n m} w := if h : wᴴ * w = 1 then w.submatrix id (Fin.cast (min_eq_right (orthonormal_le h)))
    else (trivialQR ℂ).q w
  orth {n m} w := by
    by_cases h : wᴴ * w = 1
    · rw [dif_pos h, Matrix.conjTranspose_submatrix, ← Matrix.submatrix_mul _ _ _ id _ Function.bijective_id, h,
        Matrix.submatrix_one _ (Fin.cast_injective _)]
    · rw [dif_neg h]
      exact (trivialQR ℂ).orth w

private theorem keepingQR_range {N m : ℕ} (w : Matrix (Fin N) (Fin m) ℂ) (h : wᴴ * w = 1) :
    ∃ R : Matrix (Fin (min N m)) (Fin m) ℂ, w = keepingQR.q w * R := by
  refine ⟨(1 : Matrix (Fin m) (Fin m) ℂ).submatrix (Fin.cast (min_eq_right (orthonormal_le h))) id, ?_⟩
  have : keepingQR.q w = w.submatrix id (Fin.cast (min_eq_right (orthonormal_le h))) := dif_pos h
  have hb : Function.Bijective (Fin.cast (min_eq_right (orthonormal_le h))) :=
    (finCongr (min_eq_right (orthonormal_le h))).bijective
  rw [this, ← Matrix.submatrix_mul _ _ _ _ _ hb, Matrix.mul_one, Matrix.submatrix_id_id]

/-- Two plane waves of a cubic cell with one proton and a uniform density. -/
noncomputable def twoWaveBand (lib : XcLib) (d : ℕ) : BandEnv 1 d ![2, 1, 1] where
  lib := lib
  qr := keepingQR
  eigh := someEigvalsh
  mask := fun _ => true
  pos := fun _ _ => 0
  charge := fun _ => 1
  dens := fun _ _ => 1
  g := gVectors 1 ![2, 1, 1]
  vol := 1
  xc := "lda_x"

/-- The hypotheses of the theorems below are met by two plane waves and one or two bands. -/
example (lib : XcLib) :
    (1 : Matrix (Fin 3) (Fin 3) ℝ).det ≠ 0 ∧ (twoWaveBand lib 1).g = gVectors 1 ![2, 1, 1] ∧
    0 < (twoWaveBand lib 1).vol ∧ maskCount (twoWaveBand lib 1).mask = 2 ∧
    (∀ {N m : ℕ} (w : Matrix (Fin N) (Fin m) ℂ), wᴴ * w = 1 →
      ∃ R : Matrix (Fin (min N m)) (Fin m) ℂ, w = (twoWaveBand lib 1).qr.q w * R) ∧
    ∃ (V : Idx ![2, 1, 1] → ℝ) (lam : Fin (maskCount (twoWaveBand lib 1).mask) → ℝ),
      (∀ x, V x = (hartreeRealSpace (twoWaveBand lib 1).dens (twoWaveBand lib 1).g true x
        + externalPotential (twoWaveBand lib 1).pos (twoWaveBand lib 1).charge (twoWaveBand lib 1).g 1 x
        + vxcDensity lib "lda_x" (twoWaveBand lib 1).g (twoWaveBand lib 1).dens 0 x).re) ∧
      Spec.IsSpectrum (Spec.planeWaveHamiltonian (fun a => gVectors 1 ![2, 1, 1]
        (maskPos (twoWaveBand lib 1).mask a)) (rVectors 1 ![2, 1, 1]) V 0) lam :=
  ⟨by simp, rfl, by norm_num [twoWaveBand], (by decide : maskCount (n := ![2, 1, 1]) (fun _ => true) = 2),
    fun w h => keepingQR_range w h, _, _, fun _ => rfl, (planeWaveHamiltonian_spectrum _ _ _ _).choose_spec⟩

/-- C71: at every k point, for all parameters, the reported band energies are real numbers in ascending
order, the `b`-th one is not below the `b`-th eigenvalue of the Kohn-Sham Hamiltonian in the plane waves of
the mask, and they are these eigenvalues when there are as many bands as plane waves. -/
theorem bandEig_variational {na ns nb : ℕ} {n : Fin 3 → ℕ} (E : BandEnv na 1 n)
    (A : Matrix (Fin 3) (Fin 3) ℝ) (hA : A.det ≠ 0) (hg : E.g = gVectors A n) (hvol : 0 < E.vol)
    (V : Idx n → ℝ)
    (hV : ∀ x, V x = (hartreeRealSpace E.dens E.g true x + externalPotential E.pos E.charge E.g E.vol x
      + vxcDensity E.lib E.xc E.g E.dens 0 x).re)
    (p : PwParams ns 1 (maskCount E.mask) nb) (k : Fin 3 → ℝ) (lam : Fin (maskCount E.mask) → ℝ)
    (hl : Spec.IsSpectrum (Spec.planeWaveHamiltonian (fun a => gVectors A n (maskPos E.mask a))
      (rVectors A n) V k) lam) (s : Fin ns) :
    ∃ e, bandEig E p k s = .ok e ∧ Monotone e ∧
      (∀ b, lam (Fin.castLE (min_le_left _ _) b) ≤ e b) ∧
      (maskCount E.mask ≤ nb → ∀ b, e b = lam (Fin.castLE (min_le_left _ _) b)) := by
  have hb := basis_planeWave E A hA hg hvol (fun _ => V) (fun σ x => by
    rw [hV, Subsingleton.elim σ 0]) k
  rw [Fin.sum_univ_one] at hb
  obtain ⟨e, h1, -, h3⟩ := bandEig_spectrum E p k _ hb s
  refine ⟨e, h1, h3.1, fun b => ?_, fun hnb b => ?_⟩
  · exact spectrum_separation (min_le_left _ _) hl (unitary_orth E.qr p s 0) h3 b
  · exact spectrum_complete (by omega) hl (unitary_orth E.qr p s 0) h3 _ b

/-- C72: the value minimised at a k point is the sum of the reported band energies over spins and bands.
It is never below `ns` times the sum of the lowest exact eigenvalues, and equals that bound exactly when
all reported energies are exact. -/
theorem bandTrace_bound {na ns nb : ℕ} {n : Fin 3 → ℕ} (E : BandEnv na 1 n)
    (A : Matrix (Fin 3) (Fin 3) ℝ) (hA : A.det ≠ 0) (hg : E.g = gVectors A n) (hvol : 0 < E.vol)
    (V : Idx n → ℝ)
    (hV : ∀ x, V x = (hartreeRealSpace E.dens E.g true x + externalPotential E.pos E.charge E.g E.vol x
      + vxcDensity E.lib E.xc E.g E.dens 0 x).re)
    (p : PwParams ns 1 (maskCount E.mask) nb) (k : Fin 3 → ℝ) (lam : Fin (maskCount E.mask) → ℝ)
    (hl : Spec.IsSpectrum (Spec.planeWaveHamiltonian (fun a => gVectors A n (maskPos E.mask a))
      (rVectors A n) V k) lam) :
    ∃ (t : ℝ) (e : Fin ns → Fin (min (maskCount E.mask) nb) → ℝ), bandTrace E p k = .ok t ∧ (∀ s, bandEig E p k s = .ok (e s)) ∧ t = ∑ s, ∑ b, e s b ∧
      (ns : ℝ) * ∑ b : Fin (min (maskCount E.mask) nb), lam (Fin.castLE (min_le_left _ _) b) ≤ t ∧
      (t = (ns : ℝ) * ∑ b : Fin (min (maskCount E.mask) nb), lam (Fin.castLE (min_le_left _ _) b) ↔
        ∀ s b, e s b = lam (Fin.castLE (min_le_left _ _) b)) := by
  have hb := basis_planeWave E A hA hg hvol (fun _ => V) (fun σ x => by
    rw [hV, Subsingleton.elim σ 0]) k
  rw [Fin.sum_univ_one] at hb
  choose e h1 h2 h3 using bandEig_spectrum E p k _ hb
  obtain ⟨H, t, ht1, ht2, ht3⟩ := hamiltonianTrace_one E.lib E.xc true (pwCoeff E.qr E.mask p) E.pos E.charge
    E.dens E.g (fun _ : Fin 1 => k) E.vol
  have hsum : t = ∑ s, ∑ b, e s b := by
    have : (t : ℂ) = ((∑ s, ∑ b, e s b : ℝ) : ℂ) := by
      rw [ht2]
      push_cast
      refine Finset.sum_congr rfl fun s _ => ?_
      have := ht1 s
      rw [h2 s] at this
      injection this with this
      rw [← this, spectrum_trace (h3 s)]
      push_cast
      rfl
    exact_mod_cast this
  have hle : ∀ s b, lam (Fin.castLE (min_le_left _ _) b) ≤ e s b := fun s b =>
    spectrum_separation (min_le_left _ _) hl (unitary_orth E.qr p s 0) (h3 s) b
  have hc : (ns : ℝ) * ∑ b : Fin (min (maskCount E.mask) nb), lam (Fin.castLE (min_le_left _ _) b)
      = ∑ _s : Fin ns, ∑ b : Fin (min (maskCount E.mask) nb), lam (Fin.castLE (min_le_left _ _) b) := by
    rw [Finset.sum_const, Finset.card_univ, Fintype.card_fin, nsmul_eq_mul]
  refine ⟨t, e, ?_, h1, hsum, ?_, ?_⟩
  · unfold bandTrace
    rw [ht3]
    rfl
  · rw [hsum, hc]
    exact Finset.sum_le_sum fun s _ => Finset.sum_le_sum fun b _ => hle s b
  · rw [hsum, hc]
    constructor
    · intro h s b
      have h' := (Finset.sum_eq_sum_iff_of_le fun s _ => Finset.sum_le_sum fun b _ => hle s b).1 h.symm s
        (Finset.mem_univ s)
      exact ((Finset.sum_eq_sum_iff_of_le fun b _ => hle s b).1 h' b (Finset.mem_univ b)).symm
    · intro h
      exact Finset.sum_congr rfl fun s _ => Finset.sum_congr rfl fun b _ => h s b

/-- C72: with the contract that a matrix with orthonormal columns lies in the column space of its own
orthogonal factor, and no more bands than plane waves, the bound is attained: some parameters give the
sum of the lowest exact eigenvalues. -/
theorem bandTrace_attained {na ns nb : ℕ} {n : Fin 3 → ℕ} (E : BandEnv na 1 n)
    (hqr : ∀ {N m : ℕ} (w : Matrix (Fin N) (Fin m) ℂ), wᴴ * w = 1 → ∃ R : Matrix (Fin (min N m)) (Fin m) ℂ, w = E.qr.q w * R)
    (hnb : nb ≤ maskCount E.mask)
    (A : Matrix (Fin 3) (Fin 3) ℝ) (hA : A.det ≠ 0) (hg : E.g = gVectors A n) (hvol : 0 < E.vol)
    (V : Idx n → ℝ)
    (hV : ∀ x, V x = (hartreeRealSpace E.dens E.g true x + externalPotential E.pos E.charge E.g E.vol x
      + vxcDensity E.lib E.xc E.g E.dens 0 x).re)
    (k : Fin 3 → ℝ) (lam : Fin (maskCount E.mask) → ℝ)
    (hl : Spec.IsSpectrum (Spec.planeWaveHamiltonian (fun a => gVectors A n (maskPos E.mask a))
      (rVectors A n) V k) lam) :
    ∃ p : PwParams ns 1 (maskCount E.mask) nb, ∀ s, ∃ e, bandEig E p k s = .ok e ∧
      ∀ b, e b = lam (Fin.castLE (min_le_left _ _) b) := by
  have hb := basis_planeWave E A hA hg hvol (fun _ => V) (fun σ x => by
    rw [hV, Subsingleton.elim σ 0]) k
  rw [Fin.sum_univ_one] at hb
  obtain ⟨hmono, U, hU, hH⟩ := hl
  have hU' : Uᴴ * U = 1 := Matrix.mem_unitaryGroup_iff'.1 hU
  refine ⟨⟨fun _ _ => Matrix.of fun a b => (U a (Fin.castLE hnb b)).re,
    fun _ _ => Matrix.of fun a b => (U a (Fin.castLE hnb b)).im⟩, fun s => ?_⟩
  obtain ⟨e, h1, -, h3⟩ := bandEig_spectrum E (⟨fun _ _ => Matrix.of fun a b => (U a (Fin.castLE hnb b)).re,
    fun _ _ => Matrix.of fun a b => (U a (Fin.castLE hnb b)).im⟩ : PwParams ns 1 (maskCount E.mask) nb) k _ hb s
  refine ⟨e, h1, fun b => ?_⟩
  have hw : (Matrix.of fun a b => (((U a (Fin.castLE hnb b)).re : ℝ) : ℂ)
      + Complex.I * (((U a (Fin.castLE hnb b)).im : ℝ) : ℂ)) = U.submatrix id (Fin.castLE hnb) := by
    ext a b
    rw [Matrix.of_apply, mul_comm, Complex.re_add_im]
    rfl
  have horth : (U.submatrix id (Fin.castLE hnb))ᴴ * U.submatrix id (Fin.castLE hnb) = 1 := by
    rw [Matrix.conjTranspose_submatrix, ← Matrix.submatrix_mul _ _ _ id _ Function.bijective_id, hU',
      Matrix.submatrix_one _ (Fin.castLE_injective hnb)]
  obtain ⟨R, hR⟩ := hqr (U.submatrix id (Fin.castLE hnb)) horth
  have h3' : Spec.IsSpectrum ((E.qr.q (U.submatrix id (Fin.castLE hnb)))ᴴ *
      Spec.planeWaveHamiltonian (fun a => gVectors A n (maskPos E.mask a)) (rVectors A n) V k *
        E.qr.q (U.submatrix id (Fin.castLE hnb))) e := by
    rw [← hw]
    exact h3
  exact spectrum_attained (min_eq_right hnb) hnb hmono hU' hH _ R (E.qr.orth _) hR h3' _ b

/-- C72: parameters that minimise the objective at a k point report the exact lowest eigenvalues. -/
theorem bandTrace_minimiser {na ns nb : ℕ} {n : Fin 3 → ℕ} (E : BandEnv na 1 n)
    (hqr : ∀ {N m : ℕ} (w : Matrix (Fin N) (Fin m) ℂ), wᴴ * w = 1 → ∃ R : Matrix (Fin (min N m)) (Fin m) ℂ, w = E.qr.q w * R)
    (hnb : nb ≤ maskCount E.mask)
    (A : Matrix (Fin 3) (Fin 3) ℝ) (hA : A.det ≠ 0) (hg : E.g = gVectors A n) (hvol : 0 < E.vol)
    (V : Idx n → ℝ)
    (hV : ∀ x, V x = (hartreeRealSpace E.dens E.g true x + externalPotential E.pos E.charge E.g E.vol x
      + vxcDensity E.lib E.xc E.g E.dens 0 x).re)
    (k : Fin 3 → ℝ) (lam : Fin (maskCount E.mask) → ℝ)
    (hl : Spec.IsSpectrum (Spec.planeWaveHamiltonian (fun a => gVectors A n (maskPos E.mask a))
      (rVectors A n) V k) lam)
    (p : PwParams ns 1 (maskCount E.mask) nb)
    (hmin : ∀ (p' : PwParams ns 1 (maskCount E.mask) nb) t t', bandTrace E p k = .ok t → bandTrace E p' k = .ok t' → t ≤ t') :
    ∀ s, ∃ e, bandEig E p k s = .ok e ∧ ∀ b, e b = lam (Fin.castLE (min_le_left _ _) b) := by
  obtain ⟨p', hp'⟩ := bandTrace_attained (ns := ns) E hqr hnb A hA hg hvol V hV k lam hl
  obtain ⟨t, e, h1, h2, h3, h4, h5⟩ := bandTrace_bound E A hA hg hvol V hV p k lam hl
  obtain ⟨t', e', h1', h2', h3', h4', h5'⟩ := bandTrace_bound E A hA hg hvol V hV p' k lam hl
  have ht' := h5'.2 fun s b => by
    obtain ⟨e'', g1, g2⟩ := hp' s
    rw [h2' s] at g1
    injection g1 with g1
    rw [g1, g2]
  have hx := hmin p' t t' h1 h1'
  have ht := h5.1 (le_antisymm (hx.trans ht'.le) h4)
  exact fun s => ⟨e s, h2 s, ht s⟩

/-- C71 for any number of density channels: every entry of the saved array is an upper bound of the eigenvalue
of the sum of the Hamiltonians of the channels at its own k point, entries ascend with the band index, and they
are exact for a complete set of bands, whatever the optimiser does.  For one channel that is the Kohn-Sham
Hamiltonian (`bandCalc_variational_partial`); for two it is not (`bandEig_polarised_doubled`). -/
theorem bandCalc_channels {na d ns nb : ℕ} {n : Fin 3 → ℕ} {O : Type*} (E : BandEnv na d n)
    (A : Matrix (Fin 3) (Fin 3) ℝ) (hA : A.det ≠ 0) (hg : E.g = gVectors A n) (hvol : 0 < E.vol)
    (V : Fin d → Idx n → ℝ)
    (hV : ∀ σ x, V σ x = (hartreeRealSpace E.dens E.g true x + externalPotential E.pos E.charge E.g E.vol x
      + vxcDensity E.lib E.xc E.g E.dens σ x).re)
    (hnb : nb ≤ maskCount E.mask) (N devices : ℕ) (parallel : Bool)
    (hpar : parallel = true ∨ devices = 1) (hdev : N % devices = 0)
    (upd : (Fin 3 → ℝ) → PwParams ns 1 (maskCount E.mask) nb × O → PwParams ns 1 (maskCount E.mask) nb × O)
    (epoch fineEpoch : ℕ) (p0 : PwParams ns 1 (maskCount E.mask) nb × O) (path : ℕ → Fin 3 → ℝ) :
    ∃ r, bandCalc E N N devices parallel upd epoch fineEpoch p0 path = .ok r ∧
      ∀ s < ns, ∀ q < N, ∀ lam, Spec.IsSpectrum (∑ σ, Spec.planeWaveHamiltonian
          (fun a => gVectors A n (maskPos E.mask a)) (rVectors A n) (V σ) (path q)) lam →
        (∀ b (hb : b < nb), lam ⟨b, hb.trans_le hnb⟩ ≤ r s q b) ∧
        (∀ b b', b ≤ b' → b' < nb → r s q b ≤ r s q b') ∧
        (nb = maskCount E.mask → ∀ b (hb : b < nb), r s q b = lam ⟨b, hb.trans_le hnb⟩) := by
  obtain ⟨r, h1, h2⟩ := band_all_electrons_order_partial N devices parallel ns (min (maskCount E.mask) nb)
    (fun p k => (upd k)^[epoch] p) (fun p k => (upd k)^[fineEpoch] p) (fun p k => bandEigArray E p.1 k) p0
    path hpar hdev
  have hm : min (maskCount E.mask) nb = nb := min_eq_right hnb
  refine ⟨r, ?_, fun s hs q hq lam hl => ?_⟩
  · unfold bandCalc
    rw [hm] at h1
    rw [hm]
    exact h1
  · have key : ∃ e : Fin (min (maskCount E.mask) nb) → ℝ, Monotone e ∧
        (∀ b, lam (Fin.castLE (min_le_left _ _) b) ≤ e b) ∧
        (maskCount E.mask ≤ nb → ∀ b, e b = lam (Fin.castLE (min_le_left _ _) b)) ∧
        ∀ b (hb : b < min (maskCount E.mask) nb), r s q b = e ⟨b, hb⟩ := by
      let P := Spec.chunkParams (fun p k => (upd k)^[epoch] p) (fun p k => (upd k)^[fineEpoch] p) p0 path
        (q / (N / devices) * (N / devices)) (q % (N / devices))
      obtain ⟨e, g1, -, g5⟩ := bandEig_spectrum E P.1 (path q) _ (basis_planeWave E A hA hg hvol V hV (path q))
        ⟨s, hs⟩
      have g3 := spectrum_separation (min_le_left _ _) hl (unitary_orth E.qr P.1 ⟨s, hs⟩ 0) g5
      refine ⟨e, g5.1, g3, fun hnb' => ?_, fun b hb => ?_⟩
      · exact spectrum_complete (by omega) hl (unitary_orth E.qr P.1 ⟨s, hs⟩ 0) g5 _
      obtain ⟨start, i, e1, e2, ⟨c, e3⟩, e4⟩ := h2 s hs q hq b hb
      have hpos : 0 < N / devices := by omega
      have hst : start = q / (N / devices) * (N / devices) := by
        rw [e1, e3, Nat.mul_add_div hpos, Nat.div_eq_of_lt e2, Nat.add_zero, Nat.mul_comm]
      have hi : i = q % (N / devices) := by
        rw [e1, e3, Nat.mul_add_mod, Nat.mod_eq_of_lt e2]
      rw [e4, hst, hi]
      show bandEigArray E P.1 (path q) s b = _
      unfold bandEigArray
      rw [dif_pos ⟨hs, hb⟩, g1]
    obtain ⟨e, k1, k2, k3, k4⟩ := key
    refine ⟨fun b hb => ?_, fun b b' hbb hb' => ?_, fun hc b hb => ?_⟩
    · rw [k4 b (by omega)]
      exact k2 ⟨b, by omega⟩
    · rw [k4 b (by omega), k4 b' (by omega)]
      exact k1 hbb
    · rw [k4 b (by omega)]
      exact k3 hc.ge ⟨b, by omega⟩

/-- C71 for the whole driver (part): every entry of the saved array is an upper bound of the exact
eigenvalue of its own k point, entries ascend with the band index, and they are exact for a complete set
of bands, whatever the optimiser does.  Missing: `parallel_over_k_path=False` on several devices, where
the driver raises (`band_all_electrons_serial_fails`), and a spin-polarised density
(`bandEig_polarised_doubled`). -/
theorem bandCalc_variational_partial {na ns nb : ℕ} {n : Fin 3 → ℕ} {O : Type*} (E : BandEnv na 1 n)
    (A : Matrix (Fin 3) (Fin 3) ℝ) (hA : A.det ≠ 0) (hg : E.g = gVectors A n) (hvol : 0 < E.vol)
    (V : Idx n → ℝ)
    (hV : ∀ x, V x = (hartreeRealSpace E.dens E.g true x + externalPotential E.pos E.charge E.g E.vol x
      + vxcDensity E.lib E.xc E.g E.dens 0 x).re)
    (hnb : nb ≤ maskCount E.mask) (N devices : ℕ) (parallel : Bool)
    (hpar : parallel = true ∨ devices = 1) (hdev : N % devices = 0)
    (upd : (Fin 3 → ℝ) → PwParams ns 1 (maskCount E.mask) nb × O → PwParams ns 1 (maskCount E.mask) nb × O)
    (epoch fineEpoch : ℕ) (p0 : PwParams ns 1 (maskCount E.mask) nb × O) (path : ℕ → Fin 3 → ℝ) :
    ∃ r, bandCalc E N N devices parallel upd epoch fineEpoch p0 path = .ok r ∧
      ∀ s < ns, ∀ q < N, ∀ lam, Spec.IsSpectrum (Spec.planeWaveHamiltonian
          (fun a => gVectors A n (maskPos E.mask a)) (rVectors A n) V (path q)) lam →
        (∀ b (hb : b < nb), lam ⟨b, hb.trans_le hnb⟩ ≤ r s q b) ∧
        (∀ b b', b ≤ b' → b' < nb → r s q b ≤ r s q b') ∧
        (nb = maskCount E.mask → ∀ b (hb : b < nb), r s q b = lam ⟨b, hb.trans_le hnb⟩) := by
  obtain ⟨r, h1, h2⟩ := bandCalc_channels E A hA hg hvol (fun _ => V) (fun σ x => by
    rw [hV, Subsingleton.elim σ 0]) hnb N devices parallel hpar hdev upd epoch fineEpoch p0 path
  simp only [Fin.sum_univ_one] at h2
  exact ⟨r, h1, h2⟩

/-- C120: with fewer plane waves than bands the array fits the file only by chance, when the path has just as many more points
than the configuration asks for.  The driver then saves exact energies, but in wrong places: position `[s, q, b]` holds energy
number `L / N / ns` of point `L % N` of the path, where `L = q + num * (s + ns * b)`. -/
theorem bandCalc_mixed {na d ns nb : ℕ} {n : Fin 3 → ℕ} {O : Type*} (E : BandEnv na d n)
    (A : Matrix (Fin 3) (Fin 3) ℝ) (hA : A.det ≠ 0) (hg : E.g = gVectors A n) (hvol : 0 < E.vol)
    (V : Fin d → Idx n → ℝ)
    (hV : ∀ σ x, V σ x = (hartreeRealSpace E.dens E.g true x + externalPotential E.pos E.charge E.g E.vol x
      + vxcDensity E.lib E.xc E.g E.dens σ x).re)
    (hnb : maskCount E.mask ≤ nb) (N num devices : ℕ) (parallel : Bool)
    (hpar : parallel = true ∨ devices ≤ 1) (hdev : N % devices = 0) (hfit : N * maskCount E.mask = num * nb)
    (upd : (Fin 3 → ℝ) → PwParams ns 1 (maskCount E.mask) nb × O → PwParams ns 1 (maskCount E.mask) nb × O)
    (epoch fineEpoch : ℕ) (p0 : PwParams ns 1 (maskCount E.mask) nb × O) (path : ℕ → Fin 3 → ℝ) :
    ∃ r, bandCalc E N num devices parallel upd epoch fineEpoch p0 path = .ok r ∧
      ∀ s < ns, ∀ q < num, ∀ b < nb, ∀ L, L = q + num * (s + ns * b) → ∀ lam, Spec.IsSpectrum
          (∑ σ, Spec.planeWaveHamiltonian (fun a => gVectors A n (maskPos E.mask a)) (rVectors A n) (V σ) (path (L % N))) lam →
        ∃ h : L / N / ns < maskCount E.mask, r s q b = lam ⟨L / N / ns, h⟩ := by
  have hm : min (maskCount E.mask) nb = maskCount E.mask := min_eq_left hnb
  have hfit' : N * ns * min (maskCount E.mask) nb = num * ns * nb := by
    rw [hm, mul_right_comm, hfit, mul_right_comm]
  obtain ⟨r, h1, h2⟩ := band_all_electrons_any_order N devices parallel ns (min (maskCount E.mask) nb) num nb
    (fun p k => (upd k)^[epoch] p) (fun p k => (upd k)^[fineEpoch] p) (fun p k => bandEigArray E p.1 k) p0
    path hpar hdev hfit'
  refine ⟨r, h1, fun s hs q hq b hb L hL lam hl => ?_⟩
  obtain ⟨start, i, -, -, -, g4, g5⟩ := h2 s hs q hq b hb L hL
  have hs' : L / N % ns < ns := Nat.mod_lt _ (by omega)
  refine ⟨g4.trans_le hm.le, ?_⟩
  rw [g5]
  generalize Spec.chunkParams (fun p k => (upd k)^[epoch] p) (fun p k => (upd k)^[fineEpoch] p) p0 path start i = P
  obtain ⟨e, k1, -, k3⟩ := bandEig_spectrum E P.1 (path (L % N)) _ (basis_planeWave E A hA hg hvol V hV (path (L % N)))
    ⟨L / N % ns, hs'⟩
  unfold bandEigArray
  rw [dif_pos ⟨hs', g4⟩, k1]
  exact spectrum_complete hm.symm hl (unitary_orth E.qr P.1 ⟨L / N % ns, hs'⟩ 0) k3 (min_le_left _ _) _

/-- C71: with more bands than plane waves the driver raises, and so it does when the k path has another number
of points than the configuration asks for. -/
theorem bandCalc_too_many {na d ns nb : ℕ} {n : Fin 3 → ℕ} {O : Type*} (E : BandEnv na d n) (hns : 0 < ns)
    (N num devices : ℕ)
    (h : (N = num ∧ 0 < N ∧ maskCount E.mask < nb) ∨ (N ≠ num ∧ 0 < nb ∧ nb ≤ maskCount E.mask)) (parallel : Bool)
    (upd : (Fin 3 → ℝ) → PwParams ns 1 (maskCount E.mask) nb × O → PwParams ns 1 (maskCount E.mask) nb × O)
    (epoch fineEpoch : ℕ) (p0 : PwParams ns 1 (maskCount E.mask) nb × O) (path : ℕ → Fin 3 → ℝ) :
    ∃ e, bandCalc E N num devices parallel upd epoch fineEpoch p0 path = .error e := by
  have hne : N * ns * min (maskCount E.mask) nb ≠ num * ns * nb := by
    rcases h with ⟨rfl, h0, h⟩ | ⟨h, h0, h1⟩
    · rw [min_eq_left h.le]
      exact fun e => h.ne (Nat.eq_of_mul_eq_mul_left (Nat.mul_pos h0 hns) e)
    · rw [min_eq_right h1]
      exact fun e => h (Nat.eq_of_mul_eq_mul_right hns (Nat.eq_of_mul_eq_mul_right h0 e))
  unfold bandCalc bandAllElectrons
  simp only
  split_ifs
  all_goals exact ⟨_, rfl⟩

/-- Both cases occur. -/
example (lib : XcLib) : (3 = 3 ∧ 0 < 3 ∧ maskCount (twoWaveBand lib 1).mask < 3) ∧
    (4 ≠ 3 ∧ 0 < 1 ∧ 1 ≤ maskCount (twoWaveBand lib 1).mask) := by
  have : maskCount (twoWaveBand lib 1).mask = 2 := (by decide : maskCount (n := ![2, 1, 1]) (fun _ => true) = 2)
  rw [this]
  decide

/-- C71: the orbitals whose energies are reported are optimised with `epoch` steps from the initial
parameters at the first k point of a device and with `fineEpoch` steps from the orbitals of the k point
before it at every other one.  Missing: `parallel_over_k_path=False` on several devices, where the driver
raises. -/
theorem bandCalc_epochs_partial {na d ns nb : ℕ} {n : Fin 3 → ℕ} {O : Type*} (E : BandEnv na d n)
    (hnb : nb ≤ maskCount E.mask) (N devices : ℕ) (parallel : Bool)
    (hpar : parallel = true ∨ devices = 1) (hN : 0 < N) (hdev : N % devices = 0)
    (upd : (Fin 3 → ℝ) → PwParams ns 1 (maskCount E.mask) nb × O → PwParams ns 1 (maskCount E.mask) nb × O)
    (epoch fineEpoch : ℕ) (p0 : PwParams ns 1 (maskCount E.mask) nb × O) (path : ℕ → Fin 3 → ℝ) :
    ∃ r, ∃ par : ℕ → PwParams ns 1 (maskCount E.mask) nb × O, bandCalc E N N devices parallel upd epoch fineEpoch p0 path = .ok r ∧
      (∀ q, q % (N / devices) = 0 → par q = (upd (path q))^[epoch] p0) ∧
      (∀ q, (q + 1) % (N / devices) ≠ 0 → par (q + 1) = (upd (path (q + 1)))^[fineEpoch] (par q)) ∧
      ∀ (s : Fin ns) (q : ℕ) (b : Fin (min (maskCount E.mask) nb)), q < N → ∀ e,
        bandEig E (par q).1 (path q) s = .ok e → r s q b = e b := by
  obtain ⟨r, h1, h2⟩ := band_all_electrons_order_partial N devices parallel ns (min (maskCount E.mask) nb)
    (fun p k => (upd k)^[epoch] p) (fun p k => (upd k)^[fineEpoch] p) (fun p k => bandEigArray E p.1 k) p0
    path hpar hdev
  have hper : 0 < N / devices := by
    obtain ⟨c, rfl⟩ := Nat.dvd_of_mod_eq_zero hdev
    have hd : 0 < devices := Nat.pos_of_mul_pos_right hN
    rw [Nat.mul_div_cancel_left _ hd]
    exact Nat.pos_of_mul_pos_left hN
  obtain ⟨par, g1, g2, g3⟩ := chunkParams_path (fun p k => (upd k)^[epoch] p)
    (fun p k => (upd k)^[fineEpoch] p) p0 path (N / devices) hper
  refine ⟨r, par, ?_, g1, g2, fun s q b hq e he => ?_⟩
  · unfold bandCalc
    rw [← h1, min_eq_right hnb]
  · obtain ⟨start, i, rfl, e2, e3, e4⟩ := h2 s s.2 q hq b b.2
    rw [e4, g3 _ _ e2 e3]
    unfold bandEigArray
    rw [dif_pos ⟨s.2, b.2⟩, he]

/-- C72 for the whole driver: with an optimiser whose step at a k point ends within `ε` of the least value that
parameters can have, and at least one step per k point, every entry of the saved array is within `ε` of the
exact eigenvalue.  Missing: `parallel_over_k_path=False` on several devices, where the driver raises, and a
spin-polarised density. -/
theorem bandCalc_near_partial {na ns nb : ℕ} {n : Fin 3 → ℕ} {O : Type*} (E : BandEnv na 1 n)
    (hqr : ∀ {N m : ℕ} (w : Matrix (Fin N) (Fin m) ℂ), wᴴ * w = 1 → ∃ R : Matrix (Fin (min N m)) (Fin m) ℂ, w = E.qr.q w * R)
    (A : Matrix (Fin 3) (Fin 3) ℝ) (hA : A.det ≠ 0) (hg : E.g = gVectors A n) (hvol : 0 < E.vol)
    (V : Idx n → ℝ)
    (hV : ∀ x, V x = (hartreeRealSpace E.dens E.g true x + externalPotential E.pos E.charge E.g E.vol x
      + vxcDensity E.lib E.xc E.g E.dens 0 x).re)
    (hnb : nb ≤ maskCount E.mask) (N devices : ℕ) (parallel : Bool)
    (hpar : parallel = true ∨ devices = 1) (hN : 0 < N) (hdev : N % devices = 0)
    (upd : (Fin 3 → ℝ) → PwParams ns 1 (maskCount E.mask) nb × O → PwParams ns 1 (maskCount E.mask) nb × O)
    (ε : ℝ)
    (hopt : ∀ k p, (∃ m, ∀ q : PwParams ns 1 (maskCount E.mask) nb, ∃ v, bandTrace E q k = .ok v ∧ m ≤ v) →
      ∀ (q : PwParams ns 1 (maskCount E.mask) nb) (v : ℝ), bandTrace E q k = .ok v →
        ∃ v', bandTrace E (upd k p).1 k = .ok v' ∧ v' ≤ v + ε)
    (epoch fineEpoch : ℕ) (he : 0 < epoch) (hf : 0 < fineEpoch)
    (p0 : PwParams ns 1 (maskCount E.mask) nb × O) (path : ℕ → Fin 3 → ℝ) :
    ∃ r, bandCalc E N N devices parallel upd epoch fineEpoch p0 path = .ok r ∧
      ∀ s < ns, ∀ q < N, ∀ lam, Spec.IsSpectrum (Spec.planeWaveHamiltonian
          (fun a => gVectors A n (maskPos E.mask a)) (rVectors A n) V (path q)) lam →
        ∀ b (hb : b < nb), lam ⟨b, hb.trans_le hnb⟩ ≤ r s q b ∧ r s q b ≤ lam ⟨b, hb.trans_le hnb⟩ + ε := by
  obtain ⟨r, par, h1, h2, h3, h4⟩ := bandCalc_epochs_partial E hnb N devices parallel hpar hN hdev upd epoch
    fineEpoch p0 path
  refine ⟨r, h1, fun s hs q hq lam hl b hb => ?_⟩
  have hstep : ∀ (k : Fin 3 → ℝ) (j : ℕ), 0 < j → ∀ x, ∃ y, (upd k)^[j] x = upd k y := fun k j hj x => by
    obtain ⟨i, rfl⟩ : ∃ i, j = i + 1 := ⟨j - 1, by omega⟩
    exact ⟨(upd k)^[i] x, Function.iterate_succ_apply' _ _ _⟩
  obtain ⟨y, hy⟩ : ∃ y, par q = upd (path q) y := by
    by_cases hq0 : q % (N / devices) = 0
    · rw [h2 q hq0]
      exact hstep _ _ he _
    · obtain ⟨q', rfl⟩ : ∃ q', q = q' + 1 := ⟨q - 1, by
        have : q ≠ 0 := fun h => hq0 (by rw [h, Nat.zero_mod])
        omega⟩
      rw [h3 q' hq0]
      exact hstep _ _ hf _
  obtain ⟨p', hp'⟩ := bandTrace_attained (ns := ns) E hqr hnb A hA hg hvol V hV (path q) lam hl
  obtain ⟨t, e, g1, g2, g3, g4, g5⟩ := bandTrace_bound E A hA hg hvol V hV (par q).1 (path q) lam hl
  obtain ⟨t', e', k1, k2, k3, k4, k5⟩ := bandTrace_bound E A hA hg hvol V hV p' (path q) lam hl
  have ht' := k5.2 fun s b => by
    obtain ⟨e'', m1, m2⟩ := hp' s
    rw [k2 s] at m1
    rw [Except.ok.inj m1, m2]
  obtain ⟨v', hv', hle⟩ := hopt (path q) y ⟨_, fun p => by
    obtain ⟨u, -, u1, -, -, u4, -⟩ := bandTrace_bound E A hA hg hvol V hV p (path q) lam hl
    exact ⟨u, u1, u4⟩⟩ p' t' k1
  rw [← hy, g1] at hv'
  obtain rfl := Except.ok.inj hv'
  have hbm : b < min (maskCount E.mask) nb := by omega
  have hr : r s q b = e ⟨s, hs⟩ ⟨b, hbm⟩ := h4 ⟨s, hs⟩ q ⟨b, hbm⟩ hq _ (g2 ⟨s, hs⟩)
  have hlow : ∀ (s : Fin ns) (j : Fin (min (maskCount E.mask) nb)), lam (Fin.castLE (min_le_left _ _) j) ≤ e s j := by
    intro s j
    obtain ⟨e'', m1, -, m3, -⟩ := bandEig_variational E A hA hg hvol V hV (par q).1 (path q) lam hl s
    rw [g2 s] at m1
    rw [Except.ok.inj m1]
    exact m3 j
  have hlamb : lam ⟨b, hb.trans_le hnb⟩ = lam (Fin.castLE (min_le_left _ _) (⟨b, hbm⟩ : Fin (min (maskCount E.mask) nb))) := rfl
  rw [hr, hlamb]
  refine ⟨hlow _ _, ?_⟩
  have hsum : ∑ s : Fin ns, ∑ j, (e s j - lam (Fin.castLE (min_le_left _ _) j)) ≤ ε := by
    have : ∑ s : Fin ns, ∑ j, (e s j - lam (Fin.castLE (min_le_left _ _) j)) = t - t' := by
      rw [ht', g3]
      simp only [Finset.sum_sub_distrib, Finset.sum_const, Finset.card_univ, Fintype.card_fin, nsmul_eq_mul]
    linarith
  have hone : e ⟨s, hs⟩ ⟨b, hbm⟩ - lam (Fin.castLE (min_le_left _ _) (⟨b, hbm⟩ : Fin (min (maskCount E.mask) nb)))
      ≤ ∑ s : Fin ns, ∑ j, (e s j - lam (Fin.castLE (min_le_left _ _) j)) := by
    refine le_trans ?_ (Finset.single_le_sum (f := fun s : Fin ns => ∑ j, (e s j - lam (Fin.castLE (min_le_left _ _) j)))
      (fun s _ => Finset.sum_nonneg fun j _ => sub_nonneg.2 (hlow s j)) (Finset.mem_univ ⟨s, hs⟩))
    exact Finset.single_le_sum (f := fun j => e ⟨s, hs⟩ j - lam (Fin.castLE (min_le_left _ _) j))
      (fun j _ => sub_nonneg.2 (hlow ⟨s, hs⟩ j)) (Finset.mem_univ (⟨b, hbm⟩ : Fin (min (maskCount E.mask) nb)))
  linarith

private theorem spectrum_double {N : ℕ} {H : Matrix (Fin N) (Fin N) ℂ} {lam : Fin N → ℝ}
    (h : Spec.IsSpectrum H lam) : Spec.IsSpectrum (H + H) fun i => 2 * lam i := by
  obtain ⟨h1, V, hV, rfl⟩ := h
  refine ⟨fun a b hab => by have := h1 hab; linarith, V, hV, ?_⟩
  rw [← Matrix.add_mul, ← Matrix.mul_add, Matrix.diagonal_add]
  congr 3
  funext i
  push_cast
  ring

/-- C71 is false for a density with two spin channels: when both channels have the same potential, every
reported energy of either spin is at least twice the exact eigenvalue, and exactly twice for a complete
set of bands. -/
theorem bandEig_polarised_doubled {na ns nb : ℕ} {n : Fin 3 → ℕ} (E : BandEnv na 2 n)
    (A : Matrix (Fin 3) (Fin 3) ℝ) (hA : A.det ≠ 0) (hg : E.g = gVectors A n) (hvol : 0 < E.vol)
    (V : Idx n → ℝ)
    (hV : ∀ σ x, V x = (hartreeRealSpace E.dens E.g true x + externalPotential E.pos E.charge E.g E.vol x
      + vxcDensity E.lib E.xc E.g E.dens σ x).re)
    (p : PwParams ns 1 (maskCount E.mask) nb) (k : Fin 3 → ℝ) (lam : Fin (maskCount E.mask) → ℝ)
    (hl : Spec.IsSpectrum (Spec.planeWaveHamiltonian (fun a => gVectors A n (maskPos E.mask a))
      (rVectors A n) V k) lam) (s : Fin ns) :
    ∃ e, bandEig E p k s = .ok e ∧
      (∀ b, 2 * lam (Fin.castLE (min_le_left _ _) b) ≤ e b) ∧
      (maskCount E.mask ≤ nb → ∀ b, e b = 2 * lam (Fin.castLE (min_le_left _ _) b)) := by
  have hb := basis_planeWave E A hA hg hvol (fun _ => V) hV k
  rw [Fin.sum_univ_two] at hb
  obtain ⟨e, h1, -, h3⟩ := bandEig_spectrum E p k _ hb s
  refine ⟨e, h1, fun b => ?_, fun hnb b => ?_⟩
  · exact spectrum_separation (min_le_left _ _) (spectrum_double hl) (unitary_orth E.qr p s 0) h3 b
  · exact spectrum_complete (by omega) (spectrum_double hl) (unitary_orth E.qr p s 0) h3 _ b

end Jrystal
