import Verif.Props.BandOpt
import Verif.Props.NcHamiltonian
import Verif.Lemmas.PwMatrixNC

/- C71 and C72 for the norm-conserving band driver. -/
namespace Jrystal
open scoped BigOperators ComplexConjugate
open Matrix

/-- The potential of a channel in the norm-conserving driver, symmetrised, is the compression of the plane-wave
matrix. -/
private theorem bandEigNC_spectrum {d M nb : ℕ} {ι β : Type} [Fintype ι] {n : Fin 3 → ℕ} (E : BandEnvNC d M ι β n)
    (A : Matrix (Fin 3) (Fin 3) ℝ) (hA : A.det ≠ 0) (hg : E.g = gVectors A n) (hvol : 0 < E.vol)
    (W : Idx n → ℂ) (V : Idx n → ℝ) (hV : ∀ x, V x = (W x).re)
    (p : PwParams 1 1 (maskCount E.mask) nb) (k : (Fin 3 → ℝ) × β)
    (H : Fin (min (maskCount E.mask) nb) → Fin (min (maskCount E.mask) nb) → ℂ)
    (h2 : ∀ i j, H i j = hamiltonianNonlocal (pwCoeff E.qr E.mask p) (fun _ : Fin 1 => E.psi k) E.vol 0 0 i j
        + Spec.kineticElement E.g k.1 (pwCoeff E.qr E.mask p 0 0 i) (pwCoeff E.qr E.mask p 0 0 j)
        + Spec.cellInner E.vol (waveGrid (pwCoeff E.qr E.mask p) E.vol 0 0 i) fun x =>
            W x * waveGrid (pwCoeff E.qr E.mask p) E.vol 0 0 j x) :
      (1 / 2 : ℂ) • (Matrix.of H + (Matrix.of H)ᴴ)
        = (Matrix.of (unitaryMatrix E.qr p 0 0))ᴴ * (Spec.planeWaveHamiltonian
            (fun a => gVectors A n (maskPos E.mask a)) (rVectors A n) V k.1
          + Spec.projectorMatrix E.vol (fun (i : ι × Fin M) a => E.psi k i.1 i.2 (maskPos E.mask a)))
          * Matrix.of (unitaryMatrix E.qr p 0 0) := by
  rw [hg] at h2
  exact ncMatrix_compress E.mask (unitaryMatrix E.qr p) (fun _ : Fin 1 => E.psi k) A hA E.vol hvol W V hV k.1 0 0 H h2

/-- The eigenvalues of one k point, one list for each channel of the density. -/
theorem bandEigNC_spectra {d M nb : ℕ} {ι β : Type} [Fintype ι] {n : Fin 3 → ℕ} (E : BandEnvNC d M ι β n)
    (A : Matrix (Fin 3) (Fin 3) ℝ) (hA : A.det ≠ 0) (hg : E.g = gVectors A n) (hvol : 0 < E.vol)
    (V : Fin d → Idx n → ℝ)
    (hV : ∀ σ x, V σ x = (ifftn E.vloc x + hartreeRealSpace E.dens E.g true x
      + vxcDensity E.lib E.xc E.g E.dens σ x).re)
    (p : PwParams 1 1 (maskCount E.mask) nb) (k : (Fin 3 → ℝ) × β) :
    ∃ e : Fin d → Fin (min (maskCount E.mask) nb) → ℝ, bandEigNC E p k = .ok ⟨d, e⟩ ∧
      ∀ σ, Spec.IsSpectrum ((Matrix.of (unitaryMatrix E.qr p 0 0))ᴴ * (Spec.planeWaveHamiltonian
            (fun a => gVectors A n (maskPos E.mask a)) (rVectors A n) (V σ) k.1
          + Spec.projectorMatrix E.vol (fun (i : ι × Fin M) a => E.psi k i.1 i.2 (maskPos E.mask a)))
          * Matrix.of (unitaryMatrix E.qr p 0 0)) (e σ) := by
  obtain ⟨H, h1, h2⟩ := ncHamiltonian_channels E.lib E.xc (pwCoeff E.qr E.mask p) E.dens E.vloc
    (fun _ : Fin 1 => E.psi k) E.g (fun _ => k.1) E.vol
  refine ⟨fun σ => E.eigh.vals (Matrix.of (H 0 σ)), ?_, fun σ => ?_⟩
  · unfold bandEigNC
    rw [h1]
  · have h3 := E.eigh.spec (Matrix.of (H 0 σ))
    rw [bandEigNC_spectrum E A hA hg hvol _ (V σ) (hV σ) p k (H 0 σ) (h2 0 σ)] at h3
    exact h3

/-- The reported energies and the objective of one channel, from the compression to the orbitals. -/
theorem bandEigNC_eq {M nb : ℕ} {ι β : Type} [Fintype ι] {n : Fin 3 → ℕ} (E : BandEnvNC 1 M ι β n)
    (A : Matrix (Fin 3) (Fin 3) ℝ) (hA : A.det ≠ 0) (hg : E.g = gVectors A n) (hvol : 0 < E.vol)
    (V : Idx n → ℝ)
    (hV : ∀ x, V x = (ifftn E.vloc x + hartreeRealSpace E.dens E.g true x
      + vxcDensity E.lib E.xc E.g E.dens 0 x).re)
    (p : PwParams 1 1 (maskCount E.mask) nb) (k : (Fin 3 → ℝ) × β) :
    ∃ e : Fin (min (maskCount E.mask) nb) → ℝ,
      ((∀ i, 0 < n i) → bandTraceNC E p k = .ok (∑ b, e b)) ∧
      bandEigNC E p k = .ok ⟨1, fun _ => e⟩ ∧
      Spec.IsSpectrum ((Matrix.of (unitaryMatrix E.qr p 0 0))ᴴ * (Spec.planeWaveHamiltonian
            (fun a => gVectors A n (maskPos E.mask a)) (rVectors A n) V k.1
          + Spec.projectorMatrix E.vol (fun (i : ι × Fin M) a => E.psi k i.1 i.2 (maskPos E.mask a)))
          * Matrix.of (unitaryMatrix E.qr p 0 0)) e := by
  obtain ⟨H, h1, h2⟩ := ncHamiltonian_channels E.lib E.xc (pwCoeff E.qr E.mask p) E.dens E.vloc
    (fun _ : Fin 1 => E.psi k) E.g (fun _ => k.1) E.vol
  replace h2 := bandEigNC_spectrum E A hA hg hvol _ V hV p k (H 0 0) (h2 0 0)
  have h3 := E.eigh.spec (Matrix.of (H 0 0))
  refine ⟨E.eigh.vals (Matrix.of (H 0 0)), fun hn => ?_, ?_, h2 ▸ h3⟩
  · refine (ncHamiltonian_trace_partial E.lib E.xc true hn _ E.dens E.vloc _ E.g
      _ E.vol (Or.inl rfl) H h1).trans ?_
    have ht := spectrum_trace h3
    have : ((∑ b, E.eigh.vals (Matrix.of (H 0 0)) b : ℝ) : ℂ)
        = ((∑ i, (H 0 0 i i).re : ℝ) : ℂ) := by
      rw [← ht]
      unfold Matrix.trace
      push_cast
      refine Finset.sum_congr rfl fun i _ => ?_
      simp only [Matrix.diag_apply, Matrix.smul_apply, Matrix.add_apply, Matrix.conjTranspose_apply,
        Matrix.of_apply, RCLike.star_def, smul_eq_mul]
      rw [Complex.add_conj]
      push_cast
      ring
    simp only [Fin.sum_univ_one]
    rw [Complex.ofReal_injective this]
  · unfold bandEigNC
    rw [h1]
    simp only
    congr 2
    funext q
    rw [Subsingleton.elim q 0]

/-- The Hamiltonian of the specification has real eigenvalues. -/
theorem planeWaveHamiltonianNC_spectrum {N : ℕ} {ι : Type*} [Fintype ι] {n : Fin 3 → ℕ} (G : Fin N → Fin 3 → ℝ)
    (r : Idx n → Fin 3 → ℝ) (V : Idx n → ℝ) (k : Fin 3 → ℝ) (vol : ℝ) (f : ι → Fin N → ℂ) :
    ∃ lam, Spec.IsSpectrum (Spec.planeWaveHamiltonian G r V k + Spec.projectorMatrix vol f) lam := by
  obtain ⟨mu, hmu⟩ := planeWaveHamiltonian_spectrum G r V k
  refine exists_spectrum ((spectrum_hermitian hmu).add ?_)
  ext a b
  rw [Matrix.conjTranspose_apply]
  unfold Spec.projectorMatrix
  rw [RCLike.star_def, map_div₀, map_sum, Complex.conj_ofReal]
  congr 1
  refine Finset.sum_congr rfl fun i _ => ?_
  rw [map_mul, Complex.conj_conj, mul_comm]

/-- Two plane waves of a cubic cell with a uniform density, a constant local potential and one projector. -/
noncomputable def twoWaveBandNC (lib : XcLib) : BandEnvNC 1 1 (Fin 1) Unit ![2, 1, 1] where
  lib := lib
  qr := keepingQR
  eigh := someEigvalsh
  mask := fun _ => true
  dens := fun _ _ => 1
  vloc := fun _ => 1
  psi := fun k _ _ x => Complex.I * (gVectors 1 ![2, 1, 1] x 0 + k.1 0 : ℝ)
  g := gVectors 1 ![2, 1, 1]
  vol := 1
  xc := "lda_x"

/-- The hypotheses of the theorems below are met. -/
example (lib : XcLib) :
    (1 : Matrix (Fin 3) (Fin 3) ℝ).det ≠ 0 ∧ (twoWaveBandNC lib).g = gVectors 1 ![2, 1, 1] ∧
    0 < (twoWaveBandNC lib).vol ∧ maskCount (twoWaveBandNC lib).mask = 2 ∧ (∀ i, 0 < ![2, 1, 1] i) ∧
    ∃ (V : Idx ![2, 1, 1] → ℝ) (lam : Fin (maskCount (twoWaveBandNC lib).mask) → ℝ),
      (∀ x, V x = (ifftn (twoWaveBandNC lib).vloc x
        + hartreeRealSpace (twoWaveBandNC lib).dens (twoWaveBandNC lib).g true x
        + vxcDensity lib "lda_x" (twoWaveBandNC lib).g (twoWaveBandNC lib).dens 0 x).re) ∧
      Spec.IsSpectrum (Spec.planeWaveHamiltonian (fun a => gVectors 1 ![2, 1, 1]
        (maskPos (twoWaveBandNC lib).mask a)) (rVectors 1 ![2, 1, 1]) V (fun _ => 1)
        + Spec.projectorMatrix 1 (fun (i : Fin 1 × Fin 1) a => (twoWaveBandNC lib).psi (fun _ => 1, ()) i.1 i.2
          (maskPos (twoWaveBandNC lib).mask a))) lam :=
  ⟨by simp, rfl, by norm_num [twoWaveBandNC], (by decide : maskCount (n := ![2, 1, 1]) (fun _ => true) = 2),
    by decide, _, _, fun _ => rfl, (planeWaveHamiltonianNC_spectrum _ _ _ _ _ _).choose_spec⟩

/-- C71 for the norm-conserving driver: at every k point the reported energies ascend, none is below the
eigenvalue of the same index of the Hamiltonian with kinetic, local, Hartree, exchange-correlation and
nonlocal terms in the plane waves of the mask, and they are these eigenvalues for a complete set of bands. -/
theorem bandEigNC_variational {M nb : ℕ} {ι β : Type} [Fintype ι] {n : Fin 3 → ℕ} (E : BandEnvNC 1 M ι β n)
    (A : Matrix (Fin 3) (Fin 3) ℝ) (hA : A.det ≠ 0) (hg : E.g = gVectors A n) (hvol : 0 < E.vol)
    (V : Idx n → ℝ)
    (hV : ∀ x, V x = (ifftn E.vloc x + hartreeRealSpace E.dens E.g true x
      + vxcDensity E.lib E.xc E.g E.dens 0 x).re)
    (p : PwParams 1 1 (maskCount E.mask) nb) (k : (Fin 3 → ℝ) × β) (lam : Fin (maskCount E.mask) → ℝ)
    (hl : Spec.IsSpectrum (Spec.planeWaveHamiltonian (fun a => gVectors A n (maskPos E.mask a))
        (rVectors A n) V k.1 + Spec.projectorMatrix E.vol
          (fun (i : ι × Fin M) a => E.psi k i.1 i.2 (maskPos E.mask a))) lam) :
    ∃ e, bandEigNC E p k = .ok ⟨1, fun _ => e⟩ ∧ Monotone e ∧
      (∀ b, lam (Fin.castLE (min_le_left _ _) b) ≤ e b) ∧
      (maskCount E.mask ≤ nb → ∀ b, e b = lam (Fin.castLE (min_le_left _ _) b)) := by
  obtain ⟨e, -, h1, h3⟩ := bandEigNC_eq E A hA hg hvol V hV p k
  refine ⟨e, h1, h3.1, fun b => ?_, fun hnb b => ?_⟩
  · exact spectrum_separation (min_le_left _ _) hl (E.qr.orth _) h3 b
  · exact spectrum_complete (by omega) hl (E.qr.orth _) h3 _ b

/-- C72 for the norm-conserving driver: the minimised value is the sum of the reported energies, bounded
below by the sum of the lowest exact eigenvalues, with equality exactly when all reported energies are
exact. -/
theorem bandTraceNC_bound {M nb : ℕ} {ι β : Type} [Fintype ι] {n : Fin 3 → ℕ} (hn : ∀ i, 0 < n i)
    (E : BandEnvNC 1 M ι β n)
    (A : Matrix (Fin 3) (Fin 3) ℝ) (hA : A.det ≠ 0) (hg : E.g = gVectors A n) (hvol : 0 < E.vol)
    (V : Idx n → ℝ)
    (hV : ∀ x, V x = (ifftn E.vloc x + hartreeRealSpace E.dens E.g true x
      + vxcDensity E.lib E.xc E.g E.dens 0 x).re)
    (p : PwParams 1 1 (maskCount E.mask) nb) (k : (Fin 3 → ℝ) × β) (lam : Fin (maskCount E.mask) → ℝ)
    (hl : Spec.IsSpectrum (Spec.planeWaveHamiltonian (fun a => gVectors A n (maskPos E.mask a))
        (rVectors A n) V k.1 + Spec.projectorMatrix E.vol
          (fun (i : ι × Fin M) a => E.psi k i.1 i.2 (maskPos E.mask a))) lam) :
    ∃ (t : ℝ) (e : Fin (min (maskCount E.mask) nb) → ℝ), bandTraceNC E p k = .ok t ∧
      bandEigNC E p k = .ok ⟨1, fun _ => e⟩ ∧ t = ∑ b, e b ∧
      ∑ b : Fin (min (maskCount E.mask) nb), lam (Fin.castLE (min_le_left _ _) b) ≤ t ∧
      (t = ∑ b : Fin (min (maskCount E.mask) nb), lam (Fin.castLE (min_le_left _ _) b) ↔
        ∀ b, e b = lam (Fin.castLE (min_le_left _ _) b)) := by
  obtain ⟨e, h1, h2, h4⟩ := bandEigNC_eq E A hA hg hvol V hV p k
  have hle : ∀ b, lam (Fin.castLE (min_le_left _ _) b) ≤ e b := fun b =>
    spectrum_separation (min_le_left _ _) hl (E.qr.orth _) h4 b
  refine ⟨_, e, h1 hn, h2, rfl, ?_, ?_⟩
  · exact Finset.sum_le_sum fun b _ => hle b
  · constructor
    · intro h b
      exact ((Finset.sum_eq_sum_iff_of_le fun b _ => hle b).1 h.symm b (Finset.mem_univ b)).symm
    · intro h
      exact Finset.sum_congr rfl fun b _ => h b

/-- C72 for the norm-conserving driver: parameters that minimise the objective at a k point report the exact
lowest eigenvalues. -/
theorem bandTraceNC_minimiser {M nb : ℕ} {ι β : Type} [Fintype ι] {n : Fin 3 → ℕ} (hn : ∀ i, 0 < n i)
    (E : BandEnvNC 1 M ι β n)
    (hqr : ∀ {N m : ℕ} (w : Matrix (Fin N) (Fin m) ℂ), wᴴ * w = 1 →
      ∃ R : Matrix (Fin (min N m)) (Fin m) ℂ, w = E.qr.q w * R)
    (hnb : nb ≤ maskCount E.mask)
    (A : Matrix (Fin 3) (Fin 3) ℝ) (hA : A.det ≠ 0) (hg : E.g = gVectors A n) (hvol : 0 < E.vol)
    (V : Idx n → ℝ)
    (hV : ∀ x, V x = (ifftn E.vloc x + hartreeRealSpace E.dens E.g true x
      + vxcDensity E.lib E.xc E.g E.dens 0 x).re)
    (k : (Fin 3 → ℝ) × β) (lam : Fin (maskCount E.mask) → ℝ)
    (hl : Spec.IsSpectrum (Spec.planeWaveHamiltonian (fun a => gVectors A n (maskPos E.mask a))
        (rVectors A n) V k.1 + Spec.projectorMatrix E.vol
          (fun (i : ι × Fin M) a => E.psi k i.1 i.2 (maskPos E.mask a))) lam)
    (p : PwParams 1 1 (maskCount E.mask) nb)
    (hmin : ∀ (p' : PwParams 1 1 (maskCount E.mask) nb) t t', bandTraceNC E p k = .ok t →
      bandTraceNC E p' k = .ok t' → t ≤ t') :
    ∃ e, bandEigNC E p k = .ok ⟨1, fun _ => e⟩ ∧ ∀ b, e b = lam (Fin.castLE (min_le_left _ _) b) := by
  obtain ⟨t, e, h1, h2, h3, h4, h5⟩ := bandTraceNC_bound hn E A hA hg hvol V hV p k lam hl
  refine ⟨e, h2, h5.1 (le_antisymm ?_ h4)⟩
  obtain ⟨hmono, U, hU, hH⟩ := hl
  have hU' : Uᴴ * U = 1 := Matrix.mem_unitaryGroup_iff'.1 hU
  obtain ⟨e', g1, g2, g4⟩ := bandEigNC_eq E A hA hg hvol V hV
    (⟨fun _ _ => Matrix.of fun a b => (U a (Fin.castLE hnb b)).re,
      fun _ _ => Matrix.of fun a b => (U a (Fin.castLE hnb b)).im⟩ : PwParams 1 1 (maskCount E.mask) nb) k
  have hw : (Matrix.of fun a b => (((U a (Fin.castLE hnb b)).re : ℝ) : ℂ)
      + Complex.I * (((U a (Fin.castLE hnb b)).im : ℝ) : ℂ)) = U.submatrix id (Fin.castLE hnb) := by
    ext a b
    rw [Matrix.of_apply, mul_comm, Complex.re_add_im]
    rfl
  have horth : (U.submatrix id (Fin.castLE hnb))ᴴ * U.submatrix id (Fin.castLE hnb) = 1 := by
    rw [Matrix.conjTranspose_submatrix, ← Matrix.submatrix_mul _ _ _ id _ Function.bijective_id, hU',
      Matrix.submatrix_one _ (Fin.castLE_injective hnb)]
  obtain ⟨R, hR⟩ := hqr (U.submatrix id (Fin.castLE hnb)) horth
  have g4' : Spec.IsSpectrum ((E.qr.q (U.submatrix id (Fin.castLE hnb)))ᴴ *
      (Spec.planeWaveHamiltonian (fun a => gVectors A n (maskPos E.mask a)) (rVectors A n) V k.1
        + Spec.projectorMatrix E.vol (fun (i : ι × Fin M) a => E.psi k i.1 i.2 (maskPos E.mask a))) *
        E.qr.q (U.submatrix id (Fin.castLE hnb))) e' := by
    rw [← hw]
    exact g4
  have hx := hmin _ t _ h1 (g1 hn)
  refine hx.trans (le_of_eq (Finset.sum_congr rfl fun b _ => ?_))
  exact spectrum_attained (min_eq_right hnb) hnb hmono hU' hH _ R (E.qr.orth _) hR g4' _ b

/-- C71 for the whole norm-conserving driver: every entry of the saved array is an upper bound of the exact
eigenvalue of its own k point, entries ascend with the band index and are exact for a complete set of
bands, whatever the optimiser does. -/
theorem bandCalcNC_variational {M nb : ℕ} {ι β : Type} [Fintype ι] {n : Fin 3 → ℕ} {O : Type*}
    (E : BandEnvNC 1 M ι β n)
    (A : Matrix (Fin 3) (Fin 3) ℝ) (hA : A.det ≠ 0) (hg : E.g = gVectors A n) (hvol : 0 < E.vol)
    (V : Idx n → ℝ)
    (hV : ∀ x, V x = (ifftn E.vloc x + hartreeRealSpace E.dens E.g true x
      + vxcDensity E.lib E.xc E.g E.dens 0 x).re)
    (N devices : ℕ) (parallel : Bool) (hdev : N % (if parallel then devices else 1) = 0)
    (upd : (Fin 3 → ℝ) × β → PwParams 1 1 (maskCount E.mask) nb × O → PwParams 1 1 (maskCount E.mask) nb × O)
    (epoch fineEpoch : ℕ) (p0 : PwParams 1 1 (maskCount E.mask) nb × O) (path : ℕ → (Fin 3 → ℝ) × β) :
    ∃ r, bandCalcNC E 1 N devices parallel upd epoch fineEpoch p0 path = .ok r ∧
      ∀ q < N, ∀ lam, Spec.IsSpectrum (Spec.planeWaveHamiltonian
          (fun a => gVectors A n (maskPos E.mask a)) (rVectors A n) V (path q).1
          + Spec.projectorMatrix E.vol (fun (i : ι × Fin M) a => E.psi (path q) i.1 i.2 (maskPos E.mask a))) lam →
        (∀ b (hb : b < min (maskCount E.mask) nb), lam ⟨b, hb.trans_le (min_le_left _ _)⟩ ≤ r q b) ∧
        (∀ b b', b ≤ b' → b' < min (maskCount E.mask) nb → r q b ≤ r q b') ∧
        (maskCount E.mask ≤ nb → ∀ b (hb : b < maskCount E.mask), r q b = lam ⟨b, hb⟩) := by
  obtain ⟨r, h1, h2⟩ := band_normcons_order N devices parallel 1 (min (maskCount E.mask) nb)
    (fun p k => (upd k)^[epoch] p) (fun p k => (upd k)^[fineEpoch] p) (fun p k => bandEigArrayNC E p.1 k) p0
    path hdev
  generalize (if parallel then devices else 1) = dv at h2 hdev
  refine ⟨r, h1, fun q hq lam hl => ?_⟩
  have key : ∃ e : Fin (min (maskCount E.mask) nb) → ℝ, Monotone e ∧
        (∀ b, lam (Fin.castLE (min_le_left _ _) b) ≤ e b) ∧
        (maskCount E.mask ≤ nb → ∀ b, e b = lam (Fin.castLE (min_le_left _ _) b)) ∧
        ∀ b (hb : b < min (maskCount E.mask) nb), r q b = e ⟨b, hb⟩ := by
    let P := Spec.chunkParams (fun p k => (upd k)^[epoch] p) (fun p k => (upd k)^[fineEpoch] p) p0 path
      (q / (N / dv) * (N / dv)) (q % (N / dv))
    obtain ⟨e, g1, g2, g3, g4⟩ := bandEigNC_variational E A hA hg hvol V hV P.1 (path q) lam hl
    refine ⟨e, g2, g3, g4, fun b hb => ?_⟩
    obtain ⟨start, i, e1, e2, ⟨c, e3⟩, e4⟩ := h2 q hq 0 one_pos b hb
    have hpos : 0 < N / dv := by omega
    have hst : start = q / (N / dv) * (N / dv) := by
      rw [e1, e3, Nat.mul_add_div hpos, Nat.div_eq_of_lt e2, Nat.add_zero, Nat.mul_comm]
    have hi : i = q % (N / dv) := by
      rw [e1, e3, Nat.mul_add_mod, Nat.mod_eq_of_lt e2]
    rw [Nat.mul_zero, Nat.add_zero] at e4
    rw [e4, hst, hi]
    show bandEigArrayNC E P.1 (path q) 0 b = _
    unfold bandEigArrayNC
    rw [g1]
    exact dif_pos ⟨one_pos, hb⟩
  obtain ⟨e, k1, k2, k3, k4⟩ := key
  refine ⟨fun b hb => ?_, fun b b' hbb hb' => ?_, fun hc b hb => ?_⟩
  · rw [k4 b hb]
    exact k2 ⟨b, hb⟩
  · rw [k4 b (by omega), k4 b' hb']
    exact k1 hbb
  · rw [k4 b (by omega)]
    exact k3 hc ⟨b, by omega⟩

/-- C71: the same schedule in the norm-conserving driver. -/
theorem bandCalcNC_epochs {d M nb : ℕ} {ι β : Type} [Fintype ι] {n : Fin 3 → ℕ} {O : Type*}
    (E : BandEnvNC d M ι β n) (K N devices : ℕ) (parallel : Bool) (hN : 0 < N)
    (hdev : N % (if parallel then devices else 1) = 0)
    (upd : (Fin 3 → ℝ) × β → PwParams 1 1 (maskCount E.mask) nb × O → PwParams 1 1 (maskCount E.mask) nb × O)
    (epoch fineEpoch : ℕ) (p0 : PwParams 1 1 (maskCount E.mask) nb × O) (path : ℕ → (Fin 3 → ℝ) × β) :
    ∃ r, ∃ par : ℕ → PwParams 1 1 (maskCount E.mask) nb × O, bandCalcNC E K N devices parallel upd epoch fineEpoch p0 path = .ok r ∧
      (∀ q, q % (N / (if parallel then devices else 1)) = 0 → par q = (upd (path q))^[epoch] p0) ∧
      (∀ q, (q + 1) % (N / (if parallel then devices else 1)) ≠ 0 →
        par (q + 1) = (upd (path (q + 1)))^[fineEpoch] (par q)) ∧
      ∀ (q : ℕ) (c : Fin K) (b : Fin (min (maskCount E.mask) nb)), q < N → ∀ e : Fin K → _ → ℝ,
        bandEigNC E (par q).1 (path q) = .ok ⟨K, e⟩ → r (q + N * c) b = e c b := by
  obtain ⟨r, h1, h2⟩ := band_normcons_order N devices parallel K (min (maskCount E.mask) nb)
    (fun p k => (upd k)^[epoch] p) (fun p k => (upd k)^[fineEpoch] p) (fun p k => bandEigArrayNC E p.1 k) p0
    path hdev
  generalize (if parallel then devices else 1) = dv at h2 hdev
  have hper : 0 < N / dv := by
    obtain ⟨c, rfl⟩ := Nat.dvd_of_mod_eq_zero hdev
    have hd : 0 < dv := Nat.pos_of_mul_pos_right hN
    rw [Nat.mul_div_cancel_left _ hd]
    exact Nat.pos_of_mul_pos_left hN
  obtain ⟨par, g1, g2, g3⟩ := chunkParams_path (fun p k => (upd k)^[epoch] p)
    (fun p k => (upd k)^[fineEpoch] p) p0 path (N / dv) hper
  refine ⟨r, par, h1, g1, g2, fun q c b hq e he => ?_⟩
  obtain ⟨start, i, rfl, e2, e3, e4⟩ := h2 q hq c c.2 b b.2
  rw [e4, g3 _ _ e2 e3]
  unfold bandEigArrayNC
  rw [he]
  exact dif_pos ⟨c.2, b.2⟩

/-- C71 for a density with any number of channels: `eig_fn` returns one list for each channel.  It ascends, none of
its entries is below the eigenvalue of the same index of the Hamiltonian of that channel, and the entries are these
eigenvalues for a complete set of bands. -/
theorem bandEigNC_channels {d M nb : ℕ} {ι β : Type} [Fintype ι] {n : Fin 3 → ℕ} (E : BandEnvNC d M ι β n)
    (A : Matrix (Fin 3) (Fin 3) ℝ) (hA : A.det ≠ 0) (hg : E.g = gVectors A n) (hvol : 0 < E.vol)
    (V : Fin d → Idx n → ℝ)
    (hV : ∀ σ x, V σ x = (ifftn E.vloc x + hartreeRealSpace E.dens E.g true x
      + vxcDensity E.lib E.xc E.g E.dens σ x).re)
    (p : PwParams 1 1 (maskCount E.mask) nb) (k : (Fin 3 → ℝ) × β) :
    ∃ e : Fin d → Fin (min (maskCount E.mask) nb) → ℝ, bandEigNC E p k = .ok ⟨d, e⟩ ∧
      ∀ σ lam, Spec.IsSpectrum (Spec.planeWaveHamiltonian (fun a => gVectors A n (maskPos E.mask a))
        (rVectors A n) (V σ) k.1 + Spec.projectorMatrix E.vol
          (fun (i : ι × Fin M) a => E.psi k i.1 i.2 (maskPos E.mask a))) lam →
        Monotone (e σ) ∧ (∀ b, lam (Fin.castLE (min_le_left _ _) b) ≤ e σ b) ∧
        (maskCount E.mask ≤ nb → ∀ b, e σ b = lam (Fin.castLE (min_le_left _ _) b)) := by
  obtain ⟨e, h1, h2⟩ := bandEigNC_spectra E A hA hg hvol V hV p k
  refine ⟨e, h1, fun σ lam hl => ⟨(h2 σ).1, fun b => ?_, fun hnb b => ?_⟩⟩
  · exact spectrum_separation (min_le_left _ _) hl (E.qr.orth _) (h2 σ) b
  · exact spectrum_complete (by omega) hl (E.qr.orth _) (h2 σ) _ b

/-- C71 for the whole norm-conserving driver and a density with any number of channels: the rows of the saved array
are those of all k points for the first channel, then those of all k points for the second one. -/
theorem bandCalcNC_channels {d M nb : ℕ} {ι β : Type} [Fintype ι] {n : Fin 3 → ℕ} {O : Type*}
    (E : BandEnvNC d M ι β n)
    (A : Matrix (Fin 3) (Fin 3) ℝ) (hA : A.det ≠ 0) (hg : E.g = gVectors A n) (hvol : 0 < E.vol)
    (V : Fin d → Idx n → ℝ)
    (hV : ∀ σ x, V σ x = (ifftn E.vloc x + hartreeRealSpace E.dens E.g true x
      + vxcDensity E.lib E.xc E.g E.dens σ x).re)
    (N devices : ℕ) (parallel : Bool) (hdev : N % (if parallel then devices else 1) = 0)
    (upd : (Fin 3 → ℝ) × β → PwParams 1 1 (maskCount E.mask) nb × O → PwParams 1 1 (maskCount E.mask) nb × O)
    (epoch fineEpoch : ℕ) (p0 : PwParams 1 1 (maskCount E.mask) nb × O) (path : ℕ → (Fin 3 → ℝ) × β) :
    ∃ r, bandCalcNC E d N devices parallel upd epoch fineEpoch p0 path = .ok r ∧
      ∀ q < N, ∀ (σ : Fin d) lam, Spec.IsSpectrum (Spec.planeWaveHamiltonian
          (fun a => gVectors A n (maskPos E.mask a)) (rVectors A n) (V σ) (path q).1
          + Spec.projectorMatrix E.vol (fun (i : ι × Fin M) a => E.psi (path q) i.1 i.2 (maskPos E.mask a))) lam →
        (∀ b (hb : b < min (maskCount E.mask) nb), lam ⟨b, hb.trans_le (min_le_left _ _)⟩ ≤ r (q + N * σ) b) ∧
        (∀ b b', b ≤ b' → b' < min (maskCount E.mask) nb → r (q + N * σ) b ≤ r (q + N * σ) b') ∧
        (maskCount E.mask ≤ nb → ∀ b (hb : b < maskCount E.mask), r (q + N * σ) b = lam ⟨b, hb⟩) := by
  rcases Nat.eq_zero_or_pos N with rfl | hN
  · obtain ⟨r, h1, -⟩ := band_normcons_order 0 devices parallel d (min (maskCount E.mask) nb)
      (fun p k => (upd k)^[epoch] p) (fun p k => (upd k)^[fineEpoch] p) (fun p k => bandEigArrayNC E p.1 k) p0
      path hdev
    exact ⟨r, h1, fun q hq => absurd hq (Nat.not_lt_zero q)⟩
  obtain ⟨r, par, h1, -, -, h4⟩ := bandCalcNC_epochs E d N devices parallel hN hdev upd epoch fineEpoch p0 path
  refine ⟨r, h1, fun q hq σ lam hl => ?_⟩
  obtain ⟨e, g1, g2⟩ := bandEigNC_channels E A hA hg hvol V hV (par q).1 (path q)
  obtain ⟨k1, k2, k3⟩ := g2 σ lam hl
  have he : ∀ b (hb : b < min (maskCount E.mask) nb), r (q + N * σ) b = e σ ⟨b, hb⟩ := fun b hb =>
    h4 q σ ⟨b, hb⟩ hq e g1
  refine ⟨fun b hb => ?_, fun b b' hbb hb' => ?_, fun hc b hb => ?_⟩
  · rw [he b hb]
    exact k2 ⟨b, hb⟩
  · rw [he b (by omega), he b' hb']
    exact k1 hbb
  · rw [he b (by omega)]
    exact k3 hc ⟨b, by omega⟩

/-- C72 fails for a density with several channels: the minimised value is the trace, between the orbitals, of a
Hamiltonian with the local potential once and the Hartree and exchange-correlation potentials of all channels
added, which is none of the Hamiltonians whose eigenvalues are reported. -/
theorem bandTraceNC_channels {d M nb : ℕ} {ι β : Type} [Fintype ι] {n : Fin 3 → ℕ} (hn : ∀ i, 0 < n i)
    (E : BandEnvNC d M ι β n)
    (A : Matrix (Fin 3) (Fin 3) ℝ) (hA : A.det ≠ 0) (hg : E.g = gVectors A n) (hvol : 0 < E.vol)
    (V : Idx n → ℝ)
    (hV : ∀ x, V x = (ifftn E.vloc x + ∑ σ, (hartreeRealSpace E.dens E.g true x
      + vxcDensity E.lib E.xc E.g E.dens σ x)).re)
    (p : PwParams 1 1 (maskCount E.mask) nb) (k : (Fin 3 → ℝ) × β) :
    bandTraceNC E p k = .ok (((Matrix.of (unitaryMatrix E.qr p 0 0))ᴴ * (Spec.planeWaveHamiltonian
            (fun a => gVectors A n (maskPos E.mask a)) (rVectors A n) V k.1
          + Spec.projectorMatrix E.vol (fun (i : ι × Fin M) a => E.psi k i.1 i.2 (maskPos E.mask a)))
          * Matrix.of (unitaryMatrix E.qr p 0 0)).trace.re) := by
  unfold bandTraceNC
  rw [ncHamiltonian_channels_trace E.lib E.xc hn, ← bandEigNC_spectrum E A hA hg hvol _ V hV p k _ fun _ _ => rfl]
  congr 1
  rw [Fin.sum_univ_one]
  unfold Matrix.trace
  rw [Complex.re_sum]
  refine Finset.sum_congr rfl fun i _ => ?_
  simp only [Matrix.diag_apply, Matrix.smul_apply, Matrix.add_apply, Matrix.conjTranspose_apply,
    Matrix.of_apply, RCLike.star_def, smul_eq_mul]
  rw [Complex.add_conj]
  norm_num [Complex.mul_re]
  ring

/-- C72 for the norm-conserving driver: some parameters report the exact lowest eigenvalues. -/
theorem bandTraceNC_attained {M nb : ℕ} {ι β : Type} [Fintype ι] {n : Fin 3 → ℕ}
    (E : BandEnvNC 1 M ι β n)
    (hqr : ∀ {N m : ℕ} (w : Matrix (Fin N) (Fin m) ℂ), wᴴ * w = 1 →
      ∃ R : Matrix (Fin (min N m)) (Fin m) ℂ, w = E.qr.q w * R)
    (hnb : nb ≤ maskCount E.mask)
    (A : Matrix (Fin 3) (Fin 3) ℝ) (hA : A.det ≠ 0) (hg : E.g = gVectors A n) (hvol : 0 < E.vol)
    (V : Idx n → ℝ)
    (hV : ∀ x, V x = (ifftn E.vloc x + hartreeRealSpace E.dens E.g true x
      + vxcDensity E.lib E.xc E.g E.dens 0 x).re)
    (k : (Fin 3 → ℝ) × β) (lam : Fin (maskCount E.mask) → ℝ)
    (hl : Spec.IsSpectrum (Spec.planeWaveHamiltonian (fun a => gVectors A n (maskPos E.mask a))
        (rVectors A n) V k.1 + Spec.projectorMatrix E.vol
          (fun (i : ι × Fin M) a => E.psi k i.1 i.2 (maskPos E.mask a))) lam) :
    ∃ (p : PwParams 1 1 (maskCount E.mask) nb) (e : _), bandEigNC E p k = .ok ⟨1, fun _ => e⟩ ∧
      ∀ b, e b = lam (Fin.castLE (min_le_left _ _) b) := by
  obtain ⟨hmono, U, hU, hH⟩ := hl
  have hU' : Uᴴ * U = 1 := Matrix.mem_unitaryGroup_iff'.1 hU
  obtain ⟨e', g1, g2, g4⟩ := bandEigNC_eq E A hA hg hvol V hV
    (⟨fun _ _ => Matrix.of fun a b => (U a (Fin.castLE hnb b)).re,
      fun _ _ => Matrix.of fun a b => (U a (Fin.castLE hnb b)).im⟩ : PwParams 1 1 (maskCount E.mask) nb) k
  have hw : (Matrix.of fun a b => (((U a (Fin.castLE hnb b)).re : ℝ) : ℂ)
      + Complex.I * (((U a (Fin.castLE hnb b)).im : ℝ) : ℂ)) = U.submatrix id (Fin.castLE hnb) := by
    ext a b
    rw [Matrix.of_apply, mul_comm, Complex.re_add_im]
    rfl
  have horth : (U.submatrix id (Fin.castLE hnb))ᴴ * U.submatrix id (Fin.castLE hnb) = 1 := by
    rw [Matrix.conjTranspose_submatrix, ← Matrix.submatrix_mul _ _ _ id _ Function.bijective_id, hU',
      Matrix.submatrix_one _ (Fin.castLE_injective hnb)]
  obtain ⟨R, hR⟩ := hqr (U.submatrix id (Fin.castLE hnb)) horth
  have g4' : Spec.IsSpectrum ((E.qr.q (U.submatrix id (Fin.castLE hnb)))ᴴ *
      (Spec.planeWaveHamiltonian (fun a => gVectors A n (maskPos E.mask a)) (rVectors A n) V k.1
        + Spec.projectorMatrix E.vol (fun (i : ι × Fin M) a => E.psi k i.1 i.2 (maskPos E.mask a))) *
        E.qr.q (U.submatrix id (Fin.castLE hnb))) e' := by
    rw [← hw]
    exact g4
  exact ⟨_, e', g2, fun b => spectrum_attained (min_eq_right hnb) hnb hmono hU' hH _ R (E.qr.orth _) hR g4' _ b⟩

/-- C72 (part) for the norm-conserving driver: with steps that end within `ε` of the lowest value of the objective
and at least one step per k point, every entry of the saved array is within `ε` of the exact eigenvalue.  Missing:
a spin-polarised density (`bandTraceNC_channels`). -/
theorem bandCalcNC_near_partial {M nb : ℕ} {ι β : Type} [Fintype ι] {n : Fin 3 → ℕ} {O : Type*}
    (hn : ∀ i, 0 < n i) (E : BandEnvNC 1 M ι β n)
    (hqr : ∀ {N m : ℕ} (w : Matrix (Fin N) (Fin m) ℂ), wᴴ * w = 1 →
      ∃ R : Matrix (Fin (min N m)) (Fin m) ℂ, w = E.qr.q w * R)
    (A : Matrix (Fin 3) (Fin 3) ℝ) (hA : A.det ≠ 0) (hg : E.g = gVectors A n) (hvol : 0 < E.vol)
    (V : Idx n → ℝ)
    (hV : ∀ x, V x = (ifftn E.vloc x + hartreeRealSpace E.dens E.g true x
      + vxcDensity E.lib E.xc E.g E.dens 0 x).re)
    (hnb : nb ≤ maskCount E.mask) (N devices : ℕ) (parallel : Bool) (hN : 0 < N)
    (hdev : N % (if parallel then devices else 1) = 0)
    (upd : (Fin 3 → ℝ) × β → PwParams 1 1 (maskCount E.mask) nb × O → PwParams 1 1 (maskCount E.mask) nb × O)
    (ε : ℝ)
    (hopt : ∀ k p, (∃ m, ∀ q : PwParams 1 1 (maskCount E.mask) nb, ∃ v, bandTraceNC E q k = .ok v ∧ m ≤ v) →
      ∀ (q : PwParams 1 1 (maskCount E.mask) nb) (v : ℝ), bandTraceNC E q k = .ok v →
        ∃ v', bandTraceNC E (upd k p).1 k = .ok v' ∧ v' ≤ v + ε)
    (epoch fineEpoch : ℕ) (he : 0 < epoch) (hf : 0 < fineEpoch)
    (p0 : PwParams 1 1 (maskCount E.mask) nb × O) (path : ℕ → (Fin 3 → ℝ) × β) :
    ∃ r, bandCalcNC E 1 N devices parallel upd epoch fineEpoch p0 path = .ok r ∧
      ∀ q < N, ∀ lam, Spec.IsSpectrum (Spec.planeWaveHamiltonian
          (fun a => gVectors A n (maskPos E.mask a)) (rVectors A n) V (path q).1
          + Spec.projectorMatrix E.vol (fun (i : ι × Fin M) a => E.psi (path q) i.1 i.2 (maskPos E.mask a))) lam →
        ∀ b (hb : b < nb), lam ⟨b, hb.trans_le hnb⟩ ≤ r q b ∧ r q b ≤ lam ⟨b, hb.trans_le hnb⟩ + ε := by
  obtain ⟨r, par, h1, h2, h3, h4⟩ := bandCalcNC_epochs E 1 N devices parallel hN hdev upd epoch fineEpoch p0 path
  refine ⟨r, h1, fun q hq lam hl b hb => ?_⟩
  have hstep : ∀ (k : (Fin 3 → ℝ) × β) (j : ℕ), 0 < j → ∀ x, ∃ y, (upd k)^[j] x = upd k y := fun k j hj x => by
    obtain ⟨i, rfl⟩ : ∃ i, j = i + 1 := ⟨j - 1, by omega⟩
    exact ⟨(upd k)^[i] x, Function.iterate_succ_apply' _ _ _⟩
  obtain ⟨y, hy⟩ : ∃ y, par q = upd (path q) y := by
    by_cases hq0 : q % (N / (if parallel then devices else 1)) = 0
    · rw [h2 q hq0]
      exact hstep _ _ he _
    · obtain ⟨q', rfl⟩ : ∃ q', q = q' + 1 := ⟨q - 1, by
        have : q ≠ 0 := fun h => hq0 (by rw [h, Nat.zero_mod])
        omega⟩
      rw [h3 q' hq0]
      exact hstep _ _ hf _
  obtain ⟨p', e'', m1, m2⟩ := bandTraceNC_attained E hqr hnb A hA hg hvol V hV (path q) lam hl
  obtain ⟨t, e, g1, g2, g3, -, -⟩ := bandTraceNC_bound hn E A hA hg hvol V hV (par q).1 (path q) lam hl
  obtain ⟨t', e', k1, k2, -, -, k5⟩ := bandTraceNC_bound hn E A hA hg hvol V hV p' (path q) lam hl
  have hee : e' = e'' := by
    rw [k2] at m1
    have := eq_of_heq (Sigma.mk.inj (Except.ok.inj m1)).2
    exact congrFun this 0
  have ht' := k5.2 fun b => by rw [hee, m2]
  obtain ⟨v', hv', hle⟩ := hopt (path q) y ⟨_, fun p => by
    obtain ⟨u, -, u1, -, -, u4, -⟩ := bandTraceNC_bound hn E A hA hg hvol V hV p (path q) lam hl
    exact ⟨u, u1, u4⟩⟩ p' t' k1
  rw [← hy, g1] at hv'
  obtain rfl := Except.ok.inj hv'
  have hbm : b < min (maskCount E.mask) nb := by omega
  have hr : r q b = e ⟨b, hbm⟩ := h4 q 0 ⟨b, hbm⟩ hq _ g2
  have hlow : ∀ j, lam (Fin.castLE (min_le_left _ _) j) ≤ e j := by
    obtain ⟨e3, n1, -, n3, -⟩ := bandEigNC_variational E A hA hg hvol V hV (par q).1 (path q) lam hl
    rw [g2] at n1
    have := congrFun (eq_of_heq (Sigma.mk.inj (Except.ok.inj n1)).2) 0
    intro j
    rw [this]
    exact n3 j
  have hlamb : lam ⟨b, hb.trans_le hnb⟩
      = lam (Fin.castLE (min_le_left _ _) (⟨b, hbm⟩ : Fin (min (maskCount E.mask) nb))) := rfl
  rw [hr, hlamb]
  refine ⟨hlow _, ?_⟩
  have hsum : ∑ j, (e j - lam (Fin.castLE (min_le_left _ _) j)) ≤ ε := by
    rw [Finset.sum_sub_distrib, ← ht', ← g3]
    linarith
  have hone := Finset.single_le_sum (f := fun j => e j - lam (Fin.castLE (min_le_left _ _) j))
      (fun j _ => sub_nonneg.2 (hlow j)) (Finset.mem_univ (⟨b, hbm⟩ : Fin (min (maskCount E.mask) nb)))
  linarith

end Jrystal
