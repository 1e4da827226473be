import Verif.Props.BandContinuity

/- C110: band energies at equivalent k points. -/
namespace Jrystal
open scoped BigOperators ComplexConjugate
open Matrix

/-- The eigenvalues of a principal submatrix are at least those of the same number of the matrix. -/
theorem spectrum_submatrix {N m : ℕ} {H : Matrix (Fin N) (Fin N) ℂ} {lam : Fin N → ℝ} (hH : Spec.IsSpectrum H lam)
    {ι : Fin m → Fin N} (hι : Function.Injective ι) {mu : Fin m → ℝ} (hM : Spec.IsSpectrum (H.submatrix ι ι) mu)
    (hm : m ≤ N) (j : Fin m) : lam (Fin.castLE hm j) ≤ mu j := by
  let C : Matrix (Fin N) (Fin m) ℂ := (1 : Matrix (Fin N) (Fin N) ℂ).submatrix id ι
  have hC : Cᴴ = (1 : Matrix (Fin N) (Fin N) ℂ).submatrix ι id := by
    show ((1 : Matrix (Fin N) (Fin N) ℂ).submatrix id ι)ᴴ = _
    rw [Matrix.conjTranspose_submatrix, Matrix.conjTranspose_one]
  refine spectrum_separation hm hH (C := C) ?_ ?_ j
  · rw [hC, ← Matrix.submatrix_mul _ _ _ id _ Function.bijective_id, Matrix.one_mul, Matrix.submatrix_one _ hι]
  · have : Cᴴ * H * C = H.submatrix ι ι := by
      rw [hC]
      conv_lhs => rw [← Matrix.submatrix_id_id H]
      rw [← Matrix.submatrix_mul _ _ _ id _ Function.bijective_id,
        ← Matrix.submatrix_mul _ _ _ id _ Function.bijective_id, Matrix.one_mul, Matrix.mul_one]
    rwa [this]

/-- Fewer plane waves make a principal submatrix. -/
theorem planeWave_submatrix {N m : ℕ} {n : Fin 3 → ℕ} (G : Fin N → Fin 3 → ℝ) (r : Idx n → Fin 3 → ℝ) (V : Idx n → ℝ)
    (k : Fin 3 → ℝ) {ι : Fin m → Fin N} (hι : Function.Injective ι) :
    (Spec.planeWaveHamiltonian G r V k).submatrix ι ι = Spec.planeWaveHamiltonian (fun i => G (ι i)) r V k := by
  ext a b
  simp only [Matrix.submatrix_apply, Spec.planeWaveHamiltonian, hι.eq_iff]

/-- Only the sum of plane wave and k point enters. -/
theorem planeWave_move {N : ℕ} {n : Fin 3 → ℕ} (G : Fin N → Fin 3 → ℝ) (r : Idx n → Fin 3 → ℝ) (V : Idx n → ℝ)
    (k B : Fin 3 → ℝ) :
    Spec.planeWaveHamiltonian (fun i e => G i e + B e) r V k = Spec.planeWaveHamiltonian G r V fun e => k e + B e := by
  ext a b
  simp only [Spec.planeWaveHamiltonian, add_sub_add_right_eq_sub]
  congr 4
  funext e
  ring

/-- Eigenvalues for a set of plane waves that contains another set moved by `B` are at most those of the other set
at the k point moved by `B`. -/
theorem bands_larger {N m : ℕ} {n : Fin 3 → ℕ} (G : Fin N → Fin 3 → ℝ) (G' : Fin m → Fin 3 → ℝ)
    (hG : Function.Injective G') (r : Idx n → Fin 3 → ℝ) (V : Idx n → ℝ) (k B : Fin 3 → ℝ)
    (h : ∀ i, ∃ l, ∀ e, G l e = G' i e + B e) {lam : Fin N → ℝ} {mu : Fin m → ℝ}
    (hl : Spec.IsSpectrum (Spec.planeWaveHamiltonian G r V k) lam)
    (hm : Spec.IsSpectrum (Spec.planeWaveHamiltonian G' r V fun e => k e + B e) mu) :
    ∃ hle : m ≤ N, ∀ j, lam (Fin.castLE hle j) ≤ mu j := by
  choose ι hι using h
  have hinj : Function.Injective ι := by
    intro i i' e
    refine hG (funext fun d => ?_)
    have h1 := hι i d
    rw [e, hι i' d] at h1
    linarith
  have hle : m ≤ N := by simpa using Fintype.card_le_of_injective ι hinj
  refine ⟨hle, fun j => spectrum_submatrix hl hinj ?_ hle j⟩
  rw [planeWave_submatrix _ _ _ _ hinj, show (fun i => G (ι i)) = fun i e => G' i e + B e from
    funext fun i => funext fun e => hι i e, planeWave_move]
  exact hm

/-- The vector with given coordinates is unique. -/
theorem coordinates_unique {A : Matrix (Fin 3) (Fin 3) ℝ} (hA : A.det ≠ 0) {u v : Fin 3 → ℝ}
    (h : ∀ l, ∑ e, u e * A l e = ∑ e, v e * A l e) : u = v := by
  refine row_comb_inj Aᵀ (by rwa [det_transpose]) u v fun l => ?_
  simpa using h l

/-- Grid vectors have integer coordinates. -/
theorem gVectors_coordinates {A : Matrix (Fin 3) (Fin 3) ℝ} (hA : A.det ≠ 0) (n : Fin 3 → ℕ) (x : Idx n) (l : Fin 3) :
    ∑ e, gVectors A n x e * A l e = 2 * Real.pi * (sfreq (n l) (x l) : ℝ) := by
  have := dual_dot A hA (fun i => (sfreq (n i) (x i) : ℝ)) (Pi.single l 1)
  simp only [← gVectors_apply] at this
  simpa [Pi.single_apply] using this

/-- C110 (part): the k points number `q` and `q'` of a spin-restricted band calculation have coordinates that differ
by the integers `t`.  Then the energies saved for both are at least the eigenvalues, at the first point, for every set
`w` of plane waves that contains the selected ones and the selected ones moved by `t`; and they are, up to the accuracy
of the optimiser, at most the eigenvalues for every set `w'` of selected plane waves that remain selected when moved
back by `t`.  Missing: equality, see `bandRun_equivalent_false`. -/
theorem bandRun_equivalent_partial (L : RunLib) (T : BandTools) (cfg : RunConfig) (b : BandConfig) {m : ℕ}
    (a : AseAtoms m) (size ksize : Fin 3 → ℤ) (ne spin : ℤ) {num : ℕ} {frac : Matrix (Fin num) (Fin 3) ℝ}
    (H : Spec.AdmissibleBand L T cfg b a size ksize ne spin num frac) (hr : cfg.restricted = true)
    (hC : Spec.Triangular L.qrC) (δ : ℝ) (hopt : ∀ opt, T.optimizer = .ok opt → Spec.NearBandOptimizer δ opt)
    (he : 0 < b.epoch) (hf : 0 < b.fineEpoch)
    (A : Matrix (Fin 3) (Fin 3) ℝ) (hA : A = (angstrom2bohr : ℝ) • a.cell)
    (pos : Fin m → Fin 3 → ℝ) (hpos : ∀ i d, pos i d = angstrom2bohr * a.positions i d)
    (z : Fin m → ℝ) (hz : ∀ i, z i = a.numbers i)
    (k : Fin num → Fin 3 → ℝ) (hk : Spec.HasCoordinates A frac k)
    (q q' : Fin num) (t : Fin 3 → ℤ) (ht : ∀ l, frac q' l = frac q l + t l) :
    ∃ n rep, ∃ mask : Idx n → Bool, ∃ dens file values,
      runAtoms L cfg a = .ok ⟨n, rep⟩ ∧ rep.density = ⟨1, dens⟩ ∧ Spec.LeastGrid size n ∧
      createFreqMask cfg A n = .ok mask ∧
      bandAtoms L T cfg b a = .ok ⟨file, 1, num, (ne.toNat + 1) / 2 + b.emptyBands, values⟩ ∧
      ∀ V : Fin 1 → Idx n → ℝ, Spec.KohnShamPotential L.xc cfg.xc pos z (gVectors A n) |A.det| dens V →
      (∀ (M : ℕ) (w : Fin M → Fin 3 → ℤ) (G : Fin M → Fin 3 → ℝ), Spec.HasCoordinates A (fun l i => (w l i : ℝ)) G →
        (∀ x, mask x = true → (∃ l, ∀ i, w l i = sfreq (n i) (x i)) ∧ ∃ l, ∀ i, w l i = sfreq (n i) (x i) + t i) →
        ∀ lam, Spec.IsSpectrum (Spec.planeWaveHamiltonian G (rVectors A n) (V 0) (k q)) lam →
        ∀ s (j : Fin ((ne.toNat + 1) / 2 + b.emptyBands)), ∃ hj : (j : ℕ) < M, lam ⟨j, hj⟩ ≤ values s q j ∧ lam ⟨j, hj⟩ ≤ values s q' j) ∧
      ∀ (M : ℕ) (w : Fin M → Fin 3 → ℤ) (G : Fin M → Fin 3 → ℝ), Spec.HasCoordinates A (fun l i => (w l i : ℝ)) G →
        Function.Injective w →
        (∀ l, (∃ x, mask x = true ∧ ∀ i, w l i = sfreq (n i) (x i)) ∧
          ∃ x, mask x = true ∧ ∀ i, w l i = sfreq (n i) (x i) + t i) →
        ∀ lam, Spec.IsSpectrum (Spec.planeWaveHamiltonian G (rVectors A n) (V 0) (k q)) lam →
        ∀ s (j : Fin ((ne.toNat + 1) / 2 + b.emptyBands)), ∀ hj : (j : ℕ) < M,
          values s q j ≤ lam ⟨j, hj⟩ + δ ∧ values s q' j ≤ lam ⟨j, hj⟩ + δ := by
  obtain ⟨n, rep, mask, dens, values, h1, h2, h3, h4, h5, hb, hval⟩ := bandRun_near_partial L T cfg b a size ksize ne spin
    H hr hC δ hopt he hf A hA pos hpos z hz k hk
  have hdet : A.det ≠ 0 := by
    rw [hA]
    exact fromAse_det a cfg.spin H.cell
  refine ⟨n, rep, mask, dens, _, values, h1, h2, h3, h4, h5, fun V hV => ?_⟩
  obtain ⟨mu, hmu⟩ := planeWaveHamiltonian_spectrum (fun i => gVectors A n (maskPos mask i)) (rVectors A n) (V 0) (k q)
  obtain ⟨mu', hmu'⟩ := planeWaveHamiltonian_spectrum (fun i => gVectors A n (maskPos mask i)) (rVectors A n) (V 0) (k q')
  have hG : Function.Injective fun i => gVectors A n (maskPos mask i) := by
    intro i i' e
    have e' := gVectors_injective A hdet n e
    rcases lt_trichotomy i i' with hlt | rfl | hlt
    · exact absurd (maskPos_lt mask _ _ hlt) (by rw [e']; exact lt_irrefl _)
    · rfl
    · exact absurd (maskPos_lt mask _ _ hlt) (by rw [e']; exact lt_irrefl _)
  have hB : ∀ l, ∑ e, (k q' e - k q e) * A l e = 2 * Real.pi * (t l : ℝ) := by
    intro l
    simp only [sub_mul, Finset.sum_sub_distrib, hk q l, hk q' l, ht l]
    ring
  have e0 : ∀ {M : ℕ} {w : Fin M → Fin 3 → ℤ} {G : Fin M → Fin 3 → ℝ}, Spec.HasCoordinates A (fun l i => (w l i : ℝ)) G →
      ∀ {l} {x : Idx n}, (∀ i, w l i = sfreq (n i) (x i)) → ∀ e, G l e = gVectors A n x e + 0 := by
    intro M w G hw l x hx e
    rw [add_zero]
    refine congrFun (coordinates_unique hdet fun l' => ?_) e
    rw [hw, gVectors_coordinates hdet, ← hx]
  have e1 : ∀ {M : ℕ} {w : Fin M → Fin 3 → ℤ} {G : Fin M → Fin 3 → ℝ}, Spec.HasCoordinates A (fun l i => (w l i : ℝ)) G →
      ∀ {l} {x : Idx n}, (∀ i, w l i = sfreq (n i) (x i) + t i) → ∀ e, G l e = gVectors A n x e + (k q' e - k q e) := by
    intro M w G hw l x hx e
    refine congrFun (coordinates_unique (v := fun e => gVectors A n x e + (k q' e - k q e)) hdet fun l' => ?_) e
    simp only [add_mul, Finset.sum_add_distrib, hB, gVectors_coordinates hdet, hw l l', hx]
    push_cast
    ring
  have hk0 : (fun e => k q e + 0) = k q := funext fun e => add_zero _
  have hk1 : (fun e => k q e + (k q' e - k q e)) = k q' := funext fun e => by ring
  constructor
  · intro M w G hw hsel lam hlam s j
    obtain ⟨hle, hlow⟩ := bands_larger G _ hG (rVectors A n) (V 0) (k q) (fun _ => 0)
      (fun i => by
        obtain ⟨⟨l, hl⟩, -⟩ := hsel _ (maskPos_mask mask i)
        exact ⟨l, e0 hw hl⟩) hlam (mu := mu) (by rw [hk0]; exact hmu)
    obtain ⟨_, hlow'⟩ := bands_larger G _ hG (rVectors A n) (V 0) (k q) (fun e => k q' e - k q e)
      (fun i => by
        obtain ⟨-, ⟨l, hl⟩⟩ := hsel _ (maskPos_mask mask i)
        exact ⟨l, e1 hw hl⟩) hlam (mu := mu') (by rw [hk1]; exact hmu')
    exact ⟨lt_of_lt_of_le j.2 (hb.trans hle), (hlow (Fin.castLE hb j)).trans (hval V hV s q mu hmu j).1,
      (hlow' (Fin.castLE hb j)).trans (hval V hV s q' mu' hmu' j).1⟩
  · intro M w G hw hinj hsel lam hlam s j hj
    have hGi : Function.Injective G := by
      intro l l' e
      refine hinj (funext fun i => ?_)
      have h1 := hw l i
      rw [e, hw l' i] at h1
      have h2 : (w l' i : ℝ) = w l i := mul_left_cancel₀ (by positivity) h1
      exact_mod_cast h2.symm
    have hcast : ∀ {x : Idx n}, mask x = true → ∃ i, maskPos mask i = x := fun h => exists_maskPos mask h
    obtain ⟨hle, hup⟩ := bands_larger (fun i => gVectors A n (maskPos mask i)) G hGi (rVectors A n) (V 0) (k q) (fun _ => 0)
      (fun l => by
        obtain ⟨⟨x, hx, hl⟩, -⟩ := hsel l
        obtain ⟨i, rfl⟩ := hcast hx
        exact ⟨i, fun e => by rw [e0 hw hl e]; ring⟩) hmu (mu := lam) (by rw [hk0]; exact hlam)
    obtain ⟨_, hup'⟩ := bands_larger (fun i => gVectors A n (maskPos mask i)) G hGi (rVectors A n) (V 0) (k q')
      (fun e => k q e - k q' e)
      (fun l => by
        obtain ⟨-, ⟨x, hx, hl⟩⟩ := hsel l
        obtain ⟨i, rfl⟩ := hcast hx
        exact ⟨i, fun e => by rw [e1 hw hl e]; ring⟩) hmu' (mu := lam)
      (by rw [show (fun e => k q' e + (k q e - k q' e)) = k q from funext fun e => by ring]; exact hlam)
    exact ⟨(hval V hV s q mu hmu j).2.trans (add_le_add (hup ⟨j, hj⟩) le_rfl),
      (hval V hV s q' mu' hmu' j).2.trans (add_le_add (hup' ⟨j, hj⟩) le_rfl)⟩

/-- C110, exact for a complete set of bands: the sums of the energies saved at two k points differ by the kinetic
energies of the selected plane waves, whatever the potential is. -/
theorem bandRun_trace (L : RunLib) (T : BandTools) (cfg : RunConfig) (b : BandConfig) {m : ℕ}
    (a : AseAtoms m) (size ksize : Fin 3 → ℤ) (ne spin : ℤ) {num : ℕ} {frac : Matrix (Fin num) (Fin 3) ℝ}
    (H : Spec.AdmissibleBand L T cfg b a size ksize ne spin num frac) (hr : cfg.restricted = true)
    (A : Matrix (Fin 3) (Fin 3) ℝ) (hA : A = (angstrom2bohr : ℝ) • a.cell)
    (k : Fin num → Fin 3 → ℝ) (hk : Spec.HasCoordinates A frac k) :
    ∃ n, ∃ mask : Idx n → Bool, ∃ file values,
      Spec.LeastGrid size n ∧ createFreqMask cfg A n = .ok mask ∧
      bandAtoms L T cfg b a = .ok ⟨file, 1, num, (ne.toNat + 1) / 2 + b.emptyBands, values⟩ ∧
      ((ne.toNat + 1) / 2 + b.emptyBands = Fintype.card {x // mask x = true} → ∀ s q q',
        ∑ j, values s q' j - ∑ j, values s q j
          = ∑ x, if mask x then Spec.kineticEnergy (fun e => gVectors A n x e + k q' e)
              - Spec.kineticEnergy (fun e => gVectors A n x e + k q e) else 0) := by
  obtain ⟨n, rep, mask, dens, values, -, -, h3, h4, h5, hb, hval⟩ := bandRun_complete_partial L T cfg b a size ksize ne spin
    H hr A hA _ (fun _ _ => rfl) _ (fun _ => rfl) k hk
  refine ⟨n, mask, _, values, h3, h4, h5, fun hc s q q' => ?_⟩
  rw [← RunSetup.maskCount_card] at hc
  obtain ⟨V, hV⟩ : ∃ V : Fin 1 → Idx n → ℝ, Spec.KohnShamPotential L.xc cfg.xc
      (fun i d => (angstrom2bohr : ℝ) * a.positions i d) (fun i => (a.numbers i : ℝ)) (gVectors A n) |A.det| dens V :=
    ⟨_, fun _ _ => rfl⟩
  have key : ∀ q, (((∑ j, values s q j : ℝ)) : ℂ)
      = (Spec.planeWaveHamiltonian (fun i => gVectors A n (maskPos mask i)) (rVectors A n) (V 0) (k q)).trace := by
    intro q
    obtain ⟨lam, hlam⟩ := planeWaveHamiltonian_spectrum (fun i => gVectors A n (maskPos mask i)) (rVectors A n) (V 0) (k q)
    obtain ⟨-, -, h⟩ := hval V hV s q lam hlam
    rw [spectrum_trace hlam]
    congr 1
    rw [← Equiv.sum_comp (finCongr hc)]
    exact Finset.sum_congr rfl fun j _ => h hc j
  have hsum : ∀ f : Idx n → ℝ, ∑ i, f (maskPos mask i) = ∑ x, if mask x then f x else 0 := by
    intro f
    rw [← Finset.sum_filter]
    refine Finset.sum_bij (fun i _ => maskPos mask i) (fun i _ => by simp [maskPos_mask]) ?_ ?_ fun _ _ => rfl
    · intro i _ i' _ e
      rcases lt_trichotomy i i' with hlt | rfl | hlt
      · exact absurd (maskPos_lt mask _ _ hlt) (by rw [e]; exact lt_irrefl _)
      · rfl
      · exact absurd (maskPos_lt mask _ _ hlt) (by rw [e]; exact lt_irrefl _)
    · intro x hx
      obtain ⟨i, hi⟩ := exists_maskPos mask (by simpa using hx : mask x = true)
      exact ⟨i, Finset.mem_univ _, hi⟩
  rw [← hsum fun x => Spec.kineticEnergy (fun e => gVectors A n x e + k q' e)
    - Spec.kineticEnergy (fun e => gVectors A n x e + k q e)]
  have h2 : (((∑ j, values s q' j - ∑ j, values s q j : ℝ)) : ℂ) = ((∑ i, (Spec.kineticEnergy (fun e =>
      gVectors A n (maskPos mask i) e + k q' e) - Spec.kineticEnergy (fun e => gVectors A n (maskPos mask i) e + k q e)) : ℝ) : ℂ) := by
    rw [Complex.ofReal_sub, key, key, Matrix.trace, Matrix.trace, ← Finset.sum_sub_distrib, Complex.ofReal_sum]
    refine Finset.sum_congr rfl fun i _ => ?_
    simp only [Matrix.diag_apply, Spec.planeWaveHamiltonian, if_true]
    push_cast
    ring
  exact_mod_cast h2

/-- The path of the example: multiples of the first reciprocal vector. -/
noncomputable def latticeTools (ε : ℝ) : BandTools :=
  { lithiumTools ε with bandpath := fun _ _ num => .ok ⟨num.getD 8, fun i l => if l = 0 then (i : ℝ) else 0⟩ }

/-- All eight bands of the example. -/
def allBands : BandConfig := { lithiumBands with emptyBands := 6 }

/-- The hypotheses of `bandRun_equivalent_partial` and `bandRun_trace` hold for the beryllium atom and a path with
equivalent points. -/
theorem beryllium_lattice {ε δ : ℝ} (hε : 0 < ε) (hδ : 0 < δ) :
    ∃ frac k, Spec.AdmissibleBand (berylliumLib ε) (latticeTools δ) berylliumConfig allBands
        (⟨fun _ => 4, 0, 1⟩ : AseAtoms 1) (fun _ => 4) (fun _ => 2) 4 0 16 frac ∧
      Spec.HasCoordinates ((angstrom2bohr : ℝ) • (1 : Matrix (Fin 3) (Fin 3) ℝ)) frac k ∧
      (∀ i l, frac i l = if l = 0 then (i : ℝ) else 0) ∧
      (∀ opt, (latticeTools δ).optimizer = .ok opt → Spec.NearBandOptimizer δ opt) := by
  obtain ⟨frac, k, H, hk, -, -, -, -, -, -, -, hopt⟩ := beryllium_band hε hδ
  have hne : (angstrom2bohr : ℝ) ≠ 0 := angstrom_ne
  obtain ⟨k', hk'⟩ := coordinates_exist (A := (angstrom2bohr : ℝ) • (1 : Matrix (Fin 3) (Fin 3) ℝ))
    (fromAse_det (⟨fun _ => 4, 0, 1⟩ : AseAtoms 1) none (by simp)) (fun (i : Fin 16) l => if l = 0 then (i : ℝ) else 0)
  refine ⟨_, k', { H with
    number := rfl
    path := rfl
    share := by show 8 ∣ 16; norm_num
    parallel := Or.inl rfl
    bandWaves := fun n hn mask hm => ?_
    bandOptimizer := ⟨_, rfl⟩ }, hk', fun i l => rfl, hopt⟩
  have hn4 : n = fun _ => 4 := funext fun i => RunSetup.least_eq (k := 4) (hn i) RunSetup.smooth4
  subst hn4
  obtain rfl : cubicMask _ = mask := Except.ok.inj hm
  decide +kernel

/-- Sets of plane waves as in `bandRun_equivalent_partial`, for the grid of the example and the first two points of
its path. -/
example : ∃ (w : Fin 64 → Fin 3 → ℤ) (w' : Fin 4 → Fin 3 → ℤ) (t : Fin 3 → ℤ), t = ![1, 0, 0] ∧
    (∀ x, cubicMask (fun _ => 4) x = true →
      (∃ l, ∀ i, w l i = sfreq 4 (x i)) ∧ ∃ l, ∀ i, w l i = sfreq 4 (x i) + t i) ∧
    Function.Injective w' ∧
    ∀ l, (∃ x, cubicMask (fun _ => 4) x = true ∧ ∀ i, w' l i = sfreq 4 (x i)) ∧
      ∃ x, cubicMask (fun _ => 4) x = true ∧ ∀ i, w' l i = sfreq 4 (x i) + t i :=
  ⟨fun l i => ((l : ℕ) / 4 ^ (i : ℕ) % 4 : ℕ) - 1, fun l => ![0, -((l : ℕ) % 2 : ℕ), -((l : ℕ) / 2 : ℕ)], _, rfl,
    by decide +kernel, by decide +kernel, by decide +kernel⟩

/-- C110, the rest of the property is false: there is a calculation in which the energies saved for two equivalent
points differ, by eight times the square of the reciprocal vector in total. -/
theorem bandRun_equivalent_false {ε δ : ℝ} (hε : 0 < ε) (hδ : 0 < δ) :
    ∃ frac k, Spec.AdmissibleBand (berylliumLib ε) (latticeTools δ) berylliumConfig allBands
        (⟨fun _ => 4, 0, 1⟩ : AseAtoms 1) (fun _ => 4) (fun _ => 2) 4 0 16 frac ∧
      Spec.HasCoordinates ((angstrom2bohr : ℝ) • (1 : Matrix (Fin 3) (Fin 3) ℝ)) frac k ∧
      (∀ l, frac 2 l = frac 0 l + (if l = 0 then (2 : ℤ) else 0 : ℤ)) ∧
      (∀ opt, (latticeTools δ).optimizer = .ok opt → Spec.NearBandOptimizer δ opt) ∧
      ∃ file, ∃ values : Fin 1 → Fin 16 → Fin 8 → ℝ,
        bandAtoms (berylliumLib ε) (latticeTools δ) berylliumConfig allBands (⟨fun _ => 4, 0, 1⟩ : AseAtoms 1)
          = .ok ⟨file, 1, 16, 8, values⟩ ∧
        ∑ j, values 0 2 j - ∑ j, values 0 0 j = 8 * (2 * Real.pi / angstrom2bohr) ^ 2 ∧
        ¬ ∀ j, values 0 2 j = values 0 0 j := by
  obtain ⟨frac, k, H, hk, hfrac, hopt⟩ := beryllium_lattice hε hδ
  obtain ⟨n, mask, file, values, hn, hmask, hband, hval⟩ := bandRun_trace _ _ _ _ _ _ _ _ _ H rfl _ rfl k hk
  have hne : (angstrom2bohr : ℝ) ≠ 0 := angstrom_ne
  obtain rfl : n = fun _ => 4 := funext fun i => RunSetup.least_eq (k := 4) (hn i) RunSetup.smooth4
  obtain rfl : cubicMask _ = mask := Except.ok.inj hmask
  have hk' : ∀ q l, k q l = 2 * Real.pi / angstrom2bohr * (if l = 0 then (q : ℝ) else 0) := by
    intro q l
    have h := hk q l
    rw [hfrac q l] at h
    simp only [Matrix.smul_apply, Matrix.one_apply, smul_eq_mul, mul_ite, mul_one, mul_zero, Finset.sum_ite_eq,
      Finset.mem_univ, if_true] at h
    field_simp
    rw [h]
    split_ifs <;> ring
  have hg' : ∀ (x : Idx fun _ => 4) l, gVectors ((angstrom2bohr : ℝ) • (1 : Matrix (Fin 3) (Fin 3) ℝ)) (fun _ => 4) x l
      = 2 * Real.pi / angstrom2bohr * (sfreq 4 (x l) : ℝ) := by
    intro x l
    have h := gVectors_coordinates (A := (angstrom2bohr : ℝ) • (1 : Matrix (Fin 3) (Fin 3) ℝ))
      (fromAse_det (⟨fun _ => 4, 0, 1⟩ : AseAtoms 1) none (by simp)) (fun _ => 4) x l
    simp only [Matrix.smul_apply, Matrix.one_apply, smul_eq_mul, mul_ite, mul_one, mul_zero, Finset.sum_ite_eq,
      Finset.mem_univ, if_true] at h
    field_simp
    exact h
  have hsum : ∑ j, values 0 2 j - ∑ j, values 0 0 j = 8 * (2 * Real.pi / angstrom2bohr) ^ 2 := by
    rw [hval (by decide +kernel) 0 0 2]
    have hcount : (∑ x : Idx fun _ => 4, if cubicMask (fun _ => 4) x then 2 * sfreq 4 (x 0) + 2 else 0) = 8 := by
      decide +kernel
    have : (8 : ℝ) = ∑ x : Idx fun _ => 4, if cubicMask (fun _ => 4) x then 2 * (sfreq 4 (x 0) : ℝ) + 2 else 0 := by
      exact_mod_cast hcount.symm
    rw [this, Finset.sum_mul]
    refine Finset.sum_congr rfl fun x _ => ?_
    split_ifs
    · simp only [Spec.kineticEnergy, Spec.dot, hk', hg', Fin.sum_univ_three,
        show ((2 : Fin 3) = 0) = False from eq_false (by decide), show ((1 : Fin 3) = 0) = False from eq_false (by decide)]
      norm_num
      ring
    · ring
  refine ⟨frac, k, H, hk, fun l => ?_, hopt, file, values, hband, hsum, fun h => ?_⟩
  · rw [hfrac, hfrac]
    split_ifs <;> norm_num
  · rw [show values 0 2 = values 0 0 from funext h, sub_self] at hsum
    have : (0 : ℝ) < 8 * (2 * Real.pi / angstrom2bohr) ^ 2 := by positivity
    linarith

end Jrystal
