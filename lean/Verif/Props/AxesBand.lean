import Verif.Props.Axes
import Verif.Props.BandPeriodic

/- C113 for band structures: the order of the cell vectors. -/
namespace Jrystal
open scoped BigOperators ComplexConjugate
open Matrix

variable {n n' : Fin 3 → ℕ} {e : Idx n ≃ Idx n'}

private theorem hartree_regrid (h : Regrid e) {S : ℕ} {g : Idx n → Fin 3 → ℝ} {g' : Idx n' → Fin 3 → ℝ}
    (hg : ∀ x, g' (e x) = g x) {r : Fin S → Idx n → ℝ} {r' : Fin S → Idx n' → ℝ} (hr : ∀ s j, r' s (e j) = r s j)
    (x : Idx n) : hartreeRealSpace r' g' true (e x) = hartreeRealSpace r g true x := by
  unfold hartreeRealSpace
  rw [h.ifftn]
  congr 1
  funext k
  unfold hartreeReciprocal
  simp only [h.densityR hr, hg, h.origin]

private theorem external_regrid (h : Regrid e) {m : ℕ} {g : Idx n → Fin 3 → ℝ} {g' : Idx n' → Fin 3 → ℝ}
    (hg : ∀ x, g' (e x) = g x) (pos : Fin m → Fin 3 → ℝ) (z : Fin m → ℝ) (vol : ℝ) (x : Idx n) :
    externalPotential pos z g' vol (e x) = externalPotential pos z g vol x := by
  unfold externalPotential
  rw [h.ifftn]
  congr 1
  funext k
  unfold externalReciprocal
  simp only [hg, h.origin, h.count]

private theorem vxc_regrid (lib : XcLib) {xt : String} (hxc : pyIn "gga" xt = false) {S : ℕ} {g : Idx n → Fin 3 → ℝ}
    {g' : Idx n' → Fin 3 → ℝ} {r : Fin S → Idx n → ℝ} {r' : Fin S → Idx n' → ℝ} (hr : ∀ s j, r' s (e j) = r s j)
    (s : Fin S) (x : Idx n) : vxcDensity lib xt g' r' s (e x) = vxcDensity lib xt g r s x := by
  unfold vxcDensity
  simp only [hxc, Bool.false_eq_true, if_false, Regrid.chan (e := e) hr]

private theorem hamiltonian_regrid {S N : ℕ} (hc : gridCount n' = gridCount n) {G : Fin N → Fin 3 → ℝ}
    {r : Idx n → Fin 3 → ℝ} {r' : Idx n' → Fin 3 → ℝ} (hr : ∀ x, r' (e x) = r x) {V : Fin S → Idx n → ℝ}
    {V' : Fin S → Idx n' → ℝ} (hV : ∀ s x, V' s (e x) = V s x) (k : Fin 3 → ℝ) :
    ∑ s, Spec.planeWaveHamiltonian G r' (V' s) k = ∑ s, Spec.planeWaveHamiltonian G r (V s) k := by
  refine Finset.sum_congr rfl fun s _ => ?_
  ext a b
  unfold Spec.planeWaveHamiltonian
  congr 2
  · rw [← e.sum_comp]
    simp only [hr, hV]
  · exact_mod_cast hc

private theorem spectrum_regrid_le {S N N' : ℕ} (hc : gridCount n' = gridCount n) {G : Fin N → Fin 3 → ℝ}
    {G' : Fin N' → Fin 3 → ℝ} {ι : Fin N → Fin N'} (hι : Function.Injective ι) (hG : ∀ i, G' (ι i) = G i)
    {r : Idx n → Fin 3 → ℝ} {r' : Idx n' → Fin 3 → ℝ} (hr : ∀ x, r' (e x) = r x) {V : Fin S → Idx n → ℝ}
    {V' : Fin S → Idx n' → ℝ} (hV : ∀ s x, V' s (e x) = V s x) (k : Fin 3 → ℝ) {lam : Fin N → ℝ} {lam' : Fin N' → ℝ}
    (hl : Spec.IsSpectrum (∑ s, Spec.planeWaveHamiltonian G r (V s) k) lam)
    (hl' : Spec.IsSpectrum (∑ s, Spec.planeWaveHamiltonian G' r' (V' s) k) lam') :
    ∃ hN : N ≤ N', ∀ j, lam' (Fin.castLE hN j) ≤ lam j := by
  have hN : N ≤ N' := by simpa using Fintype.card_le_of_injective ι hι
  refine ⟨hN, fun j => spectrum_submatrix hl' hι ?_ hN j⟩
  have : (∑ s, Spec.planeWaveHamiltonian G' r' (V' s) k).submatrix ι ι =
      ∑ s, Spec.planeWaveHamiltonian G r (V s) k := by
    rw [← hamiltonian_regrid (e := e) hc hr hV k]
    ext a b
    rw [Matrix.submatrix_apply, Matrix.sum_apply, Matrix.sum_apply]
    refine Finset.sum_congr rfl fun s _ => ?_
    have := congrFun (congrFun (planeWave_submatrix G' r' (V' s) k hι) a) b
    rw [Matrix.submatrix_apply, show (fun i => G' (ι i)) = G from funext hG] at this
    exact this
  rw [this]
  exact hl

private theorem mask_match {mask : Idx n → Bool} {mask' : Idx n' → Bool} (hm : ∀ x, mask' (e x) = mask x) :
    ∃ ι : Fin (maskCount mask) → Fin (maskCount mask'), Function.Injective ι ∧
      ∀ i, maskPos mask' (ι i) = e (maskPos mask i) := by
  have : ∀ i, ∃ i', maskPos mask' i' = e (maskPos mask i) := fun i =>
    exists_maskPos mask' (by rw [hm]; exact maskPos_mask mask i)
  choose ι hι using this
  refine ⟨ι, fun i j hij => ?_, hι⟩
  have h1 : maskPos mask i = maskPos mask j := e.injective (by rw [← hι, ← hι, hij])
  rcases lt_trichotomy i j with h | h | h
  · exact absurd (congrArg Spec.rowMajor h1) (maskPos_lt mask i j h).ne
  · exact h
  · exact absurd (congrArg Spec.rowMajor h1) (maskPos_lt mask j i h).ne'

/-- C113, bands: for densities that agree at corresponding points, the eigenvalues of the Kohn-Sham Hamiltonian of a
local density functional, at every k point, do not depend on the order in which the cell vectors and the sizes of the
grid are listed. -/
theorem bands_axes_reordered (lib : XcLib) (xt : String) (hxc : pyIn "gga" xt = false) (σ : Equiv.Perm (Fin 3))
    {m S : ℕ} {n : Fin 3 → ℕ} (A : Matrix (Fin 3) (Fin 3) ℝ) (pos : Fin m → Fin 3 → ℝ) (z : Fin m → ℝ)
    (mask : Idx n → Bool) (mask' : Idx (fun i => n (σ i)) → Bool) (hm : ∀ x : Idx n, mask' (fun i => x (σ i)) = mask x)
    (dens : Fin S → Idx n → ℝ) (dens' : Fin S → Idx (fun i => n (σ i)) → ℝ)
    (hd : ∀ s (x : Idx n), dens' s (fun i => x (σ i)) = dens s x)
    (V : Fin S → Idx n → ℝ) (hV : Spec.KohnShamPotential lib xt pos z (gVectors A n) |A.det| dens V)
    (V' : Fin S → Idx (fun i => n (σ i)) → ℝ)
    (hV' : Spec.KohnShamPotential lib xt pos z (gVectors (A.submatrix σ id) fun i => n (σ i))
      |(A.submatrix σ id).det| dens' V')
    (k : Fin 3 → ℝ) (lam : Fin (maskCount mask) → ℝ) (lam' : Fin (maskCount mask') → ℝ)
    (hl : Spec.IsSpectrum (∑ s, Spec.planeWaveHamiltonian (fun i => gVectors A n (maskPos mask i)) (rVectors A n)
      (V s) k) lam)
    (hl' : Spec.IsSpectrum (∑ s, Spec.planeWaveHamiltonian
      (fun i => gVectors (A.submatrix σ id) (fun i => n (σ i)) (maskPos mask' i))
      (rVectors (A.submatrix σ id) fun i => n (σ i)) (V' s) k) lam') :
    ∃ hN : maskCount mask = maskCount mask', ∀ j, lam' (Fin.cast hN j) = lam j := by
  have hR := axesIdx_regrid σ n
  have hg := gVectors_axes σ A n
  have hr : ∀ x, rVectors (A.submatrix σ id) (fun i => n (σ i)) (axesIdx σ n x) = rVectors A n x :=
    vectorGrid_axes σ A n true
  have hd2 : ∀ s x, dens' s (axesIdx σ n x) = dens s x := hd
  have hm2 : ∀ x, mask' (axesIdx σ n x) = mask x := hm
  have hVV : ∀ s x, V' s (axesIdx σ n x) = V s x := fun s x => by
    rw [hV, hV', hartree_regrid hR hg hd2, abs_det_axes, external_regrid hR hg, vxc_regrid lib hxc hd2]
  obtain ⟨ι, h1, h2⟩ := mask_match hm2
  obtain ⟨ι', h1', h2'⟩ := mask_match (e := (axesIdx σ n).symm) (mask := mask') (mask' := mask)
    fun y => by rw [← hm2, Equiv.apply_symm_apply]
  obtain ⟨hN, h3⟩ := spectrum_regrid_le (e := axesIdx σ n) hR.count h1 (fun i => by rw [h2, hg]) hr hVV k hl hl'
  obtain ⟨hN', h3'⟩ := spectrum_regrid_le (e := (axesIdx σ n).symm) hR.symm.count h1'
    (fun i => by rw [h2', ← hg, Equiv.apply_symm_apply]) (fun y => by rw [← hr, Equiv.apply_symm_apply])
    (fun s y => by rw [← hVV, Equiv.apply_symm_apply]) k hl' hl
  exact ⟨le_antisymm hN hN', fun j => le_antisymm (h3 j) (h3' (Fin.cast (le_antisymm hN hN') j))⟩

/-- C113, whole band calculations with one spin channel and a local density functional: if the densities of the first
stage agree at corresponding points, then listing the cell vectors, the sizes and the coordinates of the path in
another order changes the saved energies by no more than the accuracy of the optimiser. -/
theorem bandRun_axes_reordered (L : RunLib) (T : BandTools) (cfg cfg' : RunConfig) (b : BandConfig) {m : ℕ}
    (a : AseAtoms m) (σ : Equiv.Perm (Fin 3)) (size ksize : Fin 3 → ℤ) (ne spin : ℤ) {num : ℕ}
    {frac : Matrix (Fin num) (Fin 3) ℝ} (H : Spec.AdmissibleBand L T cfg b a size ksize ne spin num frac)
    (hcfg : cfg' = { cfg with gridSizes := cfg'.gridSizes, kGridSizes := cfg'.kGridSizes })
    (H' : Spec.AdmissibleBand L T cfg' b ⟨a.numbers, a.positions, a.cell.submatrix σ id⟩ (fun i => size (σ i))
      (fun i => ksize (σ i)) ne spin num (frac.submatrix id σ))
    (hr : cfg.restricted = true) (hxc : pyIn "gga" cfg.xc = false) (hC : Spec.Triangular L.qrC)
    (ε : ℝ) (hopt : ∀ opt, T.optimizer = .ok opt → Spec.NearBandOptimizer ε opt)
    (he : 0 < b.epoch) (hf : 0 < b.fineEpoch) :
    ∃ n rep rep' dens dens' name bands, ∃ f f' : Fin 1 → Fin num → Fin bands → ℝ, runAtoms L cfg a = .ok ⟨n, rep⟩ ∧ rep.density = ⟨1, dens⟩ ∧
      runAtoms L cfg' ⟨a.numbers, a.positions, a.cell.submatrix σ id⟩ = .ok ⟨fun i => n (σ i), rep'⟩ ∧
      rep'.density = ⟨1, dens'⟩ ∧
      bandAtoms L T cfg b a = .ok ⟨name, 1, num, bands, f⟩ ∧
      bandAtoms L T cfg' b ⟨a.numbers, a.positions, a.cell.submatrix σ id⟩ = .ok ⟨name, 1, num, bands, f'⟩ ∧
      ((∀ x : Idx n, dens' 0 (fun i => x (σ i)) = dens 0 x) → ∀ s q j, |f s q j - f' s q j| ≤ ε) := by
  obtain ⟨A, hA⟩ : ∃ A, A = (angstrom2bohr : ℝ) • a.cell := ⟨_, rfl⟩
  have hA' : A.submatrix σ id = (angstrom2bohr : ℝ) • (a.cell.submatrix σ id) := by rw [hA]; rfl
  have hdet : A.det ≠ 0 := by
    rw [hA, Matrix.det_smul]
    exact mul_ne_zero (pow_ne_zero _ (by norm_num [angstrom2bohr])) H.cell
  obtain ⟨k, hk⟩ := coordinates_exist hdet frac
  have hk' : Spec.HasCoordinates (A.submatrix σ id) (frac.submatrix id σ) k := fun i l => hk i (σ l)
  have hxc' : cfg'.xc = cfg.xc := by rw [hcfg]
  obtain ⟨n, rep, mask, dens, f, h1, h2, h3, h4, h5, hb, h6⟩ := bandRun_near_partial L T cfg b a size ksize ne spin H hr
    hC ε hopt he hf A hA _ (fun _ _ => rfl) _ (fun _ => rfl) k hk
  obtain ⟨n', rep', mask', dens', f', h1', h2', h3', h4', h5', hb', h6'⟩ := bandRun_near_partial L T cfg' b
    ⟨a.numbers, a.positions, a.cell.submatrix σ id⟩ _ _ ne spin H' (by rw [hcfg]; exact hr)
    hC ε hopt he hf (A.submatrix σ id) hA' (fun i d => angstrom2bohr * a.positions i d) (fun _ _ => rfl)
    (fun i => (a.numbers i : ℝ)) (fun _ => rfl) k hk'
  obtain rfl := leastGrid_unique (show Spec.LeastGrid (fun i => size (σ i)) fun i => n (σ i) from fun i => h3 (σ i)) h3'
  refine ⟨n, rep, rep', dens, dens', _, _, f, f', h1, h2, h1', h2', h5, h5', fun hd s q j => ?_⟩
  have h4s := createFreqMask_axes σ cfg cfg' (by rw [hcfg]) (by rw [hcfg]) A n h4
  obtain rfl := Except.ok.inj (h4s.symm.trans h4')
  obtain ⟨V, hV⟩ : ∃ V : Fin 1 → Idx n → ℝ, Spec.KohnShamPotential L.xc cfg.xc
      (fun i d => (angstrom2bohr : ℝ) * a.positions i d) (fun i => (a.numbers i : ℝ)) (gVectors A n) |A.det| dens V :=
    ⟨_, fun _ _ => rfl⟩
  obtain ⟨V', hV'⟩ : ∃ V : Fin 1 → Idx (fun i => n (σ i)) → ℝ, Spec.KohnShamPotential L.xc cfg'.xc
      (fun i d => (angstrom2bohr : ℝ) * a.positions i d) (fun i => (a.numbers i : ℝ))
      (gVectors (A.submatrix σ id) fun i => n (σ i)) |(A.submatrix σ id).det| dens' V :=
    ⟨_, fun _ _ => rfl⟩
  obtain ⟨lam, hl⟩ := exists_spectrum (planeWaveHamiltonian_hermitian (fun i => gVectors A n (maskPos mask i))
    (rVectors A n) (V 0) (k q))
  obtain ⟨lam', hl'⟩ := exists_spectrum (planeWaveHamiltonian_hermitian
    (fun i => gVectors (A.submatrix σ id) (fun i => n (σ i)) (maskPos (fun y => mask ((axesIdx σ n).symm y)) i))
    (rVectors (A.submatrix σ id) fun i => n (σ i)) (V' 0) (k q))
  obtain ⟨hN, heq⟩ := bands_axes_reordered L.xc cfg.xc hxc σ A _ _ mask _
    (fun x => by show mask ((axesIdx σ n).symm (axesIdx σ n x)) = _; rw [Equiv.symm_apply_apply]) dens dens'
    (fun s x => by rw [Subsingleton.elim s 0]; exact hd x) V hV V' (hxc' ▸ hV') (k q) lam lam'
    (by rw [Fin.sum_univ_one]; exact hl) (by rw [Fin.sum_univ_one]; exact hl')
  obtain ⟨g1, g2⟩ := h6 V hV s q lam hl j
  obtain ⟨g1', g2'⟩ := h6' V' hV' s q lam' hl' j
  have := heq (Fin.castLE hb j)
  have e1 : Fin.cast hN (Fin.castLE hb j) = Fin.castLE hb' j := rfl
  rw [e1] at this
  rw [this] at g1' g2'
  rw [abs_sub_le_iff]
  constructor <;> linarith

/-- The hypotheses hold for the beryllium atom with the second and the third cell vector exchanged; the path runs along
the first axis. -/
example {ε δ : ℝ} (hε : 0 < ε) (hδ : 0 < δ) : ∃ n rep rep' dens dens' name bands,
    ∃ f f' : Fin 1 → Fin 16 → Fin bands → ℝ,
    runAtoms (berylliumLib ε) berylliumConfig (⟨fun _ => 4, 0, 1⟩ : AseAtoms 1) = .ok ⟨n, rep⟩ ∧
      rep.density = ⟨1, dens⟩ ∧
      runAtoms (berylliumLib ε) berylliumConfig
        (⟨fun _ => 4, 0, (1 : Matrix (Fin 3) (Fin 3) ℝ).submatrix (Equiv.swap 1 2) id⟩ : AseAtoms 1)
          = .ok ⟨fun i => n (Equiv.swap 1 2 i), rep'⟩ ∧ rep'.density = ⟨1, dens'⟩ ∧
      bandAtoms (berylliumLib ε) (lithiumTools δ) berylliumConfig lithiumBands (⟨fun _ => 4, 0, 1⟩ : AseAtoms 1)
        = .ok ⟨name, 1, 16, bands, f⟩ ∧
      bandAtoms (berylliumLib ε) (lithiumTools δ) berylliumConfig lithiumBands
        (⟨fun _ => 4, 0, (1 : Matrix (Fin 3) (Fin 3) ℝ).submatrix (Equiv.swap 1 2) id⟩ : AseAtoms 1)
          = .ok ⟨name, 1, 16, bands, f'⟩ ∧
      ((∀ x : Idx n, dens' 0 (fun i => x (Equiv.swap 1 2 i)) = dens 0 x) → ∀ s q j, |f s q j - f' s q j| ≤ δ) := by
  obtain ⟨frac, k, H, -, hr, hC, -, -, -, -, -, hopt⟩ := beryllium_band hε hδ
  have hfrac : frac.submatrix id (Equiv.swap 1 2) = frac := by
    have h : (⟨16, fun i l => if l = 0 then (i : ℝ) / (2 * ((16 : ℕ) : ℝ)) else 0⟩ :
        (n : ℕ) × Matrix (Fin n) (Fin 3) ℝ) = ⟨16, frac⟩ := Except.ok.inj H.path
    obtain rfl := eq_of_heq (Sigma.mk.inj h).2
    ext i l
    have : Equiv.swap (1 : Fin 3) 2 l = 0 ↔ l = 0 := by revert l; decide
    show (if Equiv.swap (1 : Fin 3) 2 l = 0 then (i : ℝ) / (2 * ((16 : ℕ) : ℝ)) else 0)
      = if l = 0 then (i : ℝ) / (2 * ((16 : ℕ) : ℝ)) else 0
    simp only [this]
  have H' : Spec.AdmissibleBand (berylliumLib ε) (lithiumTools δ) berylliumConfig lithiumBands
      (⟨fun _ => 4, 0, (1 : Matrix (Fin 3) (Fin 3) ℝ).submatrix (Equiv.swap 1 2) id⟩ : AseAtoms 1) (fun _ => 4)
      (fun _ => 2) 4 0 16 (frac.submatrix id (Equiv.swap 1 2)) := by
    rw [hfrac]
    have hc : ((1 : Matrix (Fin 3) (Fin 3) ℝ).submatrix (Equiv.swap 1 2) id).det ≠ 0 := by
      refine abs_ne_zero.1 ?_
      rw [abs_det_axes]
      simp
    have hmask : ∀ A B n, createFreqMask berylliumConfig A n = createFreqMask berylliumConfig B n := fun A B n => by
      unfold createFreqMask
      rw [if_pos (show berylliumConfig.maskMethod = "cubic" from rfl),
        if_pos (show berylliumConfig.maskMethod = "cubic" from rfl)]
    exact { H with
      cell := hc
      waves := fun n hn mask hm => H.waves n hn mask ((hmask _ _ n).trans hm)
      bandWaves := fun n hn mask hm => H.bandWaves n hn mask ((hmask _ _ n).trans hm)
      path := H.path }
  exact bandRun_axes_reordered (berylliumLib ε) (lithiumTools δ) berylliumConfig berylliumConfig lithiumBands
    (⟨fun _ => 4, 0, 1⟩ : AseAtoms 1) (Equiv.swap 1 2) (fun _ => 4) (fun _ => 2) 4 0 H rfl H' hr (by decide +kernel) hC δ
    hopt (by decide) (by decide)

end Jrystal
