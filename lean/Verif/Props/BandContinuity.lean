import Verif.Spec.BandContinuity
import Verif.Lemmas.Weyl
import Verif.Props.LowestBands
import Verif.Props.Limit

/- C106: band energies are continuous along the path and in the potential, and belong to their k point alone. -/
namespace Jrystal
open scoped BigOperators
open Matrix RunSetup

private theorem dot_le_length (u v : Fin 3 → ℝ) : ∑ d, u d * v d ≤ Spec.length u * Spec.length v :=
  Real.sum_mul_le_sqrt_mul_sqrt _ _ _

private theorem kinetic_shift (G k k' : Fin 3 → ℝ) (R : ℝ) (h : Spec.length (fun e => G e + k e) ≤ R)
    (h' : Spec.length (fun e => G e + k' e) ≤ R) :
    Spec.kineticEnergy (fun e => G e + k e)
      ≤ Spec.kineticEnergy (fun e => G e + k' e) + R * Spec.length (fun e => k e - k' e) := by
  have h1 := dot_le_length (fun e => k e - k' e) (fun e => G e + k e)
  have h2 := dot_le_length (fun e => k e - k' e) (fun e => G e + k' e)
  have h0 : 0 ≤ Spec.length (fun e => k e - k' e) := Real.sqrt_nonneg _
  have h3 := mul_le_mul_of_nonneg_left h h0
  have h4 := mul_le_mul_of_nonneg_left h' h0
  unfold Spec.kineticEnergy Spec.dot
  simp only [Fin.sum_univ_three] at *
  nlinarith

/-- C106: the eigenvalues of the plane-wave Hamiltonian change, from one k point to another and from one potential
to another, by at most the distance of the k points times the largest wave vector, plus the largest change of the
potential. -/
theorem bands_lipschitz (A : Matrix (Fin 3) (Fin 3) ℝ) (hA : A.det ≠ 0) {n : Fin 3 → ℕ} (mask : Idx n → Bool)
    (V V' : Idx n → ℝ) (k k' : Fin 3 → ℝ) (R δ : ℝ)
    (hR : ∀ x, mask x = true → Spec.length (fun e => gVectors A n x e + k e) ≤ R)
    (hR' : ∀ x, mask x = true → Spec.length (fun e => gVectors A n x e + k' e) ≤ R)
    (hV : ∀ x, |V x - V' x| ≤ δ) {lam lam' : Fin (maskCount mask) → ℝ}
    (h : Spec.IsSpectrum (Spec.planeWaveHamiltonian (fun a => gVectors A n (maskPos mask a)) (rVectors A n) V k) lam)
    (h' : Spec.IsSpectrum (Spec.planeWaveHamiltonian (fun a => gVectors A n (maskPos mask a)) (rVectors A n) V' k') lam')
    (j : Fin (maskCount mask)) : |lam j - lam' j| ≤ R * Spec.length (fun e => k e - k' e) + δ := by
  rw [← add_zero (Spec.planeWaveHamiltonian _ _ _ _)] at h h'
  have hs : Spec.length (fun e => k' e - k e) = Spec.length (fun e => k e - k' e) := by
    unfold Spec.length
    congr 1
    exact Finset.sum_congr rfl fun d _ => by ring
  have h1 := planeWave_shift A hA mask V V' k k' 0 (R * Spec.length (fun e => k e - k' e)) δ
    (fun a => kinetic_shift _ _ _ R (hR _ (maskPos_mask mask a)) (hR' _ (maskPos_mask mask a)))
    (fun x => by have := (abs_le.mp (hV x)).2; linarith) h h' j
  have h2 := planeWave_shift A hA mask V' V k' k 0 (R * Spec.length (fun e => k' e - k e)) δ
    (fun a => kinetic_shift _ _ _ R (hR' _ (maskPos_mask mask a)) (hR _ (maskPos_mask mask a)))
    (fun x => by have := (abs_le.mp (hV x)).1; linarith) h' h j
  rw [hs] at h2
  exact abs_le.mpr ⟨by linarith, by linarith⟩

/-- With pseudopotentials, whose projectors are the same in both: the change of the eigenvalues is at most the
largest change of the local potential. -/
theorem bandsNC_lipschitz (A : Matrix (Fin 3) (Fin 3) ℝ) (hA : A.det ≠ 0) {n : Fin 3 → ℕ} (mask : Idx n → Bool)
    (V V' : Idx n → ℝ) (k : Fin 3 → ℝ) (P : Matrix (Fin (maskCount mask)) (Fin (maskCount mask)) ℂ) (δ : ℝ)
    (hV : ∀ x, |V x - V' x| ≤ δ) {lam lam' : Fin (maskCount mask) → ℝ}
    (h : Spec.IsSpectrum (Spec.planeWaveHamiltonian (fun a => gVectors A n (maskPos mask a)) (rVectors A n) V k + P) lam)
    (h' : Spec.IsSpectrum (Spec.planeWaveHamiltonian (fun a => gVectors A n (maskPos mask a)) (rVectors A n) V' k + P) lam')
    (j : Fin (maskCount mask)) : |lam j - lam' j| ≤ δ := by
  have h1 := planeWave_shift A hA mask V V' k k P 0 δ (fun a => by rw [add_zero])
    (fun x => by have := (abs_le.mp (hV x)).2; linarith) h h' j
  have h2 := planeWave_shift A hA mask V' V k k P 0 δ (fun a => by rw [add_zero])
    (fun x => by have := (abs_le.mp (hV x)).1; linarith) h' h j
  exact abs_le.mpr ⟨by linarith, by linarith⟩

/-- C106, whole calculations (part): two spin-restricted band calculations of the same crystal with the same settings
of the first stage, but any paths, numbers of points, numbers of bands, band optimisers and epochs, save energies
that differ at points `q` and `q'` of the two paths by at most the distance of the points times the largest wave
vector, plus the larger of the accuracies of the band optimisers.  The same calculation may be taken twice.  At a
common point only the accuracies remain: the energy does not depend on the rest of the path nor on the number of
empty bands.  Missing: spin-unrestricted calculations, which save energies of the sum of the Hamiltonians
(`bandRun_doubled`). -/
theorem bandRun_continuous_partial (L : RunLib) (T T' : BandTools) (cfg : RunConfig) (b b' : BandConfig) {m : ℕ}
    (a : AseAtoms m) (size ksize : Fin 3 → ℤ) (ne spin : ℤ) {num num' : ℕ} {frac : Matrix (Fin num) (Fin 3) ℝ}
    {frac' : Matrix (Fin num') (Fin 3) ℝ}
    (H : Spec.AdmissibleBand L T cfg b a size ksize ne spin num frac)
    (H' : Spec.AdmissibleBand L T' cfg b' a size ksize ne spin num' frac') (hr : cfg.restricted = true)
    (hC : Spec.Triangular L.qrC) (ε ε' : ℝ) (hopt : ∀ opt, T.optimizer = .ok opt → Spec.NearBandOptimizer ε opt)
    (hopt' : ∀ opt, T'.optimizer = .ok opt → Spec.NearBandOptimizer ε' opt)
    (he : 0 < b.epoch) (hf : 0 < b.fineEpoch) (he' : 0 < b'.epoch) (hf' : 0 < b'.fineEpoch)
    (A : Matrix (Fin 3) (Fin 3) ℝ) (hA : A = (angstrom2bohr : ℝ) • a.cell)
    (k : Fin num → Fin 3 → ℝ) (hk : Spec.HasCoordinates A frac k)
    (k' : Fin num' → Fin 3 → ℝ) (hk' : Spec.HasCoordinates A frac' k') :
    ∃ n, ∃ mask : Idx n → Bool, ∃ file values file' values',
      Spec.LeastGrid size n ∧ createFreqMask cfg A n = .ok mask ∧
      bandAtoms L T cfg b a = .ok ⟨file, 1, num, (ne.toNat + 1) / 2 + b.emptyBands, values⟩ ∧
      bandAtoms L T' cfg b' a = .ok ⟨file', 1, num', (ne.toNat + 1) / 2 + b'.emptyBands, values'⟩ ∧
      ∀ s s' q q' (j : Fin ((ne.toNat + 1) / 2 + b.emptyBands)) (j' : Fin ((ne.toNat + 1) / 2 + b'.emptyBands)),
        (j : ℕ) = j' →
        (k q = k' q' → |values s q j - values' s' q' j'| ≤ max ε ε') ∧
        ∀ R, (∀ x, mask x = true → Spec.length (fun e => gVectors A n x e + k q e) ≤ R ∧
            Spec.length (fun e => gVectors A n x e + k' q' e) ≤ R) →
          |values s q j - values' s' q' j'| ≤ R * Spec.length (fun e => k q e - k' q' e) + max ε ε' := by
  obtain ⟨n, rep, mask, dens, values, h1, h2, h3, h4, h5, hb, h6⟩ := bandRun_near_partial L T cfg b a size ksize ne
    spin H hr hC ε hopt he hf A hA _ (fun _ _ => rfl) _ (fun _ => rfl) k hk
  obtain ⟨n', rep', mask', dens', values', g1, g2, g3, g4, g5, hb', g6⟩ := bandRun_near_partial L T' cfg b' a size
    ksize ne spin H' hr hC ε' hopt' he' hf' A hA _ (fun _ _ => rfl) _ (fun _ => rfl) k' hk'
  rw [h1] at g1
  obtain ⟨rfl, hrep⟩ := Sigma.mk.inj (Except.ok.inj g1)
  obtain rfl := eq_of_heq hrep
  obtain rfl := Except.ok.inj (h4.symm.trans g4)
  rw [h2] at g2
  obtain rfl := eq_of_heq (Sigma.mk.inj g2).2
  have hdet : A.det ≠ 0 := by
    rw [hA]
    exact fromAse_det a cfg.spin H.cell
  refine ⟨n, mask, _, values, _, values', h3, h4, h5, g5, fun s s' q q' j j' hj => ?_⟩
  let V : Fin 1 → Idx n → ℝ := fun σ x => (hartreeRealSpace dens (gVectors A n) true x
    + externalPotential (fun i d => (angstrom2bohr : ℝ) * a.positions i d) (fun i => (a.numbers i : ℝ)) (gVectors A n)
      |A.det| x + vxcDensity L.xc cfg.xc (gVectors A n) dens σ x).re
  obtain ⟨lam, hl⟩ := planeWaveHamiltonian_spectrum (fun a => gVectors A n (maskPos mask a)) (rVectors A n) (V 0) (k q)
  obtain ⟨lam', hl'⟩ := planeWaveHamiltonian_spectrum (fun a => gVectors A n (maskPos mask a)) (rVectors A n) (V 0)
    (k' q')
  obtain ⟨a1, a2⟩ := h6 V (fun _ _ => rfl) s q lam hl j
  obtain ⟨b1, b2⟩ := g6 V (fun _ _ => rfl) s' q' lam' hl' j'
  have hjj : Fin.castLE hb' j' = Fin.castLE hb j := Fin.ext hj.symm
  rw [hjj] at b1 b2
  have c1 := le_max_left ε ε'
  have c2 := le_max_right ε ε'
  constructor
  · intro hq
    obtain rfl : lam = lam' := by
      funext i
      rw [hq, ← add_zero (Spec.planeWaveHamiltonian _ _ _ _)] at hl
      rw [← add_zero (Spec.planeWaveHamiltonian _ _ _ _)] at hl'
      have := bandsNC_lipschitz A hdet mask (V 0) (V 0) (k' q') 0 0 (fun x => by simp) hl hl' i
      exact sub_eq_zero.mp (abs_nonpos_iff.mp this)
    exact abs_le.mpr ⟨by linarith, by linarith⟩
  · intro R hR
    have h7 := abs_le.mp (bands_lipschitz A hdet mask (V 0) (V 0) (k q) (k' q') R 0 (fun x hx => (hR x hx).1)
      (fun x hx => (hR x hx).2) (fun x => by simp) hl hl' (Fin.castLE hb j))
    exact abs_le.mpr ⟨by linarith [h7.1], by linarith [h7.2]⟩

theorem continuous_hartreeReal {ns : ℕ} {n : Fin 3 → ℕ} (g : Idx n → Fin 3 → ℝ) (x : Idx n) :
    Continuous fun ρ : Fin ns → Idx n → ℝ => hartreeRealSpace ρ g true x := by
  unfold hartreeRealSpace hartreeReciprocal
  simp only [ifftn_eq, fftn_eq, if_true]
  refine Continuous.div_const (continuous_finsetSum _ fun y _ => Continuous.mul (Continuous.mul (Continuous.mul ?_
    continuous_const) continuous_const) continuous_const) _
  split_ifs
  · exact continuous_const
  · refine Continuous.div_const (continuous_finsetSum _ fun s _ => continuous_finsetSum _ fun t _ => ?_) _
    exact (Complex.continuous_ofReal.comp ((continuous_apply t).comp (continuous_apply s))).mul continuous_const

/-- Of finitely many steps: near-ground states make potentials near to those of ground states. -/
theorem limit_potential {nk nb : ℕ} {n : Fin 3 → ℕ} {eps : ℝ} (heps : 0 < eps) (mask : Idx n → Bool)
    (ne spin : ℤ) (r : Bool) (method : String) {energy : Coef 1 nk nb n → Occ 1 nk nb → ℝ → Prop}
    {f : Coef 1 nk nb n × Occ 1 nk nb → ℝ}
    (hf : ContinuousOn f {x | ∀ s k b, 0 ≤ x.2 s k b}) (hen : ∀ c occ e, energy c occ e ↔ e = f (c, occ))
    (vol : ℝ) (W : (Fin 1 → Idx n → ℝ) → Idx n → ℝ)
    (hW : ∀ x, ContinuousOn (fun ρ => W ρ x) {ρ : Fin 1 → Idx n → ℝ | ∀ s x, 0 ≤ ρ s x})
    {δ : ℝ} (hδ : 0 < δ) (temp : ℕ → ℝ) (N : ℕ) :
    ∃ ε, 0 < ε ∧ ∀ i < N, ∀ c occ e, Spec.GroundWithin ε (temp i) eps mask ne spin r method energy c occ e →
      ∃ c' occ' e', Spec.GroundWithin 0 (temp i) eps mask ne spin r method energy c' occ' e' ∧
        ∀ x, |W (densityGrid c vol occ) x - W (densityGrid c' vol occ') x| ≤ δ := by
  induction N with
  | zero => exact ⟨1, one_pos, fun i hi => absurd hi (Nat.not_lt_zero i)⟩
  | succ N ih =>
    obtain ⟨ε₁, h1, ih⟩ := ih
    obtain ⟨ε₂, h2, hnear⟩ := ground_near (t := temp N) (mask := mask) (ne := ne) (spin := spin) (r := r)
      (method := method) heps hf hen (fun x => W (densityGrid x.1 vol x.2))
      (continuousOn_pi.mpr fun x => (hW x).comp (continuous_densityGrid vol).continuousOn
        fun y hy => densityGrid_nonneg _ _ _ hy) hδ
    have mono : ∀ {t ε ε' c occ e}, ε ≤ ε' → Spec.GroundWithin ε t eps mask ne spin r method energy c occ e →
        Spec.GroundWithin ε' t eps mask ne spin r method energy c occ e := fun hle h =>
      ⟨h.physical, h.value, h.given, fun c' occ' e' a b d => by linarith [h.least c' occ' e' a b d]⟩
    refine ⟨min ε₁ ε₂, lt_min h1 h2, fun i hi c occ e h => ?_⟩
    rcases Nat.lt_succ_iff_lt_or_eq.mp hi with hi | rfl
    · exact ih i hi c occ e (mono (min_le_left _ _) h)
    · obtain ⟨c', occ', e', h3, h4⟩ := hnear c occ e (mono (min_le_right _ _) h)
      refine ⟨c', occ', e', h3, fun x => ?_⟩
      rw [← Real.dist_eq]
      exact (dist_le_pi_dist _ _ x).trans h4.le

/-- C106, the limit of good optimisers (part): for every tolerance `δ` there is an accuracy of the first optimiser
with which every spin-restricted band calculation, on every path and with every number of bands, saves energies
within `δ` plus the accuracy of the band optimiser of the Kohn-Sham eigenvalues of an exact ground state.  Missing:
spin-unrestricted calculations; a temperature near to the requested one when the convergence test ends the first
stage early (`stops_hot`). -/
theorem bandRun_limit_partial (L : RunLib) (cfg : RunConfig) {m : ℕ} (a : AseAtoms m) (size ksize : Fin 3 → ℤ)
    (ne spin : ℤ) (H : Spec.AdmissibleRun L cfg a size ksize ne spin) (hr : cfg.restricted = true)
    (hC : Spec.Triangular L.qrC) (hR : Spec.Triangular L.qrR) (hxc : Spec.ContinuousXc L.xc cfg.xc)
    (hvxc : Spec.ContinuousVxc L.xc cfg.xc) (heps : 0 < cfg.eps)
    (hspin : cfg.occupation = "simplex-projector" → spin = 0) (hg : cfg.occupation = "gamma" → ∀ i, ksize i ≤ 1)
    (A : Matrix (Fin 3) (Fin 3) ℝ) (hA : A = (angstrom2bohr : ℝ) • a.cell)
    (pos : Fin m → Fin 3 → ℝ) (hpos : ∀ i d, pos i d = angstrom2bohr * a.positions i d)
    (z : Fin m → ℝ) (hz : ∀ i, z i = a.numbers i) (he : 3 ≤ cfg.epoch)
    {n kn : Fin 3 → ℕ} (hn : Spec.LeastGrid size n) (hkn : Spec.LeastGrid ksize kn)
    (mask : Idx n → Bool) (hmask : createFreqMask cfg A n = .ok mask) (δ : ℝ) (hδ : 0 < δ) :
    ∃ ε, 0 < ε ∧ ∀ opt : Optimizer, Spec.NearOptimizer ε opt →
      (∀ {ns nk g nb : ℕ} (f : GsParams ns nk g nb → Except PyErr ℝ) (p : GsParams ns nk g nb × opt.State),
        Spec.KeepsShape p.1.occ (opt.step f p).1.occ) →
      ∀ (T : BandTools) (b : BandConfig) (num : ℕ) (frac : Matrix (Fin num) (Fin 3) ℝ) (k : Fin num → Fin 3 → ℝ)
        (δ' : ℝ), Spec.AdmissibleBand { L with optimizer := .ok opt } T cfg b a size ksize ne spin num frac →
        (∀ opt, T.optimizer = .ok opt → Spec.NearBandOptimizer δ' opt) → 0 < b.epoch → 0 < b.fineEpoch →
        Spec.HasCoordinates A frac k →
      ∃ i, ∃ c : Coef 1 (idxList kn).length ((ne.toNat + 1) / 2 + cfg.emptyBands) n, ∃ occ e file values,
        i < cfg.epoch.toNat ∧
        (cfg.threshold ≤ 0 ∨ cfg.smearing ≤ 0 → temperature cfg.smearing cfg.epoch i = max cfg.smearing 0) ∧
        Spec.GroundWithin 0 (temperature cfg.smearing cfg.epoch i) cfg.eps mask ne spin true cfg.occupation
          (fun c occ e => totalEnergy L.xc c pos z (gVectors A n) (flatRows (kVectors A kn)) |A.det| (some occ)
            false cfg.xc = .ok e) c occ e ∧
        bandAtoms { L with optimizer := .ok opt } T cfg b a
          = .ok ⟨file, 1, num, (ne.toNat + 1) / 2 + b.emptyBands, values⟩ ∧
        ∃ hb : (ne.toNat + 1) / 2 + b.emptyBands ≤ maskCount mask,
          ∀ V : Fin 1 → Idx n → ℝ,
            Spec.KohnShamPotential L.xc cfg.xc pos z (gVectors A n) |A.det| (densityGrid c |A.det| occ) V →
          ∀ s q lam, Spec.IsSpectrum (Spec.planeWaveHamiltonian (fun i => gVectors A n (maskPos mask i))
            (rVectors A n) (V 0) (k q)) lam →
            ∀ j, lam (Fin.castLE hb j) - δ ≤ values s q j ∧ values s q j ≤ lam (Fin.castLE hb j) + δ + δ' := by
  obtain ⟨f, hf1, hf2⟩ := continuousOn_totalEnergy (ns := 1) (nb := (ne.toNat + 1) / 2 + cfg.emptyBands) L.xc cfg.xc
    hxc pos z (gVectors A n) (flatRows (kVectors A kn)) |A.det|
  have hen : ∀ c occ e, totalEnergy L.xc c pos z (gVectors A n) (flatRows (kVectors A kn)) |A.det|
      (some occ) false cfg.xc = .ok e ↔ e = f (c, occ) := fun c occ e =>
    ⟨fun h => Except.ok.inj (h.symm.trans (hf2 c occ)), fun h => by rw [h]; exact hf2 c occ⟩
  let W : (Fin 1 → Idx n → ℝ) → Idx n → ℝ := fun ρ x => (hartreeRealSpace ρ (gVectors A n) true x
    + externalPotential pos z (gVectors A n) |A.det| x + vxcDensity L.xc cfg.xc (gVectors A n) ρ 0 x).re
  have hW : ∀ x, ContinuousOn (fun ρ => W ρ x) {ρ : Fin 1 → Idx n → ℝ | ∀ s x, 0 ≤ ρ s x} := fun x =>
    Complex.continuous_re.comp_continuousOn (((continuous_hartreeReal (gVectors A n) x).continuousOn.add
      continuousOn_const).add (hvxc (gVectors A n) x))
  obtain ⟨ε, hε, hnear⟩ := limit_potential heps mask ne spin true cfg.occupation hf1 hen |A.det| W hW hδ
    (temperature cfg.smearing cfg.epoch) cfg.epoch.toNat
  refine ⟨ε, hε, fun opt hopt hkeep T b num frac k δ' hband hopt' he' hf' hk => ?_⟩
  obtain ⟨n', kn', rep, mask', a1, a2, a3, a4, ns', nb', a5, a6, en, j, h1, -, -, -, h5⟩ :=
    run_history { L with optimizer := .ok opt } cfg a size ksize ne spin
      { H with optimizer := ⟨opt, rfl, hkeep⟩ } hC hR hxc heps (fun h _ => hspin h) hg ε
      (fun o ho => by cases Except.ok.inj ho; exact hopt) A hA pos hpos z hz
  obtain rfl := leastGrid_unique hn a2
  obtain rfl := leastGrid_unique hkn a3
  obtain rfl : mask' = mask := Except.ok.inj (a4.symm.trans hmask)
  rw [hr] at a6
  obtain rfl : ns' = 1 := a6
  obtain rfl := a5
  obtain ⟨c, occ, hgr, hdens⟩ := h5 j
  rw [hr] at hgr
  obtain ⟨c', occ', e', hgr', hV'⟩ := hnear j (by have := h1.within; omega) c occ _ hgr
  obtain ⟨n', rep', mask'', dens, values, g1, g2, -, g4, g5, hb, g6⟩ := bandRun_near_partial
    { L with optimizer := .ok opt } T cfg b a size ksize ne spin hband hr hC δ' hopt' he' hf' A hA pos hpos z hz k hk
  rw [a1] at g1
  obtain ⟨rfl, hrep⟩ := Sigma.mk.inj (Except.ok.inj g1)
  obtain rfl := eq_of_heq hrep
  obtain rfl := Except.ok.inj (hmask.symm.trans g4)
  rw [(hdens rfl).1] at g2
  obtain rfl := eq_of_heq (Sigma.mk.inj g2).2
  have hdet : A.det ≠ 0 := by
    rw [hA]
    exact fromAse_det a cfg.spin H.cell
  refine ⟨j, c', occ', e', _, values, by have := h1.within; omega, fun h => ?_, hgr', g5, hb,
    fun V hVd s q lam hl l => ?_⟩
  · rcases h with h | h
    · exact (history_final h1 he (Or.inl h) _).2
    · rw [temperature_zero _ h, max_eq_right h]
  · obtain ⟨lam₁, hl₁⟩ := planeWaveHamiltonian_spectrum (fun a => gVectors A _ (maskPos mask' a)) (rVectors A _)
      (W (densityGrid c |A.det| occ)) (k q)
    obtain ⟨b1, b2⟩ := g6 (fun _ => W (densityGrid c |A.det| occ)) (fun σ x => by rw [Subsingleton.elim σ 0]) s q lam₁ hl₁ l
    have e : V 0 = W (densityGrid c' |A.det| occ') := funext fun x => hVd 0 x
    rw [e, ← add_zero (Spec.planeWaveHamiltonian _ _ _ _)] at hl
    rw [← add_zero (Spec.planeWaveHamiltonian _ _ _ _)] at hl₁
    have h7 := abs_le.mp (bandsNC_lipschitz A hdet mask' _ _ (k q) 0 δ hV' hl₁ hl (Fin.castLE hb l))
    exact ⟨by linarith [h7.1], by linarith [h7.2]⟩

/-- C102 and C106 together, whole calculations (part): for every tolerance `δ` there is an accuracy of the first
optimiser with which, without smearing, every spin-restricted band calculation saves, at every point of its path that
is a k point of the ground-state calculation, energies within `δ` plus the accuracy of the band optimiser of the
occupied levels of an exact ground state; at a k point with an empty band, and where the functional is
differentiable at the densities of that ground state.  Missing: as in `ground_lowest_partial`. -/
theorem bandRun_lowest_limit_partial (L : RunLib) (cfg : RunConfig) {m : ℕ} (a : AseAtoms m) (size ksize : Fin 3 → ℤ)
    (ne spin : ℤ) (H : Spec.AdmissibleRun L cfg a size ksize ne spin) (hr : cfg.restricted = true)
    (hC : Spec.Triangular L.qrC) (hR : Spec.Triangular L.qrR) (hxc : Spec.ContinuousXc L.xc cfg.xc)
    (hvxc : Spec.ContinuousVxc L.xc cfg.xc) (hgga : pyIn "gga" cfg.xc = false) (heps : 0 < cfg.eps)
    (hcold : cfg.smearing ≤ 0) (hspin : cfg.occupation = "simplex-projector" → spin = 0)
    (hm : ¬ (cfg.occupation = "uniform" ∨ cfg.occupation = "gamma"))
    (A : Matrix (Fin 3) (Fin 3) ℝ) (hA : A = (angstrom2bohr : ℝ) • a.cell)
    (pos : Fin m → Fin 3 → ℝ) (hpos : ∀ i d, pos i d = angstrom2bohr * a.positions i d)
    (z : Fin m → ℝ) (hz : ∀ i, z i = a.numbers i) (he : 3 ≤ cfg.epoch)
    {n kn : Fin 3 → ℕ} (hn : Spec.LeastGrid size n) (hkn : Spec.LeastGrid ksize kn)
    (mask : Idx n → Bool) (hmask : createFreqMask cfg A n = .ok mask) (δ : ℝ) (hδ : 0 < δ) :
    ∃ ε, 0 < ε ∧ ∀ opt : Optimizer, Spec.NearOptimizer ε opt →
      (∀ {ns nk g nb : ℕ} (f : GsParams ns nk g nb → Except PyErr ℝ) (p : GsParams ns nk g nb × opt.State),
        Spec.KeepsShape p.1.occ (opt.step f p).1.occ) →
      ∀ (T : BandTools) (b : BandConfig) (num : ℕ) (frac : Matrix (Fin num) (Fin 3) ℝ) (k : Fin num → Fin 3 → ℝ)
        (δ' : ℝ), Spec.AdmissibleBand { L with optimizer := .ok opt } T cfg b a size ksize ne spin num frac →
        (∀ opt, T.optimizer = .ok opt → Spec.NearBandOptimizer δ' opt) → 0 < b.epoch → 0 < b.fineEpoch →
        Spec.HasCoordinates A frac k →
      ∃ c : Coef 1 (idxList kn).length ((ne.toNat + 1) / 2 + cfg.emptyBands) n, ∃ occ e file values,
        Spec.GroundWithin 0 0 cfg.eps mask ne spin true cfg.occupation
          (fun c occ e => totalEnergy L.xc c pos z (gVectors A n) (flatRows (kVectors A kn)) |A.det| (some occ)
            false cfg.xc = .ok e) c occ e ∧
        bandAtoms { L with optimizer := .ok opt } T cfg b a
          = .ok ⟨file, 1, num, (ne.toNat + 1) / 2 + b.emptyBands, values⟩ ∧
        ((∀ j, ∀ x ∈ splitPlus cfg.xc, DifferentiableAt ℝ (L.xc.lda x) (densityGrid c |A.det| occ 0 j)) →
          ∀ (i : Fin (idxList kn).length) (q : Fin num), k q = flatRows (kVectors A kn) i →
          ∀ b₀, occ 0 i b₀ = 0 →
          ∀ {m' : ℕ} (σ : Fin m' → Fin ((ne.toNat + 1) / 2 + cfg.emptyBands)), Function.Injective σ →
            (∀ b, 0 < occ 0 i b ↔ ∃ l, σ l = b) →
          ∃ M, hamiltonianMatrix L.xc cfg.xc true c pos z (densityGrid c |A.det| occ) (gVectors A n)
              (flatRows (kVectors A kn)) |A.det| 0 i = .ok M ∧
            ∀ mu, Spec.IsSpectrum (M.submatrix σ σ) mu →
            ∀ s (j : Fin m') (hj : (j : ℕ) < (ne.toNat + 1) / 2 + b.emptyBands),
              mu j - δ ≤ values s q ⟨j, hj⟩ ∧ values s q ⟨j, hj⟩ ≤ mu j + δ + δ') := by
  obtain ⟨ε, hε, h⟩ := bandRun_limit_partial L cfg a size ksize ne spin H hr hC hR hxc hvxc heps hspin
    (fun h => absurd (Or.inr h) hm) A hA pos hpos z hz he hn hkn mask hmask δ hδ
  refine ⟨ε, hε, fun opt hopt hkeep T b num frac k δ' hband hopt' he' hf' hk => ?_⟩
  obtain ⟨i, c, occ, e, file, values, -, ht, hgr, hsave, hb, hval⟩ := h opt hopt hkeep T b num frac k δ' hband hopt' he'
    hf' hk
  rw [ht (Or.inr hcold), max_eq_right hcold] at hgr
  have hdet : A.det ≠ 0 := by
    rw [hA]
    exact fromAse_det a cfg.spin H.cell
  refine ⟨c, occ, e, file, values, hgr, hsave, fun hd i q hq b₀ hb₀ m' σ hσ hrange => ?_⟩
  obtain ⟨V, hV⟩ : ∃ V : Fin 1 → Idx n → ℝ,
      Spec.KohnShamPotential L.xc cfg.xc pos z (gVectors A n) |A.det| (densityGrid c |A.det| occ) V :=
    ⟨_, fun _ _ => rfl⟩
  obtain ⟨M, hle, hM, hlow⟩ := ground_lowest_partial L.xc cfg.xc hgga pos z A hdet (flatRows (kVectors A kn)) |A.det|
    (abs_pos.mpr hdet) cfg.eps heps mask ne spin cfg.occupation hm c occ e hgr hd V hV i b₀ hb₀ σ hσ hrange
  refine ⟨M, hM, fun mu hmu s j hj => ?_⟩
  obtain ⟨lam, hlam⟩ := planeWaveHamiltonian_spectrum (fun a => gVectors A n (maskPos mask a)) (rVectors A n) (V 0) (k q)
  have h9 := hval V hV s q lam hlam ⟨j, hj⟩
  rw [hq] at hlam
  rw [hlow mu lam hmu hlam j]
  exact h9

/-- The potential of a local density functional is continuous when it is a continuous function of one number. -/
theorem lda_continuousVxc (lib : XcLib) (xt : String) (hx : pyIn "gga" xt = false)
    (h : ContinuousOn (vxcLda1 (excLda1 lib (splitPlus xt))) (Set.Ici 0)) : Spec.ContinuousVxc lib xt := by
  intro n g x
  unfold vxcDensity
  simp only [hx, Bool.false_eq_true, if_false, show ¬ (1 = 2) by decide]
  exact Complex.continuous_ofReal.comp_continuousOn (h.comp (continuous_chan 0 x).continuousOn
    fun ρ hρ => chan_nonneg hρ 0 x)

/-- Dirac's exchange potential is continuous. -/
theorem diracLib_continuousVxc : Spec.ContinuousVxc diracLib "lda_x" := by
  refine lda_continuousVxc _ _ (by decide +kernel) ?_
  have hs : splitPlus "lda_x" = ["lda_x"] := by decide +kernel
  rw [hs]
  set K : ℝ := -(3 / 4) * (3 / Real.pi) ^ (1 / 3 : ℝ)
  have he : excLda1 diracLib ["lda_x"] = fun u => K * u ^ (1 / 3 : ℝ) := by
    funext u
    simp [excLda1, ldaPoint1, diracLib, K]
  rw [he]
  have hc : ContinuousOn (fun u : ℝ => 4 / 3 * (K * u ^ (1 / 3 : ℝ))) (Set.Ici 0) :=
    (continuous_const.mul (continuous_const.mul
      (Real.continuous_rpow_const (by norm_num : (0 : ℝ) ≤ 1 / 3)))).continuousOn
  refine hc.congr fun u hu => ?_
  unfold vxcLda1
  rcases eq_or_lt_of_le (show (0 : ℝ) ≤ u from hu) with h0 | h0
  · subst h0
    have : (0 : ℝ) ^ (1 / 3 : ℝ) = 0 := Real.zero_rpow (by norm_num)
    simp only [this]
    ring
  · have hd : deriv (fun u : ℝ => K * u ^ (1 / 3 : ℝ)) u = K * ((1 / 3) * u ^ ((1 / 3 : ℝ) - 1)) :=
      ((Real.hasDerivAt_rpow_const (Or.inl h0.ne')).const_mul K).deriv
    have hm : u ^ ((1 / 3 : ℝ) - 1) * u = u ^ (1 / 3 : ℝ) := by
      rw [Real.rpow_sub_one h0.ne']
      field_simp
    rw [hd]
    linear_combination (K / 3) * hm

/-- The hypotheses of `bandRun_continuous_partial` hold for the beryllium atom: neighbouring points of its path, with
band optimisers of accuracy `δ`. -/
example {ε δ : ℝ} (hε : 0 < ε) (hδ : 0 < δ) : ∃ file, ∃ values : Fin 1 → Fin 16 → Fin 3 → ℝ, ∃ k : Fin 16 → Fin 3 → ℝ,
    k 0 ≠ k 1 ∧
    bandAtoms (berylliumLib ε) (lithiumTools δ) berylliumConfig lithiumBands (⟨fun _ => 4, 0, 1⟩ : AseAtoms 1)
      = .ok ⟨file, 1, 16, 3, values⟩ ∧
    ∃ R, ∀ j, |values 0 0 j - values 0 1 j| ≤ R * Spec.length (fun e => k 0 e - k 1 e) + δ := by
  obtain ⟨frac, k, H, hk, hr, hC, -, -, -, -, -, hb⟩ := beryllium_band hε hδ
  obtain ⟨n, mask, file, values, file', values', -, -, h1, h2, h3⟩ := bandRun_continuous_partial _ _ _ _ _ _ _ _ _ _ _ H H
    hr hC δ δ hb hb (by decide) (by decide) (by decide) (by decide) _ rfl k hk k hk
  have e := h1.symm.trans h2
  simp only [Except.ok.injEq, BandFile.mk.injEq, heq_eq_eq, true_and] at e
  obtain ⟨rfl, rfl⟩ := e
  refine ⟨file, values, k, ?_, h1, ?_⟩
  · intro h01
    have hp := H.path
    have hf := eq_of_heq (Sigma.mk.inj (Except.ok.inj hp)).2
    have h0 := hk 0 0
    have h1 := hk 1 0
    rw [h01, h1, ← hf] at h0
    have := mul_left_cancel₀ (by positivity) h0
    norm_num [lithiumBands] at this
  · obtain ⟨R, hR⟩ := (Set.finite_range fun p : Idx n × Fin 16 => Spec.length fun e =>
      gVectors ((angstrom2bohr : ℝ) • (1 : Matrix (Fin 3) (Fin 3) ℝ)) n p.1 e + k p.2 e).bddAbove
    refine ⟨R, fun j => ?_⟩
    have := (h3 0 0 0 1 j j rfl).2 R fun x _ => ⟨hR ⟨(x, 0), rfl⟩, hR ⟨(x, 1), rfl⟩⟩
    rwa [max_self] at this

/-- The hypotheses of `bandRun_limit_partial` hold for the beryllium atom. -/
example {δ : ℝ} (hδ : 0 < δ) : ∃ ε, 0 < ε ∧ ∃ (n kn : Fin 3 → ℕ) (mask : Idx n → Bool) (i : ℕ)
    (c : Coef 1 (idxList kn).length (2 + berylliumConfig.emptyBands) n)
    (occ : Occ 1 (idxList kn).length (2 + berylliumConfig.emptyBands)) (e : ℝ) (file : String)
    (values : Fin 1 → Fin 16 → Fin 3 → ℝ),
    Spec.GroundWithin 0 (temperature berylliumConfig.smearing berylliumConfig.epoch i) berylliumConfig.eps mask 4 0 true
      berylliumConfig.occupation (fun c occ e => totalEnergy diracLib c (fun (_ : Fin 1) _ => (angstrom2bohr : ℝ) * 0)
        (fun _ => ((4 : ℤ) : ℝ)) (gVectors ((angstrom2bohr : ℝ) • 1) n) (flatRows (kVectors ((angstrom2bohr : ℝ) • 1) kn))
        |((angstrom2bohr : ℝ) • (1 : Matrix (Fin 3) (Fin 3) ℝ)).det| (some occ) false berylliumConfig.xc = .ok e) c occ e ∧
    bandAtoms (berylliumLib ε) (lithiumTools δ) berylliumConfig lithiumBands (⟨fun _ => 4, 0, 1⟩ : AseAtoms 1)
      = .ok ⟨file, 1, 16, 3, values⟩ := by
  obtain ⟨frac, k, H, hk, hr, hC, hR, hx, heps, hgam, -, hb⟩ := beryllium_band (one_pos : (0 : ℝ) < 1) hδ
  obtain ⟨n, kn, -, mask, -, hn, hkn, hmask, -⟩ := run_history _ _ _ _ _ _ _ H.toAdmissibleRun hC hR hx heps
    (fun _ _ => rfl) (fun h => absurd h hgam) 1 (fun o ho => by cases Except.ok.inj ho; exact nearOptimizer_near one_pos)
    _ rfl _ (fun _ _ => rfl) _ (fun _ => rfl)
  obtain ⟨ε, hε, h⟩ := bandRun_limit_partial _ _ _ _ _ _ _ H.toAdmissibleRun hr hC hR hx diracLib_continuousVxc heps
    (fun _ => rfl) (fun h => absurd h hgam) _ rfl _ (fun _ _ => rfl) _ (fun _ => rfl) (by decide) hn hkn mask hmask δ hδ
  obtain ⟨frac, k, H, hk, hr, hC, hR, hx, heps, hgam, -, hb⟩ := beryllium_band hε hδ
  obtain ⟨i, c, occ, e, file, values, -, -, h1, h2, -⟩ := h (nearOptimizer ε) (nearOptimizer_near hε) (nearOptimizer_keeps ε)
    (lithiumTools δ) lithiumBands 16 frac k δ H hb (by decide) (by decide) hk
  exact ⟨ε, hε, n, kn, mask, i, c, occ, e, file, values, h1, h2⟩

end Jrystal
