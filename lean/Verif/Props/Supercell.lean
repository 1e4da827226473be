import Verif.Lemmas.Supercell
import Verif.Lemmas.RunSetup
import Verif.Props.Stability

/- C109: describing a crystal with a larger cell and correspondingly fewer k points. -/
namespace Jrystal
open scoped BigOperators ComplexConjugate

section
variable {n q : Fin 3 → ℕ} {ns nk nk' nb nb' : ℕ}

private theorem fold_orthonormal (eK : Fin nk' × Idx q ≃ Fin nk) (eB : Fin nb' ≃ Fin nb × Idx q) (c : Coef ns nk nb n)
    (h : ∀ s k i j, ∑ x, conj (c s k i x) * c s k j x = if i = j then 1 else 0) (s : Fin ns) (k : Fin nk')
    (i j : Fin nb') :
    ∑ x, conj (foldCoef eK eB c s k i x) * foldCoef eK eB c s k j x = if i = j then 1 else 0 := by
  rw [sum_foldCoef eK eB c s k j (fun x v => conj (foldCoef eK eB c s k i x) * v) (by simp)]
  simp only [foldCoef_fold]
  by_cases hm : (eB j).2 = (eB i).2
  · simp only [hm, if_true]
    rw [h]
    refine if_congr ⟨fun hb => ?_, fun hb => by rw [hb]⟩ rfl rfl
    exact eB.injective (Prod.ext hb hm.symm)
  · simp only [if_neg hm, map_zero, zero_mul, Finset.sum_const_zero]
    rw [if_neg fun hij => hm (by rw [hij])]

private theorem fold_selected (hq : ∀ i, Odd (q i)) (eK : Fin nk' × Idx q ≃ Fin nk) (eB : Fin nb' ≃ Fin nb × Idx q)
    (mask : Idx n → Bool) (mask' : Idx (mulSizes q n) → Bool) (hm : Spec.FoldedWaves q mask mask')
    (c : Coef ns nk nb n) (h : ∀ s k b x, mask x = false → c s k b x = 0) (s : Fin ns) (k : Fin nk')
    (b : Fin nb') (x : Idx (mulSizes q n)) (hx : mask' x = false) : foldCoef eK eB c s k b x = 0 := by
  obtain ⟨⟨j, m⟩, rfl⟩ := foldWave_bijective.2 x
  rw [foldCoef_fold]
  split_ifs with hmb
  · refine h _ _ _ _ ?_
    by_contra hj
    rw [Bool.not_eq_false] at hj
    have h2 := hm.selected j (foldWave (j, m)) hj fun i => by
      show 2 * |sfreq (q i * n i) (axisFold (j i, m i)) - q i * sfreq (n i) (j i)| < q i
      rw [sfreq_axisFold (hq i) _ (hm.inner j hj i), add_sub_cancel_left]
      obtain ⟨t, ht⟩ := hq i
      have := (m i).2
      show 2 * |((m i : ℕ) : ℤ) - (((q i - 1) / 2 : ℕ) : ℤ)| < q i
      rcases abs_cases (((m i : ℕ) : ℤ) - (((q i - 1) / 2 : ℕ) : ℤ)) with ⟨e, -⟩ | ⟨e, -⟩ <;> rw [e] <;> omega
    rw [hx] at h2
    exact absurd h2 (by simp)
  · rfl

private theorem fold_physical (hq : ∀ i, Odd (q i)) (hk : nk = (∏ i, q i) * nk') (eK : Fin nk' × Idx q ≃ Fin nk)
    (eB : Fin nb' ≃ Fin nb × Idx q)
    (mask : Idx n → Bool) (mask' : Idx (mulSizes q n) → Bool) (hm : Spec.FoldedWaves q mask mask') (ne spin : ℤ)
    (r : Bool) (method : String) (hg : method ≠ "gamma") (c : Coef ns nk nb n) (occ : Occ ns nk nb)
    (h : Spec.PhysicalState mask ne spin r (Spec.kShare method nk) c occ) :
    Spec.PhysicalState mask' ((∏ i, q i : ℕ) * ne) ((∏ i, q i : ℕ) * spin) r (Spec.kShare method nk')
      (foldCoef eK eB c) (foldOcc eK eB occ) := by
  have hQ : (0 : ℝ) < (∏ i, q i : ℕ) := by exact_mod_cast Finset.prod_pos fun i _ => (hq i).pos
  have hsum : ∀ s, ∑ k, ∑ b, foldOcc eK eB occ s k b = (∏ i, q i : ℕ) * ∑ k, ∑ b, occ s k b := by
    intro s
    rw [← sum_bands eK eB]
    simp only [Finset.mul_sum]
    rfl
  refine ⟨fold_orthonormal eK eB c h.orthonormal, fold_selected hq eK eB mask mask' hm c h.selected, h.channels,
    fun s k b => mul_nonneg hQ.le (h.nonneg _ _ _), fun s k b => ?_, ?_, fun s s' hs hs' => ?_⟩
  · have h1 := mul_le_mul_of_nonneg_left (h.pauli s (eK (k, (eB b).2)) (eB b).1) hQ.le
    refine h1.trans (le_of_eq ?_)
    unfold Spec.kShare
    rw [if_neg hg, if_neg hg, hk, Nat.cast_mul, ← mul_assoc]
    congr 1
    rw [one_div, one_div, mul_inv, ← mul_assoc, mul_inv_cancel₀ hQ.ne', one_mul]
  · simp only [hsum]
    rw [← Finset.mul_sum, h.electrons]
    push_cast
    rfl
  · rw [hsum, hsum, ← mul_sub, h.polarisation s s' hs hs']
    push_cast
    rfl

private theorem fold_given (hk : nk = (∏ i, q i) * nk') (hQ : 0 < ∏ i, q i) (eK : Fin nk' × Idx q ≃ Fin nk)
    (eB : Fin nb' ≃ Fin nb × Idx q) (hB : ∀ b : Fin nb', (b : ℕ) / (∏ i, q i) = (eB b).1) (ne spin : ℤ)
    (hp : ne % 2 = spin % 2) :
    foldOcc eK eB (Spec.givenOccupation (ns := ns) "uniform" ne spin)
      = Spec.givenOccupation "uniform" ((∏ i, q i : ℕ) * ne) ((∏ i, q i : ℕ) * spin) := by
  have hQr : ((∏ i, q i : ℕ) : ℝ) ≠ 0 := by exact_mod_cast hQ.ne'
  have key : ∀ (b : Fin nb') (t u : ℤ), u = 2 * t →
      ((((eB b).1 : ℕ) : ℤ) < u / 2 ↔ ((b : ℕ) : ℤ) < (((∏ i, q i : ℕ) : ℤ) * u) / 2) := by
    rintro b t u rfl
    rw [show ((∏ i, q i : ℕ) : ℤ) * (2 * t) = 2 * (((∏ i, q i : ℕ) : ℤ) * t) by ring,
      Int.mul_ediv_cancel_left _ (by norm_num), Int.mul_ediv_cancel_left _ (by norm_num), ← hB b]
    push_cast
    rw [mul_comm _ t]
    exact Int.ediv_lt_iff_lt_mul (by exact_mod_cast hQ)
  obtain ⟨t, ht⟩ : ∃ t, ne + spin = 2 * t := ⟨(ne + spin) / 2, by omega⟩
  obtain ⟨u, hu⟩ : ∃ u, ne - spin = 2 * u := ⟨(ne - spin) / 2, by omega⟩
  funext s k b
  have h1 := key b t (ne + spin) ht
  have h2 := key b u (ne - spin) hu
  rw [mul_add] at h1
  rw [mul_sub] at h2
  unfold foldOcc Spec.givenOccupation
  simp only [h1, h2, if_neg (show "uniform" ≠ "gamma" by decide)]
  rw [← mul_assoc, hk, Nat.cast_mul]
  congr 1
  rw [one_div, one_div, mul_inv, ← mul_assoc, mul_inv_cancel₀ hQr, one_mul]

private theorem exists_bands (hb : nb' = nb * ∏ i, q i) :
    ∃ eB : Fin nb' ≃ Fin nb × Idx q, ∀ b : Fin nb', (b : ℕ) / (∏ i, q i) = (eB b).1 := by
  subst hb
  have hc : Fintype.card (Idx q) = ∏ i, q i := by simp only [Fintype.card_pi, Fintype.card_fin]
  exact ⟨finProdFinEquiv.symm.trans ((Equiv.refl _).prodCongr (Fintype.equivFinOfCardEq hc).symm), fun b => rfl⟩

end

private theorem length_mulSizes (q kn : Fin 3 → ℕ) :
    (idxList (fun i => q i * kn i)).length = (∏ i, q i) * (idxList kn).length := by
  rw [RunSetup.idxList_length, RunSetup.idxList_length, Fin.prod_univ_three]
  ring

/-- C109: every state of a crystal is also a state of the same crystal described with a larger cell, with all its
energies multiplied by the number of cells, and with the same density, repeated. -/
theorem totalEnergy_supercell (lib : XcLib) (xt : String) {ns nb nb' m m' : ℕ} {n kn q : Fin 3 → ℕ}
    (hq : ∀ i, Odd (q i)) {A A' : Matrix (Fin 3) (Fin 3) ℝ} (hA : A.det ≠ 0) (pos : Fin m → Fin 3 → ℝ)
    (pos' : Fin m' → Fin 3 → ℝ) (z : Fin m → ℝ) (z' : Fin m' → ℝ) (h : Spec.Supercell q A A' pos pos' z z')
    (mask : Idx n → Bool) (mask' : Idx (fun i => q i * n i) → Bool) (hm : Spec.FoldedWaves q mask mask')
    (hb : nb' = nb * ∏ i, q i) (ne spin : ℤ) (hspin : ne % 2 = spin % 2) (r : Bool) (method : String)
    (hg : method ≠ "gamma") (c : Coef ns (idxList fun i => q i * kn i).length nb n)
    (occ : Occ ns (idxList fun i => q i * kn i).length nb)
    (hp : Spec.PhysicalState mask ne spin r (Spec.kShare method (idxList fun i => q i * kn i).length) c occ)
    (hu : method = "uniform" → occ = Spec.givenOccupation method ne spin) (p : EnergyParts)
    (hs : totalEnergySplit lib c pos z (gVectors A n) (flatRows (kVectors A fun i => q i * kn i)) |A.det| (some occ)
      false xt = .ok p) :
    ∃ (c' : Coef ns (idxList kn).length nb' fun i => q i * n i) (occ' : Occ ns (idxList kn).length nb'),
      Spec.PhysicalState mask' ((∏ i, q i : ℕ) * ne) ((∏ i, q i : ℕ) * spin) r
        (Spec.kShare method (idxList kn).length) c' occ' ∧
      (method = "uniform" → occ' = Spec.givenOccupation method ((∏ i, q i : ℕ) * ne) ((∏ i, q i : ℕ) * spin)) ∧
      totalEnergySplit lib c' pos' z' (gVectors A' fun i => q i * n i) (flatRows (kVectors A' kn)) |A'.det| (some occ')
        false xt = .ok ⟨(∏ i, q i : ℕ) * p.kin, (∏ i, q i : ℕ) * p.ext, (∏ i, q i : ℕ) * p.har,
          (∏ i, q i : ℕ) * p.xc⟩ ∧
      ∀ s (x : Idx n) (x' : Idx fun i => q i * n i), (∀ i, (x' i : ℕ) % n i = x i) →
        densityGrid c' |A'.det| occ' s x' = densityGrid c |A.det| occ s x := by
  have hq0 : ∀ i, 0 < q i := fun i => (hq i).pos
  have hv : 0 < |A.det| := abs_pos.2 hA
  have hv' := supercell_volume h.cell
  obtain ⟨eB, hB⟩ := exists_bands (q := q) hb
  let eK : Fin (idxList kn).length × Idx q ≃ Fin (idxList (mulSizes q kn)).length :=
    ((idxEquiv kn).prodCongr (Equiv.refl _)).trans (kSplit.trans (idxEquiv (mulSizes q kn)).symm)
  have hk := length_mulSizes q kn
  refine ⟨foldCoef eK eB c, foldOcc eK eB occ, fold_physical hq hk eK eB mask mask' hm ne spin r method hg c occ hp,
    fun hm' => ?_, ?_, fun s x x' hx => ?_⟩
  · rw [hu hm', hm']
    exact fold_given hk (Finset.prod_pos fun i _ => hq0 i) eK eB hB ne spin hspin
  · unfold totalEnergySplit at hs ⊢
    simp only [occOrOnes, waveToDensity_eq, waveToDensityReciprocal_eq] at hs ⊢
    cases h1 : externalEnergy (densityGridReciprocal c |A.det| occ) pos z (gVectors A n) |A.det| with
    | error e => rw [h1] at hs; exact absurd hs (by simp)
    | ok ext =>
      cases h2 : hartreeEnergy (densityGridReciprocal c |A.det| occ) (gVectors A n) |A.det| false with
      | error e => rw [h1, h2] at hs; exact absurd hs (by simp)
      | ok har =>
        cases h3 : xcEnergy lib xt false (densityGrid c |A.det| occ) (gVectors A n) |A.det| with
        | error e => rw [h1, h2, h3] at hs; exact absurd hs (by simp)
        | ok exc =>
          rw [h1, h2, h3] at hs
          obtain rfl := Except.ok.inj hs
          have hgm := gVectors_multFreq (n := n) hq0 hA h.cell
          rw [reciprocal_fold eK eB c occ _ _ hv hv' hq0, density_fold eK eB c occ _ _ hv hv' hq0,
            external_fold hq0 hgm _ _ _ hv' pos pos' z z' (structureFactor_fold hq0 hA pos pos' z z' h) ext h1,
            hartree_fold hq0 hgm _ _ _ hv' har h2, xcEnergy_fold hq0 hgm lib xt _ _ _ hv' exc h3]
          simp only
          rw [kinetic_fold hq hA h.cell eB c (fun s k b j hj => ?_) occ]
          refine hp.selected s k b j ?_
          by_contra hj'
          rw [Bool.not_eq_false] at hj'
          obtain ⟨i, hi⟩ := hj
          exact hm.inner j hj' i hi
  · rw [density_fold eK eB c occ _ _ hv hv' hq0]
    have hw : wrapPoint x' = x := funext fun i => Fin.ext (hx i)
    show densityGrid c |A.det| occ s (wrapPoint x') = _
    rw [hw]

/-- C109: without smearing a ground state of the larger cell has at most as much energy as that many copies of any
state of the smaller cell. -/
theorem ground_supercell (lib : XcLib) (xt : String) {ns nb nb' m m' : ℕ} {n kn q : Fin 3 → ℕ}
    (hq : ∀ i, Odd (q i)) {A A' : Matrix (Fin 3) (Fin 3) ℝ} (hA : A.det ≠ 0) (pos : Fin m → Fin 3 → ℝ)
    (pos' : Fin m' → Fin 3 → ℝ) (z : Fin m → ℝ) (z' : Fin m' → ℝ) (h : Spec.Supercell q A A' pos pos' z z')
    (mask : Idx n → Bool) (mask' : Idx (fun i => q i * n i) → Bool) (hm : Spec.FoldedWaves q mask mask')
    (hb : nb' = nb * ∏ i, q i) (ne spin : ℤ) (hspin : ne % 2 = spin % 2) (r : Bool) (method : String)
    (hg : method ≠ "gamma") (c : Coef ns (idxList fun i => q i * kn i).length nb n)
    (occ : Occ ns (idxList fun i => q i * kn i).length nb)
    (hp : Spec.PhysicalState mask ne spin r (Spec.kShare method (idxList fun i => q i * kn i).length) c occ)
    (hu : method = "uniform" → occ = Spec.givenOccupation method ne spin) (e : ℝ)
    (he : totalEnergy lib c pos z (gVectors A n) (flatRows (kVectors A fun i => q i * kn i)) |A.det| (some occ)
      false xt = .ok e)
    (ε eps : ℝ) (c' : Coef ns (idxList kn).length nb' fun i => q i * n i) (occ' : Occ ns (idxList kn).length nb') (e' : ℝ)
    (hgr : Spec.GroundWithin ε 0 eps mask' ((∏ i, q i : ℕ) * ne) ((∏ i, q i : ℕ) * spin) r method
      (fun c occ e => totalEnergy lib c pos' z' (gVectors A' fun i => q i * n i) (flatRows (kVectors A' kn)) |A'.det|
        (some occ) false xt = .ok e) c' occ' e') :
    e' ≤ (∏ i, q i : ℕ) * e + ε := by
  cases hs : totalEnergySplit lib c pos z (gVectors A n) (flatRows (kVectors A fun i => q i * kn i)) |A.det| (some occ)
      false xt with
  | error w => rw [(totalEnergy_sum lib c _ z _ _ _ (some occ) false xt).2 w hs] at he; cases he
  | ok p =>
    rw [(totalEnergy_sum lib c _ z _ _ _ (some occ) false xt).1 p hs] at he
    obtain ⟨c₁, occ₁, h1, h2, h3, -⟩ := totalEnergy_supercell lib xt hq hA pos pos' z z' h mask mask' hm hb ne spin hspin
      r method hg c occ hp hu p hs
    have h4 := hgr.least c₁ occ₁ _ h1 (fun hu' => ?_) ((totalEnergy_sum lib c₁ _ z' _ _ _ (some occ₁) false xt).1 _ h3)
    · have h5 := Except.ok.inj he
      simp only [zero_mul, sub_zero] at h4
      rw [← h5]
      linarith
    · rcases hu' with hu' | hu'
      · rw [h2 hu', hgr.given (Or.inl hu')]
      · exact absurd hu' hg

/-- C109: the runs of one crystal with two cells.  The larger cell has an odd number `q i` of copies of the smaller
one along each axis, the k points of the smaller cell are `q i` times as dense, and the larger cell has the
corresponding grid, plane waves, bands and spin.  Without smearing the total energy that the run with the larger cell
reports, without the repulsion of the nuclei, is at most that of the smaller cell times the number of copies, up to
the accuracy of the optimiser. -/
theorem run_supercell (L L' : RunLib) (cfg cfg' : RunConfig) {m m' : ℕ} (a : AseAtoms m) (a' : AseAtoms m')
    (size ksize size' ksize' : Fin 3 → ℤ) (ne spin : ℤ) {n kn q : Fin 3 → ℕ} (hq : ∀ i, Odd (q i))
    (H : Spec.AdmissibleRun L cfg a size ksize ne spin)
    (H' : Spec.AdmissibleRun L' cfg' a' size' ksize' ((∏ i, q i : ℕ) * ne) ((∏ i, q i : ℕ) * spin))
    (hsup : Spec.Supercell q a.cell a'.cell a.positions a'.positions a.numbers a'.numbers)
    (hsame : L'.xc = L.xc ∧ cfg'.xc = cfg.xc ∧ cfg'.restricted = cfg.restricted ∧ cfg'.occupation = cfg.occupation)
    (hg : cfg.occupation ≠ "gamma")
    (hC : Spec.Triangular L.qrC) (hR : Spec.Triangular L.qrR) (hC' : Spec.Triangular L'.qrC)
    (hR' : Spec.Triangular L'.qrR) (hxc : Spec.ContinuousXc L.xc cfg.xc) (heps : 0 < cfg.eps) (heps' : 0 < cfg'.eps)
    (hspin : cfg.occupation = "simplex-projector" → cfg.restricted = true → spin = 0)
    (ε ε' : ℝ) (hopt : ∀ opt, L.optimizer = .ok opt → Spec.NearOptimizer ε opt)
    (hopt' : ∀ opt, L'.optimizer = .ok opt → Spec.NearOptimizer ε' opt)
    (he : 3 ≤ cfg.epoch ∧ 3 ≤ cfg'.epoch) (hw : 2 ≤ cfg.window ∧ 2 ≤ cfg'.window)
    (ht : cfg.threshold ≤ 0 ∨ cfg.smearing ≤ 0) (ht' : cfg'.smearing ≤ 0)
    (hn : Spec.LeastGrid size n) (hn' : Spec.LeastGrid size' fun i => q i * n i)
    (hkn : Spec.LeastGrid ksize fun i => q i * kn i) (hkn' : Spec.LeastGrid ksize' kn)
    (mask : Idx n → Bool) (mask' : Idx (fun i => q i * n i) → Bool)
    (hmask : createFreqMask cfg ((angstrom2bohr : ℝ) • a.cell) n = .ok mask)
    (hmask' : createFreqMask cfg' ((angstrom2bohr : ℝ) • a'.cell) (fun i => q i * n i) = .ok mask')
    (hm : Spec.FoldedWaves q mask mask')
    (hb : ((((∏ i, q i : ℕ) : ℤ) * ne).toNat + 1) / 2 + cfg'.emptyBands
      = ((ne.toNat + 1) / 2 + cfg.emptyBands) * ∏ i, q i) :
    ∃ rep rep', runAtoms L cfg a = .ok ⟨n, rep⟩ ∧ runAtoms L' cfg' a' = .ok ⟨fun i => q i * n i, rep'⟩ ∧
      rep'.total - rep'.repulsion ≤ (∏ i, q i : ℕ) * (rep.total - rep.repulsion) + ε' := by
  obtain ⟨x1, x2, x3, x4⟩ := hsame
  obtain ⟨rep, c, occ, h1, h2⟩ := run_total_ground L cfg a size ksize ne spin H hC hR hxc heps hspin
    (fun h => absurd h hg) ε hopt _ rfl _ (fun _ _ => rfl) _ (fun _ => rfl) he.1 hw.1 ht hn hkn mask hmask
  obtain ⟨rep', c', occ', h1', h2'⟩ := run_total_ground L' cfg' a' size' ksize' _ _ H' hC' hR' (by rw [x1, x2]; exact hxc)
    heps' (fun h h' => by rw [hspin (x4 ▸ h) (x3 ▸ h'), mul_zero])
    (fun h => absurd (x4 ▸ h) hg) ε' hopt' _ rfl _ (fun _ _ => rfl) _ (fun _ => rfl) he.2 hw.2 (Or.inr ht') hn' hkn'
    mask' hmask'
  refine ⟨rep, rep', h1, h1', ?_⟩
  have hA : ((angstrom2bohr : ℝ) • a.cell).det ≠ 0 := fromAse_det a none H.cell
  have hS : Spec.Supercell q ((angstrom2bohr : ℝ) • a.cell) ((angstrom2bohr : ℝ) • a'.cell)
      (fun i d => angstrom2bohr * a.positions i d) (fun i d => angstrom2bohr * a'.positions i d)
      (fun i => (a.numbers i : ℝ)) (fun i => (a'.numbers i : ℝ)) := by
    refine ⟨fun i d => ?_, ?_⟩
    · simp only [Matrix.smul_apply, smul_eq_mul, hsup.cell i d]
      ring
    · obtain ⟨σ, hσ⟩ := hsup.atoms
      refine ⟨σ, fun b => ⟨by rw [(hσ b).1], fun d => ?_⟩⟩
      simp only [Matrix.smul_apply, smul_eq_mul, (hσ b).2 d]
      rw [mul_add, Finset.mul_sum]
      congr 1
      exact Finset.sum_congr rfl fun i _ => by ring
  have h3 : ∃ c₁ occ₁, Spec.GroundWithin (ns := if cfg'.restricted then 1 else 2) ε' (max cfg'.smearing 0) cfg'.eps mask'
      ((∏ i, q i : ℕ) * ne) ((∏ i, q i : ℕ) * spin) cfg'.restricted cfg'.occupation
      (fun c occ e => totalEnergy L'.xc c (fun i d => angstrom2bohr * a'.positions i d) (fun i => (a'.numbers i : ℝ))
        (gVectors ((angstrom2bohr : ℝ) • a'.cell) fun i => q i * n i)
        (flatRows (kVectors ((angstrom2bohr : ℝ) • a'.cell) kn)) |((angstrom2bohr : ℝ) • a'.cell).det| (some occ) false
        cfg'.xc = .ok e) c₁ occ₁ (rep'.total - rep'.repulsion) := ⟨c', occ', h2'⟩
  rw [max_eq_right ht', x1, x2, x3, x4] at h3
  obtain ⟨c₁, occ₁, h3⟩ := h3
  exact ground_supercell L.xc cfg.xc hq hA _ _ _ _ hS mask mask' hm hb ne spin H.placeable.1 cfg.restricted
    cfg.occupation hg c occ h2.physical (fun hu => h2.given (Or.inl hu)) _ h2.value ε' cfg'.eps c₁ occ₁ _ h3

/-- A sum of the squares of all reciprocal vectors: a cutoff that selects every plane wave. -/
private noncomputable def fullCutoff (A : Matrix (Fin 3) (Fin 3) ℝ) (n : Fin 3 → ℕ) : ℝ :=
  ∑ k : Idx n, normSq3 (gVectors A n k)

private theorem fullCutoff_mask (A : Matrix (Fin 3) (Fin 3) ℝ) (n : Fin 3 → ℕ) (k : Idx n) :
    sphericalMask A n (fullCutoff A n) k = true := by
  have h0 : ∀ k : Idx n, 0 ≤ normSq3 (gVectors A n k) := fun k => Finset.sum_nonneg fun d _ => sq_nonneg _
  unfold sphericalMask
  refine decide_eq_true ?_
  rw [Real.sq_sqrt (h0 k)]
  have h1 : normSq3 (gVectors A n k) ≤ fullCutoff A n :=
    Finset.single_le_sum (f := fun k => normSq3 (gVectors A n k)) (fun k _ => h0 k) (Finset.mem_univ k)
  linarith [h0 k]

/-- A helium crystal with 3 × 3 × 3 k points and all plane waves of a 3 × 3 × 3 grid. -/
private noncomputable def heliumConfig (cutoff : ℝ) (size ksize : ℤ) (empty : ℕ) : RunConfig :=
  { lithiumConfig with
    gridSizes := .scalar size, kGridSizes := .scalar ksize, maskMethod := "spherical", cutoff := cutoff
    emptyBands := empty, parallelK := false }

private theorem helium_admissible (L : RunLib) (ε : ℝ) (hL : L.optimizer = .ok (nearOptimizer ε))
    (hfault : L.updateFault = none) {m : ℕ}
    (a : AseAtoms m) (hdet : a.cell.det ≠ 0) (hz : ∀ i, a.numbers i = 2) (size ksize : ℕ) (empty : ℕ)
    (hs : Spec.Smooth7 size) (h0 : size ≤ 2048) (hk0 : ksize ≤ 2048) (hm : 0 < m) (he : 0 < empty)
    (hc : m + empty ≤ size ^ 3) :
    Spec.AdmissibleRun L (heliumConfig (fullCutoff ((angstrom2bohr : ℝ) • a.cell) fun _ => size) size ksize empty) a
      (fun _ => size) (fun _ => ksize) (2 * m) 0 where
  cell := hdet
  sizes := ⟨Or.inr ⟨rfl, rfl, rfl⟩, fun _ => show (size : ℤ) ≤ 2048 by exact_mod_cast h0⟩
  ksizes := ⟨Or.inr ⟨rfl, rfl, rfl⟩, fun _ => show (ksize : ℤ) ≤ 2048 by exact_mod_cast hk0⟩
  electrons := by simp [hz, mul_comm]
  unpaired := by
    show (0 : ℤ) = (none : Option ℤ).getD _
    simp
  placeable := ⟨by omega, Or.inr (Or.inl ⟨rfl, by simp; omega, by
    show |(0 : ℤ)| < 2 * (empty : ℤ) + _
    simp; omega⟩)⟩
  noFault := hfault
  method := Or.inr rfl
  waves := fun n hn mask hmask => by
    obtain rfl : n = fun _ => size := funext fun i => RunSetup.least_eq (k := size) (hn i) hs
    have h1 : mask = sphericalMask ((angstrom2bohr : ℝ) • a.cell) (fun _ => size)
        (fullCutoff ((angstrom2bohr : ℝ) • a.cell) fun _ => size) := by
      unfold createFreqMask at hmask
      rw [if_neg (by show ¬("spherical" = "cubic"); decide), if_pos (by show "spherical" = "spherical"; rfl)] at hmask
      exact (Except.ok.inj hmask).symm
    have h2 : Fintype.card {k // mask k = true} = size ^ 3 := by
      rw [h1, Fintype.card_congr (Equiv.subtypeUnivEquiv fun k => fullCutoff_mask _ _ k)]
      simp
    rw [h2]
    show ((2 * (m : ℤ)).toNat + 1) / 2 + empty ≤ _
    rw [show (2 * (m : ℤ)).toNat = 2 * m by omega]
    omega
  ewald := by norm_num [heliumConfig, lithiumConfig]
  devices := fun kn hkn => by
    show (if false then _ else 1) ∣ _
    simp
  optimizer := ⟨nearOptimizer ε, hL, nearOptimizer_keeps ε⟩
  epochs := by show 0 < 3; decide

/-- The hypotheses of `run_supercell` hold for a helium crystal with 27 k points and its cell tripled along each axis
with one k point. -/
example {ε : ℝ} (hε : 0 < ε) : ∃ (L : RunLib) (cfg cfg' : RunConfig) (a : AseAtoms 1) (a' : AseAtoms 27)
    (n : Fin 3 → ℕ) (rep : GsReport EnergyParts n) (rep' : GsReport EnergyParts fun i => 3 * n i),
    a.numbers 0 = 2 ∧ Spec.Supercell (fun _ => 3) a.cell a'.cell a.positions a'.positions a.numbers a'.numbers ∧
    runAtoms L cfg a = .ok ⟨n, rep⟩ ∧ runAtoms L cfg' a' = .ok ⟨fun i => 3 * n i, rep'⟩ ∧
    rep'.total - rep'.repulsion ≤ 27 * (rep.total - rep.repulsion) + ε := by
  let L : RunLib := { lithiumLib diracLib with
    qrC := gramSchmidtQR ℂ, qrR := gramSchmidtQR ℝ, optimizer := .ok (nearOptimizer ε) }
  have hcard : Fintype.card (Fin 27) = Fintype.card (Fin 1 × Idx fun _ => 3) := by simp
  let σ : Fin 27 ≃ Fin 1 × Idx fun _ => 3 := Fintype.equivOfCardEq hcard
  let a : AseAtoms 1 := ⟨fun _ => 2, 0, 1⟩
  let a' : AseAtoms 27 := ⟨fun _ => 2, fun b d => ∑ i, ((σ b).2 i : ℝ) * (1 : Matrix (Fin 3) (Fin 3) ℝ) i d,
    (3 : ℝ) • 1⟩
  have hS : Spec.Supercell (fun _ => 3) a.cell a'.cell a.positions a'.positions a.numbers a'.numbers :=
    ⟨fun i d => by simp [a, a'], σ, fun b => ⟨rfl, fun d => by simp [a, a']⟩⟩
  have hdet' : a'.cell.det ≠ 0 := by simp [a']
  have s3 : Spec.Smooth7 3 := ⟨0, 1, 0, 0, rfl⟩
  have s9 : Spec.Smooth7 9 := ⟨0, 2, 0, 0, rfl⟩
  have s1 : Spec.Smooth7 1 := ⟨0, 0, 0, 0, rfl⟩
  have hleast : ∀ k : ℕ, Spec.Smooth7 k → Spec.LeastGrid (fun _ => (k : ℤ)) (fun _ => k) := fun k hk i =>
    ⟨hk, by simp, fun m hm hkm => by
      have h : (k : ℤ) ≤ m := hkm
      exact_mod_cast h⟩
  have H := helium_admissible L ε rfl rfl a (by simp [a]) (fun _ => rfl) 3 3 1 s3 (by norm_num) (by norm_num) (by norm_num)
    (by norm_num) (by norm_num)
  have H' := helium_admissible L ε rfl rfl a' hdet' (fun _ => rfl) 9 1 27 s9 (by norm_num) (by norm_num) (by norm_num)
    (by norm_num) (by norm_num)
  have hopt : ∀ o, L.optimizer = .ok o → Spec.NearOptimizer ε o := fun o ho => by
    cases Except.ok.inj ho; exact nearOptimizer_near hε
  obtain ⟨rep, rep', h1, h2, h3⟩ := run_supercell L L _ _ a a' (fun _ => 3) (fun _ => 3) (fun _ => 9) (fun _ => 1) 2 0
    (n := fun _ => 3) (kn := fun _ => 1) (q := fun _ => 3) (fun _ => by decide) H H' hS ⟨rfl, rfl, rfl, rfl⟩
    (by show "simplex-projector" ≠ "gamma"; decide) (gramSchmidtQR_triangular ℂ) (gramSchmidtQR_triangular ℝ)
    (gramSchmidtQR_triangular ℂ) (gramSchmidtQR_triangular ℝ) diracLib_continuous (by norm_num [heliumConfig, lithiumConfig])
    (by norm_num [heliumConfig, lithiumConfig]) (fun _ _ => rfl) ε ε hopt hopt
    ⟨show 3 ≤ 3 by decide, show 3 ≤ 3 by decide⟩ ⟨show 2 ≤ 2 by decide, show 2 ≤ 2 by decide⟩ (Or.inr le_rfl) le_rfl (hleast 3 s3) (hleast 9 s9) (hleast 3 s3) (hleast 1 s1)
    _ _ rfl rfl ⟨fun x _ i => by omega, fun x x' _ _ => fullCutoff_mask _ _ _⟩ 
    (show (((∏ _i : Fin 3, 3 : ℕ) : ℤ) * 2).toNat.succ / 2 + 27 = ((2 : ℤ).toNat.succ / 2 + 1) * ∏ _i : Fin 3, 3 by
      decide)
  exact ⟨L, _, _, a, a', fun _ => 3, rep, rep', rfl, hS, h1, h2, by simpa [Finset.prod_const] using h3⟩

end Jrystal
