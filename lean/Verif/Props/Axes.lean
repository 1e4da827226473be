import Verif.Lemmas.Axes

/- C113: the energies which a calculation reports depend neither on the order in which the cell vectors are listed nor on
the point of the FFT grid at which the atoms are placed. -/
namespace Jrystal
open scoped BigOperators ComplexConjugate
open Matrix
open RunSetup

/-- C113: the energies of a state of a crystal, and of the same state when cell vectors, grid sizes and k mesh are listed
in the order `σ`: all four are the same, and the density is the same at corresponding points. -/
theorem energies_axes_reordered (lib : XcLib) (σ : Equiv.Perm (Fin 3)) {ns nb na : ℕ} {n kn : Fin 3 → ℕ}
    (A : Matrix (Fin 3) (Fin 3) ℝ) (c : Coef ns (idxList kn).length nb n) (occ : Occ ns (idxList kn).length nb)
    (pos : Fin na → Fin 3 → ℝ) (z : Fin na → ℝ) (xt : String) :
    ∃ (c' : Coef ns (idxList fun i => kn (σ i)).length nb (fun i => n (σ i)))
      (occ' : Occ ns (idxList fun i => kn (σ i)).length nb),
      (∀ mask ne spin r share, Spec.PhysicalState mask ne spin r share c occ →
        Spec.PhysicalState (fun y => mask ((axesIdx σ n).symm y)) ne spin r share c' occ') ∧
      totalEnergySplit lib c' pos z (gVectors (A.submatrix σ id) fun i => n (σ i))
        (flatRows (kVectors (A.submatrix σ id) fun i => kn (σ i))) |(A.submatrix σ id).det| (some occ') false xt
        = totalEnergySplit lib c pos z (gVectors A n) (flatRows (kVectors A kn)) |A.det| (some occ) false xt ∧
      ∀ s (x : Idx n), densityGrid c' |(A.submatrix σ id).det| occ' s (fun i => x (σ i)) = densityGrid c |A.det| occ s x := by
  refine ⟨fun s k b y => c s (axesList σ kn k) b ((axesIdx σ n).symm y), fun s k b => occ s (axesList σ kn k) b,
    fun mask ne spin r share h => ?_, ?_, fun s x => ?_⟩
  · exact Regrid.physical (axesIdx σ n) (axesList σ kn) (fun s k b x => by rw [Equiv.symm_apply_apply]) (fun _ _ _ => rfl)
      (fun x => by rw [Equiv.symm_apply_apply]) h
  · rw [abs_det_axes]
    exact (axesIdx_regrid σ n).energies lib xt (axesList σ kn) (fun s k b x => by rw [Equiv.symm_apply_apply])
      (fun _ _ _ => rfl) (gVectors_axes σ A n) (flatRows_axes σ (kVectors_axes σ A kn)) pos z _
  · rw [abs_det_axes]
    exact (axesIdx_regrid σ n).density (axesList σ kn) (fun s k b x => by rw [Equiv.symm_apply_apply])
      (fun _ _ _ => rfl) _ s x

private theorem given_reorder {ns nk nk' nb : ℕ} (τ : Fin nk' ≃ Fin nk) (method : String) (ne spin : ℤ)
    (hg : method = "gamma" → nk = 1) (s : Fin ns) (k : Fin nk') (b : Fin nb) :
    (Spec.givenOccupation method ne spin : Occ ns nk' nb) s k b
      = (Spec.givenOccupation method ne spin : Occ ns nk nb) s (τ k) b := by
  have hnk : nk' = nk := by simpa using Fintype.card_congr τ
  unfold Spec.givenOccupation
  dsimp only
  by_cases hm : method = "gamma"
  · have h1 := hg hm
    have e1 : (k : ℕ) = 0 := by have := k.2; omega
    have e2 : (τ k : ℕ) = 0 := by have := (τ k).2; omega
    rw [e1, e2]
    subst hnk
    rfl
  · rw [if_neg hm, if_neg hm, hnk]

private theorem regrid_le {n n' : Fin 3 → ℕ} {e : Idx n ≃ Idx n'} {ns nk nk' nb : ℕ} (τ : Fin nk' ≃ Fin nk)
    {ε t eps : ℝ} {mask : Idx n → Bool} {mask' : Idx n' → Bool} (hm : ∀ x, mask' (e x) = mask x) {ne spin : ℤ} {r : Bool}
    {method : String} {energy : Coef ns nk nb n → Occ ns nk nb → ℝ → Prop}
    {energy' : Coef ns nk' nb n' → Occ ns nk' nb → ℝ → Prop}
    (hE : ∀ c c' occ occ' v, (∀ s k b x, c' s k b (e x) = c s (τ k) b x) → (∀ s k b, occ' s k b = occ s (τ k) b) →
      energy c occ v → energy' c' occ' v)
    (hg : method = "gamma" → nk = 1) (hk : 0 < nk) (heps : 0 < eps) (ht : 0 ≤ t)
    {c : Coef ns nk nb n} {c' : Coef ns nk' nb n'} {occ : Occ ns nk nb} {occ' : Occ ns nk' nb} {v v' : ℝ}
    (h : Spec.GroundWithin ε t eps mask ne spin r method energy c occ v)
    (h' : Spec.GroundWithin ε t eps mask' ne spin r method energy' c' occ' v') :
    v' ≤ v + 2 * t * nb * Real.log 2 + ε := by
  have hnk : nk' = nk := by simpa using Fintype.card_congr τ
  have hp : Spec.PhysicalState mask' ne spin r (Spec.kShare method nk') (fun s k b y => c s (τ k) b (e.symm y))
      (fun s k b => occ s (τ k) b) := by
    have hsh : Spec.kShare method nk' = Spec.kShare method nk := by rw [hnk]
    rw [hsh]
    exact Regrid.physical e τ (fun s k b x => by rw [Equiv.symm_apply_apply]) (fun _ _ _ => rfl) hm h.physical
  have h1 := h'.least _ _ v hp (fun hgm => by
      funext s k b
      rw [h.given hgm, h'.given hgm, given_reorder τ method ne spin hg s k b])
    (hE c _ occ _ v (fun s k b x => by rw [Equiv.symm_apply_apply]) (fun _ _ _ => rfl) h.value)
  have h2 := mul_le_mul_of_nonneg_left
    (entropy_gap (hnk ▸ hk) (fun hgm => hnk.trans (hg hgm)) heps h'.physical hp) ht
  linarith

/-- Two ground states of the same crystal on corresponding grids. -/
theorem regrid_close {n n' : Fin 3 → ℕ} {e : Idx n ≃ Idx n'} {ns nk nk' nb : ℕ} (τ : Fin nk' ≃ Fin nk)
    {ε t eps : ℝ} {mask : Idx n → Bool} {mask' : Idx n' → Bool} (hm : ∀ x, mask' (e x) = mask x) {ne spin : ℤ} {r : Bool}
    {method : String} {energy : Coef ns nk nb n → Occ ns nk nb → ℝ → Prop}
    {energy' : Coef ns nk' nb n' → Occ ns nk' nb → ℝ → Prop}
    (hE : ∀ c c' occ occ' v, (∀ s k b x, c' s k b (e x) = c s (τ k) b x) → (∀ s k b, occ' s k b = occ s (τ k) b) →
      (energy c occ v ↔ energy' c' occ' v))
    (hg : method = "gamma" → nk = 1) (hk : 0 < nk) (heps : 0 < eps) (ht : 0 ≤ t)
    {c : Coef ns nk nb n} {c' : Coef ns nk' nb n'} {occ : Occ ns nk nb} {occ' : Occ ns nk' nb} {v v' : ℝ}
    (h : Spec.GroundWithin ε t eps mask ne spin r method energy c occ v)
    (h' : Spec.GroundWithin ε t eps mask' ne spin r method energy' c' occ' v') :
    |v - v'| ≤ 2 * t * nb * Real.log 2 + ε := by
  have hnk : nk' = nk := by simpa using Fintype.card_congr τ
  have h1 := regrid_le (e := e) τ hm (fun c c' occ occ' v a b => (hE c c' occ occ' v a b).1) hg hk heps ht h h'
  have h2 := regrid_le (e := e.symm) τ.symm (mask := mask') (mask' := mask) (fun x => by rw [← hm, Equiv.apply_symm_apply])
    (energy := energy') (energy' := energy) (fun c c' occ occ' v a b => (hE c' c occ' occ v
      (fun s k b x => by rw [← τ.symm_apply_apply k, ← e.symm_apply_apply x, a]; simp)
      (fun s k b' => by rw [← τ.symm_apply_apply k, b]; simp)).2) (fun hgm => hnk.trans (hg hgm)) (hnk ▸ hk) heps ht h' h
  rw [abs_le]
  constructor <;> linarith

/-- C113: the Ewald sum does not depend on the order of the cell vectors. -/
theorem ewald_axes (erfc : ℝ → ℝ) {m : ℕ} (pos : Fin m → Fin 3 → ℝ) (z : Fin m → ℝ) (σ : Equiv.Perm (Fin 3))
    (A : Matrix (Fin 3) (Fin 3) ℝ) (n : Fin 3 → ℕ) (eta cut : ℝ) :
    ewald erfc pos z (gVectors (A.submatrix σ id) fun i => n (σ i)) |(A.submatrix σ id).det| eta
      (flatRows (translationVectors (A.submatrix σ id) cut))
      = ewald erfc pos z (gVectors A n) |A.det| eta (flatRows (translationVectors A cut)) := by
  unfold translationVectors
  rw [translationCount_axes, abs_det_axes]
  unfold ewald
  have e1 : ∀ tau, ewaldReciprocal (gVectors (A.submatrix σ id) fun i => n (σ i)) |A.det| eta tau
      = ewaldReciprocal (gVectors A n) |A.det| eta tau :=
    fun tau => ewaldReciprocal_regrid (axesIdx_regrid σ n) (gVectors_axes σ A n) _ _ tau
  have e2 : ∀ tau, ewaldOverlap erfc eta
      (flatRows (vectorGrid (A.submatrix σ id) (fun _ => (translationCount A cut).toNat) false)) tau
      = ewaldOverlap erfc eta (flatRows (vectorGrid A (fun _ => (translationCount A cut).toNat) false)) tau :=
    fun tau => ewaldOverlap_reorder _ _ (axesList σ fun _ => (translationCount A cut).toNat)
      (flatRows_axes σ (vectorGrid_axes σ A (fun _ => (translationCount A cut).toNat) false)) tau
  simp only [e1, e2]

/-- C113, whole calculations: listing the cell vectors, and with them the sizes of the grid and of the k mesh, in another
order gives the same repulsion of the nuclei and the same total energy, up to the accuracy of the optimiser and, with
smearing, `2 T log 2` per band. -/
theorem run_axes_reordered (L : RunLib) (cfg cfg' : RunConfig) {m : ℕ} (a : AseAtoms m) (σ : Equiv.Perm (Fin 3))
    (size ksize : Fin 3 → ℤ) (ne spin : ℤ) (H : Spec.AdmissibleRun L cfg a size ksize ne spin)
    (hcfg : cfg' = { cfg with gridSizes := cfg'.gridSizes, kGridSizes := cfg'.kGridSizes })
    (hs : Spec.SizesOk cfg'.gridSizes fun i => size (σ i)) (hks : Spec.SizesOk cfg'.kGridSizes fun i => ksize (σ i))
    (hC : Spec.Triangular L.qrC) (hR : Spec.Triangular L.qrR) (hxc : Spec.ContinuousXc L.xc cfg.xc)
    (heps : 0 < cfg.eps) (hspin : cfg.occupation = "simplex-projector" → cfg.restricted = true → spin = 0)
    (hg : cfg.occupation = "gamma" → ∀ i, ksize i ≤ 1)
    (ε : ℝ) (hopt : ∀ opt, L.optimizer = .ok opt → Spec.NearOptimizer ε opt)
    (he : 3 ≤ cfg.epoch) (hw : 2 ≤ cfg.window) (hq : cfg.threshold ≤ 0 ∨ cfg.smearing ≤ 0) :
    ∃ n rep rep', Spec.LeastGrid size n ∧ runAtoms L cfg a = .ok ⟨n, rep⟩ ∧
      runAtoms L cfg' ⟨a.numbers, a.positions, a.cell.submatrix σ id⟩ = .ok ⟨fun i => n (σ i), rep'⟩ ∧
      rep'.repulsion = rep.repulsion ∧
      |rep.total - rep'.total|
        ≤ 2 * max cfg.smearing 0 * ((ne.toNat + 1) / 2 + cfg.emptyBands : ℕ) * Real.log 2 + ε := by
  obtain ⟨gs, hgs⟩ : ∃ gs, gs = cfg'.gridSizes := ⟨_, rfl⟩
  obtain ⟨kgs, hkgs⟩ : ∃ kgs, kgs = cfg'.kGridSizes := ⟨_, rfl⟩
  rw [← hgs, ← hkgs] at hcfg
  rw [← hgs] at hs
  rw [← hkgs] at hks
  clear hgs hkgs
  subst hcfg
  obtain ⟨A, hA⟩ : ∃ A, A = (angstrom2bohr : ℝ) • a.cell := ⟨_, rfl⟩
  obtain ⟨n, kn, rep, mask, r1, a2, a3, a4, r2, -⟩ :=
    run_energy_partial L cfg a size ksize ne spin H A hA _ (fun _ _ => rfl) _ (fun _ => rfl)
  have a2' : Spec.LeastGrid (fun i => size (σ i)) fun i => n (σ i) := fun i => a2 (σ i)
  have a3' : Spec.LeastGrid (fun i => ksize (σ i)) fun i => kn (σ i) := fun i => a3 (σ i)
  have hcell : (angstrom2bohr : ℝ) • (a.cell.submatrix σ id) = A.submatrix σ id := by rw [hA]; rfl
  have a4' := createFreqMask_axes σ cfg { cfg with gridSizes := gs, kGridSizes := kgs } rfl rfl A n a4
  have H' : Spec.AdmissibleRun L { cfg with gridSizes := gs, kGridSizes := kgs }
      ⟨a.numbers, a.positions, a.cell.submatrix σ id⟩ (fun i => size (σ i)) (fun i => ksize (σ i)) ne spin := { H with
    cell := by
      have := abs_det_axes σ a.cell
      exact abs_ne_zero.1 (this ▸ abs_ne_zero.2 H.cell)
    sizes := hs
    ksizes := hks
    waves := fun n' hn' mask' hm' => by
      obtain rfl := leastGrid_unique a2' hn'
      obtain rfl := Except.ok.inj (a4'.symm.trans (hcell ▸ hm'))
      refine (H.waves _ a2 mask (by rw [← hA]; exact a4)).trans (le_of_eq ?_)
      refine Fintype.card_congr ((axesIdx σ n).subtypeEquiv fun x => ?_)
      beta_reduce
      rw [Equiv.symm_apply_apply]
    devices := fun kn' hkn' => by
      obtain rfl := leastGrid_unique a3' hkn'
      have h := H.devices kn a3
      have e1 : kn (σ 0) * kn (σ 1) * kn (σ 2) = kn 0 * kn 1 * kn 2 := by
        have := Equiv.prod_comp σ kn
        rwa [Fin.prod_univ_three, Fin.prod_univ_three] at this
      rw [e1]
      exact h }
  obtain ⟨n', kn', rep', mask', r1', b2, b3, b4, r2', -⟩ :=
    run_energy_partial L _ _ _ _ ne spin H' (A.submatrix σ id) hcell.symm (fun i d => angstrom2bohr * a.positions i d)
      (fun _ _ => rfl) (fun i => a.numbers i) (fun _ => rfl)
  obtain rfl := leastGrid_unique a2' b2
  obtain ⟨s, c, occ, h1, h2⟩ := run_total_ground L cfg a size ksize ne spin H hC hR hxc heps hspin hg ε hopt A hA
    (fun i d => angstrom2bohr * a.positions i d) (fun _ _ => rfl) (fun i => a.numbers i) (fun _ => rfl) he hw hq a2 a3 mask a4
  obtain ⟨s', c', occ', h1', h2'⟩ := run_total_ground L _ _ _ _ ne spin H' hC hR hxc heps hspin (fun h i => hg h (σ i)) ε hopt
    (A.submatrix σ id) hcell.symm (fun i d => angstrom2bohr * a.positions i d) (fun _ _ => rfl) (fun i => a.numbers i)
    (fun _ => rfl) he hw hq a2' a3' _ a4'
  obtain rfl : s = rep := by
    have := h1.symm.trans r1
    simpa using this
  obtain rfl : s' = rep' := by
    have := h1'.symm.trans r1'
    simpa using this
  have hrep : s'.repulsion = s.repulsion := by
    rw [r2, r2']
    exact ewald_axes _ _ _ _ _ _ _ _
  refine ⟨n, s, s', a2, h1, h1', hrep, ?_⟩
  have key := regrid_close (e := axesIdx σ n) (axesList σ kn) (fun x => by rw [Equiv.symm_apply_apply])
    (fun c c' occ occ' v hc ho => by
      have := (axesIdx_regrid σ n).energies L.xc cfg.xc (axesList σ kn) hc ho (gVectors_axes σ A n)
        (flatRows_axes σ (kVectors_axes σ A kn)) (fun i d => angstrom2bohr * a.positions i d) (fun i => (a.numbers i : ℝ)) |A.det|
      rw [abs_det_axes]
      unfold totalEnergy
      rw [this]) (fun h => one_kpoint a3 (hg h))
    (idxList_length_pos fun i => smooth_pos (a3 i).1) heps (le_max_right cfg.smearing 0) h2 h2'
  rw [hrep, sub_sub_sub_cancel_right] at key
  exact key

/-- C113, whole calculations: placing all atoms at another point of the FFT grid gives the same repulsion of the nuclei
and the same total energy, up to the accuracy of the optimiser and, with smearing, `2 T log 2` per band. -/
theorem run_grid_shift (L : RunLib) (cfg : RunConfig) {m : ℕ} (a : AseAtoms m)
    (size ksize : Fin 3 → ℤ) (ne spin : ℤ) (H : Spec.AdmissibleRun L cfg a size ksize ne spin)
    (hC : Spec.Triangular L.qrC) (hR : Spec.Triangular L.qrR) (hxc : Spec.ContinuousXc L.xc cfg.xc)
    (heps : 0 < cfg.eps) (hspin : cfg.occupation = "simplex-projector" → cfg.restricted = true → spin = 0)
    (hg : cfg.occupation = "gamma" → ∀ i, ksize i ≤ 1)
    (ε : ℝ) (hopt : ∀ opt, L.optimizer = .ok opt → Spec.NearOptimizer ε opt)
    (he : 3 ≤ cfg.epoch) (hw : 2 ≤ cfg.window) (hq : cfg.threshold ≤ 0 ∨ cfg.smearing ≤ 0) :
    ∃ n rep, Spec.LeastGrid size n ∧ runAtoms L cfg a = .ok ⟨n, rep⟩ ∧ ∀ t : Idx n, ∃ rep',
      runAtoms L cfg ⟨a.numbers, fun i d => a.positions i d + rVectors a.cell n t d, a.cell⟩ = .ok ⟨n, rep'⟩ ∧
      rep'.repulsion = rep.repulsion ∧
      |rep.total - rep'.total|
        ≤ 2 * max cfg.smearing 0 * ((ne.toNat + 1) / 2 + cfg.emptyBands : ℕ) * Real.log 2 + ε := by
  obtain ⟨A, hA⟩ : ∃ A, A = (angstrom2bohr : ℝ) • a.cell := ⟨_, rfl⟩
  have hdet : A.det ≠ 0 := by
    rw [hA]
    exact fromAse_det a cfg.spin H.cell
  obtain ⟨n, kn, rep, mask, r1, a2, a3, a4, r2, -⟩ :=
    run_energy_partial L cfg a size ksize ne spin H A hA _ (fun _ _ => rfl) _ (fun _ => rfl)
  obtain ⟨s, c, occ, h1, h2⟩ := run_total_ground L cfg a size ksize ne spin H hC hR hxc heps hspin hg ε hopt A hA
    (fun i d => angstrom2bohr * a.positions i d) (fun _ _ => rfl) (fun i => a.numbers i) (fun _ => rfl) he hw hq a2 a3 mask a4
  obtain rfl : s = rep := by
    have := h1.symm.trans r1
    simpa using this
  refine ⟨n, s, a2, h1, fun t => ?_⟩
  have H' : Spec.AdmissibleRun L cfg ⟨a.numbers, fun i d => a.positions i d + rVectors a.cell n t d, a.cell⟩ size ksize ne spin :=
    { H with }
  have hr : ∀ d, rVectors A n t d = angstrom2bohr * rVectors a.cell n t d := fun d => by
    rw [hA]
    unfold rVectors vectorGrid
    rw [Finset.mul_sum]
    refine Finset.sum_congr rfl fun i _ => ?_
    rw [Matrix.smul_apply, smul_eq_mul]
    ring
  have hpos : ∀ i d, (angstrom2bohr : ℝ) * a.positions i d + rVectors A n t d
      = angstrom2bohr * (a.positions i d + rVectors a.cell n t d) := fun i d => by rw [hr]; ring
  obtain ⟨n', kn', rep', mask', r1', b2, b3, b4, r2', -⟩ := run_energy_partial L cfg _ size ksize ne spin H' A hA
    (fun i d => (angstrom2bohr : ℝ) * a.positions i d + rVectors A n t d) hpos (fun i => a.numbers i) (fun _ => rfl)
  have hn' : n = n' := leastGrid_unique b2 a2
  subst hn'
  obtain ⟨s', c', occ', h1', h2'⟩ := run_total_ground L cfg _ size ksize ne spin H' hC hR hxc heps hspin hg ε hopt A hA
    (fun i d => (angstrom2bohr : ℝ) * a.positions i d + rVectors A n t d) hpos (fun i => a.numbers i) (fun _ => rfl) he hw hq a2
    a3 mask a4
  obtain rfl : s' = rep' := by
    have := h1'.symm.trans r1'
    simpa using this
  have hrep : s'.repulsion = s.repulsion := by rw [r2, r2', ewald_translate]
  refine ⟨s', h1', hrep, ?_⟩
  have hkpos := idxList_length_pos fun i => smooth_pos (a3 i).1
  have w1 : ∀ x, conj (omega x t) * conj (conj (omega x t)) = 1 := fun x => by
    rw [Complex.conj_conj, mul_comm, omega_mul_conj]
  have e1 := (energies_grid_shift L.xc A hdet t c (fun s k b x => c s k b x * conj (omega x t)) (fun s k b x => by
    rw [exp_grid A hdet]) (fun i d => angstrom2bohr * a.positions i d) (fun i => (a.numbers i : ℝ)) (flatRows (kVectors A kn))
    |A.det| occ cfg.xc).1
  have e2 := (energies_grid_shift L.xc A hdet t (fun s k b x => c' s k b x * omega x t) c' (fun s k b x => by
    rw [exp_grid A hdet, mul_assoc, omega_mul_conj, mul_one]) (fun i d => angstrom2bohr * a.positions i d)
    (fun i => (a.numbers i : ℝ)) (flatRows (kVectors A kn)) |A.det| occ' cfg.xc).1
  have p1 := physical_phase h2.physical (fun x => conj (omega x t)) w1
  have p2 := physical_phase h2'.physical (fun x => omega x t) (fun x => omega_mul_conj x t)
  have l1 := h2'.least _ _ _ p1 (fun hm => (h2.given hm).trans (h2'.given hm).symm)
    (show totalEnergy _ _ _ _ _ _ _ _ _ _ = _ from by
      have := h2.value
      unfold totalEnergy at this ⊢
      rw [e1]
      exact this)
  have l2 := h2.least _ _ _ p2 (fun hm => (h2'.given hm).trans (h2.given hm).symm)
    (show totalEnergy _ _ _ _ _ _ _ _ _ _ = _ from by
      have := h2'.value
      unfold totalEnergy at this ⊢
      rw [← e2]
      exact this)
  have hT := le_max_right cfg.smearing 0
  have m1 := mul_le_mul_of_nonneg_left
    (entropy_gap hkpos (fun h => one_kpoint a3 (hg h)) heps h2.physical h2'.physical) hT
  have m2 := mul_le_mul_of_nonneg_left
    (entropy_gap hkpos (fun h => one_kpoint a3 (hg h)) heps h2'.physical h2.physical) hT
  rw [hrep] at l1 l2
  rw [abs_le]
  constructor <;> linarith

/-- The hypotheses of `run_axes_reordered` and `run_grid_shift` hold for the lithium atom; sizes 4, 4, 4 and 2, 2, 2 may
be listed in any order. -/
example {ε : ℝ} (hε : 0 < ε) (σ : Equiv.Perm (Fin 3)) :
    let L : RunLib := { lithiumLib diracLib with
      qrC := gramSchmidtQR ℂ, qrR := gramSchmidtQR ℝ, optimizer := .ok (nearOptimizer ε) }
    (∃ n rep rep', runAtoms L lithiumConfig (⟨fun _ => 3, 0, 1⟩ : AseAtoms 1) = .ok ⟨n, rep⟩ ∧
      runAtoms L lithiumConfig (⟨fun _ => 3, 0, (1 : Matrix (Fin 3) (Fin 3) ℝ).submatrix σ id⟩ : AseAtoms 1)
        = .ok ⟨fun i => n (σ i), rep'⟩ ∧ |rep.total - rep'.total| ≤ ε) ∧
    ∃ n rep, runAtoms L lithiumConfig (⟨fun _ => 3, 0, 1⟩ : AseAtoms 1) = .ok ⟨n, rep⟩ ∧ ∀ t : Idx n, ∃ rep',
      runAtoms L lithiumConfig (⟨fun _ => 3, fun i d => (0 : Fin 1 → Fin 3 → ℝ) i d + rVectors 1 n t d, 1⟩ : AseAtoms 1)
        = .ok ⟨n, rep'⟩ ∧ |rep.total - rep'.total| ≤ ε := by
  intro L
  have hsm : max lithiumConfig.smearing 0 = 0 := max_eq_right le_rfl
  have H : Spec.AdmissibleRun L lithiumConfig (⟨fun _ => 3, 0, 1⟩ : AseAtoms 1) (fun _ => 4) (fun _ => 2) 3 1 :=
    { lithium_admissible diracLib with optimizer := ⟨nearOptimizer ε, rfl, nearOptimizer_keeps ε⟩ }
  have hopt : ∀ opt, L.optimizer = .ok opt → Spec.NearOptimizer ε opt :=
    fun o ho => by cases Except.ok.inj ho; exact nearOptimizer_near hε
  constructor
  · obtain ⟨n, rep, rep', -, h1, h2, -, h3⟩ := run_axes_reordered L lithiumConfig lithiumConfig
      (⟨fun _ => 3, 0, 1⟩ : AseAtoms 1) σ (fun _ => 4) (fun _ => 2) 3 1 H rfl H.sizes H.ksizes
      (gramSchmidtQR_triangular ℂ) (gramSchmidtQR_triangular ℝ) diracLib_continuous
      (by norm_num [lithiumConfig]) (fun _ h => absurd h (by decide)) (fun h => absurd h (by decide)) ε hopt
      (by decide) (by decide) (Or.inr le_rfl)
    refine ⟨n, rep, rep', h1, h2, ?_⟩
    rw [hsm] at h3
    simpa using h3
  · obtain ⟨n, rep, -, h1, h2⟩ := run_grid_shift L lithiumConfig
      (⟨fun _ => 3, 0, 1⟩ : AseAtoms 1) (fun _ => 4) (fun _ => 2) 3 1 H
      (gramSchmidtQR_triangular ℂ) (gramSchmidtQR_triangular ℝ) diracLib_continuous
      (by norm_num [lithiumConfig]) (fun _ h => absurd h (by decide)) (fun h => absurd h (by decide)) ε hopt
      (by decide) (by decide) (Or.inr le_rfl)
    refine ⟨n, rep, h1, fun t => ?_⟩
    obtain ⟨rep', h3, -, h4⟩ := h2 t
    refine ⟨rep', h3, ?_⟩
    rw [hsm] at h4
    simpa using h4

end Jrystal
