import Verif.Props.Axes
import Verif.Props.StabilityNC

/- C113 for calculations with norm-conserving pseudopotentials. -/
namespace Jrystal
open scoped BigOperators ComplexConjugate
open Matrix
open RunSetup

variable {n n' : Fin 3 → ℕ} {e : Idx n ≃ Idx n'}

private theorem maxRadius_equiv {ι κ : Type} [Fintype ι] [Fintype κ] (f : κ ≃ ι) (rad : ι → ℝ) :
    maxRadius (fun k => rad (f k)) = maxRadius rad := by
  classical
  unfold maxRadius
  rw [← Finset.univ_map_equiv_to_embedding f, Finset.fold_map]
  rfl

private theorem localReciprocal_regrid (h : Regrid e) (jn : SphBessel) (cs : Spline) {na : ℕ} (atoms : Fin na → LocalAtom)
    {g : Idx n → Fin 3 → ℝ} {g' : Idx n' → Fin 3 → ℝ} (hg : ∀ x, g' (e x) = g x) (vol : ℝ) {v : Idx n → ℂ} {v' : Idx n' → ℂ}
    (hv : localReciprocal jn cs atoms g vol "sbt" = .ok v) (hv' : localReciprocal jn cs atoms g' vol "sbt" = .ok v')
    (x : Idx n) : v' (e x) = v x := by
  have hr : ∀ x, gRadius g' (e x) = gRadius g x := fun x => by unfold gRadius; rw [hg]
  have hmax : maxRadius (gRadius g') = maxRadius (gRadius g) := by
    rw [← maxRadius_equiv e]
    simp only [hr]
  unfold localReciprocal localForm at hv hv'
  rw [if_pos rfl] at hv hv'
  dsimp only at hv hv'
  by_cases hna : na = 0
  · rw [if_pos hna] at hv
    cases hv
  rw [if_neg hna] at hv hv'
  rw [← Except.ok.inj hv, ← Except.ok.inj hv']
  unfold localSbt
  simp only [h.origin, h.count, hr, hg, hmax]

/-- The transformed projectors on the other grid. -/
private noncomputable def moveBeta (e : Idx n ≃ Idx n') {nk nk' : ℕ} (τ : Fin nk' ≃ Fin nk) (b : BetaArr nk n) : BetaArr nk' n' :=
  ⟨b.1, fun k i y => b.2 (τ k) i (e.symm y)⟩

private noncomputable def moveSpecies (e : Idx n ≃ Idx n') {nk nk' : ℕ} (τ : Fin nk' ≃ Fin nk) (s : NlSpecies nk n) :
    NlSpecies nk' n' where
  nbeta := s.nbeta
  ang := s.ang
  dmat := s.dmat
  beta := fun k i y => s.beta (τ k) i (e.symm y)

private theorem betaOfLists_regrid (L : NcLib) {nk nk' : ℕ} (τ : Fin nk' ≃ Fin nk) {g : Idx n → Fin 3 → ℝ}
    {g' : Idx n' → Fin 3 → ℝ} (hg : ∀ x, g' (e x) = g x) {kpts : Fin nk → Fin 3 → ℝ} {kpts' : Fin nk' → Fin 3 → ℝ}
    (hk : ∀ k, kpts' k = kpts (τ k)) (r : List ℚ) (b : List (List ℚ)) (l : List ℤ) :
    betaOfLists L r b l (g', kpts') = (betaOfLists L r b l (g, kpts)).map (moveBeta e τ) := by
  unfold betaOfLists betaSbtSingle
  dsimp only
  split_ifs
  · rfl
  · rfl
  · rfl
  all_goals
    have hmax : maxRadius (fun p : Fin nk' × Idx n' => Real.sqrt (∑ d, (kpts' p.1 d + g' p.2 d) ^ 2))
        = maxRadius (fun p : Fin nk × Idx n => Real.sqrt (∑ d, (kpts p.1 d + g p.2 d) ^ 2)) := by
      rw [← maxRadius_equiv (τ.symm.prodCongr e)]
      simp only [Equiv.prodCongr_apply, Prod.map, hg, hk, Equiv.apply_symm_apply]
    simp only [Except.map, moveBeta, hmax]
    congr 2
    funext k i y
    obtain ⟨x, rfl⟩ := e.surjective y
    simp only [hg, hk, Equiv.symm_apply_apply]

private theorem betaSbtGrid_map {R B L G G' β β' : Type*} (f : R → B → L → G → Except PyErr β)
    (f' : R → B → L → G' → Except PyErr β') (T : β → β') (g : G) (g' : G')
    (h : ∀ r b l, f' r b l g' = (f r b l g).map T) (rs : List R) (bs : List B) (ls : List L) :
    betaSbtGrid f' rs bs ls g' = (betaSbtGrid f rs bs ls g).map (List.map T) := by
  induction rs generalizing bs ls with
  | nil => rfl
  | cons r rs ih =>
    cases bs with
    | nil => rfl
    | cons b bs =>
      cases ls with
      | nil => rfl
      | cons l ls =>
        unfold betaSbtGrid
        rw [h, ih]
        cases f r b l g with
        | error er => rfl
        | ok x =>
          cases betaSbtGrid f rs bs ls g <;> rfl

private theorem ncBetas_regrid (L : NcLib) (P : NcLists) {nk nk' : ℕ} (τ : Fin nk' ≃ Fin nk) {g : Idx n → Fin 3 → ℝ}
    {g' : Idx n' → Fin 3 → ℝ} (hg : ∀ x, g' (e x) = g x) {kpts : Fin nk → Fin 3 → ℝ} {kpts' : Fin nk' → Fin 3 → ℝ}
    (hk : ∀ k, kpts' k = kpts (τ k)) : ncBetas L P g' kpts' = (ncBetas L P g kpts).map (List.map (moveBeta e τ)) := by
  unfold ncBetas
  split_ifs
  · rfl
  · exact betaSbtGrid_map _ _ _ _ _ (fun r b l => betaOfLists_regrid L τ hg hk r b l) _ _ _

private theorem ncSpecies_regrid (P : NcLists) {nk nk' : ℕ} (τ : Fin nk' ≃ Fin nk) (bs : List (BetaArr nk n)) (a : ℕ) :
    ncSpecies P (bs.map (moveBeta e τ)) a = moveSpecies e τ (ncSpecies P bs a) := by
  have : (bs.map (moveBeta e τ)).getD a ⟨0, fun _ i => i.elim0⟩ = moveBeta e τ (bs.getD a ⟨0, fun _ i => i.elim0⟩) := by
    rw [List.getD_eq_getElem?_getD, List.getD_eq_getElem?_getD, List.getElem?_map]
    cases bs[a]? with
    | none =>
      simp only [Option.map_none, Option.getD_none, moveBeta]
      congr 1
      funext k i
      exact i.elim0
    | some b => rfl
  unfold ncSpecies moveSpecies
  dsimp only
  rw [this]
  rfl

private theorem nlPsi_regrid (eigh : Eigh) (sph : SphHarm) {nk nk' : ℕ} (τ : Fin nk' ≃ Fin nk) {g : Idx n → Fin 3 → ℝ}
    {g' : Idx n' → Fin 3 → ℝ} (hg : ∀ x, g' (e x) = g x) {kpts : Fin nk → Fin 3 → ℝ} {kpts' : Fin nk' → Fin 3 → ℝ}
    (hk : ∀ k, kpts' k = kpts (τ k)) (sp : NlSpecies nk n) (pos : Fin 3 → ℝ) (k : Fin nk') (b : Fin sp.nbeta) (m : ℕ)
    (x : Idx n) : nlPsi eigh sph (moveSpecies e τ sp) pos g' kpts' k b m (e x) = nlPsi eigh sph sp pos g kpts (τ k) b m x := by
  unfold nlPsi moveSpecies
  simp only [hg, hk, Equiv.symm_apply_apply]

/-- The energy of a state of valence electrons, and of the same state on the other grid. -/
private theorem energyNC_regrid (h : Regrid e) (lib : XcLib) (xt : String) {ns nk nk' nb M : ℕ} {ι : Type} [Fintype ι]
    (τ : Fin nk' ≃ Fin nk) {c : Coef ns nk nb n} {c' : Coef ns nk' nb n'} {occ : Occ ns nk nb} {occ' : Occ ns nk' nb}
    (hc : ∀ s k b x, c' s k b (e x) = c s (τ k) b x) (ho : ∀ s k b, occ' s k b = occ s (τ k) b)
    {g : Idx n → Fin 3 → ℝ} {g' : Idx n' → Fin 3 → ℝ} (hg : ∀ x, g' (e x) = g x)
    {kpts : Fin nk → Fin 3 → ℝ} {kpts' : Fin nk' → Fin 3 → ℝ} (hk : ∀ k, kpts' k = kpts (τ k))
    {vloc : Idx n → ℂ} {vloc' : Idx n' → ℂ} (hv : ∀ x, vloc' (e x) = vloc x)
    {psi : Fin nk → ι → Fin M → Idx n → ℂ} {psi' : Fin nk' → ι → Fin M → Idx n' → ℂ}
    (hpsi : ∀ k i m x, psi' k i m (e x) = psi (τ k) i m x) (vol v : ℝ) :
    Spec.EnergyNC lib xt vloc psi g kpts vol c occ v ↔ Spec.EnergyNC lib xt vloc' psi' g' kpts' vol c' occ' v := by
  have hd : ∀ s j, densityGrid c' vol occ' s (e j) = densityGrid c vol occ s j := h.density τ hc ho vol
  have hD : ∀ s j, densityGridReciprocal c' vol occ' s (e j) = densityGridReciprocal c vol occ s j := fun s j =>
    h.densityR hd s j
  have h1 : kineticEnergyOcc g' kpts' c' occ' = kineticEnergyOcc g kpts c occ := h.kinetic τ hc ho hg hk
  have h3 : hartreeEnergy (densityGridReciprocal c' vol occ') g' vol false
      = hartreeEnergy (densityGridReciprocal c vol occ) g vol false := h.hartree hD hg vol
  have h4 : energyLocal (densityGridReciprocal c' vol occ') vloc' vol
      = energyLocal (densityGridReciprocal c vol occ) vloc vol := by
    unfold energyLocal
    rw [h.braket]
    simp only [hD, hv]
  have h5 : energyNonlocal c' psi' vol (some occ') = energyNonlocal c psi vol (some occ) := by
    unfold energyNonlocal
    dsimp only
    congr 2
    refine Finset.sum_congr rfl fun s _ => ?_
    rw [← τ.sum_comp]
    refine Finset.sum_congr rfl fun k _ => Finset.sum_congr rfl fun b _ => ?_
    rw [ho]
    congr 1
    unfold hamiltonianNonlocal
    have : ∀ β φ, ∑ x, c' s k b x * psi' k β φ x = ∑ x, c s (τ k) b x * psi (τ k) β φ x := fun β φ => by
      rw [← e.sum_comp]
      simp only [hc, hpsi]
    simp only [this]
  unfold Spec.EnergyNC
  rw [h1, h3, h4, h5, h.xc lib xt hg hd]

/-- C113, whole calculations with norm-conserving pseudopotentials: listing the cell vectors, and with them the sizes of
the grid and of the k mesh, in another order gives the same repulsion of the nuclei and the same total energy, up to the
accuracy of the optimiser and, with smearing, `2 T log 2` per band. -/
theorem ncRun_axes_reordered (L : NcLib) (cfg cfg' : NcConfig) {m : ℕ} (a : AseAtoms m) (σ : Equiv.Perm (Fin 3))
    (size ksize : Fin 3 → ℤ) (P : NcLists) (ne spin : ℤ) (H : Spec.AdmissibleRunNC L cfg a size ksize P ne spin)
    (hcfg : cfg' = { cfg with gridSizes := cfg'.gridSizes, kGridSizes := cfg'.kGridSizes })
    (hs : Spec.SizesOk cfg'.gridSizes fun i => size (σ i)) (hks : Spec.SizesOk cfg'.kGridSizes fun i => ksize (σ i))
    (hC : Spec.Triangular L.qrC) (hR : Spec.Triangular L.qrR) (hxc : Spec.ContinuousXc L.xc cfg.xc)
    (heps : 0 < cfg.eps) (hspin : cfg.occupation = "simplex-projector" → cfg.restricted = true → spin = 0)
    (hg : cfg.occupation = "gamma" → ∀ i, ksize i ≤ 1)
    (ε : ℝ) (hopt : ∀ opt, L.optimizer = .ok opt → Spec.NearOptimizer ε opt)
    (he : 3 ≤ cfg.epoch) (hw : 2 ≤ cfg.window) (hq : cfg.threshold ≤ 0 ∨ cfg.smearing ≤ 0) :
    ∃ n rep rep', Spec.LeastGrid size n ∧ runAtomsNC L cfg a = .ok ⟨n, rep⟩ ∧
      runAtomsNC L cfg' ⟨a.numbers, a.positions, a.cell.submatrix σ id⟩ = .ok ⟨fun i => n (σ i), rep'⟩ ∧
      rep'.repulsion = rep.repulsion ∧
      |rep.total - rep'.total|
        ≤ 2 * max cfg.smearing 0 * ((ne.toNat + 1) / 2 + cfg.emptyBands : ℕ) * Real.log 2 + ε := by
  obtain ⟨gs, hgs⟩ : ∃ gs, gs = cfg'.gridSizes := ⟨_, rfl⟩
  obtain ⟨kgs, hkgs⟩ : ∃ kgs, kgs = cfg'.kGridSizes := ⟨_, rfl⟩
  rw [← hgs, ← hkgs] at hcfg
  rw [← hgs] at hs
  rw [← hkgs] at hks
  clear hgs hkgs
  subst hcfg
  obtain ⟨A, hA⟩ : ∃ A, A = (angstrom2bohr : ℝ) • a.cell := ⟨_, rfl⟩
  obtain ⟨n, kn, rep, mask, vloc, bs, r1, a2, a3, a4, a5, a6, -, -, -, -, r2, -⟩ :=
    ncRun_complete_partial L cfg a size ksize P ne spin H A hA _ (fun _ _ => rfl) _ (fun _ => rfl)
  have a2' : Spec.LeastGrid (fun i => size (σ i)) fun i => n (σ i) := fun i => a2 (σ i)
  have a3' : Spec.LeastGrid (fun i => ksize (σ i)) fun i => kn (σ i) := fun i => a3 (σ i)
  have hcell : (angstrom2bohr : ℝ) • (a.cell.submatrix σ id) = A.submatrix σ id := by rw [hA]; rfl
  have a4' := createFreqMask_axes σ cfg.toRunConfig { cfg.toRunConfig with gridSizes := gs, kGridSizes := kgs } rfl rfl A n a4
  have a6' : ncBetas L P (gVectors (A.submatrix σ id) fun i => n (σ i))
      (flatRows (kVectors (A.submatrix σ id) fun i => kn (σ i)))
      = .ok (bs.map (moveBeta (axesIdx σ n) (axesList σ kn))) := by
    rw [ncBetas_regrid (e := axesIdx σ n) L P (axesList σ kn) (gVectors_axes σ A n) (flatRows_axes σ (kVectors_axes σ A kn)), a6]
    rfl
  have H' : Spec.AdmissibleRunNC L { cfg with gridSizes := gs, kGridSizes := kgs }
      ⟨a.numbers, a.positions, a.cell.submatrix σ id⟩ (fun i => size (σ i)) (fun i => ksize (σ i)) P ne spin := { H with
    cell := by
      have := abs_det_axes σ a.cell
      exact abs_ne_zero.1 (this ▸ abs_ne_zero.2 H.cell)
    sizes := hs
    ksizes := hks
    waves := fun n' hn' mask' hm' => by
      obtain rfl := leastGrid_unique a2' hn'
      obtain rfl := Except.ok.inj (a4'.symm.trans (hcell ▸ hm'))
      refine (H.waves _ a2 mask (by rw [← hA]; exact a4)).trans (le_of_eq ?_)
      refine Fintype.card_congr ((axesIdx σ n).subtypeEquiv fun x => ?_)
      beta_reduce
      rw [Equiv.symm_apply_apply]
    devices := fun kn' hkn' => by
      obtain rfl := leastGrid_unique a3' hkn'
      have h := H.devices kn a3
      have e1 : kn (σ 0) * kn (σ 1) * kn (σ 2) = kn 0 * kn 1 * kn 2 := by
        have := Equiv.prod_comp σ kn
        rwa [Fin.prod_univ_three, Fin.prod_univ_three] at this
      rw [e1]
      exact h }
  obtain ⟨n', kn', rep', mask', vloc', bs', r1', b2, b3, b4, b5, b6, -, -, -, -, r2', -⟩ :=
    ncRun_complete_partial L _ _ _ _ P ne spin H' (A.submatrix σ id) hcell.symm (fun i d => angstrom2bohr * a.positions i d)
      (fun _ _ => rfl) (fun i => a.numbers i) (fun _ => rfl)
  obtain rfl := leastGrid_unique a2' b2
  obtain ⟨s, v, c, occ, h1, hv, h2⟩ := ncRun_total_ground L cfg a size ksize P ne spin H hC hR hxc heps hspin hg ε hopt A hA
    (fun i d => angstrom2bohr * a.positions i d) (fun _ _ => rfl) he hw hq a2 a3 mask a4 bs a6
  obtain ⟨s', v', c', occ', h1', hv', h2'⟩ := ncRun_total_ground L _ _ _ _ P ne spin H' hC hR hxc heps hspin
    (fun h i => hg h (σ i)) ε hopt
    (A.submatrix σ id) hcell.symm (fun i d => angstrom2bohr * a.positions i d) (fun _ _ => rfl) he hw hq a2' a3' _ a4' _ a6'
  obtain rfl : s = rep := by
    have := h1.symm.trans r1
    simpa using this
  obtain rfl : s' = rep' := by
    have := h1'.symm.trans r1'
    simpa using this
  have hrep : s'.repulsion = s.repulsion := by
    rw [r2, r2']
    exact ewald_axes _ _ _ _ _ _ _ _
  refine ⟨n, s, s', a2, h1, h1', hrep, ?_⟩
  have hsp : (fun i : Fin m => ncSpecies P (bs.map (moveBeta (axesIdx σ n) (axesList σ kn))) i)
      = fun i : Fin m => moveSpecies (axesIdx σ n) (axesList σ kn) (ncSpecies P bs i) :=
    funext fun i => ncSpecies_regrid P _ bs i
  replace h2' : ∀ sp : Fin m → NlSpecies _ _, (fun i : Fin m => ncSpecies P (bs.map (moveBeta (axesIdx σ n) (axesList σ kn))) i)
      = sp → Spec.GroundWithin ε (max cfg.smearing 0) cfg.eps (fun y => mask ((axesIdx σ n).symm y)) ne spin cfg.restricted
      cfg.occupation (Spec.EnergyNC L.xc cfg.xc v'
        (nlPsiAll L.eigh L.sph sp
          (fun i d => angstrom2bohr * a.positions i d) (gVectors (A.submatrix σ id) fun i => n (σ i))
          (flatRows (kVectors (A.submatrix σ id) fun i => kn (σ i))))
        (gVectors (A.submatrix σ id) fun i => n (σ i)) (flatRows (kVectors (A.submatrix σ id) fun i => kn (σ i)))
        |(A.submatrix σ id).det|) c' occ' (s'.total - s'.repulsion) := by
    rintro _ rfl
    exact h2'
  replace h2' := h2' _ hsp
  have hv0 := localReciprocal_regrid (axesIdx_regrid σ n) L.jn L.csLoc _ (gVectors_axes σ A n) |A.det| hv
    (by rw [← abs_det_axes σ A]; exact hv')
  have key := regrid_close (e := axesIdx σ n) (axesList σ kn) (fun x => by rw [Equiv.symm_apply_apply])
    (fun c c' occ occ' w hc ho => by
      rw [abs_det_axes]
      refine energyNC_regrid (axesIdx_regrid σ n) L.xc cfg.xc (axesList σ kn) hc ho (gVectors_axes σ A n)
        (flatRows_axes σ (kVectors_axes σ A kn)) hv0 ?_ |A.det| w
      intro k i mm x
      exact nlPsi_regrid L.eigh L.sph (axesList σ kn) (gVectors_axes σ A n) (flatRows_axes σ (kVectors_axes σ A kn)) _ _ k _ _ x)
    (fun h => one_kpoint a3 (hg h))
    (idxList_length_pos fun i => smooth_pos (a3 i).1) heps (le_max_right cfg.smearing 0) h2 h2'
  rw [hrep, sub_sub_sub_cancel_right] at key
  exact key

/-- The hypotheses of `ncRun_axes_reordered` hold for the silicon pair. -/
example {ε : ℝ} (hε : 0 < ε) (eigh : Eigh) (jn : SphBessel) (csLoc csBeta : Spline) (σ : Equiv.Perm (Fin 3)) :
    let L : NcLib := { siliconLib diracLib eigh jn csLoc csBeta with
      qrC := gramSchmidtQR ℂ, qrR := gramSchmidtQR ℝ, optimizer := .ok (nearOptimizer ε) }
    ∃ n rep rep', runAtomsNC L siliconConfig siliconAtoms = .ok ⟨n, rep⟩ ∧
      runAtomsNC L siliconConfig ⟨siliconAtoms.numbers, siliconAtoms.positions, siliconAtoms.cell.submatrix σ id⟩
        = .ok ⟨fun i => n (σ i), rep'⟩ ∧ |rep.total - rep'.total| ≤ ε := by
  intro L
  obtain ⟨P, H⟩ := silicon_admissible diracLib eigh jn csLoc csBeta
  obtain ⟨n, rep, rep', -, h1, h2, -, h3⟩ := ncRun_axes_reordered L siliconConfig siliconConfig siliconAtoms σ
    (fun _ => 4) (fun _ => 2) P 4 0
    { H with optimizer := ⟨nearOptimizer ε, rfl, nearOptimizer_keeps ε⟩ } rfl H.sizes H.ksizes
    (gramSchmidtQR_triangular ℂ) (gramSchmidtQR_triangular ℝ) diracLib_continuous
    (by norm_num [siliconConfig, lithiumConfig]) (fun _ _ => rfl) (fun h => absurd h (by decide)) ε
    (fun o ho => by cases Except.ok.inj ho; exact nearOptimizer_near hε) (by decide) (by decide) (Or.inr le_rfl)
  refine ⟨n, rep, rep', h1, h2, ?_⟩
  simpa [siliconConfig, lithiumConfig] using h3

end Jrystal
