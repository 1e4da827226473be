import Verif.Lemmas.RunNC
import Verif.Props.NonlocalRotate
import Verif.Props.Local
import Verif.Props.Load
import Verif.Props.Utils
import Verif.Props.Symmetry
import Verif.Lemmas.RunSetup
import Verif.Spec.RunNC

/- C83–C86: whole norm-conserving ground-state calculations. -/
namespace Jrystal
open scoped BigOperators ComplexConjugate
open Matrix

/-! ### Projectors of a run -/

private theorem betaOfLists_length (L : NcLib) {nk : ℕ} {n : Fin 3 → ℕ} (r : List ℚ) (b : List (List ℚ))
    (l : List ℤ) (gk : (Idx n → Fin 3 → ℝ) × (Fin nk → Fin 3 → ℝ)) (x : BetaArr nk n)
    (h : betaOfLists L r b l gk = .ok x) : x.1 = l.length := by
  unfold betaOfLists betaSbtSingle at h
  by_cases h1 : l.length ≠ b.length
  · rw [if_pos h1] at h
    simp [Except.map] at h
  rw [if_neg h1] at h
  by_cases h2 : r.length ≠ (b.getD 0 []).length
  · rw [if_pos h2] at h
    simp [Except.map] at h
  rw [if_neg h2] at h
  by_cases h3 : r.length = 0
  · rw [if_pos h3] at h
    simp [Except.map] at h
  rw [if_neg h3] at h
  simp only [Except.map, Except.ok.injEq] at h
  rw [← h]
  exact (not_not.1 h1).symm

theorem betaSbtGrid_angular (L : NcLib) {nk : ℕ} {n : Fin 3 → ℕ}
    (gk : (Idx n → Fin 3 → ℝ) × (Fin nk → Fin 3 → ℝ)) (rs : List (List ℚ)) (bs : List (List (List ℚ)))
    (ls : List (List ℤ)) (out : List (BetaArr nk n)) (h : betaSbtGrid (betaOfLists L) rs bs ls gk = .ok out)
    (a i : ℕ) (hi : i < (out.getD a ⟨0, fun _ i => i.elim0⟩).1) :
    ∃ l ∈ ls, (ls.getD a []).getD i 0 ∈ l := by
  induction rs generalizing bs ls out a with
  | nil =>
    simp only [betaSbtGrid, Except.ok.injEq] at h
    subst h
    simp at hi
  | cons r rs ih =>
    cases bs with
    | nil =>
      simp only [betaSbtGrid, Except.ok.injEq] at h
      subst h
      simp at hi
    | cons b bs =>
      cases ls with
      | nil =>
        simp only [betaSbtGrid, Except.ok.injEq] at h
        subst h
        simp at hi
      | cons l ls =>
        unfold betaSbtGrid at h
        cases h1 : betaOfLists L r b l gk with
        | error e => rw [h1] at h; simp at h
        | ok x =>
          rw [h1] at h
          simp only at h
          cases h2 : betaSbtGrid (betaOfLists L) rs bs ls gk with
          | error e => rw [h2] at h; simp at h
          | ok xs =>
            rw [h2] at h
            simp only [Except.ok.injEq] at h
            subst h
            cases a with
            | zero =>
              have hx := betaOfLists_length L r b l gk x h1
              simp only [List.getD_cons_zero] at hi ⊢
              rw [hx] at hi
              exact ⟨l, List.mem_cons_self, by rw [List.getD_eq_getElem _ _ hi]; exact List.getElem_mem hi⟩
            | succ a =>
              simp only [List.getD_cons_succ] at hi ⊢
              obtain ⟨l', hl', hm⟩ := ih bs ls xs h2 a hi
              exact ⟨l', List.mem_cons_of_mem _ hl', hm⟩

/-- C83: rotating or reflecting the whole geometry changes nothing in a norm-conserving calculation: it
raises the same exception or reports the same energies, total and density.  `Conj` and `Addition` are the
textbook properties of the spherical harmonics.  Missing: k meshes with an odd number of points along every
axis together with projectors of angular momentum above zero, for which the mesh contains the zero vector
(`nonlocal_rotation_wrong`). -/
theorem ncRun_rotated_partial (L : NcLib) (cfg : NcConfig) {m : ℕ} (a : AseAtoms m)
    (R : Matrix (Fin 3) (Fin 3) ℝ) (hR : R * Rᵀ = 1) (hcell : a.cell.det ≠ 0) (hc : L.sph.Conj)
    (hadd : ∀ P, createPseudo L cfg (List.ofFn fun i => L.symbol (a.numbers i)) = .ok P →
      ∀ ls ∈ P.angular, ∀ l ∈ ls, L.sph.Addition l.toNat)
    (hk : (∀ n kn, runSizes cfg.toRunConfig = .ok (n, kn) → ∃ i, 2 ∣ kn i) ∨
      ∀ P, createPseudo L cfg (List.ofFn fun i => L.symbol (a.numbers i)) = .ok P →
        ∀ ls ∈ P.angular, ∀ l ∈ ls, l = 0) :
    runAtomsNC L cfg (Spec.rotated R a) = runAtomsNC L cfg a := by
  have hf : Crystal.fromAse (Spec.rotated R a) cfg.spin = ⟨(Crystal.fromAse a cfg.spin).charges,
      (Crystal.fromAse a cfg.spin).positions * R, (Crystal.fromAse a cfg.spin).cell * R,
      (Crystal.fromAse a cfg.spin).spin⟩ := by
    unfold Crystal.fromAse Spec.rotated
    simp only [Matrix.smul_mul]
  have hdet := fromAse_det a cfg.spin hcell
  generalize hcr : Crystal.fromAse a cfg.spin = c at hf hdet
  unfold runAtomsNC createCrystal
  rw [hf, hcr]
  have hn : (⟨c.charges, c.positions * R, c.cell * R, c.spin⟩ : Crystal m).numElectron = c.numElectron := rfl
  simp only [hn]
  cases checkSpinNumber c.numElectron c.spin with
  | error e => rfl
  | ok u =>
    simp only [show (Spec.rotated R a).numbers = a.numbers from rfl]
    cases hP : createPseudo L cfg (List.ofFn fun i => L.symbol (a.numbers i)) with
    | error e => rfl
    | ok P =>
      simp only
      have e1 : ∀ n, gVectors (c.cell * R) n = fun k => rot3 R (gVectors c.cell n k) :=
        fun n => gVectors_rotate hR c.cell n
      have e2 : ∀ kn, flatRows (kVectors (c.cell * R) kn) = fun q => rot3 R (flatRows (kVectors c.cell kn) q) := by
        intro kn
        funext q
        simp only [flatRows, kVectors_rotate hR]
      have e3 : (fun a => (c.positions * R) a) = fun a => rot3 R (c.positions a) :=
        funext fun a => rot3_rows _ _ a
      have hb : ∀ n kn, ncBetas L P (gVectors (c.cell * R) n) (flatRows (kVectors (c.cell * R) kn))
          = ncBetas L P (gVectors c.cell n) (flatRows (kVectors c.cell kn)) := by
        intro n kn
        rw [e1, e2]
        refine ncBetas_radius L P _ _ _ _ fun k x => ?_
        rw [← rot3_sq hR fun d => flatRows (kVectors c.cell kn) k d + gVectors c.cell n x d]
        exact Finset.sum_congr rfl fun d _ => by rw [rot3_add]
      refine runCrystalNC_congr L cfg c _ P P (fun n => ?_) (fun n => repulsion_rotate hR _ _ _ _ _ _ _)
        (vol_rotate hR _) rfl rfl (fun n => ?_) (fun n kn e _ h => ?_) (fun n kn bs hs h => ?_)
      · unfold createFreqMask
        rw [sphericalMask_rotate hR]
      · have := localReciprocal_rotate hR L.jn L.csLoc (ncLocalAtom P c.positions) (gVectors c.cell n) c.vol
        rw [← this, ← e1]
        have hv : (⟨c.charges, c.positions * R, c.cell * R, c.spin⟩ : Crystal m).vol = c.vol := vol_rotate hR _
        rw [hv]
        have ha : ncLocalAtom P (c.positions * R) =
            fun a => { ncLocalAtom P c.positions a with pos := rot3 R (ncLocalAtom P c.positions a).pos } := by
          funext a
          unfold ncLocalAtom
          rw [congrFun e3 a]
        rw [← ha]
      · exact (hb n kn).trans h
      · refine ⟨bs, (hb n kn).trans h, fun mask vloc ns nb p => ?_⟩
        have key : ∀ g' k' p', g' = (fun k => rot3 R ((runEnvNC L cfg c P n kn mask).g k)) →
            k' = (fun q => rot3 R ((runEnvNC L cfg c P n kn mask).kpts q)) →
            p' = (fun a => rot3 R ((runEnvNC L cfg c P n kn mask).pos a)) →
            gsPartsNC (regeo (runEnvNC L cfg c P n kn mask) g' k' p' (runEnvNC L cfg c P n kn mask).charge) vloc
              (nlPsiAll L.eigh L.sph (fun a : Fin m => ncSpecies P bs a) p' g' k') p =
            gsPartsNC (runEnvNC L cfg c P n kn mask) vloc
              (nlPsiAll L.eigh L.sph (fun a : Fin m => ncSpecies P bs a) c.positions
                (gVectors c.cell n) (flatRows (kVectors c.cell kn))) p := by
          rintro _ _ _ rfl rfl rfl
          refine gsPartsNC_regeo (runEnvNC L cfg c P n kn mask) _ _ _ _ vloc _ _ (fun rho => ?_)
            (fun d => xcEnergy_rotate hR _ _ _ _ _) (fun c o => kineticEnergyOcc_rotate hR _ _ _ _) (fun cf => ?_) p
          · unfold hartreeEnergy
            simp only [hartreeReciprocal_rotate hR]
          · have hmem : ∀ (a : Fin m) (b : Fin (ncSpecies P bs a).nbeta),
                ∃ l ∈ P.angular, (P.angular.getD a []).getD b 0 ∈ l := by
              intro a b
              unfold ncBetas at h
              by_cases hcpu : L.cpus / 2 = 0
              · rw [if_pos hcpu] at h
                simp at h
              rw [if_neg hcpu] at h
              exact betaSbtGrid_angular L _ _ _ _ bs h a b b.2
            refine nonlocal_rotated_partial L.eigh L.sph hc (fun a : Fin m => ncSpecies P bs a) (fun a b => ?_)
              c.positions (gVectors c.cell n) (flatRows (kVectors c.cell kn)) (fun a b k x hx => ?_) R hR cf _
            · obtain ⟨l, hl, hb⟩ := hmem a b
              exact hadd P hP l hl _ hb
            · rcases hk with hk | hk
              · obtain ⟨i, hi⟩ := hk n kn hs
                exact (mesh_never_zero c.cell hdet n kn i hi k x hx).elim
              · obtain ⟨l, hl, hb⟩ := hmem a b
                left
                show ((P.angular.getD a []).getD b 0).toNat = 0
                rw [hk P hP l hl _ hb]
                rfl
        exact key _ _ _ (e1 n) (e2 kn) e3

/-! ### Lattice translations -/

theorem ncLocal_shifted (L : NcLib) (P : NcLists) {m : ℕ} (c : Crystal m) (hA : c.cell.det ≠ 0)
    (v : Fin m → Fin 3 → ℝ) (hv : ∀ i, Spec.IsLatticeVector c.cell (v i)) (n : Fin 3 → ℕ) :
    localReciprocal L.jn L.csLoc (ncLocalAtom P (shifted c v).positions) (gVectors c.cell n) c.vol "sbt"
      = localReciprocal L.jn L.csLoc (ncLocalAtom P c.positions) (gVectors c.cell n) c.vol "sbt" :=
  local_lattice L.jn L.csLoc c.cell hA (ncLocalAtom P c.positions) v hv c.vol "sbt"

private theorem gsPartsNC_shifted (L : NcLib) (cfg : NcConfig) (P : NcLists) {m : ℕ} (c : Crystal m)
    (hA : c.cell.det ≠ 0) (v : Fin m → Fin 3 → ℝ) (hv : ∀ i, Spec.IsLatticeVector c.cell (v i))
    (n kn : Fin 3 → ℕ) (bs : List (BetaArr (idxList kn).length n)) (mask : Idx n → Bool) (vloc : Idx n → ℂ)
    {ns nb : ℕ} (p : GsParams ns (idxList kn).length (maskCount mask) nb) :
    gsPartsNC (regeo (runEnvNC L cfg c P n kn mask) (gVectors (shifted c v).cell n)
        (flatRows (kVectors (shifted c v).cell kn)) (shifted c v).positions
        (fun a => ((shifted c v).charges a : ℝ))) vloc
      (nlPsiAll L.eigh L.sph (fun a : Fin m => ncSpecies P bs a) (shifted c v).positions
        (gVectors (shifted c v).cell n) (flatRows (kVectors (shifted c v).cell kn))) p
    = gsPartsNC (runEnvNC L cfg c P n kn mask) vloc
      (nlPsiAll L.eigh L.sph (fun a : Fin m => ncSpecies P bs a) c.positions
        (gVectors c.cell n) (flatRows (kVectors c.cell kn))) p := by
  refine gsPartsNC_regeo (runEnvNC L cfg c P n kn mask) _ _ _ _ vloc _ _ (fun rho => rfl) (fun d => rfl)
    (fun c o => rfl) (fun cf => ?_) p
  exact nonlocal_lattice L.eigh L.sph c.cell hA (fun a : Fin m => ncSpecies P bs a) c.positions v hv
    (flatRows (kVectors c.cell kn)) cf _

/-- C84: moving all atoms rigidly by one lattice vector changes nothing. -/
theorem ncRun_lattice_shift (L : NcLib) (cfg : NcConfig) {m : ℕ} (a : AseAtoms m) (hA : a.cell.det ≠ 0)
    (v : Fin 3 → ℝ) (hv : Spec.IsLatticeVector a.cell v) :
    runAtomsNC L cfg (Spec.moved (fun _ => v) a) = runAtomsNC L cfg a := by
  have hA' := fromAse_det a cfg.spin hA
  have hv' := fromAse_lattice a cfg.spin v hv
  unfold runAtomsNC createCrystal
  rw [fromAse_moved]
  generalize Crystal.fromAse a cfg.spin = c at hA' hv' ⊢
  have hn : (shifted c fun _ d => (angstrom2bohr : ℝ) * v d).numElectron = c.numElectron := rfl
  have hs : (shifted c fun _ d => (angstrom2bohr : ℝ) * v d).spin = c.spin := rfl
  simp only [hn, hs]
  cases checkSpinNumber c.numElectron c.spin with
  | error e => rfl
  | ok u =>
    simp only [show (Spec.moved (fun _ => v) a).numbers = a.numbers from rfl]
    cases createPseudo L cfg (List.ofFn fun i => L.symbol (a.numbers i)) with
    | error e => rfl
    | ok P =>
      simp only
      refine runCrystalNC_congr L cfg c _ P P (fun n => rfl) (fun n => ?_) rfl rfl rfl
        (fun n => ncLocal_shifted L P c hA' _ (fun _ => hv') n) (fun n kn e _ h => h)
        (fun n kn bs _ h => ⟨bs, h, fun mask vloc ns nb p =>
          gsPartsNC_shifted L cfg P c hA' _ (fun _ => hv') n kn bs mask vloc p⟩)
      unfold runRepulsion
      have hw : ∀ {nt : ℕ} (T : Fin nt → Fin 3 → ℝ), driverRepulsion L.erfc
          (shifted c fun _ d => (angstrom2bohr : ℝ) * v d) (gVectors c.cell n) cfg.ewaldEta T =
          driverRepulsion L.erfc c (gVectors c.cell n) cfg.ewaldEta T :=
        fun T => ewald_translate L.erfc c.positions (fun a => (c.charges a : ℝ)) _ _ _ T _
      have hc : (shifted c fun _ d => (angstrom2bohr : ℝ) * v d).cell = c.cell := rfl
      simp only [hc, hw]
      rfl

/-- C84: moving single atoms by (different) lattice vectors changes neither the energies nor the density;
the total changes exactly as the reported nuclear repulsion does. -/
theorem ncRun_lattice_move (L : NcLib) (cfg : NcConfig) {m : ℕ} (a : AseAtoms m) (hA : a.cell.det ≠ 0)
    (v : Fin m → Fin 3 → ℝ) (hv : ∀ i, Spec.IsLatticeVector a.cell (v i)) {n : Fin 3 → ℕ}
    (r : GsReport (EnergyParts × ℝ) n) (hr : runAtomsNC L cfg a = .ok ⟨n, r⟩) :
    ∃ r' : GsReport (EnergyParts × ℝ) n, runAtomsNC L cfg (Spec.moved v a) = .ok ⟨n, r'⟩ ∧ r'.parts = r.parts ∧
      r'.density = r.density ∧ r'.total - r'.repulsion = r.total - r.repulsion := by
  have hA' := fromAse_det a cfg.spin hA
  have hv' := fun i => fromAse_lattice a cfg.spin (v i) (hv i)
  unfold runAtomsNC createCrystal at hr ⊢
  rw [fromAse_moved]
  generalize Crystal.fromAse a cfg.spin = c at hA' hv' hr ⊢
  have hn : (shifted c fun i d => (angstrom2bohr : ℝ) * v i d).numElectron = c.numElectron := rfl
  have hs : (shifted c fun i d => (angstrom2bohr : ℝ) * v i d).spin = c.spin := rfl
  simp only [hn, hs] at hr ⊢
  generalize hw : (fun i d => (angstrom2bohr : ℝ) * v i d) = w at hv' ⊢
  cases hck : checkSpinNumber c.numElectron c.spin with
  | error e => rw [hck] at hr; simp at hr
  | ok u =>
    rw [hck] at hr
    simp only [show (Spec.moved v a).numbers = a.numbers from rfl] at hr ⊢
    cases hP : createPseudo L cfg (List.ofFn fun i => L.symbol (a.numbers i)) with
    | error e => rw [hP] at hr; simp at hr
    | ok P =>
    rw [hP] at hr
    simp only at hr ⊢
    unfold runCrystalNC runGridNC at hr ⊢
    cases hz : runSizes cfg.toRunConfig with
    | error e => rw [hz] at hr; simp at hr
    | ok nn =>
      obtain ⟨n', kn⟩ := nn
      rw [hz] at hr
      simp only at hr ⊢
      have hc : (shifted c w).cell = c.cell := rfl
      have hvol : (shifted c w).vol = c.vol := rfl
      rw [hc, hvol]
      cases hm : createFreqMask cfg.toRunConfig c.cell n' with
      | error e => rw [hm] at hr; simp at hr
      | ok mask =>
        rw [hm] at hr
        simp only at hr ⊢
        obtain ⟨ew, hew⟩ : ∃ ew, runRepulsion L.erfc cfg.toRunConfig c n' = .ok ew := by
          cases h : runRepulsion L.erfc cfg.toRunConfig c n' with
          | error e => rw [h] at hr; simp at hr
          | ok ew => exact ⟨ew, rfl⟩
        rw [hew] at hr
        simp only at hr
        obtain ⟨ew', hew'⟩ : ∃ ew', runRepulsion L.erfc cfg.toRunConfig (shifted c w) n' = .ok ew' := by
          unfold runRepulsion at hew ⊢
          rw [hc]
          by_cases h1 : translationCount c.cell cfg.ewaldCutoff = 0
          · rw [if_pos h1] at hew; simp at hew
          rw [if_neg h1] at hew ⊢
          by_cases h2 : translationCount c.cell cfg.ewaldCutoff < 0
          · rw [if_pos h2] at hew; simp at hew
          rw [if_neg h2]
          exact ⟨_, rfl⟩
        rw [hew']
        have hvw : ∀ i, Spec.IsLatticeVector c.cell (w i) := fun i => by rw [← hw]; exact hv' i
        simp only
        rw [ncLocal_shifted L P c hA' w hvw n']
        cases hl : localReciprocal L.jn L.csLoc (ncLocalAtom P c.positions) (gVectors c.cell n') c.vol "sbt" with
        | error e => rw [hl] at hr; simp at hr
        | ok vloc =>
        rw [hl] at hr
        simp only at hr ⊢
        by_cases hd : (idxList kn).length % (if cfg.parallelK then L.devices else 1) ≠ 0
        · rw [if_pos hd] at hr; simp at hr
        rw [if_neg hd] at hr ⊢
        cases hb : ncBetas L P (gVectors c.cell n') (flatRows (kVectors c.cell kn)) with
        | error e => rw [hb] at hr; simp at hr
        | ok bs =>
        rw [hb] at hr
        simp only at hr ⊢
        generalize (if cfg.parallelK = true then L.devices else 1) = util at hr ⊢
        have he : runEnvNC L cfg (shifted c w) P n' kn mask = regeo (runEnvNC L cfg c P n' kn mask)
            (gVectors (shifted c w).cell n') (flatRows (kVectors (shifted c w).cell kn)) (shifted c w).positions
            (fun a => ((shifted c w).charges a : ℝ)) := rfl
        have hq := runLoopNC_regeo L.toRunLib cfg.toRunConfig util (runEnvNC L cfg c P n' kn mask) _ _ _ _
            vloc vloc _ _ ew' (fun p => gsPartsNC_shifted L cfg P c hA' w hvw n' kn bs mask vloc p)
        rw [he]
        rw [hc] at hq ⊢
        rw [hq, runLoopNC_ew L.toRunLib cfg.toRunConfig util _ vloc _ ew ew']
        generalize hpsi : nlPsiAll L.eigh L.sph (fun a : Fin m => ncSpecies P bs a) c.positions
            (gVectors c.cell n') (flatRows (kVectors c.cell kn)) = psi at hr ⊢
        cases hq : runLoopNC L.toRunLib cfg.toRunConfig util (runEnvNC L cfg c P n' kn mask) vloc psi ew with
        | error e => rw [hq] at hr; simp at hr
        | ok q =>
          rw [hq] at hr
          simp only [Except.ok.injEq, Sigma.mk.injEq] at hr
          obtain ⟨rfl, hr⟩ := hr
          obtain rfl := eq_of_heq hr
          refine ⟨_, rfl, rfl, rfl, ?_⟩
          have hrep : q.repulsion = ew := by
            have h := runLoopNC_ew L.toRunLib cfg.toRunConfig util (runEnvNC L cfg c P n' kn mask) vloc psi ew ew
            rw [hq] at h
            exact congrArg GsReport.repulsion (Except.ok.inj h)
          show q.total + (ew' - ew) - ew' = q.total - q.repulsion
          rw [hrep]
          ring

/-! ### Order of the atoms -/

private theorem nlLMax_permute {na nk : ℕ} {n : Fin 3 → ℕ} (sp : Fin na → NlSpecies nk n)
    (e : Equiv.Perm (Fin na)) : nlLMax (fun a => sp (e a)) = nlLMax sp := by
  unfold nlLMax
  refine le_antisymm (Finset.sup_le fun a _ => ?_) (Finset.sup_le fun a _ => ?_)
  · exact Finset.le_sup (f := fun a => Finset.univ.sup (sp a).ang) (Finset.mem_univ (e a))
  · have := Finset.le_sup (f := fun a => Finset.univ.sup (sp (e a)).ang) (Finset.mem_univ (e.symm a))
    rw [e.apply_symm_apply] at this
    exact this

theorem nonlocal_permute (eigh : Eigh) (sph : SphHarm) {na ns nk nb : ℕ} {n : Fin 3 → ℕ}
    (sp : Fin na → NlSpecies nk n) (pos : Fin na → Fin 3 → ℝ) (g : Idx n → Fin 3 → ℝ)
    (kpts : Fin nk → Fin 3 → ℝ) (e : Equiv.Perm (Fin na)) (c : Coef ns nk nb n) (vol : ℝ) :
    hamiltonianNonlocal c (nlPsiAll eigh sph (fun a => sp (e a)) (fun a => pos (e a)) g kpts) vol
      = hamiltonianNonlocal c (nlPsiAll eigh sph sp pos g kpts) vol := by
  funext s k i j
  rw [nonlocal_actual, nonlocal_actual, nlLMax_permute]
  exact Equiv.sum_comp e fun a => Spec.separable vol
    (Matrix.diagonal fun b => |eigh.vals (symmetrize (sp a).dmat) b|)
    (projections sph (sp a) (-pos a) g kpts k (2 * nlLMax sp + 1) (c s k i))
    (projections sph (sp a) (-pos a) g kpts k (2 * nlLMax sp + 1) (c s k j))

private def listsOf (as : List NcAtom) : NcLists :=
  ⟨as.map (·.valence), as.map (·.rGrid), as.map (·.rAb), as.map (fun _ => none), as.map (·.lMax),
    as.map (·.lMaxRho), as.map (·.localGrid), as.map (·.valence), as.map (·.numBeta),
    as.map (·.betaGrid), as.map (·.betaCutoff), as.map (·.dMatrix), as.map (·.angular),
    as.map (·.valenceConf)⟩

private theorem usStep_acc (rd : NumReader) (junk : ℕ → ℚ) (eigTop : List (List ℚ) → ℚ) (acc acc' : UsLists)
    (pp : PpDict) (us : UsLists) (h : usStep rd junk eigTop acc pp = .ok us) :
    ∃ us', usStep rd junk eigTop acc' pp = .ok us' := by
  unfold usStep at h ⊢
  cases hau : pp.nl.aug with
  | none => exact ⟨acc', rfl⟩
  | some a =>
    rw [hau] at h
    simp only [bind_ok_iff] at h ⊢
    obtain ⟨q, hq, qm, hqm, h⟩ := h
    by_cases he : eigTop qm < -1
    · rw [if_pos he] at h
      cases h
    rw [if_neg he] at h
    rw [bind_ok_iff] at h
    obtain ⟨nl, hnl, h⟩ := h
    rw [bind_ok_iff] at h
    obtain ⟨es, hes, h⟩ := h
    rw [bind_ok_iff] at h
    obtain ⟨f, hf, h⟩ := h
    refine ⟨⟨acc'.qMatrix ++ [qm], acc'.qij ++ [f], acc'.qWithL ++ [a.qWithL]⟩, q, hq, qm, hqm, ?_⟩
    rw [if_neg he, bind_ok_iff]
    refine ⟨nl, hnl, ?_⟩
    rw [bind_ok_iff]
    refine ⟨es, hes, ?_⟩
    rw [bind_ok_iff]
    exact ⟨f, hf, rfl⟩

private theorem usFold_iff (rd : NumReader) (junk : ℕ → ℚ) (eigTop : List (List ℚ) → ℚ) (pps : List PpDict)
    (acc : UsLists) : (∃ us, pps.foldlM (usStep rd junk eigTop) acc = .ok us) ↔
      ∀ pp ∈ pps, ∃ us, usStep rd junk eigTop ⟨[], [], []⟩ pp = .ok us := by
  induction pps generalizing acc with
  | nil => simp [List.foldlM_nil, pure, Except.pure]
  | cons pp pps ih =>
    rw [List.foldlM_cons]
    simp only [bind_ok_iff, List.forall_mem_cons]
    constructor
    · rintro ⟨us, acc', h1, h2⟩
      exact ⟨usStep_acc _ _ _ _ _ _ _ h1, (ih acc').1 ⟨us, h2⟩⟩
    · rintro ⟨⟨u, hu⟩, h⟩
      obtain ⟨acc', ha⟩ := usStep_acc _ _ _ _ acc _ _ hu
      obtain ⟨us, hus⟩ := (ih acc').2 h
      exact ⟨us, acc', ha, hus⟩

/-- One symbol and the data that the calculation gets for it. -/
private def LoadedAtom (L : NcLib) (cfg : NcConfig) (s : Str) (a : NcAtom) : Prop :=
  cfg.usePseudo = true ∧
  ((∃ t, cfg.ppType = some t ∧ t ∈ ["normcons", "normconserving", "nc"] ∧
    ∃ path root pp, findUpf L.listdir
        (some (cfg.ppDir.getD (L.pkgPath ++ "/pseudopotential/normconserving/")).toList) s = .ok path ∧
      L.parse path = .ok root ∧ parseUpf L.rd root = .ok pp ∧ NcAtom.Of L.rd pp a) ∨
  ∃ t, cfg.ppType = some t ∧ t ∉ ["normcons", "normconserving", "nc"] ∧ t ∈ ["ultrasoft", "us"] ∧
    ∃ path root pp, findUpf L.listdir
        (some (cfg.ppDir.getD (L.pkgPath ++ "/pseudopotential/ultrasoft/")).toList) s = .ok path ∧
      L.parse path = .ok root ∧ parseUpf L.rd root = .ok pp ∧ NcAtom.Of L.rd pp a ∧
      ∃ us, usStep L.rd L.junk L.eigTop ⟨[], [], []⟩ pp = .ok us)

private def TypeOk (cfg : NcConfig) : Prop :=
  cfg.usePseudo = true ∧ ∃ t, cfg.ppType = some t ∧ t ∈ ["normcons", "normconserving", "nc", "ultrasoft", "us"]

private theorem createPseudo_iff (L : NcLib) (cfg : NcConfig) (symbols : List Str) (P : NcLists) :
    createPseudo L cfg symbols = .ok P ↔ TypeOk cfg ∧
      ∃ as, List.Forall₂ (LoadedAtom L cfg) symbols as ∧ P = listsOf as := by
  unfold createPseudo
  by_cases hu : cfg.usePseudo = false
  · rw [if_pos hu]
    refine ⟨fun h => (by cases h), fun h => ?_⟩
    have := h.1.1
    rw [hu] at this
    cases this
  rw [if_neg hu]
  have hu' : cfg.usePseudo = true := by simpa using hu
  cases ht : cfg.ppType with
  | none =>
    refine ⟨fun h => (by cases h), fun h => ?_⟩
    obtain ⟨t, h1, -⟩ := h.1.2
    rw [ht] at h1
    cases h1
  | some t =>
    simp only
    by_cases h1 : t ∈ ["normcons", "normconserving", "nc"]
    · rw [if_pos h1, ncCreate_aligned]
      have hT : TypeOk cfg := ⟨hu', t, ht, by simp only [List.mem_cons, List.not_mem_nil] at h1 ⊢; tauto⟩
      have hI : ∀ s a, LoadedAtom L cfg s a ↔ ∃ path root pp, findUpf L.listdir
          (some (cfg.ppDir.getD (L.pkgPath ++ "/pseudopotential/normconserving/")).toList) s = .ok path ∧
          L.parse path = .ok root ∧ parseUpf L.rd root = .ok pp ∧ NcAtom.Of L.rd pp a := by
        intro s a
        constructor
        · rintro ⟨-, ⟨t', ht', h', h⟩ | ⟨t', ht', h', -⟩⟩
          · exact h
          · rw [ht] at ht'
            cases ht'
            exact absurd h1 h'
        · exact fun h => ⟨hu', .inl ⟨t, ht, h1, h⟩⟩
      have hI' := funext fun s => funext fun a => propext (hI s a)
      rw [hI']
      exact ⟨fun h => ⟨hT, h⟩, fun h => h.2⟩
    rw [if_neg h1]
    by_cases h2 : t ∈ ["ultrasoft", "us"]
    · rw [if_pos h2]
      have hT : TypeOk cfg := ⟨hu', t, ht, by simp only [List.mem_cons, List.not_mem_nil] at h2 ⊢; tauto⟩
      have hI : ∀ s a, LoadedAtom L cfg s a ↔ ∃ path root pp, findUpf L.listdir
          (some (cfg.ppDir.getD (L.pkgPath ++ "/pseudopotential/ultrasoft/")).toList) s = .ok path ∧
          L.parse path = .ok root ∧ parseUpf L.rd root = .ok pp ∧ NcAtom.Of L.rd pp a ∧
          ∃ us, usStep L.rd L.junk L.eigTop ⟨[], [], []⟩ pp = .ok us := by
        intro s a
        constructor
        · rintro ⟨-, ⟨t', ht', h', -⟩ | ⟨t', ht', -, -, h⟩⟩
          · rw [ht] at ht'
            cases ht'
            exact absurd h' h1
          · exact h
        · exact fun h => ⟨hu', .inr ⟨t, ht, h1, h2, h⟩⟩
      have hI' := funext fun s => funext fun a => propext (hI s a)
      rw [hI', map_ok_iff]
      unfold usCreate
      simp only [bind_ok_iff, ncCreate_aligned]
      constructor
      · rintro ⟨⟨P', us⟩, ⟨nc, ⟨as, h3, rfl⟩, pps, h4, us', h5, h6⟩, rfl⟩
        cases h6
        refine ⟨hT, as, ?_, rfl⟩
        have h7 := (usFold_iff _ _ _ _ _).1 ⟨_, h5⟩
        unfold loadAll at h4
        rw [mapM_ok_iff] at h4
        clear * - h3 h4 h7
        induction h3 generalizing pps with
        | nil => exact .nil
        | cons h8 h9 ih =>
          cases h4 with
          | @cons _ pp _ pps h10 h11 =>
            refine .cons ?_ (ih pps h11 fun pp hp => h7 pp (List.mem_cons_of_mem _ hp))
            obtain ⟨path, root, pp', e1, e2, e3, e4⟩ := h8
            have : pp' = pp := by
              rw [e1] at h10
              change (L.parse path >>= fun root => parseUpf L.rd root) = .ok pp at h10
              rw [e2] at h10
              change parseUpf L.rd root = .ok pp at h10
              rw [e3] at h10
              exact Except.ok.inj h10
            subst this
            exact ⟨path, root, pp', e1, e2, e3, e4, h7 pp' List.mem_cons_self⟩
      · rintro ⟨-, as, h, rfl⟩
        have : ∃ pps : List PpDict, List.Forall₂ (fun s pp => (do
              let path ← findUpf L.listdir
                (some (cfg.ppDir.getD (L.pkgPath ++ "/pseudopotential/ultrasoft/")).toList) s
              let root ← L.parse path
              parseUpf L.rd root) = .ok pp) symbols pps ∧
            ∀ pp ∈ pps, ∃ us, usStep L.rd L.junk L.eigTop ⟨[], [], []⟩ pp = .ok us := by
          clear * - h
          induction h with
          | nil => exact ⟨[], .nil, by simp⟩
          | cons h1 _ ih =>
            obtain ⟨pps, h2, h3⟩ := ih
            obtain ⟨path, root, pp, e1, e2, e3, e4, e5⟩ := h1
            refine ⟨pp :: pps, .cons ?_ h2, ?_⟩
            · simp only [bind_ok_iff]
              exact ⟨path, e1, root, e2, e3⟩
            · simp only [List.forall_mem_cons]
              exact ⟨e5, h3⟩
        obtain ⟨pps, h3, h4⟩ := this
        obtain ⟨us, hus⟩ := (usFold_iff _ _ _ _ ⟨[], [], []⟩).2 h4
        refine ⟨⟨listsOf as, us⟩, ⟨_, ⟨as, ?_, rfl⟩, pps, ?_, us, hus, rfl⟩, rfl⟩
        · refine h.imp fun s a h => ?_
          obtain ⟨path, root, pp, e1, e2, e3, e4, -⟩ := h
          exact ⟨path, root, pp, e1, e2, e3, e4⟩
        · unfold loadAll
          rw [mapM_ok_iff]
          exact h3
    · rw [if_neg h2]
      refine ⟨fun h => (by cases h), fun h => ?_⟩
      obtain ⟨t', h3, h4⟩ := h.1.2
      rw [ht] at h3
      cases h3
      simp only [List.mem_cons, List.not_mem_nil] at h1 h2 h4
      tauto

/-- A run that succeeds also succeeds, with the same report, on a crystal with the same mask, repulsion,
potentials and energies. -/
private theorem runCrystalNC_mono (L : NcLib) (cfg : NcConfig) {m : ℕ} (c c' : Crystal m) (P P' : NcLists)
    (hmask : ∀ n, createFreqMask cfg.toRunConfig c'.cell n = createFreqMask cfg.toRunConfig c.cell n)
    (hrep : ∀ n, runRepulsion L.erfc cfg.toRunConfig c' n = runRepulsion L.erfc cfg.toRunConfig c n)
    (hvol : c'.vol = c.vol) (hspin : c'.spin = c.spin) (hval : P'.valence.sum = P.valence.sum)
    (hloc : ∀ n, localReciprocal L.jn L.csLoc (ncLocalAtom P' c'.positions) (gVectors c'.cell n) c'.vol "sbt"
      = localReciprocal L.jn L.csLoc (ncLocalAtom P c.positions) (gVectors c.cell n) c.vol "sbt")
    (hbeta : ∀ n kn bs, runSizes cfg.toRunConfig = .ok (n, kn) →
      ncBetas L P (gVectors c.cell n) (flatRows (kVectors c.cell kn)) = .ok bs →
      ∃ bs', ncBetas L P' (gVectors c'.cell n) (flatRows (kVectors c'.cell kn)) = .ok bs' ∧
        ∀ (mask : Idx n → Bool) (vloc : Idx n → ℂ) {ns nb : ℕ}
          (p : GsParams ns (idxList kn).length (maskCount mask) nb),
          gsPartsNC (regeo (runEnvNC L cfg c P n kn mask) (gVectors c'.cell n) (flatRows (kVectors c'.cell kn))
              c'.positions (fun a => (c'.charges a : ℝ))) vloc
            (nlPsiAll L.eigh L.sph (fun a : Fin m => ncSpecies P' bs' a) c'.positions
              (gVectors c'.cell n) (flatRows (kVectors c'.cell kn))) p
          = gsPartsNC (runEnvNC L cfg c P n kn mask) vloc
            (nlPsiAll L.eigh L.sph (fun a : Fin m => ncSpecies P bs a) c.positions
              (gVectors c.cell n) (flatRows (kVectors c.cell kn))) p)
    (r : Σ n : Fin 3 → ℕ, GsReport (EnergyParts × ℝ) n) (h : runCrystalNC L cfg c P = .ok r) :
    runCrystalNC L cfg c' P' = .ok r := by
  rw [← h]
  refine runCrystalNC_congr L cfg c c' P P' hmask hrep hvol hspin hval hloc (fun n kn e hs hb => ?_) hbeta
  exfalso
  unfold runCrystalNC runGridNC at h
  rw [hs] at h
  simp only [hb] at h
  cases h1 : createFreqMask cfg.toRunConfig c.cell n with
  | error e => rw [h1] at h; cases h
  | ok mask =>
    rw [h1] at h
    cases h2 : runRepulsion L.erfc cfg.toRunConfig c n with
    | error e => rw [h2] at h; cases h
    | ok ew =>
      rw [h2] at h
      cases h3 : localReciprocal L.jn L.csLoc (ncLocalAtom P c.positions) (gVectors c.cell n) c.vol "sbt" with
      | error e => rw [h3] at h; cases h
      | ok vloc =>
        rw [h3] at h
        simp only at h
        split_ifs at h

private theorem listsOf_getD (as : List NcAtom) {β : Type} (f : NcAtom → β) (d : β) (i : ℕ) (hi : i < as.length) :
    (as.map f).getD i d = f as[i] := by
  rw [List.getD_eq_getElem _ _ (by simpa using hi), List.getElem_map]

/-- The pseudopotentials of the atoms in another order. -/
theorem createPseudo_reordered (L : NcLib) (cfg : NcConfig) {m : ℕ} (z : Fin m → ℤ) (e : Equiv.Perm (Fin m))
    (P : NcLists) (hP : createPseudo L cfg (List.ofFn fun i => L.symbol (z i)) = .ok P) :
    ∃ P', createPseudo L cfg (List.ofFn fun i => L.symbol (z (e i))) = .ok P' ∧
      P'.valence.sum = P.valence.sum ∧
      (∀ pos : Fin m → Fin 3 → ℝ, ncLocalAtom P' (fun i => pos (e i)) = fun i => ncLocalAtom P pos (e i)) ∧
      ∀ {nk : ℕ} {n : Fin 3 → ℕ} (g : Idx n → Fin 3 → ℝ) (kpts : Fin nk → Fin 3 → ℝ) bs,
        ncBetas L P g kpts = .ok bs → ∃ bs', ncBetas L P' g kpts = .ok bs' ∧
          (fun i : Fin m => ncSpecies P' bs' i) = fun i : Fin m => ncSpecies P bs (e i) := by
  obtain ⟨hT, as, has, rfl⟩ := (createPseudo_iff _ _ _ _).1 hP
  have hlen : as.length = m := by rw [← has.length_eq, List.length_ofFn]
  have hget : ∀ i : Fin m, LoadedAtom L cfg (L.symbol (z i)) (as[i.val]'(by rw [hlen]; exact i.2)) := by
    intro i
    have := (List.forall₂_iff_get.1 has).2 i (by simp) (by rw [hlen]; exact i.2)
    simpa using this
  set as' : List NcAtom := List.ofFn fun i : Fin m => as[(e i).val]'(by rw [hlen]; exact (e i).2) with has'
  have hlen' : as'.length = m := by rw [has', List.length_ofFn]
  have hget' : ∀ i : Fin m, as'[i.val]'(by rw [hlen']; exact i.2) = as[(e i).val]'(by rw [hlen]; exact (e i).2) := by
    intro i
    simp only [has', List.getElem_ofFn]
  have hP' : createPseudo L cfg (List.ofFn fun i => L.symbol (z (e i))) = .ok (listsOf as') := by
    refine (createPseudo_iff _ _ _ _).2 ⟨hT, as', ?_, rfl⟩
    refine List.forall₂_iff_get.2 ⟨by rw [hlen', List.length_ofFn], fun i hi hi' => ?_⟩
    have hi2 : i < m := by rw [← hlen']; exact hi'
    have := hget (e ⟨i, hi2⟩)
    rw [← hget'] at this
    simp only [List.get_eq_getElem, List.getElem_ofFn]
    exact this
  have hatom : ∀ {β : Type} (f : NcAtom → β) (d : β) (i : Fin m),
      (as'.map f).getD i d = (as.map f).getD (e i) d := by
    intro β f d i
    rw [listsOf_getD as' f d i (by rw [hlen']; exact i.2), listsOf_getD as f d _ (by rw [hlen]; exact (e i).2),
      hget']
  refine ⟨listsOf as', hP', ?_, fun pos => ?_, fun {nk n} g kpts bs hb => ?_⟩
  · have k1 : ∀ xs : List NcAtom, xs.length = m →
        (xs.map (·.valence)).sum = ∑ i : Fin m, (xs.map (·.valence)).getD i 0 := by
      intro xs hx
      subst hx
      rw [← Fin.sum_univ_getElem]
      have : (xs.map (·.valence)).length = xs.length := by simp
      refine Fintype.sum_equiv (finCongr this) _ _ fun i => ?_
      rw [List.getD_eq_getElem]
      rfl
    show (as'.map (·.valence)).sum = (as.map (·.valence)).sum
    rw [k1 as' hlen', k1 as hlen]
    simp only [hatom]
    exact Equiv.sum_comp e fun i : Fin m => (as.map (·.valence)).getD i 0
  · funext i
    unfold ncLocalAtom listsOf
    simp only [hatom]
  · unfold ncBetas at hb ⊢
    by_cases hcpu : L.cpus / 2 = 0
    · rw [if_pos hcpu] at hb
      cases hb
    rw [if_neg hcpu] at hb ⊢
    obtain ⟨hbl, hbs⟩ := (betaSbtGrid_spec _ _ _ _ _ m (by simpa [listsOf] using hlen)
      (by simpa [listsOf] using hlen) (by simpa [listsOf] using hlen) bs).1 hb
    set bs' := List.ofFn fun i : Fin m => bs[(e i).val]'(by rw [hbl]; exact (e i).2) with hbs'
    have hgb : ∀ i : Fin m, bs'.getD i ⟨0, fun _ i => i.elim0⟩ = bs.getD (e i) ⟨0, fun _ i => i.elim0⟩ := by
      intro i
      rw [List.getD_eq_getElem _ _ (by rw [hbs', List.length_ofFn]; exact i.2),
        List.getD_eq_getElem _ _ (by rw [hbl]; exact (e i).2)]
      simp only [hbs', List.getElem_ofFn]
    refine ⟨bs', ?_, ?_⟩
    · refine (betaSbtGrid_spec _ _ _ _ _ m (by simpa [listsOf] using hlen') (by simpa [listsOf] using hlen')
        (by simpa [listsOf] using hlen') bs').2 ⟨by rw [hbs', List.length_ofFn], fun i hi => ?_⟩
      obtain ⟨r, b, l, x, e1, e2, e3, e4, e5⟩ := hbs (e ⟨i, hi⟩) (e ⟨i, hi⟩).2
      have hg : ∀ {β : Type} (f : NcAtom → β), (as'.map f)[i]? = (as.map f)[(e ⟨i, hi⟩).val]? := by
        intro β f
        rw [List.getElem?_eq_getElem (by simpa [hlen'] using hi),
          List.getElem?_eq_getElem (by rw [List.length_map, hlen]; exact (e ⟨i, hi⟩).2),
          List.getElem_map, List.getElem_map]
        exact congrArg (fun a => some (f a)) (hget' ⟨i, hi⟩)
      refine ⟨r, b, l, x, (hg _).trans e1, (hg _).trans e2, (hg _).trans e3, ?_, e5⟩
      rw [← e4, List.getElem?_eq_getElem (by rw [hbs', List.length_ofFn]; exact hi),
        List.getElem?_eq_getElem (by rw [hbl]; exact (e ⟨i, hi⟩).2)]
      simp only [hbs', List.getElem_ofFn]
    · funext i
      unfold ncSpecies listsOf
      simp only [hatom]
      rw [hgb]

private theorem reordered_mono (L : NcLib) (cfg : NcConfig) {m : ℕ} (a : AseAtoms m) (e : Equiv.Perm (Fin m))
    (r : Σ n : Fin 3 → ℕ, GsReport (EnergyParts × ℝ) n) (h : runAtomsNC L cfg a = .ok r) :
    runAtomsNC L cfg (Spec.reordered e a) = .ok r := by
  have hs : ∑ i, a.numbers (e i) = ∑ i, a.numbers i := Equiv.sum_comp e a.numbers
  have hf : Crystal.fromAse (Spec.reordered e a) cfg.spin =
      ⟨fun i => (Crystal.fromAse a cfg.spin).charges (e i),
        Matrix.of fun i => (Crystal.fromAse a cfg.spin).positions (e i),
        (Crystal.fromAse a cfg.spin).cell, (Crystal.fromAse a cfg.spin).spin⟩ := by
    unfold Crystal.fromAse Spec.reordered
    simp only [hs]
    rfl
  unfold runAtomsNC createCrystal at h ⊢
  generalize hc : Crystal.fromAse a cfg.spin = c at hf h
  rw [hf]
  have hn : (⟨fun i => c.charges (e i), Matrix.of fun i => c.positions (e i), c.cell, c.spin⟩ :
      Crystal m).numElectron = c.numElectron := Equiv.sum_comp e c.charges
  simp only [hn] at h ⊢
  cases hck : checkSpinNumber c.numElectron c.spin with
  | error e => rw [hck] at h; cases h
  | ok u =>
    rw [hck] at h
    simp only at h ⊢
    cases hP : createPseudo L cfg (List.ofFn fun i => L.symbol (a.numbers i)) with
    | error e => rw [hP] at h; cases h
    | ok P =>
      rw [hP] at h
      simp only at h
      obtain ⟨P', hP', hval, hloc, hbeta⟩ := createPseudo_reordered L cfg a.numbers e P hP
      have hn' : (Spec.reordered e a).numbers = fun i => a.numbers (e i) := rfl
      rw [hn', hP']
      simp only
      refine runCrystalNC_mono L cfg c (⟨fun i => c.charges (e i), Matrix.of fun i => c.positions (e i), c.cell,
        c.spin⟩ : Crystal m) P P' (fun n => rfl) (fun n => ?_) rfl rfl hval
        (fun n => ?_) (fun n kn bs _ hb => ?_) r h
      · unfold runRepulsion
        have hw : ∀ {nt : ℕ} (T : Fin nt → Fin 3 → ℝ), driverRepulsion L.erfc
            (⟨fun i => c.charges (e i), Matrix.of fun i => c.positions (e i), c.cell, c.spin⟩ : Crystal m)
            (gVectors c.cell n) cfg.ewaldEta T = driverRepulsion L.erfc c (gVectors c.cell n) cfg.ewaldEta T :=
          fun T => ewald_permute L.erfc c.positions (fun a => (c.charges a : ℝ)) _ _ _ T e
        simp only [hw]
      · have := local_permute L.jn L.csLoc (ncLocalAtom P c.positions) (gVectors c.cell n) c.vol "sbt" e
        refine Eq.trans ?_ this
        congr 1
        exact hloc c.positions
      · obtain ⟨bs', hb', hsp⟩ := hbeta _ _ bs hb
        refine ⟨bs', hb', fun mask vloc ns nb p => ?_⟩
        refine gsPartsNC_regeo (runEnvNC L cfg c P n kn mask) _ _ _ _ vloc _ _ (fun rho => rfl)
          (fun d => rfl) (fun c o => rfl) (fun cf => ?_) p
        have key : ∀ sp', sp' = (fun i : Fin m => ncSpecies P bs (e i)) →
            hamiltonianNonlocal cf (nlPsiAll L.eigh L.sph sp' (fun i => c.positions (e i)) (gVectors c.cell n)
              (flatRows (kVectors c.cell kn))) (runEnvNC L cfg c P n kn mask).vol
            = hamiltonianNonlocal cf (nlPsiAll L.eigh L.sph (fun i : Fin m => ncSpecies P bs i)
              c.positions (gVectors c.cell n) (flatRows (kVectors c.cell kn)))
              (runEnvNC L cfg c P n kn mask).vol := by
          rintro _ rfl
          exact nonlocal_permute L.eigh L.sph (fun i : Fin m => ncSpecies P bs i) c.positions _ _ e cf _
        exact key _ hsp

/-- C85: the order in which the geometry file lists the atoms does not matter: the calculation succeeds in
both orders or in none, and the reports agree. -/
theorem ncRun_reordered (L : NcLib) (cfg : NcConfig) {m : ℕ} (a : AseAtoms m) (e : Equiv.Perm (Fin m))
    (r : Σ n : Fin 3 → ℕ, GsReport (EnergyParts × ℝ) n) :
    runAtomsNC L cfg (Spec.reordered e a) = .ok r ↔ runAtomsNC L cfg a = .ok r := by
  refine ⟨fun h => ?_, reordered_mono L cfg a e r⟩
  have := reordered_mono L cfg _ e.symm r h
  have h2 : Spec.reordered e.symm (Spec.reordered e a) = a := by
    unfold Spec.reordered
    simp only [Equiv.apply_symm_apply]
    congr 1
    ext i d
    simp
  rwa [h2] at this

/-! ### Admissible calculations -/

private theorem onPositive_length {α : Type} (r : List ℚ) (x : List α) (h : x.length = r.length) :
    (Spec.onPositive r x).length = (r.filter fun q => decide (0 < q)).length := by
  induction r generalizing x with
  | nil => rfl
  | cons q r ih =>
    cases x with
    | nil => simp at h
    | cons y x =>
      have := ih x (by simpa using h)
      unfold Spec.onPositive at this ⊢
      by_cases hq : 0 < q
      · simp [hq, this]
      · simp [hq, this]

private theorem parseUpf_beta (rd : NumReader) (root : Xml) (pp : PpDict) (h : parseUpf rd root = .ok pp) :
    pp.nl.beta ≠ some [] := by
  unfold parseUpf at h
  simp only [bind_ok_iff] at h
  obtain ⟨_, _, _, _, mesh, _, _, _, _, _, nl, hnl, _, _, h⟩ := h
  cases h
  simp only
  cases hf : root.find "PP_NONLOCAL" with
  | none => rw [hf] at hnl; cases hnl
  | some c =>
    rw [hf] at hnl
    simp only at hnl
    obtain ⟨h1, h2⟩ := parseNonlocal_beta rd c nl hnl
    intro hb
    have h3 := h2 [] hb
    rw [List.forall₂_nil_right_iff] at h3
    have h4 : nl.beta = none := h1.2 fun x hx hp => by
      have := List.filter_eq_nil_iff.1 h3 x hx
      exact this (decide_eq_true hp)
    rw [h4] at hb
    cases hb

/-- The projectors of an atom with a mesh can be transformed. -/
private theorem betaOfLists_ok (L : NcLib) (cfg : NcConfig) (s : Str) (x : NcAtom) (hx : LoadedAtom L cfg s x)
    (hr : x.rGrid ≠ []) {nk : ℕ} {n : Fin 3 → ℕ} (gk : (Idx n → Fin 3 → ℝ) × (Fin nk → Fin 3 → ℝ)) :
    ∃ y, betaOfLists L x.rGrid x.betaGrid x.angular gk = .ok y := by
  obtain ⟨root, pp, hpp, hof⟩ : ∃ root pp, parseUpf L.rd root = .ok pp ∧ NcAtom.Of L.rd pp x := by
    obtain ⟨-, ⟨-, -, -, -, root, pp, -, -, h1, h2⟩ | ⟨-, -, -, -, -, root, pp, -, -, h1, h2, -⟩⟩ := hx
    · exact ⟨root, pp, h1, h2⟩
    · exact ⟨root, pp, h1, h2⟩
  have h1 : x.angular.length = x.betaGrid.length ∧ x.rGrid.length = (x.betaGrid.getD 0 []).length := by
    cases hb : pp.nl.beta with
    | none =>
      obtain ⟨-, h1, h2, -⟩ := hof.noProjector hb
      rw [h1, h2]
      simp
    | some bs =>
      obtain ⟨-, h1, h2, h3, -⟩ := hof.projectors bs hb
      refine ⟨by rw [h2, List.length_map, h3.length_eq], ?_⟩
      cases bs with
      | nil => exact absurd hb (parseUpf_beta _ _ _ hpp)
      | cons b bs =>
        rw [h2, List.map_cons, List.getD_cons_zero, onPositive_length, hof.rGrid]
        have := h1 b List.mem_cons_self
        simp [this]
  unfold betaOfLists betaSbtSingle
  rw [if_neg (not_not.2 h1.1), if_neg (not_not.2 h1.2), if_neg (by rwa [List.length_eq_zero_iff])]
  exact ⟨_, rfl⟩

/-- The loaded lists have one entry per atom. -/
theorem createPseudo_lengths (L : NcLib) (cfg : NcConfig) (symbols : List Str) (P : NcLists)
    (hP : createPseudo L cfg symbols = .ok P) : P.rGrid.length = symbols.length ∧
      P.betaGrid.length = symbols.length ∧ P.angular.length = symbols.length := by
  obtain ⟨-, as, has, rfl⟩ := (createPseudo_iff _ _ _ _).1 hP
  simp [listsOf, has.length_eq]

/-- The loaded lists hold, atom by atom, the data of the file of that atom's element, from the requested
directory or from the one of the package for the requested type. -/
theorem createPseudo_files (L : NcLib) (cfg : NcConfig) (symbols : List Str) (P : NcLists)
    (hP : createPseudo L cfg symbols = .ok P) : ∃ as : List NcAtom, as.length = symbols.length ∧
      (∀ (i : ℕ) (s : Str) (x : NcAtom), symbols[i]? = some s → as[i]? = some x →
        ∃ kind path root pp, cfg.usePseudo = true ∧
          ((kind = "normconserving" ∧ ∃ t, cfg.ppType = some t ∧ t ∈ ["normcons", "normconserving", "nc"]) ∨
            (kind = "ultrasoft" ∧ ∃ t, cfg.ppType = some t ∧ t ∈ ["ultrasoft", "us"])) ∧
          findUpf L.listdir (some (cfg.ppDir.getD (L.pkgPath ++ ("/pseudopotential/" ++ kind ++ "/"))).toList) s
            = .ok path ∧
          L.parse path = .ok root ∧ parseUpf L.rd root = .ok pp ∧ NcAtom.Of L.rd pp x) ∧
      P.valence = as.map (·.valence) ∧ P.rGrid = as.map (·.rGrid) ∧ P.localGrid = as.map (·.localGrid) ∧
      P.localCharge = as.map (·.valence) ∧ P.betaGrid = as.map (·.betaGrid) ∧
      P.angular = as.map (·.angular) ∧ P.dMatrix = as.map (·.dMatrix) := by
  obtain ⟨-, as, has, rfl⟩ := (createPseudo_iff _ _ _ _).1 hP
  refine ⟨as, has.length_eq.symm, fun i s x hs hx => ?_, rfl, rfl, rfl, rfl, rfl, rfl, rfl⟩
  obtain ⟨h1, rfl⟩ := List.getElem?_eq_some_iff.1 hs
  obtain ⟨h2, rfl⟩ := List.getElem?_eq_some_iff.1 hx
  have h := (List.forall₂_iff_get.1 has).2 i h1 h2
  simp only [List.get_eq_getElem] at h
  obtain ⟨hu, ⟨t, h1, h2, path, root, pp, h3, h4, h5, h6⟩ | ⟨t, h1, -, h2, path, root, pp, h3, h4, h5, h6, -⟩⟩ := h
  · exact ⟨"normconserving", path, root, pp, hu, .inl ⟨rfl, t, h1, h2⟩, h3, h4, h5, h6⟩
  · exact ⟨"ultrasoft", path, root, pp, hu, .inr ⟨rfl, t, h1, h2⟩, h3, h4, h5, h6⟩

/-- The projectors of loaded pseudopotentials can be transformed for all k points. -/
theorem ncBetas_ok (L : NcLib) (cfg : NcConfig) (symbols : List Str) (P : NcLists)
    (hP : createPseudo L cfg symbols = .ok P) (hr : ∀ r ∈ P.rGrid, r ≠ []) (hcpu : 2 ≤ L.cpus) {nk : ℕ}
    {n : Fin 3 → ℕ} (g : Idx n → Fin 3 → ℝ) (kpts : Fin nk → Fin 3 → ℝ) : ∃ bs, ncBetas L P g kpts = .ok bs := by
  obtain ⟨-, as, has, rfl⟩ := (createPseudo_iff _ _ _ _).1 hP
  unfold ncBetas
  rw [if_neg (by omega)]
  simp only [listsOf] at hr ⊢
  clear hP
  induction has with
  | nil => exact ⟨[], rfl⟩
  | @cons s x ss xs hx _ ih =>
    simp only [List.map_cons, List.forall_mem_cons] at hr
    obtain ⟨bs, hbs⟩ := ih hr.2
    obtain ⟨y, hy⟩ := betaOfLists_ok L cfg s x hx hr.1 (g, kpts)
    simp only [List.map_cons, betaSbtGrid, hy, hbs]
    exact ⟨_, rfl⟩

private theorem gsInitNC_ok {na nk ns empty : ℕ} {n : Fin 3 → ℕ} (E : GsEnv na nk n)
    (draw : ∀ n m : ℕ, Matrix (Fin n) (Fin m) ℝ)
    (pw0 : PwParams ns nk (maskCount E.mask) (driverBands E.ne.toNat empty))
    (q : OccParams nk (driverBands E.ne.toNat empty))
    (h : occParamInit draw (driverBands E.ne.toNat empty) E.ne nk E.spin E.method true = .ok q) :
    gsInitNC E draw pw0 = .ok ⟨pw0, q⟩ := by
  unfold gsInitNC
  rw [h]
  rfl

/-- What an admissible run has built when its loop starts. -/
theorem ncRun_setup (L : NcLib) (cfg : NcConfig) {m : ℕ} (a : AseAtoms m) (size ksize : Fin 3 → ℤ)
    (P : NcLists) (ne spin : ℤ) (H : Spec.AdmissibleRunNC L cfg a size ksize P ne spin)
    (c : Crystal m) (hc : c = Crystal.fromAse a cfg.spin) :
    ∃ n kn mask vloc bs, ∃ opt : Optimizer,
      Spec.LeastGrid size n ∧ Spec.LeastGrid ksize kn ∧
      createFreqMask cfg.toRunConfig c.cell n = .ok mask ∧
      localReciprocal L.jn L.csLoc (ncLocalAtom P c.positions) (gVectors c.cell n) c.vol "sbt" = .ok vloc ∧
      ncBetas L P (gVectors c.cell n) (flatRows (kVectors c.cell kn)) = .ok bs ∧
      L.optimizer = .ok opt ∧ c.cell.det ≠ 0 ∧ c.spin = spin ∧
      driverBands ne.toNat cfg.emptyBands ≤ maskCount mask ∧
      (∀ {ns nk g nb : ℕ} (f : GsParams ns nk g nb → Except PyErr ℝ)
        (p : GsParams ns nk g nb × opt.State), Spec.KeepsShape p.1.occ (opt.step f p).1.occ) ∧
      ∀ rep, runLoopNC L.toRunLib cfg.toRunConfig (if cfg.parallelK then L.devices else 1)
          (runEnvNC L cfg c P n kn mask) vloc
          (nlPsiAll L.eigh L.sph (fun a : Fin m => ncSpecies P bs a) c.positions
            (gVectors c.cell n) (flatRows (kVectors c.cell kn)))
          (driverRepulsion L.erfc c (gVectors c.cell n) cfg.ewaldEta
            (flatRows (translationVectors c.cell cfg.ewaldCutoff))) = .ok rep →
        runAtomsNC L cfg a = .ok ⟨n, rep⟩ := by
  obtain ⟨n, kn, hs, hn, hkn⟩ := run_sizes cfg.toRunConfig size ksize H.sizes H.ksizes
  obtain ⟨opt, hopt, hstep⟩ := H.optimizer
  have hcell : c.cell = (angstrom2bohr : ℝ) • a.cell := by rw [hc]; rfl
  have hcne : c.numElectron = ∑ i, a.numbers i := by rw [hc]; rfl
  have hcs : c.spin = spin := by
    rw [H.unpaired, hc]
    unfold Crystal.fromAse
    cases cfg.spin <;> rfl
  have hdet : c.cell.det ≠ 0 := by rw [hc]; exact fromAse_det a cfg.spin H.cell
  have hcreate : createCrystal a cfg.spin = .ok c := by
    have h1 : checkSpinNumber c.numElectron c.spin = .ok () := by
      rw [hcne, hcs]
      exact if_neg (by simp [H.parity])
    unfold createCrystal
    simp only [← hc, h1]
  obtain ⟨mask, hmk⟩ : ∃ mask, createFreqMask cfg.toRunConfig c.cell n = .ok mask := by
    unfold createFreqMask
    rcases H.method with h | h
    · exact ⟨_, if_pos h⟩
    · rw [h]; exact ⟨_, rfl⟩
  have hcount := H.waves n hn mask (hcell ▸ hmk)
  rw [← RunSetup.maskCount_card] at hcount
  have htr := RunSetup.translationCount_pos c.cell hdet cfg.ewaldCutoff H.ewald
  have hrep : runRepulsion L.erfc cfg.toRunConfig c n = .ok (driverRepulsion L.erfc c (gVectors c.cell n)
      cfg.ewaldEta (flatRows (translationVectors c.cell cfg.ewaldCutoff))) := by
    unfold runRepulsion
    rw [if_neg (by omega), if_neg (by omega)]
  have hdv : (idxList kn).length % (if cfg.parallelK then L.devices else 1) = 0 := by
    rw [RunSetup.idxList_length]
    exact Nat.mod_eq_zero_of_dvd (H.devices kn hkn)
  obtain ⟨vloc, hv⟩ := (local_errors L.jn L.csLoc (ncLocalAtom P c.positions) (gVectors c.cell n) c.vol
    "sbt").1 ⟨.inl rfl, H.atoms⟩
  obtain ⟨bs, hbs⟩ := ncBetas_ok L cfg _ P H.loaded H.mesh H.processors (gVectors c.cell n)
    (flatRows (kVectors c.cell kn))
  refine ⟨n, kn, mask, vloc, bs, opt, hn, hkn, hmk, hv, hbs, hopt, hdet, hcs, hcount, hstep,
    fun rep hrun => ?_⟩
  unfold runAtomsNC
  rw [hcreate]
  simp only [H.loaded]
  unfold runCrystalNC runGridNC
  simp only [hs, hmk, hrep, hv, hdv, hbs, ne_eq, not_true_eq_false, if_false]
  rw [hrun]

/-- What an admissible norm-conserving run has built when its loop starts. -/
theorem ncRun_start (L : NcLib) (cfg : NcConfig) {m : ℕ} (a : AseAtoms m) (size ksize : Fin 3 → ℤ)
    (P : NcLists) (ne spin : ℤ) (H : Spec.AdmissibleRunNC L cfg a size ksize P ne spin) :
    ∃ n kn mask vloc bs, ∃ opt : Optimizer, ∃ q : OccParams (idxList kn).length
        (driverBands (runEnvNC L cfg (Crystal.fromAse a cfg.spin) P n kn mask).ne.toNat cfg.emptyBands),
      Spec.LeastGrid size n ∧ Spec.LeastGrid ksize kn ∧
      createFreqMask cfg.toRunConfig (Crystal.fromAse a cfg.spin).cell n = .ok mask ∧
      localReciprocal L.jn L.csLoc (ncLocalAtom P (Crystal.fromAse a cfg.spin).positions)
        (gVectors (Crystal.fromAse a cfg.spin).cell n) (Crystal.fromAse a cfg.spin).vol "sbt" = .ok vloc ∧
      ncBetas L P (gVectors (Crystal.fromAse a cfg.spin).cell n)
        (flatRows (kVectors (Crystal.fromAse a cfg.spin).cell kn)) = .ok bs ∧
      L.optimizer = .ok opt ∧ (Crystal.fromAse a cfg.spin).cell.det ≠ 0 ∧
      P.valence.sum = ne ∧ (Crystal.fromAse a cfg.spin).spin = spin ∧
      driverBands (runEnvNC L cfg (Crystal.fromAse a cfg.spin) P n kn mask).ne.toNat cfg.emptyBands
        ≤ maskCount mask ∧
      Spec.Placeable cfg.occupation P.valence.sum (Crystal.fromAse a cfg.spin).spin cfg.emptyBands ∧
      (cfg.restricted = true ∨ (cfg.occupation ≠ "uniform" ∧ cfg.occupation ≠ "gamma")) ∧
      (∀ {ns nk g nb : ℕ} (f : GsParams ns nk g nb → Except PyErr ℝ)
        (p : GsParams ns nk g nb × opt.State), Spec.KeepsShape p.1.occ (opt.step f p).1.occ) ∧
      ∃ pw0 : PwParams (if cfg.restricted then 1 else 2) (idxList kn).length
          (maskCount (runEnvNC L cfg (Crystal.fromAse a cfg.spin) P n kn mask).mask)
          (driverBands (runEnvNC L cfg (Crystal.fromAse a cfg.spin) P n kn mask).ne.toNat cfg.emptyBands),
        gsInitNC (empty := cfg.emptyBands) (runEnvNC L cfg (Crystal.fromAse a cfg.spin) P n kn mask) L.occDraw pw0
          = .ok ⟨pw0, q⟩ ∧
        ∀ rep, gsCalcNC (runEnvNC L cfg (Crystal.fromAse a cfg.spin) P n kn mask) vloc
            (nlPsiAll L.eigh L.sph (fun a : Fin m => ncSpecies P bs a) (Crystal.fromAse a cfg.spin).positions
              (gVectors (Crystal.fromAse a cfg.spin).cell n)
              (flatRows (kVectors (Crystal.fromAse a cfg.spin).cell kn)))
            (driverRepulsion L.erfc (Crystal.fromAse a cfg.spin) (gVectors (Crystal.fromAse a cfg.spin).cell n)
              cfg.ewaldEta (flatRows (translationVectors (Crystal.fromAse a cfg.spin).cell cfg.ewaldCutoff)))
            (runUpdateNC opt (runEnvNC L cfg (Crystal.fromAse a cfg.spin) P n kn mask) vloc
              (nlPsiAll L.eigh L.sph (fun a : Fin m => ncSpecies P bs a) (Crystal.fromAse a cfg.spin).positions
                (gVectors (Crystal.fromAse a cfg.spin).cell n)
                (flatRows (kVectors (Crystal.fromAse a cfg.spin).cell kn))))
            cfg.epoch cfg.smearing cfg.window cfg.threshold (⟨pw0, q⟩, opt.init ⟨pw0, q⟩) = .ok rep →
          runAtomsNC L cfg a = .ok ⟨n, rep⟩ := by
  obtain ⟨n, kn, mask, vloc, bs, opt, hn, hkn, hmk, hv, hbs, hopt, hdet, hcs, hcount, hstep, hrun⟩ :=
    ncRun_setup L cfg a size ksize P ne spin H _ rfl
  have hne := H.electrons
  subst hne
  have hpl : Spec.Placeable cfg.occupation P.valence.sum (Crystal.fromAse a cfg.spin).spin cfg.emptyBands := by
    rw [hcs]; exact H.placeable
  obtain ⟨q, hq⟩ := RunSetup.occParamInit_ok (nk := (idxList kn).length) L.occDraw P.valence.sum
    (Crystal.fromAse a cfg.spin).spin cfg.occupation true hpl
  have hinit := gsInitNC_ok (empty := cfg.emptyBands)
    (runEnvNC L cfg (Crystal.fromAse a cfg.spin) P n kn mask) L.occDraw
    (L.pwDraw (if cfg.restricted then 1 else 2) (idxList kn).length (maskCount mask)
      (driverBands P.valence.sum.toNat cfg.emptyBands)) q hq
  have hplace : occPlaceable (if cfg.parallelK then L.devices else 1) q = true := by
    rcases H.occupation with ⟨-, h | h⟩ | ⟨h, hd⟩
    · rw [h] at hq
      simp only [occParamInit] at hq
      cases hq
      show decide _ = true
      rw [RunSetup.idxList_length]
      exact decide_eq_true (Nat.mod_eq_zero_of_dvd (H.devices kn hkn))
    · rw [h] at hq
      simp only [occParamInit] at hq
      cases hq
      show decide _ = true
      rw [RunSetup.idxList_length]
      exact decide_eq_true (Nat.mod_eq_zero_of_dvd (H.devices kn hkn))
    · rw [h] at hq
      simp only [occParamInit] at hq
      cases hq
      exact decide_eq_true (Nat.mod_eq_zero_of_dvd hd)
  have hr : cfg.restricted = true ∨ (cfg.occupation ≠ "uniform" ∧ cfg.occupation ≠ "gamma") := by
    rcases H.occupation with ⟨h, -⟩ | ⟨h, -⟩
    · exact .inl h
    · exact .inr (by rw [h]; decide)
  refine ⟨n, kn, mask, vloc, bs, opt, q, hn, hkn, hmk, hv, hbs, hopt, hdet, rfl, hcs, hcount, hpl, hr, hstep, _, hinit,
    fun rep h1 => hrun rep ?_⟩
  unfold runLoopNC
  simp only [hopt]
  have hinit' : gsInitNC (empty := cfg.emptyBands) (runEnvNC L cfg (Crystal.fromAse a cfg.spin) P n kn mask)
      L.occDraw (L.pwDraw (if cfg.restricted then 1 else 2) (idxList kn).length
        (maskCount (runEnvNC L cfg (Crystal.fromAse a cfg.spin) P n kn mask).mask)
        (driverBands (runEnvNC L cfg (Crystal.fromAse a cfg.spin) P n kn mask).ne.toNat cfg.emptyBands))
      = .ok ⟨_, q⟩ := hinit
  rw [hinit']
  simp only
  exact (if_neg fun h => Bool.noConfusion (hplace.symm.trans h)).trans
    ((firstUpdate_keep H.noFault _ _ _).trans h1)

/-- C86: every admissible norm-conserving calculation succeeds.  Its density is physical: non-negative, with
one channel per spin, holding all valence electrons and the requested polarisation.  The repulsion is the
Ewald sum of the full nuclear charges.  The total without the repulsion is the sum of the five energies of
one physical state of the valence electrons; the reported components and density are those of another. -/
theorem ncRun_complete_partial (L : NcLib) (cfg : NcConfig) {m : ℕ} (a : AseAtoms m) (size ksize : Fin 3 → ℤ)
    (P : NcLists) (ne spin : ℤ) (H : Spec.AdmissibleRunNC L cfg a size ksize P ne spin)
    (A : Matrix (Fin 3) (Fin 3) ℝ) (hA : A = (angstrom2bohr : ℝ) • a.cell)
    (pos : Fin m → Fin 3 → ℝ) (hpos : ∀ i d, pos i d = angstrom2bohr * a.positions i d)
    (z : Fin m → ℝ) (hz : ∀ i, z i = a.numbers i) :
    ∃ n kn rep, ∃ mask : Idx n → Bool, ∃ vloc bs, runAtomsNC L cfg a = .ok ⟨n, rep⟩ ∧
      Spec.LeastGrid size n ∧ Spec.LeastGrid ksize kn ∧ createFreqMask cfg.toRunConfig A n = .ok mask ∧
      localReciprocal L.jn L.csLoc (ncLocalAtom P pos) (gVectors A n) |A.det| "sbt" = .ok vloc ∧
      ncBetas L P (gVectors A n) (flatRows (kVectors A kn)) = .ok bs ∧
      rep.density.1 = (if cfg.restricted then 1 else 2) ∧
      (∀ s j, 0 ≤ rep.density.2 s j) ∧
      ∑ s, Spec.cellIntegral |A.det| (rep.density.2 s) = ne ∧
      (∀ s s' : Fin rep.density.1, (s : ℕ) = 0 → (s' : ℕ) = 1 →
        Spec.cellIntegral |A.det| (rep.density.2 s) - Spec.cellIntegral |A.det| (rep.density.2 s') = spin) ∧
      rep.repulsion = ewald L.erfc pos z (gVectors A n) |A.det| cfg.ewaldEta
        (flatRows (translationVectors A cfg.ewaldCutoff)) ∧
      ∃ ns nb, ∃ c c' : Coef ns (idxList kn).length nb n, ∃ occ occ',
        Spec.PhysicalState mask ne spin cfg.restricted (Spec.kShare cfg.occupation (idxList kn).length) c occ ∧
        Spec.PhysicalState mask ne spin cfg.restricted (Spec.kShare cfg.occupation (idxList kn).length) c' occ' ∧
        (∃ har loc nloc exc,
          hartreeEnergy (densityGridReciprocal c |A.det| occ) (gVectors A n) |A.det| false = .ok har ∧
          energyLocal (densityGridReciprocal c |A.det| occ) vloc |A.det| = .ok loc ∧
          energyNonlocal c (nlPsiAll L.eigh L.sph (fun a : Fin m => ncSpecies P bs a) pos (gVectors A n)
            (flatRows (kVectors A kn))) |A.det| (some occ) = .ok nloc ∧
          xcEnergy L.xc cfg.xc false (densityGrid c |A.det| occ) (gVectors A n) |A.det| = .ok exc ∧
          rep.total - rep.repulsion
            = kineticEnergyOcc (gVectors A n) (flatRows (kVectors A kn)) c occ + har + loc + nloc + exc) ∧
        rep.parts.1.kin = kineticEnergyOcc (gVectors A n) (flatRows (kVectors A kn)) c' occ' ∧
        hartreeEnergy (densityGridReciprocal c' |A.det| occ') (gVectors A n) |A.det| false
          = .ok rep.parts.1.har ∧
        energyLocal (densityGridReciprocal c' |A.det| occ') vloc |A.det| = .ok rep.parts.1.ext ∧
        energyNonlocal c' (nlPsiAll L.eigh L.sph (fun a : Fin m => ncSpecies P bs a) pos (gVectors A n)
          (flatRows (kVectors A kn))) |A.det| (some occ') = .ok rep.parts.2 ∧
        xcEnergy L.xc cfg.xc false (densityGrid c' |A.det| occ') (gVectors A n) |A.det| = .ok rep.parts.1.xc ∧
        rep.density = ⟨ns, densityGrid c' |A.det| occ'⟩ := by
  obtain ⟨n, kn, mask, vloc, bs, opt, q, hn, hkn, hmk, hv, hbs, hopt, hdet, hne, hcs, hcount, hpl, hr, hstep, pw0,
    hinit, hrun⟩ := ncRun_start L cfg a size ksize P ne spin H
  subst hne
  set psi := nlPsiAll L.eigh L.sph (fun i : Fin m => ncSpecies P bs i) (Crystal.fromAse a cfg.spin).positions
    (gVectors (Crystal.fromAse a cfg.spin).cell n) (flatRows (kVectors (Crystal.fromAse a cfg.spin).cell kn)) with hpsi
  obtain ⟨rep, h1, h2, h3, h4, h5⟩ := driverNC_density_partial (empty := cfg.emptyBands)
    (fun i => RunSetup.smooth_pos (hn i).1) (RunSetup.idxList_length_pos fun i => RunSetup.smooth_pos (hkn i).1)
    (runEnvNC L cfg (Crystal.fromAse a cfg.spin) P n kn mask) vloc psi (vol_pos _ hdet)
    L.occDraw rfl hcount hpl hr pw0 ⟨pw0, q⟩ (opt.init ⟨pw0, q⟩) hinit
    (driverRepulsion L.erfc (Crystal.fromAse a cfg.spin) (gVectors (Crystal.fromAse a cfg.spin).cell n) cfg.ewaldEta
      (flatRows (translationVectors (Crystal.fromAse a cfg.spin).cell cfg.ewaldCutoff)))
    (runUpdateNC opt (runEnvNC L cfg (Crystal.fromAse a cfg.spin) P n kn mask) vloc psi)
    (fun p t => hstep _ p) cfg.epoch H.epochs cfg.smearing cfg.window cfg.threshold
  obtain ⟨rep', c, c', occ, occ', k1, k2, k3, k4, k5, k6, k7, k8, k9, k10, k11⟩ :=
    driverNC_attained_partial (empty := cfg.emptyBands)
    (fun i => RunSetup.smooth_pos (hn i).1) (RunSetup.idxList_length_pos fun i => RunSetup.smooth_pos (hkn i).1)
    (runEnvNC L cfg (Crystal.fromAse a cfg.spin) P n kn mask) vloc psi (vol_pos _ hdet)
    L.occDraw rfl hcount hpl hr pw0 ⟨pw0, q⟩ (opt.init ⟨pw0, q⟩) hinit
    (driverRepulsion L.erfc (Crystal.fromAse a cfg.spin) (gVectors (Crystal.fromAse a cfg.spin).cell n) cfg.ewaldEta
      (flatRows (translationVectors (Crystal.fromAse a cfg.spin).cell cfg.ewaldCutoff)))
    (runUpdateNC opt (runEnvNC L cfg (Crystal.fromAse a cfg.spin) P n kn mask) vloc psi)
    (fun p t => hstep _ p) cfg.epoch H.epochs cfg.smearing cfg.window cfg.threshold
  obtain rfl : rep' = rep := Except.ok.inj (k1.symm.trans h1)
  subst hA
  obtain rfl : pos = fun i d => (angstrom2bohr : ℝ) * a.positions i d := funext fun i => funext fun d => hpos i d
  obtain rfl : z = fun i => (a.numbers i : ℝ) := funext hz
  subst hcs
  refine ⟨n, kn, rep', mask, vloc, bs, hrun rep' h1, hn, hkn, hmk, hv, hbs, h2, h3, h4, h5, k2, _, _, c, c', occ,
    occ', k3, k4, k5, k6, k7, k8, k9, k10, k11⟩

/-! ### Refused calculations -/

private theorem ncRun_inv (L : NcLib) (cfg : NcConfig) {m : ℕ} (a : AseAtoms m)
    (r : Σ n : Fin 3 → ℕ, GsReport (EnergyParts × ℝ) n) (h : runAtomsNC L cfg a = .ok r) :
    ∃ c P n kn mask vloc bs, ∃ ew : ℝ, ∃ rep, createCrystal a cfg.spin = .ok c ∧
      createPseudo L cfg (List.ofFn fun i => L.symbol (a.numbers i)) = .ok P ∧
      createFreqMask cfg.toRunConfig c.cell n = .ok mask ∧
      localReciprocal L.jn L.csLoc (ncLocalAtom P c.positions) (gVectors c.cell n) c.vol "sbt" = .ok vloc ∧
      ncBetas L P (gVectors c.cell n) (flatRows (kVectors c.cell kn)) = .ok bs ∧
      runLoopNC L.toRunLib cfg.toRunConfig (if cfg.parallelK then L.devices else 1)
        (runEnvNC L cfg c P n kn mask) vloc (nlPsiAll L.eigh L.sph (fun a : Fin m => ncSpecies P bs a)
          c.positions (gVectors c.cell n) (flatRows (kVectors c.cell kn))) ew = .ok rep := by
  unfold runAtomsNC at h
  cases h1 : createCrystal a cfg.spin with
  | error e => rw [h1] at h; cases h
  | ok c =>
    rw [h1] at h
    simp only at h
    cases h2 : createPseudo L cfg (List.ofFn fun i => L.symbol (a.numbers i)) with
    | error e => rw [h2] at h; cases h
    | ok P =>
      rw [h2] at h
      simp only at h
      unfold runCrystalNC runGridNC at h
      cases h3 : runSizes cfg.toRunConfig with
      | error e => rw [h3] at h; cases h
      | ok q =>
        obtain ⟨n, kn⟩ := q
        rw [h3] at h
        simp only at h
        cases h4 : createFreqMask cfg.toRunConfig c.cell n with
        | error e => rw [h4] at h; cases h
        | ok mask =>
          rw [h4] at h
          simp only at h
          cases h5 : runRepulsion L.erfc cfg.toRunConfig c n with
          | error e => rw [h5] at h; cases h
          | ok ew =>
            rw [h5] at h
            simp only at h
            cases h6 : localReciprocal L.jn L.csLoc (ncLocalAtom P c.positions) (gVectors c.cell n) c.vol
                "sbt" with
            | error e => rw [h6] at h; cases h
            | ok vloc =>
              rw [h6] at h
              simp only at h
              by_cases hd : (idxList kn).length % (if cfg.parallelK then L.devices else 1) ≠ 0
              · rw [if_pos hd] at h; cases h
              rw [if_neg hd] at h
              cases h7 : ncBetas L P (gVectors c.cell n) (flatRows (kVectors c.cell kn)) with
              | error e => rw [h7] at h; cases h
              | ok bs =>
                rw [h7] at h
                simp only at h
                cases h8 : runLoopNC L.toRunLib cfg.toRunConfig (if cfg.parallelK then L.devices else 1)
                    (runEnvNC L cfg c P n kn mask) vloc (nlPsiAll L.eigh L.sph
                      (fun a : Fin m => ncSpecies P bs a) c.positions (gVectors c.cell n)
                      (flatRows (kVectors c.cell kn))) ew with
                | error e => rw [h8] at h; cases h
                | ok rep => exact ⟨c, P, n, kn, mask, vloc, bs, ew, rep, rfl, rfl, h4, h6, h7, h8⟩

/-- C86: a norm-conserving calculation is refused when pseudopotentials are switched off, when their type is
missing or unknown, when there are no atoms, when the machine has one processor, when the occupation method
is the idempotent one, when the electrons and the spin differ in parity, when the mask is unknown or when the
optimiser cannot be made. -/
theorem ncRun_refused (L : NcLib) (cfg : NcConfig) {m : ℕ} (a : AseAtoms m)
    (h : cfg.usePseudo = false ∨ cfg.ppType = none ∨
      (∃ t, cfg.ppType = some t ∧ t ∉ ["normcons", "normconserving", "nc", "ultrasoft", "us"]) ∨
      m = 0 ∨ L.cpus < 2 ∨ cfg.occupation = "idempotent" ∨
      (∃ s, cfg.spin = some s ∧ s % 2 ≠ (∑ i, a.numbers i) % 2) ∨
      (cfg.maskMethod ≠ "cubic" ∧ cfg.maskMethod ≠ "spherical") ∨ ∃ e, L.optimizer = .error e) :
    ∃ e, runAtomsNC L cfg a = .error e := by
  cases hrun : runAtomsNC L cfg a with
  | error e => exact ⟨e, rfl⟩
  | ok r =>
    exfalso
    obtain ⟨c, P, n, kn, mask, vloc, bs, ew, rep, h1, h2, h3, h4, h5, h6⟩ := ncRun_inv L cfg a r hrun
    obtain ⟨⟨hu, t, ht, hm⟩, -⟩ := (createPseudo_iff _ _ _ _).1 h2
    rcases h with h | h | ⟨t', ht', h⟩ | h | h | h | ⟨s, hs, h⟩ | h | ⟨e, h⟩
    · rw [h] at hu; cases hu
    · rw [h] at ht; cases ht
    · rw [ht'] at ht
      cases ht
      exact h hm
    · rw [(local_errors _ _ _ _ _ _).2 (by omega)] at h4
      cases h4
    · unfold ncBetas at h5
      rw [if_pos (by omega)] at h5
      cases h5
    · unfold runLoopNC at h6
      cases ho : L.optimizer with
      | error e => simp only [ho] at h6; cases h6
      | ok opt =>
        simp only [ho] at h6
        cases hg : gsInitNC (empty := cfg.emptyBands) (runEnvNC L cfg c P n kn mask) L.occDraw
            (L.pwDraw (if cfg.restricted then 1 else 2) (idxList kn).length _ _) with
        | error e => rw [hg] at h6; cases h6
        | ok p =>
          rw [hg] at h6
          simp only at h6
          have hp : occPlaceable (if cfg.parallelK then L.devices else 1) p.occ = false := by
            unfold gsInitNC occParamInit at hg
            have hme : (runEnvNC L cfg c P n kn mask).method = "idempotent" := h
            rw [if_pos hme, map_ok_iff] at hg
            obtain ⟨o, hg, rfl⟩ := hg
            cases o with
            | idem o => rfl
            | arr o => exfalso; rw [map_ok_iff] at hg; obtain ⟨_, -, hg⟩ := hg; cases hg
            | simplex o o' => exfalso; rw [map_ok_iff] at hg; obtain ⟨_, -, hg⟩ := hg; cases hg
          exact absurd h6 (by
            intro h7
            have := (if_pos hp).symm.trans h7
            cases this)
    · rw [hs, (createCrystal_spin a s).2 h] at h1
      cases h1
    · unfold createFreqMask at h3
      rw [if_neg h.1, if_neg h.2] at h3
      cases h3
    · unfold runLoopNC at h6
      simp only [h] at h6
      cases h6

/-- C86: the default configuration has no `pseudopotential_type`, so that switching pseudopotentials on is
not enough: every such calculation with a possible spin ends in an `AttributeError`. -/
theorem ncRun_default_wrong (L : NcLib) (cfg : NcConfig) {m : ℕ} (a : AseAtoms m) (hu : cfg.usePseudo = true)
    (ht : cfg.ppType = none) (hs : ∀ s, cfg.spin = some s → s % 2 = (∑ i, a.numbers i) % 2) :
    runAtomsNC L cfg a = .error .attributeError := by
  have hc : createCrystal a cfg.spin = .ok (Crystal.fromAse a cfg.spin) := by
    have h1 : checkSpinNumber (Crystal.fromAse a cfg.spin).numElectron (Crystal.fromAse a cfg.spin).spin = .ok () := by
      refine if_neg ?_
      rw [not_not]
      cases h : cfg.spin with
      | none =>
        show (∑ i, a.numbers i) % 2 = (∑ i, a.numbers i) % 2 % 2
        omega
      | some s => exact (hs s h).symm
    unfold createCrystal
    simp only [h1]
  unfold runAtomsNC createPseudo
  rw [hc]
  simp [hu, ht]

/-! ### Non-vacuity -/

/-- External parts for the example: two silicon atoms in a cube, a directory with one small file, low
spherical harmonics; the other routines are arbitrary. -/
noncomputable def siliconLib (xc : XcLib) (eigh : Eigh) (jn : SphBessel) (csLoc csBeta : Spline) : NcLib where
  pkgPath := "/jrystal"
  read := fun _ => .ok ⟨2, ⟨fun _ => 14, Matrix.of ![![0, 0, 0], ![1 / 4, 1 / 4, 1 / 4]], 1⟩⟩
  erfc := fun _ => 0
  xc := xc
  qrC := trivialQR ℂ
  qrR := trivialQR ℝ
  devices := 8
  pwDraw := fun _ _ _ _ => ⟨fun _ _ _ _ => 0, fun _ _ _ _ => 0⟩
  occDraw := fun _ _ => 0
  optimizer := .ok idleOptimizer
  cpus := 4
  eigh := eigh
  sph := lowHarmonics
  jn := jn
  csLoc := csLoc
  csBeta := csBeta
  eigTop := fun _ => 0
  symbol := fun _ => "Si".toList
  rd := siReader
  junk := fun _ => 7
  listdir := fun _ => some ["C.x.UPF".toList, "Si.x.UPF".toList]
  parse := fun _ => .ok smallUpf

/-- A spin-unrestricted norm-conserving calculation with eight bands on eight devices. -/
noncomputable def siliconConfig : NcConfig where
  toRunConfig := { lithiumConfig with emptyBands := 6 }
  usePseudo := true
  ppType := some "nc"
  ppDir := some "d/"

/-- The atoms of `siliconLib`. -/
noncomputable def siliconAtoms : AseAtoms 2 := ⟨fun _ => 14, Matrix.of ![![0, 0, 0], ![1 / 4, 1 / 4, 1 / 4]], 1⟩

/-- The files of the example: two valence electrons per atom, two mesh points, one projector with angular
momentum one. -/
theorem silicon_loaded (xc : XcLib) (eigh : Eigh) (jn : SphBessel) (csLoc csBeta : Spline) :
    ∃ P, createPseudo (siliconLib xc eigh jn csLoc csBeta) siliconConfig
        (List.ofFn fun i => (siliconLib xc eigh jn csLoc csBeta).symbol (siliconAtoms.numbers i)) = .ok P ∧
      P.rGrid = [[2, 2], [2, 2]] ∧ P.betaGrid = [[[1, 0]], [[1, 0]]] ∧ P.valence = [2, 2] ∧
      P.angular = [[1], [1]] ∧ P.dMatrix = [[[1]], [[1]]] := by
  have hs : createPseudo (siliconLib xc eigh jn csLoc csBeta) siliconConfig
        (List.ofFn fun i => (siliconLib xc eigh jn csLoc csBeta).symbol (siliconAtoms.numbers i)) =
      ncCreate siReader (fun _ => 7) (fun _ => some ["C.x.UPF".toList, "Si.x.UPF".toList])
        (fun _ => .ok smallUpf) (some "d/".toList) ["Si".toList, "Si".toList] := rfl
  rw [hs]
  have e : (match ncCreate siReader (fun _ => 7) (fun _ => some ["C.x.UPF".toList, "Si.x.UPF".toList])
        (fun _ => .ok smallUpf) (some "d/".toList) ["Si".toList, "Si".toList] with
      | .ok L => decide (L.rGrid = [[2, 2], [2, 2]] ∧ L.betaGrid = [[[1, 0]], [[1, 0]]] ∧
          L.valence = [2, 2] ∧ L.angular = [[1], [1]] ∧ L.dMatrix = [[[1]], [[1]]])
      | .error _ => false) = true := by decide +kernel
  cases hc : ncCreate siReader (fun _ => 7) (fun _ => some ["C.x.UPF".toList, "Si.x.UPF".toList])
        (fun _ => .ok smallUpf) (some "d/".toList) ["Si".toList, "Si".toList] with
  | error _ => rw [hc] at e; cases e
  | ok L =>
    rw [hc] at e
    exact ⟨L, rfl, by simpa using e⟩

/-- The hypotheses of `ncRun_complete_partial` hold for the silicon pair. -/
theorem silicon_admissible (xc : XcLib) (eigh : Eigh) (jn : SphBessel) (csLoc csBeta : Spline) :
    ∃ P, Spec.AdmissibleRunNC (siliconLib xc eigh jn csLoc csBeta) siliconConfig siliconAtoms (fun _ => 4)
      (fun _ => 2) P 4 0 := by
  obtain ⟨P, h1, h2, h3, h4, h5⟩ := silicon_loaded xc eigh jn csLoc csBeta
  refine ⟨P, ?_⟩
  exact {
    atoms := by decide
    cell := by simp [siliconAtoms]
    sizes := ⟨Or.inl rfl, fun _ => by norm_num⟩
    ksizes := ⟨Or.inr ⟨rfl, rfl, rfl⟩, fun _ => by norm_num⟩
    loaded := h1
    mesh := by rw [h2]; simp
    electrons := by rw [h4]; rfl
    unpaired := by simp [siliconAtoms, siliconConfig, lithiumConfig]
    parity := by simp [siliconAtoms]
    placeable := ⟨by decide, Or.inr (Or.inl ⟨rfl, by decide, by decide⟩)⟩
    occupation := Or.inr ⟨rfl, by
      show (if true then 8 else 1) ∣ _
      decide⟩
    method := Or.inl rfl
    waves := fun n hn mask hm => by
      obtain rfl : n = fun _ => 4 := funext fun i => RunSetup.least_eq (k := 4) (hn i) RunSetup.smooth4
      have : mask = cubicMask _ := by
        unfold createFreqMask at hm
        rw [if_pos (show siliconConfig.maskMethod = "cubic" from rfl)] at hm
        exact (Except.ok.inj hm).symm
      subst this
      decide +kernel
    ewald := by norm_num [siliconConfig, lithiumConfig]
    devices := fun kn hkn => by
      obtain rfl : kn = fun _ => 2 := funext fun i => RunSetup.least_eq (k := 2) (hkn i) RunSetup.smooth2
      show (if true then 8 else 1) ∣ _
      decide
    processors := by show 2 ≤ 4; decide
    optimizer := ⟨idleOptimizer, rfl, fun f p => RunSetup.keeps_self _⟩
    epochs := by decide }

/-- The calculation of the silicon pair succeeds. -/
theorem silicon_runs (xc : XcLib) (eigh : Eigh) (jn : SphBessel) (csLoc csBeta : Spline) :
    ∃ rep : GsReport (EnergyParts × ℝ) fun _ => 4,
      runAtomsNC (siliconLib xc eigh jn csLoc csBeta) siliconConfig siliconAtoms = .ok ⟨fun _ => 4, rep⟩ ∧
      rep.density.1 = 2 := by
  obtain ⟨P, H⟩ := silicon_admissible xc eigh jn csLoc csBeta
  obtain ⟨n, kn, rep, mask, vloc, bs, h1, h2, -, -, -, -, h3, -⟩ :=
    ncRun_complete_partial _ _ _ _ _ _ _ _ H _ rfl _ (fun _ _ => rfl) _ (fun _ => rfl)
  obtain rfl : n = fun _ => 4 := funext fun i => RunSetup.least_eq (k := 4) (h2 i) RunSetup.smooth4
  exact ⟨rep, h1, h3⟩

/-- The hypotheses of `ncRun_rotated_partial` hold for the silicon pair, with a projector of angular momentum
one, and every rotation. -/
example (xc : XcLib) (eigh : Eigh) (jn : SphBessel) (csLoc csBeta : Spline) (R : Matrix (Fin 3) (Fin 3) ℝ)
    (hR : R * Rᵀ = 1) :
    runAtomsNC (siliconLib xc eigh jn csLoc csBeta) siliconConfig (Spec.rotated R siliconAtoms)
      = runAtomsNC (siliconLib xc eigh jn csLoc csBeta) siliconConfig siliconAtoms := by
  refine ncRun_rotated_partial _ _ _ R hR (by simp [siliconAtoms]) lowHarmonics_contracts.1 ?_ (.inl ?_)
  · intro P hP ls hls l hl
    obtain ⟨P', h1, -, -, -, h5, -⟩ := silicon_loaded xc eigh jn csLoc csBeta
    rw [h1] at hP
    cases hP
    rw [h5] at hls
    simp only [List.mem_cons, List.not_mem_nil, or_false, or_self] at hls
    subst hls
    simp only [List.mem_cons, List.not_mem_nil, or_false] at hl
    subst hl
    exact lowHarmonics_contracts.2.2
  · intro n kn h
    obtain ⟨n', kn', h1, -, h2⟩ := run_sizes siliconConfig.toRunConfig (fun _ => 4) (fun _ => 2)
      ⟨Or.inl rfl, fun _ => by norm_num⟩ ⟨Or.inr ⟨rfl, rfl, rfl⟩, fun _ => by norm_num⟩
    rw [h1] at h
    cases h
    refine ⟨0, ?_⟩
    rw [RunSetup.least_eq (k := 2) (h2 0) RunSetup.smooth2]

/-- The hypotheses of `ncRun_lattice_move` hold: the second atom moved by a lattice vector. -/
example (xc : XcLib) (eigh : Eigh) (jn : SphBessel) (csLoc csBeta : Spline) :
    ∃ r r' : GsReport (EnergyParts × ℝ) fun _ => 4,
      runAtomsNC (siliconLib xc eigh jn csLoc csBeta) siliconConfig siliconAtoms = .ok ⟨_, r⟩ ∧
      runAtomsNC (siliconLib xc eigh jn csLoc csBeta) siliconConfig
        (Spec.moved ![![0, 0, 0], ![1, -2, 0]] siliconAtoms) = .ok ⟨_, r'⟩ ∧
      r'.parts = r.parts ∧ r'.density = r.density := by
  obtain ⟨r, hr, -⟩ := silicon_runs xc eigh jn csLoc csBeta
  obtain ⟨r', h1, h2, h3, -⟩ := ncRun_lattice_move _ _ siliconAtoms (by simp [siliconAtoms])
    ![![0, 0, 0], ![1, -2, 0]] (by
      intro i
      fin_cases i
      · exact ⟨![0, 0, 0], fun d => by fin_cases d <;> simp [siliconAtoms, Fin.sum_univ_three]⟩
      · exact ⟨![1, -2, 0], fun d => by fin_cases d <;> simp [siliconAtoms, Fin.sum_univ_three]⟩) r hr
  exact ⟨r, r', hr, h1, h2, h3⟩

/-- `ncRun_reordered` for a calculation that succeeds, with the two atoms exchanged. -/
example (xc : XcLib) (eigh : Eigh) (jn : SphBessel) (csLoc csBeta : Spline) :
    ∃ r, runAtomsNC (siliconLib xc eigh jn csLoc csBeta) siliconConfig
      (Spec.reordered (Equiv.swap 0 1) siliconAtoms) = .ok r := by
  obtain ⟨r, hr, -⟩ := silicon_runs xc eigh jn csLoc csBeta
  exact ⟨_, (ncRun_reordered _ _ _ _ _).2 hr⟩

end Jrystal
