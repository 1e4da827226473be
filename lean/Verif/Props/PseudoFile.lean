import Verif.Props.RunNC
import Verif.Spec.PseudoFile

/- C130: the potentials of a norm-conserving calculation are those of the files of its atoms. -/
namespace Jrystal
open scoped BigOperators ComplexConjugate
open Matrix

/-! ### Lists of numbers as arrays -/

private theorem riemann_sum (w : ℝ → ℝ → ℝ) (l : List (ℝ × ℝ)) :
    Spec.riemann w l = ∑ i ∈ Finset.range (l.length - 1), w (l.getD i 0).1 (l.getD i 0).2 *
      ((l.getD (i + 1) 0).1 - (l.getD i 0).1) := by
  induction l with
  | nil => rfl
  | cons p l ih =>
    cases l with
    | nil => rfl
    | cons q t =>
      show w p.1 p.2 * (q.1 - p.1) + Spec.riemann w (q :: t) = _
      rw [ih]
      simp only [List.length_cons, Nat.add_sub_cancel]
      rw [Finset.sum_range_succ']
      simp only [List.getD_cons_succ, List.getD_cons_zero]
      ring

private theorem samples_map (l : List (ℚ × ℚ)) (f : ℚ × ℚ → ℚ) (F : ℝ × ℝ → ℝ) (h0 : F 0 = 0)
    (hf : ∀ p : ℚ × ℚ, ((f p : ℚ) : ℝ) = F ((p.1 : ℝ), (p.2 : ℝ))) (i : ℕ) :
    samplesOf (l.map f) i = F ((l.map fun p => ((p.1 : ℝ), (p.2 : ℝ))).getD i 0) := by
  unfold samplesOf
  simp only [List.getD_eq_getElem?_getD, List.getElem?_map]
  cases l[i]? with
  | none => simp [h0]
  | some p => simp [hf]

private theorem mesh_fst (r x : List ℚ) (h : x.length = r.length) :
    (r.filter fun q => decide (0 < q)) = ((r.zip x).filter fun p => decide (0 < p.1)).map fun p => p.1 := by
  induction r generalizing x with
  | nil => rfl
  | cons q r ih =>
    cases x with
    | nil => simp at h
    | cons y x =>
      have := ih x (by simpa using h)
      by_cases hq : 0 < q <;> simp [hq, this]

private theorem onPositive_map (r x : List ℚ) (f : ℚ × ℚ → ℚ) :
    Spec.onPositive r ((x.zip r).map fun p => f (p.2, p.1)) =
      ((r.zip x).filter fun p => decide (0 < p.1)).map f := by
  unfold Spec.onPositive
  induction r generalizing x with
  | nil => simp
  | cons q r ih =>
    cases x with
    | nil => simp
    | cons y x =>
      have := ih x
      by_cases hq : 0 < q <;> simp [hq, this]

private theorem onPositive_snd (r x : List ℚ) :
    Spec.onPositive r x = ((r.zip x).filter fun p => decide (0 < p.1)).map fun p => p.2 := by
  unfold Spec.onPositive
  induction r generalizing x with
  | nil => simp
  | cons q r ih =>
    cases x with
    | nil => simp
    | cons y x =>
      have := ih x
      by_cases hq : 0 < q <;> simp [hq, this]

private theorem samples_radius (r x : List ℚ) (h : x.length = r.length) (i : ℕ) :
    samplesOf (r.filter fun q => decide (0 < q)) i = ((Spec.fileMesh r x).getD i 0).1 := by
  rw [mesh_fst r x h]
  exact samples_map _ (fun p => p.1) (fun p => p.1) rfl (fun _ => rfl) i

private theorem mesh_length (r x : List ℚ) (h : x.length = r.length) :
    (r.filter fun q => decide (0 < q)).length = (Spec.fileMesh r x).length := by
  rw [mesh_fst r x h, Spec.fileMesh, List.length_map, List.length_map]

/-! ### C130 -/

/-- C130: the arrays of the code have exactly the numbers of the lists, in their order. -/
theorem samplesOf_list (xs : List ℚ) (i : ℕ) (x : ℚ) (h : xs[i]? = some x) : samplesOf xs i = (x : ℝ) := by
  simp [samplesOf, List.getD_eq_getElem?_getD, h]

example : samplesOf [3, 5] 1 = ((5 : ℚ) : ℝ) := samplesOf_list _ _ _ rfl

/-- C130: the potentials that are built from loaded files are those of the files of the atoms. -/
theorem potentials_from_files (L : NcLib) (cfg : NcConfig) {m : ℕ} (h0m : 0 < m) (z : Fin m → ℤ) (P : NcLists)
    (hP : createPseudo L cfg (List.ofFn fun i => L.symbol (z i)) = .ok P) (hm : ∀ r ∈ P.rGrid, r ≠ []) :
    ∃ (files : Fin m → PpDict) (Z : Fin m → ℤ), (∀ i, Spec.FileOfAtom L cfg (z i) (files i)) ∧
      (∀ i, Spec.ValenceOfFile L.rd (files i) (Z i)) ∧ P.valence.sum = ∑ i, Z i ∧
      (∀ {n : Fin 3 → ℕ} (g : Idx n → Fin 3 → ℝ) (vol : ℝ) (pos : Fin m → Fin 3 → ℝ) v,
        localReciprocal L.jn L.csLoc (ncLocalAtom P pos) g vol "sbt" = .ok v →
        Spec.LocalOfFiles L.jn L.csLoc files Z pos g vol v) ∧
      ∀ {nk : ℕ} {n : Fin 3 → ℕ} (g : Idx n → Fin 3 → ℝ) (kpts : Fin nk → Fin 3 → ℝ) bs,
        ncBetas L P g kpts = .ok bs →
        ∀ i : Fin m, Spec.SpeciesOfFile L.rd L.jn L.csBeta (files i) g kpts (ncSpecies P bs i) := by
  obtain ⟨as, hlen, hfile, hval, hrg, hlg, hlc, hbg, hang, hdm⟩ := createPseudo_files L cfg _ P hP
  rw [List.length_ofFn] at hlen
  have hget : ∀ i : Fin m, ∃ x, as[(i : ℕ)]? = some x := fun i =>
    ⟨_, List.getElem?_eq_getElem (by omega)⟩
  choose X hX using hget
  have hfile' : ∀ i : Fin m, ∃ kind path root pp, cfg.usePseudo = true ∧
      ((kind = "normconserving" ∧ ∃ t, cfg.ppType = some t ∧ t ∈ ["normcons", "normconserving", "nc"]) ∨
        (kind = "ultrasoft" ∧ ∃ t, cfg.ppType = some t ∧ t ∈ ["ultrasoft", "us"])) ∧
      findUpf L.listdir (some (cfg.ppDir.getD (L.pkgPath ++ ("/pseudopotential/" ++ kind ++ "/"))).toList)
        (L.symbol (z i)) = .ok path ∧
      L.parse path = .ok root ∧ parseUpf L.rd root = .ok pp ∧ NcAtom.Of L.rd pp (X i) := fun i =>
    hfile i _ _ (by simp) (hX i)
  choose kind path root files hu hkind hpath hroot hpp hof using hfile'
  have hD : ∀ {β : Type} (f : NcAtom → β) (d : β) (i : Fin m), (as.map f).getD i d = f (X i) := fun f d i => by
    rw [List.getD_eq_getElem?_getD, List.getElem?_map, hX i]; rfl
  have hne : P.valence.sum = ∑ i, (X i).valence := by
    rw [hval]
    have : as = List.ofFn X := by
      refine List.ext_getElem? fun i => ?_
      by_cases hi : i < m
      · rw [hX ⟨i, hi⟩, List.getElem?_ofFn, dif_pos hi]
      · rw [List.getElem?_eq_none (by omega), List.getElem?_ofFn, dif_neg hi]
    rw [this, List.map_ofFn, List.sum_ofFn]
    rfl
  have hmesh : ∀ i, (X i).rGrid ≠ [] := fun i => hm _ (by
    rw [hrg]
    exact List.mem_map_of_mem (List.mem_of_getElem? (hX i)))
  refine ⟨files, fun i => (X i).valence, fun i => ⟨kind i, path i, root i, hkind i, hpath i, hroot i, hpp i⟩,
    fun i => (hof i).valence, hne, ?_, ?_⟩
  · intro n g vol pos v hv kmax hk k
    obtain ⟨v, hv', h0, h1⟩ := local_formula L.jn L.csLoc h0m (ncLocalAtom P pos)
      g vol kmax hk
    rw [hv] at hv'
    cases hv'
    refine ⟨h0 k, fun h => ?_⟩
    rw [h1 k h]
    refine congrArg₂ (· * ·) rfl (Finset.sum_congr rfl fun i _ => ?_)
    have e1 : (ncLocalAtom P pos i).r = fun j => ((Spec.fileMesh (files i).r (files i).loc).getD j 0).1 := by
      funext j
      show samplesOf (P.rGrid.getD i []) j = _
      rw [hrg, hD, (hof i).rGrid]
      exact samples_radius _ _ (hof i).localGrid.1 j
    have e2 : (ncLocalAtom P pos i).v =
        fun j => ((Spec.fileMesh (files i).r (files i).loc).getD j 0).2 / 2 := by
      funext j
      show samplesOf (P.localGrid.getD i []) j = _
      rw [hlg, hD, (hof i).localGrid.2, onPositive_snd, List.map_map]
      exact samples_map _ _ (fun p => p.2 / 2) (by simp) (fun p => by simp) j
    have e3 : (ncLocalAtom P pos i).z = (((X i).valence : ℤ) : ℝ) := by
      show ((P.localCharge.getD i 0 : ℤ) : ℝ) = _
      rw [hlc, hD]
    have e4 : (ncLocalAtom P pos i).nr = (Spec.fileMesh (files i).r (files i).loc).length := by
      show (P.rGrid.getD i []).length = _
      rw [hrg, hD, (hof i).rGrid]
      exact mesh_length _ _ (hof i).localGrid.1
    have e5 : (ncLocalAtom P pos i).pos = pos i := rfl
    rw [e1, e2, e3, e4, e5]
    refine congrArg₂ (· * ·) (congrArg _ (congrArg₂ (· - ·) (congrArg₂ (· * ·) rfl ?_) rfl)) rfl
    unfold Spec.radialTransform
    refine congrFun (congrArg₂ (L.csLoc _) ?_ ?_) _
    · funext j
      unfold Spec.radialNode
      push_cast
      rfl
    · funext j
      rw [riemann_sum]
      refine Finset.sum_congr rfl fun q _ => ?_
      unfold Spec.radialNode
      push_cast
      rfl
  · intro nk n g kpts bs hbs i
    unfold ncBetas at hbs
    split_ifs at hbs
    obtain ⟨-, hb⟩ := (betaSbtGrid_spec _ _ _ _ _ m (by rw [hrg, List.length_map, hlen])
      (by rw [hbg, List.length_map, hlen]) (by rw [hang, List.length_map, hlen]) bs).1 hbs
    obtain ⟨r, b, l, x, h1, h2, h3, h4, h5⟩ := hb i i.2
    rw [hrg, List.getElem?_map, hX] at h1
    rw [hbg, List.getElem?_map, hX] at h2
    rw [hang, List.getElem?_map, hX] at h3
    cases h1
    cases h2
    cases h3
    have hx : bs.getD i ⟨0, fun _ i => i.elim0⟩ = x := by
      rw [List.getD_eq_getElem?_getD, h4]; rfl
    unfold betaOfLists at h5
    cases hB : betaSbtSingle L.jn L.csBeta (X i).rGrid.length (X i).betaGrid.length
        ((X i).betaGrid.getD 0 []).length (samplesOf (X i).rGrid) (fun j => samplesOf ((X i).betaGrid.getD j []))
        (X i).angular g kpts with
    | error e => rw [hB] at h5; cases h5
    | ok B =>
      rw [hB] at h5
      cases h5
      have hsp : ncSpecies P bs i = ⟨(X i).betaGrid.length, fun b => ((X i).angular.getD b 0).toNat,
          Matrix.of fun x y => ((((X i).dMatrix.getD x []).getD y 0 : ℚ) : ℝ), B⟩ := by
        unfold ncSpecies
        rw [hx, hang, hdm, hD, hD]
      rw [hsp]
      constructor
      · intro hnone
        obtain ⟨-, h1, -, -, h2⟩ := (hof i).noProjector hnone
        have h3 : (X i).betaGrid.length = 1 := by rw [h1]; rfl
        refine ⟨h3, fun x y => ?_⟩
        simp only [Matrix.of_apply, h2]
        have hx0 : (x : ℕ) = 0 := Nat.lt_one_iff.1 (h3 ▸ x.2)
        have hy0 : (y : ℕ) = 0 := Nat.lt_one_iff.1 (h3 ▸ y.2)
        simp [hx0, hy0]
      · intro betas hbetas
        obtain ⟨-, hvl, hgrid, hangs, -, d, hd, hdl, hdmx⟩ := (hof i).projectors betas hbetas
        have hlb : (X i).betaGrid.length = betas.length := by rw [hgrid, List.length_map]
        have hrow : ∀ (q : ℕ) (hq : q < betas.length), (X i).betaGrid.getD q [] =
            (((files i).r.zip betas[q].values).filter fun p => decide (0 < p.1)).map fun p => p.2 / p.1 := by
          intro q hq
          rw [hgrid, List.getD_eq_getElem _ _ (by simpa using hq), List.getElem_map,
            onPositive_map _ _ fun p => p.2 / p.1]
        refine ⟨hlb, ⟨d, hd, fun x y => ?_⟩, fun b => ?_⟩
        · have hx' : (x : ℕ) < betas.length := hlb ▸ x.2
          have hy' : (y : ℕ) < betas.length := hlb ▸ y.2
          have hlt : (x : ℕ) * betas.length + y < d.length := by
            rw [hdl]
            calc (x : ℕ) * betas.length + y < x * betas.length + betas.length := by omega
              _ = (x + 1) * betas.length := by ring
              _ ≤ betas.length * betas.length := Nat.mul_le_mul_right _ hx'
          refine ⟨_, List.getElem?_eq_getElem hlt, ?_⟩
          simp only [Matrix.of_apply, hdmx]
          have hr1 : ∀ {α : Type} (f : ℕ → α) (z : α) (q : ℕ), q < betas.length →
              ((List.range betas.length).map f).getD q z = f q := fun f z q hq => by
            rw [List.getD_eq_getElem _ _ (by simpa using hq), List.getElem_map, List.getElem_range]
          rw [hr1 _ _ _ hx', hr1 _ _ _ hy', List.getD_eq_getElem _ _ hlt]
          push_cast
          rfl
        · have hb' : (b : ℕ) < betas.length := hlb ▸ b.2
          have hla : (X i).angular.length = betas.length := hangs.length_eq.symm
          obtain ⟨w, hw, hwl⟩ := (List.forall₂_iff_get.1 hangs).2 b hb' (by omega)
          simp only [List.get_eq_getElem] at hw hwl
          have hve := hvl _ (List.getElem_mem hb')
          have hl0 : (X i).angular.length = (X i).betaGrid.length := by rw [hla, hlb]
          have hcol : (X i).rGrid.length = ((X i).betaGrid.getD 0 []).length := by
            by_contra hne'
            rw [betaSbt_errors _ _ _ _ _ _ _ _ _ _ (.inr hne')] at hB
            cases hB
          refine ⟨_, w, _, List.getElem?_eq_getElem hb', hw, hwl, ?_, fun kmax hk k x => ?_⟩
          · simp only
            rw [List.getD_eq_getElem _ _ (by omega)]
          have er : samplesOf (X i).rGrid =
              fun j => ((Spec.fileMesh (files i).r betas[(b : ℕ)].values).getD j 0).1 := by
            funext j
            rw [(hof i).rGrid]
            exact samples_radius _ _ hve j
          have en : (X i).rGrid.length = (Spec.fileMesh (files i).r betas[(b : ℕ)].values).length := by
            rw [(hof i).rGrid]
            exact mesh_length _ _ hve
          have h00 : samplesOf (X i).rGrid 0 ≠ 0 := by
            have hm := hmesh i
            rw [(hof i).rGrid] at hm ⊢
            obtain ⟨q, t, hq⟩ := List.exists_cons_of_ne_nil hm
            have hpos : 0 < q := by
              have : q ∈ (files i).r.filter fun r => decide (0 < r) := by rw [hq]; exact List.mem_cons_self
              simpa using (List.mem_filter.1 this).2
            rw [hq]
            show ((q : ℚ) : ℝ) ≠ 0
            exact_mod_cast hpos.ne'
          obtain ⟨B', hB', hform⟩ := betaSbt_formula L.jn L.csBeta (X i).rGrid.length (X i).betaGrid.length
            (List.length_pos_iff.2 (hmesh i)) (samplesOf (X i).rGrid)
            (fun j => samplesOf ((X i).betaGrid.getD j [])) (X i).angular hl0 g
            kpts kmax hk 0 (.inr ⟨h00, rfl⟩)
          rw [← hcol, hB'] at hB
          cases hB
          show B k b x = _
          rw [hform k b x]
          have ev : samplesOf ((X i).betaGrid.getD b []) =
              fun j => ((Spec.fileMesh (files i).r betas[(b : ℕ)].values).getD j 0).2 /
                ((Spec.fileMesh (files i).r betas[(b : ℕ)].values).getD j 0).1 := by
            funext j
            rw [hrow b hb']
            exact samples_map _ _ (fun p => p.2 / p.1) (by simp) (fun p => by simp) j
          simp only [ev, er, en, Nat.sub_zero, Nat.add_zero]
          unfold Spec.radialTransform
          refine congrFun (congrArg₂ (L.csBeta _) ?_ ?_) _
          · funext j
            unfold Spec.radialNode
            push_cast
            rfl
          · funext j
            rw [riemann_sum]
            refine Finset.sum_congr rfl fun q _ => ?_
            unfold Spec.radialNode
            push_cast
            rfl

/-- C130: the potentials of a norm-conserving ground-state calculation are those of the files.  Every atom has
the file of its element, the electrons are those that the files announce, and the loop runs with the local
potential and the projectors of the files. -/
theorem ncRun_from_files (L : NcLib) (cfg : NcConfig) {m : ℕ} (a : AseAtoms m) (size ksize : Fin 3 → ℤ)
    (P : NcLists) (ne spin : ℤ) (H : Spec.AdmissibleRunNC L cfg a size ksize P ne spin)
    (c : Crystal m) (hc : c = Crystal.fromAse a cfg.spin) :
    ∃ (files : Fin m → PpDict) (Z : Fin m → ℤ), (∀ i, Spec.FileOfAtom L cfg (a.numbers i) (files i)) ∧
      (∀ i, Spec.ValenceOfFile L.rd (files i) (Z i)) ∧ ne = ∑ i, Z i ∧
      ∃ n kn mask vloc, ∃ sp : Fin m → NlSpecies (idxList kn).length n,
        Spec.LeastGrid size n ∧ Spec.LeastGrid ksize kn ∧
        createFreqMask cfg.toRunConfig c.cell n = .ok mask ∧
        (∀ rep, runLoopNC L.toRunLib cfg.toRunConfig (if cfg.parallelK then L.devices else 1)
            (runEnvNC L cfg c P n kn mask) vloc
            (nlPsiAll L.eigh L.sph sp c.positions (gVectors c.cell n) (flatRows (kVectors c.cell kn)))
            (driverRepulsion L.erfc c (gVectors c.cell n) cfg.ewaldEta
              (flatRows (translationVectors c.cell cfg.ewaldCutoff))) = .ok rep →
          runAtomsNC L cfg a = .ok ⟨n, rep⟩) ∧
        Spec.LocalOfFiles L.jn L.csLoc files Z c.positions (gVectors c.cell n) c.vol vloc ∧
        ∀ i, Spec.SpeciesOfFile L.rd L.jn L.csBeta (files i) (gVectors c.cell n)
          (flatRows (kVectors c.cell kn)) (sp i) := by
  obtain ⟨n, kn, mask, vloc, bs, opt, hn, hkn, hmk, hv, hbs, -, -, -, -, -, hrun⟩ :=
    ncRun_setup L cfg a size ksize P ne spin H c hc
  obtain ⟨files, Z, h1, h2, h3, h4, h5⟩ := potentials_from_files L cfg H.atoms a.numbers P H.loaded H.mesh
  exact ⟨files, Z, h1, h2, H.electrons.trans h3, n, kn, mask, vloc, fun i => ncSpecies P bs i, hn, hkn, hmk, hrun,
    h4 _ _ _ _ hv, h5 _ _ _ hbs⟩

example (xc : XcLib) (eigh : Eigh) (jn : SphBessel) (csLoc csBeta : Spline) : ∃ P,
    Spec.AdmissibleRunNC (siliconLib xc eigh jn csLoc csBeta) siliconConfig siliconAtoms (fun _ => 4)
      (fun _ => 2) P 4 0 :=
  silicon_admissible xc eigh jn csLoc csBeta

end Jrystal
