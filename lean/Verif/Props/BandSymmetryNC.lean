import Verif.Lemmas.BandSymmetryNC
import Verif.Props.RunNC
import Verif.Props.BandSymmetry
import Verif.Props.BandRunNC

/- C94: a whole norm-conserving band-structure calculation does not depend on how the crystal is described. -/
namespace Jrystal
open scoped BigOperators ComplexConjugate
open Matrix

/-- A crystal with the same mask, volume, electrons, path, potentials, density and nonlocal matrices gives the same
bands. -/
private theorem bandCrystalNC_mono (L : NcLib) (T : BandTools) (cfg : NcConfig) (b : BandConfig) (supplied : Bool)
    {m m' : ℕ} (c : Crystal m) (c' : Crystal m') (P P' : NcLists)
    (hmask : ∀ n, createFreqMask cfg.toRunConfig c'.cell n = createFreqMask cfg.toRunConfig c.cell n)
    (hvol : c'.vol = c.vol) (hval : P'.valence.sum = P.valence.sum)
    (hpath : T.bandpath (((bohr2angstrom : ℚ) : ℝ) • c'.cell) b.kPath b.numKpoints =
      T.bandpath (((bohr2angstrom : ℚ) : ℝ) • c.cell) b.kPath b.numKpoints)
    (hloc : ∀ n, localReciprocal L.jn L.csLoc (ncLocalAtom P' c'.positions) (gVectors c'.cell n) c'.vol "sbt"
      = localReciprocal L.jn L.csLoc (ncLocalAtom P c.positions) (gVectors c.cell n) c.vol "sbt")
    (hbeta : ∀ n q (frac : Matrix (Fin q) (Fin 3) ℝ) bs,
      T.bandpath (((bohr2angstrom : ℚ) : ℝ) • c.cell) b.kPath b.numKpoints = .ok ⟨q, frac⟩ →
      ncBetas L P (gVectors c.cell n) (fun i => getKPath (fun _ => frac) c.cell false i) = .ok bs →
      ∃ bs', ncBetas L P' (gVectors c'.cell n) (fun i => getKPath (fun _ => frac) c'.cell false i) = .ok bs' ∧
        ∀ j {nb : ℕ} (C : Coef 1 1 nb n),
          hamiltonianNonlocal C (nlPsiAll L.eigh L.sph (rowSpecies (fun a : Fin m' => ncSpecies P' bs' a)
            fun a => (ncSpecies P' bs' a).beta j) c'.positions (gVectors c'.cell n)
            fun _ : Fin 1 => getKPath (fun _ => frac) c'.cell false j) c.vol =
          hamiltonianNonlocal C (nlPsiAll L.eigh L.sph (rowSpecies (fun a : Fin m => ncSpecies P bs a)
            fun a => (ncSpecies P bs a).beta j) c.positions (gVectors c.cell n)
            fun _ : Fin 1 => getKPath (fun _ => frac) c.cell false j) c.vol)
    (hrun : ∀ n kn rep, runSizes cfg.toRunConfig = .ok (n, kn) → runGridNC L cfg c P n kn = .ok rep →
      ∃ rep', runGridNC L cfg c' P' n kn = .ok rep' ∧ rep'.density = rep.density)
    (hhar : ∀ n {d : ℕ} (dens : Fin d → Idx n → ℝ), hartreeRealSpace dens (gVectors c'.cell n) true =
      hartreeRealSpace dens (gVectors c.cell n) true)
    (hxc : ∀ n {d : ℕ} (dens : Fin d → Idx n → ℝ) s j, vxcDensity L.xc cfg.xc (gVectors c'.cell n) dens s j =
      vxcDensity L.xc cfg.xc (gVectors c.cell n) dens s j)
    (hkin : ∀ n q (frac : Matrix (Fin q) (Fin 3) ℝ) j x,
      ∑ e, (gVectors c'.cell n x e + getKPath (fun _ => frac) c'.cell false j e) ^ 2 =
        ∑ e, (gVectors c.cell n x e + getKPath (fun _ => frac) c.cell false j e) ^ 2)
    (hkin0 : ∀ n x, ∑ e, gVectors c'.cell n x e ^ 2 = ∑ e, gVectors c.cell n x e ^ 2)
    (f : BandFileNC) (h : bandCrystalNC L T cfg b supplied c P = .ok f) :
    bandCrystalNC L T cfg b supplied c' P' = .ok { f with
      name := String.ofList (List.ofFn fun i => L.symbol (c'.charges i)).flatten ++ "_band_structure.npy" } := by
  unfold bandCrystalNC at h ⊢
  cases hs : runSizes cfg.toRunConfig with
  | error e => rw [hs] at h; cases h
  | ok nn =>
    obtain ⟨n, kn⟩ := nn
    rw [hs] at h
    simp only at h ⊢
    rw [hmask]
    cases hm : createFreqMask cfg.toRunConfig c.cell n with
    | error e => rw [hm] at h; cases h
    | ok mask =>
      rw [hm] at h
      simp only at h ⊢
      unfold bandPoints at h ⊢
      rw [hpath]
      cases hb : T.bandpath (((bohr2angstrom : ℚ) : ℝ) • c.cell) b.kPath b.numKpoints with
      | error e => rw [hb] at h; cases h
      | ok qf =>
        obtain ⟨q, frac⟩ := qf
        rw [hb] at h
        simp only at h ⊢
        unfold bandGridNC at h ⊢
        rw [hloc]
        cases hl : localReciprocal L.jn L.csLoc (ncLocalAtom P c.positions) (gVectors c.cell n) c.vol "sbt" with
        | error e => rw [hl] at h; cases h
        | ok vloc =>
          rw [hl] at h
          simp only at h ⊢
          cases hbs : ncBetas L P (gVectors c.cell n) (fun i => getKPath (fun _ => frac) c.cell false i) with
          | error e => rw [hbs] at h; cases h
          | ok bs =>
            rw [hbs] at h
            obtain ⟨bs', hbs', hnl⟩ := hbeta n q frac bs hb hbs
            rw [hbs']
            simp only at h ⊢
            cases supplied with
            | true =>
              exfalso
              simp only [if_true] at h
              cases ho : T.optimizer with
              | error e => rw [ho] at h; cases h
              | ok o =>
                rw [ho] at h
                simp only at h
                split_ifs at h
            | false =>
              simp only [Bool.false_eq_true, if_false] at h ⊢
              cases hr : runGridNC L cfg c P n kn with
              | error e => rw [hr] at h; cases h
              | ok rep =>
                rw [hr] at h
                obtain ⟨rep', hr', hd⟩ := hrun n kn rep hs hr
                rw [hr']
                simp only at h ⊢
                rw [hd]
                rw [bandLoopNC_congr L T cfg b c c' P P' n mask rep.density.2 vloc _ _ _ _ hval hvol
                  (hhar n rep.density.2) (hxc n rep.density.2) (hkin n q frac) (hkin0 n) hnl, h]
                rfl

private theorem runAtomsNC_grid (L : NcLib) (cfg : NcConfig) {m : ℕ} (a : AseAtoms m) (c : Crystal m)
    (hc : createCrystal a cfg.spin = .ok c) (P : NcLists)
    (hP : createPseudo L cfg (List.ofFn fun i => L.symbol (a.numbers i)) = .ok P) (n kn : Fin 3 → ℕ)
    (hs : runSizes cfg.toRunConfig = .ok (n, kn)) :
    runAtomsNC L cfg a = (runGridNC L cfg c P n kn).map (⟨n, ·⟩) := by
  unfold runAtomsNC runCrystalNC
  rw [hc, hP]
  simp only [hs]
  cases runGridNC L cfg c P n kn <;> rfl

/-- Two descriptions of a crystal. -/
private theorem bandAtomsNC_mono (L : NcLib) (T : BandTools) (cfg : NcConfig) (b : BandConfig) (supplied : Bool)
    {m m' : ℕ} (a : AseAtoms m) (a' : AseAtoms m') (c : Crystal m) (hc : Crystal.fromAse a cfg.spin = c)
    (c' : Crystal m') (hc' : Crystal.fromAse a' cfg.spin = c')
    (hrun : ∀ n rep, runAtomsNC L cfg a = .ok ⟨n, rep⟩ →
      ∃ rep', runAtomsNC L cfg a' = .ok ⟨n, rep'⟩ ∧ rep'.density = rep.density)
    (hne : c'.numElectron = c.numElectron) (hspin : c'.spin = c.spin)
    (hmask : ∀ n, createFreqMask cfg.toRunConfig c'.cell n = createFreqMask cfg.toRunConfig c.cell n)
    (hvol : c'.vol = c.vol)
    (hpath : T.bandpath (((bohr2angstrom : ℚ) : ℝ) • c'.cell) b.kPath b.numKpoints =
      T.bandpath (((bohr2angstrom : ℚ) : ℝ) • c.cell) b.kPath b.numKpoints)
    (hpseudo : ∀ P, createPseudo L cfg (List.ofFn fun i => L.symbol (a.numbers i)) = .ok P →
      ∃ P', createPseudo L cfg (List.ofFn fun i => L.symbol (a'.numbers i)) = .ok P' ∧
        P'.valence.sum = P.valence.sum ∧
        (∀ n, localReciprocal L.jn L.csLoc (ncLocalAtom P' c'.positions) (gVectors c'.cell n) c'.vol "sbt"
          = localReciprocal L.jn L.csLoc (ncLocalAtom P c.positions) (gVectors c.cell n) c.vol "sbt") ∧
        ∀ n q (frac : Matrix (Fin q) (Fin 3) ℝ) bs,
          T.bandpath (((bohr2angstrom : ℚ) : ℝ) • c.cell) b.kPath b.numKpoints = .ok ⟨q, frac⟩ →
          ncBetas L P (gVectors c.cell n) (fun i => getKPath (fun _ => frac) c.cell false i) = .ok bs →
          ∃ bs', ncBetas L P' (gVectors c'.cell n) (fun i => getKPath (fun _ => frac) c'.cell false i) = .ok bs' ∧
            ∀ j {nb : ℕ} (C : Coef 1 1 nb n),
              hamiltonianNonlocal C (nlPsiAll L.eigh L.sph (rowSpecies (fun a : Fin m' => ncSpecies P' bs' a)
                fun a => (ncSpecies P' bs' a).beta j) c'.positions (gVectors c'.cell n)
                fun _ : Fin 1 => getKPath (fun _ => frac) c'.cell false j) c.vol =
              hamiltonianNonlocal C (nlPsiAll L.eigh L.sph (rowSpecies (fun a : Fin m => ncSpecies P bs a)
                fun a => (ncSpecies P bs a).beta j) c.positions (gVectors c.cell n)
                fun _ : Fin 1 => getKPath (fun _ => frac) c.cell false j) c.vol)
    (hhar : ∀ n {d : ℕ} (dens : Fin d → Idx n → ℝ), hartreeRealSpace dens (gVectors c'.cell n) true =
      hartreeRealSpace dens (gVectors c.cell n) true)
    (hxc : ∀ n {d : ℕ} (dens : Fin d → Idx n → ℝ) s j, vxcDensity L.xc cfg.xc (gVectors c'.cell n) dens s j =
      vxcDensity L.xc cfg.xc (gVectors c.cell n) dens s j)
    (hkin : ∀ n q (frac : Matrix (Fin q) (Fin 3) ℝ) j x,
      ∑ e, (gVectors c'.cell n x e + getKPath (fun _ => frac) c'.cell false j e) ^ 2 =
        ∑ e, (gVectors c.cell n x e + getKPath (fun _ => frac) c.cell false j e) ^ 2)
    (hkin0 : ∀ n x, ∑ e, gVectors c'.cell n x e ^ 2 = ∑ e, gVectors c.cell n x e ^ 2)
    (f : BandFileNC) (h : bandAtomsNC L T cfg b supplied a = .ok f) :
    bandAtomsNC L T cfg b supplied a' = .ok { f with
      name := String.ofList (List.ofFn fun i => L.symbol (a'.numbers i)).flatten ++ "_band_structure.npy" } := by
  have hn' : a'.numbers = c'.charges := by rw [← hc']; rfl
  have ec := createCrystal_eq a cfg.spin
  have ec' := createCrystal_eq a' cfg.spin
  rw [hc] at ec
  rw [hc', hne, hspin] at ec'
  unfold bandAtomsNC at h ⊢
  cases hck : checkSpinNumber c.numElectron c.spin with
  | error e => rw [ec, hck] at h; cases h
  | ok u =>
    rw [hck] at ec ec'
    simp only at ec ec'
    rw [ec] at h
    rw [ec']
    simp only at h ⊢
    cases hP : createPseudo L cfg (List.ofFn fun i => L.symbol (a.numbers i)) with
    | error e => rw [hP] at h; cases h
    | ok P =>
      rw [hP] at h
      obtain ⟨P', hP', hval, hloc, hbeta⟩ := hpseudo P hP
      rw [hP']
      simp only at h ⊢
      rw [hn']
      refine bandCrystalNC_mono L T cfg b supplied c c' P P' hmask hvol hval hpath hloc hbeta
        (fun n kn rep hs hr => ?_) hhar hxc hkin hkin0 f h
      have h1 := runAtomsNC_grid L cfg a c ec P hP n kn hs
      have h2 := runAtomsNC_grid L cfg a' c' ec' P' hP' n kn hs
      rw [hr] at h1
      obtain ⟨rep', h3, h4⟩ := hrun n rep h1
      rw [h2] at h3
      cases hg : runGridNC L cfg c' P' n kn with
      | error e => rw [hg] at h3; cases h3
      | ok r =>
        rw [hg] at h3
        obtain rfl := eq_of_heq (Sigma.mk.inj (Except.ok.inj h3)).2
        exact ⟨r, rfl, h4⟩

private theorem same_nameNC {m : ℕ} {L : NcLib} {T : BandTools} {cfg : NcConfig} {b : BandConfig} {supplied : Bool}
    (a : AseAtoms m) (hcell : a.cell.det ≠ 0) (f : BandFileNC) (h : bandAtomsNC L T cfg b supplied a = .ok f) :
    { f with name := String.ofList (List.ofFn fun i => L.symbol (a.numbers i)).flatten ++ "_band_structure.npy" }
      = f := by
  obtain ⟨-, -, n, rep, P, q, frac, -, -, -, -, -, -, hn⟩ := bandRunNC_saved L T cfg b supplied a hcell f h
  rw [← hn]

/-! ### Rotations -/

/-- A point of the path that a reciprocal vector takes to zero has integer coordinates. -/
private theorem path_never_zero (A : Matrix (Fin 3) (Fin 3) ℝ) (hA : A.det ≠ 0) (n : Fin 3 → ℕ) {q : ℕ}
    (frac : Matrix (Fin q) (Fin 3) ℝ) (i : Fin q) (x : Idx n)
    (h : ∀ d, getKPath (fun _ => frac) A false i d + gVectors A n x d = 0) (l : Fin 3) :
    ∃ z : ℤ, frac i l = z := by
  have h1 := row_comb_inj _ (recip_det_ne_zero A hA) (fun l => frac i l + (sfreq (n l) (x l) : ℝ)) 0
    (fun d => by
      have := h d
      rw [gVectors_apply, getKPath_cartesian _ A hA, Matrix.mul_apply, ← Finset.sum_add_distrib] at this
      simp only [Pi.zero_apply, zero_mul, Finset.sum_const_zero]
      rw [← this]
      exact Finset.sum_congr rfl fun l _ => by ring)
  refine ⟨-sfreq (n l) (x l), ?_⟩
  have := congrFun h1 l
  simp only [Pi.zero_apply] at this
  push_cast
  linarith

private theorem rotated_mono (L : NcLib) (T : BandTools) (cfg : NcConfig) (b : BandConfig) (supplied : Bool)
    {m : ℕ} (a : AseAtoms m) (R : Matrix (Fin 3) (Fin 3) ℝ) (hR : R * Rᵀ = 1) (hcell : a.cell.det ≠ 0)
    (hxc : pyIn "gga" cfg.xc = false) (hc : L.sph.Conj)
    (hT : ∀ cell, T.bandpath (cell * R) b.kPath b.numKpoints = T.bandpath cell b.kPath b.numKpoints)
    (hadd : ∀ P, createPseudo L cfg (List.ofFn fun i => L.symbol (a.numbers i)) = .ok P →
      ∀ ls ∈ P.angular, ∀ l ∈ ls, L.sph.Addition l.toNat)
    (hk : ((∀ n kn, runSizes cfg.toRunConfig = .ok (n, kn) → ∃ i, 2 ∣ kn i) ∧
        ∀ cell q frac, T.bandpath cell b.kPath b.numKpoints = .ok ⟨q, frac⟩ → ∀ i, ∃ l, ∀ z : ℤ, frac i l ≠ z) ∨
      ∀ P, createPseudo L cfg (List.ofFn fun i => L.symbol (a.numbers i)) = .ok P →
        ∀ ls ∈ P.angular, ∀ l ∈ ls, l = 0)
    (f : BandFileNC) (h : bandAtomsNC L T cfg b supplied a = .ok f) :
    bandAtomsNC L T cfg b supplied (Spec.rotated R a) = .ok f := by
  have hf : Crystal.fromAse (Spec.rotated R a) cfg.spin = ⟨(Crystal.fromAse a cfg.spin).charges,
      (Crystal.fromAse a cfg.spin).positions * R, (Crystal.fromAse a cfg.spin).cell * R,
      (Crystal.fromAse a cfg.spin).spin⟩ := by
    unfold Crystal.fromAse Spec.rotated
    simp only [Matrix.smul_mul]
  have hdet := fromAse_det a cfg.spin hcell
  have hsame := same_nameNC a hcell f h
  have hr := ncRun_rotated_partial L cfg a R hR hcell hc hadd (hk.imp And.left id)
  generalize hcr : Crystal.fromAse a cfg.spin = c at hf hdet
  have e1 : ∀ n, gVectors (c.cell * R) n = fun k => rot3 R (gVectors c.cell n k) :=
    fun n => gVectors_rotate hR c.cell n
  have e3 : (fun a => (c.positions * R) a) = fun a => rot3 R (c.positions a) :=
    funext fun a => rot3_rows _ _ a
  have hv : (⟨c.charges, c.positions * R, c.cell * R, c.spin⟩ : Crystal m).vol = c.vol := vol_rotate hR _
  have key := bandAtomsNC_mono L T cfg b supplied a (Spec.rotated R a) c hcr _ hf
    (fun n rep hn => ⟨rep, hr.trans hn, rfl⟩) rfl rfl (fun n => by
      unfold createFreqMask
      rw [sphericalMask_rotate hR]) hv (by rw [← Matrix.smul_mul]; exact hT _)
    (fun P hP => ⟨P, hP, rfl, fun n => ?_, fun n q frac bs hq hb => ?_⟩) (fun n {d} dens => ?_)
    (fun n {d} dens s j => vxc_lda_any hxc _ _ _ _ _) (fun n q frac j x => ?_) (fun n x => ?_) f h
  · rw [key]
    exact congrArg Except.ok hsame
  · have := localReciprocal_rotate hR L.jn L.csLoc (ncLocalAtom P c.positions) (gVectors c.cell n) c.vol
    rw [← this, ← e1, hv]
    have ha : ncLocalAtom P (c.positions * R) =
        fun a => { ncLocalAtom P c.positions a with pos := rot3 R (ncLocalAtom P c.positions a).pos } := by
      funext a
      unfold ncLocalAtom
      rw [congrFun e3 a]
    rw [← ha]
  · have ek : ∀ j, getKPath (fun _ => frac) (c.cell * R) false j = rot3 R (getKPath (fun _ => frac) c.cell false j) :=
      fun j => kpath_rotate hR c.cell frac j
    refine ⟨bs, ?_, fun j {nb} C => ?_⟩
    · rw [← hb]
      refine ncBetas_radius L P _ _ _ _ fun k x => ?_
      dsimp only
      rw [ek, e1, ← rot3_sq hR fun d => getKPath (fun _ => frac) c.cell false k d + gVectors c.cell n x d]
      exact Finset.sum_congr rfl fun d _ => by rw [rot3_add]
    · have hmem : ∀ (a : Fin m) (b : Fin (ncSpecies P bs a).nbeta),
          ∃ l ∈ P.angular, (P.angular.getD a []).getD b 0 ∈ l := by
        intro a b
        unfold ncBetas at hb
        by_cases hcpu : L.cpus / 2 = 0
        · rw [if_pos hcpu] at hb
          cases hb
        rw [if_neg hcpu] at hb
        exact betaSbtGrid_angular L _ _ _ _ bs hb a b b.2
      have := nonlocal_rotated_partial L.eigh L.sph hc (rowSpecies (fun a : Fin m => ncSpecies P bs a)
        fun a => (ncSpecies P bs a).beta j) (fun a b => by
          obtain ⟨l, hl, hb⟩ := hmem a b
          exact hadd P hP l hl _ hb) c.positions (gVectors c.cell n)
        (fun _ : Fin 1 => getKPath (fun _ => frac) c.cell false j) (fun a b k x hx => by
          rcases hk with hk | hk
          · obtain ⟨l, hl⟩ := hk.2 _ q frac hq j
            obtain ⟨z, hz⟩ := path_never_zero c.cell hdet n frac j x hx l
            exact (hl z hz).elim
          · obtain ⟨l, hl, hb⟩ := hmem a b
            left
            show ((P.angular.getD a []).getD b 0).toNat = 0
            rw [hk P hP l hl _ hb]
            rfl) R hR C c.vol
      rw [← this]
      dsimp only
      rw [e1, ek, ← e3]
  · dsimp only
    rw [e1]
    unfold hartreeRealSpace
    rw [hartreeReciprocal_rotate hR]
  · dsimp only
    rw [e1, kpath_rotate hR, ← rot3_sq hR fun d => gVectors c.cell n x d + getKPath (fun _ => frac) c.cell false j d]
    exact Finset.sum_congr rfl fun d _ => by rw [rot3_add]
  · dsimp only
    rw [e1]
    exact rot3_sq hR _

/-- C94 (part): rotating or reflecting the whole geometry changes nothing in what a norm-conserving band calculation
with a local density functional saves, provided that the fractional path of ase does not depend on the orientation of
the cell.  `Conj` and `Addition` are the textbook properties of the spherical harmonics.  Missing: GGA functionals,
whose potential depends on the orientation (`vxc_gga_rotate_wrong`), and, with projectors of angular momentum above
zero, points with integer coordinates on the path or in the k mesh (`nonlocal_rotation_wrong`). -/
theorem bandRunNC_rotated_partial (L : NcLib) (T : BandTools) (cfg : NcConfig) (b : BandConfig) (supplied : Bool)
    {m : ℕ} (a : AseAtoms m) (R : Matrix (Fin 3) (Fin 3) ℝ) (hR : R * Rᵀ = 1) (hcell : a.cell.det ≠ 0)
    (hxc : pyIn "gga" cfg.xc = false) (hc : L.sph.Conj)
    (hT : ∀ cell, T.bandpath (cell * R) b.kPath b.numKpoints = T.bandpath cell b.kPath b.numKpoints)
    (hadd : ∀ P, createPseudo L cfg (List.ofFn fun i => L.symbol (a.numbers i)) = .ok P →
      ∀ ls ∈ P.angular, ∀ l ∈ ls, L.sph.Addition l.toNat)
    (hk : ((∀ n kn, runSizes cfg.toRunConfig = .ok (n, kn) → ∃ i, 2 ∣ kn i) ∧
        ∀ cell q frac, T.bandpath cell b.kPath b.numKpoints = .ok ⟨q, frac⟩ → ∀ i, ∃ l, ∀ z : ℤ, frac i l ≠ z) ∨
      ∀ P, createPseudo L cfg (List.ofFn fun i => L.symbol (a.numbers i)) = .ok P →
        ∀ ls ∈ P.angular, ∀ l ∈ ls, l = 0) (f : BandFileNC) :
    bandAtomsNC L T cfg b supplied (Spec.rotated R a) = .ok f ↔ bandAtomsNC L T cfg b supplied a = .ok f := by
  have hR' : Rᵀ * R = 1 := mul_eq_one_comm.1 hR
  refine ⟨fun h => ?_, rotated_mono L T cfg b supplied a R hR hcell hxc hc hT hadd hk f⟩
  have hb : Spec.rotated Rᵀ (Spec.rotated R a) = a := by
    unfold Spec.rotated
    simp only [Matrix.mul_assoc, hR, Matrix.mul_one]
  have := rotated_mono L T cfg b supplied (Spec.rotated R a) Rᵀ (by rw [Matrix.transpose_transpose]; exact hR') (by
      show (a.cell * R).det ≠ 0
      rw [Matrix.det_mul]
      refine mul_ne_zero hcell fun h0 => ?_
      have := congrArg Matrix.det hR
      rw [Matrix.det_mul, h0] at this
      simp at this) hxc hc (fun cell => by
      rw [← hT (cell * Rᵀ), Matrix.mul_assoc, hR', Matrix.mul_one]) hadd hk f h
  rwa [hb] at this

/-! ### Lattice vectors -/

private theorem moved_mono (L : NcLib) (T : BandTools) (cfg : NcConfig) (b : BandConfig) (supplied : Bool)
    {m : ℕ} (a : AseAtoms m) (hA : a.cell.det ≠ 0) (v : Fin m → Fin 3 → ℝ)
    (hv : ∀ i, Spec.IsLatticeVector a.cell (v i)) (f : BandFileNC) (h : bandAtomsNC L T cfg b supplied a = .ok f) :
    bandAtomsNC L T cfg b supplied (Spec.moved v a) = .ok f := by
  have hA' := fromAse_det a cfg.spin hA
  have hv' := fun i => fromAse_lattice a cfg.spin (v i) (hv i)
  have hsame := same_nameNC a hA f h
  have key := bandAtomsNC_mono L T cfg b supplied a (Spec.moved v a) _ rfl _ (fromAse_moved a cfg.spin v)
    (fun n rep hn => by
      obtain ⟨r', h1, -, h2, -⟩ := ncRun_lattice_move L cfg a hA v hv rep hn
      exact ⟨r', h1, h2⟩) rfl rfl (fun n => rfl) rfl rfl
    (fun P hP => ⟨P, hP, rfl, fun n => ncLocal_shifted L P _ hA' _ hv' n, fun n q frac bs hq hb =>
      ⟨bs, hb, fun j {nb} C => nonlocal_lattice L.eigh L.sph _ hA' (rowSpecies (fun a : Fin m => ncSpecies P bs a)
        fun a => (ncSpecies P bs a).beta j) _ _ hv' _ C _⟩⟩) (fun n {d} dens => rfl)
    (fun n {d} dens s j => rfl) (fun n q frac j x => rfl) (fun n x => rfl) f h
  rw [key]
  exact congrArg Except.ok hsame

/-- C94: moving atoms by lattice vectors, a different one for each atom, changes nothing in what a norm-conserving
band calculation saves. -/
theorem bandRunNC_lattice_move (L : NcLib) (T : BandTools) (cfg : NcConfig) (b : BandConfig) (supplied : Bool)
    {m : ℕ} (a : AseAtoms m) (hA : a.cell.det ≠ 0) (v : Fin m → Fin 3 → ℝ)
    (hv : ∀ i, Spec.IsLatticeVector a.cell (v i)) (f : BandFileNC) :
    bandAtomsNC L T cfg b supplied (Spec.moved v a) = .ok f ↔ bandAtomsNC L T cfg b supplied a = .ok f := by
  refine ⟨fun h => ?_, moved_mono L T cfg b supplied a hA v hv f⟩
  have := moved_mono L T cfg b supplied (Spec.moved v a) hA (fun i => -v i) (fun i => by
    obtain ⟨z, hz⟩ := hv i
    refine ⟨fun l => -z l, fun d => ?_⟩
    show -v i d = _
    rw [hz d, ← Finset.sum_neg_distrib]
    exact Finset.sum_congr rfl fun l _ => by
      show _ = ((-z l : ℤ) : ℝ) * a.cell l d
      push_cast
      ring) f h
  have hb : Spec.moved (fun i => -v i) (Spec.moved v a) = a := by
    unfold Spec.moved
    cases a
    simp only [AseAtoms.mk.injEq, true_and, and_true]
    ext i d
    simp
  rwa [hb] at this

/-! ### Order of the atoms -/

private theorem reorderedBand_mono (L : NcLib) (T : BandTools) (cfg : NcConfig) (b : BandConfig) (supplied : Bool)
    {m : ℕ} (a : AseAtoms m) (e : Equiv.Perm (Fin m)) (f : BandFileNC)
    (h : bandAtomsNC L T cfg b supplied a = .ok f) :
    bandAtomsNC L T cfg b supplied (Spec.reordered e a) = .ok { f with
      name := String.ofList (List.ofFn fun i => L.symbol (a.numbers (e i))).flatten ++ "_band_structure.npy" } := by
  have hs : ∑ i, a.numbers (e i) = ∑ i, a.numbers i := Equiv.sum_comp e a.numbers
  have hf : Crystal.fromAse (Spec.reordered e a) cfg.spin =
      ⟨fun i => (Crystal.fromAse a cfg.spin).charges (e i),
        Matrix.of fun i => (Crystal.fromAse a cfg.spin).positions (e i),
        (Crystal.fromAse a cfg.spin).cell, (Crystal.fromAse a cfg.spin).spin⟩ := by
    unfold Crystal.fromAse Spec.reordered
    simp only [hs]
    rfl
  generalize hcr : Crystal.fromAse a cfg.spin = c at hf
  refine bandAtomsNC_mono L T cfg b supplied a (Spec.reordered e a) c hcr _ hf
    (fun n rep hn => ⟨rep, (ncRun_reordered L cfg a e _).2 hn, rfl⟩) (Equiv.sum_comp e c.charges) rfl
    (fun n => rfl) rfl rfl (fun P hP => ?_) (fun n {d} dens => rfl) (fun n {d} dens s j => rfl)
    (fun n q frac j x => rfl) (fun n x => rfl) f h
  obtain ⟨P', hP', hval, hloc, hbeta⟩ := createPseudo_reordered L cfg a.numbers e P hP
  refine ⟨P', hP', hval, fun n => ?_, fun n q frac bs hq hb => ?_⟩
  · have := local_permute L.jn L.csLoc (ncLocalAtom P c.positions) (gVectors c.cell n) c.vol "sbt" e
    refine Eq.trans ?_ this
    congr 1
    exact hloc c.positions
  · obtain ⟨bs', hb', hsp⟩ := hbeta _ _ bs hb
    refine ⟨bs', hb', fun j {nb} C => ?_⟩
    have key : ∀ sp' : Fin m → NlSpecies q n, sp' = (fun i : Fin m => ncSpecies P bs (e i)) →
        hamiltonianNonlocal C (nlPsiAll L.eigh L.sph (rowSpecies sp' fun a => (sp' a).beta j)
          (fun i => c.positions (e i)) (gVectors c.cell n)
          fun _ : Fin 1 => getKPath (fun _ => frac) c.cell false j) c.vol =
        hamiltonianNonlocal C (nlPsiAll L.eigh L.sph (rowSpecies (fun a : Fin m => ncSpecies P bs a)
          fun a => (ncSpecies P bs a).beta j) c.positions (gVectors c.cell n)
          fun _ : Fin 1 => getKPath (fun _ => frac) c.cell false j) c.vol := by
      rintro _ rfl
      exact nonlocal_permute L.eigh L.sph (rowSpecies (fun a : Fin m => ncSpecies P bs a)
          fun a => (ncSpecies P bs a).beta j) c.positions _ _ e C _
    exact key _ hsp

/-- C94: the order in which the geometry file lists the atoms matters only for the name of the file: the calculation
saves a file in both orders or in none, and the values agree. -/
theorem bandRunNC_reordered (L : NcLib) (T : BandTools) (cfg : NcConfig) (b : BandConfig) (supplied : Bool)
    {m : ℕ} (a : AseAtoms m) (hcell : a.cell.det ≠ 0) (e : Equiv.Perm (Fin m)) (f : BandFileNC) :
    bandAtomsNC L T cfg b supplied (Spec.reordered e a) = .ok f ↔
      (∃ name, bandAtomsNC L T cfg b supplied a = .ok { f with name := name }) ∧
      f.name = String.ofList (List.ofFn fun i => L.symbol (a.numbers (e i))).flatten ++ "_band_structure.npy" := by
  have h2 : Spec.reordered e.symm (Spec.reordered e a) = a := by
    unfold Spec.reordered
    simp only [Equiv.apply_symm_apply]
    congr 1
    ext i d
    simp
  constructor
  · intro h
    have h1 := reorderedBand_mono L T cfg b supplied _ e.symm f h
    rw [h2] at h1
    exact ⟨⟨_, h1⟩, (same_nameNC (Spec.reordered e a) hcell f h) ▸ rfl⟩
  · rintro ⟨⟨name, h⟩, hn⟩
    have h1 := reorderedBand_mono L T cfg b supplied a e _ h
    rw [h1]
    obtain ⟨nm, r, bd, v⟩ := f
    obtain rfl := hn
    rfl

/-- Hypotheses of these theorems, and what they say for the bands of the silicon pair: exchanging the atoms and moving
the second one by a lattice vector give the same file. -/
example (ε : ℝ) (xc : XcLib) (eigh : Eigh) (jn : SphBessel) (csLoc csBeta : Spline) :
    ∃ f, bandAtomsNC (siliconLib xc eigh jn csLoc csBeta) (lithiumTools ε) siliconConfig lithiumBands false
        siliconAtoms = .ok f ∧
      bandAtomsNC (siliconLib xc eigh jn csLoc csBeta) (lithiumTools ε) siliconConfig lithiumBands false
        (Spec.moved ![0, ![1, -2, 0]] siliconAtoms) = .ok f ∧
      bandAtomsNC (siliconLib xc eigh jn csLoc csBeta) (lithiumTools ε) siliconConfig lithiumBands false
        (Spec.reordered (Equiv.swap 0 1) siliconAtoms) = .ok f := by
  obtain ⟨P, frac, H⟩ := silicon_band ε xc eigh jn csLoc csBeta
  obtain ⟨k, hk⟩ := coordinates_exist (fromAse_det siliconAtoms none (by simp [siliconAtoms])) frac
  obtain ⟨n, rep, mask, vloc, bs, values, -, hd, -, -, -, -, h, -⟩ := bandRunNC_channels _ _ _ _ _ _ _ _ _ _ H _ rfl _
    (fun _ _ => rfl) k hk
  refine ⟨_, h, ?_, ?_⟩
  · exact (bandRunNC_lattice_move _ _ _ _ _ _ (by simp [siliconAtoms]) _ (fun i => by
      refine ⟨![0, ![1, -2, 0]] i, fun d => ?_⟩
      fin_cases i <;> fin_cases d <;> simp [Fin.sum_univ_three, siliconAtoms]) _).2 h
  · exact (bandRunNC_reordered _ _ _ _ _ _ (by simp [siliconAtoms]) _ _).2 ⟨⟨_, h⟩, rfl⟩

/-- A path that stays at a corner of the zone. -/
private noncomputable def halfTools (ε : ℝ) : BandTools :=
  { lithiumTools ε with bandpath := fun _ _ _ => .ok ⟨8, fun _ _ => 1 / 2⟩ }

/-- The hypotheses of `bandRunNC_rotated_partial` hold for the silicon pair, with projectors of angular momentum one,
and every rotation. -/
example (ε : ℝ) (xc : XcLib) (eigh : Eigh) (jn : SphBessel) (csLoc csBeta : Spline) (R : Matrix (Fin 3) (Fin 3) ℝ)
    (hR : R * Rᵀ = 1) : ∃ f,
    bandAtomsNC (siliconLib xc eigh jn csLoc csBeta) (halfTools ε) siliconConfig lithiumBands false
      siliconAtoms = .ok f ∧
    bandAtomsNC (siliconLib xc eigh jn csLoc csBeta) (halfTools ε) siliconConfig lithiumBands false
      (Spec.rotated R siliconAtoms) = .ok f := by
  obtain ⟨P, H0⟩ := silicon_admissible xc eigh jn csLoc csBeta
  have H : Spec.AdmissibleBandNC (siliconLib xc eigh jn csLoc csBeta) (halfTools ε) siliconConfig lithiumBands
      siliconAtoms (fun _ => 4) (fun _ => 2) P 4 0 8 (fun _ _ => 1 / 2) := { H0 with
    path := rfl
    points := by norm_num
    share := by show 8 ∣ 8; norm_num
    bandWaves := fun n hn mask hm => le_trans (by decide) (H0.waves n hn mask hm)
    bandOptimizer := ⟨_, rfl⟩ }
  obtain ⟨k, hk⟩ := coordinates_exist (fromAse_det siliconAtoms none (by simp [siliconAtoms])) (fun _ _ => 1 / 2)
  obtain ⟨n, rep, mask, vloc, bs, values, -, hd, -, -, -, -, h, -⟩ := bandRunNC_channels _ _ _ _ _ _ _ _ _ _ H _ rfl _
    (fun _ _ => rfl) k hk
  refine ⟨_, h, (bandRunNC_rotated_partial _ _ _ _ _ _ R hR (by simp [siliconAtoms]) (by decide +kernel)
    lowHarmonics_contracts.1 (fun _ => rfl) ?_ (.inl ⟨?_, ?_⟩) _).2 h⟩
  · intro P hP ls hls l hl
    obtain ⟨P', h1, -, -, -, h5, -⟩ := silicon_loaded xc eigh jn csLoc csBeta
    rw [h1] at hP
    cases hP
    rw [h5] at hls
    simp only [List.mem_cons, List.not_mem_nil, or_false, or_self] at hls
    subst hls
    simp only [List.mem_cons, List.not_mem_nil, or_false] at hl
    subst hl
    exact lowHarmonics_contracts.2.2
  · intro n kn h
    obtain ⟨n', kn', h1, -, h2⟩ := run_sizes siliconConfig.toRunConfig (fun _ => 4) (fun _ => 2)
      ⟨Or.inl rfl, fun _ => by norm_num⟩ ⟨Or.inr ⟨rfl, rfl, rfl⟩, fun _ => by norm_num⟩
    rw [h1] at h
    cases h
    exact ⟨0, by rw [RunSetup.least_eq (k := 2) (h2 0) RunSetup.smooth2]⟩
  · intro cell q frac h i
    obtain ⟨rfl, hf⟩ := Sigma.mk.inj (Except.ok.inj h)
    obtain rfl := eq_of_heq hf
    refine ⟨0, fun z hz => ?_⟩
    have h2 : (1 : ℤ) = 2 * z := by
      have : (1 : ℝ) = 2 * z := by rw [← hz]; norm_num
      exact_mod_cast this
    omega

end Jrystal
