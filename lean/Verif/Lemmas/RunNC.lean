import Verif.Lemmas.FirstUpdate
import Verif.Lemmas.Run
import Verif.Lemmas.Grid
import Verif.Model.RunNC

/- Helper lemmas about whole norm-conserving calculations. -/
namespace Jrystal
open scoped BigOperators ComplexConjugate
open Matrix

/-- A run sees geometry and pseudopotential only through the five energies, the mask, the volume and the
electron numbers. -/
theorem runLoopNC_regeo (L : RunLib) (cfg : RunConfig) (util : ℕ) {na na' nk M M' : ℕ} {ι ι' : Type}
    [Fintype ι] [Fintype ι'] {n : Fin 3 → ℕ} (E : GsEnv na nk n) (g : Idx n → Fin 3 → ℝ)
    (kpts : Fin nk → Fin 3 → ℝ) (pos : Fin na' → Fin 3 → ℝ) (charge : Fin na' → ℝ)
    (vloc vloc' : Idx n → ℂ) (psi : Fin nk → ι → Fin M → Idx n → ℂ)
    (psi' : Fin nk → ι' → Fin M' → Idx n → ℂ) (ew : ℝ)
    (h : ∀ {ns nb : ℕ} (p : GsParams ns nk (maskCount E.mask) nb),
      gsPartsNC (regeo E g kpts pos charge) vloc' psi' p = gsPartsNC E vloc psi p) :
    runLoopNC L cfg util (regeo E g kpts pos charge) vloc' psi' ew = runLoopNC L cfg util E vloc psi ew := by
  have h1 : ∀ {ns nb : ℕ} (p : GsParams ns nk (maskCount E.mask) nb),
      gsTotalNC (regeo E g kpts pos charge) vloc' psi' p = gsTotalNC E vloc psi p := by
    intro ns nb p
    unfold gsTotalNC
    rw [h]
  have h2 : ∀ {ns nb : ℕ} (t : ℝ) (p : GsParams ns nk (maskCount E.mask) nb),
      gsFreeNC (regeo E g kpts pos charge) vloc' psi' t p = gsFreeNC E vloc psi t p := by
    intro ns nb t p
    unfold gsFreeNC
    rw [h1]
    rfl
  have e1 : ∀ {ns nb : ℕ}, gsPartsNC (ns := ns) (nb := nb) (regeo E g kpts pos charge) vloc' psi'
      = gsPartsNC E vloc psi := funext fun p => h p
  have e2 : ∀ {ns nb : ℕ}, gsTotalNC (ns := ns) (nb := nb) (regeo E g kpts pos charge) vloc' psi'
      = gsTotalNC E vloc psi := funext fun p => h1 p
  have e3 : ∀ {ns nb : ℕ} (opt : Optimizer),
      runUpdateNC (ns := ns) (nb := nb) opt (regeo E g kpts pos charge) vloc' psi'
        = runUpdateNC opt E vloc psi := by
    intro ns nb opt
    funext p t
    have h3 : (fun q : GsParams ns nk (maskCount E.mask) nb =>
        (gsFreeNC (regeo E g kpts pos charge) vloc' psi' t q).map fun r => r.1) =
        fun q => (gsFreeNC E vloc psi t q).map fun r => r.1 := funext fun q => by rw [h2]
    exact congrArg (fun f => opt.step f p) h3
  unfold runLoopNC
  cases L.optimizer with
  | error e => rfl
  | ok opt =>
    simp only
    unfold gsCalcNC
    have e6 : ∀ {ns nb : ℕ} (t : ℝ), gsFreeNC (ns := ns) (nb := nb) (regeo E g kpts pos charge) vloc' psi' t
        = gsFreeNC E vloc psi t := fun t => funext fun p => h2 t p
    rw [e1, e2, e3, e6]
    have e4 : ∀ {ns nb : ℕ}, gsDensity (ns := ns) (nb := nb) (regeo E g kpts pos charge) = gsDensity E :=
      funext fun p => rfl
    rw [e4]
    have e5 : ∀ x, gsInitNC (ns := if cfg.restricted then 1 else 2) (empty := cfg.emptyBands)
        (regeo E g kpts pos charge) L.occDraw x = gsInitNC (empty := cfg.emptyBands) E L.occDraw x := fun x => rfl
    rw [e5]
    dsimp only [regeo]
    cases gsInitNC (empty := cfg.emptyBands) E L.occDraw
        (L.pwDraw (if cfg.restricted then 1 else 2) nk (maskCount E.mask)
          (driverBands E.ne.toNat cfg.emptyBands)) <;> rfl

theorem runLoopNC_ew (L : RunLib) (cfg : RunConfig) (util : ℕ) {na nk M : ℕ} {ι : Type} [Fintype ι]
    {n : Fin 3 → ℕ} (E : GsEnv na nk n) (vloc : Idx n → ℂ) (psi : Fin nk → ι → Fin M → Idx n → ℂ)
    (ew ew' : ℝ) : runLoopNC L cfg util E vloc psi ew' = (runLoopNC L cfg util E vloc psi ew).map fun r =>
      ⟨r.parts, ew', r.total + (ew' - ew), r.density⟩ := by
  unfold runLoopNC
  cases L.optimizer with
  | error e => rfl
  | ok opt =>
    simp only
    cases gsInitNC (empty := cfg.emptyBands) E L.occDraw
        (L.pwDraw (if cfg.restricted then 1 else 2) nk (maskCount E.mask)
          (driverBands E.ne.toNat cfg.emptyBands)) with
    | error e => rfl
    | ok p =>
      simp only
      by_cases hp : occPlaceable util p.occ = false
      · rw [if_pos hp, if_pos hp]
        rfl
      · rw [if_neg hp, if_neg hp]
        rw [← firstUpdate_map]
        exact congrArg _ (gsRun_ew _ _ _ ew ew' _ _ _ _ _ _)

/-- The energies of two set-ups that agree in the arrays of the model. -/
theorem gsPartsNC_regeo {na na' nk ns nb M M' : ℕ} {ι ι' : Type} [Fintype ι] [Fintype ι'] {n : Fin 3 → ℕ}
    (E : GsEnv na nk n) (g : Idx n → Fin 3 → ℝ)
    (kpts : Fin nk → Fin 3 → ℝ) (pos : Fin na' → Fin 3 → ℝ) (charge : Fin na' → ℝ) (vloc : Idx n → ℂ)
    (psi : Fin nk → ι → Fin M → Idx n → ℂ) (psi' : Fin nk → ι' → Fin M' → Idx n → ℂ)
    (hhar : ∀ {S : ℕ} (rho : Fin S → Idx n → ℂ), hartreeEnergy rho g E.vol false = hartreeEnergy rho E.g E.vol false)
    (hxc : ∀ {S : ℕ} (d : Fin S → Idx n → ℝ), xcEnergy E.lib E.xc false d g E.vol = xcEnergy E.lib E.xc false d E.g E.vol)
    (hkin : ∀ {S B : ℕ} (c : Coef S nk B n) (o : Occ S nk B), kineticEnergyOcc g kpts c o = kineticEnergyOcc E.g E.kpts c o)
    (hnl : ∀ {S B : ℕ} (c : Coef S nk B n), hamiltonianNonlocal c psi' E.vol = hamiltonianNonlocal c psi E.vol)
    (p : GsParams ns nk (maskCount E.mask) nb) :
    gsPartsNC (regeo E g kpts pos charge) vloc psi' p = gsPartsNC E vloc psi p := by
  unfold gsPartsNC
  show (match gsState E p with | .error e => _ | .ok ⟨_, _, c, o⟩ => _) = _
  cases gsState E p with
  | error e => rfl
  | ok r =>
    obtain ⟨S, B, c, o⟩ := r
    have hen : energyNonlocal c psi' E.vol (some o) = energyNonlocal c psi E.vol (some o) := by
      unfold energyNonlocal
      rw [hnl]
    simp only [regeo, hhar, hxc, hkin, hen]

/-- Two crystals with the same electrons for which mask, repulsion, potentials and energies agree give the
same run. -/
theorem runCrystalNC_congr (L : NcLib) (cfg : NcConfig) {m : ℕ} (c c' : Crystal m) (P P' : NcLists)
    (hmask : ∀ n, createFreqMask cfg.toRunConfig c'.cell n = createFreqMask cfg.toRunConfig c.cell n)
    (hrep : ∀ n, runRepulsion L.erfc cfg.toRunConfig c' n = runRepulsion L.erfc cfg.toRunConfig c n)
    (hvol : c'.vol = c.vol) (hspin : c'.spin = c.spin) (hval : P'.valence.sum = P.valence.sum)
    (hloc : ∀ n, localReciprocal L.jn L.csLoc (ncLocalAtom P' c'.positions) (gVectors c'.cell n) c'.vol "sbt"
      = localReciprocal L.jn L.csLoc (ncLocalAtom P c.positions) (gVectors c.cell n) c.vol "sbt")
    (hberr : ∀ n kn e, runSizes cfg.toRunConfig = .ok (n, kn) →
      ncBetas L P (gVectors c.cell n) (flatRows (kVectors c.cell kn)) = .error e →
      ncBetas L P' (gVectors c'.cell n) (flatRows (kVectors c'.cell kn)) = .error e)
    (hbeta : ∀ n kn bs, runSizes cfg.toRunConfig = .ok (n, kn) →
      ncBetas L P (gVectors c.cell n) (flatRows (kVectors c.cell kn)) = .ok bs →
      ∃ bs', ncBetas L P' (gVectors c'.cell n) (flatRows (kVectors c'.cell kn)) = .ok bs' ∧
        ∀ (mask : Idx n → Bool) (vloc : Idx n → ℂ) {ns nb : ℕ}
          (p : GsParams ns (idxList kn).length (maskCount mask) nb),
          gsPartsNC (regeo (runEnvNC L cfg c P n kn mask) (gVectors c'.cell n) (flatRows (kVectors c'.cell kn))
              c'.positions (fun a => (c'.charges a : ℝ))) vloc
            (nlPsiAll L.eigh L.sph (fun a : Fin m => ncSpecies P' bs' a) c'.positions
              (gVectors c'.cell n) (flatRows (kVectors c'.cell kn))) p
          = gsPartsNC (runEnvNC L cfg c P n kn mask) vloc
            (nlPsiAll L.eigh L.sph (fun a : Fin m => ncSpecies P bs a) c.positions
              (gVectors c.cell n) (flatRows (kVectors c.cell kn))) p) :
    runCrystalNC L cfg c' P' = runCrystalNC L cfg c P := by
  unfold runCrystalNC runGridNC
  cases hs : runSizes cfg.toRunConfig with
  | error e => rfl
  | ok nn =>
    obtain ⟨n, kn⟩ := nn
    simp only
    rw [hmask, hrep, hloc]
    cases createFreqMask cfg.toRunConfig c.cell n with
    | error e => rfl
    | ok mask =>
      simp only
      cases runRepulsion L.erfc cfg.toRunConfig c n with
      | error e => rfl
      | ok ew =>
        simp only
        cases localReciprocal L.jn L.csLoc (ncLocalAtom P c.positions) (gVectors c.cell n) c.vol "sbt" with
        | error e => rfl
        | ok vloc =>
          simp only
          generalize (if cfg.parallelK = true then L.devices else 1) = util
          by_cases hd : (idxList kn).length % util ≠ 0
          · rw [if_pos hd, if_pos hd]
          rw [if_neg hd, if_neg hd]
          cases hb : ncBetas L P (gVectors c.cell n) (flatRows (kVectors c.cell kn)) with
          | error e =>
            rw [hberr n kn e hs hb]
          | ok bs =>
            obtain ⟨bs', hb', hp⟩ := hbeta n kn bs hs hb
            rw [hb']
            simp only
            have he : runEnvNC L cfg c' P' n kn mask = regeo (runEnvNC L cfg c P n kn mask) (gVectors c'.cell n)
                (flatRows (kVectors c'.cell kn)) c'.positions (fun a => (c'.charges a : ℝ)) := by
              unfold runEnvNC runEnv regeo
              simp only [hvol, hval, hspin]
            have hl := runLoopNC_regeo L.toRunLib cfg.toRunConfig util (runEnvNC L cfg c P n kn mask)
              (gVectors c'.cell n) (flatRows (kVectors c'.cell kn)) c'.positions (fun a => (c'.charges a : ℝ))
              vloc vloc _ _ ew (fun p => hp mask vloc p)
            rw [he, hl]

/-! ### Projectors -/

theorem betaOfLists_radius (L : NcLib) {nk : ℕ} {n : Fin 3 → ℕ} (r : List ℚ) (b : List (List ℚ)) (l : List ℤ)
    (g g' : Idx n → Fin 3 → ℝ) (kpts kpts' : Fin nk → Fin 3 → ℝ)
    (h : ∀ k x, ∑ d, (kpts' k d + g' x d) ^ 2 = ∑ d, (kpts k d + g x d) ^ 2) :
    betaOfLists L r b l (g', kpts') = betaOfLists L r b l (g, kpts) := by
  unfold betaOfLists betaSbtSingle
  simp only [h]

theorem ncBetas_radius (L : NcLib) (P : NcLists) {nk : ℕ} {n : Fin 3 → ℕ}
    (g g' : Idx n → Fin 3 → ℝ) (kpts kpts' : Fin nk → Fin 3 → ℝ)
    (h : ∀ k x, ∑ d, (kpts' k d + g' x d) ^ 2 = ∑ d, (kpts k d + g x d) ^ 2) :
    ncBetas L P g' kpts' = ncBetas L P g kpts := by
  unfold ncBetas
  have e : ∀ rs bs ls, betaSbtGrid (betaOfLists L) rs bs ls (g', kpts')
      = betaSbtGrid (betaOfLists L) rs bs ls (g, kpts) := by
    intro rs
    induction rs with
    | nil => intro bs ls; simp [betaSbtGrid]
    | cons r rs ih =>
      intro bs ls
      cases bs with
      | nil => simp [betaSbtGrid]
      | cons b bs =>
        cases ls with
        | nil => simp [betaSbtGrid]
        | cons l ls =>
          unfold betaSbtGrid
          rw [betaOfLists_radius L r b l g g' kpts kpts' h, ih]
  rw [e]

theorem localReciprocal_rotate {R : Matrix (Fin 3) (Fin 3) ℝ} (hR : R * Rᵀ = 1) (jn : SphBessel) (cs : Spline)
    {na : ℕ} {n : Fin 3 → ℕ} (atoms : Fin na → LocalAtom) (g : Idx n → Fin 3 → ℝ) (vol : ℝ) :
    localReciprocal jn cs (fun a => { atoms a with pos := rot3 R (atoms a).pos }) (fun x => rot3 R (g x)) vol "sbt"
      = localReciprocal jn cs atoms g vol "sbt" := by
  have hrad : gRadius (fun x => rot3 R (g x)) = gRadius g := by
    funext k
    unfold gRadius
    rw [rot3_sq hR]
  unfold localReciprocal localForm localSbt
  simp only [if_true, hrad, rot3_dot hR]

/-- A mesh with an even number of points along some axis never hits minus a grid frequency. -/
theorem mesh_never_zero (A : Matrix (Fin 3) (Fin 3) ℝ) (hA : A.det ≠ 0) (n kn : Fin 3 → ℕ) (i : Fin 3)
    (hi : 2 ∣ kn i) (q : Fin (idxList kn).length) (x : Idx n)
    (h : ∀ d, flatRows (kVectors A kn) q d + gVectors A n x d = 0) : False := by
  set j := (idxList kn).get q with hj
  have h1 := row_comb_inj _ (recip_det_ne_zero A hA) (fun l => monkhorstPack kn j l + (sfreq (n l) (x l) : ℝ)) 0
    (fun d => by
      have := h d
      rw [gVectors_apply] at this
      unfold flatRows kVectors at this
      rw [← hj, ← Finset.sum_add_distrib] at this
      simp only [Pi.zero_apply, zero_mul, Finset.sum_const_zero]
      rw [← this]
      exact Finset.sum_congr rfl fun l _ => by ring)
  have h2 := congrFun h1 i
  simp only [Pi.zero_apply, monkhorstPack] at h2
  have hn : (kn i : ℝ) ≠ 0 := by
    have := (j i).2
    exact_mod_cast (by omega : kn i ≠ 0)
  have h3 : 2 * ((j i : ℕ) : ℝ) + 1 - kn i + 2 * kn i * (sfreq (n i) (x i) : ℝ) = 0 := by
    field_simp at h2
    linarith
  have h4 : 2 * ((j i : ℕ) : ℤ) + 1 - kn i + 2 * kn i * sfreq (n i) (x i) = 0 := by exact_mod_cast h3
  obtain ⟨t, ht⟩ := hi
  have h5 : ((kn i : ℕ) : ℤ) = 2 * t := by exact_mod_cast ht
  rw [h5] at h4
  have h6 : 2 * (((j i : ℕ) : ℤ) - t + 2 * t * sfreq (n i) (x i)) = -1 := by linear_combination h4
  omega

end Jrystal
