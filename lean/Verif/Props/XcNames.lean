import Verif.Lemmas.FirstUpdate
import Verif.Model.BandRun
import Verif.Model.BandRunNC
import Verif.Props.Xc
import Verif.Props.BandRun
import Mathlib.Data.List.Permutation

/-
C117: the setting of the exchange-correlation functional, names joined by `+`, stands for the sum of the named
functionals.  Whole calculations, ground states and band structures, all-electron and with pseudopotentials, depend only
on the values of that sum; the order of the names and the way the sum is split into names do not matter.
-/
namespace Jrystal
open scoped BigOperators

/-- The setting with the names `l` (the format of `xc` in the configuration): the names joined by `+`. -/
def Spec.joined (l : List String) : String := String.ofList (['+'].intercalate (l.map String.toList))

/-- Names that can be joined: at least one, none with a `+` in it. -/
def Spec.Names (l : List String) : Prop := l ≠ [] ∧ ∀ x ∈ l, '+' ∉ x.toList

/-- Two settings with the same meaning: on every grid, for every density with any number of channels, the same energy per
electron and the same potential. -/
structure Spec.SameFunctional (lib : XcLib) (xt : String) (lib' : XcLib) (xt' : String) : Prop where
  energy : ∀ {ns : ℕ} {n : Fin 3 → ℕ} (g : Idx n → Fin 3 → ℝ) (rho : Fin ns → Idx n → ℝ),
    excDensity lib' xt' g rho = excDensity lib xt g rho
  potential : ∀ {ns : ℕ} {n : Fin 3 → ℕ} (g : Idx n → Fin 3 → ℝ) (rho : Fin ns → Idx n → ℝ),
    vxcDensity lib' xt' g rho = vxcDensity lib xt g rho

/-! ### Names -/

theorem splitPlus_joined {l : List String} (h : Spec.Names l) : splitPlus (Spec.joined l) = l := by
  unfold splitPlus Spec.joined
  rw [String.toList_ofList, List.splitOn_intercalate]
  · simp
  · simpa using h.2
  · simpa using h.1

theorem pyIn_iff (sub s : String) : pyIn sub s = true ↔ sub.toList <:+: s.toList := by
  simp only [pyIn, List.any_eq_true, List.mem_tails, List.isPrefixOf_iff_prefix, List.infix_iff_prefix_suffix]
  constructor
  · rintro ⟨t, h, h'⟩
    exact ⟨t, h', h⟩
  · rintro ⟨t, h, h'⟩
    exact ⟨t, h', h⟩

private theorem infix_append_sep {α : Type*} (c : α) {w : List α} (hw : c ∉ w) (hne : w ≠ []) (a b : List α) :
    w <:+: a ++ c :: b ↔ w <:+: a ∨ w <:+: b := by
  constructor
  · rintro ⟨u, v, h⟩
    rw [List.append_assoc, List.append_eq_append_iff] at h
    rcases h with ⟨x, hx, hy⟩ | ⟨x, hx, hy⟩
    · rw [List.append_eq_append_iff] at hy
      rcases hy with ⟨y, hy, hz⟩ | ⟨y, hy, hz⟩
      · left
        exact ⟨u, y, by rw [hx, hy, List.append_assoc]⟩
      · cases y with
        | nil =>
          left
          exact ⟨u, [], by rw [hx, hy]; simp⟩
        | cons d y =>
          exfalso
          apply hw
          rw [hy]
          simp only [List.cons_append, List.cons.injEq] at hz
          rw [hz.1]
          simp
    · cases x with
      | nil =>
        simp only [List.nil_append] at hy
        cases w with
        | nil => exact absurd rfl hne
        | cons d w =>
          exfalso
          simp only [List.cons_append, List.cons.injEq] at hy
          exact hw (by rw [hy.1]; simp)
      | cons d x =>
        simp only [List.cons_append, List.cons.injEq] at hy
        right
        exact ⟨x, v, by rw [hy.2, List.append_assoc]⟩
  · rintro (⟨u, v, h⟩ | ⟨u, v, h⟩)
    · exact ⟨u, v ++ c :: b, by rw [← h]; simp⟩
    · exact ⟨a ++ c :: u, v, by rw [← h]; simp⟩

private theorem infix_intercalate {α : Type*} (c : α) {w : List α} (hw : c ∉ w) (hne : w ≠ []) :
    ∀ l : List (List α), w <:+: [c].intercalate l ↔ ∃ x ∈ l, w <:+: x
  | [] => by simp [hne, List.intercalate]
  | [x] => by simp [List.intercalate]
  | x :: y :: l => by
    have e : [c].intercalate (x :: y :: l) = x ++ c :: [c].intercalate (y :: l) := by
      simp [List.intercalate, List.intersperse]
    rw [e, infix_append_sep c hw hne, infix_intercalate c hw hne (y :: l)]
    simp

/-- A setting asks for gradients exactly when one of its names does. -/
theorem pyIn_joined (l : List String) : pyIn "gga" (Spec.joined l) = true ↔ ∃ x ∈ l, pyIn "gga" x = true := by
  simp only [pyIn_iff, Spec.joined, String.toList_ofList]
  rw [infix_intercalate '+' (by decide) (by decide)]
  simp

/-! ### Settings with the same meaning give the same calculations -/

section same
variable {lib lib' : XcLib} {xt xt' : String} (h : Spec.SameFunctional lib xt lib' xt')
include h

theorem xcEnergy_same (ks : Bool) {ns : ℕ} {n : Fin 3 → ℕ} (rho : Fin ns → Idx n → ℝ) (g : Idx n → Fin 3 → ℝ)
    (vol : ℝ) : xcEnergy lib' xt' ks rho g vol = xcEnergy lib xt ks rho g vol := by
  have e : xcDensity lib' xt' ks g rho = xcDensity lib xt ks g rho := by
    funext s j
    unfold xcDensity
    rw [h.energy, h.potential]
  unfold xcEnergy
  rw [e]

private theorem trace_same (ks keep : Bool) {ns nk nq nb d na : ℕ}
    {n : Fin 3 → ℕ} (c : Coef ns nk nb n) (pos : Fin na → Fin 3 → ℝ) (charge : Fin na → ℝ)
    (dens : Fin d → Idx n → ℝ) (g : Idx n → Fin 3 → ℝ) (kpts : Fin nq → Fin 3 → ℝ) (vol : ℝ) :
    hamiltonianTrace lib' xt' ks keep c pos charge dens g kpts vol =
      hamiltonianTrace lib xt ks keep c pos charge dens g kpts vol := by
  unfold hamiltonianTrace effectivePotential
  rw [h.energy, h.potential]

private theorem matrix_same (ks : Bool) {ns nk nb d na : ℕ}
    {n : Fin 3 → ℕ} (c : Coef ns nk nb n) (pos : Fin na → Fin 3 → ℝ) (charge : Fin na → ℝ)
    (dens : Fin d → Idx n → ℝ) (g : Idx n → Fin 3 → ℝ) (kpts : Fin nk → Fin 3 → ℝ) (vol : ℝ) :
    hamiltonianMatrix lib' xt' ks c pos charge dens g kpts vol =
      hamiltonianMatrix lib xt ks c pos charge dens g kpts vol := by
  unfold hamiltonianMatrix hamilK
  simp only [trace_same h]

private theorem ncTrace_same (ks : Bool) {ns nk nb d M : ℕ}
    {ι : Type} [Fintype ι] {n : Fin 3 → ℕ} (c : Coef ns nk nb n) (dens : Fin d → Idx n → ℝ)
    (vloc : Idx n → ℂ) (psi : Fin nk → ι → Fin M → Idx n → ℂ) (g : Idx n → Fin 3 → ℝ)
    (kpts : Fin nk → Fin 3 → ℝ) (vol : ℝ) :
    ncHamiltonianTrace lib' xt' ks c dens vloc psi g kpts vol =
      ncHamiltonianTrace lib xt ks c dens vloc psi g kpts vol := by
  unfold ncHamiltonianTrace ncXcOperator
  rw [h.energy, h.potential]

private theorem ncMatrix_same (ks : Bool) {ns nk nb d M : ℕ}
    {ι : Type} [Fintype ι] {n : Fin 3 → ℕ} (c : Coef ns nk nb n) (dens : Fin d → Idx n → ℝ)
    (vloc : Idx n → ℂ) (psi : Fin nk → ι → Fin M → Idx n → ℂ) (g : Idx n → Fin 3 → ℝ)
    (kpts : Fin nk → Fin 3 → ℝ) (vol : ℝ) :
    ncHamiltonianMatrix lib' xt' ks c dens vloc psi g kpts vol =
      ncHamiltonianMatrix lib xt ks c dens vloc psi g kpts vol := by
  unfold ncHamiltonianMatrix ncOperator
  rw [h.energy, h.potential]

private theorem gsParts_same {na nk ns nb : ℕ} {n : Fin 3 → ℕ} (E : GsEnv na nk n)
    (p : GsParams ns nk (maskCount E.mask) nb) :
    gsParts { E with lib := lib', xc := xt' } p = gsParts { E with lib := lib, xc := xt } p := by
  unfold gsParts
  simp only [xcEnergy_same h]
  rfl

private theorem gsPartsNC_same {na nk ns nb M : ℕ} {ι : Type} [Fintype ι] {n : Fin 3 → ℕ} (E : GsEnv na nk n)
    (vloc : Idx n → ℂ) (psi : Fin nk → ι → Fin M → Idx n → ℂ) (p : GsParams ns nk (maskCount E.mask) nb) :
    gsPartsNC { E with lib := lib', xc := xt' } vloc psi p =
      gsPartsNC { E with lib := lib, xc := xt } vloc psi p := by
  unfold gsPartsNC
  simp only [xcEnergy_same h]
  rfl

private theorem runLoop_same (L : RunLib) (cfg : RunConfig) {na nk : ℕ} {n : Fin 3 → ℕ} (E : GsEnv na nk n)
    (ew : ℝ) :
    runLoop { L with xc := lib' } { cfg with xc := xt' } { E with lib := lib', xc := xt' } ew =
      runLoop { L with xc := lib } { cfg with xc := xt } { E with lib := lib, xc := xt } ew := by
  have hp : ∀ {ns nb : ℕ}, (gsParts { E with lib := lib', xc := xt' } :
        GsParams ns nk (maskCount E.mask) nb → _) = gsParts { E with lib := lib, xc := xt } :=
    fun {ns nb} => funext fun p => gsParts_same h E p
  have ht : ∀ {ns nb : ℕ}, (gsTotal { E with lib := lib', xc := xt' } :
        GsParams ns nk (maskCount E.mask) nb → _) = gsTotal { E with lib := lib, xc := xt } :=
    fun {ns nb} => funext fun p => by
      unfold gsTotal
      rw [gsParts_same h E p]
  have hf : ∀ {ns nb : ℕ} (t : ℝ), (gsFree { E with lib := lib', xc := xt' } t :
        GsParams ns nk (maskCount E.mask) nb → _) = gsFree { E with lib := lib, xc := xt } t :=
    fun {ns nb} t => funext fun p => by
      unfold gsFree
      rw [congrFun ht p]
      rfl
  have hu : ∀ (opt : Optimizer) {ns nb : ℕ}, (runUpdate opt { E with lib := lib', xc := xt' } :
        GsParams ns nk (maskCount E.mask) nb × opt.State → _) =
        runUpdate opt { E with lib := lib, xc := xt } :=
    fun opt {ns nb} => by
      funext p t
      unfold runUpdate
      rw [hf t]
  have hs : ∀ {ns nb : ℕ}, (gsDensity { E with lib := lib', xc := xt' } :
        GsParams ns nk (maskCount E.mask) nb → _) = gsDensity { E with lib := lib, xc := xt } :=
    fun {ns nb} => funext fun p => by
      unfold gsDensity gsState
      rfl
  unfold runLoop gsCalc gsInit
  simp only [hp, ht, hu, hs, hf]
  rcases L.optimizer with e | opt
  · rfl
  · dsimp only
    rcases occParamInit L.occDraw (driverBands E.ne.toNat cfg.emptyBands) E.ne nk E.spin E.method E.restricted with e | o
    · rfl
    · rfl

private theorem runLoopNC_same (L : RunLib) (cfg : RunConfig) (util : ℕ) {na nk M : ℕ} {ι : Type} [Fintype ι]
    {n : Fin 3 → ℕ} (E : GsEnv na nk n) (vloc : Idx n → ℂ) (psi : Fin nk → ι → Fin M → Idx n → ℂ) (ew : ℝ) :
    runLoopNC { L with xc := lib' } { cfg with xc := xt' } util { E with lib := lib', xc := xt' } vloc psi ew =
      runLoopNC { L with xc := lib } { cfg with xc := xt } util { E with lib := lib, xc := xt } vloc psi ew := by
  have hp : ∀ {ns nb : ℕ}, (gsPartsNC { E with lib := lib', xc := xt' } vloc psi :
        GsParams ns nk (maskCount E.mask) nb → _) = gsPartsNC { E with lib := lib, xc := xt } vloc psi :=
    fun {ns nb} => funext fun p => gsPartsNC_same h E vloc psi p
  have ht : ∀ {ns nb : ℕ}, (gsTotalNC { E with lib := lib', xc := xt' } vloc psi :
        GsParams ns nk (maskCount E.mask) nb → _) = gsTotalNC { E with lib := lib, xc := xt } vloc psi :=
    fun {ns nb} => funext fun p => by
      unfold gsTotalNC
      rw [gsPartsNC_same h E vloc psi p]
  have hf : ∀ {ns nb : ℕ} (t : ℝ), (gsFreeNC { E with lib := lib', xc := xt' } vloc psi t :
        GsParams ns nk (maskCount E.mask) nb → _) = gsFreeNC { E with lib := lib, xc := xt } vloc psi t :=
    fun {ns nb} t => funext fun p => by
      unfold gsFreeNC
      rw [congrFun ht p]
      rfl
  have hu : ∀ (opt : Optimizer) {ns nb : ℕ}, (runUpdateNC opt { E with lib := lib', xc := xt' } vloc psi :
        GsParams ns nk (maskCount E.mask) nb × opt.State → _) =
        runUpdateNC opt { E with lib := lib, xc := xt } vloc psi :=
    fun opt {ns nb} => by
      funext p t
      unfold runUpdateNC
      rw [hf t]
  have hs : ∀ {ns nb : ℕ}, (gsDensity { E with lib := lib', xc := xt' } :
        GsParams ns nk (maskCount E.mask) nb → _) = gsDensity { E with lib := lib, xc := xt } :=
    fun {ns nb} => funext fun p => by
      unfold gsDensity gsState
      rfl
  unfold runLoopNC gsCalcNC gsInitNC
  simp only [hp, ht, hu, hs, hf]
  rcases L.optimizer with e | opt
  · rfl
  · dsimp only
    rcases occParamInit L.occDraw (driverBands E.ne.toNat cfg.emptyBands) E.ne nk E.spin E.method true with e | o
    · rfl
    · rfl

private theorem grid_same (L : RunLib) (cfg : RunConfig) {m : ℕ} (c : Crystal m) (n kn : Fin 3 → ℕ) :
    runGrid { L with xc := lib' } { cfg with xc := xt' } c n kn =
      runGrid { L with xc := lib } { cfg with xc := xt } c n kn := by
  unfold runGrid
  have e : ∀ mask ew, runLoop { L with xc := lib' } { cfg with xc := xt' }
      (runEnv { L with xc := lib' } { cfg with xc := xt' } c n kn mask) ew =
      runLoop { L with xc := lib } { cfg with xc := xt }
      (runEnv { L with xc := lib } { cfg with xc := xt } c n kn mask) ew := fun mask ew =>
    runLoop_same h L cfg (runEnv L cfg c n kn mask) ew
  simp only [e]
  rfl

private theorem gridNC_same (L : NcLib) (cfg : NcConfig) {m : ℕ} (c : Crystal m) (P : NcLists)
    (n kn : Fin 3 → ℕ) :
    runGridNC { L with xc := lib' } { cfg with xc := xt' } c P n kn =
      runGridNC { L with xc := lib } { cfg with xc := xt } c P n kn := by
  have e : ∀ util mask vloc (bs : List (BetaArr (idxList kn).length n)) ew,
      runLoopNC { L.toRunLib with xc := lib' } { cfg.toRunConfig with xc := xt' } util
        (runEnvNC { L with xc := lib' } { cfg with xc := xt' } c P n kn mask) vloc
        (nlPsiAll L.eigh L.sph (fun a : Fin m => ncSpecies P bs a) c.positions
                (gVectors c.cell n) (flatRows (kVectors c.cell kn))) ew =
      runLoopNC { L.toRunLib with xc := lib } { cfg.toRunConfig with xc := xt } util
        (runEnvNC { L with xc := lib } { cfg with xc := xt } c P n kn mask) vloc
        (nlPsiAll L.eigh L.sph (fun a : Fin m => ncSpecies P bs a) c.positions
                (gVectors c.cell n) (flatRows (kVectors c.cell kn))) ew := fun util mask vloc bs ew =>
    runLoopNC_same h L.toRunLib cfg.toRunConfig util (runEnvNC L cfg c P n kn mask) vloc _ ew
  have e1 : createFreqMask { cfg.toRunConfig with xc := xt' } c.cell n =
      createFreqMask { cfg.toRunConfig with xc := xt } c.cell n := rfl
  have e2 : runRepulsion L.erfc { cfg.toRunConfig with xc := xt' } c n =
      runRepulsion L.erfc { cfg.toRunConfig with xc := xt } c n := rfl
  have e3 : ncBetas { L with xc := lib' } P (gVectors c.cell n) (flatRows (kVectors c.cell kn)) =
      ncBetas { L with xc := lib } P (gVectors c.cell n) (flatRows (kVectors c.cell kn)) := rfl
  unfold runGridNC
  simp only [e, e1, e2, e3]

private theorem bandCalc_same {na d ns nb : ℕ} {n : Fin 3 → ℕ} (opt : BandOptimizer) (E : BandEnv na d n)
    (N num devices : ℕ) (parallel : Bool) (epoch fineEpoch : ℕ)
    (p0 : PwParams ns 1 (maskCount E.mask) nb × opt.State) (path : ℕ → Fin 3 → ℝ) :
    bandCalc { E with lib := lib', xc := xt' } N num devices parallel
        (bandUpdate opt { E with lib := lib', xc := xt' }) epoch fineEpoch p0 path =
      bandCalc { E with lib := lib, xc := xt } N num devices parallel
        (bandUpdate opt { E with lib := lib, xc := xt }) epoch fineEpoch p0 path := by
  have hu : (bandUpdate opt { E with lib := lib', xc := xt' } :
      (Fin 3 → ℝ) → PwParams ns 1 (maskCount E.mask) nb × opt.State → _) =
      bandUpdate opt { E with lib := lib, xc := xt } := by
    funext k p
    unfold bandUpdate bandTrace
    simp only [trace_same h]
  have he : (bandEigArray { E with lib := lib', xc := xt' } :
      PwParams ns 1 (maskCount E.mask) nb → _) = bandEigArray { E with lib := lib, xc := xt } := by
    funext p k s b
    unfold bandEigArray bandEig
    simp only [matrix_same h]
    split_ifs with hc
    · rcases hamiltonianMatrix lib xt true (pwCoeff E.qr E.mask p) E.pos E.charge E.dens E.g (fun _ => k) E.vol
        ⟨s, hc.1⟩ 0 with e | H <;> rfl
    · rfl
  unfold bandCalc
  rw [hu, he]

private theorem bandEigNC_same {d M nb : ℕ} {ι β : Type} [Fintype ι] {n : Fin 3 → ℕ} (E : BandEnvNC d M ι β n)
    (p : PwParams 1 1 (maskCount E.mask) nb) (k : (Fin 3 → ℝ) × β) :
    bandEigNC { E with lib := lib', xc := xt' } p k = bandEigNC { E with lib := lib, xc := xt } p k := by
  unfold bandEigNC
  simp only [ncMatrix_same h]
  rcases ncHamiltonianMatrix lib xt true (pwCoeff E.qr E.mask p) E.dens E.vloc (fun _ => E.psi k) E.g
    (fun _ => k.1) E.vol with e | H <;> rfl

private theorem bandCalcNC_same {d M nb : ℕ} {ι β : Type} [Fintype ι] {n : Fin 3 → ℕ} (opt : BandOptimizer)
    (E : BandEnvNC d M ι β n) (K N devices : ℕ) (parallel : Bool) (epoch fineEpoch : ℕ)
    (p0 : PwParams 1 1 (maskCount E.mask) nb × opt.State) (path : ℕ → (Fin 3 → ℝ) × β) :
    bandCalcNC { E with lib := lib', xc := xt' } K N devices parallel
        (bandUpdateNC opt { E with lib := lib', xc := xt' }) epoch fineEpoch p0 path =
      bandCalcNC { E with lib := lib, xc := xt } K N devices parallel
        (bandUpdateNC opt { E with lib := lib, xc := xt }) epoch fineEpoch p0 path := by
  have hu : (bandUpdateNC opt { E with lib := lib', xc := xt' } :
      (Fin 3 → ℝ) × β → PwParams 1 1 (maskCount E.mask) nb × opt.State → _) =
      bandUpdateNC opt { E with lib := lib, xc := xt } := by
    funext k p
    unfold bandUpdateNC bandTraceNC
    simp only [ncTrace_same h]
  have he : (bandEigArrayNC { E with lib := lib', xc := xt' } :
      PwParams 1 1 (maskCount E.mask) nb → _) = bandEigArrayNC { E with lib := lib, xc := xt } := by
    funext p k s b
    unfold bandEigArrayNC bandEigNC
    simp only [ncMatrix_same h]
    rcases ncHamiltonianMatrix lib xt true (pwCoeff E.qr E.mask p) E.dens E.vloc (fun _ => E.psi k) E.g
      (fun _ => k.1) E.vol with e | H <;> rfl
  unfold bandCalcNC
  rw [hu, he]

private theorem bandGrid_same (L : RunLib) (T : BandTools) (cfg : RunConfig) (b : BandConfig) {m : ℕ}
    (c : Crystal m) (n kn : Fin 3 → ℕ) (mask : Idx n → Bool) {q : ℕ} (path : Fin q → Fin 3 → ℝ) :
    bandGrid { L with xc := lib' } T { cfg with xc := xt' } b c n kn mask path =
      bandGrid { L with xc := lib } T { cfg with xc := xt } b c n kn mask path := by
  unfold bandGrid
  rw [grid_same h L cfg c n kn]
  rcases runGrid { L with xc := lib } { cfg with xc := xt } c n kn with e | rep
  · rfl
  · dsimp only
    rcases T.optimizer with e | opt
    · rfl
    · dsimp only
      have e := fun p0 => bandCalc_same (ns := if cfg.restricted then 1 else 2)
        (nb := driverBands c.numElectron.toNat b.emptyBands) h opt
        (bandRunEnv L T cfg c n mask rep.density.2) q (b.numKpoints.getD q) L.devices b.parallelPath b.epoch
        b.fineEpoch p0 (pathAt path)
      unfold bandRunEnv at e ⊢
      dsimp only at e ⊢
      rw [e]

private theorem bandGridNC_same (L : NcLib) (T : BandTools) (cfg : NcConfig) (b : BandConfig) (supplied : Bool)
    {m : ℕ} (c : Crystal m) (P : NcLists) (n kn : Fin 3 → ℕ) (mask : Idx n → Bool) {q : ℕ}
    (path : Fin q → Fin 3 → ℝ) :
    bandGridNC { L with xc := lib' } T { cfg with xc := xt' } b supplied c P n kn mask path =
      bandGridNC { L with xc := lib } T { cfg with xc := xt } b supplied c P n kn mask path := by
  have e1 : ncBetas { L with xc := lib' } P (gVectors c.cell n) path =
      ncBetas { L with xc := lib } P (gVectors c.cell n) path := rfl
  have e2 : ∀ {d : ℕ} (dens : Fin d → Idx n → ℝ) (vloc : Idx n → ℂ) (S : Fin m → NlSpecies q n),
      bandLoopNC { L with xc := lib' } T { cfg with xc := xt' } b c P n mask dens vloc S path =
        bandLoopNC { L with xc := lib } T { cfg with xc := xt } b c P n mask dens vloc S path := by
    intro d dens vloc S
    unfold bandLoopNC
    rcases T.optimizer with e | opt
    · rfl
    · dsimp only
      have e3 := bandEigNC_same h (bandRunEnvNC L T cfg c n mask dens vloc S)
        (L.pwDraw 1 1 (maskCount mask) (driverBands P.valence.sum.toNat b.emptyBands))
        (pathAt path 0, pathAt (fun j a => (S a).beta j) 0)
      have e4 := fun K => bandCalcNC_same h opt
        (bandRunEnvNC L T cfg c n mask dens vloc S) K q L.devices b.parallelPath b.epoch b.fineEpoch
        (L.pwDraw 1 1 (maskCount mask) (driverBands P.valence.sum.toNat b.emptyBands),
          opt.init (L.pwDraw 1 1 (maskCount mask) (driverBands P.valence.sum.toNat b.emptyBands)))
        (fun i => (pathAt path i, pathAt (fun j a => (S a).beta j) i))
      unfold bandRunEnvNC at e3 e4 ⊢
      dsimp only at e3 e4 ⊢
      by_cases hq : q % (if b.parallelPath = true then L.devices else 1) ≠ 0
      · rw [if_pos hq, if_pos hq]
      · rw [if_neg hq, if_neg hq]
        split
        · rename_i h1
          rw [e3.symm.trans h1]
        · rename_i K r h1
          rw [e3.symm.trans h1, e4 K]
  unfold bandGridNC
  simp only [e1, e2, gridNC_same h]

/-! ### The four drivers -/

/-- Settings with the same meaning give the same ground-state calculation, exceptions included. -/
theorem run_functional (L : RunLib) (cfg : RunConfig) :
    runCalc { L with xc := lib' } { cfg with xc := xt' } = runCalc { L with xc := lib } { cfg with xc := xt } := by
  unfold runCalc runAtoms runCrystal
  simp only [grid_same h]
  rfl

/-- Settings with the same meaning give the same ground-state calculation with pseudopotentials. -/
theorem ncRun_functional (L : NcLib) (cfg : NcConfig) :
    runCalcNC { L with xc := lib' } { cfg with xc := xt' } =
      runCalcNC { L with xc := lib } { cfg with xc := xt } := by
  unfold runCalcNC runAtomsNC runCrystalNC
  simp only [gridNC_same h]
  rfl

/-- Settings with the same meaning give the same band structure. -/
theorem bandRun_functional (L : RunLib) (T : BandTools) (cfg : RunConfig) (b : BandConfig) :
    bandRun { L with xc := lib' } T { cfg with xc := xt' } b =
      bandRun { L with xc := lib } T { cfg with xc := xt } b := by
  unfold bandRun bandAtoms bandCrystal
  simp only [bandGrid_same h]
  rfl

/-- Settings with the same meaning give the same band structure with pseudopotentials. -/
theorem bandRunNC_functional (L : NcLib) (T : BandTools) (cfg : NcConfig) (b : BandConfig) (supplied : Bool) :
    bandRunNC { L with xc := lib' } T { cfg with xc := xt' } b supplied =
      bandRunNC { L with xc := lib } T { cfg with xc := xt } b supplied := by
  unfold bandRunNC bandAtomsNC bandCrystalNC
  simp only [bandGridNC_same h]
  rfl

end same

/-! ### The order of the names -/

private theorem gga_perm {l l' : List String} (hp : l.Perm l') :
    pyIn "gga" (Spec.joined l') = pyIn "gga" (Spec.joined l) := by
  rw [Bool.eq_iff_iff, pyIn_joined, pyIn_joined]
  simp only [hp.mem_iff]

/-- The order of the names does not change the functional. -/
theorem functional_order (lib : XcLib) {l l' : List String} (hl : Spec.Names l) (hp : l.Perm l') :
    Spec.SameFunctional lib (Spec.joined l) lib (Spec.joined l') := by
  have hl' : Spec.Names l' := ⟨fun h => hl.1 (by simpa [h] using hp), fun x hx => hl.2 x (hp.mem_iff.2 hx)⟩
  have e1 : excLda1 lib l' = excLda1 lib l := by
    funext r
    exact (hp.map _).sum_eq.symm
  have e2 : excLda2 lib l' = excLda2 lib l := by
    funext u v
    exact (hp.map _).sum_eq.symm
  have e3 : excGga1 lib l' = excGga1 lib l := by
    funext r s
    exact (hp.map _).sum_eq.symm
  have e4 : excGga2 lib l' = excGga2 lib l := by
    funext u v a b c
    exact (hp.map _).sum_eq.symm
  constructor
  · intro ns n g rho
    funext j
    unfold excDensity
    simp only [splitPlus_joined hl, splitPlus_joined hl', gga_perm hp, e1, e2, e3, e4]
  · intro ns n g rho
    funext s j
    unfold vxcDensity
    simp only [splitPlus_joined hl, splitPlus_joined hl', gga_perm hp, e1, e2, e3, e4]

/-- The order in which a configuration names its functionals does not change a ground-state calculation: the same energies,
density or exception. -/
theorem run_order (L : RunLib) (cfg : RunConfig) {l l' : List String} (hl : Spec.Names l) (hp : l.Perm l') :
    runCalc L { cfg with xc := Spec.joined l' } = runCalc L { cfg with xc := Spec.joined l } :=
  run_functional (functional_order L.xc hl hp) L cfg

/-- The same with pseudopotentials. -/
theorem ncRun_order (L : NcLib) (cfg : NcConfig) {l l' : List String} (hl : Spec.Names l) (hp : l.Perm l') :
    runCalcNC L { cfg with xc := Spec.joined l' } = runCalcNC L { cfg with xc := Spec.joined l } :=
  ncRun_functional (functional_order L.xc hl hp) L cfg

/-- The same for band structures: the same file or exception. -/
theorem bandRun_order (L : RunLib) (T : BandTools) (cfg : RunConfig) (b : BandConfig) {l l' : List String}
    (hl : Spec.Names l) (hp : l.Perm l') :
    bandRun L T { cfg with xc := Spec.joined l' } b = bandRun L T { cfg with xc := Spec.joined l } b :=
  bandRun_functional (functional_order L.xc hl hp) L T cfg b

/-- The same for band structures with pseudopotentials. -/
theorem bandRunNC_order (L : NcLib) (T : BandTools) (cfg : NcConfig) (b : BandConfig) (supplied : Bool)
    {l l' : List String} (hl : Spec.Names l) (hp : l.Perm l') :
    bandRunNC L T { cfg with xc := Spec.joined l' } b supplied =
      bandRunNC L T { cfg with xc := Spec.joined l } b supplied :=
  bandRunNC_functional (functional_order L.xc hl hp) L T cfg b supplied

/-- Witness: exchange and correlation in the local-density approximation, in both orders. -/
example : Spec.joined ["lda_x", "lda_c_pw"] = "lda_x+lda_c_pw" ∧ Spec.joined ["lda_c_pw", "lda_x"] = "lda_c_pw+lda_x" ∧
    Spec.Names ["lda_x", "lda_c_pw"] ∧ ["lda_x", "lda_c_pw"].Perm ["lda_c_pw", "lda_x"] := by
  refine ⟨by decide, by decide, ⟨by simp, by decide⟩, by decide⟩

/-! ### The setting is the sum -/

/-- A functional without gradients does not look at them (functions of the library take them as an argument). -/
structure Spec.IgnoresGradient (lib : XcLib) (x : String) : Prop where
  unpol : ∀ r s, lib.gga x r s = lib.lda x r
  pol : ∀ u v a b c, lib.ggaPol x u v a b c = lib.ldaPol x u v

private theorem excDensity_names (lib : XcLib) {l : List String} (hl : Spec.Names l)
    (hm : (∃ x ∈ l, pyIn "gga" x = true) → ∀ x ∈ l, pyIn "gga" x = false → Spec.IgnoresGradient lib x) {ns : ℕ}
    {n : Fin 3 → ℕ} (g : Idx n → Fin 3 → ℝ) (rho : Fin ns → Idx n → ℝ) (j : Idx n) :
    excDensity lib (Spec.joined l) g rho j = (l.map fun x => excDensity lib x g rho j).sum := by
  have hone : ∀ x ∈ l, splitPlus x = [x] := by
    intro x hx
    have := splitPlus_joined (l := [x]) ⟨by simp, by simpa using hl.2 x hx⟩
    simpa [Spec.joined, List.intercalate] using this
  by_cases hg : ∃ x ∈ l, pyIn "gga" x = true
  · have hg' := (pyIn_joined l).2 hg
    unfold excDensity
    rw [splitPlus_joined hl]
    simp only [hg', if_true]
    by_cases h2 : ns = 2
    · simp only [h2, if_true, excGga2]
      congr 1
      apply List.map_congr_left
      intro x hx
      rw [hone x hx]
      by_cases hxg : pyIn "gga" x = true
      · simp [hxg]
      · have hi := hm hg x hx (by simpa using hxg)
        simp [hxg, excLda2, ggaPoint2, ldaPoint2, hi.unpol, hi.pol]
    · simp only [h2, if_false, excGga1]
      congr 1
      apply List.map_congr_left
      intro x hx
      rw [hone x hx]
      by_cases hxg : pyIn "gga" x = true
      · simp [hxg]
      · have hi := hm hg x hx (by simpa using hxg)
        simp [hxg, excLda1, ggaPoint1, ldaPoint1, hi.unpol]
  · have hg' : pyIn "gga" (Spec.joined l) = false := by
      rw [Bool.eq_false_iff, Ne, pyIn_joined]
      exact hg
    have hx : ∀ x ∈ l, pyIn "gga" x = false := fun x hx => by
      rw [Bool.eq_false_iff]
      exact fun h => hg ⟨x, hx, h⟩
    unfold excDensity
    rw [splitPlus_joined hl]
    simp only [hg', Bool.false_eq_true, if_false]
    by_cases h2 : ns = 2
    · simp only [h2, if_true, excLda2]
      congr 1
      apply List.map_congr_left
      intro x hxl
      simp [hone x hxl, hx x hxl]
    · simp only [h2, if_false, excLda1]
      congr 1
      apply List.map_congr_left
      intro x hxl
      simp [hone x hxl, hx x hxl]

/-- The exchange-correlation energy of a setting is the sum of the energies of its names, for every density, grid and
number of channels.  A setting may mix functionals with and without gradients, if the latter do not look at them. -/
theorem xcEnergy_names (lib : XcLib) {l : List String} (hl : Spec.Names l)
    (hm : (∃ x ∈ l, pyIn "gga" x = true) → ∀ x ∈ l, pyIn "gga" x = false → Spec.IgnoresGradient lib x) {ns : ℕ}
    {n : Fin 3 → ℕ} (rho : Fin ns → Idx n → ℝ) (g : Idx n → Fin 3 → ℝ) (vol : ℝ) :
    ∃ e : String → ℝ, (∀ x ∈ l, xcEnergy lib x false rho g vol = .ok (e x)) ∧
      xcEnergy lib (Spec.joined l) false rho g vol = .ok (l.map e).sum := by
  have key : ∀ xt : String, xcEnergy lib xt false rho g vol =
      .ok ((∑ s, ∑ j, excDensity lib xt g rho j * rho s j) * vol / (gridCount n : ℝ)) := by
    intro xt
    have e : (∑ s, ∑ j, xcDensity lib xt false g rho s j * (rho s j : ℂ)) =
        ((∑ s, ∑ j, excDensity lib xt g rho j * rho s j : ℝ) : ℂ) := by
      simp [xcDensity]
    unfold xcEnergy
    simp only [e, Complex.ofReal_im, Complex.ofReal_re]
    rw [if_pos (by norm_num)]
  refine ⟨fun x => (∑ s, ∑ j, excDensity lib x g rho j * rho s j) * vol / (gridCount n : ℝ), fun x _ => key x, ?_⟩
  rw [key]
  congr 1
  simp only [excDensity_names lib hl hm]
  clear hm hl key
  induction l with
  | nil => simp
  | cons x l ih =>
    simp only [List.map_cons, List.sum_cons, add_mul, Finset.sum_add_distrib, add_div]
    rw [← ih]

/-- Witness: exchange with gradients and correlation without, of a library in which the latter ignores them. -/
example : ∃ lib : XcLib, Spec.Names ["gga_x_pbe", "lda_c_pw"] ∧
    ((∃ x ∈ ["gga_x_pbe", "lda_c_pw"], pyIn "gga" x = true) →
      ∀ x ∈ ["gga_x_pbe", "lda_c_pw"], pyIn "gga" x = false → Spec.IgnoresGradient lib x) ∧
    (∃ x ∈ ["gga_x_pbe", "lda_c_pw"], pyIn "gga" x = true) ∧
    (∃ x ∈ ["gga_x_pbe", "lda_c_pw"], pyIn "gga" x = false) := by
  refine ⟨⟨fun _ r => -r, fun _ u v => -(u + v), fun x r s => if x = "lda_c_pw" then -r else -r - s,
    fun x u v _ _ _ => -(u + v)⟩, ⟨by simp, by decide⟩, fun _ x hx h => ?_, ⟨"gga_x_pbe", by simp, by decide⟩,
    ⟨"lda_c_pw", by simp, by decide⟩⟩
  have hx' : x = "lda_c_pw" := by
    rcases List.mem_cons.1 hx with rfl | hx
    · exact absurd h (by decide)
    · simpa using hx
  subst hx'
  exact ⟨fun _ _ => by simp, fun _ _ _ _ _ => rfl⟩

end Jrystal
