import Verif.Props.Stability
import Verif.Props.EwaldRun
import Mathlib.Analysis.Convex.Function

/- C108: how the results depend on the smearing temperature. -/
namespace Jrystal
open scoped BigOperators
open RunSetup

/-- C108: of two (nearly) ground states of one crystal the hotter one has the larger entropy and the larger energy, up
to the accuracies with which they are known, and the change of the free energy per temperature lies between minus the
one and minus the other entropy. -/
theorem ground_hotter {ns nk nb : ℕ} {n : Fin 3 → ℕ} {ε ε' t t' eps : ℝ} {mask : Idx n → Bool} {ne spin : ℤ} {r : Bool}
    {method : String} {energy : Coef ns nk nb n → Occ ns nk nb → ℝ → Prop} {c c' : Coef ns nk nb n}
    {occ occ' : Occ ns nk nb} {e e' : ℝ} (htt : t < t')
    (h : Spec.GroundWithin ε t eps mask ne spin r method energy c occ e)
    (h' : Spec.GroundWithin ε' t' eps mask ne spin r method energy c' occ' e') (S S' : ℝ)
    (hS : S = Spec.smearingEntropy eps ((3 - (ns : ℝ)) / nk) occ)
    (hS' : S' = Spec.smearingEntropy eps ((3 - (ns : ℝ)) / nk) occ') :
    S ≤ S' + (ε + ε') / (t' - t) ∧
    (0 ≤ t → e ≤ e' + ε + t * ((ε + ε') / (t' - t))) ∧
    -(t' - t) * S' - ε ≤ (e' - t' * S') - (e - t * S) ∧
    (e' - t' * S') - (e - t * S) ≤ -(t' - t) * S + ε' := by
  have h1 := h.least c' occ' e' h'.physical (fun hm => (h'.given hm).trans (h.given hm).symm) h'.value
  have h2 := h'.least c occ e h.physical (fun hm => (h.given hm).trans (h'.given hm).symm) h.value
  rw [← hS, ← hS'] at h1 h2
  have hs : S - S' ≤ (ε + ε') / (t' - t) := by
    rw [le_div_iff₀ (by linarith)]
    nlinarith
  refine ⟨by linarith, fun ht => ?_, by linarith, by linarith⟩
  nlinarith [mul_le_mul_of_nonneg_left hs ht]

/-- C108: the least free energy is a concave function of the temperature, and wherever it has a derivative this is minus
the entropy of every ground state. -/
theorem freeEnergy_concave {ns nk nb : ℕ} {n : Fin 3 → ℕ} {eps : ℝ} {mask : Idx n → Bool} {ne spin : ℤ} {r : Bool}
    {method : String} {energy : Coef ns nk nb n → Occ ns nk nb → ℝ → Prop} (F : ℝ → ℝ)
    (hF : ∀ t, IsGLB (Spec.freeEnergies t eps mask ne spin r method energy) (F t)) :
    ConcaveOn ℝ Set.univ F ∧
    ∀ t D, HasDerivAt F D t → ∀ c occ e, Spec.GroundWithin 0 t eps mask ne spin r method energy c occ e →
      D = -Spec.smearingEntropy eps ((3 - (ns : ℝ)) / nk) occ := by
  refine ⟨⟨convex_univ, fun t _ t' _ a b ha hb hab => (hF _).2 ?_⟩, fun t D hD c occ e h => ?_⟩
  · rintro f ⟨c, occ, e, hp, hgiven, he, rfl⟩
    have h1 := (hF t).1 ⟨c, occ, e, hp, hgiven, he, rfl⟩
    have h2 := (hF t').1 ⟨c, occ, e, hp, hgiven, he, rfl⟩
    simp only [smul_eq_mul]
    have m1 := mul_le_mul_of_nonneg_left h1 ha
    have m2 := mul_le_mul_of_nonneg_left h2 hb
    have : e = a * e + b * e := by rw [← add_mul, hab, one_mul]
    nlinarith
  · have hFt : F t = e - t * Spec.smearingEntropy eps ((3 - (ns : ℝ)) / nk) occ := by
      refine le_antisymm ((hF t).1 ⟨c, occ, e, h.physical, h.given, h.value, rfl⟩) ((hF t).2 ?_)
      rintro f ⟨c', occ', e', hp, hgiven, he', rfl⟩
      have := h.least c' occ' e' hp (fun hm => (hgiven hm).trans (h.given hm).symm) he'
      linarith
    have hmin : IsLocalMin (fun s => (e - s * Spec.smearingEntropy eps ((3 - (ns : ℝ)) / nk) occ) - F s) t := by
      refine Filter.Eventually.of_forall fun s => ?_
      have h1 := (hF s).1 ⟨c, occ, e, h.physical, h.given, h.value, rfl⟩
      show (e - t * Spec.smearingEntropy eps ((3 - (ns : ℝ)) / nk) occ) - F t ≤ _
      rw [hFt]
      linarith
    have hd : HasDerivAt (fun s => e - s * Spec.smearingEntropy eps ((3 - (ns : ℝ)) / nk) occ)
        (-Spec.smearingEntropy eps ((3 - (ns : ℝ)) / nk) occ) t :=
      (((hasDerivAt_id t).mul_const _).const_sub e).congr_deriv (by rw [one_mul])
    have h0 := hmin.hasDerivAt_eq_zero (hd.sub hD)
    linarith

/-- C108, whole calculations: two calculations that differ in the smearing alone.  The one with more smearing reports an
energy that is not lower, up to the accuracy of the optimiser, and at most `2 T log 2` per band higher; the repulsion of
the nuclei is the same.  Against a calculation without smearing (`cfg.smearing ≤ 0`) the bound below is `ε`. -/
theorem run_hotter (L : RunLib) (cfg : RunConfig) {m : ℕ} (a : AseAtoms m) (sm : ℝ)
    (size ksize : Fin 3 → ℤ) (ne spin : ℤ) (H : Spec.AdmissibleRun L cfg a size ksize ne spin)
    (hC : Spec.Triangular L.qrC) (hR : Spec.Triangular L.qrR) (hxc : Spec.ContinuousXc L.xc cfg.xc)
    (heps : 0 < cfg.eps) (hspin : cfg.occupation = "simplex-projector" → cfg.restricted = true → spin = 0)
    (hg : cfg.occupation = "gamma" → ∀ i, ksize i ≤ 1)
    (ε : ℝ) (hopt : ∀ opt, L.optimizer = .ok opt → Spec.NearOptimizer ε opt)
    (he : 3 ≤ cfg.epoch) (hw : 2 ≤ cfg.window) (hq : cfg.threshold ≤ 0)
    (t t' : ℝ) (ht : t = max cfg.smearing 0) (ht' : t' = max sm 0) (htt : t < t') :
    ∃ n rep rep', runAtoms L cfg a = .ok ⟨n, rep⟩ ∧ runAtoms L { cfg with smearing := sm } a = .ok ⟨n, rep'⟩ ∧
      rep.repulsion = rep'.repulsion ∧
      rep.total ≤ rep'.total + ε * (1 + 2 * t / (t' - t)) ∧
      rep'.total ≤ rep.total + 2 * t' * ((ne.toNat + 1) / 2 + cfg.emptyBands : ℕ) * Real.log 2 + ε := by
  obtain ⟨n, kn, rep0, mask, hrun, a2, a3, a4, -⟩ :=
    run_history L cfg a size ksize ne spin H hC hR hxc heps hspin hg ε hopt _ rfl _ (fun _ _ => rfl) _ (fun _ => rfl)
  have H' : Spec.AdmissibleRun L { cfg with smearing := sm } a size ksize ne spin := { H with }
  obtain ⟨rep, c, occ, h1, h2⟩ := run_total_ground L cfg a size ksize ne spin H hC hR hxc heps hspin hg ε hopt _ rfl
    (fun i d => angstrom2bohr * a.positions i d) (fun _ _ => rfl) (fun i => a.numbers i) (fun _ => rfl) he hw
    (Or.inl hq) a2 a3 mask a4
  obtain ⟨rep', c', occ', h1', h2'⟩ := run_total_ground L { cfg with smearing := sm } a size ksize ne spin H' hC hR hxc
    heps hspin hg ε hopt _ rfl (fun i d => angstrom2bohr * a.positions i d) (fun _ _ => rfl) (fun i => a.numbers i)
    (fun _ => rfl) he hw (Or.inl hq) a2 a3 mask a4
  have hrep : rep.repulsion = rep'.repulsion := by
    have e1 := run_repulsion L cfg a H.cell H.ewald h1
    have e2 := run_repulsion L { cfg with smearing := sm } a H.cell H.ewald h1'
    exact Except.ok.inj (e1.symm.trans e2)
  refine ⟨n, rep, rep', h1, h1', hrep, ?_, ?_⟩
  · have h3 := (ground_hotter (by rw [← ht, ← ht']; exact htt) h2 h2' _ _ rfl rfl).2.1 (le_max_right _ _)
    rw [← ht, ← ht', hrep] at h3
    have : t * ((ε + ε) / (t' - t)) = ε * (2 * t / (t' - t)) := by ring
    rw [this] at h3
    linarith
  · have h3 := ground_energy_bound (idxList_length_pos fun i => smooth_pos (a3 i).1) (fun h => one_kpoint a3 (hg h)) heps
      (le_max_right _ _) h2' le_rfl c occ _ h2.physical h2.given h2.value
    rw [← ht', hrep] at h3
    linarith

/-- The hypotheses of `run_hotter` hold for the lithium atom, without smearing and with a smearing of one hundredth of
a Hartree: the energies are ordered up to the accuracy `ε` and lie within `0.08 log 2 + ε` of each other. -/
example {ε : ℝ} (hε : 0 < ε) :
    let L : RunLib := { lithiumLib diracLib with
      qrC := gramSchmidtQR ℂ, qrR := gramSchmidtQR ℝ, optimizer := .ok (nearOptimizer ε) }
    ∃ n rep rep',
      runAtoms L { lithiumConfig with threshold := 0 } (⟨fun _ => 3, 0, 1⟩ : AseAtoms 1) = .ok ⟨n, rep⟩ ∧
      runAtoms L { lithiumConfig with threshold := 0, smearing := 0.01 } (⟨fun _ => 3, 0, 1⟩ : AseAtoms 1)
        = .ok ⟨n, rep'⟩ ∧
      rep.total ≤ rep'.total + ε ∧ rep'.total ≤ rep.total + 0.08 * Real.log 2 + ε := by
  intro L
  obtain ⟨n, rep, rep', h1, h2, -, h3, h4⟩ := run_hotter L { lithiumConfig with threshold := 0 }
    (⟨fun _ => 3, 0, 1⟩ : AseAtoms 1) 0.01 (fun _ => 4) (fun _ => 2) 3 1
    { lithium_admissible diracLib with optimizer := ⟨nearOptimizer ε, rfl, nearOptimizer_keeps ε⟩ }
    (gramSchmidtQR_triangular ℂ) (gramSchmidtQR_triangular ℝ) diracLib_continuous (by norm_num [lithiumConfig])
    (fun _ h => absurd h (by decide)) (fun h => absurd h (by decide)) ε
    (fun o ho => by cases Except.ok.inj ho; exact nearOptimizer_near hε) (by decide) (by decide) le_rfl 0 0.01
    (by simp [lithiumConfig]) (by norm_num) (by norm_num)
  refine ⟨n, rep, rep', h1, h2, by simpa using h3, ?_⟩
  have h5 : rep'.total ≤ rep.total + 2 * 0.01 * ((4 : ℕ) : ℝ) * Real.log 2 + ε := h4
  push_cast at h5
  linarith

end Jrystal
