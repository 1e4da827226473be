import Verif.Props.GroundState
import Verif.Spec.Smearing
import Mathlib.Analysis.SpecialFunctions.Log.Basic

/- C98: what smearing does to the results. -/
namespace Jrystal
open scoped BigOperators
open RunSetup

/-! ### The schedule -/

/-- C98: from step `epoch // 2` on the temperature is the requested one, for every value of `smearing`. -/
theorem temperature_final (sm : ℝ) {epoch : ℤ} (he : 2 ≤ epoch) {i : ℕ} (hi : epoch / 2 ≤ i) :
    temperature sm epoch i = max sm 0 := by
  rcases le_or_gt sm 0 with h | h
  · rw [temperature_zero sm h, max_eq_right h]
  · rw [max_eq_left h.le]
    rcases lt_trichotomy sm 100 with h1 | rfl | h1
    · exact (temperature_anneals_partial sm h h1 epoch he).2.2.2 i hi
    · unfold temperature exponentialDecay
      rw [if_pos h, if_neg (by omega), if_neg (by norm_num)]
      simp
    · exact (temperature_hot sm h1 epoch he).2 i hi

private theorem temperature_bounds (sm : ℝ) {epoch : ℤ} (he : 2 ≤ epoch) (i : ℕ) :
    0 ≤ temperature sm epoch i ∧ temperature sm epoch i ≤ max sm 100 := by
  rcases le_or_gt sm 0 with h0 | h0
  · rw [temperature_zero sm h0]; exact ⟨le_rfl, le_max_of_le_right (by norm_num)⟩
  · unfold temperature exponentialDecay
    rw [if_pos h0, if_neg (by omega), if_neg (by positivity)]
    simp only
    have hx : (0 : ℝ) ≤ (i : ℝ) / ((epoch / 2 : ℤ) : ℝ) := by
      have : (0 : ℝ) ≤ ((epoch / 2 : ℤ) : ℝ) := by
        have : 0 ≤ epoch / 2 := by omega
        exact_mod_cast this
      positivity
    split_ifs with h1 h2 h2
    · exact ⟨by norm_num [h0.le], max_le (le_max_right _ _) (le_max_left _ _)⟩
    · have h3 := Real.rpow_le_one (show 0 ≤ sm / 100 by positivity) h1.le hx
      refine ⟨le_max_of_le_right h0.le, max_le (le_max_of_le_right ?_) (le_max_left _ _)⟩
      nlinarith
    · exact ⟨le_min (by norm_num) h0.le, (min_le_right _ _).trans (le_max_left _ _)⟩
    · exact ⟨le_min (by positivity) h0.le, (min_le_right _ _).trans (le_max_left _ _)⟩

/-! ### The entropy -/

private theorem entropy_term {eps top x : ℝ} (he : 0 < eps) (h0 : 0 ≤ x) (h1 : x ≤ top) :
    x * Real.log (eps + x) + (top - x) * Real.log (eps + top - x) ≤ top * Real.log (eps + top) ∧
    top * Real.log (eps + top / 2) ≤ x * Real.log (eps + x) + (top - x) * Real.log (eps + top - x) := by
  have ht : 0 ≤ top := h0.trans h1
  constructor
  · have a1 : Real.log (eps + x) ≤ Real.log (eps + top) := Real.log_le_log (by linarith) (by linarith)
    have a2 : Real.log (eps + top - x) ≤ Real.log (eps + top) := Real.log_le_log (by linarith) (by linarith)
    have b1 := mul_le_mul_of_nonneg_left a1 h0
    have b2 := mul_le_mul_of_nonneg_left a2 (sub_nonneg.2 h1)
    nlinarith
  · have key : ∀ y : ℝ, 0 ≤ y → y * (y - top / 2) / (eps + y) + y * Real.log (eps + top / 2)
        ≤ y * Real.log (eps + y) := by
      intro y hy
      have hpos : 0 < eps + y := by linarith
      have hpos' : 0 < eps + top / 2 := by linarith
      have h := Real.add_one_le_exp (Real.log ((eps + top / 2) / (eps + y)))
      rw [Real.exp_log (div_pos hpos' hpos), Real.log_div hpos'.ne' hpos.ne'] at h
      have e1 : (y - top / 2) / (eps + y) = 1 - (eps + top / 2) / (eps + y) := by
        field_simp; ring
      have := mul_le_mul_of_nonneg_left (show (y - top / 2) / (eps + y) + Real.log (eps + top / 2)
        ≤ Real.log (eps + y) by rw [e1]; linarith) hy
      calc _ = y * ((y - top / 2) / (eps + y) + Real.log (eps + top / 2)) := by ring
        _ ≤ _ := this
    have k1 := key x h0
    have k2 := key (top - x) (sub_nonneg.2 h1)
    have e2 : eps + (top - x) = eps + top - x := by ring
    rw [e2] at k2
    have hp1 : 0 < eps + x := by linarith
    have hp2 : 0 < eps + top - x := by linarith
    have e3 : x * (x - top / 2) / (eps + x) + (top - x) * (top - x - top / 2) / (eps + top - x)
        = 2 * eps * (x - top / 2) ^ 2 / ((eps + x) * (eps + top - x)) := by
      field_simp; ring
    have e4 : 0 ≤ 2 * eps * (x - top / 2) ^ 2 / ((eps + x) * (eps + top - x)) := by positivity
    linarith

/-- C98: the entropies of two occupations within the limits differ by at most `log 2` times the number of
electrons that the states could hold. -/
theorem entropy_range {ns nk nb : ℕ} {eps top : ℝ} (he : 0 < eps) (ht : 0 ≤ top) (occ occ' : Occ ns nk nb)
    (h : ∀ s k b, 0 ≤ occ s k b ∧ occ s k b ≤ top) (h' : ∀ s k b, 0 ≤ occ' s k b ∧ occ' s k b ≤ top) :
    Spec.smearingEntropy eps top occ - Spec.smearingEntropy eps top occ'
      ≤ ns * nk * nb * top * Real.log 2 := by
  have hlog : top * Real.log (eps + top) - top * Real.log (eps + top / 2) ≤ top * Real.log 2 := by
    rw [← mul_sub]
    refine mul_le_mul_of_nonneg_left ?_ ht
    rw [← Real.log_div (by positivity) (by positivity)]
    refine Real.log_le_log (by positivity) ?_
    rw [div_le_iff₀ (by positivity)]
    linarith
  unfold Spec.smearingEntropy
  rw [neg_sub_neg]
  simp only [← Finset.sum_sub_distrib]
  calc _ ≤ ∑ _ : Fin ns, ∑ _ : Fin nk, ∑ _ : Fin nb, top * Real.log 2 := by
        refine Finset.sum_le_sum fun s _ => Finset.sum_le_sum fun k _ => Finset.sum_le_sum fun b _ => ?_
        have a := (entropy_term he (h' s k b).1 (h' s k b).2).1
        have b' := (entropy_term he (h s k b).1 (h s k b).2).2
        linarith
    _ = _ := by
        simp only [Finset.sum_const, Finset.card_univ, Fintype.card_fin, nsmul_eq_mul]
        ring

/-- C98: a state within `ε` of the least free energy at temperature `t ≥ 0` has an energy within
`ε + 2 t log 2` per band of the least energy. -/
theorem ground_energy_bound {ns nk nb : ℕ} {n : Fin 3 → ℕ} {ε t eps : ℝ} {mask : Idx n → Bool} {ne spin : ℤ} {r : Bool}
    {method : String} {energy : Coef ns nk nb n → Occ ns nk nb → ℝ → Prop} {c : Coef ns nk nb n}
    {occ : Occ ns nk nb} {e : ℝ} (hk : 0 < nk) (hg : method = "gamma" → nk = 1) (heps : 0 < eps) (ht : 0 ≤ t)
    (h : Spec.GroundWithin ε t eps mask ne spin r method energy c occ e)
    {t' : ℝ} (htt : t ≤ t') :
    Spec.EnergyWithin (2 * t' * nb * Real.log 2 + ε) mask ne spin r method energy e := by
  intro c' occ' e' h' hgiven he'
  have h1 := h.least c' occ' e' h' (fun hm => (hgiven hm).trans (h.given hm).symm) he'
  have hns := h.physical.channels
  have htop := limit_eq_top (method := method) (nk := nk) hns hg
  have hk' : (0 : ℝ) < nk := by exact_mod_cast hk
  have hkn : (nk : ℝ) ≠ 0 := hk'.ne'
  have htop0 : 0 ≤ (3 - (ns : ℝ)) / nk := by
    refine div_nonneg ?_ hk'.le
    rw [hns]
    cases r <;> norm_num
  have h2 := entropy_range heps htop0 occ occ'
    (fun s k b => ⟨h.physical.nonneg s k b, htop ▸ h.physical.pauli s k b⟩)
    (fun s k b => ⟨h'.nonneg s k b, htop ▸ h'.pauli s k b⟩)
  have h3 : (ns : ℝ) * nk * nb * ((3 - (ns : ℝ)) / nk) = 2 * nb := by
    have : (ns : ℝ) * (3 - ns) = 2 := by
      rw [hns]
      cases r <;> norm_num
    calc _ = ((ns : ℝ) * (3 - ns)) * nb := by field_simp
      _ = _ := by rw [this]
  rw [h3] at h2
  have h4 := mul_le_mul_of_nonneg_left h2 ht
  have h5 : 2 * t * nb * Real.log 2 ≤ 2 * t' * nb * Real.log 2 := by
    have := Real.log_nonneg (show (1 : ℝ) ≤ 2 by norm_num)
    gcongr
  nlinarith

/-! ### Whole calculations -/

private theorem quiet_pos {w : ℤ} {th : ℝ} {l : List (Option ℝ)} (h : Spec.Quiet w th l) : 0 < th := by
  obtain ⟨xs, -, -, -, h⟩ := h
  exact (Real.sqrt_nonneg _).trans_lt h

theorem history_final {w : ℤ} {th : ℝ} {epoch : ℤ} {en : ℕ → ℝ} {j : ℕ} (h : Spec.StopsAt w th epoch en j)
    (he : 3 ≤ epoch) (hj : th ≤ 0 ∨ epoch / 2 < j) (sm : ℝ) :
    temperature sm epoch (j - 1) = max sm 0 ∧ temperature sm epoch j = max sm 0 := by
  have : epoch / 2 < j := by
    rcases hj with hj | hj
    · rcases h.last with h1 | h1
      · omega
      · exact absurd (quiet_pos h1) (not_lt.2 hj)
    · exact hj
  exact ⟨temperature_final sm (by omega) (by omega), temperature_final sm (by omega) (by omega)⟩

private theorem history_report {ns nk nb : ℕ} {n : Fin 3 → ℕ} {ε eps vol : ℝ} {mask : Idx n → Bool} {ne spin : ℤ}
    {r : Bool} {method : String} {energy : Coef ns nk nb n → Occ ns nk nb → ℝ → Prop}
    (hk : 0 < nk) (hg : method = "gamma" → nk = 1) (heps : 0 < eps) {w : ℤ} {th : ℝ} {epoch : ℤ} {en : ℕ → ℝ} {j : ℕ}
    (h : Spec.StopsAt w th epoch en j) (he : 3 ≤ epoch) (h0 : 0 < j) {sm : ℝ}
    {density : Σ S : ℕ, Fin S → Idx n → ℝ}
    (hs : ∀ i, ∃ c occ, Spec.GroundWithin ε (temperature sm epoch i) eps mask ne spin r method energy c occ
      (en (i + 1)) ∧ (i = j → density = ⟨ns, densityGrid c vol occ⟩)) :
    (th ≤ 0 ∨ epoch / 2 < j →
      Spec.ReportAt ε (max sm 0) eps vol mask ne spin r method energy (en j) (en (j + 1)) density ∧
      Spec.EnergyWithin (2 * max sm 0 * nb * Real.log 2 + ε) mask ne spin r method energy (en j)) ∧
    Spec.EnergyWithin (2 * max sm 100 * nb * Real.log 2 + ε) mask ne spin r method energy (en j) := by
  obtain ⟨c, occ, hgw, -⟩ := hs (j - 1)
  obtain ⟨c', occ', hgw', hd⟩ := hs j
  rw [Nat.sub_add_cancel h0] at hgw
  refine ⟨fun hj => ?_, ground_energy_bound hk hg heps (temperature_bounds sm (by omega) _).1 hgw
    (temperature_bounds sm (by omega) _).2⟩
  obtain ⟨e1, e2⟩ := history_final h he hj sm
  rw [e1] at hgw
  rw [e2] at hgw'
  exact ⟨⟨⟨c, occ, hgw⟩, c', occ', hgw', hd rfl⟩,
    ground_energy_bound hk hg heps (le_max_right _ _) hgw le_rfl⟩

/-- C98 for the all-electron calculation (part): when the convergence test does not end the loop before the
temperature has reached `smearing`, the reported energies and the density are those of states within `ε` of the
ground state at that temperature, and the energy is at most `ε` plus `2 smearing log 2` per band above the energy
of every physical state.  In any case it is at most `ε` plus `200 log 2` per band above it.  Missing: the requested
temperature when the test ends the loop earlier (`stops_hot`). -/
theorem run_smearing_partial (L : RunLib) (cfg : RunConfig) {m : ℕ} (a : AseAtoms m) (size ksize : Fin 3 → ℤ)
    (ne spin : ℤ) (H : Spec.AdmissibleRun L cfg a size ksize ne spin)
    (hC : Spec.Triangular L.qrC) (hR : Spec.Triangular L.qrR) (hxc : Spec.ContinuousXc L.xc cfg.xc)
    (heps : 0 < cfg.eps) (hspin : cfg.occupation = "simplex-projector" → cfg.restricted = true → spin = 0)
    (hg : cfg.occupation = "gamma" → ∀ i, ksize i ≤ 1)
    (ε : ℝ) (hopt : ∀ opt, L.optimizer = .ok opt → Spec.NearOptimizer ε opt)
    (A : Matrix (Fin 3) (Fin 3) ℝ) (hA : A = (angstrom2bohr : ℝ) • a.cell)
    (pos : Fin m → Fin 3 → ℝ) (hpos : ∀ i d, pos i d = angstrom2bohr * a.positions i d)
    (z : Fin m → ℝ) (hz : ∀ i, z i = a.numbers i)
    (he : 3 ≤ cfg.epoch) (hw : 2 ≤ cfg.window) :
    ∃ n kn rep, ∃ mask : Idx n → Bool, runAtoms L cfg a = .ok ⟨n, rep⟩ ∧ Spec.LeastGrid size n ∧
      Spec.LeastGrid ksize kn ∧ createFreqMask cfg A n = .ok mask ∧
      ∃ ns nb, nb = (ne.toNat + 1) / 2 + cfg.emptyBands ∧
      ∃ en : ℕ → ℝ, ∃ j, Spec.StopsAt cfg.window cfg.threshold cfg.epoch en j ∧ rep.total = en j + rep.repulsion ∧
        (∀ i, ∃ c occ, Spec.GroundWithin (ns := ns) (nk := (idxList kn).length) (nb := nb) ε
            (temperature cfg.smearing cfg.epoch i) cfg.eps mask ne spin cfg.restricted cfg.occupation
            (fun c occ e => totalEnergy L.xc c pos z (gVectors A n) (flatRows (kVectors A kn)) |A.det| (some occ)
              false cfg.xc = .ok e) c occ (en (i + 1))) ∧
        (cfg.threshold ≤ 0 ∨ cfg.epoch / 2 < j →
          Spec.ReportAt (ns := ns) (nk := (idxList kn).length) (nb := nb) ε (max cfg.smearing 0) cfg.eps |A.det| mask ne
            spin cfg.restricted cfg.occupation
            (fun c occ e => totalEnergy L.xc c pos z (gVectors A n) (flatRows (kVectors A kn)) |A.det| (some occ)
              false cfg.xc = .ok e)
            (rep.total - rep.repulsion)
            (rep.parts.kin + rep.parts.har + rep.parts.ext + rep.parts.xc) rep.density ∧
          Spec.EnergyWithin (ns := ns) (nk := (idxList kn).length) (nb := nb)
            (2 * max cfg.smearing 0 * nb * Real.log 2 + ε) mask ne spin cfg.restricted cfg.occupation
            (fun c occ e => totalEnergy L.xc c pos z (gVectors A n) (flatRows (kVectors A kn)) |A.det| (some occ)
              false cfg.xc = .ok e) (rep.total - rep.repulsion)) ∧
        Spec.EnergyWithin (ns := ns) (nk := (idxList kn).length) (nb := nb)
          (2 * max cfg.smearing 100 * nb * Real.log 2 + ε) mask ne spin cfg.restricted cfg.occupation
          (fun c occ e => totalEnergy L.xc c pos z (gVectors A n) (flatRows (kVectors A kn)) |A.det| (some occ)
              false cfg.xc = .ok e) (rep.total - rep.repulsion) := by
  obtain ⟨n, kn, rep, mask, a1, a2, a3, a4, ns, nb, a5, -, en, j, h1, h2, h3, h4, h5⟩ :=
    run_history L cfg a size ksize ne spin H hC hR hxc heps hspin hg ε hopt A hA pos hpos z hz
  obtain ⟨b1, b2⟩ := history_report (idxList_length_pos fun i => smooth_pos (a3 i).1) (fun h => one_kpoint a3 (hg h)) heps
    h1 he (h2 (by omega) hw)
    (fun i => (h5 i).imp fun _ h => h.imp fun _ h => ⟨h.1, fun hi => (h.2 hi).1⟩)
  rw [show en j = rep.total - rep.repulsion by linarith, ← h4] at b1
  rw [show en j = rep.total - rep.repulsion by linarith] at b2
  exact ⟨n, kn, rep, mask, a1, a2, a3, a4, ns, nb, a5, en, j, h1, h3, fun i => by
    obtain ⟨c, occ, h, -⟩ := h5 i
    exact ⟨c, occ, h⟩, b1, b2⟩

/-- C98 for the all-electron calculation without a convergence test (`threshold ≤ 0`): the report is that of states
within `ε` of the ground state at the requested temperature. -/
theorem run_smearing (L : RunLib) (cfg : RunConfig) {m : ℕ} (a : AseAtoms m) (size ksize : Fin 3 → ℤ)
    (ne spin : ℤ) (H : Spec.AdmissibleRun L cfg a size ksize ne spin)
    (hC : Spec.Triangular L.qrC) (hR : Spec.Triangular L.qrR) (hxc : Spec.ContinuousXc L.xc cfg.xc)
    (heps : 0 < cfg.eps) (hspin : cfg.occupation = "simplex-projector" → cfg.restricted = true → spin = 0)
    (hg : cfg.occupation = "gamma" → ∀ i, ksize i ≤ 1)
    (ε : ℝ) (hopt : ∀ opt, L.optimizer = .ok opt → Spec.NearOptimizer ε opt)
    (A : Matrix (Fin 3) (Fin 3) ℝ) (hA : A = (angstrom2bohr : ℝ) • a.cell)
    (pos : Fin m → Fin 3 → ℝ) (hpos : ∀ i d, pos i d = angstrom2bohr * a.positions i d)
    (z : Fin m → ℝ) (hz : ∀ i, z i = a.numbers i)
    (he : 3 ≤ cfg.epoch) (hw : 2 ≤ cfg.window) (hth : cfg.threshold ≤ 0) :
    ∃ n kn rep, ∃ mask : Idx n → Bool, runAtoms L cfg a = .ok ⟨n, rep⟩ ∧ Spec.LeastGrid size n ∧
      Spec.LeastGrid ksize kn ∧ createFreqMask cfg A n = .ok mask ∧
      ∃ ns nb, nb = (ne.toNat + 1) / 2 + cfg.emptyBands ∧
        Spec.ReportAt (ns := ns) (nk := (idxList kn).length) (nb := nb) ε (max cfg.smearing 0) cfg.eps |A.det| mask ne
          spin cfg.restricted cfg.occupation
          (fun c occ e => totalEnergy L.xc c pos z (gVectors A n) (flatRows (kVectors A kn)) |A.det| (some occ)
              false cfg.xc = .ok e)
          (rep.total - rep.repulsion)
          (rep.parts.kin + rep.parts.har + rep.parts.ext + rep.parts.xc) rep.density ∧
        Spec.EnergyWithin (ns := ns) (nk := (idxList kn).length) (nb := nb)
          (2 * max cfg.smearing 0 * nb * Real.log 2 + ε) mask ne spin cfg.restricted cfg.occupation
          (fun c occ e => totalEnergy L.xc c pos z (gVectors A n) (flatRows (kVectors A kn)) |A.det| (some occ)
              false cfg.xc = .ok e) (rep.total - rep.repulsion) := by
  obtain ⟨n, kn, rep, mask, a1, a2, a3, a4, ns, nb, a5, en, j, -, -, -, h, -⟩ :=
    run_smearing_partial L cfg a size ksize ne spin H hC hR hxc heps hspin hg ε hopt A hA pos hpos z hz he hw
  exact ⟨n, kn, rep, mask, a1, a2, a3, a4, ns, nb, a5, h (Or.inl hth)⟩

/-- C98 for the norm-conserving calculation (part).  Missing: the same. -/
theorem ncRun_smearing_partial (L : NcLib) (cfg : NcConfig) {m : ℕ} (a : AseAtoms m) (size ksize : Fin 3 → ℤ)
    (P : NcLists) (ne spin : ℤ) (H : Spec.AdmissibleRunNC L cfg a size ksize P ne spin)
    (hC : Spec.Triangular L.qrC) (hR : Spec.Triangular L.qrR) (hxc : Spec.ContinuousXc L.xc cfg.xc)
    (heps : 0 < cfg.eps) (hspin : cfg.occupation = "simplex-projector" → cfg.restricted = true → spin = 0)
    (hg : cfg.occupation = "gamma" → ∀ i, ksize i ≤ 1)
    (ε : ℝ) (hopt : ∀ opt, L.optimizer = .ok opt → Spec.NearOptimizer ε opt)
    (A : Matrix (Fin 3) (Fin 3) ℝ) (hA : A = (angstrom2bohr : ℝ) • a.cell)
    (pos : Fin m → Fin 3 → ℝ) (hpos : ∀ i d, pos i d = angstrom2bohr * a.positions i d)
    (he : 3 ≤ cfg.epoch) (hw : 2 ≤ cfg.window) :
    ∃ n kn rep, ∃ mask : Idx n → Bool, ∃ vloc bs, runAtomsNC L cfg a = .ok ⟨n, rep⟩ ∧
      Spec.LeastGrid size n ∧ Spec.LeastGrid ksize kn ∧ createFreqMask cfg.toRunConfig A n = .ok mask ∧
      localReciprocal L.jn L.csLoc (ncLocalAtom P pos) (gVectors A n) |A.det| "sbt" = .ok vloc ∧
      ncBetas L P (gVectors A n) (flatRows (kVectors A kn)) = .ok bs ∧
      ∃ ns nb, nb = (ne.toNat + 1) / 2 + cfg.emptyBands ∧
      ∃ en : ℕ → ℝ, ∃ j, Spec.StopsAt cfg.window cfg.threshold cfg.epoch en j ∧ rep.total = en j + rep.repulsion ∧
        (∀ i, ∃ c occ, Spec.GroundWithin (ns := ns) (nk := (idxList kn).length) (nb := nb) ε
            (temperature cfg.smearing cfg.epoch i) cfg.eps mask ne spin cfg.restricted cfg.occupation
            (Spec.EnergyNC L.xc cfg.xc vloc (nlPsiAll L.eigh L.sph (fun a : Fin m => ncSpecies P bs a) pos
              (gVectors A n) (flatRows (kVectors A kn))) (gVectors A n) (flatRows (kVectors A kn)) |A.det|) c occ (en (i + 1))) ∧
        (cfg.threshold ≤ 0 ∨ cfg.epoch / 2 < j →
          Spec.ReportAt (ns := ns) (nk := (idxList kn).length) (nb := nb) ε (max cfg.smearing 0) cfg.eps |A.det| mask ne
            spin cfg.restricted cfg.occupation
            (Spec.EnergyNC L.xc cfg.xc vloc (nlPsiAll L.eigh L.sph (fun a : Fin m => ncSpecies P bs a) pos
              (gVectors A n) (flatRows (kVectors A kn))) (gVectors A n) (flatRows (kVectors A kn)) |A.det|)
            (rep.total - rep.repulsion)
            (rep.parts.1.kin + rep.parts.1.har + rep.parts.1.ext + rep.parts.2 + rep.parts.1.xc) rep.density ∧
          Spec.EnergyWithin (ns := ns) (nk := (idxList kn).length) (nb := nb)
            (2 * max cfg.smearing 0 * nb * Real.log 2 + ε) mask ne spin cfg.restricted cfg.occupation
            (Spec.EnergyNC L.xc cfg.xc vloc (nlPsiAll L.eigh L.sph (fun a : Fin m => ncSpecies P bs a) pos
              (gVectors A n) (flatRows (kVectors A kn))) (gVectors A n) (flatRows (kVectors A kn)) |A.det|) (rep.total - rep.repulsion)) ∧
        Spec.EnergyWithin (ns := ns) (nk := (idxList kn).length) (nb := nb)
          (2 * max cfg.smearing 100 * nb * Real.log 2 + ε) mask ne spin cfg.restricted cfg.occupation
          (Spec.EnergyNC L.xc cfg.xc vloc (nlPsiAll L.eigh L.sph (fun a : Fin m => ncSpecies P bs a) pos
              (gVectors A n) (flatRows (kVectors A kn))) (gVectors A n) (flatRows (kVectors A kn)) |A.det|) (rep.total - rep.repulsion) := by
  obtain ⟨n, kn, rep, mask, vloc, bs, a1, a2, a3, a4, a6, a7, ns, nb, a5, -, en, j, h1, h2, h3, h4, h5⟩ :=
    ncRun_history L cfg a size ksize P ne spin H hC hR hxc heps hspin hg ε hopt A hA pos hpos
  obtain ⟨b1, b2⟩ := history_report (idxList_length_pos fun i => smooth_pos (a3 i).1) (fun h => one_kpoint a3 (hg h)) heps
    h1 he (h2 (by omega) hw)
    (fun i => (h5 i).imp fun _ h => h.imp fun _ h => ⟨h.1, fun hi => (h.2 hi).1⟩)
  rw [show en j = rep.total - rep.repulsion by linarith, ← h4] at b1
  rw [show en j = rep.total - rep.repulsion by linarith] at b2
  exact ⟨n, kn, rep, mask, vloc, bs, a1, a2, a3, a4, a6, a7, ns, nb, a5, en, j, h1, h3, fun i => by
    obtain ⟨c, occ, h, -⟩ := h5 i
    exact ⟨c, occ, h⟩, b1, b2⟩

/-- C98 for the norm-conserving calculation without a convergence test. -/
theorem ncRun_smearing (L : NcLib) (cfg : NcConfig) {m : ℕ} (a : AseAtoms m) (size ksize : Fin 3 → ℤ)
    (P : NcLists) (ne spin : ℤ) (H : Spec.AdmissibleRunNC L cfg a size ksize P ne spin)
    (hC : Spec.Triangular L.qrC) (hR : Spec.Triangular L.qrR) (hxc : Spec.ContinuousXc L.xc cfg.xc)
    (heps : 0 < cfg.eps) (hspin : cfg.occupation = "simplex-projector" → cfg.restricted = true → spin = 0)
    (hg : cfg.occupation = "gamma" → ∀ i, ksize i ≤ 1)
    (ε : ℝ) (hopt : ∀ opt, L.optimizer = .ok opt → Spec.NearOptimizer ε opt)
    (A : Matrix (Fin 3) (Fin 3) ℝ) (hA : A = (angstrom2bohr : ℝ) • a.cell)
    (pos : Fin m → Fin 3 → ℝ) (hpos : ∀ i d, pos i d = angstrom2bohr * a.positions i d)
    (he : 3 ≤ cfg.epoch) (hw : 2 ≤ cfg.window) (hth : cfg.threshold ≤ 0) :
    ∃ n kn rep, ∃ mask : Idx n → Bool, ∃ vloc bs, runAtomsNC L cfg a = .ok ⟨n, rep⟩ ∧
      Spec.LeastGrid size n ∧ Spec.LeastGrid ksize kn ∧ createFreqMask cfg.toRunConfig A n = .ok mask ∧
      localReciprocal L.jn L.csLoc (ncLocalAtom P pos) (gVectors A n) |A.det| "sbt" = .ok vloc ∧
      ncBetas L P (gVectors A n) (flatRows (kVectors A kn)) = .ok bs ∧
      ∃ ns nb, nb = (ne.toNat + 1) / 2 + cfg.emptyBands ∧
        Spec.ReportAt (ns := ns) (nk := (idxList kn).length) (nb := nb) ε (max cfg.smearing 0) cfg.eps |A.det| mask ne
          spin cfg.restricted cfg.occupation
          (Spec.EnergyNC L.xc cfg.xc vloc (nlPsiAll L.eigh L.sph (fun a : Fin m => ncSpecies P bs a) pos
              (gVectors A n) (flatRows (kVectors A kn))) (gVectors A n) (flatRows (kVectors A kn)) |A.det|)
          (rep.total - rep.repulsion)
          (rep.parts.1.kin + rep.parts.1.har + rep.parts.1.ext + rep.parts.2 + rep.parts.1.xc) rep.density ∧
        Spec.EnergyWithin (ns := ns) (nk := (idxList kn).length) (nb := nb)
          (2 * max cfg.smearing 0 * nb * Real.log 2 + ε) mask ne spin cfg.restricted cfg.occupation
          (Spec.EnergyNC L.xc cfg.xc vloc (nlPsiAll L.eigh L.sph (fun a : Fin m => ncSpecies P bs a) pos
              (gVectors A n) (flatRows (kVectors A kn))) (gVectors A n) (flatRows (kVectors A kn)) |A.det|) (rep.total - rep.repulsion) := by
  obtain ⟨n, kn, rep, mask, vloc, bs, a1, a2, a3, a4, a6, a7, ns, nb, a5, en, j, -, -, -, h, -⟩ :=
    ncRun_smearing_partial L cfg a size ksize P ne spin H hC hR hxc heps hspin hg ε hopt A hA pos hpos he hw
  exact ⟨n, kn, rep, mask, vloc, bs, a1, a2, a3, a4, a6, a7, ns, nb, a5, h (Or.inl hth)⟩

/-! ### Ending early -/

/-- C98 is false: energies that do not change end the loop after `window` steps, however far the temperature still is
from the requested one. -/
theorem stops_hot (w : ℤ) (hw : 1 ≤ w) (th : ℝ) (hth : 0 < th) (epoch : ℤ) (he : w ≤ epoch / 2) (sm : ℝ) (h0 : 0 < sm)
    (h1 : sm < 100) (en : ℕ → ℝ) (hen : ∀ i, en i = en 0) (j : ℕ) (hj : Spec.StopsAt w th epoch en j) :
    (j : ℤ) + 1 = w ∧ sm < temperature sm epoch j := by
  have hq : ∀ i : ℕ, Spec.Quiet w th ((List.range (i + 1)).map fun l => some (en l)) ↔ w ≤ i + 1 := by
    intro i
    have e1 : ((List.range (i + 1)).map fun l => some (en l)) = List.replicate (i + 1) (some (en 0)) := by
      rw [show (fun l => some (en l)) = fun _ => some (en 0) from funext fun l => by rw [hen]]
      simp
    rw [e1]
    constructor
    · rintro ⟨xs, -, h2, h3, -⟩
      have := h3.length_le
      simp at this
      omega
    · intro hi
      obtain ⟨k, rfl⟩ : ∃ k : ℕ, w = k := ⟨w.toNat, by omega⟩
      have hk : (k : ℝ) ≠ 0 := by
        have : 0 < k := by omega
        exact_mod_cast this.ne'
      refine ⟨List.replicate k (en 0), by simp; omega, by simp, ?_, ?_⟩
      · rw [List.map_replicate]
        exact ⟨List.replicate (i + 1 - k) (some (en 0)), by rw [← List.replicate_add]; congr 1; omega⟩
      · have : Spec.variance (List.replicate k (en 0)) = 0 := by
          unfold Spec.variance
          simp [hk]
        rw [this, Real.sqrt_zero]
        exact hth
  have hjw : (j : ℤ) + 1 = w := by
    rcases lt_trichotomy ((j : ℤ) + 1) w with h | h | h
    · rcases hj.last with h2 | h2
      · omega
      · have := (hq j).1 h2
        omega
    · exact h
    · exact absurd ((hq (w - 1).toNat).2 (by omega)) (hj.first (w - 1).toNat (by omega))
  refine ⟨hjw, ?_⟩
  have hs : (0 : ℝ) < ((epoch / 2 : ℤ) : ℝ) := by
    have : 0 < epoch / 2 := by omega
    exact_mod_cast this
  unfold temperature exponentialDecay
  rw [if_pos h0, if_neg (by omega), if_neg (by positivity)]
  simp only
  rw [if_pos (by linarith)]
  refine lt_max_of_lt_left ?_
  split_ifs with hj0
  · exact h1
  · have hlt : (j : ℝ) / ((epoch / 2 : ℤ) : ℝ) < 1 := by
      rw [div_lt_one hs]
      have : (j : ℤ) < epoch / 2 := by omega
      exact_mod_cast this
    have := Real.rpow_lt_rpow_of_exponent_gt (show 0 < sm / 100 by positivity) (by linarith) hlt
    rw [Real.rpow_one] at this
    linarith

/-- Witness: a constant energy with window 20, 5000 epochs and a smearing of 0.001 ends the loop after 20 steps, while
the temperature is above 0.001. -/
example : Spec.StopsAt 20 1e-4 5000 (fun _ => -1) 19 ∧ (0.001 : ℝ) < temperature 0.001 5000 19 := by
  have hq : ∀ i : ℕ, Spec.Quiet 20 1e-4 ((List.range (i + 1)).map fun _ => some (-1)) → 19 ≤ i := by
    rintro i ⟨xs, -, h2, h3, -⟩
    have := h3.length_le
    simp at this
    omega
  have h : Spec.StopsAt 20 1e-4 5000 (fun _ => -1) 19 := by
    refine ⟨by norm_num, fun i hi h => ?_, Or.inr ⟨List.replicate 20 (-1), by simp, by simp, ?_, ?_⟩⟩
    · have := hq i h
      omega
    · exact ⟨[], by simp⟩
    · have : Spec.variance (List.replicate 20 (-1)) = 0 := by
        unfold Spec.variance
        simp
        norm_num
      rw [this, Real.sqrt_zero]
      norm_num
  exact ⟨h, (stops_hot 20 (by norm_num) 1e-4 (by norm_num) 5000 (by norm_num) 0.001 (by norm_num) (by norm_num) _
    (fun _ => rfl) 19 h).2⟩

/-- The hypotheses of `run_smearing` hold for the lithium atom with a smearing of 0.01 and without a convergence
test. -/
example {ε : ℝ} (hε : 0 < ε) :
    let L : RunLib := { lithiumLib diracLib with
      qrC := gramSchmidtQR ℂ, qrR := gramSchmidtQR ℝ, optimizer := .ok (nearOptimizer ε) }
    let cfg : RunConfig := { lithiumConfig with smearing := 0.01, threshold := 0 }
    Spec.AdmissibleRun L cfg (⟨fun _ => 3, 0, 1⟩ : AseAtoms 1) (fun _ => 4) (fun _ => 2) 3 1 ∧
      Spec.Triangular L.qrC ∧ Spec.Triangular L.qrR ∧ Spec.ContinuousXc L.xc cfg.xc ∧
      0 < cfg.eps ∧ cfg.restricted = false ∧ cfg.occupation ≠ "gamma" ∧
      (∀ opt, L.optimizer = .ok opt → Spec.NearOptimizer ε opt) ∧ 3 ≤ cfg.epoch ∧ 2 ≤ cfg.window ∧
      cfg.threshold ≤ 0 := by
  intro L cfg
  have H := lithium_admissible diracLib
  refine ⟨⟨H.cell, H.sizes, H.ksizes, H.electrons, H.unpaired, H.placeable, H.method, H.waves, H.ewald, H.devices,
      ⟨nearOptimizer ε, rfl, nearOptimizer_keeps ε⟩, H.epochs, H.noFault⟩,
    gramSchmidtQR_triangular ℂ, gramSchmidtQR_triangular ℝ, diracLib_continuous,
    by norm_num [cfg, lithiumConfig], rfl, by decide, ?_, by decide, by decide, le_rfl⟩
  intro opt h
  cases h
  exact nearOptimizer_near hε

/-- The hypotheses of `ncRun_smearing` hold for the silicon pair with a smearing of 0.01 and without a convergence
test. -/
example {ε : ℝ} (hε : 0 < ε) (eigh : Eigh) (jn : SphBessel) (csLoc csBeta : Spline) :
    let L : NcLib := { siliconLib diracLib eigh jn csLoc csBeta with
      qrC := gramSchmidtQR ℂ, qrR := gramSchmidtQR ℝ, optimizer := .ok (nearOptimizer ε) }
    let cfg : NcConfig := { siliconConfig with smearing := 0.01, threshold := 0 }
    (∃ P, Spec.AdmissibleRunNC L cfg siliconAtoms (fun _ => 4) (fun _ => 2) P 4 0) ∧
      Spec.Triangular L.qrC ∧ Spec.Triangular L.qrR ∧ Spec.ContinuousXc L.xc cfg.xc ∧
      0 < cfg.eps ∧ cfg.restricted = false ∧ cfg.occupation ≠ "gamma" ∧
      (∀ opt, L.optimizer = .ok opt → Spec.NearOptimizer ε opt) ∧ 3 ≤ cfg.epoch ∧ 2 ≤ cfg.window ∧
      cfg.threshold ≤ 0 := by
  intro L cfg
  obtain ⟨P, H⟩ := silicon_admissible diracLib eigh jn csLoc csBeta
  refine ⟨⟨P, { H with optimizer := ⟨nearOptimizer ε, rfl, nearOptimizer_keeps ε⟩ }⟩,
    gramSchmidtQR_triangular ℂ, gramSchmidtQR_triangular ℝ, diracLib_continuous,
    by norm_num [cfg, siliconConfig, lithiumConfig], rfl, by decide, ?_, by decide, by decide, le_rfl⟩
  intro opt h
  cases h
  exact nearOptimizer_near hε

end Jrystal
