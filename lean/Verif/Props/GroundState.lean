import Verif.Lemmas.GroundState
import Verif.Props.Run
import Verif.Props.RunNC
import Verif.Props.Xc
import Mathlib.Analysis.SpecialFunctions.Pow.Continuity

/- C89: with an optimiser that gets within `ε` of the minimum, a calculation reports the ground state to within
`ε`. -/
namespace Jrystal
open scoped BigOperators ComplexConjugate
open RunSetup

/-- C98, all-electron driver: the history of an optimisation whose updates end within `ε` of the minimum.  After
step `i` the state is within `ε` of the ground state at the temperature of that step; the loop ends at the first
quiet window or after the last epoch, and the energies of the step at which it ends are reported. -/
theorem driver_history {na nk ns empty : ℕ} {n : Fin 3 → ℕ} (hn : ∀ i, 0 < n i) (hk : 0 < nk)
    {O : Type*} (E : GsEnv na nk n) (hv : 0 < E.vol)
    (htC : Spec.Triangular E.qrC) (htR : Spec.Triangular E.qrR) (hxc : Spec.ContinuousXc E.lib E.xc)
    (heps : 0 < E.eps) (draw : ∀ n m : ℕ, Matrix (Fin n) (Fin m) ℝ) (hns : ns = if E.restricted then 1 else 2)
    (hm : driverBands E.ne.toNat empty ≤ maskCount E.mask) (hp : Spec.Placeable E.method E.ne E.spin empty)
    (hspin : E.method = "simplex-projector" → E.restricted = true → E.spin = 0)
    (hg : E.method = "gamma" → nk = 1)
    (pw0 : PwParams ns nk (maskCount E.mask) (driverBands E.ne.toNat empty))
    (p0 : GsParams ns nk (maskCount E.mask) (driverBands E.ne.toNat empty)) (o0 : O)
    (h0 : gsInit E draw pw0 = .ok p0) (ew : ℝ)
    (upd : GsParams ns nk (maskCount E.mask) (driverBands E.ne.toNat empty) × O → ℝ →
      GsParams ns nk (maskCount E.mask) (driverBands E.ne.toNat empty) × O)
    (hupd : ∀ p t, Spec.KeepsShape p.1.occ (upd p t).1.occ) (ε : ℝ)
    (hopt : ∀ p t, (∃ m, ∀ q : GsParams ns nk (maskCount E.mask) (driverBands E.ne.toNat empty),
        Spec.KeepsShape p.1.occ q.occ → ∃ v, (gsFree E t q).map (fun r => r.1) = .ok v ∧ m ≤ v) →
      ∀ (q : GsParams ns nk (maskCount E.mask) (driverBands E.ne.toNat empty)) (v : ℝ), Spec.KeepsShape p.1.occ q.occ →
        (gsFree E t q).map (fun r => r.1) = .ok v →
        ∃ v', (gsFree E t (upd p t).1).map (fun r => r.1) = .ok v' ∧ v' ≤ v + ε)
    (epoch : ℤ) (he : 0 < epoch) (smearing : ℝ) (window : ℤ) (th : ℝ) :
    ∃ rep, ∃ en : ℕ → ℝ, ∃ j, gsCalc E ew upd epoch smearing window th (p0, o0) = .ok rep ∧ rep.repulsion = ew ∧
      Spec.StopsAt window th epoch en j ∧ (2 ≤ epoch → 2 ≤ window → 0 < j) ∧ rep.total = en j + ew ∧
      rep.parts.kin + rep.parts.har + rep.parts.ext + rep.parts.xc = en (j + 1) ∧
      ∀ i, ∃ c occ, Spec.GroundWithin (nb := min (maskCount E.mask) (driverBands E.ne.toNat empty)) ε
          (temperature smearing epoch i) E.eps E.mask E.ne E.spin E.restricted E.method
          (fun c occ e => totalEnergy E.lib c E.pos E.charge E.g E.kpts E.vol (some occ) false E.xc = .ok e)
          c occ (en (i + 1)) ∧
        (i = j → rep.density = ⟨ns, densityGrid c E.vol occ⟩ ∧
          totalEnergySplit E.lib c E.pos E.charge E.g E.kpts E.vol (some occ) false E.xc = .ok rep.parts) := by
  obtain ⟨f, hf, hval⟩ := continuousOn_totalEnergy (ns := ns) (nk := nk)
    (nb := min (maskCount E.mask) (driverBands E.ne.toNat empty)) E.lib E.xc hxc E.pos E.charge E.g E.kpts E.vol
  have hall := run_ground_all hn hk E hv htC htR heps draw hns hm hp hspin hg p0 o0 (gsInit_occ h0) ew
    (fun c occ e => totalEnergy E.lib c E.pos E.charge E.g E.kpts E.vol (some occ) false E.xc = .ok e) f hf
    (fun c occ e => by
      rw [hval]
      exact ⟨fun h => (Except.ok.inj h).symm, fun h => by rw [h]⟩)
    (fun u hu c occ => by
      have h1 := totalEnergy_phased E.lib u hu c E.pos E.charge E.g E.kpts E.vol occ false E.xc
      rw [hval, hval] at h1
      exact Except.ok.inj h1)
    (gsTotal E) (fun p c occ hs => by rw [gsTotal_of_state E p _ _ hs, hval]) (gsParts E)
    (fun p o ho hl => by
      obtain ⟨q, hq⟩ := gsParts_ok E p o ho hl hm
      exact ⟨_, gsTotal_of_parts E p q hq⟩)
    (fun p o ho hl => gsParts_ok E p o ho hl hm) (fun q => q.kin + q.har + q.ext + q.xc)
    (fun p y hy => gsTotal_of_parts E p y hy) (fun t q => (gsFree E t q).map fun r => r.1)
    (fun t p v S hv hS => by
      unfold gsFree
      rw [hv, hS]
      rfl) upd hupd ε hopt epoch he smearing window th
  obtain ⟨rep, en, j, h1, h2, h3, h4, h5, h6, h7⟩ := hall
  refine ⟨rep, en, j, h1, h2, h3, h4, h5, h6, fun i => ?_⟩
  obtain ⟨c, occ, g1, g2⟩ := h7 i
  refine ⟨c, occ, g1, fun hij => ?_⟩
  obtain ⟨k1, p, k2, k3⟩ := g2 hij
  exact ⟨k1, (gsParts_of_state E p c occ k2).symm.trans k3⟩

/-- C89, all-electron driver: for every optimiser whose update at temperature `t` ends within `ε` of the least
free energy that parameters can have, the energies and the density which the driver returns are those of a
physical state whose free energy is within `ε` of the least that any physical state has, at one of the
temperatures of the schedule.  With at least two steps and a window of at least two values the same holds for
the total energy. -/
theorem driver_ground_state {na nk ns empty : ℕ} {n : Fin 3 → ℕ} (hn : ∀ i, 0 < n i) (hk : 0 < nk)
    {O : Type*} (E : GsEnv na nk n) (hv : 0 < E.vol)
    (htC : Spec.Triangular E.qrC) (htR : Spec.Triangular E.qrR) (hxc : Spec.ContinuousXc E.lib E.xc)
    (heps : 0 < E.eps) (draw : ∀ n m : ℕ, Matrix (Fin n) (Fin m) ℝ) (hns : ns = if E.restricted then 1 else 2)
    (hm : driverBands E.ne.toNat empty ≤ maskCount E.mask) (hp : Spec.Placeable E.method E.ne E.spin empty)
    (hspin : E.method = "simplex-projector" → E.restricted = true → E.spin = 0)
    (hg : E.method = "gamma" → nk = 1)
    (pw0 : PwParams ns nk (maskCount E.mask) (driverBands E.ne.toNat empty))
    (p0 : GsParams ns nk (maskCount E.mask) (driverBands E.ne.toNat empty)) (o0 : O)
    (h0 : gsInit E draw pw0 = .ok p0) (ew : ℝ)
    (upd : GsParams ns nk (maskCount E.mask) (driverBands E.ne.toNat empty) × O → ℝ →
      GsParams ns nk (maskCount E.mask) (driverBands E.ne.toNat empty) × O)
    (hupd : ∀ p t, Spec.KeepsShape p.1.occ (upd p t).1.occ) (ε : ℝ)
    (hopt : ∀ p t, (∃ m, ∀ q : GsParams ns nk (maskCount E.mask) (driverBands E.ne.toNat empty),
        Spec.KeepsShape p.1.occ q.occ → ∃ v, (gsFree E t q).map (fun r => r.1) = .ok v ∧ m ≤ v) →
      ∀ (q : GsParams ns nk (maskCount E.mask) (driverBands E.ne.toNat empty)) (v : ℝ), Spec.KeepsShape p.1.occ q.occ →
        (gsFree E t q).map (fun r => r.1) = .ok v →
        ∃ v', (gsFree E t (upd p t).1).map (fun r => r.1) = .ok v' ∧ v' ≤ v + ε)
    (epoch : ℤ) (he : 0 < epoch) (smearing : ℝ) (window : ℤ) (th : ℝ) :
    ∃ rep, gsCalc E ew upd epoch smearing window th (p0, o0) = .ok rep ∧ rep.repulsion = ew ∧
      (∃ j c occ, j < epoch.toNat ∧
        Spec.GroundWithin (nb := min (maskCount E.mask) (driverBands E.ne.toNat empty)) ε
          (temperature smearing epoch j) E.eps E.mask E.ne E.spin E.restricted E.method
          (fun c occ e => totalEnergy E.lib c E.pos E.charge E.g E.kpts E.vol (some occ) false E.xc = .ok e)
          c occ (rep.parts.kin + rep.parts.har + rep.parts.ext + rep.parts.xc) ∧
        rep.density = ⟨ns, densityGrid c E.vol occ⟩ ∧
        totalEnergySplit E.lib c E.pos E.charge E.g E.kpts E.vol (some occ) false E.xc = .ok rep.parts) ∧
      (2 ≤ epoch → 2 ≤ window → ∃ j c occ, j < epoch.toNat ∧
        Spec.GroundWithin (ns := ns) (nb := min (maskCount E.mask) (driverBands E.ne.toNat empty)) ε
          (temperature smearing epoch j) E.eps E.mask E.ne E.spin E.restricted E.method
          (fun c occ e => totalEnergy E.lib c E.pos E.charge E.g E.kpts E.vol (some occ) false E.xc = .ok e)
          c occ (rep.total - rep.repulsion)) := by
  obtain ⟨rep, en, j, h1, h2, h3, h4, h5, h6, h7⟩ :=
    driver_history hn hk E hv htC htR hxc heps draw hns hm hp hspin hg pw0 p0 o0 h0 ew upd hupd ε hopt epoch he
      smearing window th
  have hjlt : j < epoch.toNat := by have := h3.within; omega
  refine ⟨rep, h1, h2, ?_, fun hep hw => ?_⟩
  · obtain ⟨c, occ, hg, hd⟩ := h7 j
    exact ⟨j, c, occ, hjlt, h6 ▸ hg, hd rfl⟩
  · have hj := h4 hep hw
    obtain ⟨c, occ, hg, -⟩ := h7 (j - 1)
    rw [Nat.sub_add_cancel hj] at hg
    refine ⟨j - 1, c, occ, by omega, ?_⟩
    rw [h5, h2, add_sub_cancel_right]
    exact hg

/-- C98, norm-conserving driver: the history of an optimisation whose updates end within `ε` of the minimum.  After
step `i` the state is within `ε` of the ground state at the temperature of that step; the loop ends at the first
quiet window or after the last epoch, and the energies of the step at which it ends are reported. -/
theorem driverNC_history {na nk ns empty M : ℕ} {ι : Type} [Fintype ι] {n : Fin 3 → ℕ}
    (hn : ∀ i, 0 < n i) (hk : 0 < nk) {O : Type*} (E : GsEnv na nk n) (vloc : Idx n → ℂ)
    (psi : Fin nk → ι → Fin M → Idx n → ℂ) (hv : 0 < E.vol)
    (htC : Spec.Triangular E.qrC) (htR : Spec.Triangular E.qrR) (hxc : Spec.ContinuousXc E.lib E.xc)
    (heps : 0 < E.eps) (draw : ∀ n m : ℕ, Matrix (Fin n) (Fin m) ℝ) (hns : ns = if E.restricted then 1 else 2)
    (hm : driverBands E.ne.toNat empty ≤ maskCount E.mask) (hp : Spec.Placeable E.method E.ne E.spin empty)
    (hr : E.restricted = true ∨ (E.method ≠ "uniform" ∧ E.method ≠ "gamma"))
    (hspin : E.method = "simplex-projector" → E.restricted = true → E.spin = 0)
    (hg : E.method = "gamma" → nk = 1)
    (pw0 : PwParams ns nk (maskCount E.mask) (driverBands E.ne.toNat empty))
    (p0 : GsParams ns nk (maskCount E.mask) (driverBands E.ne.toNat empty)) (o0 : O)
    (h0 : gsInitNC E draw pw0 = .ok p0) (ew : ℝ)
    (upd : GsParams ns nk (maskCount E.mask) (driverBands E.ne.toNat empty) × O → ℝ →
      GsParams ns nk (maskCount E.mask) (driverBands E.ne.toNat empty) × O)
    (hupd : ∀ p t, Spec.KeepsShape p.1.occ (upd p t).1.occ) (ε : ℝ)
    (hopt : ∀ p t, (∃ m, ∀ q : GsParams ns nk (maskCount E.mask) (driverBands E.ne.toNat empty),
        Spec.KeepsShape p.1.occ q.occ → ∃ v, (gsFreeNC E vloc psi t q).map (fun r => r.1) = .ok v ∧ m ≤ v) →
      ∀ (q : GsParams ns nk (maskCount E.mask) (driverBands E.ne.toNat empty)) (v : ℝ), Spec.KeepsShape p.1.occ q.occ →
        (gsFreeNC E vloc psi t q).map (fun r => r.1) = .ok v →
        ∃ v', (gsFreeNC E vloc psi t (upd p t).1).map (fun r => r.1) = .ok v' ∧ v' ≤ v + ε)
    (epoch : ℤ) (he : 0 < epoch) (smearing : ℝ) (window : ℤ) (th : ℝ) :
    ∃ rep, ∃ en : ℕ → ℝ, ∃ j, gsCalcNC E vloc psi ew upd epoch smearing window th (p0, o0) = .ok rep ∧ rep.repulsion = ew ∧
      Spec.StopsAt window th epoch en j ∧ (2 ≤ epoch → 2 ≤ window → 0 < j) ∧ rep.total = en j + ew ∧
      rep.parts.1.kin + rep.parts.1.har + rep.parts.1.ext + rep.parts.2 + rep.parts.1.xc = en (j + 1) ∧
      ∀ i, ∃ c occ, Spec.GroundWithin (nb := min (maskCount E.mask) (driverBands E.ne.toNat empty)) ε
          (temperature smearing epoch i) E.eps E.mask E.ne E.spin E.restricted E.method
          (Spec.EnergyNC E.lib E.xc vloc psi E.g E.kpts E.vol)
          c occ (en (i + 1)) ∧
        (i = j → rep.density = ⟨ns, densityGrid c E.vol occ⟩ ∧
          rep.parts.1.kin = kineticEnergyOcc E.g E.kpts c occ ∧
          hartreeEnergy (densityGridReciprocal c E.vol occ) E.g E.vol false = .ok rep.parts.1.har ∧
          energyLocal (densityGridReciprocal c E.vol occ) vloc E.vol = .ok rep.parts.1.ext ∧
          energyNonlocal c psi E.vol (some occ) = .ok rep.parts.2 ∧
          xcEnergy E.lib E.xc false (densityGrid c E.vol occ) E.g E.vol = .ok rep.parts.1.xc) := by
  have hinit : occParamInit draw (driverBands E.ne.toNat empty) E.ne nk E.spin E.method E.restricted
      = .ok p0.occ := by
    rw [← gsInitNC_occ h0]
    rcases hr with hr | ⟨h1, h2⟩
    · rw [hr]
    · simp only [occParamInit, h1, h2, if_false]
  obtain ⟨f, hf, hval⟩ := continuousOn_energyNC (ns := ns) (nk := nk)
    (nb := min (maskCount E.mask) (driverBands E.ne.toNat empty)) E.lib E.xc hxc vloc psi E.g E.kpts E.vol
  have hall := run_ground_all hn hk E hv htC htR heps draw hns hm hp hspin hg p0 o0 hinit ew
    (Spec.EnergyNC E.lib E.xc vloc psi E.g E.kpts E.vol) f hf
    (fun c occ e => ⟨fun h => energyNC_unique h (hval c occ), fun h => by rw [h]; exact hval c occ⟩)
    (fun u hu c occ => energyNC_unique ((energyNC_phased u hu).1 (hval (phased u c) occ)) (hval c occ))
    (gsTotalNC E vloc psi) (fun p c occ hs => gsTotalNC_of_state E vloc psi p c occ hs _ (hval c occ))
    (gsPartsNC E vloc psi)
    (fun p o ho hl => by
      obtain ⟨q, hq⟩ := gsPartsNC_ok E vloc psi p o ho hl hm
      exact ⟨_, gsTotalNC_of_parts E vloc psi p q hq⟩)
    (fun p o ho hl => gsPartsNC_ok E vloc psi p o ho hl hm)
    (fun q => q.1.kin + q.1.har + q.1.ext + q.2 + q.1.xc)
    (fun p y hy => gsTotalNC_of_parts E vloc psi p y hy) (fun t q => (gsFreeNC E vloc psi t q).map fun r => r.1)
    (fun t p v S hv hS => by
      unfold gsFreeNC
      rw [hv, hS]
      rfl) upd hupd ε hopt epoch he smearing window th
  obtain ⟨rep, en, j, h1, h2, h3, h4, h5, h6, h7⟩ := hall
  refine ⟨rep, en, j, h1, h2, h3, h4, h5, h6, fun i => ?_⟩
  obtain ⟨c, occ, g1, g2⟩ := h7 i
  refine ⟨c, occ, g1, fun hij => ?_⟩
  obtain ⟨k1, p, k2, k3⟩ := g2 hij
  exact ⟨k1, partsNC_of_state E vloc psi p c occ k2 _ k3⟩

/-- C89, norm-conserving driver: the same with the energy of the valence electrons in every local and nonlocal
potential, except for spin-unrestricted `uniform` and `gamma` occupations (`driverNC_density_doubled`). -/
theorem driverNC_ground_state {na nk ns empty M : ℕ} {ι : Type} [Fintype ι] {n : Fin 3 → ℕ}
    (hn : ∀ i, 0 < n i) (hk : 0 < nk) {O : Type*} (E : GsEnv na nk n) (vloc : Idx n → ℂ)
    (psi : Fin nk → ι → Fin M → Idx n → ℂ) (hv : 0 < E.vol)
    (htC : Spec.Triangular E.qrC) (htR : Spec.Triangular E.qrR) (hxc : Spec.ContinuousXc E.lib E.xc)
    (heps : 0 < E.eps) (draw : ∀ n m : ℕ, Matrix (Fin n) (Fin m) ℝ) (hns : ns = if E.restricted then 1 else 2)
    (hm : driverBands E.ne.toNat empty ≤ maskCount E.mask) (hp : Spec.Placeable E.method E.ne E.spin empty)
    (hr : E.restricted = true ∨ (E.method ≠ "uniform" ∧ E.method ≠ "gamma"))
    (hspin : E.method = "simplex-projector" → E.restricted = true → E.spin = 0)
    (hg : E.method = "gamma" → nk = 1)
    (pw0 : PwParams ns nk (maskCount E.mask) (driverBands E.ne.toNat empty))
    (p0 : GsParams ns nk (maskCount E.mask) (driverBands E.ne.toNat empty)) (o0 : O)
    (h0 : gsInitNC E draw pw0 = .ok p0) (ew : ℝ)
    (upd : GsParams ns nk (maskCount E.mask) (driverBands E.ne.toNat empty) × O → ℝ →
      GsParams ns nk (maskCount E.mask) (driverBands E.ne.toNat empty) × O)
    (hupd : ∀ p t, Spec.KeepsShape p.1.occ (upd p t).1.occ) (ε : ℝ)
    (hopt : ∀ p t, (∃ m, ∀ q : GsParams ns nk (maskCount E.mask) (driverBands E.ne.toNat empty),
        Spec.KeepsShape p.1.occ q.occ → ∃ v, (gsFreeNC E vloc psi t q).map (fun r => r.1) = .ok v ∧ m ≤ v) →
      ∀ (q : GsParams ns nk (maskCount E.mask) (driverBands E.ne.toNat empty)) (v : ℝ), Spec.KeepsShape p.1.occ q.occ →
        (gsFreeNC E vloc psi t q).map (fun r => r.1) = .ok v →
        ∃ v', (gsFreeNC E vloc psi t (upd p t).1).map (fun r => r.1) = .ok v' ∧ v' ≤ v + ε)
    (epoch : ℤ) (he : 0 < epoch) (smearing : ℝ) (window : ℤ) (th : ℝ) :
    ∃ rep, gsCalcNC E vloc psi ew upd epoch smearing window th (p0, o0) = .ok rep ∧ rep.repulsion = ew ∧
      (∃ j c occ, j < epoch.toNat ∧
        Spec.GroundWithin (nb := min (maskCount E.mask) (driverBands E.ne.toNat empty)) ε
          (temperature smearing epoch j) E.eps E.mask E.ne E.spin E.restricted E.method
          (Spec.EnergyNC E.lib E.xc vloc psi E.g E.kpts E.vol) c occ
          (rep.parts.1.kin + rep.parts.1.har + rep.parts.1.ext + rep.parts.2 + rep.parts.1.xc) ∧
        rep.density = ⟨ns, densityGrid c E.vol occ⟩) ∧
      (2 ≤ epoch → 2 ≤ window → ∃ j c occ, j < epoch.toNat ∧
        Spec.GroundWithin (ns := ns) (nb := min (maskCount E.mask) (driverBands E.ne.toNat empty)) ε
          (temperature smearing epoch j) E.eps E.mask E.ne E.spin E.restricted E.method
          (Spec.EnergyNC E.lib E.xc vloc psi E.g E.kpts E.vol) c occ (rep.total - rep.repulsion)) := by
  obtain ⟨rep, en, j, h1, h2, h3, h4, h5, h6, h7⟩ :=
    driverNC_history hn hk E vloc psi hv htC htR hxc heps draw hns hm hp hr hspin hg pw0 p0 o0 h0 ew upd hupd ε
      hopt epoch he smearing window th
  have hjlt : j < epoch.toNat := by have := h3.within; omega
  refine ⟨rep, h1, h2, ?_, fun hep hw => ?_⟩
  · obtain ⟨c, occ, hg, hd⟩ := h7 j
    exact ⟨j, c, occ, hjlt, h6 ▸ hg, (hd rfl).1⟩
  · have hj := h4 hep hw
    obtain ⟨c, occ, hg, -⟩ := h7 (j - 1)
    rw [Nat.sub_add_cancel hj] at hg
    refine ⟨j - 1, c, occ, by omega, ?_⟩
    rw [h5, h2, add_sub_cancel_right]
    exact hg

theorem one_kpoint {ksize : Fin 3 → ℤ} {kn : Fin 3 → ℕ} (h : Spec.LeastGrid ksize kn)
    (h1 : ∀ i, ksize i ≤ 1) : (idxList kn).length = 1 := by
  have : ∀ i, kn i = 1 := fun i => by
    obtain ⟨hs, -, hle⟩ := h i
    have h2 := hle 1 ⟨0, 0, 0, 0, rfl⟩ (by exact_mod_cast h1 i)
    have h3 := smooth_pos hs
    omega
  rw [idxList_length, this, this, this]

/-- C98, whole all-electron calculation: the history of an optimisation whose updates end within `ε` of the minimum.  After
step `i` the state is within `ε` of the ground state at the temperature of that step; the loop ends at the first
quiet window or after the last epoch, and the energies of the step at which it ends are reported. -/
theorem run_history (L : RunLib) (cfg : RunConfig) {m : ℕ} (a : AseAtoms m) (size ksize : Fin 3 → ℤ)
    (ne spin : ℤ) (H : Spec.AdmissibleRun L cfg a size ksize ne spin)
    (hC : Spec.Triangular L.qrC) (hR : Spec.Triangular L.qrR) (hxc : Spec.ContinuousXc L.xc cfg.xc)
    (heps : 0 < cfg.eps) (hspin : cfg.occupation = "simplex-projector" → cfg.restricted = true → spin = 0)
    (hg : cfg.occupation = "gamma" → ∀ i, ksize i ≤ 1)
    (ε : ℝ) (hopt : ∀ opt, L.optimizer = .ok opt → Spec.NearOptimizer ε opt)
    (A : Matrix (Fin 3) (Fin 3) ℝ) (hA : A = (angstrom2bohr : ℝ) • a.cell)
    (pos : Fin m → Fin 3 → ℝ) (hpos : ∀ i d, pos i d = angstrom2bohr * a.positions i d)
    (z : Fin m → ℝ) (hz : ∀ i, z i = a.numbers i) :
    ∃ n kn rep, ∃ mask : Idx n → Bool, runAtoms L cfg a = .ok ⟨n, rep⟩ ∧ Spec.LeastGrid size n ∧
      Spec.LeastGrid ksize kn ∧ createFreqMask cfg A n = .ok mask ∧
      ∃ ns nb, nb = (ne.toNat + 1) / 2 + cfg.emptyBands ∧ ns = (if cfg.restricted then 1 else 2) ∧
      ∃ en : ℕ → ℝ, ∃ j, Spec.StopsAt cfg.window cfg.threshold cfg.epoch en j ∧
        (2 ≤ cfg.epoch → 2 ≤ cfg.window → 0 < j) ∧ rep.total = en j + rep.repulsion ∧
        rep.parts.kin + rep.parts.har + rep.parts.ext + rep.parts.xc = en (j + 1) ∧
        ∀ i, ∃ c occ, Spec.GroundWithin (ns := ns) (nk := (idxList kn).length) (nb := nb) ε
            (temperature cfg.smearing cfg.epoch i) cfg.eps mask ne spin cfg.restricted cfg.occupation
            (fun c occ e => totalEnergy L.xc c pos z (gVectors A n) (flatRows (kVectors A kn)) |A.det| (some occ)
              false cfg.xc = .ok e)
            c occ (en (i + 1)) ∧
          (i = j → rep.density = ⟨ns, densityGrid c |A.det| occ⟩ ∧
            totalEnergySplit L.xc c pos z (gVectors A n) (flatRows (kVectors A kn)) |A.det| (some occ) false cfg.xc
              = .ok rep.parts) := by
  obtain ⟨n, kn, mask, opt, ew, q, hopteq, hn, hkn, hmk, hew, hdet, hcne, hcs, hbands, hpl, hupd, pw0, hinit, hrun⟩ :=
    run_setup L cfg a size ksize ne spin H
  subst hA
  obtain rfl : pos = fun i d => (angstrom2bohr : ℝ) * a.positions i d := funext fun i => funext fun d => hpos i d
  obtain rfl : z = fun i => (a.numbers i : ℝ) := funext hz
  subst hcne hcs
  obtain ⟨rep, en, j, h1, h2, h3, h4, h5, h6, h7⟩ := driver_history (empty := cfg.emptyBands)
    (fun i => smooth_pos (hn i).1) (idxList_length_pos fun i => smooth_pos (hkn i).1)
    (runEnv L cfg (Crystal.fromAse a cfg.spin) n kn mask) (vol_pos _ hdet) hC hR hxc heps
    L.occDraw rfl hbands hpl hspin (fun h => one_kpoint hkn (hg h)) pw0 ⟨pw0, q⟩ (opt.init ⟨pw0, q⟩) hinit ew
    (runUpdate opt _) hupd ε (fun p t => hopt opt hopteq _ p) cfg.epoch H.epochs cfg.smearing cfg.window cfg.threshold
  exact ⟨n, kn, rep, mask, hrun rep h1, hn, hkn, hmk, _, _, min_eq_right hbands, rfl, en, j, h3, h4, h2 ▸ h5, h6, h7⟩

/-- C89, whole all-electron calculation: with an optimiser that gets within `ε` of the minimum, every admissible
calculation succeeds, and the energies and the density it reports are those of a physical state of the
requested number of bands whose free energy is within `ε` of the ground state's, at one of the temperatures of
the schedule.  With at least two epochs and a window of at least two values the same holds for the total
energy. -/
theorem run_ground_state (L : RunLib) (cfg : RunConfig) {m : ℕ} (a : AseAtoms m) (size ksize : Fin 3 → ℤ)
    (ne spin : ℤ) (H : Spec.AdmissibleRun L cfg a size ksize ne spin)
    (hC : Spec.Triangular L.qrC) (hR : Spec.Triangular L.qrR) (hxc : Spec.ContinuousXc L.xc cfg.xc)
    (heps : 0 < cfg.eps) (hspin : cfg.occupation = "simplex-projector" → cfg.restricted = true → spin = 0)
    (hg : cfg.occupation = "gamma" → ∀ i, ksize i ≤ 1)
    (ε : ℝ) (hopt : ∀ opt, L.optimizer = .ok opt → Spec.NearOptimizer ε opt)
    (A : Matrix (Fin 3) (Fin 3) ℝ) (hA : A = (angstrom2bohr : ℝ) • a.cell)
    (pos : Fin m → Fin 3 → ℝ) (hpos : ∀ i d, pos i d = angstrom2bohr * a.positions i d)
    (z : Fin m → ℝ) (hz : ∀ i, z i = a.numbers i) :
    ∃ n kn rep, ∃ mask : Idx n → Bool, runAtoms L cfg a = .ok ⟨n, rep⟩ ∧ Spec.LeastGrid size n ∧
      Spec.LeastGrid ksize kn ∧ createFreqMask cfg A n = .ok mask ∧
      ∃ ns nb, nb = (ne.toNat + 1) / 2 + cfg.emptyBands ∧
        (∃ j c occ, j < cfg.epoch.toNat ∧ Spec.GroundWithin (ns := ns) (nk := (idxList kn).length) (nb := nb) ε
            (temperature cfg.smearing cfg.epoch j) cfg.eps mask ne spin cfg.restricted cfg.occupation
            (fun c occ e => totalEnergy L.xc c pos z (gVectors A n) (flatRows (kVectors A kn)) |A.det| (some occ)
              false cfg.xc = .ok e)
            c occ (rep.parts.kin + rep.parts.har + rep.parts.ext + rep.parts.xc) ∧
          rep.density = ⟨ns, densityGrid c |A.det| occ⟩ ∧
          totalEnergySplit L.xc c pos z (gVectors A n) (flatRows (kVectors A kn)) |A.det| (some occ) false cfg.xc
            = .ok rep.parts) ∧
        (2 ≤ cfg.epoch → 2 ≤ cfg.window → ∃ j c occ, j < cfg.epoch.toNat ∧
          Spec.GroundWithin (ns := ns) (nk := (idxList kn).length) (nb := nb) ε
            (temperature cfg.smearing cfg.epoch j) cfg.eps mask ne spin cfg.restricted cfg.occupation
            (fun c occ e => totalEnergy L.xc c pos z (gVectors A n) (flatRows (kVectors A kn)) |A.det| (some occ)
              false cfg.xc = .ok e)
            c occ (rep.total - rep.repulsion)) := by
  obtain ⟨n, kn, rep, mask, a1, a2, a3, a4, ns, nb, a7, -, en, j, h3, h4, h5, h6, h7⟩ :=
    run_history L cfg a size ksize ne spin H hC hR hxc heps hspin hg ε hopt A hA pos hpos z hz
  have hjlt : j < cfg.epoch.toNat := by have := h3.within; omega
  refine ⟨n, kn, rep, mask, a1, a2, a3, a4, ns, nb, a7, ?_, fun hep hw => ?_⟩
  · obtain ⟨c, occ, hg, hd⟩ := h7 j
    exact ⟨j, c, occ, hjlt, h6 ▸ hg, hd rfl⟩
  · have hj := h4 hep hw
    obtain ⟨c, occ, hg, -⟩ := h7 (j - 1)
    rw [Nat.sub_add_cancel hj] at hg
    refine ⟨j - 1, c, occ, by omega, ?_⟩
    rw [h5, add_sub_cancel_right]
    exact hg

/-- C98, whole norm-conserving calculation: the history of an optimisation whose updates end within `ε` of the minimum.  After
step `i` the state is within `ε` of the ground state at the temperature of that step; the loop ends at the first
quiet window or after the last epoch, and the energies of the step at which it ends are reported. -/
theorem ncRun_history (L : NcLib) (cfg : NcConfig) {m : ℕ} (a : AseAtoms m) (size ksize : Fin 3 → ℤ)
    (P : NcLists) (ne spin : ℤ) (H : Spec.AdmissibleRunNC L cfg a size ksize P ne spin)
    (hC : Spec.Triangular L.qrC) (hR : Spec.Triangular L.qrR) (hxc : Spec.ContinuousXc L.xc cfg.xc)
    (heps : 0 < cfg.eps) (hspin : cfg.occupation = "simplex-projector" → cfg.restricted = true → spin = 0)
    (hg : cfg.occupation = "gamma" → ∀ i, ksize i ≤ 1)
    (ε : ℝ) (hopt : ∀ opt, L.optimizer = .ok opt → Spec.NearOptimizer ε opt)
    (A : Matrix (Fin 3) (Fin 3) ℝ) (hA : A = (angstrom2bohr : ℝ) • a.cell)
    (pos : Fin m → Fin 3 → ℝ) (hpos : ∀ i d, pos i d = angstrom2bohr * a.positions i d) :
    ∃ n kn rep, ∃ mask : Idx n → Bool, ∃ vloc bs, runAtomsNC L cfg a = .ok ⟨n, rep⟩ ∧
      Spec.LeastGrid size n ∧ Spec.LeastGrid ksize kn ∧ createFreqMask cfg.toRunConfig A n = .ok mask ∧
      localReciprocal L.jn L.csLoc (ncLocalAtom P pos) (gVectors A n) |A.det| "sbt" = .ok vloc ∧
      ncBetas L P (gVectors A n) (flatRows (kVectors A kn)) = .ok bs ∧
      ∃ ns nb, nb = (ne.toNat + 1) / 2 + cfg.emptyBands ∧ ns = (if cfg.restricted then 1 else 2) ∧
      ∃ en : ℕ → ℝ, ∃ j, Spec.StopsAt cfg.window cfg.threshold cfg.epoch en j ∧
        (2 ≤ cfg.epoch → 2 ≤ cfg.window → 0 < j) ∧ rep.total = en j + rep.repulsion ∧
        rep.parts.1.kin + rep.parts.1.har + rep.parts.1.ext + rep.parts.2 + rep.parts.1.xc = en (j + 1) ∧
        ∀ i, ∃ c occ, Spec.GroundWithin (ns := ns) (nk := (idxList kn).length) (nb := nb) ε
            (temperature cfg.smearing cfg.epoch i) cfg.eps mask ne spin cfg.restricted cfg.occupation
            (Spec.EnergyNC L.xc cfg.xc vloc (nlPsiAll L.eigh L.sph (fun a : Fin m => ncSpecies P bs a) pos
              (gVectors A n) (flatRows (kVectors A kn))) (gVectors A n) (flatRows (kVectors A kn)) |A.det|)
            c occ (en (i + 1)) ∧
          (i = j → rep.density = ⟨ns, densityGrid c |A.det| occ⟩ ∧
            rep.parts.1.kin = kineticEnergyOcc (gVectors A n) (flatRows (kVectors A kn)) c occ ∧
            hartreeEnergy (densityGridReciprocal c |A.det| occ) (gVectors A n) |A.det| false = .ok rep.parts.1.har ∧
            energyLocal (densityGridReciprocal c |A.det| occ) vloc |A.det| = .ok rep.parts.1.ext ∧
            energyNonlocal c (nlPsiAll L.eigh L.sph (fun a : Fin m => ncSpecies P bs a) pos (gVectors A n)
              (flatRows (kVectors A kn))) |A.det| (some occ) = .ok rep.parts.2 ∧
            xcEnergy L.xc cfg.xc false (densityGrid c |A.det| occ) (gVectors A n) |A.det| = .ok rep.parts.1.xc) := by
  obtain ⟨n, kn, mask, vloc, bs, opt, q, hn, hkn, hmk, hv, hbs, hopteq, hdet, hne, hcs, hcount, hpl, hr, hstep, pw0,
    hinit, hrun⟩ := ncRun_start L cfg a size ksize P ne spin H
  subst hA
  obtain rfl : pos = fun i d => (angstrom2bohr : ℝ) * a.positions i d := funext fun i => funext fun d => hpos i d
  subst hne hcs
  obtain ⟨rep, en, j, h1, h2, h3, h4, h5, h6, h7⟩ := driverNC_history (empty := cfg.emptyBands)
    (fun i => smooth_pos (hn i).1) (idxList_length_pos fun i => smooth_pos (hkn i).1)
    (runEnvNC L cfg (Crystal.fromAse a cfg.spin) P n kn mask) vloc
    (nlPsiAll L.eigh L.sph (fun i : Fin m => ncSpecies P bs i) (Crystal.fromAse a cfg.spin).positions
      (gVectors (Crystal.fromAse a cfg.spin).cell n) (flatRows (kVectors (Crystal.fromAse a cfg.spin).cell kn)))
    (vol_pos _ hdet) hC hR hxc heps
    L.occDraw rfl hcount hpl hr hspin (fun h => one_kpoint hkn (hg h)) pw0 ⟨pw0, q⟩ (opt.init ⟨pw0, q⟩) hinit
    (driverRepulsion L.erfc (Crystal.fromAse a cfg.spin) (gVectors (Crystal.fromAse a cfg.spin).cell n) cfg.ewaldEta
      (flatRows (translationVectors (Crystal.fromAse a cfg.spin).cell cfg.ewaldCutoff)))
    (runUpdateNC opt _ _ _) (fun p t => hstep _ p) ε (fun p t => hopt opt hopteq _ p) cfg.epoch H.epochs cfg.smearing
    cfg.window cfg.threshold
  exact ⟨n, kn, rep, mask, vloc, bs, hrun rep h1, hn, hkn, hmk, hv, hbs, _, _, min_eq_right hcount, rfl, en, j, h3, h4, h2 ▸ h5, h6, h7⟩

/-- C89, whole norm-conserving calculation. -/
theorem ncRun_ground_state (L : NcLib) (cfg : NcConfig) {m : ℕ} (a : AseAtoms m) (size ksize : Fin 3 → ℤ)
    (P : NcLists) (ne spin : ℤ) (H : Spec.AdmissibleRunNC L cfg a size ksize P ne spin)
    (hC : Spec.Triangular L.qrC) (hR : Spec.Triangular L.qrR) (hxc : Spec.ContinuousXc L.xc cfg.xc)
    (heps : 0 < cfg.eps) (hspin : cfg.occupation = "simplex-projector" → cfg.restricted = true → spin = 0)
    (hg : cfg.occupation = "gamma" → ∀ i, ksize i ≤ 1)
    (ε : ℝ) (hopt : ∀ opt, L.optimizer = .ok opt → Spec.NearOptimizer ε opt)
    (A : Matrix (Fin 3) (Fin 3) ℝ) (hA : A = (angstrom2bohr : ℝ) • a.cell)
    (pos : Fin m → Fin 3 → ℝ) (hpos : ∀ i d, pos i d = angstrom2bohr * a.positions i d) :
    ∃ n kn rep, ∃ mask : Idx n → Bool, ∃ vloc bs, runAtomsNC L cfg a = .ok ⟨n, rep⟩ ∧
      Spec.LeastGrid size n ∧ Spec.LeastGrid ksize kn ∧ createFreqMask cfg.toRunConfig A n = .ok mask ∧
      localReciprocal L.jn L.csLoc (ncLocalAtom P pos) (gVectors A n) |A.det| "sbt" = .ok vloc ∧
      ncBetas L P (gVectors A n) (flatRows (kVectors A kn)) = .ok bs ∧
      ∃ ns nb, nb = (ne.toNat + 1) / 2 + cfg.emptyBands ∧
        (∃ j c occ, j < cfg.epoch.toNat ∧ Spec.GroundWithin (ns := ns) (nk := (idxList kn).length) (nb := nb) ε
            (temperature cfg.smearing cfg.epoch j) cfg.eps mask ne spin cfg.restricted cfg.occupation
            (Spec.EnergyNC L.xc cfg.xc vloc (nlPsiAll L.eigh L.sph (fun a : Fin m => ncSpecies P bs a) pos
              (gVectors A n) (flatRows (kVectors A kn))) (gVectors A n) (flatRows (kVectors A kn)) |A.det|)
            c occ (rep.parts.1.kin + rep.parts.1.har + rep.parts.1.ext + rep.parts.2 + rep.parts.1.xc) ∧
          rep.density = ⟨ns, densityGrid c |A.det| occ⟩) ∧
        (2 ≤ cfg.epoch → 2 ≤ cfg.window → ∃ j c occ, j < cfg.epoch.toNat ∧
          Spec.GroundWithin (ns := ns) (nk := (idxList kn).length) (nb := nb) ε
            (temperature cfg.smearing cfg.epoch j) cfg.eps mask ne spin cfg.restricted cfg.occupation
            (Spec.EnergyNC L.xc cfg.xc vloc (nlPsiAll L.eigh L.sph (fun a : Fin m => ncSpecies P bs a) pos
              (gVectors A n) (flatRows (kVectors A kn))) (gVectors A n) (flatRows (kVectors A kn)) |A.det|)
            c occ (rep.total - rep.repulsion)) := by
  obtain ⟨n, kn, rep, mask, vloc, bs, a1, a2, a3, a4, a5, a6, ns, nb, a7, -, en, j, h3, h4, h5, h6, h7⟩ :=
    ncRun_history L cfg a size ksize P ne spin H hC hR hxc heps hspin hg ε hopt A hA pos hpos
  have hjlt : j < cfg.epoch.toNat := by have := h3.within; omega
  refine ⟨n, kn, rep, mask, vloc, bs, a1, a2, a3, a4, a5, a6, ns, nb, a7, ?_, fun hep hw => ?_⟩
  · obtain ⟨c, occ, hg, hd⟩ := h7 j
    exact ⟨j, c, occ, hjlt, h6 ▸ hg, (hd rfl).1⟩
  · have hj := h4 hep hw
    obtain ⟨c, occ, hg, -⟩ := h7 (j - 1)
    rw [Nat.sub_add_cancel hj] at hg
    refine ⟨j - 1, c, occ, by omega, ?_⟩
    rw [h5, add_sub_cancel_right]
    exact hg

/-! ### Concrete cases -/

/-- Parameters of the kind of `p` where `f` is at most `ε` above each of its values, if there are any. -/
private theorem near_exists {ns nk g nb : ℕ} (ε : ℝ) (f : GsParams ns nk g nb → Except PyErr ℝ)
    (p : GsParams ns nk g nb) : ∃ q : GsParams ns nk g nb, Spec.KeepsShape p.occ q.occ ∧
      ((∃ r : GsParams ns nk g nb, Spec.KeepsShape p.occ r.occ ∧ ∀ q' v, Spec.KeepsShape p.occ q'.occ →
        f q' = .ok v → ∃ v', f r = .ok v' ∧ v' ≤ v + ε) →
      ∀ q' v, Spec.KeepsShape p.occ q'.occ → f q' = .ok v → ∃ v', f q = .ok v' ∧ v' ≤ v + ε) := by
  by_cases h : ∃ r : GsParams ns nk g nb, Spec.KeepsShape p.occ r.occ ∧ ∀ q' v, Spec.KeepsShape p.occ q'.occ →
        f q' = .ok v → ∃ v', f r = .ok v' ∧ v' ≤ v + ε
  · obtain ⟨r, h1, h2⟩ := h
    exact ⟨r, h1, fun _ => h2⟩
  · exact ⟨p, keeps_self _, fun h' => absurd h' h⟩

/-- An optimiser that gets within `ε` of the minimum. -/
noncomputable def nearOptimizer (ε : ℝ) : Optimizer where
  State := Unit
  init := fun _ => ()
  step := fun f p => ((near_exists ε f p.1).choose, ())

theorem nearOptimizer_keeps (ε : ℝ) {ns nk g nb : ℕ} (f : GsParams ns nk g nb → Except PyErr ℝ)
    (p : GsParams ns nk g nb × (nearOptimizer ε).State) :
    Spec.KeepsShape p.1.occ ((nearOptimizer ε).step f p).1.occ :=
  (near_exists ε f p.1).choose_spec.1

theorem nearOptimizer_near {ε : ℝ} (hε : 0 < ε) : Spec.NearOptimizer ε (nearOptimizer ε) := by
  intro ns nk g nb f p ⟨m, hm⟩
  refine (near_exists ε f p.1).choose_spec.2 ?_
  let S : Set ℝ := {v | ∃ q : GsParams ns nk g nb, Spec.KeepsShape p.1.occ q.occ ∧ f q = .ok v}
  have hne : S.Nonempty := by
    obtain ⟨v, hv, -⟩ := hm p.1 (keeps_self _)
    exact ⟨v, p.1, keeps_self _, hv⟩
  have hbd : BddBelow S := ⟨m, fun v ⟨q, hq, hv⟩ => by
    obtain ⟨w, hw, hle⟩ := hm q hq
    rw [hv] at hw
    rw [Except.ok.inj hw]
    exact hle⟩
  obtain ⟨v, ⟨r, hr, hv⟩, hlt⟩ := Real.lt_sInf_add_pos hne hε
  refine ⟨r, hr, fun q' w hq' hw => ⟨v, hv, ?_⟩⟩
  have := csInf_le hbd (⟨q', hq', hw⟩ : w ∈ S)
  linarith

/-- Slater's and Dirac's exchange energy is continuous. -/
theorem diracLib_continuous : Spec.ContinuousXc diracLib "lda_x" where
  lda := fun _ x _ => (continuous_const.mul
    (Real.continuous_rpow_const (by norm_num : (0 : ℝ) ≤ 1 / 3))).continuousOn
  ldaPol := fun _ _ _ => continuousOn_const
  gga := fun _ _ _ => continuousOn_const
  ggaPol := fun _ _ _ => continuousOn_const

/-- The hypotheses of `run_ground_state` hold for the lithium atom, with Gram and Schmidt's factorisation and
Dirac's exchange energy. -/
example {ε : ℝ} (hε : 0 < ε) :
    let L : RunLib := { lithiumLib diracLib with
      qrC := gramSchmidtQR ℂ, qrR := gramSchmidtQR ℝ, optimizer := .ok (nearOptimizer ε) }
    Spec.AdmissibleRun L lithiumConfig (⟨fun _ => 3, 0, 1⟩ : AseAtoms 1) (fun _ => 4) (fun _ => 2) 3 1 ∧
      Spec.Triangular L.qrC ∧ Spec.Triangular L.qrR ∧ Spec.ContinuousXc L.xc lithiumConfig.xc ∧
      0 < lithiumConfig.eps ∧ lithiumConfig.restricted = false ∧ lithiumConfig.occupation ≠ "gamma" ∧
      (∀ opt, L.optimizer = .ok opt → Spec.NearOptimizer ε opt) ∧ 2 ≤ lithiumConfig.epoch ∧
      2 ≤ lithiumConfig.window := by
  intro L
  refine ⟨{ lithium_admissible diracLib with optimizer := ⟨nearOptimizer ε, rfl, nearOptimizer_keeps ε⟩ },
    gramSchmidtQR_triangular ℂ, gramSchmidtQR_triangular ℝ, diracLib_continuous, by norm_num [lithiumConfig], rfl,
    by decide, ?_, by decide, by decide⟩
  intro opt h
  cases h
  exact nearOptimizer_near hε

/-- The hypotheses of `ncRun_ground_state` hold for the silicon pair. -/
example {ε : ℝ} (hε : 0 < ε) (eigh : Eigh) (jn : SphBessel) (csLoc csBeta : Spline) :
    let L : NcLib := { siliconLib diracLib eigh jn csLoc csBeta with
      qrC := gramSchmidtQR ℂ, qrR := gramSchmidtQR ℝ, optimizer := .ok (nearOptimizer ε) }
    (∃ P, Spec.AdmissibleRunNC L siliconConfig siliconAtoms (fun _ => 4) (fun _ => 2) P 4 0) ∧
      Spec.Triangular L.qrC ∧ Spec.Triangular L.qrR ∧ Spec.ContinuousXc L.xc siliconConfig.xc ∧
      0 < siliconConfig.eps ∧ siliconConfig.restricted = false ∧ siliconConfig.occupation ≠ "gamma" ∧
      (∀ opt, L.optimizer = .ok opt → Spec.NearOptimizer ε opt) ∧ 2 ≤ siliconConfig.epoch ∧
      2 ≤ siliconConfig.window := by
  intro L
  obtain ⟨P, H⟩ := silicon_admissible diracLib eigh jn csLoc csBeta
  refine ⟨⟨P, { H with optimizer := ⟨nearOptimizer ε, rfl, nearOptimizer_keeps ε⟩ }⟩,
    gramSchmidtQR_triangular ℂ, gramSchmidtQR_triangular ℝ, diracLib_continuous,
    by norm_num [siliconConfig, lithiumConfig], rfl, by decide, ?_, by decide, by decide⟩
  intro opt h
  cases h
  exact nearOptimizer_near hε

end Jrystal
