import Verif.Lemmas.Stop
import Verif.Lemmas.EnergyCont
import Verif.Spec.GroundState
import Mathlib.Topology.Order.Compact

/- Lemmas for C89: parameters that nearly minimise a continuous function of the state nearly minimise it among
all physical states. -/
namespace Jrystal
open scoped BigOperators ComplexConjugate

/-- The orbitals and occupations of physical states lie in a compact set. -/
theorem physical_compact (ns nk nb : ℕ) (n : Fin 3 → ℕ) (top : ℝ) :
    IsCompact {x : Coef ns nk nb n × Occ ns nk nb | (∀ s k b y, ‖x.1 s k b y‖ ≤ 1) ∧
      ∀ s k b, 0 ≤ x.2 s k b ∧ x.2 s k b ≤ top} := by
  have h1 : IsCompact {c : Coef ns nk nb n | ∀ s k b y, ‖c s k b y‖ ≤ 1} := by
    have := isCompact_univ_pi (X := fun _ : Fin ns => Fin nk → Fin nb → Idx n → ℂ)
      (s := fun _ => Set.univ.pi fun _ => Set.univ.pi fun _ => Set.univ.pi fun _ => Metric.closedBall (0 : ℂ) 1)
      fun s => isCompact_univ_pi fun k => isCompact_univ_pi fun b => isCompact_univ_pi fun y =>
        isCompact_closedBall 0 1
    convert this using 1
    ext c
    simp [Set.mem_pi]
  have h2 : IsCompact {o : Occ ns nk nb | ∀ s k b, 0 ≤ o s k b ∧ o s k b ≤ top} := by
    have := isCompact_univ_pi (X := fun _ : Fin ns => Fin nk → Fin nb → ℝ)
      (s := fun _ => Set.univ.pi fun _ => Set.univ.pi fun _ => Set.Icc (0 : ℝ) top)
      fun s => isCompact_univ_pi fun k => isCompact_univ_pi fun b => isCompact_Icc
    convert this using 1
    ext c
    simp only [Set.mem_ofPred_eq, Set.mem_pi, Set.mem_univ, true_implies, Set.mem_Icc]
  exact h1.prod h2

theorem physical_bounded {ns nk nb : ℕ} {n : Fin 3 → ℕ} {mask : Idx n → Bool} {ne spin : ℤ} {r : Bool}
    {share : ℝ} {c : Coef ns nk nb n} {occ : Occ ns nk nb} (h : Spec.PhysicalState mask ne spin r share c occ)
    (s : Fin ns) (k : Fin nk) (b : Fin nb) (y : Idx n) : ‖c s k b y‖ ≤ 1 := by
  have h1 := h.orthonormal s k b b
  rw [if_pos rfl] at h1
  have h2 : ∑ x, ‖c s k b x‖ ^ 2 = 1 := by
    have : ((∑ x, ‖c s k b x‖ ^ 2 : ℝ) : ℂ) = 1 := by
      rw [← h1]
      push_cast
      exact Finset.sum_congr rfl fun x _ => by rw [mul_comm, Complex.mul_conj']
    exact_mod_cast this
  have h3 : ‖c s k b y‖ ^ 2 ≤ 1 := by
    rw [← h2]
    exact Finset.single_le_sum (f := fun x => ‖c s k b x‖ ^ 2) (fun x _ => by positivity) (Finset.mem_univ y)
  have h4 := norm_nonneg (c s k b y)
  nlinarith

/-- The state of a set of parameters, with its entropy. -/
theorem state_entropy {na nk ns empty : ℕ} {n : Fin 3 → ℕ} (hk : 0 < nk) (E : GsEnv na nk n)
    (draw : ∀ n m : ℕ, Matrix (Fin n) (Fin m) ℝ) (hns : ns = if E.restricted then 1 else 2)
    (hm : driverBands E.ne.toNat empty ≤ maskCount E.mask) (hp : Spec.Placeable E.method E.ne E.spin empty)
    (q0 : OccParams nk (driverBands E.ne.toNat empty))
    (hinit : occParamInit draw (driverBands E.ne.toNat empty) E.ne nk E.spin E.method E.restricted = .ok q0)
    (p : GsParams ns nk (maskCount E.mask) (driverBands E.ne.toNat empty)) (hq : Spec.KeepsShape q0 p.occ) :
    ∃ occ : Occ ns nk (min (maskCount E.mask) (driverBands E.ne.toNat empty)),
      Spec.PhysicalState E.mask E.ne E.spin E.restricted (Spec.kShare E.method nk) (pwCoeff E.qrC E.mask p.pw) occ ∧
      gsState E p = .ok ⟨ns, _, pwCoeff E.qrC E.mask p.pw, occ⟩ ∧
      gsEntropy E p = .ok (Spec.smearingEntropy E.eps ((3 - (ns : ℝ)) / nk) occ) ∧
      (∀ c : Coef ns nk (min (maskCount E.mask) (driverBands E.ne.toNat empty)) n, Spec.Triangular E.qrC →
        (∀ s k i j, ∑ x, conj (c s k i x) * c s k j x = if i = j then 1 else 0) →
        (∀ s k b x, E.mask x = false → c s k b x = 0) →
        ∃ (pw : PwParams ns nk (maskCount E.mask) (driverBands E.ne.toNat empty))
          (u : Fin ns → Fin nk → Fin (min (maskCount E.mask) (driverBands E.ne.toNat empty)) → ℂ),
          (∀ s k b, conj (u s k b) * u s k b = 1) ∧ pwCoeff E.qrC E.mask pw = phased u c ∧
          gsState E ⟨pw, p.occ⟩ = .ok ⟨ns, _, phased u c, occ⟩ ∧
          gsEntropy E (⟨pw, p.occ⟩ : GsParams ns nk (maskCount E.mask) (driverBands E.ne.toNat empty))
            = .ok (Spec.smearingEntropy E.eps ((3 - (ns : ℝ)) / nk) occ)) := by
  obtain ⟨occ, h1, -, -, h4⟩ := state_of hk E draw hns hm hp q0 hinit p hq
  obtain ⟨o, ho, -, hs⟩ :=
    trained_occupation_partial E.qrR draw hk E.ne E.spin E.method E.restricted hp q0 p.occ hinit hq
  have hl : o.length = ns := by
    have := congrArg List.length hs
    rw [List.length_map] at this
    rw [this, hns]
    cases E.restricted <;> rfl
  have h5 := gsState_eq E p o ho hl hm (fun s k b => o.get (Fin.cast hl.symm s) k (Fin.castLE (min_le_right _ _) b))
    fun _ _ _ => rfl
  have hocc : occ = fun s k b => o.get (Fin.cast hl.symm s) k (Fin.castLE (min_le_right _ _) b) := by
    rw [h4] at h5
    have h6 := Except.ok.inj h5
    simp only [Sigma.mk.injEq, heq_eq_eq, true_and, Prod.mk.injEq] at h6
    exact h6
  have hocc' : ∀ s k b, occ s k b = o.get (Fin.cast hl.symm s) k (Fin.castLE (min_le_right _ _) b) :=
    fun s k b => by rw [hocc]
  refine ⟨occ, h1, h4, gsEntropy_eq E p o ho hl hm occ hocc', fun c ht horth hsel => ?_⟩
  obtain ⟨pw, u, a1, a2, a3⟩ := reach_of_occ E ht hm p.occ o ho hl c occ hocc' horth hsel
  exact ⟨pw, u, a1, a2, a3, gsEntropy_eq E ⟨pw, p.occ⟩ o ho hl hm occ hocc'⟩

theorem towardsMean_continuous {ns nk nb : ℕ} (occ : Occ ns nk nb) : Continuous fun δ : ℝ => towardsMean δ occ := by
  unfold towardsMean
  refine continuous_pi fun s => continuous_pi fun k => continuous_pi fun b => ?_
  fun_prop

theorem towardsMean_zero {ns nk nb : ℕ} (occ : Occ ns nk nb) : towardsMean 0 occ = occ := by
  funext s k b
  unfold towardsMean
  ring

/-- Parameters at which a continuous function of the state is least, up to `ε`, among the parameters of their
kind give a state at which it is least, up to `ε`, among all physical states. -/
theorem near_minimum {na nk ns empty : ℕ} {n : Fin 3 → ℕ} (hk : 0 < nk) (E : GsEnv na nk n)
    (htC : Spec.Triangular E.qrC) (htR : Spec.Triangular E.qrR)
    (draw : ∀ n m : ℕ, Matrix (Fin n) (Fin m) ℝ) (hns : ns = if E.restricted then 1 else 2)
    (hm : driverBands E.ne.toNat empty ≤ maskCount E.mask) (hp : Spec.Placeable E.method E.ne E.spin empty)
    (hspin : E.method = "simplex-projector" → E.restricted = true → E.spin = 0)
    (q0 : OccParams nk (driverBands E.ne.toNat empty))
    (hinit : occParamInit draw (driverBands E.ne.toNat empty) E.ne nk E.spin E.method E.restricted = .ok q0)
    (F : Coef ns nk (min (maskCount E.mask) (driverBands E.ne.toNat empty)) n ×
      Occ ns nk (min (maskCount E.mask) (driverBands E.ne.toNat empty)) → ℝ)
    (hF : ContinuousOn F {x | ∀ s k b, 0 ≤ x.2 s k b ∧ x.2 s k b ≤ Spec.kShare E.method nk * Spec.pauli E.restricted})
    (hph : ∀ u : Fin ns → Fin nk → Fin (min (maskCount E.mask) (driverBands E.ne.toNat empty)) → ℂ,
      (∀ s k b, conj (u s k b) * u s k b = 1) → ∀ c occ, F (phased u c, occ) = F (c, occ))
    (obj : GsParams ns nk (maskCount E.mask) (driverBands E.ne.toNat empty) → Except PyErr ℝ)
    (hobj : ∀ p c occ, gsState E p = .ok ⟨ns, min (maskCount E.mask) (driverBands E.ne.toNat empty), c, occ⟩ →
      gsEntropy E p = .ok (Spec.smearingEntropy E.eps ((3 - (ns : ℝ)) / nk) occ) → obj p = .ok (F (c, occ))) :
    (∃ m, ∀ p : GsParams ns nk (maskCount E.mask) (driverBands E.ne.toNat empty), Spec.KeepsShape q0 p.occ →
      ∃ v, obj p = .ok v ∧ m ≤ v) ∧
    ∀ (ε : ℝ) (p : GsParams ns nk (maskCount E.mask) (driverBands E.ne.toNat empty)), Spec.KeepsShape q0 p.occ →
      (∀ (q : GsParams ns nk (maskCount E.mask) (driverBands E.ne.toNat empty)) v, Spec.KeepsShape q0 q.occ →
        obj q = .ok v → ∃ v', obj p = .ok v' ∧ v' ≤ v + ε) →
      ∃ c occ, gsState E p = .ok ⟨ns, min (maskCount E.mask) (driverBands E.ne.toNat empty), c, occ⟩ ∧
        Spec.PhysicalState E.mask E.ne E.spin E.restricted (Spec.kShare E.method nk) c occ ∧
        ∀ c' occ', Spec.PhysicalState E.mask E.ne E.spin E.restricted (Spec.kShare E.method nk) c' occ' →
          (E.method = "uniform" ∨ E.method = "gamma" → occ' = occ) → F (c, occ) ≤ F (c', occ') + ε := by
  constructor
  · -- bounded below: the states lie in a compact set
    obtain ⟨m, hbound⟩ := ((physical_compact ns nk (min (maskCount E.mask) (driverBands E.ne.toNat empty)) n
      (Spec.kShare E.method nk * Spec.pauli E.restricted)).image_of_continuousOn
        (hF.mono fun x hx => hx.2)).bddBelow
    refine ⟨m, fun p hq => ?_⟩
    obtain ⟨occ, h1, h2, h3, -⟩ := state_entropy hk E draw hns hm hp q0 hinit p hq
    exact ⟨_, hobj p _ occ h2 h3, hbound ⟨_, ⟨fun s k b y => physical_bounded h1 s k b y,
      fun s k b => ⟨h1.nonneg s k b, h1.pauli s k b⟩⟩, rfl⟩⟩
  · intro ε p hq hmin
    obtain ⟨occ, h1, h2, h3, h4⟩ := state_entropy hk E draw hns hm hp q0 hinit p hq
    have hval := hobj p _ occ h2 h3
    refine ⟨_, occ, h2, h1, fun c' occ' hst hcomp => ?_⟩
    -- a competitor that is reached up to phases
    have reached : ∀ occ'' : Occ ns nk (min (maskCount E.mask) (driverBands E.ne.toNat empty)),
        (∃ q : GsParams ns nk (maskCount E.mask) (driverBands E.ne.toNat empty), Spec.KeepsShape q0 q.occ ∧
          ∃ u : Fin ns → Fin nk → Fin (min (maskCount E.mask) (driverBands E.ne.toNat empty)) → ℂ,
          (∀ s k b, conj (u s k b) * u s k b = 1) ∧ gsState E q = .ok ⟨ns, _, phased u c', occ''⟩ ∧
          gsEntropy E q = .ok (Spec.smearingEntropy E.eps ((3 - (ns : ℝ)) / nk) occ'')) →
        F (pwCoeff E.qrC E.mask p.pw, occ) ≤ F (c', occ'') + ε := by
      rintro occ'' ⟨q, hqq, u, hu, hs, he⟩
      obtain ⟨v', hv', hle⟩ := hmin q _ hqq (hobj q _ _ hs he)
      rw [hval] at hv'
      rw [Except.ok.inj hv', ← hph u hu c' occ'']
      exact hle
    by_cases hfix : E.method = "uniform" ∨ E.method = "gamma"
    · obtain rfl := hcomp hfix
      obtain ⟨pw, u, a1, -, a3, a4⟩ := h4 c' htC hst.orthonormal hst.selected
      exact reached occ' ⟨⟨pw, p.occ⟩, hq, u, a1, a3, a4⟩
    by_cases hid : E.method = "idempotent"
    · obtain ⟨q, hqq, u, hu, -, hs, he⟩ := reach_state hk E htC htR draw hm hp q0 hinit c' occ' hst (Or.inl hid)
      exact reached occ' ⟨q, hqq, u, hu, hs, he⟩
    · have hsim : E.method = "simplex-projector" := by
        rcases hp.2 with h | h | h
        · exact absurd h.1 hfix
        · exact h.1
        · exact absurd h.1 hid
      have hst' := hst
      have hp' := hp
      rw [hsim] at hst' hp'
      obtain ⟨hb, hpos, hlt⟩ := simplex_not_extreme hk (min_eq_right hm) hp' (hspin hsim) hst'
      have hphys : ∀ δ : ℝ, 0 < δ → δ ≤ 1 →
          Spec.PhysicalState E.mask E.ne E.spin E.restricted (Spec.kShare E.method nk) c' (towardsMean δ occ') ∧
          ∀ s k b, towardsMean δ occ' s k b ≠ 0 := by
        intro δ h0 h1
        obtain ⟨k1, k2⟩ := physical_towardsMean hk hb hst' h0 h1 hpos hlt
        rw [← hsim] at k1
        exact ⟨k1, fun s k b => (k2 s k b).1⟩
      have hle : ∀ δ : ℝ, 0 < δ → δ ≤ 1 →
          F (pwCoeff E.qrC E.mask p.pw, occ) ≤ F (c', towardsMean δ occ') + ε := by
        intro δ h0 h1
        obtain ⟨k1, k2⟩ := hphys δ h0 h1
        obtain ⟨q, hqq, u, hu, -, hs, he⟩ := reach_state hk E htC htR draw hm hp q0 hinit c' _ k1
          (Or.inr ⟨hsim, hspin hsim, fun s => Or.inl fun k b => k2 s k b⟩)
        exact reached _ ⟨q, hqq, u, hu, hs, he⟩
      -- the limit of small steps towards the mean
      have hcont : ContinuousOn (fun δ : ℝ => F (c', towardsMean δ occ')) (Set.Icc 0 1) := by
        refine hF.comp (continuous_const.prodMk (towardsMean_continuous occ')).continuousOn fun δ hδ s k b => ?_
        rcases hδ.1.eq_or_lt with h | h
        · rw [← h]
          simp only [towardsMean_zero]
          exact ⟨hst.nonneg s k b, hst.pauli s k b⟩
        · exact ⟨(hphys δ h hδ.2).1.nonneg s k b, (hphys δ h hδ.2).1.pauli s k b⟩
      have hlim : Filter.Tendsto (fun δ : ℝ => F (c', towardsMean δ occ')) (nhdsWithin 0 (Set.Ioc 0 1))
          (nhds (F (c', occ'))) := by
        have := (hcont 0 ⟨le_rfl, zero_le_one⟩).mono_left (nhdsWithin_mono 0 Set.Ioc_subset_Icc_self)
        simp only [towardsMean_zero] at this
        exact this
      have hne : (nhdsWithin (0 : ℝ) (Set.Ioc 0 1)).NeBot := by
        rw [← mem_closure_iff_nhdsWithin_neBot, closure_Ioc zero_ne_one]
        exact ⟨le_rfl, zero_le_one⟩
      have h5 := ge_of_tendsto hlim (b := F (pwCoeff E.qrC E.mask p.pw, occ) - ε)
        (eventually_nhdsWithin_of_forall fun δ hδ => by linarith [hle δ hδ.1 hδ.2])
      linarith

theorem keeps_symm {nk nb : ℕ} {a b : OccParams nk nb} (h : Spec.KeepsShape a b) : Spec.KeepsShape b a := by
  cases a <;> cases b <;> simp_all [Spec.KeepsShape]

/-- The largest occupation is the one that the entropy assumes. -/
theorem limit_eq_top {ns nk : ℕ} {r : Bool} {method : String} (hns : ns = if r then 1 else 2)
    (hg : method = "gamma" → nk = 1) : Spec.kShare method nk * Spec.pauli r = (3 - (ns : ℝ)) / nk := by
  have h1 : Spec.kShare method nk = 1 / nk := by
    unfold Spec.kShare
    split_ifs with h
    · rw [hg h]; norm_num
    · rfl
  rw [h1, hns]
  cases r
  · simp only [Bool.false_eq_true, if_false, Spec.pauli]
    push_cast
    ring
  · simp only [if_true, Spec.pauli]
    push_cast
    ring

theorem inSlice_first {len : ℕ} {stop : ℤ} (h : 0 ≤ stop) {j : ℕ} (hj : j < len) :
    inSlice len 0 stop j = decide ((j : ℤ) < stop) := by
  unfold inSlice pyBound
  rw [Bool.eq_iff_iff]
  simp only [Bool.and_eq_true, decide_eq_true_eq]
  split_ifs <;> omega

/-- The occupations of `uniform` and `gamma` parameters are the prescribed ones. -/
theorem state_given {na nk ns empty : ℕ} {n : Fin 3 → ℕ} (E : GsEnv na nk n)
    (draw : ∀ n m : ℕ, Matrix (Fin n) (Fin m) ℝ) (hns : ns = if E.restricted then 1 else 2)
    (hm : driverBands E.ne.toNat empty ≤ maskCount E.mask) (hp : Spec.Placeable E.method E.ne E.spin empty)
    (q0 : OccParams nk (driverBands E.ne.toNat empty))
    (hinit : occParamInit draw (driverBands E.ne.toNat empty) E.ne nk E.spin E.method E.restricted = .ok q0)
    (p : GsParams ns nk (maskCount E.mask) (driverBands E.ne.toNat empty)) (hq : Spec.KeepsShape q0 p.occ)
    (hfix : E.method = "uniform" ∨ E.method = "gamma")
    (c : Coef ns nk (min (maskCount E.mask) (driverBands E.ne.toNat empty)) n)
    (occ : Occ ns nk (min (maskCount E.mask) (driverBands E.ne.toNat empty)))
    (hs : gsState E p = .ok ⟨ns, min (maskCount E.mask) (driverBands E.ne.toNat empty), c, occ⟩) :
    occ = Spec.givenOccupation E.method E.ne E.spin := by
  have hle : |E.spin| ≤ E.ne := by
    rcases hp.2 with h | h | h
    · exact h.2.1
    · rcases hfix with h' | h' <;> rw [h'] at h <;> exact absurd h.1 (by decide)
    · rcases hfix with h' | h' <;> rw [h'] at h <;> exact absurd h.1 (by decide)
  obtain ⟨l1, l2⟩ := abs_le.mp hle
  have hu : 0 ≤ (E.ne + E.spin) / 2 := by omega
  have hd : 0 ≤ (E.ne - E.spin) / 2 := by omega
  -- the parameters are the array of occupations
  have hoo : ∃ o : OccArr nk (driverBands E.ne.toNat empty) ℝ,
      occupation E.qrR p.occ E.ne E.spin E.method E.restricted = .ok o ∧ ∃ hl : o.length = ns,
        ∀ s k b, o.get (Fin.cast hl.symm s) k (Fin.castLE (min_le_right (maskCount E.mask) _) b)
          = Spec.givenOccupation E.method E.ne E.spin s k b := by
    rcases hfix with hf | hf
    · have e0 : q0 = .arr (uniformOcc nk E.ne E.spin (some (driverBands E.ne.toNat empty)) E.restricted) := by
        rw [hf] at hinit
        exact (Except.ok.inj hinit).symm
      have e1 : p.occ = .arr (uniformOcc nk E.ne E.spin (some (driverBands E.ne.toNat empty)) E.restricted) := by
        rw [e0] at hq
        cases h : p.occ with
        | arr o => rw [h] at hq; exact congrArg _ hq
        | idem _ => rw [h] at hq; exact hq.elim
        | simplex _ _ => rw [h] at hq; exact hq.elim
      refine ⟨uniformOcc nk E.ne E.spin (some (driverBands E.ne.toNat empty)) E.restricted, ?_, ?_⟩
      · rw [e1, hf]
        rfl
      · rw [hf]
        unfold uniformOcc Spec.givenOccupation
        generalize E.restricted = r at hns
        cases r
        · obtain rfl : ns = 2 := hns
          refine ⟨rfl, fun s k b => ?_⟩
          have hb : (b : ℕ) < resolveBands E.ne (some (driverBands E.ne.toNat empty)) :=
            (Fin.castLE (min_le_right (maskCount E.mask) (driverBands E.ne.toNat empty)) b).isLt
          have iu := inSlice_first hu hb
          have id := inSlice_first hd hb
          obtain rfl | rfl : s = 0 ∨ s = 1 := by omega
          · simp [iu]
          · simp [id]
        · obtain rfl : ns = 1 := hns
          refine ⟨rfl, fun s k b => ?_⟩
          have hb : (b : ℕ) < resolveBands E.ne (some (driverBands E.ne.toNat empty)) :=
            (Fin.castLE (min_le_right (maskCount E.mask) (driverBands E.ne.toNat empty)) b).isLt
          have iu := inSlice_first hu hb
          have id := inSlice_first hd hb
          obtain rfl : s = 0 := Subsingleton.elim _ _
          simp [sumSpin, iu, id, mul_add]
    · have e0 : q0 = .arr (gammaOcc nk E.ne E.spin (some (driverBands E.ne.toNat empty)) E.restricted) := by
        rw [hf] at hinit
        exact (Except.ok.inj hinit).symm
      have e1 : p.occ = .arr (gammaOcc nk E.ne E.spin (some (driverBands E.ne.toNat empty)) E.restricted) := by
        rw [e0] at hq
        cases h : p.occ with
        | arr o => rw [h] at hq; exact congrArg _ hq
        | idem _ => rw [h] at hq; exact hq.elim
        | simplex _ _ => rw [h] at hq; exact hq.elim
      refine ⟨gammaOcc nk E.ne E.spin (some (driverBands E.ne.toNat empty)) E.restricted, ?_, ?_⟩
      · rw [e1, hf]
        rfl
      · rw [hf]
        unfold gammaOcc Spec.givenOccupation
        generalize E.restricted = r at hns
        cases r
        · obtain rfl : ns = 2 := hns
          refine ⟨rfl, fun s k b => ?_⟩
          have hb : (b : ℕ) < resolveBands E.ne (some (driverBands E.ne.toNat empty)) :=
            (Fin.castLE (min_le_right (maskCount E.mask) (driverBands E.ne.toNat empty)) b).isLt
          have iu := inSlice_first hu hb
          have id := inSlice_first hd hb
          obtain rfl | rfl : s = 0 ∨ s = 1 := by omega
          · by_cases hk : (k : ℕ) = 0 <;> simp [iu, hk]
          · by_cases hk : (k : ℕ) = 0 <;> simp [id, hk]
        · obtain rfl : ns = 1 := hns
          refine ⟨rfl, fun s k b => ?_⟩
          have hb : (b : ℕ) < resolveBands E.ne (some (driverBands E.ne.toNat empty)) :=
            (Fin.castLE (min_le_right (maskCount E.mask) (driverBands E.ne.toNat empty)) b).isLt
          have iu := inSlice_first hu hb
          have id := inSlice_first hd hb
          obtain rfl : s = 0 := Subsingleton.elim _ _
          by_cases hk : (k : ℕ) = 0 <;> simp [sumSpin, iu, id, hk]
  obtain ⟨o, ho, hl, hval⟩ := hoo
  have h5 := gsState_eq E p o ho hl hm
    (fun s k b => o.get (Fin.cast hl.symm s) k (Fin.castLE (min_le_right _ _) b)) fun _ _ _ => rfl
  rw [hs] at h5
  have h6 := Except.ok.inj h5
  simp only [Sigma.mk.injEq, heq_eq_eq, true_and, Prod.mk.injEq] at h6
  rw [h6.2]
  funext s k b
  exact hval s k b

/-- What both drivers have in common: with an optimiser that gets within `ε` of the minimum of the free energy,
the state after step `i` is within `ε` of the ground state at the temperature of that step; the run reports the
energy of the step at which it stops. -/
theorem run_ground_all {na nk ns empty : ℕ} {n : Fin 3 → ℕ} (hn : ∀ i, 0 < n i) (hk : 0 < nk)
    {O : Type*} {Y : Type} (E : GsEnv na nk n) (hv : 0 < E.vol)
    (htC : Spec.Triangular E.qrC) (htR : Spec.Triangular E.qrR) (heps : 0 < E.eps)
    (draw : ∀ n m : ℕ, Matrix (Fin n) (Fin m) ℝ) (hns : ns = if E.restricted then 1 else 2)
    (hm : driverBands E.ne.toNat empty ≤ maskCount E.mask) (hp : Spec.Placeable E.method E.ne E.spin empty)
    (hspin : E.method = "simplex-projector" → E.restricted = true → E.spin = 0)
    (hg : E.method = "gamma" → nk = 1)
    (p0 : GsParams ns nk (maskCount E.mask) (driverBands E.ne.toNat empty)) (o0 : O)
    (hinit : occParamInit draw (driverBands E.ne.toNat empty) E.ne nk E.spin E.method E.restricted = .ok p0.occ)
    (ew : ℝ)
    (energy : Coef ns nk (min (maskCount E.mask) (driverBands E.ne.toNat empty)) n →
      Occ ns nk (min (maskCount E.mask) (driverBands E.ne.toNat empty)) → ℝ → Prop)
    (f : Coef ns nk (min (maskCount E.mask) (driverBands E.ne.toNat empty)) n ×
      Occ ns nk (min (maskCount E.mask) (driverBands E.ne.toNat empty)) → ℝ)
    (hf : ContinuousOn f {x | ∀ s k b, 0 ≤ x.2 s k b})
    (hval : ∀ c occ e, energy c occ e ↔ e = f (c, occ))
    (hph : ∀ u : Fin ns → Fin nk → Fin (min (maskCount E.mask) (driverBands E.ne.toNat empty)) → ℂ,
      (∀ s k b, conj (u s k b) * u s k b = 1) → ∀ c occ, f (phased u c, occ) = f (c, occ))
    (total : GsParams ns nk (maskCount E.mask) (driverBands E.ne.toNat empty) → Except PyErr ℝ)
    (htot : ∀ p c occ, gsState E p = .ok ⟨ns, min (maskCount E.mask) (driverBands E.ne.toNat empty), c, occ⟩ →
      total p = .ok (f (c, occ)))
    (parts : GsParams ns nk (maskCount E.mask) (driverBands E.ne.toNat empty) → Except PyErr Y)
    (htotal : ∀ p o, occupation E.qrR p.occ E.ne E.spin E.method E.restricted = .ok o →
      o.length = ns → ∃ v, total p = .ok v)
    (hparts : ∀ p o, occupation E.qrR p.occ E.ne E.spin E.method E.restricted = .ok o →
      o.length = ns → ∃ v, parts p = .ok v)
    (sum : Y → ℝ) (hsum : ∀ p y, parts p = .ok y → total p = .ok (sum y))
    (free : ℝ → GsParams ns nk (maskCount E.mask) (driverBands E.ne.toNat empty) → Except PyErr ℝ)
    (hfree : ∀ t p v S, total p = .ok v → gsEntropy E p = .ok S → free t p = .ok (v - t * S))
    (upd : GsParams ns nk (maskCount E.mask) (driverBands E.ne.toNat empty) × O → ℝ →
      GsParams ns nk (maskCount E.mask) (driverBands E.ne.toNat empty) × O)
    (hupd : ∀ p t, Spec.KeepsShape p.1.occ (upd p t).1.occ) (ε : ℝ)
    (hopt : ∀ p t, (∃ m, ∀ q : GsParams ns nk (maskCount E.mask) (driverBands E.ne.toNat empty),
        Spec.KeepsShape p.1.occ q.occ → ∃ v, free t q = .ok v ∧ m ≤ v) →
      ∀ q v, Spec.KeepsShape p.1.occ q.occ → free t q = .ok v →
        ∃ v', free t (upd p t).1 = .ok v' ∧ v' ≤ v + ε)
    (epoch : ℤ) (he : 0 < epoch) (smearing : ℝ) (window : ℤ) (th : ℝ) :
    ∃ rep, ∃ en : ℕ → ℝ, ∃ j, gsRun (gsDensity E) total parts ew upd epoch smearing window th (p0, o0) = .ok rep ∧
      rep.repulsion = ew ∧ Spec.StopsAt window th epoch en j ∧ (2 ≤ epoch → 2 ≤ window → 0 < j) ∧
      rep.total = en j + ew ∧ sum rep.parts = en (j + 1) ∧
      ∀ i, ∃ c occ, Spec.GroundWithin ε (temperature smearing epoch i) E.eps E.mask E.ne E.spin
        E.restricted E.method energy c occ (en (i + 1)) ∧
        (i = j → rep.density = ⟨ns, densityGrid c E.vol occ⟩ ∧
          ∃ p, gsState E p = .ok ⟨ns, min (maskCount E.mask) (driverBands E.ne.toNat empty), c, occ⟩ ∧
            parts p = .ok rep.parts) := by
  obtain ⟨rep, h1, -⟩ := gsRun_spec hn hk E hv draw hns hm hp p0 o0 hinit ew
    total parts htotal hparts upd hupd epoch he smearing window th
  -- the state after any step
  have key : ∀ i, ∃ c occ, gsState E (Spec.trajectory upd (temperature smearing epoch) (p0, o0) (i + 1)).1
        = .ok ⟨ns, min (maskCount E.mask) (driverBands E.ne.toNat empty), c, occ⟩ ∧
      Spec.GroundWithin ε (temperature smearing epoch i) E.eps E.mask E.ne E.spin E.restricted E.method
        energy c occ (f (c, occ)) := by
    intro i
    have hkeep := trajectory_keeps upd hupd (temperature smearing epoch) (p0, o0) i
    have hkeep' := trajectory_keeps upd hupd (temperature smearing epoch) (p0, o0) (i + 1)
    have hFc : ContinuousOn (fun x : Coef ns nk (min (maskCount E.mask) (driverBands E.ne.toNat empty)) n ×
        Occ ns nk (min (maskCount E.mask) (driverBands E.ne.toNat empty)) =>
        f x - temperature smearing epoch i * Spec.smearingEntropy E.eps ((3 - (ns : ℝ)) / nk) x.2)
        {x | ∀ s k b, 0 ≤ x.2 s k b ∧ x.2 s k b ≤ Spec.kShare E.method nk * Spec.pauli E.restricted} := by
      rw [limit_eq_top hns hg]
      refine (hf.mono fun x hx s k b => (hx s k b).1).sub (continuousOn_const.mul ?_)
      exact (continuousOn_entropy E.eps _ heps).comp continuous_snd.continuousOn fun x hx => hx
    obtain ⟨⟨m, hbd⟩, hnear⟩ := near_minimum hk E htC htR draw hns hm hp hspin p0.occ hinit _ hFc
      (fun u hu c occ => by simp only [hph u hu]) (free (temperature smearing epoch i))
      (fun p c occ hs hS => hfree _ p _ _ (htot p c occ hs) hS)
    obtain ⟨c, occ, hs, hphys, hmin⟩ := hnear ε _ hkeep' fun q w hq hw =>
      hopt (Spec.trajectory upd (temperature smearing epoch) (p0, o0) i) (temperature smearing epoch i)
        ⟨m, fun q hq => hbd q (keeps_trans hkeep hq)⟩ q w (keeps_trans (keeps_symm hkeep) hq) hw
    refine ⟨c, occ, hs, hphys, (hval _ _ _).2 rfl,
      fun hfix => state_given E draw hns hm hp p0.occ hinit _ hkeep' hfix c occ hs,
      fun c' occ' e' hst hcomp he' => ?_⟩
    rw [(hval _ _ _).1 he']
    exact hmin c' occ' hst hcomp
  have hstart : ∃ v, total p0 = .ok v := by
    obtain ⟨occ, -, hs, -⟩ := state_entropy hk E draw hns hm hp p0.occ hinit p0 (keeps_refl _)
    exact ⟨_, htot _ _ _ hs⟩
  obtain ⟨v0, hv0⟩ := hstart
  choose c occ hs hgw using key
  let en : ℕ → ℝ := fun i => match i with | 0 => v0 | i + 1 => f (c i, occ i)
  have hen : ∀ i, total (Spec.trajectory upd (temperature smearing epoch) (p0, o0) i).1 = .ok (en i) := by
    intro i
    cases i with
    | zero => exact hv0
    | succ i => exact htot _ _ _ (hs i)
  obtain ⟨j, hj, h4, h5, h6, h7⟩ := gsRun_history (gsDensity E) total parts ew upd epoch smearing window th (p0, o0) en
    hen rep h1
  refine ⟨rep, en, j, h1, h5, hj, fun hep hw => ?_, h4, ?_, fun i => ⟨c i, occ i, hgw i, fun hij => ?_⟩⟩
  · rcases Nat.eq_zero_or_pos j with h0 | h0
    · subst h0
      rcases hj.last with h | ⟨xs, -, h8, h9, -⟩
      · push_cast at h; omega
      · have := h9.length_le
        simp at this
        omega
    · exact h0
  · exact Except.ok.inj ((hsum _ _ h6).symm.trans (hen (j + 1)))
  · subst hij
    have : gsDensity E (Spec.trajectory upd (temperature smearing epoch) (p0, o0) (i + 1)).1
        = .ok ⟨ns, densityGrid (c i) E.vol (occ i)⟩ := by
      unfold gsDensity
      rw [hs i]
    exact ⟨Except.ok.inj (h7.symm.trans this), _, hs i, h6⟩

/-- What both drivers have in common: with an optimiser that gets within `ε` of the minimum of the free energy,
the state that is reported is within `ε` of the ground state. -/
theorem run_ground {na nk ns empty : ℕ} {n : Fin 3 → ℕ} (hn : ∀ i, 0 < n i) (hk : 0 < nk)
    {O : Type*} {Y : Type} (E : GsEnv na nk n) (hv : 0 < E.vol)
    (htC : Spec.Triangular E.qrC) (htR : Spec.Triangular E.qrR) (heps : 0 < E.eps)
    (draw : ∀ n m : ℕ, Matrix (Fin n) (Fin m) ℝ) (hns : ns = if E.restricted then 1 else 2)
    (hm : driverBands E.ne.toNat empty ≤ maskCount E.mask) (hp : Spec.Placeable E.method E.ne E.spin empty)
    (hspin : E.method = "simplex-projector" → E.restricted = true → E.spin = 0)
    (hg : E.method = "gamma" → nk = 1)
    (p0 : GsParams ns nk (maskCount E.mask) (driverBands E.ne.toNat empty)) (o0 : O)
    (hinit : occParamInit draw (driverBands E.ne.toNat empty) E.ne nk E.spin E.method E.restricted = .ok p0.occ)
    (ew : ℝ)
    (energy : Coef ns nk (min (maskCount E.mask) (driverBands E.ne.toNat empty)) n →
      Occ ns nk (min (maskCount E.mask) (driverBands E.ne.toNat empty)) → ℝ → Prop)
    (f : Coef ns nk (min (maskCount E.mask) (driverBands E.ne.toNat empty)) n ×
      Occ ns nk (min (maskCount E.mask) (driverBands E.ne.toNat empty)) → ℝ)
    (hf : ContinuousOn f {x | ∀ s k b, 0 ≤ x.2 s k b})
    (hval : ∀ c occ e, energy c occ e ↔ e = f (c, occ))
    (hph : ∀ u : Fin ns → Fin nk → Fin (min (maskCount E.mask) (driverBands E.ne.toNat empty)) → ℂ,
      (∀ s k b, conj (u s k b) * u s k b = 1) → ∀ c occ, f (phased u c, occ) = f (c, occ))
    (total : GsParams ns nk (maskCount E.mask) (driverBands E.ne.toNat empty) → Except PyErr ℝ)
    (htot : ∀ p c occ, gsState E p = .ok ⟨ns, min (maskCount E.mask) (driverBands E.ne.toNat empty), c, occ⟩ →
      total p = .ok (f (c, occ)))
    (parts : GsParams ns nk (maskCount E.mask) (driverBands E.ne.toNat empty) → Except PyErr Y)
    (htotal : ∀ p o, occupation E.qrR p.occ E.ne E.spin E.method E.restricted = .ok o →
      o.length = ns → ∃ v, total p = .ok v)
    (hparts : ∀ p o, occupation E.qrR p.occ E.ne E.spin E.method E.restricted = .ok o →
      o.length = ns → ∃ v, parts p = .ok v)
    (sum : Y → ℝ) (hsum : ∀ p y, parts p = .ok y → total p = .ok (sum y))
    (free : ℝ → GsParams ns nk (maskCount E.mask) (driverBands E.ne.toNat empty) → Except PyErr ℝ)
    (hfree : ∀ t p v S, total p = .ok v → gsEntropy E p = .ok S → free t p = .ok (v - t * S))
    (upd : GsParams ns nk (maskCount E.mask) (driverBands E.ne.toNat empty) × O → ℝ →
      GsParams ns nk (maskCount E.mask) (driverBands E.ne.toNat empty) × O)
    (hupd : ∀ p t, Spec.KeepsShape p.1.occ (upd p t).1.occ) (ε : ℝ)
    (hopt : ∀ p t, (∃ m, ∀ q : GsParams ns nk (maskCount E.mask) (driverBands E.ne.toNat empty),
        Spec.KeepsShape p.1.occ q.occ → ∃ v, free t q = .ok v ∧ m ≤ v) →
      ∀ q v, Spec.KeepsShape p.1.occ q.occ → free t q = .ok v →
        ∃ v', free t (upd p t).1 = .ok v' ∧ v' ≤ v + ε)
    (epoch : ℤ) (he : 0 < epoch) (smearing : ℝ) (window : ℤ) (th : ℝ) :
    ∃ rep, gsRun (gsDensity E) total parts ew upd epoch smearing window th (p0, o0) = .ok rep ∧
      rep.repulsion = ew ∧
      (∃ j c occ, j < epoch.toNat ∧ Spec.GroundWithin ε (temperature smearing epoch j) E.eps E.mask E.ne E.spin
        E.restricted E.method energy c occ (sum rep.parts) ∧ rep.density = ⟨ns, densityGrid c E.vol occ⟩) ∧
      (2 ≤ epoch → 2 ≤ window → ∃ j c occ, j < epoch.toNat ∧ Spec.GroundWithin ε (temperature smearing epoch j)
        E.eps E.mask E.ne E.spin E.restricted E.method energy c occ (rep.total - rep.repulsion)) := by
  obtain ⟨rep, en, j, h1, h2, h3, h4, h5, h6, h7⟩ := run_ground_all hn hk E hv htC htR heps draw hns hm hp hspin hg p0
    o0 hinit ew energy f hf hval hph total htot parts htotal hparts sum hsum free hfree upd hupd ε hopt epoch he
    smearing window th
  have hjlt : j < epoch.toNat := by have := h3.within; omega
  refine ⟨rep, h1, h2, ?_, fun hep hw => ?_⟩
  · obtain ⟨c, occ, hg, hd⟩ := h7 j
    exact ⟨j, c, occ, hjlt, h6 ▸ hg, (hd rfl).1⟩
  · have hj := h4 hep hw
    obtain ⟨c, occ, hg, -⟩ := h7 (j - 1)
    rw [Nat.sub_add_cancel hj] at hg
    refine ⟨j - 1, c, occ, by omega, ?_⟩
    rw [h5, h2, add_sub_cancel_right]
    exact hg

end Jrystal
