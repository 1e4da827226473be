import Verif.Lemmas.Reach3

/- C88: which states the parameters of a calculation can describe. -/
namespace Jrystal
open scoped BigOperators ComplexConjugate
open Matrix

/-- C88, all-electron driver: for every state of orthonormal orbitals on the mask with trainable
occupations there are parameters, of the shape the optimiser works on, with the density and the total energy
of that state, and at every temperature the minimised function is its free energy.  Missing: with
`simplex-projector`, states in which a channel has both a full and an empty orbital are not reached
(`driver_simplex_unreached`) but can be approached (`driver_approaches_partial`); `uniform` and `gamma`
occupations are fixed. -/
theorem driver_reaches_partial {na nk ns empty : ℕ} {n : Fin 3 → ℕ} (hk : 0 < nk) (E : GsEnv na nk n)
    (htC : Spec.Triangular E.qrC) (htR : Spec.Triangular E.qrR)
    (draw : ∀ n m : ℕ, Matrix (Fin n) (Fin m) ℝ)
    (hm : driverBands E.ne.toNat empty ≤ maskCount E.mask) (hp : Spec.Placeable E.method E.ne E.spin empty)
    (pw0 : PwParams ns nk (maskCount E.mask) (driverBands E.ne.toNat empty))
    (p0 : GsParams ns nk (maskCount E.mask) (driverBands E.ne.toNat empty)) (h0 : gsInit E draw pw0 = .ok p0)
    (c : Coef ns nk (min (maskCount E.mask) (driverBands E.ne.toNat empty)) n)
    (occ : Occ ns nk (min (maskCount E.mask) (driverBands E.ne.toNat empty)))
    (hst : Spec.PhysicalState E.mask E.ne E.spin E.restricted (Spec.kShare E.method nk) c occ)
    (htr : Spec.Trainable E.method E.spin E.restricted occ) :
    ∃ p : GsParams ns nk (maskCount E.mask) (driverBands E.ne.toNat empty), Spec.KeepsShape p0.occ p.occ ∧
      gsDensity E p = .ok ⟨ns, densityGrid c E.vol occ⟩ ∧
      ∃ e, totalEnergy E.lib c E.pos E.charge E.g E.kpts E.vol (some occ) false E.xc = .ok e ∧
        gsTotal E p = .ok e ∧
        ∀ t, (gsFree E t p).map (fun r => r.1)
          = .ok (e - t * Spec.smearingEntropy E.eps ((3 - (ns : ℝ)) / nk) occ) := by
  obtain ⟨p, hq, u, hu, hc, hs, hent⟩ := reach_state hk E htC htR draw hm hp p0.occ (gsInit_occ h0) c occ hst htr
  obtain ⟨e, he⟩ := totalEnergy_succeeds E.lib c E.pos E.charge E.g E.kpts E.vol (some occ) false E.xc (Or.inl rfl)
  have ht : gsTotal E p = .ok e := by
    rw [gsTotal_of_state E p _ _ hs, totalEnergy_phased _ u hu, he]
  refine ⟨p, hq, ?_, e, he, ht, fun t => ?_⟩
  · unfold gsDensity
    rw [hs]
    simp only [densityGrid_phased u hu]
  · unfold gsFree
    rw [ht, hent]
    rfl

/-- C88, norm-conserving driver: the same with the energy of the valence electrons in every local and
nonlocal potential. -/
theorem driverNC_reaches_partial {na nk ns empty M : ℕ} {ι : Type} [Fintype ι] {n : Fin 3 → ℕ} (hk : 0 < nk)
    (E : GsEnv na nk n) (vloc : Idx n → ℂ) (psi : Fin nk → ι → Fin M → Idx n → ℂ)
    (htC : Spec.Triangular E.qrC) (htR : Spec.Triangular E.qrR)
    (draw : ∀ n m : ℕ, Matrix (Fin n) (Fin m) ℝ)
    (hm : driverBands E.ne.toNat empty ≤ maskCount E.mask) (hp : Spec.Placeable E.method E.ne E.spin empty)
    (pw0 : PwParams ns nk (maskCount E.mask) (driverBands E.ne.toNat empty))
    (p0 : GsParams ns nk (maskCount E.mask) (driverBands E.ne.toNat empty)) (h0 : gsInitNC E draw pw0 = .ok p0)
    (c : Coef ns nk (min (maskCount E.mask) (driverBands E.ne.toNat empty)) n)
    (occ : Occ ns nk (min (maskCount E.mask) (driverBands E.ne.toNat empty)))
    (hst : Spec.PhysicalState E.mask E.ne E.spin E.restricted (Spec.kShare E.method nk) c occ)
    (htr : Spec.Trainable E.method E.spin E.restricted occ) :
    ∃ p : GsParams ns nk (maskCount E.mask) (driverBands E.ne.toNat empty), Spec.KeepsShape p0.occ p.occ ∧
      gsDensity E p = .ok ⟨ns, densityGrid c E.vol occ⟩ ∧
      ∃ e, Spec.EnergyNC E.lib E.xc vloc psi E.g E.kpts E.vol c occ e ∧ gsTotalNC E vloc psi p = .ok e ∧
        ∀ t, (gsFreeNC E vloc psi t p).map (fun r => r.1)
          = .ok (e - t * Spec.smearingEntropy E.eps ((3 - (ns : ℝ)) / nk) occ) := by
  have hinit : occParamInit draw (driverBands E.ne.toNat empty) E.ne nk E.spin E.method E.restricted
      = .ok p0.occ := by
    rw [← gsInitNC_occ h0]
    rcases htr with h | ⟨h, -⟩ <;> rw [h] <;> simp [occParamInit]
  obtain ⟨p, hq, u, hu, hc, hs, hent⟩ := reach_state hk E htC htR draw hm hp p0.occ hinit c occ hst htr
  obtain ⟨e, he⟩ := energyNC_exists E.lib E.xc vloc psi E.g E.kpts E.vol c occ
  have ht : gsTotalNC E vloc psi p = .ok e :=
    gsTotalNC_of_state E vloc psi p _ _ hs e ((energyNC_phased u hu).2 he)
  refine ⟨p, hq, ?_, e, he, ht, fun t => ?_⟩
  · unfold gsDensity
    rw [hs]
    simp only [densityGrid_phased u hu]
  · unfold gsFreeNC
    rw [ht, hent]
    rfl

/-- C88: with `simplex-projector` every physical state is approached, if not reached: for every `δ > 0` there
are parameters with the same orbitals, up to phases, and physical occupations that differ by less than `δ`. -/
theorem driver_approaches_partial {na nk ns empty : ℕ} {n : Fin 3 → ℕ} (hk : 0 < nk) (E : GsEnv na nk n)
    (htC : Spec.Triangular E.qrC) (htR : Spec.Triangular E.qrR)
    (draw : ∀ n m : ℕ, Matrix (Fin n) (Fin m) ℝ)
    (hm : driverBands E.ne.toNat empty ≤ maskCount E.mask) (hp : Spec.Placeable E.method E.ne E.spin empty)
    (hmeth : E.method = "simplex-projector") (hr : E.restricted = true → E.spin = 0)
    (pw0 : PwParams ns nk (maskCount E.mask) (driverBands E.ne.toNat empty))
    (p0 : GsParams ns nk (maskCount E.mask) (driverBands E.ne.toNat empty)) (h0 : gsInit E draw pw0 = .ok p0)
    (c : Coef ns nk (min (maskCount E.mask) (driverBands E.ne.toNat empty)) n)
    (occ : Occ ns nk (min (maskCount E.mask) (driverBands E.ne.toNat empty)))
    (hst : Spec.PhysicalState E.mask E.ne E.spin E.restricted (Spec.kShare E.method nk) c occ)
    (δ : ℝ) (hδ : 0 < δ) :
    ∃ (p : GsParams ns nk (maskCount E.mask) (driverBands E.ne.toNat empty))
      (occ' : Occ ns nk (min (maskCount E.mask) (driverBands E.ne.toNat empty))),
      Spec.KeepsShape p0.occ p.occ ∧
      Spec.PhysicalState E.mask E.ne E.spin E.restricted (Spec.kShare E.method nk) c occ' ∧
      (∀ s k b, |occ' s k b - occ s k b| < δ) ∧
      gsDensity E p = .ok ⟨ns, densityGrid c E.vol occ'⟩ ∧
      gsTotal E p = totalEnergy E.lib c E.pos E.charge E.g E.kpts E.vol (some occ') false E.xc := by
  rw [hmeth] at hst hp
  obtain ⟨hb, hpos, hlt⟩ := simplex_not_extreme hk (min_eq_right hm) hp hr hst
  -- how far the entries move
  obtain ⟨K, hK0, hK⟩ : ∃ K : ℝ, 0 < K ∧ ∀ s k b,
      |(∑ k, ∑ b, occ s k b) / ((nk : ℝ) * (min (maskCount E.mask) (driverBands E.ne.toNat empty) : ℕ)) - occ s k b|
        ≤ K := by
    refine ⟨∑ s, ∑ k, ∑ b, |(∑ k, ∑ b, occ s k b)
      / ((nk : ℝ) * (min (maskCount E.mask) (driverBands E.ne.toNat empty) : ℕ)) - occ s k b| + 1, ?_, ?_⟩
    · have : 0 ≤ ∑ s, ∑ k, ∑ b, |(∑ k, ∑ b, occ s k b)
        / ((nk : ℝ) * (min (maskCount E.mask) (driverBands E.ne.toNat empty) : ℕ)) - occ s k b| :=
        Finset.sum_nonneg fun s _ => Finset.sum_nonneg fun k _ => Finset.sum_nonneg fun b _ => abs_nonneg _
      linarith
    · intro s k b
      have h1 := Finset.single_le_sum (f := fun s => ∑ k, ∑ b, |(∑ k, ∑ b, occ s k b)
        / ((nk : ℝ) * (min (maskCount E.mask) (driverBands E.ne.toNat empty) : ℕ)) - occ s k b|)
        (fun s _ => Finset.sum_nonneg fun k _ => Finset.sum_nonneg fun b _ => abs_nonneg _) (Finset.mem_univ s)
      have h2 := Finset.single_le_sum (f := fun k => ∑ b, |(∑ k, ∑ b, occ s k b)
        / ((nk : ℝ) * (min (maskCount E.mask) (driverBands E.ne.toNat empty) : ℕ)) - occ s k b|)
        (fun k _ => Finset.sum_nonneg fun b _ => abs_nonneg _) (Finset.mem_univ k)
      have h3 := Finset.single_le_sum (f := fun b => |(∑ k, ∑ b, occ s k b)
        / ((nk : ℝ) * (min (maskCount E.mask) (driverBands E.ne.toNat empty) : ℕ)) - occ s k b|)
        (fun b _ => abs_nonneg _) (Finset.mem_univ b)
      linarith
  obtain ⟨ε, he0, he1, heK⟩ : ∃ ε : ℝ, 0 < ε ∧ ε ≤ 1 ∧ ε * K < δ := by
    refine ⟨min 1 (δ / (2 * K)), lt_min one_pos (by positivity), min_le_left _ _, ?_⟩
    have : min 1 (δ / (2 * K)) * K ≤ δ / (2 * K) * K := mul_le_mul_of_nonneg_right (min_le_right _ _) hK0.le
    have h2 : δ / (2 * K) * K = δ / 2 := by field_simp
    linarith
  obtain ⟨hph, hne⟩ := physical_towardsMean hk hb hst he0 he1 hpos hlt
  rw [← hmeth] at hph hp
  obtain ⟨p, hq, u, hu, hc, hs, hent⟩ := reach_state hk E htC htR draw hm hp p0.occ (gsInit_occ h0) c _ hph
    (Or.inr ⟨hmeth, hr, fun s => Or.inl fun k b => (hne s k b).1⟩)
  refine ⟨p, _, hq, hph, fun s k b => ?_, ?_, ?_⟩
  · have : towardsMean ε occ s k b - occ s k b = ε * ((∑ k, ∑ b, occ s k b)
        / ((nk : ℝ) * (min (maskCount E.mask) (driverBands E.ne.toNat empty) : ℕ)) - occ s k b) := by
      unfold towardsMean
      ring
    rw [this, abs_mul, abs_of_pos he0]
    exact lt_of_le_of_lt (mul_le_mul_of_nonneg_left (hK s k b) he0.le) heK
  · unfold gsDensity
    rw [hs]
    simp only [densityGrid_phased u hu]
  · rw [gsTotal_of_state E p _ _ hs, totalEnergy_phased _ u hu]

/-- C88 is false for `simplex-projector`: at no point of a training run does a channel have both an empty and
a full orbital, so that no closed-shell state with empty bands is ever described. -/
theorem driver_simplex_unreached {na nk ns empty : ℕ} {n : Fin 3 → ℕ} (hk : 0 < nk) (E : GsEnv na nk n)
    (draw : ∀ n m : ℕ, Matrix (Fin n) (Fin m) ℝ) (hns : ns = if E.restricted then 1 else 2)
    (hm : driverBands E.ne.toNat empty ≤ maskCount E.mask)
    (hp : Spec.Placeable E.method E.ne E.spin empty) (hmeth : E.method = "simplex-projector")
    (pw0 : PwParams ns nk (maskCount E.mask) (driverBands E.ne.toNat empty))
    (p0 : GsParams ns nk (maskCount E.mask) (driverBands E.ne.toNat empty)) (h0 : gsInit E draw pw0 = .ok p0)
    (p : GsParams ns nk (maskCount E.mask) (driverBands E.ne.toNat empty)) (hq : Spec.KeepsShape p0.occ p.occ) :
    ∃ (c : Coef ns nk (min (maskCount E.mask) (driverBands E.ne.toNat empty)) n)
      (occ : Occ ns nk (min (maskCount E.mask) (driverBands E.ne.toNat empty))),
      gsState E p = .ok ⟨ns, _, c, occ⟩ ∧
      ∀ s k b k' b', occ s k b = 0 → occ s k' b' ≠ Spec.kShare E.method nk * Spec.pauli E.restricted := by
  have hkR : (0 : ℝ) < nk := by exact_mod_cast hk
  have hinit := gsInit_occ h0
  have e : p0.occ = .simplex (simplexProjectorInit nk (driverBands E.ne.toNat empty))
      (simplexProjectorInit nk (driverBands E.ne.toNat empty)) := by
    rw [hmeth] at hinit
    simpa [occParamInit, eq_comm] using hinit
  rw [e] at hq
  obtain ⟨x0, x1, hx⟩ : ∃ x0 x1, p.occ = .simplex x0 x1 := by
    cases hpo : p.occ with
    | simplex a b => exact ⟨a, b, rfl⟩
    | idem a => rw [hpo] at hq; exact hq.elim
    | arr a => rw [hpo] at hq; exact hq.elim
  have hshare : Spec.kShare E.method nk = 1 / nk := by rw [hmeth]; simp [Spec.kShare]
  have hocc : occupation E.qrR p.occ E.ne E.spin E.method E.restricted
      = .ok (simplexProjector x0 x1 E.ne E.spin E.restricted) := by
    rw [hx, hmeth]; simp [occupation]
  have hbound : ∀ (x : Fin nk → Fin (driverBands E.ne.toNat empty) → ℝ) i,
      0 < ravel (fun k b => sigmoid (x k b)) i ∧ ravel (fun k b => sigmoid (x k b)) i < 1 :=
    fun x i => sigmoid_bounds _
  cases hr : E.restricted
  · have hl : (simplexProjector x0 x1 E.ne E.spin E.restricted).length = ns := by
      rw [hns, hr]; simp [simplexProjector]
    refine ⟨_, _, gsState_eq E p _ hocc hl hm _ fun _ _ _ => rfl, ?_⟩
    intro s k b k' b' h1 h2
    rw [hr] at hns
    obtain rfl : ns = 2 := hns
    have hlim : Spec.kShare E.method nk * Spec.pauli false = 1 / nk := by
      rw [hshare, Spec.pauli, if_neg (by decide), mul_one]
    rw [hlim] at h2
    have key : ∀ (x : Fin nk → Fin (driverBands E.ne.toNat empty) → ℝ) (m : ℝ) i j,
        proj (ravel fun k b => sigmoid (x k b)) m i / (nk : ℝ) = 0 →
        proj (ravel fun k b => sigmoid (x k b)) m j / (nk : ℝ) = 1 / nk → False := by
      intro x m i j hi hj
      refine proj_not_both _ m (hbound x) i j ?_ ?_
      · rcases div_eq_zero_iff.1 hi with h | h
        · exact h
        · exact absurd h hkR.ne'
      · exact (div_left_inj' hkR.ne').1 hj
    generalize hA : simplexProjector x0 x1 E.ne E.spin E.restricted = A at hl h1 h2
    rw [hr] at hA
    subst hA
    fin_cases s
    · exact key x0 _ _ _ h1 h2
    · exact key x1 _ _ _ h1 h2
  · have hl : (simplexProjector x0 x1 E.ne E.spin E.restricted).length = ns := by
      rw [hns, hr]; simp [simplexProjector, sumSpin]
    refine ⟨_, _, gsState_eq E p _ hocc hl hm _ fun _ _ _ => rfl, ?_⟩
    intro s k b k' b' h1 h2
    rw [hr] at hns
    obtain rfl : ns = 1 := hns
    have hlim : Spec.kShare E.method nk * Spec.pauli true = 2 / nk := by
      rw [hshare, Spec.pauli, if_pos rfl]; ring
    rw [hlim] at h2
    generalize hA : simplexProjector x0 x1 E.ne E.spin E.restricted = A at hl h1 h2
    rw [hr] at hA
    subst hA
    obtain rfl : s = 0 := Subsingleton.elim _ _
    rw [hmeth] at hp
    have h2u : 2 * ((E.ne + E.spin) / 2) = E.ne + E.spin := by have := hp.1; omega
    have h2d : 2 * ((E.ne - E.spin) / 2) = E.ne - E.spin := by have := hp.1; omega
    have hup := simplex_counts hk hp _ (Or.inl h2u)
    have hdn := simplex_counts hk hp _ (Or.inr h2d)
    have hA0 := (proj_nearest_partial (ravel fun k b => sigmoid (x0 k b)) _
      (fun i => ⟨(hbound x0 i).1.le, (hbound x0 i).2.le⟩) hup.1 hup.2).1.1
    have hA1 := (proj_nearest_partial (ravel fun k b => sigmoid (x1 k b)) _
      (fun i => ⟨(hbound x1 i).1.le, (hbound x1 i).2.le⟩) hdn.1 hdn.2).1.1
    have key : ∀ i j, proj (ravel fun k b => sigmoid (x0 k b)) (((E.ne + E.spin) / 2 * nk : ℤ) : ℝ) i / (nk : ℝ)
        + (proj (ravel fun k b => sigmoid (x1 k b)) (((E.ne - E.spin) / 2 * nk : ℤ) : ℝ) i / (nk : ℝ) + 0) = 0 →
        proj (ravel fun k b => sigmoid (x0 k b)) (((E.ne + E.spin) / 2 * nk : ℤ) : ℝ) j / (nk : ℝ)
        + (proj (ravel fun k b => sigmoid (x1 k b)) (((E.ne - E.spin) / 2 * nk : ℤ) : ℝ) j / (nk : ℝ) + 0) = 2 / nk →
        False := by
      intro i j hi hj
      rw [add_zero, ← add_div] at hi hj
      rw [div_eq_zero_iff, or_iff_left hkR.ne'] at hi
      rw [div_left_inj' hkR.ne'] at hj
      refine proj_not_both _ (((E.ne + E.spin) / 2 * nk : ℤ) : ℝ) (hbound x0) i j ?_ ?_
      · linarith [(hA0 i).1, (hA1 i).1]
      · linarith [(hA0 j).2, (hA1 j).2]
    exact key _ _ h1 h2

/-- Two plane waves, one k point, two electrons in two bands, no nuclei and no exchange-correlation energy. -/
noncomputable def trainedTwoWaves : GsEnv 0 1 ![2, 1, 1] where
  lib := ⟨fun _ _ => 0, fun _ _ _ => 0, fun _ _ _ => 0, fun _ _ _ _ _ _ => 0⟩
  qrC := gramSchmidtQR ℂ
  qrR := gramSchmidtQR ℝ
  mask := fun _ => true
  g := gVectors 1 ![2, 1, 1]
  kpts := fun _ _ => 0
  vol := 1
  pos := Fin.elim0
  charge := Fin.elim0
  ne := 2
  spin := 0
  method := "simplex-projector"
  restricted := true
  xc := "lda_x"
  eps := 1e-8

private theorem trainedBands : min (maskCount trainedTwoWaves.mask) (driverBands trainedTwoWaves.ne.toNat 1) = 2 := by
  have h : maskCount (n := ![2, 1, 1]) (fun _ => true) = 2 := by decide
  have h2 : driverBands trainedTwoWaves.ne.toNat 1 = 2 := by simp [driverBands, trainedTwoWaves]
  rw [h2]
  change min (maskCount (n := ![2, 1, 1]) fun _ => true) 2 = 2
  rw [h, min_self]

/-- Band `b` holds the plane wave number `b`. -/
def twoPoint {B : ℕ} (hB : B = 2) (b : Fin B) : Idx ![2, 1, 1] :=
  fun i => ⟨if i = 0 then (b : ℕ) else 0, by
    have := b.2
    fin_cases i
    · show (if (0 : Fin 3) = 0 then (b : ℕ) else 0) < 2
      rw [if_pos rfl]; omega
    · show (if (1 : Fin 3) = 0 then (b : ℕ) else 0) < 1
      rw [if_neg (by decide)]; omega
    · show (if (2 : Fin 3) = 0 then (b : ℕ) else 0) < 1
      rw [if_neg (by decide)]; omega⟩

theorem twoPoint_inj {B : ℕ} (hB : B = 2) {a b : Fin B} : twoPoint hB a = twoPoint hB b ↔ a = b := by
  constructor
  · intro h
    have h1 := congrArg Fin.val (congrFun h 0)
    exact Fin.ext h1
  · rintro rfl; rfl

noncomputable def twoOrbitals {B : ℕ} (hB : B = 2) : Coef 1 1 B ![2, 1, 1] :=
  fun _ _ b x => if x = twoPoint hB b then 1 else 0

/-- Both electrons in the first band. -/
def closedShell (B : ℕ) : Occ 1 1 B := fun _ _ b => if (b : ℕ) = 0 then 2 else 0

theorem closedShell_physical {B : ℕ} (hB : B = 2) :
    Spec.PhysicalState (fun _ : Idx ![2, 1, 1] => true) 2 0 true (1 / (1 : ℕ)) (twoOrbitals hB) (closedShell B) := by
  refine ⟨fun s k i j => ?_, fun s k b x hx => (by cases hx), rfl, fun s k b => ?_, fun s k b => ?_, ?_,
    fun s s' _ h => ?_⟩
  · have : ∀ x, conj (twoOrbitals hB s k i x) * twoOrbitals hB s k j x
        = if x = twoPoint hB i then (if i = j then 1 else 0) else 0 := by
      intro x
      unfold twoOrbitals
      by_cases h : x = twoPoint hB i
      · subst h
        simp only [if_true, map_one, one_mul, twoPoint_inj]
      · simp [h]
    rw [Finset.sum_congr rfl fun x _ => this x, Finset.sum_ite_eq' Finset.univ (twoPoint hB i)]
    simp
  · unfold closedShell; split_ifs <;> norm_num
  · rw [Spec.pauli, if_pos rfl]; unfold closedShell; split_ifs <;> norm_num
  · subst hB
    simp [closedShell]
  · exact absurd h (by omega)

private theorem no_xc {ns : ℕ} {n : Fin 3 → ℕ} (rho : Fin ns → Idx n → ℝ) (g : Idx n → Fin 3 → ℝ) (vol : ℝ) (xt : String) :
    xcEnergy ⟨fun _ _ => 0, fun _ _ _ => 0, fun _ _ _ => 0, fun _ _ _ _ _ _ => 0⟩ xt false rho g vol = .ok 0 := by
  rw [xcEnergy_value]
  have h : ∀ j, excDensity ⟨fun _ _ => 0, fun _ _ _ => 0, fun _ _ _ => 0, fun _ _ _ _ _ _ => 0⟩ xt g rho j = 0 := by
    intro j
    unfold excDensity
    simp [excGga2, excGga1, excLda2, excLda1, ggaPoint2, ggaPoint1, ldaPoint2, ldaPoint1]
  simp [h]

private theorem no_nuclei {ns : ℕ} {n : Fin 3 → ℕ} (rho : Fin ns → Idx n → ℂ) (pos : Fin 0 → Fin 3 → ℝ)
    (charge : Fin 0 → ℝ) (g : Idx n → Fin 3 → ℝ) (vol : ℝ) : externalEnergy rho pos charge g vol = .ok 0 := by
  rw [externalEnergy_eq]
  simp [structureFactor]

theorem total_trained {B : ℕ} (c : Coef 1 1 B ![2, 1, 1]) (occ : Occ 1 1 B) :
    ∃ har, hartreeEnergy (densityGridReciprocal c 1 occ) (gVectors 1 ![2, 1, 1]) 1 false = .ok har ∧
      totalEnergy trainedTwoWaves.lib c trainedTwoWaves.pos trainedTwoWaves.charge trainedTwoWaves.g
        trainedTwoWaves.kpts trainedTwoWaves.vol (some occ) false trainedTwoWaves.xc
        = .ok (kineticEnergyOcc (gVectors 1 ![2, 1, 1]) (fun _ _ => 0) c occ + har) := by
  obtain ⟨har, hh⟩ : ∃ h, hartreeEnergy (densityGridReciprocal c 1 occ) (gVectors 1 ![2, 1, 1]) 1 false = .ok h :=
    ⟨_, hartreeEnergy_eq _ _ _ _⟩
  refine ⟨har, hh, ?_⟩
  unfold totalEnergy totalEnergySplit
  simp only [waveToDensity_eq, waveToDensityReciprocal_eq, occOrOnes]
  simp only [trainedTwoWaves, no_nuclei, no_xc, hh]
  simp

theorem closedShell_energy {B : ℕ} (hB : B = 2) :
    totalEnergy trainedTwoWaves.lib (twoOrbitals hB) trainedTwoWaves.pos trainedTwoWaves.charge trainedTwoWaves.g
        trainedTwoWaves.kpts trainedTwoWaves.vol (some (closedShell B)) false trainedTwoWaves.xc = .ok 0 := by
  obtain ⟨har, hh, ht⟩ := total_trained (twoOrbitals hB) (closedShell B)
  rw [ht]
  have hk : kineticEnergyOcc (gVectors 1 ![2, 1, 1]) (fun _ _ => 0) (twoOrbitals hB) (closedShell B) = 0 := by
    rw [(kinetic_nonneg _ _ _ _ fun s k b => by unfold closedShell; split_ifs <;> norm_num).2]
    intro s k b x ho hc d
    have hb : (b : ℕ) = 0 := by
      by_contra h
      exact ho (if_neg h)
    have hx : x = twoPoint hB b := by
      by_contra h
      exact hc (if_neg h)
    rw [hx, gVectors_zero 1 ![2, 1, 1] (twoPoint hB b) fun i => by
      unfold twoPoint
      simp [hb]]
    simp
  have hd : densityGridReciprocal (twoOrbitals hB) 1 (closedShell B)
      = fun s => fftn fun j => (((fun _ _ => 0 : Fin 1 → Idx ![2, 1, 1] → ℝ) s j + (fun _ => 2 : Fin 1 → ℝ) s : ℝ) : ℂ) := by
    funext s
    unfold densityGridReciprocal
    congr 1
    funext j
    congr 1
    rw [densityGrid_expansion 1 (by simp) (twoOrbitals hB) 1 one_pos]
    have h1 : ∀ b : Fin B, ‖∑ x, twoOrbitals hB s 0 b x * Complex.exp (Complex.I * ((Spec.dot (gVectors 1 ![2, 1, 1] x)
        (rVectors 1 ![2, 1, 1] j) : ℝ) : ℂ))‖ ^ 2 = 1 := by
      intro b
      rw [Finset.sum_eq_single (twoPoint hB b)]
      · unfold twoOrbitals
        rw [if_pos rfl, one_mul, mul_comm Complex.I, Complex.norm_exp_ofReal_mul_I, one_pow]
      · intro x _ hx
        unfold twoOrbitals
        rw [if_neg hx, zero_mul]
      · intro h; exact absurd (Finset.mem_univ _) h
    simp only [Fin.sum_univ_one, Fin.isValue, h1]
    subst hB
    simp [closedShell]
  have hz : har = 0 := by
    rw [hd, hartree_constant, hartreeEnergy_eq] at hh
    have := Except.ok.inj hh
    rw [← this]
    simp [fftn_eq]
  rw [hk, hz, add_zero]

private theorem kinetic_pos {B : ℕ} (hB : B = 2) (c : Coef 1 1 B ![2, 1, 1]) (occ : Occ 1 1 B)
    (horth : ∀ s k i j, ∑ x, conj (c s k i x) * c s k j x = if i = j then 1 else 0)
    (hnn : ∀ s k b, 0 ≤ occ s k b) (hsum : ∑ s, ∑ k, ∑ b, occ s k b = ((2 : ℤ) : ℝ))
    (hno : ∀ k b k' b', occ 0 k b = 0 → occ 0 k' b' ≠ Spec.kShare "simplex-projector" 1 * Spec.pauli true) :
    0 < kineticEnergyOcc (gVectors 1 ![2, 1, 1]) (fun _ _ => 0) c occ := by
  subst hB
  obtain ⟨h0, h1⟩ := kinetic_nonneg (gVectors 1 ![2, 1, 1]) (fun _ _ => 0) c occ hnn
  refine lt_of_le_of_ne h0 fun h => ?_
  have h2 := h1.1 h.symm
  have hlim : Spec.kShare "simplex-projector" 1 * Spec.pauli true = 2 := by simp [Spec.kShare, Spec.pauli]
  simp only [Fin.sum_univ_one, Fin.sum_univ_two, Fin.isValue] at hsum
  push_cast at hsum
  have hocc : ∀ b, occ 0 0 b ≠ 0 := by
    intro b hb
    fin_cases b
    · refine hno 0 0 0 1 hb ?_
      rw [hlim]
      change occ 0 0 0 = 0 at hb
      linarith
    · refine hno 0 1 0 0 hb ?_
      rw [hlim]
      change occ 0 0 1 = 0 at hb
      linarith
  let x0 : Idx ![2, 1, 1] := zeroIdx fun i => by fin_cases i <;> decide
  have hsupp : ∀ b x, x ≠ x0 → c 0 0 b x = 0 := by
    intro b x hx
    by_contra hc
    have h3 := h2 0 0 b x (hocc b) hc
    refine hx (gVectors_injective 1 (by simp) ![2, 1, 1] ?_)
    rw [gVectors_zero 1 ![2, 1, 1] x0 fun _ => rfl]
    funext d
    simpa using h3 d
  have hone : ∀ i j, conj (c 0 0 i x0) * c 0 0 j x0 = if i = j then 1 else 0 := by
    intro i j
    rw [← horth 0 0 i j, Finset.sum_eq_single x0]
    · intro x _ hx
      rw [hsupp j x hx, mul_zero]
    · intro h; exact absurd (Finset.mem_univ _) h
  have e01 := hone 0 1
  have e00 := hone 0 0
  have e11 := hone 1 1
  simp only [Fin.isValue, if_true] at e00 e11
  rw [if_neg (by decide)] at e01
  rcases mul_eq_zero.1 e01 with h | h
  · rw [h, zero_mul] at e00; exact zero_ne_one e00
  · rw [h, mul_zero] at e11; exact zero_ne_one e11

/-- C88: the states that are not reached can be the ones looked for: here the ground state has energy 0, and
every set of parameters of the right shape has a higher energy. -/
theorem driver_simplex_ground_missed (draw : ∀ n m : ℕ, Matrix (Fin n) (Fin m) ℝ)
    (pw0 : PwParams 1 1 (maskCount trainedTwoWaves.mask) (driverBands trainedTwoWaves.ne.toNat 1)) :
    ∃ (p0 : GsParams 1 1 (maskCount trainedTwoWaves.mask) (driverBands trainedTwoWaves.ne.toNat 1))
      (c : Coef 1 1 (min (maskCount trainedTwoWaves.mask) (driverBands trainedTwoWaves.ne.toNat 1)) ![2, 1, 1])
      (occ : Occ 1 1 (min (maskCount trainedTwoWaves.mask) (driverBands trainedTwoWaves.ne.toNat 1))),
      gsInit trainedTwoWaves draw pw0 = .ok p0 ∧
      Spec.PhysicalState trainedTwoWaves.mask 2 0 true (Spec.kShare "simplex-projector" 1) c occ ∧
      totalEnergy trainedTwoWaves.lib c trainedTwoWaves.pos trainedTwoWaves.charge trainedTwoWaves.g
        trainedTwoWaves.kpts trainedTwoWaves.vol (some occ) false trainedTwoWaves.xc = .ok 0 ∧
      ∀ p : GsParams 1 1 (maskCount trainedTwoWaves.mask) (driverBands trainedTwoWaves.ne.toNat 1),
        Spec.KeepsShape p0.occ p.occ → ∃ e, gsTotal trainedTwoWaves p = .ok e ∧ 0 < e := by
  have hplace : Spec.Placeable trainedTwoWaves.method trainedTwoWaves.ne trainedTwoWaves.spin 1 := by
    refine ⟨rfl, Or.inr (Or.inl ⟨rfl, ?_, ?_⟩)⟩
    · show |(0 : ℤ)| < 2; decide
    · show |(0 : ℤ)| < 2 * ((1 : ℕ) : ℤ) + 2 % 2; decide
  have hm : driverBands trainedTwoWaves.ne.toNat 1 ≤ maskCount trainedTwoWaves.mask := by
    have h1 : maskCount (n := ![2, 1, 1]) (fun _ => true) = 2 := by decide
    have h2 : driverBands trainedTwoWaves.ne.toNat 1 = 2 := by simp [driverBands, trainedTwoWaves]
    rw [h2]
    exact h1.ge
  obtain ⟨p0, hp0⟩ : ∃ p0, gsInit trainedTwoWaves draw pw0 = .ok p0 := ⟨_, rfl⟩
  have hshare : Spec.kShare "simplex-projector" 1 = 1 / ((1 : ℕ) : ℝ) := by simp [Spec.kShare]
  refine ⟨p0, twoOrbitals trainedBands, closedShell _, hp0, hshare ▸ closedShell_physical trainedBands,
    closedShell_energy trainedBands, fun p hq => ?_⟩
  obtain ⟨c, occ, hs, hno⟩ := driver_simplex_unreached (ns := 1) one_pos trainedTwoWaves draw rfl hm hplace rfl pw0 p0 hp0 p hq
  obtain ⟨occ', hph, -, -, hs'⟩ := state_of (ns := 1) one_pos trainedTwoWaves draw rfl hm hplace p0.occ (gsInit_occ hp0) p hq
  have heq := hs.symm.trans hs'
  simp only [Except.ok.injEq, Sigma.mk.injEq, heq_eq_eq, true_and, Prod.mk.injEq] at heq
  obtain ⟨rfl, rfl⟩ := heq
  rw [gsTotal_of_state _ _ _ _ hs]
  obtain ⟨har, hh, ht⟩ := total_trained (pwCoeff trainedTwoWaves.qrC trainedTwoWaves.mask p.pw) occ
  refine ⟨_, ht, ?_⟩
  obtain ⟨har', hh', hnn, -⟩ := hartree_nonneg 1 (by simp) (n := ![2, 1, 1]) (fun i => by fin_cases i <;> decide)
    (densityGridReciprocal (pwCoeff trainedTwoWaves.qrC trainedTwoWaves.mask p.pw) 1 occ) 1 one_pos false
  obtain rfl := Except.ok.inj (hh.symm.trans hh')
  refine add_pos_of_pos_of_nonneg ?_ hnn
  generalize pwCoeff trainedTwoWaves.qrC trainedTwoWaves.mask p.pw = c at hph
  exact kinetic_pos trainedBands c occ hph.orthonormal hph.nonneg hph.electrons fun k b k' b' h =>
    hno 0 k b k' b' h

/-- The hypotheses of `driver_reaches_partial`, `driverNC_reaches_partial`, `driver_approaches_partial` and
`driver_simplex_unreached` hold for the two-wave system: the QR contract, the shapes, the initial parameters,
and a physical state with half-filled bands, which is trainable. -/
example (draw : ∀ n m : ℕ, Matrix (Fin n) (Fin m) ℝ)
    (pw0 : PwParams 1 1 (maskCount trainedTwoWaves.mask) (driverBands trainedTwoWaves.ne.toNat 1)) :
    Spec.Triangular trainedTwoWaves.qrC ∧ Spec.Triangular trainedTwoWaves.qrR ∧
      driverBands trainedTwoWaves.ne.toNat 1 ≤ maskCount trainedTwoWaves.mask ∧
      Spec.Placeable trainedTwoWaves.method trainedTwoWaves.ne trainedTwoWaves.spin 1 ∧
      (∃ p0, gsInit trainedTwoWaves draw pw0 = .ok p0 ∧ gsInitNC trainedTwoWaves draw pw0 = .ok p0) ∧
      ∃ (c : Coef 1 1 (min (maskCount trainedTwoWaves.mask) (driverBands trainedTwoWaves.ne.toNat 1)) ![2, 1, 1])
        (occ : Occ 1 1 (min (maskCount trainedTwoWaves.mask) (driverBands trainedTwoWaves.ne.toNat 1))),
        Spec.PhysicalState trainedTwoWaves.mask trainedTwoWaves.ne trainedTwoWaves.spin trainedTwoWaves.restricted
          (Spec.kShare trainedTwoWaves.method 1) c occ ∧
        Spec.Trainable trainedTwoWaves.method trainedTwoWaves.spin trainedTwoWaves.restricted occ := by
  have hplace : Spec.Placeable trainedTwoWaves.method trainedTwoWaves.ne trainedTwoWaves.spin 1 := by
    refine ⟨rfl, Or.inr (Or.inl ⟨rfl, ?_, ?_⟩)⟩
    · show |(0 : ℤ)| < 2; decide
    · show |(0 : ℤ)| < 2 * ((1 : ℕ) : ℤ) + 2 % 2; decide
  have hm : driverBands trainedTwoWaves.ne.toNat 1 ≤ maskCount trainedTwoWaves.mask := by
    have h1 : maskCount (n := ![2, 1, 1]) (fun _ => true) = 2 := by decide
    have h2 : driverBands trainedTwoWaves.ne.toNat 1 = 2 := by simp [driverBands, trainedTwoWaves]
    rw [h2]
    exact h1.ge
  have hshare : Spec.kShare "simplex-projector" 1 = 1 / ((1 : ℕ) : ℝ) := by simp [Spec.kShare]
  have h0 : Spec.PhysicalState trainedTwoWaves.mask trainedTwoWaves.ne trainedTwoWaves.spin
      trainedTwoWaves.restricted (Spec.kShare "simplex-projector" 1) (twoOrbitals trainedBands)
      (closedShell _) := hshare ▸ closedShell_physical trainedBands
  obtain ⟨hb, hpos, hlt⟩ := simplex_not_extreme one_pos (min_eq_right hm) hplace (fun _ => rfl) h0
  obtain ⟨hph, hne⟩ := physical_towardsMean one_pos hb h0 one_half_pos (by norm_num) hpos hlt
  exact ⟨gramSchmidtQR_triangular ℂ, gramSchmidtQR_triangular ℝ, hm, hplace, ⟨_, rfl, rfl⟩, _, _, hph,
    Or.inr ⟨rfl, fun _ => rfl, fun s => Or.inl fun k b => (hne s k b).1⟩⟩

end Jrystal
