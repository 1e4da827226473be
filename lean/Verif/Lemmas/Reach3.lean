import Verif.Lemmas.Reach2
import Verif.Model.RunNC

/- Lemmas for C88 and C89: states up to phases, and the states that the driver's parameters reach. -/
namespace Jrystal
open scoped BigOperators ComplexConjugate
open Matrix

/-- Orbitals multiplied by phases. -/
def phased {ns nk nb : ℕ} {n : Fin 3 → ℕ} (u : Fin ns → Fin nk → Fin nb → ℂ) (c : Coef ns nk nb n) :
    Coef ns nk nb n :=
  fun s k b x => u s k b * c s k b x

theorem absoluteSquare_phase (u z : ℂ) (hu : conj u * u = 1) : absoluteSquare (u * z) = absoluteSquare z := by
  unfold absoluteSquare
  have : conj (u * z) * (u * z) = (conj u * u) * (conj z * z) := by rw [map_mul]; ring
  rw [this, hu, one_mul]

theorem densityGrid_phased {ns nk nb : ℕ} {n : Fin 3 → ℕ} (u : Fin ns → Fin nk → Fin nb → ℂ)
    (hu : ∀ s k b, conj (u s k b) * u s k b = 1) (c : Coef ns nk nb n) (vol : ℝ) (occ : Occ ns nk nb) :
    densityGrid (phased u c) vol occ = densityGrid c vol occ := by
  funext s j
  unfold densityGrid densityGridBands waveGrid phased
  refine Finset.sum_congr rfl fun k _ => Finset.sum_congr rfl fun b _ => ?_
  rw [ifftn_smul, mul_assoc, absoluteSquare_phase _ _ (hu s k b)]

theorem densityGridReciprocal_phased {ns nk nb : ℕ} {n : Fin 3 → ℕ} (u : Fin ns → Fin nk → Fin nb → ℂ)
    (hu : ∀ s k b, conj (u s k b) * u s k b = 1) (c : Coef ns nk nb n) (vol : ℝ) (occ : Occ ns nk nb) :
    densityGridReciprocal (phased u c) vol occ = densityGridReciprocal c vol occ := by
  unfold densityGridReciprocal
  rw [densityGrid_phased u hu]

theorem kinetic_phased {ns nk nb : ℕ} {n : Fin 3 → ℕ} (u : Fin ns → Fin nk → Fin nb → ℂ)
    (hu : ∀ s k b, conj (u s k b) * u s k b = 1) (g : Idx n → Fin 3 → ℝ) (kpts : Fin nk → Fin 3 → ℝ)
    (c : Coef ns nk nb n) (occ : Occ ns nk nb) :
    kineticEnergyOcc g kpts (phased u c) occ = kineticEnergyOcc g kpts c occ := by
  unfold kineticEnergyOcc phased
  simp only [absoluteSquare_phase _ _ (hu _ _ _)]

theorem nonlocal_phased {ns nk nb M : ℕ} {ι : Type} [Fintype ι] {n : Fin 3 → ℕ}
    (u : Fin ns → Fin nk → Fin nb → ℂ) (hu : ∀ s k b, conj (u s k b) * u s k b = 1)
    (psi : Fin nk → ι → Fin M → Idx n → ℂ) (vol : ℝ) (c : Coef ns nk nb n) (occ : Occ ns nk nb) :
    energyNonlocal (phased u c) psi vol (some occ) = energyNonlocal c psi vol (some occ) := by
  have h : ∀ s k b, hamiltonianNonlocal (phased u c) psi vol s k b b = hamiltonianNonlocal c psi vol s k b b := by
    intro s k b
    unfold hamiltonianNonlocal phased
    dsimp only
    refine congrArg (· / (vol : ℂ)) (Finset.sum_congr rfl fun β _ => Finset.sum_congr rfl fun φ _ => ?_)
    have h1 : ∑ x, u s k b * c s k b x * psi k β φ x = u s k b * ∑ x, c s k b x * psi k β φ x := by
      rw [Finset.mul_sum]
      exact Finset.sum_congr rfl fun x _ => mul_assoc _ _ _
    rw [h1, map_mul]
    have h2 : ∀ z : ℂ, conj (u s k b) * conj z * (u s k b * z) = (conj (u s k b) * u s k b) * (conj z * z) :=
      fun z => by ring
    rw [h2, hu, one_mul]
  unfold energyNonlocal
  simp only [h]

theorem waveToDensity_phased {ns nk nb : ℕ} {n : Fin 3 → ℕ} (u : Fin ns → Fin nk → Fin nb → ℂ)
    (hu : ∀ s k b, conj (u s k b) * u s k b = 1) (c : Coef ns nk nb n) (vol : ℝ) (occ : Occ ns nk nb) :
    waveToDensity (waveGrid (phased u c) vol) occ = waveToDensity (waveGrid c vol) occ := by
  rw [waveToDensity_eq, waveToDensity_eq, densityGrid_phased u hu]

theorem totalEnergy_phased (lib : XcLib) {ns nk nb na : ℕ} {n : Fin 3 → ℕ} (u : Fin ns → Fin nk → Fin nb → ℂ)
    (hu : ∀ s k b, conj (u s k b) * u s k b = 1) (c : Coef ns nk nb n) (pos : Fin na → Fin 3 → ℝ)
    (charge : Fin na → ℝ) (g : Idx n → Fin 3 → ℝ) (kpts : Fin nk → Fin 3 → ℝ) (vol : ℝ) (occ : Occ ns nk nb)
    (ks : Bool) (xt : String) :
    totalEnergy lib (phased u c) pos charge g kpts vol (some occ) ks xt
      = totalEnergy lib c pos charge g kpts vol (some occ) ks xt := by
  unfold totalEnergy totalEnergySplit waveToDensityReciprocal
  simp only [waveToDensity_phased u hu, occOrOnes, kinetic_phased u hu]

theorem gsTotal_of_state {na nk ns nb S B : ℕ} {n : Fin 3 → ℕ} (E : GsEnv na nk n)
    (p : GsParams ns nk (maskCount E.mask) nb) (c : Coef S nk B n) (o : Occ S nk B)
    (h : gsState E p = .ok ⟨S, B, c, o⟩) :
    gsTotal E p = totalEnergy E.lib c E.pos E.charge E.g E.kpts E.vol (some o) false E.xc := by
  unfold gsTotal gsParts
  rw [h]
  unfold totalEnergy totalEnergySplit
  simp only [occOrOnes]
  obtain ⟨h, hh⟩ : ∃ h, hartreeEnergy (densityGridReciprocal c E.vol o) E.g E.vol false = .ok h :=
    ⟨_, hartreeEnergy_eq _ _ _ _⟩
  obtain ⟨x, hx⟩ : ∃ x, externalEnergy (densityGridReciprocal c E.vol o) E.pos E.charge E.g E.vol = .ok x :=
    ⟨_, externalEnergy_eq _ _ _ _ _⟩
  rw [waveToDensity_eq, waveToDensityReciprocal_eq]
  simp only [hh, hx]
  cases xcEnergy E.lib E.xc false (densityGrid c E.vol o) E.g E.vol with
  | error e => rfl
  | ok y =>
    simp only
    congr 1
    ring

theorem energyNC_exists (lib : XcLib) (xt : String) {ns nk nb M : ℕ} {ι : Type} [Fintype ι] {n : Fin 3 → ℕ}
    (vloc : Idx n → ℂ) (psi : Fin nk → ι → Fin M → Idx n → ℂ) (g : Idx n → Fin 3 → ℝ)
    (kpts : Fin nk → Fin 3 → ℝ) (vol : ℝ) (c : Coef ns nk nb n) (occ : Occ ns nk nb) :
    ∃ e, Spec.EnergyNC lib xt vloc psi g kpts vol c occ e :=
  ⟨_, _, _, _, _, hartreeEnergy_eq _ _ _ _, reciprocalBraket_one _ _ _, rfl, xcEnergy_value _ _ _ _ _, rfl⟩

theorem energyNC_unique {lib : XcLib} {xt : String} {ns nk nb M : ℕ} {ι : Type} [Fintype ι] {n : Fin 3 → ℕ}
    {vloc : Idx n → ℂ} {psi : Fin nk → ι → Fin M → Idx n → ℂ} {g : Idx n → Fin 3 → ℝ}
    {kpts : Fin nk → Fin 3 → ℝ} {vol : ℝ} {c : Coef ns nk nb n} {occ : Occ ns nk nb} {e e' : ℝ}
    (h : Spec.EnergyNC lib xt vloc psi g kpts vol c occ e)
    (h' : Spec.EnergyNC lib xt vloc psi g kpts vol c occ e') : e = e' := by
  obtain ⟨a1, a2, a3, a4, h1, h2, h3, h4, h5⟩ := h
  obtain ⟨b1, b2, b3, b4, k1, k2, k3, k4, k5⟩ := h'
  rw [h5, k5, Except.ok.inj (h1.symm.trans k1), Except.ok.inj (h2.symm.trans k2),
    Except.ok.inj (h3.symm.trans k3), Except.ok.inj (h4.symm.trans k4)]

theorem energyNC_phased {lib : XcLib} {xt : String} {ns nk nb M : ℕ} {ι : Type} [Fintype ι] {n : Fin 3 → ℕ}
    {vloc : Idx n → ℂ} {psi : Fin nk → ι → Fin M → Idx n → ℂ} {g : Idx n → Fin 3 → ℝ}
    {kpts : Fin nk → Fin 3 → ℝ} {vol : ℝ} (u : Fin ns → Fin nk → Fin nb → ℂ)
    (hu : ∀ s k b, conj (u s k b) * u s k b = 1) {c : Coef ns nk nb n} {occ : Occ ns nk nb} {e : ℝ} :
    Spec.EnergyNC lib xt vloc psi g kpts vol (phased u c) occ e
      ↔ Spec.EnergyNC lib xt vloc psi g kpts vol c occ e := by
  unfold Spec.EnergyNC
  rw [densityGridReciprocal_phased u hu, densityGrid_phased u hu, nonlocal_phased u hu, kinetic_phased u hu]

theorem gsTotalNC_of_state {na nk ns nb S B M : ℕ} {ι : Type} [Fintype ι] {n : Fin 3 → ℕ} (E : GsEnv na nk n)
    (vloc : Idx n → ℂ) (psi : Fin nk → ι → Fin M → Idx n → ℂ)
    (p : GsParams ns nk (maskCount E.mask) nb) (c : Coef S nk B n) (o : Occ S nk B)
    (h : gsState E p = .ok ⟨S, B, c, o⟩) (e : ℝ)
    (he : Spec.EnergyNC E.lib E.xc vloc psi E.g E.kpts E.vol c o e) : gsTotalNC E vloc psi p = .ok e := by
  obtain ⟨har, loc, nloc, exc, h1, h2, h3, h4, h5⟩ := he
  unfold gsTotalNC gsPartsNC
  rw [h]
  simp only [h1, h2, h3, h4, h5]

/-- The number of electrons in each channel of a physical state. -/
theorem physical_channels {ns nk nb : ℕ} {n : Fin 3 → ℕ} {mask : Idx n → Bool} {ne spin : ℤ} {r : Bool}
    {share : ℝ} {c : Coef ns nk nb n} {occ : Occ ns nk nb} (h : Spec.PhysicalState mask ne spin r share c occ)
    (s : Fin ns) : ∑ k, ∑ b, occ s k b
      = if r then (ne : ℝ) else if (s : ℕ) = 0 then ((ne : ℝ) + spin) / 2 else ((ne : ℝ) - spin) / 2 := by
  have hns := h.channels
  have he := h.electrons
  have hp := h.polarisation
  cases r
  · obtain rfl : ns = 2 := hns
    rw [Fin.sum_univ_two] at he
    have h2 := pair_split he (hp 0 1 rfl rfl)
    fin_cases s
    · exact h2.1
    · exact h2.2
  · obtain rfl : ns = 1 := hns
    rw [Fin.sum_univ_one] at he
    obtain rfl : s = 0 := Subsingleton.elim _ _
    exact he

/-- Parameters whose occupations are known reach every set of orthonormal orbitals, up to phases. -/
theorem reach_of_occ {na nk ns nb : ℕ} {n : Fin 3 → ℕ} (E : GsEnv na nk n) (ht : Spec.Triangular E.qrC)
    (hm : nb ≤ maskCount E.mask) (q : OccParams nk nb) (o : OccArr nk nb ℝ)
    (ho : occupation E.qrR q E.ne E.spin E.method E.restricted = .ok o) (hl : o.length = ns)
    (c : Coef ns nk (min (maskCount E.mask) nb) n) (occ : Occ ns nk (min (maskCount E.mask) nb))
    (hocc : ∀ s k b, occ s k b = o.get (Fin.cast hl.symm s) k (Fin.castLE (min_le_right _ _) b))
    (horth : ∀ s k i j, ∑ x, conj (c s k i x) * c s k j x = if i = j then 1 else 0)
    (hsel : ∀ s k b x, E.mask x = false → c s k b x = 0) :
    ∃ (pw : PwParams ns nk (maskCount E.mask) nb) (u : Fin ns → Fin nk → Fin (min (maskCount E.mask) nb) → ℂ),
      (∀ s k b, conj (u s k b) * u s k b = 1) ∧ pwCoeff E.qrC E.mask pw = phased u c ∧
      gsState E ⟨pw, q⟩ = .ok ⟨ns, _, phased u c, occ⟩ := by
  obtain ⟨pw, u, hu, hc⟩ := pwCoeff_reach E.qrC ht E.mask hm c horth hsel
  have he : pwCoeff E.qrC E.mask pw = phased (fun s k b => conj (u s k b)) c := by
    funext s k b x
    unfold phased
    rw [hc, ← mul_assoc, hu, one_mul]
  refine ⟨pw, fun s k b => conj (u s k b), fun s k b => ?_, he, ?_⟩
  · rw [Complex.conj_conj, mul_comm, hu]
  · rw [gsState_eq E ⟨pw, q⟩ o ho hl hm occ hocc, he]

theorem gsEntropy_eq {na nk ns nb : ℕ} {n : Fin 3 → ℕ} (E : GsEnv na nk n)
    (p : GsParams ns nk (maskCount E.mask) nb) (o : OccArr nk nb ℝ)
    (ho : occupation E.qrR p.occ E.ne E.spin E.method E.restricted = .ok o) (hl : o.length = ns)
    (hm : nb ≤ maskCount E.mask) (occ : Occ ns nk (min (maskCount E.mask) nb))
    (hocc : ∀ s k b, occ s k b = o.get (Fin.cast hl.symm s) k (Fin.castLE (min_le_right _ _) b)) :
    gsEntropy E p = .ok (Spec.smearingEntropy E.eps ((3 - (ns : ℝ)) / nk) occ) := by
  subst hl
  unfold gsEntropy
  rw [ho]
  unfold fermiDirac Spec.smearingEntropy
  refine congrArg (fun x : ℝ => Except.ok (-x)) ?_
  refine Finset.sum_congr rfl fun s _ => Finset.sum_congr rfl fun k _ => ?_
  refine (Fintype.sum_equiv (finCongr (min_eq_right hm)) _ _ fun b => ?_).symm
  rw [hocc]
  rfl

/-- Every physical state with trainable occupations is reached, up to phases. -/
theorem reach_state {na nk ns empty : ℕ} {n : Fin 3 → ℕ} (hk : 0 < nk) (E : GsEnv na nk n)
    (htC : Spec.Triangular E.qrC) (htR : Spec.Triangular E.qrR)
    (draw : ∀ n m : ℕ, Matrix (Fin n) (Fin m) ℝ)
    (hm : driverBands E.ne.toNat empty ≤ maskCount E.mask) (hp : Spec.Placeable E.method E.ne E.spin empty)
    (q0 : OccParams nk (driverBands E.ne.toNat empty))
    (hinit : occParamInit draw (driverBands E.ne.toNat empty) E.ne nk E.spin E.method E.restricted = .ok q0)
    (c : Coef ns nk (min (maskCount E.mask) (driverBands E.ne.toNat empty)) n)
    (occ : Occ ns nk (min (maskCount E.mask) (driverBands E.ne.toNat empty)))
    (hst : Spec.PhysicalState E.mask E.ne E.spin E.restricted (Spec.kShare E.method nk) c occ)
    (htr : Spec.Trainable E.method E.spin E.restricted occ) :
    ∃ p : GsParams ns nk (maskCount E.mask) (driverBands E.ne.toNat empty), Spec.KeepsShape q0 p.occ ∧
      ∃ u : Fin ns → Fin nk → Fin (min (maskCount E.mask) (driverBands E.ne.toNat empty)) → ℂ,
      (∀ s k b, conj (u s k b) * u s k b = 1) ∧ pwCoeff E.qrC E.mask p.pw = phased u c ∧
      gsState E p = .ok ⟨ns, _, phased u c, occ⟩ ∧
      gsEntropy E p = .ok (Spec.smearingEntropy E.eps ((3 - (ns : ℝ)) / nk) occ) := by
  have hmm := min_eq_right hm
  have hsum : ∀ s, ∑ k, ∑ b, occ s k (Fin.cast hmm.symm b) = ∑ k, ∑ b, occ s k b := fun s =>
    Finset.sum_congr rfl fun k _ => Fintype.sum_equiv (finCongr hmm.symm) _ _ fun b => rfl
  obtain ⟨q, hq, o, ho, hl, hy⟩ := occ_reached (ns := ns) E.qrR htR draw hk E.ne E.spin E.method E.restricted hp q0
    hinit hst.channels (fun s k b => occ s k (Fin.cast hmm.symm b)) (fun s k b => hst.nonneg _ _ _)
    (fun s k b => hst.pauli _ _ _) (fun s => by rw [hsum]; exact physical_channels hst s) (by
      rcases htr with h | ⟨h1, h2, h3⟩
      · exact Or.inl h
      · refine Or.inr ⟨h1, h2, fun s => ?_⟩
        rcases h3 s with h | h
        · exact Or.inl fun k b => h k _
        · exact Or.inr fun k b => h k _)
  have hocc : ∀ s k b, occ s k b = o.get (Fin.cast hl.symm s) k (Fin.castLE (min_le_right _ _) b) := by
    intro s k b
    exact hy s k (Fin.castLE (min_le_right _ _) b)
  obtain ⟨pw, u, hu, he, hs⟩ := reach_of_occ E htC hm q o ho hl c occ hocc hst.orthonormal hst.selected
  exact ⟨⟨pw, q⟩, hq, u, hu, he, hs, gsEntropy_eq E ⟨pw, q⟩ o ho hl hm occ hocc⟩

/-- Occupations moved a little towards their mean. -/
noncomputable def towardsMean {ns nk nb : ℕ} (δ : ℝ) (occ : Occ ns nk nb) : Occ ns nk nb :=
  fun s k b => (1 - δ) * occ s k b + δ * ((∑ k, ∑ b, occ s k b) / ((nk : ℝ) * nb))

theorem towardsMean_sum {ns nk nb : ℕ} (hk : 0 < nk) (hb : 0 < nb) (δ : ℝ) (occ : Occ ns nk nb) (s : Fin ns) :
    ∑ k, ∑ b, towardsMean δ occ s k b = ∑ k, ∑ b, occ s k b := by
  unfold towardsMean
  simp only [Finset.sum_add_distrib, ← Finset.mul_sum, Finset.sum_const, Finset.card_univ, Fintype.card_fin,
    nsmul_eq_mul]
  have : (nk : ℝ) ≠ 0 := by exact_mod_cast hk.ne'
  have : (nb : ℝ) ≠ 0 := by exact_mod_cast hb.ne'
  field_simp
  ring

/-- A physical state with occupations moved towards the mean is physical, and no orbital of it is full or
empty. -/
theorem physical_towardsMean {ns nk nb : ℕ} {n : Fin 3 → ℕ} {mask : Idx n → Bool} {ne spin : ℤ} {r : Bool}
    {share : ℝ} {c : Coef ns nk nb n} {occ : Occ ns nk nb} (hk : 0 < nk) (hb : 0 < nb)
    (h : Spec.PhysicalState mask ne spin r share c occ) {δ : ℝ} (h0 : 0 < δ) (h1 : δ ≤ 1)
    (hpos : ∀ s, 0 < ∑ k, ∑ b, occ s k b)
    (hlt : ∀ s, ∑ k, ∑ b, occ s k b < (nk : ℝ) * nb * (share * Spec.pauli r)) :
    Spec.PhysicalState mask ne spin r share c (towardsMean δ occ) ∧
      ∀ s k b, towardsMean δ occ s k b ≠ 0 ∧ towardsMean δ occ s k b ≠ share * Spec.pauli r := by
  have hkb : (0 : ℝ) < (nk : ℝ) * nb := by positivity
  have hm0 : ∀ s, 0 < (∑ k, ∑ b, occ s k b) / ((nk : ℝ) * nb) := fun s => div_pos (hpos s) hkb
  have hm1 : ∀ s, (∑ k, ∑ b, occ s k b) / ((nk : ℝ) * nb) < share * Spec.pauli r := fun s => by
    rw [div_lt_iff₀ hkb]
    linarith [hlt s]
  have hgt : ∀ s k b, 0 < towardsMean δ occ s k b := by
    intro s k b
    have := mul_nonneg (sub_nonneg.2 h1) (h.nonneg s k b)
    have := mul_pos h0 (hm0 s)
    unfold towardsMean
    linarith
  have hle : ∀ s k b, towardsMean δ occ s k b < share * Spec.pauli r := by
    intro s k b
    have h3 := mul_le_mul_of_nonneg_left (h.pauli s k b) (sub_nonneg.2 h1)
    have h4 := mul_lt_mul_of_pos_left (hm1 s) h0
    unfold towardsMean
    linarith
  refine ⟨⟨h.orthonormal, h.selected, h.channels, fun s k b => (hgt s k b).le, fun s k b => (hle s k b).le, ?_, ?_⟩,
    fun s k b => ⟨(hgt s k b).ne', (hle s k b).ne⟩⟩
  · simp only [towardsMean_sum hk hb]
    exact h.electrons
  · intro s s' e0 e1
    simp only [towardsMean_sum hk hb]
    exact h.polarisation s s' e0 e1

/-- With the simplex parametrisation no channel is empty or full. -/
theorem simplex_not_extreme {ns nk empty B : ℕ} {n : Fin 3 → ℕ} {mask : Idx n → Bool} (hk : 0 < nk) {ne spin : ℤ}
    {r : Bool} (hB : B = driverBands ne.toNat empty)
    (hp : Spec.Placeable "simplex-projector" ne spin empty) (hr : r = true → spin = 0)
    {c : Coef ns nk B n} {occ : Occ ns nk B}
    (h : Spec.PhysicalState mask ne spin r (Spec.kShare "simplex-projector" nk) c occ) :
    0 < B ∧ (∀ s, 0 < ∑ k, ∑ b, occ s k b) ∧
      ∀ s, ∑ k, ∑ b, occ s k b < (nk : ℝ) * B * (Spec.kShare "simplex-projector" nk * Spec.pauli r) := by
  obtain ⟨hpar, hp⟩ := hp
  have hp' : |spin| < ne ∧ |spin| < 2 * empty + ne % 2 := by
    rcases hp with ⟨h | h, -⟩ | ⟨-, h⟩ | ⟨h, -⟩
    · exact absurd h (by decide)
    · exact absurd h (by decide)
    · exact h
    · exact absurd h (by decide)
  have ha := abs_lt.1 hp'.1
  have ha2 := abs_lt.1 hp'.2
  have hkR : (0 : ℝ) < nk := by exact_mod_cast hk
  have hshare : Spec.kShare "simplex-projector" nk = 1 / nk := by simp [Spec.kShare]
  have hBz : (B : ℤ) = (ne.toNat + 1) / 2 + empty := by rw [hB]; unfold driverBands; push_cast; rfl
  have hB0 : 0 < B := by omega
  have hprod : (nk : ℝ) * B * (Spec.kShare "simplex-projector" nk * Spec.pauli r) = B * Spec.pauli r := by
    rw [hshare]; field_simp
  have hup : ne + spin < 2 * (B : ℤ) := by omega
  have hdn : ne - spin < 2 * (B : ℤ) := by omega
  have hupR : (ne : ℝ) + spin < 2 * B := by exact_mod_cast hup
  have hdnR : (ne : ℝ) - spin < 2 * B := by exact_mod_cast hdn
  have hup0 : (0 : ℝ) < (ne : ℝ) + spin := by exact_mod_cast (by omega : 0 < ne + spin)
  have hdn0 : (0 : ℝ) < (ne : ℝ) - spin := by exact_mod_cast (by omega : 0 < ne - spin)
  refine ⟨hB0, fun s => ?_, fun s => ?_⟩
  · rw [physical_channels h s]
    split_ifs
    · linarith
    · linarith
    · linarith
  · rw [hprod, physical_channels h s]
    cases r
    · simp only [Bool.false_eq_true, if_false, Spec.pauli, mul_one]
      split_ifs
      · linarith
      · linarith
    · simp only [if_true, Spec.pauli]
      have := hr rfl
      subst this
      push_cast at hupR
      linarith

end Jrystal
