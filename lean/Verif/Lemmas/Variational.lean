import Verif.Lemmas.GroundState
import Verif.Spec.Variational
import Verif.Props.Spin
import Mathlib.Analysis.InnerProductSpace.PiL2

/- Lemmas for C97: a physical state stays one, with the same energy, when the plane waves, the bands or the
channels become more. -/
namespace Jrystal
open scoped BigOperators ComplexConjugate

theorem sum_padded {M : Type*} [AddCommMonoid M] {nb nb' : ℕ} (h : nb ≤ nb') (F : Fin nb' → M) (f : Fin nb → M)
    (hf : ∀ b, F (Fin.castLE h b) = f b) (h0 : ∀ b : Fin nb', nb ≤ (b : ℕ) → F b = 0) : ∑ b, F b = ∑ b, f b := by
  obtain ⟨d, rfl⟩ := Nat.exists_eq_add_of_le h
  rw [Fin.sum_univ_add]
  have h2 : ∑ i : Fin d, F (Fin.natAdd nb i) = 0 :=
    Finset.sum_eq_zero fun i _ => h0 _ (by simp)
  rw [h2, add_zero]
  exact Finset.sum_congr rfl fun b _ => hf b

/-- Orthonormal functions on the selected points can be completed. -/
theorem exists_more_orbitals {n : Fin 3 → ℕ} (mask : Idx n → Bool) {nb nb' : ℕ} (h : nb ≤ nb')
    (hc : nb' ≤ Fintype.card {x // mask x = true}) (c : Fin nb → Idx n → ℂ)
    (ho : ∀ i j, ∑ x, conj (c i x) * c j x = if i = j then 1 else 0) (hs : ∀ b x, mask x = false → c b x = 0) :
    ∃ c' : Fin nb' → Idx n → ℂ, (∀ b, c' (Fin.castLE h b) = c b) ∧
      (∀ i j, ∑ x, conj (c' i x) * c' j x = if i = j then 1 else 0) ∧ ∀ b x, mask x = false → c' b x = 0 := by
  classical
  have hsum : ∀ f : Idx n → ℂ, (∀ x, mask x = false → f x = 0) →
      ∑ x, f x = ∑ x : {x // mask x = true}, f x := by
    intro f hf
    rw [← Fintype.sum_subtype_add_sum_subtype (fun x => mask x = true) f]
    have : ∑ x : {x // ¬ mask x = true}, f x = 0 :=
      Finset.sum_eq_zero fun x _ => hf _ (by simpa using x.2)
    rw [this, add_zero]
  let G := {x // mask x = true}
  let v : Fin (Fintype.card G) → EuclideanSpace ℂ G := fun i =>
    if hi : (i : ℕ) < nb then WithLp.toLp 2 fun x => c ⟨i, hi⟩ x else 0
  have hin : ∀ i j : Fin (Fintype.card G), (hi : (i : ℕ) < nb) → (hj : (j : ℕ) < nb) →
      inner ℂ (v i) (v j) = if i = j then 1 else 0 := by
    intro i j hi hj
    simp only [v, hi, hj, dif_pos]
    rw [PiLp.inner_apply]
    have := ho ⟨i, hi⟩ ⟨j, hj⟩
    rw [hsum _ (fun x hx => by rw [hs _ x hx, map_zero, zero_mul])] at this
    simp only [Fin.mk.injEq, ← Fin.ext_iff] at this
    rw [← this]
    exact Finset.sum_congr rfl fun x _ => by simp [mul_comm]
  obtain ⟨B, hB⟩ := Orthonormal.exists_orthonormalBasis_extension_of_card_eq (𝕜 := ℂ)
    (E := EuclideanSpace ℂ G) (ι := Fin (Fintype.card G)) (by simp) (v := v) (s := {i | (i : ℕ) < nb}) (by
      rw [orthonormal_iff_ite]
      intro i j
      have := hin i j i.2 j.2
      simp only [Set.domRestrict_apply, Subtype.ext_iff]
      exact this)
  refine ⟨fun b x => if hx : mask x = true then B (Fin.castLE hc b) ⟨x, hx⟩ else 0, fun b => ?_, fun i j => ?_,
    fun b x hx => ?_⟩
  · funext x
    have hb : ((Fin.castLE hc (Fin.castLE h b) : Fin (Fintype.card G)) : ℕ) < nb := by simp
    by_cases hx : mask x = true
    · simp only [hx, dif_pos]
      rw [hB _ hb]
      simp only [v, hb, dif_pos]
      rfl
    · simp only [hx, Bool.false_eq_true, dif_neg, not_false_eq_true]
      exact (hs b x (by simpa using hx)).symm
  · rw [hsum _ (fun x hx => by simp [hx])]
    have h1 := orthonormal_iff_ite.mp B.orthonormal (Fin.castLE hc i) (Fin.castLE hc j)
    rw [PiLp.inner_apply] at h1
    simp only [Fin.castLE_inj] at h1
    rw [← h1]
    exact Finset.sum_congr rfl fun x _ => by simp [x.2, mul_comm]
  · simp [hx]

/-- `c', occ'` are the state `c, occ` with further, empty orbitals. -/
structure Padded {ns nk nb nb' : ℕ} {n : Fin 3 → ℕ} (h : nb ≤ nb') (c : Coef ns nk nb n) (occ : Occ ns nk nb)
    (c' : Coef ns nk nb' n) (occ' : Occ ns nk nb') : Prop where
  coef : ∀ s k b, c' s k (Fin.castLE h b) = c s k b
  same : ∀ s k b, occ' s k (Fin.castLE h b) = occ s k b
  empty : ∀ s k (b : Fin nb'), nb ≤ (b : ℕ) → occ' s k b = 0

theorem Padded.density {ns nk nb nb' : ℕ} {n : Fin 3 → ℕ} {h : nb ≤ nb'} {c : Coef ns nk nb n} {occ : Occ ns nk nb}
    {c' : Coef ns nk nb' n} {occ' : Occ ns nk nb'} (P : Padded h c occ c' occ') (vol : ℝ) :
    densityGrid c' vol occ' = densityGrid c vol occ := by
  funext s j
  unfold densityGrid
  refine Finset.sum_congr rfl fun k _ => sum_padded h _ _ (fun b => ?_) fun b hb => ?_
  · rw [P.same]
    unfold densityGridBands waveGrid
    rw [P.coef]
  · rw [P.empty s k b hb, mul_zero]

theorem Padded.kinetic {ns nk nb nb' : ℕ} {n : Fin 3 → ℕ} {h : nb ≤ nb'} {c : Coef ns nk nb n} {occ : Occ ns nk nb}
    {c' : Coef ns nk nb' n} {occ' : Occ ns nk nb'} (P : Padded h c occ c' occ') (g : Idx n → Fin 3 → ℝ)
    (kpts : Fin nk → Fin 3 → ℝ) : kineticEnergyOcc g kpts c' occ' = kineticEnergyOcc g kpts c occ := by
  unfold kineticEnergyOcc
  refine congrArg (· / 2) (Finset.sum_congr rfl fun s _ => Finset.sum_congr rfl fun k _ =>
    sum_padded h _ _ (fun b => ?_) fun b hb => ?_)
  · rw [P.same, P.coef]
  · rw [P.empty s k b hb, mul_zero]

theorem Padded.nonlocal {ns nk nb nb' M : ℕ} {ι : Type} [Fintype ι] {n : Fin 3 → ℕ} {h : nb ≤ nb'}
    {c : Coef ns nk nb n} {occ : Occ ns nk nb} {c' : Coef ns nk nb' n} {occ' : Occ ns nk nb'}
    (P : Padded h c occ c' occ') (psi : Fin nk → ι → Fin M → Idx n → ℂ) (vol : ℝ) :
    energyNonlocal c' psi vol (some occ') = energyNonlocal c psi vol (some occ) := by
  unfold energyNonlocal
  refine congrArg (fun z : ℂ => Except.ok z.re) (Finset.sum_congr rfl fun s _ => Finset.sum_congr rfl fun k _ =>
    sum_padded h _ _ (fun b => ?_) fun b hb => ?_)
  · rw [P.same]
    unfold hamiltonianNonlocal
    simp only [P.coef]
  · rw [P.empty s k b hb, Complex.ofReal_zero, mul_zero]

theorem Padded.totalEnergy {ns nk nb nb' na : ℕ} {n : Fin 3 → ℕ} {h : nb ≤ nb'} {c : Coef ns nk nb n}
    {occ : Occ ns nk nb} {c' : Coef ns nk nb' n} {occ' : Occ ns nk nb'} (P : Padded h c occ c' occ') (lib : XcLib)
    (pos : Fin na → Fin 3 → ℝ) (charge : Fin na → ℝ) (g : Idx n → Fin 3 → ℝ) (kpts : Fin nk → Fin 3 → ℝ) (vol : ℝ)
    (xt : String) : totalEnergy lib c' pos charge g kpts vol (some occ') false xt
      = totalEnergy lib c pos charge g kpts vol (some occ) false xt := by
  unfold Jrystal.totalEnergy totalEnergySplit
  dsimp only [occOrOnes]
  have hG : waveToDensityReciprocal (waveGrid c' vol) occ' = waveToDensityReciprocal (waveGrid c vol) occ := by
    unfold waveToDensityReciprocal
    rw [waveToDensity_eq, waveToDensity_eq, P.density]
  rw [hG, waveToDensity_eq, waveToDensity_eq, P.density, P.kinetic]

theorem Padded.energyNC {ns nk nb nb' M : ℕ} {ι : Type} [Fintype ι] {n : Fin 3 → ℕ} {h : nb ≤ nb'}
    {c : Coef ns nk nb n} {occ : Occ ns nk nb} {c' : Coef ns nk nb' n} {occ' : Occ ns nk nb'}
    (P : Padded h c occ c' occ') (lib : XcLib) (xt : String) (vloc : Idx n → ℂ)
    (psi : Fin nk → ι → Fin M → Idx n → ℂ) (g : Idx n → Fin 3 → ℝ) (kpts : Fin nk → Fin 3 → ℝ) (vol e : ℝ)
    (he : Spec.EnergyNC lib xt vloc psi g kpts vol c occ e) : Spec.EnergyNC lib xt vloc psi g kpts vol c' occ' e := by
  obtain ⟨har, loc, nloc, exc, h1, h2, h3, h4, h5⟩ := he
  have hG : densityGridReciprocal c' vol occ' = densityGridReciprocal c vol occ := by
    unfold densityGridReciprocal
    rw [P.density]
  exact ⟨har, loc, nloc, exc, hG ▸ h1, hG ▸ h2, (P.nonlocal psi vol).trans h3, P.density vol ▸ h4,
    by rw [h5, P.kinetic]⟩

/-- More plane waves and more bands: a physical state can be continued. -/
theorem physical_padded {ns nk nb nb' : ℕ} {n : Fin 3 → ℕ} {mask mask' : Idx n → Bool} {ne spin : ℤ} {r : Bool}
    {share : ℝ} {c : Coef ns nk nb n} {occ : Occ ns nk nb} (hst : Spec.PhysicalState mask ne spin r share c occ)
    (hshare : 0 ≤ share) (hmask : ∀ x, mask x = true → mask' x = true) (h : nb ≤ nb')
    (hc : nb' ≤ Fintype.card {x // mask' x = true}) :
    ∃ c' occ', Padded h c occ c' occ' ∧ Spec.PhysicalState mask' ne spin r share c' occ' := by
  have hex : ∀ s k, ∃ c' : Fin nb' → Idx n → ℂ, (∀ b, c' (Fin.castLE h b) = c s k b) ∧
      (∀ i j, ∑ x, conj (c' i x) * c' j x = if i = j then 1 else 0) ∧ ∀ b x, mask' x = false → c' b x = 0 := by
    intro s k
    refine exists_more_orbitals mask' h hc (c s k) (hst.orthonormal s k) fun b x hx => hst.selected s k b x ?_
    cases hm : mask x
    · rfl
    · rw [hmask x hm] at hx
      cases hx
  choose c' h1 h2 h3 using hex
  have hP : Padded h c occ c' (fun s k b => if hb : (b : ℕ) < nb then occ s k ⟨b, hb⟩ else 0) := by
    refine ⟨h1, fun s k b => ?_, fun s k b hb => ?_⟩
    · have : ((Fin.castLE h b : Fin nb') : ℕ) < nb := by simp
      rw [dif_pos this]
      rfl
    · rw [dif_neg (by omega)]
  refine ⟨c', _, hP, h2, fun s k b x hx => h3 s k b x hx, hst.channels, fun s k b => ?_, fun s k b => ?_, ?_,
    fun s s' hs hs' => ?_⟩
  · split_ifs
    · exact hst.nonneg _ _ _
    · exact le_rfl
  · split_ifs
    · exact hst.pauli _ _ _
    · refine mul_nonneg hshare ?_
      unfold Spec.pauli
      split_ifs <;> norm_num
  · rw [← hst.electrons]
    exact Finset.sum_congr rfl fun s _ => Finset.sum_congr rfl fun k _ =>
      sum_padded h _ _ (hP.same s k) (hP.empty s k)
  · rw [← hst.polarisation s s' hs hs']
    congr 1
    · exact Finset.sum_congr rfl fun k _ => sum_padded h _ _ (hP.same s k) (hP.empty s k)
    · exact Finset.sum_congr rfl fun k _ => sum_padded h _ _ (hP.same s' k) (hP.empty s' k)

/-- The prescribed occupations of more bands are those of fewer bands with further, empty ones. -/
theorem Padded.given {ns nk nb nb' : ℕ} {n : Fin 3 → ℕ} {h : nb ≤ nb'} {c : Coef ns nk nb n} {occ : Occ ns nk nb}
    {c' : Coef ns nk nb' n} {occ' : Occ ns nk nb'} (P : Padded h c occ c' occ') {method : String} {ne spin : ℤ}
    (hfit : ne + |spin| ≤ 2 * nb) (hg : occ = Spec.givenOccupation method ne spin) :
    occ' = Spec.givenOccupation method ne spin := by
  funext s k b
  have h1 := le_abs_self spin
  have h2 := neg_abs_le spin
  by_cases hb : (b : ℕ) < nb
  · have := P.same s k ⟨b, hb⟩
    rw [show Fin.castLE h ⟨b, hb⟩ = b from rfl] at this
    rw [this, hg]
    rfl
  · rw [P.empty s k b (by omega)]
    unfold Spec.givenOccupation
    have u1 : ¬ ((b : ℕ) : ℤ) < (ne + spin) / 2 := by omega
    have u2 : ¬ ((b : ℕ) : ℤ) < (ne - spin) / 2 := by omega
    simp [u1, u2]

/-- The unrestricted state with the orbitals of a restricted state in both channels. -/
theorem physical_doubled {nk nb : ℕ} {n : Fin 3 → ℕ} {mask : Idx n → Bool} {ne spin : ℤ} {share : ℝ}
    {c : Coef 1 nk nb n} {occ : Occ 1 nk nb} (h : Spec.PhysicalState mask ne spin true share c occ) :
    Spec.PhysicalState (ns := 2) mask ne 0 false share (fun _ => c 0) (fun _ k b => occ 0 k b / 2) := by
  refine ⟨fun s k i j => h.orthonormal 0 k i j, fun s k b x hx => h.selected 0 k b x hx, rfl, fun s k b => ?_,
    fun s k b => ?_, ?_, fun s s' _ _ => by simp⟩
  · have := h.nonneg 0 k b
    positivity
  · have := h.pauli 0 k b
    simp only [Spec.pauli, if_true, Bool.false_eq_true, if_false] at this ⊢
    linarith
  · rw [← h.electrons, Fin.sum_univ_two, Fin.sum_univ_one]
    simp only [← Finset.sum_add_distrib, add_halves]

theorem given_doubled {nk nb : ℕ} {method : String} {ne : ℤ} {occ : Occ 1 nk nb}
    (h : occ = Spec.givenOccupation method ne 0) :
    (fun (_ : Fin 2) k b => occ 0 k b / 2) = Spec.givenOccupation method ne 0 := by
  funext s k b
  rw [h]
  unfold Spec.givenOccupation
  simp only [add_zero, sub_zero, if_true, Nat.reduceEqDiff, if_false, ite_self]
  ring

/-- The energy of the doubled state, with pseudopotentials. -/
theorem energyNC_doubled (lib : XcLib) (xt : String) (hl : Spec.UnpolarisedLimit lib xt) {nk nb M : ℕ} {ι : Type}
    [Fintype ι] {n : Fin 3 → ℕ} (vloc : Idx n → ℂ) (psi : Fin nk → ι → Fin M → Idx n → ℂ)
    (g : Idx n → Fin 3 → ℝ) (kpts : Fin nk → Fin 3 → ℝ) (vol : ℝ) (c : Coef 1 nk nb n) (occ : Occ 1 nk nb) (e : ℝ)
    (he : Spec.EnergyNC lib xt vloc psi g kpts vol c occ e) :
    Spec.EnergyNC (ns := 2) lib xt vloc psi g kpts vol (fun _ => c 0) (fun _ k b => occ 0 k b / 2) e := by
  obtain ⟨har, loc, nloc, exc, h1, h2, h3, h4, h5⟩ := he
  obtain ⟨hsplit, hdens⟩ := energies_restricted lib xt hl.lda hl.gga c (fun _ => c 0) occ
    (fun _ k b => occ 0 k b / 2) (fun _ => rfl) (fun _ _ _ => rfl) (na := 0) (fun i => i.elim0) (fun i => i.elim0) g
    kpts vol
  have hsum : ∀ x, ∑ s, densityGridReciprocal (ns := 2) (fun _ => c 0) vol (fun _ k b => occ 0 k b / 2) s x
      = ∑ s, densityGridReciprocal c vol occ s x := by
    intro x
    have : ∀ s, densityGrid (ns := 2) (fun _ => c 0) vol (fun _ k b => occ 0 k b / 2) s
        = fun j => densityGrid c vol occ 0 j / 2 := fun s => funext fun j => hdens s j
    unfold densityGridReciprocal
    rw [Fin.sum_univ_two, Fin.sum_univ_one, this, this]
    unfold fftn
    rw [← Finset.sum_add_distrib]
    refine Finset.sum_congr rfl fun j _ => ?_
    push_cast
    ring
  have hkin : kineticEnergyOcc (ns := 2) g kpts (fun _ => c 0) (fun _ k b => occ 0 k b / 2)
      = kineticEnergyOcc g kpts c occ := by
    unfold kineticEnergyOcc
    rw [Fin.sum_univ_two, Fin.sum_univ_one, ← Finset.sum_add_distrib]
    refine congrArg (· / 2) (Finset.sum_congr rfl fun k _ => ?_)
    rw [← Finset.sum_add_distrib]
    refine Finset.sum_congr rfl fun b _ => ?_
    ring
  refine ⟨har, loc, nloc, exc, ?_, ?_, ?_, ?_, by rw [h5, hkin]⟩
  · rw [← h1, hartreeEnergy_eq, hartreeEnergy_eq]
    simp only [hsum]
  · rw [← h2]
    unfold energyLocal
    rw [reciprocalBraket_one, reciprocalBraket_one]
    simp only [hsum]
  · rw [← h3]
    unfold energyNonlocal
    refine congrArg (fun z : ℂ => Except.ok z.re) ?_
    rw [Fin.sum_univ_two, Fin.sum_univ_one, ← Finset.sum_add_distrib]
    refine Finset.sum_congr rfl fun k _ => ?_
    rw [← Finset.sum_add_distrib]
    refine Finset.sum_congr rfl fun b _ => ?_
    unfold hamiltonianNonlocal
    push_cast
    ring
  · rw [← h4]
    have e1 : densityGrid (ns := 2) (fun _ => c 0) vol (fun _ k b => occ 0 k b / 2)
        = ![fun j => densityGrid c vol occ 0 j / 2, fun j => densityGrid c vol occ 0 j / 2] := by
      funext s j
      rw [hdens]
      fin_cases s <;> rfl
    have e2 : densityGrid c vol occ = fun _ : Fin 1 => fun j =>
        densityGrid c vol occ 0 j / 2 + densityGrid c vol occ 0 j / 2 := by
      funext s j
      rw [Subsingleton.elim s 0]
      ring
    rw [e1]
    conv_rhs => rw [e2]
    exact (xc_unpolarised_limit lib xt hl.lda hl.gga g _ vol).2

/-- A state that a calculation can report, with its energy. -/
structure Attained {ns nk nb : ℕ} {n : Fin 3 → ℕ} (mask : Idx n → Bool) (ne spin : ℤ) (restricted : Bool)
    (method : String) (energy : Coef ns nk nb n → Occ ns nk nb → ℝ → Prop) (c : Coef ns nk nb n)
    (occ : Occ ns nk nb) (e : ℝ) : Prop where
  physical : Spec.PhysicalState mask ne spin restricted (Spec.kShare method nk) c occ
  value : energy c occ e
  given : method = "uniform" ∨ method = "gamma" → occ = Spec.givenOccupation method ne spin

/-- What both drivers have in common: every calculation, whatever its optimiser, reports the energies of physical
states. -/
theorem run_attained {na nk ns empty : ℕ} {n : Fin 3 → ℕ} (hn : ∀ i, 0 < n i) (hk : 0 < nk)
    {O : Type*} {Y : Type} (E : GsEnv na nk n) (hv : 0 < E.vol)
    (draw : ∀ n m : ℕ, Matrix (Fin n) (Fin m) ℝ) (hns : ns = if E.restricted then 1 else 2)
    (hm : driverBands E.ne.toNat empty ≤ maskCount E.mask) (hp : Spec.Placeable E.method E.ne E.spin empty)
    (p0 : GsParams ns nk (maskCount E.mask) (driverBands E.ne.toNat empty)) (o0 : O)
    (hinit : occParamInit draw (driverBands E.ne.toNat empty) E.ne nk E.spin E.method E.restricted = .ok p0.occ)
    (ew : ℝ)
    (energy : Coef ns nk (min (maskCount E.mask) (driverBands E.ne.toNat empty)) n →
      Occ ns nk (min (maskCount E.mask) (driverBands E.ne.toNat empty)) → ℝ → Prop)
    (total : GsParams ns nk (maskCount E.mask) (driverBands E.ne.toNat empty) → Except PyErr ℝ)
    (htot : ∀ p c occ v, gsState E p = .ok ⟨ns, min (maskCount E.mask) (driverBands E.ne.toNat empty), c, occ⟩ →
      total p = .ok v → energy c occ v)
    (parts : GsParams ns nk (maskCount E.mask) (driverBands E.ne.toNat empty) → Except PyErr Y)
    (htotal : ∀ p o, occupation E.qrR p.occ E.ne E.spin E.method E.restricted = .ok o →
      o.length = ns → ∃ v, total p = .ok v)
    (hparts : ∀ p o, occupation E.qrR p.occ E.ne E.spin E.method E.restricted = .ok o →
      o.length = ns → ∃ v, parts p = .ok v)
    (sum : Y → ℝ) (hsum : ∀ p y, parts p = .ok y → total p = .ok (sum y))
    (upd : GsParams ns nk (maskCount E.mask) (driverBands E.ne.toNat empty) × O → ℝ →
      GsParams ns nk (maskCount E.mask) (driverBands E.ne.toNat empty) × O)
    (hupd : ∀ p t, Spec.KeepsShape p.1.occ (upd p t).1.occ)
    (epoch : ℤ) (he : 0 < epoch) (smearing : ℝ) (window : ℤ) (th : ℝ) :
    ∃ rep, gsRun (gsDensity E) total parts ew upd epoch smearing window th (p0, o0) = .ok rep ∧
      (∃ c occ, Attained E.mask E.ne E.spin E.restricted E.method energy c occ (sum rep.parts)) ∧
      ∃ c occ, Attained E.mask E.ne E.spin E.restricted E.method energy c occ (rep.total - rep.repulsion) := by
  obtain ⟨rep, h1, -, h3, j, v, h4, h5, -, h7, -⟩ := gsRun_spec hn hk E hv draw hns hm hp p0 o0 hinit ew
    total parts htotal hparts upd hupd epoch he smearing window th
  have key : ∀ i v, total (Spec.trajectory upd (temperature smearing epoch) (p0, o0) i).1 = .ok v →
      ∃ c occ, Attained E.mask E.ne E.spin E.restricted E.method energy c occ v := by
    intro i v hval
    have hkeep := trajectory_keeps upd hupd (temperature smearing epoch) (p0, o0) i
    obtain ⟨occ, k1, k2, -, -⟩ := state_entropy hk E draw hns hm hp p0.occ hinit _ hkeep
    exact ⟨_, occ, k1, htot _ _ occ v k2 hval,
      fun hfix => state_given E draw hns hm hp p0.occ hinit _ hkeep hfix _ occ k2⟩
  refine ⟨rep, h1, key _ _ (hsum _ _ h7), ?_⟩
  rw [h5, h3, add_sub_cancel_right]
  exact key j v h4

/-- A state that a calculation can report is not below the ground state of a calculation with more plane waves,
more bands or freer occupations. -/
theorem ground_below {ns nk nb nb' : ℕ} {n : Fin 3 → ℕ} {mask mask' : Idx n → Bool} {ne spin : ℤ} {r : Bool}
    {method method' : String} {ε eps : ℝ} {energy : Coef ns nk nb n → Occ ns nk nb → ℝ → Prop}
    {energy' : Coef ns nk nb' n → Occ ns nk nb' → ℝ → Prop} (h : nb ≤ nb')
    (henergy : ∀ c occ c' occ' e, Padded h c occ c' occ' → energy c occ e → energy' c' occ' e)
    (hmask : ∀ x, mask x = true → mask' x = true) (hc : nb' ≤ Fintype.card {x // mask' x = true})
    (hmethod : method' = method ∨ method' = "idempotent" ∨ method' = "simplex-projector")
    (hg : method = "gamma" → nk = 1) (hfit : method = "uniform" ∨ method = "gamma" → ne + |spin| ≤ 2 * nb)
    {c : Coef ns nk nb n} {occ : Occ ns nk nb} {e : ℝ} (hatt : Attained mask ne spin r method energy c occ e)
    {c' : Coef ns nk nb' n} {occ' : Occ ns nk nb'} {e' : ℝ}
    (hgr : Spec.GroundWithin ε 0 eps mask' ne spin r method' energy' c' occ' e') : e' ≤ e + ε := by
  have hshare : Spec.kShare method nk = 1 / nk := by
    unfold Spec.kShare
    split_ifs with hm
    · rw [hg hm]; norm_num
    · rfl
  have hshare' : Spec.kShare method' nk = 1 / nk := by
    rcases hmethod with rfl | rfl | rfl
    · exact hshare
    · rfl
    · rfl
  obtain ⟨c1, occ1, hP, hst⟩ := physical_padded hatt.physical (by rw [hshare]; positivity) hmask h hc
  rw [hshare, ← hshare'] at hst
  have := hgr.least c1 occ1 e hst (fun hfix => ?_) (henergy _ _ _ _ _ hP hatt.value)
  · simpa using this
  · rw [hgr.given hfix]
    rcases hmethod with rfl | rfl | rfl
    · exact hP.given (hfit hfix) (hatt.given hfix)
    · exact absurd hfix (by decide)
    · exact absurd hfix (by decide)

/-- The doubled state can be reported by an unrestricted calculation. -/
theorem Attained.doubled {nk nb : ℕ} {n : Fin 3 → ℕ} {mask : Idx n → Bool} {ne : ℤ} {method : String}
    {energy : Coef 1 nk nb n → Occ 1 nk nb → ℝ → Prop} {energy' : Coef 2 nk nb n → Occ 2 nk nb → ℝ → Prop}
    {c : Coef 1 nk nb n} {occ : Occ 1 nk nb} {e : ℝ} (h : Attained mask ne 0 true method energy c occ e)
    (he : energy c occ e → energy' (fun _ => c 0) (fun _ k b => occ 0 k b / 2) e) :
    Attained mask ne 0 false method energy' (fun _ => c 0) (fun _ k b => occ 0 k b / 2) e :=
  ⟨physical_doubled h.physical, he h.value, fun hfix => given_doubled (h.given hfix)⟩

end Jrystal
