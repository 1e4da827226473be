import Verif.Model.Driver
import Verif.Spec.Driver
import Verif.Props.Occupation
import Verif.Props.Planewave
import Verif.Props.Energy
import Verif.Props.Ewald
import Verif.Lemmas.Xc
import Verif.Props.Convergence
import Verif.Props.Grid

/- C66–C70: the ground-state and band drivers from end to end. -/
namespace Jrystal
open scoped BigOperators ComplexConjugate

private theorem bcCoef_self {ns nk nb : ℕ} {n : Fin 3 → ℕ} (c : Coef ns nk nb n) :
    bcCoef ns nb c = c := by
  funext s k b
  unfold bcCoef
  rw [bcIdx_self, bcIdx_self]

private theorem bcLen_self (a : ℕ) : bcLen a a = .ok a := by
  unfold bcLen
  rw [if_pos rfl]

theorem gsState_eq {na nk ns nb : ℕ} {n : Fin 3 → ℕ} (E : GsEnv na nk n)
    (p : GsParams ns nk (maskCount E.mask) nb) (o : OccArr nk nb ℝ)
    (ho : occupation E.qrR p.occ E.ne E.spin E.method E.restricted = .ok o) (hl : o.length = ns)
    (hm : nb ≤ maskCount E.mask) (occ : Occ ns nk (min (maskCount E.mask) nb))
    (hocc : ∀ s k b, occ s k b = o.get (Fin.cast hl.symm s) k (Fin.castLE (min_le_right _ _) b)) :
    gsState E p = .ok ⟨ns, min (maskCount E.mask) nb, pwCoeff E.qrC E.mask p.pw, occ⟩ := by
  have hb : bcOcc ns (min (maskCount E.mask) nb) o = occ := by
    funext s k b
    rw [hocc]
    unfold bcOcc
    have e1 : bcIdx o.length (s : ℕ) = some (Fin.cast hl.symm s) := bcIdx_self (Fin.cast hl.symm s)
    have e2 : bcIdx nb (b : ℕ) = some (Fin.castLE (min_le_right _ _) b) :=
      bcIdx_self (Fin.castLE (min_le_right (maskCount E.mask) nb) b)
    rw [e1, e2]
  unfold gsState
  rw [ho]
  simp only
  have h1 : bcLen ns o.length = .ok ns := by rw [hl, bcLen_self]
  have h2 : bcLen (min (maskCount E.mask) nb) nb = .ok (min (maskCount E.mask) nb) := by
    unfold bcLen
    rw [if_pos (min_eq_right hm)]
  rw [h1, h2]
  simp only
  rw [hb, bcCoef_self]

/-! ### C66 -/

/-- C66: the energy minimised by the all-electron driver is `total_energy` of the same coefficients and
occupations: for all parameters, whenever the occupation has the driver's number of spin channels and
the mask holds at least as many plane waves as there are bands. -/
theorem driver_objective_partial {na nk ns nb : ℕ} {n : Fin 3 → ℕ} (E : GsEnv na nk n)
    (p : GsParams ns nk (maskCount E.mask) nb) (o : OccArr nk nb ℝ)
    (ho : occupation E.qrR p.occ E.ne E.spin E.method E.restricted = .ok o) (hl : o.length = ns)
    (hm : nb ≤ maskCount E.mask) (occ : Occ ns nk (min (maskCount E.mask) nb))
    (hocc : ∀ s k b, occ s k b = o.get (Fin.cast hl.symm s) k (Fin.castLE (min_le_right _ _) b)) :
    gsTotal E p = totalEnergy E.lib (pwCoeff E.qrC E.mask p.pw) E.pos E.charge E.g E.kpts E.vol
      (some occ) false E.xc := by
  unfold gsTotal gsParts
  rw [gsState_eq E p o ho hl hm occ hocc]
  unfold totalEnergy totalEnergySplit
  simp only [occOrOnes]
  obtain ⟨h, hh⟩ : ∃ h, hartreeEnergy (densityGridReciprocal (pwCoeff E.qrC E.mask p.pw) E.vol occ)
      E.g E.vol false = .ok h := ⟨_, hartreeEnergy_eq _ _ _ _⟩
  obtain ⟨x, hx⟩ : ∃ x, externalEnergy (densityGridReciprocal (pwCoeff E.qrC E.mask p.pw) E.vol occ)
      E.pos E.charge E.g E.vol = .ok x := ⟨_, externalEnergy_eq _ _ _ _ _⟩
  rw [waveToDensity_eq, waveToDensityReciprocal_eq]
  simp only [hh, hx]
  cases xcEnergy E.lib E.xc false (densityGrid (pwCoeff E.qrC E.mask p.pw) E.vol occ) E.g E.vol with
  | error e => rfl
  | ok y =>
    simp only
    congr 1
    ring

/-- C66: what the optimiser differentiates at temperature `t` is the total energy minus `t` times the
entropy of the occupations in use, each state holding at most `(3 - spins) / nk` electrons; the total
energy and the entropy are returned beside it. -/
theorem driver_free_energy_partial {na nk ns nb : ℕ} {n : Fin 3 → ℕ} (E : GsEnv na nk n) (t : ℝ)
    (p : GsParams ns nk (maskCount E.mask) nb) (o : OccArr nk nb ℝ)
    (ho : occupation E.qrR p.occ E.ne E.spin E.method E.restricted = .ok o) (hl : o.length = ns)
    (hm : nb ≤ maskCount E.mask) (occ : Occ ns nk (min (maskCount E.mask) nb))
    (hocc : ∀ s k b, occ s k b = o.get (Fin.cast hl.symm s) k (Fin.castLE (min_le_right _ _) b))
    (top : ℝ) (htop : top = (3 - (ns : ℝ)) / nk) (S : ℝ)
    (hS : S = -∑ s, ∑ k, ∑ b, (occ s k b * Real.log (E.eps + occ s k b) +
      (top - occ s k b) * Real.log (E.eps + top - occ s k b))) (e : ℝ)
    (he : totalEnergy E.lib (pwCoeff E.qrC E.mask p.pw) E.pos E.charge E.g E.kpts E.vol (some occ) false
      E.xc = .ok e) :
    gsFree E t p = .ok (e - t * S, e, S) := by
  subst hl
  have hent : gsEntropy E p = .ok S := by
    unfold gsEntropy
    rw [ho, hS, htop]
    unfold fermiDirac
    refine congrArg (fun x : ℝ => Except.ok (-x)) ?_
    refine Finset.sum_congr rfl fun s _ => Finset.sum_congr rfl fun k _ => ?_
    refine (Fintype.sum_equiv (finCongr (min_eq_right hm)) _ _ fun b => ?_).symm
    rw [hocc]
    rfl
  unfold gsFree
  rw [driver_objective_partial E p o ho rfl hm occ hocc, he, hent]

/-! ### C67 -/

theorem keeps_trans {nk nb : ℕ} {a b c : OccParams nk nb} (h : Spec.KeepsShape a b)
    (h' : Spec.KeepsShape b c) : Spec.KeepsShape a c := by
  cases a <;> cases b <;> cases c <;> simp_all [Spec.KeepsShape]

theorem keeps_refl {nk nb : ℕ} (a : OccParams nk nb) : Spec.KeepsShape a a := by
  cases a <;> simp [Spec.KeepsShape]

theorem pair_split {a b x y : ℝ} (h1 : a + b = x) (h2 : a - b = y) :
    a = (x + y) / 2 ∧ b = (x - y) / 2 := ⟨by linarith, by linarith⟩

/-- C67, occupations: at every point of a training run started by the all-electron driver, for each
placeable configuration, the occupations are non-negative and within the Pauli limit, and every spin
channel holds its electrons. -/
theorem trained_occupation_partial (qr : QR ℝ) (draw : ∀ n m : ℕ, Matrix (Fin n) (Fin m) ℝ)
    {nk empty : ℕ} (hk : 0 < nk) (ne spin : ℤ) (method : String) (r : Bool)
    (hp : Spec.Placeable method ne spin empty)
    (q0 q : OccParams nk (driverBands ne.toNat empty))
    (h0 : occParamInit draw (driverBands ne.toNat empty) ne nk spin method r = .ok q0)
    (hq : Spec.KeepsShape q0 q) :
    ∃ o, occupation qr q ne spin method r = .ok o ∧ 
      (∀ a ∈ o, ∀ k b, 0 ≤ a k b ∧ a k b ≤ Spec.kShare method nk * Spec.pauli r) ∧
      o.map (fun a => ∑ k, ∑ b, a k b)
        = if r then [(ne : ℝ)] else [((ne : ℝ) + spin) / 2, ((ne : ℝ) - spin) / 2] := by
  obtain ⟨hpar, hp⟩ := hp
  have hkR : (0 : ℝ) < nk := by exact_mod_cast hk
  rcases hp with ⟨hm, h1, h2⟩ | ⟨hm, h1, h2⟩ | ⟨hm, h1, h2⟩
  · have hb : ne + |spin| ≤ 2 * (driverBands ne.toNat empty : ℕ) := by
      have := abs_nonneg spin
      unfold driverBands; push_cast; omega
    have key : ∀ (a : Bool → OccArr nk (driverBands ne.toNat empty) ℝ) (u d), a false = [u, d] →
        a true = [fun k b => u k b + d k b] → (∀ k b, 0 ≤ u k b ∧ u k b ≤ Spec.kShare method nk) →
        (∀ k b, 0 ≤ d k b ∧ d k b ≤ Spec.kShare method nk) →
        (∑ k, ∑ b, u k b) + (∑ k, ∑ b, d k b) = ne → (∑ k, ∑ b, u k b) - (∑ k, ∑ b, d k b) = spin →
        (∀ x ∈ a r, ∀ k b, 0 ≤ x k b ∧ x k b ≤ Spec.kShare method nk * Spec.pauli r) ∧ (a r).map (fun a => ∑ k, ∑ b, a k b)
          = if r then [(ne : ℝ)] else [((ne : ℝ) + spin) / 2, ((ne : ℝ) - spin) / 2] := by
      intro a u d ha ha' hu hd ht hs
      obtain ⟨e1, e2⟩ := pair_split ht hs
      cases r
      · rw [ha]
        refine ⟨fun x hx => ?_, ?_⟩
        · simp only [List.mem_cons, List.not_mem_nil, or_false] at hx
          rcases hx with rfl | rfl
          exacts [by simpa [Spec.pauli] using hu, by simpa [Spec.pauli] using hd]
        · simp [e1, e2]
      · rw [ha']
        refine ⟨fun x hx k b => ?_, ?_⟩
        · simp only [List.mem_cons, List.not_mem_nil, or_false] at hx
          rw [hx, Spec.pauli, if_pos rfl]
          exact ⟨add_nonneg (hu k b).1 (hd k b).1, by linarith [(hu k b).2, (hd k b).2]⟩
        · simp [Finset.sum_add_distrib, ht]
    rcases hm with rfl | rfl
    · have e : q0 = .arr (uniformOcc nk ne spin (some (driverBands ne.toNat empty)) r) := by
        simpa [occParamInit, eq_comm] using h0
      subst e
      cases q with
      | idem => cases hq
      | simplex => cases hq
      | arr o =>
        have hq' : o = _ := hq
        refine ⟨o, by simp [occupation], ?_⟩
        obtain ⟨u, d, he, hu, hd, -, ht, hs⟩ :=
          uniform_conserves_partial (nb := driverBands ne.toNat empty) hk ne spin hpar h1 hb
        rw [hq']
        exact key (fun r => uniformOcc nk ne spin (some (driverBands ne.toNat empty)) r) u d he
          (uniform_restricted _ _ _ _ _ _ he)
          (fun k b => by
            rw [show Spec.kShare "uniform" nk = 1 / nk by simp [Spec.kShare]]
            rcases hu k b with h | h <;> rw [h]
            exacts [⟨le_rfl, by positivity⟩, ⟨by positivity, le_rfl⟩])
          (fun k b => by
            rw [show Spec.kShare "uniform" nk = 1 / nk by simp [Spec.kShare]]
            rcases hd k b with h | h <;> rw [h]
            exacts [⟨le_rfl, by positivity⟩, ⟨by positivity, le_rfl⟩]) ht hs
    · have e : q0 = .arr (gammaOcc nk ne spin (some (driverBands ne.toNat empty)) r) := by
        simpa [occParamInit, eq_comm] using h0
      subst e
      cases q with
      | idem => cases hq
      | simplex => cases hq
      | arr o =>
        have hq' : o = _ := hq
        refine ⟨o, by simp [occupation], ?_⟩
        obtain ⟨u, d, he, hu, hd, -, ht, hs⟩ :=
          gamma_conserves_partial (nb := driverBands ne.toNat empty) hk ne spin hpar h1 hb
        rw [hq']
        exact key (fun r => gammaOcc nk ne spin (some (driverBands ne.toNat empty)) r) u d he
          (gamma_restricted _ _ _ _ _ _ he)
          (fun k b => by
            rw [show Spec.kShare "gamma" nk = 1 by simp [Spec.kShare]]
            rcases hu k b with h | h <;> rw [h] <;> norm_num)
          (fun k b => by
            rw [show Spec.kShare "gamma" nk = 1 by simp [Spec.kShare]]
            rcases hd k b with h | h <;> rw [h] <;> norm_num) ht hs
  · subst hm
    have hb : ne + |spin| < 2 * (driverBands ne.toNat empty : ℕ) := by
      have := abs_nonneg spin
      unfold driverBands; push_cast; omega
    have e : q0 = .simplex (simplexProjectorInit nk (driverBands ne.toNat empty))
        (simplexProjectorInit nk (driverBands ne.toNat empty)) := by
      simpa [occParamInit, eq_comm] using h0
    subst e
    cases q with
    | idem => cases hq
    | arr => cases hq
    | simplex up down =>
      refine ⟨simplexProjector up down ne spin r, by simp [occupation], ?_⟩
      cases r
      · obtain ⟨u, d, he, hu, hd, ht, hs⟩ :=
          simplexProjector_unrestricted_partial hk up down ne spin hpar h1 hb
        obtain ⟨e1, e2⟩ := pair_split ht hs
        rw [he]
        refine ⟨fun x hx => ?_, by simp [e1, e2]⟩
        simp only [List.mem_cons, List.not_mem_nil, or_false] at hx
        rcases hx with rfl | rfl
        exacts [by simpa [Spec.kShare, Spec.pauli] using hu, by simpa [Spec.kShare, Spec.pauli] using hd]
      · obtain ⟨u, he, hu, ht⟩ :=
          simplexProjector_restricted_partial hk up down ne spin hpar h1 hb
        rw [he]
        refine ⟨fun x hx => ?_, by simp [ht]⟩
        simp only [List.mem_cons, List.not_mem_nil, or_false] at hx
        subst hx
        rw [show Spec.kShare "simplex-projector" nk * Spec.pauli true = 2 / nk by
          simp [Spec.kShare, Spec.pauli]; ring]
        exact hu
  · subst hm h1
    have hin : occParamInit draw (driverBands ne.toNat empty) ne nk 0 "idempotent" r
        = (idempotentParamInit draw nk (driverBands ne.toNat empty) ne 0 true).map .idem := by
      simp [occParamInit]
    have h3 : ¬ ((ne + 0) / 2 < 0) := by omega
    rw [hin] at h0
    unfold idempotentParamInit checkSpinNumber at h0
    simp only [bind, Except.bind, hpar, h3, ne_eq, not_true, if_false, if_true, pure, Except.pure,
      Except.map] at h0
    injection h0 with h0
    subst h0
    cases q with
    | arr => cases hq
    | simplex => cases hq
    | idem p =>
      obtain ⟨hu, hd⟩ : p.mUp = _ ∧ p.mDown = _ := hq
      refine ⟨idempotentOcc qr p r, by simp [occupation], ?_⟩
      have c : ∀ m : ℕ, m = ((ne + 0) / 2 * nk).toNat →
          ((min (nk * driverBands ne.toNat empty) m : ℕ) : ℝ) = (ne : ℝ) / 2 * nk := by
        intro m hm
        have hle : (ne + 0) / 2 * nk ≤ (driverBands ne.toNat empty : ℕ) * (nk : ℤ) :=
          mul_le_mul_of_nonneg_right (by unfold driverBands; push_cast; omega) (by positivity)
        have hmn : 0 ≤ (ne + 0) / 2 * (nk : ℤ) := mul_nonneg (by omega) (by positivity)
        have e : ((min (nk * driverBands ne.toNat empty) m : ℕ) : ℤ) = (ne + 0) / 2 * nk := by
          rw [hm]
          push_cast
          rw [Int.toNat_of_nonneg hmn, min_eq_right]
          rw [mul_comm (nk : ℤ)]; exact hle
        have e' : ((min (nk * driverBands ne.toNat empty) m : ℕ) : ℝ) = (((ne + 0) / 2 * nk : ℤ) : ℝ) := by
          exact_mod_cast e
        have e2 : (ne : ℝ) = 2 * (((ne + 0) / 2 : ℤ) : ℝ) := by
          have : ne = 2 * ((ne + 0) / 2) := by omega
          exact_mod_cast this
        rw [e', e2]; push_cast; ring
      have s1 : ∑ k, ∑ b, idemChannel qr p.up k b = (ne : ℝ) / 2 * nk := by
        rw [idemChannel_sum qr p.up]; exact c _ hu
      have s2 : ∑ k, ∑ b, idemChannel qr p.down k b = (ne : ℝ) / 2 * nk := by
        rw [idemChannel_sum qr p.down]; exact c _ hd
      cases r
      · refine ⟨?_, ?_⟩
        · obtain ⟨u, d, he, hu, hd⟩ := idempotent_bounds_unrestricted qr p
          rw [he]
          intro x hx
          simp only [List.mem_cons, List.not_mem_nil, or_false] at hx
          rcases hx with rfl | rfl
          exacts [by simpa [Spec.kShare, Spec.pauli] using hu, by simpa [Spec.kShare, Spec.pauli] using hd]
        · simp only [idempotentOcc, Bool.false_eq_true, if_false, List.map_cons, List.map_nil,
            ← Finset.sum_div, s1, s2]
          congr 1
          · push_cast; field_simp; simp
          · congr 1; push_cast; field_simp; simp
      · refine ⟨?_, ?_⟩
        · obtain ⟨u, he, hu⟩ := idempotent_bounds_restricted qr p
          rw [he]
          intro x hx
          simp only [List.mem_cons, List.not_mem_nil, or_false] at hx
          subst hx
          rw [show Spec.kShare "idempotent" nk * Spec.pauli true = 2 / nk by
            simp [Spec.kShare, Spec.pauli]; ring]
          exact hu
        · simp only [idempotentOcc, if_true, List.map_cons, List.map_nil, ← Finset.sum_div,
            Finset.sum_add_distrib, s1, s2]
          congr 1
          field_simp
          ring

/-- Hypotheses met: silicon's 28 electrons with 2 unpaired ones, two empty bands, default method. -/
example : Spec.Placeable "simplex-projector" 28 2 2 := by
  refine ⟨by decide, Or.inr (Or.inl ⟨rfl, by decide, by decide⟩)⟩

private theorem sum_min {m nb : ℕ} (hm : nb ≤ m) (f : Fin nb → ℝ) :
    ∑ b : Fin (min m nb), f (Fin.castLE (min_le_right _ _) b) = ∑ b, f b :=
  Fintype.sum_equiv (finCongr (min_eq_right hm)) _ _ fun _ => rfl

private theorem gsDensity_spec {na nk ns nb : ℕ} {n : Fin 3 → ℕ} (hn : ∀ i, 0 < n i)
    (E : GsEnv na nk n) (hv : 0 < E.vol) (p : GsParams ns nk (maskCount E.mask) nb)
    (o : OccArr nk nb ℝ)
    (ho : occupation E.qrR p.occ E.ne E.spin E.method E.restricted = .ok o) (hl : o.length = ns)
    (hm : nb ≤ maskCount E.mask) :
    ∃ ρ : Fin ns → Idx n → ℝ, gsDensity E p = .ok ⟨ns, ρ⟩ ∧
      ((∀ a ∈ o, ∀ k b, 0 ≤ a k b) → ∀ s j, 0 ≤ ρ s j) ∧
      ∀ s, Spec.cellIntegral E.vol (ρ s) = ∑ k, ∑ b, o.get (Fin.cast hl.symm s) k b := by
  have hs := gsState_eq E p o ho hl hm
    (fun s k b => o.get (Fin.cast hl.symm s) k (Fin.castLE (min_le_right _ _) b)) fun _ _ _ => rfl
  refine ⟨densityGrid (pwCoeff E.qrC E.mask p.pw) E.vol
    (fun s k b => o.get (Fin.cast hl.symm s) k (Fin.castLE (min_le_right _ _) b)), ?_, ?_, ?_⟩
  · unfold gsDensity
    rw [hs]
  · intro h s j
    exact densityGrid_nonneg _ _ _ (fun s k b => h _ (List.get_mem _ _) k _) s j
  · intro s
    rw [densityGrid_integral E.qrC hn E.mask p.pw E.vol hv]
    exact Finset.sum_congr rfl fun k _ => sum_min hm (o.get (Fin.cast hl.symm s) k)

theorem gsParts_ok {na nk ns nb : ℕ} {n : Fin 3 → ℕ} (E : GsEnv na nk n)
    (p : GsParams ns nk (maskCount E.mask) nb) (o : OccArr nk nb ℝ)
    (ho : occupation E.qrR p.occ E.ne E.spin E.method E.restricted = .ok o) (hl : o.length = ns)
    (hm : nb ≤ maskCount E.mask) : ∃ q, gsParts E p = .ok q := by
  obtain ⟨occ, hocc⟩ : ∃ occ : Occ ns nk (min (maskCount E.mask) nb), ∀ s k b,
      occ s k b = o.get (Fin.cast hl.symm s) k (Fin.castLE (min_le_right _ _) b) :=
    ⟨fun _ _ _ => _, fun _ _ _ => rfl⟩
  obtain ⟨h, hh⟩ : ∃ h, hartreeEnergy (densityGridReciprocal (pwCoeff E.qrC E.mask p.pw) E.vol occ)
      E.g E.vol false = .ok h := ⟨_, hartreeEnergy_eq _ _ _ _⟩
  obtain ⟨x, hx⟩ : ∃ x, externalEnergy (densityGridReciprocal (pwCoeff E.qrC E.mask p.pw) E.vol occ)
      E.pos E.charge E.g E.vol = .ok x := ⟨_, externalEnergy_eq _ _ _ _ _⟩
  obtain ⟨y, hy⟩ : ∃ y, xcEnergy E.lib E.xc false
      (densityGrid (pwCoeff E.qrC E.mask p.pw) E.vol occ) E.g E.vol = .ok y :=
    ⟨_, xcEnergy_value _ _ _ _ _⟩
  unfold gsParts
  rw [gsState_eq E p o ho hl hm occ hocc]
  simp only [hh, hx, hy]
  exact ⟨_, rfl⟩

theorem gsPartsNC_ok {na nk ns nb M : ℕ} {ι : Type} [Fintype ι] {n : Fin 3 → ℕ}
    (E : GsEnv na nk n) (vloc : Idx n → ℂ) (psi : Fin nk → ι → Fin M → Idx n → ℂ)
    (p : GsParams ns nk (maskCount E.mask) nb) (o : OccArr nk nb ℝ)
    (ho : occupation E.qrR p.occ E.ne E.spin E.method E.restricted = .ok o) (hl : o.length = ns)
    (hm : nb ≤ maskCount E.mask) : ∃ q, gsPartsNC E vloc psi p = .ok q := by
  obtain ⟨occ, hocc⟩ : ∃ occ : Occ ns nk (min (maskCount E.mask) nb), ∀ s k b,
      occ s k b = o.get (Fin.cast hl.symm s) k (Fin.castLE (min_le_right _ _) b) :=
    ⟨fun _ _ _ => _, fun _ _ _ => rfl⟩
  obtain ⟨h, hh⟩ : ∃ h, hartreeEnergy (densityGridReciprocal (pwCoeff E.qrC E.mask p.pw) E.vol occ)
      E.g E.vol false = .ok h := ⟨_, hartreeEnergy_eq _ _ _ _⟩
  obtain ⟨x, hx⟩ : ∃ x, energyLocal (densityGridReciprocal (pwCoeff E.qrC E.mask p.pw) E.vol occ)
      vloc E.vol = .ok x := ⟨_, reciprocalBraket_one _ _ _⟩
  obtain ⟨y, hy⟩ : ∃ y, xcEnergy E.lib E.xc false
      (densityGrid (pwCoeff E.qrC E.mask p.pw) E.vol occ) E.g E.vol = .ok y :=
    ⟨_, xcEnergy_value _ _ _ _ _⟩
  unfold gsPartsNC
  rw [gsState_eq E p o ho hl hm occ hocc]
  simp only [hh, hx, hy, energyNonlocal]
  exact ⟨_, rfl⟩

theorem gsTotalNC_of_parts {na nk ns nb M : ℕ} {ι : Type} [Fintype ι] {n : Fin 3 → ℕ}
    (E : GsEnv na nk n) (vloc : Idx n → ℂ) (psi : Fin nk → ι → Fin M → Idx n → ℂ)
    (p : GsParams ns nk (maskCount E.mask) nb) (q : EnergyParts × ℝ) (h : gsPartsNC E vloc psi p = .ok q) :
    gsTotalNC E vloc psi p = .ok (q.1.kin + q.1.har + q.1.ext + q.2 + q.1.xc) := by
  unfold gsTotalNC
  rw [h]

theorem gsTotal_of_parts {na nk ns nb : ℕ} {n : Fin 3 → ℕ} (E : GsEnv na nk n)
    (p : GsParams ns nk (maskCount E.mask) nb) (q : EnergyParts) (h : gsParts E p = .ok q) :
    gsTotal E p = .ok (q.kin + q.har + q.ext + q.xc) := by
  unfold gsTotal
  rw [h]

/-- The loop under an invariant: it succeeds, ends in a state with the invariant, and after at least one
step the remembered energy is the one of the state before the last update. -/
theorem gsLoop_inv {P : Type*} (upd : P → ℝ → P) (energy : P → Except PyErr ℝ) (temp : ℕ → ℝ)
    (Inv : P → Prop) (hstep : ∀ p t, Inv p → Inv (upd p t)) (hok : ∀ p, Inv p → ∃ e, energy p = .ok e)
    (p0 : P) (k : ℕ) : ∀ (i : ℕ) (p : P) (chk : Checker) (e : Option ℝ), Inv p →
      p = Spec.trajectory upd temp p0 i →
      ∃ p' e', gsLoop upd energy temp k i p chk e = .ok (p', e') ∧ Inv p' ∧
        (k = 0 → e' = e ∧ p' = p) ∧
        (0 < k → ∃ j v, Inv (Spec.trajectory upd temp p0 j) ∧ i ≤ j ∧ j < i + k ∧
          energy (Spec.trajectory upd temp p0 j) = .ok v ∧ e' = some v ∧
          p' = Spec.trajectory upd temp p0 (j + 1)) := by
  induction k with
  | zero =>
    exact fun i p chk e hp _ => ⟨p, e, rfl, hp, fun _ => ⟨rfl, rfl⟩, fun h => absurd h (lt_irrefl _)⟩
  | succ k ih =>
    intro i p chk e hp ht
    have ht' : upd p (temp i) = Spec.trajectory upd temp p0 (i + 1) := by rw [ht]; rfl
    obtain ⟨v, hv⟩ := hok p hp
    unfold gsLoop
    rw [hv]
    simp only
    by_cases hc : (chk.check (some v)).2 = true
    · rw [if_pos hc]
      exact ⟨_, _, rfl, hstep _ _ hp, fun h => (by cases h),
        fun _ => ⟨i, v, ht ▸ hp, le_rfl, by omega, ht ▸ hv, rfl, ht'⟩⟩
    · rw [if_neg hc]
      obtain ⟨p', e', h1, h2, h3, h4⟩ := ih (i + 1) (upd p (temp i)) (chk.check (some v)).1 (some v)
        (hstep _ _ hp) ht'
      refine ⟨p', e', h1, h2, fun h => (by cases h), fun _ => ?_⟩
      rcases Nat.eq_zero_or_pos k with hk | hk
      · obtain ⟨he, hp'⟩ := h3 hk
        exact ⟨i, v, ht ▸ hp, le_rfl, by omega, ht ▸ hv, he, hp'.trans ht'⟩
      · obtain ⟨j, w, a1, a2, a3, a4, a5, a6⟩ := h4 hk
        exact ⟨j, w, a1, by omega, by omega, a4, a5, a6⟩

/-- The loop from its start: the remembered energy is the one before the last update, and with at least two
steps to make and a window of at least two values it makes at least two. -/
theorem gsLoop_first {P : Type*} (upd : P → ℝ → P) (energy : P → Except PyErr ℝ) (temp : ℕ → ℝ)
    (Inv : P → Prop) (hstep : ∀ p t, Inv p → Inv (upd p t)) (hok : ∀ p, Inv p → ∃ e, energy p = .ok e)
    (p0 : P) (k : ℕ) (hk : 0 < k) (window : ℤ) (th : ℝ) (h0 : Inv p0) :
    ∃ p' e' j v, gsLoop upd energy temp k 0 p0 (Checker.new window th) none = .ok (p', e') ∧ Inv p' ∧
      j < k ∧ (2 ≤ k → 2 ≤ window → 0 < j) ∧ energy (Spec.trajectory upd temp p0 j) = .ok v ∧ e' = some v ∧
      p' = Spec.trajectory upd temp p0 (j + 1) := by
  by_cases hw : 2 ≤ k ∧ 2 ≤ window
  · obtain ⟨k, rfl⟩ : ∃ l, k = l + 1 := ⟨k - 1, by omega⟩
    obtain ⟨v, hv⟩ := hok p0 h0
    have hc : ((Checker.new window th).check (some v)).2 = false := by
      have h1 : (Checker.new window th).push (some v) = [some v] := by
        unfold Checker.push Checker.new
        simp only [List.nil_append, List.length_singleton, Nat.cast_one]
        exact if_neg (by omega)
      unfold Checker.check
      simp only [h1, List.length_singleton, Nat.cast_one]
      rw [if_pos (show (1 : ℤ) < (Checker.new window th).windowSize by show (1 : ℤ) < window; omega)]
    obtain ⟨p', e', a1, a2, -, a4⟩ := gsLoop_inv upd energy temp Inv hstep hok p0 k 1 (upd p0 (temp 0))
      ((Checker.new window th).check (some v)).1 (some v) (hstep _ _ h0) rfl
    obtain ⟨j, w, -, b2, b3, b4, b5, b6⟩ := a4 (by omega)
    refine ⟨p', e', j, w, ?_, a2, by omega, fun _ _ => by omega, b4, b5, b6⟩
    unfold gsLoop
    rw [hv]
    simp only [hc, Bool.false_eq_true, if_false]
    exact a1
  · obtain ⟨p', e', a1, a2, -, a4⟩ := gsLoop_inv upd energy temp Inv hstep hok p0 k 0 p0
      (Checker.new window th) none h0 rfl
    obtain ⟨j, w, -, -, b3, b4, b5, b6⟩ := a4 hk
    exact ⟨p', e', j, w, a1, a2, by omega, fun h1 h2 => absurd ⟨h1, h2⟩ hw, b4, b5, b6⟩

theorem gsInit_occ {na nk ns empty : ℕ} {n : Fin 3 → ℕ} {E : GsEnv na nk n}
    {draw : ∀ n m : ℕ, Matrix (Fin n) (Fin m) ℝ}
    {pw0 : PwParams ns nk (maskCount E.mask) (driverBands E.ne.toNat empty)}
    {p0 : GsParams ns nk (maskCount E.mask) (driverBands E.ne.toNat empty)}
    (h : gsInit E draw pw0 = .ok p0) :
    occParamInit draw (driverBands E.ne.toNat empty) E.ne nk E.spin E.method E.restricted
      = .ok p0.occ := by
  unfold gsInit at h
  cases hq : occParamInit draw (driverBands E.ne.toNat empty) E.ne nk E.spin E.method E.restricted with
  | error e => rw [hq] at h; cases h
  | ok q =>
    rw [hq] at h
    injection h with h
    rw [← h]

/-- What both drivers have in common: with parameters from which every training step keeps placeable
occupations, and energies that are defined for them, the run succeeds with a correct density. -/
theorem gsRun_spec {na nk ns empty : ℕ} {n : Fin 3 → ℕ} (hn : ∀ i, 0 < n i) (hk : 0 < nk)
    {O : Type*} {Y : Type} (E : GsEnv na nk n) (hv : 0 < E.vol)
    (draw : ∀ n m : ℕ, Matrix (Fin n) (Fin m) ℝ) (hns : ns = if E.restricted then 1 else 2)
    (hm : driverBands E.ne.toNat empty ≤ maskCount E.mask)
    (hp : Spec.Placeable E.method E.ne E.spin empty)
    (p0 : GsParams ns nk (maskCount E.mask) (driverBands E.ne.toNat empty)) (o0 : O)
    (hinit : occParamInit draw (driverBands E.ne.toNat empty) E.ne nk E.spin E.method E.restricted
      = .ok p0.occ) (ew : ℝ)
    (total : GsParams ns nk (maskCount E.mask) (driverBands E.ne.toNat empty) → Except PyErr ℝ)
    (parts : GsParams ns nk (maskCount E.mask) (driverBands E.ne.toNat empty) → Except PyErr Y)
    (htotal : ∀ p o, occupation E.qrR p.occ E.ne E.spin E.method E.restricted = .ok o →
      o.length = ns → ∃ v, total p = .ok v)
    (hparts : ∀ p o, occupation E.qrR p.occ E.ne E.spin E.method E.restricted = .ok o →
      o.length = ns → ∃ v, parts p = .ok v)
    (upd : GsParams ns nk (maskCount E.mask) (driverBands E.ne.toNat empty) × O → ℝ →
      GsParams ns nk (maskCount E.mask) (driverBands E.ne.toNat empty) × O)
    (hupd : ∀ p t, Spec.KeepsShape p.1.occ (upd p t).1.occ)
    (epoch : ℤ) (he : 0 < epoch) (smearing : ℝ) (window : ℤ) (th : ℝ) :
    ∃ rep, gsRun (gsDensity E) total parts ew upd epoch smearing window th (p0, o0) = .ok rep ∧
      (rep.density.1 = (if E.restricted then 1 else 2) ∧
      (∀ s j, 0 ≤ rep.density.2 s j) ∧
      ∑ s, Spec.cellIntegral E.vol (rep.density.2 s) = E.ne ∧
      ∀ s s' : Fin rep.density.1, (s : ℕ) = 0 → (s' : ℕ) = 1 →
        Spec.cellIntegral E.vol (rep.density.2 s) - Spec.cellIntegral E.vol (rep.density.2 s')
          = E.spin) ∧
      rep.repulsion = ew ∧
      ∃ j v, total (Spec.trajectory upd (temperature smearing epoch) (p0, o0) j).1 = .ok v ∧
        rep.total = v + ew ∧ (j < epoch.toNat ∧ (2 ≤ epoch → 2 ≤ window → 0 < j)) ∧
        parts (Spec.trajectory upd (temperature smearing epoch) (p0, o0) (j + 1)).1 = .ok rep.parts ∧
        gsDensity E (Spec.trajectory upd (temperature smearing epoch) (p0, o0) (j + 1)).1
          = .ok rep.density := by
  have hocc : ∀ q, Spec.KeepsShape p0.occ q →
      ∃ o, occupation E.qrR q E.ne E.spin E.method E.restricted = .ok o ∧
        (∀ a ∈ o, ∀ k b, 0 ≤ a k b) ∧ o.map (fun a => ∑ k, ∑ b, a k b)
          = if E.restricted then [(E.ne : ℝ)]
            else [((E.ne : ℝ) + E.spin) / 2, ((E.ne : ℝ) - E.spin) / 2] := fun q hq => by
    obtain ⟨o, h1, h2, h3⟩ :=
      trained_occupation_partial E.qrR draw hk E.ne E.spin E.method E.restricted hp p0.occ q hinit hq
    exact ⟨o, h1, fun a ha k b => (h2 a ha k b).1, h3⟩
  have hlen : ∀ o : OccArr nk (driverBands E.ne.toNat empty) ℝ,
      o.map (fun a => ∑ k, ∑ b, a k b) = (if E.restricted then [(E.ne : ℝ)]
        else [((E.ne : ℝ) + E.spin) / 2, ((E.ne : ℝ) - E.spin) / 2]) → o.length = ns := by
    intro o h
    have := congrArg List.length h
    rw [List.length_map] at this
    rw [this, hns]
    cases E.restricted <;> rfl
  obtain ⟨p', e', j, v, hl, hinv, hj, hj2, hqv, hv', hp'⟩ := gsLoop_first upd (fun p => total p.1)
    (temperature smearing epoch) (fun p => Spec.KeepsShape p0.occ p.1.occ) (fun p t h => keeps_trans h (hupd p t))
    (fun p h => by
      obtain ⟨o, ho, -, hs⟩ := hocc _ h
      exact htotal p.1 o ho (hlen o hs))
    (p0, o0) epoch.toNat (by omega) window th (keeps_refl _)
  obtain ⟨o, ho, hnn, hs⟩ := hocc _ hinv
  obtain ⟨ρ, hρ, hpos, hint⟩ := gsDensity_spec hn E hv p'.1 o ho (hlen o hs) hm
  obtain ⟨q, hq⟩ := hparts p'.1 o ho (hlen o hs)
  refine ⟨⟨q, ew, v + ew, ⟨ns, ρ⟩⟩, ?_, ⟨hns, hpos hnn, ?_, ?_⟩, rfl, j, v, hqv, rfl,
    ⟨hj, fun h1 h2 => hj2 (by omega) h2⟩, ?_, ?_⟩
  · unfold gsRun
    rw [hl]
    simp only [hρ, hq, hv']
  · have hlo := hlen o hs
    subst hlo
    have : ∑ s : Fin o.length, Spec.cellIntegral E.vol (ρ s)
        = (o.map fun a => ∑ k, ∑ b, a k b).sum := by
      rw [← Fin.sum_univ_fun_getElem]
      exact Finset.sum_congr rfl fun s _ => hint s
    refine this.trans ?_
    rw [hs]
    cases E.restricted
    · simp; ring
    · simp
  · intro s s' e0 e1
    have hg : ∀ s : Fin ns, Spec.cellIntegral E.vol (ρ s)
        = (o.map fun a => ∑ k, ∑ b, a k b)[(s : ℕ)]'(by
            rw [List.length_map, hlen o hs]; exact s.2) := by
      intro s
      rw [hint s, List.getElem_map]
      rfl
    have g0 := hg s
    have g1 := hg s'
    have hr : E.restricted = false := by
      have h1 : (s' : ℕ) < ns := s'.2
      cases h : E.restricted
      · rfl
      · rw [h, if_pos rfl] at hns; omega
    simp only [hs, hr, e0, e1] at g0 g1
    change Spec.cellIntegral E.vol (ρ s) - Spec.cellIntegral E.vol (ρ s') = _
    rw [g0, g1]
    simp
    ring
  · rw [← hp']; exact hq
  · rw [← hp']; exact hρ

/-- C67: for every optimiser, every schedule, every starting point and every placeable configuration
whose mask holds at least as many plane waves as bands, the all-electron driver with `epoch > 0`
succeeds and returns a non-negative density with the documented number of spin channels which
integrates to the number of electrons; with two channels the polarisation is `spin`.  Missing:
configurations the occupation methods cannot place (see C18–C21) and fewer plane waves than bands. -/
theorem driver_density_partial {na nk ns empty : ℕ} {n : Fin 3 → ℕ} (hn : ∀ i, 0 < n i) (hk : 0 < nk)
    {O : Type*} (E : GsEnv na nk n) (hv : 0 < E.vol) (draw : ∀ n m : ℕ, Matrix (Fin n) (Fin m) ℝ)
    (hns : ns = if E.restricted then 1 else 2)
    (hm : driverBands E.ne.toNat empty ≤ maskCount E.mask)
    (hp : Spec.Placeable E.method E.ne E.spin empty)
    (pw0 : PwParams ns nk (maskCount E.mask) (driverBands E.ne.toNat empty))
    (p0 : GsParams ns nk (maskCount E.mask) (driverBands E.ne.toNat empty)) (o0 : O)
    (h0 : gsInit E draw pw0 = .ok p0) (ew : ℝ)
    (upd : GsParams ns nk (maskCount E.mask) (driverBands E.ne.toNat empty) × O → ℝ →
      GsParams ns nk (maskCount E.mask) (driverBands E.ne.toNat empty) × O)
    (hupd : ∀ p t, Spec.KeepsShape p.1.occ (upd p t).1.occ)
    (epoch : ℤ) (he : 0 < epoch) (smearing : ℝ) (window : ℤ) (th : ℝ) :
    ∃ rep, gsCalc E ew upd epoch smearing window th (p0, o0) = .ok rep ∧
      rep.density.1 = (if E.restricted then 1 else 2) ∧
      (∀ s j, 0 ≤ rep.density.2 s j) ∧
      ∑ s, Spec.cellIntegral E.vol (rep.density.2 s) = E.ne ∧
      ∀ s s' : Fin rep.density.1, (s : ℕ) = 0 → (s' : ℕ) = 1 →
        Spec.cellIntegral E.vol (rep.density.2 s) - Spec.cellIntegral E.vol (rep.density.2 s')
          = E.spin := by
  obtain ⟨rep, h1, h2, -⟩ := gsRun_spec hn hk E hv draw hns hm hp p0 o0 (gsInit_occ h0) ew (gsTotal E)
    (gsParts E) (fun p o ho hl => by
      obtain ⟨q, hq⟩ := gsParts_ok E p o ho hl hm
      exact ⟨_, gsTotal_of_parts E p q hq⟩) (fun p o ho hl => gsParts_ok E p o ho hl hm)
    upd hupd epoch he smearing window th
  exact ⟨rep, h1, h2⟩

theorem gsInitNC_occ {na nk ns empty : ℕ} {n : Fin 3 → ℕ} {E : GsEnv na nk n}
    {draw : ∀ n m : ℕ, Matrix (Fin n) (Fin m) ℝ}
    {pw0 : PwParams ns nk (maskCount E.mask) (driverBands E.ne.toNat empty)}
    {p0 : GsParams ns nk (maskCount E.mask) (driverBands E.ne.toNat empty)}
    (h : gsInitNC E draw pw0 = .ok p0) :
    occParamInit draw (driverBands E.ne.toNat empty) E.ne nk E.spin E.method true = .ok p0.occ := by
  unfold gsInitNC at h
  cases hq : occParamInit draw (driverBands E.ne.toNat empty) E.ne nk E.spin E.method true with
  | error e => rw [hq] at h; cases h
  | ok q =>
    rw [hq] at h
    injection h with h
    rw [← h]

/-- C67: the same for the norm-conserving driver with every local and nonlocal potential, except for
spin-unrestricted `uniform` and `gamma` occupations, where it fails (`driverNC_density_doubled`). -/
theorem driverNC_density_partial {na nk ns empty M : ℕ} {ι : Type} [Fintype ι] {n : Fin 3 → ℕ}
    (hn : ∀ i, 0 < n i) (hk : 0 < nk)
    {O : Type*} (E : GsEnv na nk n) (vloc : Idx n → ℂ) (psi : Fin nk → ι → Fin M → Idx n → ℂ)
    (hv : 0 < E.vol) (draw : ∀ n m : ℕ, Matrix (Fin n) (Fin m) ℝ)
    (hns : ns = if E.restricted then 1 else 2)
    (hm : driverBands E.ne.toNat empty ≤ maskCount E.mask)
    (hp : Spec.Placeable E.method E.ne E.spin empty)
    (hr : E.restricted = true ∨ (E.method ≠ "uniform" ∧ E.method ≠ "gamma"))
    (pw0 : PwParams ns nk (maskCount E.mask) (driverBands E.ne.toNat empty))
    (p0 : GsParams ns nk (maskCount E.mask) (driverBands E.ne.toNat empty)) (o0 : O)
    (h0 : gsInitNC E draw pw0 = .ok p0) (ew : ℝ)
    (upd : GsParams ns nk (maskCount E.mask) (driverBands E.ne.toNat empty) × O → ℝ →
      GsParams ns nk (maskCount E.mask) (driverBands E.ne.toNat empty) × O)
    (hupd : ∀ p t, Spec.KeepsShape p.1.occ (upd p t).1.occ)
    (epoch : ℤ) (he : 0 < epoch) (smearing : ℝ) (window : ℤ) (th : ℝ) :
    ∃ rep, gsCalcNC E vloc psi ew upd epoch smearing window th (p0, o0) = .ok rep ∧
      rep.density.1 = (if E.restricted then 1 else 2) ∧
      (∀ s j, 0 ≤ rep.density.2 s j) ∧
      ∑ s, Spec.cellIntegral E.vol (rep.density.2 s) = E.ne ∧
      ∀ s s' : Fin rep.density.1, (s : ℕ) = 0 → (s' : ℕ) = 1 →
        Spec.cellIntegral E.vol (rep.density.2 s) - Spec.cellIntegral E.vol (rep.density.2 s')
          = E.spin := by
  have hinit : occParamInit draw (driverBands E.ne.toNat empty) E.ne nk E.spin E.method E.restricted
      = .ok p0.occ := by
    rw [← gsInitNC_occ h0]
    rcases hr with hr | ⟨h1, h2⟩
    · rw [hr]
    · simp only [occParamInit, h1, h2, if_false]
  obtain ⟨rep, h1, h2, -⟩ := gsRun_spec hn hk E hv draw hns hm hp p0 o0 hinit ew
    (gsTotalNC E vloc psi) (gsPartsNC E vloc psi) (fun p o ho hl => by
      obtain ⟨q, hq⟩ := gsPartsNC_ok E vloc psi p o ho hl hm
      exact ⟨_, gsTotalNC_of_parts E vloc psi p q hq⟩)
    (fun p o ho hl => gsPartsNC_ok E vloc psi p o ho hl hm)
    upd hupd epoch he smearing window th
  exact ⟨rep, h1, h2⟩

/-- C67 is false for the norm-conserving driver with spin-unrestricted `uniform` or `gamma`
occupations: the single occupation channel is repeated for both spins and the density integrates to
twice the number of electrons, for every such configuration and all plane-wave parameters. -/
theorem driverNC_density_doubled {na nk empty : ℕ} {n : Fin 3 → ℕ} (hn : ∀ i, 0 < n i) (hk : 0 < nk)
    (E : GsEnv na nk n) (hv : 0 < E.vol) (draw : ∀ n m : ℕ, Matrix (Fin n) (Fin m) ℝ)
    (hm : driverBands E.ne.toNat empty ≤ maskCount E.mask)
    (hp : Spec.Placeable E.method E.ne E.spin empty)
    (hmeth : E.method = "uniform" ∨ E.method = "gamma")
    (pw : PwParams 2 nk (maskCount E.mask) (driverBands E.ne.toNat empty))
    (p0 : GsParams 2 nk (maskCount E.mask) (driverBands E.ne.toNat empty))
    (h0 : gsInitNC E draw pw = .ok p0) :
    ∃ ρ : Fin 2 → Idx n → ℝ, gsDensity E p0 = .ok ⟨2, ρ⟩ ∧
      ∑ s, Spec.cellIntegral E.vol (ρ s) = 2 * E.ne := by
  have hinit := gsInitNC_occ h0
  obtain ⟨o, ho, -, hs⟩ := trained_occupation_partial E.qrR draw hk E.ne E.spin E.method true hp
    p0.occ p0.occ hinit (keeps_refl _)
  have ho' : occupation E.qrR p0.occ E.ne E.spin E.method E.restricted = .ok o := by
    rw [← ho]
    rcases hmeth with h | h <;> rw [h] <;> simp [occupation]
  have hl : o.length = 1 := by
    have := congrArg List.length hs
    simpa using this
  obtain ⟨a, rfl⟩ := List.length_eq_one_iff.1 hl
  have hsa : ∑ k, ∑ b, a k b = (E.ne : ℝ) := by simpa using hs
  have hst : gsState E p0 = .ok ⟨2, min (maskCount E.mask) (driverBands E.ne.toNat empty),
      pwCoeff E.qrC E.mask p0.pw, fun _ k b => a k (Fin.castLE (min_le_right _ _) b)⟩ := by
    unfold gsState
    rw [ho']
    simp only
    have h1 : bcLen 2 [a].length = .ok 2 := by simp [bcLen]
    have h2 : bcLen (min (maskCount E.mask) (driverBands E.ne.toNat empty))
        (driverBands E.ne.toNat empty)
        = .ok (min (maskCount E.mask) (driverBands E.ne.toNat empty)) := by
      unfold bcLen
      rw [if_pos (min_eq_right hm)]
    rw [h1, h2]
    simp only
    rw [bcCoef_self]
    congr 5
    funext s k b
    unfold bcOcc
    have e2 : bcIdx (driverBands E.ne.toNat empty) (b : ℕ) = some (Fin.castLE (min_le_right _ _) b) :=
      bcIdx_self (Fin.castLE (min_le_right (maskCount E.mask) (driverBands E.ne.toNat empty)) b)
    rw [e2]
    have e1 : bcIdx [a].length (s : ℕ) = some 0 := by
      simp [bcIdx]
    rw [e1]
    rfl
  refine ⟨densityGrid (pwCoeff E.qrC E.mask p0.pw) E.vol
    (fun _ k b => a k (Fin.castLE (min_le_right _ _) b)), ?_, ?_⟩
  · unfold gsDensity
    rw [hst]
  · have : ∀ s, Spec.cellIntegral E.vol (densityGrid (pwCoeff E.qrC E.mask p0.pw) E.vol
        (fun _ k b => a k (Fin.castLE (min_le_right _ _) b)) s) = (E.ne : ℝ) := by
      intro s
      rw [densityGrid_integral E.qrC hn E.mask p0.pw E.vol hv, ← hsa]
      exact Finset.sum_congr rfl fun k _ => sum_min hm (a k)
    rw [Fin.sum_univ_two, this, this]
    ring

/-! ### C68 -/

/-- C68 (part): the logged components are those of the returned parameters, while the logged total is
the energy of the parameters before the last update plus the nuclear repulsion: the logged components
add up to the logged total exactly when the last update left the energy unchanged. -/
theorem driver_log_partial {na nk ns empty : ℕ} {n : Fin 3 → ℕ} (hn : ∀ i, 0 < n i) (hk : 0 < nk)
    {O : Type*} (E : GsEnv na nk n) (hv : 0 < E.vol) (draw : ∀ n m : ℕ, Matrix (Fin n) (Fin m) ℝ)
    (hns : ns = if E.restricted then 1 else 2)
    (hm : driverBands E.ne.toNat empty ≤ maskCount E.mask)
    (hp : Spec.Placeable E.method E.ne E.spin empty)
    (pw0 : PwParams ns nk (maskCount E.mask) (driverBands E.ne.toNat empty))
    (p0 : GsParams ns nk (maskCount E.mask) (driverBands E.ne.toNat empty)) (o0 : O)
    (h0 : gsInit E draw pw0 = .ok p0) (ew : ℝ)
    (upd : GsParams ns nk (maskCount E.mask) (driverBands E.ne.toNat empty) × O → ℝ →
      GsParams ns nk (maskCount E.mask) (driverBands E.ne.toNat empty) × O)
    (hupd : ∀ p t, Spec.KeepsShape p.1.occ (upd p t).1.occ)
    (epoch : ℤ) (he : 0 < epoch) (smearing : ℝ) (window : ℤ) (th : ℝ) :
    let traj := Spec.trajectory upd (temperature smearing epoch) (p0, o0)
    ∃ rep j, gsCalc E ew upd epoch smearing window th (p0, o0) = .ok rep ∧ j < epoch.toNat ∧
      rep.repulsion = ew ∧ gsParts E (traj (j + 1)).1 = .ok rep.parts ∧
      gsTotal E (traj j).1 = .ok (rep.total - ew) ∧
      (rep.total = rep.parts.kin + rep.parts.har + rep.parts.ext + rep.parts.xc + rep.repulsion ↔
        gsTotal E (traj j).1 = gsTotal E (traj (j + 1)).1) := by
  intro traj
  obtain ⟨rep, h1, -, h3, j, v, h4, h5, h6, h7, -⟩ := gsRun_spec hn hk E hv draw hns hm hp p0 o0
    (gsInit_occ h0) ew (gsTotal E) (gsParts E) (fun p o ho hl => by
      obtain ⟨q, hq⟩ := gsParts_ok E p o ho hl hm
      exact ⟨_, gsTotal_of_parts E p q hq⟩) (fun p o ho hl => gsParts_ok E p o ho hl hm)
    upd hupd epoch he smearing window th
  refine ⟨rep, j, h1, h6.1, h3, h7, ?_, ?_⟩
  · rw [h4, h5]; congr 1; ring
  · rw [h4, gsTotal_of_parts E _ _ h7, h3, h5]
    constructor
    · intro h; congr 1; linarith
    · intro h; injection h with h; linarith

theorem trajectory_keeps {na nk ns nb : ℕ} {n : Fin 3 → ℕ} {E : GsEnv na nk n} {O : Type*}
    (upd : GsParams ns nk (maskCount E.mask) nb × O → ℝ → GsParams ns nk (maskCount E.mask) nb × O)
    (hupd : ∀ p t, Spec.KeepsShape p.1.occ (upd p t).1.occ) (temp : ℕ → ℝ)
    (p0 : GsParams ns nk (maskCount E.mask) nb × O) (j : ℕ) :
    Spec.KeepsShape p0.1.occ (Spec.trajectory upd temp p0 j).1.occ := by
  induction j with
  | zero => exact keeps_refl _
  | succ j ih => exact keeps_trans ih (hupd _ _)

theorem state_of {na nk ns empty : ℕ} {n : Fin 3 → ℕ} (hk : 0 < nk) (E : GsEnv na nk n)
    (draw : ∀ n m : ℕ, Matrix (Fin n) (Fin m) ℝ) (hns : ns = if E.restricted then 1 else 2)
    (hm : driverBands E.ne.toNat empty ≤ maskCount E.mask) (hp : Spec.Placeable E.method E.ne E.spin empty)
    (q0 : OccParams nk (driverBands E.ne.toNat empty))
    (hinit : occParamInit draw (driverBands E.ne.toNat empty) E.ne nk E.spin E.method E.restricted = .ok q0)
    (p : GsParams ns nk (maskCount E.mask) (driverBands E.ne.toNat empty)) (hq : Spec.KeepsShape q0 p.occ) :
    ∃ occ : Occ ns nk (min (maskCount E.mask) (driverBands E.ne.toNat empty)),
      Spec.PhysicalState E.mask E.ne E.spin E.restricted (Spec.kShare E.method nk) (pwCoeff E.qrC E.mask p.pw) occ ∧
      gsTotal E p = totalEnergy E.lib (pwCoeff E.qrC E.mask p.pw) E.pos E.charge E.g E.kpts E.vol
        (some occ) false E.xc ∧
      gsDensity E p = .ok ⟨ns, densityGrid (pwCoeff E.qrC E.mask p.pw) E.vol occ⟩ ∧
      gsState E p = .ok ⟨ns, _, pwCoeff E.qrC E.mask p.pw, occ⟩ := by
  obtain ⟨o, ho, hnn, hs⟩ :=
    trained_occupation_partial E.qrR draw hk E.ne E.spin E.method E.restricted hp q0 p.occ hinit hq
  have hl : o.length = ns := by
    have := congrArg List.length hs
    rw [List.length_map] at this
    rw [this, hns]
    cases E.restricted <;> rfl
  obtain ⟨occ, hocc⟩ : ∃ occ : Occ ns nk (min (maskCount E.mask) (driverBands E.ne.toNat empty)), ∀ s k b,
      occ s k b = o.get (Fin.cast hl.symm s) k (Fin.castLE (min_le_right _ _) b) :=
    ⟨fun _ _ _ => _, fun _ _ _ => rfl⟩
  have hsum : ∀ s, ∑ k, ∑ b, occ s k b = (o.map fun a => ∑ k, ∑ b, a k b)[(s : ℕ)]'(by
      rw [List.length_map, hl]; exact s.2) := by
    intro s
    rw [List.getElem_map]
    refine Finset.sum_congr rfl fun k _ => ?_
    refine Fintype.sum_equiv (finCongr (min_eq_right hm)) _ _ fun b => ?_
    rw [hocc]
    rfl
  refine ⟨occ, ⟨fun s k => pwCoeff_orthonormal E.qrC E.mask p.pw s k, fun s k b x hx =>
    pwCoeff_support E.qrC E.mask p.pw s k b x hx, hns, fun s k b => ?_, fun s k b => ?_, ?_, ?_⟩,
    driver_objective_partial E p o ho hl hm occ hocc, ?_, gsState_eq E p o ho hl hm occ hocc⟩
  · rw [hocc]
    exact (hnn _ (List.get_mem _ _) _ _).1
  · rw [hocc]
    exact (hnn _ (List.get_mem _ _) _ _).2
  · have : ∑ s, ∑ k, ∑ b, occ s k b = (o.map fun a => ∑ k, ∑ b, a k b).sum := by
      subst hl
      rw [← Fin.sum_univ_fun_getElem]
      refine Finset.sum_congr rfl fun s _ => ?_
      rw [hsum, List.getElem_map]
    rw [this, hs]
    cases E.restricted
    · simp; ring
    · simp
  · intro s s' e0 e1
    have hr : E.restricted = false := by
      have h1 : (s' : ℕ) < ns := s'.2
      cases h : E.restricted
      · rfl
      · rw [h, if_pos rfl] at hns; omega
    rw [hsum, hsum]
    simp only [hs, hr, e0, e1]
    simp
    ring
  · unfold gsDensity
    rw [gsState_eq E p o ho hl hm occ hocc]

/-- The four energies of the driver are those of its state. -/
theorem gsParts_of_state {na nk ns nb S B : ℕ} {n : Fin 3 → ℕ} (E : GsEnv na nk n)
    (p : GsParams ns nk (maskCount E.mask) nb) (c : Coef S nk B n) (o : Occ S nk B)
    (h : gsState E p = .ok ⟨S, B, c, o⟩) :
    gsParts E p = totalEnergySplit E.lib c E.pos E.charge E.g E.kpts E.vol (some o) false E.xc := by
  unfold gsParts totalEnergySplit
  rw [h]
  simp only [occOrOnes]
  obtain ⟨h, hh⟩ : ∃ h, hartreeEnergy (densityGridReciprocal c E.vol o) E.g E.vol false = .ok h :=
    ⟨_, hartreeEnergy_eq _ _ _ _⟩
  obtain ⟨x, hx⟩ : ∃ x, externalEnergy (densityGridReciprocal c E.vol o) E.pos E.charge E.g E.vol = .ok x :=
    ⟨_, externalEnergy_eq _ _ _ _ _⟩
  rw [waveToDensity_eq, waveToDensityReciprocal_eq]
  simp only [hh, hx]
  cases xcEnergy E.lib E.xc false (densityGrid c E.vol o) E.g E.vol <;> rfl

/-- C67, C68: what the driver reports belongs to states that plane waves can describe: the total (without
the repulsion) is the total energy of one such state, the four components are the four energies of another (the
next one of the optimisation), and the density is that of the latter. -/
theorem driver_attained_partial {na nk ns empty : ℕ} {n : Fin 3 → ℕ} (hn : ∀ i, 0 < n i) (hk : 0 < nk)
    {O : Type*} (E : GsEnv na nk n) (hv : 0 < E.vol) (draw : ∀ n m : ℕ, Matrix (Fin n) (Fin m) ℝ)
    (hns : ns = if E.restricted then 1 else 2)
    (hm : driverBands E.ne.toNat empty ≤ maskCount E.mask)
    (hp : Spec.Placeable E.method E.ne E.spin empty)
    (pw0 : PwParams ns nk (maskCount E.mask) (driverBands E.ne.toNat empty))
    (p0 : GsParams ns nk (maskCount E.mask) (driverBands E.ne.toNat empty)) (o0 : O)
    (h0 : gsInit E draw pw0 = .ok p0) (ew : ℝ)
    (upd : GsParams ns nk (maskCount E.mask) (driverBands E.ne.toNat empty) × O → ℝ →
      GsParams ns nk (maskCount E.mask) (driverBands E.ne.toNat empty) × O)
    (hupd : ∀ p t, Spec.KeepsShape p.1.occ (upd p t).1.occ)
    (epoch : ℤ) (he : 0 < epoch) (smearing : ℝ) (window : ℤ) (th : ℝ) :
    ∃ rep, ∃ c c' : Coef ns nk (min (maskCount E.mask) (driverBands E.ne.toNat empty)) n, ∃ occ occ',
      gsCalc E ew upd epoch smearing window th (p0, o0) = .ok rep ∧ rep.repulsion = ew ∧
      Spec.PhysicalState E.mask E.ne E.spin E.restricted (Spec.kShare E.method nk) c occ ∧
      Spec.PhysicalState E.mask E.ne E.spin E.restricted (Spec.kShare E.method nk) c' occ' ∧
      totalEnergy E.lib c E.pos E.charge E.g E.kpts E.vol (some occ) false E.xc
        = .ok (rep.total - rep.repulsion) ∧
      totalEnergySplit E.lib c' E.pos E.charge E.g E.kpts E.vol (some occ') false E.xc = .ok rep.parts ∧
      rep.density = ⟨ns, densityGrid c' E.vol occ'⟩ := by
  obtain ⟨rep, h1, -, h3, j, v, h4, h5, h6, h7, h8⟩ := gsRun_spec hn hk E hv draw hns hm hp p0 o0
    (gsInit_occ h0) ew (gsTotal E) (gsParts E) (fun p o ho hl => by
      obtain ⟨q, hq⟩ := gsParts_ok E p o ho hl hm
      exact ⟨_, gsTotal_of_parts E p q hq⟩) (fun p o ho hl => gsParts_ok E p o ho hl hm)
    upd hupd epoch he smearing window th
  obtain ⟨occ, a1, a2, -⟩ := state_of hk E draw hns hm hp p0.occ (gsInit_occ h0) _
    (trajectory_keeps upd hupd (temperature smearing epoch) (p0, o0) j)
  obtain ⟨occ', b1, -, b3, b2⟩ := state_of hk E draw hns hm hp p0.occ (gsInit_occ h0) _
    (trajectory_keeps upd hupd (temperature smearing epoch) (p0, o0) (j + 1))
  refine ⟨rep, _, _, occ, occ', h1, h3, a1, b1, ?_, ?_, ?_⟩
  · rw [← a2, h4, h5, h3, add_sub_cancel_right]
  · exact (gsParts_of_state E _ _ _ b2).symm.trans h7
  · rw [h8] at b3
    injection b3

theorem partsNC_of_state {na nk ns nb M S B : ℕ} {ι : Type} [Fintype ι] {n : Fin 3 → ℕ}
    (E : GsEnv na nk n) (vloc : Idx n → ℂ) (psi : Fin nk → ι → Fin M → Idx n → ℂ)
    (p : GsParams ns nk (maskCount E.mask) nb) (c : Coef S nk B n) (o : Occ S nk B)
    (h : gsState E p = .ok ⟨S, B, c, o⟩) (q : EnergyParts × ℝ) (hq : gsPartsNC E vloc psi p = .ok q) :
    q.1.kin = kineticEnergyOcc E.g E.kpts c o ∧
    hartreeEnergy (densityGridReciprocal c E.vol o) E.g E.vol false = .ok q.1.har ∧
    energyLocal (densityGridReciprocal c E.vol o) vloc E.vol = .ok q.1.ext ∧
    energyNonlocal c psi E.vol (some o) = .ok q.2 ∧
    xcEnergy E.lib E.xc false (densityGrid c E.vol o) E.g E.vol = .ok q.1.xc := by
  unfold gsPartsNC at hq
  rw [h] at hq
  simp only at hq
  cases h1 : hartreeEnergy (densityGridReciprocal c E.vol o) E.g E.vol false with
  | error e => rw [h1] at hq; cases hq
  | ok har =>
    rw [h1] at hq
    simp only at hq
    cases h2 : energyLocal (densityGridReciprocal c E.vol o) vloc E.vol with
    | error e => rw [h2] at hq; cases hq
    | ok loc =>
      rw [h2] at hq
      simp only at hq
      cases h3 : energyNonlocal c psi E.vol (some o) with
      | error e => rw [h3] at hq; cases hq
      | ok nloc =>
        rw [h3] at hq
        simp only at hq
        cases h4 : xcEnergy E.lib E.xc false (densityGrid c E.vol o) E.g E.vol with
        | error e => rw [h4] at hq; cases hq
        | ok exc =>
          rw [h4] at hq
          injection hq with hq
          subst hq
          exact ⟨rfl, rfl, rfl, rfl, rfl⟩

/-- C67, C68: the same for the norm-conserving driver: the total (without the repulsion) is the sum of the
five energies of one physical state; the five components and the density are those of another. -/
theorem driverNC_attained_partial {na nk ns empty M : ℕ} {ι : Type} [Fintype ι] {n : Fin 3 → ℕ}
    (hn : ∀ i, 0 < n i) (hk : 0 < nk) {O : Type*} (E : GsEnv na nk n) (vloc : Idx n → ℂ)
    (psi : Fin nk → ι → Fin M → Idx n → ℂ) (hv : 0 < E.vol) (draw : ∀ n m : ℕ, Matrix (Fin n) (Fin m) ℝ)
    (hns : ns = if E.restricted then 1 else 2)
    (hm : driverBands E.ne.toNat empty ≤ maskCount E.mask)
    (hp : Spec.Placeable E.method E.ne E.spin empty)
    (hr : E.restricted = true ∨ (E.method ≠ "uniform" ∧ E.method ≠ "gamma"))
    (pw0 : PwParams ns nk (maskCount E.mask) (driverBands E.ne.toNat empty))
    (p0 : GsParams ns nk (maskCount E.mask) (driverBands E.ne.toNat empty)) (o0 : O)
    (h0 : gsInitNC E draw pw0 = .ok p0) (ew : ℝ)
    (upd : GsParams ns nk (maskCount E.mask) (driverBands E.ne.toNat empty) × O → ℝ →
      GsParams ns nk (maskCount E.mask) (driverBands E.ne.toNat empty) × O)
    (hupd : ∀ p t, Spec.KeepsShape p.1.occ (upd p t).1.occ)
    (epoch : ℤ) (he : 0 < epoch) (smearing : ℝ) (window : ℤ) (th : ℝ) :
    ∃ rep, ∃ c c' : Coef ns nk (min (maskCount E.mask) (driverBands E.ne.toNat empty)) n, ∃ occ occ',
      gsCalcNC E vloc psi ew upd epoch smearing window th (p0, o0) = .ok rep ∧ rep.repulsion = ew ∧
      Spec.PhysicalState E.mask E.ne E.spin E.restricted (Spec.kShare E.method nk) c occ ∧
      Spec.PhysicalState E.mask E.ne E.spin E.restricted (Spec.kShare E.method nk) c' occ' ∧
      (∃ har loc nloc exc, hartreeEnergy (densityGridReciprocal c E.vol occ) E.g E.vol false = .ok har ∧
        energyLocal (densityGridReciprocal c E.vol occ) vloc E.vol = .ok loc ∧
        energyNonlocal c psi E.vol (some occ) = .ok nloc ∧
        xcEnergy E.lib E.xc false (densityGrid c E.vol occ) E.g E.vol = .ok exc ∧
        rep.total - rep.repulsion = kineticEnergyOcc E.g E.kpts c occ + har + loc + nloc + exc) ∧
      rep.parts.1.kin = kineticEnergyOcc E.g E.kpts c' occ' ∧
      hartreeEnergy (densityGridReciprocal c' E.vol occ') E.g E.vol false = .ok rep.parts.1.har ∧
      energyLocal (densityGridReciprocal c' E.vol occ') vloc E.vol = .ok rep.parts.1.ext ∧
      energyNonlocal c' psi E.vol (some occ') = .ok rep.parts.2 ∧
      xcEnergy E.lib E.xc false (densityGrid c' E.vol occ') E.g E.vol = .ok rep.parts.1.xc ∧
      rep.density = ⟨ns, densityGrid c' E.vol occ'⟩ := by
  have hinit : occParamInit draw (driverBands E.ne.toNat empty) E.ne nk E.spin E.method E.restricted
      = .ok p0.occ := by
    rw [← gsInitNC_occ h0]
    rcases hr with hr | ⟨h1, h2⟩
    · rw [hr]
    · simp only [occParamInit, h1, h2, if_false]
  obtain ⟨rep, h1, -, h3, j, v, h4, h5, h6, h7, h8⟩ := gsRun_spec hn hk E hv draw hns hm hp p0 o0 hinit ew
    (gsTotalNC E vloc psi) (gsPartsNC E vloc psi) (fun p o ho hl => by
      obtain ⟨q, hq⟩ := gsPartsNC_ok E vloc psi p o ho hl hm
      exact ⟨_, gsTotalNC_of_parts E vloc psi p q hq⟩)
    (fun p o ho hl => gsPartsNC_ok E vloc psi p o ho hl hm)
    upd hupd epoch he smearing window th
  obtain ⟨occ, a1, -, -, a4⟩ := state_of hk E draw hns hm hp p0.occ hinit _
    (trajectory_keeps upd hupd (temperature smearing epoch) (p0, o0) j)
  obtain ⟨occ', b1, -, b3, b4⟩ := state_of hk E draw hns hm hp p0.occ hinit _
    (trajectory_keeps upd hupd (temperature smearing epoch) (p0, o0) (j + 1))
  refine ⟨rep, _, _, occ, occ', h1, h3, a1, b1, ?_, ?_⟩
  · cases hq : gsPartsNC E vloc psi (Spec.trajectory upd (temperature smearing epoch) (p0, o0) j).1 with
    | error e =>
      unfold gsTotalNC at h4
      rw [hq] at h4
      cases h4
    | ok q =>
      obtain ⟨q1, q2, q3, q4, q5⟩ := partsNC_of_state E vloc psi _ _ _ a4 q hq
      refine ⟨_, _, _, _, q2, q3, q4, q5, ?_⟩
      have h9 := gsTotalNC_of_parts E vloc psi _ q hq
      rw [h4] at h9
      injection h9 with h9
      rw [h5, h3, add_sub_cancel_right, h9, ← q1]
  · obtain ⟨q1, q2, q3, q4, q5⟩ := partsNC_of_state E vloc psi _ _ _ b4 _ h7
    refine ⟨q1, q2, q3, q4, q5, ?_⟩
    rw [h8] at b3
    injection b3

/-- A second routine meeting the QR contract, whose result depends on its argument: unit vectors from
the front, or from the back when the first entry is 0. -/
noncomputable def flipQR : QR ℂ where
  q {n m} w := open Classical in
    if ∃ (i : Fin n) (j : Fin m), (i : ℕ) = 0 ∧ (j : ℕ) = 0 ∧ w i j = 0 then
      Matrix.of fun i j => if (i : ℕ) + (j : ℕ) + 1 = n then 1 else 0
    else (trivialQR ℂ).q w
  orth {n m} w := by
    by_cases h : ∃ (i : Fin n) (j : Fin m), (i : ℕ) = 0 ∧ (j : ℕ) = 0 ∧ w i j = 0
    · rw [if_pos h]
      ext a b
      have ha := lt_of_lt_of_le a.2 (min_le_left n m)
      have hb := lt_of_lt_of_le b.2 (min_le_left n m)
      rw [Matrix.mul_apply, Finset.sum_eq_single ⟨n - 1 - (a : ℕ), by omega⟩]
      · simp only [Matrix.conjTranspose_apply, Matrix.of_apply, Matrix.one_apply, Fin.ext_iff]
        rw [if_pos (by omega), star_one, one_mul]
        exact if_congr (by omega) rfl rfl
      · intro i _ hi
        simp only [Matrix.conjTranspose_apply, Matrix.of_apply]
        rw [if_neg, star_zero, zero_mul]
        intro hc
        apply hi
        apply Fin.ext
        simp only
        omega
      · intro hc; exact absurd (Finset.mem_univ _) hc
    · rw [if_neg h]
      exact (trivialQR ℂ).orth w

/-- Two plane waves, one k point, two electrons in one band, no nuclei. -/
noncomputable def driverTwoWaves (lib : XcLib) : GsEnv 0 1 ![2, 1, 1] where
  lib := lib
  qrC := flipQR
  qrR := trivialQR ℝ
  mask := fun _ => true
  g := gVectors 1 ![2, 1, 1]
  kpts := fun _ _ => 0
  vol := 1
  pos := Fin.elim0
  charge := Fin.elim0
  ne := 2
  spin := 0
  method := "uniform"
  restricted := true
  xc := "lda_x"
  eps := 1e-8

private theorem twoCount : maskCount (n := ![2, 1, 1]) (fun _ => true) = 2 := by decide

/-- A coefficient array with a single plane wave per band has the density of its occupations. -/
private theorem single_density {ns nk nb : ℕ} (A : Matrix (Fin 3) (Fin 3) ℝ) (hA : A.det ≠ 0)
    {n : Fin 3 → ℕ} (c : Coef ns nk nb n) (vol : ℝ) (hv : 0 < vol) (occ : Occ ns nk nb) (x0 : Idx n)
    (hc : ∀ s k b x, c s k b x = if x = x0 then 1 else 0) :
    densityGrid c vol occ = fun s _ => ∑ k, ∑ b, occ s k b * (1 / vol) := by
  funext s j
  rw [densityGrid_expansion A hA c vol hv]
  refine Finset.sum_congr rfl fun k _ => Finset.sum_congr rfl fun b _ => ?_
  rw [Finset.sum_eq_single x0]
  · rw [hc, if_pos rfl, one_mul, mul_comm Complex.I, Complex.norm_exp_ofReal_mul_I, one_pow]
  · intro x _ hx
    rw [hc, if_neg hx, zero_mul]
  · intro h; exact absurd (Finset.mem_univ _) h

private theorem driverTwoWaves_coeff (lib : XcLib) {nb : ℕ} (p : PwParams 1 1 (maskCount (driverTwoWaves lib).mask) nb)
    (x0 : Idx ![2, 1, 1]) (g0 : Fin (maskCount (driverTwoWaves lib).mask)) (hx0 : x0 = maskPos _ g0)
    (h : ∀ g b, unitaryMatrix flipQR p 0 0 g b = if g = g0 then 1 else 0) :
    ∀ s k b x, pwCoeff (driverTwoWaves lib).qrC (driverTwoWaves lib).mask p s k b x = if x = x0 then 1 else 0 := by
  intro s k b x
  obtain rfl : s = 0 := Subsingleton.elim _ _
  obtain rfl : k = 0 := Subsingleton.elim _ _
  obtain ⟨g, rfl⟩ := exists_maskPos (driverTwoWaves lib).mask (k := x) rfl
  unfold pwCoeff expandCoefficient
  rw [scatterMask_get]
  refine (h g b).trans ?_
  rw [hx0]
  exact if_congr ⟨fun e => by rw [e], fun e => maskList_get_inj _ e⟩ rfl rfl


private theorem total_diff {ns nk nb na : ℕ} {n : Fin 3 → ℕ} (lib : XcLib)
    (c c' : Coef ns nk nb n) (pos : Fin na → Fin 3 → ℝ) (charge : Fin na → ℝ) (g : Idx n → Fin 3 → ℝ)
    (kpts : Fin nk → Fin 3 → ℝ) (vol : ℝ) (occ : Occ ns nk nb) (xt : String)
    (hd : densityGrid c vol occ = densityGrid c' vol occ)
    (h : totalEnergy lib c pos charge g kpts vol (some occ) false xt
      = totalEnergy lib c' pos charge g kpts vol (some occ) false xt) :
    kineticEnergyOcc g kpts c occ = kineticEnergyOcc g kpts c' occ := by
  have hr : densityGridReciprocal c vol occ = densityGridReciprocal c' vol occ := by
    unfold densityGridReciprocal
    rw [hd]
  unfold totalEnergy totalEnergySplit at h
  simp only [occOrOnes] at h
  rw [waveToDensity_eq, waveToDensityReciprocal_eq, waveToDensity_eq, waveToDensityReciprocal_eq, hd,
    hr] at h
  obtain ⟨e1, h1⟩ : ∃ e, hartreeEnergy (densityGridReciprocal c' vol occ) g vol false = .ok e :=
    ⟨_, hartreeEnergy_eq _ _ _ _⟩
  obtain ⟨e2, h2⟩ : ∃ e, externalEnergy (densityGridReciprocal c' vol occ) pos charge g vol = .ok e :=
    ⟨_, externalEnergy_eq _ _ _ _ _⟩
  obtain ⟨e3, h3⟩ : ∃ e, xcEnergy lib xt false (densityGrid c' vol occ) g vol = .ok e :=
    ⟨_, xcEnergy_value _ _ _ _ _⟩
  simp only [h1, h2, h3] at h
  injection h with h
  linarith

private theorem twoBands (lib : XcLib) : driverBands (driverTwoWaves lib).ne.toNat 0 = 1 := by
  simp [driverBands, driverTwoWaves]

private theorem twoMask (lib : XcLib) : maskCount (driverTwoWaves lib).mask = 2 := twoCount

/-- The hypotheses of `driver_objective_partial`, `driver_density_partial`, `driver_log_partial` and
`driver_no_epoch` hold for the two-wave system. -/
example (lib : XcLib) (draw : ∀ n m : ℕ, Matrix (Fin n) (Fin m) ℝ)
    (pw : PwParams 1 1 (maskCount (driverTwoWaves lib).mask) (driverBands (driverTwoWaves lib).ne.toNat 0)) :
    (∀ i, 0 < (![2, 1, 1] : Fin 3 → ℕ) i) ∧ 0 < (driverTwoWaves lib).vol ∧
      1 = (if (driverTwoWaves lib).restricted then 1 else 2) ∧
      driverBands (driverTwoWaves lib).ne.toNat 0 ≤ maskCount (driverTwoWaves lib).mask ∧
      Spec.Placeable (driverTwoWaves lib).method (driverTwoWaves lib).ne (driverTwoWaves lib).spin 0 ∧
      ∃ p0, gsInit (driverTwoWaves lib) draw pw = .ok p0 ∧ gsInitNC (driverTwoWaves lib) draw pw = .ok p0 ∧
        ∃ o, occupation (driverTwoWaves lib).qrR p0.occ (driverTwoWaves lib).ne (driverTwoWaves lib).spin
          (driverTwoWaves lib).method (driverTwoWaves lib).restricted = .ok o ∧ o.length = 1 := by
  refine ⟨fun i => by fin_cases i <;> decide, by simp [driverTwoWaves], rfl, ?_, ?_, ?_⟩
  · rw [twoBands, twoMask]; decide
  · refine ⟨rfl, Or.inl ⟨Or.inl rfl, ?_, ?_⟩⟩
    · show |(0 : ℤ)| ≤ 2; decide
    · show |(0 : ℤ)| ≤ 2 * ((0 : ℕ) : ℤ) + 2 % 2; decide
  · exact ⟨_, rfl, rfl, _, rfl, rfl⟩

/-- C68 is false: for the two-wave system and a step that changes the wave function, the driver logs
components that do not add up to the total it logs, whatever the functional and the repulsion. -/
theorem driver_log_inconsistent (lib : XcLib) (ew smearing : ℝ) (window : ℤ) (th : ℝ)
    (draw : ∀ n m : ℕ, Matrix (Fin n) (Fin m) ℝ) :
    ∃ (p0 : GsParams 1 1 (maskCount (driverTwoWaves lib).mask) (driverBands (driverTwoWaves lib).ne.toNat 0))
      (upd : GsParams 1 1 (maskCount (driverTwoWaves lib).mask) (driverBands (driverTwoWaves lib).ne.toNat 0) × Unit →
        ℝ → GsParams 1 1 (maskCount (driverTwoWaves lib).mask) (driverBands (driverTwoWaves lib).ne.toNat 0) × Unit),
      gsInit (driverTwoWaves lib) draw p0.pw = .ok p0 ∧ (∀ p t, Spec.KeepsShape p.1.occ (upd p t).1.occ) ∧
      ∃ rep, gsCalc (driverTwoWaves lib) ew upd 1 smearing window th (p0, ()) = .ok rep ∧
        rep.total ≠ rep.parts.kin + rep.parts.har + rep.parts.ext + rep.parts.xc + rep.repulsion := by
  let o : OccArr 1 (driverBands (driverTwoWaves lib).ne.toNat 0) ℝ :=
    uniformOcc 1 (driverTwoWaves lib).ne (driverTwoWaves lib).spin (some (driverBands (driverTwoWaves lib).ne.toNat 0)) true
  have hin : occParamInit draw (driverBands (driverTwoWaves lib).ne.toNat 0) (driverTwoWaves lib).ne 1
      (driverTwoWaves lib).spin (driverTwoWaves lib).method (driverTwoWaves lib).restricted = .ok (.arr o) := rfl
  let pA : PwParams 1 1 (maskCount (driverTwoWaves lib).mask) (driverBands (driverTwoWaves lib).ne.toNat 0) :=
    ⟨fun _ _ => Matrix.of fun _ _ => 1, fun _ _ => Matrix.of fun _ _ => 0⟩
  let pB : PwParams 1 1 (maskCount (driverTwoWaves lib).mask) (driverBands (driverTwoWaves lib).ne.toNat 0) :=
    ⟨fun _ _ => Matrix.of fun _ _ => 0, fun _ _ => Matrix.of fun _ _ => 0⟩
  have hplace : Spec.Placeable (driverTwoWaves lib).method (driverTwoWaves lib).ne (driverTwoWaves lib).spin 0 := by
    refine ⟨rfl, Or.inl ⟨Or.inl rfl, ?_, ?_⟩⟩
    · show |(0 : ℤ)| ≤ 2; decide
    · show |(0 : ℤ)| ≤ 2 * ((0 : ℕ) : ℤ) + 2 % 2; decide
  have hm : driverBands (driverTwoWaves lib).ne.toNat 0 ≤ maskCount (driverTwoWaves lib).mask := by
    rw [twoBands, twoMask]; decide
  refine ⟨⟨pA, .arr o⟩, fun p _ => (⟨pB, p.1.occ⟩, p.2), rfl, fun p _ => keeps_refl _, ?_⟩
  obtain ⟨rep, j, h1, hj, -, -, -, h2⟩ := driver_log_partial (O := Unit) (ns := 1) (empty := 0)
    (fun i => by fin_cases i <;> decide) one_pos (driverTwoWaves lib) (by simp [driverTwoWaves]) draw rfl
    hm hplace pA ⟨pA, .arr o⟩ () rfl ew
    (fun p _ => (⟨pB, p.1.occ⟩, p.2)) (fun p _ => keeps_refl _) 1 one_pos smearing window th
  refine ⟨rep, h1, fun hc => ?_⟩
  have hj0 : j = 0 := by
    have : (1 : ℤ).toNat = 1 := rfl
    omega
  subst hj0
  have key := h2.1 hc
  have hl : o.length = 1 := rfl
  have hocc : ∀ s k b, (fun _ _ _ => 2 : Occ 1 1 (min (maskCount (driverTwoWaves lib).mask)
      (driverBands (driverTwoWaves lib).ne.toNat 0))) s k b
      = o.get (Fin.cast hl.symm s) k (Fin.castLE (min_le_right _ _) b) := by
    intro s k b
    obtain rfl : s = 0 := Subsingleton.elim _ _
    have hb : ((Fin.castLE (min_le_right (maskCount (driverTwoWaves lib).mask)
        (driverBands (driverTwoWaves lib).ne.toNat 0)) b : Fin _) : ℕ) = 0 := by
      have := b.2
      have h1 := twoBands lib
      rw [Fin.val_castLE]
      omega
    have h1 := twoBands lib
    show (2 : ℝ) = (sumSpin (K := ℝ) (nk := 1) (nb := driverBands (driverTwoWaves lib).ne.toNat 0) [_, _])[0] k
      (Fin.castLE (min_le_right _ _) b)
    simp only [sumSpin, List.getElem_cons_zero, List.map_cons, List.map_nil, List.sum_cons, List.sum_nil, inSlice, hb,
      resolveBands, h1]
    norm_num [driverTwoWaves, pyBound]
  have oA := driver_objective_partial (driverTwoWaves lib) ⟨pA, .arr o⟩ o rfl hl hm _ hocc
  have oB := driver_objective_partial (driverTwoWaves lib) ⟨pB, .arr o⟩ o rfl hl hm _ hocc
  have key' : gsTotal (driverTwoWaves lib) ⟨pA, .arr o⟩ = gsTotal (driverTwoWaves lib) ⟨pB, .arr o⟩ := key
  rw [oA, oB] at key'
  have hb0 : ∀ b : Fin (min (maskCount (driverTwoWaves lib).mask) (driverBands (driverTwoWaves lib).ne.toNat 0)),
      (b : ℕ) = 0 := by
    intro b
    have := b.2
    have h1 := twoBands lib
    omega
  have h02 : 0 < maskCount (driverTwoWaves lib).mask := by rw [twoMask]; decide
  have h12 : 1 < maskCount (driverTwoWaves lib).mask := by rw [twoMask]; decide
  have cA := driverTwoWaves_coeff lib pA (maskPos _ ⟨0, h02⟩) ⟨0, h02⟩ rfl (by
    intro g b
    unfold unitaryMatrix flipQR
    simp only [pA]
    rw [if_neg (by rintro ⟨i, j, -, -, h⟩; simp at h)]
    simp only [trivialQR, Matrix.of_apply, hb0 b, Fin.ext_iff])
  have cB := driverTwoWaves_coeff lib pB (maskPos _ ⟨1, h12⟩) ⟨1, h12⟩ rfl (by
    intro g b
    unfold unitaryMatrix flipQR
    simp only [pB]
    rw [if_pos ⟨⟨0, h02⟩, ⟨0, by rw [twoBands]; decide⟩, rfl, rfl, by simp⟩]
    simp only [Matrix.of_apply, hb0 b, Fin.ext_iff]
    have := twoMask lib
    exact if_congr (by omega) rfl rfl)
  have hdet : (1 : Matrix (Fin 3) (Fin 3) ℝ).det ≠ 0 := by rw [Matrix.det_one]; exact one_ne_zero
  have hk := total_diff lib _ _ _ _ _ _ _ _ _
    ((single_density 1 hdet _ _ one_pos _ _ cA).trans (single_density 1 hdet _ _ one_pos _ _ cB).symm) key'
  have kin : ∀ (c : Coef 1 1 (min (maskCount (driverTwoWaves lib).mask) (driverBands (driverTwoWaves lib).ne.toNat 0))
      ![2, 1, 1]) (x0 : Idx ![2, 1, 1]), (∀ s k b x, c s k b x = if x = x0 then 1 else 0) →
      kineticEnergyOcc (driverTwoWaves lib).g (driverTwoWaves lib).kpts c (fun _ _ _ => 2)
        = ∑ d, (gVectors 1 ![2, 1, 1] x0 d) ^ 2 := by
    intro c x0 hc
    unfold kineticEnergyOcc
    have : ∀ s k b, (∑ x, (∑ d, ((driverTwoWaves lib).g x d + (driverTwoWaves lib).kpts k d) ^ 2)
        * absoluteSquare (c s k b x)) = ∑ d, (gVectors 1 ![2, 1, 1] x0 d) ^ 2 := by
      intro s k b
      rw [Finset.sum_eq_single x0]
      · rw [hc, if_pos rfl]
        simp [absoluteSquare, driverTwoWaves]
      · intro x _ hx
        rw [hc, if_neg hx]
        simp [absoluteSquare]
      · intro h; exact absurd (Finset.mem_univ _) h
    simp only [this]
    have hcard : min (maskCount (driverTwoWaves lib).mask) (driverBands (driverTwoWaves lib).ne.toNat 0) = 1 := by
      rw [twoBands, twoMask]; decide
    simp only [Finset.sum_const, Finset.card_univ, Fintype.card_fin, one_smul, nsmul_eq_mul]
    rw [hcard]
    push_cast
    ring
  rw [kin _ _ cA, kin _ _ cB] at hk
  have z : gVectors 1 ![2, 1, 1] (maskPos (driverTwoWaves lib).mask ⟨0, h02⟩) = 0 :=
    gVectors_zero _ _ _ (by intro i; fin_cases i <;> rfl)
  have z' : gVectors 1 ![2, 1, 1] (maskPos (driverTwoWaves lib).mask ⟨1, h12⟩) = 0 := by
    rw [z] at hk
    have hs : ∑ d, (gVectors 1 ![2, 1, 1] (maskPos (driverTwoWaves lib).mask ⟨1, h12⟩) d) ^ 2 = 0 := by
      rw [← hk]; simp
    funext d
    have := (Finset.sum_eq_zero_iff_of_nonneg fun d _ => sq_nonneg _).1 hs d (Finset.mem_univ _)
    simpa using this
  have e := gVectors_injective 1 hdet ![2, 1, 1] (z.trans z'.symm)
  have := maskList_get_inj _ e
  simp at this

/-- C68 is false for `epoch ≤ 0`: both drivers end with an unbound name although density and energies of
the initial parameters are defined. -/
theorem driver_no_epoch {na nk ns nb : ℕ} {n : Fin 3 → ℕ} {O : Type*} (E : GsEnv na nk n) (ew : ℝ)
    (upd : GsParams ns nk (maskCount E.mask) nb × O → ℝ → GsParams ns nk (maskCount E.mask) nb × O)
    (epoch : ℤ) (he : epoch ≤ 0) (smearing : ℝ) (window : ℤ) (th : ℝ)
    (p0 : GsParams ns nk (maskCount E.mask) nb × O) (o : OccArr nk nb ℝ)
    (ho : occupation E.qrR p0.1.occ E.ne E.spin E.method E.restricted = .ok o) (hl : o.length = ns)
    (hm : nb ≤ maskCount E.mask) :
    (∃ ρ, gsDensity E p0.1 = .ok ρ) ∧ (∃ q, gsParts E p0.1 = .ok q) ∧
      gsCalc E ew upd epoch smearing window th p0 = .error .unboundLocal := by
  have hs := gsState_eq E p0.1 o ho hl hm
    (fun s k b => o.get (Fin.cast hl.symm s) k (Fin.castLE (min_le_right _ _) b)) fun _ _ _ => rfl
  obtain ⟨q, hq⟩ := gsParts_ok E p0.1 o ho hl hm
  have hd : ∃ ρ, gsDensity E p0.1 = .ok ρ := by
    unfold gsDensity
    rw [hs]
    exact ⟨_, rfl⟩
  obtain ⟨ρ, hρ⟩ := hd
  refine ⟨⟨ρ, hρ⟩, ⟨q, hq⟩, ?_⟩
  have h0 : epoch.toNat = 0 := by omega
  unfold gsCalc gsRun
  rw [h0]
  simp only [gsLoop, hρ, hq]

/-! ### C69 -/

/-- C69 is false: the repulsion both drivers add is the Ewald energy of the full nuclear charges. With
ionic charges `c Z` (a pseudopotential that leaves the same fraction `c` of the electrons of every atom)
the energy of the ions is `c²` times as large, so the two agree only if `c² = 1` or the energy is 0. -/
theorem driverRepulsion_full (erfc : ℝ → ℝ) {m nt : ℕ} {n : Fin 3 → ℕ} (c : Crystal m)
    (g : Idx n → Fin 3 → ℝ) (eta : ℝ) (T : Fin nt → Fin 3 → ℝ) (f : ℝ) :
    ewald erfc c.positions (fun a => f * (c.charges a : ℝ)) g c.vol eta T
        = f ^ 2 * driverRepulsion erfc c g eta T ∧
    (driverRepulsion erfc c g eta T = ewald erfc c.positions (fun a => f * (c.charges a : ℝ)) g c.vol eta T ↔
      f ^ 2 = 1 ∨ driverRepulsion erfc c g eta T = 0) := by
  have h := ewald_scale erfc c.positions (fun a => (c.charges a : ℝ)) g c.vol eta T f
  refine ⟨h, ?_⟩
  rw [h]
  change driverRepulsion erfc c g eta T = f ^ 2 * driverRepulsion erfc c g eta T ↔ _
  constructor
  · intro e
    by_cases h0 : driverRepulsion erfc c g eta T = 0
    · exact Or.inr h0
    · refine Or.inl ?_
      have : (f ^ 2 - 1) * driverRepulsion erfc c g eta T = 0 := by linarith
      rcases mul_eq_zero.1 this with h1 | h1
      · linarith
      · exact absurd h1 h0
  · rintro (e | e)
    · rw [e, one_mul]
    · rw [e, mul_zero]

/-- One silicon atom in a cubic cell. -/
def siliconCell : Crystal 1 where
  charges _ := 14
  positions := 0
  cell := 1
  spin := 0

/-- C69 is false, witness: for silicon with its four valence electrons the repulsion added by the driver
is not the repulsion of the ions, whatever the values of `erfc` between 0 and 1. -/
theorem driverRepulsion_wrong (erfc : ℝ → ℝ) (h0 : ∀ x, 0 ≤ x → 0 ≤ erfc x ∧ erfc x ≤ 1) :
    driverRepulsion erfc siliconCell (gVectors 1 ![1, 1, 1]) 1 (fun _ : Fin 1 => 0)
      ≠ ewald erfc siliconCell.positions (fun _ => 4) (gVectors 1 ![1, 1, 1]) siliconCell.vol 1
        (fun _ : Fin 1 => 0) := by
  have hq : (fun _ : Fin 1 => (4 : ℝ)) = fun a => 4 / 14 * (siliconCell.charges a : ℝ) := by
    funext a
    simp [siliconCell]
  rw [hq]
  intro h
  rcases (driverRepulsion_full erfc siliconCell _ 1 _ (4 / 14)).2.1 h with h1 | h1
  · norm_num at h1
  · have ht : ∀ i j, ewaldTau siliconCell.positions i j = 0 := by
      intro i j; funext d; simp [ewaldTau, siliconCell]
    have hn : ewaldNorm (0 : Fin 3 → ℝ) 0 = 1e20 := by
      unfold ewaldNorm
      simp only [Pi.zero_apply, sub_self]
      rw [if_pos]
      rw [Real.sqrt_le_left (by norm_num)]
      norm_num
    have hr : ewaldReciprocal (gVectors 1 ![1, 1, 1]) siliconCell.vol 1 0 = 0 := by
      unfold ewaldReciprocal
      rw [Finset.sum_eq_zero, zero_mul, zero_mul, zero_div]
      intro k _
      rw [if_pos, mul_zero]
      have : ∀ i, (k i : ℕ) = 0 := by
        intro i
        have := (k i).2
        fin_cases i <;> simpa using this
      simpa [isOrigin] using this
    have hv : siliconCell.vol = 1 := by simp [Crystal.vol, siliconCell]
    have hq1 : ∀ a, (siliconCell.charges a : ℝ) = 14 := by intro a; simp [siliconCell]
    unfold driverRepulsion ewald at h1
    rw [hv] at hr
    simp only [ht, hv, ewaldOverlap, Fin.sum_univ_one, hq1] at h1
    rw [hr, hn] at h1
    have hE := h0 (1 * 1e20) (by norm_num)
    have hs : 0 < 1 / Real.sqrt Real.pi := by
      have := Real.sqrt_pos.2 Real.pi_pos
      positivity
    have h3 := Real.two_le_pi
    have e : -(14 : ℝ) ^ 2 * 2 * 1 / Real.sqrt Real.pi / 2 = -196 * (1 / Real.sqrt Real.pi) := by ring
    rw [e] at h1
    have hx : erfc (1 * 1e20) / 1e20 ≤ 1 := by
      rw [div_le_one (by norm_num)]
      exact hE.2.trans (by norm_num)
    nlinarith

end Jrystal
