import Verif.Lemmas.EwaldForces
import Verif.Props.ForcesNC
import Verif.Props.CellContinuityNC

/- C129: the dependence of total energies on the positions of the atoms, the repulsion of the nuclei included. -/
namespace Jrystal
open scoped BigOperators
open Filter RunSetup

private theorem repulsion_value {erfc : ℝ → ℝ} {m : ℕ} {n : Fin 3 → ℕ} (pos : Fin m → Fin 3 → ℝ)
    (q : Fin m → ℝ) (A : Matrix (Fin 3) (Fin 3) ℝ) (hA : A.det ≠ 0) (g : Idx n → Fin 3 → ℝ) (vol eta cutoff : ℝ)
    (h0 : 0 < cutoff) :
    nuclearRepulsion erfc pos q A g vol eta cutoff
      = .ok (ewald erfc pos q g vol eta (flatRows (translationVectors A cutoff))) := by
  have := translationCount_pos A hA cutoff h0
  unfold nuclearRepulsion
  rw [if_neg (by omega), if_neg (by omega)]

/-- C129: when the nuclei move with the velocities `v`, the repulsion energy changes at the rate of minus the power of
the Ewald forces, as long as no two nuclei collide. -/
theorem repulsion_slope {m : ℕ} (q : Fin m → ℝ) {n : Fin 3 → ℕ} (g : Idx n → Fin 3 → ℝ) (vol eta cutoff : ℝ)
    (h0 : 0 < cutoff) (A : Matrix (Fin 3) (Fin 3) ℝ) (hA : A.det ≠ 0) (pos v : Fin m → Fin 3 → ℝ) :
    ∃ E : ℝ → ℝ,
      (∀ t, nuclearRepulsion Spec.erfc (fun a d => pos a d + t * v a d) q A g vol eta cutoff = .ok (E t)) ∧
      ∀ t, Spec.Separated A (fun a d => pos a d + t * v a d) →
        HasDerivAt E (-∑ a, ∑ d, Spec.ewaldForce (flatRows (translationVectors A cutoff))
          (Finset.univ.filter fun k : Idx n => ∃ i, (k i : ℕ) ≠ 0) g vol eta (fun a d => pos a d + t * v a d) q a d
            * v a d) t := by
  refine ⟨_, fun t => repulsion_value _ q A hA g vol eta cutoff h0, fun t hsep => ?_⟩
  set T := flatRows (translationVectors A cutoff) with hT
  set G := Finset.univ.filter fun k : Idx n => ∃ i, (k i : ℕ) ≠ 0 with hG
  have hpt : ∀ u, ∃ z : Fin 3 → ℤ, T u = Spec.latticePoint A z := by
    intro u
    refine ⟨fun i => sfreq (translationCount A cutoff).toNat ((idxList fun _ => (translationCount A cutoff).toNat).get u i), ?_⟩
    funext d
    rw [hT]
    unfold translationVectors flatRows vectorGrid Spec.latticePoint
    refine Finset.sum_congr rfl fun i _ => ?_
    simp only [Bool.false_eq_true, if_false]
    rw [fftfreq_int ((idxList fun _ => (translationCount A cutoff).toNat).get u i).2]
  have hpair : ∀ i j, HasDerivAt (fun s => Spec.screenedSum Spec.erfc eta T
        (fun d => (pos j d + s * v j d) - (pos i d + s * v i d)) + 4 * Real.pi / vol *
        ∑ k ∈ G, Real.exp (-(Spec.dot (g k) (g k)) / (4 * eta ^ 2)) / Spec.dot (g k) (g k) *
            Real.cos (Spec.dot (g k) fun d => (pos j d + s * v j d) - (pos i d + s * v i d)))
      (-∑ d, Spec.pairForce T G g vol eta (fun d => (pos j d + t * v j d) - (pos i d + t * v i d)) d * (v j d - v i d)) t := by
    intro i j
    have e : ∀ s : ℝ, (fun d => (pos j d + s * v j d) - (pos i d + s * v i d))
        = fun d => (pos j d - pos i d) + s * (v j d - v i d) := fun s => by
      funext d
      ring
    simp only [e]
    refine pair_line T G g vol eta (fun d => pos j d - pos i d) (fun d => v j d - v i d) t fun u => ?_
    by_cases hij : i = j
    · subst hij
      exact Or.inl (by funext d; simp)
    · right
      obtain ⟨z, hz⟩ := hpt u
      have := hsep i j z (Or.inl hij)
      rw [hz]
      have e' : ∀ d, pos j d - pos i d + t * (v j d - v i d) - Spec.latticePoint A z d
          = pos j d + t * v j d - (pos i d + t * v i d) - Spec.latticePoint A z d := fun d => by ring
      simp only [e']
      exact this
  have hsum := HasDerivAt.fun_sum (u := Finset.univ) fun i (_ : i ∈ Finset.univ) =>
    HasDerivAt.fun_sum (u := Finset.univ) fun j (_ : j ∈ Finset.univ) => (hpair i j).const_mul (q i * q j)
  have hE : (fun t => ewald Spec.erfc (fun a d => pos a d + t * v a d) q g vol eta T) = _ :=
    funext fun t => ewald_formula Spec.erfc (fun a d => pos a d + t * v a d) q g vol eta T
  rw [hE]
  unfold Spec.ewald
  refine (((hsum.const_mul (1 / 2)).sub_const _).sub_const _).congr_deriv ?_
  have hl : ∀ i j, q i * q j * -∑ d, Spec.pairForce T G g vol eta
        (fun d => (pos j d + t * v j d) - (pos i d + t * v i d)) d * (v j d - v i d)
      = -(∑ d, q i * q j * Spec.pairForce T G g vol eta (fun d => (pos j d + t * v j d) - (pos i d + t * v i d)) d * v j d)
        + ∑ d, q i * q j * Spec.pairForce T G g vol eta (fun d => (pos j d + t * v j d) - (pos i d + t * v i d)) d * v i d := by
    intro i j
    rw [mul_neg, Finset.mul_sum, neg_add_eq_sub, ← Finset.sum_sub_distrib, ← Finset.sum_neg_distrib]
    exact Finset.sum_congr rfl fun d _ => by ring
  simp only [hl, Finset.sum_add_distrib, Finset.sum_neg_distrib]
  have hr : ∀ a d, Spec.ewaldForce T G g vol eta (fun a d => pos a d + t * v a d) q a d * v a d
      = 1 / 2 * ((∑ i, q i * q a * Spec.pairForce T G g vol eta (fun d => (pos a d + t * v a d) - (pos i d + t * v i d)) d * v a d)
        - ∑ i, q a * q i * Spec.pairForce T G g vol eta (fun d => (pos i d + t * v i d) - (pos a d + t * v a d)) d * v a d) := by
    intro a d
    unfold Spec.ewaldForce
    rw [← Finset.sum_sub_distrib, mul_assoc, Finset.sum_mul]
    congr 1
    exact Finset.sum_congr rfl fun i _ => by ring
  simp only [hr, ← Finset.mul_sum, Finset.sum_sub_distrib]
  have hcomm : ∀ f : Fin m → Fin m → Fin 3 → ℝ, ∑ i, ∑ j, ∑ d, f i j d = ∑ j, ∑ d, ∑ i, f i j d := by
    intro f
    rw [Finset.sum_comm]
    exact Finset.sum_congr rfl fun j _ => Finset.sum_comm
  have hcomm' : ∀ f : Fin m → Fin m → Fin 3 → ℝ, ∑ i, ∑ j, ∑ d, f i j d = ∑ i, ∑ d, ∑ j, f i j d := fun f =>
    Finset.sum_congr rfl fun j _ => Finset.sum_comm
  rw [hcomm, hcomm']
  ring

/-- C129: the forces that the nuclei exert on each other add up to zero. -/
theorem repulsion_forces_balance {na nt : ℕ} {ι : Type} (T : Fin nt → Fin 3 → ℝ) (G : Finset ι) (g : ι → Fin 3 → ℝ)
    (V eta : ℝ) (pos : Fin na → Fin 3 → ℝ) (q : Fin na → ℝ) (d : Fin 3) :
    ∑ a, Spec.ewaldForce T G g V eta pos q a d = 0 := by
  unfold Spec.ewaldForce
  rw [← Finset.mul_sum]
  simp only [mul_sub, Finset.sum_sub_distrib]
  have h : ∑ a, ∑ i, q i * q a * Spec.pairForce T G g V eta (fun d => pos a d - pos i d) d
      = ∑ a, ∑ i, q i * q a * Spec.pairForce T G g V eta (fun d => pos i d - pos a d) d := by
    rw [Finset.sum_comm]
    exact Finset.sum_congr rfl fun a _ => Finset.sum_congr rfl fun i _ => by ring
  rw [h, sub_self]

/-! ### All-electron ground states -/

/-- C129: the least total energy along a motion of the nuclei, the repulsion of the nuclei included, is continuous as
long as no two nuclei collide, and differentiable at almost every such time; its derivative there is minus the power of
the forces that the electrons of any ground state and the other nuclei exert on the nuclei. -/
theorem ground_forces (lib : XcLib) {ns nk nb na : ℕ} {n : Fin 3 → ℕ} (hn : ∀ i, 0 < n i)
    (mask : Idx n → Bool) (ne spin : ℤ) (r : Bool) (method : String) (T eps : ℝ)
    (pos v : Fin na → Fin 3 → ℝ) (z : Fin na → ℝ) (A : Matrix (Fin 3) (Fin 3) ℝ) (hA : A.det ≠ 0)
    (kpts : Fin nk → Fin 3 → ℝ) (xt : String) (eta cutoff : ℝ) (h0 : 0 < cutoff) (F E : ℝ → ℝ)
    (hF : ∀ t, IsGLB (Spec.freeEnergies (ns := ns) (nk := nk) (nb := nb) T eps mask ne spin r method
      fun c occ e => totalEnergy lib c (fun a d => pos a d + t * v a d) z (gVectors A n) kpts |A.det| (some occ) false xt
        = .ok e) (F t))
    (hE : ∀ t, nuclearRepulsion Spec.erfc (fun a d => pos a d + t * v a d) z A (gVectors A n) |A.det| eta cutoff
      = .ok (E t)) :
    (∀ t, Spec.Separated A (fun a d => pos a d + t * v a d) → ContinuousAt (fun t => F t + E t) t) ∧
    (∀ᵐ t, Spec.Separated A (fun a d => pos a d + t * v a d) → DifferentiableAt ℝ (fun t => F t + E t) t) ∧
    ∀ t, Spec.Separated A (fun a d => pos a d + t * v a d) → DifferentiableAt ℝ (fun t => F t + E t) t →
      ∀ (c : Coef ns nk nb n) (occ : Occ ns nk nb) e,
      Spec.GroundWithin 0 T eps mask ne spin r method
        (fun c occ e => totalEnergy lib c (fun a d => pos a d + t * v a d) z (gVectors A n) kpts |A.det| (some occ) false
          xt = .ok e) c occ e →
      HasDerivAt (fun t => F t + E t)
        (Spec.electrostaticSlope (densityGridReciprocal c |A.det| occ) (fun a d => pos a d + t * v a d) v z (gVectors A n)
          - ∑ a, ∑ d, Spec.ewaldForce (flatRows (translationVectors A cutoff))
              (Finset.univ.filter fun k : Idx n => ∃ i, (k i : ℕ) ≠ 0) (gVectors A n) |A.det| eta
              (fun a d => pos a d + t * v a d) z a d * v a d) t := by
  obtain ⟨E', hE', hd⟩ := repulsion_slope z (gVectors A n) |A.det| eta cutoff h0 A hA pos v
  obtain rfl : E' = E := funext fun t => Except.ok.inj ((hE' t).symm.trans (hE t))
  obtain ⟨k1, k2, k3⟩ := ground_hellmannFeynman lib hn mask ne spin r method T eps pos v z (gVectors A n) kpts |A.det|
    (abs_pos.2 hA) xt F hF
  have hL : Continuous F := by
    refine (LipschitzWith.of_dist_le_mul (K := Real.toNNReal (ne * Spec.forceBound (gVectors A n) |A.det| *
      ∑ a, |z a| * Spec.length (v a))) fun t t' => ?_).continuous
    rw [Real.dist_eq, Real.dist_eq]
    exact (k1 t t').trans (mul_le_mul_of_nonneg_right (Real.le_coe_toNNReal _) (abs_nonneg _))
  refine ⟨fun t hs => hL.continuousAt.add (hd t hs).continuousAt, ?_, fun t hs ht c occ e hgr => ?_⟩
  · filter_upwards [k2] with t ht hs
    exact ht.add (hd t hs).differentiableAt
  · have hFt : DifferentiableAt ℝ F t := by
      have := ht.fun_sub (hd t hs).differentiableAt
      simpa using this
    exact (k3 t hFt c occ e hgr).add (hd t hs)

/-- C129: at an equilibrium — where the least total energy, the repulsion of the nuclei included, has a local minimum
along the motion — the forces that the electrons of any ground state and the other nuclei exert on the nuclei do no
work, whether or not the energy is differentiable there. -/
theorem ground_equilibrium (lib : XcLib) {ns nk nb na : ℕ} {n : Fin 3 → ℕ} (hn : ∀ i, 0 < n i)
    (mask : Idx n → Bool) (ne spin : ℤ) (r : Bool) (method : String) (T eps : ℝ)
    (pos v : Fin na → Fin 3 → ℝ) (z : Fin na → ℝ) (A : Matrix (Fin 3) (Fin 3) ℝ) (hA : A.det ≠ 0)
    (kpts : Fin nk → Fin 3 → ℝ) (xt : String) (eta cutoff : ℝ) (h0 : 0 < cutoff) (F E : ℝ → ℝ)
    (hF : ∀ t, IsGLB (Spec.freeEnergies (ns := ns) (nk := nk) (nb := nb) T eps mask ne spin r method
      fun c occ e => totalEnergy lib c (fun a d => pos a d + t * v a d) z (gVectors A n) kpts |A.det| (some occ) false xt
        = .ok e) (F t))
    (hE : ∀ t, nuclearRepulsion Spec.erfc (fun a d => pos a d + t * v a d) z A (gVectors A n) |A.det| eta cutoff
      = .ok (E t)) (hmin : IsLocalMin (fun t => F t + E t) 0) (hsep : Spec.Separated A pos)
    (c : Coef ns nk nb n) (occ : Occ ns nk nb) (e : ℝ)
    (hgr : Spec.GroundWithin 0 T eps mask ne spin r method
      (fun c occ e => totalEnergy lib c pos z (gVectors A n) kpts |A.det| (some occ) false xt = .ok e) c occ e) :
    ∑ a, ∑ d, Spec.ewaldForce (flatRows (translationVectors A cutoff))
        (Finset.univ.filter fun k : Idx n => ∃ i, (k i : ℕ) ≠ 0) (gVectors A n) |A.det| eta pos z a d * v a d
      = Spec.electrostaticSlope (densityGridReciprocal c |A.det| occ) pos v z (gVectors A n) := by
  have hpos : (fun a d => pos a d + (0 : ℝ) * v a d) = pos := by
    funext a d
    ring
  obtain ⟨E', hE', hd⟩ := repulsion_slope z (gVectors A n) |A.det| eta cutoff h0 A hA pos v
  obtain rfl : E' = E := funext fun t => Except.ok.inj ((hE' t).symm.trans (hE t))
  have hd0 := hd 0
  simp only [hpos] at hd0
  obtain ⟨f, hf, hfd⟩ := totalEnergy_slope lib hn c occ pos v z (gVectors A n) kpts |A.det| (abs_pos.2 hA) xt
  have hfd0 := hfd 0
  simp only [hpos] at hfd0
  have hf0 : f 0 = e := by
    have := hf 0
    simp only [hpos] at this
    exact Except.ok.inj (this.symm.trans hgr.value)
  set S := T * Spec.smearingEntropy eps ((3 - (ns : ℝ)) / nk) occ with hS
  have hF0 : F 0 = e - S := by
    have := hF 0
    simp only [hpos] at this
    exact this.unique (ground_isGLB hgr)
  have hup : ∀ t, F t ≤ f t - S := fun t => (hF t).1 ⟨c, occ, f t, hgr.physical, hgr.given, hf t, rfl⟩
  have hmin' : IsLocalMin (fun t => f t + E' t) 0 := by
    filter_upwards [hmin] with t ht
    have := hup t
    rw [hF0] at ht
    rw [hf0]
    linarith
  have := hmin'.hasDerivAt_eq_zero (hfd0.add (hd0 hsep))
  linarith

/-! ### Ground states with norm-conserving pseudopotentials -/

/-- C129 for valence electrons: the least total energy along a motion of the atoms, the repulsion of the ions included,
is continuous as long as no two ions collide, and differentiable at almost every such time; its derivative there is the
derivative of the energy of any ground state with its waves and occupations held fixed, less the power of the forces
between the ions. -/
theorem groundNC_forces (lib : XcLib) (xt : String) (jn : SphBessel) (cs : Spline) (eigh : Eigh) (sph : SphHarm)
    (P : NcLists) {m nk : ℕ} (hm : 0 < m) {n : Fin 3 → ℕ} (hn : ∀ i, 0 < n i) (sp : Fin m → NlSpecies nk n)
    (A : Matrix (Fin 3) (Fin 3) ℝ) (hA : A.det ≠ 0) (kpts : Fin nk → Fin 3 → ℝ) {ns nb : ℕ}
    (mask : Idx n → Bool) (ne spin : ℤ) (r : Bool) (method : String) (T eps : ℝ)
    (pos v : Fin m → Fin 3 → ℝ) (q : Fin m → ℝ) (vloc : ℝ → Idx n → ℂ)
    (hloc : ∀ t, localReciprocal jn cs (ncLocalAtom P fun a d => pos a d + t * v a d) (gVectors A n) |A.det| "sbt"
      = .ok (vloc t))
    (eta cutoff : ℝ) (h0 : 0 < cutoff) (F E : ℝ → ℝ)
    (hF : ∀ t, IsGLB (Spec.freeEnergies (ns := ns) (nk := nk) (nb := nb) T eps mask ne spin r method
        (Spec.EnergyNC lib xt (vloc t) (nlPsiAll eigh sph sp (fun a d => pos a d + t * v a d) (gVectors A n) kpts)
          (gVectors A n) kpts |A.det|)) (F t))
    (hE : ∀ t, nuclearRepulsion Spec.erfc (fun a d => pos a d + t * v a d) q A (gVectors A n) |A.det| eta cutoff
      = .ok (E t)) :
    (∀ t, Spec.Separated A (fun a d => pos a d + t * v a d) → ContinuousAt (fun t => F t + E t) t) ∧
    (∀ᵐ t, Spec.Separated A (fun a d => pos a d + t * v a d) → DifferentiableAt ℝ (fun t => F t + E t) t) ∧
    ∀ t, Spec.Separated A (fun a d => pos a d + t * v a d) → DifferentiableAt ℝ (fun t => F t + E t) t →
      ∀ (c : Coef ns nk nb n) (occ : Occ ns nk nb) e,
      Spec.GroundWithin 0 T eps mask ne spin r method
        (Spec.EnergyNC lib xt (vloc t) (nlPsiAll eigh sph sp (fun a d => pos a d + t * v a d) (gVectors A n) kpts)
          (gVectors A n) kpts |A.det|) c occ e →
      ∃ (f : ℝ → ℝ) (f' : ℝ), (∀ s, Spec.EnergyNC lib xt (vloc s) (nlPsiAll eigh sph sp (fun a d => pos a d + s * v a d)
          (gVectors A n) kpts) (gVectors A n) kpts |A.det| c occ (f s)) ∧ HasDerivAt f f' t ∧
        HasDerivAt (fun t => F t + E t) (f' - ∑ a, ∑ d, Spec.ewaldForce (flatRows (translationVectors A cutoff))
          (Finset.univ.filter fun k : Idx n => ∃ i, (k i : ℕ) ≠ 0) (gVectors A n) |A.det| eta
          (fun a d => pos a d + t * v a d) q a d * v a d) t := by
  obtain ⟨E', hE', hd⟩ := repulsion_slope q (gVectors A n) |A.det| eta cutoff h0 A hA pos v
  obtain rfl : E' = E := funext fun t => Except.ok.inj ((hE' t).symm.trans (hE t))
  obtain ⟨K, hK, h⟩ := groundNC_hellmannFeynman lib xt jn cs eigh sph P hm hn sp (gVectors A n) kpts |A.det| (abs_pos.2 hA)
  obtain ⟨k1, k2, k3⟩ := h ns nb mask ne spin r method T eps pos v vloc hloc F hF
  have hL : Continuous F := by
    refine (LipschitzWith.of_dist_le_mul (K := Real.toNNReal (ne * K * ∑ a, Spec.length (v a))) fun t t' => ?_).continuous
    rw [Real.dist_eq, Real.dist_eq]
    exact (k1 t t').trans (mul_le_mul_of_nonneg_right (Real.le_coe_toNNReal _) (abs_nonneg _))
  refine ⟨fun t hs => hL.continuousAt.add (hd t hs).continuousAt, ?_, fun t hs ht c occ e hgr => ?_⟩
  · filter_upwards [k2] with t ht hs
    exact ht.add (hd t hs).differentiableAt
  · have hFt : DifferentiableAt ℝ F t := by
      have := ht.fun_sub (hd t hs).differentiableAt
      simpa using this
    obtain ⟨f, hf, hfd⟩ := k3 t hFt c occ e hgr
    exact ⟨f, _, hf, hfd, hFt.hasDerivAt.add (hd t hs)⟩

/-- C129 for valence electrons: at an equilibrium, for every ground state the work of the electrons — the derivative of
the energy of its waves and occupations held fixed — and the work of the forces between the ions cancel. -/
theorem groundNC_equilibrium (lib : XcLib) (xt : String) (jn : SphBessel) (cs : Spline) (eigh : Eigh) (sph : SphHarm)
    (P : NcLists) {m nk : ℕ} (hm : 0 < m) {n : Fin 3 → ℕ} (hn : ∀ i, 0 < n i) (sp : Fin m → NlSpecies nk n)
    (A : Matrix (Fin 3) (Fin 3) ℝ) (hA : A.det ≠ 0) (kpts : Fin nk → Fin 3 → ℝ) {ns nb : ℕ}
    (mask : Idx n → Bool) (ne spin : ℤ) (r : Bool) (method : String) (T eps : ℝ)
    (pos v : Fin m → Fin 3 → ℝ) (q : Fin m → ℝ) (vloc : ℝ → Idx n → ℂ)
    (hloc : ∀ t, localReciprocal jn cs (ncLocalAtom P fun a d => pos a d + t * v a d) (gVectors A n) |A.det| "sbt"
      = .ok (vloc t))
    (eta cutoff : ℝ) (h0 : 0 < cutoff) (F E : ℝ → ℝ)
    (hF : ∀ t, IsGLB (Spec.freeEnergies (ns := ns) (nk := nk) (nb := nb) T eps mask ne spin r method
        (Spec.EnergyNC lib xt (vloc t) (nlPsiAll eigh sph sp (fun a d => pos a d + t * v a d) (gVectors A n) kpts)
          (gVectors A n) kpts |A.det|)) (F t))
    (hE : ∀ t, nuclearRepulsion Spec.erfc (fun a d => pos a d + t * v a d) q A (gVectors A n) |A.det| eta cutoff
      = .ok (E t)) (hmin : IsLocalMin (fun t => F t + E t) 0) (hsep : Spec.Separated A pos)
    (c : Coef ns nk nb n) (occ : Occ ns nk nb) (e : ℝ)
    (hgr : Spec.GroundWithin 0 T eps mask ne spin r method
      (Spec.EnergyNC lib xt (vloc 0) (nlPsiAll eigh sph sp pos (gVectors A n) kpts) (gVectors A n) kpts |A.det|) c occ e) :
    ∃ f : ℝ → ℝ, (∀ t, Spec.EnergyNC lib xt (vloc t) (nlPsiAll eigh sph sp (fun a d => pos a d + t * v a d)
        (gVectors A n) kpts) (gVectors A n) kpts |A.det| c occ (f t)) ∧
      HasDerivAt f (∑ a, ∑ d, Spec.ewaldForce (flatRows (translationVectors A cutoff))
        (Finset.univ.filter fun k : Idx n => ∃ i, (k i : ℕ) ≠ 0) (gVectors A n) |A.det| eta pos q a d * v a d) 0 := by
  have hpos : (fun a d => pos a d + (0 : ℝ) * v a d) = pos := by
    funext a d
    ring
  obtain ⟨E', hE', hd⟩ := repulsion_slope q (gVectors A n) |A.det| eta cutoff h0 A hA pos v
  obtain rfl : E' = E := funext fun t => Except.ok.inj ((hE' t).symm.trans (hE t))
  have hd0 := hd 0
  simp only [hpos] at hd0
  have hv0 := hgr.value
  obtain ⟨f, hf, hfd⟩ := energyNC_slope lib xt jn cs eigh sph P hm hn sp (gVectors A n) kpts |A.det| pos v vloc hloc c occ
    0 e (by simpa only [hpos] using hv0)
  refine ⟨f, hf, ?_⟩
  have hf0 : f 0 = e := by
    obtain ⟨x1, x2, x3, x4, y1, y2, y3, y4, y5⟩ := hf 0
    obtain ⟨x1', x2', x3', x4', z1, z2, z3, z4, z5⟩ := hgr.value
    simp only [hpos] at y1 y2 y3 y4
    obtain rfl := Except.ok.inj (y1.symm.trans z1)
    obtain rfl := Except.ok.inj (y2.symm.trans z2)
    obtain rfl := Except.ok.inj (y3.symm.trans z3)
    obtain rfl := Except.ok.inj (y4.symm.trans z4)
    rw [y5, z5]
  set S := T * Spec.smearingEntropy eps ((3 - (ns : ℝ)) / nk) occ with hS
  have hF0 : F 0 = e - S := by
    have := hF 0
    simp only [hpos] at this
    exact this.unique (ground_isGLB hgr)
  have hup : ∀ t, F t ≤ f t - S := fun t => (hF t).1 ⟨c, occ, f t, hgr.physical, hgr.given, hf t, rfl⟩
  have hmin' : IsLocalMin (fun t => f t + E' t) 0 := by
    filter_upwards [hmin] with t ht
    have := hup t
    rw [hF0] at ht
    rw [hf0]
    linarith
  have h1 := hmin'.hasDerivAt_eq_zero ((hfd 0).hasDerivAt.add (hd0 hsep))
  have h2 : deriv f 0 = ∑ a, ∑ d, Spec.ewaldForce (flatRows (translationVectors A cutoff))
        (Finset.univ.filter fun k : Idx n => ∃ i, (k i : ℕ) ≠ 0) (gVectors A n) |A.det| eta pos q a d * v a d := by
    linarith
  rw [← h2]
  exact (hfd 0).hasDerivAt

/-! ### Whole calculations -/

private theorem repulsion_near_pos {m : ℕ} (erfc : ℝ → ℝ) (herfc : Continuous erfc) (q : Fin m → ℝ) (n : Fin 3 → ℕ)
    (eta cutoff : ℝ) (h0 : 0 < cutoff) (A : Matrix (Fin 3) (Fin 3) ℝ) (hA : A.det ≠ 0) (pos : Fin m → Fin 3 → ℝ)
    (hsep : Spec.Separated A pos) (δ : ℝ) (hδ : 0 < δ) :
    ∃ e, nuclearRepulsion erfc pos q A (gVectors A n) |A.det| eta cutoff = .ok e ∧ ∃ η, 0 < η ∧
      ∀ pos' : Fin m → Fin 3 → ℝ, (∀ i d, |pos' i d - pos i d| < η) →
      ∃ e', nuclearRepulsion erfc pos' q A (gVectors A n) |A.det| eta cutoff = .ok e' ∧ |e - e'| < δ := by
  have hc := ewald_continuous erfc herfc q n eta (translationCount A cutoff).toNat (A, pos) hA hsep
  have hc' : ContinuousAt (fun p : Fin m → Fin 3 → ℝ => ewald erfc p q (gVectors A n) |A.det| eta
      (flatRows (translationVectors A cutoff))) pos :=
    ContinuousAt.comp (f := fun p : Fin m → Fin 3 → ℝ => ((A, p) : Geometry m)) hc
      (continuous_const.prodMk continuous_id).continuousAt
  obtain ⟨η, hη, hball⟩ := Metric.continuousAt_iff.1 hc' δ hδ
  refine ⟨_, repulsion_value _ q A hA _ _ eta cutoff h0, η, hη, fun pos' h => ⟨_, repulsion_value _ q A hA _ _ eta cutoff
    h0, ?_⟩⟩
  have := hball (x := pos') ((dist_pi_lt_iff hη).2 fun i => (dist_pi_lt_iff hη).2 fun d => by
    rw [Real.dist_eq]; exact h i d)
  rw [dist_comm, Real.dist_eq] at this
  exact this

private theorem length_small {x : Fin 3 → ℝ} {η : ℝ} (h : ∀ d, |x d| ≤ η) (hη : 0 ≤ η) : Spec.length x ≤ 2 * η := by
  unfold Spec.length
  rw [Real.sqrt_le_left (by linarith), Fin.sum_univ_three]
  have h1 := sq_le_sq' (abs_le.1 (h 0)).1 (abs_le.1 (h 0)).2
  have h2 := sq_le_sq' (abs_le.1 (h 1)).1 (abs_le.1 (h 1)).2
  have h3 := sq_le_sq' (abs_le.1 (h 2)).1 (abs_le.1 (h 2)).2
  nlinarith [sq_nonneg η]

/-- C129, whole calculations: when the atoms are displaced little enough, the calculation succeeds as before and its
total energy, the repulsion of the nuclei included, changes as little as one likes, up to the accuracy of the optimiser
and, with smearing, `2 T log 2` per band.  Nothing is asked of the cell or the cutoffs. -/
theorem run_position_continuous (L : RunLib) (cfg : RunConfig) {m : ℕ} (a : AseAtoms m)
    (size ksize : Fin 3 → ℤ) (ne spin : ℤ) (H : Spec.AdmissibleRun L cfg a size ksize ne spin)
    (hC : Spec.Triangular L.qrC) (hR : Spec.Triangular L.qrR) (hxc : Spec.ContinuousXc L.xc cfg.xc)
    (heps : 0 < cfg.eps) (hspin : cfg.occupation = "simplex-projector" → cfg.restricted = true → spin = 0)
    (hg : cfg.occupation = "gamma" → ∀ i, ksize i ≤ 1)
    (ε : ℝ) (hopt : ∀ opt, L.optimizer = .ok opt → Spec.NearOptimizer ε opt)
    (he : 3 ≤ cfg.epoch) (hw : 2 ≤ cfg.window) (hq : cfg.threshold ≤ 0 ∨ cfg.smearing ≤ 0)
    (herfc : Continuous L.erfc)
    (hsep : Spec.Separated ((angstrom2bohr : ℝ) • a.cell) fun i d => (angstrom2bohr : ℝ) * a.positions i d)
    (δ : ℝ) (hδ : 0 < δ) :
    ∃ n rep, Spec.LeastGrid size n ∧ runAtoms L cfg a = .ok ⟨n, rep⟩ ∧ ∃ η, 0 < η ∧
      ∀ p : Fin m → Fin 3 → ℝ, (∀ i d, |p i d - a.positions i d| < η) →
      ∃ rep', runAtoms L cfg { a with positions := p } = .ok ⟨n, rep'⟩ ∧
        |rep.total - rep'.total|
          ≤ δ + 2 * max cfg.smearing 0 * ((ne.toNat + 1) / 2 + cfg.emptyBands : ℕ) * Real.log 2 + ε := by
  set A : Matrix (Fin 3) (Fin 3) ℝ := (angstrom2bohr : ℝ) • a.cell with hA
  obtain ⟨n, rep, -, h1, h2, -, -⟩ := run_displaced L cfg a a.positions size ksize ne spin H hC hR hxc heps hspin hg ε hopt
    A hA he hw hq
  have hdet : A.det ≠ 0 := fromAse_det a cfg.spin H.cell
  have hbohr : (0 : ℝ) < angstrom2bohr := by norm_num [angstrom2bohr]
  obtain ⟨e, h4, η₂, hη₂, h5⟩ := repulsion_near_pos L.erfc herfc (fun i => (a.numbers i : ℝ)) n cfg.ewaldEta
    cfg.ewaldCutoff H.ewald A hdet (fun i d => (angstrom2bohr : ℝ) * a.positions i d) hsep (δ / 2) (by linarith)
  have hrep : rep.repulsion = e := by
    have := run_repulsion L cfg a H.cell H.ewald h2
    rw [runRepulsion_eq] at this
    exact Except.ok.inj (this.symm.trans h4)
  set K : ℝ := abs ((ne : ℝ) * Spec.forceBound (gVectors A n) |A.det|) * ∑ i, |(a.numbers i : ℝ)| * (angstrom2bohr * 2) with hK
  have hK0 : 0 ≤ K := mul_nonneg (abs_nonneg _) (Finset.sum_nonneg fun i _ => by positivity)
  refine ⟨n, rep, h1, h2, min (δ / (2 * (K + 1))) (η₂ / angstrom2bohr), lt_min (by positivity) (by positivity), fun p hp => ?_⟩
  obtain ⟨n', rep₁, rep', k1, k2, k3, k4⟩ := run_displaced L cfg a p size ksize ne spin H hC hR hxc heps hspin hg ε hopt
    A hA he hw hq
  have hnn : n' = n := leastGrid_unique h1 k1
  subst n'
  obtain rfl := eq_of_heq (Sigma.mk.inj (Except.ok.inj (h2.symm.trans k2))).2
  refine ⟨rep', k3, ?_⟩
  obtain ⟨e', k5, k6⟩ := h5 (fun i d => (angstrom2bohr : ℝ) * p i d) fun i d => by
    rw [← mul_sub, abs_mul, abs_of_pos hbohr, mul_comm]
    exact (lt_div_iff₀ hbohr).1 ((hp i d).trans_le (min_le_right _ _))
  have hrep' : rep'.repulsion = e' := by
    have := run_repulsion L cfg { a with positions := p } H.cell H.ewald k3
    rw [runRepulsion_eq] at this
    exact Except.ok.inj (this.symm.trans k5)
  have hbound : ne * Spec.forceBound (gVectors A n) |A.det| *
      (∑ i, |(a.numbers i : ℝ)| * (angstrom2bohr * Spec.length (fun d => a.positions i d - p i d))) ≤ δ / 2 := by
    have hη : 0 ≤ δ / (2 * (K + 1)) := by positivity
    have s1 : ∑ i, |(a.numbers i : ℝ)| * (angstrom2bohr * Spec.length (fun d => a.positions i d - p i d))
        ≤ (∑ i, |(a.numbers i : ℝ)| * (angstrom2bohr * 2)) * (δ / (2 * (K + 1))) := by
      rw [Finset.sum_mul]
      refine Finset.sum_le_sum fun i _ => ?_
      have := length_small (x := fun d => a.positions i d - p i d) (fun d => by
        rw [abs_sub_comm]; exact ((hp i d).trans_le (min_le_left _ _)).le) hη
      rw [mul_assoc, mul_assoc]
      exact mul_le_mul_of_nonneg_left (mul_le_mul_of_nonneg_left this hbohr.le) (abs_nonneg _)
    have s0 : 0 ≤ ∑ i, |(a.numbers i : ℝ)| * (angstrom2bohr * Spec.length (fun d => a.positions i d - p i d)) :=
      Finset.sum_nonneg fun i _ => mul_nonneg (abs_nonneg _) (mul_nonneg hbohr.le (Real.sqrt_nonneg _))
    calc _ ≤ abs ((ne : ℝ) * Spec.forceBound (gVectors A n) |A.det|) *
          (∑ i, |(a.numbers i : ℝ)| * (angstrom2bohr * Spec.length (fun d => a.positions i d - p i d))) :=
          mul_le_mul_of_nonneg_right (le_abs_self _) s0
      _ ≤ abs ((ne : ℝ) * Spec.forceBound (gVectors A n) |A.det|) *
          ((∑ i, |(a.numbers i : ℝ)| * (angstrom2bohr * 2)) * (δ / (2 * (K + 1)))) :=
          mul_le_mul_of_nonneg_left s1 (abs_nonneg _)
      _ = K * (δ / (2 * (K + 1))) := by rw [hK]; ring
      _ ≤ (K + 1) * (δ / (2 * (K + 1))) := mul_le_mul_of_nonneg_right (by linarith) hη
      _ = δ / 2 := by field_simp
  rw [hrep, hrep'] at k4
  rw [abs_le] at k4 ⊢
  rw [abs_lt] at k6
  constructor <;> linarith [k4.1, k4.2, k6.1, k6.2]

/-- C129, whole calculations with norm-conserving pseudopotentials. -/
theorem ncRun_position_continuous (L : NcLib) (cfg : NcConfig) {m : ℕ} (a : AseAtoms m) (size ksize : Fin 3 → ℤ)
    (P : NcLists) (ne spin : ℤ) (H : Spec.AdmissibleRunNC L cfg a size ksize P ne spin)
    (hC : Spec.Triangular L.qrC) (hR : Spec.Triangular L.qrR) (hxc : Spec.ContinuousXc L.xc cfg.xc)
    (heps : 0 < cfg.eps) (hspin : cfg.occupation = "simplex-projector" → cfg.restricted = true → spin = 0)
    (hg : cfg.occupation = "gamma" → ∀ i, ksize i ≤ 1)
    (he : 3 ≤ cfg.epoch) (hw : 2 ≤ cfg.window) (hq : cfg.threshold ≤ 0 ∨ cfg.smearing ≤ 0)
    (herfc : Continuous L.erfc)
    (hsep : Spec.Separated ((angstrom2bohr : ℝ) • a.cell) fun i d => (angstrom2bohr : ℝ) * a.positions i d)
    (δ : ℝ) (hδ : 0 < δ) :
    ∃ n η, Spec.LeastGrid size n ∧ 0 < η ∧ ∀ (opt : Optimizer) (ε : ℝ), Spec.NearOptimizer ε opt →
      (∀ {ns nk g nb : ℕ} (f : GsParams ns nk g nb → Except PyErr ℝ) (p : GsParams ns nk g nb × opt.State),
        Spec.KeepsShape p.1.occ (opt.step f p).1.occ) →
      ∀ p : Fin m → Fin 3 → ℝ, (∀ i d, |p i d - a.positions i d| < η) → ∃ rep rep',
        runAtomsNC { L with optimizer := .ok opt } cfg a = .ok ⟨n, rep⟩ ∧
        runAtomsNC { L with optimizer := .ok opt } cfg { a with positions := p } = .ok ⟨n, rep'⟩ ∧
        |rep.total - rep'.total|
          ≤ δ + 2 * max cfg.smearing 0 * ((ne.toNat + 1) / 2 + cfg.emptyBands : ℕ) * Real.log 2 + ε := by
  set A : Matrix (Fin 3) (Fin 3) ℝ := (angstrom2bohr : ℝ) • a.cell with hA
  obtain ⟨n, K, h1, hK0, h2⟩ := ncRun_displaced L cfg a size ksize P ne spin H hC hR hxc heps hspin hg he hw hq
  have hdet : A.det ≠ 0 := fromAse_det a cfg.spin H.cell
  have hbohr : (0 : ℝ) < angstrom2bohr := by norm_num [angstrom2bohr]
  obtain ⟨e, h4, η₂, hη₂, h5⟩ := repulsion_near_pos L.erfc herfc (fun i => (a.numbers i : ℝ)) n cfg.ewaldEta
    cfg.ewaldCutoff H.ewald A hdet (fun i d => (angstrom2bohr : ℝ) * a.positions i d) hsep (δ / 2) (by linarith)
  set B : ℝ := K * (m * 2) with hB
  have hB0 : 0 ≤ B := by positivity
  refine ⟨n, min (δ / (2 * (B + 1))) (η₂ / angstrom2bohr), h1, lt_min (by positivity) (by positivity),
    fun opt ε hopt hkeep p hp => ?_⟩
  obtain ⟨rep, rep', k2, k3, k4⟩ := h2 opt ε hopt hkeep a.positions p
  refine ⟨rep, rep', k2, k3, ?_⟩
  have hrep : rep.repulsion = e := by
    have := ncRun_repulsion { L with optimizer := .ok opt } cfg a H.cell H.ewald k2
    rw [runRepulsion_eq] at this
    exact Except.ok.inj (this.symm.trans h4)
  obtain ⟨e', k5, k6⟩ := h5 (fun i d => (angstrom2bohr : ℝ) * p i d) fun i d => by
    rw [← mul_sub, abs_mul, abs_of_pos hbohr, mul_comm]
    exact (lt_div_iff₀ hbohr).1 ((hp i d).trans_le (min_le_right _ _))
  have hrep' : rep'.repulsion = e' := by
    have := ncRun_repulsion { L with optimizer := .ok opt } cfg { a with positions := p } H.cell H.ewald k3
    rw [runRepulsion_eq] at this
    exact Except.ok.inj (this.symm.trans k5)
  have hbound : K * (∑ i, Spec.length (fun d => a.positions i d - p i d)) ≤ δ / 2 := by
    have hη : 0 ≤ δ / (2 * (B + 1)) := by positivity
    have s1 : ∑ i, Spec.length (fun d => a.positions i d - p i d) ≤ ∑ _i : Fin m, 2 * (δ / (2 * (B + 1))) :=
      Finset.sum_le_sum fun i _ => length_small (fun d => by
        rw [abs_sub_comm]; exact ((hp i d).trans_le (min_le_left _ _)).le) hη
    rw [Finset.sum_const, Finset.card_univ, Fintype.card_fin, nsmul_eq_mul] at s1
    calc _ ≤ K * (m * (2 * (δ / (2 * (B + 1))))) := mul_le_mul_of_nonneg_left s1 hK0
      _ = B * (δ / (2 * (B + 1))) := by rw [hB]; ring
      _ ≤ (B + 1) * (δ / (2 * (B + 1))) := mul_le_mul_of_nonneg_right (by linarith) hη
      _ = δ / 2 := by field_simp
  rw [hrep, hrep'] at k4
  rw [abs_le] at k4 ⊢
  rw [abs_lt] at k6
  constructor <;> linarith [k4.1, k4.2, k6.1, k6.2]

/-! ### Concrete cases -/

/-- The hypotheses of `run_position_continuous` hold for the lithium atom. -/
example {ε δ : ℝ} (hε : 0 < ε) (hδ : 0 < δ) :
    let L : RunLib := { lithiumLib diracLib with
      erfc := Spec.erfc, qrC := gramSchmidtQR ℂ, qrR := gramSchmidtQR ℝ, optimizer := .ok (nearOptimizer ε) }
    ∃ n rep, runAtoms L lithiumConfig (⟨fun _ => 3, 0, 1⟩ : AseAtoms 1) = .ok ⟨n, rep⟩ ∧ ∃ η, 0 < η ∧
      ∀ p : Fin 1 → Fin 3 → ℝ, (∀ i d, |p i d| < η) →
      ∃ rep', runAtoms L lithiumConfig (⟨fun _ => 3, p, 1⟩ : AseAtoms 1) = .ok ⟨n, rep'⟩ ∧
        |rep.total - rep'.total| ≤ δ + ε := by
  intro L
  obtain ⟨n, rep, -, h1, η, hη, h2⟩ := run_position_continuous L lithiumConfig (⟨fun _ => 3, 0, 1⟩ : AseAtoms 1)
    (fun _ => 4) (fun _ => 2) 3 1
    { lithium_admissible diracLib with optimizer := ⟨nearOptimizer ε, rfl, nearOptimizer_keeps ε⟩ }
    (gramSchmidtQR_triangular ℂ) (gramSchmidtQR_triangular ℝ) diracLib_continuous (by norm_num [lithiumConfig])
    (fun _ h => absurd h (by decide)) (fun h => absurd h (by decide)) ε
    (fun o ho => by cases Except.ok.inj ho; exact nearOptimizer_near hε) (by decide) (by decide) (Or.inr le_rfl)
    erfc_continuous lithium_separated δ hδ
  refine ⟨n, rep, h1, η, hη, fun p hp => ?_⟩
  obtain ⟨rep', h3, h4⟩ := h2 p fun i d => by simpa using hp i d
  exact ⟨rep', h3, by simpa [lithiumConfig] using h4⟩

/-- The hypotheses of `ncRun_position_continuous` hold for the silicon pair. -/
example (eigh : Eigh) (jn : SphBessel) (csLoc csBeta : Spline) {δ : ℝ} (hδ : 0 < δ) :
    ∃ n η, 0 < η ∧ ∀ ε, 0 < ε → ∀ p : Fin 2 → Fin 3 → ℝ, (∀ i d, |p i d - siliconAtoms.positions i d| < η) →
    let L : NcLib := { siliconLib diracLib eigh jn csLoc csBeta with
      erfc := Spec.erfc, qrC := gramSchmidtQR ℂ, qrR := gramSchmidtQR ℝ, optimizer := .ok (nearOptimizer ε) }
    ∃ rep rep', runAtomsNC L siliconConfig siliconAtoms = .ok ⟨n, rep⟩ ∧
      runAtomsNC L siliconConfig { siliconAtoms with positions := p } = .ok ⟨n, rep'⟩ ∧
      |rep.total - rep'.total| ≤ δ + ε := by
  obtain ⟨P, H⟩ := silicon_admissible diracLib eigh jn csLoc csBeta
  obtain ⟨n, η, -, hη, h⟩ := ncRun_position_continuous { siliconLib diracLib eigh jn csLoc csBeta with
      erfc := Spec.erfc, qrC := gramSchmidtQR ℂ, qrR := gramSchmidtQR ℝ } siliconConfig siliconAtoms (fun _ => 4)
    (fun _ => 2) P 4 0
    { H with } (gramSchmidtQR_triangular ℂ) (gramSchmidtQR_triangular ℝ) diracLib_continuous
    (by norm_num [siliconConfig, lithiumConfig]) (fun _ _ => rfl) (fun h => absurd h (by decide)) (by decide) (by decide)
    (Or.inr le_rfl) erfc_continuous silicon_separated δ hδ
  refine ⟨n, η, hη, fun ε hε p hp => ?_⟩
  obtain ⟨rep, rep', h1, h2, h3⟩ := h (nearOptimizer ε) ε (nearOptimizer_near hε) (nearOptimizer_keeps ε) p hp
  refine ⟨rep, rep', h1, h2, ?_⟩
  simpa [siliconConfig, lithiumConfig] using h3

private theorem periodic_min {f : ℝ → ℝ} (hf : Continuous f) (hp : ∀ t, f (t + 1) = f t) : ∃ t₀, ∀ t, f t₀ ≤ f t := by
  obtain ⟨t₀, -, h⟩ := isCompact_Icc.exists_isMinOn (s := Set.Icc (0 : ℝ) 1) ⟨0, by simp⟩ hf.continuousOn
  refine ⟨t₀, fun t => ?_⟩
  have hper : Function.Periodic f 1 := hp
  have h1 : f (Int.fract t) = f t := by
    have := hper.sub_zsmul_eq (x := t) ⌊t⌋
    rw [zsmul_eq_mul, mul_one] at this
    rw [← this, Int.fract]
  rw [← h1]
  exact h ⟨Int.fract_nonneg t, (Int.fract_lt_one t).le⟩

/-- The hypotheses of `ground_forces` and of `ground_equilibrium` hold for the lithium atom on a line along its cell:
there is a place on the line where the total energy is least. -/
example : ∃ (n kn : Fin 3 → ℕ) (mask : Idx n → Bool) (F E : ℝ → ℝ) (p v : Fin 1 → Fin 3 → ℝ), (∀ i, 0 < n i) ∧ v ≠ 0 ∧
    let A : Matrix (Fin 3) (Fin 3) ℝ := (angstrom2bohr : ℝ) • 1
    A.det ≠ 0 ∧ (∀ t : ℝ, Spec.Separated A fun a d => p a d + t * v a d) ∧
    (∀ t, IsGLB (Spec.freeEnergies (ns := 2) (nk := (idxList kn).length) (nb := 4) 0 lithiumConfig.eps mask 3 1 false
      lithiumConfig.occupation fun c occ e => totalEnergy diracLib c (fun (a : Fin 1) d => p a d + t * v a d) (fun _ => 3)
        (gVectors A n) (flatRows (kVectors A kn)) |A.det| (some occ) false lithiumConfig.xc = .ok e) (F t)) ∧
    (∀ t, nuclearRepulsion Spec.erfc (fun (a : Fin 1) d => p a d + t * v a d) (fun _ => 3) A (gVectors A n) |A.det| 1 1
      = .ok (E t)) ∧
    IsLocalMin (fun t => F t + E t) 0 ∧
    ∃ c occ e, Spec.GroundWithin (ns := 2) (nk := (idxList kn).length) (nb := 4) 0 0 lithiumConfig.eps mask 3 1 false
      lithiumConfig.occupation (fun c occ e => totalEnergy diracLib c p (fun _ => 3)
        (gVectors A n) (flatRows (kVectors A kn)) |A.det| (some occ) false lithiumConfig.xc = .ok e) c occ e := by
  have hb : (0 : ℝ) < angstrom2bohr := by norm_num [angstrom2bohr]
  set w : Fin 3 → ℝ := fun d => if d = 0 then (angstrom2bohr : ℝ) else 0 with hw
  obtain ⟨n, kn, mask, F, hn, hdet, h⟩ := lithium_moving w
  set A : Matrix (Fin 3) (Fin 3) ℝ := (angstrom2bohr : ℝ) • 1 with hA
  have hdet' : A.det ≠ 0 := abs_pos.1 hdet
  have hsep : ∀ (p : Fin 1 → Fin 3 → ℝ), Spec.Separated A p := fun p i j z hz => by
    have h0 := lithium_separated i j z hz
    obtain rfl : i = j := Subsingleton.elim _ _
    simpa using h0
  obtain ⟨E, hE, -⟩ := repulsion_slope (fun _ => 3) (gVectors A n) |A.det| 1 1 one_pos A hdet'
    (fun (_ : Fin 1) _ => (0 : ℝ)) (fun _ => w)
  obtain ⟨hcont, -, -⟩ := ground_forces diracLib hn mask 3 1 false lithiumConfig.occupation 0 lithiumConfig.eps
    (fun (_ : Fin 1) _ => (0 : ℝ)) (fun _ => w) (fun _ => 3) A hdet' _ lithiumConfig.xc 1 1 one_pos F E
    (fun t => (h t).1) hE
  have hper : ∀ t, F (t + 1) + E (t + 1) = F t + E t := by
    intro t
    have hlat : Spec.IsLatticeVector A w := ⟨fun i => if i = 0 then 1 else 0, fun d => by
      fin_cases d <;> simp [hw, hA, Fin.sum_univ_three, Matrix.one_apply]⟩
    have hEE : E (t + 1) = E t := by
      have h1 := (hE (t + 1)).symm
      rw [repulsion_value _ _ A hdet' _ _ 1 1 one_pos] at h1
      have h2 := (hE t).symm
      rw [repulsion_value _ _ A hdet' _ _ 1 1 one_pos] at h2
      rw [Except.ok.inj h1, Except.ok.inj h2]
      have h3 := ewald_translate Spec.erfc (fun (_ : Fin 1) d => 0 + t * w d) (fun _ => 3) (gVectors A n) |A.det| 1
        (flatRows (translationVectors A 1)) w
      rw [← h3]
      congr 1
      funext a d
      ring
    have hFF : F (t + 1) = F t := by
      refine (h (t + 1)).1.unique ?_
      have hen : ∀ (c : Coef 2 (idxList kn).length 4 n) occ e,
          (totalEnergy diracLib c (fun (_ : Fin 1) d => 0 + (t + 1) * w d) (fun _ => 3) (gVectors A n)
            (flatRows (kVectors A kn)) |A.det| (some occ) false lithiumConfig.xc = .ok e)
          = (totalEnergy diracLib c (fun (_ : Fin 1) d => 0 + t * w d) (fun _ => 3) (gVectors A n)
            (flatRows (kVectors A kn)) |A.det| (some occ) false lithiumConfig.xc = .ok e) := fun c occ e => by
        rw [totalEnergy_lattice diracLib A hdet' c (fun (_ : Fin 1) d => 0 + t * w d) _ _ _ _ _ _ _ fun a => by
          have : (fun d => 0 + (t + 1) * w d - (0 + t * w d)) = w := by
            funext d
            ring
          rw [this]
          exact hlat]
      simp only [hen]
      exact (h t).1
    rw [hEE, hFF]
  obtain ⟨t₀, ht₀⟩ := periodic_min (f := fun t => F t + E t)
    (continuous_iff_continuousAt.2 fun t => hcont t (hsep _)) hper
  have hline : ∀ s : ℝ, (fun (_ : Fin 1) d => t₀ * w d + s * w d) = fun _ d => 0 + (t₀ + s) * w d := fun s => by
    funext a d
    ring
  refine ⟨n, kn, mask, fun s => F (t₀ + s), fun s => E (t₀ + s), fun _ d => t₀ * w d, fun _ => w, hn, ?_, ?_⟩
  · intro h0
    have := congrFun (congrFun h0 0) 0
    simp [hw] at this
    exact hb.ne' (by exact_mod_cast this)
  · refine ⟨hdet', fun t => hsep _, fun t => ?_, fun t => ?_, ?_, ?_⟩
    · rw [hline t]
      exact (h (t₀ + t)).1
    · rw [hline t]
      exact hE (t₀ + t)
    · refine Filter.Eventually.of_forall fun s => ?_
      simpa using ht₀ (t₀ + s)
    · obtain ⟨c, occ, e, hg⟩ := (h t₀).2
      refine ⟨c, occ, e, ?_⟩
      have : (fun (_ : Fin 1) d => t₀ * w d) = fun _ d => 0 + t₀ * w d := by
        funext a d
        ring
      rw [this]
      exact hg

/-- The hypotheses of `groundNC_forces` and of `groundNC_equilibrium` hold for the silicon pair on its way along its
cell: there is a place where the total energy is least. -/
example (eigh : Eigh) (jn : SphBessel) (csLoc csBeta : Spline) :
    let L : NcLib := siliconLib diracLib eigh jn csLoc csBeta
    let A : Matrix (Fin 3) (Fin 3) ℝ := (angstrom2bohr : ℝ) • siliconAtoms.cell
    ∃ (P : NcLists) (n kn : Fin 3 → ℕ) (mask : Idx n → Bool) (bs : List (BetaArr (idxList kn).length n))
      (vloc : ℝ → Idx n → ℂ) (F E : ℝ → ℝ) (p v : Fin 2 → Fin 3 → ℝ), (∀ i, 0 < n i) ∧ v ≠ 0 ∧ A.det ≠ 0 ∧
      (∀ t : ℝ, Spec.Separated A fun a d => p a d + t * v a d) ∧
      (∀ t, localReciprocal jn csLoc (ncLocalAtom P fun a d => p a d + t * v a d) (gVectors A n) |A.det| "sbt"
        = .ok (vloc t)) ∧
      (∀ t, IsGLB (Spec.freeEnergies (ns := 2) (nk := (idxList kn).length) (nb := 8) 0 siliconConfig.eps mask 4 0 false
        siliconConfig.occupation (Spec.EnergyNC diracLib siliconConfig.xc (vloc t) (nlPsiAll eigh L.sph
          (fun a : Fin 2 => ncSpecies P bs a) (fun a d => p a d + t * v a d) (gVectors A n) (flatRows (kVectors A kn)))
          (gVectors A n) (flatRows (kVectors A kn)) |A.det|)) (F t)) ∧
      (∀ t, nuclearRepulsion Spec.erfc (fun (a : Fin 2) d => p a d + t * v a d) (fun _ => 14) A (gVectors A n) |A.det| 1 1
        = .ok (E t)) ∧
      IsLocalMin (fun t => F t + E t) 0 ∧
      ∃ c occ e, Spec.GroundWithin (ns := 2) (nk := (idxList kn).length) (nb := 8) 0 0 siliconConfig.eps mask 4 0 false
        siliconConfig.occupation (Spec.EnergyNC diracLib siliconConfig.xc (vloc 0) (nlPsiAll eigh L.sph
          (fun a : Fin 2 => ncSpecies P bs a) p (gVectors A n) (flatRows (kVectors A kn)))
          (gVectors A n) (flatRows (kVectors A kn)) |A.det|) c occ e := by
  intro L A
  have hb : (0 : ℝ) < angstrom2bohr := by norm_num [angstrom2bohr]
  set w : Fin 3 → ℝ := fun d => if d = 0 then (angstrom2bohr : ℝ) else 0 with hw
  set p₀ : Fin 2 → Fin 3 → ℝ := fun i d => (angstrom2bohr : ℝ) * siliconAtoms.positions i d with hp₀
  obtain ⟨P, n, kn, mask, bs, vloc, F, hn, hdet, -, hloc, h⟩ := silicon_moving eigh jn csLoc csBeta p₀ fun _ => w
  have hdet' : A.det ≠ 0 := abs_pos.1 hdet
  have hsep : ∀ s : Fin 3 → ℝ, Spec.Separated A fun a d => p₀ a d + s d := fun s i j z hz => by
    have h0 := silicon_separated i j z hz
    have e : ∀ d, p₀ j d + s d - (p₀ i d + s d) - Spec.latticePoint A z d = p₀ j d - p₀ i d - Spec.latticePoint A z d :=
      fun d => by ring
    simp only [e]
    exact h0
  have hlat : Spec.IsLatticeVector A w := ⟨fun i => if i = 0 then 1 else 0, fun d => by
    show w d = ∑ i, ((if i = 0 then 1 else 0 : ℤ) : ℝ) * ((angstrom2bohr : ℝ) • (1 : Matrix (Fin 3) (Fin 3) ℝ)) i d
    fin_cases d <;> simp [hw, Fin.sum_univ_three, Matrix.one_apply]⟩
  obtain ⟨E, hE, -⟩ := repulsion_slope (fun _ => 14) (gVectors A n) |A.det| 1 1 one_pos A hdet' p₀ (fun _ => w)
  obtain ⟨hcont, -, -⟩ := groundNC_forces diracLib siliconConfig.xc jn csLoc eigh L.sph P two_pos hn
    (fun a : Fin 2 => ncSpecies P bs a) A hdet' (flatRows (kVectors A kn)) mask 4 0 false siliconConfig.occupation 0
    siliconConfig.eps p₀ (fun _ => w) (fun _ => 14) vloc hloc 1 1 one_pos F E (fun t => (h t).1) hE
  have hstep : ∀ t : ℝ, (fun (a : Fin 2) d => p₀ a d + (t + 1) * w d) = fun a => (fun d => p₀ a d + t * w d) + w := fun t => by
    funext a d
    rw [Pi.add_apply]
    ring
  have hper : ∀ t, F (t + 1) + E (t + 1) = F t + E t := by
    intro t
    have hEE : E (t + 1) = E t := by
      have h1 := (hE (t + 1)).symm
      rw [repulsion_value _ _ A hdet' _ _ 1 1 one_pos] at h1
      have h2 := (hE t).symm
      rw [repulsion_value _ _ A hdet' _ _ 1 1 one_pos] at h2
      rw [Except.ok.inj h1, Except.ok.inj h2]
      have h3 := ewald_translate Spec.erfc (fun (a : Fin 2) d => p₀ a d + t * w d) (fun _ => 14) (gVectors A n) |A.det| 1
        (flatRows (translationVectors A 1)) w
      rw [← h3]
      congr 1
      funext a d
      ring
    have hv : vloc (t + 1) = vloc t := by
      have h1 := hloc (t + 1)
      rw [hstep t] at h1
      have h2 := local_lattice jn csLoc A hdet' (n := n) (ncLocalAtom P fun a d => p₀ a d + t * w d) (fun _ => w)
        (fun _ => hlat) |A.det| "sbt"
      exact Except.ok.inj ((h1.symm.trans h2).trans (hloc t))
    have hFF : F (t + 1) = F t := by
      refine (h (t + 1)).1.unique ?_
      have hen : Spec.EnergyNC (ns := 2) (nb := 8) diracLib siliconConfig.xc (vloc (t + 1)) (nlPsiAll eigh L.sph
          (fun a : Fin 2 => ncSpecies P bs a) (fun a d => p₀ a d + (t + 1) * w d) (gVectors A n) (flatRows (kVectors A kn)))
          (gVectors A n) (flatRows (kVectors A kn)) |A.det|
          = Spec.EnergyNC diracLib siliconConfig.xc (vloc t) (nlPsiAll eigh L.sph
          (fun a : Fin 2 => ncSpecies P bs a) (fun a d => p₀ a d + t * w d) (gVectors A n) (flatRows (kVectors A kn)))
          (gVectors A n) (flatRows (kVectors A kn)) |A.det| := by
        funext c occ e
        unfold Spec.EnergyNC energyNonlocal
        rw [hv, hstep t]
        have h3 := nonlocal_lattice (ns := 2) (nb := 8) eigh L.sph A hdet' (fun a : Fin 2 => ncSpecies P bs a)
          (fun a d => p₀ a d + t * w d) (fun _ => w) (fun _ => hlat) (flatRows (kVectors A kn)) c |A.det|
        simp only [h3]
      rw [hen]
      exact (h t).1
    rw [hEE, hFF]
  obtain ⟨t₀, ht₀⟩ := periodic_min (f := fun t => F t + E t)
    (continuous_iff_continuousAt.2 fun t => hcont t (hsep fun d => t * w d)) hper
  have hline : ∀ s : ℝ, (fun (a : Fin 2) d => p₀ a d + t₀ * w d + s * w d) = fun a d => p₀ a d + (t₀ + s) * w d := fun s => by
    funext a d
    ring
  refine ⟨P, n, kn, mask, bs, fun s => vloc (t₀ + s), fun s => F (t₀ + s), fun s => E (t₀ + s),
    fun a d => p₀ a d + t₀ * w d, fun _ => w, hn, ?_, hdet', fun t => ?_, fun t => ?_, fun t => ?_, fun t => ?_, ?_, ?_⟩
  · intro h0
    have := congrFun (congrFun h0 0) 0
    simp [hw] at this
    exact hb.ne' (by exact_mod_cast this)
  · rw [hline t]
    exact hsep fun d => (t₀ + t) * w d
  · rw [hline t]
    exact hloc (t₀ + t)
  · rw [hline t]
    exact (h (t₀ + t)).1
  · rw [hline t]
    exact hE (t₀ + t)
  · refine Filter.Eventually.of_forall fun s => ?_
    simpa using ht₀ (t₀ + s)
  · simp only [add_zero]
    exact (h t₀).2

end Jrystal
