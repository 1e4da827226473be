import Verif.Lemmas.EnergyCont
import Mathlib.Topology.Instances.Matrix

/- Lemmas for C111: energies are continuous functions of geometry and state together. -/
namespace Jrystal
open scoped BigOperators ComplexConjugate

section
variable {X : Type*} [TopologicalSpace X] {S : Set X} {ns nk nb na : ℕ} {n : Fin 3 → ℕ}
  {c : X → Coef ns nk nb n} {occ : X → Occ ns nk nb} {vol : X → ℝ} {g : X → Idx n → Fin 3 → ℝ}
  {kpts : X → Fin nk → Fin 3 → ℝ} {pos : X → Fin na → Fin 3 → ℝ}

theorem joint_densityGrid (hc : ContinuousOn c S) (ho : ContinuousOn occ S) (hv : ContinuousOn vol S)
    (hpos : ∀ x ∈ S, 0 < vol x) (s : Fin ns) (j : Idx n) :
    ContinuousOn (fun x => densityGrid (c x) (vol x) (occ x) s j) S := by
  unfold densityGrid densityGridBands waveGrid
  simp only [absoluteSquare_eq, ifftn_eq]
  have hc' : ∀ k b y, ContinuousOn (fun x => c x s k b y) S := fun k b y =>
    continuousOn_pi.1 (continuousOn_pi.1 (continuousOn_pi.1 (continuousOn_pi.1 hc s) k) b) y
  have ho' : ∀ k b, ContinuousOn (fun x => occ x s k b) S := fun k b =>
    continuousOn_pi.1 (continuousOn_pi.1 (continuousOn_pi.1 ho s) k) b
  have hs : ContinuousOn (fun x => (((gridCount n : ℝ) / Real.sqrt (vol x) : ℝ) : ℂ)) S :=
    Complex.continuous_ofReal.comp_continuousOn (continuousOn_const.div (Real.continuous_sqrt.comp_continuousOn hv)
      fun x hx => (Real.sqrt_pos.2 (hpos x hx)).ne')
  refine continuousOn_finsetSum _ fun k _ => continuousOn_finsetSum _ fun b _ => ContinuousOn.mul ?_ (ho' k b)
  have h : ContinuousOn (fun x => ∑ y, c x s k b y * omega y j) S :=
    continuousOn_finsetSum _ fun y _ => (hc' k b y).mul continuousOn_const
  exact (((h.div_const _).mul hs).norm).pow 2

private theorem joint_recip (hc : ContinuousOn c S) (ho : ContinuousOn occ S) (hv : ContinuousOn vol S)
    (hpos : ∀ x ∈ S, 0 < vol x) (y : Idx n) :
    ContinuousOn (fun x => ∑ s, densityGridReciprocal (c x) (vol x) (occ x) s y) S := by
  refine continuousOn_finsetSum _ fun s _ => ?_
  unfold densityGridReciprocal
  simp only [fftn_eq]
  exact continuousOn_finsetSum _ fun j _ =>
    (Complex.continuous_ofReal.comp_continuousOn (joint_densityGrid hc ho hv hpos s j)).mul continuousOn_const

private theorem joint_dot (hg : ContinuousOn g S) (y : Idx n) :
    ContinuousOn (fun x => Spec.dot (g x y) (g x y)) S := by
  have h : ∀ d, ContinuousOn (fun x => g x y d) S := fun d => continuousOn_pi.1 (continuousOn_pi.1 hg y) d
  unfold Spec.dot
  exact continuousOn_finsetSum _ fun d _ => (h d).mul (h d)

theorem joint_kinetic (hc : ContinuousOn c S) (ho : ContinuousOn occ S) (hg : ContinuousOn g S)
    (hk : ContinuousOn kpts S) : ContinuousOn (fun x => kineticEnergyOcc (g x) (kpts x) (c x) (occ x)) S := by
  have hg' : ∀ y d, ContinuousOn (fun x => g x y d) S := fun y d => continuousOn_pi.1 (continuousOn_pi.1 hg y) d
  have hk' : ∀ k d, ContinuousOn (fun x => kpts x k d) S := fun k d => continuousOn_pi.1 (continuousOn_pi.1 hk k) d
  unfold kineticEnergyOcc
  simp only [absoluteSquare_eq]
  refine ContinuousOn.div_const (continuousOn_finsetSum _ fun s _ => continuousOn_finsetSum _ fun k _ =>
    continuousOn_finsetSum _ fun b _ => ContinuousOn.mul (continuousOn_finsetSum _ fun y _ => ContinuousOn.mul
      (continuousOn_finsetSum _ fun d _ => ((hg' y d).add (hk' k d)).pow 2) ?_) ?_) _
  · exact (continuousOn_pi.1 (continuousOn_pi.1 (continuousOn_pi.1 (continuousOn_pi.1 hc s) k) b) y).norm.pow 2
  · exact continuousOn_pi.1 (continuousOn_pi.1 (continuousOn_pi.1 ho s) k) b

theorem joint_hartree (hc : ContinuousOn c S) (ho : ContinuousOn occ S) (hv : ContinuousOn vol S)
    (hpos : ∀ x ∈ S, 0 < vol x) (hg : ContinuousOn g S)
    (hne : ∀ x ∈ S, ∀ k : Idx n, (∃ i, (k i : ℕ) ≠ 0) → Spec.dot (g x k) (g x k) ≠ 0) :
    ∃ f : X → ℝ, ContinuousOn f S ∧
      ∀ x, hartreeEnergy (densityGridReciprocal (c x) (vol x) (occ x)) (g x) (vol x) false = .ok (f x) := by
  refine ⟨_, ?_, fun x => hartreeEnergy_eq _ (g x) (vol x) false⟩
  refine ContinuousOn.mul ((continuousOn_const.mul hv).div_const _) (continuousOn_finsetSum _ fun y hy =>
    ((joint_recip hc ho hv hpos y).norm.pow 2).div (joint_dot hg y) fun x hx => hne x hx y ?_)
  simpa using hy

theorem joint_external (z : Fin na → ℝ) (hc : ContinuousOn c S) (ho : ContinuousOn occ S) (hv : ContinuousOn vol S)
    (hpos : ∀ x ∈ S, 0 < vol x) (hg : ContinuousOn g S) (hp : ContinuousOn pos S) :
    ∃ f : X → ℝ, ContinuousOn f S ∧
      ∀ x, externalEnergy (densityGridReciprocal (c x) (vol x) (occ x)) (pos x) z (g x) (vol x) = .ok (f x) := by
  have hg' : ∀ y d, ContinuousOn (fun x => g x y d) S := fun y d => continuousOn_pi.1 (continuousOn_pi.1 hg y) d
  have hp' : ∀ a d, ContinuousOn (fun x => pos x a d) S := fun a d => continuousOn_pi.1 (continuousOn_pi.1 hp a) d
  refine ⟨_, ?_, fun x => externalEnergy_eq _ (pos x) z (g x) (vol x)⟩
  refine ContinuousOn.mul (hv.div_const _) (continuousOn_finsetSum _ fun y hy => ContinuousOn.mul ?_
    (Complex.continuous_re.comp_continuousOn (ContinuousOn.mul (Complex.continuous_conj.comp_continuousOn ?_)
      (joint_recip hc ho hv hpos y))))
  · refine (continuousOn_const.div (hv.mul ((joint_dot hg y).add continuousOn_const)) fun x hx => ?_).neg
    have h1 : 0 ≤ Spec.dot (g x y) (g x y) := Finset.sum_nonneg fun d _ => mul_self_nonneg _
    exact (mul_pos (hpos x hx) (show (0 : ℝ) < Spec.dot (g x y) (g x y) + 1e-10 by linarith)).ne'
  · unfold structureFactor
    refine continuousOn_finsetSum _ fun a _ => continuousOn_const.mul (Complex.continuous_exp.comp_continuousOn
      (continuousOn_const.mul (Complex.continuous_ofReal.comp_continuousOn ?_)).neg)
    exact continuousOn_finsetSum _ fun d _ => (hg' y d).mul (hp' a d)

theorem joint_gradRho {ρ : X → Idx n → ℝ} (hg : ContinuousOn g S) (hρ : ∀ j, ContinuousOn (fun x => ρ x j) S)
    (d : Fin 3) (j : Idx n) : ContinuousOn (fun x => gradRho (g x) (ρ x) d j) S := by
  have hg' : ∀ y d, ContinuousOn (fun x => g x y d) S := fun y d => continuousOn_pi.1 (continuousOn_pi.1 hg y) d
  unfold gradRho
  simp only [ifftn_eq, fftn_eq]
  refine ContinuousOn.div_const (continuousOn_finsetSum _ fun k _ => ContinuousOn.mul (ContinuousOn.mul (ContinuousOn.mul
    (continuousOn_finsetSum _ fun y _ => ?_) continuousOn_const)
    (Complex.continuous_ofReal.comp_continuousOn (hg' k d))) continuousOn_const) _
  exact (Complex.continuous_ofReal.comp_continuousOn (hρ y)).mul continuousOn_const

theorem joint_sigmaPair {ρ ρ' : X → Idx n → ℝ} (hg : ContinuousOn g S) (hρ : ∀ j, ContinuousOn (fun x => ρ x j) S)
    (hρ' : ∀ j, ContinuousOn (fun x => ρ' x j) S) (j : Idx n) :
    ContinuousOn (fun x => sigmaPair (g x) (ρ x) (ρ' x) j) S := by
  unfold sigmaPair
  exact Complex.continuous_re.comp_continuousOn (continuousOn_finsetSum _ fun d _ =>
    (Complex.continuous_conj.comp_continuousOn (joint_gradRho hg hρ d j)).mul (joint_gradRho hg hρ' d j))

theorem joint_excDensity (lib : XcLib) (xt : String) (hx : Spec.ContinuousXc lib xt) {ρ : X → Fin ns → Idx n → ℝ}
    (hg : ContinuousOn g S) (hρ : ∀ s j, ContinuousOn (fun x => ρ x s j) S) (hnn : ∀ x ∈ S, ∀ s j, 0 ≤ ρ x s j)
    (j : Idx n) : ContinuousOn (fun x => excDensity lib xt (g x) (ρ x) j) S := by
  have cc : ∀ i j, ContinuousOn (fun x => chan (ρ x) i j) S := by
    intro i j
    refine (continuous_chan i j).comp_continuousOn (continuousOn_pi.2 fun s => continuousOn_pi.2 fun j => hρ s j)
  have c0 : ∀ i, ContinuousOn (fun x => chan (ρ x) i j) S := fun i => cc i j
  have c2 : ∀ i i', ContinuousOn (fun x => sigmaPair (g x) (chan (ρ x) i) (chan (ρ x) i') j) S := fun i i' =>
    joint_sigmaPair hg (cc i) (cc i') j
  have c1 : ContinuousOn (fun x => sigma1 (g x) (chan (ρ x) 0) j) S := by
    unfold sigma1
    simp only [absoluteSquare_eq]
    exact continuousOn_finsetSum _ fun d _ => (joint_gradRho hg (cc 0) d j).norm.pow 2
  unfold excDensity
  cases hgga : pyIn "gga" xt
  · simp only [Bool.false_eq_true, if_false]
    split_ifs with h2
    · unfold excLda2
      refine continuous_listSum _ _ _ fun x hxm => ?_
      unfold ldaPoint2
      split_ifs
      · refine continuousOn_const.mul (ContinuousOn.add ?_ ?_)
        · exact (hx.lda hgga x hxm).comp (continuousOn_const.mul (c0 0)) fun y hy =>
            mul_nonneg zero_le_two (chan_nonneg (hnn y hy) 0 j)
        · exact (hx.lda hgga x hxm).comp (continuousOn_const.mul (c0 1)) fun y hy =>
            mul_nonneg zero_le_two (chan_nonneg (hnn y hy) 1 j)
      · exact (hx.ldaPol hgga x hxm).comp ((c0 0).prodMk (c0 1)) fun y hy =>
          ⟨chan_nonneg (hnn y hy) 0 j, chan_nonneg (hnn y hy) 1 j⟩
    · unfold excLda1 ldaPoint1
      exact continuous_listSum _ _ _ fun x hxm => (hx.lda hgga x hxm).comp (c0 0) fun y hy => chan_nonneg (hnn y hy) 0 j
  · simp only [if_true]
    split_ifs with h2
    · unfold excGga2 sigma2
      refine continuous_listSum _ _ _ fun x hxm => ?_
      unfold ggaPoint2
      split_ifs
      · refine continuousOn_const.mul (ContinuousOn.add ?_ ?_)
        · exact (hx.gga hgga x hxm).comp ((continuousOn_const.mul (c0 0)).prodMk (continuousOn_const.mul (c2 0 0)))
            fun y hy => ⟨mul_nonneg zero_le_two (chan_nonneg (hnn y hy) 0 j),
              mul_nonneg zero_le_four (sigmaPair_self_nonneg _ _ j)⟩
        · exact (hx.gga hgga x hxm).comp ((continuousOn_const.mul (c0 1)).prodMk (continuousOn_const.mul (c2 1 1)))
            fun y hy => ⟨mul_nonneg zero_le_two (chan_nonneg (hnn y hy) 1 j),
              mul_nonneg zero_le_four (sigmaPair_self_nonneg _ _ j)⟩
      · exact (hx.ggaPol hgga x hxm).comp ((c0 0).prodMk ((c0 1).prodMk ((c2 0 0).prodMk ((c2 0 1).prodMk (c2 1 1)))))
          fun y hy => ⟨chan_nonneg (hnn y hy) 0 j, chan_nonneg (hnn y hy) 1 j, sigmaPair_self_nonneg _ _ j,
            sigmaPair_self_nonneg _ _ j⟩
    · unfold excGga1 ggaPoint1
      exact continuous_listSum _ _ _ fun x hxm => (hx.gga hgga x hxm).comp ((c0 0).prodMk c1) fun y hy =>
        ⟨chan_nonneg (hnn y hy) 0 j, (Finset.sum_nonneg fun d _ => absoluteSquare_nonneg _ :
          (0 : ℝ) ≤ ∑ d, absoluteSquare (gradRho (g y) (chan (ρ y) 0) d j))⟩

theorem joint_xc (lib : XcLib) (xt : String) (hx : Spec.ContinuousXc lib xt) (hc : ContinuousOn c S)
    (ho : ContinuousOn occ S) (hv : ContinuousOn vol S) (hpos : ∀ x ∈ S, 0 < vol x) (hg : ContinuousOn g S)
    (hnn : ∀ x ∈ S, ∀ s k b, 0 ≤ occ x s k b) :
    ∃ f : X → ℝ, ContinuousOn f S ∧
      ∀ x, xcEnergy lib xt false (densityGrid (c x) (vol x) (occ x)) (g x) (vol x) = .ok (f x) := by
  refine ⟨_, ?_, fun x => xcEnergy_value lib xt _ (g x) (vol x)⟩
  have hd := fun s j => joint_densityGrid hc ho hv hpos s j
  exact (hv.div_const _).mul (continuousOn_finsetSum _ fun j _ => ContinuousOn.mul
    (joint_excDensity lib xt hx hg hd (fun x hx => densityGrid_nonneg _ _ _ (hnn x hx)) j)
    (continuousOn_finsetSum _ fun s _ => hd s j))

/-- The total energy is a continuous function of geometry and state together. -/
theorem joint_totalEnergy (lib : XcLib) (xt : String) (hx : Spec.ContinuousXc lib xt) (z : Fin na → ℝ)
    (hc : ContinuousOn c S) (ho : ContinuousOn occ S) (hv : ContinuousOn vol S) (hpos : ∀ x ∈ S, 0 < vol x)
    (hg : ContinuousOn g S) (hne : ∀ x ∈ S, ∀ k : Idx n, (∃ i, (k i : ℕ) ≠ 0) → Spec.dot (g x k) (g x k) ≠ 0)
    (hk : ContinuousOn kpts S) (hp : ContinuousOn pos S) (hnn : ∀ x ∈ S, ∀ s k b, 0 ≤ occ x s k b) :
    ∃ f : X → ℝ, ContinuousOn f S ∧
      ∀ x, totalEnergy lib (c x) (pos x) z (g x) (kpts x) (vol x) (some (occ x)) false xt = .ok (f x) := by
  obtain ⟨f1, h1, k1⟩ := joint_hartree hc ho hv hpos hg hne
  obtain ⟨f2, h2, k2⟩ := joint_external z hc ho hv hpos hg hp
  obtain ⟨f3, h3, k3⟩ := joint_xc lib xt hx hc ho hv hpos hg hnn
  refine ⟨fun x => f1 x + f2 x + f3 x + kineticEnergyOcc (g x) (kpts x) (c x) (occ x),
    ((h1.add h2).add h3).add (joint_kinetic hc ho hg hk), fun x => ?_⟩
  unfold totalEnergy totalEnergySplit
  simp only [occOrOnes]
  rw [waveToDensity_eq, waveToDensityReciprocal_eq]
  simp only [k1, k2, k3]
  congr 1
  ring

end

/-- The reciprocal vectors are continuous functions of the cell vectors. -/
theorem continuousOn_reciprocal : ContinuousOn reciprocalVectors {A : Matrix (Fin 3) (Fin 3) ℝ | A.det ≠ 0} := by
  unfold reciprocalVectors
  simp only [Matrix.inv_def, Ring.inverse_eq_inv']
  have h : ContinuousOn (fun A : Matrix (Fin 3) (Fin 3) ℝ => (A.det)⁻¹ • A.adjugate) {A | A.det ≠ 0} :=
    (ContinuousOn.inv₀ (Continuous.matrix_det continuous_id).continuousOn fun A hA => hA).smul
      (Continuous.matrix_adjugate continuous_id).continuousOn
  exact ContinuousOn.const_smul (c := 2 * Real.pi) (Continuous.comp_continuousOn (Continuous.matrix_transpose continuous_id) h)

theorem continuousOn_gVectors (n : Fin 3 → ℕ) :
    ContinuousOn (fun A => gVectors A n) {A : Matrix (Fin 3) (Fin 3) ℝ | A.det ≠ 0} := by
  refine continuousOn_pi.2 fun x => continuousOn_pi.2 fun d => ?_
  simp only [gVectors_apply]
  exact continuousOn_finsetSum _ fun i _ => continuousOn_const.mul
    (continuousOn_pi.1 (continuousOn_pi.1 continuousOn_reciprocal i) d)

theorem continuousOn_kVectors (n : Fin 3 → ℕ) :
    ContinuousOn (fun A => flatRows (kVectors A n)) {A : Matrix (Fin 3) (Fin 3) ℝ | A.det ≠ 0} := by
  refine continuousOn_pi.2 fun x => continuousOn_pi.2 fun d => ?_
  unfold flatRows kVectors
  exact continuousOn_finsetSum _ fun i _ => continuousOn_const.mul
    (continuousOn_pi.1 (continuousOn_pi.1 continuousOn_reciprocal i) d)

end Jrystal
