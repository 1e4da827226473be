import Verif.Lemmas.Reach3
import Mathlib.Topology.Algebra.Order.Field
import Mathlib.Analysis.SpecialFunctions.Log.Basic

/- Lemmas for C89: energies are continuous functions of orbitals and occupations. -/
namespace Jrystal
open scoped BigOperators ComplexConjugate

section
variable {ns nk nb : ℕ} {n : Fin 3 → ℕ}

theorem continuous_densityGrid (vol : ℝ) :
    Continuous fun x : Coef ns nk nb n × Occ ns nk nb => densityGrid x.1 vol x.2 := by
  refine continuous_pi fun s => continuous_pi fun j => ?_
  unfold densityGrid densityGridBands waveGrid
  simp only [absoluteSquare_eq, ifftn_eq]
  refine continuous_finsetSum _ fun k _ => continuous_finsetSum _ fun b _ => ?_
  have h : Continuous fun x : Coef ns nk nb n × Occ ns nk nb => ∑ y, x.1 s k b y * omega y j :=
    continuous_finsetSum _ fun y _ => by fun_prop
  fun_prop

theorem continuous_densityGridReciprocal (vol : ℝ) :
    Continuous fun x : Coef ns nk nb n × Occ ns nk nb => densityGridReciprocal x.1 vol x.2 := by
  refine continuous_pi fun s => continuous_pi fun j => ?_
  unfold densityGridReciprocal
  simp only [fftn_eq]
  refine continuous_finsetSum _ fun y _ => ?_
  have h := (continuous_densityGrid (ns := ns) (nk := nk) (nb := nb) (n := n) vol)
  have h2 : Continuous fun x : Coef ns nk nb n × Occ ns nk nb => densityGrid x.1 vol x.2 s y :=
    (continuous_apply y).comp ((continuous_apply s).comp h)
  exact (Complex.continuous_ofReal.comp h2).mul continuous_const

theorem continuous_kinetic (g : Idx n → Fin 3 → ℝ) (kpts : Fin nk → Fin 3 → ℝ) :
    Continuous fun x : Coef ns nk nb n × Occ ns nk nb => kineticEnergyOcc g kpts x.1 x.2 := by
  unfold kineticEnergyOcc
  simp only [absoluteSquare_eq]
  refine Continuous.div_const (continuous_finsetSum _ fun s _ => continuous_finsetSum _ fun k _ =>
    continuous_finsetSum _ fun b _ => Continuous.mul (continuous_finsetSum _ fun y _ => ?_) ?_) _
  · fun_prop
  · fun_prop

private theorem continuous_recip_sum (vol : ℝ) (y : Idx n) :
    Continuous fun x : Coef ns nk nb n × Occ ns nk nb => ∑ s, densityGridReciprocal x.1 vol x.2 s y :=
  continuous_finsetSum _ fun s _ =>
    (continuous_apply y).comp ((continuous_apply s).comp (continuous_densityGridReciprocal vol))

theorem continuous_hartree (g : Idx n → Fin 3 → ℝ) (vol : ℝ) :
    ∃ f : Coef ns nk nb n × Occ ns nk nb → ℝ, Continuous f ∧
      ∀ c occ, hartreeEnergy (densityGridReciprocal c vol occ) g vol false = .ok (f (c, occ)) := by
  refine ⟨fun x => (if false then 4 else 2) * Real.pi * vol / (gridCount n : ℝ) ^ 2 *
      ∑ k ∈ Finset.univ.filter (fun k : Idx n => ∃ i, (k i : ℕ) ≠ 0),
        ‖∑ s, densityGridReciprocal x.1 vol x.2 s k‖ ^ 2 / Spec.dot (g k) (g k), ?_,
    fun c occ => hartreeEnergy_eq _ g vol false⟩
  refine Continuous.mul continuous_const (continuous_finsetSum _ fun y _ => Continuous.div_const
    (Continuous.pow (Continuous.norm (continuous_recip_sum vol y)) 2) _)

theorem continuous_external {na : ℕ} (pos : Fin na → Fin 3 → ℝ) (charge : Fin na → ℝ) (g : Idx n → Fin 3 → ℝ)
    (vol : ℝ) : ∃ f : Coef ns nk nb n × Occ ns nk nb → ℝ, Continuous f ∧
      ∀ c occ, externalEnergy (densityGridReciprocal c vol occ) pos charge g vol = .ok (f (c, occ)) := by
  refine ⟨fun x => vol / (gridCount n : ℝ) ^ 2 *
      ∑ k ∈ Finset.univ.filter (fun k : Idx n => ∃ i, (k i : ℕ) ≠ 0),
        (-(4 * Real.pi * (gridCount n : ℝ) / (vol * (Spec.dot (g k) (g k) + 1e-10)))) *
          (conj (structureFactor pos charge g k) * ∑ s, densityGridReciprocal x.1 vol x.2 s k).re, ?_,
    fun c occ => externalEnergy_eq _ pos charge g vol⟩
  exact Continuous.mul continuous_const (continuous_finsetSum _ fun y _ => Continuous.mul continuous_const
    (Complex.continuous_re.comp (Continuous.mul continuous_const (continuous_recip_sum vol y))))

theorem continuous_local (vloc : Idx n → ℂ) (vol : ℝ) :
    ∃ f : Coef ns nk nb n × Occ ns nk nb → ℝ, Continuous f ∧
      ∀ c occ, energyLocal (densityGridReciprocal c vol occ) vloc vol = .ok (f (c, occ)) := by
  refine ⟨fun x => vol / (gridCount n : ℝ) ^ 2 *
      (∑ k, conj (vloc k) * ∑ s, densityGridReciprocal x.1 vol x.2 s k).re, ?_,
    fun c occ => reciprocalBraket_one vloc _ vol⟩
  exact Continuous.mul continuous_const (Complex.continuous_re.comp (continuous_finsetSum _ fun y _ =>
    Continuous.mul continuous_const (continuous_recip_sum vol y)))

theorem continuous_nonlocal {M : ℕ} {ι : Type} [Fintype ι] (psi : Fin nk → ι → Fin M → Idx n → ℂ) (vol : ℝ) :
    ∃ f : Coef ns nk nb n × Occ ns nk nb → ℝ, Continuous f ∧
      ∀ c occ, energyNonlocal c psi vol (some occ) = .ok (f (c, occ)) := by
  refine ⟨fun x => (∑ s, ∑ k, ∑ b, hamiltonianNonlocal x.1 psi vol s k b b * (x.2 s k b : ℂ)).re, ?_,
    fun c occ => rfl⟩
  refine Complex.continuous_re.comp (continuous_finsetSum _ fun s _ => continuous_finsetSum _ fun k _ =>
    continuous_finsetSum _ fun b _ => Continuous.mul ?_ (Complex.continuous_ofReal.comp (by fun_prop)))
  unfold hamiltonianNonlocal
  dsimp only
  have h : ∀ β φ, Continuous fun x : Coef ns nk nb n × Occ ns nk nb => ∑ y, x.1 s k b y * psi k β φ y :=
    fun β φ => continuous_finsetSum _ fun y _ => by fun_prop
  exact Continuous.div_const (continuous_finsetSum _ fun β _ => continuous_finsetSum _ fun φ _ =>
    Continuous.mul (Complex.continuous_conj.comp (h β φ)) (h β φ)) _

theorem continuousOn_entropy (eps top : ℝ) (he : 0 < eps) :
    ContinuousOn (fun occ : Occ ns nk nb => Spec.smearingEntropy eps top occ)
      {occ | ∀ s k b, 0 ≤ occ s k b ∧ occ s k b ≤ top} := by
  unfold Spec.smearingEntropy
  refine ContinuousOn.neg (continuousOn_finsetSum _ fun s _ => continuousOn_finsetSum _ fun k _ =>
    continuousOn_finsetSum _ fun b _ => ?_)
  have h : Continuous fun occ : Occ ns nk nb => occ s k b := by fun_prop
  refine ContinuousOn.add (h.continuousOn.mul (ContinuousOn.log (by fun_prop) fun x hx => ?_))
    (ContinuousOn.mul (by fun_prop) (ContinuousOn.log (by fun_prop) fun x hx => ?_))
  · exact (by linarith [(hx s k b).1] : (0 : ℝ) < eps + x s k b).ne'
  · exact (by linarith [(hx s k b).2] : (0 : ℝ) < eps + top - x s k b).ne'

theorem continuous_chan (i : ℕ) (j : Idx n) : Continuous fun ρ : Fin ns → Idx n → ℝ => chan ρ i j := by
  unfold chan
  by_cases h : i < ns
  · simp only [h, dif_pos]
    fun_prop
  · simp only [h, dif_neg, not_false_eq_true]
    fun_prop

theorem chan_nonneg {ρ : Fin ns → Idx n → ℝ} (h : ∀ s j, 0 ≤ ρ s j) (i : ℕ) (j : Idx n) : 0 ≤ chan ρ i j := by
  unfold chan
  split_ifs
  · exact h _ _
  · exact le_rfl

theorem continuous_gradRho (g : Idx n → Fin 3 → ℝ) (i : ℕ) (d : Fin 3) (j : Idx n) :
    Continuous fun ρ : Fin ns → Idx n → ℝ => gradRho g (chan ρ i) d j := by
  unfold gradRho
  simp only [ifftn_eq, fftn_eq]
  refine Continuous.div_const (continuous_finsetSum _ fun k _ => ?_) _
  refine Continuous.mul (Continuous.mul (Continuous.mul (continuous_finsetSum _ fun y _ => ?_) continuous_const)
    continuous_const) continuous_const
  exact (Complex.continuous_ofReal.comp (continuous_chan i y)).mul continuous_const

theorem continuous_sigmaPair (g : Idx n → Fin 3 → ℝ) (i i' : ℕ) (j : Idx n) :
    Continuous fun ρ : Fin ns → Idx n → ℝ => sigmaPair g (chan ρ i) (chan ρ i') j := by
  unfold sigmaPair
  exact Complex.continuous_re.comp (continuous_finsetSum _ fun d _ =>
    (Complex.continuous_conj.comp (continuous_gradRho g i d j)).mul (continuous_gradRho g i' d j))

theorem sigmaPair_self_nonneg (g : Idx n → Fin 3 → ℝ) (a : Idx n → ℝ) (j : Idx n) : 0 ≤ sigmaPair g a a j := by
  unfold sigmaPair
  rw [Complex.re_sum]
  exact Finset.sum_nonneg fun d _ => absoluteSquare_nonneg _

theorem continuous_listSum {X α : Type*} [TopologicalSpace X] (S : Set X) (l : List α) (f : α → X → ℝ)
    (h : ∀ a ∈ l, ContinuousOn (f a) S) : ContinuousOn (fun x => (l.map fun a => f a x).sum) S := by
  induction l with
  | nil => exact continuousOn_const
  | cons a l ih =>
    simp only [List.map_cons, List.sum_cons]
    exact (h a (by simp)).add (ih fun b hb => h b (by simp [hb]))

/-- The energy per electron is a continuous function of a nonnegative density. -/
theorem continuousOn_excDensity (lib : XcLib) (xt : String) (hx : Spec.ContinuousXc lib xt)
    (g : Idx n → Fin 3 → ℝ) (j : Idx n) :
    ContinuousOn (fun ρ : Fin ns → Idx n → ℝ => excDensity lib xt g ρ j) {ρ | ∀ s j, 0 ≤ ρ s j} := by
  have c0 : ∀ i, ContinuousOn (fun ρ : Fin ns → Idx n → ℝ => chan ρ i j) {ρ | ∀ s j, 0 ≤ ρ s j} := fun i =>
    (continuous_chan i j).continuousOn
  have c2 : ∀ i i', ContinuousOn (fun ρ : Fin ns → Idx n → ℝ => sigmaPair g (chan ρ i) (chan ρ i') j)
      {ρ | ∀ s j, 0 ≤ ρ s j} := fun i i' => (continuous_sigmaPair g i i' j).continuousOn
  have c1 : ContinuousOn (fun ρ : Fin ns → Idx n → ℝ => sigma1 g (chan ρ 0) j) {ρ | ∀ s j, 0 ≤ ρ s j} := by
    unfold sigma1
    simp only [absoluteSquare_eq]
    exact (continuous_finsetSum _ fun d _ => (continuous_gradRho g 0 d j).norm.pow 2).continuousOn
  unfold excDensity
  cases hg : pyIn "gga" xt
  · simp only [Bool.false_eq_true, if_false]
    split_ifs with h2
    · unfold excLda2
      refine continuous_listSum _ _ _ fun x hxm => ?_
      unfold ldaPoint2
      split_ifs
      · refine continuousOn_const.mul (ContinuousOn.add ?_ ?_)
        · exact (hx.lda hg x hxm).comp (continuousOn_const.mul (c0 0)) fun ρ hρ =>
            mul_nonneg zero_le_two (chan_nonneg hρ 0 j)
        · exact (hx.lda hg x hxm).comp (continuousOn_const.mul (c0 1)) fun ρ hρ =>
            mul_nonneg zero_le_two (chan_nonneg hρ 1 j)
      · exact (hx.ldaPol hg x hxm).comp ((c0 0).prodMk (c0 1)) fun ρ hρ =>
          ⟨chan_nonneg hρ 0 j, chan_nonneg hρ 1 j⟩
    · unfold excLda1 ldaPoint1
      exact continuous_listSum _ _ _ fun x hxm => (hx.lda hg x hxm).comp (c0 0) fun ρ hρ => chan_nonneg hρ 0 j
  · simp only [if_true]
    split_ifs with h2
    · unfold excGga2 sigma2
      refine continuous_listSum _ _ _ fun x hxm => ?_
      unfold ggaPoint2
      split_ifs
      · refine continuousOn_const.mul (ContinuousOn.add ?_ ?_)
        · exact (hx.gga hg x hxm).comp ((continuousOn_const.mul (c0 0)).prodMk (continuousOn_const.mul (c2 0 0)))
            fun ρ hρ => ⟨mul_nonneg zero_le_two (chan_nonneg hρ 0 j),
              mul_nonneg zero_le_four (sigmaPair_self_nonneg g _ j)⟩
        · exact (hx.gga hg x hxm).comp ((continuousOn_const.mul (c0 1)).prodMk (continuousOn_const.mul (c2 1 1)))
            fun ρ hρ => ⟨mul_nonneg zero_le_two (chan_nonneg hρ 1 j),
              mul_nonneg zero_le_four (sigmaPair_self_nonneg g _ j)⟩
      · exact (hx.ggaPol hg x hxm).comp ((c0 0).prodMk ((c0 1).prodMk ((c2 0 0).prodMk ((c2 0 1).prodMk (c2 1 1)))))
          fun ρ hρ => ⟨chan_nonneg hρ 0 j, chan_nonneg hρ 1 j, sigmaPair_self_nonneg g _ j,
            sigmaPair_self_nonneg g _ j⟩
    · unfold excGga1 ggaPoint1
      exact continuous_listSum _ _ _ fun x hxm => (hx.gga hg x hxm).comp ((c0 0).prodMk c1) fun ρ hρ =>
        ⟨chan_nonneg hρ 0 j, (Finset.sum_nonneg fun d _ => absoluteSquare_nonneg _ :
          (0 : ℝ) ≤ ∑ d, absoluteSquare (gradRho g (chan ρ 0) d j))⟩

/-- So is the exchange-correlation energy, and hence a function of the state. -/
theorem continuousOn_xc (lib : XcLib) (xt : String) (hx : Spec.ContinuousXc lib xt)
    (g : Idx n → Fin 3 → ℝ) (vol : ℝ) :
    ∃ f : Coef ns nk nb n × Occ ns nk nb → ℝ, ContinuousOn f {x | ∀ s k b, 0 ≤ x.2 s k b} ∧
      ∀ c occ, xcEnergy lib xt false (densityGrid c vol occ) g vol = .ok (f (c, occ)) := by
  refine ⟨fun x => vol / (gridCount n : ℝ) * ∑ j, excDensity lib xt g (densityGrid x.1 vol x.2) j
    * ∑ s, densityGrid x.1 vol x.2 s j, ?_, fun c occ => xcEnergy_value lib xt _ g vol⟩
  refine continuousOn_const.mul (continuousOn_finsetSum _ fun j _ => ContinuousOn.mul ?_ ?_)
  · exact (continuousOn_excDensity lib xt hx g j).comp (continuous_densityGrid vol).continuousOn
      fun x hx => densityGrid_nonneg _ _ _ hx
  · exact (continuous_finsetSum _ fun s _ =>
      (continuous_apply j).comp ((continuous_apply s).comp (continuous_densityGrid vol))).continuousOn

/-- The total energy is a continuous function of the state. -/
theorem continuousOn_totalEnergy (lib : XcLib) (xt : String) (hx : Spec.ContinuousXc lib xt) {na : ℕ}
    (pos : Fin na → Fin 3 → ℝ) (charge : Fin na → ℝ) (g : Idx n → Fin 3 → ℝ) (kpts : Fin nk → Fin 3 → ℝ) (vol : ℝ) :
    ∃ f : Coef ns nk nb n × Occ ns nk nb → ℝ, ContinuousOn f {x | ∀ s k b, 0 ≤ x.2 s k b} ∧
      ∀ c occ, totalEnergy lib c pos charge g kpts vol (some occ) false xt = .ok (f (c, occ)) := by
  obtain ⟨f1, h1, k1⟩ := continuous_hartree (ns := ns) (nk := nk) (nb := nb) g vol
  obtain ⟨f2, h2, k2⟩ := continuous_external (ns := ns) (nk := nk) (nb := nb) pos charge g vol
  obtain ⟨f3, h3, k3⟩ := continuousOn_xc (ns := ns) (nk := nk) (nb := nb) lib xt hx g vol
  refine ⟨fun x => f1 x + f2 x + f3 x + kineticEnergyOcc g kpts x.1 x.2,
    ((h1.add h2).continuousOn.add h3).add (continuous_kinetic g kpts).continuousOn, fun c occ => ?_⟩
  unfold totalEnergy totalEnergySplit
  simp only [occOrOnes]
  rw [waveToDensity_eq, waveToDensityReciprocal_eq]
  simp only [k1, k2, k3]
  congr 1
  ring

/-- So is the energy of valence electrons. -/
theorem continuousOn_energyNC (lib : XcLib) (xt : String) (hx : Spec.ContinuousXc lib xt) {M : ℕ} {ι : Type}
    [Fintype ι] (vloc : Idx n → ℂ) (psi : Fin nk → ι → Fin M → Idx n → ℂ) (g : Idx n → Fin 3 → ℝ)
    (kpts : Fin nk → Fin 3 → ℝ) (vol : ℝ) :
    ∃ f : Coef ns nk nb n × Occ ns nk nb → ℝ, ContinuousOn f {x | ∀ s k b, 0 ≤ x.2 s k b} ∧
      ∀ c occ, Spec.EnergyNC lib xt vloc psi g kpts vol c occ (f (c, occ)) := by
  obtain ⟨f1, h1, k1⟩ := continuous_hartree (ns := ns) (nk := nk) (nb := nb) g vol
  obtain ⟨f2, h2, k2⟩ := continuous_local (ns := ns) (nk := nk) (nb := nb) vloc vol
  obtain ⟨f3, h3, k3⟩ := continuousOn_xc (ns := ns) (nk := nk) (nb := nb) lib xt hx g vol
  obtain ⟨f4, h4, k4⟩ := continuous_nonlocal (ns := ns) (nb := nb) psi vol
  exact ⟨fun x => kineticEnergyOcc g kpts x.1 x.2 + f1 x + f2 x + f4 x + f3 x,
    ((((continuous_kinetic g kpts).add h1).add h2).add h4).continuousOn.add h3,
    fun c occ => ⟨_, _, _, _, k1 c occ, k2 c occ, k4 c occ, k3 c occ, rfl⟩⟩

end

end Jrystal
