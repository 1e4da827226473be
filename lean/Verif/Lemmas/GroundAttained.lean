import Verif.Lemmas.GroundState
import Mathlib.Topology.MetricSpace.Thickening
import Mathlib.Topology.Order.Compact

/- States of least free energy exist, and states of nearly least free energy are near them (C99, C100). -/
namespace Jrystal
open scoped BigOperators ComplexConjugate

section
variable {ns nk nb : ℕ} {n : Fin 3 → ℕ}

/-- The states that compete for the least free energy. -/
def competing (mask : Idx n → Bool) (ne spin : ℤ) (r : Bool) (method : String) (ns nk nb : ℕ) :
    Set (Coef ns nk nb n × Occ ns nk nb) :=
  {x | Spec.PhysicalState mask ne spin r (Spec.kShare method nk) x.1 x.2 ∧
    (method = "uniform" ∨ method = "gamma" → x.2 = Spec.givenOccupation method ne spin)}

theorem competing_compact (mask : Idx n → Bool) (ne spin : ℤ) (r : Bool) (method : String) :
    IsCompact (competing mask ne spin r method ns nk nb) := by
  refine (physical_compact ns nk nb n (Spec.kShare method nk * Spec.pauli r)).of_isClosed_subset ?_
    fun x hx => ⟨fun s k b y => physical_bounded hx.1 s k b y, fun s k b => ⟨hx.1.nonneg s k b, hx.1.pauli s k b⟩⟩
  have c1 : ∀ s k b y, Continuous fun x : Coef ns nk nb n × Occ ns nk nb => x.1 s k b y := fun s k b y => by
    fun_prop
  have c2 : ∀ s k b, Continuous fun x : Coef ns nk nb n × Occ ns nk nb => x.2 s k b := fun s k b => by
    fun_prop
  have : competing mask ne spin r method ns nk nb
      = (⋂ s, ⋂ k, ⋂ i, ⋂ j, {x | ∑ y, conj (x.1 s k i y) * x.1 s k j y = if i = j then 1 else 0}) ∩
        ((⋂ s, ⋂ k, ⋂ b, ⋂ y, ⋂ (_ : mask y = false), {x | x.1 s k b y = 0}) ∩
        ({_x | ns = if r then 1 else 2} ∩
        ((⋂ s, ⋂ k, ⋂ b, {x | 0 ≤ x.2 s k b}) ∩
        ((⋂ s, ⋂ k, ⋂ b, {x | x.2 s k b ≤ Spec.kShare method nk * Spec.pauli r}) ∩
        ({x | ∑ s, ∑ k, ∑ b, x.2 s k b = (ne : ℝ)} ∩
        ((⋂ s : Fin ns, ⋂ s' : Fin ns, ⋂ (_ : (s : ℕ) = 0), ⋂ (_ : (s' : ℕ) = 1),
          {x | (∑ k, ∑ b, x.2 s k b) - ∑ k, ∑ b, x.2 s' k b = (spin : ℝ)}) ∩
        ⋂ (_ : method = "uniform" ∨ method = "gamma"), {x | x.2 = Spec.givenOccupation method ne spin})))))) := by
    ext x
    simp only [competing, Set.mem_ofPred_eq, Set.mem_inter_iff, Set.mem_iInter]
    exact ⟨fun h => ⟨h.1.orthonormal, h.1.selected, h.1.channels, h.1.nonneg, h.1.pauli, h.1.electrons,
      h.1.polarisation, h.2⟩, fun ⟨a1, a2, a3, a4, a5, a6, a7, a8⟩ => ⟨⟨a1, a2, a3, a4, a5, a6, a7⟩, a8⟩⟩
  rw [this]
  refine .inter ?_ (.inter ?_ (.inter ?_ (.inter ?_ (.inter ?_ (.inter ?_ (.inter ?_ ?_))))))
  · exact isClosed_iInter fun s => isClosed_iInter fun k => isClosed_iInter fun i => isClosed_iInter fun j =>
      isClosed_eq (continuous_finsetSum _ fun y _ =>
        (Complex.continuous_conj.comp (c1 s k i y)).mul (c1 s k j y)) continuous_const
  · exact isClosed_iInter fun s => isClosed_iInter fun k => isClosed_iInter fun b => isClosed_iInter fun y =>
      isClosed_iInter fun _ => isClosed_eq (c1 s k b y) continuous_const
  · exact isClosed_const
  · exact isClosed_iInter fun s => isClosed_iInter fun k => isClosed_iInter fun b =>
      isClosed_le continuous_const (c2 s k b)
  · exact isClosed_iInter fun s => isClosed_iInter fun k => isClosed_iInter fun b =>
      isClosed_le (c2 s k b) continuous_const
  · exact isClosed_eq (continuous_finsetSum _ fun s _ => continuous_finsetSum _ fun k _ =>
      continuous_finsetSum _ fun b _ => c2 s k b) continuous_const
  · exact isClosed_iInter fun s => isClosed_iInter fun s' => isClosed_iInter fun _ => isClosed_iInter fun _ =>
      isClosed_eq ((continuous_finsetSum _ fun k _ => continuous_finsetSum _ fun b _ => c2 s k b).sub
        (continuous_finsetSum _ fun k _ => continuous_finsetSum _ fun b _ => c2 s' k b)) continuous_const
  · exact isClosed_iInter fun _ => isClosed_eq continuous_snd continuous_const

theorem competing_entropy (mask : Idx n → Bool) (ne spin : ℤ) (r : Bool) (method : String) {eps : ℝ}
    (heps : 0 < eps) :
    ContinuousOn (fun x : Coef ns nk nb n × Occ ns nk nb => Spec.smearingEntropy eps ((3 - (ns : ℝ)) / nk) x.2)
      (competing mask ne spin r method ns nk nb) := by
  by_cases hm : method = "uniform" ∨ method = "gamma"
  · refine (continuousOn_const (c := Spec.smearingEntropy eps ((3 - (ns : ℝ)) / nk)
      (Spec.givenOccupation method ne spin : Occ ns nk nb))).congr fun x hx => ?_
    rw [hx.2 hm]
  · refine (continuousOn_entropy eps ((3 - (ns : ℝ)) / nk) heps).comp continuous_snd.continuousOn fun x hx => ?_
    refine fun s k b => ⟨hx.1.nonneg s k b, (hx.1.pauli s k b).trans_eq ?_⟩
    have h1 := hx.1.channels
    unfold Spec.kShare Spec.pauli
    rw [if_neg fun h => hm (Or.inr h)]
    cases r <;> simp only [Bool.false_eq_true, if_false, if_true] at h1 ⊢ <;> rw [h1] <;> push_cast <;> ring

/-- What least free energy means in terms of a function. -/
theorem groundWithin_iff {ε t eps : ℝ} {mask : Idx n → Bool} {ne spin : ℤ} {r : Bool} {method : String}
    {energy : Coef ns nk nb n → Occ ns nk nb → ℝ → Prop} {f : Coef ns nk nb n × Occ ns nk nb → ℝ}
    (hen : ∀ c occ e, energy c occ e ↔ e = f (c, occ)) (c : Coef ns nk nb n) (occ : Occ ns nk nb) (e : ℝ) :
    Spec.GroundWithin ε t eps mask ne spin r method energy c occ e ↔
      (c, occ) ∈ competing mask ne spin r method ns nk nb ∧ e = f (c, occ) ∧
      ∀ x ∈ competing mask ne spin r method ns nk nb,
        f (c, occ) - t * Spec.smearingEntropy eps ((3 - (ns : ℝ)) / nk) occ
          ≤ f x - t * Spec.smearingEntropy eps ((3 - (ns : ℝ)) / nk) x.2 + ε := by
  constructor
  · intro h
    have he := (hen c occ e).mp h.value
    refine ⟨⟨h.physical, h.given⟩, he, fun x hx => ?_⟩
    rw [← he]
    exact h.least x.1 x.2 _ hx.1 (fun hm => by rw [hx.2 hm, h.given hm]) ((hen x.1 x.2 _).mpr rfl)
  · rintro ⟨h1, h2, h3⟩
    refine ⟨h1.1, (hen c occ e).mpr h2, h1.2, fun c' occ' e' hp hm he' => ?_⟩
    rw [h2, (hen c' occ' e').mp he']
    exact h3 (c', occ') ⟨hp, fun hm' => by rw [hm hm']; exact h1.2 hm'⟩

/-- A state of least free energy exists when some state competes. -/
theorem ground_exists {t eps : ℝ} (heps : 0 < eps) {mask : Idx n → Bool} {ne spin : ℤ} {r : Bool} {method : String}
    {energy : Coef ns nk nb n → Occ ns nk nb → ℝ → Prop} {f : Coef ns nk nb n × Occ ns nk nb → ℝ}
    (hf : ContinuousOn f {x | ∀ s k b, 0 ≤ x.2 s k b})
    (hen : ∀ c occ e, energy c occ e ↔ e = f (c, occ))
    (hne : (competing mask ne spin r method ns nk nb).Nonempty) :
    ∃ c occ e, Spec.GroundWithin 0 t eps mask ne spin r method energy c occ e := by
  obtain ⟨x, hx, hmin⟩ := (competing_compact mask ne spin r method).exists_isMinOn hne
    ((hf.mono fun x hx => hx.1.nonneg).sub
      (continuousOn_const.mul (competing_entropy mask ne spin r method heps)) :
      ContinuousOn (fun x => f x - t * Spec.smearingEntropy eps ((3 - (ns : ℝ)) / nk) x.2) _)
  refine ⟨x.1, x.2, f x, (groundWithin_iff hen _ _ _).mpr ⟨hx, rfl, fun y hy => ?_⟩⟩
  rw [add_zero]
  exact hmin hy

/-- States of nearly least free energy are near states of least free energy, in a map `G` that is continuous. -/
theorem ground_near {t eps : ℝ} (heps : 0 < eps) {mask : Idx n → Bool} {ne spin : ℤ} {r : Bool} {method : String}
    {energy : Coef ns nk nb n → Occ ns nk nb → ℝ → Prop} {f : Coef ns nk nb n × Occ ns nk nb → ℝ}
    (hf : ContinuousOn f {x | ∀ s k b, 0 ≤ x.2 s k b})
    (hen : ∀ c occ e, energy c occ e ↔ e = f (c, occ)) {Y : Type*} [PseudoMetricSpace Y]
    (G : Coef ns nk nb n × Occ ns nk nb → Y) (hG : ContinuousOn G {x | ∀ s k b, 0 ≤ x.2 s k b}) {δ : ℝ}
    (hδ : 0 < δ) :
    ∃ ε, 0 < ε ∧ ∀ c occ e, Spec.GroundWithin ε t eps mask ne spin r method energy c occ e →
      ∃ c' occ' e', Spec.GroundWithin 0 t eps mask ne spin r method energy c' occ' e' ∧
        dist (G (c, occ)) (G (c', occ')) < δ := by
  set K := competing (n := n) mask ne spin r method ns nk nb with hK
  set F : Coef ns nk nb n × Occ ns nk nb → ℝ := fun x =>
    f x - t * Spec.smearingEntropy eps ((3 - (ns : ℝ)) / nk) x.2 with hF
  have hpos : K ⊆ {x | ∀ s k b, 0 ≤ x.2 s k b} := fun x hx => hx.1.nonneg
  have hFc : ContinuousOn F K := (hf.mono hpos).sub
      (continuousOn_const.mul (competing_entropy mask ne spin r method heps))
  have hKc : IsCompact K := competing_compact mask ne spin r method
  by_cases hne : K.Nonempty
  · obtain ⟨x₀, hx₀, hmin⟩ := hKc.exists_isMinOn hne hFc
    have hm : ∀ y ∈ K, F x₀ ≤ F y := fun y hy => hmin hy
    -- the states far from every minimum
    let S : Set Y := G '' {x | x ∈ K ∧ F x = F x₀}
    have hclosed : IsClosed (K ∩ G ⁻¹' (Metric.thickening δ S)ᶜ) :=
      (hG.mono hpos).preimage_isClosed_of_isClosed hKc.isClosed Metric.isOpen_thickening.isClosed_compl
    have hfar : IsCompact (K ∩ G ⁻¹' (Metric.thickening δ S)ᶜ) :=
      hKc.of_isClosed_subset hclosed Set.inter_subset_left
    have hnear : ∀ ε, (∀ x ∈ K ∩ G ⁻¹' (Metric.thickening δ S)ᶜ, F x₀ + ε < F x) →
        ∀ c occ e, Spec.GroundWithin ε t eps mask ne spin r method energy c occ e →
        ∃ c' occ' e', Spec.GroundWithin 0 t eps mask ne spin r method energy c' occ' e' ∧
          dist (G (c, occ)) (G (c', occ')) < δ := by
      intro ε hε c occ e h
      obtain ⟨h1, h2, h3⟩ := (groundWithin_iff hen _ _ _).mp h
      have h4 : F (c, occ) ≤ F x₀ + ε := h3 x₀ hx₀
      have h5 : G (c, occ) ∈ Metric.thickening δ S := by
        by_contra h6
        exact absurd (hε (c, occ) ⟨h1, h6⟩) (not_lt.mpr h4)
      obtain ⟨y, ⟨x, ⟨hx1, hx2⟩, rfl⟩, hy⟩ := Metric.mem_thickening_iff.mp h5
      refine ⟨x.1, x.2, f x, (groundWithin_iff hen _ _ _).mpr ⟨hx1, rfl, fun z hz => ?_⟩, hy⟩
      rw [add_zero]
      show F x ≤ F z
      rw [hx2]
      exact hm z hz
    by_cases hfe : (K ∩ G ⁻¹' (Metric.thickening δ S)ᶜ).Nonempty
    · obtain ⟨x₁, hx₁, hmin₁⟩ := hfar.exists_isMinOn hfe (hFc.mono Set.inter_subset_left)
      have hlt : F x₀ < F x₁ := by
        refine lt_of_le_of_ne (hm x₁ hx₁.1) fun h => hx₁.2 ?_
        exact Metric.self_subset_thickening hδ _ ⟨x₁, ⟨hx₁.1, h.symm⟩, rfl⟩
      refine ⟨(F x₁ - F x₀) / 2, by linarith, hnear _ fun x hx => ?_⟩
      have : F x₁ ≤ F x := hmin₁ hx
      linarith
    · exact ⟨1, one_pos, hnear 1 fun x hx => absurd ⟨x, hx⟩ hfe⟩
  · exact ⟨1, one_pos, fun c occ e h => absurd ⟨(c, occ), ((groundWithin_iff hen _ _ _).mp h).1⟩ hne⟩

end

end Jrystal
