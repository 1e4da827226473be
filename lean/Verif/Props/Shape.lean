import Verif.Model.Shape
import Mathlib.Tactic.Ring

/- C51: functions return arrays of the documented shape on input of the documented shape. -/
namespace Jrystal

private theorem bcLen_self (a : ℕ) : bcLen a a = .ok a := by simp [bcLen]

private theorem bcLen_one_left (a : ℕ) : bcLen 1 a = .ok a := by
  unfold bcLen; by_cases h : 1 = a <;> simp [h]

private theorem bcLen_one_right (a : ℕ) : bcLen a 1 = .ok a := by
  unfold bcLen; by_cases h : a = 1 <;> simp [h]

attribute [local simp] bcLen_self bcLen_one_left bcLen_one_right bcast bcastRev sumFirst sumLast
  sumRange fftSh lastDim matmulSh bind Except.bind pure Except.pure expandDims expandGo
  labelDim outDims einsumSh lbls lastThree sumAxis

/-- C51: `wave_grid` keeps the shape. -/
theorem waveGrid_shape (s k b x y z : ℕ) :
    waveGridSh [s, k, b, x, y, z] = .ok [s, k, b, x, y, z] := by simp [waveGridSh]

/-- C51: `density_grid` and `density_grid_reciprocal` have the documented shapes. -/
theorem densityGrid_shape (s k b x y z : ℕ) :
    densityGridSh [s, k, b, x, y, z] (some [s, k, b]) = .ok [s, x, y, z] ∧
    densityGridSh [s, k, b, x, y, z] none = .ok [s, k, b, x, y, z] ∧
    densityReciprocalSh [s, k, b, x, y, z] (some [s, k, b]) = .ok [s, x, y, z] ∧
    densityReciprocalSh [s, k, b, x, y, z] none = .ok [s, k, b, x, y, z] := by
  simp [densityGridSh, densityReciprocalSh, waveGridSh, List.range_succ]

/-- C51: which occupations `density_grid` accepts: each of the axes spin, k point and band, also the two that are
summed, has to agree with the coefficients or to have length one on one side; every other occupation raises. -/
theorem densityGrid_shape_iff (s k b x y z s' k' b' : ℕ) :
    let fits := fun m m' : ℕ => m = m' ∨ m = 1 ∨ m' = 1
    (fits s s' → fits k k' → fits b b' →
      densityGridSh [s, k, b, x, y, z] (some [s', k', b']) = .ok [if s = 1 then s' else s, x, y, z]) ∧
    (¬ (fits s s' ∧ fits k k' ∧ fits b b') →
      densityGridSh [s, k, b, x, y, z] (some [s', k', b']) = .error .valueError) := by
  intro fits
  have hok : ∀ m m', fits m m' → bcLen m m' = .ok (if m = 1 then m' else m) := by
    intro m m' h
    unfold bcLen
    rcases h with rfl | rfl | rfl
    · simp
    · by_cases h : 1 = m' <;> simp [h]
    · by_cases h : m = 1 <;> simp [h]
  have her : ∀ m m', ¬ fits m m' → bcLen m m' = .error .valueError := by
    intro m m' h
    simp only [fits, not_or] at h
    unfold bcLen
    rw [if_neg h.1, if_neg h.2.1, if_neg h.2.2]
  constructor
  · intro h1 h2 h3
    simp [densityGridSh, waveGridSh, List.range_succ, hok _ _ h1, hok _ _ h2, hok _ _ h3]
  · intro h
    by_cases h1 : fits s s'
    · by_cases h2 : fits k k'
      · by_cases h3 : fits b b'
        · exact absurd ⟨h1, h2, h3⟩ h
        · simp [densityGridSh, waveGridSh, List.range_succ, hok _ _ h1, hok _ _ h2, her _ _ h3]
      · simp [densityGridSh, waveGridSh, List.range_succ, hok _ _ h1, her _ _ h2]
    · simp [densityGridSh, waveGridSh, List.range_succ, her _ _ h1]

example : densityGridSh [1, 4, 5, 2, 2, 2] (some [1, 4, 6]) = .error .valueError :=
  (densityGrid_shape_iff 1 4 5 2 2 2 1 4 6).2 (by simp)

/-- C51: `wave_to_density` has the documented shapes. -/
theorem waveToDensity_shape (s k b x y z : ℕ) :
    waveToDensitySh [s, k, b, x, y, z] (some [s, k, b]) = .ok [s, x, y, z] ∧
    waveToDensitySh [s, k, b, x, y, z] none = .ok [s, k, b, x, y, z] := by
  simp [waveToDensitySh]

/-- C51: `expand_coefficient` has the documented shape. -/
theorem expandCoefficient_shape (s k b m x y z : ℕ) :
    expandSh [s, k, m, b] [x, y, z] m = .ok [s, k, b, x, y, z] := by
  simp [expandSh, swapLast]

/-- C51 is false of `squeeze_coefficient`: every call fails; with `.at` it would return the documented
shape. -/
theorem squeezeCoefficient_shape (s k b m x y z : ℕ) :
    squeezeSh false [s, k, b, x, y, z] m = .error .attributeError ∧
    squeezeSh true [s, k, b, x, y, z] m = .ok [s, k, m, b] := by
  simp [squeezeSh, ArrVal.at, ArrVal.get, ArrVal.indexMask, swapLast]

/-- C51 is false of `wave_r`: every call with well-shaped input raises `ValueError`, because the einsum
on line 379 asks for axes that no operand has.  With the output `l` it would return the documented
shape. -/
theorem waveR_shape (s k b x y z : ℕ) (g : Option (List ℕ)) (hx : 0 < x) (hy : 0 < y) (hz : 0 < z)
    (hg : g = none ∨ g = some [x, y, z, 3]) :
    waveRSh ['s', 'k', 'b'] [3] [s, k, b, x, y, z] g = .error .valueError ∧
    waveRSh ['l'] [3] [s, k, b, x, y, z] g = .ok [s, k, b] := by
  have hd : x * y * z ∣ [s, k, b, x, y, z].prod := ⟨s * k * b, by simp; ring⟩
  have hne : x * y * z ≠ 0 := by positivity
  have hq : [s, k, b, x, y, z].prod / (x * y * z) = s * k * b := by
    refine Nat.div_eq_of_eq_mul_left (Nat.pos_of_ne_zero hne) ?_
    simp; ring
  rcases hg with rfl | rfl <;>
  · constructor <;>
    · unfold waveRSh
      simp only [lastThree, bind, Except.bind, List.length_cons, List.length_nil, List.drop,
        Option.getD_none, Option.getD_some, ne_eq, not_true_eq_false, if_false, hd, hne,
        not_false_eq_true, and_self, if_true, hq]
      simp [reshapeSh, mul_assoc]

/-- The corrected subscripts on a concrete array: spin 1, 2 k points, 4 bands, 3 × 3 × 3 grid. -/
example : waveRSh ['l'] [3] [1, 2, 4, 3, 3, 3] none = .ok [1, 2, 4] :=
  (waveR_shape 1 2 4 3 3 3 none (by omega) (by omega) (by omega) (Or.inl rfl)).2

/-- C51 is false of `density_r` and `nabla_density_r`: every call fails for the same reason. -/
theorem densityR_shape (s k b x y z : ℕ) (g occ : Option (List ℕ)) (hx : 0 < x) (hy : 0 < y)
    (hz : 0 < z) (hg : g = none ∨ g = some [x, y, z, 3]) :
    densityRSh ['s', 'k', 'b'] [3] [s, k, b, x, y, z] g occ = .error .valueError ∧
    nablaDensityRSh ['s', 'k', 'b'] [3] [s, k, b, x, y, z] g occ = .error .valueError ∧
    densityRSh ['l'] [3] [s, k, b, x, y, z] g (some [s, k, b]) = .ok [] ∧
    nablaDensityRSh ['l'] [3] [s, k, b, x, y, z] g (some [s, k, b]) = .ok [3] := by
  obtain ⟨h1, h2⟩ := waveR_shape s k b x y z g hx hy hz hg
  unfold nablaDensityRSh densityRSh
  rw [h1, h2]
  simp

/-- C51: `nabla_density_grid` always returns, but with occupations the shape is `(3,)` and without it
is `(spin, kpt, band, 3)`; the documentation promises `(x, y, z)` and `(spin, kpt, band, x, y, z)`. -/
theorem nablaDensityGrid_shape (s k b x y z : ℕ) (g : Option (List ℕ))
    (hg : g = none ∨ g = some [x, y, z, 3]) :
    nablaDensityGridSh [3] [s, k, b, x, y, z] g (some [s, k, b]) = .ok [3] ∧
    nablaDensityGridSh [3] [s, k, b, x, y, z] g none = .ok [s, k, b, 3] := by
  rcases hg with rfl | rfl <;> simp [nablaDensityGridSh]

/-- C51: `kinetic_operator` has the documented shape; without k points there is one. -/
theorem kineticOperator_shape (k x y z : ℕ) :
    kineticOperatorSh [x, y, z, 3] (some [k, 3]) = .ok [k, x, y, z] ∧
    kineticOperatorSh [x, y, z, 3] none = .ok [1, x, y, z] := by
  simp [kineticOperatorSh]

/-- C51: `hartree_reciprocal` has the documented shape. -/
theorem hartreeReciprocal_shape (s x y z : ℕ) :
    hartreeReciprocalSh [s, x, y, z] [x, y, z, 3] = .ok [x, y, z] := by
  simp [hartreeReciprocalSh]

/-- C51 is false of `potential.hartree`: for every density, well shaped or not, it raises
`AssertionError`: either its own check for four axes fails, or the sum over spins leaves three and the
check of `hartree_reciprocal` fails. -/
theorem hartreePotential_shape (rho : List ℕ) (x y z : ℕ) :
    hartreePotentialSh rho [x, y, z, 3] = .error .assertionError := by
  unfold hartreePotentialSh
  split_ifs with h
  · rfl
  · match rho, h with
    | [a, b, c, d], _ => simp [hartreeReciprocalSh]
    | [], h => simp at h
    | [_], h => simp at h
    | [_, _], h => simp at h
    | [_, _, _], h => simp at h
    | _ :: _ :: _ :: _ :: _ :: _, h => simp at h

/-- C51: `external_reciprocal` and `external` have the documented shape. -/
theorem externalPotential_shape (a x y z : ℕ) :
    externalReciprocalSh [a, 3] [a] [x, y, z, 3] = .ok [x, y, z] ∧
    externalPotentialSh [a, 3] [a] [x, y, z, 3] = .ok [x, y, z] := by
  simp [externalPotentialSh, externalReciprocalSh]

/-- C51: LDA and GGA energy densities of one or two spin channels are on the grid; the LDA potential
keeps the spin axis. -/
theorem xcDensity_shape (s x y z : ℕ) (hs : s = 1 ∨ s = 2) :
    excDensitySh false [s, x, y, z] [x, y, z, 3] = .ok [x, y, z] ∧
    excDensitySh true [s, x, y, z] [x, y, z, 3] = .ok [x, y, z] ∧
    xcLdaSh true [s, x, y, z] = .ok [s, x, y, z] := by
  have h3 : ∀ m : ℕ, 3 * m / 3 = m := fun m => Nat.mul_div_cancel_left m (by omega)
  have h2 : ∀ m : ℕ, 2 * m / 2 = m := fun m => Nat.mul_div_cancel_left m (by omega)
  rcases hs with rfl | rfl <;>
    simp [excDensitySh, ldaSh, sigmaSh, ggaSh, xcLdaSh, vxcLdaSh, reshapeTail, reshapeSh]

/-- C51: three or more spin channels are not accepted by the LDA functional (unless the grid is
empty). -/
theorem xcDensity_shape_rejects (s x y z : ℕ) (hs : 3 ≤ s) (h : 0 < x * (y * z)) :
    excDensitySh false [s, x, y, z] [x, y, z, 3] = .error .typeError := by
  have h1 : s ≠ 2 := by omega
  have h2 : x * (y * z) ≠ s * (x * (y * z)) := by
    intro e
    have : 3 * (x * (y * z)) ≤ s * (x * (y * z)) := Nat.mul_le_mul_right _ hs
    omega
  simp [excDensitySh, ldaSh, reshapeTail, reshapeSh, h1, h2]

/-- C51: `effective` returns; its result always has a leading axis: of length `spin` with
`kohn_sham`, of length one without. -/
theorem effective_shape (s a x y z : ℕ) (hs : s = 1 ∨ s = 2) :
    effectiveSh true [s, x, y, z] [a, 3] [a] [x, y, z, 3] = .ok [s, x, y, z] ∧
    effectiveSh false [s, x, y, z] [a, 3] [a] [x, y, z, 3] = .ok [1, x, y, z] ∧
    (∀ ks, effectiveSh ks [x, y, z] [a, 3] [a] [x, y, z, 3] = .ok [1, x, y, z]) := by
  have h1 := (xcDensity_shape s x y z hs).2.2
  have h0 := (xcDensity_shape s x y z hs).1
  have h1' := (xcDensity_shape 1 x y z (Or.inl rfl)).2.2
  have h0' := (xcDensity_shape 1 x y z (Or.inl rfl)).1
  have he := (externalPotential_shape a x y z).1
  have h2 : xcLdaSh false [s, x, y, z] = .ok [x, y, z] := h0
  have h2' : xcLdaSh false [1, x, y, z] = .ok [x, y, z] := h0'
  refine ⟨?_, ?_, ?_⟩
  · unfold effectiveSh
    rw [he]
    simp [hartreeReciprocal_shape, h1]
  · unfold effectiveSh
    rw [he]
    simp [hartreeReciprocal_shape, h2]
  · intro ks
    unfold effectiveSh
    rw [he]
    cases ks <;> simp [hartreeReciprocal_shape, h2', h1']

/-- C51: `expectation` has the documented shapes, with a grid operator or one per k point. -/
theorem expectation_shape (s k b x y z : ℕ) (ham : List ℕ)
    (h : ham = [x, y, z] ∨ ham = [k, x, y, z] ∨ ham = [1, x, y, z]) :
    expectationSh [s, k, b, x, y, z] ham none true = .ok [s, k, b] ∧
    expectationSh [s, k, b, x, y, z] ham none false = .ok [s, k, b, b] := by
  rcases h with rfl | rfl | rfl <;> simp [expectationSh]

/-- C51: `energy.hartree` and `energy.external` return scalars. -/
theorem energyTerms_shape (s a x y z : ℕ) :
    hartreeEnergySh [s, x, y, z] [x, y, z, 3] = .ok [] ∧
    externalEnergySh [s, x, y, z] [a, 3] [a] [x, y, z, 3] = .ok [] := by
  have he := (externalPotential_shape a x y z).1
  unfold hartreeEnergySh externalEnergySh
  rw [he, hartreeReciprocal_shape]
  simp [reciprocalBraketSh]

/-- C51: `energy.kinetic` has the documented shapes. -/
theorem kinetic_shape (s k b x y z : ℕ) :
    kineticSh [x, y, z, 3] [k, 3] [s, k, b, x, y, z] none = .ok [s, k, b] ∧
    kineticSh [x, y, z, 3] [k, 3] [s, k, b, x, y, z] (some [s, k, b]) = .ok [] := by
  simp [kineticSh, List.range_succ]

/-- C51: `total_energy` returns a scalar, for LDA and GGA, with or without occupations. -/
theorem totalEnergy_shape (gga : Bool) (s k b a x y z : ℕ) (hs : s = 1 ∨ s = 2)
    (occ : Option (List ℕ)) (ho : occ = none ∨ occ = some [s, k, b]) :
    totalEnergySh gga [s, k, b, x, y, z] [a, 3] [a] [x, y, z, 3] [k, 3] occ = .ok [] := by
  have hx : xcEnergySh gga [s, x, y, z] [x, y, z, 3] = .ok [] := by
    unfold xcEnergySh
    obtain ⟨h0, h1, -⟩ := xcDensity_shape s x y z hs
    cases gga
    · rw [h0]; simp
    · rw [h1]; simp
  obtain ⟨hh, he⟩ := energyTerms_shape s a x y z
  have hk := (kinetic_shape s k b x y z).2
  have hw := (waveToDensity_shape s k b x y z).1
  have hocc : occ.getD ([s, k, b, x, y, z].take 3) = [s, k, b] := by
    rcases ho with rfl | rfl <;> rfl
  unfold totalEnergySh
  simp only [hocc]
  rw [waveGrid_shape]
  simp [hw, hk, he, hh, hx]

/-- C51 is false of `band_energy`: every call with well-shaped input raises `ValueError`, because the
potential never has the six axes of the band densities. -/
theorem bandEnergy_shape (ks : Bool) (s k b a x y z : ℕ) (hs : s = 1 ∨ s = 2) :
    bandEnergySh ks [s, k, b, x, y, z] [a, 3] [a] [x, y, z, 3] [k, 3] [s, k, b]
      = .error .valueError := by
  obtain ⟨h1, h2, -⟩ := effective_shape s a x y z hs
  obtain ⟨d1, d2, -⟩ := densityGrid_shape s k b x y z
  unfold bandEnergySh
  rw [d1, d2]
  cases ks <;> simp [h1, h2, realBraketSh]

/-- C51: the Ewald sum returns a scalar for a flat list of translations. -/
theorem ewald_shape (a x y z t : ℕ) : ewaldSh [a, 3] [a] [x, y, z, 3] [t, 3] = .ok [] := by
  simp [ewaldSh, List.range_succ]

/-- C51 is false of `ewald_coulomb_repulsion` with translations of the annotated shape `x y z 3`: a
single atom is enough for a `ValueError`. -/
theorem ewald_shape_wrong (x y z p q r : ℕ) :
    ewaldSh [1, 3] [1] [x, y, z, 3] [p, q, r, 3] = .error .valueError := by
  simp [ewaldSh, List.range_succ]

/-- C51 is false of `_hamiltonian_matrix`: every call raises `TypeError`, because `effective` has no
parameter `xc`.  With the keyword `xc_type` it would return the documented shape. -/
theorem hamiltonianMatrixOld_shape (ks : Bool) (s k b a x y z : ℕ) (dens : List ℕ)
    (hd : dens = [x, y, z] ∨ dens = [s, x, y, z]) :
    hamiltonianMatrixOldSh "xc" ks [s, k, b, x, y, z] [a, 3] [a] dens [x, y, z, 3] [k, 3]
      = .error .typeError ∧
    hamiltonianMatrixOldSh "xc_type" ks [s, k, b, x, y, z] [a, 3] [a] dens [x, y, z, 3] [k, 3]
      = .ok [s, k, b, b] := by
  have hb : bindCall effectiveParams 5 ["split", "xc", "kohn_sham"] = .error .typeError := by
    decide
  have hb' : bindCall effectiveParams 5 ["split", "xc_type", "kohn_sham"] = .ok () := by
    decide
  have he := (effective_shape 1 a x y z (Or.inl rfl)).2.2 ks
  have hk := (kineticOperator_shape k x y z).1
  have h1 := (expectation_shape s k b x y z [1, x, y, z] (Or.inr (Or.inr rfl))).2
  have h2 := (expectation_shape s k b x y z [k, x, y, z] (Or.inr (Or.inl rfl))).2
  unfold hamiltonianMatrixOldSh
  rw [hb, hb', hk, waveGrid_shape]
  rcases hd with rfl | rfl <;> simp [he, h1, h2]

/-- C51: a call binds exactly when it gives no more positional arguments than there are parameters, every keyword
names a parameter not given by position, and every parameter without a default is given.  So parameters with a
default may be left out. -/
theorem bindCall_iff (params : List Param) (npos : ℕ) (kws : List String) :
    bindCall params npos kws = .ok () ↔
      npos ≤ params.length ∧
      (∀ k ∈ kws, ∃ i, ∃ h : i < params.length, npos ≤ i ∧ (params[i]).name = k) ∧
      ∀ i, ∀ h : i < params.length, (params[i]).hasDefault = false → i < npos ∨ (params[i]).name ∈ kws := by
  have hdrop : ∀ q : Param → Prop, (∃ p ∈ params.drop npos, q p) ↔
      ∃ i, ∃ h : i < params.length, npos ≤ i ∧ q params[i] := by
    intro q
    constructor
    · rintro ⟨p, hp, hq⟩
      obtain ⟨i, hi, rfl⟩ := List.getElem_of_mem hp
      rw [List.length_drop] at hi
      refine ⟨npos + i, by omega, by omega, ?_⟩
      rwa [List.getElem_drop] at hq
    · rintro ⟨i, h, hi, hq⟩
      refine ⟨_, List.mem_drop_iff_getElem.mpr ⟨i - npos, by omega, rfl⟩, ?_⟩
      have e : npos + (i - npos) = i := by omega
      simpa [e] using hq
  unfold bindCall
  by_cases h1 : params.length < npos
  · simp [h1]
  · rw [if_neg h1]
    have e2 : (kws.any fun k => !((params.drop npos).any fun p => p.name == k)) = true ↔
        ¬ ∀ k ∈ kws, ∃ i, ∃ h : i < params.length, npos ≤ i ∧ (params[i]).name = k := by
      have e : (∀ k ∈ kws, ∃ i, ∃ h : i < params.length, npos ≤ i ∧ (params[i]).name = k) ↔
          ∀ k ∈ kws, ∃ p ∈ params.drop npos, p.name = k :=
        forall_congr' fun k => imp_congr_right fun _ => (hdrop fun p => p.name = k).symm
      rw [e, List.any_eq_true]
      push Not
      refine exists_congr fun k => and_congr_right fun _ => ?_
      simp
    have e3 : ((params.drop npos).any fun p => !p.hasDefault && !kws.contains p.name) = true ↔
        ∃ i, ∃ h : i < params.length, npos ≤ i ∧ ((params[i]).hasDefault = false ∧ (params[i]).name ∉ kws) := by
      rw [← hdrop fun p => p.hasDefault = false ∧ p.name ∉ kws]
      simp [List.any_eq_true]
    split_ifs with h2 h3
    · simp only [false_iff]
      exact fun h => (e2.mp h2) h.2.1
    · simp only [false_iff]
      obtain ⟨i, h, hi, hd, hn⟩ := e3.mp h3
      intro H
      rcases H.2.2 i h hd with h' | h'
      · omega
      · exact hn h'
    · simp only [true_iff]
      refine ⟨by omega, not_not.mp fun h => h2 (e2.mpr h), fun i h hd => ?_⟩
      by_contra hc
      push Not at hc
      exact h3 (e3.mpr ⟨i, h, hc.1, hd, hc.2⟩)

/-- A function with two parameters, the second with a default, may be called with one argument. -/
example : bindCall [⟨"a", false⟩, ⟨"b", true⟩] 1 [] = .ok () ∧
    bindCall [⟨"a", false⟩, ⟨"b", true⟩] 0 ["b"] ≠ .ok () := by
  refine ⟨(bindCall_iff _ _ _).mpr ⟨by decide, by simp, fun i h hd => ?_⟩, by decide⟩
  match i, h, hd with
  | 0, _, _ => exact Or.inl one_pos
  | 1, _, hd => simp at hd

/-- C51: `hamiltonian_matrix` always returns an array of the documented shape. -/
theorem hamiltonianMatrix_shape (ks : Bool) (s k b a x y z : ℕ) (dens : List ℕ)
    (hd : dens = [x, y, z] ∨ dens = [1, x, y, z] ∨ dens = [2, x, y, z]) :
    hamiltonianMatrixSh ks [s, k, b, x, y, z] [a, 3] [a] dens [x, y, z, 3] [k, 3]
      = .ok [s, k, b, b] := by
  have hb : bindCall effectiveParams 8 [] = .ok () := by decide
  have he : ∃ m, effectiveSh ks dens [a, 3] [a] [x, y, z, 3] = .ok [m, x, y, z] := by
    rcases hd with rfl | rfl | rfl
    · exact ⟨1, (effective_shape 1 a x y z (Or.inl rfl)).2.2 ks⟩
    · cases ks
      · exact ⟨1, (effective_shape 1 a x y z (Or.inl rfl)).2.1⟩
      · exact ⟨1, (effective_shape 1 a x y z (Or.inl rfl)).1⟩
    · cases ks
      · exact ⟨1, (effective_shape 2 a x y z (Or.inr rfl)).2.1⟩
      · exact ⟨2, (effective_shape 2 a x y z (Or.inr rfl)).1⟩
  obtain ⟨m, hm⟩ := he
  have hk := (kineticOperator_shape 1 x y z).1
  have h2 := (expectation_shape 1 1 1 x y z [1, x, y, z] (Or.inr (Or.inl rfl))).1
  have h1 : expectationSh [1, 1, 1, x, y, z] [m, x, y, z] none true = .ok [1, m, 1] := by
    simp [expectationSh]
  have hs : hamiltonianTraceSh ks false [1, 1, 1, x, y, z] [a, 3] [a] dens [x, y, z, 3] [1, 3]
      = .ok [] := by
    unfold hamiltonianTraceSh
    rw [hb, hm, hk, waveGrid_shape]
    simp [h1, h2]
  unfold hamiltonianMatrixSh
  simp [reshapeSh, hs]

/-- C51 is false of `hamiltonian_matrix_trace`: the documented shapes are `(spin,)` and
`(spin, kpt)`; the result is a scalar or of shape `(spin,)`, for every unpolarised density. -/
theorem hamiltonianTrace_shape (ks : Bool) (s k b a x y z : ℕ) (dens : List ℕ)
    (hd : dens = [x, y, z] ∨ dens = [1, x, y, z]) :
    hamiltonianTraceSh ks false [s, k, b, x, y, z] [a, 3] [a] dens [x, y, z, 3] [k, 3] = .ok [] ∧
    hamiltonianTraceSh ks true [s, k, b, x, y, z] [a, 3] [a] dens [x, y, z, 3] [k, 3] = .ok [s] := by
  have hb : bindCall effectiveParams 8 [] = .ok () := by decide
  have he : effectiveSh ks dens [a, 3] [a] [x, y, z, 3] = .ok [1, x, y, z] := by
    rcases hd with rfl | rfl
    · exact (effective_shape 1 a x y z (Or.inl rfl)).2.2 ks
    · cases ks
      · exact (effective_shape 1 a x y z (Or.inl rfl)).2.1
      · exact (effective_shape 1 a x y z (Or.inl rfl)).1
  have hk := (kineticOperator_shape k x y z).1
  have h1 := (expectation_shape s k b x y z [1, x, y, z] (Or.inr (Or.inr rfl))).1
  have h2 := (expectation_shape s k b x y z [k, x, y, z] (Or.inr (Or.inl rfl))).1
  unfold hamiltonianTraceSh
  rw [hb, he, hk, waveGrid_shape]
  simp [h1, h2]

/-- C51: with a polarised Kohn-Sham density and three or more k points the trace raises
`ValueError`. -/
theorem hamiltonianTrace_shape_error (keep : Bool) (s k b a x y z : ℕ) (hk3 : 3 ≤ k) :
    hamiltonianTraceSh true keep [s, k, b, x, y, z] [a, 3] [a] [2, x, y, z] [x, y, z, 3] [k, 3]
      = .error .valueError := by
  have hb : bindCall effectiveParams 8 [] = .ok () := by decide
  have he := (effective_shape 2 a x y z (Or.inr rfl)).1
  have hbc' : bcLen 2 k = .error .valueError := by
    unfold bcLen
    rw [if_neg (by omega), if_neg (by omega), if_neg (by omega)]
  have h1 : expectationSh [s, k, b, x, y, z] [2, x, y, z] none true = .error .valueError := by
    simp [expectationSh, hbc']
  unfold hamiltonianTraceSh
  rw [hb, he, waveGrid_shape]
  simp [h1]

end Jrystal
