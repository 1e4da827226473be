import Verif.Props.BandContinuity
import Verif.Props.LowestBands
import Verif.Props.BandRunNC

/- C106 with pseudopotentials: the projectors at a k point depend on the other points of the path. -/
namespace Jrystal
open scoped BigOperators
open Matrix RunSetup

/-- The largest `|k + G|` over the k points and the grid. -/
private theorem largest_eq {nk : ℕ} {n : Fin 3 → ℕ} {g : Idx n → Fin 3 → ℝ} {kpts : Fin nk → Fin 3 → ℝ} {R : ℝ}
    (h : IsGreatest (Set.range fun p : Fin nk × Idx n => Spec.length fun d => kpts p.1 d + g p.2 d) R) :
    maxRadius (fun p : Fin nk × Idx n => Real.sqrt (∑ d, (kpts p.1 d + g p.2 d) ^ 2)) = R :=
  maxRadius_eq _ (fun _ => Real.sqrt_nonneg _) R h

/-- C106 (part): the transformed projectors at a k point are the same for two lists of k points when the largest
`|k + G|` over the lists is the same.  Missing: other lists (`beta_path_dependent`). -/
theorem beta_path_partial (jn : SphBessel) (cs : Spline) {nk nk' : ℕ} {n : Fin 3 → ℕ} (nr nrow ncol : ℕ)
    (r : Samples) (beta : ℕ → Samples) (ang : List ℤ) (g : Idx n → Fin 3 → ℝ) (kpts : Fin nk → Fin 3 → ℝ)
    (kpts' : Fin nk' → Fin 3 → ℝ) (R : ℝ)
    (h : IsGreatest (Set.range fun p : Fin nk × Idx n => Spec.length fun d => kpts p.1 d + g p.2 d) R)
    (h' : IsGreatest (Set.range fun p : Fin nk' × Idx n => Spec.length fun d => kpts' p.1 d + g p.2 d) R)
    (B : Fin nk → Fin nrow → Idx n → ℝ) (hB : betaSbtSingle jn cs nr nrow ncol r beta ang g kpts = .ok B)
    (i : Fin nk) (i' : Fin nk') (hi : kpts i = kpts' i') :
    ∃ B', betaSbtSingle jn cs nr nrow ncol r beta ang g kpts' = .ok B' ∧ B i = B' i' := by
  unfold betaSbtSingle at hB ⊢
  by_cases h1 : ang.length ≠ nrow
  · rw [if_pos h1] at hB; cases hB
  by_cases h2 : nr ≠ ncol
  · rw [if_neg h1, if_pos h2] at hB; cases hB
  by_cases h3 : nr = 0
  · rw [if_neg h1, if_neg h2, if_pos h3] at hB; cases hB
  rw [if_neg h1, if_neg h2, if_neg h3] at hB ⊢
  refine ⟨_, rfl, ?_⟩
  rw [← Except.ok.inj hB]
  simp only [largest_eq h, largest_eq h', hi]

/-- C106 fails for projectors: for the spherical Bessel function of order zero and every interpolation that passes
through its points and is zero for zero values, there are a mesh, a projector and k points such that the transformed
projector at the first k point changes when a second one is added to the list. -/
theorem beta_path_dependent (jn : SphBessel) (hjn : ∀ x, x ≠ 0 → jn 0 x = Real.sin x / x) (cs : Spline)
    (hz : ∀ N x q, cs N x (fun _ => 0) q = 0)
    (hi : ∀ N (x y : Samples), (∀ i j, x i = x j → i = j) → ∀ j < N, cs N x y (x j) = y j) :
    ∃ (r : Samples) (beta : ℕ → Samples) (g : Idx ![1, 1, 1] → Fin 3 → ℝ) (k₀ k₁ : Fin 3 → ℝ) (B : Fin 1 → Fin 1 → _ → ℝ)
      (B' : Fin 2 → Fin 1 → _ → ℝ), StrictMono r ∧
      betaSbtSingle jn cs 2 1 2 r beta [0] g ![k₀] = .ok B ∧ betaSbtSingle jn cs 2 1 2 r beta [0] g ![k₀, k₁] = .ok B' ∧
      B 0 ≠ B' 0 := by
  let r : Samples := fun i => 10000 * Real.pi + i
  let k₀ : Fin 3 → ℝ := ![0.00015, 0, 0]
  let k₁ : Fin 3 → ℝ := ![0.0004, 0, 0]
  have hr0 : r 0 ≠ 0 := by simp [r, Real.pi_ne_zero]
  have hl0 : Spec.length k₀ = 0.00015 := by
    unfold Spec.length
    rw [Fin.sum_univ_three]
    have : k₀ 0 ^ 2 + k₀ 1 ^ 2 + k₀ 2 ^ 2 = (0.00015 : ℝ) ^ 2 := by simp [k₀]
    rw [this, Real.sqrt_sq (by norm_num)]
  have hl1 : Spec.length k₁ = 0.0004 := by
    unfold Spec.length
    rw [Fin.sum_univ_three]
    have : k₁ 0 ^ 2 + k₁ 1 ^ 2 + k₁ 2 ^ 2 = (0.0004 : ℝ) ^ 2 := by simp [k₁]
    rw [this, Real.sqrt_sq (by norm_num)]
  have hm : maxRadius (fun p : Fin 1 × Idx ![1, 1, 1] => Real.sqrt (∑ d, ((![k₀] : Fin 1 → Fin 3 → ℝ) p.1 d + 0) ^ 2))
      = 0.00015 := by
    refine maxRadius_eq _ (fun _ => Real.sqrt_nonneg _) _ ⟨⟨(0, fun i => ⟨0, by fin_cases i <;> decide⟩), ?_⟩, ?_⟩
    · simp only [add_zero]
      exact hl0
    · rintro _ ⟨⟨i, -⟩, rfl⟩
      fin_cases i
      simp only [add_zero]
      exact hl0.le
  have hm' : maxRadius (fun p : Fin 2 × Idx ![1, 1, 1] =>
      Real.sqrt (∑ d, ((![k₀, k₁] : Fin 2 → Fin 3 → ℝ) p.1 d + 0) ^ 2)) = 0.0004 := by
    refine maxRadius_eq _ (fun _ => Real.sqrt_nonneg _) _ ⟨⟨(1, fun i => ⟨0, by fin_cases i <;> decide⟩), ?_⟩, ?_⟩
    · simp only [add_zero]
      exact hl1
    · rintro _ ⟨⟨i, -⟩, rfl⟩
      fin_cases i
      · simp only [add_zero]
        exact hl0.le.trans (by norm_num)
      · simp only [add_zero]
        exact hl1.le
  simp only [add_zero] at hm hm'
  have hsum : ∀ kmax, sbtNumerical jn 2 (fun i => r i) kmax 0 (fun _ => 1) (deltaR 2 fun i => r i)
      = fun j => r 0 ^ 2 * jn 0 (gGrid 2 kmax j * r 0) := by
    intro kmax
    funext j
    unfold sbtNumerical deltaR
    rw [Finset.sum_range_succ, Finset.sum_range_one]
    simp [r]
  refine ⟨r, fun _ _ => 1, fun _ _ => 0, k₀, k₁, _, _, ?_, rfl, rfl, fun h => ?_⟩
  · intro i j hij
    simp only [r]
    have : (i : ℝ) < j := by exact_mod_cast hij
    linarith
  have h1 := congrFun (congrFun h 0) fun i => ⟨0, by fin_cases i <;> decide⟩
  simp only [if_neg hr0, Nat.sub_zero, List.getD_cons_zero, Fin.val_zero, Matrix.cons_val_zero, add_zero] at h1
  have hq : Real.sqrt (∑ d, k₀ d ^ 2) = 0.00015 := hl0
  rw [hq, hm, hm', hsum, hsum] at h1
  have hnode : gGrid 2 0.00015 3 = 0.00015 := by norm_num [gGrid]
  have hL : cs (2 * 2) (gGrid 2 0.00015) (fun j => r 0 ^ 2 * jn 0 (gGrid 2 0.00015 j * r 0)) 0.00015
      = r 0 ^ 2 * jn 0 (0.00015 * r 0) := by
    have := hi (2 * 2) (gGrid 2 0.00015) (fun j => r 0 ^ 2 * jn 0 (gGrid 2 0.00015 j * r 0)) (fun i j hij => by
      unfold gGrid at hij
      have : (i : ℝ) = j := by
        norm_num at hij
        exact_mod_cast hij
      exact_mod_cast this) 3 (by norm_num)
    rw [hnode] at this
    exact this
  have hZ : (fun j => r 0 ^ 2 * jn 0 (gGrid 2 0.0004 j * r 0)) = fun _ => 0 := by
    funext j
    have e : gGrid 2 0.0004 j * r 0 = ((j + 1 : ℕ) : ℝ) * Real.pi := by
      simp only [gGrid, r]
      push_cast
      norm_num
      ring
    rw [e, hjn _ (by positivity), Real.sin_nat_mul_pi, zero_div, mul_zero]
  rw [hZ, hz, hL] at h1
  have e : (0.00015 : ℝ) * r 0 = Real.pi / 2 + Real.pi := by
    simp only [r]
    push_cast
    norm_num
    ring
  rw [e, hjn _ (by positivity), Real.sin_add_pi, Real.sin_pi_div_two] at h1
  have h2 : (Real.pi / 2 + Real.pi) ≠ 0 := by positivity
  rcases mul_eq_zero.mp h1 with h3 | h3
  · exact hr0 (pow_eq_zero_iff two_ne_zero |>.mp h3)
  · rw [div_eq_zero_iff] at h3
    rcases h3 with h3 | h3
    · norm_num at h3
    · exact h2 h3

/-- Such functions exist. -/
example : ∃ (jn : SphBessel) (cs : Spline), (∀ x, x ≠ 0 → jn 0 x = Real.sin x / x) ∧
    (∀ N x q, cs N x (fun _ => 0) q = 0) ∧
    ∀ N (x y : Samples), (∀ i j, x i = x j → i = j) → ∀ j < N, cs N x y (x j) = y j := by
  refine ⟨fun _ x => Real.sin x / x, stepSpline, fun _ _ => rfl, fun N x q => ?_, fun N x y hx j hj => ?_⟩
  · unfold stepSpline
    split <;> rfl
  · unfold stepSpline
    have h : ∃ i, i < N ∧ x i = x j := ⟨j, hj, rfl⟩
    rw [dif_pos h, hx _ _ h.choose_spec.2]

/-- One k point of a table of projectors. -/
private def betaAt {nk : ℕ} {n : Fin 3 → ℕ} (i : Fin nk) (b : BetaArr nk n) : BetaArr 1 n :=
  ⟨b.1, fun _ j x => b.2 i j x⟩

private def speciesAt {nk : ℕ} {n : Fin 3 → ℕ} (i : Fin nk) (S : NlSpecies nk n) : NlSpecies 1 n :=
  ⟨S.nbeta, S.ang, S.dmat, fun _ j x => S.beta i j x⟩

private theorem species_at (P : NcLists) {nk : ℕ} {n : Fin 3 → ℕ} (bs : List (BetaArr nk n)) (i : Fin nk) (a : ℕ) :
    ncSpecies P (bs.map (betaAt i)) a = speciesAt i (ncSpecies P bs a) := by
  unfold ncSpecies
  have h : (bs.map (betaAt i)).getD a ⟨0, fun _ i => i.elim0⟩ = betaAt i (bs.getD a ⟨0, fun _ i => i.elim0⟩) := by
    rw [show (⟨0, fun _ i => i.elim0⟩ : BetaArr 1 n) = betaAt i ⟨0, fun _ i => i.elim0⟩ from by
      unfold betaAt
      congr 1, List.getD_map]
  rw [h]
  rfl

private theorem lists_at (L : NcLib) {nk nk' : ℕ} {n : Fin 3 → ℕ} {g : Idx n → Fin 3 → ℝ} {kpts : Fin nk → Fin 3 → ℝ}
    {kpts' : Fin nk' → Fin 3 → ℝ} {R : ℝ}
    (h : IsGreatest (Set.range fun p : Fin nk × Idx n => Spec.length fun d => kpts p.1 d + g p.2 d) R)
    (h' : IsGreatest (Set.range fun p : Fin nk' × Idx n => Spec.length fun d => kpts' p.1 d + g p.2 d) R)
    {i : Fin nk} {i' : Fin nk'} (hi : kpts i = kpts' i') (r : List ℚ) (b : List (List ℚ)) (l : List ℤ)
    {x : BetaArr nk n} (hx : betaOfLists L r b l (g, kpts) = .ok x) :
    ∃ x', betaOfLists L r b l (g, kpts') = .ok x' ∧ betaAt i x = betaAt i' x' := by
  unfold betaOfLists at hx ⊢
  generalize hB : betaSbtSingle L.jn L.csBeta r.length b.length (b.getD 0 []).length (samplesOf r)
    (fun i => samplesOf (b.getD i [])) l g kpts = B at hx
  cases B with
  | error e => cases hx
  | ok B =>
    obtain ⟨B', hB', hBB⟩ := beta_path_partial _ _ _ _ _ _ _ _ _ _ kpts' R h h' B hB i i' hi
    refine ⟨⟨b.length, B'⟩, by simp only [hB']; rfl, ?_⟩
    obtain rfl := Except.ok.inj hx
    unfold betaAt
    simp only [hBB]

private theorem grid_at (L : NcLib) {nk nk' : ℕ} {n : Fin 3 → ℕ} {g : Idx n → Fin 3 → ℝ} {kpts : Fin nk → Fin 3 → ℝ}
    {kpts' : Fin nk' → Fin 3 → ℝ} {R : ℝ}
    (h : IsGreatest (Set.range fun p : Fin nk × Idx n => Spec.length fun d => kpts p.1 d + g p.2 d) R)
    (h' : IsGreatest (Set.range fun p : Fin nk' × Idx n => Spec.length fun d => kpts' p.1 d + g p.2 d) R)
    {i : Fin nk} {i' : Fin nk'} (hi : kpts i = kpts' i') (rs : List (List ℚ)) :
    ∀ (bl : List (List (List ℚ))) (ls : List (List ℤ)) {xs : List (BetaArr nk n)} {xs' : List (BetaArr nk' n)},
      betaSbtGrid (betaOfLists L) rs bl ls (g, kpts) = .ok xs →
      betaSbtGrid (betaOfLists L) rs bl ls (g, kpts') = .ok xs' → xs.map (betaAt i) = xs'.map (betaAt i') := by
  induction rs with
  | nil =>
    intro bl ls xs xs' hx hx'
    simp only [betaSbtGrid, Except.ok.injEq] at hx hx'
    subst hx hx'
    rfl
  | cons r rs ih =>
    intro bl ls xs xs' hx hx'
    cases bl with
    | nil =>
      simp only [betaSbtGrid, Except.ok.injEq] at hx hx'
      subst hx hx'
      rfl
    | cons b bl =>
      cases ls with
      | nil =>
        simp only [betaSbtGrid, Except.ok.injEq] at hx hx'
        subst hx hx'
        rfl
      | cons l ls =>
        simp only [betaSbtGrid] at hx hx'
        cases h1 : betaOfLists L r b l (g, kpts) with
        | error e => rw [h1] at hx; cases hx
        | ok x =>
          obtain ⟨x', h1', hxx⟩ := lists_at L h h' hi r b l h1
          rw [h1] at hx
          rw [h1'] at hx'
          simp only at hx hx'
          cases h2 : betaSbtGrid (betaOfLists L) rs bl ls (g, kpts) with
          | error e => rw [h2] at hx; cases hx
          | ok ys =>
            cases h2' : betaSbtGrid (betaOfLists L) rs bl ls (g, kpts') with
            | error e => rw [h2'] at hx'; cases hx'
            | ok ys' =>
              rw [h2] at hx
              rw [h2'] at hx'
              simp only [Except.ok.injEq] at hx hx'
              subst hx hx'
              rw [List.map_cons, List.map_cons, ih bl ls h2 h2', hxx]

/-- The nonlocal part at one k point. -/
private theorem nonlocal_at (L : NcLib) (P : NcLists) {N m nk : ℕ} {n : Fin 3 → ℕ} (bs : List (BetaArr nk n))
    (pos : Fin m → Fin 3 → ℝ) (vol : ℝ) (g : Idx n → Fin 3 → ℝ) (w : Fin N → Idx n) (k : Fin nk → Fin 3 → ℝ)
    (i : Fin nk) :
    Spec.nonlocalMatrix (sphericalRow L.sph) (fun a : Fin m => ncSpecies P bs a)
        (fun a => Matrix.diagonal fun j => |L.eigh.vals (symmetrize (ncSpecies P bs a).dmat) j|) pos vol
        (2 * nlLMax (fun a : Fin m => ncSpecies P bs a) + 1) g w k i
      = Spec.nonlocalMatrix (sphericalRow L.sph) (fun a : Fin m => ncSpecies P (bs.map (betaAt i)) a)
        (fun a => Matrix.diagonal fun j => |L.eigh.vals (symmetrize (ncSpecies P (bs.map (betaAt i)) a).dmat) j|) pos vol
        (2 * nlLMax (fun a : Fin m => ncSpecies P (bs.map (betaAt i)) a) + 1) g w (fun _ : Fin 1 => k i) 0 := by
  have h : (fun a : Fin m => ncSpecies P (bs.map (betaAt i)) a) = fun a : Fin m => speciesAt i (ncSpecies P bs a) :=
    funext fun a => species_at P bs i a
  have h2 : ∀ S : Fin m → NlSpecies 1 n, S = (fun a : Fin m => speciesAt i (ncSpecies P bs a)) →
    Spec.nonlocalMatrix (sphericalRow L.sph) (fun a : Fin m => ncSpecies P bs a)
        (fun a => Matrix.diagonal fun j => |L.eigh.vals (symmetrize (ncSpecies P bs a).dmat) j|) pos vol
        (2 * nlLMax (fun a : Fin m => ncSpecies P bs a) + 1) g w k i
      = Spec.nonlocalMatrix (sphericalRow L.sph) S
        (fun a => Matrix.diagonal fun j => |L.eigh.vals (symmetrize (S a).dmat) j|) pos vol
        (2 * nlLMax S + 1) g w (fun _ : Fin 1 => k i) 0 := by
    rintro _ rfl
    rfl
  exact h2 _ h

/-- C106, whole norm-conserving calculations (part): two spin-restricted band calculations of the same crystal with
the same settings of the first stage save, at a common point of their paths, energies that differ by at most the
larger of the accuracies of the band optimisers, when the largest `|k + G|` over the paths is the same.  Missing:
other pairs of paths, for which the tables of the projectors differ (`beta_path_dependent`), and spin-unrestricted
calculations. -/
theorem bandRunNC_path_partial (L : NcLib) (T T' : BandTools) (cfg : NcConfig) (b b' : BandConfig) {m : ℕ}
    (a : AseAtoms m) (size ksize : Fin 3 → ℤ) (P : NcLists) (ne spin : ℤ) {num num' : ℕ}
    {frac : Matrix (Fin num) (Fin 3) ℝ} {frac' : Matrix (Fin num') (Fin 3) ℝ}
    (H : Spec.AdmissibleBandNC L T cfg b a size ksize P ne spin num frac)
    (H' : Spec.AdmissibleBandNC L T' cfg b' a size ksize P ne spin num' frac') (hr : cfg.restricted = true)
    (hC : Spec.Triangular L.qrC) (ε ε' : ℝ) (hopt : ∀ opt, T.optimizer = .ok opt → Spec.NearBandOptimizer ε opt)
    (hopt' : ∀ opt, T'.optimizer = .ok opt → Spec.NearBandOptimizer ε' opt)
    (he : 0 < b.epoch) (hf : 0 < b.fineEpoch) (he' : 0 < b'.epoch) (hf' : 0 < b'.fineEpoch)
    (A : Matrix (Fin 3) (Fin 3) ℝ) (hA : A = (angstrom2bohr : ℝ) • a.cell)
    (k : Fin num → Fin 3 → ℝ) (hk : Spec.HasCoordinates A frac k)
    (k' : Fin num' → Fin 3 → ℝ) (hk' : Spec.HasCoordinates A frac' k') :
    ∃ n file values file' values',
      Spec.LeastGrid size n ∧
      bandAtomsNC L T cfg b false a = .ok ⟨file, num, (ne.toNat + 1) / 2 + b.emptyBands, values⟩ ∧
      bandAtomsNC L T' cfg b' false a = .ok ⟨file', num', (ne.toNat + 1) / 2 + b'.emptyBands, values'⟩ ∧
      ∀ R, IsGreatest (Set.range fun p : Fin num × Idx n => Spec.length fun d => k p.1 d + gVectors A n p.2 d) R →
        IsGreatest (Set.range fun p : Fin num' × Idx n => Spec.length fun d => k' p.1 d + gVectors A n p.2 d) R →
      ∀ q q' (j : Fin ((ne.toNat + 1) / 2 + b.emptyBands)) (j' : Fin ((ne.toNat + 1) / 2 + b'.emptyBands)),
        (j : ℕ) = j' → k q = k' q' → |values q j - values' q' j'| ≤ max ε ε' := by
  obtain ⟨n, rep, mask, vloc, bs, dens, values, h1, h2, h3, h4, h7, h8, h5, hb, h6⟩ := bandRunNC_near_partial L T cfg b a
    size ksize P ne spin H hr hC ε hopt he hf A hA _ (fun _ _ => rfl) k hk
  obtain ⟨n', rep', mask', vloc', bs', dens', values', g1, g2, g3, g4, g7, g8, g5, hb', g6⟩ := bandRunNC_near_partial L T'
    cfg b' a size ksize P ne spin H' hr hC ε' hopt' he' hf' A hA _ (fun _ _ => rfl) k' hk'
  rw [h1] at g1
  obtain ⟨rfl, hrep⟩ := Sigma.mk.inj (Except.ok.inj g1)
  obtain rfl := eq_of_heq hrep
  obtain rfl := Except.ok.inj (h4.symm.trans g4)
  obtain rfl := Except.ok.inj (h7.symm.trans g7)
  rw [h2] at g2
  obtain rfl := eq_of_heq (Sigma.mk.inj g2).2
  refine ⟨n, _, values, _, values', h3, h5, g5, fun R hR hR' q q' j j' hj hq => ?_⟩
  have hbs : bs.map (betaAt q) = bs'.map (betaAt q') := by
    unfold ncBetas at h8 g8
    have hcpu : ¬ L.cpus / 2 = 0 := fun h => by rw [if_pos h] at h8; cases h8
    rw [if_neg hcpu] at h8 g8
    exact grid_at L hR hR' hq _ _ _ h8 g8
  let V : Fin 1 → Idx n → ℝ := fun σ x => (ifftn vloc x + hartreeRealSpace dens (gVectors A n) true x
    + vxcDensity L.xc cfg.xc (gVectors A n) dens σ x).re
  obtain ⟨lam, hl⟩ : ∃ lam, Spec.IsSpectrum (Spec.planeWaveHamiltonian (fun x => gVectors A n (maskPos mask x))
      (rVectors A n) (V 0) (k q) + Spec.nonlocalMatrix (sphericalRow L.sph) (fun a : Fin m => ncSpecies P bs a)
        (fun a => Matrix.diagonal fun j => |L.eigh.vals (symmetrize (ncSpecies P bs a).dmat) j|)
        (-fun i d => (angstrom2bohr : ℝ) * a.positions i d) |A.det|
        (2 * nlLMax (fun a : Fin m => ncSpecies P bs a) + 1) (gVectors A n) (maskPos mask) k q) lam := by
    refine exists_spectrum ((planeWaveHamiltonian_hermitian _ _ _ _).add ?_)
    rw [← nonlocalMatrix_actual]
    exact projectorMatrix_hermitian _ _
  obtain ⟨a1, a2⟩ := h6 V (fun _ _ => rfl) q lam hl j
  have hl' := hl
  rw [nonlocal_at, hbs, hq, ← nonlocal_at L P bs' _ _ _ _ k' q'] at hl'
  obtain ⟨b1, b2⟩ := g6 V (fun _ _ => rfl) q' lam hl' j'
  have hjj : Fin.castLE hb' j' = Fin.castLE hb j := Fin.ext hj.symm
  rw [hjj] at b1 b2
  have c1 := le_max_left ε ε'
  have c2 := le_max_right ε ε'
  exact abs_le.mpr ⟨by linarith, by linarith⟩

/-- C106 with pseudopotentials, the limit of good optimisers (part): for every tolerance `δ` there is an accuracy of
the first optimiser with which every spin-restricted band calculation saves energies within `δ` plus the accuracy of
the band optimiser of the eigenvalues, with the nonlocal part of the code, of the Kohn-Sham potential of an exact
ground state.  Missing: spin-unrestricted calculations; a temperature near to the requested one when the convergence
test ends the first stage early (`stops_hot`). -/
theorem bandRunNC_limit_partial (L : NcLib) (cfg : NcConfig) {m : ℕ} (a : AseAtoms m) (size ksize : Fin 3 → ℤ)
    (P : NcLists) (ne spin : ℤ) (H : Spec.AdmissibleRunNC L cfg a size ksize P ne spin) (hr : cfg.restricted = true)
    (hC : Spec.Triangular L.qrC) (hR : Spec.Triangular L.qrR) (hxc : Spec.ContinuousXc L.xc cfg.xc)
    (hvxc : Spec.ContinuousVxc L.xc cfg.xc) (heps : 0 < cfg.eps)
    (hspin : cfg.occupation = "simplex-projector" → spin = 0) (hg : cfg.occupation = "gamma" → ∀ i, ksize i ≤ 1)
    (A : Matrix (Fin 3) (Fin 3) ℝ) (hA : A = (angstrom2bohr : ℝ) • a.cell)
    (pos : Fin m → Fin 3 → ℝ) (hpos : ∀ i d, pos i d = angstrom2bohr * a.positions i d) (he : 3 ≤ cfg.epoch)
    {n kn : Fin 3 → ℕ} (hn : Spec.LeastGrid size n) (hkn : Spec.LeastGrid ksize kn)
    (mask : Idx n → Bool) (hmask : createFreqMask cfg.toRunConfig A n = .ok mask)
    (vloc : Idx n → ℂ)
    (hvloc : localReciprocal L.jn L.csLoc (ncLocalAtom P pos) (gVectors A n) |A.det| "sbt" = .ok vloc)
    (bs₀ : List (BetaArr (idxList kn).length n))
    (hbs₀ : ncBetas L P (gVectors A n) (flatRows (kVectors A kn)) = .ok bs₀) (δ : ℝ) (hδ : 0 < δ) :
    ∃ ε, 0 < ε ∧ ∀ opt : Optimizer, Spec.NearOptimizer ε opt →
      (∀ {ns nk g nb : ℕ} (f : GsParams ns nk g nb → Except PyErr ℝ) (p : GsParams ns nk g nb × opt.State),
        Spec.KeepsShape p.1.occ (opt.step f p).1.occ) →
      ∀ (T : BandTools) (b : BandConfig) (num : ℕ) (frac : Matrix (Fin num) (Fin 3) ℝ) (k : Fin num → Fin 3 → ℝ)
        (δ' : ℝ), Spec.AdmissibleBandNC { L with optimizer := .ok opt } T cfg b a size ksize P ne spin num frac →
        (∀ opt, T.optimizer = .ok opt → Spec.NearBandOptimizer δ' opt) → 0 < b.epoch → 0 < b.fineEpoch →
        Spec.HasCoordinates A frac k →
      ∃ i, ∃ c : Coef 1 (idxList kn).length ((ne.toNat + 1) / 2 + cfg.emptyBands) n, ∃ occ e bs file values,
        i < cfg.epoch.toNat ∧
        (cfg.threshold ≤ 0 ∨ cfg.smearing ≤ 0 → temperature cfg.smearing cfg.epoch i = max cfg.smearing 0) ∧
        Spec.GroundWithin 0 (temperature cfg.smearing cfg.epoch i) cfg.eps mask ne spin true cfg.occupation
          (Spec.EnergyNC L.xc cfg.xc vloc (nlPsiAll L.eigh L.sph (fun a : Fin m => ncSpecies P bs₀ a) pos
            (gVectors A n) (flatRows (kVectors A kn))) (gVectors A n) (flatRows (kVectors A kn)) |A.det|) c occ e ∧
        ncBetas L P (gVectors A n) k = .ok bs ∧
        bandAtomsNC { L with optimizer := .ok opt } T cfg b false a
          = .ok ⟨file, num, (ne.toNat + 1) / 2 + b.emptyBands, values⟩ ∧
        ∃ hb : (ne.toNat + 1) / 2 + b.emptyBands ≤ maskCount mask,
          ∀ V : Fin 1 → Idx n → ℝ,
            Spec.KohnShamPotentialNC L.xc cfg.xc vloc (gVectors A n) (densityGrid c |A.det| occ) V →
          ∀ q lam, Spec.IsSpectrum (Spec.planeWaveHamiltonian (fun i => gVectors A n (maskPos mask i))
              (rVectors A n) (V 0) (k q)
            + Spec.nonlocalMatrix (sphericalRow L.sph) (fun a : Fin m => ncSpecies P bs a)
              (fun a => Matrix.diagonal fun j => |L.eigh.vals (symmetrize (ncSpecies P bs a).dmat) j|) (-pos) |A.det|
              (2 * nlLMax (fun a : Fin m => ncSpecies P bs a) + 1) (gVectors A n) (maskPos mask) k q) lam →
            ∀ j, lam (Fin.castLE hb j) - δ ≤ values q j ∧ values q j ≤ lam (Fin.castLE hb j) + δ + δ' := by
  obtain ⟨f, hf1, hf2⟩ := continuousOn_energyNC (ns := 1) (nb := (ne.toNat + 1) / 2 + cfg.emptyBands) L.xc cfg.xc hxc
    vloc (nlPsiAll L.eigh L.sph (fun a : Fin m => ncSpecies P bs₀ a) pos (gVectors A n) (flatRows (kVectors A kn)))
    (gVectors A n) (flatRows (kVectors A kn)) |A.det|
  let W : (Fin 1 → Idx n → ℝ) → Idx n → ℝ := fun ρ x => (ifftn vloc x + hartreeRealSpace ρ (gVectors A n) true x
    + vxcDensity L.xc cfg.xc (gVectors A n) ρ 0 x).re
  have hW : ∀ x, ContinuousOn (fun ρ => W ρ x) {ρ : Fin 1 → Idx n → ℝ | ∀ s x, 0 ≤ ρ s x} := fun x =>
    Complex.continuous_re.comp_continuousOn ((continuousOn_const.add
      (continuous_hartreeReal (gVectors A n) x).continuousOn).add (hvxc (gVectors A n) x))
  obtain ⟨ε, hε, hnear⟩ := limit_potential heps mask ne spin true cfg.occupation hf1 (energyNC_function hf2) |A.det| W hW
    hδ (temperature cfg.smearing cfg.epoch) cfg.epoch.toNat
  refine ⟨ε, hε, fun opt hopt hkeep T b num frac k δ' hband hopt' he' hf' hk => ?_⟩
  obtain ⟨n', kn', rep, mask', vloc', bs', a1, a2, a3, a4, a7, a8, ns', nb', a5, a6, en, j, h1, -, -, -, h5⟩ :=
    ncRun_history { L with optimizer := .ok opt } cfg a size ksize P ne spin
      { H with optimizer := ⟨opt, rfl, hkeep⟩ } hC hR hxc heps (fun h _ => hspin h) hg ε
      (fun o ho => by cases Except.ok.inj ho; exact hopt) A hA pos hpos
  obtain rfl := leastGrid_unique hn a2
  obtain rfl := leastGrid_unique hkn a3
  obtain rfl : mask' = mask := Except.ok.inj (a4.symm.trans hmask)
  obtain rfl : vloc' = vloc := Except.ok.inj (a7.symm.trans hvloc)
  obtain rfl : bs' = bs₀ := Except.ok.inj (a8.symm.trans hbs₀)
  rw [hr] at a6
  obtain rfl : ns' = 1 := a6
  obtain rfl := a5
  obtain ⟨c, occ, hgr, hdens⟩ := h5 j
  rw [hr] at hgr
  obtain ⟨c', occ', e', hgr', hV'⟩ := hnear j (by have := h1.within; omega) c occ _ hgr
  obtain ⟨n', rep', mask'', vloc'', bs, dens, values, g1, g2, -, g4, g7, g8, g5, hb, g6⟩ := bandRunNC_near_partial
    { L with optimizer := .ok opt } T cfg b a size ksize P ne spin hband hr hC δ' hopt' he' hf' A hA pos hpos k hk
  rw [a1] at g1
  obtain ⟨rfl, hrep⟩ := Sigma.mk.inj (Except.ok.inj g1)
  obtain rfl := eq_of_heq hrep
  obtain rfl := Except.ok.inj (hmask.symm.trans g4)
  obtain rfl := Except.ok.inj (hvloc.symm.trans g7)
  rw [(hdens rfl).1] at g2
  obtain rfl := eq_of_heq (Sigma.mk.inj g2).2
  have hdet : A.det ≠ 0 := by
    rw [hA]
    exact fromAse_det a cfg.spin H.cell
  refine ⟨j, c', occ', e', bs, _, values, by have := h1.within; omega, fun h => ?_, hgr', g8, g5, hb,
    fun V hVd q lam hl l => ?_⟩
  · rcases h with h | h
    · exact (history_final h1 he (Or.inl h) _).2
    · rw [temperature_zero _ h, max_eq_right h]
  · have e : V 0 = W (densityGrid c' |A.det| occ') := funext fun x => hVd 0 x
    rw [e] at hl
    obtain ⟨lam₁, hl₁⟩ : ∃ lam₁, Spec.IsSpectrum (Spec.planeWaveHamiltonian (fun x => gVectors A _ (maskPos mask' x))
        (rVectors A _) (W (densityGrid c |A.det| occ)) (k q)
        + Spec.nonlocalMatrix (sphericalRow L.sph) (fun a : Fin m => ncSpecies P bs a)
          (fun a => Matrix.diagonal fun j => |L.eigh.vals (symmetrize (ncSpecies P bs a).dmat) j|) (-pos) |A.det|
          (2 * nlLMax (fun a : Fin m => ncSpecies P bs a) + 1) (gVectors A _) (maskPos mask') k q) lam₁ := by
      refine exists_spectrum ((planeWaveHamiltonian_hermitian _ _ _ _).add ?_)
      rw [← nonlocalMatrix_actual]
      exact projectorMatrix_hermitian _ _
    obtain ⟨b1, b2⟩ := g6 (fun _ => W (densityGrid c |A.det| occ)) (fun σ x => by rw [Subsingleton.elim σ 0]) q lam₁ hl₁ l
    have h7 := abs_le.mp (bandsNC_lipschitz A hdet mask' _ _ (k q) _ δ hV' hl₁ hl (Fin.castLE hb l))
    exact ⟨by linarith [h7.1], by linarith [h7.2]⟩

/-- C102 and C106 with pseudopotentials, whole calculations (part): for every tolerance `δ` there is an accuracy of the
first optimiser with which, without smearing, every spin-restricted band calculation saves, at every point of its path
that is a k point of the ground-state calculation, energies within `δ` plus the accuracy of the band optimiser of the
occupied valence levels of an exact ground state; at a k point with an empty band, where the functional is
differentiable at the densities of that ground state, and for a path with the same largest `|k + G|` as the mesh.
Missing: as in `groundNC_lowest_partial`; other paths, whose tables of projectors differ (`beta_path_dependent`). -/
theorem bandRunNC_lowest_limit_partial (L : NcLib) (cfg : NcConfig) {m : ℕ} (a : AseAtoms m) (size ksize : Fin 3 → ℤ)
    (P : NcLists) (ne spin : ℤ) (H : Spec.AdmissibleRunNC L cfg a size ksize P ne spin) (hr : cfg.restricted = true)
    (hC : Spec.Triangular L.qrC) (hR : Spec.Triangular L.qrR) (hxc : Spec.ContinuousXc L.xc cfg.xc)
    (hvxc : Spec.ContinuousVxc L.xc cfg.xc) (hgga : pyIn "gga" cfg.xc = false) (heps : 0 < cfg.eps)
    (hcold : cfg.smearing ≤ 0) (hspin : cfg.occupation = "simplex-projector" → spin = 0)
    (hm : ¬ (cfg.occupation = "uniform" ∨ cfg.occupation = "gamma"))
    (A : Matrix (Fin 3) (Fin 3) ℝ) (hA : A = (angstrom2bohr : ℝ) • a.cell)
    (pos : Fin m → Fin 3 → ℝ) (hpos : ∀ i d, pos i d = angstrom2bohr * a.positions i d) (he : 3 ≤ cfg.epoch)
    {n kn : Fin 3 → ℕ} (hn : Spec.LeastGrid size n) (hkn : Spec.LeastGrid ksize kn)
    (mask : Idx n → Bool) (hmask : createFreqMask cfg.toRunConfig A n = .ok mask)
    (vloc : Idx n → ℂ)
    (hvloc : localReciprocal L.jn L.csLoc (ncLocalAtom P pos) (gVectors A n) |A.det| "sbt" = .ok vloc)
    (bs₀ : List (BetaArr (idxList kn).length n))
    (hbs₀ : ncBetas L P (gVectors A n) (flatRows (kVectors A kn)) = .ok bs₀) (δ : ℝ) (hδ : 0 < δ) :
    ∃ ε, 0 < ε ∧ ∀ opt : Optimizer, Spec.NearOptimizer ε opt →
      (∀ {ns nk g nb : ℕ} (f : GsParams ns nk g nb → Except PyErr ℝ) (p : GsParams ns nk g nb × opt.State),
        Spec.KeepsShape p.1.occ (opt.step f p).1.occ) →
      ∀ (T : BandTools) (b : BandConfig) (num : ℕ) (frac : Matrix (Fin num) (Fin 3) ℝ) (k : Fin num → Fin 3 → ℝ)
        (δ' : ℝ), Spec.AdmissibleBandNC { L with optimizer := .ok opt } T cfg b a size ksize P ne spin num frac →
        (∀ opt, T.optimizer = .ok opt → Spec.NearBandOptimizer δ' opt) → 0 < b.epoch → 0 < b.fineEpoch →
        Spec.HasCoordinates A frac k →
        ∀ R, IsGreatest (Set.range fun p : Fin num × Idx n => Spec.length fun d => k p.1 d + gVectors A n p.2 d) R →
        IsGreatest (Set.range fun p : Fin (idxList kn).length × Idx n => Spec.length fun d =>
          flatRows (kVectors A kn) p.1 d + gVectors A n p.2 d) R →
      ∃ c : Coef 1 (idxList kn).length ((ne.toNat + 1) / 2 + cfg.emptyBands) n, ∃ occ e file values,
        Spec.GroundWithin 0 0 cfg.eps mask ne spin true cfg.occupation
          (Spec.EnergyNC L.xc cfg.xc vloc (nlPsiAll L.eigh L.sph (fun a : Fin m => ncSpecies P bs₀ a) pos
            (gVectors A n) (flatRows (kVectors A kn))) (gVectors A n) (flatRows (kVectors A kn)) |A.det|) c occ e ∧
        bandAtomsNC { L with optimizer := .ok opt } T cfg b false a
          = .ok ⟨file, num, (ne.toNat + 1) / 2 + b.emptyBands, values⟩ ∧
        ((∀ j, ∀ x ∈ splitPlus cfg.xc, DifferentiableAt ℝ (L.xc.lda x) (densityGrid c |A.det| occ 0 j)) →
          ∀ (i : Fin (idxList kn).length) (q : Fin num), k q = flatRows (kVectors A kn) i →
          ∀ b₀, occ 0 i b₀ = 0 →
          ∀ {m' : ℕ} (σ : Fin m' → Fin ((ne.toNat + 1) / 2 + cfg.emptyBands)), Function.Injective σ →
            (∀ b, 0 < occ 0 i b ↔ ∃ l, σ l = b) →
          ∃ M, ncHamiltonianMatrix L.xc cfg.xc true c (densityGrid c |A.det| occ) vloc
              (nlPsiAll L.eigh L.sph (fun a : Fin m => ncSpecies P bs₀ a) pos (gVectors A n) (flatRows (kVectors A kn)))
              (gVectors A n) (flatRows (kVectors A kn)) |A.det| = .ok ⟨(idxList kn).length, M⟩ ∧
            ∀ mu, Spec.IsSpectrum (((1 / 2 : ℂ) • (Matrix.of (M 0 i) + (Matrix.of (M 0 i))ᴴ)).submatrix σ σ) mu →
            ∀ (j : Fin m') (hj : (j : ℕ) < (ne.toNat + 1) / 2 + b.emptyBands),
              mu j - δ ≤ values q ⟨j, hj⟩ ∧ values q ⟨j, hj⟩ ≤ mu j + δ + δ') := by
  obtain ⟨ε, hε, h⟩ := bandRunNC_limit_partial L cfg a size ksize P ne spin H hr hC hR hxc hvxc heps hspin
    (fun h => absurd (Or.inr h) hm) A hA pos hpos he hn hkn mask hmask vloc hvloc bs₀ hbs₀ δ hδ
  refine ⟨ε, hε, fun opt hopt hkeep T b num frac k δ' hband hopt' he' hf' hk R hR1 hR2 => ?_⟩
  obtain ⟨i, c, occ, e, bs, file, values, -, ht, hgr, hbs, hsave, hb, hval⟩ := h opt hopt hkeep T b num frac k δ' hband
    hopt' he' hf' hk
  rw [ht (Or.inr hcold), max_eq_right hcold] at hgr
  have hdet : A.det ≠ 0 := by
    rw [hA]
    exact fromAse_det a cfg.spin H.cell
  refine ⟨c, occ, e, file, values, hgr, hsave, fun hd i q hq b₀ hb₀ m' σ hσ hrange => ?_⟩
  obtain ⟨V, hV⟩ : ∃ V : Fin 1 → Idx n → ℝ,
      Spec.KohnShamPotentialNC L.xc cfg.xc vloc (gVectors A n) (densityGrid c |A.det| occ) V :=
    ⟨_, fun _ _ => rfl⟩
  obtain ⟨M, hle, hM, hlow⟩ := groundNC_lowest_partial L.xc cfg.xc hgga mask vloc _ A hdet (flatRows (kVectors A kn))
    |A.det| (abs_pos.mpr hdet) cfg.eps heps ne spin cfg.occupation hm c occ e hgr hd V hV i b₀ hb₀ σ hσ hrange
  refine ⟨M, hM, fun mu hmu j hj => ?_⟩
  have hmap : bs.map (betaAt q) = bs₀.map (betaAt i) := by
    unfold ncBetas at hbs hbs₀
    have hcpu : ¬ L.cpus / 2 = 0 := fun h => by rw [if_pos h] at hbs; cases hbs
    rw [if_neg hcpu] at hbs hbs₀
    exact grid_at L hR1 hR2 hq _ _ _ hbs hbs₀
  obtain ⟨lam, hl⟩ : ∃ lam, Spec.IsSpectrum (Spec.planeWaveHamiltonian (fun x => gVectors A n (maskPos mask x))
      (rVectors A n) (V 0) (k q) + Spec.nonlocalMatrix (sphericalRow L.sph) (fun a : Fin m => ncSpecies P bs a)
        (fun a => Matrix.diagonal fun j => |L.eigh.vals (symmetrize (ncSpecies P bs a).dmat) j|) (-pos) |A.det|
        (2 * nlLMax (fun a : Fin m => ncSpecies P bs a) + 1) (gVectors A n) (maskPos mask) k q) lam := by
    refine exists_spectrum ((planeWaveHamiltonian_hermitian _ _ _ _).add ?_)
    rw [← nonlocalMatrix_actual]
    exact projectorMatrix_hermitian _ _
  have h9 := hval V hV q lam hl ⟨j, hj⟩
  rw [nonlocal_at, hmap, hq, ← nonlocal_at L P bs₀ _ _ _ _ (flatRows (kVectors A kn)) i, ← nonlocalMatrix_actual] at hl
  rw [hlow mu lam hmu hl j]
  exact h9

/-- The hypotheses of `bandRunNC_path_partial` hold for the pair of atoms, with band optimisers of different
accuracy. -/
example {δ : ℝ} (hδ : 0 < δ) (eigh : Eigh) (jn : SphBessel) (csLoc csBeta : Spline) :
    ∃ file, ∃ values : Fin 16 → Fin 3 → ℝ,
      bandAtomsNC (pairLib 1 eigh jn csLoc csBeta) (lithiumTools δ) pairConfig lithiumBands false pairAtoms
        = .ok ⟨file, 16, 3, values⟩ ∧
      ∃ file', ∃ values' : Fin 16 → Fin 3 → ℝ,
        bandAtomsNC (pairLib 1 eigh jn csLoc csBeta) (lithiumTools (2 * δ)) pairConfig lithiumBands false pairAtoms
          = .ok ⟨file', 16, 3, values'⟩ ∧ ∀ q j, |values q j - values' q j| ≤ 2 * δ := by
  obtain ⟨P, frac, k, H, hk, hr, hC, -, -, -, -, -, hb, -⟩ := pair_band (one_pos : (0 : ℝ) < 1) hδ eigh jn csLoc csBeta
  obtain ⟨P', frac', k', H', hk', -, -, -, -, -, -, -, hb', -⟩ := pair_band (one_pos : (0 : ℝ) < 1)
    (show 0 < 2 * δ by linarith) eigh jn csLoc csBeta
  obtain rfl := Except.ok.inj (H.loaded.symm.trans H'.loaded)
  obtain rfl := eq_of_heq (Sigma.mk.inj (Except.ok.inj (H.path.symm.trans H'.path))).2
  obtain ⟨n, file, values, file', values', hn, h1, h2, h3⟩ := bandRunNC_path_partial _ _ _ _ _ _ _ _ _ _ _ _ H H'
    hr hC δ (2 * δ) hb hb' (by decide) (by decide) (by decide) (by decide) _ rfl k hk k hk
  refine ⟨file, values, h1, file', values', h2, fun q j => ?_⟩
  have : Nonempty (Idx n) := ⟨fun i => ⟨0, by
    have : (4 : ℤ) ≤ n i := (hn i).2.1
    omega⟩⟩
  obtain ⟨p, hp⟩ := Finite.exists_max fun p : Fin 16 × Idx n => Spec.length fun d =>
    k p.1 d + gVectors ((angstrom2bohr : ℝ) • pairAtoms.cell) n p.2 d
  have hR := (⟨⟨p, rfl⟩, fun _ ⟨p', h⟩ => h ▸ hp p'⟩ : IsGreatest (Set.range fun p : Fin 16 × Idx n => Spec.length fun d =>
    k p.1 d + gVectors ((angstrom2bohr : ℝ) • pairAtoms.cell) n p.2 d) _)
  have h9 := h3 _ hR hR q q j j rfl rfl
  rwa [max_eq_right (by linarith)] at h9

/-- The hypotheses of `bandRunNC_limit_partial` hold for the pair of atoms. -/
example {δ : ℝ} (hδ : 0 < δ) (eigh : Eigh) (jn : SphBessel) (csLoc csBeta : Spline) :
    ∃ ε, 0 < ε ∧ ∃ (n kn : Fin 3 → ℕ) (mask : Idx n → Bool) (vloc : Idx n → ℂ) (P : NcLists)
      (bs : List (BetaArr (idxList kn).length n)) (i : ℕ)
      (c : Coef 1 (idxList kn).length (2 + pairConfig.emptyBands) n)
      (occ : Occ 1 (idxList kn).length (2 + pairConfig.emptyBands)) (e : ℝ) (file : String)
      (values : Fin 16 → Fin 3 → ℝ),
      Spec.GroundWithin 0 (temperature pairConfig.smearing pairConfig.epoch i) pairConfig.eps mask 4 0 true
        pairConfig.occupation (Spec.EnergyNC diracLib pairConfig.xc vloc (nlPsiAll eigh (pairLib ε eigh jn csLoc csBeta).sph
          (fun a : Fin 2 => ncSpecies P bs a) (fun i d => angstrom2bohr * pairAtoms.positions i d)
          (gVectors ((angstrom2bohr : ℝ) • 1) n) (flatRows (kVectors ((angstrom2bohr : ℝ) • 1) kn)))
          (gVectors ((angstrom2bohr : ℝ) • 1) n) (flatRows (kVectors ((angstrom2bohr : ℝ) • 1) kn))
          |((angstrom2bohr : ℝ) • (1 : Matrix (Fin 3) (Fin 3) ℝ)).det|) c occ e ∧
      bandAtomsNC (pairLib ε eigh jn csLoc csBeta) (lithiumTools δ) pairConfig lithiumBands false pairAtoms
        = .ok ⟨file, 16, 3, values⟩ := by
  obtain ⟨P, frac, k, H, hk, hr, hC, hR, hx, heps, hgam, hopt, hb, -⟩ := pair_band (one_pos : (0 : ℝ) < 1) hδ eigh jn
    csLoc csBeta
  obtain ⟨n, kn, -, mask, vloc, bs, -, hn, hkn, hmask, hv, hbs, -⟩ := ncRun_history _ _ _ _ _ _ _ _ H.toAdmissibleRunNC
    hC hR hx heps (fun _ _ => rfl) (fun h => absurd h hgam) 1 hopt _ rfl _ (fun _ _ => rfl)
  obtain ⟨ε, hε, h⟩ := bandRunNC_limit_partial _ _ _ _ _ _ _ _ H.toAdmissibleRunNC hr hC hR hx diracLib_continuousVxc heps
    (fun _ => rfl) (fun h => absurd h hgam) _ rfl _ (fun _ _ => rfl) (by decide) hn hkn mask hmask vloc hv bs hbs δ hδ
  obtain ⟨P', frac, k, H', hk, -, -, -, -, -, -, -, hb, -⟩ := pair_band hε hδ eigh jn csLoc csBeta
  obtain rfl := Except.ok.inj (H.loaded.symm.trans H'.loaded)
  obtain ⟨i, c, occ, e, bs', file, values, -, -, h1, -, h2, -⟩ := h (nearOptimizer ε) (nearOptimizer_near hε)
    (nearOptimizer_keeps ε) (lithiumTools δ) lithiumBands 16 frac k δ H' hb (by decide) (by decide) hk
  exact ⟨ε, hε, n, kn, mask, vloc, P, bs, i, c, occ, e, file, values, h1, h2⟩

/-- A path made of the k points of the mesh of the pair of atoms. -/
noncomputable def meshPath : Matrix (Fin (idxList fun _ => 2 : List (Idx fun _ => 2)).length) (Fin 3) ℝ :=
  fun i l => (∑ e, flatRows (kVectors ((angstrom2bohr : ℝ) • (1 : Matrix (Fin 3) (Fin 3) ℝ)) fun _ => 2) i e
    * ((angstrom2bohr : ℝ) • (1 : Matrix (Fin 3) (Fin 3) ℝ)) l e) / (2 * Real.pi)

/-- The hypotheses of `bandRunNC_lowest_limit_partial` hold for the pair of atoms and this path. -/
example {δ : ℝ} (hδ : 0 < δ) (eigh : Eigh) (jn : SphBessel) (csLoc csBeta : Spline) :
    ∃ ε, 0 < ε ∧ ∃ (n : Fin 3 → ℕ) (mask : Idx n → Bool) (vloc : Idx n → ℂ) (P : NcLists)
      (bs : List (BetaArr (idxList fun _ => 2 : List (Idx fun _ => 2)).length n))
      (c : Coef 1 (idxList fun _ => 2 : List (Idx fun _ => 2)).length (2 + pairConfig.emptyBands) n)
      (occ : Occ 1 (idxList fun _ => 2 : List (Idx fun _ => 2)).length (2 + pairConfig.emptyBands)) (e : ℝ) (file : String)
      (values : Fin (idxList fun _ => 2 : List (Idx fun _ => 2)).length → Fin 3 → ℝ),
      Spec.GroundWithin 0 0 pairConfig.eps mask 4 0 true
        pairConfig.occupation (Spec.EnergyNC diracLib pairConfig.xc vloc (nlPsiAll eigh (pairLib ε eigh jn csLoc csBeta).sph
          (fun a : Fin 2 => ncSpecies P bs a) (fun i d => angstrom2bohr * pairAtoms.positions i d)
          (gVectors ((angstrom2bohr : ℝ) • 1) n) (flatRows (kVectors ((angstrom2bohr : ℝ) • 1) fun _ => 2)))
          (gVectors ((angstrom2bohr : ℝ) • 1) n) (flatRows (kVectors ((angstrom2bohr : ℝ) • 1) fun _ => 2))
          |((angstrom2bohr : ℝ) • (1 : Matrix (Fin 3) (Fin 3) ℝ)).det|) c occ e ∧
      bandAtomsNC (pairLib ε eigh jn csLoc csBeta) { lithiumTools δ with bandpath := fun _ _ _ => .ok ⟨_, meshPath⟩ }
        pairConfig lithiumBands false pairAtoms = .ok ⟨file, _, 3, values⟩ := by
  obtain ⟨P, frac, k, H, hk, hr, hC, hR, hx, heps, hgam, hopt, hb, -⟩ := pair_band (one_pos : (0 : ℝ) < 1) hδ eigh jn
    csLoc csBeta
  obtain ⟨n, kn, -, mask, vloc, bs, -, hn, hkn, hmask, hv, hbs, -⟩ := ncRun_history _ _ _ _ _ _ _ _ H.toAdmissibleRunNC
    hC hR hx heps (fun _ _ => rfl) (fun h => absurd h hgam) 1 hopt _ rfl _ (fun _ _ => rfl)
  obtain rfl : kn = fun _ => 2 := funext fun i => RunSetup.least_eq (k := 2) (hkn i) RunSetup.smooth2
  obtain ⟨ε, hε, h⟩ := bandRunNC_lowest_limit_partial _ _ _ _ _ _ _ _ H.toAdmissibleRunNC hr hC hR hx
    diracLib_continuousVxc (by decide +kernel) heps (le_refl 0) (fun _ => rfl) (by decide) _ rfl _ (fun _ _ => rfl)
    (by decide) hn hkn mask hmask vloc hv bs hbs δ hδ
  obtain ⟨P', frac, k, H', hk, -, -, -, -, -, -, -, hb, -⟩ := pair_band hε hδ eigh jn csLoc csBeta
  obtain rfl := Except.ok.inj (H.loaded.symm.trans H'.loaded)
  have : Nonempty (Idx n) := ⟨fun i => ⟨0, by
    have : (4 : ℤ) ≤ n i := (hn i).2.1
    omega⟩⟩
  have : Nonempty (Fin (idxList fun _ => 2 : List (Idx fun _ => 2)).length) := ⟨⟨0, by decide +kernel⟩⟩
  obtain ⟨p, hp⟩ := Finite.exists_max fun p : Fin (idxList fun _ => 2 : List (Idx fun _ => 2)).length × Idx n =>
    Spec.length fun d => flatRows (kVectors ((angstrom2bohr : ℝ) • pairAtoms.cell) fun _ => 2) p.1 d
      + gVectors ((angstrom2bohr : ℝ) • pairAtoms.cell) n p.2 d
  have hR := (⟨⟨p, rfl⟩, fun _ ⟨p', h⟩ => h ▸ hp p'⟩ :
    IsGreatest (Set.range fun p : Fin (idxList fun _ => 2 : List (Idx fun _ => 2)).length × Idx n => Spec.length fun d =>
      flatRows (kVectors ((angstrom2bohr : ℝ) • pairAtoms.cell) fun _ => 2) p.1 d
        + gVectors ((angstrom2bohr : ℝ) • pairAtoms.cell) n p.2 d) _)
  obtain ⟨c, occ, e, file, values, h1, h2, -⟩ := h (nearOptimizer ε) (nearOptimizer_near hε)
    (nearOptimizer_keeps ε) { lithiumTools δ with bandpath := fun _ _ _ => .ok ⟨_, meshPath⟩ } lithiumBands _ meshPath
    (flatRows (kVectors ((angstrom2bohr : ℝ) • pairAtoms.cell) fun _ => 2)) δ { H' with
      path := rfl
      points := by decide +kernel
      share := by show 8 ∣ _; decide +kernel } hb (by decide) (by decide)
    (fun i l => by
      unfold meshPath
      field_simp
      rfl) _ hR hR
  exact ⟨ε, hε, n, mask, vloc, P, bs, c, occ, e, file, values, h1, h2⟩

end Jrystal
