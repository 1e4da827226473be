import Verif.Lemmas.SbtFft
import Verif.Lemmas.BesselMellin
import Verif.Props.Sbt

/- C49, C73, C74, C75: the fast spherical Bessel transform. -/
namespace Jrystal
open scoped BigOperators ComplexConjugate
open Complex (I)

/-! ### The meshes -/

/-- A concrete logarithmic mesh: radii 1, 2, 4, largest wave number 8. -/
noncomputable def doublingMesh : SbtMesh := ⟨3, fun i => Real.exp (i * Real.log 2), 8⟩

theorem doublingMesh_log : LogMesh doublingMesh 1 (Real.log 2) where
  two := by simp [doublingMesh]
  pos := one_pos
  step := (Real.log_pos (by norm_num)).ne'
  kpos := by norm_num [doublingMesh]
  log := fun i _ => by simp [doublingMesh]

/-- C73: the wave numbers form a logarithmic mesh with the step of the radii, and the last one is `kmax`. -/
theorem sbtMesh_kgrid {S : SbtMesh} {r0 h : ℝ} (H : LogMesh S r0 h) :
    (∀ j, 0 < S.kk j) ∧ (∀ j, S.kk (j + 1) = S.kk j * Real.exp h) ∧ S.kk (S.nr - 1) = S.kmax := by
  have h2 := H.two
  refine ⟨fun j => by rw [H.kk_eq]; exact Real.exp_pos _, fun j => ?_, ?_⟩
  · rw [H.kk_eq, H.kk_eq, ← Real.exp_add]
    congr 1
    push_cast
    ring
  · rw [H.kk_eq]
    unfold SbtMesh.kappaMin
    rw [H.log_rr _ (by omega), H.rhoMin_eq, Nat.cast_sub (by omega)]
    rw [show Real.log S.kmax - (Real.log r0 + ((S.nr : ℝ) - (1 : ℕ)) * h - Real.log r0) + ((S.nr : ℝ) - (1 : ℕ)) * h
      = Real.log S.kmax by ring]
    exact Real.exp_log H.kpos

example : doublingMesh.kk 2 = 8 := (sbtMesh_kgrid doublingMesh_log).2.2

/-! ### The multipliers -/

/-- C73: the closed form that the multipliers of the transform are shown to equal is the Mellin transform of the
spherical Bessel function, as an improper integral, for every degree and frequency. -/
theorem besselMellin_integral (l : ℕ) (t : ℝ) :
    Filter.Tendsto (fun R : ℝ => ∫ x in (0 : ℝ)..R, (Spec.sphericalBessel l x : ℂ) * (x : ℂ) ^ (1 / 2 - I * (t : ℂ)))
      Filter.atTop (nhds (Spec.besselMellin l t)) := besselMellin_tendsto l t

/-- C73: spherical Bessel functions satisfy their two derivative formulas. -/
example : HasDerivAt (Spec.sphericalBessel 0) (0 * Spec.sphericalBessel 0 2 - Spec.sphericalBessel 1 2) 2 := by
  have := (sphericalBessel_deriv 0 (x := 2) (by norm_num)).1
  simpa using this

/-! ### The transform -/

private theorem join_eq {S : SbtMesh} (hn : 2 ≤ S.nr) (L L' s s' : ℕ → ℝ)
    (hL : ∀ j < S.nr, L j = L' j) (hs : ∀ j < S.nr, s j = s' j) :
    ∃ cut, Spec.IsFirstMin S.nr (fun j => |L' j - s' j|) cut ∧
      ∀ j < S.nr, sbtJoin S L s j = if j ≤ cut then s' j else L' j := by
  have h := argminUpTo_spec (fun i => |L i - s i|) (S.nr - 1)
  rw [show S.nr - 1 + 1 = S.nr by omega] at h
  refine ⟨argminUpTo (fun i => |L i - s i|) (S.nr - 1), ⟨h.1, fun j hj => ?_, fun j hj => ?_⟩, fun j hj => ?_⟩
  · have := h.2.1 j hj
    simp only at this ⊢
    rwa [hL _ h.1, hs _ h.1, hL j hj, hs j hj] at this
  · have hjn : j < S.nr := lt_trans hj h.1
    have := h.2.2 j hj
    simp only at this ⊢
    rwa [hL _ h.1, hs _ h.1, hL j hjn, hs j hjn] at this
  · unfold sbtJoin
    split_ifs
    · exact hs j hj
    · exact hL j hj

private theorem row_nonneg (lmax : ℕ) (l : ℕ) : sbtRow lmax (l : ℤ) = .ok l := by
  unfold sbtRow
  rw [if_pos (by omega)]
  rfl

/-- C73: on a logarithmic mesh the forward transform of degree `l ≤ lmax` returns, at every wave number up to
a cut, exactly the rectangle rule in `log r` for `∫ j_l(kr) f(r) r² dr`, and above the cut the Mellin-space sum for
the same integral with `f` continued below the mesh by the power law `r^{np_in+l}`.  The cut is the first wave
number where the two differ least.  The result has one value for each wave number, in the order of the mesh;
with `include_zero` the value at `k = 0` comes first. -/
theorem sbtRun_forward {S : SbtMesh} {r0 h : ℝ} (H : LogMesh S r0 h) (jn : SphBessel) (lmax l : ℕ) (hl : l ≤ lmax)
    (ff : Samples) (norm : Bool) (npIn : ℤ) (ret zero : Bool) :
    let c := if norm then Real.sqrt (2 / Real.pi) else 1
    let direct := fun j => c * Spec.logRiemann (jn l) h S.nr S.rr ff (S.kk j)
    let mellin := fun j => c * Spec.talman l h (Real.log r0) S.nr (Spec.continued h (npIn + l) S.nr ff)
      (Real.log (S.kk j))
    ∃ cut, Spec.IsFirstMin S.nr (fun j => |mellin j - direct j|) cut ∧
      ∃ g0, sbtRun S jn lmax ff l 1 norm npIn ret zero = .ok
        (if ret then some ((if zero then [0] else []) ++ (List.range S.nr).map S.kk) else none,
         (if zero then [g0] else []) ++ (List.range S.nr).map fun j => if j ≤ cut then direct j else mellin j) := by
  intro c direct mellin
  obtain ⟨cut, hc, hj⟩ := join_eq H.two (sbtLarge S .forward norm (npIn + l) l ff) mellin
    (sbtSmall S jn .forward norm l ff) direct
    (fun j _ => sbtLarge_forward H norm (npIn + l) l ff j) (fun j hj => sbtSmall_forward H jn norm l ff j hj)
  refine ⟨cut, hc, sbtZero S jn .forward norm l ff, ?_⟩
  unfold sbtRun sbtReturn
  rw [if_neg (by omega), row_nonneg]
  have hmap : (List.range S.nr).map (sbtJoin S (sbtLarge S .forward norm (npIn + l) l ff) (sbtSmall S jn .forward norm l ff))
      = (List.range S.nr).map fun j => if j ≤ cut then direct j else mellin j :=
    List.map_congr_left fun j hjm => hj j (List.mem_range.mp hjm)
  simp only [sbtDir, if_true, bind, Except.bind]
  rw [hmap]
  cases ret <;> cases zero <;> rfl

/-- C73: `sbt` on a logarithmic mesh and a degree from 0 to 10: the pair of the wave numbers and the values. -/
theorem sbtFast_forward (nr : ℕ) (rr : Samples) (kmax : ℝ) {r0 h : ℝ} (H : LogMesh ⟨nr, rr, kmax⟩ r0 h) (jn : SphBessel)
    (l : ℕ) (hl : l ≤ 10) (ff : Samples) (norm : Bool) :
    let kk := SbtMesh.kk ⟨nr, rr, kmax⟩
    let c := if norm then Real.sqrt (2 / Real.pi) else 1
    let direct := fun j => c * Spec.logRiemann (jn l) h nr rr ff (kk j)
    let mellin := fun j => c * Spec.talman l h (Real.log r0) nr (Spec.continued h l nr ff) (Real.log (kk j))
    ∃ cut, Spec.IsFirstMin nr (fun j => |mellin j - direct j|) cut ∧
      sbtFast jn nr rr ff l kmax norm = .ok ((List.range nr).map kk,
        (List.range nr).map fun j => if j ≤ cut then direct j else mellin j) := by
  intro kk c direct mellin
  obtain ⟨cut, hc, g0, hr⟩ := sbtRun_forward H jn 10 l hl ff norm 0 false false
  rw [zero_add] at hc hr
  refine ⟨cut, hc, ?_⟩
  unfold sbtFast
  have ht : sbtTable 10 = .ok 10 := by decide
  simp only [ht, bind, Except.bind, hr]
  rfl

/-- The doubling mesh meets the hypotheses. -/
example (jn : SphBessel) : ∃ k g, sbtFast jn 3 (fun i => Real.exp (i * Real.log 2)) (fun _ => 1) 2 8 false = .ok (k, g) := by
  obtain ⟨_, _, h⟩ := sbtFast_forward 3 _ 8 doublingMesh_log jn 2 (by norm_num) (fun _ => 1) false
  exact ⟨_, _, h⟩

/-- C73: the inverse transform when `np_in + l = 0`: the same with radii and wave numbers exchanged. -/
theorem sbtRun_inverse_partial {S : SbtMesh} {r0 h : ℝ} (H : LogMesh S r0 h) (jn : SphBessel) (lmax l : ℕ) (hl : l ≤ lmax)
    (ff : Samples) (norm : Bool) :
    let c := if norm then Real.sqrt (2 / Real.pi) else 1
    let direct := fun j => c * Spec.logRiemann (jn l) h S.nr S.kk ff (S.rr j)
    let mellin := fun j => c * Spec.talman l h (Real.log (S.kk 0)) S.nr (Spec.continued h 0 S.nr ff) (Real.log (S.rr j))
    ∃ cut, Spec.IsFirstMin S.nr (fun j => |mellin j - direct j|) cut ∧
      sbtRun S jn lmax ff l (-1) norm (-l) true false = .ok (some ((List.range S.nr).map S.rr),
        (List.range S.nr).map fun j => if j ≤ cut then direct j else mellin j) := by
  intro c direct mellin
  obtain ⟨cut, hc, hj⟩ := join_eq H.two (sbtLarge S .inverse norm 0 l ff) mellin
    (sbtSmall S jn .inverse norm l ff) direct
    (fun j hj => by
      rw [sbtLarge_inverse H norm 0 l ff j hj]
      simp only [zpow_zero, ite_self, one_mul]
      rfl) (fun j hj => sbtSmall_inverse H jn norm l ff j hj)
  refine ⟨cut, hc, ?_⟩
  unfold sbtRun sbtReturn
  rw [if_neg (by omega), row_nonneg]
  have hmap : (List.range S.nr).map (sbtJoin S (sbtLarge S .inverse norm 0 l ff) (sbtSmall S jn .inverse norm l ff))
      = (List.range S.nr).map fun j => if j ≤ cut then direct j else mellin j :=
    List.map_congr_left fun j hjm => hj j (List.mem_range.mp hjm)
  have hd : sbtDir (-1) = .ok .inverse := by decide
  simp only [hd, bind, Except.bind, neg_add_cancel]
  rw [hmap]
  rfl

/-- C73 is false of the inverse transform in general: the continuation below the mesh of wave numbers is computed
with the radii, so that it is off by the factor `(r₀/k₀)^{np_in+l}`: it does not meet the first sample. -/
theorem sbtRun_inverse_actual {S : SbtMesh} {r0 h : ℝ} (H : LogMesh S r0 h) (jn : SphBessel) (lmax l : ℕ) (hl : l ≤ lmax)
    (ff : Samples) (norm : Bool) (npIn : ℤ) :
    let c := if norm then Real.sqrt (2 / Real.pi) else 1
    let direct := fun j => c * Spec.logRiemann (jn l) h S.nr S.kk ff (S.rr j)
    let off := fun p => (if p < S.nr then (S.rr 0 / S.kk 0) ^ (npIn + l) else 1) *
      Spec.continued h (npIn + l) S.nr ff p
    let mellin := fun j => c * Spec.talman l h (Real.log (S.kk 0)) S.nr off (Real.log (S.rr j))
    ∃ cut, Spec.IsFirstMin S.nr (fun j => |mellin j - direct j|) cut ∧
      sbtRun S jn lmax ff l (-1) norm npIn true false = .ok (some ((List.range S.nr).map S.rr),
        (List.range S.nr).map fun j => if j ≤ cut then direct j else mellin j) := by
  intro c direct off mellin
  obtain ⟨cut, hc, hj⟩ := join_eq H.two (sbtLarge S .inverse norm (npIn + l) l ff) mellin
    (sbtSmall S jn .inverse norm l ff) direct
    (fun j hj => sbtLarge_inverse H norm (npIn + l) l ff j hj) (fun j hj => sbtSmall_inverse H jn norm l ff j hj)
  refine ⟨cut, hc, ?_⟩
  unfold sbtRun sbtReturn
  rw [if_neg (by omega), row_nonneg]
  have hmap : (List.range S.nr).map (sbtJoin S (sbtLarge S .inverse norm (npIn + l) l ff) (sbtSmall S jn .inverse norm l ff))
      = (List.range S.nr).map fun j => if j ≤ cut then direct j else mellin j :=
    List.map_congr_left fun j hjm => hj j (List.mem_range.mp hjm)
  have hd : sbtDir (-1) = .ok .inverse := by decide
  simp only [hd, bind, Except.bind]
  rw [hmap]
  rfl

/-- The factor is not one on the doubling mesh, where `r₀ = 1` and `k₀ = 2`. -/
example : doublingMesh.rr 0 / doublingMesh.kk 0 = 1 / 2 := by
  have h := sbtMesh_kgrid doublingMesh_log
  have h1 := h.2.1 0
  have h2 := h.2.1 1
  have h3 : doublingMesh.kk 2 = 8 := h.2.2
  rw [Real.exp_log (by norm_num)] at h1 h2
  have : doublingMesh.kk 0 = 2 := by
    norm_num at h1 h2
    rw [h3, h1] at h2
    linarith
  rw [this]
  simp [doublingMesh]

/-! ### Linearity, the prefactor and rejected arguments -/

private theorem largeIn_smul (S : SbtMesh) (d : SbtDir) (npl : ℤ) (ff : Samples) (c : ℝ) (p : ℕ) :
    sbtLargeIn S d npl (fun i => c * ff i) p = c * sbtLargeIn S d npl ff p := by
  unfold sbtLargeIn
  cases d <;> simp only <;> split_ifs <;> ring

private theorem rfft_smul (N : ℕ) (c : ℝ) (x : ℕ → ℝ) (m : ℕ) :
    rfft N (fun p => c * x p) m = (c : ℂ) * rfft N x m := by
  unfold rfft
  rw [Finset.mul_sum]
  refine Finset.sum_congr rfl fun p _ => ?_
  push_cast
  ring

private theorem large_smul (S : SbtMesh) (d : SbtDir) (norm : Bool) (npl : ℤ) (row : ℕ) (ff : Samples) (c : ℝ) (j : ℕ) :
    sbtLarge S d norm npl row (fun i => c * ff i) j = c * sbtLarge S d norm npl row ff j := by
  unfold sbtLarge
  simp only
  rw [show sbtLargeIn S d npl (fun i => c * ff i) = fun p => c * sbtLargeIn S d npl ff p from
    funext fun p => largeIn_smul S d npl ff c p]
  simp_rw [rfft_smul]
  have : ifft (2 * S.nr) (fun m => if m < S.nr then
        conj ((c : ℂ) * rfft (2 * S.nr) (sbtLargeIn S d npl ff) m) * S.mlt1 row m else 0) (S.nr + j)
      = (c : ℂ) * ifft (2 * S.nr) (fun m => if m < S.nr then
        conj (rfft (2 * S.nr) (sbtLargeIn S d npl ff) m) * S.mlt1 row m else 0) (S.nr + j) := by
    unfold ifft
    rw [mul_div_assoc', Finset.mul_sum]
    congr 1
    refine Finset.sum_congr rfl fun m _ => ?_
    beta_reduce
    split_ifs
    · rw [map_mul, Complex.conj_ofReal]; ring
    · ring
  rw [this, mul_assoc (c : ℂ), Complex.re_ofReal_mul]
  ring

private theorem small_aux (nr N : ℕ) (w ff : Samples) (M : ℕ → ℂ) (c q h : ℝ) (j : ℕ) :
    irfft nr (fun m => conj (rfft N (fun p => if p < nr then w p * (c * ff p) else 0) m) * M m * (q : ℂ)) j * (N : ℝ) * h
      = c * (irfft nr (fun m => conj (rfft N (fun p => if p < nr then w p * ff p else 0) m) * M m * (q : ℂ)) j
        * (N : ℝ) * h) := by
  set inp : Samples := fun p => if p < nr then w p * ff p else 0 with hinp
  rw [show (fun p => if p < nr then w p * (c * ff p) else 0) = fun p => c * inp p from funext fun p => by
      simp only [hinp]; split_ifs <;> ring]
  simp_rw [rfft_smul]
  have : irfft nr (fun m => conj ((c : ℂ) * rfft N inp m) * M m * (q : ℂ)) j
      = c * irfft nr (fun m => conj (rfft N inp m) * M m * (q : ℂ)) j := by
    unfold irfft
    simp only [map_mul, Complex.conj_ofReal, mul_assoc, Complex.re_ofReal_mul]
    rw [← Finset.mul_sum]
    ring
  rw [this]
  ring

private theorem small_smul (S : SbtMesh) (jn : SphBessel) (d : SbtDir) (norm : Bool) (row : ℕ) (ff : Samples) (c : ℝ)
    (j : ℕ) : sbtSmall S jn d norm row (fun i => c * ff i) j = c * sbtSmall S jn d norm row ff j := by
  cases d
  · exact small_aux S.nr (2 * S.nr) (fun p => S.rr p ^ 3) ff (S.mlt2 jn row) c _ _ j
  · exact small_aux S.nr (2 * S.nr) (fun p => S.kk p ^ 3) ff (S.mlt2 jn row) c _ _ j

private theorem join_smul (S : SbtMesh) (L s : Samples) (c : ℝ) (j : ℕ) :
    sbtJoin S (fun i => c * L i) (fun i => c * s i) j = c * sbtJoin S L s j := by
  unfold sbtJoin
  by_cases hc : c = 0
  · subst hc
    split_ifs <;> ring
  · have : ∀ n, argminUpTo (fun i => |c * L i - c * s i|) n = argminUpTo (fun i => |L i - s i|) n := by
      intro n
      refine isFirstMin_unique (argminUpTo_spec _ n) ?_
      obtain ⟨h1, h2, h3⟩ := argminUpTo_spec (fun i => |L i - s i|) n
      have e : ∀ i, |c * L i - c * s i| = |c| * |L i - s i| := fun i => by rw [← mul_sub, abs_mul]
      have hp : 0 < |c| := abs_pos.mpr hc
      refine ⟨h1, fun j hj => ?_, fun j hj => ?_⟩
      · simp only [e]
        exact mul_le_mul_of_nonneg_left (h2 j hj) hp.le
      · simp only [e]
        exact mul_lt_mul_of_pos_left (h3 j hj) hp
    rw [this]
    split_ifs <;> rfl

private theorem zero_smul' (S : SbtMesh) (jn : SphBessel) (d : SbtDir) (norm : Bool) (l : ℤ) (ff : Samples) (c : ℝ) :
    sbtZero S jn d norm l (fun i => c * ff i) = c * sbtZero S jn d norm l ff := by
  unfold sbtZero
  cases d <;> simp only
  · rw [show ∑ i ∈ Finset.range S.nr, simpsonWeights S.drho S.nr S.rr i * S.rr i ^ 2 * (c * ff i)
      = c * ∑ i ∈ Finset.range S.nr, simpsonWeights S.drho S.nr S.rr i * S.rr i ^ 2 * ff i by
        rw [Finset.mul_sum]; exact Finset.sum_congr rfl fun _ _ => by ring]
    ring
  · rw [show ∑ i ∈ Finset.range S.nr, simpsonWeights S.drho S.nr S.kk i * S.kk i ^ 2 * (c * ff i)
      = c * ∑ i ∈ Finset.range S.nr, simpsonWeights S.drho S.nr S.kk i * S.kk i ^ 2 * ff i by
        rw [Finset.mul_sum]; exact Finset.sum_congr rfl fun _ _ => by ring]
    ring

/-- C73: scaling the function scales the transform, on every mesh, in both directions and with every option; calls
that fail fail for every function. -/
theorem sbtRun_scale (S : SbtMesh) (jn : SphBessel) (lmax : ℕ) (ff : Samples) (l direction : ℤ) (norm : Bool)
    (npIn : ℤ) (ret zero : Bool) (c : ℝ) :
    sbtRun S jn lmax (fun i => c * ff i) l direction norm npIn ret zero
      = match sbtRun S jn lmax ff l direction norm npIn ret zero with
        | .ok (m, v) => .ok (m, v.map (c * ·))
        | .error e => .error e := by
  unfold sbtRun
  split_ifs with h
  · rfl
  · cases hd : sbtDir direction with
    | error e => rfl
    | ok d =>
      cases hr : sbtRow lmax l with
      | error e => rfl
      | ok row =>
        simp only [bind, Except.bind, sbtReturn]
        rw [zero_smul']
        have hj : (List.range S.nr).map (sbtJoin S (sbtLarge S d norm (npIn + l) row fun i => c * ff i)
              (sbtSmall S jn d norm row fun i => c * ff i))
            = ((List.range S.nr).map (sbtJoin S (sbtLarge S d norm (npIn + l) row ff)
              (sbtSmall S jn d norm row ff))).map (c * ·) := by
          rw [List.map_map]
          refine List.map_congr_left fun j _ => ?_
          rw [show (sbtLarge S d norm (npIn + l) row fun i => c * ff i) = fun i => c * sbtLarge S d norm (npIn + l) row ff i from
            funext fun i => large_smul S d norm _ row ff c i,
            show (sbtSmall S jn d norm row fun i => c * ff i) = fun i => c * sbtSmall S jn d norm row ff i from
            funext fun i => small_smul S jn d norm row ff c i, join_smul]
          rfl
        rw [hj]
        cases zero <;> rfl

/-- C73: on a logarithmic mesh `norm` multiplies every value by `√(2/π)`. -/
theorem sbtFast_norm (nr : ℕ) (rr : Samples) (kmax : ℝ) {r0 h : ℝ} (H : LogMesh ⟨nr, rr, kmax⟩ r0 h) (jn : SphBessel)
    (l : ℕ) (hl : l ≤ 10) (ff : Samples) :
    ∃ k v, sbtFast jn nr rr ff l kmax false = .ok (k, v) ∧
      sbtFast jn nr rr ff l kmax true = .ok (k, v.map (Real.sqrt (2 / Real.pi) * ·)) := by
  obtain ⟨cut, hc, h1⟩ := sbtFast_forward nr rr kmax H jn l hl ff false
  obtain ⟨cut', hc', h2⟩ := sbtFast_forward nr rr kmax H jn l hl ff true
  refine ⟨_, _, h1, ?_⟩
  rw [h2, List.map_map]
  have hp : 0 < Real.sqrt (2 / Real.pi) := Real.sqrt_pos.mpr (by have := Real.pi_pos; positivity)
  have hcut : cut' = cut := by
    refine isFirstMin_unique hc' ?_
    obtain ⟨a, b, c⟩ := hc
    have e : ∀ x y : ℝ, |Real.sqrt (2 / Real.pi) * x - Real.sqrt (2 / Real.pi) * y|
        = Real.sqrt (2 / Real.pi) * |1 * x - 1 * y| := fun x y => by
      rw [← mul_sub, abs_mul, abs_of_pos hp, one_mul, one_mul]
    simp only [if_true] at hc' ⊢
    simp only [Bool.false_eq_true, if_false] at b c
    refine ⟨a, fun j hj => ?_, fun j hj => ?_⟩
    · simp only [e]
      exact mul_le_mul_of_nonneg_left (b j hj) hp.le
    · simp only [e]
      exact mul_lt_mul_of_pos_left (c j hj) hp
  subst hcut
  congr 2
  refine List.map_congr_left fun j _ => ?_
  simp only [if_true, Function.comp, Bool.false_eq_true, if_false, one_mul]
  split_ifs <;> rfl

/-- C73: which calls raise.  A table up to degree 0 cannot be built; a degree above `lmax`, a direction other than 1
and -1 and a degree below `-(lmax+1)` raise. -/
theorem sbtRun_rejects (S : SbtMesh) (jn : SphBessel) (lmax : ℕ) (ff : Samples) (l direction : ℤ) (norm : Bool)
    (npIn : ℤ) (ret zero : Bool) :
    (∃ e, sbtTable 0 = .error e) ∧
    ((∃ e, sbtRun S jn lmax ff l direction norm npIn ret zero = .error e) ↔
      (lmax : ℤ) < l ∨ l < -((lmax : ℤ) + 1) ∨ (direction ≠ 1 ∧ direction ≠ -1)) := by
  refine ⟨⟨.indexError, by decide⟩, ?_⟩
  unfold sbtRun
  split_ifs with h
  · simp [h]
  · unfold sbtDir sbtRow
    split_ifs with h1 h2 h3 h4 h5 h6 <;> simp only [bind, Except.bind, reduceCtorEq, exists_false, false_iff] <;>
      first
        | (push Not; constructor <;> [skip; constructor] <;> omega)
        | (simp; omega)

/-- C73 is false for negative degrees: no exception is raised and the values up to the cut are those of degree
`lmax + 1 + l` (for `sbt`, degree `11 + l`). -/
theorem sbtRun_negative {S : SbtMesh} {r0 h : ℝ} (H : LogMesh S r0 h) (jn : SphBessel) (lmax l : ℕ) (hl : 0 < l)
    (hl2 : l ≤ lmax + 1) (ff : Samples) :
    ∃ cut < S.nr, ∃ v, sbtRun S jn lmax ff (-l) 1 false 0 false false = .ok (none, (List.range S.nr).map v) ∧
      ∀ j ≤ cut, v j = Spec.logRiemann (jn ((lmax + 1 - l : ℕ) : ℤ)) h S.nr S.rr ff (S.kk j) := by
  have hrow : sbtRow lmax (-(l : ℤ)) = .ok (lmax + 1 - l) := by
    unfold sbtRow
    rw [if_neg (by omega), if_pos (by omega)]
    congr 1
    omega
  obtain ⟨cut, hc, hj⟩ := join_eq H.two (sbtLarge S .forward false (0 + -l) (lmax + 1 - l) ff) _
    (sbtSmall S jn .forward false (lmax + 1 - l) ff) _
    (fun j _ => rfl) (fun j hj => sbtSmall_forward H jn false (lmax + 1 - l) ff j hj)
  refine ⟨cut, hc.1, sbtJoin S (sbtLarge S .forward false (0 + -l) (lmax + 1 - l) ff)
    (sbtSmall S jn .forward false (lmax + 1 - l) ff), ?_, fun j hjc => ?_⟩
  rotate_left
  · rw [hj j (lt_of_le_of_lt hjc hc.1), if_pos hjc]
    simp [sbtPrefactor]
  · unfold sbtRun sbtReturn
    rw [if_neg (by omega), hrow]
    rfl

example (jn : SphBessel) : ∃ cut < 3, ∃ v,
    sbtRun doublingMesh jn 10 (fun _ => 1) (-1) 1 false 0 false false = .ok (none, (List.range 3).map v) ∧
      ∀ j ≤ cut, v j = Spec.logRiemann (jn 10) (Real.log 2) 3 doublingMesh.rr (fun _ => 1) (doublingMesh.kk j) :=
  sbtRun_negative doublingMesh_log jn 10 1 (by norm_num) (by norm_num) _

/-! ### Batches -/

private theorem batchLoop_ok (jn : SphBessel) (nr : ℕ) (rr : Samples) (kmax : ℝ) (norm : Bool)
    (pairs : List (Samples × ℤ)) (gs : List (List ℝ)) (k : List ℝ)
    (h : List.Forall₂ (fun p g => sbtFast jn nr rr p.1 p.2 kmax norm = .ok (k, g)) pairs gs) :
    batchLoop jn nr rr kmax norm pairs = .ok (if pairs = [] then none else some k, gs) := by
  induction h with
  | nil => rfl
  | @cons p g ps gs hp _ ih =>
    obtain ⟨f, l⟩ := p
    unfold batchLoop
    rw [hp, ih]
    simp only [bind, Except.bind]
    split_ifs <;> simp_all

/-- C75: `batch_sbt` with as many degrees as rows returns, row by row, what `sbt` returns for the row and its
degree, and the common mesh. -/
theorem batchSbt_rows (nr : ℕ) (rr : Samples) (kmax : ℝ) {r0 h : ℝ} (H : LogMesh ⟨nr, rr, kmax⟩ r0 h) (jn : SphBessel)
    (rows : List Samples) (ls : List ℕ) (hlen : rows.length = ls.length) (hne : rows ≠ []) (hl : ∀ l ∈ ls, l ≤ 10)
    (norm : Bool) :
    ∃ gs, batchSbt jn nr rr rows (.many (ls.map fun l : ℕ => (l : ℤ))) kmax norm
        = .ok ((List.range nr).map (SbtMesh.kk ⟨nr, rr, kmax⟩), gs) ∧
      gs.length = rows.length ∧
      ∀ (i : ℕ) (hi : i < rows.length) (hi' : i < gs.length) (hi2 : i < ls.length),
        sbtFast jn nr rr rows[i] (ls[i] : ℤ) kmax norm
          = .ok ((List.range nr).map (SbtMesh.kk ⟨nr, rr, kmax⟩), gs[i]) := by
  have hex : ∀ (f : Samples) (l : ℕ), l ≤ 10 → ∃ g, sbtFast jn nr rr f (l : ℤ) kmax norm
      = .ok ((List.range nr).map (SbtMesh.kk ⟨nr, rr, kmax⟩), g) := by
    intro f l hl
    obtain ⟨_, _, h⟩ := sbtFast_forward nr rr kmax H jn l hl f norm
    exact ⟨_, h⟩
  have key : ∀ (rows : List Samples) (ls : List ℕ), rows.length = ls.length → (∀ l ∈ ls, l ≤ 10) →
      ∃ gs, List.Forall₂ (fun (p : Samples × ℤ) g => sbtFast jn nr rr p.1 p.2 kmax norm
          = .ok ((List.range nr).map (SbtMesh.kk ⟨nr, rr, kmax⟩), g)) (rows.zip (ls.map fun l : ℕ => (l : ℤ))) gs ∧
        gs.length = rows.length ∧
        ∀ (i : ℕ) (hi : i < rows.length) (hi' : i < gs.length) (hi2 : i < ls.length),
          sbtFast jn nr rr rows[i] (ls[i] : ℤ) kmax norm
            = .ok ((List.range nr).map (SbtMesh.kk ⟨nr, rr, kmax⟩), gs[i]) := by
    intro rows
    induction rows with
    | nil => intro ls _ _; exact ⟨[], by simp⟩
    | cons f rows ih =>
      intro ls hlen hl
      match ls, hlen with
      | l :: ls, hlen =>
        obtain ⟨gs, h1, h2, h3⟩ := ih ls (by simpa using hlen) fun x hx => hl x (List.mem_cons_of_mem _ hx)
        obtain ⟨g, hg⟩ := hex f l (hl l List.mem_cons_self)
        refine ⟨g :: gs, List.Forall₂.cons hg h1, by simp [h2], fun i hi hi' hi2 => ?_⟩
        match i with
        | 0 => exact hg
        | i + 1 => exact h3 i (by simpa using hi) (by simpa using hi') (by simpa using hi2)
  obtain ⟨gs, h1, h2, h3⟩ := key rows ls hlen hl
  refine ⟨gs, ?_, h2, h3⟩
  unfold batchSbt
  simp only [bind, Except.bind]
  rw [batchLoop_ok jn nr rr kmax norm _ gs _ h1]
  have : rows.zip (ls.map fun l : ℕ => (l : ℤ)) ≠ [] := by
    match rows, ls, hlen, hne with
    | _ :: _, _ :: _, _, _ => simp
    | [], _, _, h => exact absurd rfl h
  rw [if_neg this]

/-- C75 is false of `batch_sbt` when the numbers differ: rows without a degree are left out of the result without an
exception (the documentation requires equal numbers; `sbt_numerical` asserts it). -/
theorem batchSbt_drops (jn : SphBessel) (nr : ℕ) (rr : Samples) (kmax : ℝ) (norm : Bool) (rows more : List Samples)
    (ls : List ℤ) (hlen : rows.length = ls.length) :
    batchSbt jn nr rr (rows ++ more) (.many ls) kmax norm = batchSbt jn nr rr rows (.many ls) kmax norm := by
  unfold batchSbt
  simp only [bind, Except.bind]
  have : (rows ++ more).zip ls = rows.zip ls := by
    have := List.zip_append (l₁ := rows) (r₁ := more) (l₂ := ls) (r₂ := []) hlen
    simpa using this
  rw [this]

/-- C75: one degree for the whole batch is the same as that degree for every row. -/
theorem batchSbt_one (jn : SphBessel) (nr : ℕ) (rr : Samples) (kmax : ℝ) (norm : Bool) (rows : List Samples) (l : ℤ) :
    batchSbt jn nr rr rows (.one l) kmax norm
      = batchSbt jn nr rr rows (.many (List.replicate rows.length l)) kmax norm := by
  have : rows.map (fun f => (f, l)) = rows.zip (List.replicate rows.length l) := by
    induction rows with
    | nil => rfl
    | cons f rows ih => simp [List.replicate_succ, ih]
  unfold batchSbt
  simp only [bind, Except.bind]
  rw [this]

/-- C75: an empty batch raises, whatever the degrees. -/
theorem batchSbt_empty (jn : SphBessel) (nr : ℕ) (rr : Samples) (kmax : ℝ) (norm : Bool) (l : Degrees) :
    ∃ e, batchSbt jn nr rr [] l kmax norm = .error e := by
  cases l <;> exact ⟨_, rfl⟩

/-! ### Stability -/

/-- C74: the values above the cut cannot be larger than the input allows: the sum of `k³ g(k)²` over them is at
most `π/2` times (`1` times, with `norm`) the sum of `r³ f(r)²` over the doubled mesh, the discrete form of the
Plancherel identity of the transform. -/
theorem sbtRun_plancherel {S : SbtMesh} {r0 h : ℝ} (H : LogMesh S r0 h) (jn : SphBessel) (lmax l : ℕ) (hl : l ≤ lmax)
    (ff : Samples) (norm : Bool) (npIn : ℤ) :
    ∃ v cut, sbtRun S jn lmax ff l 1 norm npIn false false = .ok (none, (List.range S.nr).map v) ∧ cut < S.nr ∧
      ∑ j ∈ (Finset.range S.nr).filter (cut < ·), S.kk j ^ 3 * v j ^ 2
        ≤ (if norm then 1 else Real.pi / 2) * ∑ p ∈ Finset.range (2 * S.nr),
          Real.exp (Spec.logMesh h (Real.log r0) S.nr p) ^ 3 * Spec.continued h (npIn + l) S.nr ff p ^ 2 := by
  obtain ⟨cut, hc, g0, hr⟩ := sbtRun_forward H jn lmax l hl ff norm npIn false false
  refine ⟨_, cut, hr, hc.1, ?_⟩
  have hb := talman_bound l h (Real.log r0) S.kappaMin H.step S.nr (by have := H.two; omega)
    (Spec.continued h (npIn + l) S.nr ff)
  have hpi := Real.pi_pos
  set B := ∑ p ∈ Finset.range (2 * S.nr),
    Real.exp (Spec.logMesh h (Real.log r0) S.nr p) ^ 3 * Spec.continued h (npIn + l) S.nr ff p ^ 2 with hB
  set c : ℝ := if norm then Real.sqrt (2 / Real.pi) else 1 with hcdef
  have hc2 : c ^ 2 * (Real.pi / 2) = if norm then 1 else Real.pi / 2 := by
    rw [hcdef]
    cases norm
    · simp
    · simp only [if_true]
      rw [Real.sq_sqrt (by positivity)]
      field_simp
  calc _ = ∑ j ∈ (Finset.range S.nr).filter (cut < ·), c ^ 2 * (Real.exp (S.kappaMin + j * h) ^ 3 *
        Spec.talman l h (Real.log r0) S.nr (Spec.continued h (npIn + l) S.nr ff) (S.kappaMin + j * h) ^ 2) := by
        refine Finset.sum_congr rfl fun j hj => ?_
        have hj := (Finset.mem_filter.mp hj).2
        rw [if_neg (by omega)]
        beta_reduce
        rw [H.log_kk, H.kk_eq]
        ring
    _ ≤ ∑ j ∈ Finset.range S.nr, c ^ 2 * (Real.exp (S.kappaMin + j * h) ^ 3 *
        Spec.talman l h (Real.log r0) S.nr (Spec.continued h (npIn + l) S.nr ff) (S.kappaMin + j * h) ^ 2) := by
        refine Finset.sum_le_sum_of_subset_of_nonneg (Finset.filter_subset _ _) fun j _ _ => ?_
        positivity
    _ = c ^ 2 * ∑ j ∈ Finset.range S.nr, (Real.exp (S.kappaMin + j * h) ^ 3 *
        Spec.talman l h (Real.log r0) S.nr (Spec.continued h (npIn + l) S.nr ff) (S.kappaMin + j * h) ^ 2) := by
        rw [Finset.mul_sum]
    _ ≤ c ^ 2 * (Real.pi / 2 * B) := mul_le_mul_of_nonneg_left hb (by positivity)
    _ = _ := by rw [← mul_assoc, hc2]

example (jn : SphBessel) : ∃ v cut, sbtRun doublingMesh jn 10 (fun _ => 1) (0 : ℕ) 1 true 0 false false
    = .ok (none, (List.range 3).map v) ∧ cut < 3 := by
  obtain ⟨v, cut, h1, h2, _⟩ := sbtRun_plancherel doublingMesh_log jn 10 0 (by norm_num) (fun _ => 1) true 0
  exact ⟨v, cut, h1, h2⟩

/-! ### Direct integration -/

/-- C49: on a logarithmic mesh with an odd number of points direct integration is the composite Simpson rule in
`log r` for `∫ j_l(kr) f(r) r³ dlog r`, at every wave number of the mesh. -/
theorem sbtRunInt_simpson {S : SbtMesh} {r0 h : ℝ} (H : LogMesh S r0 h) (m : ℕ) (hm : S.nr = 2 * m + 1) (jn : SphBessel)
    (l : ℤ) (ff : Samples) (norm : Bool) :
    let y := fun j i => jn l (S.rr i * S.kk j) * ff i * S.rr i ^ 3
    sbtRunInt S jn ff l 1 norm true false = .ok (some ((List.range S.nr).map S.kk),
      (List.range S.nr).map fun j => (if norm then Real.sqrt (2 / Real.pi) else 1) *
        ∑ b ∈ Finset.range m, h / 3 * (y j (2 * b) + 4 * y j (2 * b + 1) + y j (2 * b + 2))) := by
  intro y
  unfold sbtRunInt sbtReturn sbtDir
  simp only [if_true, bind, Except.bind]
  congr 3
  refine List.map_congr_left fun j _ => ?_
  unfold sbtPrefactor
  congr 1
  have := simpson_composite h S.rr (fun i => jn l (S.rr i * S.kk j) * (S.rr i ^ 2 * ff i)) m
  rw [H.drho_eq, hm]
  rw [show ∑ i ∈ Finset.range (2 * m + 1), jn l (S.rr i * S.kk j) * (S.rr i ^ 2 * ff i *
      simpsonWeights h (2 * m + 1) S.rr i)
    = ∑ i ∈ Finset.range (2 * m + 1), simpsonWeights h (2 * m + 1) S.rr i * (jn l (S.rr i * S.kk j) * (S.rr i ^ 2 * ff i)) from
    Finset.sum_congr rfl fun _ _ => by ring, this]
  refine Finset.sum_congr rfl fun b _ => ?_
  simp only [y]
  ring

example (jn : SphBessel) : ∃ k v, sbtRunInt doublingMesh jn (fun _ => 1) 0 1 true true false = .ok (some k, v) :=
  ⟨_, _, sbtRunInt_simpson doublingMesh_log 1 rfl jn 0 _ true⟩

/-- C49: the inverse direction exchanges radii and wave numbers; any other direction raises. -/
theorem sbtRunInt_inverse {S : SbtMesh} {r0 h : ℝ} (H : LogMesh S r0 h) (m : ℕ) (hm : S.nr = 2 * m + 1) (jn : SphBessel)
    (l : ℤ) (ff : Samples) (norm : Bool) :
    let y := fun j i => jn l (S.rr j * S.kk i) * ff i * S.kk i ^ 3
    sbtRunInt S jn ff l (-1) norm true false = .ok (some ((List.range S.nr).map S.rr),
      (List.range S.nr).map fun j => (if norm then Real.sqrt (2 / Real.pi) else 1) *
        ∑ b ∈ Finset.range m, h / 3 * (y j (2 * b) + 4 * y j (2 * b + 1) + y j (2 * b + 2))) ∧
    ∀ d : ℤ, d ≠ 1 → d ≠ -1 → ∃ e, sbtRunInt S jn ff l d norm true false = .error e := by
  intro y
  refine ⟨?_, fun d h1 h2 => ⟨.valueError, by
    unfold sbtRunInt sbtDir
    rw [if_neg h1, if_neg h2]
    rfl⟩⟩
  have hd : sbtDir (-1) = .ok .inverse := by decide
  unfold sbtRunInt sbtReturn
  simp only [hd, if_true, bind, Except.bind]
  congr 3
  refine List.map_congr_left fun j _ => ?_
  unfold sbtPrefactor
  congr 1
  have := simpson_composite h S.kk (fun i => jn l (S.rr j * S.kk i) * (S.kk i ^ 2 * ff i)) m
  rw [H.drho_eq, hm]
  rw [show ∑ i ∈ Finset.range (2 * m + 1), jn l (S.rr j * S.kk i) * (S.kk i ^ 2 * ff i *
      simpsonWeights h (2 * m + 1) S.kk i)
    = ∑ i ∈ Finset.range (2 * m + 1), simpsonWeights h (2 * m + 1) S.kk i * (jn l (S.rr j * S.kk i) * (S.kk i ^ 2 * ff i)) from
    Finset.sum_congr rfl fun _ _ => by ring, this]
  refine Finset.sum_congr rfl fun b _ => ?_
  simp only [y]
  ring

/-- C49: direct integration is linear in the function, on every mesh and with every option. -/
theorem sbtRunInt_linear (S : SbtMesh) (jn : SphBessel) (l direction : ℤ) (f g : Samples) (a b : ℝ) (norm : Bool) :
    (∃ e, ∀ f, sbtRunInt S jn f l direction norm false false = .error e) ∨
    ∃ T : Samples → ℕ → ℝ, (∀ f, sbtRunInt S jn f l direction norm false false = .ok (none, (List.range S.nr).map (T f))) ∧
      ∀ j, T (fun i => a * f i + b * g i) j = a * T f j + b * T g j := by
  unfold sbtRunInt
  cases hd : sbtDir direction with
  | error e => exact Or.inl ⟨e, fun f => rfl⟩
  | ok d =>
    refine Or.inr ⟨_, fun f => rfl, fun j => ?_⟩
    cases d <;> simp only [Finset.mul_sum] <;> rw [← Finset.sum_add_distrib] <;>
      exact Finset.sum_congr rfl fun _ _ => by ring

/-- C49: the value at `k = 0` is `j_l(0)` times the Simpson rule for `∫ f r² dr`. -/
theorem sbtRunInt_zero {S : SbtMesh} {r0 h : ℝ} (H : LogMesh S r0 h) (m : ℕ) (hm : S.nr = 2 * m + 1) (jn : SphBessel)
    (l : ℤ) (ff : Samples) (norm : Bool) :
    let y := fun i => ff i * S.rr i ^ 3
    ∃ v, sbtRunInt S jn ff l 1 norm false true = .ok (none, v) ∧ v.length = S.nr + 1 ∧
      v.head? = some ((if norm then Real.sqrt (2 / Real.pi) else 1) * jn l 0 *
        ∑ b ∈ Finset.range m, h / 3 * (y (2 * b) + 4 * y (2 * b + 1) + y (2 * b + 2))) := by
  intro y
  refine ⟨_, rfl, by simp, ?_⟩
  simp only [if_true, List.head?_cons, sbtZero, sbtPrefactor]
  congr 2
  have := simpson_composite h S.rr (fun i => S.rr i ^ 2 * ff i) m
  rw [H.drho_eq, hm]
  rw [show ∑ i ∈ Finset.range (2 * m + 1), simpsonWeights h (2 * m + 1) S.rr i * S.rr i ^ 2 * ff i
    = ∑ i ∈ Finset.range (2 * m + 1), simpsonWeights h (2 * m + 1) S.rr i * (S.rr i ^ 2 * ff i) from
    Finset.sum_congr rfl fun _ _ => by ring, this]
  refine Finset.sum_congr rfl fun b _ => ?_
  simp only [y]
  ring

/-- C73: with `include_zero` the fast transform returns the same first value. -/
theorem sbtRun_zero {S : SbtMesh} {r0 h : ℝ} (H : LogMesh S r0 h) (m : ℕ) (hm : S.nr = 2 * m + 1) (jn : SphBessel)
    (lmax l : ℕ) (hl : l ≤ lmax) (ff : Samples) (norm : Bool) (npIn : ℤ) :
    let y := fun i => ff i * S.rr i ^ 3
    ∃ v, sbtRun S jn lmax ff l 1 norm npIn false true = .ok (none, v) ∧ v.length = S.nr + 1 ∧
      v.head? = some ((if norm then Real.sqrt (2 / Real.pi) else 1) * jn l 0 *
        ∑ b ∈ Finset.range m, h / 3 * (y (2 * b) + 4 * y (2 * b + 1) + y (2 * b + 2))) := by
  intro y
  obtain ⟨v, hv, _, hh⟩ := sbtRunInt_zero H m hm jn l ff norm
  have hv' : v = sbtZero S jn .forward norm l ff :: _ := (congrArg Prod.snd (Except.ok.inj hv)).symm
  rw [hv', List.head?_cons] at hh
  refine ⟨sbtZero S jn .forward norm l ff :: (List.range S.nr).map (sbtJoin S (sbtLarge S .forward norm (npIn + l) l ff)
    (sbtSmall S jn .forward norm l ff)), ?_, by simp, ?_⟩
  · unfold sbtRun sbtReturn
    rw [if_neg (by omega), row_nonneg]
    rfl
  · rw [List.head?_cons]
    exact hh

example (jn : SphBessel) : ∃ v, sbtRun doublingMesh jn 4 (fun _ => 1) (2 : ℕ) 1 true 0 false true = .ok (none, v) := by
  obtain ⟨v, h, _⟩ := sbtRun_zero doublingMesh_log 1 rfl jn 4 2 (by norm_num) (fun _ => 1) true 0
  exact ⟨v, h⟩

end Jrystal
