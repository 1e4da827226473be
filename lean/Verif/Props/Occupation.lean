import Verif.Lemmas.Occupation
import Verif.Props.Proj
import Mathlib.Algebra.Order.Star.Real
import Mathlib.Algebra.BigOperators.Field
import Mathlib.Tactic.FieldSimp

/- C18–C21: occupation numbers. -/
namespace Jrystal
open scoped BigOperators
open Matrix

/-! ### C18 -/

private theorem channel_ok {nk nb : ℕ} (hk : 0 < nk) (p : Fin nk → Fin nb → ℝ) (m : ℤ) (h0 : 0 < m)
    (hm : m < nb) :
    (∀ k b, 0 ≤ unravel (fun i => proj (ravel fun k b => sigmoid (p k b)) ((m * nk : ℤ) : ℝ) i
        / (nk : ℝ)) k b ∧
      unravel (fun i => proj (ravel fun k b => sigmoid (p k b)) ((m * nk : ℤ) : ℝ) i / (nk : ℝ)) k b
        ≤ 1 / (nk : ℝ)) ∧
    ∑ k, ∑ b, unravel (fun i => proj (ravel fun k b => sigmoid (p k b)) ((m * nk : ℤ) : ℝ) i
        / (nk : ℝ)) k b = (m : ℝ) := by
  have hkR : (0 : ℝ) < nk := by exact_mod_cast hk
  have hn := proj_nearest_partial (ravel fun k b => sigmoid (p k b)) ((m * nk : ℤ) : ℝ)
    (fun i => ⟨(sigmoid_bounds _).1.le, (sigmoid_bounds _).2.le⟩)
    (by exact_mod_cast Int.mul_pos h0 (by exact_mod_cast hk))
    (by
      have : m * nk < (nb : ℤ) * nk := Int.mul_lt_mul_of_pos_right hm (by exact_mod_cast hk)
      have h2 : (m * nk : ℤ) < ((nk * nb : ℕ) : ℤ) := by push_cast; rw [mul_comm (nk : ℤ)]; exact this
      exact_mod_cast h2)
  refine ⟨fun k b => ⟨?_, ?_⟩, ?_⟩
  · exact div_nonneg (hn.1.1 _).1 hkR.le
  · exact div_le_div_of_nonneg_right (hn.1.1 _).2 hkR.le
  · rw [sum_unravel, ← Finset.sum_div, hn.1.2]
    push_cast
    field_simp

/-- C18 (part), spin-resolved: for every parameter value the occupations are in `[0, 1/num_k]`, add
up to `num_electrons` and differ by `spin`, provided both channels hold at least one electron and
have at least one spare band.  Missing: an empty channel (`|spin| = num_electrons`) and a full
channel (`num_electrons + |spin| = 2 num_bands`), where the claim is false
(`simplexProjector_empty_channel`, `simplexProjector_full_channel`). -/
theorem simplexProjector_unrestricted_partial {nk nb : ℕ} (hk : 0 < nk)
    (up down : Fin nk → Fin nb → ℝ) (ne spin : ℤ) (hpar : ne % 2 = spin % 2)
    (h0 : |spin| < ne) (hb : ne + |spin| < 2 * nb) :
    ∃ u d, simplexProjector up down ne spin false = [u, d] ∧
      (∀ k b, 0 ≤ u k b ∧ u k b ≤ 1 / (nk : ℝ)) ∧ (∀ k b, 0 ≤ d k b ∧ d k b ≤ 1 / (nk : ℝ)) ∧
      (∑ k, ∑ b, u k b) + (∑ k, ∑ b, d k b) = ne ∧
      (∑ k, ∑ b, u k b) - (∑ k, ∑ b, d k b) = spin := by
  have ha := abs_lt.1 h0
  have hs := neg_abs_le spin
  have hs' := le_abs_self spin
  obtain ⟨b1, s1⟩ := channel_ok hk up ((ne + spin) / 2) (by omega) (by omega)
  obtain ⟨b2, s2⟩ := channel_ok hk down ((ne - spin) / 2) (by omega) (by omega)
  refine ⟨_, _, rfl, b1, b2, ?_, ?_⟩
  · rw [s1, s2]
    have : (ne + spin) / 2 + (ne - spin) / 2 = ne := by omega
    exact_mod_cast this
  · rw [s1, s2]
    have : (ne + spin) / 2 - (ne - spin) / 2 = spin := by omega
    exact_mod_cast this

/-- C18 (part), spin-restricted: one channel in `[0, 2/num_k]` with total `num_electrons`. -/
theorem simplexProjector_restricted_partial {nk nb : ℕ} (hk : 0 < nk)
    (up down : Fin nk → Fin nb → ℝ) (ne spin : ℤ) (hpar : ne % 2 = spin % 2)
    (h0 : |spin| < ne) (hb : ne + |spin| < 2 * nb) :
    ∃ o, simplexProjector up down ne spin true = [o] ∧
      (∀ k b, 0 ≤ o k b ∧ o k b ≤ 2 / (nk : ℝ)) ∧ ∑ k, ∑ b, o k b = ne := by
  obtain ⟨u, d, he, hu, hd, ht, -⟩ :=
    simplexProjector_unrestricted_partial hk up down ne spin hpar h0 hb
  have he' : simplexProjector up down ne spin true = sumSpin [u, d] := by
    rw [← he]; rfl
  refine ⟨fun k b => u k b + d k b, ?_, fun k b => ⟨?_, ?_⟩, ?_⟩
  · rw [he']; simp [sumSpin]
  · linarith [(hu k b).1, (hd k b).1]
  · have h1 := (hu k b).2
    have h2 := (hd k b).2
    have e : (2 : ℝ) / nk = 1 / nk + 1 / nk := by ring
    rw [e]; linarith
  · simp only [Finset.sum_add_distrib]; exact ht

/-- C18 is false for a fully polarised system: with `spin = num_electrons` and down-parameters that
are not all equal (e.g. the initial ones) the total is never `num_electrons`. -/
theorem simplexProjector_empty_channel {nk nb : ℕ} (hk : 0 < nk) (up down : Fin nk → Fin nb → ℝ)
    (ne : ℤ) (h0 : 0 < ne) (hb : ne < nb) (r : Bool)
    (hne : ∃ k b k' b', down k b ≠ down k' b') :
    OccArr.total (simplexProjector up down ne ne r) ≠ (ne : ℝ) := by
  have hkR : (0 : ℝ) < nk := by exact_mod_cast hk
  unfold simplexProjector
  simp only
  rw [total_ite]
  obtain ⟨-, s1⟩ := channel_ok hk up ((ne + ne) / 2) (by omega) (by omega)
  rw [s1, show (ne + ne) / 2 = ne by omega, show (ne - ne) / 2 * (nk : ℤ) = 0 by simp]
  intro h
  have hz : ∑ k, ∑ b, unravel (fun i => proj (ravel fun k b => sigmoid (down k b)) ((0 : ℤ) : ℝ) i
      / (nk : ℝ)) k b = 0 := by linarith
  rw [sum_unravel, ← Finset.sum_div, div_eq_zero_iff] at hz
  have hz' := hz.resolve_right hkR.ne'
  push_cast at hz'
  have hnb : 0 < nk * nb := Nat.mul_pos hk (by omega)
  rw [proj_zero_sum_iff hnb (ravel fun k b => sigmoid (down k b)) (fun i => ⟨(sigmoid_bounds _).1.le, (sigmoid_bounds _).2.le⟩)] at hz'
  obtain ⟨k, b, k', b', hd⟩ := hne
  apply hd
  have := hz' (finProdFinEquiv (k, b)) (finProdFinEquiv (k', b'))
  simp only [ravel, Equiv.symm_apply_apply] at this
  exact sigmoid_injective this

/-- C18 is false for closed-shell filled bands: with `num_electrons = 2 num_bands`, no spin and
up-parameters that are not all equal the up channel does not hold its `num_bands` electrons. -/
theorem simplexProjector_full_channel {nk nb : ℕ} (hk : 0 < nk) (hb : 0 < nb)
    (up down : Fin nk → Fin nb → ℝ) (hne : ∃ k b k' b', up k b ≠ up k' b') :
    ∃ u d, simplexProjector up down (2 * nb) 0 false = [u, d] ∧ ∑ k, ∑ b, u k b ≠ (nb : ℝ) := by
  have hkR : (0 : ℝ) < nk := by exact_mod_cast hk
  refine ⟨_, _, rfl, ?_⟩
  rw [sum_unravel, ← Finset.sum_div]
  intro h
  rw [div_eq_iff hkR.ne'] at h
  have e : (((2 * (nb : ℤ) + 0) / 2 * (nk : ℤ) : ℤ) : ℝ) = ((nk * nb : ℕ) : ℝ) := by
    rw [show (2 * (nb : ℤ) + 0) / 2 = nb by omega]; push_cast; ring
  rw [e] at h
  have h' : ∑ i, proj (ravel fun k b => sigmoid (up k b)) ((nk * nb : ℕ) : ℝ) i
      = ((nk * nb : ℕ) : ℝ) := by rw [h]; push_cast; ring
  rw [proj_full_sum_iff (Nat.mul_pos hk hb) (ravel fun k b => sigmoid (up k b))
    (fun i => ⟨(sigmoid_bounds _).1.le, (sigmoid_bounds _).2.le⟩)] at h'
  obtain ⟨k, b, k', b', hd⟩ := hne
  apply hd
  have := h' (finProdFinEquiv (k, b)) (finProdFinEquiv (k', b'))
  simp only [ravel, Equiv.symm_apply_apply] at this
  exact sigmoid_injective this

/-- Witness for the hypotheses of the two partial theorems: 5 electrons, spin 1, 4 bands. -/
example : (5 : ℤ) % 2 = 1 % 2 ∧ |(1 : ℤ)| < 5 ∧ 5 + |(1 : ℤ)| < 2 * (4 : ℕ) := by norm_num

/-- Witness for the two counterexamples: the initial parameters are not all equal. -/
example : ∃ k b k' b', simplexProjectorInit 1 2 k b ≠ simplexProjectorInit 1 2 k' b' := by
  refine ⟨0, 0, 0, 1, ?_⟩
  simp only [simplexProjectorInit, unravel, finProdFinEquiv]
  norm_num

/-! ### C19 -/

private theorem uniform_sum {nk nb : ℕ} (hk : 0 < nk) (x : ℤ) :
    ∑ _k : Fin nk, ∑ b : Fin nb, (if inSlice nb 0 x b then 1 / (nk : ℝ) else 0)
      = (pyBound nb x : ℝ) := by
  have hkR : (nk : ℝ) ≠ 0 := by exact_mod_cast hk.ne'
  simp only [sum_slice]
  simp
  field_simp

private theorem gamma_sum {nk nb : ℕ} (hk : 0 < nk) (x : ℤ) :
    ∑ k : Fin nk, ∑ b : Fin nb, (if (k : ℕ) = 0 && inSlice nb 0 x b then (1 : ℝ) else 0)
      = (pyBound nb x : ℝ) := by
  rw [Finset.sum_eq_single ⟨0, hk⟩]
  · have := sum_slice (K := ℝ) nb x 1
    simpa using this
  · intro k _ hne
    have : (k : ℕ) ≠ 0 := fun h => hne (Fin.ext h)
    simp [this]
  · simp

/-- C19: the total of `uniform` and of `gamma` for every argument (what the code computes). -/
theorem uniform_gamma_total {nk nb : ℕ} (hk : 0 < nk) (ne spin : ℤ) (r : Bool) :
    OccArr.total (uniformOcc (K := ℝ) nk ne spin (some nb) r)
        = (pyBound nb ((ne + spin) / 2) : ℝ) + pyBound nb ((ne - spin) / 2) ∧
    OccArr.total (gammaOcc (K := ℝ) nk ne spin (some nb) r)
        = (pyBound nb ((ne + spin) / 2) : ℝ) + pyBound nb ((ne - spin) / 2) := by
  constructor
  · unfold uniformOcc
    simp only
    rw [total_ite]
    congr 1 <;> exact uniform_sum (nb := nb) hk _
  · unfold gammaOcc
    simp only
    rw [total_ite]
    congr 1 <;> exact gamma_sum (nb := nb) hk _

/-- C19 (part): electrons and polarisation are conserved when the parities agree and the larger
channel fits in the bands.  Missing: other arguments, for which the claim is false
(`uniform_gamma_loses_electrons`). -/
theorem uniform_conserves_partial {nk nb : ℕ} (hk : 0 < nk) (ne spin : ℤ)
    (hpar : ne % 2 = spin % 2) (h0 : |spin| ≤ ne) (hb : ne + |spin| ≤ 2 * nb) :
    ∃ u d, uniformOcc (K := ℝ) nk ne spin (some nb) false = [u, d] ∧
      (∀ k b, u k b = 0 ∨ u k b = 1 / (nk : ℝ)) ∧ (∀ k b, d k b = 0 ∨ d k b = 1 / (nk : ℝ)) ∧
      (∀ k k' b, u k b = u k' b ∧ d k b = d k' b) ∧
      (∑ k, ∑ b, u k b) + (∑ k, ∑ b, d k b) = ne ∧
      (∑ k, ∑ b, u k b) - (∑ k, ∑ b, d k b) = spin := by
  have ha := abs_le.1 h0
  have hs := neg_abs_le spin
  have hs' := le_abs_self spin
  have hu : (pyBound nb ((ne + spin) / 2) : ℤ) = (ne + spin) / 2 := by
    unfold pyBound; split_ifs <;> omega
  have hd : (pyBound nb ((ne - spin) / 2) : ℤ) = (ne - spin) / 2 := by
    unfold pyBound; split_ifs <;> omega
  refine ⟨_, _, rfl, ?_, ?_, fun _ _ _ => ⟨rfl, rfl⟩, ?_, ?_⟩
  · intro k b; split_ifs <;> simp
  · intro k b; split_ifs <;> simp
  · simp only [resolveBands]
    rw [uniform_sum (nb := nb) hk, uniform_sum (nb := nb) hk]
    have : (pyBound nb ((ne + spin) / 2) : ℤ) + pyBound nb ((ne - spin) / 2) = ne := by omega
    exact_mod_cast this
  · simp only [resolveBands]
    rw [uniform_sum (nb := nb) hk, uniform_sum (nb := nb) hk]
    have : (pyBound nb ((ne + spin) / 2) : ℤ) - pyBound nb ((ne - spin) / 2) = spin := by omega
    exact_mod_cast this

/-- C19 (part) for `gamma`: entries 0 or 1, nothing away from the first k point. -/
theorem gamma_conserves_partial {nk nb : ℕ} (hk : 0 < nk) (ne spin : ℤ)
    (hpar : ne % 2 = spin % 2) (h0 : |spin| ≤ ne) (hb : ne + |spin| ≤ 2 * nb) :
    ∃ u d, gammaOcc (K := ℝ) nk ne spin (some nb) false = [u, d] ∧
      (∀ k b, u k b = 0 ∨ u k b = 1) ∧ (∀ k b, d k b = 0 ∨ d k b = 1) ∧
      (∀ (k : Fin nk) b, (k : ℕ) ≠ 0 → u k b = 0 ∧ d k b = 0) ∧
      (∑ k, ∑ b, u k b) + (∑ k, ∑ b, d k b) = ne ∧
      (∑ k, ∑ b, u k b) - (∑ k, ∑ b, d k b) = spin := by
  have ha := abs_le.1 h0
  have hs := neg_abs_le spin
  have hs' := le_abs_self spin
  have hu : (pyBound nb ((ne + spin) / 2) : ℤ) = (ne + spin) / 2 := by
    unfold pyBound; split_ifs <;> omega
  have hd : (pyBound nb ((ne - spin) / 2) : ℤ) = (ne - spin) / 2 := by
    unfold pyBound; split_ifs <;> omega
  refine ⟨_, _, rfl, ?_, ?_, ?_, ?_, ?_⟩
  · intro k b; split_ifs <;> simp
  · intro k b; split_ifs <;> simp
  · intro k b h; simp [h]
  · simp only [resolveBands]
    rw [gamma_sum (nb := nb) hk, gamma_sum (nb := nb) hk]
    have : (pyBound nb ((ne + spin) / 2) : ℤ) + pyBound nb ((ne - spin) / 2) = ne := by omega
    exact_mod_cast this
  · simp only [resolveBands]
    rw [gamma_sum (nb := nb) hk, gamma_sum (nb := nb) hk]
    have : (pyBound nb ((ne + spin) / 2) : ℤ) - pyBound nb ((ne - spin) / 2) = spin := by omega
    exact_mod_cast this

/-- C19 (part): with the default number of bands (`None`, meaning one band per electron) every spin
of matching parity with `|spin| ≤ num_electrons` is conserved, in both spin settings. -/
theorem uniform_gamma_default_bands_partial {nk : ℕ} (hk : 0 < nk) (ne spin : ℤ) (r : Bool)
    (hpar : ne % 2 = spin % 2) (h0 : |spin| ≤ ne) :
    OccArr.total (uniformOcc (K := ℝ) nk ne spin none r) = (ne : ℝ) ∧
    OccArr.total (gammaOcc (K := ℝ) nk ne spin none r) = (ne : ℝ) := by
  have ha := abs_le.1 h0
  have e1 : uniformOcc (K := ℝ) nk ne spin none r
      = uniformOcc (K := ℝ) nk ne spin (some ne.toNat) r := rfl
  have e2 : gammaOcc (K := ℝ) nk ne spin none r
      = gammaOcc (K := ℝ) nk ne spin (some ne.toNat) r := rfl
  obtain ⟨h1, h2⟩ := uniform_gamma_total (nb := ne.toNat) hk ne spin r
  have key : (pyBound ne.toNat ((ne + spin) / 2) : ℤ) + pyBound ne.toNat ((ne - spin) / 2) = ne := by
    unfold pyBound; split_ifs <;> omega
  have keyR : (pyBound ne.toNat ((ne + spin) / 2) : ℝ) + pyBound ne.toNat ((ne - spin) / 2)
      = (ne : ℝ) := by exact_mod_cast key
  rw [← keyR]
  exact ⟨h1, h2⟩

/-- C19: restricted output is the sum of the two channels, in one channel. -/
theorem uniform_restricted (nk nb : ℕ) (ne spin : ℤ) (u d : Fin nk → Fin nb → ℝ)
    (h : uniformOcc (K := ℝ) nk ne spin (some nb) false = [u, d]) :
    uniformOcc (K := ℝ) nk ne spin (some nb) true = [fun k b => u k b + d k b] := by
  have : uniformOcc (K := ℝ) nk ne spin (some nb) true
      = sumSpin (uniformOcc (K := ℝ) nk ne spin (some nb) false) := rfl
  rw [this, h]
  show [fun k b => (List.map (fun a => a k b) [u, d]).sum] = _
  congr 1; funext k b; simp only [List.map_cons, List.map_nil, List.sum_cons, List.sum_nil, add_zero]

/-- C19: the same for `gamma`. -/
theorem gamma_restricted (nk nb : ℕ) (ne spin : ℤ) (u d : Fin nk → Fin nb → ℝ)
    (h : gammaOcc (K := ℝ) nk ne spin (some nb) false = [u, d]) :
    gammaOcc (K := ℝ) nk ne spin (some nb) true = [fun k b => u k b + d k b] := by
  have : gammaOcc (K := ℝ) nk ne spin (some nb) true
      = sumSpin (gammaOcc (K := ℝ) nk ne spin (some nb) false) := rfl
  rw [this, h]
  show [fun k b => (List.map (fun a => a k b) [u, d]).sum] = _
  congr 1; funext k b; simp only [List.map_cons, List.map_nil, List.sum_cons, List.sum_nil, add_zero]

/-- C19 is false in general: 5 electrons with spin 0 give 4, and 4 electrons with spin 4 in 2 bands
give 2. -/
theorem uniform_gamma_loses_electrons :
    OccArr.total (uniformOcc (K := ℝ) 1 5 0 (some 8) true) = 4 ∧
    OccArr.total (gammaOcc (K := ℝ) 1 5 0 (some 8) true) = 4 ∧
    OccArr.total (uniformOcc (K := ℝ) 1 4 4 (some 2) true) = 2 := by
  refine ⟨?_, ?_, ?_⟩
  · have := (uniform_gamma_total (nk := 1) (nb := 8) one_pos 5 0 true).1
    rw [this, show ∀ a b : ℕ, (a : ℝ) + b = ((a + b : ℕ) : ℝ) from fun a b => by push_cast; rfl]
    norm_cast
  · have := (uniform_gamma_total (nk := 1) (nb := 8) one_pos 5 0 true).2
    rw [this, show ∀ a b : ℕ, (a : ℝ) + b = ((a + b : ℕ) : ℝ) from fun a b => by push_cast; rfl]
    norm_cast
  · have := (uniform_gamma_total (nk := 1) (nb := 2) one_pos 4 4 true).1
    rw [this, show ∀ a b : ℕ, (a : ℝ) + b = ((a + b : ℕ) : ℝ) from fun a b => by push_cast; rfl]
    norm_cast

/-! ### C20 -/

/-- A routine meeting the QR contract exists (columns of the identity), so the theorems that take a
`QR` are not vacuous. -/
def trivialQR (F : Type*) [CommRing F] [StarRing F] : QR F where
  q {n m} _ := Matrix.of fun i j => if (i : ℕ) = (j : ℕ) then 1 else 0
  orth {n m} w := by
    ext a b
    rw [Matrix.mul_apply, Finset.sum_eq_single ⟨(a : ℕ), lt_of_lt_of_le a.2 (min_le_left _ _)⟩]
    · simp [Matrix.conjTranspose_apply, Matrix.one_apply, Fin.ext_iff]
    · intro i _ hi
      have : (i : ℕ) ≠ (a : ℕ) := fun h => hi (Fin.ext h)
      simp [Matrix.conjTranspose_apply, this]
    · simp

/-- C20: for all weights, each channel is in `[0, 1/num_k]`. -/
theorem idempotent_bounds_unrestricted (qr : QR ℝ) {nk nb : ℕ} (p : IdemParams nk nb) :
    ∃ u d, idempotentOcc qr p false = [u, d] ∧
      (∀ k b, 0 ≤ u k b ∧ u k b ≤ 1 / (nk : ℝ)) ∧ (∀ k b, 0 ≤ d k b ∧ d k b ≤ 1 / (nk : ℝ)) := by
  have hk : (0 : ℝ) ≤ nk := Nat.cast_nonneg _
  refine ⟨_, _, rfl, fun k b => ⟨?_, ?_⟩, fun k b => ⟨?_, ?_⟩⟩
  · exact div_nonneg (idemChannel_bounds qr p.up k b).1 hk
  · exact div_le_div_of_nonneg_right (idemChannel_bounds qr p.up k b).2 hk
  · exact div_nonneg (idemChannel_bounds qr p.down k b).1 hk
  · exact div_le_div_of_nonneg_right (idemChannel_bounds qr p.down k b).2 hk

/-- C20: for all weights, the restricted output is one channel in `[0, 2/num_k]`. -/
theorem idempotent_bounds_restricted (qr : QR ℝ) {nk nb : ℕ} (p : IdemParams nk nb) :
    ∃ o, idempotentOcc qr p true = [o] ∧ (∀ k b, 0 ≤ o k b ∧ o k b ≤ 2 / (nk : ℝ)) := by
  have hk : (0 : ℝ) ≤ nk := Nat.cast_nonneg _
  refine ⟨_, rfl, fun k b => ⟨?_, ?_⟩⟩
  · exact div_nonneg (add_nonneg (idemChannel_bounds qr p.up k b).1
      (idemChannel_bounds qr p.down k b).1) hk
  · refine div_le_div_of_nonneg_right ?_ hk
    linarith [(idemChannel_bounds qr p.up k b).2, (idemChannel_bounds qr p.down k b).2]

/-- C20: the total depends only on the shapes: the column counts (capped by the number of rows)
divided by the number of k points, for all weights and both settings. -/
theorem idempotent_total (qr : QR ℝ) {nk nb : ℕ} (p : IdemParams nk nb) (r : Bool) :
    OccArr.total (idempotentOcc qr p r)
      = (((min (nk * nb) p.mUp : ℕ) : ℝ) + ((min (nk * nb) p.mDown : ℕ) : ℝ)) / nk := by
  have h1 := idemChannel_sum qr p.up
  have h2 := idemChannel_sum qr p.down
  unfold idempotentOcc OccArr.total
  cases r
  · simp only [Bool.false_eq_true, if_false, List.map_cons, List.map_nil, List.sum_cons,
      List.sum_nil, add_zero, ← Finset.sum_div]
    rw [h1, h2]; ring
  · simp only [if_true, List.map_cons, List.map_nil, List.sum_cons,
      List.sum_nil, add_zero, ← Finset.sum_div, Finset.sum_add_distrib]
    rw [h1, h2]

/-- C20 (part): parameters created for the spin-unrestricted case, with any later weights `p` of the
same shapes, give `num_electrons` electrons with polarisation `spin`.  Missing: parameters created
with `spin_restricted=True` and non-zero spin, where the total is `num_electrons + spin`
(`idempotent_restricted_total`). -/
theorem idempotent_conserves_partial (qr : QR ℝ) (draw : ∀ n m : ℕ, Matrix (Fin n) (Fin m) ℝ)
    {nk nb : ℕ} (hk : 0 < nk) (ne spin : ℤ) (h0 : |spin| ≤ ne) (hb : ne + |spin| ≤ 2 * nb)
    (p0 p : IdemParams nk nb) (hp0 : idempotentParamInit draw nk nb ne spin false = .ok p0)
    (hu : p.mUp = p0.mUp) (hd : p.mDown = p0.mDown) (r : Bool) :
    OccArr.total (idempotentOcc qr p r) = (ne : ℝ) := by
  have ha := abs_le.1 h0
  have hs := neg_abs_le spin
  have hs' := le_abs_self spin
  have hkR : (nk : ℝ) ≠ 0 := by exact_mod_cast hk.ne'
  unfold idempotentParamInit checkSpinNumber at hp0
  by_cases hpar : ne % 2 ≠ spin % 2
  · rw [if_pos hpar] at hp0; cases hp0
  rw [if_neg hpar] at hp0
  have h1 : ¬ ((ne + spin) / 2 < 0) := by omega
  have h2 : ¬ ((ne - spin) / 2 < 0) := by omega
  simp only [bind, Except.bind, h1, h2, if_false, Bool.false_eq_true, pure, Except.pure] at hp0
  injection hp0 with hp0
  have hmu : p.mUp = ((ne + spin) / 2 * nk).toNat := by rw [hu, ← hp0]
  have hmd : p.mDown = ((ne - spin) / 2 * nk).toNat := by rw [hd, ← hp0]
  rw [idempotent_total, hmu, hmd]
  have hpar' : ne % 2 = spin % 2 := not_not.1 hpar
  have c : ∀ m : ℤ, 0 ≤ m → m ≤ nb →
      ((min (nk * nb) (m * nk).toNat : ℕ) : ℝ) = (m : ℝ) * nk := by
    intro m hm0 hmb
    have hle : m * nk ≤ nb * nk := mul_le_mul_of_nonneg_right hmb (by positivity)
    have hmn : 0 ≤ m * nk := mul_nonneg hm0 (by positivity)
    have : ((min (nk * nb) (m * nk).toNat : ℕ) : ℤ) = m * nk := by
      push_cast
      rw [Int.toNat_of_nonneg hmn, min_eq_right]
      rw [mul_comm (nk : ℤ)]; exact hle
    exact_mod_cast this
  rw [c _ (by omega) (by omega), c _ (by omega) (by omega)]
  have hsum : (ne + spin) / 2 + (ne - spin) / 2 = ne := by omega
  have hsumR : (((ne + spin) / 2 : ℤ) : ℝ) + (((ne - spin) / 2 : ℤ) : ℝ) = ne := by exact_mod_cast hsum
  field_simp
  exact hsumR

/-- C20 is false when the parameters are created spin-restricted (the default, and what
`param_init` always does): the total is `num_electrons + spin`. -/
theorem idempotent_restricted_total (qr : QR ℝ) (draw : ∀ n m : ℕ, Matrix (Fin n) (Fin m) ℝ)
    {nk nb : ℕ} (hk : 0 < nk) (ne spin : ℤ) (h0 : |spin| ≤ ne) (hb : ne + |spin| ≤ 2 * nb)
    (p : IdemParams nk nb) (hp : idempotentParamInit draw nk nb ne spin true = .ok p) (r : Bool) :
    OccArr.total (idempotentOcc qr p r) = (ne : ℝ) + spin := by
  have ha := abs_le.1 h0
  have hs := neg_abs_le spin
  have hs' := le_abs_self spin
  have hkR : (nk : ℝ) ≠ 0 := by exact_mod_cast hk.ne'
  unfold idempotentParamInit checkSpinNumber at hp
  by_cases hpar : ne % 2 ≠ spin % 2
  · rw [if_pos hpar] at hp; cases hp
  rw [if_neg hpar] at hp
  have h1 : ¬ ((ne + spin) / 2 < 0) := by omega
  simp only [bind, Except.bind, h1, if_false, if_true, pure, Except.pure] at hp
  injection hp with hp
  have hmu : p.mUp = ((ne + spin) / 2 * nk).toNat := by rw [← hp]
  have hmd : p.mDown = ((ne + spin) / 2 * nk).toNat := by rw [← hp]
  rw [idempotent_total, hmu, hmd]
  have hpar' : ne % 2 = spin % 2 := not_not.1 hpar
  have hle : (ne + spin) / 2 * nk ≤ nb * nk := mul_le_mul_of_nonneg_right (by omega) (by positivity)
  have hmn : 0 ≤ (ne + spin) / 2 * nk := mul_nonneg (by omega) (by positivity)
  have c : ((min (nk * nb) ((ne + spin) / 2 * nk).toNat : ℕ) : ℤ) = (ne + spin) / 2 * nk := by
    push_cast
    rw [Int.toNat_of_nonneg hmn, min_eq_right]
    rw [mul_comm (nk : ℤ)]; exact hle
  have cR : ((min (nk * nb) ((ne + spin) / 2 * nk).toNat : ℕ) : ℝ) = (((ne + spin) / 2 : ℤ) : ℝ) * nk := by
    exact_mod_cast c
  rw [cR]
  have hsum : (ne + spin) / 2 + (ne + spin) / 2 = ne + spin := by omega
  have hsumR : (((ne + spin) / 2 : ℤ) : ℝ) + (((ne + spin) / 2 : ℤ) : ℝ) = ne + spin := by
    exact_mod_cast hsum
  field_simp
  linarith

/-- Witness: initialisation succeeds for 5 electrons, spin 1, 4 bands, 2 k points. -/
example (draw : ∀ n m : ℕ, Matrix (Fin n) (Fin m) ℝ) :
    ∃ p, idempotentParamInit draw 2 4 5 1 false = .ok p ∧ p.mUp = 6 ∧ p.mDown = 4 :=
  ⟨_, rfl, rfl, rfl⟩

/-! ### C21 -/

/-- C21: an unknown method name raises `ValueError` in both functions. -/
theorem occupation_unknown_method (qr : QR ℝ) (draw : ∀ n m : ℕ, Matrix (Fin n) (Fin m) ℝ)
    (method : String) (h1 : method ≠ "idempotent") (h2 : method ≠ "uniform")
    (h3 : method ≠ "gamma") (h4 : method ≠ "simplex-projector") (nk nb : ℕ) (ne spin : ℤ) (r : Bool)
    (p : OccParams nk nb) :
    occParamInit draw nb ne nk spin method r = .error .valueError ∧
    occupation qr p ne spin method r = .error .valueError := by
  unfold occParamInit occupation
  simp [h1, h2, h3, h4]

/-- C21 (part): in the all-electron driver, `uniform` and `gamma` give the documented number of
spin channels and `num_electrons` electrons as soon as the driver's bands hold the larger channel
(`spin ≤ 2 empty_bands + (num_electrons mod 2)`).  Missing: larger spins, see
`driver_uniform_truncates`. -/
theorem driver_uniform_gamma_partial (qr : QR ℝ) (draw : ∀ n m : ℕ, Matrix (Fin n) (Fin m) ℝ)
    (ne : ℕ) (spin : ℤ) (nk empty : ℕ) (hk : 0 < nk) (hpar : (ne : ℤ) % 2 = spin % 2)
    (h0 : |spin| ≤ ne) (hb : |spin| ≤ 2 * empty + ne % 2) (r : Bool) (method : String)
    (hm : method = "uniform" ∨ method = "gamma") :
    ∃ o, driverOccupation qr draw ne spin nk empty method r = .ok o ∧
      o.length = (if r then 1 else 2) ∧ o.total = (ne : ℝ) := by
  have ha := abs_le.1 h0
  have ha' := abs_le.1 hb
  have hu : (pyBound (driverBands ne empty) (((ne : ℤ) + spin) / 2) : ℤ)
      + pyBound (driverBands ne empty) (((ne : ℤ) - spin) / 2) = ne := by
    unfold pyBound driverBands; split_ifs <;> omega
  have huR : (pyBound (driverBands ne empty) (((ne : ℤ) + spin) / 2) : ℝ)
      + pyBound (driverBands ne empty) (((ne : ℤ) - spin) / 2) = (ne : ℝ) := by exact_mod_cast hu
  obtain ⟨t1, t2⟩ := uniform_gamma_total (nb := driverBands ne empty) hk (ne : ℤ) spin r
  rcases hm with rfl | rfl
  · refine ⟨uniformOcc nk ne spin (some (driverBands ne empty)) r, ?_, ?_, ?_⟩
    · simp [driverOccupation, occParamInit, occupation, bind, Except.bind]
    · cases r <;> rfl
    · rw [← huR]; exact t1
  · refine ⟨gammaOcc nk ne spin (some (driverBands ne empty)) r, ?_, ?_, ?_⟩
    · simp [driverOccupation, occParamInit, occupation, bind, Except.bind]
    · cases r <;> rfl
    · rw [← huR]; exact t2

/-- C21 is false for large spins: a 4-electron system with spin 4 and no empty band loses two
electrons in the driver. -/
theorem driver_uniform_truncates (qr : QR ℝ) (draw : ∀ n m : ℕ, Matrix (Fin n) (Fin m) ℝ) :
    ∃ o, driverOccupation qr draw 4 4 1 0 "uniform" false = .ok o ∧ o.total = 2 := by
  refine ⟨uniformOcc 1 4 4 (some (driverBands 4 0)) false, ?_, ?_⟩
  · simp [driverOccupation, occParamInit, occupation, bind, Except.bind]
  · have := (uniform_gamma_total (nk := 1) (nb := driverBands 4 0) one_pos 4 4 false).1
    refine this.trans ?_
    rw [show ∀ a b : ℕ, (a : ℝ) + b = ((a + b : ℕ) : ℝ) from fun a b => by push_cast; rfl]
    norm_cast

/-- C21: with the idempotent method the driver's total is `num_electrons + spin` (so the claim holds
exactly for spin 0), in both spin settings. -/
theorem driver_idempotent (qr : QR ℝ) (draw : ∀ n m : ℕ, Matrix (Fin n) (Fin m) ℝ)
    (ne : ℕ) (spin : ℤ) (nk empty : ℕ) (hk : 0 < nk) (hpar : (ne : ℤ) % 2 = spin % 2)
    (h0 : |spin| ≤ ne) (hb : |spin| ≤ 2 * empty + ne % 2) (r : Bool) :
    ∃ o, driverOccupation qr draw ne spin nk empty "idempotent" r = .ok o ∧
      o.length = (if r then 1 else 2) ∧ o.total = (ne : ℝ) + spin := by
  have ha := abs_le.1 h0
  have ha' := abs_le.1 hb
  have h1 : ¬ (((ne : ℤ) + spin) / 2 < 0) := by omega
  have hin : ∃ p, idempotentParamInit draw nk (driverBands ne empty) ne spin true = .ok p := by
    unfold idempotentParamInit checkSpinNumber
    simp only [bind, Except.bind, hpar, h1, ne_eq, not_true, if_false, if_true, pure, Except.pure]
    exact ⟨_, rfl⟩
  obtain ⟨p, hp⟩ := hin
  refine ⟨idempotentOcc qr p r, ?_, ?_, ?_⟩
  · simp [driverOccupation, occParamInit, occupation, hp, Except.map, bind, Except.bind]
  · cases r <;> rfl
  · have := idempotent_restricted_total qr draw hk ne spin h0
      (nb := driverBands ne empty) (by unfold driverBands; push_cast; omega) p hp r
    simpa using this

/-- C21 (part): with the simplex projector the all-electron driver starts with the documented number
of channels and `num_electrons` electrons when both channels are neither empty nor full. -/
theorem driver_simplex_partial (qr : QR ℝ) (draw : ∀ n m : ℕ, Matrix (Fin n) (Fin m) ℝ)
    (ne : ℕ) (spin : ℤ) (nk empty : ℕ) (hk : 0 < nk) (hpar : (ne : ℤ) % 2 = spin % 2)
    (h0 : |spin| < ne) (hb : |spin| < 2 * empty + ne % 2) (r : Bool) :
    ∃ o, driverOccupation qr draw ne spin nk empty "simplex-projector" r = .ok o ∧
      o.length = (if r then 1 else 2) ∧ o.total = (ne : ℝ) := by
  have hb' : (ne : ℤ) + |spin| < 2 * (driverBands ne empty : ℕ) := by
    unfold driverBands; push_cast; omega
  refine ⟨simplexProjector (simplexProjectorInit nk _) (simplexProjectorInit nk _) ne spin r,
    ?_, ?_, ?_⟩
  · simp [driverOccupation, occParamInit, occupation, bind, Except.bind]
  · cases r <;> rfl
  · cases r
    · obtain ⟨u, d, he, -, -, ht, -⟩ := simplexProjector_unrestricted_partial hk
        (simplexProjectorInit nk (driverBands ne empty)) (simplexProjectorInit nk _) ne spin hpar h0 hb'
      rw [he, total_pair]; simpa using ht
    · obtain ⟨o, he, -, ht⟩ := simplexProjector_restricted_partial hk
        (simplexProjectorInit nk (driverBands ne empty)) (simplexProjectorInit nk _) ne spin hpar h0 hb'
      rw [he]; simpa [OccArr.total] using ht

/-- C21 is false for the hydrogen atom (one electron, spin 1) with the default method and at least
one empty band: the all-electron driver starts with a total different from 1. -/
theorem driver_hydrogen (qr : QR ℝ) (draw : ∀ n m : ℕ, Matrix (Fin n) (Fin m) ℝ) (empty : ℕ)
    (he : 0 < empty) (r : Bool) :
    ∃ o, driverOccupation qr draw 1 1 1 empty "simplex-projector" r = .ok o ∧ o.total ≠ 1 := by
  refine ⟨simplexProjector (simplexProjectorInit 1 _) (simplexProjectorInit 1 _) 1 1 r, ?_, ?_⟩
  · simp [driverOccupation, occParamInit, occupation, bind, Except.bind]
  · have hnb : 1 < driverBands 1 empty := by unfold driverBands; omega
    have := simplexProjector_empty_channel (nk := 1) (nb := driverBands 1 empty) one_pos
      (simplexProjectorInit 1 _) (simplexProjectorInit 1 _) 1 one_pos (by exact_mod_cast hnb) r
      ⟨0, ⟨0, by omega⟩, 0, ⟨1, hnb⟩, by
        simp only [simplexProjectorInit, unravel, finProdFinEquiv]
        intro h
        norm_num at h
        linarith⟩
    simpa using this

/-- C21 is false for the norm-conserving driver: spin-unrestricted `uniform`/`gamma` calculations
get an array with one spin channel instead of two. -/
theorem driverNC_channels (qr : QR ℝ) (draw : ∀ n m : ℕ, Matrix (Fin n) (Fin m) ℝ)
    (ne : ℕ) (spin : ℤ) (nk empty : ℕ) (method : String)
    (hm : method = "uniform" ∨ method = "gamma") :
    ∃ o, driverOccupationNC qr draw ne spin nk empty method false = .ok o ∧ o.length = 1 := by
  rcases hm with rfl | rfl
  · refine ⟨uniformOcc nk ne spin (some (driverBands ne empty)) true, ?_, rfl⟩
    simp [driverOccupationNC, occParamInit, occupation, bind, Except.bind]
  · refine ⟨gammaOcc nk ne spin (some (driverBands ne empty)) true, ?_, rfl⟩
    simp [driverOccupationNC, occParamInit, occupation, bind, Except.bind]

/-- C21: in all other cases the norm-conserving driver starts with the occupations of the all-electron driver, so that
the statements above hold for it. -/
theorem driverNC_same (qr : QR ℝ) (draw : ∀ n m : ℕ, Matrix (Fin n) (Fin m) ℝ)
    (ne : ℕ) (spin : ℤ) (nk empty : ℕ) (method : String) (r : Bool)
    (h : r = true ∨ (method ≠ "uniform" ∧ method ≠ "gamma")) :
    driverOccupationNC qr draw ne spin nk empty method r = driverOccupation qr draw ne spin nk empty method r := by
  rcases h with rfl | ⟨h1, h2⟩
  · rfl
  · unfold driverOccupationNC driverOccupation occParamInit
    simp only [h1, h2, if_false]

/-- The hypothesis of `driverNC_same` holds for the default method in both spin settings. -/
example (r : Bool) : r = true ∨ ("simplex-projector" ≠ "uniform" ∧ "simplex-projector" ≠ "gamma") :=
  Or.inr (by decide)

/-- Witness: 8 electrons, spin 2, one empty band meet the hypotheses. -/
example : ((8 : ℕ) : ℤ) % 2 = 2 % 2 ∧ |(2 : ℤ)| ≤ (8 : ℕ) ∧ |(2 : ℤ)| ≤ 2 * (1 : ℕ) + (8 : ℕ) % 2 := by
  norm_num

end Jrystal
