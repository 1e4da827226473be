import Verif.Props.BandOptNC

/- C72: with a spin-polarised density the norm-conserving band driver can minimise the wrong quantity. -/
namespace Jrystal
open scoped BigOperators ComplexConjugate
open Matrix

private def po : Idx ![2, 1, 1] := fun i => ⟨0, by fin_cases i <;> decide⟩
private def pi1 : Idx ![2, 1, 1] := fun i => ⟨if i = 0 then 1 else 0, by fin_cases i <;> decide⟩

private theorem univ_two : (Finset.univ : Finset (Idx ![2, 1, 1])) = {po, pi1} := by decide

private theorem sum_two {F : Type*} [AddCommMonoid F] (f : Idx ![2, 1, 1] → F) : ∑ x, f x = f po + f pi1 := by
  rw [univ_two, Finset.sum_pair (by decide)]

private theorem sum_fin {F : Type*} [AddCommMonoid F] {N : ℕ} (h : N = 2) (f : Fin N → F) :
    ∑ a, f a = f ⟨0, by omega⟩ + f ⟨1, by omega⟩ := by
  subst h
  exact Fin.sum_univ_two f

private theorem count_two : maskCount (n := ![2, 1, 1]) (fun _ => true) = 2 := by decide

private theorem pos_zero (h : 0 < maskCount (n := ![2, 1, 1]) fun _ => true) :
    maskPos (n := ![2, 1, 1]) (fun _ => true) ⟨0, h⟩ = po := by decide +revert

private theorem pos_one (h : 1 < maskCount (n := ![2, 1, 1]) fun _ => true) :
    maskPos (n := ![2, 1, 1]) (fun _ => true) ⟨1, h⟩ = pi1 := by decide +revert

private theorem g_zero : gVectors 1 ![2, 1, 1] po = fun _ => 0 := by
  funext d
  simp [gVectors, vectorGrid, fftfreq, sfreq, po]

private theorem g_one : gVectors 1 ![2, 1, 1] pi1 = fun d => if d = 0 then -(2 * Real.pi) else 0 := by
  funext d
  fin_cases d <;>
    simp [gVectors, vectorGrid, fftfreq, sfreq, pi1, reciprocalVectors, Matrix.one_apply]

private theorem r_zero : rVectors 1 ![2, 1, 1] po = fun _ => 0 := by
  funext d
  simp [rVectors, vectorGrid, fftfreq, sfreq, po]

private theorem r_one : rVectors 1 ![2, 1, 1] pi1 = fun d => if d = 0 then -(1 / 2) else 0 := by
  funext d
  fin_cases d <;>
    norm_num [rVectors, vectorGrid, fftfreq, sfreq, pi1, Matrix.one_apply]

/-- Both spin channels of the density sit on the first grid point. -/
private noncomputable def peak : Fin 2 → Idx ![2, 1, 1] → ℝ := fun _ x => if x = po then 1 else 0

private noncomputable def vh (x : Idx ![2, 1, 1]) : ℝ := (hartreeRealSpace peak (gVectors 1 ![2, 1, 1]) true x).re

/-- Two plane waves of a cubic cell, two equal spin channels, a local potential opposed to the Hartree potential and
no projectors. -/
noncomputable def opposedBand : BandEnvNC 2 1 Empty Unit ![2, 1, 1] where
  lib := ⟨fun _ _ => 0, fun _ _ _ => 0, fun _ _ _ => 0, fun _ _ _ _ _ _ => 0⟩
  qr := keepingQR
  eigh := someEigvalsh
  mask := fun _ => true
  dens := peak
  vloc := fftn fun x => ((-(3 / 2) * vh x : ℝ) : ℂ)
  psi := fun _ i => i.elim
  g := gVectors 1 ![2, 1, 1]
  vol := 1
  xc := "lda_x"

private theorem opposed_vxc (σ : Fin 2) (x : Idx ![2, 1, 1]) :
    vxcDensity opposedBand.lib opposedBand.xc opposedBand.g opposedBand.dens σ x = 0 := by
  have h1 : pyIn "gga" "lda_x" = false := by decide
  unfold vxcDensity
  simp [h1, vxcLda2, excLda2, ldaPoint2, opposedBand]

private theorem vh_diff : vh po - vh pi1 = 2 / Real.pi := by
  have he : Complex.exp (2 * Real.pi * Complex.I * (1 / 2)) = -1 := by
    rw [show (2 * Real.pi * Complex.I * (1 / 2) : ℂ) = Real.pi * Complex.I by ring, Complex.exp_pi_mul_I]
  have ho : isOrigin po = true := by decide
  have hi : isOrigin pi1 = false := by decide
  have hr : ∀ k, ∑ s : Fin 2, fftn (fun j => (peak s j : ℂ)) k = 2 := by
    intro k
    have : ∀ s, fftn (fun j => (peak s j : ℂ)) k = 1 := by
      intro s
      unfold fftn
      rw [sum_two]
      simp [peak, po, show pi1 ≠ po by decide]
    rw [Fin.sum_univ_two, this, this]
    norm_num
  have hv : ∀ x, hartreeRealSpace peak (gVectors 1 ![2, 1, 1]) true x
      = ((2 / (4 * Real.pi ^ 2) * 4 * Real.pi : ℝ) : ℂ) * Complex.exp (2 * Real.pi * Complex.I *
          ∑ i, ((pi1 i : ℕ) : ℂ) * ((x i : ℕ) : ℂ) / ((![2, 1, 1] i : ℕ) : ℂ)) / 2 := by
    intro x
    have hc : gridCount ![2, 1, 1] = 2 := by decide
    unfold hartreeRealSpace ifftn
    rw [sum_two, hc]
    simp only [hartreeReciprocal, ho, hi, hr, g_one]
    simp [Fin.sum_univ_three]
    ring
  have hp := Real.pi_ne_zero
  have h0 : vh po = 1 / Real.pi := by
    unfold vh
    rw [hv po]
    have : ∑ i, ((pi1 i : ℕ) : ℂ) * ((po i : ℕ) : ℂ) / ((![2, 1, 1] i : ℕ) : ℂ) = 0 := by simp [po]
    rw [this, mul_zero, Complex.exp_zero, mul_one, ← Complex.ofReal_ofNat, ← Complex.ofReal_div, Complex.ofReal_re]
    field_simp
  have h1 : vh pi1 = -(1 / Real.pi) := by
    unfold vh
    rw [hv pi1]
    have : ∑ i, ((pi1 i : ℕ) : ℂ) * ((pi1 i : ℕ) : ℂ) / ((![2, 1, 1] i : ℕ) : ℂ) = 1 / 2 := by
      simp [pi1, Fin.sum_univ_three]
    rw [this, he, ← Complex.ofReal_ofNat 2, ← Complex.ofReal_one, ← Complex.ofReal_neg, ← Complex.ofReal_mul,
      ← Complex.ofReal_div, Complex.ofReal_re]
    field_simp
  rw [h0, h1]
  ring

private noncomputable def edge : (Fin 3 → ℝ) × Unit := (fun d => if d = 0 then Real.pi else 0, ())

private noncomputable def opposedMatrix (V : Idx ![2, 1, 1] → ℝ) :
    Matrix (Fin (maskCount opposedBand.mask)) (Fin (maskCount opposedBand.mask)) ℂ :=
  Spec.planeWaveHamiltonian (fun a => gVectors 1 ![2, 1, 1] (maskPos opposedBand.mask a)) (rVectors 1 ![2, 1, 1]) V
    edge.1 + Spec.projectorMatrix opposedBand.vol
      (fun (i : Empty × Fin 1) a => opposedBand.psi edge i.1 i.2 (maskPos opposedBand.mask a))

private theorem kinetic_edge (a : Fin (maskCount opposedBand.mask)) :
    Spec.kineticEnergy (fun e => gVectors 1 ![2, 1, 1] (maskPos opposedBand.mask a) e + edge.1 e)
      = Real.pi ^ 2 / 2 := by
  have h : ∀ x : Idx ![2, 1, 1], x = po ∨ x = pi1 := by
    intro x
    have := Finset.mem_univ x
    rwa [univ_two, Finset.mem_insert, Finset.mem_singleton] at this
  rcases h (maskPos opposedBand.mask a) with h | h
  · rw [h, g_zero]
    simp [Spec.kineticEnergy, Spec.dot, edge]
    ring
  · rw [h, g_one]
    simp [Spec.kineticEnergy, Spec.dot, edge, Fin.sum_univ_three]
    ring

private theorem opposed_sum (V W : Idx ![2, 1, 1] → ℝ) (h : ∀ x, V x + W x = 0) :
    opposedMatrix V + opposedMatrix W = ((Real.pi ^ 2 : ℝ) : ℂ) • 1 := by
  ext a b
  have hs : ∀ c : Idx ![2, 1, 1] → ℂ, ∑ x, (V x : ℂ) * c x + ∑ x, (W x : ℂ) * c x = 0 := by
    intro c
    rw [← Finset.sum_add_distrib]
    refine Finset.sum_eq_zero fun x _ => ?_
    rw [← add_mul, ← Complex.ofReal_add, h x, Complex.ofReal_zero, zero_mul]
  simp only [opposedMatrix, Matrix.add_apply, Spec.planeWaveHamiltonian, Spec.projectorMatrix, kinetic_edge,
    Finset.univ_eq_empty, Finset.sum_empty, zero_div, add_zero, Matrix.smul_apply, smul_eq_mul]
  have := hs fun x => Complex.exp (-(Complex.I * ((Spec.dot (fun e => gVectors 1 ![2, 1, 1]
    (maskPos opposedBand.mask a) e - gVectors 1 ![2, 1, 1] (maskPos opposedBand.mask b) e)
      (rVectors 1 ![2, 1, 1] x) : ℝ) : ℂ)))
  have h2 : ((Real.pi ^ 2 : ℝ) : ℂ) = ((Real.pi ^ 2 / 2 : ℝ) : ℂ) + ((Real.pi ^ 2 / 2 : ℝ) : ℂ) := by
    rw [← Complex.ofReal_add]
    congr 1
    ring
  by_cases hab : a = b
  · rw [if_pos hab, hab, Matrix.one_apply_eq, h2]
    rw [hab] at this
    linear_combination this / ((∏ i, ![2, 1, 1] i : ℕ) : ℂ)
  · rw [if_neg hab, Matrix.one_apply_ne hab]
    linear_combination this / ((∏ i, ![2, 1, 1] i : ℕ) : ℂ)

private theorem opposed_eig (σ : Fin 2) (x : Idx ![2, 1, 1]) : -(1 / 2) * vh x = (ifftn opposedBand.vloc x
    + hartreeRealSpace opposedBand.dens opposedBand.g true x
    + vxcDensity opposedBand.lib opposedBand.xc opposedBand.g opposedBand.dens σ x).re := by
  rw [opposed_vxc, show opposedBand.vloc = fftn fun x => ((-(3 / 2) * vh x : ℝ) : ℂ) from rfl, ifftn_fftn',
    add_zero, Complex.add_re, Complex.ofReal_re]
  change _ = _ + vh x
  ring

private theorem opposed_obj (x : Idx ![2, 1, 1]) : 1 / 2 * vh x = (ifftn opposedBand.vloc x
    + ∑ σ, (hartreeRealSpace opposedBand.dens opposedBand.g true x
    + vxcDensity opposedBand.lib opposedBand.xc opposedBand.g opposedBand.dens σ x)).re := by
  rw [Fin.sum_univ_two, opposed_vxc, opposed_vxc,
    show opposedBand.vloc = fftn fun x => ((-(3 / 2) * vh x : ℝ) : ℂ) from rfl, ifftn_fftn',
    add_zero, Complex.add_re, Complex.add_re, Complex.ofReal_re]
  change _ = _ + (vh x + vh x)
  ring

/-- Orbitals `(1, s)/√2`. -/
private noncomputable def mixed (s : ℝ) : PwParams 1 1 (maskCount opposedBand.mask) 1 where
  re := fun _ _ a _ => (if (a : ℕ) = 0 then 1 else s) / Real.sqrt 2
  im := fun _ _ _ _ => 0

private theorem keeping_trace {N m : ℕ} (w : Matrix (Fin N) (Fin m) ℂ) (h : wᴴ * w = 1)
    (M : Matrix (Fin N) (Fin N) ℂ) :
    ((keepingQR.q w)ᴴ * M * keepingQR.q w).trace = (wᴴ * M * w).trace := by
  have : ∃ h' : min N m = m, keepingQR.q w = w.submatrix id (finCongr h') := 
    ⟨min_eq_right (orthonormal_le h), dif_pos h⟩
  obtain ⟨h', this⟩ := this
  rw [this, Matrix.conjTranspose_submatrix, ← Matrix.submatrix_id_id M, ← Matrix.submatrix_mul _ _ _ id _
    Function.bijective_id, ← Matrix.submatrix_mul _ _ _ id _ Function.bijective_id]
  exact (finCongr h').sum_comp fun i => (wᴴ * M * w) i i

private theorem mixed_trace (s : ℝ) (hs : s ^ 2 = 1) (V : Idx ![2, 1, 1] → ℝ) :
    (((Matrix.of (unitaryMatrix opposedBand.qr (mixed s) 0 0))ᴴ * opposedMatrix V
      * Matrix.of (unitaryMatrix opposedBand.qr (mixed s) 0 0)).trace).re
      = Real.pi ^ 2 / 2 + (V po + V pi1) / 2 + s * (V po - V pi1) / 2 := by
  have hq : (Real.sqrt 2 : ℂ) * (Real.sqrt 2 : ℂ) = 2 := by
    rw [← Complex.ofReal_mul, Real.mul_self_sqrt (by norm_num), Complex.ofReal_ofNat]
  have hq0 : (Real.sqrt 2 : ℂ) ≠ 0 := by
    intro h
    rw [h, mul_zero] at hq
    norm_num at hq
  have hsC : (s : ℂ) * s = 1 := by
    rw [← Complex.ofReal_mul, ← sq, hs, Complex.ofReal_one]
  let w : Matrix (Fin (maskCount opposedBand.mask)) (Fin 1) ℂ :=
    Matrix.of fun a b => ((mixed s).re 0 0 a b : ℂ) + Complex.I * ((mixed s).im 0 0 a b : ℂ)
  have w0 : ∀ h b, w ⟨0, h⟩ b = 1 / (Real.sqrt 2 : ℂ) := by
    intro h b
    simp [w, mixed]
  have w1 : ∀ h b, w ⟨1, h⟩ b = s / (Real.sqrt 2 : ℂ) := by
    intro h b
    simp [w, mixed]
  have hc : maskCount opposedBand.mask = 2 := count_two
  have hw : wᴴ * w = 1 := by
    ext i j
    rw [Subsingleton.elim i 0, Subsingleton.elim j 0, Matrix.mul_apply, sum_fin hc, Matrix.conjTranspose_apply,
      Matrix.conjTranspose_apply, w0, w1, Matrix.one_apply_eq]
    simp only [star_div₀, star_one, RCLike.star_def, Complex.conj_ofReal]
    field_simp
    linear_combination hsC - hq
  have hu : Matrix.of (unitaryMatrix opposedBand.qr (mixed s) 0 0) = keepingQR.q w := rfl
  rw [hu, keeping_trace w hw]
  have e1 : Complex.exp (-(Complex.I * (Real.pi : ℂ))) = -1 := by
    rw [mul_comm, Complex.exp_neg, Complex.exp_pi_mul_I]
    norm_num
  have e2 : Complex.exp (Complex.I * (Real.pi : ℂ)) = -1 := by
    rw [mul_comm, Complex.exp_pi_mul_I]
  have hent : ∀ a b, opposedMatrix V a b = (if a = b then ((Real.pi ^ 2 / 2 : ℝ) : ℂ) else 0)
      + (V po + (if a = b then 1 else -1) * V pi1) / 2 := by
    have hab : ∀ a : Fin (maskCount opposedBand.mask),
        a = ⟨0, by rw [hc]; norm_num⟩ ∨ a = ⟨1, by rw [hc]; norm_num⟩ := by
      intro a
      have := a.2
      rcases Nat.lt_or_ge a 1 with h | h
      · exact Or.inl (Fin.ext (by simpa using h))
      · exact Or.inr (Fin.ext (show (a : ℕ) = 1 by omega))
    have p0 : ∀ h, maskPos opposedBand.mask ⟨0, h⟩ = po := pos_zero
    have p1 : ∀ h, maskPos opposedBand.mask ⟨1, h⟩ = pi1 := pos_one
    intro a b
    simp only [opposedMatrix, Matrix.add_apply, Spec.planeWaveHamiltonian, Spec.projectorMatrix, kinetic_edge,
      Finset.univ_eq_empty, Finset.sum_empty, zero_div, add_zero, sum_two, r_zero, r_one]
    rcases hab a with rfl | rfl <;> rcases hab b with rfl | rfl <;>
      simp [p0, p1, g_zero, g_one, Spec.dot, Fin.prod_univ_three]
    · rw [show (2 * (Real.pi : ℂ) * 2⁻¹) = Real.pi by ring, e2]
      ring
    · rw [show (2 * (Real.pi : ℂ) * 2⁻¹) = Real.pi by ring, e1]
      ring
  simp only [Matrix.trace, Matrix.diag_apply, Fin.sum_univ_one, Matrix.mul_apply, sum_fin hc,
    Matrix.conjTranspose_apply, w0, w1, hent]
  simp only [star_div₀, star_one, RCLike.star_def, Complex.conj_ofReal]
  have key : ∀ z : ℂ, ∀ r : ℝ, z = r → z.re = r := by
    rintro z r rfl
    exact Complex.ofReal_re r
  refine key _ _ ?_
  simp
  field_simp
  linear_combination ((Real.pi : ℂ) ^ 2 + V po + V pi1) * hsC
    - ((Real.pi : ℂ) ^ 2 + V po + V pi1 + s * (V po - V pi1)) * hq

/-- C72 fails for a density with two channels: here the minimised value and the reported energy add up to a
constant, so the lower the objective gets, the higher is the reported energy. -/
theorem bandTraceNC_channels_wrong :
    ∃ (E : BandEnvNC 2 1 Empty Unit ![2, 1, 1]) (k : (Fin 3 → ℝ) × Unit),
      E.g = gVectors 1 ![2, 1, 1] ∧ E.vol = 1 ∧ (∀ σ x, 0 ≤ E.dens σ x) ∧ maskCount E.mask = 2 ∧
      (∀ p : PwParams 1 1 (maskCount E.mask) 1, ∃ t e, bandTraceNC E p k = .ok t ∧ bandEigNC E p k = .ok ⟨2, e⟩ ∧
        ∀ σ, t + ∑ b, e σ b = Real.pi ^ 2) ∧
      ∃ (p q : PwParams 1 1 (maskCount E.mask) 1) (t t' : ℝ), bandTraceNC E p k = .ok t ∧
        bandTraceNC E q k = .ok t' ∧ t < t' := by
  have hn : ∀ i, 0 < ![2, 1, 1] i := by decide
  have hA : (1 : Matrix (Fin 3) (Fin 3) ℝ).det ≠ 0 := by simp
  have hvol : 0 < opposedBand.vol := by norm_num [opposedBand]
  have htr := fun p : PwParams 1 1 (maskCount opposedBand.mask) 1 =>
    bandTraceNC_channels hn opposedBand 1 hA rfl hvol _ opposed_obj p edge
  refine ⟨opposedBand, edge, rfl, rfl, fun σ x => ?_, count_two, fun p => ?_, mixed (-1), mixed 1, _, _, htr _,
    htr _, ?_⟩
  · show 0 ≤ peak σ x
    unfold peak
    split_ifs <;> norm_num
  · obtain ⟨e, h1, h2⟩ := bandEigNC_spectra opposedBand 1 hA rfl hvol (fun _ x => -(1 / 2) * vh x)
      opposed_eig p edge
    refine ⟨_, e, htr p, h1, fun σ => ?_⟩
    have h3 := spectrum_trace (h2 σ)
    have h4 := opposed_sum (fun x => 1 / 2 * vh x) (fun x => -(1 / 2) * vh x) fun x => by ring
    have h5 : (Matrix.of (unitaryMatrix opposedBand.qr p 0 0))ᴴ
        * Matrix.of (unitaryMatrix opposedBand.qr p 0 0) = 1 :=
      opposedBand.qr.orth _
    have h6 := congrArg (fun M => ((Matrix.of (unitaryMatrix opposedBand.qr p 0 0))ᴴ * M
      * Matrix.of (unitaryMatrix opposedBand.qr p 0 0)).trace) h4
    have hm : min (maskCount opposedBand.mask) 1 = 1 := by rw [show maskCount opposedBand.mask = 2 from count_two]; rfl
    simp only [Matrix.mul_add, Matrix.add_mul, Matrix.trace_add, Matrix.mul_smul, Matrix.smul_mul, Matrix.mul_one, h5,
      Matrix.trace_smul, Matrix.trace_one, Fintype.card_fin, hm, Nat.cast_one, smul_eq_mul, mul_one] at h6
    have h7 := congrArg Complex.re h6
    have h8 := congrArg Complex.re h3
    rw [Complex.add_re, Complex.ofReal_re] at h7
    rw [Complex.ofReal_re] at h8
    unfold opposedMatrix at h7
    rw [h8] at h7
    exact h7
  · have h1 := mixed_trace (-1) (by norm_num) fun x => 1 / 2 * vh x
    have h2 := mixed_trace 1 (by norm_num) fun x => 1 / 2 * vh x
    unfold opposedMatrix at h1 h2
    rw [h1, h2]
    have := vh_diff
    have hp : 0 < 2 / Real.pi := by positivity
    linarith

end Jrystal
