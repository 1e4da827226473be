import Verif.Lemmas.CellCont
import Verif.Lemmas.Reach3
import Verif.Spec.CellNC
import Verif.Props.RunNC
import Verif.Props.Spherical

/- Lemmas for C128: energies of valence electrons as functions of geometry and state together. -/
namespace Jrystal
open scoped BigOperators ComplexConjugate

section
variable {X : Type*} [TopologicalSpace X] {S : Set X} {ns nk nb na : ℕ} {n : Fin 3 → ℕ}
  {c : X → Coef ns nk nb n} {occ : X → Occ ns nk nb} {vol : X → ℝ} {g : X → Idx n → Fin 3 → ℝ}
  {kpts : X → Fin nk → Fin 3 → ℝ} {pos : X → Fin na → Fin 3 → ℝ}

theorem joint_reciprocalDensity (hc : ContinuousOn c S) (ho : ContinuousOn occ S) (hv : ContinuousOn vol S)
    (hpos : ∀ x ∈ S, 0 < vol x) (y : Idx n) :
    ContinuousOn (fun x => ∑ s, densityGridReciprocal (c x) (vol x) (occ x) s y) S := by
  refine continuousOn_finsetSum _ fun s _ => ?_
  unfold densityGridReciprocal
  simp only [fftn_eq]
  exact continuousOn_finsetSum _ fun j _ =>
    (Complex.continuous_ofReal.comp_continuousOn (joint_densityGrid hc ho hv hpos s j)).mul continuousOn_const

theorem joint_energyNC {M : ℕ} {ι : Type} [Fintype ι] (lib : XcLib) (xt : String) (hx : Spec.ContinuousXc lib xt)
    {vloc : X → Idx n → ℂ} {psi : X → Fin nk → ι → Fin M → Idx n → ℂ}
    (hc : ContinuousOn c S) (ho : ContinuousOn occ S) (hv : ContinuousOn vol S) (hpos : ∀ x ∈ S, 0 < vol x)
    (hg : ContinuousOn g S) (hne : ∀ x ∈ S, ∀ k : Idx n, (∃ i, (k i : ℕ) ≠ 0) → Spec.dot (g x k) (g x k) ≠ 0)
    (hk : ContinuousOn kpts S) (hnn : ∀ x ∈ S, ∀ s k b, 0 ≤ occ x s k b)
    (hl : ∀ y, ContinuousOn (fun x => vloc x y) S) (hp : ∀ k β φ y, ContinuousOn (fun x => psi x k β φ y) S) :
    ∃ f : X → ℝ, ContinuousOn f S ∧
      ∀ x, Spec.EnergyNC lib xt (vloc x) (psi x) (g x) (kpts x) (vol x) (c x) (occ x) (f x) := by
  obtain ⟨f1, h1, k1⟩ := joint_hartree hc ho hv hpos hg hne
  obtain ⟨f3, h3, k3⟩ := joint_xc lib xt hx hc ho hv hpos hg hnn
  have hc' : ∀ s k b y, ContinuousOn (fun x => c x s k b y) S := fun s k b y =>
    continuousOn_pi.1 (continuousOn_pi.1 (continuousOn_pi.1 (continuousOn_pi.1 hc s) k) b) y
  have ho' : ∀ s k b, ContinuousOn (fun x => occ x s k b) S := fun s k b =>
    continuousOn_pi.1 (continuousOn_pi.1 (continuousOn_pi.1 ho s) k) b
  refine ⟨fun x => kineticEnergyOcc (g x) (kpts x) (c x) (occ x) + f1 x
    + vol x / (gridCount n : ℝ) ^ 2 * (∑ k, conj (vloc x k) * ∑ s, densityGridReciprocal (c x) (vol x) (occ x) s k).re
    + (∑ s, ∑ k, ∑ b, hamiltonianNonlocal (c x) (psi x) (vol x) s k b b * (occ x s k b : ℂ)).re + f3 x, ?_,
    fun x => ⟨f1 x, _, _, f3 x, k1 x, reciprocalBraket_one _ _ _, rfl, k3 x, rfl⟩⟩
  refine ((((joint_kinetic hc ho hg hk).add h1).add ?_).add ?_).add h3
  · refine (hv.div_const _).mul (Complex.continuous_re.comp_continuousOn (continuousOn_finsetSum _ fun y _ => ?_))
    exact (Complex.continuous_conj.comp_continuousOn (hl y)).mul (joint_reciprocalDensity hc ho hv hpos y)
  · refine Complex.continuous_re.comp_continuousOn (continuousOn_finsetSum _ fun s _ => continuousOn_finsetSum _ fun k _ =>
      continuousOn_finsetSum _ fun b _ => ContinuousOn.mul ?_ (Complex.continuous_ofReal.comp_continuousOn (ho' s k b)))
    unfold hamiltonianNonlocal
    dsimp only
    have hf : ∀ β φ, ContinuousOn (fun x => ∑ y, c x s k b y * psi x k β φ y) S := fun β φ =>
      continuousOn_finsetSum _ fun y _ => (hc' s k b y).mul (hp k β φ y)
    refine ContinuousOn.div (continuousOn_finsetSum _ fun β _ => continuousOn_finsetSum _ fun φ _ =>
      (Complex.continuous_conj.comp_continuousOn (hf β φ)).mul (hf β φ))
      (Complex.continuous_ofReal.comp_continuousOn hv) fun x hx => ?_
    exact_mod_cast (hpos x hx).ne'

theorem joint_fold_max {ι : Type} {s : Finset ι} {rad : X → ι → ℝ} (h : ∀ i, ContinuousOn (fun x => rad x i) S) :
    ContinuousOn (fun x => s.fold max 0 (rad x)) S := by
  classical
  induction s using Finset.induction_on with
  | empty => simpa using continuousOn_const
  | insert a s ha ih =>
    simp only [Finset.fold_insert ha]
    exact continuous_max.comp_continuousOn ((h a).prodMk ih)

theorem joint_maxRadius {ι : Type} [Fintype ι] {rad : X → ι → ℝ} (h : ∀ i, ContinuousOn (fun x => rad x i) S) :
    ContinuousOn (fun x => maxRadius (rad x)) S := joint_fold_max h

theorem lt_maxRadius {ι : Type} [Fintype ι] {rad : ι → ℝ} {b : ℝ} (i : ι) (h : b < rad i) : b < maxRadius rad := by
  unfold maxRadius
  rw [Finset.lt_fold_max]
  exact Or.inr ⟨i, Finset.mem_univ i, h⟩

theorem gGrid_increasing {nr : ℕ} {kmax : ℝ} (h : 0.0001 < kmax) (i j : ℕ) (hij : i < j) (hj : j < 2 * nr) :
    gGrid nr kmax i < gGrid nr kmax j := by
  unfold gGrid
  have h1 : (0 : ℝ) < ((2 * nr : ℕ) : ℝ) - 1 := by
    have : 2 ≤ 2 * nr := by omega
    have : (2 : ℝ) ≤ ((2 * nr : ℕ) : ℝ) := by exact_mod_cast this
    linarith
  have h2 : 0 < (kmax - 0.0001) / (((2 * nr : ℕ) : ℝ) - 1) := div_pos (by linarith) h1
  have h3 : (i : ℝ) < j := by exact_mod_cast hij
  nlinarith

/-- The splined radial transform is continuous in the largest radius and the radius. -/
theorem joint_radial {jn : SphBessel} {cs : Spline} (hj : ∀ l, Continuous (jn l)) (hcs : Spec.ContinuousSpline cs)
    (nr : ℕ) (rr : Samples) (l : ℤ) (ff delta : Samples) {kmax rad : X → ℝ} (hk : ContinuousOn kmax S)
    (hr : ContinuousOn rad S) (hbig : ∀ x ∈ S, 0.0001 < kmax x) :
    ContinuousOn (fun x => cs (2 * nr) (gGrid nr (kmax x)) (sbtNumerical jn nr rr (kmax x) l ff delta) (rad x)) S := by
  have hG : ∀ j, ContinuousOn (fun x => gGrid nr (kmax x) j) S := fun j => by
    unfold gGrid
    exact continuousOn_const.add (continuousOn_const.mul ((hk.sub continuousOn_const).div_const _))
  have h := (hcs (2 * nr)).comp (t := {p : Samples × Samples × ℝ | ∀ i j, i < j → j < 2 * nr → p.1 i < p.1 j})
    (f := fun x => ((gGrid nr (kmax x) : Samples), (sbtNumerical jn nr rr (kmax x) l ff delta : Samples), rad x)) (s := S)
    ?_ fun x hx i j hij hj => gGrid_increasing (hbig x hx) i j hij hj
  · exact h
  · refine (continuousOn_pi.2 hG).prodMk (ContinuousOn.prodMk (continuousOn_pi.2 fun j => ?_) hr)
    unfold sbtNumerical
    exact continuousOn_finsetSum _ fun i _ => (continuousOn_const.mul
      ((hj l).comp_continuousOn ((hG j).mul continuousOn_const))).mul continuousOn_const

theorem joint_radius {ι : Type} {v : X → ι → Fin 3 → ℝ} (hv : ∀ i d, ContinuousOn (fun x => v x i d) S) (i : ι) :
    ContinuousOn (fun x => Real.sqrt (∑ d, v x i d ^ 2)) S :=
  Real.continuous_sqrt.comp_continuousOn (continuousOn_finsetSum _ fun d _ => (hv i d).pow 2)

theorem joint_localSbt {jn : SphBessel} {cs : Spline} (hj : ∀ l, Continuous (jn l)) (hcs : Spec.ContinuousSpline cs)
    {at' : X → LocalAtom} (a : LocalAtom) (h1 : ∀ x, (at' x).nr = a.nr) (h2 : ∀ x, (at' x).r = a.r)
    (h3 : ∀ x, (at' x).v = a.v) (hz : ∀ x, (at' x).z = a.z) (hr : ∀ y, ContinuousOn (fun x => gRadius (g x) y) S)
    (hbig : ∀ x ∈ S, 0.0001 < maxRadius (gRadius (g x))) (y : Idx n) :
    ContinuousOn (fun x => localSbt jn cs (g x) (at' x) y) S := by
  unfold localSbt
  simp only [h1, h2, h3, hz]
  exact (joint_radial hj hcs _ _ _ _ _ (joint_maxRadius hr) (hr y) hbig).mul continuousOn_const

/-- The local potential. -/
theorem joint_local {jn : SphBessel} {cs : Spline} (hj : ∀ l, Continuous (jn l)) (hcs : Spec.ContinuousSpline cs)
    (P : NcLists) (hm : 0 < na) (hv : ContinuousOn vol S) (hpos : ∀ x ∈ S, 0 < vol x) (hg : ContinuousOn g S)
    (hne : ∀ x ∈ S, ∀ k : Idx n, (∃ i, (k i : ℕ) ≠ 0) → Spec.dot (g x k) (g x k) ≠ 0) (hp : ContinuousOn pos S)
    (hbig : ∀ x ∈ S, 0.0001 < maxRadius (gRadius (g x))) :
    ∃ v : X → Idx n → ℂ, (∀ y, ContinuousOn (fun x => v x y) S) ∧
      ∀ x, localReciprocal jn cs (ncLocalAtom P (pos x)) (g x) (vol x) "sbt" = .ok (v x) := by
  have hg' : ∀ y d, ContinuousOn (fun x => g x y d) S := fun y d => continuousOn_pi.1 (continuousOn_pi.1 hg y) d
  have hp' : ∀ a d, ContinuousOn (fun x => pos x a d) S := fun a d => continuousOn_pi.1 (continuousOn_pi.1 hp a) d
  have hr : ∀ y, ContinuousOn (fun x => gRadius (g x) y) S := fun y => joint_radius hg' y
  refine ⟨fun x k => (∑ a, (if isOrigin k then 0 else (localSbt jn cs (g x) (ncLocalAtom P (pos x) a) k : ℂ) -
      (((ncLocalAtom P (pos x) a).z / (if isOrigin k then 1e10 else gRadius (g x) k) ^ 2 * (4 * Real.pi) : ℝ) : ℂ)) *
      Complex.exp (-(Complex.I * ((∑ d, g x k d * (ncLocalAtom P (pos x) a).pos d : ℝ) : ℂ)))) * (gridCount n : ℂ)
      / (vol x : ℂ), fun y => ?_, fun x => ?_⟩
  · refine ContinuousOn.div (ContinuousOn.mul (continuousOn_finsetSum _ fun a _ => ContinuousOn.mul ?_ ?_) continuousOn_const)
      (Complex.continuous_ofReal.comp_continuousOn hv) fun x hx => by exact_mod_cast (hpos x hx).ne'
    · cases ho : isOrigin y
      · simp only [Bool.false_eq_true, if_false]
        refine ContinuousOn.sub (Complex.continuous_ofReal.comp_continuousOn ?_) (Complex.continuous_ofReal.comp_continuousOn ?_)
        · exact joint_localSbt hj hcs ⟨0, (P.rGrid.getD a []).length, samplesOf (P.rGrid.getD a []), samplesOf (P.localGrid.getD a []), ((P.localCharge.getD a 0 : ℤ) : ℝ)⟩
            (fun _ => rfl) (fun _ => rfl) (fun _ => rfl) (fun _ => rfl) hr hbig y
        · refine (continuousOn_const.div ((hr y).pow 2) fun x hx => ?_).mul continuousOn_const
          have h0 := hne x hx y ((isOrigin_false y).1 ho)
          show Real.sqrt (∑ d, g x y d ^ 2) ^ 2 ≠ 0
          rw [Real.sq_sqrt (Finset.sum_nonneg fun d _ => sq_nonneg _)]
          simpa only [Spec.dot, sq] using h0
      · simpa using continuousOn_const
    · refine Complex.continuous_exp.comp_continuousOn (continuousOn_const.mul
        (Complex.continuous_ofReal.comp_continuousOn ?_)).neg
      exact continuousOn_finsetSum _ fun d _ => (hg' y d).mul (hp' a d)
  · unfold localReciprocal localForm
    simp only [if_true]
    rw [if_neg hm.ne']

/-- The data of one atom, with the transformed projectors written out. -/
noncomputable def pseudoSpecies (L : NcLib) (P : NcLists) (g : Idx n → Fin 3 → ℝ) (kpts : Fin nk → Fin 3 → ℝ) (a : ℕ) :
    NlSpecies nk n :=
  { nbeta := (P.betaGrid.getD a []).length
    ang := fun i => ((P.angular.getD a []).getD i 0).toNat
    dmat := Matrix.of fun i j => ((((P.dMatrix.getD a []).getD i []).getD j 0 : ℚ) : ℝ)
    beta := fun k b x =>
      let r := samplesOf (P.rGrid.getD a [])
      let drop : ℕ := if r 0 = 0 then 1 else 0
      let nr := (P.rGrid.getD a []).length - drop
      let r' : Samples := fun i => r (i + drop)
      let rad : Fin nk × Idx n → ℝ := fun p => Real.sqrt (∑ d, (kpts p.1 d + g p.2 d) ^ 2)
      L.csBeta (2 * nr) (gGrid nr (maxRadius rad))
        (sbtNumerical L.jn nr r' (maxRadius rad) ((P.angular.getD a []).getD b 0)
          (fun i => samplesOf ((P.betaGrid.getD a []).getD b []) (i + drop)) (deltaR nr r')) (rad (k, x)) }

theorem species_written (L : NcLib) (cfg : NcConfig) (symbols : List Str) (P : NcLists)
    (hP : createPseudo L cfg symbols = .ok P) {g : Idx n → Fin 3 → ℝ} {kpts : Fin nk → Fin 3 → ℝ}
    {bs : List (BetaArr nk n)} (hbs : ncBetas L P g kpts = .ok bs) (a : ℕ) (ha : a < symbols.length) :
    ncSpecies P bs a = pseudoSpecies L P g kpts a := by
  obtain ⟨l1, l2, l3⟩ := createPseudo_lengths L cfg symbols P hP
  unfold ncBetas at hbs
  split at hbs
  · exact absurd hbs nofun
  obtain ⟨r, b, l, x, e1, e2, e3, e4, e5⟩ := ((betaSbtGrid_spec _ _ _ _ _ _ l1 l2 l3 _).1 hbs).2 a ha
  have d1 : P.rGrid.getD a [] = r := by rw [List.getD_eq_getElem?_getD, e1]; rfl
  have d2 : P.betaGrid.getD a [] = b := by rw [List.getD_eq_getElem?_getD, e2]; rfl
  have d3 : P.angular.getD a [] = l := by rw [List.getD_eq_getElem?_getD, e3]; rfl
  have d4 : bs.getD a ⟨0, fun _ i => i.elim0⟩ = x := by rw [List.getD_eq_getElem?_getD, e4]; rfl
  unfold betaOfLists betaSbtSingle at e5
  split at e5
  · exact absurd e5 nofun
  split at e5
  · exact absurd e5 nofun
  split at e5
  · exact absurd e5 nofun
  have e6 := Except.ok.inj e5
  unfold ncSpecies pseudoSpecies
  dsimp only
  rw [d4, ← e6, d1, d2, d3]

theorem species_all_written (L : NcLib) (cfg : NcConfig) {m : ℕ} (symbols : Fin m → Str) (P : NcLists)
    (hP : createPseudo L cfg (List.ofFn symbols) = .ok P) {g : Idx n → Fin 3 → ℝ} {kpts : Fin nk → Fin 3 → ℝ}
    {bs : List (BetaArr nk n)} (hbs : ncBetas L P g kpts = .ok bs) :
    (fun a : Fin m => ncSpecies P bs a) = fun a : Fin m => pseudoSpecies L P g kpts a :=
  funext fun a => species_written L cfg _ P hP hbs a (by rw [List.length_ofFn]; exact a.2)

/-- The projectors of all atoms, for the data `pseudoSpecies`. -/
noncomputable def pseudoPsi (L : NcLib) (P : NcLists) (pos : Fin na → Fin 3 → ℝ) (g : Idx n → Fin 3 → ℝ)
    (kpts : Fin nk → Fin 3 → ℝ) : Fin nk → (Σ a : Fin na, Fin (P.betaGrid.getD a []).length) →
      Fin (2 * (Finset.univ.sup fun a : Fin na => Finset.univ.sup fun i : Fin (P.betaGrid.getD a []).length =>
        ((P.angular.getD a []).getD i 0).toNat) + 1) → Idx n → ℂ :=
  nlPsiAll L.eigh L.sph (fun a : Fin na => pseudoSpecies L P g kpts a) pos g kpts

theorem joint_beta (L : NcLib) (hL : Spec.ContinuousPseudo L) (P : NcLists) (hg : ContinuousOn g S) (hk : ContinuousOn kpts S)
    (hbig : ∀ x ∈ S, ∃ k y, 0.0001 < Spec.length fun d => kpts x k d + g x y d) (a : ℕ)
    (k : Fin nk) (b : Fin (P.betaGrid.getD a []).length) (y : Idx n) :
    ContinuousOn (fun x => (pseudoSpecies L P (g x) (kpts x) a).beta k b y) S := by
  have hkg : ∀ (p : Fin nk × Idx n) d, ContinuousOn (fun x => kpts x p.1 d + g x p.2 d) S := fun p d =>
    (continuousOn_pi.1 (continuousOn_pi.1 hk p.1) d).add (continuousOn_pi.1 (continuousOn_pi.1 hg p.2) d)
  have hr := fun p => joint_radius hkg p
  exact joint_radial hL.bessel hL.splineBeta _ _ _ _ _ (joint_maxRadius hr) (hr (k, y)) fun x hx => by
    obtain ⟨k', y', h⟩ := hbig x hx
    exact lt_maxRadius (k', y') h

theorem joint_nlPsi (eigh : Eigh) (sph : SphHarm) {N : ℕ} (ang : Fin N → ℕ) (D : Matrix (Fin N) (Fin N) ℝ)
    {beta : X → Fin nk → Fin N → Idx n → ℝ} {p : X → Fin 3 → ℝ} (hg : ContinuousOn g S) (hk : ContinuousOn kpts S)
    (hp : ContinuousOn p S) (k : Fin nk) (y : Idx n) (m : ℕ) (hb : ∀ b, ContinuousOn (fun x => beta x k b y) S)
    (hsph : ∀ b, ContinuousOn (fun x => sphericalRow sph (ang b) m fun d => kpts x k d + g x y d) S) (b : Fin N) :
    ContinuousOn (fun x => nlPsi eigh sph ⟨N, ang, D, beta x⟩ (p x) (g x) (kpts x) k b m y) S := by
  have hkg : ∀ d, ContinuousOn (fun x => kpts x k d + g x y d) S := fun d =>
    (continuousOn_pi.1 (continuousOn_pi.1 hk k) d).add (continuousOn_pi.1 (continuousOn_pi.1 hg y) d)
  unfold nlPsi
  dsimp only
  have h1 : ContinuousOn (fun x => ∑ b2, ((eigh.vecs (symmetrize D) b b2 : ℝ) : ℂ) * csqrt (eigh.vals (symmetrize D) b2) *
    (sphericalRow sph (ang b2) m (fun d => kpts x k d + g x y d) : ℂ) * (beta x k b2 y : ℂ)) S := 
      continuousOn_finsetSum _ fun b _ => (continuousOn_const.mul (Complex.continuous_ofReal.comp_continuousOn (hsph b))).mul
      (Complex.continuous_ofReal.comp_continuousOn (hb b))
  have h2 : ContinuousOn (fun x => Complex.exp (-(Complex.I * ((∑ d, (kpts x k d + g x y d) * p x d : ℝ) : ℂ)))) S := 
    Complex.continuous_exp.comp_continuousOn (continuousOn_const.mul
      (Complex.continuous_ofReal.comp_continuousOn (continuousOn_finsetSum _ fun d _ => (hkg d).mul (continuousOn_pi.1 hp d)))).neg
  exact (((h1.mul h2).mul continuousOn_const).mul continuousOn_const).mul continuousOn_const

theorem joint_psi (L : NcLib) (hL : Spec.ContinuousPseudo L) (P : NcLists) (hg : ContinuousOn g S) (hk : ContinuousOn kpts S)
    (hp : ContinuousOn pos S) (hbig : ∀ x ∈ S, ∃ k y, 0.0001 < Spec.length fun d => kpts x k d + g x y d)
    (hz : ∀ k y, (∀ x ∈ S, (fun d => kpts x k d + g x y d) = 0) ∨ ∀ x ∈ S, (fun d => kpts x k d + g x y d) ≠ 0)
    (k : Fin nk) (β : Σ a : Fin na, Fin (P.betaGrid.getD a []).length) (φ) (y : Idx n) :
    ContinuousOn (fun x => pseudoPsi L P (pos x) (g x) (kpts x) k β φ y) S := by
  have hkg : ∀ d, ContinuousOn (fun x => kpts x k d + g x y d) S := fun d =>
    (continuousOn_pi.1 (continuousOn_pi.1 hk k) d).add (continuousOn_pi.1 (continuousOn_pi.1 hg y) d)
  have hsph : ∀ b : Fin (P.betaGrid.getD β.1 []).length, ContinuousOn (fun x => sphericalRow L.sph
      ((P.angular.getD β.1 []).getD b 0).toNat φ fun d => kpts x k d + g x y d) S := by
    intro b
    rcases hz k y with h | h
    · exact continuousOn_const (c := sphericalRow L.sph ((P.angular.getD β.1 []).getD b 0).toNat φ 0) |>.congr
        fun x hx => by rw [h x hx]
    · exact (hL.harmonics _ φ).comp (continuousOn_pi.2 hkg) h
  have hb := fun b => joint_beta (S := S) L hL P hg hk hbig β.1 k b y
  exact joint_nlPsi L.eigh L.sph (fun i : Fin (P.betaGrid.getD β.1 []).length => ((P.angular.getD β.1 []).getD i 0).toNat)
    (Matrix.of fun i j => ((((P.dMatrix.getD β.1 []).getD i []).getD j 0 : ℚ) : ℝ))
    (beta := fun x => (pseudoSpecies L P (g x) (kpts x) β.1).beta) hg hk (continuousOn_pi.1 hp β.1) k y φ hb hsph β.2

end

/-- `k + G` is zero for all cells or for none. -/
theorem wave_zero (n kn : Fin 3 → ℕ) (k : Fin (idxList kn).length) (x : Idx n) :
    (∀ A : Matrix (Fin 3) (Fin 3) ℝ, (fun d => flatRows (kVectors A kn) k d + gVectors A n x d) = 0) ∨
    ∀ A : Matrix (Fin 3) (Fin 3) ℝ, A.det ≠ 0 → (fun d => flatRows (kVectors A kn) k d + gVectors A n x d) ≠ 0 := by
  let f : Fin 3 → ℝ := fun i => monkhorstPack kn ((idxList kn).get k) i + (sfreq (n i) (x i) : ℝ)
  have h : ∀ A : Matrix (Fin 3) (Fin 3) ℝ, (fun d => flatRows (kVectors A kn) k d + gVectors A n x d)
      = Matrix.vecMul f (reciprocalVectors A) := by
    intro A
    funext d
    rw [gVectors_apply]
    unfold flatRows kVectors
    rw [← Finset.sum_add_distrib]
    exact Finset.sum_congr rfl fun i _ => (add_mul _ _ _).symm
  by_cases h0 : f = 0
  · exact Or.inl fun A => by rw [h, h0, Matrix.zero_vecMul]
  · refine Or.inr fun A hA => ?_
    rw [h]
    intro h1
    refine h0 (Matrix.eq_zero_of_vecMul_eq_zero (M := reciprocalVectors A) ?_ h1)
    unfold reciprocalVectors
    rw [Matrix.det_smul, Matrix.det_transpose, Matrix.det_nonsing_inv, Ring.inverse_eq_inv']
    have := Real.pi_pos
    positivity

/-- Harmonics that satisfy the addition theorem are continuous away from zero. -/
theorem sphericalRow_continuous (sph : SphHarm) (hc : sph.Conj) (l i : ℕ) (h : sph.Addition l) :
    ContinuousOn (sphericalRow sph l i) {v | v ≠ 0} := by
  intro v hv
  have hker := fun x y hx hy => sphericalRow_kernel sph hc l (2 * l + 1 + i + 1) h (by omega) x y hx hy
  have hbound : ∀ w : Fin 3 → ℝ, w ≠ 0 → (sphericalRow sph l i w - sphericalRow sph l i v) ^ 2
      ≤ (2 * l + 1) / (4 * Real.pi) * (Spec.legendre l (Spec.cosAngle w w) + Spec.legendre l (Spec.cosAngle v v)
        - 2 * Spec.legendre l (Spec.cosAngle w v)) := by
    intro w hw
    have h1 := hker w w hw hw
    have h2 := hker v v hv hv
    have h3 := hker w v hw hv
    have h4 : (sphericalRow sph l i w - sphericalRow sph l i v) ^ 2
        ≤ ∑ j ∈ Finset.range (2 * l + 1 + i + 1), (sphericalRow sph l j w - sphericalRow sph l j v) ^ 2 :=
      Finset.single_le_sum (f := fun j => (sphericalRow sph l j w - sphericalRow sph l j v) ^ 2)
        (fun j _ => sq_nonneg _) (Finset.mem_range.2 (by omega))
    have h5 : ∑ j ∈ Finset.range (2 * l + 1 + i + 1), (sphericalRow sph l j w - sphericalRow sph l j v) ^ 2
        = ∑ j ∈ Finset.range (2 * l + 1 + i + 1), sphericalRow sph l j w * sphericalRow sph l j w
          + ∑ j ∈ Finset.range (2 * l + 1 + i + 1), sphericalRow sph l j v * sphericalRow sph l j v
          - 2 * ∑ j ∈ Finset.range (2 * l + 1 + i + 1), sphericalRow sph l j w * sphericalRow sph l j v := by
      rw [Finset.mul_sum, ← Finset.sum_add_distrib, ← Finset.sum_sub_distrib]
      exact Finset.sum_congr rfl fun j _ => by ring
    have hpi := Real.pi_pos
    refine h4.trans (le_of_eq ?_)
    rw [h5, div_mul_eq_mul_div, eq_div_iff (by positivity)]
    linear_combination h1 + h2 - 2 * h3
  have hcos : ∀ f g : (Fin 3 → ℝ) → Fin 3 → ℝ, Continuous f → Continuous g → f v ≠ 0 → g v ≠ 0 →
      ContinuousAt (fun w => Spec.cosAngle (f w) (g w)) v := by
    intro f g hf hg h1 h2
    have hs : ∀ u : Fin 3 → ℝ, u ≠ 0 → Real.sqrt (∑ d, u d * u d) ≠ 0 := by
      intro u hu h0
      rw [Real.sqrt_eq_zero (Finset.sum_nonneg fun d _ => mul_self_nonneg _),
        Finset.sum_eq_zero_iff_of_nonneg fun d _ => mul_self_nonneg _] at h0
      exact hu (funext fun d => mul_self_eq_zero.1 (h0 d (Finset.mem_univ d)))
    have hf' : ∀ d, Continuous fun w => f w d := fun d => (continuous_apply d).comp hf
    have hg' : ∀ d, Continuous fun w => g w d := fun d => (continuous_apply d).comp hg
    unfold Spec.cosAngle
    refine ContinuousAt.div ?_ ?_ (mul_ne_zero (hs _ h1) (hs _ h2))
    · exact (continuous_finsetSum _ fun d _ => (hf' d).mul (hg' d)).continuousAt
    · exact ((Real.continuous_sqrt.comp (continuous_finsetSum _ fun d _ => (hf' d).mul (hf' d))).mul
        (Real.continuous_sqrt.comp (continuous_finsetSum _ fun d _ => (hg' d).mul (hg' d)))).continuousAt
  have hP : ∀ l, Continuous (Spec.legendre l) := by
    intro l
    induction l using Nat.twoStepInduction with
    | zero => exact continuous_const
    | one => exact continuous_id
    | more l h1 h2 =>
      show Continuous fun t => ((2 * l + 3) * t * Spec.legendre (l + 1) t - (l + 1) * Spec.legendre l t) / (l + 2)
      exact (((continuous_const.mul continuous_id).mul h2).sub (continuous_const.mul h1)).div_const _
  have hlim : ContinuousAt (fun w => (2 * l + 1) / (4 * Real.pi) * (Spec.legendre l (Spec.cosAngle w w)
      + Spec.legendre l (Spec.cosAngle v v) - 2 * Spec.legendre l (Spec.cosAngle w v))) v :=
    continuousAt_const.mul ((((hP l).continuousAt.comp (hcos _ _ continuous_id continuous_id hv hv)).add
      continuousAt_const).sub (continuousAt_const.mul
        ((hP l).continuousAt.comp (hcos _ _ continuous_id continuous_const hv hv))))
  have hz : Filter.Tendsto (fun w => (sphericalRow sph l i w - sphericalRow sph l i v) ^ 2) (nhdsWithin v {v | v ≠ 0})
      (nhds 0) := by
    refine tendsto_of_tendsto_of_tendsto_of_le_of_le' tendsto_const_nhds (hlim.tendsto.mono_left nhdsWithin_le_nhds |>.trans_eq ?_) ?_ ?_
    · ring_nf
    · exact Filter.Eventually.of_forall fun w => sq_nonneg _
    · exact Filter.eventually_of_mem self_mem_nhdsWithin fun w hw => hbound w hw
  rw [ContinuousWithinAt, tendsto_iff_dist_tendsto_zero]
  have := (Real.continuous_sqrt.tendsto 0).comp hz
  rw [Real.sqrt_zero] at this
  refine this.congr fun w => ?_
  show Real.sqrt _ = _
  rw [Real.sqrt_sq_eq_abs, Real.dist_eq]

end Jrystal
