import Verif.Model.Energy
import Verif.Model.Sbt
import Verif.Model.Spherical

/-
Model of the norm-conserving pseudopotential: /repo/jrystal/pseudopotential/nloc.py,
/repo/jrystal/pseudopotential/local.py and /repo/jrystal/pseudopotential/beta.py.  Exact real and complex
arithmetic.  `jnp.linalg.eigh`, the spherical harmonics, the spherical Bessel functions and the cubic
splines are parameters.
-/
namespace Jrystal
open scoped BigOperators ComplexConjugate
open Matrix

/-- Contract of `jnp.linalg.eigh` for a real symmetric matrix: eigenvalues in ascending order and an
orthogonal matrix whose columns are the eigenvectors (external routine, used at
/repo/jrystal/pseudopotential/nloc.py:110). -/
structure Eigh where
  vals : ∀ {m : ℕ}, Matrix (Fin m) (Fin m) ℝ → Fin m → ℝ
  vecs : ∀ {m : ℕ}, Matrix (Fin m) (Fin m) ℝ → Matrix (Fin m) (Fin m) ℝ
  orth : ∀ {m : ℕ} (S : Matrix (Fin m) (Fin m) ℝ), S.IsSymm → (vecs S)ᵀ * vecs S = 1
  spec : ∀ {m : ℕ} (S : Matrix (Fin m) (Fin m) ℝ), S.IsSymm →
    S = vecs S * Matrix.diagonal (vals S) * (vecs S)ᵀ
  mono : ∀ {m : ℕ} (S : Matrix (Fin m) (Fin m) ℝ), S.IsSymm → Monotone (vals S)

/-- `jnp.linalg.eigh` replaces its argument by the mean of it and its transpose
(`symmetrize_input=True`, the default; /repo/jrystal/pseudopotential/nloc.py:110). -/
noncomputable def symmetrize {m : ℕ} (D : Matrix (Fin m) (Fin m) ℝ) : Matrix (Fin m) (Fin m) ℝ :=
  (1 / 2 : ℝ) • (D + Dᵀ)

/-- `jnp.sqrt(x + 0.j)` for real `x` (/repo/jrystal/pseudopotential/nloc.py:111): the principal root. -/
noncomputable def csqrt (x : ℝ) : ℂ :=
  letI := Classical.propDecidable
  if 0 ≤ x then (Real.sqrt x : ℂ) else Complex.I * (Real.sqrt (-x) : ℂ)

/-- The per-atom arrays of the nonlocal part: angular momenta, D matrix and the transformed projectors
`beta_gk` of shape `kpt beta x y z` (/repo/jrystal/pseudopotential/nloc.py:43-54). -/
structure NlSpecies (nk : ℕ) (n : Fin 3 → ℕ) where
  nbeta : ℕ
  ang : Fin nbeta → ℕ
  dmat : Matrix (Fin nbeta) (Fin nbeta) ℝ
  beta : Fin nk → Fin nbeta → Idx n → ℝ

/-- `l_max` (/repo/jrystal/pseudopotential/nloc.py:99): maximum over all atoms and projectors. -/
def nlLMax {na nk : ℕ} {n : Fin 3 → ℕ} (sp : Fin na → NlSpecies nk n) : ℕ :=
  Finset.univ.sup fun a => Finset.univ.sup (sp a).ang

/-- `_get_psi` (/repo/jrystal/pseudopotential/nloc.py:102-131) for one atom, shape `kpt beta m x y z`:
`d_matrix_sqrt[b1, b2] = U[b1, b2] sqrt(λ[b2])` is contracted over `b2` with the projectors, then
multiplied with the structure factor, `1j ** l[b1]` and 4π. -/
noncomputable def nlPsi (eigh : Eigh) (sph : SphHarm) {nk : ℕ} {n : Fin 3 → ℕ} (sp : NlSpecies nk n)
    (pos : Fin 3 → ℝ) (g : Idx n → Fin 3 → ℝ) (kpts : Fin nk → Fin 3 → ℝ)
    (k : Fin nk) (b1 : Fin sp.nbeta) (m : ℕ) (x : Idx n) : ℂ :=
  let lam := eigh.vals (symmetrize sp.dmat)
  let U := eigh.vecs (symmetrize sp.dmat)
  let out : ℂ := ∑ b2, ((U b1 b2 : ℝ) : ℂ) * csqrt (lam b2) *
    (sphericalRow sph (sp.ang b2) m (fun d => kpts k d + g x d) : ℂ) * (sp.beta k b2 x : ℂ)
  out * Complex.exp (-(Complex.I * ((∑ d, (kpts k d + g x d) * pos d : ℝ) : ℂ))) *
    Complex.I ^ sp.ang b1 * 4 * (Real.pi : ℂ)

/-- Result of `potential_nonlocal_psi_reciprocal` with `concat=True`
(/repo/jrystal/pseudopotential/nloc.py:43-140): the arrays of all atoms concatenated along the projector
axis, so that axis is indexed by atom and projector; the axis `m` has length `2 * l_max + 1`. -/
noncomputable def nlPsiAll (eigh : Eigh) (sph : SphHarm) {na nk : ℕ} {n : Fin 3 → ℕ}
    (sp : Fin na → NlSpecies nk n) (pos : Fin na → Fin 3 → ℝ) (g : Idx n → Fin 3 → ℝ)
    (kpts : Fin nk → Fin 3 → ℝ) :
    Fin nk → (Σ a, Fin (sp a).nbeta) → Fin (2 * nlLMax sp + 1) → Idx n → ℂ :=
  fun k ab m x => nlPsi eigh sph (sp ab.1) (pos ab.1) g kpts k ab.2 m x

/-- `hamiltonian_nonlocal` (/repo/jrystal/pseudopotential/nloc.py:143-158). -/
noncomputable def hamiltonianNonlocal {ns nk nb M : ℕ} {ι : Type} [Fintype ι] {n : Fin 3 → ℕ}
    (c : Coef ns nk nb n) (psi : Fin nk → ι → Fin M → Idx n → ℂ) (vol : ℝ) :
    Fin ns → Fin nk → Fin nb → Fin nb → ℂ :=
  let f : Fin ns → Fin nk → Fin nb → ι → Fin M → ℂ := fun s k b β φ => ∑ x, c s k b x * psi k β φ x
  fun s k i j => (∑ β, ∑ φ, conj (f s k i β φ) * f s k j β φ) / (vol : ℂ)

/-- `energy_nonlocal` (/repo/jrystal/pseudopotential/nloc.py:217-227); without an occupation the product
of an array and `None` raises. -/
noncomputable def energyNonlocal {ns nk nb M : ℕ} {ι : Type} [Fintype ι] {n : Fin 3 → ℕ}
    (c : Coef ns nk nb n) (psi : Fin nk → ι → Fin M → Idx n → ℂ) (vol : ℝ)
    (occ : Option (Occ ns nk nb)) : Except PyErr ℝ :=
  match occ with
  | none => .error .typeError
  | some o => .ok (∑ s, ∑ k, ∑ b, hamiltonianNonlocal c psi vol s k b b * (o s k b : ℂ)).re

/-- `CubicSpline(x, y)` (SciPy and interpax): number of knots, knots, values, evaluation point
(/repo/jrystal/pseudopotential/local.py:77-97). -/
abbrev Spline := ℕ → Samples → Samples → ℝ → ℝ

/-- Per-atom arguments of `potential_local_reciprocal` (/repo/jrystal/pseudopotential/local.py:32-40). -/
structure LocalAtom where
  pos : Fin 3 → ℝ
  nr : ℕ
  r : Samples
  v : Samples
  z : ℝ

/-- `g_radius` (/repo/jrystal/pseudopotential/local.py:71) and its maximum over the grid
(/repo/jrystal/pseudopotential/local.py:84). -/
noncomputable def gRadius {n : Fin 3 → ℕ} (g : Idx n → Fin 3 → ℝ) (k : Idx n) : ℝ :=
  Real.sqrt (∑ d, g k d ^ 2)

/-- `np.max(g_radius)` (/repo/jrystal/pseudopotential/local.py:84); radii are not negative, so the maximum
may start from 0. -/
noncomputable def maxRadius {ι : Type} [Fintype ι] (rad : ι → ℝ) : ℝ :=
  Finset.univ.fold max 0 rad

/-- `g` of the branch "sbt" (/repo/jrystal/pseudopotential/local.py:77-88). -/
noncomputable def localSbt (jn : SphBessel) (cs : Spline) {n : Fin 3 → ℕ} (g : Idx n → Fin 3 → ℝ)
    (a : LocalAtom) (k : Idx n) : ℝ :=
  let kmax := maxRadius (gRadius g)
  let v : Samples := fun i => a.v i + a.z / a.r i
  cs (2 * a.nr) (gGrid a.nr kmax) (sbtNumerical jn a.nr a.r kmax 0 v (deltaR a.nr a.r)) (gRadius g k) *
    (4 * Real.pi)

/-- `g` of the branch "fft" (/repo/jrystal/pseudopotential/local.py:90-97). -/
noncomputable def localFft (cs : Spline) {n : Fin 3 → ℕ} (g : Idx n → Fin 3 → ℝ) (a : LocalAtom)
    (k : Idx n) : ℂ :=
  let rad : Idx n → ℝ := fun j => Real.sqrt (∑ d, g2rVectorGrid g none j d ^ 2)
  fftn (fun j => (cs a.nr a.r (fun i => a.v i + a.z / a.r i) (rad j) : ℂ)) k / (gridCount n : ℂ) * 4 *
    (Real.pi : ℂ)

/-- The branch chosen by `fourier_transform_method` (/repo/jrystal/pseudopotential/local.py:77-103). -/
noncomputable def localForm (jn : SphBessel) (cs : Spline) {n : Fin 3 → ℕ} (g : Idx n → Fin 3 → ℝ)
    (method : String) : Except PyErr (LocalAtom → Idx n → ℂ) :=
  if method = "sbt" then .ok fun a k => (localSbt jn cs g a k : ℂ)
  else if method = "fft" then .ok fun a k => localFft cs g a k
  else .error .valueError

/-- `potential_local_reciprocal` (/repo/jrystal/pseudopotential/local.py:32-131).  `jnp.stack` of an empty
list raises. -/
noncomputable def localReciprocal (jn : SphBessel) (cs : Spline) {na : ℕ} {n : Fin 3 → ℕ}
    (atoms : Fin na → LocalAtom) (g : Idx n → Fin 3 → ℝ) (vol : ℝ) (method : String) :
    Except PyErr (Idx n → ℂ) :=
  match localForm jn cs g method with
  | .error e => .error e
  | .ok form =>
    if na = 0 then .error .valueError else
    let rad : Idx n → ℝ := fun k => if isOrigin k then 1e10 else gRadius g k
    let vg : Fin na → Idx n → ℂ := fun a k =>
      if isOrigin k then 0 else form (atoms a) k - (((atoms a).z / rad k ^ 2 * (4 * Real.pi) : ℝ) : ℂ)
    .ok fun k => (∑ a, vg a k *
      Complex.exp (-(Complex.I * ((∑ d, g k d * (atoms a).pos d : ℝ) : ℂ)))) * (gridCount n : ℂ) / (vol : ℂ)

/-- `hamiltonian_local` (/repo/jrystal/pseudopotential/local.py:134-161); argument `w` is the wave
function on the real-space grid. -/
noncomputable def hamiltonianLocal {ns nk nb : ℕ} {n : Fin 3 → ℕ} (w : Coef ns nk nb n) (v : Idx n → ℂ)
    (vol : ℝ) : Except PyErr (Σ K : ℕ, Fin ns → Fin K → Fin nb → Fin nb → ℂ) :=
  expectationFull w (.grid (ifftn v)) vol none "real"

/-- `energy_local` (/repo/jrystal/pseudopotential/local.py:164-187).  The potential has shape `x y z` and
the density `spin x y z`; the number of grid points is taken from the potential. -/
noncomputable def energyLocal {ns : ℕ} {n : Fin 3 → ℕ} (rho : Fin ns → Idx n → ℂ) (v : Idx n → ℂ)
    (vol : ℝ) : Except PyErr ℝ :=
  reciprocalBraket (fun _ : Fin 1 => v) rho vol

/-- `_beta_sbt_single_atom` (/repo/jrystal/pseudopotential/beta.py:26-80): the two assertions, the removal
of a first mesh point at zero, the numerical transform of every projector with its angular momentum and
the spline through its values, evaluated at `|k + G|`. -/
noncomputable def betaSbtSingle (jn : SphBessel) (cs : Spline) {nk : ℕ} {n : Fin 3 → ℕ} (nr nrow ncol : ℕ)
    (r : Samples) (beta : ℕ → Samples) (ang : List ℤ) (g : Idx n → Fin 3 → ℝ) (kpts : Fin nk → Fin 3 → ℝ) :
    Except PyErr (Fin nk → Fin nrow → Idx n → ℝ) :=
  if ang.length ≠ nrow then .error .assertionError else
  if nr ≠ ncol then .error .assertionError else
  if nr = 0 then .error .indexError else
  let drop : ℕ := if r 0 = 0 then 1 else 0
  let r' : Samples := fun i => r (i + drop)
  let b' : ℕ → Samples := fun b i => beta b (i + drop)
  let rad : Fin nk × Idx n → ℝ := fun p => Real.sqrt (∑ d, (kpts p.1 d + g p.2 d) ^ 2)
  let kmax := maxRadius rad
  .ok fun k b x => cs (2 * (nr - drop)) (gGrid (nr - drop) kmax)
    (sbtNumerical jn (nr - drop) r' kmax (ang.getD b 0) (b' b) (deltaR (nr - drop) r')) (rad (k, x))

/-- `v_s` of `hamiltonian_matrix` and `hamiltonian_trace`
(/repo/jrystal/pseudopotential/nloc.py:195-211, 255-267): Hartree plus exchange-correlation; the latter
has a spin axis with `kohn_sham` and none without. -/
noncomputable def ncOperator (lib : XcLib) (xt : String) (ks : Bool) {d : ℕ} {n : Fin 3 → ℕ}
    (dens : Fin d → Idx n → ℝ) (g : Idx n → Fin 3 → ℝ) : Operator n :=
  if ks then .lead d fun s j => hartreeRealSpace dens g ks j + vxcDensity lib xt g dens s j
  else .grid fun j => hartreeRealSpace dens g ks j + (excDensity lib xt g dens j : ℂ)

/-- The exchange-correlation potential alone (/repo/jrystal/pseudopotential/nloc.py:265-267). -/
noncomputable def ncXcOperator (lib : XcLib) (xt : String) (ks : Bool) {d : ℕ} {n : Fin 3 → ℕ}
    (dens : Fin d → Idx n → ℝ) (g : Idx n → Fin 3 → ℝ) : Operator n :=
  if ks then .lead d fun s j => vxcDensity lib xt g dens s j
  else .grid fun j => (excDensity lib xt g dens j : ℂ)

/-- `hamiltonian_matrix` (/repo/jrystal/pseudopotential/nloc.py:161-214); the k axis of the sum is the
broadcast of the k axes of its terms. -/
noncomputable def ncHamiltonianMatrix (lib : XcLib) (xt : String) (ks : Bool) {ns nk nb d M : ℕ}
    {ι : Type} [Fintype ι] {n : Fin 3 → ℕ} (c : Coef ns nk nb n) (dens : Fin d → Idx n → ℝ)
    (vloc : Idx n → ℂ) (psi : Fin nk → ι → Fin M → Idx n → ℂ) (g : Idx n → Fin 3 → ℝ)
    (kpts : Fin nk → Fin 3 → ℝ) (vol : ℝ) :
    Except PyErr (Σ K : ℕ, Fin ns → Fin K → Fin nb → Fin nb → ℂ) :=
  let w := waveGrid c vol
  let nloc := hamiltonianNonlocal c psi vol
  match hamiltonianLocal w vloc vol with
  | .error e => .error e
  | .ok ⟨K₁, loc⟩ =>
    match expectationFull c (.lead nk fun k x => (kineticOperator g kpts k x : ℂ)) vol none "kinetic" with
    | .error e => .error e
    | .ok ⟨K₂, kin⟩ =>
      match expectationFull w (ncOperator lib xt ks dens g) vol none "real" with
      | .error e => .error e
      | .ok ⟨K₃, hs⟩ =>
        match bcLen nk K₁ with
        | .error e => .error e
        | .ok L₁ =>
          match bcLen L₁ K₃ with
          | .error e => .error e
          | .ok L₂ =>
            match bcLen L₂ K₂ with
            | .error e => .error e
            | .ok K => .ok ⟨K, fun s k i j =>
                (match bcIdx nk k with | some q => nloc s q i j | none => 0) +
                (match bcIdx K₁ k with | some q => loc s q i j | none => 0) +
                (match bcIdx K₃ k with | some q => hs s q i j | none => 0) +
                (match bcIdx K₂ k with | some q => kin s q i j | none => 0)⟩

/-- `hamiltonian_trace` (/repo/jrystal/pseudopotential/nloc.py:230-279): the scalar whose complex Hessian
or sum is used by the band-structure calculation. -/
noncomputable def ncHamiltonianTrace (lib : XcLib) (xt : String) (ks : Bool) {ns nk nb d M : ℕ}
    {ι : Type} [Fintype ι] {n : Fin 3 → ℕ} (c : Coef ns nk nb n) (dens : Fin d → Idx n → ℝ)
    (vloc : Idx n → ℂ) (psi : Fin nk → ι → Fin M → Idx n → ℂ) (g : Idx n → Fin 3 → ℝ)
    (kpts : Fin nk → Fin 3 → ℝ) (vol : ℝ) : Except PyErr ℝ :=
  let w := waveGrid c vol
  let ones : Occ ns nk nb := fun _ _ _ => 1
  match energyNonlocal c psi vol (some ones) with
  | .error e => .error e
  | .ok nloc =>
    match energyLocal (waveToDensityReciprocal w ones) vloc vol with
    | .error e => .error e
    | .ok loc =>
      match expectationDiag w (.grid (hartreeRealSpace dens g ks)) vol none "real" with
      | .error e => .error e
      | .ok ⟨K₁, har⟩ =>
        match expectationDiag w (ncXcOperator lib xt ks dens g) vol none "real" with
        | .error e => .error e
        | .ok ⟨K₂, xc⟩ =>
          match expectationDiag c (.lead nk fun k x => (kineticOperator g kpts k x : ℂ)) vol none "kinetic" with
          | .error e => .error e
          | .ok ⟨K₃, kin⟩ =>
            match bcLen K₁ K₂ with
            | .error e => .error e
            | .ok K =>
              let hs : ℂ := ∑ s : Fin ns, ∑ k : Fin K, ∑ b : Fin nb,
                ((match bcIdx K₁ k with | some q => har s q b | none => 0) +
                  (match bcIdx K₂ k with | some q => xc s q b | none => 0))
              let t : ℂ := ∑ s : Fin ns, ∑ k : Fin K₃, ∑ b : Fin nb, kin s k b
              .ok ((nloc : ℂ) + (loc : ℂ) + hs + t).re

end Jrystal
