# Formal model of jrystal in Lean 4 – design

## 1. Layout

    lean/Verif/Model/*.lean   executable / mathematical model, one file per group of source files;
                              every definition cites the file and lines in /repo it models
    lean/Verif/Spec/*.lean    small specifications that do not mention the model's helpers
    lean/Verif/Lemmas/*.lean  helper lemmas
    lean/Verif/Props/*.lean   the property theorems, with `example`s showing their hypotheses are met
    properties.jsonl          the English properties (generated from tools/props_src.py)
    MANIFEST.json             property -> theorem names and status
    seeded/LOG.jsonl          mutation log (wrong programs tried against the theorems)

## 2. Modelling conventions

* **Numbers.** Floating point arithmetic is idealised: real arrays are over `ℝ` (or an arbitrary
  linearly ordered field `K`, so that the definition evaluates on `ℚ`), complex arrays over `ℂ`.
  Rounding, overflow and dtype selection are not modelled.  Where the program relies on IEEE
  special values (division by zero in the occupation projector, `nan` in `safe_real`, the
  `legendre_kernel_trick` guard) an explicit extended number type carries `+inf`, `-inf`, `nan`.
* **Arrays.** An array of shape `(n₁,…,n_d)` is a function from its index type.  The FFT grid of
  sizes `n : Fin 3 → ℕ` has index type `(i : Fin 3) → Fin (n i)`.  Rank and shape errors, which
  typed indices cannot express, are handled by a separate shape interpreter (`Model/Shape.lean`)
  that returns `Except` values for einsum patterns, broadcasting and assertions.
* **Python integers** are `ℤ` with floor division; slices follow Python's rules for negative and
  out-of-range bounds.  Exceptions are values (`Except`/`Option`).
* **JAX transformations.** `jit`, `stop_gradient` and `device_put` are identities on values.
  `vmap` is mapping over an index.  Reverse-mode derivatives of complex functions
  (`complex_hessian`) are modelled by JAX's documented convention in terms of the real Fréchet
  derivative.  The derivative of the occupation projector is modelled operation by operation (C121): `sort`
  permutes the changes, `maximum` and `minimum` share a tie equally, `select` follows the branch taken,
  comparisons and `argmax` have none.
* **External functions.** `jnp.linalg.inv` is the matrix inverse (of an invertible matrix),
  `fftn/ifftn` the explicit finite sums, `qr` a parameter with the contract "reduced Q factor has
  orthonormal columns", `eigh` a parameter with the contract "A = V diag(λ) Vᵀ, V orthogonal, λ
  ascending", `erfc`, spherical Bessel functions, libxc functionals, cubic splines and
  `monkhorst_pack`/`bandpath` of ASE are parameters or are written out from their documented
  definition.  Each such contract is a hypothesis of the theorem that uses it.

## 3. Trusted base

Lean 4.33.0 kernel; the axioms `propext`, `Classical.choice`, `Quot.sound`, and no others
(`AXIOMS.md`, written by `tools/axioms.py` with `#print axioms`, lists those of each theorem in
MANIFEST.json; there is no `sorry` and no `native_decide`/`bv_decide`); Mathlib definitions used in
statements (ℝ, ℂ, `Real.log`, `Complex.exp`, `Matrix`, `fderiv`, finite sums); the reading of the
Python source recorded in the comments of the model; the contracts of external functions listed in
section 2.

Assumptions that appear as hypotheses, and are not checked against the external code:

* `Spec.Triangular` – the QR routine returns factors with orthonormal columns and `A = Q R` with `R`
  upper triangular; used for "every orthonormal set can be reached".
* `Spec.ContinuousXc` – the exchange-correlation library is continuous on non-negative densities.
* `Spec.UnpolarisedLimit` – its spin-polarised functional agrees with the unpolarised one for equal
  spin densities.
* `Spec.NearOptimizer`, `Spec.NearBandOptimizer` – every call of the optimiser ends within ε of the
  infimum of the function it is given.  Theorems about converged results carry this hypothesis;
  theorems about every run (conservation laws, symmetry, bounds) do not.
* `Spec.KeepsShape` – an optimiser step returns parameters of the same kind as it was given.
* Spherical Bessel functions, `erfc`, `eigvalsh` – the defining equations, stated in the theorem.
* `Spec.ChemicalSymbols` – element symbols are an upper-case letter followed by lower-case letters and
  differ from each other; proved for the table of the package, assumed for that of ASE.
* `jnp.save` opens the file for writing, which empties it, and then writes the array (C115).
* `np.savez` opens the file for writing, which empties it, and then writes bytes at its own position; `os.makedirs`
  raises when the directory exists; numpy reads the file of a list as that list (`Spec.NpzReads`), and where a theorem
  says so, nothing else as that list (`Spec.NpzChecks`, the checksums of the archive) (C116).

The models are over the reals.  What floating point adds (rounding, underflow of `exp(-x²)`, overflow
of large exponents, `nan` from a derivative at the origin) is outside, except where section 2 says that
an extended number type is used.

Which functions of the code are modelled, and by which definitions, is listed in section 6, with the
functions that are not.  Also not modelled: XLA compilation, device placement and real multi-device
execution (only the partition rule and its mathematical consequence are modelled), random number
generation (draws are universally quantified instead), optax optimisers (an arbitrary `update`
function), the concrete syntax of XML, YAML and npz files (they are maps; the UPF header text is
modelled), logging, tqdm, plotting.

## 4. Plan per property

| id | modelled | proof |
|----|----------|-------|
| C01 | table `CUFFT_FACTORS`, `fft_factor` (filter, first element, error value), `proper_grid_size` | table = 7-smooth numbers ≤ 2048 by kernel `decide` over the table, lifted to ∀ n; the documented 11/13 factors are refuted by a witness, so the documented claim is `_partial` |
| C02 | `fftfreq`, `_vector_grid`, `g_vectors`, `r_vectors`, reciprocal vectors | matrix algebra + signed frequency ≡ index mod n |
| C03 | `spherical_mask` | order reasoning, negation of signed frequencies |
| C04 | `cubic_mask` with Python slice semantics | omega; sizes 1 and 2 treated explicitly (size 2 violates the claim) |
| C05 | `_half_frequency_ranges/shape/pad_to` as block writes | index arithmetic |
| C06 | `estimate_max_cutoff_energy` as finite max | order reasoning |
| C07 | least squares `inv(aᵀa)aᵀb` | matrix algebra; `g2cell` returns the transpose: negation + `_partial` for symmetric cells |
| C08 | ASE's Monkhorst–Pack formula, `k_vectors` | arithmetic in a field, injectivity through the invertible cell |
| C09 | `translation_vectors` | arithmetic; even n violates the symmetry claim |
| C10 | boolean-mask scatter by row-major rank of True positions | bijection `Fin count ≃ {True positions}` |
| C11–C16 | 3D DFT, `expand_coefficient`, `coeff` (QR contract), `wave_grid`, densities, brakets | character orthogonality, Parseval, finite sums |
| C17 | `proj` literally: sort, cumsum, extended division, argmax, select, clip | breakpoint lemma (first admissible index gives the multiplier), KKT ⇒ optimality; s = 0 and s = n refuted by witnesses |
| C18–C21 | occupation functions, Python slices, dispatch, driver arithmetic | finite sums; defects by witness |
| C22 | entropy | convexity of x log(x+ε) |
| C23–C26, C30 | potentials and energies on the grid | finite sums over ℂ, Parseval, positivity |
| C27, C56 | `_lda`, `_gga`, `xc_energy`, `vxc_lda` for an arbitrary functional | algebra, `HasDerivAt`; polarised claims refuted by witness |
| C28 | `sigma_r_fn` | Cauchy–Schwarz |
| C58 | `xc_density` incl. `vxc_gga_recp` with its actual FFT axes | shift theorem of the DFT; GGA potential refuted by witness |
| C29 | Ewald sum with arbitrary `erfc` | reindexing of finite sums |
| C31–C33 | `expectation`, `kinetic_operator`, trace, `complex_hessian` via real Fréchet derivative | calculus of quadratic forms, star-algebra |
| C34, C35 | nonlocal projectors with `eigh` contract, local potential with arbitrary radial transform | matrix algebra; wrong for general D (witness from a shipped UPF) |
| C36–C38 | state machines / loop / schedule | induction over call histories, real powers |
| C39 | reshape in C and F order | index arithmetic |
| C40, C41, C52 | maps, file-system state, dispatch | case analysis; defects by witness |
| C42, C54 | lists, nested maps, task schedules as permutations | induction |
| C43, C44 | linear transpose, batching, partition specs | finite sums; sharding claim fails for specs reaching the FFT axes (witness) |
| C45 | extended reals | case analysis |
| C46, C47 | matrices | matrix algebra; transposition defect by witness |
| C48, C49 | trigonometric coordinates, Simpson weights loop, Riemann sums | real analysis, induction on the loop |
| C50 | lists of lines / strings | induction on lists; loop-variable defect by witness |
| C51 | shape interpreter | the documented shapes are shown to fail for all sizes |
| C53 | tables | `decide` over the whole table, rational arithmetic |
| C57 | `create_from_symbols` | matrix algebra; the documented unit is refuted |
| C55 | gradient | `HasFDerivAt`/`HasDerivAt` of the explicit density |
| C59 | parameter initialisation, partition specs, device mesh | index arithmetic on shard blocks, divisibility |
| C60 | real and complex spherical harmonics as a unitary change of basis | matrix algebra |
| C61–C65 | nonlocal and local pseudopotentials, radial transforms as parameters | phase algebra, Hermitian conjugates of finite sums, witnesses |
| C66–C69 | both ground-state drivers from the initial parameters to the log and the return value; the optimiser is an arbitrary function that keeps shapes | induction over the loop, composition of C11–C26 |
| C70 | the norm-conserving band driver with its reshape | index arithmetic |
| C71 | closures of both band drivers, `eigvalsh` by contract | compression of the plane-wave matrix and the separation theorem for its eigenvalues (a dimension argument) |
| C72 | objective of both band drivers | trace of the compressed matrix; the minimum is attained at eigenvectors |
| C73–C75 | `pyNumSBT` (meshes, tables, `run`, `run_int`), `sbt`, `batch_sbt`; the discrete Fourier transforms by their sums | recursion of the Gamma function for the tables, correlation theorem and Parseval identity of the discrete Fourier transform |
| C76–C78 | the whole all-electron calculation `calc` from atoms to report (`Model/Run.lean`), the optimiser as a function of the minimised function | invariance of the objective for every parameter set, then induction over the loop; rotations by `R Rᵀ = 1` through reciprocal vectors, masks, translation counts, energies, gradients |
| C79 | the same, with sizes, masks, repulsion and device count checks | composition of C01, C09, C46, C67 |
| C80 | the energies, masks, k mesh and band energies as above; `Spec.Reversible` says which masks contain −G with every G | conjugation and the permutation of opposite indices; similarity of the Hamiltonians at k and −k; C71 turns equal spectra into equal reports |
| C81 | `total_energy` with one or two channels | symmetry of the gradient invariants and of each functional part; the summed density and C27 for the restricted case |
| C82 | the nonlocal orbitals with abstract harmonics that satisfy conjugation and addition theorem | C34's closed form; the sum over m of two real harmonics is a Legendre polynomial of the angle |
| C83 | `runAtomsNC`: configuration, geometry and files to report | every reader of the geometry is invariant (C82 for the nonlocal part); the loop depends on the energies only |
| C84 | the same | structure factors of the local and nonlocal part have the period of the lattice; the report depends on the repulsion only through the total |
| C85 | the same | the lists of the pseudopotential are permuted with the atoms; all sums over atoms are invariant |
| C86 | the same, `Spec.AdmissibleRunNC` | each stage succeeds under its own condition; the density and energies come from C67, C68 |
| C87 | `totalEnergy`, `hamiltonianMatrix`, `hamiltonianMatrixBasis`, already modelled | termwise derivative along a curve; at a minimum the curve exp(tX)C for all skew X makes Hamiltonian and density matrix commute; existence by compactness of the orthonormal bands |
| C88 | `pwCoeff`, `occupation`, `gsState`, `gsFree`, `gsFreeNC`, already modelled; the QR contract is completed by `w = q R` with `R` upper triangular, which the Gram–Schmidt procedure meets | a triangular matrix between orthonormal columns is a diagonal of phases, and energies do not see phases; idempotent: Carpenter's theorem (plane rotations); simplex: an admissible vector shifted by a constant projects back |
| C89 | whole runs (`runAtoms`, `runAtomsNC`) with `Spec.NearOptimizer` as the assumption on optax and `Spec.ContinuousXc` on the functionals; `nearOptimizer` shows that such optimisers exist. Physical states form a compact set, so the infimum exists; left out: `gamma` with several k points, where the entropy takes logarithms of negative numbers (NaN in floating point) | continuity of every energy term in the state, C88 (states that no parameters describe are limits of described ones), invariant of the loop: after the first step every iterate is within the tolerance |
| C90 | the whole all-electron band run (`bandAtoms`, `bandRun`), with ase's `bandpath`, `eigvalsh` and optax as parameters; `Spec.AdmissibleBand` lists what can be carried out, `Spec.KohnShamPotential` is the potential of a density, `Spec.HasCoordinates` the meaning of fractional k points | C79 (the ground-state run), C71 (bounds at one k point), inversion of the chain of calls for what a saved file presupposes |
| C91 | as C90 with `Spec.NearBandOptimizer` and `Spec.NearOptimizer` as assumptions on optax; `nearBandOptimizer` shows that such optimisers exist | C89 and C71: a trace within delta of the least trace has each eigenvalue within delta |
| C92 | as C90, with the changes of description of C78 (`Spec.rotated`, `Spec.reordered`, `Spec.withGhost`, `Spec.moved`) | C78 gives the same ground-state density; the trace of the band Hamiltonian is the same for both descriptions (`hamiltonianTrace_congr`), hence every step of the optimisation and every eigenvalue |
| C93 | `Model/BandRunNC.lean`: the whole norm-conserving band driver, from the configuration and the files to the saved array (`bandRunNC`); `Spec.AdmissibleBandNC`, `Spec.KohnShamPotentialNC`, `Spec.nonlocalMatrix` | C86 and C89 for the density; C71 and C72 channel by channel for the rows; `nonlocal_actual` and `nonlocal_partial` on single plane waves for the nonlocal matrix |
| C94 | the model of C93 | what the driver uses of the geometry (`bandLoopNC_congr`): the ground-state density of C83 to C85, the local potential, the nonlocal matrix on each row of the projectors, the kinetic energies and the potentials |
| C95 | `Model/NuclearRepulsion.lean` over the Ewald model of C29, with `Spec.erfc` the integral; `Spec.ewaldSeries` is the energy with complete sums, `Spec.splittingError` the effect of the regularised distances | Poisson summation for Gaussians on a lattice (`Lemmas/Poisson.lean`, `Lemmas/GaussLattice.lean`), integrated over the width between the two splitting parameters; boxes of frequencies exhaust the lattice |
| C96 | the four whole-run models of C79, C86, C90 and C93 | the settings enter one number that is added after the optimisation; C95 for its size |
| C97 | the ground-state runs of C79 and C86; `Spec.Enlarges` says when one configuration allows at least the states of another | the state found by the first run is embedded in the second: coefficients extended by zero outside the old mask, orthonormal bands added with occupation zero, a single channel split into two halves; every energy term is unchanged, and C89 says the second run is within the tolerance of the best |
| C98 | the ground-state runs of C79 and C86 with the schedule of C38; `Spec.StopsAt` says at which step a loop ends, `Spec.ReportAt` and `Spec.EnergyWithin` what its report should be | the loop of the drivers refines the loop of C37 (`gsLoop_refines`), so that its last step is known; C89 at every step; convexity bounds for the entropy |
| C99 | energies, entropy and Hamiltonians of the model; `Spec.FermiLevel` says when occupations and band energies belong together, `Spec.GroundWithin 0` is a state of least free energy | derivative of the energy along occupations (chain rule through density and potentials), one-sided derivatives at the minimum; rotation of a band by a Householder reflection for the aufbau rule; compactness for existence |
| C100 | the ground-state runs of C79 and C86 with any optimiser; `Spec.ReportNear` compares a report with exact ground states | histories of C98; compactness of the set of physical states and continuity of the energy make states of nearly least free energy near to states of least free energy |
| C101 | the energy terms of the norm-conserving driver and `hamiltonian_matrix` of nloc.py; `Spec.planeWaveHamiltonian` and `Spec.projectorMatrix` are the textbook Hamiltonian | derivatives of each term along curves of coefficients; stationarity under unitary curves, as for C87; the Hermitian part of the matrix is a compression of the plane-wave matrix |
| C102 | the energies of C99 and C101 as quadratic forms of each band plus functions of the density; `Spec.IsSpectrum` | a reflection turns an empty band into any orthogonal wave and an occupied band into any mixture of equally occupied ones, so first-order changes give aufbau; with the Kohn-Sham equations a dimension count gives the lowest eigenvalues |
| C103 | the wrapper object, its call, the choice between inlined code and a custom call, and the decoding of shardings (`Model/SpmdCall.lean`); JAX's tracing is taken as given | cases over the contexts; the value of the custom call is that of C44 |
| C104 | `main` with its files and options, `set_env_params` as a change of the state of the process (`Model/Main.lean`) | cases; the settings after a call as one closed form |
| C105 | `_sbt_hankel` over scipy's transform as a parameter (`Model/SbtHankel.lean`) | algebra of the logarithmic mesh; J_{l+1/2} in terms of j_l under the integral |
| C106 | the band drivers of C65 and C77 run twice, and for a sequence of accuracies | Weyl's inequality for the ordered spectra (`Lemmas/Weyl.lean`); compactness of the feasible states and continuity of the potential; a concrete list of k points for the dependence on the path |
| C107 | the ground-state drivers run for two arrangements of the atoms; the external energy as a function of the positions | the density of a physical state has bounded Fourier coefficients and the phases are Lipschitz; comparison of two minima; the envelope argument at a point of differentiability (Rademacher in one dimension) |
| C108 | the ground-state drivers run with two temperatures | exchange of the two minimisers in the two minimum conditions; an infimum of affine functions is concave |
| C109 | the energies of C20-C28 and the ground-state driver for two cells of one crystal | bijection between pairs (plane wave, folded k point) and plane waves of the larger cell; the transform of a periodic array lives on the multiples of q; then the minimum property of the larger run |
| C110 | the band-structure driver of C90-C91 at two points of its path | eigenvalues of principal submatrices (separation theorem); only G + k enters the Hamiltonian; traces for a complete set of bands |
| C111 | the energies of C20-C28, the selection of plane waves and the ground-state driver as functions of the geometry | joint continuity of the energy in geometry and state, uniform on the compact set of states; the selection is locally constant off the cutoff, the number of translations off its steps; at a step the Ewald sums differ by positive terms |
| C112 | the same energies and the driver for a scaled cell | powers of the volume and of the reciprocal vectors; the scaled state is a competitor in the scaled calculation |
| C113 | the same energies, masks, Ewald sum and driver for permuted axes and for atoms moved by a grid vector | a bijection of grid points and k points that keeps the Fourier kernel; the moved state is a competitor in the other calculation |
| C114 | the driver with an optimiser that adds noise to parameters of zero gradient | induction over the trajectory; refuted for noise |
| C115 | the working directory as a map from names to arrays, calls as lists of file operations | induction over histories and schedules; names decoded uniquely; refuted for equal elements and for a kill during the write |
| C116 | each save as a list of file operations down to single bytes, several processes under a schedule | invariant over schedules (log of the writes since the file was opened last); the races by explicit schedules |
| C117 | the four drivers with the functional as a parameter | congruence of every energy, Hamiltonian and update in the values of the functional; permutation of a list sum; the test for "gga" on the joined string by infixes |
| C118 | the first call of `update` (`firstUpdate`) with what the optimiser raises as a parameter | case analysis on the set-up of C79 and C86; refuted for optimisers that need the parameters or the value |
| C119 | the driver from the configuration to its return (Model/Run, Model/RunNC) with all its exceptions | inversion of the run in one direction, the loop invariant in the other; refuted for a single plane wave and for a spin that the bands cannot hold |
| C120 | both band-structure drivers from the configuration to the saved file (Model/BandRun, Model/BandRunNC) with all their exceptions | inversion of the run in one direction, evaluation in the other; refuted when there are fewer plane waves than bands |
| C121 | the derivative of `proj` and `simplex_projector` by the differentiation rule of each operation (Model/ProjGrad) | the projector clips a common shift, so it is affine around every input without a kink; at a kink it has no derivative; Rademacher's theorem gives almost every input; refuted at a kink |
| C122 | the gradient of an energy through `simplexProjectorJvp` at any parameters and at those of `simplex_projector_init` | the derivative of the projector subtracts the mean over the fractional entries, so the gradient vanishes exactly if their energies agree; first-order optimality of convex functions; refuted with an empty band |
| C123 | the objective and the reported energies of a k point in both band drivers, as functions of the parameters | the objective is the trace of S^-1 W* F W, which is differentiated; the residual of the orbitals is half the gradient times the triangular factor; Weyl's bound for a matrix changed by the residual; eigenvalues in an invariant subspace by counting; refuted for the lowest eigenvalues |
| C124 | `total_energy` of `pw.coeff` of the parameters, and the minimised function of both drivers, as functions of the plane-wave parameters | the Q factor of independent columns is unique up to phases, which the energy does not see, and Gram-Schmidt is differentiable, so the gradient exists; curves of orthonormal bands times the triangular factor are curves of parameters, which gives the Kohn-Sham equations; conversely orthonormality makes the derivative of a solution vanish; extremes by compactness |
| C125 | the minimised function of both drivers with `simplex-projector`, as a function of the plane-wave and of the occupation parameters | the derivative of the energy with an occupation is the diagonal element of the Hamiltonian (C99), that of the entropy its slope; the derivative of the projection moves electrons between partly filled bands only (C122), so the gradient vanishes exactly if the sums agree; together with C124 |
| C126 | `total_energy`, the energy of valence electrons and the minimised functions of both drivers, for any number of spin channels; the exchange-correlation energy as a function of the densities | channels and k points are one axis of the parameters, so the argument of C124 carries over; the derivative of the energy along a curve of bands or of occupations is that of the textbook Hamiltonian with the functional derivative of the exchange-correlation energy, which is computed with the chain rule and integration by parts on the grid (Parseval) |
| C127 | `total_energy`, the energy of valence electrons, both drivers as whole calculations, for any number of spin channels | the energy is the sum of C126; along orthonormal curves and along changes of the occupations of one channel its derivative must not be negative at a least state, which gives the equations, the Fermi level and, with reflections of an empty band, the lowest eigenvalues; for whole calculations combined with the limit of C100 |
| C128 | the driver with norm-conserving pseudopotentials as a whole calculation, the radial tables and the projectors as functions of the cell | each part of the energy is a continuous function of cell, positions and state together; the physical states form a compact set, so the energies of all of them change uniformly little, and with them the least one; `k + G` is zero for all cells or for none, which avoids the directions at the origin |
| C129 | `nuclear_repulsion` as a function of the positions, both drivers as whole calculations | the Ewald sum is differentiated term by term, with the derivative of the complementary error function; the electrons by the theorem of Hellmann and Feynman (C107); at a minimum the energy of the fixed ground state lies above the least energies and touches them |
| C130 | `create_pseudopotential`, `potential_local_reciprocal` and `beta_sbt_grid` inside the norm-conserving driver | the lists of the loader are followed into the arrays of the transforms; a separate specification states mesh, Riemann sum and transform for the text of a file |
| C131 | `vxc_gga` with its masks | two functionals that agree where the density has a gradient are compared term by term |
| C132 | the draws of `pw.param_init` as a product of uniform distributions | along the line through a draw in the direction of the unit block the determinant is a characteristic polynomial, so it has finitely many zeros; disintegration of the Haar measure |
| C133 | the drivers' minimised functions with `idempotent` occupations | derivative of the projector onto the columns of a curve of matrices; a zero gradient says the projector commutes with the band energies; its blocks are projectors, whose trace is a whole number |
| C134 | the drivers' minimised functions along steps of gradient descent | the energy does not change when a band is scaled, turned by a phase or shifted by earlier bands (by any band, if equally occupied), so the gradient is perpendicular to these directions; induction over the steps |
| C135 | the band drivers' objective along a run of gradient descent | each step adds the square of the gradient to the Gram matrix of the parameters; energy less a multiple of the logarithm of the Gram determinant falls by step size times squared gradient, and the logarithm grows too slowly to make up for that, so the squares of the gradients have a finite sum; the subspace moves less and less, so no energy can jump between distinct eigenvalues for ever |
| C136 | the band drivers' objective along a run with short steps | the change of the energy in a step is bounded by the squared gradient times step size less a multiple of its square, and the multiple never grows along the run; the limits of C135 are ordered, no lower than the lowest energies and less than the gap above their sum, so they are the lowest ones |
| C137 | the band drivers' objective along a run with any step sizes; the random starting parameters | the gradient is orthogonal to the span of the bands, so the overlap with a lowest state never shrinks in a step and grows by a fixed factor while the lowest reported energy stays above the lowest eigenvalue; the bands stay bounded along the run, so the errors of the lowest energy have a bounded sum; the starts with no overlap form a null set |

Section 5 (disagreements between the code and the properties) and the final per-theorem notes are
kept up to date below as the proofs are done.

## 5. Disagreements found

Each item is a place where the code does not do what the property (documentation, common sense) says;
the theorem named is the machine-checked negation with a concrete or general witness.  The property
itself keeps a `_partial` theorem for what does hold.

| property | what the code does | theorem |
|----------|--------------------|---------|
| C01 | sizes with factors 11 or 13, documented as allowed, are rounded up (11 → 12) | see Props/FftSize |
| C04 | `cubic_mask` of an axis of size 2 keeps the Nyquist frequency | see Props/Mask |
| C07 | `g2cell_vectors` returns the transposed cell | see Props/Cell |
| C08 | `create_grids` rounds the k mesh to an FFT size (11 → 12) | `createGrids_kmesh_rounded` |
| C09 | `translation_vectors` is not symmetric for an even count | see Props/Mesh |
| C17 | `proj` returns values outside the target at `s = 0` / `s = n` | see Props/Proj |
| C19 | `uniform`/`gamma` lose electrons for wrong parity, too few bands, large spin | see Props/Occupation |
| C20 | restricted `idempotent` holds `num_electrons + spin` electrons; `param_init` drops `spin_restricted` | `idempotent_restricted_total` |
| C21 | drivers lose electrons for large spin or hydrogen; the norm-conserving driver returns the wrong number of spin channels | `driver_uniform_truncates`, `driver_hydrogen`, `driverNC_channels` |
| C37 | the reported energy belongs to the previous iterate; `epoch <= 0` leaves it unbound | `optimise_energy_stale`, `optimise_no_epoch` |
| C38 | no annealing for `epoch <= 1`, wrong direction for `smearing > 100` | `temperature_short`, `temperature_hot` |
| C39 | the all-electron band driver fails without parallelism on several devices | `band_all_electrons_serial_fails` |
| C40 | defaults are not merged into a file configuration; the defaults lack `pseudopotential_type` | `getConfig_no_defaults`, `selectPseudopotential_default` |
| C41 | an explicit cache file name raises `UnboundLocalError` | `beta_cache_explicit_fails` |
| C42 | `pre_calc_beta_sbt` raises on a machine with one processor | `preCalcBeta_single_cpu` |
| C46 | `scaled_positions` is wrong for every non-symmetric cell | `scaledPositions_iff` |
| C52 | `--flag False` sets the flag to true; null options cannot be set; lists become characters; `create_occupation` fails for `simplex-projector` | `parseArgs_bool_always_true`, `parseArgs_null_rejected`, `parseArgs_list_chars`, `createOccupation_simplex` |
| C54 | `vmapstack(n, [])` is accepted | `vmapstack_empty_args` |
| C57 | `create_from_symbols` treats documented Bohr lengths as Angstrom | `createFromSymbols_wrong_unit` |
| C10 | `squeeze_coefficient` always raises `AttributeError` | `squeezeCoefficient_fails` |
| C15 | `real_braket` does not conjugate the bra; `reciprocal_braket` divides by the leading axes too | `realBraket_no_conj`, `reciprocalBraket_leading_wrong` |
| C24 | the external potential uses `1/(G^2 + 1e-10)`, not `1/G^2` | `external_softening` (size of the effect) |
| C30 | the Hartree potential of a real density is not real on even grids of skew cells | `hartreePotential_not_real` |
| C33 | a `[spin, x, y, z]` operator is applied to k points instead of spins | `expectation_spin_axis_wrong` |
| C27 | polarised exchange is `½(ε(2n↑)+ε(2n↓))·(n↑+n↓)`, not `½(E[2n↑]+E[2n↓])`; combined `_xc_` functionals are treated as exchange | `exchange_spin_scaling_fails`, `exchange_spin_scaling_error`, `xc_combined_is_exchange` |
| C56 | the polarised LDA potential multiplies `∂ε/∂n_σ` by `n_σ` instead of the total density | `vxc_lda_polarised_wrong`, `vxc_lda_polarised_error` |
| C58 | the GGA potential transforms axes y, z and the Cartesian axis, and a 1-D `fft` | `vxc_gga_translate_wrong` |
| C29 | `ewald_coulomb_repulsion` needs a flat `[nt, 3]` list although its annotation says `x y z 3` | shape of `T` in Model/Ewald |
| C31 | with a spin-polarised density the Kohn-Sham matrix of either spin is `2T + V↑ + V↓` | `hamiltonianMatrix_polarised_wrong`, `hamiltonianMatrix_polarised` |
| C31 | `hamiltonian_matrix_trace` returns shapes `()` and `(spin,)` (documented: `[spin]`, `[spin, kpt]`) and raises `ValueError` for three or more k points | `hamiltonianTrace_partial`, `hamiltonianTrace_polarised_error` |
| C55 | `nabla_density_grid` without occupation lacks the factor `1/vol` | `nablaDensityBands_iff`, `nablaDensityBands_wrong` |
| C51 | `wave_r`, `density_r`, `nabla_density_r` always raise `ValueError` (einsum output `skb` not in the operands) | `waveR_shape`, `densityR_shape` |
| C51 | `potential.hartree` always raises `AssertionError` | `hartreePotential_shape` |
| C51 | `band_energy` always raises `ValueError` | `bandEnergy_shape` |
| C51 | `_hamiltonian_matrix` always raises `TypeError` (keyword `xc`) | `hamiltonianMatrixOld_shape` |
| C51 | `nabla_density_grid` returns shape `(3,)`, documented `(x, y, z)` | `nablaDensityGrid_shape` |
| C51 | the translation list of the Ewald sum must be `[nt, 3]`, annotated `x y z 3` | `ewald_shape`, `ewald_shape_wrong` |
| C43 | the abstract evaluation of the FFT primitives announces a real result for real input | `fftAbstract_dtype` |
| C44 | the partition rule accepts shardings of the FFT axes -3 and -2; the result is then wrong | `supportedSharding_complete_iff`, `shardedFft_wrong` |
| C59 | parallel initialisation raises unless the number of devices divides the number of k points | `driverInit_iff`, `driverInit_fails` |
| C59 | `uniform` ignores the partition spec and uses the mesh axes in order | `uniformSharded_order` |
| C49 | the Simpson weights of a mesh with an even number of points give the first point weight zero and skip the first interval | `simpson_even` |
| C34 | the nonlocal operator replaces D by the diagonal matrix of the absolute values of its ascending eigenvalues, so it is right only for diagonal ascending nonnegative D; the shipped As, Ga and Ge tables violate this | `nonlocal_actual`, `nonlocal_dmatrix_iff`, `nonlocal_germanium_wrong` |
| C34, C61 | the phase of the projectors has the wrong sign: an atom at tau acts as if it were at -tau, so origin independence fails unless the crystal is symmetric under inversion | `nonlocal_position_wrong`, `nonlocal_translation_wrong`, `nonlocal_mirror` |
| C34 | `energy_nonlocal` with the default `occupation=None` raises TypeError | model `energyNonlocal` |
| C62 | the local potential is complex on even grids, so `hamiltonian_local` is not Hermitian there | `local_not_real` |
| C63 | `hamiltonian_matrix` of the norm-conserving module adds the spin axis of the potential to the k axis; with a polarised density and more than two k points it raises ValueError | `ncHamiltonian_polarised_error` |
| C64 | the fft method returns the tabulated potential times 4 pi / volume, with the transposed cell and distances not wrapped to the nearest image | `local_fft_actual`, `local_fft_wrong` |
| C50 | `parse_pp_info` returns an empty valence configuration for every text whose last line does not mention the generation configuration, because the end index is reset on every other line | `valence_lost`, `valence_rows_wrong` |
| C50 | `find_upf` joins directory and name without a separator, so a directory given without a final slash yields the path of another file; without a directory no file is ever found | `findUpf_path_iff`, `findUpf_none` |
| C50 | `UltrasoftPseudopotential.create` leaves out atoms without augmentation, so its augmentation lists are not aligned with the symbols | `us_skips`, `us_lengths` |
| C50 | the augmentation functions keep uninitialised memory at mesh points with r <= 0 and live on the full mesh although the other radial data are on the reduced mesh | `us_qij` |
| C67 | the norm-conserving driver calls the occupation initialisation without `spin_restricted`; spin-unrestricted `uniform`/`gamma` runs hold twice the electrons | `driverNC_density_doubled` |
| C68 | the logged total energy belongs to the parameters before the last update, the logged components to those after it; with `epoch <= 0` both drivers end in `UnboundLocalError` | `driver_log_inconsistent`, `driver_no_epoch` |
| C69 | the Ewald energy of the norm-conserving drivers uses the full nuclear charges | `driverRepulsion_full`, `driverRepulsion_wrong` |
| C70 | the norm-conserving band driver reads the unbound name `density` when a ground state is supplied | `bandNC_supplied` |
| C15 | `real_braket` of arrays with a leading axis returns the mean over that axis | `realBraket_leading` |
| C71 | a band calculation from a density with two equal spin channels reports at least twice the exact energies | `bandEig_polarised_doubled` |
| C71 | with more bands than plane waves the all-electron band driver raises at its last reshape, after the whole calculation | `bandCalc_too_many` |
| C73 | the inverse direction continues the input below the wave-number mesh with powers of the radii: off by the factor (r0/k0)^(np_in+l), so that the continued function jumps at the first sample | `sbtRun_inverse_actual` |
| C73 | a negative degree is not rejected: `l=-1` transforms with degree `lmax` | `sbtRun_negative` |
| C73 | `pyNumSBT(rr, lmax=0)` raises an IndexError while filling its tables | `sbtRun_rejects` |
| C75 | `batch_sbt` with more rows than degrees returns fewer rows and no error | `batchSbt_drops` |
| C75 | `batch_sbt` of an empty batch raises an UnboundLocalError | `batchSbt_empty` |
| C80 | For a cubic mask with odd ⌊(n−1)/2⌋ on some axis the kept frequencies −⌈G/2⌉…⌊G/2⌋ are not symmetric, so the band energies at k and −k differ, even for free electrons with a complete set of bands | `band_time_reversal_cubic_wrong`, `cubicMask_reversible_iff` |
| C48 | `legendre_to_sph_harm` documents `2l+1` entries; it returns `2·l_max+1`, zero outside the middle, and refuses `l > l_max` | `legendreToSphHarm_shape` |
| C82 | `k + G = 0` is treated as pointing along x: a projector with l > 0 whose radial transform does not vanish there gives energies that depend on the orientation of the axes | `nonlocal_rotation_wrong` |
| C86 | the defaults have no `pseudopotential_type`: with `use_pseudopotential: true` alone every norm-conserving calculation ends in an `AttributeError` | `ncRun_default_wrong` |
| C86 | the norm-conserving driver places the occupation parameters on a device mesh with two named axes: the idempotent method, whose parameters contain a scalar, is always refused, and the simplex projector only runs when the number of bands (not of k points) is a multiple of the devices | `ncRun_refused` |
| C86 | half of the processors is the size of the process pool: on a machine with one processor the norm-conserving calculation is refused | `ncRun_refused` |
| C87 | with two spin channels `hamiltonian_matrix` adds the elements of both channels; the result is not the derivative of the energy | `totalEnergy_derivative_polarised_wrong` |
| C87 | the GGA potential is not the derivative of the GGA energy: a band structure with a GGA functional is not that of the ground state | `vxc_gga_derivative_wrong` |
| C88 | with the default `simplex-projector` occupation no parameters give a channel both a full and an empty orbital, so the ground state of a closed-shell system with empty bands is not among the described states; it is only approached | `driver_simplex_unreached`, `driver_simplex_ground_missed` |
| C90, C91 | a spin-unrestricted band run adds the Hamiltonians of both channels for every entry: with equal channels the saved energies are twice the Kohn-Sham energies | `bandRun_channels`, `bandRun_doubled` |
| C90 | without the number of k points (`num_kpoints`) in the configuration, or when ase returns fewer points than requested, the all-electron band run raises at its last reshape, after all optimisations; with `parallel_over_k_path` off it raises on several devices | `bandRun_saved` |
| C92 | the GGA potential of the band Hamiltonian mixes the Cartesian components of the gradient with a Fourier transform over the Cartesian axis, so that it depends on the orientation of the cell: exchanging two coordinate axes changes it | `vxc_gga_rotate_wrong` |
| C93 | a ground state supplied to the norm-conserving band driver is ignored, and the density then has no value: the run ends with a `NameError` | `bandRunNC_supplied` |
| C90 | a configuration that leaves the number of k points to ase is accepted, all bands are computed, and then the reshape to `None` k points raises a `TypeError` before anything is saved | `bandRun_unnumbered` |
| C63, C72 | for a density with two channels the trace function of the norm-conserving module adds the Hartree and exchange-correlation potentials of both channels and the kinetic, nonlocal and local parts once; it is the trace of none of the matrices that the matrix function returns ; there are cases where minimising it maximises the reported energy | `ncHamiltonian_channels`, `ncHamiltonian_channels_trace`, `bandTraceNC_channels`, `bandTraceNC_channels_wrong` |
| C98 | The convergence test looks at the energy only. When the energy does not change for `window` steps it ends the loop, however far the temperature (which starts at 100 and reaches `smearing` after half of the epochs) is from the requested one; the result then belongs to that higher temperature. | `stops_hot`, `run_smearing_partial` |
| C99 | With two spin channels the diagonal of `hamiltonian_matrix` is not the energy at which electrons are added to a band, because the kinetic energy is in it twice (as in C87). | `totalEnergy_occupation_polarised_wrong` |
| C100 | As in C98: with a convergence test the energies and the density can be those of a ground state at a higher temperature than the requested one. | `stops_hot`, `run_limit_partial` |
| C101 | The Hamiltonian matrix of the pseudopotential code raises for two spin channels, and for GGA functionals its potential is not the derivative of the energy; the equations then do not hold for what the ground state minimises. | `ncHamiltonian_polarised_error`, `vxc_gga_derivative_wrong` |
| C102 | With two spin channels the potential of the all-electron Hamiltonian is not the derivative of the energy, and with GGA functionals neither; the occupied bands of a ground state are then not the lowest bands of that Hamiltonian in general. | `totalEnergy_derivative_polarised_wrong`, `vxc_gga_derivative_wrong` |
| C103 | A transform whose array is divided along axis -3 or -2 is compiled without complaint and gives a different result than on one device. | `fftOn_wrong` |
| C103 | With the Shardy partitioner (the default of newer JAX) every transform raises `AttributeError`: `sharding_rule` is read and never set. Compiled for several devices outside `with mesh:` every transform raises `AttributeError`. | `fftOn_shardy`, `fftOn_noMesh` |
| C103 | The batching rule of the wrapper announces a result without the batch axis. (`jax.vmap` of `fftn3d` uses its own rule, which is right.) | `wrappedBatch_shape_wrong` |
| C104 | The option `-l` (load the output of an energy calculation for a band structure) is parsed and ignored. | `mainCall_ignores_load` |
| C105 | The Hankel variant returns (values, points), the other transforms return (points, values), and its values carry the factor of `norm=True`. | `sbtHankel_value` |
| C106 | With pseudopotentials the projectors at a k point depend on the whole list of k points: the radial table of their transforms runs to the largest &#124;k+G&#124; of the list. A longer path, or the mesh of the ground state, gives other projectors at the same point. | `beta_path_dependent` |
| C110 | The plane waves are selected by the length of G and not of k + G, so a path that visits two equivalent points (U and K of the usual path of a face-centred crystal) shows different energies at them. | `bandRun_trace`, `bandRun_equivalent_false` |
| C111 | With the spherical selection the energy jumps as a function of the cell whenever a plane wave crosses the cutoff, and a calculation may succeed in one cell and raise in every slightly smaller one, because fewer plane waves than bands are left. | `sphericalMask_jump`, `run_cell_continuous_false` |
| C114 | An optimiser that adds noise (`noisy_sgd`) changes uniform and gamma occupations in every step, because the array is among the trained parameters; the density then holds another number of electrons than the crystal. | `run_noise`, `run_noise_wrong`, `ncRun_noise`, `ncRun_noise_wrong` |
| C115 | The file of a band structure is named after the element symbols only; a second calculation for the same elements (another structure, functional or cutoff, or with pseudopotentials) replaces the first result. | `history_same_elements` |
| C115 | The file is emptied before the new array is written; a calculation killed in between destroys the earlier result. | `history_interrupted_write` |
| C116 | `if not os.path.exists(d): os.makedirs(d)` is a race: of two processes that find the directory missing, one raises `FileExistsError`. | `saves_race` |
| C116 | The cache file is written in place: two processes that save different lists at the same time can leave a file that holds neither, and a killed save destroys the earlier list. | `saves_mixed`, `save_killed_loses` |
| C118 | The drivers call `optimizer.update` without the parameters; every optimiser of optax with weight decay (`adamw`, `lamb`, `lion`) raises `ValueError` in the first step, those with a line search `TypeError`. | `run_update_fault`, `ncRun_update_fault`, `bandRun_update_fault`, `bandRunNC_update_fault` |
| C119 | With exactly one selected plane wave and several bands the calculation returns a density: the single orbital is broadcast to all bands. No orthonormal orbitals hold the electrons. | `run_one_wave`, `ncRun_one_wave` |
| C119 | Only the parity of the spin is checked. A spin that the bands cannot hold is accepted. | `run_spin_excess` |
| C120 | The final reshape of the all-electron calculation compares sizes only. With fewer plane waves than bands and a path of more points than asked for, a file is saved in which the energies of different points share a row. | `bandRun_mixed` |
| C120 | The norm-conserving calculation saves fewer bands than asked for if there are fewer plane waves, without an error. | `bandRunNC_fewer` |
| C121 | Where an occupation is just about to be cut off, the computed gradient of the projector changes the number of electrons (half of the change of that entry). | `simplexProjectorJvp_leak` |
| C122 | The gradient of the occupation parameters can be zero although filling an empty band lowers the energy: a band below the cut has no influence on the result. | `occupation_stuck` |
| C122 | The starting parameters leave almost half of all bands of all k points empty and without gradient: with eight electrons, twelve bands and 27 k points the first eleven k points hold no electron. | `occupation_start_cut` |
| C123 | The gradient of the band objective can vanish at parameters that report eigenvalues other than the lowest, so a converged band calculation may miss bands. | `band_gradient_zero_any`, `band_gradient_zero_not_lowest` |
| C111 | The number of translations in the Ewald sum is a quotient rounded up, so the repulsion of the nuclei, and with it the total energy, jumps as a function of the cell even when the plane waves stay the same. | `repulsion_cell_jump`, `run_cell_total_jump` |
| C128 | where the Ewald cutoff is a multiple of the squared length of the sum of the cell vectors, the total energies of norm-conserving calculations in all slightly smaller cells are larger by a fixed amount | `ncRun_cell_total_jump` |

## 6. Coverage of the code

Generated by `tools/coverage.py` from the citations in `lean/Verif/Model`.  For every source file (tests
excluded): each function or method with the definitions that model it.  Methods and local functions are
listed when they have a definition of their own.

* **main.py**
  * `main` (6-54): `CfgVal.truthy`, `Driver`, `mainDispatch`, `MainArgs`, `mainCall`
* **jrystal/config.py**
  * `get_config` (108-120): `BandConfig`, `Cfg.find`, `Cfg.attr`, `getConfig`
* **jrystal/_src/braket.py**
  * `reciprocal_braket` (27-72): `broadcastPairs`, `reciprocalBraket`, `reciprocalBraket0`, `reciprocalBraketSh`
  * `real_braket` (75-114): `realBraket`, `realBraket0`, `realBraketSh`
  * `expectation` (117-207): `Operator`, `integralFactor`, `bcLen`, `bcIdx`, `bcGet`, `operatorLen`, `operatorAt`, `expectationFull`, `expectationDiag`, `expectationSh`
* **jrystal/_src/crystal.py**
  * `Crystal.scaled_positions` (85-89): `Crystal.scaledPositions`
  * `Crystal.vol` (92-96): `Crystal.vol`
  * `Crystal.num_atom` (99-101): `Crystal.numAtom`
  * `Crystal.num_electron` (104-106): `Crystal.numElectron`
  * `Crystal.A` (109-111): `Crystal`
  * `Crystal.reciprocal_vectors` (114-116): `Crystal.reciprocal`, `reciprocalVectors`
  * `Crystal.B` (119-121): `Crystal.reciprocal`
  * `Crystal.create_from_file` (124-153): `AseAtoms`, `Crystal.fromAse`
  * `Crystal.create_from_symbols` (156-189): `AseAtoms`, `Crystal.fromAse`, `Crystal.createFromSymbols`
* **jrystal/_src/energy.py**
  * `hartree` (29-82): `hartreeEnergy`, `hartreeEnergySh`
  * `external` (85-135): `externalEnergy`, `externalEnergySh`
  * `kinetic` (138-182): `bcCoef`, `bcOcc`, `kineticBands`, `kineticEnergyOcc`, `expandGo`, `expandDims`, `kineticSh`
  * `xc_energy` (185-211): `xcEnergy`, `xcEnergySh`
  * `nuclear_repulsion` (214-243): `nuclearRepulsion`
  * `total_energy` (246-307): `EnergyParts`, `occOrOnes`, `totalEnergySplit`, `totalEnergy`, `totalEnergySh`
  * `band_energy` (310-365): `bandEnergySh`
* **jrystal/_src/entropy.py**
  * `fermi_dirac` (19-54): `fermiDirac`
* **jrystal/_src/ewald.py**
  * `ewald_coulomb_repulsion` (21-86): `ewaldTau`, `ewaldNorm`, `ewaldOverlap`, `ewaldGSq`, `ewaldReciprocal`, `ewald`, `ewaldSh`
* **jrystal/_src/grid.py**
  * `_half_frequency_ranges` (37-54): `HalfRange`, `halfRange`
  * `half_frequency_shape` (57-69): `halfShape`
  * `_half_frequency_pad_to` (72-90): `dynamicUpdateSlice`, `blockOrder`, `halfPadTo`
  * `_vector_grid` (93-119): `Idx`, `sfreq`, `fftfreq`, `vectorGrid`, `threeSizes`
  * `g_vectors` (122-149): `reciprocalVectors`, `gVectors`
  * `r_vectors` (152-178): `rVectors`
  * `proper_grid_size` (181-210): `GridArg`, `properGridSize`
  * `translation_vectors` (213-236): `translationCount`, `translationVectors`, `nuclearRepulsion`, `flatRows`, `runRepulsion`
  * `k_vectors` (239-262): `reciprocalVectors`, `monkhorstPack`, `kVectors`
  * `spherical_mask` (265-293): `normSq3`, `sphericalMask`
  * `cubic_mask` (296-325): `cubicMask1`, `cubicMask`, `pyBound`, `inSlice`, `half`
  * `estimate_max_cutoff_energy` (328-349): `estimateMaxCutoffEnergy`
  * `grid_vector_radius` (352-374): `gridVectorRadius`
  * `grid_vector_radius.radius` (367-368): `gridVectorRadius`
  * `g2r_vector_grid` (377-401): `g2rVectorGrid`
  * `r2g_vector_grid` (404-425): `r2gVectorGrid`
  * `g2cell_vectors` (428-448): `gridMatrix`, `g2cellVectors`
  * `r2cell_vectors` (451-470): `gridMatrix`, `r2cellVectors`
* **jrystal/_src/hamiltonian.py**
  * `_hamiltonian_matrix` (30-102): `hamiltonianMatrixOldSh`
  * `hamiltonian_matrix_trace` (105-168): `hamiltonianTerms`, `TraceOut`, `traceSum`, `hamiltonianTrace`, `hamiltonianTraceSh`
  * `hamiltonian_matrix` (171-240): `TraceOut.total`, `mixBands`, `hamilK`, `hamiltonianMatrix`, `hamiltonianMatrixSh`
  * `hamiltonian_matrix.hamil_k` (211-232): `TraceOut.total`, `mixBands`, `hamilK`, `hamiltonianMatrix`, `hamiltonianMatrixSh`
  * `hamiltonian_matrix.hamil_k.efun` (214-229): `TraceOut.total`, `mixBands`, `hamilK`, `hamiltonianMatrix`, `hamiltonianMatrixSh`
  * `_hamiltonian_matrix_basis` (243-306): `TraceOut.total`, `hamiltonianMatrixBasis`, `Param`, `bindCall`
  * `_hamiltonian_matrix_basis.hamil_k` (282-303): `TraceOut.total`, `hamiltonianMatrixBasis`, `Param`, `bindCall`
  * `_hamiltonian_matrix_basis.hamil_k.efun` (285-300): `TraceOut.total`, `hamiltonianMatrixBasis`, `Param`, `bindCall`
* **jrystal/_src/hessian.py**
  * `complex_hessian` (21-55): `vjp`, `gradF`, `complexHessian`
  * `complex_hessian.grad_f` (41-43): `vjp`, `gradF`, `complexHessian`
  * `complex_hessian.hessian_vec_prod` (45-47): `vjp`, `complexHessian`
* **jrystal/_src/kinetic.py**
  * `kinetic_operator` (21-45): `kineticOperator`, `sumLast`, `kineticOperatorSh`
* **jrystal/_src/occupation.py**
  * `idempotent_param_init` (27-85): `IdemParams`, `idempotentParamInit`
  * `idempotent` (88-144): `idemChannel`, `idempotentOcc`
  * `idempotent.o` (132-136): `idemChannel`, `idempotentOcc`
  * `uniform` (147-190): `OccArr`, `OccArr.total`, `sumSpin`, `resolveBands`, `uniformOcc`
  * `gamma` (193-237): `sumSpin`, `resolveBands`, `gammaOcc`
  * `param_init` (240-258): `OccParams`, `occParamInit`
  * `occupation` (261-278): `occupation`
  * `simplex_projector_init` (281-292): `simplexProjectorInit`
  * `proj` (295-338): `Ext`, `Ext.div`, `Ext.ltFin`, `Ext.subLt`, `argmaxBool`, `sortAsc`, `cumsum`, `pushdown`, `pushup`, `proj`, `sortPairs`, `maxTangent`, `minTangent`, `pushdownJvp`, `pushupJvp`, `projJvp`
  * `proj.pushdown` (310-321): `Ext`, `Ext.div`, `Ext.ltFin`, `argmaxBool`, `sortAsc`, `cumsum`, `pushdown`, `proj`, `sortPairs`, `maxTangent`, `pushdownJvp`
  * `proj.pushup` (323-335): `Ext.div`, `Ext.subLt`, `argmaxBool`, `sortAsc`, `cumsum`, `pushup`, `proj`, `sortPairs`, `minTangent`, `pushupJvp`
  * `simplex_projector` (341-366): `sumSpin`, `sigmoid`, `ravel`, `unravel`, `simplexProjector`, `sigmoidJvp`, `simplexProjectorJvp`
* **jrystal/_src/potential.py**
  * `hartree_reciprocal` (24-77): `isOrigin`, `hartreeReciprocal`, `lastDim`, `sumFirst`, `hartreeReciprocalSh`
  * `hartree` (80-118): `hartreePotentialSh`
  * `external_reciprocal` (121-166): `externalReciprocal`, `externalReciprocalSh`
  * `external` (169-200): `externalPotential`, `externalPotentialSh`
  * `effective` (203-279): `hartreeRealSpace`, `effectivePotential`, `effectiveSh`, `effectiveParams`
* **jrystal/_src/pw.py**
  * `param_init` (29-91): `maskCount`, `paramShape`, `PwParams`, `runLoop`
  * `coeff` (94-137): `Coef`, `pwCoeff`
  * `wave_grid` (140-211): `gridCount`, `waveGrid`, `Sh`, `fftSh`, `waveGridSh`
  * `density_grid` (214-284): `bcCoef`, `bcOcc`, `Occ`, `densityGridBands`, `densityGrid`, `densityGridSh`
  * `density_grid_reciprocal` (287-334): `densityGridReciprocal`, `densityReciprocalSh`
  * `wave_r` (337-381): `Lbl`, `lbls`, `labelDim`, `outDims`, `einsumSh`, `matmulSh`, `reshapeSh`, `lastThree`, `waveRSh`
  * `density_r` (384-415): `densityRSh`
  * `nabla_density_r` (418-447): `nablaDensityRSh`
  * `nabla_density_r.den` (444-445): `nablaDensityRSh`
  * `nabla_density_grid` (450-511): `checkPosition`, `nablaDensityBands`, `nablaDensity`, `nablaDensityGridSh`
* **jrystal/_src/unitary_module.py**
  * `unitary_matrix` (30-81): `QR`, `unitaryMatrix`
  * `unitary_matrix._qr` (74-75): `QR`, `unitaryMatrix`
  * `unitary_matrix_param_init` (84-126): `occPlaceable`
* **jrystal/_src/utils.py**
  * `safe_real` (25-59): `CExt`, `NumArr`, `isCloseZero`, `safeReal`
  * `vmapstack` (62-105): `NdArr`, `vmap1`, `vmapLoop`, `vmapLoopArgs`, `vmapstack`
  * `vmapstack.decorator` (90-103): `NdArr`, `vmap1`, `vmapLoop`, `vmapLoopArgs`, `vmapstack`
  * `absolute_square` (108-130): `absoluteSquare`
  * `volume` (133-158): `volume`
  * `wave_to_density` (161-197): `waveToDensity`, `sumRange`, `waveToDensitySh`
  * `wave_to_density_reciprocal` (200-224): `waveToDensityReciprocal`
  * `fft_factor` (227-254): `PyErr`, `fftFactor`
  * `expand_coefficient` (257-281): `mkIdx`, `idxList`, `maskList`, `maskPos`, `scatterMask`, `expandCoefficient`, `ArrVal`, `ArrVal.at`, `swapLast`, `expandSh`
  * `squeeze_coefficient` (284-308): `gatherMask`, `squeezeCoefficient`, `ArrVal`, `ArrVal.indexMask`, `ArrVal.get`, `swapLast`, `squeezeSh`
  * `check_spin_number` (311-328): `checkSpinNumber`
* **jrystal/_src/xc.py**
  * `get_xc_functional` (13-32): `XcLib`
  * `_parse_xc_type` (40-51): `reshapeTail`, `ldaSh`, `pyIn`, `isExchange`
  * `_lda` (54-64): `reshapeTail`, `indexFirst`, `ldaSh`, `ldaPoint2`, `ldaPoint1`, `chan`
  * `_gga` (67-85): `ggaSh`, `ggaPoint2`, `ggaPoint1`
  * `sigma_r_fn` (88-106): `sumAxis`, `sigmaSh`, `gradRho`, `sigmaPair`, `sigma2`, `sigma1`
  * `vxc_lda` (109-124): `vxcLdaSh`, `vxcLda1`, `vxcLda2`
  * `vxc_gga_recp` (127-210): `ifftnYZD`, `fftZ`, `gradFftKs`, `gradRhoKs`, `laplRho`, `whereGt`, `vxcGga1`, `vxcGga2`
  * `vxc_gga` (213-219): `vxcGga1`, `vxcGga2`
  * `xc_density` (222-253): `excDensitySh`, `xcLdaSh`, `pyIn`, `splitPlus`, `excLda1`, `excLda2`, `excGga1`, `excGga2`, `excDensity`, `vxcDensity`, `xcDensity`
* **jrystal/_src/band/k_path.py**
  * `get_k_path` (27-57): `BandTools`, `aseCartesianKpts`, `getKPath`
* **jrystal/_src/spmd/custom_partitioning.py**
  * `jrystal_custom_partitioning.__init__` (39-44): `ShapeFun`, `CpObject`, `cpInit`
  * `jrystal_custom_partitioning.def_partition` (48-59): `CpObject`, `cpDefPartition`
  * `jrystal_custom_partitioning.__call__` (61-116): `MeshAxes`, `CpEnv`, `cpCall`
  * `_custom_partitioning_lowering_rule` (119-201): `MeshAxes`, `PSpec`, `AxisContext`, `meshDevices`, `CpEnv`, `Lowered`, `cpLower`, `cpDecode`, `axesSize`, `cpCustomCall`
  * `_custom_partitioning_lowering_rule.to_mesh_pspec_sharding` (162-170): `PSpec`, `cpLower`, `cpDecode`, `axesSize`
  * `_custom_partitioning_batching_rule` (228-244): `cpBatchShapes`
* **jrystal/_src/spmd/custom_sharding.py**
  * `_supported_sharding` (17-22): `supportedSharding`, `partsOf`, `cpCustomCall`
  * `_infer_sharding_from_operands` (25-27): `partitionRule`
  * `custom_sharding_by_mesh` (30-57): `partitionRule`, `localShape`, `globalIdx`, `runSharded`, `PartitionRule`, `customShardingByMesh`
  * `custom_sharding_by_mesh._partition` (43-49): `partitionRule`, `localShape`, `globalIdx`, `runSharded`, `PartitionRule`, `customShardingByMesh`
* **jrystal/_src/spmd/fft.py**
  * `fftn3d` (37-49): `fftn`, `fftn3d`, `fftn3dOn`
  * `ifftn3d` (52-64): `ifftn`, `ifftn3d`, `ifftn3dOn`
  * `_ifftn_impl` (69-70): `ifftn`, `Transform3`, `vec3`, `vec3Idx`, `coreTransform`, `onLast`, `fftDtype`, `ifftn3dOn`
  * `_fftn_impl` (74-75): `fftn`, `Transform3`, `vec3`, `vec3Idx`, `coreTransform`, `onLast`, `fftDtype`, `fftn3dOn`
  * `_ifftn_jvp` (88-89): `ifftnJvp`
  * `_ifftn_tranpose_rule` (92-93): `ifftnTranspose`
  * `_fftn_jvp` (96-97): `fftnJvp`
  * `_fftn_tranpose_rule` (100-101): `fftnTranspose`
  * `_ifftn_batching_rule` (104-108): `moveShape`, `moveFront`, `ifftnBatch`
  * `_fftn_batching_rule` (111-115): `moveShape`, `moveFront`, `fftnBatch`
  * `_ifftn_abstract_eval` (119-120): `FDtype`, `fftAbstract`
  * `_fftn_abstract_eval` (124-125): `FDtype`, `fftAbstract`
* **jrystal/_src/spmd/uniform.py**
  * `uniform` (9-32): `uniformShardShape`, `shardShape`, `uniformSharded`
* **jrystal/calc/calc_band_structure_all_electrons.py**
  * `calc` (37-209): `fLin`, `fUnlin`, `cLin`, `cUnlin`, `reshapeF`, `reshapeC`, `fineTune`, `optimizeChunk`, `chunk`, `stacked`, `bandAllElectrons`, `Eigvalsh`, `BandEnv`, `bandTrace`, `bandEig`, `bandEigArray`, `bandCalc`, `BandConfig`, `BandOptimizer`, `BandTools`, `bandPoints`, `pathAt`, `bandRunEnv`, `bandUpdate`, `BandFile`, `bandGrid`, `bandCrystal`, `bandAtoms`, `bandRun`, `SavedArray`, `FileState`, `WorkDir`, `BandCall`, `BandCall.outcome`, `DirStep`, `DirStep.name`, `DirStep.apply`, `BandCall.steps`, `Attempt`, `Attempt.steps`, `WorkDir.after`, `WorkDir.history`
  * `calc.hamiltonian_trace` (75-88): `bandTrace`, `bandRunEnv`, `bandGrid`, `bandCrystal`, `bandRun`, `Attempt`
  * `calc.update` (100-108): `bandCalc`, `BandOptimizer`, `bandUpdate`, `bandGrid`, `bandCrystal`, `bandRun`, `Attempt`
  * `calc.optimize_eigenvalues` (116-182): `fineTune`, `optimizeChunk`, `Eigvalsh`, `bandEig`, `bandEigArray`, `bandCalc`, `BandConfig`, `BandTools`, `bandGrid`, `bandCrystal`, `bandRun`, `Attempt`
  * `calc.optimize_eigenvalues.update_scan` (120-125): `optimizeChunk`, `bandCalc`, `bandGrid`, `bandCrystal`, `bandRun`, `Attempt`
  * `calc.optimize_eigenvalues.finetuning` (135-147): `fineTune`, `optimizeChunk`, `bandCalc`, `BandConfig`, `bandGrid`, `bandCrystal`, `bandRun`, `Attempt`
  * `calc.optimize_eigenvalues.eig_fn` (156-169): `fineTune`, `optimizeChunk`, `Eigvalsh`, `bandEig`, `bandEigArray`, `bandCalc`, `BandTools`, `bandGrid`, `bandCrystal`, `bandRun`, `Attempt`
  * `calc.optimize_eigenvalues.eig_scan` (173-177): `fineTune`, `optimizeChunk`, `bandCalc`, `bandGrid`, `bandCrystal`, `bandRun`, `Attempt`
* **jrystal/calc/calc_band_structure_normcons.py**
  * `calc` (66-299): `bandNormcons`, `bandNCCalc`, `BandEnvNC`, `bandTraceNC`, `bandEigNC`, `bandEigArrayNC`, `bandCalcNC`, `BetaRow`, `rowSpecies`, `bandRunEnvNC`, `bandUpdateNC`, `BandFileNC`, `bandLoopNC`, `bandGridNC`, `bandCrystalNC`, `bandAtomsNC`, `bandRunNC`, `SavedArray`, `BandCall`, `BandCall.outcome`, `BandCall.steps`
  * `calc.select_beta_gk` (134-135): `bandNCCalc`, `BandEnvNC`, `BetaRow`, `bandRunEnvNC`, `bandGridNC`, `bandCrystalNC`, `bandAtomsNC`, `bandRunNC`
  * `calc.get_potential_nl` (137-147): `bandNCCalc`, `BandEnvNC`, `rowSpecies`, `bandRunEnvNC`, `bandGridNC`, `bandCrystalNC`, `bandAtomsNC`, `bandRunNC`
  * `calc.hamiltonian_trace` (149-161): `bandNCCalc`, `BandEnvNC`, `bandTraceNC`, `bandRunEnvNC`, `bandGridNC`, `bandCrystalNC`, `bandAtomsNC`, `bandRunNC`
  * `calc.update` (171-179): `bandNCCalc`, `bandCalcNC`, `bandUpdateNC`, `bandLoopNC`, `bandGridNC`, `bandCrystalNC`, `bandAtomsNC`, `bandRunNC`
  * `calc.optimize_eigenvalues` (188-270): `bandNCCalc`, `bandEigNC`, `bandEigArrayNC`, `bandCalcNC`, `BetaRow`, `bandLoopNC`, `bandGridNC`, `bandCrystalNC`, `bandAtomsNC`, `bandRunNC`
  * `calc.optimize_eigenvalues.update_scan` (193-198): `bandNCCalc`, `bandCalcNC`, `bandLoopNC`, `bandGridNC`, `bandCrystalNC`, `bandAtomsNC`, `bandRunNC`
  * `calc.optimize_eigenvalues.finetuning` (210-223): `bandNCCalc`, `bandCalcNC`, `BetaRow`, `bandLoopNC`, `bandGridNC`, `bandCrystalNC`, `bandAtomsNC`, `bandRunNC`
  * `calc.optimize_eigenvalues.eig_fn` (232-245): `bandNCCalc`, `bandEigNC`, `bandEigArrayNC`, `bandCalcNC`, `bandLoopNC`, `bandGridNC`, `bandCrystalNC`, `bandAtomsNC`, `bandRunNC`
  * `calc.optimize_eigenvalues.eig_scan` (256-262): `bandNCCalc`, `bandCalcNC`, `BetaRow`, `bandLoopNC`, `bandGridNC`, `bandCrystalNC`, `bandAtomsNC`, `bandRunNC`
* **jrystal/calc/calc_ground_state_energy_all_electrons.py**
  * `calc` (63-247): `exponentialDecay`, `temperature`, `LoopState`, `loopBody`, `loopFrom`, `optimise`, `GsEnv`, `GsParams`, `gsState`, `gsDensity`, `gsParts`, `gsTotal`, `gsEntropy`, `gsFree`, `gsLoop`, `GsReport`, `gsRun`, `gsCalc`, `gsInit`, `driverBands`, `driverOccupation`, `Optimizer`, `RunLib`, `runEnv`, `runUpdate`, `firstUpdate`, `runLoop`, `runGrid`, `runCrystal`, `runAtoms`, `runCalc`, `driverMesh`
  * `calc.get_occupation` (109-117): `driverOccupation`, `runGrid`, `runCrystal`, `runCalc`
  * `calc.total_energy` (119-137): `gsState`, `gsDensity`, `gsParts`, `gsTotal`, `runGrid`, `runCrystal`, `runCalc`
  * `calc.get_entropy` (139-141): `gsEntropy`, `runGrid`, `runCrystal`, `runCalc`
  * `calc.free_energy` (143-147): `gsFree`, `runGrid`, `runCrystal`, `runCalc`
  * `calc.update` (176-181): `gsRun`, `gsCalc`, `Optimizer`, `runUpdate`, `firstUpdate`, `runLoop`, `runGrid`, `runCrystal`, `runCalc`
  * `calc.temperature_scheduler` (193-194): `temperature`, `gsRun`, `gsCalc`, `runLoop`, `runGrid`, `runCrystal`, `runCalc`
* **jrystal/calc/calc_ground_state_energy_normcons.py**
  * `calc` (67-308): `temperature`, `GsEnv`, `gsEntropy`, `gsPartsNC`, `gsTotalNC`, `GsReport`, `gsRun`, `gsCalcNC`, `gsInitNC`, `driverRepulsion`, `driverOccupationNC`, `firstUpdate`, `NcLib`, `ncLocalAtom`, `ncBetas`, `ncSpecies`, `gsFreeNC`, `runUpdateNC`, `occPlaceable`, `runLoopNC`, `runEnvNC`, `runGridNC`, `runCrystalNC`, `runAtomsNC`, `runCalcNC`, `driverMesh`
  * `calc.get_occupation` (165-173): `driverOccupationNC`, `runEnvNC`, `runGridNC`, `runCrystalNC`, `runAtomsNC`, `runCalcNC`
  * `calc.total_energy` (175-192): `gsPartsNC`, `gsTotalNC`, `runGridNC`, `runCrystalNC`, `runAtomsNC`, `runCalcNC`
  * `calc.get_entropy` (194-196): `gsEntropy`, `runGridNC`, `runCrystalNC`, `runAtomsNC`, `runCalcNC`
  * `calc.free_energy` (198-206): `gsFreeNC`, `runGridNC`, `runCrystalNC`, `runAtomsNC`, `runCalcNC`
  * `calc.update` (229-236): `gsRun`, `gsCalcNC`, `firstUpdate`, `runUpdateNC`, `runLoopNC`, `runGridNC`, `runCrystalNC`, `runAtomsNC`, `runCalcNC`
  * `calc.temperature_scheduler` (248-249): `temperature`, `gsRun`, `gsCalcNC`, `runLoopNC`, `runGridNC`, `runCrystalNC`, `runAtomsNC`, `runCalcNC`
* **jrystal/calc/convergence.py**
  * `create_convergence_checker` (6-10): `Checker.new`
  * `ConvergenceChecker.__init__` (15-18): `Checker`, `Checker.new`
  * `ConvergenceChecker.check` (20-32): `FVal`, `allFinite`, `npStd`, `fltLt`, `Checker.push`, `Checker.check`, `CheckOp`, `Checker.step`, `Checker.run`
  * `ConvergenceChecker.reset` (34-35): `Checker.reset`, `CheckOp`, `Checker.step`, `Checker.run`
* **jrystal/calc/opt_utils.py**
  * `set_env_params` (44-61): `Verbosity`, `ProcState`, `setEnviron`, `logInfo`, `logWarning`, `setEnvParams`
  * `parse_args` (64-73): `Cfg.set`, `NumReader`, `convertLike`, `resolveOption`, `parsePairs`, `parseArgs`
  * `create_freq_mask` (76-103): `MaskKind`, `selectMask`, `createFreqMask`
  * `create_crystal` (106-114): `bandAtoms`, `createCrystal`, `crystalPath`, `runAtoms`
  * `create_pseudopotential` (117-140): `PspKind`, `selectPseudopotential`, `NcConfig`, `createPseudo`
  * `create_grids` (143-150): `createGridsSizes`, `runSizes`
  * `create_optimizer` (153-168): `createOptimizer`
  * `create_occupation` (171-184): `createOccupation`
  * `get_ewald_coulomb_repulsion` (187-201): `driverRepulsion`, `runRepulsion`
  * `save_beta_sbt` (204-213): `CacheDisk`, `writeByte`, `SavePoint`, `saveAction`, `CacheSystem`, `CacheSystem.start`, `CacheSystem.step`, `CacheSystem.run`, `NpzFormat`, `Node`, `FS`, `cacheDir`, `cacheFile`, `FS.write`, `FS.ensureDir`, `savez`, `saveBetaSbt`
  * `load_beta_sbt` (216-223): `NpzFormat`, `loadCache`, `Node`, `FS`, `readArrays`, `loadBetaSbt`
* **jrystal/calc/pre_calc.py**
  * `_to_map` (8-9): `preCalcBeta`
  * `pre_calc_beta_sbt` (12-40): `ncBetas`, `Pool`, `Pool.complete`, `readSlots`, `poolResult`, `preCalcTasks`, `preCalcBeta`
* **jrystal/pseudopotential/beta.py**
  * `_beta_sbt_single_atom` (26-80): `betaSbtSingle`, `BetaArr`, `betaOfLists`
  * `beta_sbt_grid` (83-120): `betaSbtGrid`
* **jrystal/pseudopotential/dataclass.py**
  * `Pseudopotential.create` (36-41): `NcLists`
  * `NormConservingPseudopotential.create` (91-192): `NcLists`, `NcLists.empty`, `takePositive`, `divideWhere`, `headerAt`, `truncQ`, `reshapeSq`, `ncStep`, `loadAll`, `ncCreate`, `samplesOf`
  * `UltrasoftPseudopotential.create` (238-325): `UsLists`, `axisIdx`, `setQij`, `usStep`, `usCreate`
* **jrystal/pseudopotential/load.py**
  * `extract_value` (26-29): `Str`, `pySpace`, `pyStrip`, `extractValue`
  * `parse_pp_info` (32-79): `Str`, `pyLower`, `pyStrip`, `linesFrom`, `pyLines`, `strIn`, `scanStep`, `scanLines`, `slice`, `PpInfo`, `parseInfo`
  * `parse_valence_configuration` (82-100): `Str`, `pyStrip`, `wordsFrom`, `pyWords`, `ValenceRow`, `wordAt`, `readInt`, `readFloat`, `readRow`, `isRow`, `parseValence`
  * `parse_pp_header` (103-105): `Xml.attrs`
  * `parse_pp_mesh` (108-113): `pyWords`, `readFloat`, `Xml.attrs`, `Xml.textOf`, `readFloats`
  * `parse_pp_nonlocal` (116-178): `pyWords`, `readInt`, `readFloat`, `Xml.tag`, `Xml.get`, `Xml.children`, `Xml.find`, `readFloats`, `readIntOpt`, `BetaEntry`, `QijEntry`, `AugEntry`, `NlEntry`, `readBeta`, `readQij`, `readAug`, `parseNonlocal`
  * `parse_pp_local` (181-183): `pyWords`, `readFloat`, `readFloats`
  * `parse_upf` (186-212): `pyStrip`, `Xml`, `Xml.child`, `PpDict`, `parseUpf`
  * `find_upf` (215-241): `pyLower`, `upfMatches`, `findUpf`
* **jrystal/pseudopotential/local.py**
  * `potential_local_reciprocal` (32-131): `Spline`, `LocalAtom`, `gRadius`, `maxRadius`, `localSbt`, `localFft`, `localForm`, `localReciprocal`
  * `potential_local_reciprocal.g` (80-88): `Spline`, `gRadius`, `maxRadius`, `localSbt`, `localForm`, `localReciprocal`
  * `potential_local_reciprocal.g` (92-97): `Spline`, `localFft`, `localForm`, `localReciprocal`
  * `hamiltonian_local` (134-161): `hamiltonianLocal`
  * `energy_local` (164-187): `energyLocal`
* **jrystal/pseudopotential/nloc.py**
  * `_compute_spherical_harmonics` (19-40): `sphericalRow`
  * `potential_nonlocal_psi_reciprocal` (43-140): `Eigh`, `symmetrize`, `csqrt`, `NlSpecies`, `nlLMax`, `nlPsi`, `nlPsiAll`
  * `potential_nonlocal_psi_reciprocal._get_psi` (103-131): `Eigh`, `symmetrize`, `csqrt`, `nlPsi`, `nlPsiAll`
  * `hamiltonian_nonlocal` (143-158): `hamiltonianNonlocal`
  * `hamiltonian_matrix` (161-214): `ncOperator`, `ncHamiltonianMatrix`
  * `energy_nonlocal` (217-227): `energyNonlocal`
  * `hamiltonian_trace` (230-279): `ncOperator`, `ncXcOperator`, `ncHamiltonianTrace`
* **jrystal/pseudopotential/spherical.py**
  * `cartesian_to_spherical` (33-64): `vecNorm`, `realMod`, `SphCoord`, `cartesianToSpherical`
  * `batch_sph_harm_real` (67-86): `batchSphHarmReal`
  * `batch_sph_harm` (89-121): `SphHarm`, `batchSphHarm`
  * `batch_sph_harm._sph_harm_fun` (117-118): `SphHarm`, `batchSphHarm`
  * `legendre_to_sph_harm` (124-174): `legendreToSphHarm`
  * `legendre_to_sph_harm.fun` (156-172): `legendreToSphHarm`
  * `legendre_to_sph_harm.fun._f` (159-170): `legendreToSphHarm`
  * `legendre_kernel_trick` (177-209): `legendreKernelTrick`
  * `legendre_kernel_trick.phi` (193-194): `legendreKernelTrick`
  * `legendre_kernel_trick.phi` (199-202): `legendreKernelTrick`
* **jrystal/pseudopotential/utils.py**
  * `map_over_atoms` (22-47): `tryMap`, `listIndex`, `mapOverAtoms`
  * `map_over_atoms.map_fun` (39-45): `tryMap`, `listIndex`, `mapOverAtoms`
  * `stack_with_padding` (50-80): `Shaped`, `InShape`, `maxShape`, `padTo`, `stackWithPadding`
* **jrystal/sbt/pysbt.py**
  * `pyNumSBT.__init__` (44-52): `SbtMesh`, `sbtTable`
  * `pyNumSBT.sbt_init` (54-122): `Samples`, `simpsonLoop`, `simpsonWeights`, `meshStep`, `drho`, `rhoMin`, `kappaMin`, `kk`, `rrExt`, `rr15Ext`, `rr15`, `tt`, `postDiv`
  * `pyNumSBT.sbt_mltb` (124-176): `tt`, `mlt1`, `xx`, `ifft`, `SbtMesh.mlt2`, `sbtTable`
  * `pyNumSBT.run` (178-289): `rfft`, `ifft`, `irfft`, `argminUpTo`, `sbtPrefactor`, `SbtDir`, `sbtDir`, `sbtLargeIn`, `sbtLarge`, `sbtSmall`, `sbtJoin`, `sbtZero`, `sbtReturn`, `sbtRow`, `sbtRun`
  * `pyNumSBT.run_int` (291-351): `sbtPrefactor`, `sbtZero`, `sbtReturn`, `sbtRunInt`
* **jrystal/sbt/sbt.py**
  * `sbt` (24-64): `sbtFast`
  * `sbt._sbt` (54-62): `sbtFast`
  * `batch_sbt` (67-102): `Degrees`, `batchLoop`, `batchSbt`
  * `_sbt_hankel` (105-117): `Fht`, `hankelStep`, `hankelOffset`, `sbtHankel`
* **jrystal/sbt/sbt_numerical.py**
  * `sbt` (13-81): `SphBessel`, `deltaR`, `gGrid`, `sbtNumerical`, `sbtRows`

Not modelled:

* setup.py: `_read_requirements` (24-27) – packaging
* docs/conf.py: `setup` (78-80) – documentation build
* jrystal/__init__.py: `get_pkg_path` (39-40) – location of the installed package: the library field `pkgPath`
* jrystal/calc/calc_band_structure_normcons.py: `BandStructureOutput` (46-63) – record that no function of the repository constructs: the drivers return the density, or save a file
* jrystal/calc/calc_ground_state_energy_all_electrons.py: `GroundStateEnergyOutput` (44-60) – record that no function of the repository constructs: the drivers return the density, or save a file
