{
 "claims": [
  {
   "property": "C01",
   "status": "partial",
   "theorems": [
    "Jrystal.fftFactor_least",
    "Jrystal.fftFactor_error_iff",
    "Jrystal.fftFactor_idempotent",
    "Jrystal.fftFactor_monotone",
    "Jrystal.fftFactor_documented_partial",
    "Jrystal.fftFactor_not_documented_least",
    "Jrystal.properGridSize_vec",
    "Jrystal.properGridSize_scalar"
   ],
   "note": "Least 7-smooth size, error exactly when out of range, idempotent, monotone, vector and scalar grid sizes: proved. The documented form with an extra factor 11 or 13 is false of the code (fftFactor_not_documented_least), so the part that does hold is fftFactor_documented_partial."
  },
  {
   "property": "C02",
   "status": "proved",
   "theorems": [
    "Jrystal.grid_duality",
    "Jrystal.grid_duality_exp",
    "Jrystal.gVectors_zero",
    "Jrystal.gVectors_injective",
    "Jrystal.reciprocal_dual",
    "Jrystal.rVectors_fraction"
   ],
   "note": "Real arithmetic; every invertible cell, grid and index pair."
  },
  {
   "property": "C03",
   "status": "proved",
   "theorems": [
    "Jrystal.sphericalMask_iff",
    "Jrystal.sphericalMask_mono",
    "Jrystal.sphericalMask_zero",
    "Jrystal.sphericalMask_neg",
    "Jrystal.gVectors_neg_exists",
    "Jrystal.gridVectorRadius_spec"
   ],
   "note": "Complete; gVectors_neg_exists says when -G is on the grid."
  },
  {
   "property": "C04",
   "status": "partial",
   "theorems": [
    "Jrystal.cubicMask_kept_partial",
    "Jrystal.kept_difference_bound",
    "Jrystal.cubicMask_no_alias_partial",
    "Jrystal.cubicMask_size_two"
   ],
   "note": "True for all axis sizes except 2; for size 2 the code keeps the aliasing frequency -1 (cubicMask_size_two refutes the unrestricted claim)."
  },
  {
   "property": "C05",
   "status": "partial",
   "theorems": [
    "Jrystal.halfShape_count_partial",
    "Jrystal.halfShape_size_two",
    "Jrystal.halfPad_entry",
    "Jrystal.halfPad_total",
    "Jrystal.halfPad_injective",
    "Jrystal.halfPad_zero",
    "Jrystal.halfPad_support_partial"
   ],
   "note": "Padding is proved for all sizes; agreement with the cubic mask for all sizes except 2, where it is false (halfShape_size_two)."
  },
  {
   "property": "C06",
   "status": "proved",
   "theorems": [
    "Jrystal.estimateMaxCutoff_upper",
    "Jrystal.estimateMaxCutoff_attained",
    "Jrystal.estimateMaxCutoff_contains",
    "Jrystal.estimateMaxCutoff_tight"
   ],
   "note": "Complete for non-empty grids (an empty grid raises)."
  },
  {
   "property": "C07",
   "status": "partial",
   "theorems": [
    "Jrystal.r2cell_recovers",
    "Jrystal.r2g_converts",
    "Jrystal.grid_convert_explicit",
    "Jrystal.g2cell_transposes",
    "Jrystal.g2cell_recovers_partial",
    "Jrystal.g2r_converts_partial",
    "Jrystal.g2cell_not_recovered"
   ],
   "note": "r2cell/r2g hold. g2cell_vectors returns the transposed cell, so the claim is false for non-symmetric cells (g2cell_not_recovered) and proved for symmetric ones."
  },
  {
   "property": "C08",
   "status": "proved",
   "theorems": [
    "Jrystal.kVectors_fractional",
    "Jrystal.kVectors_distinct",
    "Jrystal.kVectors_inversion",
    "Jrystal.kVectors_gamma",
    "Jrystal.kVectors_sum_zero"
   ],
   "note": "ASE's monkhorst_pack is written out from its definition."
  },
  {
   "property": "C09",
   "status": "partial",
   "theorems": [
    "Jrystal.translations_lattice",
    "Jrystal.translations_distinct",
    "Jrystal.translations_zero",
    "Jrystal.translations_symmetric_partial",
    "Jrystal.translations_not_symmetric"
   ],
   "note": "Symmetry holds for odd counts only; it is refuted for every even count."
  },
  {
   "property": "C10",
   "status": "partial",
   "theorems": [
    "Jrystal.expandCoefficient_spec",
    "Jrystal.maskCount_spec",
    "Jrystal.paramShape_spec",
    "Jrystal.expandCoefficient_inner",
    "Jrystal.gather_expand",
    "Jrystal.squeezeCoefficient_fails"
   ],
   "note": "Expansion, order, inner products and the inverse gather: proved. squeeze_coefficient itself always raises AttributeError (squeezeCoefficient_fails), so the inverse is proved of its intended gather."
  },
  {
   "property": "C100",
   "status": "partial",
   "theorems": [
    "Jrystal.run_limit_partial",
    "Jrystal.ncRun_limit_partial",
    "Jrystal.ground_attained",
    "Jrystal.groundNC_attained",
    "Jrystal.stops_hot"
   ],
   "note": "Proved in full when there is no convergence test (threshold <= 0) or no smearing. Otherwise the temperature is that of the step at which the test ends the loop, which need not be the requested one (stops_hot). For optimisers within epsilon of the minimum (Spec.NearOptimizer), at least three epochs and a window of at least two values."
  },
  {
   "property": "C101",
   "status": "partial",
   "theorems": [
    "Jrystal.energyNC_derivative_partial",
    "Jrystal.groundStateNC_kohnSham_partial",
    "Jrystal.groundStateNC_eigenstates_partial",
    "Jrystal.groundNC_kohnSham_partial",
    "Jrystal.groundNC_attained",
    "Jrystal.ncHamiltonian_polarised_error",
    "Jrystal.vxc_gga_derivative_wrong"
   ],
   "note": "Proved for one spin channel and LDA functionals, on all grids. On grids with even sizes the matrix need not be Hermitian, so the statements are about its Hermitian part, which is what eigh diagonalises. With two spin channels the Hamiltonian raises (ncHamiltonian_polarised_error); with GGA its potential is not the derivative of the energy (vxc_gga_derivative_wrong)."
  },
  {
   "property": "C102",
   "status": "partial",
   "theorems": [
    "Jrystal.ground_lowest_partial",
    "Jrystal.groundNC_lowest_partial",
    "Jrystal.bandRun_lowest_partial",
    "Jrystal.bandRun_lowest_limit_partial",
    "Jrystal.bandRunNC_lowest_limit_partial",
    "Jrystal.groundNC_aufbau_partial",
    "Jrystal.totalEnergy_derivative_polarised_wrong",
    "Jrystal.vxc_gga_derivative_wrong"
   ],
   "note": "Proved for one spin channel, LDA functionals and no smearing, at k points with an empty band. With two channels or GGA a ground state does not solve the equations of the Hamiltonian of the code. For whole calculations the first stage must end in a ground state, or be accurate enough for the wanted tolerance. With pseudopotentials the path must have the same largest |k + G| as the mesh (beta_path_dependent)."
  },
  {
   "property": "C103",
   "status": "partial",
   "theorems": [
    "Jrystal.fftOn_accepts",
    "Jrystal.fftOn_value_partial",
    "Jrystal.driverFft_correct",
    "Jrystal.fftOn_single",
    "Jrystal.fftOn_wrong",
    "Jrystal.fftOn_shardy",
    "Jrystal.fftOn_noMesh",
    "Jrystal.undefinedPartition_raises",
    "Jrystal.wrappedBatch_shape_wrong"
   ],
   "note": "Proved for every array whose axes -3 and -2 are not divided, in every context in which the call returns; the drivers are such a context. Refuted for arrays divided along those axes, with the Shardy partitioner, and for code compiled for several devices outside a mesh."
  },
  {
   "property": "C104",
   "status": "partial",
   "theorems": [
    "Jrystal.mainCall_iff",
    "Jrystal.mainCall_ignores_load",
    "Jrystal.setEnvParams_spec",
    "Jrystal.setEnvParams_no_leak",
    "Jrystal.setEnvParams_error_iff"
   ],
   "note": "All of it is proved but the option -l, which is read and ignored. JAX's own check of the type of a switch is not modelled."
  },
  {
   "property": "C105",
   "status": "proved",
   "theorems": [
    "Jrystal.sbtHankel_grid",
    "Jrystal.sbtHankel_kmax",
    "Jrystal.sbtHankel_value"
   ],
   "note": "scipy's fast Hankel transform is a parameter. Its output points are the ones scipy documents. The value theorem assumes that it is exact for the given function."
  },
  {
   "property": "C106",
   "status": "partial",
   "theorems": [
    "Jrystal.bands_lipschitz",
    "Jrystal.bandsNC_lipschitz",
    "Jrystal.bandRun_continuous_partial",
    "Jrystal.bandRun_limit_partial",
    "Jrystal.bandRun_lowest_limit_partial",
    "Jrystal.beta_path_partial",
    "Jrystal.beta_path_dependent",
    "Jrystal.bandRunNC_path_partial",
    "Jrystal.bandRunNC_continuous_partial",
    "Jrystal.bandRunNC_limit_partial"
   ],
   "note": "Proved for spin-restricted calculations. With pseudopotentials two paths agree at a common point if their largest |k+G| is the same, and their energies are continuous in the point and in the largest |k+G| together, away from points with k+G = 0; for paths with another largest |k+G| refuted for the projectors. The approach to the exact ground state needs a potential that is continuous in the density, which the local functionals have. Missing: two spin channels; smearing that changes over the epochs; a constant for the step between neighbouring points with projectors, for which the splines and harmonics are only assumed to be continuous."
  },
  {
   "property": "C107",
   "status": "proved",
   "theorems": [
    "Jrystal.totalEnergy_displaced",
    "Jrystal.totalEnergy_slope",
    "Jrystal.ground_displaced",
    "Jrystal.ground_hellmannFeynman",
    "Jrystal.run_displaced",
    "Jrystal.energyNC_displaced",
    "Jrystal.ncRun_displaced",
    "Jrystal.energyNC_slope",
    "Jrystal.groundNC_hellmannFeynman"
   ],
   "note": "All-electron: explicit bound and Hellmann-Feynman derivative. Norm-conserving: one constant for all arrangements, and the Hellmann-Feynman theorem with the derivative of the energy of the frozen state. The repulsion of the nuclei is not part of this claim; C129 adds it."
  },
  {
   "property": "C108",
   "status": "proved",
   "theorems": [
    "Jrystal.ground_hotter",
    "Jrystal.freeEnergy_concave",
    "Jrystal.run_hotter",
    "Jrystal.ncRun_hotter"
   ],
   "note": "For whole calculations the loop must run to its end (no convergence test), since an early end leaves the temperature above the requested one (C98)."
  },
  {
   "property": "C109",
   "status": "proved",
   "theorems": [
    "Jrystal.totalEnergy_supercell",
    "Jrystal.ground_supercell",
    "Jrystal.run_supercell"
   ],
   "note": "All-electron runs without smearing. The repulsion of the nuclei is left out: its sums are cut off at a radius and scale with the cell only in the limit (C13). The plane waves of the larger cell must contain the folded ones; the masks of the code select by G, not by k + G, so equal cutoffs do not ensure this. With smearing the entropy does not scale because of the number eps inside the logarithm."
  },
  {
   "property": "C11",
   "status": "proved",
   "theorems": [
    "Jrystal.pwCoeff_orthonormal",
    "Jrystal.pwCoeff_support",
    "Jrystal.waveGrid_orthonormal",
    "Jrystal.waveGrid_isometry"
   ],
   "note": "QR is a parameter with the contract that q has orthonormal columns."
  },
  {
   "property": "C110",
   "status": "partial",
   "theorems": [
    "Jrystal.bandRun_equivalent_partial",
    "Jrystal.bandRun_trace",
    "Jrystal.bandRun_equivalent_false",
    "Jrystal.spectrum_submatrix",
    "Jrystal.planeWave_move",
    "Jrystal.bands_larger",
    "Jrystal.bandRunNC_equivalent_partial"
   ],
   "note": "The property is false of the code: the plane waves are selected by G, not by k + G, so equivalent points get different sets of waves. Proved: both saved energies lie between the eigenvalues for a larger and for a smaller set of plane waves; the exact difference of the sums for a complete set of bands; a calculation in which the energies differ. Spin-restricted calculations; with pseudopotentials the bounds, for sets of plane waves on the grid."
  },
  {
   "property": "C111",
   "status": "partial",
   "theorems": [
    "Jrystal.run_cell_total_continuous_partial",
    "Jrystal.run_cell_continuous_partial",
    "Jrystal.ground_cell_continuous",
    "Jrystal.repulsion_cell_continuous",
    "Jrystal.mask_stable",
    "Jrystal.sphericalMask_jump",
    "Jrystal.run_few_waves",
    "Jrystal.run_cell_continuous_false",
    "Jrystal.repulsion_cell_jump",
    "Jrystal.run_cell_total_jump"
   ],
   "note": "The property is false of the code: a spherical selection loses plane waves when the cell shrinks through a size for which a plane wave lies on the cutoff, and the number of translations in the Ewald sum jumps where its cutoff is a multiple of the squared length of the sum of the cell vectors. Proved: away from both, calculations for all geometries near the given one succeed with the same grid, and the total energies differ by as little as one likes, up to the accuracy of the optimiser and the entropy; at such a multiple the total energies of all slightly smaller cells are larger by a fixed positive amount; a cell in which the calculation succeeds while it fails in every slightly smaller one. All-electron calculations; C128 is the norm-conserving case."
  },
  {
   "property": "C112",
   "status": "proved",
   "theorems": [
    "Jrystal.energy_scaled",
    "Jrystal.mask_scaled",
    "Jrystal.run_scaled",
    "Jrystal.run_virial",
    "Jrystal.diracLib_homogeneous"
   ],
   "note": "For a homogeneous exchange functional (Dirac exchange is one). The 1e-10 that the code adds to the squared reciprocal vectors enters the bound explicitly, and the repulsion of the nuclei enters the virial theorem through the difference of the reported repulsions. All-electron calculations without smearing for the virial theorem."
  },
  {
   "property": "C113",
   "status": "proved",
   "theorems": [
    "Jrystal.energies_axes_reordered",
    "Jrystal.ewald_axes",
    "Jrystal.run_axes_reordered",
    "Jrystal.ncRun_axes_reordered",
    "Jrystal.run_grid_shift",
    "Jrystal.energies_grid_shift",
    "Jrystal.attainable_grid_shift",
    "Jrystal.bands_axes_reordered",
    "Jrystal.bandRun_axes_reordered"
   ],
   "note": "Whole calculations agree up to the accuracy of the optimiser, because the starting point and the path of the optimisation do depend on the order of the axes and on the origin; the energies of corresponding states, the repulsion of the nuclei and the selection of plane waves agree exactly. The order of the axes is covered for all-electron and norm-conserving calculations, the grid origin for all-electron ones (with pseudopotentials the code's projectors do not follow the atoms, see C61). Band energies of corresponding densities agree for functionals without gradients (all-electron, restricted); with gradients the potential of the code is not the derivative of the energy, see C87."
  },
  {
   "property": "C114",
   "status": "partial",
   "theorems": [
    "Jrystal.run_electrons_partial",
    "Jrystal.ncRun_electrons_partial",
    "Jrystal.run_noise",
    "Jrystal.run_noise_wrong",
    "Jrystal.ncRun_noise",
    "Jrystal.ncRun_noise_wrong",
    "Jrystal.run_update_fault",
    "Jrystal.ncRun_update_fault"
   ],
   "note": "False for uniform and gamma occupations with an optimiser that adds noise (noisy_sgd of optax): the occupation array is a parameter, stop_gradient makes its gradient zero but does not keep the noise away from it. The density holds the electrons of the crystal plus the sum of the noise of all steps. Optimisers with weight decay return no density at all, see C118. Proved for optimisers that leave parameters of zero gradient alone and for the trainable occupation methods with every optimiser. All-electron and norm-conserving calculations."
  },
  {
   "property": "C115",
   "status": "partial",
   "theorems": [
    "Jrystal.schedule_elements_partial",
    "Jrystal.history_last_saved",
    "Jrystal.history_other_files",
    "Jrystal.schedule_saved",
    "Jrystal.schedule_other_files",
    "Jrystal.outcome_name",
    "Jrystal.outcome_name_elements",
    "Jrystal.table_chemicalSymbols",
    "Jrystal.history_same_elements",
    "Jrystal.history_interrupted_write"
   ],
   "note": "False in two ways: the name of the file is made of the element symbols only, so calculations for the same elements overwrite each other (history_same_elements), and the file is emptied before the array is written, so a calculation killed at that point destroys an earlier result (history_interrupted_write). Proved for crystals with different sequences of elements, under every schedule and every history. Two calculations that write one file at the same time are not modelled."
  },
  {
   "property": "C116",
   "status": "partial",
   "theorems": [
    "Jrystal.saves_agree_ended_partial",
    "Jrystal.saves_agree",
    "Jrystal.saves_in_turn",
    "Jrystal.saves_succeed",
    "Jrystal.saves_one_survives",
    "Jrystal.save_killed",
    "Jrystal.saves_race",
    "Jrystal.saves_interleave",
    "Jrystal.saves_mixed",
    "Jrystal.save_killed_loses"
   ],
   "note": "False in three ways: two processes that both find the directory missing race to make it and one raises (saves_race); two processes that save different lists can both return and leave a file that holds neither (saves_mixed); a save that is killed destroys the list that was there (save_killed_loses). Proved for every schedule: calls one after the other, calls that save the same list however their writes are interleaved, and no exception when the directory exists. A load reads the file in one action."
  },
  {
   "property": "C117",
   "status": "proved",
   "theorems": [
    "Jrystal.run_order",
    "Jrystal.ncRun_order",
    "Jrystal.bandRun_order",
    "Jrystal.bandRunNC_order",
    "Jrystal.functional_order",
    "Jrystal.run_functional",
    "Jrystal.ncRun_functional",
    "Jrystal.bandRun_functional",
    "Jrystal.bandRunNC_functional",
    "Jrystal.xcEnergy_names",
    "Jrystal.pyIn_joined"
   ],
   "note": "All four drivers, exceptions included. A mixture of functionals with and without gradients adds up when the latter ignore the gradients (Spec.IgnoresGradient), which is a contract on the library. Names that the library does not know are not modelled."
  },
  {
   "property": "C118",
   "status": "partial",
   "theorems": [
    "Jrystal.run_complete_partial",
    "Jrystal.ncRun_complete_partial",
    "Jrystal.run_update_fault",
    "Jrystal.ncRun_update_fault",
    "Jrystal.bandRun_update_fault",
    "Jrystal.bandRunNC_update_fault"
   ],
   "note": "False for optimisers whose update must be given more than the gradient and the state: the drivers call optimizer.update(grad, opt_state), and the optimisers of optax with weight decay (adamw, lamb, lion) raise ValueError when the parameters are missing, those with a line search TypeError. Every admissible calculation ends with that exception in the first step. Which optimisers do so is a fact about optax and a parameter of the model. Proved for all others that keep the shapes of the parameters."
  },
  {
   "property": "C119",
   "status": "partial",
   "theorems": [
    "Jrystal.run_accepted",
    "Jrystal.run_refuses_partial",
    "Jrystal.run_one_wave",
    "Jrystal.run_spin_excess",
    "Jrystal.ncRun_accepted",
    "Jrystal.ncRun_refuses_partial",
    "Jrystal.ncRun_one_wave"
   ],
   "note": "run_accepted and ncRun_accepted state exactly which input the two ground-state calculations accept. Two kinds of impossible input are among it. With exactly one selected plane wave the einsum of the density repeats the single orbital for every band, so any number of electrons is put into it. A spin that the bands cannot hold is checked for parity only. Otherwise inconsistent input raises and consistent input returns. Assumed: a cell with a volume, a cutoff energy that is not negative, an optimiser that keeps the shape of the occupation parameters."
  },
  {
   "property": "C12",
   "status": "proved",
   "theorems": [
    "Jrystal.waveGrid_expansion"
   ],
   "note": "Exact arithmetic, every invertible cell and grid."
  },
  {
   "property": "C120",
   "status": "partial",
   "theorems": [
    "Jrystal.bandRun_accepted",
    "Jrystal.bandRun_refuses_partial",
    "Jrystal.bandRun_mixed",
    "Jrystal.bandRunNC_accepted",
    "Jrystal.bandRunNC_fewer"
   ],
   "note": "bandRun_accepted and bandRunNC_accepted state exactly which input the two band-structure calculations accept. With at least as many plane waves as bands the all-electron calculation saves a file exactly for consistent settings, with the number of points and bands asked for (bandRun_refuses_partial, shape and values by bandRun_saved and bandRun_channels of C90). With fewer plane waves it can still save a file, if the path has more points than asked for and the sizes happen to agree; the energies of different points are then mixed (bandRun_mixed). The norm-conserving calculation silently saves fewer bands (bandRunNC_fewer) and takes the number of points from the path."
  },
  {
   "property": "C121",
   "status": "partial",
   "theorems": [
    "Jrystal.proj_nonexpansive",
    "Jrystal.projJvp_derivative_partial",
    "Jrystal.projJvp_derivative_ae",
    "Jrystal.projJvp_total_partial",
    "Jrystal.simplexProjectorJvp_derivative_partial",
    "Jrystal.simplexProjector_differentiable_ae",
    "Jrystal.simplexProjectorJvp_total_partial",
    "Jrystal.projJvp_kink",
    "Jrystal.simplexProjectorJvp_leak"
   ],
   "note": "Automatic differentiation (the rules of sort, cumulative sum, select, maximum and minimum, with the cut-off position held constant) gives the derivative of the occupations wherever they have one (projJvp_derivative_partial, simplexProjectorJvp_derivative_partial), and that is almost everywhere (projJvp_derivative_ae, simplexProjector_differentiable_ae). There it conserves the electrons (simplexProjectorJvp_total_partial). Missing: at a kink, where an occupation is just about to be cut off, there is no derivative, and the computed direction changes the number of electrons to first order (projJvp_kink, simplexProjectorJvp_leak). A channel that is empty or full is excluded as in C17 and C18. Reverse mode is the transpose of these rules and is not modelled separately."
  },
  {
   "property": "C122",
   "status": "partial",
   "theorems": [
    "Jrystal.occupation_stationary",
    "Jrystal.energyJvp_gradient_partial",
    "Jrystal.occupation_stationary_optimal_partial",
    "Jrystal.occupation_start_cut",
    "Jrystal.occupation_stuck",
    "Jrystal.projJvp_stationary",
    "Jrystal.projJvp_cut"
   ],
   "note": "The gradient of an energy with respect to the parameters vanishes exactly if in each spin channel all fractionally occupied bands have the same orbital energy (occupation_stationary); with a convex energy and no empty or full band that is the global minimum over all occupations with the same totals (occupation_stationary_optimal_partial). Missing, because false: with an empty band the gradient can be zero at occupations that are not optimal (occupation_stuck), and at the starting parameters almost half of all bands of all k points are empty with zero gradient once there are enough bands (occupation_start_cut; with eight electrons, twelve bands and 27 k points the first eleven k points hold no electron)."
  },
  {
   "property": "C123",
   "status": "partial",
   "theorems": [
    "Jrystal.band_gradient_accuracy",
    "Jrystal.band_gradient_zero_partial",
    "Jrystal.band_gradient_zero_any",
    "Jrystal.band_gradient_zero_not_lowest",
    "Jrystal.band_gradient_accuracyNC",
    "Jrystal.band_gradient_zeroNC_partial",
    "Jrystal.band_gradient_zero_anyNC"
   ],
   "note": "Both band drivers. At independent parameters the objective of a k point has a gradient, and each reported energy is within half the product of the lengths of gradient and parameters of an exact eigenvalue of its own (band_gradient_accuracy, band_gradient_accuracyNC); where the gradient vanishes all reported energies are exact eigenvalues. Missing, because false: that they are the lowest. Every choice of eigenvalues is reported somewhere with gradient zero (band_gradient_zero_any), also above the lowest (band_gradient_zero_not_lowest). One density channel, no more bands than plane waves."
  },
  {
   "property": "C124",
   "status": "partial",
   "theorems": [
    "Jrystal.energy_gradient_kohnSham_partial",
    "Jrystal.energy_gradient_eigenstates_partial",
    "Jrystal.energy_gradient_extremes",
    "Jrystal.driver_gradient_kohnSham_partial",
    "Jrystal.energyNC_gradient_kohnSham_partial",
    "Jrystal.driverNC_gradient_kohnSham_partial"
   ],
   "note": "total_energy and the minimised functions of both ground-state drivers, for fixed occupations. At independent plane-wave parameters the gradient exists and vanishes exactly where the bands solve the Kohn-Sham equations of their own density; then diagonalising hamiltonian_matrix gives eigenstates of the plane-wave Hamiltonian. energy_gradient_extremes: states of least and of greatest energy exist and are among these points, so a zero gradient does not by itself mean the ground state. Missing: two spin channels and GGA functionals, where the Hamiltonian of the code is not the derivative of the energy (C87); C126 covers them with the textbook Hamiltonian."
  },
  {
   "property": "C125",
   "status": "partial",
   "theorems": [
    "Jrystal.driver_gradient_fermiLevel_partial",
    "Jrystal.driverNC_gradient_fermiLevel_partial",
    "Jrystal.partlyFilled_fermiDirac",
    "Jrystal.driver_gradient_selfConsistent_partial",
    "Jrystal.driverNC_gradient_selfConsistent_partial"
   ],
   "note": "The minimised functions of both ground-state drivers with simplex-projector, as functions of the plane-wave and of the occupation parameters, at any temperature. The gradient is zero in both exactly at self-consistent solutions: Kohn-Sham equations for the bands and one Fermi level for the partly filled bands of each spin channel (a Fermi-Dirac distribution up to an error proportional to eps). Missing: parameters where the occupations have no derivative (measure zero, see selfConsistent_ae in C132); two channels and GGA functionals are covered by C126."
  },
  {
   "property": "C126",
   "status": "partial",
   "theorems": [
    "Jrystal.energy_gradient_spin",
    "Jrystal.energyNC_gradient_spin",
    "Jrystal.driver_gradient_spin",
    "Jrystal.driverNC_gradient_spin",
    "Jrystal.driver_selfConsistent_spin_partial",
    "Jrystal.driverNC_selfConsistent_spin_partial",
    "Jrystal.channelLevels_fermiDirac",
    "Jrystal.kohnShamBands_eigenstates",
    "Jrystal.xcEnergy_derivative_lda2",
    "Jrystal.xcEnergy_derivative_gga1",
    "Jrystal.xcEnergy_derivative_gga2"
   ],
   "note": "Any number of spin channels and every functional with a functional derivative: total_energy, the energy of valence electrons and the minimised functions of both drivers. The gradient is zero exactly at Kohn-Sham states of the textbook Hamiltonian (not of hamiltonian_matrix, which is wrong there, see C87), and with simplex-projector exactly at self-consistent states with a Fermi level for each channel. The functional derivative is given in closed form for polarised LDA and for GGA with one and two channels. Missing: parameters where the occupations have no derivative (measure zero)."
  },
  {
   "property": "C127",
   "status": "partial",
   "theorems": [
    "Jrystal.ground_kohnSham_spin",
    "Jrystal.groundNC_kohnSham_spin",
    "Jrystal.ground_lowest_spin_partial",
    "Jrystal.groundNC_lowest_spin_partial",
    "Jrystal.run_selfConsistent_spin_partial",
    "Jrystal.ncRun_selfConsistent_spin_partial"
   ],
   "note": "Any number of spin channels and every functional with a functional derivative at the density of the ground state (closed forms in C126). Ground states of total_energy and of the energy of valence electrons solve the Kohn-Sham equations of the textbook Hamiltonian and have a Fermi level in each channel; without smearing the occupied bands are the lowest ones. Whole calculations of both drivers report the density of such a state up to any tolerance if the optimiser is good enough. Missing: k points without an empty band for the lowest bands; how good the optimiser has to be is not computed."
  },
  {
   "property": "C128",
   "status": "partial",
   "theorems": [
    "Jrystal.groundNC_cell_continuous",
    "Jrystal.ncRun_cell_continuous_partial",
    "Jrystal.ncRun_cell_total_continuous_partial",
    "Jrystal.ncRun_cell_total_jump",
    "Jrystal.harmonics_continuous"
   ],
   "note": "Whole calculations with norm-conserving pseudopotentials, from the files to the total energy: local potential, projectors, spherical harmonics and radial tables are followed through changes of cell and positions. Bessel functions and splines enter by their continuity, harmonics by the addition theorem. Missing: cells with a plane wave on the cutoff and cells on a step of the Ewald sum, where the code is not continuous (ncRun_cell_total_jump, sphericalMask_jump), and degenerate radial tables, whose largest wave vector is at most 0.0001."
  },
  {
   "property": "C129",
   "status": "proved",
   "theorems": [
    "Jrystal.run_position_continuous",
    "Jrystal.ncRun_position_continuous",
    "Jrystal.repulsion_slope",
    "Jrystal.repulsion_forces_balance",
    "Jrystal.ground_forces",
    "Jrystal.ground_equilibrium",
    "Jrystal.groundNC_forces",
    "Jrystal.groundNC_equilibrium"
   ],
   "note": "Whole calculations of both drivers, the repulsion of the nuclei included, with no condition on cell or cutoffs; the forces are those of the computed Ewald sum with the complementary error function of analysis. Real numbers instead of floats; nuclei at least about 1e-9 apart, below which the code drops their interaction."
  },
  {
   "property": "C13",
   "status": "proved",
   "theorems": [
    "Jrystal.densityGrid_nonneg",
    "Jrystal.densityGrid_integral",
    "Jrystal.waveToDensity_eq",
    "Jrystal.densityGrid_expansion"
   ],
   "note": "Complete in exact arithmetic."
  },
  {
   "property": "C130",
   "status": "proved",
   "theorems": [
    "Jrystal.ncRun_from_files",
    "Jrystal.bandNC_from_files",
    "Jrystal.potentials_from_files",
    "Jrystal.createPseudo_files",
    "Jrystal.samplesOf_list"
   ],
   "note": "Whole norm-conserving ground-state and band calculations. The transforms are the left Riemann sums and splines that the code computes; the spline, the Bessel functions, the directory listing and the XML parser are arbitrary. Real numbers instead of floats."
  },
  {
   "property": "C131",
   "status": "proved",
   "theorems": [
    "Jrystal.vxc_gga_stationary",
    "Jrystal.vxc_gga_stationary_polarised"
   ],
   "note": "For the potential on the grid, one and two spin channels; the cross term of two channels is not masked in the code and is not claimed. Leaving the terms out is one reason why the potential is not the derivative of the energy (C87)."
  },
  {
   "property": "C132",
   "status": "proved",
   "theorems": [
    "Jrystal.draw_independent",
    "Jrystal.params_independent_ae",
    "Jrystal.draw_gradient",
    "Jrystal.draw_gradientNC",
    "Jrystal.selfConsistent_ae",
    "Jrystal.selfConsistentNC_ae"
   ],
   "note": "The draws are modelled as exact real numbers, uniform on [0, 1) and independent; floats and the generator are not. The QR factorisation is any with triangular second factor, the functional any with a functional derivative at the densities that occur, one or two spin channels. With simplex-projector the equivalence of a zero gradient and a self-consistent solution (C125, C126) holds for almost all plane-wave and occupation parameters together."
  },
  {
   "property": "C133",
   "status": "proved",
   "theorems": [
    "Jrystal.driver_idempotent_gradient",
    "Jrystal.driverNC_idempotent_gradient",
    "Jrystal.idempotent_projector",
    "Jrystal.keepsLevels_whole",
    "Jrystal.keepsLevels_chosen",
    "Jrystal.idem_draw_independent"
   ],
   "note": "At plane-wave and occupation parameters with independent columns, which random draws have with probability one (C132 and idem_draw_independent). Both QR factorisations are any with triangular second factor, the functional any with a functional derivative at the density that occurs, one or two spin channels, temperature zero or not. Exact real arithmetic. The clipping of the entropy at eps is part of entropySlope. The converse warning is keepsLevels_chosen: filling any chosen states completely is stationary in the occupations, also if they are not the lowest."
  },
  {
   "property": "C134",
   "status": "proved",
   "theorems": [
    "Jrystal.driver_descent",
    "Jrystal.driverNC_descent",
    "Jrystal.driver_descent_run",
    "Jrystal.driverNC_descent_run",
    "Jrystal.driver_idempotent_descent",
    "Jrystal.driverNC_idempotent_descent",
    "Jrystal.closed_shell_equal"
   ],
   "note": "Plain gradient descent in exact real arithmetic, at parameters with independent columns (random draws have them with probability one, C132). Whole runs are shown for equally occupied bands (closed_shell_equal: closed shells without empty bands); with unequal occupations one step is shown safe for all but finitely many step sizes. Optimizers with momentum or per-entry scaling are not covered. QR is any with triangular second factor."
  },
  {
   "property": "C135",
   "status": "proved",
   "theorems": [
    "Jrystal.band_descent_converges",
    "Jrystal.band_descent_convergesNC",
    "Jrystal.band_descent_rate",
    "Jrystal.band_descent_rateNC",
    "Jrystal.band_path_run",
    "Jrystal.band_path_runNC",
    "Jrystal.descent_run_exists"
   ],
   "note": "Plain gradient descent at one k point in exact real arithmetic; the step sizes may change from step to step between any two positive bounds. The density has one spin channel (with two the norm-conserving objective itself is off, C72). The constant of the rate may depend on the run. Each energy has a limit, but which eigenvalue it is is not settled: they need not be the lowest (band_gradient_zero_not_lowest). The start needs independent bands, which random draws have with probability one (C132) and which every step keeps, so the end of one k point can start the next (band_path_run). The optimizers with momentum or per-entry scaling are not covered. QR is any with triangular second factor."
  },
  {
   "property": "C136",
   "status": "proved",
   "theorems": [
    "Jrystal.band_descent_lowest",
    "Jrystal.band_descent_lowestNC",
    "Jrystal.lowest_start_exists",
    "Jrystal.lowest_start_existsNC"
   ],
   "note": "Plain gradient descent at one k point in exact real arithmetic; the bound on the step size is shown to exist for every start and is not given as a number of the configuration. There must be more plane waves than bands (otherwise all energies are exact from the start, C72). Without the condition on the start the limit may be a higher eigenvalue (band_gradient_zero_not_lowest). The density has one spin channel. QR is any with triangular second factor."
  },
  {
   "property": "C137",
   "status": "proved",
   "theorems": [
    "Jrystal.band_descent_ground",
    "Jrystal.band_descent_groundNC",
    "Jrystal.band_descent_ground_random",
    "Jrystal.band_descent_ground_randomNC",
    "Jrystal.draw_overlap"
   ],
   "note": "Only the lowest band; the energies of higher bands converge to eigenvalues in order (C135) and to the lowest ones under the conditions of C136. Plain gradient descent at one k point in exact real arithmetic, with all step sizes between two positive bounds. Random starts are independent uniform draws, as the code makes them when it creates parameters; a warm start from the previous k point is covered by the theorems that assume an overlap. Without an overlap the claim fails: band_gradient_zero_not_lowest (C123) has a start where the gradient is zero at a higher level. The density has one spin channel. QR is any with triangular second factor."
  },
  {
   "property": "C14",
   "status": "proved",
   "theorems": [
    "Jrystal.densityReciprocal_zero",
    "Jrystal.densityReciprocal_hermitian",
    "Jrystal.waveToDensityReciprocal_eq"
   ],
   "note": "Complete."
  },
  {
   "property": "C15",
   "status": "partial",
   "theorems": [
    "Jrystal.ifftn_fftn",
    "Jrystal.fftn_ifftn",
    "Jrystal.reciprocalBraket_parseval",
    "Jrystal.realBraket_partial",
    "Jrystal.realBraket_no_conj",
    "Jrystal.realBraket_leading",
    "Jrystal.reciprocalBraket_leading",
    "Jrystal.reciprocalBraket_leading_wrong",
    "Jrystal.expectation_modes"
   ],
   "note": "True for arrays of shape x y z and real bra. real_braket does not conjugate its bra (realBraket_no_conj) and both brakets divide by the size of the whole array including leading axes (reciprocalBraket_leading_wrong)."
  },
  {
   "property": "C16",
   "status": "proved",
   "theorems": [
    "Jrystal.densityGrid_mix",
    "Jrystal.kinetic_mix",
    "Jrystal.totalEnergy_mix",
    "Jrystal.kinetic_mix_unequal"
   ],
   "note": "All unitary mixings of bands of equal occupation; kinetic_mix_unequal shows equality is needed."
  },
  {
   "property": "C17",
   "status": "partial",
   "theorems": [
    "Jrystal.proj_nearest_partial",
    "Jrystal.proj_zero_iff",
    "Jrystal.proj_full_iff",
    "Jrystal.proj_zero_sum_iff",
    "Jrystal.proj_full_sum_iff",
    "Jrystal.proj_endpoint_counterexample"
   ],
   "note": "For every total strictly between 0 and n the result is the unique nearest admissible vector. At the end points the claim holds only for constant input (iff theorems), so it is false there."
  },
  {
   "property": "C18",
   "status": "partial",
   "theorems": [
    "Jrystal.simplexProjector_unrestricted_partial",
    "Jrystal.simplexProjector_restricted_partial",
    "Jrystal.simplexProjector_empty_channel",
    "Jrystal.simplexProjector_full_channel"
   ],
   "note": "True for all parameters when each channel is neither empty nor full; refuted for an empty or full channel with any non-constant parameters."
  },
  {
   "property": "C19",
   "status": "partial",
   "theorems": [
    "Jrystal.uniform_gamma_total",
    "Jrystal.uniform_conserves_partial",
    "Jrystal.gamma_conserves_partial",
    "Jrystal.uniform_gamma_default_bands_partial",
    "Jrystal.uniform_restricted",
    "Jrystal.gamma_restricted",
    "Jrystal.uniform_gamma_loses_electrons"
   ],
   "note": "Exact total for every argument; conservation under parity and enough bands, refuted otherwise."
  },
  {
   "property": "C20",
   "status": "partial",
   "theorems": [
    "Jrystal.idempotent_bounds_unrestricted",
    "Jrystal.idempotent_bounds_restricted",
    "Jrystal.idempotent_total",
    "Jrystal.idempotent_conserves_partial",
    "Jrystal.idempotent_restricted_total"
   ],
   "note": "Bounds for all weights. The total is right for parameters initialised unrestricted; parameters initialised restricted give num_electrons + spin (refuted for spin != 0)."
  },
  {
   "property": "C21",
   "status": "partial",
   "theorems": [
    "Jrystal.occupation_unknown_method",
    "Jrystal.driver_uniform_gamma_partial",
    "Jrystal.driver_uniform_truncates",
    "Jrystal.driver_idempotent",
    "Jrystal.driver_simplex_partial",
    "Jrystal.driver_hydrogen",
    "Jrystal.driverNC_channels",
    "Jrystal.driverNC_same"
   ],
   "note": "Dispatch errors complete. Driver totals hold for small spins only; refuted for large spins, for the idempotent method with spin, for hydrogen, and the norm-conserving driver's channel count."
  },
  {
   "property": "C22",
   "status": "proved",
   "theorems": [
    "Jrystal.entropy_symmetric",
    "Jrystal.entropy_concave",
    "Jrystal.entropy_max",
    "Jrystal.entropy_max_unique",
    "Jrystal.entropy_reorder",
    "Jrystal.entropy_full_band"
   ],
   "note": "All clauses, for every array shape and eps > 0, plus uniqueness of the maximum."
  },
  {
   "property": "C23",
   "status": "proved",
   "theorems": [
    "Jrystal.hartree_formula",
    "Jrystal.hartree_kohn_sham",
    "Jrystal.hartree_nonneg",
    "Jrystal.hartree_scale",
    "Jrystal.hartree_spin_sum",
    "Jrystal.hartree_constant"
   ],
   "note": "Complete in exact arithmetic."
  },
  {
   "property": "C24",
   "status": "proved",
   "theorems": [
    "Jrystal.external_formula",
    "Jrystal.external_linear_density",
    "Jrystal.external_linear_charge",
    "Jrystal.external_lattice",
    "Jrystal.external_permute",
    "Jrystal.external_translate",
    "Jrystal.external_no_zero",
    "Jrystal.external_softening"
   ],
   "note": "Includes the exact effect of the 1e-10 added to |G|^2."
  },
  {
   "property": "C25",
   "status": "proved",
   "theorems": [
    "Jrystal.kinetic_formula",
    "Jrystal.kineticBands_formula",
    "Jrystal.kinetic_nonneg",
    "Jrystal.kinetic_linear",
    "Jrystal.kinetic_expectation",
    "Jrystal.kinetic_cutoff"
   ],
   "note": "Complete in exact arithmetic."
  },
  {
   "property": "C26",
   "status": "proved",
   "theorems": [
    "Jrystal.totalEnergy_sum",
    "Jrystal.totalEnergy_parts",
    "Jrystal.totalEnergy_ones",
    "Jrystal.totalEnergy_succeeds",
    "Jrystal.totalEnergy_lattice"
   ],
   "note": "The exchange-correlation library functions are parameters."
  },
  {
   "property": "C27",
   "status": "partial",
   "theorems": [
    "Jrystal.xc_unpolarised_limit",
    "Jrystal.correlation_polarised",
    "Jrystal.exchange_spin_scaling_error",
    "Jrystal.exchange_spin_scaling_partial",
    "Jrystal.exchange_spin_scaling_iff",
    "Jrystal.exchange_spin_scaling_fails",
    "Jrystal.xc_combined_is_exchange"
   ],
   "note": "The unpolarised limit is proved. The spin-scaling relation is false of the code: the exact error is exchange_spin_scaling_error and it vanishes only for equal spin densities (exchange_spin_scaling_iff)."
  },
  {
   "property": "C28",
   "status": "proved",
   "theorems": [
    "Jrystal.sigma_admissible",
    "Jrystal.sigma_total",
    "Jrystal.sigma_constant",
    "Jrystal.gradRho_is_gradient"
   ],
   "note": "Complete, plus: the gradient is that of the trigonometric interpolant."
  },
  {
   "property": "C29",
   "status": "proved",
   "theorems": [
    "Jrystal.ewald_formula",
    "Jrystal.ewald_translate",
    "Jrystal.ewald_permute",
    "Jrystal.ewald_invert",
    "Jrystal.ewald_scale",
    "Jrystal.ewald_zero_charge",
    "Jrystal.ewald_translations_order",
    "Jrystal.ewald_lattice_move",
    "Jrystal.ewald_self_term",
    "Jrystal.ewald_reciprocal_nonneg"
   ],
   "note": "erfc is a parameter; the closed formula is proved for every translation list, and the symmetries follow. Moving an atom by a lattice vector leaves the reciprocal part unchanged; the truncated real-space sum may change. In the limit of large cutoffs it does not (C95)."
  },
  {
   "property": "C30",
   "status": "partial",
   "theorems": [
    "Jrystal.hartreePotential_real_iff",
    "Jrystal.hartreePotential_real_partial",
    "Jrystal.hartreePotential_real_orthogonal",
    "Jrystal.hartreePotential_not_real",
    "Jrystal.hartreePotential_mean_zero",
    "Jrystal.hartreePotential_energy"
   ],
   "note": "Mean zero and energy consistency: proved. Reality holds exactly when |G| agrees at opposite grid indices: always for odd sizes or orthogonal reciprocal vectors, but not for even sizes of a skew cell (hartreePotential_not_real)."
  },
  {
   "property": "C31",
   "status": "partial",
   "theorems": [
    "Jrystal.effectivePotential_channels",
    "Jrystal.hamiltonianMatrix_elements",
    "Jrystal.hamiltonianMatrix_hermitian",
    "Jrystal.hamiltonianMatrix_elements_partial",
    "Jrystal.hamiltonianMatrix_polarised",
    "Jrystal.hamiltonianMatrix_polarised_wrong",
    "Jrystal.hamiltonianTrace_partial",
    "Jrystal.hamiltonianTrace_polarised_error",
    "Jrystal.hamiltonianTrace_one",
    "Jrystal.hamiltonianMatrix_mix",
    "Jrystal.hamiltonianMatrixBasis_elements",
    "Jrystal.hamiltonianMatrix_compress"
   ],
   "note": "Always Hermitian; the advertised elements for one spin channel. With a polarised potential both spins get 2T + V_up + V_down (hamiltonianMatrix_polarised_wrong); the trace form raises for three or more k points and returns one axis fewer than documented."
  },
  {
   "property": "C32",
   "status": "proved",
   "theorems": [
    "Jrystal.complexHessian_form",
    "Jrystal.complexHessian_hermitian",
    "Jrystal.complexHessian_affine"
   ],
   "note": "JAX's complex reverse mode is modelled through the real Frechet derivative."
  },
  {
   "property": "C33",
   "status": "partial",
   "theorems": [
    "Jrystal.expectation_diag",
    "Jrystal.expectation_hermitian",
    "Jrystal.expectation_bad_mode",
    "Jrystal.expectation_lead_kpt",
    "Jrystal.expectation_unpolarised_partial",
    "Jrystal.expectation_spin_axis_wrong"
   ],
   "note": "Diagonal and Hermitian: proved. A four-axis operator is matched with k points, not spins (expectation_spin_axis_wrong); correct for one spin channel."
  },
  {
   "property": "C34",
   "status": "partial",
   "theorems": [
    "Jrystal.nonlocal_partial",
    "Jrystal.nonlocal_actual",
    "Jrystal.nonlocal_dmatrix_iff",
    "Jrystal.nonlocal_germanium_wrong",
    "Jrystal.nonlocal_position_wrong",
    "Jrystal.nonlocal_hermitian",
    "Jrystal.nonlocal_nonneg",
    "Jrystal.energyNonlocal_trace",
    "Jrystal.energyNonlocal_nonneg",
    "Jrystal.nonlocal_lattice"
   ],
   "note": "Hermiticity and the occupation-weighted trace hold without restriction. The D matrix is realised only for diagonal, ascending, nonnegative D and atoms paired by inversion; nonlocal_dmatrix_iff shows the condition on D is also necessary, and the shipped germanium D violates it. eigh is a parameter with its contract."
  },
  {
   "property": "C35",
   "status": "proved",
   "theorems": [
    "Jrystal.local_errors",
    "Jrystal.local_formula",
    "Jrystal.local_additive",
    "Jrystal.local_permute",
    "Jrystal.local_lattice",
    "Jrystal.local_translate",
    "Jrystal.local_coulomb",
    "Jrystal.energyLocal_integral",
    "Jrystal.hamiltonianLocal_energy"
   ],
   "note": "The spline and spherical Bessel routines are parameters; local_coulomb needs only that the spline of zero data is zero."
  },
  {
   "property": "C36",
   "status": "proved",
   "theorems": [
    "Jrystal.check_iff",
    "Jrystal.checker_history",
    "Jrystal.reset_restores",
    "Jrystal.check_never"
   ],
   "note": "Every history of calls; values may be non-finite; std of an empty window is nan."
  },
  {
   "property": "C37",
   "status": "partial",
   "theorems": [
    "Jrystal.optimise_spec",
    "Jrystal.optimise_energy_partial",
    "Jrystal.optimise_energy_fixed_partial",
    "Jrystal.optimise_energy_stale",
    "Jrystal.optimise_no_epoch",
    "Jrystal.gsLoop_refines",
    "Jrystal.gsRun_history"
   ],
   "note": "Number of updates, flag and returned iterate: proved. The reported energy is that of the previous iterate (refuted as stated) and is unbound for epoch <= 0."
  },
  {
   "property": "C38",
   "status": "partial",
   "theorems": [
    "Jrystal.temperature_anneals_partial",
    "Jrystal.temperature_zero",
    "Jrystal.temperature_geometric",
    "Jrystal.temperature_short",
    "Jrystal.temperature_hot"
   ],
   "note": "Holds for 0 < smearing < 100 and epoch >= 2; refuted outside."
  },
  {
   "property": "C39",
   "status": "partial",
   "theorems": [
    "Jrystal.band_normcons_order",
    "Jrystal.band_all_electrons_order_partial",
    "Jrystal.band_all_electrons_serial_fails",
    "Jrystal.band_uneven_rejected"
   ],
   "note": "Order of the k-points for every device count dividing the path. The all-electron driver fails when the devices are not used (refuted); uneven paths are rejected."
  },
  {
   "property": "C40",
   "status": "partial",
   "theorems": [
    "Jrystal.getConfig_file",
    "Jrystal.getConfig_error_iff",
    "Jrystal.getConfig_default",
    "Jrystal.getConfig_keys_partial",
    "Jrystal.getConfig_no_defaults"
   ],
   "note": "Keys of the file are kept and the null entry is filled. Defaults are never merged into a file configuration (refuted for every omitted key)."
  },
  {
   "property": "C41",
   "status": "partial",
   "theorems": [
    "Jrystal.beta_cache_round_trip_partial",
    "Jrystal.beta_cache_explicit_fails",
    "Jrystal.beta_cache_missing"
   ],
   "note": "Round trip for the default file name, every list and file system. An explicit file name always raises UnboundLocalError (refuted)."
  },
  {
   "property": "C42",
   "status": "proved",
   "theorems": [
    "Jrystal.mapOverAtoms_spec",
    "Jrystal.mapOverAtoms_short",
    "Jrystal.stackWithPadding_error",
    "Jrystal.stackWithPadding_spec",
    "Jrystal.preCalcBeta_schedule",
    "Jrystal.betaSbtGrid_spec",
    "Jrystal.preCalcBeta_single_cpu"
   ],
   "note": "Every completion schedule of the pool. With one processor the pool raises ValueError."
  },
  {
   "property": "C43",
   "status": "partial",
   "theorems": [
    "Jrystal.fftn_transpose",
    "Jrystal.ifftn_transpose",
    "Jrystal.transpose_unique",
    "Jrystal.fftn_jvp",
    "Jrystal.ifftn_jvp",
    "Jrystal.fftn_batching",
    "Jrystal.batching_shape",
    "Jrystal.ifftn_batching",
    "Jrystal.fftn3d_value",
    "Jrystal.fftn3d_rank",
    "Jrystal.fftAbstract_dtype"
   ],
   "note": "Transpose, tangent and batching rules proved for all ranks and sizes. The abstract evaluation announces the input's data type, which is wrong for real input (fftAbstract_dtype)."
  },
  {
   "property": "C44",
   "status": "partial",
   "theorems": [
    "Jrystal.supportedSharding_spec",
    "Jrystal.supportedSharding_idem",
    "Jrystal.supportedSharding_complete_iff",
    "Jrystal.shardedFft_partial",
    "Jrystal.partitionRule_correct_partial",
    "Jrystal.driverSharding_correct",
    "Jrystal.shardedFft_wrong"
   ],
   "note": "The rule only keeps the last axis whole. Correct when axes -3 and -2 are unsharded (all uses in the drivers); a sharded axis -3 or -2 is accepted and gives wrong numbers (shardedFft_wrong)."
  },
  {
   "property": "C45",
   "status": "proved",
   "theorems": [
    "Jrystal.safeReal_real",
    "Jrystal.safeReal_complex",
    "Jrystal.safeReal_nonfinite"
   ],
   "note": "Values may be nan or infinite."
  },
  {
   "property": "C46",
   "status": "partial",
   "theorems": [
    "Jrystal.scaledPositions_partial",
    "Jrystal.scaledPositions_iff",
    "Jrystal.vol_pos",
    "Jrystal.vol_unimodular",
    "Jrystal.vol_scale",
    "Jrystal.createCrystal_default",
    "Jrystal.createCrystal_spin",
    "Jrystal.crystal_reciprocal_dual"
   ],
   "note": "scaled_positions is right exactly for symmetric cells (refuted otherwise); the other clauses hold."
  },
  {
   "property": "C47",
   "status": "proved",
   "theorems": [
    "Jrystal.getKPath_fractional",
    "Jrystal.getKPath_cartesian"
   ],
   "note": "Exact: the two unit factors cancel. ase's choice of the path is an arbitrary function of the cell."
  },
  {
   "property": "C48",
   "status": "proved",
   "theorems": [
    "Jrystal.cartesianToSpherical_ranges",
    "Jrystal.cartesianToSpherical_inverse",
    "Jrystal.legendreKernelTrick_spec",
    "Jrystal.legendreKernelTrick_rejects",
    "Jrystal.legendreKernelTrick_zero",
    "Jrystal.legendreToSphHarm_spec",
    "Jrystal.legendreToSphHarm_shape"
   ],
   "note": "Exact real arithmetic; all vectors, all positive eps."
  },
  {
   "property": "C49",
   "status": "proved",
   "theorems": [
    "Jrystal.simpson_composite",
    "Jrystal.simpson_exact_odd",
    "Jrystal.simpson_even",
    "Jrystal.simpson_nonneg",
    "Jrystal.meshStep_log",
    "Jrystal.simpson_inverse_r",
    "Jrystal.sbtRunInt_linear",
    "Jrystal.sbtRunInt_simpson",
    "Jrystal.sbtRunInt_inverse",
    "Jrystal.sbtRunInt_zero",
    "Jrystal.sbtNumerical_linear",
    "Jrystal.sbtNumerical_leftRiemann",
    "Jrystal.gGrid_ends",
    "Jrystal.sbtRows_spec"
   ],
   "note": "Weights exact for cubics in log r on odd meshes; an even mesh drops the first interval (simpson_even)."
  },
  {
   "property": "C50",
   "status": "partial",
   "theorems": [
    "Jrystal.valence_rows_partial",
    "Jrystal.valence_lost",
    "Jrystal.valence_rows_wrong",
    "Jrystal.info_head",
    "Jrystal.words_iff",
    "Jrystal.lines_iff",
    "Jrystal.strip_spec",
    "Jrystal.extractValue_spec",
    "Jrystal.findUpf_correct",
    "Jrystal.findUpf_case",
    "Jrystal.findUpf_order",
    "Jrystal.findUpf_path_iff",
    "Jrystal.findUpf_none",
    "Jrystal.readFloats_iff",
    "Jrystal.parseNonlocal_beta",
    "Jrystal.ncCreate_aligned",
    "Jrystal.ncCreate_junk",
    "Jrystal.truncQ_spec",
    "Jrystal.us_skips",
    "Jrystal.us_lengths",
    "Jrystal.us_qij",
    "Jrystal.parseUpf_iff",
    "Jrystal.parseUpf_other_blocks"
   ],
   "note": "What the whole file gives, block by block: parseUpf_iff. The valence rows come back only when the generation line is the last one; the path is right only with a final slash; the lists of create are aligned, those added for ultrasoft files are not. The XML parser, directory listing and number readers are parameters."
  },
  {
   "property": "C51",
   "status": "partial",
   "theorems": [
    "Jrystal.waveGrid_shape",
    "Jrystal.densityGrid_shape",
    "Jrystal.densityGrid_shape_iff",
    "Jrystal.bindCall_iff",
    "Jrystal.waveToDensity_shape",
    "Jrystal.expandCoefficient_shape",
    "Jrystal.squeezeCoefficient_shape",
    "Jrystal.waveR_shape",
    "Jrystal.densityR_shape",
    "Jrystal.nablaDensityGrid_shape",
    "Jrystal.kineticOperator_shape",
    "Jrystal.hartreeReciprocal_shape",
    "Jrystal.hartreePotential_shape",
    "Jrystal.externalPotential_shape",
    "Jrystal.xcDensity_shape",
    "Jrystal.xcDensity_shape_rejects",
    "Jrystal.effective_shape",
    "Jrystal.expectation_shape",
    "Jrystal.energyTerms_shape",
    "Jrystal.kinetic_shape",
    "Jrystal.totalEnergy_shape",
    "Jrystal.bandEnergy_shape",
    "Jrystal.ewald_shape",
    "Jrystal.ewald_shape_wrong",
    "Jrystal.hamiltonianMatrixOld_shape",
    "Jrystal.hamiltonianMatrix_shape",
    "Jrystal.hamiltonianTrace_shape",
    "Jrystal.hamiltonianTrace_shape_error"
   ],
   "note": "Shape interpreter for all array functions. hamiltonian_matrix and the energies return the documented shape for all sizes; wave_r, density_r, nabla_density_r, squeeze_coefficient, potential.hartree, band_energy and _hamiltonian_matrix raise on every well-shaped input."
  },
  {
   "property": "C52",
   "status": "partial",
   "theorems": [
    "Jrystal.mainDispatch_spec",
    "Jrystal.mainDispatch_no_switch",
    "Jrystal.parseArgs_partial",
    "Jrystal.parseArgs_scalar",
    "Jrystal.parseArgs_unknown",
    "Jrystal.parseArgs_abbreviation",
    "Jrystal.parseArgs_bool_always_true",
    "Jrystal.parseArgs_null_rejected",
    "Jrystal.parseArgs_list_chars",
    "Jrystal.selectPseudopotential_default",
    "Jrystal.selectPseudopotential_spec",
    "Jrystal.selectMask_spec",
    "Jrystal.createOccupation_spec",
    "Jrystal.createOccupation_simplex",
    "Jrystal.createOptimizer_spec"
   ],
   "note": "Dispatch and string/number options hold; boolean, null and list options are refuted, and create_occupation fails for simplex-projector."
  },
  {
   "property": "C53",
   "status": "proved",
   "theorems": [
    "Jrystal.element_tables_inverse",
    "Jrystal.element_numbers",
    "Jrystal.element_symbols_injective",
    "Jrystal.conversion_constants",
    "Jrystal.conversion_round_trip"
   ],
   "note": "The tables are copied from const.py; the check covers the whole table."
  },
  {
   "property": "C54",
   "status": "partial",
   "theorems": [
    "Jrystal.vmapstack_apply",
    "Jrystal.vmapstack_args_length_partial",
    "Jrystal.vmapstack_empty_args",
    "Jrystal.vmapstack_args_zero",
    "Jrystal.vmapstack_two"
   ],
   "note": "An empty args list is accepted for every times (refuted for that case)."
  },
  {
   "property": "C55",
   "status": "partial",
   "theorems": [
    "Jrystal.nablaDensity_gradient",
    "Jrystal.densityGrid_samples",
    "Jrystal.nablaDensityBands_partial",
    "Jrystal.nablaDensityBands_iff",
    "Jrystal.nablaDensityBands_wrong",
    "Jrystal.checkPosition_spec"
   ],
   "note": "With occupations: proved (Frechet derivative). Without occupations the code omits the factor 1/vol: false unless the volume is one or the gradient vanishes (nablaDensityBands_iff)."
  },
  {
   "property": "C56",
   "status": "partial",
   "theorems": [
    "Jrystal.vxc_lda_unpolarised_partial",
    "Jrystal.vxc_lda_polarised_error",
    "Jrystal.vxc_lda_polarised_error_down",
    "Jrystal.vxc_lda_polarised_wrong",
    "Jrystal.gga_potential_uniform"
   ],
   "note": "LDA: true for unpolarised densities; for polarised ones the code drops n_other * d eps/d n_spin. GGA: true for uniform densities (gga_potential_uniform), refuted for others (vxc_gga_derivative_wrong, C87)."
  },
  {
   "property": "C57",
   "status": "partial",
   "theorems": [
    "Jrystal.createFromSymbols_partial",
    "Jrystal.createFromSymbols_wrong_unit"
   ],
   "note": "Charges, spin and fractional geometry are kept; the length unit is wrong (refuted)."
  },
  {
   "property": "C58",
   "status": "partial",
   "theorems": [
    "Jrystal.xc_translate",
    "Jrystal.vxc_translate_partial",
    "Jrystal.vxc_gga_translate_wrong",
    "Jrystal.gga_gradient_axes",
    "Jrystal.gga_factor_axis"
   ],
   "note": "Energy densities and energies (LDA, GGA) and the LDA potential: proved. The GGA potential is computed with the wrong transform axes and does not follow translations (vxc_gga_translate_wrong)."
  },
  {
   "property": "C59",
   "status": "partial",
   "theorems": [
    "Jrystal.uniformSharded_iff",
    "Jrystal.driverInit_iff",
    "Jrystal.driverInit_fails",
    "Jrystal.uniformSharded_order"
   ],
   "note": "Exactly the divisible case works; the default single k point with two devices raises."
  },
  {
   "property": "C60",
   "status": "proved",
   "theorems": [
    "Jrystal.realHarmonics_kernel",
    "Jrystal.sphericalRow_kernel",
    "Jrystal.lowHarmonics_contracts"
   ],
   "note": "Contract on the library function: Y_{l,-m} = (-1)^m conj Y_{lm}."
  },
  {
   "property": "C61",
   "status": "partial",
   "theorems": [
    "Jrystal.nonlocal_translation_partial",
    "Jrystal.nonlocal_translation_wrong",
    "Jrystal.nonlocal_mirror"
   ],
   "note": "Holds when twice the shift is a lattice vector; fails otherwise, because the projectors move opposite to the atoms."
  },
  {
   "property": "C62",
   "status": "partial",
   "theorems": [
    "Jrystal.local_real_partial",
    "Jrystal.hamiltonianLocal_hermitian_partial",
    "Jrystal.local_not_real"
   ],
   "note": "Holds on odd grid sizes; local_not_real shows an even grid where the potential is complex and the matrix is not Hermitian."
  },
  {
   "property": "C63",
   "status": "partial",
   "theorems": [
    "Jrystal.ncHamiltonian_elements_partial",
    "Jrystal.ncHamiltonian_trace_partial",
    "Jrystal.ncHamiltonian_hermitian_partial",
    "Jrystal.ncHamiltonian_hermitian_odd",
    "Jrystal.ncHamiltonian_polarised_error",
    "Jrystal.ncHamiltonian_channels",
    "Jrystal.ncHamiltonian_channels_trace"
   ],
   "note": "Elements, trace and Hermiticity for one density channel or without kohn_sham; with two channels and kohn_sham the function raises for more than two k points. Hermiticity needs real potentials, met on odd grids for LDA."
  },
  {
   "property": "C64",
   "status": "partial",
   "theorems": [
    "Jrystal.local_fft_actual",
    "Jrystal.local_fft_wrong"
   ],
   "note": "Disproved: local_fft_wrong shows the fft method returns the potential times 4 pi / vol."
  },
  {
   "property": "C65",
   "status": "proved",
   "theorems": [
    "Jrystal.betaSbt_errors",
    "Jrystal.betaSbt_formula"
   ],
   "note": "The spline and spherical Bessel routines are parameters; knots below the lower end of the transform grid are not modelled."
  },
  {
   "property": "C66",
   "status": "partial",
   "theorems": [
    "Jrystal.driver_objective_partial",
    "Jrystal.driver_free_energy_partial",
    "Jrystal.driver_attained_partial"
   ],
   "note": "For all parameters of the all-electron driver whose occupation has the configured number of spin channels and whose mask holds at least as many plane waves as bands. With fewer plane waves the arrays do not fit and the driver raises (one plane wave is broadcast)."
  },
  {
   "property": "C67",
   "status": "partial",
   "theorems": [
    "Jrystal.trained_occupation_partial",
    "Jrystal.driver_density_partial",
    "Jrystal.driverNC_density_partial",
    "Jrystal.driverNC_density_doubled"
   ],
   "note": "End to end for every optimiser, schedule and starting point, for every configuration the occupation methods can place. False for the norm-conserving driver with spin-unrestricted uniform or gamma occupations: the density holds twice the electrons (driverNC_density_doubled)."
  },
  {
   "property": "C68",
   "status": "partial",
   "theorems": [
    "Jrystal.driver_log_partial",
    "Jrystal.driver_log_inconsistent",
    "Jrystal.driver_no_epoch"
   ],
   "note": "The logged total belongs to the parameters before the last update, the components to those after it; they add up exactly when the last update left the energy unchanged, and a two-plane-wave system where they do not is given."
  },
  {
   "property": "C69",
   "status": "partial",
   "theorems": [
    "Jrystal.driverRepulsion_full",
    "Jrystal.driverRepulsion_wrong"
   ],
   "note": "False of the code: get_ewald_coulomb_repulsion uses the full nuclear charges also in the norm-conserving drivers. The exact relation is proved; they agree only for f^2 = 1 or zero energy."
  },
  {
   "property": "C70",
   "status": "partial",
   "theorems": [
    "Jrystal.bandNC_supplied",
    "Jrystal.bandNC_computed_partial",
    "Jrystal.band_normcons_order"
   ],
   "note": "False when a ground state is supplied (the name density is never bound); proved when the driver computes the ground state itself."
  },
  {
   "property": "C71",
   "status": "partial",
   "theorems": [
    "Jrystal.planeWaveHamiltonian_spectrum",
    "Jrystal.bandEig_variational",
    "Jrystal.bandCalc_variational_partial",
    "Jrystal.bandCalc_epochs_partial",
    "Jrystal.bandCalcNC_epochs",
    "Jrystal.bandCalc_too_many",
    "Jrystal.bandEig_polarised_doubled",
    "Jrystal.planeWaveHamiltonianNC_spectrum",
    "Jrystal.bandEigNC_variational",
    "Jrystal.bandCalcNC_variational",
    "Jrystal.bandEigNC_channels",
    "Jrystal.bandCalcNC_channels"
   ],
   "note": "For every optimiser, history, path and number of devices the drivers accept. False for a density with two spin channels: with equal channels every reported energy of the all-electron driver is at least twice the exact one (bandEig_polarised_doubled). The all-electron driver raises with parallel_over_k_path=False on several devices."
  },
  {
   "property": "C72",
   "status": "partial",
   "theorems": [
    "Jrystal.bandTrace_bound",
    "Jrystal.bandTrace_attained",
    "Jrystal.bandTrace_minimiser",
    "Jrystal.bandTraceNC_bound",
    "Jrystal.bandTraceNC_minimiser",
    "Jrystal.bandTraceNC_attained",
    "Jrystal.bandCalcNC_near_partial",
    "Jrystal.bandTraceNC_channels",
    "Jrystal.bandTraceNC_channels_wrong"
   ],
   "note": "For one density channel; with several channels the norm-conserving objective is the trace of another Hamiltonian (bandTraceNC_channels); it can fall while the reported energy rises (bandTraceNC_channels_wrong). The attainment needs the contract that a matrix with orthonormal columns lies in the column space of its own orthogonal factor, which every QR factorisation meets."
  },
  {
   "property": "C73",
   "status": "partial",
   "theorems": [
    "Jrystal.sbtMesh_kgrid",
    "Jrystal.sbtRun_forward",
    "Jrystal.sbtFast_forward",
    "Jrystal.mellin_zero_forms",
    "Jrystal.mlt1_eq",
    "Jrystal.besselMellin_integral",
    "Jrystal.sbtRun_inverse_partial",
    "Jrystal.sbtRun_inverse_actual",
    "Jrystal.sbtRun_scale",
    "Jrystal.sbtFast_norm",
    "Jrystal.sbtRun_rejects",
    "Jrystal.sbtRun_negative",
    "Jrystal.sbtRun_zero"
   ],
   "note": "Forward transform in full, exact real arithmetic. The inverse holds as stated only for np_in + l = 0: otherwise the continuation below the mesh is off by (r0/k0)^(np_in+l) (sbtRun_inverse_actual). Negative degrees are accepted and use another degree (sbtRun_negative). The multipliers are the exact Mellin transform of j_l: besselMellin_integral proves that the closed form is the improper integral."
  },
  {
   "property": "C74",
   "status": "proved",
   "theorems": [
    "Jrystal.sbtRun_plancherel",
    "Jrystal.talman_bound",
    "Jrystal.besselMellin_norm"
   ],
   "note": "All logarithmic meshes and functions."
  },
  {
   "property": "C75",
   "status": "partial",
   "theorems": [
    "Jrystal.batchSbt_rows",
    "Jrystal.batchSbt_one",
    "Jrystal.batchSbt_drops",
    "Jrystal.batchSbt_empty"
   ],
   "note": "Holds when there are as many degrees as rows; otherwise rows are dropped silently (batchSbt_drops)."
  },
  {
   "property": "C76",
   "status": "proved",
   "theorems": [
    "Jrystal.run_rotated"
   ],
   "note": "Whole all-electron ground-state calculation, every functional of the library (LDA and GGA), every orthogonal matrix. Assumes exact arithmetic and an optimiser that sees the crystal only through the minimised function."
  },
  {
   "property": "C77",
   "status": "proved",
   "theorems": [
    "Jrystal.run_reordered",
    "Jrystal.run_withGhost"
   ],
   "note": "Whole all-electron ground-state calculation."
  },
  {
   "property": "C78",
   "status": "partial",
   "theorems": [
    "Jrystal.run_lattice_shift",
    "Jrystal.run_lattice_move",
    "Jrystal.run_lattice_refused",
    "Jrystal.energies_grid_shift",
    "Jrystal.attainable_grid_shift",
    "Jrystal.run_grid_shift"
   ],
   "note": "Lattice translations. The electronic energies and the density do not change for single atoms moved by lattice vectors; the Ewald sum is truncated, so its value may change (it does not for a common shift, nor in the limit of large cutoffs, C95). For shifts by vectors of the FFT grid the energies of shifted states and the set of attainable energies are unchanged, and whole runs agree up to the accuracy of the optimiser (run_grid_shift); they need not agree exactly, since the initial orbitals do not follow the atoms. Missing: other shifts, which change the energy because the exchange-correlation energy is sampled on the grid."
  },
  {
   "property": "C79",
   "status": "partial",
   "theorems": [
    "Jrystal.run_complete_partial",
    "Jrystal.run_energy_partial",
    "Jrystal.lithium_admissible",
    "Jrystal.lithium_runs",
    "Jrystal.run_sizes",
    "Jrystal.run_geometry",
    "Jrystal.run_refused"
   ],
   "note": "Every admissible all-electron run succeeds with a physical density. Missing: runs of zero epochs (driver_no_epoch), occupations that cannot be placed, singular cells."
  },
  {
   "property": "C80",
   "status": "partial",
   "theorems": [
    "Jrystal.time_reversed_energies",
    "Jrystal.time_reversed_state",
    "Jrystal.mesh_paired",
    "Jrystal.spectrum_time_reversal",
    "Jrystal.band_time_reversal_partial",
    "Jrystal.sphericalMask_reversible",
    "Jrystal.sphericalMask_reversible_odd",
    "Jrystal.cubicMask_reversible_iff",
    "Jrystal.band_time_reversal_cubic_wrong"
   ],
   "note": "Holds for every set of plane waves that contains -G with every G: spherical masks whose cutoff misses the middle of even axes, cubic masks exactly when floor((n-1)/2) is even on every axis. False for other cubic masks (band_time_reversal_cubic_wrong): the kept range is not symmetric."
  },
  {
   "property": "C81",
   "status": "proved",
   "theorems": [
    "Jrystal.energies_spin_flip",
    "Jrystal.attainable_spin_flip",
    "Jrystal.energies_restricted",
    "Jrystal.attainable_restricted"
   ],
   "note": "All functionals, LDA and GGA; the correlation parts of the library are assumed to treat both spins alike and to have the right unpolarised limit, nothing is assumed of exchange parts."
  },
  {
   "property": "C82",
   "status": "partial",
   "theorems": [
    "Jrystal.nonlocal_rotated_partial",
    "Jrystal.nonlocal_rotation_wrong"
   ],
   "note": "Every D matrix, angular momenta and coefficients, from the addition theorem of the harmonics, provided that projectors with l > 0 vanish at k + G = 0 or no such vector is on the grid; without it the statement is false (nonlocal_rotation_wrong)."
  },
  {
   "property": "C83",
   "status": "partial",
   "theorems": [
    "Jrystal.ncRun_rotated_partial"
   ],
   "note": "The whole calculation, exceptions included, for every rotation and reflection. Missing: k meshes that contain the zero vector together with projectors of angular momentum above zero (nonlocal_rotation_wrong, C82)."
  },
  {
   "property": "C84",
   "status": "proved",
   "theorems": [
    "Jrystal.ncRun_lattice_shift",
    "Jrystal.ncRun_lattice_move"
   ],
   "note": "Exact equality of the whole report for a common lattice vector; for separate lattice vectors energies and density agree and the total follows the reported repulsion."
  },
  {
   "property": "C85",
   "status": "proved",
   "theorems": [
    "Jrystal.ncRun_reordered"
   ],
   "note": "Success and the complete report agree for every permutation of the atoms; the exceptions of a failing run may differ, because the files are read in another order."
  },
  {
   "property": "C86",
   "status": "partial",
   "theorems": [
    "Jrystal.ncRun_complete_partial",
    "Jrystal.ncRun_refused",
    "Jrystal.ncRun_default_wrong",
    "Jrystal.driverNC_attained_partial"
   ],
   "note": "Every admissible calculation succeeds, with the physical density of the valence electrons, and reports the energies of physical states. Missing: the idempotent method and fixed occupations in unrestricted calculations, which the driver refuses or counts twice (ncRun_refused, driverNC_density_doubled); real numbers instead of floats."
  },
  {
   "property": "C87",
   "status": "partial",
   "theorems": [
    "Jrystal.totalEnergy_derivative_partial",
    "Jrystal.groundState_kohn_sham_partial",
    "Jrystal.groundState_eigenstates_partial",
    "Jrystal.groundState_exists",
    "Jrystal.totalEnergy_derivative_polarised_wrong",
    "Jrystal.vxc_gga_derivative_wrong"
   ],
   "note": "For one spin channel and LDA functionals: the Hamiltonian is the derivative of the energy along every curve, every minimiser solves the Kohn-Sham equations with it, and a minimiser exists. Missing, because false of the code: two spin channels (totalEnergy_derivative_polarised_wrong) and GGA functionals (vxc_gga_derivative_wrong); what the energies of those calculations do minimise is proved in C126 and C127."
  },
  {
   "property": "C88",
   "status": "partial",
   "theorems": [
    "Jrystal.driver_reaches_partial",
    "Jrystal.driverNC_reaches_partial",
    "Jrystal.driver_approaches_partial",
    "Jrystal.driver_simplex_unreached",
    "Jrystal.driver_simplex_ground_missed"
   ],
   "note": "Every orthonormal set of orbitals on the mask is reached, with every physical occupation for the idempotent method and with every occupation without both a full and an empty state for simplex-projector. Missing, because false of the code: with simplex-projector (the default) closed-shell states with empty bands are only approached, never reached (driver_simplex_unreached), and the ground state can be such a state (driver_simplex_ground_missed). Uniform and gamma occupations are fixed by design."
  },
  {
   "property": "C89",
   "status": "proved",
   "theorems": [
    "Jrystal.driver_ground_state",
    "Jrystal.driverNC_ground_state",
    "Jrystal.run_ground_state",
    "Jrystal.ncRun_ground_state"
   ],
   "note": "Assumes that the orthogonalisation satisfies w = qR with R triangular, that the functional is continuous on nonnegative densities and that entropy_eps is positive. As the property says, spin-restricted simplex-projector occupations with unpaired electrons and gamma occupations with several k points are left out, and the total energy needs two steps and a window of two values."
  },
  {
   "property": "C90",
   "status": "partial",
   "theorems": [
    "Jrystal.bandRun_channels",
    "Jrystal.bandRun_complete_partial",
    "Jrystal.bandRun_doubled",
    "Jrystal.bandRun_saved",
    "Jrystal.bandRun_geometry",
    "Jrystal.bandRun_unnumbered"
   ],
   "note": "Spin-restricted calculations satisfy the property. Spin-unrestricted ones do not: every entry belongs to the sum of the Hamiltonians of the two channels (bandRun_channels, bandRun_doubled). bandRun_saved says what every saved file presupposes."
  },
  {
   "property": "C91",
   "status": "partial",
   "theorems": [
    "Jrystal.bandRun_near_partial",
    "Jrystal.bandRun_ground_state_partial"
   ],
   "note": "Spin-restricted calculations; missing are spin-unrestricted ones, for which the property is false (C90)."
  },
  {
   "property": "C92",
   "status": "partial",
   "theorems": [
    "Jrystal.bandRun_rotated_partial",
    "Jrystal.bandRun_reordered",
    "Jrystal.bandRun_withGhost",
    "Jrystal.bandRun_lattice_move",
    "Jrystal.vxc_gga_rotate_wrong"
   ],
   "note": "Order of the atoms, sites without charge and lattice moves: full. Rotations and reflections: for local density functionals; for GGA functionals the property is false (vxc_gga_rotate_wrong)."
  },
  {
   "property": "C93",
   "status": "partial",
   "theorems": [
    "Jrystal.bandRunNC_channels",
    "Jrystal.bandRunNC_near_partial",
    "Jrystal.bandRunNC_ground_state_partial",
    "Jrystal.nonlocalMatrix_textbook_partial",
    "Jrystal.bandRunNC_supplied",
    "Jrystal.bandRunNC_saved",
    "Jrystal.bandRunNC_geometry"
   ],
   "note": "The bounds hold for every spin setting, with the nonlocal operator that the code builds; that operator is the textbook one for atoms in inversion pairs and diagonal non-negative ascending D matrices (nonlocalMatrix_textbook_partial; C44 has the failures). Accuracy for spin-restricted calculations; otherwise the optimiser minimises another quantity (bandTraceNC_channels). A supplied ground state never gives a file (bandRunNC_supplied)."
  },
  {
   "property": "C94",
   "status": "partial",
   "theorems": [
    "Jrystal.bandRunNC_rotated_partial",
    "Jrystal.bandRunNC_lattice_move",
    "Jrystal.bandRunNC_reordered"
   ],
   "note": "Order and lattice vectors: proved for every calculation. Rotations: for local density functionals, and for projectors with angular momentum above zero only when neither the path nor the k mesh has a point with integer coordinates; GGA potentials (vxc_gga_rotate_wrong) and the nonlocal operator at the zone centre (nonlocal_rotation_wrong) depend on the orientation."
  },
  {
   "property": "C95",
   "status": "proved",
   "theorems": [
    "Jrystal.nuclearRepulsion_converges",
    "Jrystal.nuclearRepulsion_eta_independent",
    "Jrystal.nuclearRepulsion_lattice_move",
    "Jrystal.runRepulsion_eq"
   ],
   "note": "Proved with the true complementary error function, by Poisson summation for Gaussians on an arbitrary lattice (gauss_poisson). The disagreement between two splitting parameters is bounded by an explicit term of order 1e-20 (Spec.splittingError), which the regularised distance of the code causes, plus any epsilon."
  },
  {
   "property": "C96",
   "status": "proved",
   "theorems": [
    "Jrystal.run_ewald_settings",
    "Jrystal.ncRun_ewald_settings",
    "Jrystal.bandRun_ewald_settings",
    "Jrystal.bandRunNC_ewald_settings",
    "Jrystal.run_eta_independent"
   ],
   "note": "For positive cutoffs and cells with a volume; a cutoff of zero or less is refused (C29)."
  },
  {
   "property": "C97",
   "status": "proved",
   "theorems": [
    "Jrystal.run_variational",
    "Jrystal.ncRun_variational",
    "Jrystal.run_larger_cutoff",
    "Jrystal.run_reproducible",
    "Jrystal.ncRun_reproducible",
    "Jrystal.run_free_occupations"
   ],
   "note": "For calculations without smearing whose optimiser comes within epsilon of the minimum of what it is asked to minimise (Spec.NearOptimizer); the other calculation may use any optimiser and any smearing. Opening a second spin channel needs spin 0 and correlation functionals with the right unpolarised limit."
  },
  {
   "property": "C98",
   "status": "partial",
   "theorems": [
    "Jrystal.run_history",
    "Jrystal.ncRun_history",
    "Jrystal.run_smearing",
    "Jrystal.ncRun_smearing",
    "Jrystal.run_smearing_partial",
    "Jrystal.ncRun_smearing_partial",
    "Jrystal.temperature_final",
    "Jrystal.entropy_range",
    "Jrystal.ground_energy_bound",
    "Jrystal.stops_hot"
   ],
   "note": "Proved in full when there is no convergence test (threshold <= 0). With one, proved unless the test ends the loop while the temperature is still being lowered, which it does not prevent (stops_hot); the energy bound then holds with 100 in place of the smearing. For optimisers that come within epsilon of the minimum (Spec.NearOptimizer) and at least three epochs."
  },
  {
   "property": "C99",
   "status": "partial",
   "theorems": [
    "Jrystal.totalEnergy_occupation_partial",
    "Jrystal.energyNC_occupation_partial",
    "Jrystal.ground_fermiLevel_partial",
    "Jrystal.groundNC_fermiLevel_partial",
    "Jrystal.fermiLevel_cold",
    "Jrystal.fermiLevel_fermiDirac",
    "Jrystal.ground_aufbau_partial",
    "Jrystal.groundNC_aufbau_partial",
    "Jrystal.ground_kohnSham_partial",
    "Jrystal.ground_attained",
    "Jrystal.groundNC_attained",
    "Jrystal.totalEnergy_occupation_polarised_wrong"
   ],
   "note": "Proved for one spin channel and local density functionals with a derivative at the densities that occur. False for two channels, because hamiltonian_matrix counts the kinetic energy twice (totalEnergy_occupation_polarised_wrong). Gradient functionals and two channels are covered, with the textbook Hamiltonian, by C126 and C127; the aufbau rule covers waves orthogonal to the occupied bands at k points with an empty band."
  }
 ]
}
