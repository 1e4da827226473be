"""Writes MANIFEST.json.  One entry per property; keep theorem names fully qualified."""
import json, os
C = {}
def claim(pid, status, theorems, note):
  C[pid] = dict(property=pid, status=status,
                theorems=["Jrystal." + t for t in theorems], note=note)

claim("C01", "partial",
  ["fftFactor_least", "fftFactor_error_iff", "fftFactor_idempotent", "fftFactor_monotone",
   "fftFactor_documented_partial", "fftFactor_not_documented_least", "properGridSize_vec",
   "properGridSize_scalar"],
  "Least 7-smooth size, error exactly when out of range, idempotent, monotone, vector and scalar "
  "grid sizes: proved. The documented form with an extra factor 11 or 13 is false of the code "
  "(fftFactor_not_documented_least), so the part that does hold is fftFactor_documented_partial.")

claim("C02", "proved",
  ["grid_duality", "grid_duality_exp", "gVectors_zero", "gVectors_injective", "reciprocal_dual",
   "rVectors_fraction"],
  "Real arithmetic; every invertible cell, grid and index pair.")
claim("C03", "proved",
  ["sphericalMask_iff", "sphericalMask_mono", "sphericalMask_zero", "sphericalMask_neg",
   "gVectors_neg_exists", "gridVectorRadius_spec"],
  "Complete; gVectors_neg_exists says when -G is on the grid.")
claim("C04", "partial",
  ["cubicMask_kept_partial", "kept_difference_bound", "cubicMask_no_alias_partial",
   "cubicMask_size_two"],
  "True for all axis sizes except 2; for size 2 the code keeps the aliasing frequency -1 "
  "(cubicMask_size_two refutes the unrestricted claim).")
claim("C05", "partial",
  ["halfShape_count_partial", "halfShape_size_two", "halfPad_entry", "halfPad_total",
   "halfPad_injective", "halfPad_zero", "halfPad_support_partial"],
  "Padding is proved for all sizes; agreement with the cubic mask for all sizes except 2, where it "
  "is false (halfShape_size_two).")
claim("C06", "proved",
  ["estimateMaxCutoff_upper", "estimateMaxCutoff_attained", "estimateMaxCutoff_contains",
   "estimateMaxCutoff_tight"],
  "Complete for non-empty grids (an empty grid raises).")
claim("C07", "partial",
  ["r2cell_recovers", "r2g_converts", "grid_convert_explicit", "g2cell_transposes",
   "g2cell_recovers_partial", "g2r_converts_partial", "g2cell_not_recovered"],
  "r2cell/r2g hold. g2cell_vectors returns the transposed cell, so the claim is false for "
  "non-symmetric cells (g2cell_not_recovered) and proved for symmetric ones.")
claim("C08", "proved",
  ["kVectors_fractional", "kVectors_distinct", "kVectors_inversion", "kVectors_gamma",
   "kVectors_sum_zero"],
  "ASE's monkhorst_pack is written out from its definition.")
claim("C09", "partial",
  ["translations_lattice", "translations_distinct", "translations_zero",
   "translations_symmetric_partial", "translations_not_symmetric"],
  "Symmetry holds for odd counts only; it is refuted for every even count.")

claim("C17", "partial",
  ["proj_nearest_partial", "proj_zero_iff", "proj_full_iff", "proj_zero_sum_iff",
   "proj_full_sum_iff", "proj_endpoint_counterexample"],
  "For every total strictly between 0 and n the result is the unique nearest admissible vector. At "
  "the end points the claim holds only for constant input (iff theorems), so it is false there.")
claim("C18", "partial",
  ["simplexProjector_unrestricted_partial", "simplexProjector_restricted_partial",
   "simplexProjector_empty_channel", "simplexProjector_full_channel"],
  "True for all parameters when each channel is neither empty nor full; refuted for an empty or "
  "full channel with any non-constant parameters.")
claim("C19", "partial",
  ["uniform_gamma_total", "uniform_conserves_partial", "gamma_conserves_partial",
   "uniform_gamma_default_bands_partial", "uniform_restricted", "gamma_restricted",
   "uniform_gamma_loses_electrons"],
  "Exact total for every argument; conservation under parity and enough bands, refuted otherwise.")
claim("C20", "partial",
  ["idempotent_bounds_unrestricted", "idempotent_bounds_restricted", "idempotent_total",
   "idempotent_conserves_partial", "idempotent_restricted_total"],
  "Bounds for all weights. The total is right for parameters initialised unrestricted; parameters "
  "initialised restricted give num_electrons + spin (refuted for spin != 0).")
claim("C21", "partial",
  ["occupation_unknown_method", "driver_uniform_gamma_partial", "driver_uniform_truncates",
   "driver_idempotent", "driver_simplex_partial", "driver_hydrogen", "driverNC_channels", "driverNC_same"],
  "Dispatch errors complete. Driver totals hold for small spins only; refuted for large spins, for "
  "the idempotent method with spin, for hydrogen, and the norm-conserving driver's channel count.")

claim("C22", "proved",
  ["entropy_symmetric", "entropy_concave", "entropy_max", "entropy_max_unique", "entropy_reorder",
   "entropy_full_band"],
  "All clauses, for every array shape and eps > 0, plus uniqueness of the maximum.")
claim("C36", "proved",
  ["check_iff", "checker_history", "reset_restores", "check_never"],
  "Every history of calls; values may be non-finite; std of an empty window is nan.")
claim("C37", "partial",
  ["optimise_spec", "optimise_energy_partial", "optimise_energy_fixed_partial",
   "optimise_energy_stale", "optimise_no_epoch", "gsLoop_refines", "gsRun_history"],
  "Number of updates, flag and returned iterate: proved. The reported energy is that of the previous "
  "iterate (refuted as stated) and is unbound for epoch <= 0.")
claim("C38", "partial",
  ["temperature_anneals_partial", "temperature_zero", "temperature_geometric", "temperature_short",
   "temperature_hot"],
  "Holds for 0 < smearing < 100 and epoch >= 2; refuted outside.")

claim("C39", "partial",
  ["band_normcons_order", "band_all_electrons_order_partial", "band_all_electrons_serial_fails",
   "band_uneven_rejected"],
  "Order of the k-points for every device count dividing the path. The all-electron driver fails when "
  "the devices are not used (refuted); uneven paths are rejected.")
claim("C42", "proved",
  ["mapOverAtoms_spec", "mapOverAtoms_short", "stackWithPadding_error", "stackWithPadding_spec",
   "preCalcBeta_schedule", "betaSbtGrid_spec", "preCalcBeta_single_cpu"],
  "Every completion schedule of the pool. With one processor the pool raises ValueError.")
claim("C45", "proved", ["safeReal_real", "safeReal_complex", "safeReal_nonfinite"],
  "Values may be nan or infinite.")
claim("C53", "proved",
  ["element_tables_inverse", "element_numbers", "element_symbols_injective", "conversion_constants",
   "conversion_round_trip"],
  "The tables are copied from const.py; the check covers the whole table.")
claim("C54", "partial",
  ["vmapstack_apply", "vmapstack_args_length_partial", "vmapstack_empty_args", "vmapstack_args_zero",
   "vmapstack_two"],
  "An empty args list is accepted for every times (refuted for that case).")

claim("C40", "partial",
  ["getConfig_file", "getConfig_error_iff", "getConfig_default", "getConfig_keys_partial",
   "getConfig_no_defaults"],
  "Keys of the file are kept and the null entry is filled. Defaults are never merged into a file "
  "configuration (refuted for every omitted key).")
claim("C41", "partial",
  ["beta_cache_round_trip_partial", "beta_cache_explicit_fails", "beta_cache_missing"],
  "Round trip for the default file name, every list and file system. An explicit file name always "
  "raises UnboundLocalError (refuted).")
claim("C46", "partial",
  ["scaledPositions_partial", "scaledPositions_iff", "vol_pos", "vol_unimodular", "vol_scale",
   "createCrystal_default", "createCrystal_spin", "crystal_reciprocal_dual"],
  "scaled_positions is right exactly for symmetric cells (refuted otherwise); the other clauses hold.")
claim("C47", "proved", ["getKPath_fractional", "getKPath_cartesian"],
  "Exact: the two unit factors cancel. ase's choice of the path is an arbitrary function of the cell.")
claim("C52", "partial",
  ["mainDispatch_spec", "mainDispatch_no_switch", "parseArgs_partial", "parseArgs_scalar",
   "parseArgs_unknown", "parseArgs_abbreviation", "parseArgs_bool_always_true", "parseArgs_null_rejected",
   "parseArgs_list_chars", "selectPseudopotential_default", "selectPseudopotential_spec",
   "selectMask_spec", "createOccupation_spec", "createOccupation_simplex", "createOptimizer_spec"],
  "Dispatch and string/number options hold; boolean, null and list options are refuted, and "
  "create_occupation fails for simplex-projector.")
claim("C57", "partial", ["createFromSymbols_partial", "createFromSymbols_wrong_unit"],
  "Charges, spin and fractional geometry are kept; the length unit is wrong (refuted).")

claim("C10", "partial",
  ["expandCoefficient_spec", "maskCount_spec", "paramShape_spec", "expandCoefficient_inner",
   "gather_expand", "squeezeCoefficient_fails"],
  "Expansion, order, inner products and the inverse gather: proved. squeeze_coefficient itself always "
  "raises AttributeError (squeezeCoefficient_fails), so the inverse is proved of its intended gather.")
claim("C11", "proved",
  ["pwCoeff_orthonormal", "pwCoeff_support", "waveGrid_orthonormal", "waveGrid_isometry"],
  "QR is a parameter with the contract that q has orthonormal columns.")
claim("C12", "proved", ["waveGrid_expansion"], "Exact arithmetic, every invertible cell and grid.")
claim("C13", "proved",
  ["densityGrid_nonneg", "densityGrid_integral", "waveToDensity_eq", "densityGrid_expansion"],
  "Complete in exact arithmetic.")
claim("C14", "proved",
  ["densityReciprocal_zero", "densityReciprocal_hermitian", "waveToDensityReciprocal_eq"], "Complete.")
claim("C15", "partial",
  ["ifftn_fftn", "fftn_ifftn", "reciprocalBraket_parseval", "realBraket_partial",
   "realBraket_no_conj", "realBraket_leading", "reciprocalBraket_leading", "reciprocalBraket_leading_wrong",
   "expectation_modes"],
  "True for arrays of shape x y z and real bra. real_braket does not conjugate its bra "
  "(realBraket_no_conj) and both brakets divide by the size of the whole array including leading "
  "axes (reciprocalBraket_leading_wrong).")
claim("C16", "proved",
  ["densityGrid_mix", "kinetic_mix", "totalEnergy_mix", "kinetic_mix_unequal"],
  "All unitary mixings of bands of equal occupation; kinetic_mix_unequal shows equality is needed.")
claim("C23", "proved",
  ["hartree_formula", "hartree_kohn_sham", "hartree_nonneg", "hartree_scale", "hartree_spin_sum",
   "hartree_constant"], "Complete in exact arithmetic.")
claim("C24", "proved",
  ["external_formula", "external_linear_density", "external_linear_charge", "external_lattice",
   "external_permute", "external_translate", "external_no_zero", "external_softening"],
  "Includes the exact effect of the 1e-10 added to |G|^2.")
claim("C25", "proved",
  ["kinetic_formula", "kineticBands_formula", "kinetic_nonneg", "kinetic_linear",
   "kinetic_expectation", "kinetic_cutoff"], "Complete in exact arithmetic.")
claim("C26", "proved",
  ["totalEnergy_sum", "totalEnergy_parts", "totalEnergy_ones", "totalEnergy_succeeds",
   "totalEnergy_lattice"],
  "The exchange-correlation library functions are parameters.")
claim("C30", "partial",
  ["hartreePotential_real_iff", "hartreePotential_real_partial", "hartreePotential_real_orthogonal",
   "hartreePotential_not_real", "hartreePotential_mean_zero", "hartreePotential_energy"],
  "Mean zero and energy consistency: proved. Reality holds exactly when |G| agrees at opposite grid "
  "indices: always for odd sizes or orthogonal reciprocal vectors, but not for even sizes of a skew "
  "cell (hartreePotential_not_real).")
claim("C33", "partial",
  ["expectation_diag", "expectation_hermitian", "expectation_bad_mode", "expectation_lead_kpt",
   "expectation_unpolarised_partial", "expectation_spin_axis_wrong"],
  "Diagonal and Hermitian: proved. A four-axis operator is matched with k points, not spins "
  "(expectation_spin_axis_wrong); correct for one spin channel.")

claim("C27", "partial",
  ["xc_unpolarised_limit", "correlation_polarised", "exchange_spin_scaling_error", "exchange_spin_scaling_partial",
   "exchange_spin_scaling_iff", "exchange_spin_scaling_fails", "xc_combined_is_exchange"],
  "The unpolarised limit is proved. The spin-scaling relation is false of the code: the exact error is "
  "exchange_spin_scaling_error and it vanishes only for equal spin densities (exchange_spin_scaling_iff).")
claim("C28", "proved",
  ["sigma_admissible", "sigma_total", "sigma_constant", "gradRho_is_gradient"],
  "Complete, plus: the gradient is that of the trigonometric interpolant.")
claim("C56", "partial",
  ["vxc_lda_unpolarised_partial", "vxc_lda_polarised_error", "vxc_lda_polarised_error_down", "vxc_lda_polarised_wrong", "gga_potential_uniform"],
  "LDA: true for unpolarised densities; for polarised ones the code drops n_other * d eps/d n_spin. GGA: true for uniform densities (gga_potential_uniform), refuted for others (vxc_gga_derivative_wrong, C87).")
claim("C58", "partial",
  ["xc_translate", "vxc_translate_partial", "vxc_gga_translate_wrong", "gga_gradient_axes", "gga_factor_axis"],
  "Energy densities and energies (LDA, GGA) and the LDA potential: proved. The GGA potential is computed "
  "with the wrong transform axes and does not follow translations (vxc_gga_translate_wrong).")

claim("C29", "proved",
      ["ewald_formula", "ewald_translate", "ewald_permute", "ewald_invert", "ewald_scale",
       "ewald_zero_charge", "ewald_translations_order", "ewald_lattice_move", "ewald_self_term",
       "ewald_reciprocal_nonneg"],
      "erfc is a parameter; the closed formula is proved for every translation list, and the symmetries follow. "
      "Moving an atom by a lattice vector leaves the reciprocal part unchanged; the truncated real-space sum may change. In the limit of large cutoffs it does not (C95).")

claim("C31", "partial",
  ["effectivePotential_channels", "hamiltonianMatrix_elements", "hamiltonianMatrix_hermitian",
   "hamiltonianMatrix_elements_partial", "hamiltonianMatrix_polarised",
   "hamiltonianMatrix_polarised_wrong", "hamiltonianTrace_partial",
   "hamiltonianTrace_polarised_error", "hamiltonianTrace_one", "hamiltonianMatrix_mix",
   "hamiltonianMatrixBasis_elements", "hamiltonianMatrix_compress"],
  "Always Hermitian; the advertised elements for one spin channel. With a polarised potential both "
  "spins get 2T + V_up + V_down (hamiltonianMatrix_polarised_wrong); the trace form raises for three "
  "or more k points and returns one axis fewer than documented.")
claim("C32", "proved",
  ["complexHessian_form", "complexHessian_hermitian", "complexHessian_affine"],
  "JAX's complex reverse mode is modelled through the real Frechet derivative.")

claim("C55", "partial",
  ["nablaDensity_gradient", "densityGrid_samples", "nablaDensityBands_partial",
   "nablaDensityBands_iff", "nablaDensityBands_wrong", "checkPosition_spec"],
  "With occupations: proved (Frechet derivative). Without occupations the code omits the factor 1/vol: "
  "false unless the volume is one or the gradient vanishes (nablaDensityBands_iff).")
claim("C51", "partial",
  ["waveGrid_shape", "densityGrid_shape", "densityGrid_shape_iff", "bindCall_iff", "waveToDensity_shape", "expandCoefficient_shape",
   "squeezeCoefficient_shape", "waveR_shape", "densityR_shape", "nablaDensityGrid_shape",
   "kineticOperator_shape", "hartreeReciprocal_shape", "hartreePotential_shape",
   "externalPotential_shape", "xcDensity_shape", "xcDensity_shape_rejects", "effective_shape",
   "expectation_shape", "energyTerms_shape", "kinetic_shape", "totalEnergy_shape",
   "bandEnergy_shape", "ewald_shape", "ewald_shape_wrong", "hamiltonianMatrixOld_shape",
   "hamiltonianMatrix_shape", "hamiltonianTrace_shape", "hamiltonianTrace_shape_error"],
  "Shape interpreter for all array functions. hamiltonian_matrix and the energies return the documented "
  "shape for all sizes; wave_r, density_r, nabla_density_r, squeeze_coefficient, potential.hartree, "
  "band_energy and _hamiltonian_matrix raise on every well-shaped input.")

claim("C43", "partial",
  ["fftn_transpose", "ifftn_transpose", "transpose_unique", "fftn_jvp", "ifftn_jvp", "fftn_batching", "batching_shape",
   "ifftn_batching", "fftn3d_value", "fftn3d_rank", "fftAbstract_dtype"],
  "Transpose, tangent and batching rules proved for all ranks and sizes. The abstract evaluation announces "
  "the input's data type, which is wrong for real input (fftAbstract_dtype).")
claim("C44", "partial",
  ["supportedSharding_spec", "supportedSharding_idem", "supportedSharding_complete_iff",
   "shardedFft_partial", "partitionRule_correct_partial", "driverSharding_correct", "shardedFft_wrong"],
  "The rule only keeps the last axis whole. Correct when axes -3 and -2 are unsharded (all uses in the "
  "drivers); a sharded axis -3 or -2 is accepted and gives wrong numbers (shardedFft_wrong).")
claim("C59", "partial",
  ["uniformSharded_iff", "driverInit_iff", "driverInit_fails", "uniformSharded_order"],
  "Exactly the divisible case works; the default single k point with two devices raises.")

claim("C48", "proved",
  ["cartesianToSpherical_ranges", "cartesianToSpherical_inverse", "legendreKernelTrick_spec",
   "legendreKernelTrick_rejects", "legendreKernelTrick_zero", "legendreToSphHarm_spec", "legendreToSphHarm_shape"],
  "Exact real arithmetic; all vectors, all positive eps.")
claim("C49", "proved",
  ["simpson_composite", "simpson_exact_odd", "simpson_even", "simpson_nonneg", "meshStep_log",
   "simpson_inverse_r", "sbtRunInt_linear", "sbtRunInt_simpson", "sbtRunInt_inverse", "sbtRunInt_zero",
   "sbtNumerical_linear", "sbtNumerical_leftRiemann", "gGrid_ends",
   "sbtRows_spec"],
  "Weights exact for cubics in log r on odd meshes; an even mesh drops the first interval (simpson_even).")
claim("C60", "proved", ["realHarmonics_kernel", "sphericalRow_kernel", "lowHarmonics_contracts"],
  "Contract on the library function: Y_{l,-m} = (-1)^m conj Y_{lm}.")

claim("C34", "partial",
  ["nonlocal_partial", "nonlocal_actual", "nonlocal_dmatrix_iff", "nonlocal_germanium_wrong",
   "nonlocal_position_wrong", "nonlocal_hermitian", "nonlocal_nonneg", "energyNonlocal_trace",
   "energyNonlocal_nonneg", "nonlocal_lattice"],
  "Hermiticity and the occupation-weighted trace hold without restriction. The D matrix is realised only for "
  "diagonal, ascending, nonnegative D and atoms paired by inversion; nonlocal_dmatrix_iff shows the condition on D "
  "is also necessary, and the shipped germanium D violates it. eigh is a parameter with its contract.")
claim("C61", "partial",
  ["nonlocal_translation_partial", "nonlocal_translation_wrong", "nonlocal_mirror"],
  "Holds when twice the shift is a lattice vector; fails otherwise, because the projectors move opposite to the atoms.")

claim("C35", "proved",
  ["local_errors", "local_formula", "local_additive", "local_permute", "local_lattice", "local_translate",
   "local_coulomb", "energyLocal_integral", "hamiltonianLocal_energy"],
  "The spline and spherical Bessel routines are parameters; local_coulomb needs only that the spline of zero data is zero.")
claim("C62", "partial",
  ["local_real_partial", "hamiltonianLocal_hermitian_partial", "local_not_real"],
  "Holds on odd grid sizes; local_not_real shows an even grid where the potential is complex and the matrix is not Hermitian.")
claim("C63", "partial",
  ["ncHamiltonian_elements_partial", "ncHamiltonian_trace_partial", "ncHamiltonian_hermitian_partial",
   "ncHamiltonian_hermitian_odd", "ncHamiltonian_polarised_error", "ncHamiltonian_channels", "ncHamiltonian_channels_trace"],
  "Elements, trace and Hermiticity for one density channel or without kohn_sham; with two channels and kohn_sham the function raises for more than two k points. Hermiticity needs real potentials, met on odd grids for LDA.")
claim("C64", "partial", ["local_fft_actual", "local_fft_wrong"],
  "Disproved: local_fft_wrong shows the fft method returns the potential times 4 pi / vol.")
claim("C65", "proved", ["betaSbt_errors", "betaSbt_formula"],
  "The spline and spherical Bessel routines are parameters; knots below the lower end of the transform grid are not modelled.")

claim("C50", "partial",
  ["valence_rows_partial", "valence_lost", "valence_rows_wrong", "info_head", "words_iff", "lines_iff",
   "strip_spec", "extractValue_spec", "findUpf_correct", "findUpf_case", "findUpf_order", "findUpf_path_iff",
   "findUpf_none", "readFloats_iff", "parseNonlocal_beta", "ncCreate_aligned", "ncCreate_junk", "truncQ_spec",
   "us_skips", "us_lengths", "us_qij", "parseUpf_iff", "parseUpf_other_blocks"],
  "What the whole file gives, block by block: parseUpf_iff. The valence rows come back only when the generation line is the last one; the path is right only with a final slash; the lists of create are aligned, those added for ultrasoft files are not. The XML parser, directory listing and number readers are parameters.")

claim("C66", "partial", ["driver_objective_partial", "driver_free_energy_partial", "driver_attained_partial"],
  "For all parameters of the all-electron driver whose occupation has the configured number of spin channels and whose mask holds at least as many plane waves as bands. With fewer plane waves the arrays do not fit and the driver raises (one plane wave is broadcast).")
claim("C67", "partial",
  ["trained_occupation_partial", "driver_density_partial", "driverNC_density_partial", "driverNC_density_doubled"],
  "End to end for every optimiser, schedule and starting point, for every configuration the occupation methods can place. False for the norm-conserving driver with spin-unrestricted uniform or gamma occupations: the density holds twice the electrons (driverNC_density_doubled).")
claim("C68", "partial",
  ["driver_log_partial", "driver_log_inconsistent", "driver_no_epoch"],
  "The logged total belongs to the parameters before the last update, the components to those after it; they add up exactly when the last update left the energy unchanged, and a two-plane-wave system where they do not is given.")
claim("C69", "partial", ["driverRepulsion_full", "driverRepulsion_wrong"],
  "False of the code: get_ewald_coulomb_repulsion uses the full nuclear charges also in the norm-conserving drivers. The exact relation is proved; they agree only for f^2 = 1 or zero energy.")
claim("C70", "partial", ["bandNC_supplied", "bandNC_computed_partial", "band_normcons_order"],
  "False when a ground state is supplied (the name density is never bound); proved when the driver computes the ground state itself.")

claim("C71", "partial",
  ["planeWaveHamiltonian_spectrum", "bandEig_variational", "bandCalc_variational_partial", "bandCalc_epochs_partial", "bandCalcNC_epochs", "bandCalc_too_many",
   "bandEig_polarised_doubled", "planeWaveHamiltonianNC_spectrum", "bandEigNC_variational",
   "bandCalcNC_variational", "bandEigNC_channels", "bandCalcNC_channels"],
  "For every optimiser, history, path and number of devices the drivers accept. False for a density with two spin channels: with equal channels every reported energy of the all-electron driver is at least twice the exact one (bandEig_polarised_doubled). The all-electron driver raises with parallel_over_k_path=False on several devices.")
claim("C72", "partial",
  ["bandTrace_bound", "bandTrace_attained", "bandTrace_minimiser", "bandTraceNC_bound", "bandTraceNC_minimiser",
   "bandTraceNC_attained", "bandCalcNC_near_partial", "bandTraceNC_channels", "bandTraceNC_channels_wrong"],
  "For one density channel; with several channels the norm-conserving objective is the trace of another Hamiltonian (bandTraceNC_channels); it can fall while the reported energy rises (bandTraceNC_channels_wrong). The attainment needs the contract that a matrix with orthonormal columns lies in the column space of its own orthogonal factor, which every QR factorisation meets.")

claim("C73", "partial",
  ["sbtMesh_kgrid", "sbtRun_forward", "sbtFast_forward", "mellin_zero_forms", "mlt1_eq", "besselMellin_integral", "sbtRun_inverse_partial",
   "sbtRun_inverse_actual", "sbtRun_scale", "sbtFast_norm", "sbtRun_rejects", "sbtRun_negative", "sbtRun_zero"],
  "Forward transform in full, exact real arithmetic. The inverse holds as stated only for np_in + l = 0: otherwise the continuation below the mesh is off by (r0/k0)^(np_in+l) (sbtRun_inverse_actual). Negative degrees are accepted and use another degree (sbtRun_negative). The multipliers are the exact Mellin transform of j_l: besselMellin_integral proves that the closed form is the improper integral.")
claim("C74", "proved", ["sbtRun_plancherel", "talman_bound", "besselMellin_norm"],
  "All logarithmic meshes and functions.")
claim("C75", "partial", ["batchSbt_rows", "batchSbt_one", "batchSbt_drops", "batchSbt_empty"],
  "Holds when there are as many degrees as rows; otherwise rows are dropped silently (batchSbt_drops).")

claim("C76", "proved", ["run_rotated"],
  "Whole all-electron ground-state calculation, every functional of the library (LDA and GGA), every orthogonal matrix. Assumes exact arithmetic and an optimiser that sees the crystal only through the minimised function.")
claim("C77", "proved", ["run_reordered", "run_withGhost"],
  "Whole all-electron ground-state calculation.")
claim("C78", "partial", ["run_lattice_shift", "run_lattice_move", "run_lattice_refused", "energies_grid_shift", "attainable_grid_shift", "run_grid_shift"],
  "Lattice translations. The electronic energies and the density do not change for single atoms moved by lattice vectors; the Ewald sum is truncated, so its value may change (it does not for a common shift, nor in the limit of large cutoffs, C95). For shifts by vectors of the FFT grid the energies of shifted states and the set of attainable energies are unchanged, and whole runs agree up to the accuracy of the optimiser (run_grid_shift); they need not agree exactly, since the initial orbitals do not follow the atoms. Missing: other shifts, which change the energy because the exchange-correlation energy is sampled on the grid.")
claim("C79", "partial", ["run_complete_partial", "run_energy_partial", "lithium_admissible", "lithium_runs", "run_sizes", "run_geometry", "run_refused"],
  "Every admissible all-electron run succeeds with a physical density. Missing: runs of zero epochs (driver_no_epoch), occupations that cannot be placed, singular cells.")

claim("C80", "partial", ["time_reversed_energies", "time_reversed_state", "mesh_paired", "spectrum_time_reversal", "band_time_reversal_partial", "sphericalMask_reversible", "sphericalMask_reversible_odd", "cubicMask_reversible_iff", "band_time_reversal_cubic_wrong"],
  "Holds for every set of plane waves that contains -G with every G: spherical masks whose cutoff misses the middle of even axes, cubic masks exactly when floor((n-1)/2) is even on every axis. False for other cubic masks (band_time_reversal_cubic_wrong): the kept range is not symmetric.")
claim("C81", "proved", ["energies_spin_flip", "attainable_spin_flip", "energies_restricted", "attainable_restricted"],
  "All functionals, LDA and GGA; the correlation parts of the library are assumed to treat both spins alike and to have the right unpolarised limit, nothing is assumed of exchange parts.")

claim("C82", "partial", ["nonlocal_rotated_partial", "nonlocal_rotation_wrong"],
  "Every D matrix, angular momenta and coefficients, from the addition theorem of the harmonics, provided that projectors with l > 0 vanish at k + G = 0 or no such vector is on the grid; without it the statement is false (nonlocal_rotation_wrong).")

claim("C83", "partial", ["ncRun_rotated_partial"],
  "The whole calculation, exceptions included, for every rotation and reflection. Missing: k meshes that contain the zero vector together with projectors of angular momentum above zero (nonlocal_rotation_wrong, C82).")
claim("C84", "proved", ["ncRun_lattice_shift", "ncRun_lattice_move"],
  "Exact equality of the whole report for a common lattice vector; for separate lattice vectors energies and density agree and the total follows the reported repulsion.")
claim("C85", "proved", ["ncRun_reordered"],
  "Success and the complete report agree for every permutation of the atoms; the exceptions of a failing run may differ, because the files are read in another order.")
claim("C86", "partial", ["ncRun_complete_partial", "ncRun_refused", "ncRun_default_wrong", "driverNC_attained_partial"],
  "Every admissible calculation succeeds, with the physical density of the valence electrons, and reports the energies of physical states. Missing: the idempotent method and fixed occupations in unrestricted calculations, which the driver refuses or counts twice (ncRun_refused, driverNC_density_doubled); real numbers instead of floats.")

claim("C87", "partial", ["totalEnergy_derivative_partial", "groundState_kohn_sham_partial", "groundState_eigenstates_partial", "groundState_exists", "totalEnergy_derivative_polarised_wrong", "vxc_gga_derivative_wrong"],
  "For one spin channel and LDA functionals: the Hamiltonian is the derivative of the energy along every curve, every minimiser solves the Kohn-Sham equations with it, and a minimiser exists. Missing, because false of the code: two spin channels (totalEnergy_derivative_polarised_wrong) and GGA functionals (vxc_gga_derivative_wrong); what the energies of those calculations do minimise is proved in C126 and C127.")

claim("C88", "partial", ["driver_reaches_partial", "driverNC_reaches_partial", "driver_approaches_partial", "driver_simplex_unreached", "driver_simplex_ground_missed"],
  "Every orthonormal set of orbitals on the mask is reached, with every physical occupation for the idempotent method and with every occupation without both a full and an empty state for simplex-projector. Missing, because false of the code: with simplex-projector (the default) closed-shell states with empty bands are only approached, never reached (driver_simplex_unreached), and the ground state can be such a state (driver_simplex_ground_missed). Uniform and gamma occupations are fixed by design.")

claim("C89", "proved", ["driver_ground_state", "driverNC_ground_state", "run_ground_state", "ncRun_ground_state"],
  "Assumes that the orthogonalisation satisfies w = qR with R triangular, that the functional is continuous on nonnegative densities and that entropy_eps is positive. As the property says, spin-restricted simplex-projector occupations with unpaired electrons and gamma occupations with several k points are left out, and the total energy needs two steps and a window of two values.")

claim("C90", "partial", ["bandRun_channels", "bandRun_complete_partial", "bandRun_doubled", "bandRun_saved", "bandRun_geometry", "bandRun_unnumbered"],
  "Spin-restricted calculations satisfy the property. Spin-unrestricted ones do not: every entry belongs to the sum of the Hamiltonians of the two channels (bandRun_channels, bandRun_doubled). bandRun_saved says what every saved file presupposes.")
claim("C91", "partial", ["bandRun_near_partial", "bandRun_ground_state_partial"],
  "Spin-restricted calculations; missing are spin-unrestricted ones, for which the property is false (C90).")

claim("C92", "partial", ["bandRun_rotated_partial", "bandRun_reordered", "bandRun_withGhost", "bandRun_lattice_move", "vxc_gga_rotate_wrong"],
  "Order of the atoms, sites without charge and lattice moves: full. Rotations and reflections: for local density functionals; for GGA functionals the property is false (vxc_gga_rotate_wrong).")

claim("C93", "partial", ["bandRunNC_channels", "bandRunNC_near_partial", "bandRunNC_ground_state_partial", "nonlocalMatrix_textbook_partial", "bandRunNC_supplied", "bandRunNC_saved", "bandRunNC_geometry"],
  "The bounds hold for every spin setting, with the nonlocal operator that the code builds; that operator is the textbook one for atoms in inversion pairs and diagonal non-negative ascending D matrices (nonlocalMatrix_textbook_partial; C44 has the failures). Accuracy for spin-restricted calculations; otherwise the optimiser minimises another quantity (bandTraceNC_channels). A supplied ground state never gives a file (bandRunNC_supplied).")

claim("C94", "partial", ["bandRunNC_rotated_partial", "bandRunNC_lattice_move", "bandRunNC_reordered"],
  "Order and lattice vectors: proved for every calculation. Rotations: for local density functionals, and for projectors with angular momentum above zero only when neither the path nor the k mesh has a point with integer coordinates; GGA potentials (vxc_gga_rotate_wrong) and the nonlocal operator at the zone centre (nonlocal_rotation_wrong) depend on the orientation.")

claim("C95", "proved", ["nuclearRepulsion_converges", "nuclearRepulsion_eta_independent", "nuclearRepulsion_lattice_move", "runRepulsion_eq"],
  "Proved with the true complementary error function, by Poisson summation for Gaussians on an arbitrary lattice (gauss_poisson). The disagreement between two splitting parameters is bounded by an explicit term of order 1e-20 (Spec.splittingError), which the regularised distance of the code causes, plus any epsilon.")
claim("C96", "proved", ["run_ewald_settings", "ncRun_ewald_settings", "bandRun_ewald_settings", "bandRunNC_ewald_settings", "run_eta_independent"],
  "For positive cutoffs and cells with a volume; a cutoff of zero or less is refused (C29).")

claim("C97", "proved", ["run_variational", "ncRun_variational", "run_larger_cutoff", "run_reproducible", "ncRun_reproducible", "run_free_occupations"],
  "For calculations without smearing whose optimiser comes within epsilon of the minimum of what it is asked to minimise (Spec.NearOptimizer); the other calculation may use any optimiser and any smearing. Opening a second spin channel needs spin 0 and correlation functionals with the right unpolarised limit.")

claim("C98", "partial", ["run_history", "ncRun_history", "run_smearing", "ncRun_smearing", "run_smearing_partial", "ncRun_smearing_partial", "temperature_final", "entropy_range", "ground_energy_bound", "stops_hot"],
  "Proved in full when there is no convergence test (threshold <= 0). With one, proved unless the test ends the loop while the temperature is still being lowered, which it does not prevent (stops_hot); the energy bound then holds with 100 in place of the smearing. For optimisers that come within epsilon of the minimum (Spec.NearOptimizer) and at least three epochs.")

claim("C99", "partial", ["totalEnergy_occupation_partial", "energyNC_occupation_partial", "ground_fermiLevel_partial", "groundNC_fermiLevel_partial", "fermiLevel_cold", "fermiLevel_fermiDirac", "ground_aufbau_partial", "groundNC_aufbau_partial", "ground_kohnSham_partial", "ground_attained", "groundNC_attained", "totalEnergy_occupation_polarised_wrong"],
  "Proved for one spin channel and local density functionals with a derivative at the densities that occur. False for two channels, because hamiltonian_matrix counts the kinetic energy twice (totalEnergy_occupation_polarised_wrong). Gradient functionals and two channels are covered, with the textbook Hamiltonian, by C126 and C127; the aufbau rule covers waves orthogonal to the occupied bands at k points with an empty band.")

claim("C100", "partial", ["run_limit_partial", "ncRun_limit_partial", "ground_attained", "groundNC_attained", "stops_hot"],
  "Proved in full when there is no convergence test (threshold <= 0) or no smearing. Otherwise the temperature is that of the step at which the test ends the loop, which need not be the requested one (stops_hot). For optimisers within epsilon of the minimum (Spec.NearOptimizer), at least three epochs and a window of at least two values.")

claim("C101", "partial", ["energyNC_derivative_partial", "groundStateNC_kohnSham_partial", "groundStateNC_eigenstates_partial", "groundNC_kohnSham_partial", "groundNC_attained", "ncHamiltonian_polarised_error", "vxc_gga_derivative_wrong"],
  "Proved for one spin channel and LDA functionals, on all grids. On grids with even sizes the matrix need not be Hermitian, so the statements are about its Hermitian part, which is what eigh diagonalises. With two spin channels the Hamiltonian raises (ncHamiltonian_polarised_error); with GGA its potential is not the derivative of the energy (vxc_gga_derivative_wrong).")

claim("C102", "partial", ["ground_lowest_partial", "groundNC_lowest_partial", "bandRun_lowest_partial", "bandRun_lowest_limit_partial", "bandRunNC_lowest_limit_partial", "groundNC_aufbau_partial", "totalEnergy_derivative_polarised_wrong", "vxc_gga_derivative_wrong"],
  "Proved for one spin channel, LDA functionals and no smearing, at k points with an empty band. With two channels or GGA a ground state does not solve the equations of the Hamiltonian of the code. For whole calculations the first stage must end in a ground state, or be accurate enough for the wanted tolerance. With pseudopotentials the path must have the same largest |k + G| as the mesh (beta_path_dependent).")

claim("C103", "partial", ["fftOn_accepts", "fftOn_value_partial", "driverFft_correct", "fftOn_single", "fftOn_wrong", "fftOn_shardy", "fftOn_noMesh", "undefinedPartition_raises", "wrappedBatch_shape_wrong"],
  "Proved for every array whose axes -3 and -2 are not divided, in every context in which the call returns; the drivers are such a context. Refuted for arrays divided along those axes, with the Shardy partitioner, and for code compiled for several devices outside a mesh.")
claim("C104", "partial", ["mainCall_iff", "mainCall_ignores_load", "setEnvParams_spec", "setEnvParams_no_leak", "setEnvParams_error_iff"],
  "All of it is proved but the option -l, which is read and ignored. JAX's own check of the type of a switch is not modelled.")
claim("C105", "proved", ["sbtHankel_grid", "sbtHankel_kmax", "sbtHankel_value"],
  "scipy's fast Hankel transform is a parameter. Its output points are the ones scipy documents. The value theorem assumes that it is exact for the given function.")

claim("C106", "partial", ["bands_lipschitz", "bandsNC_lipschitz", "bandRun_continuous_partial", "bandRun_limit_partial", "bandRun_lowest_limit_partial", "beta_path_partial", "beta_path_dependent", "bandRunNC_path_partial", "bandRunNC_continuous_partial", "bandRunNC_limit_partial"],
  "Proved for spin-restricted calculations. With pseudopotentials two paths agree at a common point if their largest |k+G| is the same, and their energies are continuous in the point and in the largest |k+G| together, away from points with k+G = 0; for paths with another largest |k+G| refuted for the projectors. The approach to the exact ground state needs a potential that is continuous in the density, which the local functionals have. Missing: two spin channels; smearing that changes over the epochs; a constant for the step between neighbouring points with projectors, for which the splines and harmonics are only assumed to be continuous.")

claim("C107", "proved", ["totalEnergy_displaced", "totalEnergy_slope", "ground_displaced", "ground_hellmannFeynman", "run_displaced", "energyNC_displaced", "ncRun_displaced", "energyNC_slope", "groundNC_hellmannFeynman"],
  "All-electron: explicit bound and Hellmann-Feynman derivative. Norm-conserving: one constant for all arrangements, and the Hellmann-Feynman theorem with the derivative of the energy of the frozen state. The repulsion of the nuclei is not part of this claim; C129 adds it.")
claim("C108", "proved", ["ground_hotter", "freeEnergy_concave", "run_hotter", "ncRun_hotter"],
  "For whole calculations the loop must run to its end (no convergence test), since an early end leaves the temperature above the requested one (C98).")

claim("C109", "proved", ["totalEnergy_supercell", "ground_supercell", "run_supercell"],
  "All-electron runs without smearing. The repulsion of the nuclei is left out: its sums are cut off at a radius and scale with the cell only in the limit (C13). The plane waves of the larger cell must contain the folded ones; the masks of the code select by G, not by k + G, so equal cutoffs do not ensure this. With smearing the entropy does not scale because of the number eps inside the logarithm.")

claim("C110", "partial", ["bandRun_equivalent_partial", "bandRun_trace", "bandRun_equivalent_false", "spectrum_submatrix", "planeWave_move", "bands_larger", "bandRunNC_equivalent_partial"],
  "The property is false of the code: the plane waves are selected by G, not by k + G, so equivalent points get different sets of waves. Proved: both saved energies lie between the eigenvalues for a larger and for a smaller set of plane waves; the exact difference of the sums for a complete set of bands; a calculation in which the energies differ. Spin-restricted calculations; with pseudopotentials the bounds, for sets of plane waves on the grid.")

claim("C111", "partial", ["run_cell_total_continuous_partial", "run_cell_continuous_partial", "ground_cell_continuous", "repulsion_cell_continuous", "mask_stable", "sphericalMask_jump", "run_few_waves", "run_cell_continuous_false", "repulsion_cell_jump", "run_cell_total_jump"],
  "The property is false of the code: a spherical selection loses plane waves when the cell shrinks through a size for which a plane wave lies on the cutoff, and the number of translations in the Ewald sum jumps where its cutoff is a multiple of the squared length of the sum of the cell vectors. Proved: away from both, calculations for all geometries near the given one succeed with the same grid, and the total energies differ by as little as one likes, up to the accuracy of the optimiser and the entropy; at such a multiple the total energies of all slightly smaller cells are larger by a fixed positive amount; a cell in which the calculation succeeds while it fails in every slightly smaller one. All-electron calculations; C128 is the norm-conserving case.")

claim("C112", "proved", ["energy_scaled", "mask_scaled", "run_scaled", "run_virial", "diracLib_homogeneous"],
  "For a homogeneous exchange functional (Dirac exchange is one). The 1e-10 that the code adds to the squared reciprocal vectors enters the bound explicitly, and the repulsion of the nuclei enters the virial theorem through the difference of the reported repulsions. All-electron calculations without smearing for the virial theorem.")

claim("C113", "proved", ["energies_axes_reordered", "ewald_axes", "run_axes_reordered", "ncRun_axes_reordered", "run_grid_shift", "energies_grid_shift", "attainable_grid_shift", "bands_axes_reordered", "bandRun_axes_reordered"],
  "Whole calculations agree up to the accuracy of the optimiser, because the starting point and the path of the optimisation do depend on the order of the axes and on the origin; the energies of corresponding states, the repulsion of the nuclei and the selection of plane waves agree exactly. The order of the axes is covered for all-electron and norm-conserving calculations, the grid origin for all-electron ones (with pseudopotentials the code's projectors do not follow the atoms, see C61). Band energies of corresponding densities agree for functionals without gradients (all-electron, restricted); with gradients the potential of the code is not the derivative of the energy, see C87.")

claim("C114", "partial", ["run_electrons_partial", "ncRun_electrons_partial", "run_noise", "run_noise_wrong", "ncRun_noise", "ncRun_noise_wrong", "run_update_fault", "ncRun_update_fault"],
  "False for uniform and gamma occupations with an optimiser that adds noise (noisy_sgd of optax): the occupation array is a parameter, stop_gradient makes its gradient zero but does not keep the noise away from it. The density holds the electrons of the crystal plus the sum of the noise of all steps. Optimisers with weight decay return no density at all, see C118. Proved for optimisers that leave parameters of zero gradient alone and for the trainable occupation methods with every optimiser. All-electron and norm-conserving calculations.")

claim("C115", "partial", ["schedule_elements_partial", "history_last_saved", "history_other_files", "schedule_saved", "schedule_other_files", "outcome_name", "outcome_name_elements", "table_chemicalSymbols", "history_same_elements", "history_interrupted_write"],
  "False in two ways: the name of the file is made of the element symbols only, so calculations for the same elements overwrite each other (history_same_elements), and the file is emptied before the array is written, so a calculation killed at that point destroys an earlier result (history_interrupted_write). Proved for crystals with different sequences of elements, under every schedule and every history. Two calculations that write one file at the same time are not modelled.")

claim("C116", "partial", ["saves_agree_ended_partial", "saves_agree", "saves_in_turn", "saves_succeed", "saves_one_survives", "save_killed", "saves_race", "saves_interleave", "saves_mixed", "save_killed_loses"],
  "False in three ways: two processes that both find the directory missing race to make it and one raises (saves_race); two processes that save different lists can both return and leave a file that holds neither (saves_mixed); a save that is killed destroys the list that was there (save_killed_loses). Proved for every schedule: calls one after the other, calls that save the same list however their writes are interleaved, and no exception when the directory exists. A load reads the file in one action.")

claim("C117", "proved", ["run_order", "ncRun_order", "bandRun_order", "bandRunNC_order", "functional_order", "run_functional", "ncRun_functional", "bandRun_functional", "bandRunNC_functional", "xcEnergy_names", "pyIn_joined"],
  "All four drivers, exceptions included. A mixture of functionals with and without gradients adds up when the latter ignore the gradients (Spec.IgnoresGradient), which is a contract on the library. Names that the library does not know are not modelled.")

claim("C118", "partial", ["run_complete_partial", "ncRun_complete_partial", "run_update_fault", "ncRun_update_fault", "bandRun_update_fault", "bandRunNC_update_fault"],
  "False for optimisers whose update must be given more than the gradient and the state: the drivers call optimizer.update(grad, opt_state), and the optimisers of optax with weight decay (adamw, lamb, lion) raise ValueError when the parameters are missing, those with a line search TypeError. Every admissible calculation ends with that exception in the first step. Which optimisers do so is a fact about optax and a parameter of the model. Proved for all others that keep the shapes of the parameters.")

claim("C119", "partial", ["run_accepted", "run_refuses_partial", "run_one_wave", "run_spin_excess", "ncRun_accepted", "ncRun_refuses_partial", "ncRun_one_wave"],
  "run_accepted and ncRun_accepted state exactly which input the two ground-state calculations accept. Two kinds of impossible input are among it. With exactly one selected plane wave the einsum of the density repeats the single orbital for every band, so any number of electrons is put into it. A spin that the bands cannot hold is checked for parity only. Otherwise inconsistent input raises and consistent input returns. Assumed: a cell with a volume, a cutoff energy that is not negative, an optimiser that keeps the shape of the occupation parameters.")

claim("C120", "partial", ["bandRun_accepted", "bandRun_refuses_partial", "bandRun_mixed", "bandRunNC_accepted", "bandRunNC_fewer"],
  "bandRun_accepted and bandRunNC_accepted state exactly which input the two band-structure calculations accept. With at least as many plane waves as bands the all-electron calculation saves a file exactly for consistent settings, with the number of points and bands asked for (bandRun_refuses_partial, shape and values by bandRun_saved and bandRun_channels of C90). With fewer plane waves it can still save a file, if the path has more points than asked for and the sizes happen to agree; the energies of different points are then mixed (bandRun_mixed). The norm-conserving calculation silently saves fewer bands (bandRunNC_fewer) and takes the number of points from the path.")

claim("C121", "partial", ["proj_nonexpansive", "projJvp_derivative_partial", "projJvp_derivative_ae", "projJvp_total_partial", "simplexProjectorJvp_derivative_partial", "simplexProjector_differentiable_ae", "simplexProjectorJvp_total_partial", "projJvp_kink", "simplexProjectorJvp_leak"],
  "Automatic differentiation (the rules of sort, cumulative sum, select, maximum and minimum, with the cut-off position held constant) gives the derivative of the occupations wherever they have one (projJvp_derivative_partial, simplexProjectorJvp_derivative_partial), and that is almost everywhere (projJvp_derivative_ae, simplexProjector_differentiable_ae). There it conserves the electrons (simplexProjectorJvp_total_partial). Missing: at a kink, where an occupation is just about to be cut off, there is no derivative, and the computed direction changes the number of electrons to first order (projJvp_kink, simplexProjectorJvp_leak). A channel that is empty or full is excluded as in C17 and C18. Reverse mode is the transpose of these rules and is not modelled separately.")

claim("C122", "partial", ["occupation_stationary", "energyJvp_gradient_partial", "occupation_stationary_optimal_partial", "occupation_start_cut", "occupation_stuck", "projJvp_stationary", "projJvp_cut"],
  "The gradient of an energy with respect to the parameters vanishes exactly if in each spin channel all fractionally occupied bands have the same orbital energy (occupation_stationary); with a convex energy and no empty or full band that is the global minimum over all occupations with the same totals (occupation_stationary_optimal_partial). Missing, because false: with an empty band the gradient can be zero at occupations that are not optimal (occupation_stuck), and at the starting parameters almost half of all bands of all k points are empty with zero gradient once there are enough bands (occupation_start_cut; with eight electrons, twelve bands and 27 k points the first eleven k points hold no electron).")

claim("C123", "partial", ["band_gradient_accuracy", "band_gradient_zero_partial", "band_gradient_zero_any", "band_gradient_zero_not_lowest", "band_gradient_accuracyNC", "band_gradient_zeroNC_partial", "band_gradient_zero_anyNC"],
  "Both band drivers. At independent parameters the objective of a k point has a gradient, and each reported energy is within half the product of the lengths of gradient and parameters of an exact eigenvalue of its own (band_gradient_accuracy, band_gradient_accuracyNC); where the gradient vanishes all reported energies are exact eigenvalues. Missing, because false: that they are the lowest. Every choice of eigenvalues is reported somewhere with gradient zero (band_gradient_zero_any), also above the lowest (band_gradient_zero_not_lowest). One density channel, no more bands than plane waves.")

claim("C124", "partial", ["energy_gradient_kohnSham_partial", "energy_gradient_eigenstates_partial", "energy_gradient_extremes", "driver_gradient_kohnSham_partial", "energyNC_gradient_kohnSham_partial", "driverNC_gradient_kohnSham_partial"],
  "total_energy and the minimised functions of both ground-state drivers, for fixed occupations. At independent plane-wave parameters the gradient exists and vanishes exactly where the bands solve the Kohn-Sham equations of their own density; then diagonalising hamiltonian_matrix gives eigenstates of the plane-wave Hamiltonian. energy_gradient_extremes: states of least and of greatest energy exist and are among these points, so a zero gradient does not by itself mean the ground state. Missing: two spin channels and GGA functionals, where the Hamiltonian of the code is not the derivative of the energy (C87); C126 covers them with the textbook Hamiltonian.")

claim("C125", "partial", ["driver_gradient_fermiLevel_partial", "driverNC_gradient_fermiLevel_partial", "partlyFilled_fermiDirac", "driver_gradient_selfConsistent_partial", "driverNC_gradient_selfConsistent_partial"],
  "The minimised functions of both ground-state drivers with simplex-projector, as functions of the plane-wave and of the occupation parameters, at any temperature. The gradient is zero in both exactly at self-consistent solutions: Kohn-Sham equations for the bands and one Fermi level for the partly filled bands of each spin channel (a Fermi-Dirac distribution up to an error proportional to eps). Missing: parameters where the occupations have no derivative (measure zero, see selfConsistent_ae in C132); two channels and GGA functionals are covered by C126.")

claim("C126", "partial", ["energy_gradient_spin", "energyNC_gradient_spin", "driver_gradient_spin", "driverNC_gradient_spin", "driver_selfConsistent_spin_partial", "driverNC_selfConsistent_spin_partial", "channelLevels_fermiDirac", "kohnShamBands_eigenstates", "xcEnergy_derivative_lda2", "xcEnergy_derivative_gga1", "xcEnergy_derivative_gga2"],
  "Any number of spin channels and every functional with a functional derivative: total_energy, the energy of valence electrons and the minimised functions of both drivers. The gradient is zero exactly at Kohn-Sham states of the textbook Hamiltonian (not of hamiltonian_matrix, which is wrong there, see C87), and with simplex-projector exactly at self-consistent states with a Fermi level for each channel. The functional derivative is given in closed form for polarised LDA and for GGA with one and two channels. Missing: parameters where the occupations have no derivative (measure zero).")

claim("C127", "partial", ["ground_kohnSham_spin", "groundNC_kohnSham_spin", "ground_lowest_spin_partial", "groundNC_lowest_spin_partial", "run_selfConsistent_spin_partial", "ncRun_selfConsistent_spin_partial"],
  "Any number of spin channels and every functional with a functional derivative at the density of the ground state (closed forms in C126). Ground states of total_energy and of the energy of valence electrons solve the Kohn-Sham equations of the textbook Hamiltonian and have a Fermi level in each channel; without smearing the occupied bands are the lowest ones. Whole calculations of both drivers report the density of such a state up to any tolerance if the optimiser is good enough. Missing: k points without an empty band for the lowest bands; how good the optimiser has to be is not computed.")

claim("C128", "partial", ["groundNC_cell_continuous", "ncRun_cell_continuous_partial", "ncRun_cell_total_continuous_partial", "ncRun_cell_total_jump", "harmonics_continuous"],
  "Whole calculations with norm-conserving pseudopotentials, from the files to the total energy: local potential, projectors, spherical harmonics and radial tables are followed through changes of cell and positions. Bessel functions and splines enter by their continuity, harmonics by the addition theorem. Missing: cells with a plane wave on the cutoff and cells on a step of the Ewald sum, where the code is not continuous (ncRun_cell_total_jump, sphericalMask_jump), and degenerate radial tables, whose largest wave vector is at most 0.0001.")

claim("C129", "proved", ["run_position_continuous", "ncRun_position_continuous", "repulsion_slope", "repulsion_forces_balance", "ground_forces", "ground_equilibrium", "groundNC_forces", "groundNC_equilibrium"],
  "Whole calculations of both drivers, the repulsion of the nuclei included, with no condition on cell or cutoffs; the forces are those of the computed Ewald sum with the complementary error function of analysis. Real numbers instead of floats; nuclei at least about 1e-9 apart, below which the code drops their interaction.")

claim("C130", "proved", ["ncRun_from_files", "bandNC_from_files", "potentials_from_files", "createPseudo_files", "samplesOf_list"],
  "Whole norm-conserving ground-state and band calculations. The transforms are the left Riemann sums and splines that the code computes; the spline, the Bessel functions, the directory listing and the XML parser are arbitrary. Real numbers instead of floats.")
claim("C131", "proved", ["vxc_gga_stationary", "vxc_gga_stationary_polarised"],
  "For the potential on the grid, one and two spin channels; the cross term of two channels is not masked in the code and is not claimed. Leaving the terms out is one reason why the potential is not the derivative of the energy (C87).")

claim("C132", "proved", ["draw_independent", "params_independent_ae", "draw_gradient", "draw_gradientNC", "selfConsistent_ae", "selfConsistentNC_ae"],
  "The draws are modelled as exact real numbers, uniform on [0, 1) and independent; floats and the generator are not. The QR factorisation is any with triangular second factor, the functional any with a functional derivative at the densities that occur, one or two spin channels. With simplex-projector the equivalence of a zero gradient and a self-consistent solution (C125, C126) holds for almost all plane-wave and occupation parameters together.")

claim("C133", "proved", ["driver_idempotent_gradient", "driverNC_idempotent_gradient", "idempotent_projector", "keepsLevels_whole", "keepsLevels_chosen", "idem_draw_independent"],
  "At plane-wave and occupation parameters with independent columns, which random draws have with probability one (C132 and idem_draw_independent). Both QR factorisations are any with triangular second factor, the functional any with a functional derivative at the density that occurs, one or two spin channels, temperature zero or not. Exact real arithmetic. The clipping of the entropy at eps is part of entropySlope. The converse warning is keepsLevels_chosen: filling any chosen states completely is stationary in the occupations, also if they are not the lowest.")

claim("C134", "proved", ["driver_descent", "driverNC_descent", "driver_descent_run", "driverNC_descent_run", "driver_idempotent_descent", "driverNC_idempotent_descent", "closed_shell_equal"],
  "Plain gradient descent in exact real arithmetic, at parameters with independent columns (random draws have them with probability one, C132). Whole runs are shown for equally occupied bands (closed_shell_equal: closed shells without empty bands); with unequal occupations one step is shown safe for all but finitely many step sizes. Optimizers with momentum or per-entry scaling are not covered. QR is any with triangular second factor.")

claim("C135", "proved", ["band_descent_converges", "band_descent_convergesNC", "band_descent_rate", "band_descent_rateNC", "band_path_run", "band_path_runNC", "descent_run_exists"],
  "Plain gradient descent at one k point in exact real arithmetic; the step sizes may change from step to step between any two positive bounds. The density has one spin channel (with two the norm-conserving objective itself is off, C72). The constant of the rate may depend on the run. Each energy has a limit, but which eigenvalue it is is not settled: they need not be the lowest (band_gradient_zero_not_lowest). The start needs independent bands, which random draws have with probability one (C132) and which every step keeps, so the end of one k point can start the next (band_path_run). The optimizers with momentum or per-entry scaling are not covered. QR is any with triangular second factor.")

claim("C136", "proved", ["band_descent_lowest", "band_descent_lowestNC", "lowest_start_exists", "lowest_start_existsNC"],
  "Plain gradient descent at one k point in exact real arithmetic; the bound on the step size is shown to exist for every start and is not given as a number of the configuration. There must be more plane waves than bands (otherwise all energies are exact from the start, C72). Without the condition on the start the limit may be a higher eigenvalue (band_gradient_zero_not_lowest). The density has one spin channel. QR is any with triangular second factor.")

claim("C137", "proved", ["band_descent_ground", "band_descent_groundNC", "band_descent_ground_random", "band_descent_ground_randomNC", "draw_overlap"],
  "Only the lowest band; the energies of higher bands converge to eigenvalues in order (C135) and to the lowest ones under the conditions of C136. Plain gradient descent at one k point in exact real arithmetic, with all step sizes between two positive bounds. Random starts are independent uniform draws, as the code makes them when it creates parameters; a warm start from the previous k point is covered by the theorems that assume an overlap. Without an overlap the claim fails: band_gradient_zero_not_lowest (C123) has a start where the gradient is zero at a higher level. The density has one spin channel. QR is any with triangular second factor.")

out = {"claims": [C[k] for k in sorted(C)]}
with open(os.path.join(os.path.dirname(__file__), "..", "MANIFEST.json"), "w") as f:
  json.dump(out, f, indent=1); f.write("\n")
