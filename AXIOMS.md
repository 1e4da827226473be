# Axioms of each theorem

Generated by `tools/axioms.py` with `#print axioms`.

## none (1 theorems)

`Jrystal.properGridSize_scalar`

## `propext` (15 theorems)

`Jrystal.beta_cache_explicit_fails`, `Jrystal.preCalcBeta_single_cpu`, `Jrystal.fftAbstract_dtype`, `Jrystal.waveGrid_shape`, `Jrystal.waveToDensity_shape`, `Jrystal.expandCoefficient_shape`, `Jrystal.squeezeCoefficient_shape`, `Jrystal.kineticOperator_shape`, `Jrystal.hartreeReciprocal_shape`, `Jrystal.hartreePotential_shape`, `Jrystal.createOccupation_spec`, `Jrystal.createOccupation_simplex`, `Jrystal.vmapstack_empty_args`, `Jrystal.vmapstack_two`, `Jrystal.uniformSharded_order`

## `Quot.sound`, `propext` (28 theorems)

`Jrystal.setEnvParams_error_iff`, `Jrystal.saves_succeed`, `Jrystal.saves_one_survives`, `Jrystal.saves_race`, `Jrystal.mapOverAtoms_short`, `Jrystal.stackWithPadding_error`, `Jrystal.stackWithPadding_spec`, `Jrystal.preCalcBeta_schedule`, `Jrystal.betaSbtGrid_spec`, `Jrystal.supportedSharding_spec`, `Jrystal.supportedSharding_idem`, `Jrystal.supportedSharding_complete_iff`, `Jrystal.lines_iff`, `Jrystal.extractValue_spec`, `Jrystal.externalPotential_shape`, `Jrystal.xcDensity_shape`, `Jrystal.xcDensity_shape_rejects`, `Jrystal.effective_shape`, `Jrystal.energyTerms_shape`, `Jrystal.kinetic_shape`, `Jrystal.totalEnergy_shape`, `Jrystal.selectPseudopotential_spec`, `Jrystal.element_tables_inverse`, `Jrystal.element_numbers`, `Jrystal.element_symbols_injective`, `Jrystal.vmapstack_apply`, `Jrystal.vmapstack_args_length_partial`, `Jrystal.vmapstack_args_zero`

## `Classical.choice`, `Quot.sound`, `propext` (781 theorems)

`Jrystal.fftFactor_least`, `Jrystal.fftFactor_error_iff`, `Jrystal.fftFactor_idempotent`, `Jrystal.fftFactor_monotone`, `Jrystal.fftFactor_documented_partial`, `Jrystal.fftFactor_not_documented_least`, `Jrystal.properGridSize_vec`, `Jrystal.grid_duality`, `Jrystal.grid_duality_exp`, `Jrystal.gVectors_zero`, `Jrystal.gVectors_injective`, `Jrystal.reciprocal_dual`, `Jrystal.rVectors_fraction`, `Jrystal.sphericalMask_iff`, `Jrystal.sphericalMask_mono`, `Jrystal.sphericalMask_zero`, `Jrystal.sphericalMask_neg`, `Jrystal.gVectors_neg_exists`, `Jrystal.gridVectorRadius_spec`, `Jrystal.cubicMask_kept_partial`, `Jrystal.kept_difference_bound`, `Jrystal.cubicMask_no_alias_partial`, `Jrystal.cubicMask_size_two`, `Jrystal.halfShape_count_partial`, `Jrystal.halfShape_size_two`, `Jrystal.halfPad_entry`, `Jrystal.halfPad_total`, `Jrystal.halfPad_injective`, `Jrystal.halfPad_zero`, `Jrystal.halfPad_support_partial`, `Jrystal.estimateMaxCutoff_upper`, `Jrystal.estimateMaxCutoff_attained`, `Jrystal.estimateMaxCutoff_contains`, `Jrystal.estimateMaxCutoff_tight`, `Jrystal.r2cell_recovers`, `Jrystal.r2g_converts`, `Jrystal.grid_convert_explicit`, `Jrystal.g2cell_transposes`, `Jrystal.g2cell_recovers_partial`, `Jrystal.g2r_converts_partial`, `Jrystal.g2cell_not_recovered`, `Jrystal.kVectors_fractional`, `Jrystal.kVectors_distinct`, `Jrystal.kVectors_inversion`, `Jrystal.kVectors_gamma`, `Jrystal.kVectors_sum_zero`, `Jrystal.translations_lattice`, `Jrystal.translations_distinct`, `Jrystal.translations_zero`, `Jrystal.translations_symmetric_partial`, `Jrystal.translations_not_symmetric`, `Jrystal.expandCoefficient_spec`, `Jrystal.maskCount_spec`, `Jrystal.paramShape_spec`, `Jrystal.expandCoefficient_inner`, `Jrystal.gather_expand`, `Jrystal.squeezeCoefficient_fails`, `Jrystal.run_limit_partial`, `Jrystal.ncRun_limit_partial`, `Jrystal.ground_attained`, `Jrystal.groundNC_attained`, `Jrystal.stops_hot`, `Jrystal.energyNC_derivative_partial`, `Jrystal.groundStateNC_kohnSham_partial`, `Jrystal.groundStateNC_eigenstates_partial`, `Jrystal.groundNC_kohnSham_partial`, `Jrystal.ncHamiltonian_polarised_error`, `Jrystal.vxc_gga_derivative_wrong`, `Jrystal.ground_lowest_partial`, `Jrystal.groundNC_lowest_partial`, `Jrystal.bandRun_lowest_partial`, `Jrystal.bandRun_lowest_limit_partial`, `Jrystal.bandRunNC_lowest_limit_partial`, `Jrystal.groundNC_aufbau_partial`, `Jrystal.totalEnergy_derivative_polarised_wrong`, `Jrystal.fftOn_accepts`, `Jrystal.fftOn_value_partial`, `Jrystal.driverFft_correct`, `Jrystal.fftOn_single`, `Jrystal.fftOn_wrong`, `Jrystal.fftOn_shardy`, `Jrystal.fftOn_noMesh`, `Jrystal.undefinedPartition_raises`, `Jrystal.wrappedBatch_shape_wrong`, `Jrystal.mainCall_iff`, `Jrystal.mainCall_ignores_load`, `Jrystal.setEnvParams_spec`, `Jrystal.setEnvParams_no_leak`, `Jrystal.sbtHankel_grid`, `Jrystal.sbtHankel_kmax`, `Jrystal.sbtHankel_value`, `Jrystal.bands_lipschitz`, `Jrystal.bandsNC_lipschitz`, `Jrystal.bandRun_continuous_partial`, `Jrystal.bandRun_limit_partial`, `Jrystal.beta_path_partial`, `Jrystal.beta_path_dependent`, `Jrystal.bandRunNC_path_partial`, `Jrystal.bandRunNC_continuous_partial`, `Jrystal.bandRunNC_limit_partial`, `Jrystal.totalEnergy_displaced`, `Jrystal.totalEnergy_slope`, `Jrystal.ground_displaced`, `Jrystal.ground_hellmannFeynman`, `Jrystal.run_displaced`, `Jrystal.energyNC_displaced`, `Jrystal.ncRun_displaced`, `Jrystal.energyNC_slope`, `Jrystal.groundNC_hellmannFeynman`, `Jrystal.ground_hotter`, `Jrystal.freeEnergy_concave`, `Jrystal.run_hotter`, `Jrystal.ncRun_hotter`, `Jrystal.totalEnergy_supercell`, `Jrystal.ground_supercell`, `Jrystal.run_supercell`, `Jrystal.pwCoeff_orthonormal`, `Jrystal.pwCoeff_support`, `Jrystal.waveGrid_orthonormal`, `Jrystal.waveGrid_isometry`, `Jrystal.bandRun_equivalent_partial`, `Jrystal.bandRun_trace`, `Jrystal.bandRun_equivalent_false`, `Jrystal.spectrum_submatrix`, `Jrystal.planeWave_move`, `Jrystal.bands_larger`, `Jrystal.bandRunNC_equivalent_partial`, `Jrystal.run_cell_total_continuous_partial`, `Jrystal.run_cell_continuous_partial`, `Jrystal.ground_cell_continuous`, `Jrystal.repulsion_cell_continuous`, `Jrystal.mask_stable`, `Jrystal.sphericalMask_jump`, `Jrystal.run_few_waves`, `Jrystal.run_cell_continuous_false`, `Jrystal.repulsion_cell_jump`, `Jrystal.run_cell_total_jump`, `Jrystal.energy_scaled`, `Jrystal.mask_scaled`, `Jrystal.run_scaled`, `Jrystal.run_virial`, `Jrystal.diracLib_homogeneous`, `Jrystal.energies_axes_reordered`, `Jrystal.ewald_axes`, `Jrystal.run_axes_reordered`, `Jrystal.ncRun_axes_reordered`, `Jrystal.run_grid_shift`, `Jrystal.energies_grid_shift`, `Jrystal.attainable_grid_shift`, `Jrystal.bands_axes_reordered`, `Jrystal.bandRun_axes_reordered`, `Jrystal.run_electrons_partial`, `Jrystal.ncRun_electrons_partial`, `Jrystal.run_noise`, `Jrystal.run_noise_wrong`, `Jrystal.ncRun_noise`, `Jrystal.ncRun_noise_wrong`, `Jrystal.run_update_fault`, `Jrystal.ncRun_update_fault`, `Jrystal.schedule_elements_partial`, `Jrystal.history_last_saved`, `Jrystal.history_other_files`, `Jrystal.schedule_saved`, `Jrystal.schedule_other_files`, `Jrystal.outcome_name`, `Jrystal.outcome_name_elements`, `Jrystal.table_chemicalSymbols`, `Jrystal.history_same_elements`, `Jrystal.history_interrupted_write`, `Jrystal.saves_agree_ended_partial`, `Jrystal.saves_agree`, `Jrystal.saves_in_turn`, `Jrystal.save_killed`, `Jrystal.saves_interleave`, `Jrystal.saves_mixed`, `Jrystal.save_killed_loses`, `Jrystal.run_order`, `Jrystal.ncRun_order`, `Jrystal.bandRun_order`, `Jrystal.bandRunNC_order`, `Jrystal.functional_order`, `Jrystal.run_functional`, `Jrystal.ncRun_functional`, `Jrystal.bandRun_functional`, `Jrystal.bandRunNC_functional`, `Jrystal.xcEnergy_names`, `Jrystal.pyIn_joined`, `Jrystal.run_complete_partial`, `Jrystal.ncRun_complete_partial`, `Jrystal.bandRun_update_fault`, `Jrystal.bandRunNC_update_fault`, `Jrystal.run_accepted`, `Jrystal.run_refuses_partial`, `Jrystal.run_one_wave`, `Jrystal.run_spin_excess`, `Jrystal.ncRun_accepted`, `Jrystal.ncRun_refuses_partial`, `Jrystal.ncRun_one_wave`, `Jrystal.waveGrid_expansion`, `Jrystal.bandRun_accepted`, `Jrystal.bandRun_refuses_partial`, `Jrystal.bandRun_mixed`, `Jrystal.bandRunNC_accepted`, `Jrystal.bandRunNC_fewer`, `Jrystal.proj_nonexpansive`, `Jrystal.projJvp_derivative_partial`, `Jrystal.projJvp_derivative_ae`, `Jrystal.projJvp_total_partial`, `Jrystal.simplexProjectorJvp_derivative_partial`, `Jrystal.simplexProjector_differentiable_ae`, `Jrystal.simplexProjectorJvp_total_partial`, `Jrystal.projJvp_kink`, `Jrystal.simplexProjectorJvp_leak`, `Jrystal.occupation_stationary`, `Jrystal.energyJvp_gradient_partial`, `Jrystal.occupation_stationary_optimal_partial`, `Jrystal.occupation_start_cut`, `Jrystal.occupation_stuck`, `Jrystal.projJvp_stationary`, `Jrystal.projJvp_cut`, `Jrystal.band_gradient_accuracy`, `Jrystal.band_gradient_zero_partial`, `Jrystal.band_gradient_zero_any`, `Jrystal.band_gradient_zero_not_lowest`, `Jrystal.band_gradient_accuracyNC`, `Jrystal.band_gradient_zeroNC_partial`, `Jrystal.band_gradient_zero_anyNC`, `Jrystal.energy_gradient_kohnSham_partial`, `Jrystal.energy_gradient_eigenstates_partial`, `Jrystal.energy_gradient_extremes`, `Jrystal.driver_gradient_kohnSham_partial`, `Jrystal.energyNC_gradient_kohnSham_partial`, `Jrystal.driverNC_gradient_kohnSham_partial`, `Jrystal.driver_gradient_fermiLevel_partial`, `Jrystal.driverNC_gradient_fermiLevel_partial`, `Jrystal.partlyFilled_fermiDirac`, `Jrystal.driver_gradient_selfConsistent_partial`, `Jrystal.driverNC_gradient_selfConsistent_partial`, `Jrystal.energy_gradient_spin`, `Jrystal.energyNC_gradient_spin`, `Jrystal.driver_gradient_spin`, `Jrystal.driverNC_gradient_spin`, `Jrystal.driver_selfConsistent_spin_partial`, `Jrystal.driverNC_selfConsistent_spin_partial`, `Jrystal.channelLevels_fermiDirac`, `Jrystal.kohnShamBands_eigenstates`, `Jrystal.xcEnergy_derivative_lda2`, `Jrystal.xcEnergy_derivative_gga1`, `Jrystal.xcEnergy_derivative_gga2`, `Jrystal.ground_kohnSham_spin`, `Jrystal.groundNC_kohnSham_spin`, `Jrystal.ground_lowest_spin_partial`, `Jrystal.groundNC_lowest_spin_partial`, `Jrystal.run_selfConsistent_spin_partial`, `Jrystal.ncRun_selfConsistent_spin_partial`, `Jrystal.groundNC_cell_continuous`, `Jrystal.ncRun_cell_continuous_partial`, `Jrystal.ncRun_cell_total_continuous_partial`, `Jrystal.ncRun_cell_total_jump`, `Jrystal.harmonics_continuous`, `Jrystal.run_position_continuous`, `Jrystal.ncRun_position_continuous`, `Jrystal.repulsion_slope`, `Jrystal.repulsion_forces_balance`, `Jrystal.ground_forces`, `Jrystal.ground_equilibrium`, `Jrystal.groundNC_forces`, `Jrystal.groundNC_equilibrium`, `Jrystal.densityGrid_nonneg`, `Jrystal.densityGrid_integral`, `Jrystal.waveToDensity_eq`, `Jrystal.densityGrid_expansion`, `Jrystal.ncRun_from_files`, `Jrystal.bandNC_from_files`, `Jrystal.potentials_from_files`, `Jrystal.createPseudo_files`, `Jrystal.samplesOf_list`, `Jrystal.vxc_gga_stationary`, `Jrystal.vxc_gga_stationary_polarised`, `Jrystal.draw_independent`, `Jrystal.params_independent_ae`, `Jrystal.draw_gradient`, `Jrystal.draw_gradientNC`, `Jrystal.selfConsistent_ae`, `Jrystal.selfConsistentNC_ae`, `Jrystal.driver_idempotent_gradient`, `Jrystal.driverNC_idempotent_gradient`, `Jrystal.idempotent_projector`, `Jrystal.keepsLevels_whole`, `Jrystal.keepsLevels_chosen`, `Jrystal.idem_draw_independent`, `Jrystal.driver_descent`, `Jrystal.driverNC_descent`, `Jrystal.driver_descent_run`, `Jrystal.driverNC_descent_run`, `Jrystal.driver_idempotent_descent`, `Jrystal.driverNC_idempotent_descent`, `Jrystal.closed_shell_equal`, `Jrystal.band_descent_converges`, `Jrystal.band_descent_convergesNC`, `Jrystal.band_descent_rate`, `Jrystal.band_descent_rateNC`, `Jrystal.band_path_run`, `Jrystal.band_path_runNC`, `Jrystal.descent_run_exists`, `Jrystal.band_descent_lowest`, `Jrystal.band_descent_lowestNC`, `Jrystal.lowest_start_exists`, `Jrystal.lowest_start_existsNC`, `Jrystal.band_descent_ground`, `Jrystal.band_descent_groundNC`, `Jrystal.band_descent_ground_random`, `Jrystal.band_descent_ground_randomNC`, `Jrystal.draw_overlap`, `Jrystal.densityReciprocal_zero`, `Jrystal.densityReciprocal_hermitian`, `Jrystal.waveToDensityReciprocal_eq`, `Jrystal.ifftn_fftn`, `Jrystal.fftn_ifftn`, `Jrystal.reciprocalBraket_parseval`, `Jrystal.realBraket_partial`, `Jrystal.realBraket_no_conj`, `Jrystal.realBraket_leading`, `Jrystal.reciprocalBraket_leading`, `Jrystal.reciprocalBraket_leading_wrong`, `Jrystal.expectation_modes`, `Jrystal.densityGrid_mix`, `Jrystal.kinetic_mix`, `Jrystal.totalEnergy_mix`, `Jrystal.kinetic_mix_unequal`, `Jrystal.proj_nearest_partial`, `Jrystal.proj_zero_iff`, `Jrystal.proj_full_iff`, `Jrystal.proj_zero_sum_iff`, `Jrystal.proj_full_sum_iff`, `Jrystal.proj_endpoint_counterexample`, `Jrystal.simplexProjector_unrestricted_partial`, `Jrystal.simplexProjector_restricted_partial`, `Jrystal.simplexProjector_empty_channel`, `Jrystal.simplexProjector_full_channel`, `Jrystal.uniform_gamma_total`, `Jrystal.uniform_conserves_partial`, `Jrystal.gamma_conserves_partial`, `Jrystal.uniform_gamma_default_bands_partial`, `Jrystal.uniform_restricted`, `Jrystal.gamma_restricted`, `Jrystal.uniform_gamma_loses_electrons`, `Jrystal.idempotent_bounds_unrestricted`, `Jrystal.idempotent_bounds_restricted`, `Jrystal.idempotent_total`, `Jrystal.idempotent_conserves_partial`, `Jrystal.idempotent_restricted_total`, `Jrystal.occupation_unknown_method`, `Jrystal.driver_uniform_gamma_partial`, `Jrystal.driver_uniform_truncates`, `Jrystal.driver_idempotent`, `Jrystal.driver_simplex_partial`, `Jrystal.driver_hydrogen`, `Jrystal.driverNC_channels`, `Jrystal.driverNC_same`, `Jrystal.entropy_symmetric`, `Jrystal.entropy_concave`, `Jrystal.entropy_max`, `Jrystal.entropy_max_unique`, `Jrystal.entropy_reorder`, `Jrystal.entropy_full_band`, `Jrystal.hartree_formula`, `Jrystal.hartree_kohn_sham`, `Jrystal.hartree_nonneg`, `Jrystal.hartree_scale`, `Jrystal.hartree_spin_sum`, `Jrystal.hartree_constant`, `Jrystal.external_formula`, `Jrystal.external_linear_density`, `Jrystal.external_linear_charge`, `Jrystal.external_lattice`, `Jrystal.external_permute`, `Jrystal.external_translate`, `Jrystal.external_no_zero`, `Jrystal.external_softening`, `Jrystal.kinetic_formula`, `Jrystal.kineticBands_formula`, `Jrystal.kinetic_nonneg`, `Jrystal.kinetic_linear`, `Jrystal.kinetic_expectation`, `Jrystal.kinetic_cutoff`, `Jrystal.totalEnergy_sum`, `Jrystal.totalEnergy_parts`, `Jrystal.totalEnergy_ones`, `Jrystal.totalEnergy_succeeds`, `Jrystal.totalEnergy_lattice`, `Jrystal.xc_unpolarised_limit`, `Jrystal.correlation_polarised`, `Jrystal.exchange_spin_scaling_error`, `Jrystal.exchange_spin_scaling_partial`, `Jrystal.exchange_spin_scaling_iff`, `Jrystal.exchange_spin_scaling_fails`, `Jrystal.xc_combined_is_exchange`, `Jrystal.sigma_admissible`, `Jrystal.sigma_total`, `Jrystal.sigma_constant`, `Jrystal.gradRho_is_gradient`, `Jrystal.ewald_formula`, `Jrystal.ewald_translate`, `Jrystal.ewald_permute`, `Jrystal.ewald_invert`, `Jrystal.ewald_scale`, `Jrystal.ewald_zero_charge`, `Jrystal.ewald_translations_order`, `Jrystal.ewald_lattice_move`, `Jrystal.ewald_self_term`, `Jrystal.ewald_reciprocal_nonneg`, `Jrystal.hartreePotential_real_iff`, `Jrystal.hartreePotential_real_partial`, `Jrystal.hartreePotential_real_orthogonal`, `Jrystal.hartreePotential_not_real`, `Jrystal.hartreePotential_mean_zero`, `Jrystal.hartreePotential_energy`, `Jrystal.effectivePotential_channels`, `Jrystal.hamiltonianMatrix_elements`, `Jrystal.hamiltonianMatrix_hermitian`, `Jrystal.hamiltonianMatrix_elements_partial`, `Jrystal.hamiltonianMatrix_polarised`, `Jrystal.hamiltonianMatrix_polarised_wrong`, `Jrystal.hamiltonianTrace_partial`, `Jrystal.hamiltonianTrace_polarised_error`, `Jrystal.hamiltonianTrace_one`, `Jrystal.hamiltonianMatrix_mix`, `Jrystal.hamiltonianMatrixBasis_elements`, `Jrystal.hamiltonianMatrix_compress`, `Jrystal.complexHessian_form`, `Jrystal.complexHessian_hermitian`, `Jrystal.complexHessian_affine`, `Jrystal.expectation_diag`, `Jrystal.expectation_hermitian`, `Jrystal.expectation_bad_mode`, `Jrystal.expectation_lead_kpt`, `Jrystal.expectation_unpolarised_partial`, `Jrystal.expectation_spin_axis_wrong`, `Jrystal.nonlocal_partial`, `Jrystal.nonlocal_actual`, `Jrystal.nonlocal_dmatrix_iff`, `Jrystal.nonlocal_germanium_wrong`, `Jrystal.nonlocal_position_wrong`, `Jrystal.nonlocal_hermitian`, `Jrystal.nonlocal_nonneg`, `Jrystal.energyNonlocal_trace`, `Jrystal.energyNonlocal_nonneg`, `Jrystal.nonlocal_lattice`, `Jrystal.local_errors`, `Jrystal.local_formula`, `Jrystal.local_additive`, `Jrystal.local_permute`, `Jrystal.local_lattice`, `Jrystal.local_translate`, `Jrystal.local_coulomb`, `Jrystal.energyLocal_integral`, `Jrystal.hamiltonianLocal_energy`, `Jrystal.check_iff`, `Jrystal.checker_history`, `Jrystal.reset_restores`, `Jrystal.check_never`, `Jrystal.optimise_spec`, `Jrystal.optimise_energy_partial`, `Jrystal.optimise_energy_fixed_partial`, `Jrystal.optimise_energy_stale`, `Jrystal.optimise_no_epoch`, `Jrystal.gsLoop_refines`, `Jrystal.gsRun_history`, `Jrystal.temperature_anneals_partial`, `Jrystal.temperature_zero`, `Jrystal.temperature_geometric`, `Jrystal.temperature_short`, `Jrystal.temperature_hot`, `Jrystal.band_normcons_order`, `Jrystal.band_all_electrons_order_partial`, `Jrystal.band_all_electrons_serial_fails`, `Jrystal.band_uneven_rejected`, `Jrystal.getConfig_file`, `Jrystal.getConfig_error_iff`, `Jrystal.getConfig_default`, `Jrystal.getConfig_keys_partial`, `Jrystal.getConfig_no_defaults`, `Jrystal.beta_cache_round_trip_partial`, `Jrystal.beta_cache_missing`, `Jrystal.mapOverAtoms_spec`, `Jrystal.fftn_transpose`, `Jrystal.ifftn_transpose`, `Jrystal.transpose_unique`, `Jrystal.fftn_jvp`, `Jrystal.ifftn_jvp`, `Jrystal.fftn_batching`, `Jrystal.batching_shape`, `Jrystal.ifftn_batching`, `Jrystal.fftn3d_value`, `Jrystal.fftn3d_rank`, `Jrystal.shardedFft_partial`, `Jrystal.partitionRule_correct_partial`, `Jrystal.driverSharding_correct`, `Jrystal.shardedFft_wrong`, `Jrystal.safeReal_real`, `Jrystal.safeReal_complex`, `Jrystal.safeReal_nonfinite`, `Jrystal.scaledPositions_partial`, `Jrystal.scaledPositions_iff`, `Jrystal.vol_pos`, `Jrystal.vol_unimodular`, `Jrystal.vol_scale`, `Jrystal.createCrystal_default`, `Jrystal.createCrystal_spin`, `Jrystal.crystal_reciprocal_dual`, `Jrystal.getKPath_fractional`, `Jrystal.getKPath_cartesian`, `Jrystal.cartesianToSpherical_ranges`, `Jrystal.cartesianToSpherical_inverse`, `Jrystal.legendreKernelTrick_spec`, `Jrystal.legendreKernelTrick_rejects`, `Jrystal.legendreKernelTrick_zero`, `Jrystal.legendreToSphHarm_spec`, `Jrystal.legendreToSphHarm_shape`, `Jrystal.simpson_composite`, `Jrystal.simpson_exact_odd`, `Jrystal.simpson_even`, `Jrystal.simpson_nonneg`, `Jrystal.meshStep_log`, `Jrystal.simpson_inverse_r`, `Jrystal.sbtRunInt_linear`, `Jrystal.sbtRunInt_simpson`, `Jrystal.sbtRunInt_inverse`, `Jrystal.sbtRunInt_zero`, `Jrystal.sbtNumerical_linear`, `Jrystal.sbtNumerical_leftRiemann`, `Jrystal.gGrid_ends`, `Jrystal.sbtRows_spec`, `Jrystal.valence_rows_partial`, `Jrystal.valence_lost`, `Jrystal.valence_rows_wrong`, `Jrystal.info_head`, `Jrystal.words_iff`, `Jrystal.strip_spec`, `Jrystal.findUpf_correct`, `Jrystal.findUpf_case`, `Jrystal.findUpf_order`, `Jrystal.findUpf_path_iff`, `Jrystal.findUpf_none`, `Jrystal.readFloats_iff`, `Jrystal.parseNonlocal_beta`, `Jrystal.ncCreate_aligned`, `Jrystal.ncCreate_junk`, `Jrystal.truncQ_spec`, `Jrystal.us_skips`, `Jrystal.us_lengths`, `Jrystal.us_qij`, `Jrystal.parseUpf_iff`, `Jrystal.parseUpf_other_blocks`, `Jrystal.densityGrid_shape`, `Jrystal.densityGrid_shape_iff`, `Jrystal.bindCall_iff`, `Jrystal.waveR_shape`, `Jrystal.densityR_shape`, `Jrystal.nablaDensityGrid_shape`, `Jrystal.expectation_shape`, `Jrystal.bandEnergy_shape`, `Jrystal.ewald_shape`, `Jrystal.ewald_shape_wrong`, `Jrystal.hamiltonianMatrixOld_shape`, `Jrystal.hamiltonianMatrix_shape`, `Jrystal.hamiltonianTrace_shape`, `Jrystal.hamiltonianTrace_shape_error`, `Jrystal.mainDispatch_spec`, `Jrystal.mainDispatch_no_switch`, `Jrystal.parseArgs_partial`, `Jrystal.parseArgs_scalar`, `Jrystal.parseArgs_unknown`, `Jrystal.parseArgs_abbreviation`, `Jrystal.parseArgs_bool_always_true`, `Jrystal.parseArgs_null_rejected`, `Jrystal.parseArgs_list_chars`, `Jrystal.selectPseudopotential_default`, `Jrystal.selectMask_spec`, `Jrystal.createOptimizer_spec`, `Jrystal.conversion_constants`, `Jrystal.conversion_round_trip`, `Jrystal.nablaDensity_gradient`, `Jrystal.densityGrid_samples`, `Jrystal.nablaDensityBands_partial`, `Jrystal.nablaDensityBands_iff`, `Jrystal.nablaDensityBands_wrong`, `Jrystal.checkPosition_spec`, `Jrystal.vxc_lda_unpolarised_partial`, `Jrystal.vxc_lda_polarised_error`, `Jrystal.vxc_lda_polarised_error_down`, `Jrystal.vxc_lda_polarised_wrong`, `Jrystal.gga_potential_uniform`, `Jrystal.createFromSymbols_partial`, `Jrystal.createFromSymbols_wrong_unit`, `Jrystal.xc_translate`, `Jrystal.vxc_translate_partial`, `Jrystal.vxc_gga_translate_wrong`, `Jrystal.gga_gradient_axes`, `Jrystal.gga_factor_axis`, `Jrystal.uniformSharded_iff`, `Jrystal.driverInit_iff`, `Jrystal.driverInit_fails`, `Jrystal.realHarmonics_kernel`, `Jrystal.sphericalRow_kernel`, `Jrystal.lowHarmonics_contracts`, `Jrystal.nonlocal_translation_partial`, `Jrystal.nonlocal_translation_wrong`, `Jrystal.nonlocal_mirror`, `Jrystal.local_real_partial`, `Jrystal.hamiltonianLocal_hermitian_partial`, `Jrystal.local_not_real`, `Jrystal.ncHamiltonian_elements_partial`, `Jrystal.ncHamiltonian_trace_partial`, `Jrystal.ncHamiltonian_hermitian_partial`, `Jrystal.ncHamiltonian_hermitian_odd`, `Jrystal.ncHamiltonian_channels`, `Jrystal.ncHamiltonian_channels_trace`, `Jrystal.local_fft_actual`, `Jrystal.local_fft_wrong`, `Jrystal.betaSbt_errors`, `Jrystal.betaSbt_formula`, `Jrystal.driver_objective_partial`, `Jrystal.driver_free_energy_partial`, `Jrystal.driver_attained_partial`, `Jrystal.trained_occupation_partial`, `Jrystal.driver_density_partial`, `Jrystal.driverNC_density_partial`, `Jrystal.driverNC_density_doubled`, `Jrystal.driver_log_partial`, `Jrystal.driver_log_inconsistent`, `Jrystal.driver_no_epoch`, `Jrystal.driverRepulsion_full`, `Jrystal.driverRepulsion_wrong`, `Jrystal.bandNC_supplied`, `Jrystal.bandNC_computed_partial`, `Jrystal.planeWaveHamiltonian_spectrum`, `Jrystal.bandEig_variational`, `Jrystal.bandCalc_variational_partial`, `Jrystal.bandCalc_epochs_partial`, `Jrystal.bandCalcNC_epochs`, `Jrystal.bandCalc_too_many`, `Jrystal.bandEig_polarised_doubled`, `Jrystal.planeWaveHamiltonianNC_spectrum`, `Jrystal.bandEigNC_variational`, `Jrystal.bandCalcNC_variational`, `Jrystal.bandEigNC_channels`, `Jrystal.bandCalcNC_channels`, `Jrystal.bandTrace_bound`, `Jrystal.bandTrace_attained`, `Jrystal.bandTrace_minimiser`, `Jrystal.bandTraceNC_bound`, `Jrystal.bandTraceNC_minimiser`, `Jrystal.bandTraceNC_attained`, `Jrystal.bandCalcNC_near_partial`, `Jrystal.bandTraceNC_channels`, `Jrystal.bandTraceNC_channels_wrong`, `Jrystal.sbtMesh_kgrid`, `Jrystal.sbtRun_forward`, `Jrystal.sbtFast_forward`, `Jrystal.mellin_zero_forms`, `Jrystal.mlt1_eq`, `Jrystal.besselMellin_integral`, `Jrystal.sbtRun_inverse_partial`, `Jrystal.sbtRun_inverse_actual`, `Jrystal.sbtRun_scale`, `Jrystal.sbtFast_norm`, `Jrystal.sbtRun_rejects`, `Jrystal.sbtRun_negative`, `Jrystal.sbtRun_zero`, `Jrystal.sbtRun_plancherel`, `Jrystal.talman_bound`, `Jrystal.besselMellin_norm`, `Jrystal.batchSbt_rows`, `Jrystal.batchSbt_one`, `Jrystal.batchSbt_drops`, `Jrystal.batchSbt_empty`, `Jrystal.run_rotated`, `Jrystal.run_reordered`, `Jrystal.run_withGhost`, `Jrystal.run_lattice_shift`, `Jrystal.run_lattice_move`, `Jrystal.run_lattice_refused`, `Jrystal.run_energy_partial`, `Jrystal.lithium_admissible`, `Jrystal.lithium_runs`, `Jrystal.run_sizes`, `Jrystal.run_geometry`, `Jrystal.run_refused`, `Jrystal.time_reversed_energies`, `Jrystal.time_reversed_state`, `Jrystal.mesh_paired`, `Jrystal.spectrum_time_reversal`, `Jrystal.band_time_reversal_partial`, `Jrystal.sphericalMask_reversible`, `Jrystal.sphericalMask_reversible_odd`, `Jrystal.cubicMask_reversible_iff`, `Jrystal.band_time_reversal_cubic_wrong`, `Jrystal.energies_spin_flip`, `Jrystal.attainable_spin_flip`, `Jrystal.energies_restricted`, `Jrystal.attainable_restricted`, `Jrystal.nonlocal_rotated_partial`, `Jrystal.nonlocal_rotation_wrong`, `Jrystal.ncRun_rotated_partial`, `Jrystal.ncRun_lattice_shift`, `Jrystal.ncRun_lattice_move`, `Jrystal.ncRun_reordered`, `Jrystal.ncRun_refused`, `Jrystal.ncRun_default_wrong`, `Jrystal.driverNC_attained_partial`, `Jrystal.totalEnergy_derivative_partial`, `Jrystal.groundState_kohn_sham_partial`, `Jrystal.groundState_eigenstates_partial`, `Jrystal.groundState_exists`, `Jrystal.driver_reaches_partial`, `Jrystal.driverNC_reaches_partial`, `Jrystal.driver_approaches_partial`, `Jrystal.driver_simplex_unreached`, `Jrystal.driver_simplex_ground_missed`, `Jrystal.driver_ground_state`, `Jrystal.driverNC_ground_state`, `Jrystal.run_ground_state`, `Jrystal.ncRun_ground_state`, `Jrystal.bandRun_channels`, `Jrystal.bandRun_complete_partial`, `Jrystal.bandRun_doubled`, `Jrystal.bandRun_saved`, `Jrystal.bandRun_geometry`, `Jrystal.bandRun_unnumbered`, `Jrystal.bandRun_near_partial`, `Jrystal.bandRun_ground_state_partial`, `Jrystal.bandRun_rotated_partial`, `Jrystal.bandRun_reordered`, `Jrystal.bandRun_withGhost`, `Jrystal.bandRun_lattice_move`, `Jrystal.vxc_gga_rotate_wrong`, `Jrystal.bandRunNC_channels`, `Jrystal.bandRunNC_near_partial`, `Jrystal.bandRunNC_ground_state_partial`, `Jrystal.nonlocalMatrix_textbook_partial`, `Jrystal.bandRunNC_supplied`, `Jrystal.bandRunNC_saved`, `Jrystal.bandRunNC_geometry`, `Jrystal.bandRunNC_rotated_partial`, `Jrystal.bandRunNC_lattice_move`, `Jrystal.bandRunNC_reordered`, `Jrystal.nuclearRepulsion_converges`, `Jrystal.nuclearRepulsion_eta_independent`, `Jrystal.nuclearRepulsion_lattice_move`, `Jrystal.runRepulsion_eq`, `Jrystal.run_ewald_settings`, `Jrystal.ncRun_ewald_settings`, `Jrystal.bandRun_ewald_settings`, `Jrystal.bandRunNC_ewald_settings`, `Jrystal.run_eta_independent`, `Jrystal.run_variational`, `Jrystal.ncRun_variational`, `Jrystal.run_larger_cutoff`, `Jrystal.run_reproducible`, `Jrystal.ncRun_reproducible`, `Jrystal.run_free_occupations`, `Jrystal.run_history`, `Jrystal.ncRun_history`, `Jrystal.run_smearing`, `Jrystal.ncRun_smearing`, `Jrystal.run_smearing_partial`, `Jrystal.ncRun_smearing_partial`, `Jrystal.temperature_final`, `Jrystal.entropy_range`, `Jrystal.ground_energy_bound`, `Jrystal.totalEnergy_occupation_partial`, `Jrystal.energyNC_occupation_partial`, `Jrystal.ground_fermiLevel_partial`, `Jrystal.groundNC_fermiLevel_partial`, `Jrystal.fermiLevel_cold`, `Jrystal.fermiLevel_fermiDirac`, `Jrystal.ground_aufbau_partial`, `Jrystal.ground_kohnSham_partial`, `Jrystal.totalEnergy_occupation_polarised_wrong`
