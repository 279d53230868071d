{
"Verif.C01_masks_partition": [
"Classical.choice",
"Quot.sound",
"propext"
],
"Verif.C01_masks_passthrough": [
"Classical.choice",
"Quot.sound",
"propext"
],
"Verif.C02_sirt_isolated": [
"Classical.choice",
"Quot.sound",
"propext"
],
"Verif.C02_fista_isolated": [
"Classical.choice",
"Quot.sound",
"propext"
],
"Verif.C02_pdhg_isolated": [
"Classical.choice",
"Quot.sound",
"propext"
],
"Verif.C02_sart_isolated": [
"Classical.choice",
"Quot.sound",
"propext"
],
"Verif.C02_mlem_violated": [
"Classical.choice",
"Quot.sound",
"propext"
],
"Verif.C02_pdhg_l12_violated": [
"Classical.choice",
"Quot.sound",
"propext"
],
"Verif.C03_sirt_limits": [
"Classical.choice",
"Quot.sound",
"propext"
],
"Verif.C03_mlem_limits": [
"Classical.choice",
"Quot.sound",
"propext"
],
"Verif.C03_pdhg_limits": [
"Classical.choice",
"Quot.sound",
"propext"
],
"Verif.C03_fista_limits": [
"Classical.choice",
"Quot.sound",
"propext"
],
"Verif.C03_sart_limits": [
"Classical.choice",
"Quot.sound",
"propext"
],
"Verif.C03_fbp_limits": [
"Classical.choice",
"Quot.sound",
"propext"
],
"Verif.C03_sirt_early_stop_violated": [
"Classical.choice",
"Quot.sound",
"propext"
],
"Verif.C03_sirt_start_or_limits_partial": [
"Classical.choice",
"Quot.sound",
"propext"
],
"Verif.C03_mlem_start_or_limits_partial": [
"Classical.choice",
"Quot.sound",
"propext"
],
"Verif.C04_sirt_mask": [
"Classical.choice",
"Quot.sound",
"propext"
],
"Verif.C04_mlem_mask": [
"Classical.choice",
"Quot.sound",
"propext"
],
"Verif.C04_pdhg_mask": [
"Classical.choice",
"Quot.sound",
"propext"
],
"Verif.C04_fista_mask": [
"Classical.choice",
"Quot.sound",
"propext"
],
"Verif.C04_sart_mask": [
"Classical.choice",
"Quot.sound",
"propext"
],
"Verif.C04_fbp_mask": [
"Classical.choice",
"Quot.sound",
"propext"
],
"Verif.C04_sirt_start_or_mask_partial": [
"Classical.choice",
"Quot.sound",
"propext"
],
"Verif.C04_sirt_early_stop_violated": [
"Classical.choice",
"Quot.sound",
"propext"
],
"Verif.C05_sirt_accounting": [
"Classical.choice",
"Quot.sound",
"propext"
],
"Verif.C05_mlem_accounting": [
"Classical.choice",
"Quot.sound",
"propext"
],
"Verif.C05_pdhg_accounting": [
"Classical.choice",
"Quot.sound",
"propext"
],
"Verif.C05_fista_accounting": [
"Classical.choice",
"Quot.sound",
"propext"
],
"Verif.C05_sart_accounting": [
"Classical.choice",
"Quot.sound",
"propext"
],
"Verif.C05_no_tolerance_runs_all": [
"Classical.choice",
"Quot.sound",
"propext"
],
"Verif.C05_pdhg_last_residual": [
"Classical.choice",
"Quot.sound",
"propext"
],
"Verif.C05_fista_last_residual": [
"Classical.choice",
"Quot.sound",
"propext"
],
"Verif.C05_sirt_stop_residual": [
"Classical.choice",
"Quot.sound",
"propext"
],
"Verif.C06_sirt_fixed": [
"Classical.choice",
"Quot.sound",
"propext"
],
"Verif.C06_fista_fixed": [
"Classical.choice",
"Quot.sound",
"propext"
],
"Verif.C06_pdhg_fixed": [
"Classical.choice",
"Quot.sound",
"propext"
],
"Verif.C06_mlem_fixed": [
"Classical.choice",
"Quot.sound",
"propext"
],
"Verif.C07_sirt_fejer": [
"Classical.choice",
"Quot.sound",
"propext"
],
"Verif.C08_mlem_nonneg": [
"Classical.choice",
"Quot.sound",
"propext"
],
"Verif.C08_mlem_zero": [
"Classical.choice",
"Quot.sound",
"propext"
],
"Verif.C09_mlem_counts": [
"Classical.choice",
"Quot.sound",
"propext"
],
"Verif.C09_mlem_counts_le": [
"Classical.choice",
"Quot.sound",
"propext"
],
"Verif.C10_mlem_likelihood": [
"Classical.choice",
"Quot.sound",
"propext"
],
"Verif.C11_acceleration_sequence": [
"Classical.choice",
"Quot.sound",
"propext"
],
"Verif.C11_fista_momentum": [
"Classical.choice",
"Quot.sound",
"propext"
],
"Verif.C11_fista_restart": [
"Classical.choice",
"Quot.sound",
"propext"
],
"Verif.C12_fista_accepts_iff": [
"Classical.choice",
"Quot.sound",
"propext"
],
"Verif.C12_fista_rejects": [
"Classical.choice",
"Quot.sound",
"propext"
],
"Verif.C12_accepted_can_run": [
"Classical.choice",
"Quot.sound",
"propext"
],
"Verif.C12_other_solvers": [
"Classical.choice",
"Quot.sound",
"propext"
],
"Verif.C12_terms_in_use": [
"Quot.sound",
"propext"
],
"Verif.C13_power_method_lower_bound": [
"Classical.choice",
"Quot.sound",
"propext"
],
"Verif.C13_power_method_monotone": [
"Classical.choice",
"Quot.sound",
"propext"
],
"Verif.C13_power_method_attained": [
"Classical.choice",
"Quot.sound",
"propext"
],
"Verif.C14_diagonal_scaling_relaxed": [
"Classical.choice",
"Quot.sound",
"propext"
],
"Verif.C14_diagonal_scaling": [
"Classical.choice",
"Quot.sound",
"propext"
],
"Verif.C15_pdhg_duals": [
"Classical.choice",
"Quot.sound",
"propext"
],
"Verif.C15_pdhg_no_regularizers": [
"Classical.choice",
"Quot.sound",
"propext"
],
"Verif.C15_gradient_laplacian_keep": [
"Classical.choice",
"Quot.sound",
"propext"
],
"Verif.C15_l1_keep": [
"Classical.choice",
"Quot.sound",
"propext"
],
"Verif.Props.C16_l2": [
"Classical.choice",
"Quot.sound",
"propext"
],
"Verif.Props.C16_wl2": [
"Classical.choice",
"Quot.sound",
"propext"
],
"Verif.Props.C16_l1": [
"Classical.choice",
"Quot.sound",
"propext"
],
"Verif.Props.C16_huber": [
"Classical.choice",
"Quot.sound",
"propext"
],
"Verif.Props.C16_kl": [
"Classical.choice",
"Quot.sound",
"propext"
],
"Verif.Props.C16_l2b_partial": [
"Classical.choice",
"Quot.sound",
"propext"
],
"Verif.Props.C16_l1b_violated": [
"Classical.choice",
"Quot.sound",
"propext"
],
"Verif.Props.C17_l2": [
"Classical.choice",
"Quot.sound",
"propext"
],
"Verif.Props.C17_wl2": [
"Classical.choice",
"Quot.sound",
"propext"
],
"Verif.Props.C17_l1": [
"Classical.choice",
"Quot.sound",
"propext"
],
"Verif.Props.C17_kl": [
"Classical.choice",
"Quot.sound",
"propext"
],
"Verif.Props.C17_kl_nodata_partial": [
"Classical.choice",
"Quot.sound",
"propext"
],
"Verif.Props.C17_l2b_violated": [
"Classical.choice",
"Quot.sound",
"propext"
],
"Verif.Props.C17_l1b_violated": [
"Classical.choice",
"Quot.sound",
"propext"
],
"Verif.Props.C17_background_violated": [
"Classical.choice",
"Quot.sound",
"propext"
],
"Verif.Props.C18_moreau": [
"Classical.choice",
"Quot.sound",
"propext"
],
"Verif.Props.C19_dual_nonexpansive": [
"Classical.choice",
"Quot.sound",
"propext"
],
"Verif.Props.C19_primal_nonexpansive": [
"Classical.choice",
"Quot.sound",
"propext"
],
"Verif.Props.C20_slice_residual": [
"Classical.choice",
"Quot.sound",
"propext"
],
"Verif.Props.C20_slice_dual": [
"Classical.choice",
"Quot.sound",
"propext"
],
"Verif.Props.C20_slice_assign": [
"Classical.choice",
"Quot.sound",
"propext"
],
"Verif.Props.C21_masked_zero": [
"Classical.choice",
"Quot.sound",
"propext"
],
"Verif.Props.C21_background": [
"Classical.choice",
"Quot.sound",
"propext"
],
"Verif.Props.C21_l2_zero_iff": [
"Classical.choice",
"Quot.sound",
"propext"
],
"Verif.Props.C21_kl_zero_iff": [
"Classical.choice",
"Quot.sound",
"propext"
],
"Verif.Props.C21_kl_gradient": [
"Classical.choice",
"Quot.sound",
"propext"
],
"Verif.Props.C21_norm_sign": [
"Classical.choice",
"Quot.sound",
"propext"
],
"Verif.Props.C21_huber_norm_violated": [
"Classical.choice",
"Quot.sound",
"propext"
],
"Verif.Props.C22_l1_ball": [
"Classical.choice",
"Quot.sound",
"propext"
],
"Verif.Props.C22_huber_ball": [
"Classical.choice",
"Quot.sound",
"propext"
],
"Verif.Props.C22_l12_ball": [
"Classical.choice",
"Quot.sound",
"propext"
],
"Verif.Props.C22_huber_axis_ball": [
"Classical.choice",
"Quot.sound",
"propext"
],
"Verif.Props.C22_feasible_fixed": [
"Classical.choice",
"Quot.sound",
"propext"
],
"Verif.C22_weight_once": [
"Classical.choice",
"Quot.sound",
"propext"
],
"Verif.C23_independent": [
"Classical.choice",
"Quot.sound",
"propext"
],
"Verif.C23_default_compatible": [
"Classical.choice",
"Quot.sound",
"propext"
],
"Verif.C24_limit_projection": [
"Classical.choice",
"Quot.sound",
"propext"
],
"Verif.C24_limit_zero_dual": [
"Classical.choice",
"Quot.sound",
"propext"
],
"Verif.C25_l1_prox": [
"Classical.choice",
"Quot.sound",
"propext"
],
"Verif.C25_l1_shrinks": [
"Classical.choice",
"Quot.sound",
"propext"
],
"Verif.C25_transform_prox": [
"Classical.choice",
"Quot.sound",
"propext"
],
"Verif.C26_gradient_contract": [
"Classical.choice",
"Quot.sound",
"propext"
],
"Verif.C26_gradient_masked": [
"Classical.choice",
"Quot.sound",
"propext"
],
"Verif.C26_laplacian_1d_contract": [
"Classical.choice",
"Quot.sound",
"propext"
],
"Verif.C27_identity_diagonal": [
"Classical.choice",
"Quot.sound",
"propext"
],
"Verif.C27_matrix": [
"Classical.choice",
"Quot.sound",
"propext"
],
"Verif.C27_gradient": [
"Classical.choice",
"Quot.sound",
"propext"
],
"Verif.C27_laplacian": [
"Classical.choice",
"Quot.sound",
"propext"
],
"Verif.C27_convolution": [
"Classical.choice",
"Quot.sound",
"propext"
],
"Verif.C27_fourier": [
"Classical.choice",
"Quot.sound",
"propext"
],
"Verif.C27_fourier_isometry": [
"Classical.choice",
"Quot.sound",
"propext"
],
"Verif.C28_matrix": [
"Classical.choice",
"Quot.sound",
"propext"
],
"Verif.C28_transpose": [
"propext"
],
"Verif.C29_pad_amount": [
"Quot.sound",
"propext"
],
"Verif.C29_pad_crop": [
"Classical.choice",
"Quot.sound",
"propext"
],
"Verif.C29_labels": [
"Classical.choice",
"Quot.sound",
"propext"
],
"Verif.C29_packing": [
"Classical.choice",
"Quot.sound",
"propext"
],
"Verif.C29_round_trip": [
"Classical.choice",
"Quot.sound",
"propext"
],
"Verif.C30_explicit": [
"Classical.choice",
"Quot.sound",
"propext"
],
"Verif.C30_explicit_transpose": [
"Classical.choice",
"Quot.sound",
"propext"
],
"Verif.C31_uncorrected": [
"Classical.choice",
"Quot.sound",
"propext"
],
"Verif.C31_xrf_angle": [
"Classical.choice",
"Quot.sound",
"propext"
],
"Verif.C31_xrf": [
"Classical.choice",
"Quot.sound",
"propext"
],
"Verif.C32_pool_results": [
"Quot.sound",
"propext"
],
"Verif.C32_pool_completes": [
"Classical.choice",
"Quot.sound",
"propext"
],
"Verif.C32_projection": [
"Classical.choice",
"Quot.sound",
"propext"
],
"Verif.C32_backprojection": [
"Classical.choice",
"Quot.sound",
"propext"
],
"Verif.C32_maps": [
"Classical.choice",
"Quot.sound",
"propext"
],
"Verif.C33_monotone": [
"Classical.choice",
"Quot.sound",
"propext"
],
"Verif.C33_vacuum": [
"Classical.choice",
"Quot.sound",
"propext"
],
"Verif.C33_range": [
"Classical.choice",
"Quot.sound",
"propext"
],
"Verif.C33_product": [
"Classical.choice",
"Quot.sound",
"propext"
],
"Verif.C33_beer_lambert": [
"Classical.choice",
"Quot.sound",
"propext"
],
"Verif.C33_map_range": [
"Classical.choice",
"Quot.sound",
"propext"
],
"Verif.C33_shape": [
"Classical.choice",
"Quot.sound",
"propext"
],
"Verif.Astra.C34_no_misuse": [
"Classical.choice",
"Quot.sound",
"propext"
],
"Verif.Astra.C34_no_leak": [
"Classical.choice",
"Quot.sound",
"propext"
],
"Verif.Astra.C34_projection_releases": [
"Classical.choice",
"Quot.sound",
"propext"
],
"Verif.C35_volume_shape_round_trip": [
"Classical.choice",
"Quot.sound",
"propext"
],
"Verif.C35_xyz_round_trip": [
"Classical.choice",
"Quot.sound",
"propext"
],
"Verif.C35_short_rejected": [
"propext"
],
"Verif.C35_get_3d_keeps_shape": [
"Classical.choice",
"Quot.sound",
"propext"
],
"Verif.C35_volume_from_data_projects_to_data": [
"Classical.choice",
"Quot.sound",
"propext"
],
"Verif.C35_is_3d": [
"Classical.choice",
"Quot.sound",
"propext"
],
"Verif.C36_rigid_frame": [
"Classical.choice",
"Quot.sound",
"propext"
],
"Verif.C36_centring": [
"Classical.choice",
"Quot.sound",
"propext"
],
"Verif.C36_pixel_ratio": [
"Classical.choice",
"Quot.sound",
"propext"
],
"Verif.C37_rotation_is_rigid": [
"Classical.choice",
"Quot.sound",
"propext"
],
"Verif.C37_rotating_back_restores": [
"Classical.choice",
"Quot.sound",
"propext"
],
"Verif.C37_rotating_back_restores_single": [
"Classical.choice",
"Quot.sound",
"propext"
],
"Verif.C37_rotation_angle": [
"Classical.choice",
"Quot.sound",
"propext"
],
"Verif.C38_fit_func_min": [
"Classical.choice",
"Quot.sound",
"propext"
],
"Verif.C38_interior_minimum": [
"Classical.choice",
"Quot.sound",
"propext"
],
"Verif.C38_bad_lengths": [
"Classical.choice",
"Quot.sound",
"propext"
],
"Verif.C38_refine_max": [
"Classical.choice",
"Quot.sound",
"propext"
],
"Verif.C39_projected_centre_tilted": [
"Classical.choice",
"Quot.sound",
"propext"
],
"Verif.C39_fit_recovers": [
"Classical.choice",
"Quot.sound",
"propext"
],
"Verif.C39_fit_exists": [
"Classical.choice",
"Quot.sound",
"propext"
],
"Verif.C39_evaluation": [
"Classical.choice",
"Quot.sound",
"propext"
],
"Verif.C39_projected_centre": [
"Classical.choice",
"Quot.sound",
"propext"
],
"Verif.C40_vertical_shifts": [
"Classical.choice",
"Quot.sound",
"propext"
],
"Verif.C40_increasing_angles": [
"Classical.choice",
"Quot.sound",
"propext"
],
"Verif.C40_decreasing_angles": [
"Classical.choice",
"Quot.sound",
"propext"
],
"Verif.C40_bounded": [
"Classical.choice",
"Quot.sound",
"propext"
],
"Verif.C40_horizontal_shifts": [
"Classical.choice",
"Quot.sound",
"propext"
],
"Verif.C41_partition": [
"Classical.choice",
"Quot.sound",
"propext"
],
"Verif.C41_fold_sizes": [
"Classical.choice",
"Quot.sound",
"propext"
],
"Verif.C42_test_mask_size": [
"Classical.choice",
"Quot.sound",
"propext"
],
"Verif.C43_parallel_eq_serial": [
"Classical.choice",
"Quot.sound",
"propext"
],
"Verif.C44_pdhg_score": [
"Classical.choice",
"Quot.sound",
"propext"
],
"Verif.C44_fista_score": [
"Classical.choice",
"Quot.sound",
"propext"
],
"Verif.C44_test_residual": [
"Classical.choice",
"Quot.sound",
"propext"
],
"Verif.C45_binning": [
"Classical.choice",
"Quot.sound",
"propext"
],
"Verif.C46_azimuthal_sum": [
"Classical.choice",
"Quot.sound",
"propext"
],
"Verif.C47_intersection": [
"Classical.choice",
"Quot.sound",
"propext"
],
"Verif.C48_snip_bounds": [
"Classical.choice",
"Quot.sound",
"propext"
],
"Verif.C49_mse_decomposition_violated": [
"Classical.choice",
"Quot.sound",
"propext"
],
"Verif.C49_mse_decomposition_partial": [
"Classical.choice",
"Quot.sound",
"propext"
],
"Verif.C50_frc_normalised": [
"Classical.choice",
"Quot.sound",
"propext"
],
"Verif.C51_padding_size": [
"Classical.choice",
"Quot.sound",
"propext"
],
"Verif.C51_linear_convolution": [
"Classical.choice",
"Quot.sound",
"propext"
],
"Verif.C51_unit_filter": [
"Classical.choice",
"Quot.sound",
"propext"
],
"Verif.C51_edge_padding": [
"Classical.choice",
"Quot.sound",
"propext"
],
"Verif.C52_basis": [
"Classical.choice",
"Quot.sound",
"propext"
],
"Verif.C52_default_cover": [
"Classical.choice",
"Quot.sound",
"propext"
],
"Verif.C52_window_sizes": [
"Quot.sound",
"propext"
],
"Verif.C53_conversions": [
"Classical.choice",
"Quot.sound",
"propext"
],
"Verif.C53_wavelength": [
"Classical.choice",
"Quot.sound",
"propext"
],
"Verif.C53_known_factors": [
"Classical.choice",
"Quot.sound",
"propext"
],
"Verif.C54_average_energy": [
"Classical.choice",
"Quot.sound",
"propext"
],
"Verif.C54_families": [
"propext"
],
"Verif.C55_mura_two_valued": [
"Classical.choice",
"Quot.sound",
"propext"
],
"Verif.C55_mura_decodes": [
"Classical.choice",
"Quot.sound",
"propext"
],
"Verif.C56_possible_sizes_violated": [
"Classical.choice",
"Quot.sound",
"propext"
],
"Verif.C56_small_fov_violated": [
"propext"
],
"Verif.C56_possible_sizes_partial": [
"Classical.choice",
"Quot.sound",
"propext"
],
"Verif.C57_interval_shifts": [
"Classical.choice",
"Quot.sound",
"propext"
],
"Verif.C57_sequential_shifts": [
"Classical.choice",
"Quot.sound",
"propext"
],
"Verif.C57_random_shifts": [
"Classical.choice",
"Quot.sound",
"propext"
],
"Verif.C58_roundup": [
"Classical.choice",
"Quot.sound",
"propext"
],
"Verif.C59_sirt_monotone": [
"Classical.choice",
"Quot.sound",
"propext"
],
"Verif.C60_sirt_rate": [
"Classical.choice",
"Quot.sound",
"propext"
],
"Verif.C61_fista_unique": [
"Classical.choice",
"Quot.sound",
"propext"
],
"Verif.C61_fista_limit": [
"Classical.choice",
"Quot.sound",
"propext"
],
"Verif.C61_fista_rate": [
"Classical.choice",
"Quot.sound",
"propext"
],
"Verif.C61_fista_prox_rate": [
"Classical.choice",
"Quot.sound",
"propext"
],
"Verif.C62_restart_partial": [
"Classical.choice",
"Quot.sound",
"propext"
],
"Verif.C62_restart_violated": [
"Classical.choice",
"Quot.sound",
"propext"
],
"Verif.C63_accepts_unusable_violated": [
"propext"
],
"Verif.C63_usable_partial": [
"propext"
],
"Verif.C64_lipschitz_scaling_violated": [
"Classical.choice",
"Quot.sound",
"propext"
],
"Verif.C64_lipschitz_scaling_partial": [
"Classical.choice",
"Quot.sound",
"propext"
],
"Verif.C65_threshold_violated": [
"Classical.choice",
"Quot.sound",
"propext"
],
"Verif.C65_threshold_partial": [
"Classical.choice",
"Quot.sound",
"propext"
],
"Verif.C66_edge_gradient_partial": [
"Classical.choice",
"Quot.sound",
"propext"
],
"Verif.C66_edge_gradient_violated": [
"Classical.choice",
"Quot.sound",
"propext"
],
"Verif.C67_convolution_violated": [
"Classical.choice",
"Quot.sound",
"propext"
],
"Verif.C67_default_partial": [
"Classical.choice",
"Quot.sound",
"propext"
],
"Verif.C68_transpose_twice_violated": [
"Quot.sound",
"propext"
],
"Verif.C68_self_adjoint_partial": [
"Quot.sound",
"propext"
],
"Verif.C69_matrix_absolute_partial": [
"Classical.choice",
"Quot.sound",
"propext"
],
"Verif.C69_convolution_absolute_partial": [
"Classical.choice",
"Quot.sound",
"propext"
],
"Verif.C69_absolute_violated": [
"Classical.choice",
"Quot.sound",
"propext"
],
"Verif.C70_early_stop_score": [
"Classical.choice",
"Quot.sound",
"propext"
],
"Verif.C70_score_after_early_stop_violated": [
"Classical.choice",
"Quot.sound",
"propext"
],
"Verif.C70_sirt_score_partial": [
"Classical.choice",
"Quot.sound",
"propext"
],
"Verif.C71_identity_operator_violated": [
"Classical.choice",
"Quot.sound",
"propext"
],
"Verif.C72_limits_default_norm_violated": [
"Classical.choice",
"Quot.sound",
"propext"
],
"Verif.C72_limits_default_norm_partial": [
"Classical.choice",
"Quot.sound",
"propext"
],
"Verif.C72_shared_norm_violated": [
"Classical.choice",
"Quot.sound",
"propext"
],
"Verif.C73_limit_dual_violated": [
"Classical.choice",
"Quot.sound",
"propext"
],
"Verif.C73_limit_dual_partial": [
"Classical.choice",
"Quot.sound",
"propext"
],
"Verif.C74_laplacian_nd_partial": [
"Classical.choice",
"Quot.sound",
"propext"
],
"Verif.C74_laplacian_2d_violated": [
"Classical.choice",
"Quot.sound",
"propext"
],
"Verif.C75_uncorrected": [
"Classical.choice",
"Quot.sound",
"propext"
],
"Verif.C75_xrf": [
"Classical.choice",
"Quot.sound",
"propext"
],
"Verif.C76_bp_weights_violated": [
"Classical.choice",
"Quot.sound",
"propext"
],
"Verif.C76_bp_weights_partial": [
"Classical.choice",
"Quot.sound",
"propext"
],
"Verif.C77_psf_violated": [
"Classical.choice",
"Quot.sound",
"propext"
],
"Verif.C77_psf_partial": [
"Classical.choice",
"Quot.sound",
"propext"
],
"Verif.C78_collapse_violated": [
"Classical.choice",
"Quot.sound",
"propext"
],
"Verif.C78_collapse_first_row_partial": [
"Classical.choice",
"Quot.sound",
"propext"
],
"Verif.C78_collapse_partial": [
"Classical.choice",
"Quot.sound",
"propext"
],
"Verif.C79_shapes_violated": [
"Classical.choice",
"Quot.sound",
"propext"
],
"Verif.C79_shapes_partial": [
"Quot.sound",
"propext"
],
"Verif.Astra.C80_no_leak_violated": [
"Classical.choice",
"Quot.sound",
"propext"
],
"Verif.Astra.C80_no_leak_partial": [
"Classical.choice",
"Quot.sound",
"propext"
],
"Verif.C81_axis_length_scales_angle_violated": [
"Classical.choice",
"Quot.sound",
"propext"
],
"Verif.C81_angle_times_length_partial": [
"Classical.choice",
"Quot.sound",
"propext"
],
"Verif.C82_slice_of_rotated": [
"Classical.choice",
"Quot.sound",
"propext"
],
"Verif.C82_slice_of_rotated_shifted": [
"Classical.choice",
"Quot.sound",
"propext"
],
"Verif.C83_tilts_dropped_violated": [
"Classical.choice",
"Quot.sound",
"propext"
],
"Verif.C83_tilts_applied_partial": [
"Classical.choice",
"Quot.sound",
"propext"
],
"Verif.C83_axes_dropped_violated": [
"Classical.choice",
"Quot.sound",
"propext"
],
"Verif.C83_single_angle_partial": [
"Classical.choice",
"Quot.sound",
"propext"
],
"Verif.C84_integer_distance_violated": [
"Classical.choice",
"Quot.sound",
"propext"
],
"Verif.C84_integer_distance_partial": [
"Classical.choice",
"Quot.sound",
"propext"
],
"Verif.C85_parallel_projection": [
"Classical.choice",
"Quot.sound",
"propext"
],
"Verif.C85_source_side": [
"Classical.choice",
"Quot.sound",
"propext"
],
"Verif.C85_half_turn_mirrors": [
"Classical.choice",
"Quot.sound",
"propext"
],
"Verif.C85_directions_opposite": [
"Classical.choice",
"Quot.sound",
"propext"
],
"Verif.C85_shifts_are_detector_displacements": [
"Classical.choice",
"Quot.sound",
"propext"
],
"Verif.C85_cone_projection": [
"Classical.choice",
"Quot.sound",
"propext"
],
"Verif.C86_pre_weights_violated": [
"Classical.choice",
"Quot.sound",
"propext"
],
"Verif.C86_pre_weights_partial": [
"Classical.choice",
"Quot.sound",
"propext"
],
"Verif.C86_pre_weights_rotation_partial": [
"Classical.choice",
"Quot.sound",
"propext"
],
"Verif.C86_pre_weight_coords_partial": [
"Classical.choice",
"Quot.sound",
"propext"
],
"Verif.C87_combine_shifts_violated": [
"Classical.choice",
"Quot.sound",
"propext"
],
"Verif.C87_combine_shifts_partial": [
"Classical.choice",
"Quot.sound",
"propext"
],
"Verif.C88_fanflat_scaled_violated": [],
"Verif.C88_fanflat_3d_violated": [
"propext"
],
"Verif.C88_other_kinds_partial": [
"propext"
],
"Verif.C89_calibration_exact": [
"Classical.choice",
"Quot.sound",
"propext"
],
"Verif.C90_symmetric_circles_violated": [
"Classical.choice",
"Quot.sound",
"propext"
],
"Verif.C90_measured_distance_partial": [
"Classical.choice",
"Quot.sound",
"propext"
],
"Verif.C90_v0_from_one_ellipse_partial": [
"Classical.choice",
"Quot.sound",
"propext"
],
"Verif.C91_rounded_value_violated": [
"Classical.choice",
"Quot.sound",
"propext"
],
"Verif.C91_rounded_value_partial": [
"Classical.choice",
"Quot.sound",
"propext"
],
"Verif.C92_decreasing_parameters_violated": [
"Classical.choice",
"Quot.sound",
"propext"
],
"Verif.C92_decreasing_parameters_partial": [
"Classical.choice",
"Quot.sound",
"propext"
],
"Verif.C93_tilted_ellipse_violated": [
"Classical.choice",
"Quot.sound",
"propext"
],
"Verif.C93_tilted_ellipse_partial": [
"Classical.choice",
"Quot.sound",
"propext"
],
"Verif.C94_extremes_violated": [
"Classical.choice",
"Quot.sound",
"propext"
],
"Verif.C94_extremes_partial": [
"Classical.choice",
"Quot.sound",
"propext"
],
"Verif.C95_unsorted_angles_violated": [
"Classical.choice",
"Quot.sound",
"propext"
],
"Verif.C95_unsorted_angles_partial": [
"Classical.choice",
"Quot.sound",
"propext"
],
"Verif.C96_image_shift": [
"Classical.choice",
"Quot.sound",
"propext"
],
"Verif.C96_row_shift": [
"Classical.choice",
"Quot.sound",
"propext"
],
"Verif.C96_padded_row_shift": [
"Classical.choice",
"Quot.sound",
"propext"
],
"Verif.C97_centre_of_rotation": [
"Classical.choice",
"Quot.sound",
"propext"
],
"Verif.C98_odd_size_violated": [
"Classical.choice",
"Quot.sound",
"propext"
],
"Verif.C98_odd_size_partial": [
"Classical.choice",
"Quot.sound",
"propext"
],
"Verif.C99_refined_is_maximum_violated": [
"Classical.choice",
"Quot.sound",
"propext"
],
"Verif.C99_refined_is_maximum_partial": [
"Classical.choice",
"Quot.sound",
"propext"
],
"Verif.C100_aligned": [
"Classical.choice",
"Quot.sound",
"propext"
],
"Verif.C100_not_aligned": [
"Classical.choice",
"Quot.sound",
"propext"
],
"Verif.C101_com_inside": [
"Classical.choice",
"Quot.sound",
"propext"
],
"Verif.C101_com_volume": [
"Classical.choice",
"Quot.sound",
"propext"
],
"Verif.C101_com_mirror": [
"Classical.choice",
"Quot.sound",
"propext"
],
"Verif.C101_com_moves": [
"Classical.choice",
"Quot.sound",
"propext"
],
"Verif.C101_recentre": [
"Classical.choice",
"Quot.sound",
"propext"
],
"Verif.C101_recentre_com": [
"Classical.choice",
"Quot.sound",
"propext"
],
"Verif.C102_binning_border_violated": [
"Classical.choice",
"Quot.sound",
"propext"
],
"Verif.C102_binning_border_partial": [
"Classical.choice",
"Quot.sound",
"propext"
],
"Verif.C103_background_margins_violated": [
"Classical.choice",
"Quot.sound",
"propext"
],
"Verif.C103_background_margins_partial": [
"Classical.choice",
"Quot.sound",
"propext"
],
"Verif.C104_snip_equivariant": [
"Classical.choice",
"Quot.sound",
"propext"
],
"Verif.C105_variance_poisson": [
"Classical.choice",
"Quot.sound",
"propext"
],
"Verif.C106_variance_transmission_violated": [
"Classical.choice",
"Quot.sound",
"propext"
],
"Verif.C106_variance_transmission_partial": [
"Classical.choice",
"Quot.sound",
"propext"
],
"Verif.C107_variance_weights": [
"Classical.choice",
"Quot.sound",
"propext"
],
"Verif.C108_flat_field": [
"Classical.choice",
"Quot.sound",
"propext"
],
"Verif.C109_frc_invariant": [
"Classical.choice",
"Quot.sound",
"propext"
],
"Verif.C110_frc_smoothing_violated": [
"Classical.choice",
"Quot.sound",
"propext"
],
"Verif.C110_frc_smoothing_partial": [
"Classical.choice",
"Quot.sound",
"propext"
],
"Verif.C111_scale_bias_partial": [
"Classical.choice",
"Quot.sound",
"propext"
],
"Verif.C111_image_violated": [
"Classical.choice",
"Quot.sound",
"propext"
],
"Verif.C112_filter_linear_selfadjoint": [
"Classical.choice",
"Quot.sound",
"propext"
],
"Verif.C113_filter_real_violated": [
"Classical.choice",
"Quot.sound",
"propext"
],
"Verif.C113_filter_real_partial": [
"Classical.choice",
"Quot.sound",
"propext"
],
"Verif.C114_basis_cover_violated": [
"Classical.choice",
"Quot.sound",
"propext"
],
"Verif.C114_basis_cover_partial": [
"Classical.choice",
"Quot.sound",
"propext"
],
"Verif.C115_fitted_filter": [
"Classical.choice",
"Quot.sound",
"propext"
],
"Verif.C116_filter_history_violated": [
"Classical.choice",
"Quot.sound",
"propext"
],
"Verif.C116_filter_history_partial": [
"Classical.choice",
"Quot.sound",
"propext"
],
"Verif.C117_pencil_beam_violated": [
"Classical.choice",
"Quot.sound",
"propext"
],
"Verif.C117_pencil_beam_partial": [
"Classical.choice",
"Quot.sound",
"propext"
],
"Verif.C117_beam_shapes": [
"Classical.choice",
"Quot.sound",
"propext"
],
"Verif.C118_attenuation": [
"Classical.choice",
"Quot.sound",
"propext"
],
"Verif.C118_elements": [
"Classical.choice",
"Quot.sound",
"propext"
],
"Verif.C118_others": [
"Classical.choice",
"Quot.sound",
"propext"
],
"Verif.C118_compton_cross_section": [
"Classical.choice",
"Quot.sound",
"propext"
],
"Verif.C118_compton": [
"Classical.choice",
"Quot.sound",
"propext"
],
"Verif.C118_cross_section": [
"Classical.choice",
"Quot.sound",
"propext"
],
"Verif.C118_phase_shift": [
"Classical.choice",
"Quot.sound",
"propext"
],
"Verif.C118_linear_attenuation": [
"Classical.choice",
"Quot.sound",
"propext"
],
"Verif.C119_compound_unchanged_violated": [
"Classical.choice",
"Quot.sound",
"propext"
],
"Verif.C119_compound_unchanged_partial": [
"Classical.choice",
"Quot.sound",
"propext"
],
"Verif.C120_detector": [
"Classical.choice",
"Quot.sound",
"propext"
],
"Verif.C121_steradians_violated": [
"Classical.choice",
"Quot.sound",
"propext"
],
"Verif.C121_steradians_partial": [
"Classical.choice",
"Quot.sound",
"propext"
],
"Verif.C122_parallax_violated": [
"Classical.choice",
"Quot.sound",
"propext"
],
"Verif.C122_parallax_partial": [
"Classical.choice",
"Quot.sound",
"propext"
],
"Verif.C123_distances_violated": [
"Classical.choice",
"Quot.sound",
"propext"
],
"Verif.C123_distances_partial": [
"Classical.choice",
"Quot.sound",
"propext"
],
"Verif.C124_rot_index_violated": [
"Classical.choice",
"Quot.sound",
"propext"
],
"Verif.C124_rot_index_partial": [
"Classical.choice",
"Quot.sound",
"propext"
],
"Verif.C125_projector_args_violated": [
"Classical.choice",
"Quot.sound",
"propext"
],
"Verif.C125_projector_args_partial": [
"Classical.choice",
"Quot.sound",
"propext"
],
"Verif.C126_sub_angles": [
"Classical.choice",
"Quot.sound",
"propext"
],
"Verif.C127_filters": [
"Classical.choice",
"Quot.sound",
"propext"
],
"Verif.C127_images": [
"Classical.choice",
"Quot.sound",
"propext"
],
"Verif.C127_inversion": [
"Classical.choice",
"Quot.sound",
"propext"
],
"Verif.C128_no_zero_violated": [
"Classical.choice",
"Quot.sound",
"propext"
],
"Verif.C128_nan_violated": [
"Classical.choice",
"Quot.sound",
"propext"
],
"Verif.C128_no_zero_partial": [
"Classical.choice",
"Quot.sound",
"propext"
],
"Verif.C129_direct_filter": [
"Classical.choice",
"Quot.sound",
"propext"
],
"Verif.C130_mura_any_fov_violated": [
"Classical.choice",
"Quot.sound",
"propext"
],
"Verif.C130_mura_any_fov_partial": [
"Classical.choice",
"Quot.sound",
"propext"
],
"Verif.C131_buckets_fraction_violated": [
"Classical.choice",
"Quot.sound",
"propext"
],
"Verif.C131_buckets_fraction_partial": [
"Classical.choice",
"Quot.sound",
"propext"
],
"Verif.C132_single_fov_violated": [
"Classical.choice",
"Quot.sound",
"propext"
],
"Verif.C132_single_fov_all_violated": [
"Classical.choice",
"Quot.sound",
"propext"
],
"Verif.C132_single_fov_partial": [
"Classical.choice",
"Quot.sound",
"propext"
],
"Verif.C133_transmission": [
"Classical.choice",
"Quot.sound",
"propext"
],
"Verif.C133_transmission_bucket": [
"Classical.choice",
"Quot.sound",
"propext"
],
"Verif.C134_ghost_adjoint_violated": [
"Classical.choice",
"Quot.sound",
"propext"
],
"Verif.C134_ghost_adjoint_partial": [
"Classical.choice",
"Quot.sound",
"propext"
],
"Verif.C135_qr_buckets": [
"Classical.choice",
"Quot.sound",
"propext"
],
"Verif.C135_more_masks_violated": [
"Classical.choice",
"Quot.sound",
"propext"
],
"Verif.C135_shapes_partial": [
"propext"
],
"Verif.C136_reorder_pairs_violated": [
"Classical.choice",
"Quot.sound",
"propext"
],
"Verif.C136_reorder_pairs_partial": [
"Classical.choice",
"Quot.sound",
"propext"
],
"Verif.C137_adjust_sampling": [
"Classical.choice",
"Quot.sound",
"propext"
],
"Verif.C138_least_squares": [
"Classical.choice",
"Quot.sound",
"propext"
],
"Verif.C138_use_lstsq_violated": [],
"Verif.C138_use_lstsq_partial": [],
"Verif.C138_stack_violated": [
"Quot.sound",
"propext"
],
"Verif.C139_ghost_tomo_shape_violated": [
"Classical.choice",
"Quot.sound",
"propext"
],
"Verif.C139_one_mask_violated": [
"Quot.sound",
"propext"
],
"Verif.C139_ghost_tomo_shape_partial": [
"Quot.sound",
"propext"
],
"Verif.C139_ghost_tomo_adjoint": [
"Classical.choice",
"Quot.sound",
"propext"
],
"Verif.C140_ghost_init_violated": [],
"Verif.C140_ghost_init_partial": [
"Classical.choice",
"Quot.sound",
"propext"
],
"Verif.C141_pdhg_converges": [
"Classical.choice",
"Quot.sound",
"propext"
],
"Verif.C141_pdhg_converges_limits": [
"Classical.choice",
"Quot.sound",
"propext"
],
"Verif.C141_pdhg_converges_plain": [
"Classical.choice",
"Quot.sound",
"propext"
],
"Verif.C141_pdhg_converges_lsq": [
"Classical.choice",
"Quot.sound",
"propext"
],
"Verif.C141_l1_regularizers": [
"Classical.choice",
"Quot.sound",
"propext"
],
"Verif.C141_l1": [
"Classical.choice",
"Quot.sound",
"propext"
],
"Verif.C141_tv_l1": [
"Classical.choice",
"Quot.sound",
"propext"
],
"Verif.C141_laplacian": [
"Classical.choice",
"Quot.sound",
"propext"
],
"Verif.C141_tv": [
"Classical.choice",
"Quot.sound",
"propext"
],
"Verif.C141_smooth": [
"Classical.choice",
"Quot.sound",
"propext"
],
"Verif.C141_huber_tv": [
"Classical.choice",
"Quot.sound",
"propext"
],
"Verif.C142_default_tv_violated": [
"Classical.choice",
"Quot.sound",
"propext"
],
"Verif.C143_sart_single_angle": [
"Classical.choice",
"Quot.sound",
"propext"
],
"Verif.C143_sart_fixed": [
"Classical.choice",
"Quot.sound",
"propext"
],
"Verif.C144_vtv_feasible": [
"Classical.choice",
"Quot.sound",
"propext"
],
"Verif.C144_vtv_projection_partial": [
"Classical.choice",
"Quot.sound",
"propext"
],
"Verif.C144_vtv_infinite_violated": [
"Classical.choice",
"Quot.sound",
"propext"
],
"Verif.C145_values": [
"Classical.choice",
"Quot.sound",
"propext"
],
"Verif.C145_mask_order": [
"Classical.choice",
"Quot.sound",
"propext"
],
"Verif.C145_bounds": [
"Classical.choice",
"Quot.sound",
"propext"
],
"Verif.C145_error": [
"Classical.choice",
"Quot.sound",
"propext"
],
"Verif.C146_array_background_violated": [
"Classical.choice",
"Quot.sound",
"propext"
],
"Verif.C146_mlem_array_background_violated": [
"Classical.choice",
"Quot.sound",
"propext"
],
"Verif.C146_background_partial": [
"Classical.choice",
"Quot.sound",
"propext"
],
"Verif.C147_l1_vector_partial": [
"Classical.choice",
"Quot.sound",
"propext"
],
"Verif.C147_l1_image_partial": [
"Classical.choice",
"Quot.sound",
"propext"
],
"Verif.C147_l1_image_violated": [
"Classical.choice",
"Quot.sound",
"propext"
],
"Verif.C147_flattened_partial": [
"Classical.choice",
"Quot.sound",
"propext"
],
"Verif.C148_l1_partial": [
"Classical.choice",
"Quot.sound",
"propext"
],
"Verif.C148_kl_partial": [
"Classical.choice",
"Quot.sound",
"propext"
],
"Verif.C148_l2_violated": [
"Classical.choice",
"Quot.sound",
"propext"
],
"Verif.C148_l1_background_violated": [
"Classical.choice",
"Quot.sound",
"propext"
],
"Verif.C148_background_twice_violated": [
"Classical.choice",
"Quot.sound",
"propext"
],
"Verif.C148_l1b_violated": [
"Classical.choice",
"Quot.sound",
"propext"
],
"Verif.C148_mask_violated": [
"Classical.choice",
"Quot.sound",
"propext"
],
"Verif.C149_nuclear_projection": [
"Classical.choice",
"Quot.sound",
"propext"
],
"Verif.C149_independent_of_svd": [
"Classical.choice",
"Quot.sound",
"propext"
],
"Verif.C150_bias_row_partial": [
"Classical.choice",
"Quot.sound",
"propext"
],
"Verif.C150_bias_rows_violated": [
"Classical.choice",
"Quot.sound",
"propext"
],
"Verif.C151_tnv_reference_violated": [
"Classical.choice",
"Quot.sound",
"propext"
],
"Verif.C151_vtv_flat_reference_partial": [
"Classical.choice",
"Quot.sound",
"propext"
],
"Verif.C151_vtv_reference_shrinks_partial": [
"Classical.choice",
"Quot.sound",
"propext"
],
"Verif.C151_vtv_reference_channel_partial": [
"Classical.choice",
"Quot.sound",
"propext"
],
"Verif.C152_single_matrix_partial": [
"Classical.choice",
"Quot.sound",
"propext"
],
"Verif.C152_line_upper_bound_partial": [
"Classical.choice",
"Quot.sound",
"propext"
],
"Verif.C152_stack_violated": [
"Classical.choice",
"Quot.sound",
"propext"
],
"Verif.C153_svd_round_trip": [
"Classical.choice",
"Quot.sound",
"propext"
],
"Verif.C154_transpose_after_partial": [
"Classical.choice",
"Quot.sound",
"propext"
],
"Verif.C154_given_values_partial": [
"Classical.choice",
"Quot.sound",
"propext"
],
"Verif.C154_transpose_before_violated": [
"Classical.choice",
"Quot.sound",
"propext"
],
"Verif.C155_one_level_partial": [
"Classical.choice",
"Quot.sound",
"propext"
],
"Verif.C155_levels_mixed_violated": [
"Classical.choice",
"Quot.sound",
"propext"
],
"Verif.C155_decimated_details_partial": [
"Classical.choice",
"Quot.sound",
"propext"
],
"Verif.C155_stationary_approx_partial": [
"Classical.choice",
"Quot.sound",
"propext"
],
"Verif.C155_decimated_approx_violated": [
"Classical.choice",
"Quot.sound",
"propext"
],
"Verif.C156_delta_prox_partial": [
"Classical.choice",
"Quot.sound",
"propext"
],
"Verif.C156_exp_violated": [
"Classical.choice",
"Quot.sound",
"propext"
],
"Verif.C157_steps_preceding": [
"Classical.choice",
"Quot.sound",
"propext"
],
"Verif.C157_steps_value": [
"Classical.choice",
"Quot.sound",
"propext"
],
"Verif.C157_step_contract_partial": [
"Classical.choice",
"Quot.sound",
"propext"
],
"Verif.C157_three_levels_partial": [
"Classical.choice",
"Quot.sound",
"propext"
],
"Verif.C157_deep_violated": [
"Classical.choice",
"Quot.sound",
"propext"
],
"Verif.C158_matching_partial": [
"Classical.choice",
"Quot.sound",
"propext"
],
"Verif.C158_channels_violated": [
"Quot.sound",
"propext"
],
"Verif.C159_line_peaks": [
"Classical.choice",
"Quot.sound",
"propext"
],
"Verif.C159_array_peak": [
"Classical.choice",
"Quot.sound",
"propext"
],
"Verif.C160_vertex_partial": [
"Classical.choice",
"Quot.sound",
"propext"
],
"Verif.C160_default_coordinates_violated": [
"Classical.choice",
"Quot.sound",
"propext"
],
"Verif.C161_sad_shift_partial": [
"Classical.choice",
"Quot.sound",
"propext"
],
"Verif.C161_without_padding_violated": [
"Classical.choice",
"Quot.sound",
"propext"
],
"Verif.C161_range_end_violated": [
"Classical.choice",
"Quot.sound",
"propext"
],
"Verif.C162_background": [
"Classical.choice",
"Quot.sound",
"propext"
],
"Verif.C162_reference_moves": [
"Classical.choice",
"Quot.sound",
"propext"
],
"Verif.C162_aligned": [
"Classical.choice",
"Quot.sound",
"propext"
],
"Verif.C162_limits": [
"Classical.choice",
"Quot.sound",
"propext"
],
"Verif.C163_opposite_pairs_partial": [
"Classical.choice",
"Quot.sound",
"propext"
],
"Verif.C163_centre_partial": [
"Classical.choice",
"Quot.sound",
"propext"
],
"Verif.C163_angle_order_violated": [
"Classical.choice",
"Quot.sound",
"propext"
],
"Verif.C164_drifts": [
"Classical.choice",
"Quot.sound",
"propext"
],
"Verif.C165_pad_sinogram": [
"Classical.choice",
"Quot.sound",
"propext"
],
"Verif.C166_shift_projections": [
"Classical.choice",
"Quot.sound",
"propext"
],
"Verif.C166_fraction": [
"Classical.choice",
"Quot.sound",
"propext"
],
"Verif.C167_fft_shift_violated": [
"Classical.choice",
"Quot.sound",
"propext"
],
"Verif.C167_fft_shift_partial": [
"Classical.choice",
"Quot.sound",
"propext"
],
"Verif.C168_several_darks_violated": [
"Classical.choice",
"Quot.sound",
"propext"
],
"Verif.C168_several_darks_partial": [
"Classical.choice",
"Quot.sound",
"propext"
],
"Verif.C169_smoothing": [
"Classical.choice",
"Quot.sound",
"propext"
],
"Verif.C169_snip_background_violated": [
"Classical.choice",
"Quot.sound",
"propext"
],
"Verif.C169_snip_background_partial": [
"Classical.choice",
"Quot.sound",
"propext"
],
"Verif.C170_eigen_flats": [
"Classical.choice",
"Quot.sound",
"propext"
],
"Verif.C171_circular_mask_violated": [
"Classical.choice",
"Quot.sound",
"propext"
],
"Verif.C171_circular_mask_partial": [
"Classical.choice",
"Quot.sound",
"propext"
],
"Verif.C171_distances": [
"Classical.choice",
"Quot.sound",
"propext"
],
"Verif.C172_mask_shape_violated": [
"Classical.choice",
"Quot.sound",
"propext"
],
"Verif.C172_mask_shape_partial": [
"Classical.choice",
"Quot.sound",
"propext"
],
"Verif.C173_ball_violated": [
"Classical.choice",
"Quot.sound",
"propext"
],
"Verif.C173_ball_partial": [
"Classical.choice",
"Quot.sound",
"propext"
],
"Verif.C174_cross_correlation_violated": [
"Classical.choice",
"Quot.sound",
"propext"
],
"Verif.C174_cross_correlation_partial": [
"Classical.choice",
"Quot.sound",
"propext"
],
"Verif.C175_template_matching": [
"Classical.choice",
"Quot.sound",
"propext"
],
"Verif.C176_power_spectrum_violated": [
"Classical.choice",
"Quot.sound",
"propext"
],
"Verif.C176_power_spectrum_partial": [
"Classical.choice",
"Quot.sound",
"propext"
],
"Verif.C177_frc_threshold": [
"Classical.choice",
"Quot.sound",
"propext"
],
"Verif.C178_resolution_violated": [
"Classical.choice",
"Quot.sound",
"propext"
],
"Verif.C178_resolution_partial": [
"Classical.choice",
"Quot.sound",
"propext"
],
"Verif.C179_gains": [
"Classical.choice",
"Quot.sound",
"propext"
],
"Verif.C179_padding": [
"Quot.sound",
"propext"
],
"Verif.C179_destripe_violated": [
"Classical.choice",
"Quot.sound",
"propext"
],
"Verif.C179_destripe_partial": [
"Classical.choice",
"Quot.sound",
"propext"
],
"Verif.C180_psf_steps": [
"Classical.choice",
"Quot.sound",
"propext"
],
"Verif.C180_single_weight_partial": [
"Classical.choice",
"Quot.sound",
"propext"
],
"Verif.C180_denoise_limit_partial": [
"Classical.choice",
"Quot.sound",
"propext"
],
"Verif.C180_denoise_weight_partial": [
"Classical.choice",
"Quot.sound",
"propext"
],
"Verif.C180_denoise_violated": [
"Classical.choice",
"Quot.sound",
"propext"
],
"Verif.C181_several_weights_partial": [
"Classical.choice",
"Quot.sound",
"propext"
],
"Verif.C181_chosen_weight_partial": [
"Classical.choice",
"Quot.sound",
"propext"
],
"Verif.C181_two_weights_violated": [
"Classical.choice",
"Quot.sound",
"propext"
],
"Verif.C182_held_out_partial": [
"Classical.choice",
"Quot.sound",
"propext"
],
"Verif.C182_held_out_violated": [
"Classical.choice",
"Quot.sound",
"propext"
],
"Verif.C183_phases_violated": [
"Classical.choice",
"Quot.sound",
"propext"
],
"Verif.C183_phases_partial": [
"Classical.choice",
"Quot.sound",
"propext"
],
"Verif.C184_multi_violated": [
"Classical.choice",
"Quot.sound",
"propext"
],
"Verif.C184_multi_partial": [
"Classical.choice",
"Quot.sound",
"propext"
],
"Verif.C185_add_noise": [
"Classical.choice",
"Quot.sound",
"propext"
],
"Verif.C185_noise": [
"Classical.choice",
"Quot.sound",
"propext"
],
"Verif.C186_sino_violated": [
"Classical.choice",
"Quot.sound",
"propext"
],
"Verif.C186_sino_partial": [
"Classical.choice",
"Quot.sound",
"propext"
],
"Verif.C186_angles": [
"Classical.choice",
"Quot.sound",
"propext"
],
"Verif.C187_transmission": [
"Classical.choice",
"Quot.sound",
"propext"
],
"Verif.C188_error_power": [
"Classical.choice",
"Quot.sound",
"propext"
],
"Verif.C189_parts": [
"Classical.choice",
"Quot.sound",
"propext"
],
"Verif.C189_format": [
"Classical.choice",
"Quot.sound",
"propext"
],
"Verif.C190_sums": [
"Classical.choice",
"Quot.sound",
"propext"
],
"Verif.C190_serial": [
"Classical.choice",
"Quot.sound",
"propext"
],
"Verif.C190_parallel": [
"Classical.choice",
"Quot.sound",
"propext"
],
"Verif.C191_init_keywords_violated": [
"Quot.sound",
"propext"
],
"Verif.C191_keywords_partial": [
"Classical.choice",
"Quot.sound",
"propext"
],
"Verif.C192_errors_violated": [
"Classical.choice",
"Quot.sound",
"propext"
],
"Verif.C192_errors_partial": [
"Classical.choice",
"Quot.sound",
"propext"
],
"Verif.C193_executor_violated": [
"Classical.choice",
"Quot.sound",
"propext"
],
"Verif.C193_executor_partial": [
"Classical.choice",
"Quot.sound",
"propext"
],
"Verif.C194_step_size_violated": [
"Classical.choice",
"Quot.sound",
"propext"
],
"Verif.C194_residual_partial": [
"Classical.choice",
"Quot.sound",
"propext"
],
"Verif.C195_single_detector_violated": [
"Classical.choice",
"Quot.sound",
"propext"
],
"Verif.C195_weights_partial": [
"Classical.choice",
"Quot.sound",
"propext"
],
"Verif.C195_maps": [
"Classical.choice",
"Quot.sound",
"propext"
],
"Verif.C196_half_width_partial": [
"Classical.choice",
"Quot.sound",
"propext"
],
"Verif.C196_no_width_violated": [
"Classical.choice",
"Quot.sound",
"propext"
],
"Verif.C196_contrast": [
"Classical.choice",
"Quot.sound",
"propext"
],
"Verif.C196_mean_and_min": [
"Classical.choice",
"Quot.sound",
"propext"
],
"Verif.C197_pencil_beam": [
"Classical.choice",
"Quot.sound",
"propext"
],
"Verif.C198_accepts": [
"Classical.choice",
"Quot.sound",
"propext"
],
"Verif.C198_binned_support_violated": [
"Classical.choice",
"Quot.sound",
"propext"
],
"Verif.C198_binned_partial": [
"Classical.choice",
"Quot.sound",
"propext"
],
"Verif.C199_operator_shapes_violated": [
"Quot.sound",
"propext"
],
"Verif.C199_operator_shapes_partial": [
"Classical.choice",
"Quot.sound",
"propext"
],
"Verif.C200_absolute": [
"Classical.choice",
"Quot.sound",
"propext"
],
"Verif.C201_ghost_fbp_violated": [
"Classical.choice",
"Quot.sound",
"propext"
],
"Verif.C201_ghost_fbp_partial": [
"Classical.choice",
"Quot.sound",
"propext"
],
"Verif.C202_half_gaussian_violated": [
"Classical.choice",
"Quot.sound",
"propext"
],
"Verif.C202_random_masks_partial": [
"Classical.choice",
"Quot.sound",
"propext"
],
"Verif.C202_number_partial": [
"Classical.choice",
"Quot.sound",
"propext"
],
"Verif.C203_tilt_found_partial": [
"Classical.choice",
"Quot.sound",
"propext"
],
"Verif.C203_tilt_removed_partial": [
"Classical.choice",
"Quot.sound",
"propext"
],
"Verif.C203_rounded_centres_partial": [
"Classical.choice",
"Quot.sound",
"propext"
],
"Verif.C203_small_tilt_violated": [
"Classical.choice",
"Quot.sound",
"propext"
],
"Verif.C204_origin_partial": [
"Classical.choice",
"Quot.sound",
"propext"
],
"Verif.C204_returned_geometry_violated": [
"Classical.choice",
"Quot.sound",
"propext"
],
"Verif.C204_last_fit_partial": [
"Classical.choice",
"Quot.sound",
"propext"
],
"Verif.C204_stale_origin_violated": [
"Classical.choice",
"Quot.sound",
"propext"
],
"Verif.C205_update_partial": [
"Classical.choice",
"Quot.sound",
"propext"
],
"Verif.C205_distinct_violated": [
"Classical.choice",
"Quot.sound",
"propext"
],
"Verif.C206_round_trip": [
"Classical.choice",
"Quot.sound",
"propext"
],
"Verif.C206_refusals": [
"Classical.choice",
"Quot.sound",
"propext"
],
"Verif.C206_write_after_update_violated": [
"Classical.choice",
"Quot.sound",
"propext"
],
"Verif.C206_atomic_load_violated": [
"Classical.choice",
"Quot.sound",
"propext"
],
"Verif.C207_volume_extent": [
"Classical.choice",
"Quot.sound",
"propext"
],
"Verif.C208_tuning_partial": [
"Classical.choice",
"Quot.sound",
"propext"
],
"Verif.C208_residual_violated": [
"Classical.choice",
"Quot.sound",
"propext"
],
"Verif.C209_no_effect": [
"Classical.choice",
"Quot.sound",
"propext"
],
"Verif.C209_mask_pixels": [
"Classical.choice",
"Quot.sound",
"propext"
],
"Verif.C209_empty_mask": [
"Classical.choice",
"Quot.sound",
"propext"
],
"Verif.C210_positive_weights_partial": [
"Classical.choice",
"Quot.sound",
"propext"
],
"Verif.C210_smooth_zero_partial": [
"Classical.choice",
"Quot.sound",
"propext"
],
"Verif.C210_zero_weight_violated": [
"Classical.choice",
"Quot.sound",
"propext"
],
"Verif.C210_fista_l1_zero_partial": [
"Classical.choice",
"Quot.sound",
"propext"
],
"Verif.C211_fbp_filter": [
"Classical.choice",
"Quot.sound",
"propext"
],
"Verif.C211_repeated_angles": [
"Classical.choice",
"Quot.sound",
"propext"
],
"Verif.C211_filter_names": [
"propext"
],
"Verif.C212_kernels": [
"Classical.choice",
"Quot.sound",
"propext"
],
"Verif.C212_no_filter": [
"Classical.choice",
"Quot.sound",
"propext"
],
"Verif.C212_constructor_partial": [
"Classical.choice",
"Quot.sound",
"propext"
],
"Verif.C212_constructor_violated": [
"Classical.choice",
"Quot.sound",
"propext"
],
"Verif.C212_calls": [
"Classical.choice",
"Quot.sound",
"propext"
],
"Verif.C213_subpixel": [
"Classical.choice",
"Quot.sound",
"propext"
],
"Verif.C213_volume_shift_partial": [
"Classical.choice",
"Quot.sound",
"propext"
],
"Verif.C213_image_shift_partial": [
"Classical.choice",
"Quot.sound",
"propext"
],
"Verif.C213_odd_size_violated": [
"Classical.choice",
"Quot.sound",
"propext"
],
"Verif.C214_com_volume_moves": [
"Classical.choice",
"Quot.sound",
"propext"
],
"Verif.C214_methods_agree_partial": [
"Classical.choice",
"Quot.sound",
"propext"
],
"Verif.C214_methods_agree_violated": [
"Classical.choice",
"Quot.sound",
"propext"
],
"Verif.C215_vertical_shifts_partial": [
"Classical.choice",
"Quot.sound",
"propext"
],
"Verif.C215_intensity": [
"Classical.choice",
"Quot.sound",
"propext"
],
"Verif.C215_masks": [
"Classical.choice",
"Quot.sound",
"propext"
],
"Verif.C215_even_rows_violated": [
"Classical.choice",
"Quot.sound",
"propext"
],
"Verif.C216_centre_partial": [
"Classical.choice",
"Quot.sound",
"propext"
],
"Verif.C216_tilt_violated": [
"Classical.choice",
"Quot.sound",
"propext"
],
"Verif.C216_no_tilt_violated": [
"Classical.choice",
"Quot.sound",
"propext"
],
"Verif.C216_no_tilt_refused": [
"Classical.choice",
"Quot.sound",
"propext"
],
"Verif.C217_moves_partial": [
"Classical.choice",
"Quot.sound",
"propext"
],
"Verif.C217_disk": [
"Classical.choice",
"Quot.sound",
"propext"
],
"Verif.C217_position_partial": [
"Classical.choice",
"Quot.sound",
"propext"
],
"Verif.C217_odd_rows_violated": [
"Classical.choice",
"Quot.sound",
"propext"
],
"Verif.C218_shapes": [
"Classical.choice",
"Quot.sound",
"propext"
],
"Verif.C218_rotation_scale_partial": [
"Classical.choice",
"Quot.sound",
"propext"
],
"Verif.C218_even_radius_violated": [
"Classical.choice",
"Quot.sound",
"propext"
],
"Verif.C219_detectors_partial": [
"Classical.choice",
"Quot.sound",
"propext"
],
"Verif.C219_accepted": [
"Classical.choice",
"Quot.sound",
"propext"
],
"Verif.C219_angles": [
"Classical.choice",
"Quot.sound",
"propext"
],
"Verif.C219_shapes_partial": [
"Quot.sound",
"propext"
],
"Verif.C219_positions_violated": [
"Classical.choice",
"Quot.sound",
"propext"
],
"Verif.C219_shapes_violated": [],
"Verif.C220_sizes": [
"Classical.choice",
"Quot.sound",
"propext"
],
"Verif.C220_default_limits_partial": [
"Classical.choice",
"Quot.sound",
"propext"
],
"Verif.C220_format_violated": [
"Classical.choice",
"Quot.sound",
"propext"
],
"Verif.C220_borders": [
"Classical.choice",
"Quot.sound",
"propext"
],
"Verif.C221_weighted_adjoint_partial": [
"Classical.choice",
"Quot.sound",
"propext"
],
"Verif.C221_adjoint_partial": [
"Classical.choice",
"Quot.sound",
"propext"
],
"Verif.C221_energy_partial": [
"Classical.choice",
"Quot.sound",
"propext"
],
"Verif.C221_unnormalised_violated": [
"Classical.choice",
"Quot.sound",
"propext"
],
"Verif.C221_edge_violated": [
"Classical.choice",
"Quot.sound",
"propext"
],
"Verif.C222_round_trip": [
"Classical.choice",
"Quot.sound",
"propext"
],
"Verif.C222_orthogonal": [
"Classical.choice",
"Quot.sound",
"propext"
],
"Verif.C223_stands_for_partial": [
"Classical.choice",
"Quot.sound",
"propext"
],
"Verif.C223_converges_weighted_partial": [
"Classical.choice",
"Quot.sound",
"propext"
],
"Verif.C223_converges_partial": [
"Classical.choice",
"Quot.sound",
"propext"
],
"Verif.C223_converges_limits_partial": [
"Classical.choice",
"Quot.sound",
"propext"
],
"Verif.C223_default_violated": [
"Classical.choice",
"Quot.sound",
"propext"
],
"Verif.C224_sigma_le_tau": [
"Classical.choice",
"Quot.sound",
"propext"
],
"Verif.C224_sigma_value": [
"Classical.choice",
"Quot.sound",
"propext"
],
"Verif.C224_step_contract": [
"Classical.choice",
"Quot.sound",
"propext"
],
"Verif.C225_zero_partial": [
"Classical.choice",
"Quot.sound",
"propext"
],
"Verif.C225_periodization_partial": [
"Classical.choice",
"Quot.sound",
"propext"
],
"Verif.C225_energy_partial": [
"Classical.choice",
"Quot.sound",
"propext"
],
"Verif.C225_constant_violated": [
"Classical.choice",
"Quot.sound",
"propext"
],
"Verif.C226_round_trip": [
"Classical.choice",
"Quot.sound",
"propext"
],
"Verif.C226_orthogonal": [
"Classical.choice",
"Quot.sound",
"propext"
],
"Verif.C226_extension": [
"Classical.choice",
"Quot.sound",
"propext"
],
"Verif.C226_haar_values": [
"Classical.choice",
"Quot.sound",
"propext"
],
"Verif.C227_proximal_partial": [
"Classical.choice",
"Quot.sound",
"propext"
],
"Verif.C227_default_violated": [
"Classical.choice",
"Quot.sound",
"propext"
],
"Verif.C228_accepted_partial": [
"propext"
],
"Verif.C228_default_violated": [],
"Verif.C229_levels_violated": [
"Classical.choice",
"Quot.sound",
"propext"
],
"Verif.C229_stands_for_partial": [
"Classical.choice",
"Quot.sound",
"propext"
],
"Verif.C229_converges_partial": [
"Classical.choice",
"Quot.sound",
"propext"
],
"Verif.C229_converges_limits_partial": [
"Classical.choice",
"Quot.sound",
"propext"
],
"Verif.C230_right_angles_partial": [
"Classical.choice",
"Quot.sound",
"propext"
],
"Verif.C230_oblique_violated": [
"Classical.choice",
"Quot.sound",
"propext"
],
"Verif.C230_even_violated": [
"Classical.choice",
"Quot.sound",
"propext"
],
"Verif.C231_right_angles_partial": [
"Classical.choice",
"Quot.sound",
"propext"
],
"Verif.C231_oblique_violated": [
"Classical.choice",
"Quot.sound",
"propext"
],
"Verif.C232_square_partial": [
"Classical.choice",
"Quot.sound",
"propext"
],
"Verif.C232_exactly_partial": [
"Classical.choice",
"Quot.sound",
"propext"
],
"Verif.C232_shapes_violated": [
"Classical.choice",
"Quot.sound",
"propext"
],
"Verif.C233_float_partial": [
"Classical.choice",
"Quot.sound",
"propext"
],
"Verif.C233_integer_violated": [
"Classical.choice",
"Quot.sound",
"propext"
],
"Verif.C234_unpreconditioned_partial": [
"Classical.choice",
"Quot.sound",
"propext"
],
"Verif.C234_unregularized_partial": [
"Classical.choice",
"Quot.sound",
"propext"
],
"Verif.C234_documented_violated": [
"Classical.choice",
"Quot.sound",
"propext"
],
"Verif.C235_wavelet_partial": [
"Classical.choice",
"Quot.sound",
"propext"
],
"Verif.C235_preconditioned_violated": [
"Classical.choice",
"Quot.sound",
"propext"
],
"Verif.C236_pdhg": [
"Classical.choice",
"Quot.sound",
"propext"
],
"Verif.C236_fista": [
"Classical.choice",
"Quot.sound",
"propext"
],
"Verif.C236_mlem": [
"Classical.choice",
"Quot.sound",
"propext"
],
"Verif.C236_sirt_partial": [
"Classical.choice",
"Quot.sound",
"propext"
],
"Verif.C236_symmetric_partial": [
"Classical.choice",
"Quot.sound",
"propext"
],
"Verif.C236_sirt_violated": [
"Classical.choice",
"Quot.sound",
"propext"
],
"Verif.C237_tnv_converges_partial": [
"Classical.choice",
"Quot.sound",
"propext"
],
"Verif.C237_tnv_converges_limits_partial": [
"Classical.choice",
"Quot.sound",
"propext"
],
"Verif.C237_default_tnv_violated": [
"Classical.choice",
"Quot.sound",
"propext"
],
"Verif.C238_two_dimensional_partial": [
"Classical.choice",
"Quot.sound",
"propext"
],
"Verif.C238_three_dimensional_partial": [
"Classical.choice",
"Quot.sound",
"propext"
],
"Verif.C238_violated": [
"Classical.choice",
"Quot.sound",
"propext"
],
"Verif.C239_geometry_unchanged_partial": [
"Classical.choice",
"Quot.sound",
"propext"
],
"Verif.C239_stale_detector_partial": [
"Classical.choice",
"Quot.sound",
"propext"
],
"Verif.C239_violated": [
"Classical.choice",
"Quot.sound",
"propext"
],
"Verif.C240_accepted_shapes_partial": [
"Classical.choice",
"Quot.sound",
"propext"
],
"Verif.C240_three_axes_partial": [
"Classical.choice",
"Quot.sound",
"propext"
],
"Verif.C240_accepted_shapes_2d_partial": [
"Classical.choice",
"Quot.sound",
"propext"
],
"Verif.C240_violated": [
"Classical.choice",
"Quot.sound",
"propext"
],
"Verif.C241_index_partial": [
"Classical.choice",
"Quot.sound",
"propext"
],
"Verif.C241_negative_partial": [
"Classical.choice",
"Quot.sound",
"propext"
],
"Verif.C241_violated": [
"propext"
],
"Verif.C242_direct_partial": [
"Classical.choice",
"Quot.sound",
"propext"
],
"Verif.C242_astra_partial": [
"Classical.choice",
"Quot.sound",
"propext"
],
"Verif.C242_unit_voxels_partial": [
"Classical.choice",
"Quot.sound",
"propext"
],
"Verif.C242_voxel_positions_partial": [
"Classical.choice",
"Quot.sound",
"propext"
],
"Verif.C242_violated": [
"Classical.choice",
"Quot.sound",
"propext"
],
"Verif.C243_residual_partial": [
"Classical.choice",
"Quot.sound",
"propext"
],
"Verif.C243_dual_step_partial": [
"Classical.choice",
"Quot.sound",
"propext"
],
"Verif.C243_l2_partial": [
"Classical.choice",
"Quot.sound",
"propext"
],
"Verif.C243_violated": [
"Classical.choice",
"Quot.sound",
"propext"
],
"Verif.C244_sirt_partial": [
"Classical.choice",
"Quot.sound",
"propext"
],
"Verif.C244_mlem_partial": [
"Classical.choice",
"Quot.sound",
"propext"
],
"Verif.C244_sart_partial": [
"Classical.choice",
"Quot.sound",
"propext"
],
"Verif.C244_fista_violated": [
"Classical.choice",
"Quot.sound",
"propext"
],
"Verif.C244_pdhg_violated": [
"Classical.choice",
"Quot.sound",
"propext"
],
"Verif.C245_sirt": [
"Classical.choice",
"Quot.sound",
"propext"
],
"Verif.C245_mlem": [
"Classical.choice",
"Quot.sound",
"propext"
],
"Verif.C245_pdhg": [
"Classical.choice",
"Quot.sound",
"propext"
],
"Verif.C245_fista": [
"Classical.choice",
"Quot.sound",
"propext"
],
"Verif.XrfPool.C246_pool": [
"Quot.sound",
"propext"
],
"Verif.XrfPool.C246_misuse_is_recorded": [
"Quot.sound",
"propext"
],
"Verif.XrfPool.C246_projections": [
"Quot.sound",
"propext"
],
"Verif.XrfPool.C246_with_partial": [
"Classical.choice",
"Quot.sound",
"propext"
],
"Verif.XrfPool.C246_with_violated": [
"Quot.sound",
"propext"
],
"Verif.C247_sirt_violated": [
"Classical.choice",
"Quot.sound",
"propext"
],
"Verif.C247_pdhg_violated": [
"Classical.choice",
"Quot.sound",
"propext"
],
"Verif.C247_fista_violated": [
"Classical.choice",
"Quot.sound",
"propext"
],
"Verif.C247_sart_violated": [
"Classical.choice",
"Quot.sound",
"propext"
],
"Verif.C247_fbp_partial": [
"Classical.choice",
"Quot.sound",
"propext"
],
"Verif.C248_position_partial": [
"Classical.choice",
"Quot.sound",
"propext"
],
"Verif.C248_accepted": [
"Classical.choice",
"Quot.sound",
"propext"
],
"Verif.C248_atomic_violated": [
"Classical.choice",
"Quot.sound",
"propext"
],
"Verif.C248_distances_violated": [
"Classical.choice",
"Quot.sound",
"propext"
],
"Verif.C249_position_partial": [
"Classical.choice",
"Quot.sound",
"propext"
],
"Verif.C249_accepted": [
"Classical.choice",
"Quot.sound",
"propext"
],
"Verif.C249_last_counts": [
"Classical.choice",
"Quot.sound",
"propext"
],
"Verif.C249_one_shift_violated": [
"Classical.choice",
"Quot.sound",
"propext"
],
"Verif.C250_mlem_converges_partial": [
"Classical.choice",
"Quot.sound",
"propext"
],
"Verif.C250_mlem_rate_partial": [
"Classical.choice",
"Quot.sound",
"propext"
],
"Verif.C250_mlem_background_partial": [
"Classical.choice",
"Quot.sound",
"propext"
],
"Verif.C250_small_data_violated": [
"Classical.choice",
"Quot.sound",
"propext"
],
"Verif.C251_solution_exists": [
"Classical.choice",
"Quot.sound",
"propext"
],
"Verif.C251_sirt_converges": [
"Classical.choice",
"Quot.sound",
"propext"
],
"Verif.C251_relaxation_two_alternates": [
"Classical.choice",
"Quot.sound",
"propext"
],
"Verif.C252_sart_monotone_partial": [
"Classical.choice",
"Quot.sound",
"propext"
],
"Verif.C252_sart_converges_partial": [
"Classical.choice",
"Quot.sound",
"propext"
],
"Verif.C252_uneven_violated": [
"Classical.choice",
"Quot.sound",
"propext"
],
"Verif.C252_signed_violated": [
"Classical.choice",
"Quot.sound",
"propext"
],
"Verif.C253_label_partial": [
"Classical.choice",
"Quot.sound",
"propext"
],
"Verif.C253_mlem_violated": [
"Classical.choice",
"Quot.sound",
"propext"
],
"Verif.C253_mlem_background_partial": [
"Classical.choice",
"Quot.sound",
"propext"
],
"Verif.C253_fbp_label": [
"Classical.choice",
"Quot.sound",
"propext"
],
"Verif.C254_array_limit_violated": [
"Classical.choice",
"Quot.sound",
"propext"
],
"Verif.C254_scalar_limits_partial": [
"Classical.choice",
"Quot.sound",
"propext"
],
"Verif.C255_line_by_name_violated": [
"Classical.choice",
"Quot.sound",
"propext"
],
"Verif.C255_LB1_violated": [
"Classical.choice",
"Quot.sound",
"propext"
],
"Verif.C255_line_by_name_partial": [
"propext"
],
"Verif.DataFormat.C256_axes_by_format": [
"Quot.sound",
"propext"
],
"Verif.DataFormat.C256_default_volume": [
"Classical.choice",
"Quot.sound",
"propext"
],
"Verif.DataFormat.C257_parallel_detector": [
"Classical.choice",
"Quot.sound",
"propext"
],
"Verif.DataFormat.C257_cone_detector": [
"Quot.sound",
"propext"
],
"Verif.DataFormat.C257_default_shapes_agree": [
"Classical.choice",
"Quot.sound",
"propext"
],
"Verif.DataFormat.C257_documented_type_violated": [
"Classical.choice",
"Quot.sound",
"propext"
],
"Verif.DataFormat.C257_types_partial": [
"Classical.choice",
"Quot.sound",
"propext"
],
"Verif.DataFormat.C257_rotation_directions": [
"Classical.choice",
"Quot.sound",
"propext"
],
"Verif.DataFormat.C258_negative_volume_violated": [
"Classical.choice",
"Quot.sound",
"propext"
],
"Verif.DataFormat.C258_sizes_partial": [
"Classical.choice",
"Quot.sound",
"propext"
],
"Verif.WaveletBasis.C259_symmetric_partial": [
"Classical.choice",
"Quot.sound",
"propext"
],
"Verif.WaveletBasis.C259_zero_mean_partial": [
"Classical.choice",
"Quot.sound",
"propext"
],
"Verif.WaveletBasis.C259_normalised": [
"Classical.choice",
"Quot.sound",
"propext"
],
"Verif.WaveletBasis.C259_few_pixels_violated": [
"Classical.choice",
"Quot.sound",
"propext"
],
"Verif.C260_partial": [
"Classical.choice",
"Quot.sound",
"propext"
],
"Verif.C260_what_happens": [
"Classical.choice",
"Quot.sound",
"propext"
],
"Verif.C260_violated": [
"Classical.choice",
"Quot.sound",
"propext"
],
"Verif.C261_partial": [
"Classical.choice",
"Quot.sound",
"propext"
],
"Verif.C261_violated": [
"Classical.choice",
"Quot.sound",
"propext"
],
"Verif.C261_pdhg_violated": [
"Classical.choice",
"Quot.sound",
"propext"
],
"Verif.C261_sart_violated": [
"Classical.choice",
"Quot.sound",
"propext"
],
"Verif.C262_partial": [
"Classical.choice",
"Quot.sound",
"propext"
],
"Verif.C262_violated": [
"Classical.choice",
"Quot.sound",
"propext"
],
"Verif.C263_partial": [
"Classical.choice",
"Quot.sound",
"propext"
],
"Verif.C263_violated": [
"Classical.choice",
"Quot.sound",
"propext"
],
"Verif.C264_partial": [
"Classical.choice",
"Quot.sound",
"propext"
],
"Verif.C264_order_zero": [
"Classical.choice",
"Quot.sound",
"propext"
],
"Verif.C264_violated": [
"Classical.choice",
"Quot.sound",
"propext"
],
"Verif.C265_partial": [
"Classical.choice",
"Quot.sound",
"propext"
],
"Verif.C265_violated": [
"Classical.choice",
"Quot.sound",
"propext"
],
"Verif.C266_shapes_violated": [
"Classical.choice",
"Quot.sound",
"propext"
],
"Verif.C266_exact_solution_violated": [
"Classical.choice",
"Quot.sound",
"propext"
],
"Verif.C266_symmetric_partial": [
"Classical.choice",
"Quot.sound",
"propext"
],
"Verif.C267_vtv_converges_partial": [
"Classical.choice",
"Quot.sound",
"propext"
],
"Verif.C267_vtv_converges_limits_partial": [
"Classical.choice",
"Quot.sound",
"propext"
],
"Verif.C267_vtv_violated": [
"Classical.choice",
"Quot.sound",
"propext"
],
"Verif.C268_vectorial": [
"Classical.choice",
"Quot.sound",
"propext"
],
"Verif.C268_nuclear": [
"Classical.choice",
"Quot.sound",
"propext"
],
"Verif.C268_huber": [
"Classical.choice",
"Quot.sound",
"propext"
],
"Verif.C268_converges_vectorial": [
"Classical.choice",
"Quot.sound",
"propext"
],
"Verif.C268_converges_vectorial_limits": [
"Classical.choice",
"Quot.sound",
"propext"
],
"Verif.C268_converges_nuclear": [
"Classical.choice",
"Quot.sound",
"propext"
],
"Verif.C268_converges_nuclear_limits": [
"Classical.choice",
"Quot.sound",
"propext"
],
"Verif.C268_converges_huber": [
"Classical.choice",
"Quot.sound",
"propext"
],
"Verif.C268_converges_huber_limits": [
"Classical.choice",
"Quot.sound",
"propext"
],
"Verif.C269_sirt": [
"Classical.choice",
"Quot.sound",
"propext"
],
"Verif.C269_fista": [
"Classical.choice",
"Quot.sound",
"propext"
],
"Verif.C269_pdhg": [
"Classical.choice",
"Quot.sound",
"propext"
],
"Verif.C269_sart": [
"Classical.choice",
"Quot.sound",
"propext"
],
"Verif.C269_mlem": [
"Classical.choice",
"Quot.sound",
"propext"
],
"Verif.C270_sirt_stable": [
"Classical.choice",
"Quot.sound",
"propext"
],
"Verif.C271_pdhg": [
"Classical.choice",
"Quot.sound",
"propext"
],
"Verif.C271_sirt": [
"Classical.choice",
"Quot.sound",
"propext"
],
"Verif.C271_regs": [
"Classical.choice",
"Quot.sound",
"propext"
],
"Verif.C272_matrix": [
"Classical.choice",
"Quot.sound",
"propext"
],
"Verif.C272_sirt": [
"Classical.choice",
"Quot.sound",
"propext"
],
"Verif.C272_pdhg": [
"Classical.choice",
"Quot.sound",
"propext"
],
"Verif.C272_fista": [
"Classical.choice",
"Quot.sound",
"propext"
],
"Verif.C272_mlem": [
"Classical.choice",
"Quot.sound",
"propext"
],
"Verif.C273_sart": [
"Classical.choice",
"Quot.sound",
"propext"
],
"Verif.C273_sirt_parts": [
"Classical.choice",
"Quot.sound",
"propext"
],
"Verif.C273_pdhg_parts": [
"Classical.choice",
"Quot.sound",
"propext"
],
"Verif.C273_fista_parts": [
"Classical.choice",
"Quot.sound",
"propext"
],
"Verif.C273_mlem_parts": [
"Classical.choice",
"Quot.sound",
"propext"
],
"Verif.C273_matrix": [
"Classical.choice",
"Quot.sound",
"propext"
],
"Verif.C273_sirt": [
"Classical.choice",
"Quot.sound",
"propext"
],
"Verif.C273_pdhg": [
"Classical.choice",
"Quot.sound",
"propext"
],
"Verif.C273_fista": [
"Classical.choice",
"Quot.sound",
"propext"
],
"Verif.C273_mlem": [
"Classical.choice",
"Quot.sound",
"propext"
],
"Verif.C274_sirt": [
"Classical.choice",
"Quot.sound",
"propext"
],
"Verif.C274_fista": [
"Classical.choice",
"Quot.sound",
"propext"
],
"Verif.C274_pdhg": [
"Classical.choice",
"Quot.sound",
"propext"
],
"Verif.C274_matrix": [
"Classical.choice",
"Quot.sound",
"propext"
],
"Verif.C275_sirt": [
"Classical.choice",
"Quot.sound",
"propext"
],
"Verif.C275_fista": [
"Classical.choice",
"Quot.sound",
"propext"
],
"Verif.C275_pdhg": [
"Classical.choice",
"Quot.sound",
"propext"
],
"Verif.C275_regs": [
"Classical.choice",
"Quot.sound",
"propext"
],
"Verif.C275_l1": [
"Classical.choice",
"Quot.sound",
"propext"
],
"Verif.C275_tv": [
"Classical.choice",
"Quot.sound",
"propext"
],
"Verif.C275_mlem_violated": [
"Classical.choice",
"Quot.sound",
"propext"
],
"Verif.C276_sirt": [
"Classical.choice",
"Quot.sound",
"propext"
],
"Verif.C276_fista": [
"Classical.choice",
"Quot.sound",
"propext"
],
"Verif.C276_pdhg": [
"Classical.choice",
"Quot.sound",
"propext"
],
"Verif.C276_mlem": [
"Classical.choice",
"Quot.sound",
"propext"
],
"Verif.C276_sart": [
"Classical.choice",
"Quot.sound",
"propext"
],
"Verif.C276_fbp": [
"Classical.choice",
"Quot.sound",
"propext"
],
"Verif.C276_tolerance_sirt": [
"Classical.choice",
"Quot.sound",
"propext"
],
"Verif.C276_tolerance_fista": [
"Classical.choice",
"Quot.sound",
"propext"
],
"Verif.C276_tolerance_pdhg": [
"Classical.choice",
"Quot.sound",
"propext"
],
"Verif.C276_tolerance_mlem": [
"Classical.choice",
"Quot.sound",
"propext"
],
"Verif.C276_tolerance_sart": [
"Classical.choice",
"Quot.sound",
"propext"
],
"Verif.C276_restart": [
"Classical.choice",
"Quot.sound",
"propext"
],
"Verif.C277_superposition": [
"Classical.choice",
"Quot.sound",
"propext"
],
"Verif.C277_unit": [
"Classical.choice",
"Quot.sound",
"propext"
],
"Verif.C278_lower": [
"Classical.choice",
"Quot.sound",
"propext"
],
"Verif.C278_upper": [
"Classical.choice",
"Quot.sound",
"propext"
],
"Verif.C279_duals_partial": [
"Classical.choice",
"Quot.sound",
"propext"
],
"Verif.C279_push_partial": [
"Classical.choice",
"Quot.sound",
"propext"
],
"Verif.C279_violated": [
"Classical.choice",
"Quot.sound",
"propext"
],
"Verif.C280_start": [
"Classical.choice",
"Quot.sound",
"propext"
],
"Verif.C280_noise": [
"Classical.choice",
"Quot.sound",
"propext"
],
"Verif.C281_settles": [
"Classical.choice",
"Quot.sound",
"propext"
],
"Verif.C282_sart_stable": [
"Classical.choice",
"Quot.sound",
"propext"
],
"Verif.C283_sirt_geometric": [
"Classical.choice",
"Quot.sound",
"propext"
],
"Verif.C283_sirt_solution": [
"Classical.choice",
"Quot.sound",
"propext"
],
"Verif.C284_sirt_regs_partial": [
"Classical.choice",
"Quot.sound",
"propext"
],
"Verif.C284_sirt_regs_gap": [
"Classical.choice",
"Quot.sound",
"propext"
],
"Verif.C284_l1_lipschitz": [
"Classical.choice",
"Quot.sound",
"propext"
],
"Verif.C284_tv_lipschitz": [
"Classical.choice",
"Quot.sound",
"propext"
],
"Verif.C284_sirt_regs_violated": [
"Classical.choice",
"Quot.sound",
"propext"
],
"Verif.C285_sirt_regs_rate": [
"Classical.choice",
"Quot.sound",
"propext"
],
"Verif.C286_sirt_regs_stable": [
"Classical.choice",
"Quot.sound",
"propext"
]
}