{
 "claims": [
  {
   "property": "C01",
   "status": "proved",
   "theorems": [
    "Verif.C01_masks_partition",
    "Verif.C01_masks_passthrough"
   ],
   "note": ""
  },
  {
   "property": "C02",
   "status": "partial",
   "theorems": [
    "Verif.C02_sirt_isolated",
    "Verif.C02_fista_isolated",
    "Verif.C02_pdhg_isolated",
    "Verif.C02_sart_isolated",
    "Verif.C02_mlem_violated",
    "Verif.C02_pdhg_l12_violated"
   ],
   "note": "C02_mlem_violated: the data are divided by the projection without applying the mask (src/corrct/solvers.py:782-789), so a masked-out pixel changes the result. | C02_pdhg_l12_violated: C02 does not hold for PDHG with the `l12` term: the group norm is taken before the mask is applied (src/corrct/solvers.py:1166-1172, src/corrct/data_terms.py:549-555)."
  },
  {
   "property": "C03",
   "status": "partial",
   "theorems": [
    "Verif.C03_sirt_limits",
    "Verif.C03_mlem_limits",
    "Verif.C03_pdhg_limits",
    "Verif.C03_fista_limits",
    "Verif.C03_sart_limits",
    "Verif.C03_fbp_limits",
    "Verif.C03_sirt_early_stop_violated",
    "Verif.C03_sirt_start_or_limits_partial",
    "Verif.C03_mlem_start_or_limits_partial"
   ],
   "note": "C03_sirt_early_stop_violated: if the start volume already meets the tolerance, it is returned as it is, not clipped (src/corrct/solvers.py:955-967). | C03_sirt_start_or_limits_partial: what is returned is the start volume as given, or it is within the limits. | C03_mlem_start_or_limits_partial: what is returned is the (masked) start volume, or it is within the limits."
  },
  {
   "property": "C04",
   "status": "partial",
   "theorems": [
    "Verif.C04_sirt_mask",
    "Verif.C04_mlem_mask",
    "Verif.C04_pdhg_mask",
    "Verif.C04_fista_mask",
    "Verif.C04_sart_mask",
    "Verif.C04_fbp_mask",
    "Verif.C04_sirt_start_or_mask_partial",
    "Verif.C04_sirt_early_stop_violated"
   ],
   "note": "C04_sirt_start_or_mask_partial: what is returned is the start volume as given, or it is zero outside the mask. | C04_sirt_early_stop_violated: a start volume that already meets the tolerance is returned as it is, not masked (src/corrct/solvers.py:955-967)."
  },
  {
   "property": "C05",
   "status": "proved",
   "theorems": [
    "Verif.C05_sirt_accounting",
    "Verif.C05_mlem_accounting",
    "Verif.C05_pdhg_accounting",
    "Verif.C05_fista_accounting",
    "Verif.C05_sart_accounting",
    "Verif.C05_no_tolerance_runs_all",
    "Verif.C05_pdhg_last_residual",
    "Verif.C05_fista_last_residual",
    "Verif.C05_sirt_stop_residual"
   ],
   "note": ""
  },
  {
   "property": "C06",
   "status": "proved",
   "theorems": [
    "Verif.C06_sirt_fixed",
    "Verif.C06_fista_fixed",
    "Verif.C06_pdhg_fixed",
    "Verif.C06_mlem_fixed"
   ],
   "note": ""
  },
  {
   "property": "C07",
   "status": "proved",
   "theorems": [
    "Verif.C07_sirt_fejer"
   ],
   "note": ""
  },
  {
   "property": "C08",
   "status": "proved",
   "theorems": [
    "Verif.C08_mlem_nonneg",
    "Verif.C08_mlem_zero"
   ],
   "note": ""
  },
  {
   "property": "C09",
   "status": "proved",
   "theorems": [
    "Verif.C09_mlem_counts",
    "Verif.C09_mlem_counts_le"
   ],
   "note": ""
  },
  {
   "property": "C10",
   "status": "proved",
   "theorems": [
    "Verif.C10_mlem_likelihood"
   ],
   "note": ""
  },
  {
   "property": "C11",
   "status": "proved",
   "theorems": [
    "Verif.C11_acceleration_sequence",
    "Verif.C11_fista_momentum",
    "Verif.C11_fista_restart"
   ],
   "note": ""
  },
  {
   "property": "C12",
   "status": "proved",
   "theorems": [
    "Verif.C12_fista_accepts_iff",
    "Verif.C12_fista_rejects",
    "Verif.C12_accepted_can_run",
    "Verif.C12_other_solvers",
    "Verif.C12_terms_in_use"
   ],
   "note": ""
  },
  {
   "property": "C13",
   "status": "proved",
   "theorems": [
    "Verif.C13_power_method_lower_bound",
    "Verif.C13_power_method_monotone",
    "Verif.C13_power_method_attained"
   ],
   "note": ""
  },
  {
   "property": "C14",
   "status": "proved",
   "theorems": [
    "Verif.C14_diagonal_scaling_relaxed",
    "Verif.C14_diagonal_scaling"
   ],
   "note": ""
  },
  {
   "property": "C15",
   "status": "proved",
   "theorems": [
    "Verif.C15_pdhg_duals",
    "Verif.C15_pdhg_no_regularizers",
    "Verif.C15_gradient_laplacian_keep",
    "Verif.C15_l1_keep"
   ],
   "note": ""
  },
  {
   "property": "C16",
   "status": "partial",
   "theorems": [
    "Verif.Props.C16_l2",
    "Verif.Props.C16_wl2",
    "Verif.Props.C16_l1",
    "Verif.Props.C16_huber",
    "Verif.Props.C16_kl",
    "Verif.Props.C16_l2b_partial",
    "Verif.Props.C16_l1b_violated"
   ],
   "note": "C16_l2b_partial: l2-ball term: the dual update is exact for the documented functional divided by `ε`. | C16_l1b_violated: l1-ball term: the code thresholds by `ε` instead of `σ ε`, so the dual update is not the proximal operator of the conjugate of the documented functional as soon as `σ ≠ 1`."
  },
  {
   "property": "C17",
   "status": "partial",
   "theorems": [
    "Verif.Props.C17_l2",
    "Verif.Props.C17_wl2",
    "Verif.Props.C17_l1",
    "Verif.Props.C17_kl",
    "Verif.Props.C17_kl_nodata_partial",
    "Verif.Props.C17_l2b_violated",
    "Verif.Props.C17_l1b_violated",
    "Verif.Props.C17_background_violated"
   ],
   "note": "C17_kl_nodata_partial: Without data the KL proximal is the exact one (`max(x - τ, 0)`) up to the floor `eps`. | C17_l2b_violated: l2-ball: a point inside the ball is moved although the documented functional is zero around it. | C17_l1b_violated: l1-ball: the result is scaled by `τ/(1+τ)` instead of being shifted. | C17_background_violated: The primal proximal operators ignore the background: with a background the result is not the proximal operator of `x ↦ f(x + background)`."
  },
  {
   "property": "C18",
   "status": "proved",
   "theorems": [
    "Verif.Props.C18_moreau"
   ],
   "note": ""
  },
  {
   "property": "C19",
   "status": "proved",
   "theorems": [
    "Verif.Props.C19_dual_nonexpansive",
    "Verif.Props.C19_primal_nonexpansive"
   ],
   "note": ""
  },
  {
   "property": "C20",
   "status": "proved",
   "theorems": [
    "Verif.Props.C20_slice_residual",
    "Verif.Props.C20_slice_dual",
    "Verif.Props.C20_slice_assign"
   ],
   "note": ""
  },
  {
   "property": "C21",
   "status": "partial",
   "theorems": [
    "Verif.Props.C21_masked_zero",
    "Verif.Props.C21_background",
    "Verif.Props.C21_l2_zero_iff",
    "Verif.Props.C21_kl_zero_iff",
    "Verif.Props.C21_kl_gradient",
    "Verif.Props.C21_norm_sign",
    "Verif.Props.C21_huber_norm_violated"
   ],
   "note": "C21_huber_norm_violated: For the Huber term the reported norm changes when the residual changes sign (three pixels, one row each): negative residuals are always treated as quadratic."
  },
  {
   "property": "C22",
   "status": "proved",
   "theorems": [
    "Verif.Props.C22_l1_ball",
    "Verif.Props.C22_huber_ball",
    "Verif.Props.C22_l12_ball",
    "Verif.Props.C22_huber_axis_ball",
    "Verif.Props.C22_feasible_fixed",
    "Verif.C22_weight_once"
   ],
   "note": ""
  },
  {
   "property": "C23",
   "status": "proved",
   "theorems": [
    "Verif.C23_independent",
    "Verif.C23_default_compatible"
   ],
   "note": ""
  },
  {
   "property": "C24",
   "status": "proved",
   "theorems": [
    "Verif.C24_limit_projection",
    "Verif.C24_limit_zero_dual"
   ],
   "note": ""
  },
  {
   "property": "C25",
   "status": "proved",
   "theorems": [
    "Verif.C25_l1_prox",
    "Verif.C25_l1_shrinks",
    "Verif.C25_transform_prox"
   ],
   "note": ""
  },
  {
   "property": "C26",
   "status": "proved",
   "theorems": [
    "Verif.C26_gradient_contract",
    "Verif.C26_gradient_masked",
    "Verif.C26_laplacian_1d_contract"
   ],
   "note": ""
  },
  {
   "property": "C27",
   "status": "proved",
   "theorems": [
    "Verif.C27_identity_diagonal",
    "Verif.C27_matrix",
    "Verif.C27_gradient",
    "Verif.C27_laplacian",
    "Verif.C27_convolution",
    "Verif.C27_fourier",
    "Verif.C27_fourier_isometry"
   ],
   "note": ""
  },
  {
   "property": "C28",
   "status": "proved",
   "theorems": [
    "Verif.C28_matrix",
    "Verif.C28_transpose"
   ],
   "note": ""
  },
  {
   "property": "C29",
   "status": "proved",
   "theorems": [
    "Verif.C29_pad_amount",
    "Verif.C29_pad_crop",
    "Verif.C29_labels",
    "Verif.C29_packing",
    "Verif.C29_round_trip"
   ],
   "note": ""
  },
  {
   "property": "C30",
   "status": "proved",
   "theorems": [
    "Verif.C30_explicit",
    "Verif.C30_explicit_transpose"
   ],
   "note": ""
  },
  {
   "property": "C31",
   "status": "proved",
   "theorems": [
    "Verif.C31_uncorrected",
    "Verif.C31_xrf_angle",
    "Verif.C31_xrf"
   ],
   "note": ""
  },
  {
   "property": "C32",
   "status": "proved",
   "theorems": [
    "Verif.C32_pool_results",
    "Verif.C32_pool_completes",
    "Verif.C32_projection",
    "Verif.C32_backprojection",
    "Verif.C32_maps"
   ],
   "note": ""
  },
  {
   "property": "C33",
   "status": "proved",
   "theorems": [
    "Verif.C33_monotone",
    "Verif.C33_vacuum",
    "Verif.C33_range",
    "Verif.C33_product",
    "Verif.C33_beer_lambert",
    "Verif.C33_map_range",
    "Verif.C33_shape"
   ],
   "note": ""
  },
  {
   "property": "C34",
   "status": "proved",
   "theorems": [
    "Verif.Astra.C34_no_misuse",
    "Verif.Astra.C34_no_leak",
    "Verif.Astra.C34_projection_releases"
   ],
   "note": ""
  },
  {
   "property": "C35",
   "status": "proved",
   "theorems": [
    "Verif.C35_volume_shape_round_trip",
    "Verif.C35_xyz_round_trip",
    "Verif.C35_short_rejected",
    "Verif.C35_get_3d_keeps_shape",
    "Verif.C35_volume_from_data_projects_to_data",
    "Verif.C35_is_3d"
   ],
   "note": ""
  },
  {
   "property": "C36",
   "status": "proved",
   "theorems": [
    "Verif.C36_rigid_frame",
    "Verif.C36_centring",
    "Verif.C36_pixel_ratio"
   ],
   "note": ""
  },
  {
   "property": "C37",
   "status": "proved",
   "theorems": [
    "Verif.C37_rotation_is_rigid",
    "Verif.C37_rotating_back_restores",
    "Verif.C37_rotating_back_restores_single",
    "Verif.C37_rotation_angle"
   ],
   "note": ""
  },
  {
   "property": "C38",
   "status": "proved",
   "theorems": [
    "Verif.C38_fit_func_min",
    "Verif.C38_interior_minimum",
    "Verif.C38_bad_lengths",
    "Verif.C38_refine_max"
   ],
   "note": ""
  },
  {
   "property": "C39",
   "status": "proved",
   "theorems": [
    "Verif.C39_projected_centre_tilted",
    "Verif.C39_fit_recovers",
    "Verif.C39_fit_exists",
    "Verif.C39_evaluation",
    "Verif.C39_projected_centre"
   ],
   "note": ""
  },
  {
   "property": "C40",
   "status": "proved",
   "theorems": [
    "Verif.C40_vertical_shifts",
    "Verif.C40_increasing_angles",
    "Verif.C40_decreasing_angles",
    "Verif.C40_bounded",
    "Verif.C40_horizontal_shifts"
   ],
   "note": ""
  },
  {
   "property": "C41",
   "status": "proved",
   "theorems": [
    "Verif.C41_partition",
    "Verif.C41_fold_sizes"
   ],
   "note": ""
  },
  {
   "property": "C42",
   "status": "proved",
   "theorems": [
    "Verif.C42_test_mask_size"
   ],
   "note": ""
  },
  {
   "property": "C43",
   "status": "proved",
   "theorems": [
    "Verif.C43_parallel_eq_serial"
   ],
   "note": ""
  },
  {
   "property": "C44",
   "status": "proved",
   "theorems": [
    "Verif.C44_pdhg_score",
    "Verif.C44_fista_score",
    "Verif.C44_test_residual"
   ],
   "note": ""
  },
  {
   "property": "C45",
   "status": "proved",
   "theorems": [
    "Verif.C45_binning"
   ],
   "note": ""
  },
  {
   "property": "C46",
   "status": "proved",
   "theorems": [
    "Verif.C46_azimuthal_sum"
   ],
   "note": ""
  },
  {
   "property": "C47",
   "status": "proved",
   "theorems": [
    "Verif.C47_intersection"
   ],
   "note": ""
  },
  {
   "property": "C48",
   "status": "proved",
   "theorems": [
    "Verif.C48_snip_bounds"
   ],
   "note": ""
  },
  {
   "property": "C49",
   "status": "partial",
   "theorems": [
    "Verif.C49_mse_decomposition_violated",
    "Verif.C49_mse_decomposition_partial"
   ],
   "note": "C49_mse_decomposition_violated: The documented decomposition, `MSE = Bias² + Var`: the variance is normalised by `R - 1`, the error by `R`. | C49_mse_decomposition_partial: `MSE = Bias² + (R - 1) / R · Var`, for any number of realisations above one; so that the documented sum is never below the error, and exceeds it by `Var / R`."
  },
  {
   "property": "C50",
   "status": "proved",
   "theorems": [
    "Verif.C50_frc_normalised"
   ],
   "note": ""
  },
  {
   "property": "C51",
   "status": "proved",
   "theorems": [
    "Verif.C51_padding_size",
    "Verif.C51_linear_convolution",
    "Verif.C51_unit_filter",
    "Verif.C51_edge_padding"
   ],
   "note": ""
  },
  {
   "property": "C52",
   "status": "proved",
   "theorems": [
    "Verif.C52_basis",
    "Verif.C52_default_cover",
    "Verif.C52_window_sizes"
   ],
   "note": ""
  },
  {
   "property": "C53",
   "status": "proved",
   "theorems": [
    "Verif.C53_conversions",
    "Verif.C53_wavelength",
    "Verif.C53_known_factors"
   ],
   "note": ""
  },
  {
   "property": "C54",
   "status": "proved",
   "theorems": [
    "Verif.C54_average_energy",
    "Verif.C54_families"
   ],
   "note": ""
  },
  {
   "property": "C55",
   "status": "proved",
   "theorems": [
    "Verif.C55_mura_two_valued",
    "Verif.C55_mura_decodes"
   ],
   "note": ""
  },
  {
   "property": "C56",
   "status": "partial",
   "theorems": [
    "Verif.C56_possible_sizes_violated",
    "Verif.C56_small_fov_violated",
    "Verif.C56_possible_sizes_partial"
   ],
   "note": "C56_possible_sizes_violated: The sizes are not all the primes `4 k + 1` up to the field of view: 13 is not among the sizes for 13 pixels. | C56_small_fov_violated: Below 9 pixels there is an error, although 5 is possible from 5 pixels on. | C56_possible_sizes_partial: For at least 9 pixels the sizes are in increasing order and are exactly the primes `p = 4 k + 1` with `p + 4 ≤ fov`. Missing: the candidates in the last four pixels."
  },
  {
   "property": "C57",
   "status": "proved",
   "theorems": [
    "Verif.C57_interval_shifts",
    "Verif.C57_sequential_shifts",
    "Verif.C57_random_shifts"
   ],
   "note": ""
  },
  {
   "property": "C58",
   "status": "proved",
   "theorems": [
    "Verif.C58_roundup"
   ],
   "note": ""
  },
  {
   "property": "C59",
   "status": "proved",
   "theorems": [
    "Verif.C59_sirt_monotone"
   ],
   "note": ""
  },
  {
   "property": "C60",
   "status": "proved",
   "theorems": [
    "Verif.C60_sirt_rate"
   ],
   "note": ""
  },
  {
   "property": "C61",
   "status": "proved",
   "theorems": [
    "Verif.C61_fista_unique",
    "Verif.C61_fista_limit",
    "Verif.C61_fista_rate",
    "Verif.C61_fista_prox_rate"
   ],
   "note": ""
  },
  {
   "property": "C62",
   "status": "partial",
   "theorems": [
    "Verif.C62_restart_partial",
    "Verif.C62_restart_violated"
   ],
   "note": "C62_restart_partial: True part of the restart: after `(k+1) p` iterations the parameter is 1, so that the momentum of the *following* iteration is 0; and in iterations that do not end in a restart the momentum is in `[0, 1)`. | C62_restart_violated: The restart itself does not drop the momentum: in the iteration that restarts, the momentum factor is `t - 1`, which is at least `(p-1)/2`, i.e. at least 1 (the volume is extrapolated by at least its whole last change) for every restart period `p ≥ 3`, instead of 0."
  },
  {
   "property": "C63",
   "status": "partial",
   "theorems": [
    "Verif.C63_accepts_unusable_violated",
    "Verif.C63_usable_partial"
   ],
   "note": "C63_accepts_unusable_violated: The full claim fails for wavelet and Fourier regularizers: a fresh, non-normalised stationary-wavelet regularizer (the default) and a Fourier regularizer with its default l12 norm are accepted, but the first iteration of the call raises NotImplementedError; the normalised stationary-wavelet regularizer is accepted and raises another exception. | C63_usable_partial: Which transform-based regularizers can actually be run by FISTA: decimated wavelets and Fourier, with a norm that has a primal proximal operator; no stationary-wavelet regularizer at all."
  },
  {
   "property": "C64",
   "status": "partial",
   "theorems": [
    "Verif.C64_lipschitz_scaling_violated",
    "Verif.C64_lipschitz_scaling_partial"
   ],
   "note": "C64_lipschitz_scaling_violated: The step sizes computed without preconditioning need not satisfy the convergence condition `sigma tau ‖A‖² ≤ relaxation²`: with an unlucky random start the estimate stays at 1 for an operator of norm 4, however many iterations are made, and the product of the step sizes is 16 times too large. | C64_lipschitz_scaling_partial: What holds: whenever the estimate is exact (a bound of the operator norm), the step sizes without regularizers satisfy the condition, for all relaxations `rs, rt ≥ 0` with product at most 1."
  },
  {
   "property": "C65",
   "status": "partial",
   "theorems": [
    "Verif.C65_threshold_violated",
    "Verif.C65_threshold_partial"
   ],
   "note": "C65_threshold_violated: Without the size restriction the condition fails: for `diag(10⁷, 50)` the weak row and column are below the threshold `10⁻⁵·max` and their sums are replaced by 1, and on the weak voxel the weighted energy is 2500 times larger than allowed. | C65_threshold_partial: Without the size restriction what remains is the condition with the sums that were actually used: if no row or column sum is below the threshold `10⁻⁵·max`, the condition holds for every matrix (no regularizers)."
  },
  {
   "property": "C66",
   "status": "partial",
   "theorems": [
    "Verif.C66_edge_gradient_partial",
    "Verif.C66_edge_gradient_violated"
   ],
   "note": "C66_edge_gradient_partial: Exactly how far the transpose of the edge-padded gradient is from the adjoint: one boundary term for the first and one for the last positions of each axis. So it is the adjoint for arguments that vanish there. | C66_edge_gradient_violated: The default gradient operator's transpose is not its adjoint."
  },
  {
   "property": "C67",
   "status": "partial",
   "theorems": [
    "Verif.C67_convolution_violated",
    "Verif.C67_default_partial"
   ],
   "note": "C67_convolution_violated: The transpose of a convolution is not its adjoint: (1) for `is_symm=False`; (2) with `flip_adjoint` for a kernel of even length; (3) with the default options for a symmetric kernel of length 5; (4) with the default options for an asymmetric kernel. | C67_default_partial: What holds with the default options (edge padding, no flip): kernels of lengths 1 and 3 that are symmetric under reflection of each axis."
  },
  {
   "property": "C68",
   "status": "partial",
   "theorems": [
    "Verif.C68_transpose_twice_violated",
    "Verif.C68_self_adjoint_partial"
   ],
   "note": "C68_transpose_twice_violated: The toolbox' base class does not satisfy it: every chain of one or more `.T` applies the adjoint map, so the twice transposed operator rejects what the operator accepts (or, for square operators, applies the adjoint). | C68_self_adjoint_partial: What holds: for operators that are their own adjoint (identity, diagonal scaling, Laplacian) any number of transposes applies the same map as the operator."
  },
  {
   "property": "C69",
   "status": "partial",
   "theorems": [
    "Verif.C69_matrix_absolute_partial",
    "Verif.C69_convolution_absolute_partial",
    "Verif.C69_absolute_violated"
   ],
   "note": "C69_matrix_absolute_partial: `absolute()` of a matrix projector is the operator with the absolute matrix entries; its row and column sums are what the preconditioner needs. | C69_convolution_absolute_partial: With edge padding, `absolute()` of a convolution dominates the entries of the convolution, and it is the convolution itself for kernels without negative values and default options. | C69_absolute_violated: But the absolute value of other operators is not: the gradient's `absolute()` is the gradient itself (src/corrct/operators.py:130-138), with an entry `-1`; and the absolute value of a zero-padded convolution with a non-negative kernel is a different, edge-padded, convolution (src/corrct/operators.py:471)."
  },
  {
   "property": "C70",
   "status": "partial",
   "theorems": [
    "Verif.C70_early_stop_score",
    "Verif.C70_score_after_early_stop_violated",
    "Verif.C70_sirt_score_partial"
   ],
   "note": "C70_score_after_early_stop_violated: a SIRT run that stops early; the returned volume has (squared) test residual 16, but the cross-validation score is 0. | C70_sirt_score_partial: without a tolerance, the score is that of the volume one iteration *before* the returned one, i.e. the volume returned when asking for one iteration less. Missing: the returned volume itself, and runs that stop early."
  },
  {
   "property": "C71",
   "status": "partial",
   "theorems": [
    "Verif.C71_identity_operator_violated"
   ],
   "note": "C71_identity_operator_violated: the same identity map, once returning a fresh array (as a matrix does) and once returning its argument (as `TransformIdentity` does), gives different reconstructions after three iterations with the l1 regularizer."
  },
  {
   "property": "C72",
   "status": "partial",
   "theorems": [
    "Verif.C72_limits_default_norm_violated",
    "Verif.C72_limits_default_norm_partial",
    "Verif.C72_shared_norm_violated"
   ],
   "note": "C72_limits_default_norm_violated: two lower limits 0 and 5 built with the default norm. After both are initialised, the first one computes another dual than it does with a norm of its own. | C72_limits_default_norm_partial: limit constraints with the default norm do not interfere if their limits are equal, or if they are given norm objects of their own. Missing: different limits. | C72_shared_norm_violated: C72 is violated by other regularizers as well: a gradient-based regularizer (step size 1/2) and an l1 or Fourier regularizer (step size 1) that are given one and the same l2 norm object."
  },
  {
   "property": "C73",
   "status": "partial",
   "theorems": [
    "Verif.C73_limit_dual_violated",
    "Verif.C73_limit_dual_partial"
   ],
   "note": "C73_limit_dual_violated: with the lower limit 1, a pixel of value 2 without accumulated dual is pushed. | C73_limit_dual_partial: the result is the exact proximal step minus half the limit. Missing: that half."
  },
  {
   "property": "C74",
   "status": "partial",
   "theorems": [
    "Verif.C74_laplacian_nd_partial",
    "Verif.C74_laplacian_2d_violated"
   ],
   "note": "C74_laplacian_nd_partial: C74, what holds for the Laplacian along `m` axes: the energy is at most `m` times what the published `tau` allows. Missing: the factor `m`, i.e. the convergence condition itself. | C74_laplacian_2d_violated: C74 is violated in two dimensions with the default (edge) padding: a 3 × 3 image whose weighted energy exceeds what the published `tau` allows."
  },
  {
   "property": "C75",
   "status": "proved",
   "theorems": [
    "Verif.C75_uncorrected",
    "Verif.C75_xrf"
   ],
   "note": ""
  },
  {
   "property": "C76",
   "status": "partial",
   "theorems": [
    "Verif.C76_bp_weights_violated",
    "Verif.C76_bp_weights_partial"
   ],
   "note": "C76_bp_weights_violated: without `is_symmetric`, the detector weights enter the single-angle back-projection but not the one of all angles. | C76_bp_weights_partial: with all weights 1 the two agree. Missing: other weights."
  },
  {
   "property": "C77",
   "status": "partial",
   "theorems": [
    "Verif.C77_psf_violated",
    "Verif.C77_psf_partial"
   ],
   "note": "C77_psf_violated: with a point spread function the back-projection is not the adjoint of the forward projection. | C77_psf_partial: C77, what holds with a point spread function: the back-projection is the adjoint of the projection before blurring. Missing: the transpose of the blur."
  },
  {
   "property": "C78",
   "status": "partial",
   "theorems": [
    "Verif.C78_collapse_violated",
    "Verif.C78_collapse_first_row_partial",
    "Verif.C78_collapse_partial"
   ],
   "note": "C78_collapse_violated: after `collapse_detectors` the forward projection of a 2 × 1 volume sees only its first row: two volumes that differ in the second row give the same slice although their projections through the collapsed maps differ. | C78_collapse_first_row_partial: C78, the slice that is projected after `collapse_detectors`: the first row of the volume, each pixel weighted with the mean of the detectors' attenuations (`W` is the total weight). Missing: the other rows. | C78_collapse_partial: if all angle weights are 1 and the backend is linear, projecting through the collapsed maps gives the sum over the detectors of the original projections (the total detector weight is not zero). Missing: the detector axis that the code drops."
  },
  {
   "property": "C79",
   "status": "partial",
   "theorems": [
    "Verif.C79_shapes_violated",
    "Verif.C79_shapes_partial"
   ],
   "note": "C79_shapes_violated: for one angle and one detector, `bp` cannot read what `fp` returned. | C79_shapes_partial: with at least two angles (2D, lines of `u` pixels), the shape is `(angles, u)` for one detector and `(detectors, angles, u)` for several, and `bp` slices lines of shape `(u,)` or `(detectors, u)` out of it. Missing: one angle."
  },
  {
   "property": "C80",
   "status": "partial",
   "theorems": [
    "Verif.Astra.C80_no_leak_violated",
    "Verif.Astra.C80_no_leak_partial"
   ],
   "note": "C80_no_leak_violated: initialising the geometry of a backend that holds projectors loses them; so does a projector that cannot be created after others were. | C80_no_leak_partial: C80, what holds without those two restrictions: nothing is misused, and the projectors the backend still knows of are live. Missing: the ones it has forgotten."
  },
  {
   "property": "C81",
   "status": "partial",
   "theorems": [
    "Verif.C81_axis_length_scales_angle_violated",
    "Verif.C81_angle_times_length_partial"
   ],
   "note": "C81_axis_length_scales_angle_violated: The rotation angle is the given one whatever the length of the rotation axis: with the axis `(0, 0, 2)`, half a turn leaves every vector where it was. | C81_angle_times_length_partial: What is true: the angle is multiplied by the length of the axis."
  },
  {
   "property": "C82",
   "status": "proved",
   "theorems": [
    "Verif.C82_slice_of_rotated",
    "Verif.C82_slice_of_rotated_shifted"
   ],
   "note": ""
  },
  {
   "property": "C83",
   "status": "partial",
   "theorems": [
    "Verif.C83_tilts_dropped_violated",
    "Verif.C83_tilts_applied_partial",
    "Verif.C83_axes_dropped_violated",
    "Verif.C83_single_angle_partial"
   ],
   "note": "C83_tilts_dropped_violated: Every tilt asked for is applied or an error raised: with one axis (the default) and two angles only the first angle is used, without error. | C83_tilts_applied_partial: What is true: with as many axes as angles all the tilts are applied, in order, as rotations that keep the detector axes' inner products. | C83_axes_dropped_violated: With one angle and several axes the axes after the first one are dropped silently. | C83_single_angle_partial: A single angle is never refused: it is applied around the first axis."
  },
  {
   "property": "C84",
   "status": "partial",
   "theorems": [
    "Verif.C84_integer_distance_violated",
    "Verif.C84_integer_distance_partial"
   ],
   "note": "C84_integer_distance_violated: Centring moves the source as much as the detector: not if the distance from source to rotation axis is given as an integer, where the source's shift is truncated. | C84_integer_distance_partial: What is true: with an integer distance the error is less than one pixel, and it is none if the shift is an integer."
  },
  {
   "property": "C85",
   "status": "proved",
   "theorems": [
    "Verif.C85_parallel_projection",
    "Verif.C85_source_side",
    "Verif.C85_half_turn_mirrors",
    "Verif.C85_directions_opposite",
    "Verif.C85_shifts_are_detector_displacements",
    "Verif.C85_cone_projection"
   ],
   "note": ""
  },
  {
   "property": "C86",
   "status": "partial",
   "theorems": [
    "Verif.C86_pre_weights_violated",
    "Verif.C86_pre_weights_partial",
    "Verif.C86_pre_weights_rotation_partial",
    "Verif.C86_pre_weight_coords_partial"
   ],
   "note": "C86_pre_weights_violated: The pre-weight of a pixel is the distance from source to detector centre over that from source to pixel: not if the detector is away from the origin, where the code adds the positions of source and detector instead of subtracting. | C86_pre_weights_partial: What is true: with the detector at the origin, as in `get_prj_geom_cone`, and the source in front of it, the weight is that ratio of distances; it is at most one, and one exactly at the centre. | C86_pre_weights_rotation_partial: The weights do not depend on the rotation of the geometry. | C86_pre_weight_coords_partial: The coordinates given to the pixels are one pixel too spread: they run from `-s/2` to `s/2` over `s` pixels, whereas centres of pixels of unit size run from `-(s-1)/2` to `(s-1)/2`; they are symmetric."
  },
  {
   "property": "C87",
   "status": "partial",
   "theorems": [
    "Verif.C87_combine_shifts_violated",
    "Verif.C87_combine_shifts_partial"
   ],
   "note": "C87_combine_shifts_violated: Vertical and horizontal shifts of equal number can be combined: not for a single projection. | C87_combine_shifts_partial: What is true: it works for any other number of projections, with the vertical shifts first, and raises an error on different numbers."
  },
  {
   "property": "C88",
   "status": "partial",
   "theorems": [
    "Verif.C88_fanflat_scaled_violated",
    "Verif.C88_fanflat_3d_violated",
    "Verif.C88_other_kinds_partial"
   ],
   "note": "C88_fanflat_scaled_violated: The scaled vectors can be read for every kind of geometry: a `ValueError` for `fanflat`. | C88_fanflat_3d_violated: The 3D form of every geometry is three-dimensional: not for `fanflat`. | C88_other_kinds_partial: What is true: for the other kinds, the third coordinate is dropped exactly for 2D geometries, and the 3D form is three-dimensional: parallel beams stay parallel, and what is three-dimensional stays as it is."
  },
  {
   "property": "C89",
   "status": "proved",
   "theorems": [
    "Verif.C89_calibration_exact"
   ],
   "note": ""
  },
  {
   "property": "C90",
   "status": "partial",
   "theorems": [
    "Verif.C90_symmetric_circles_violated",
    "Verif.C90_measured_distance_partial",
    "Verif.C90_v0_from_one_ellipse_partial"
   ],
   "note": "C90_symmetric_circles_violated: The calibration works wherever the circles are on the two sides of the source: not if they are at the same distance from it. | C90_measured_distance_partial: With the measured distance of source and detector the calibration is exact for symmetric phantoms too. | C90_v0_from_one_ellipse_partial: What is true: it fails only then, see `C89_calibration_exact`; the other quantities do not need the computed distance: with a measured `D`, `v0` is recovered from the first ellipse alone."
  },
  {
   "property": "C91",
   "status": "partial",
   "theorems": [
    "Verif.C91_rounded_value_violated",
    "Verif.C91_rounded_value_partial"
   ],
   "note": "C91_rounded_value_violated: `fit_parabola_min` returns a value not above the sampled minimum: its rounding to two decimals can do that, for costs that are small numbers. | C91_rounded_value_partial: What is true: position (in the scale of the fit) and value are those of the parabola's minimum, up to half of a unit of the last decimal, and the position is in the range; or the sampled minimum is returned."
  },
  {
   "property": "C92",
   "status": "partial",
   "theorems": [
    "Verif.C92_decreasing_parameters_violated",
    "Verif.C92_decreasing_parameters_partial"
   ],
   "note": "C92_decreasing_parameters_violated: The minimum is fitted whatever the order of the parameters: for decreasing values the fitted minimum is always taken as outside of the range, and the sampled one returned. | C92_decreasing_parameters_partial: What is true: for decreasing parameter values the sampled minimum is returned, with its value."
  },
  {
   "property": "C93",
   "status": "partial",
   "theorems": [
    "Verif.C93_tilted_ellipse_violated",
    "Verif.C93_tilted_ellipse_partial"
   ],
   "note": "C93_tilted_ellipse_violated: `fit_ellipse_parameters` finds the ellipse through the points: wrong for tilted ellipses, since the formula of the `v` of the centre has a wrong denominator. | C93_tilted_ellipse_partial: What is true of all ellipses: the `u` of the centre is found; and the whole ellipse is, if `v` of the centre is the mean of the `v` of the points (with the rescaling), as for samples that are symmetric around the centre."
  },
  {
   "property": "C94",
   "status": "partial",
   "theorems": [
    "Verif.C94_extremes_violated",
    "Verif.C94_extremes_partial"
   ],
   "note": "C94_extremes_violated: `Ellipse.extremes_u` are the smallest and largest `u` of the ellipse: wrong for tilted ones. | C94_extremes_partial: What is true: the values are on the ellipse's range of `u`, and they are its extremes if the axes of the ellipse are parallel to those of the detector."
  },
  {
   "property": "C95",
   "status": "partial",
   "theorems": [
    "Verif.C95_unsorted_angles_violated",
    "Verif.C95_unsorted_angles_partial"
   ],
   "note": "C95_unsorted_angles_violated: The shifts are returned in the order of the projections: not if the angles are not sorted, as the last line uses `angles_order` and not its inverse. | C95_unsorted_angles_partial: What is true for any order of the angles: the returned list holds the right shifts, up to their order: the value at `j` is that of projection `order (order j)`."
  },
  {
   "property": "C96",
   "status": "proved",
   "theorems": [
    "Verif.C96_image_shift",
    "Verif.C96_row_shift",
    "Verif.C96_padded_row_shift"
   ],
   "note": ""
  },
  {
   "property": "C97",
   "status": "proved",
   "theorems": [
    "Verif.C97_centre_of_rotation"
   ],
   "note": ""
  },
  {
   "property": "C98",
   "status": "partial",
   "theorems": [
    "Verif.C98_odd_size_violated",
    "Verif.C98_odd_size_partial"
   ],
   "note": "C98_odd_size_violated: The real transform, the default, gives the same shifts as the full one: wrong for an odd number of columns, as `irfftn` is called without the shape. The rows `[0, 1, 0]` and `[1, 0, 0]`. | C98_odd_size_partial: What is true: both transforms give the same shifts if the number of columns is even."
  },
  {
   "property": "C99",
   "status": "partial",
   "theorems": [
    "Verif.C99_refined_is_maximum_violated",
    "Verif.C99_refined_is_maximum_partial"
   ],
   "note": "C99_refined_is_maximum_violated: `refine_max_position_1d` returns the position of a maximum, or raises: for the values `1, 0, 1` it returns that of the minimum of the parabola. | C99_refined_is_maximum_partial: What is true: the returned position is that of a stationary point of the parabola through the values, up to rounding, strictly between the two neighbours; and it is a maximum if the middle value is the largest."
  },
  {
   "property": "C100",
   "status": "proved",
   "theorems": [
    "Verif.C100_aligned",
    "Verif.C100_not_aligned"
   ],
   "note": ""
  },
  {
   "property": "C101",
   "status": "proved",
   "theorems": [
    "Verif.C101_com_inside",
    "Verif.C101_com_volume",
    "Verif.C101_com_mirror",
    "Verif.C101_com_moves",
    "Verif.C101_recentre",
    "Verif.C101_recentre_com"
   ],
   "note": ""
  },
  {
   "property": "C102",
   "status": "partial",
   "theorems": [
    "Verif.C102_binning_border_violated",
    "Verif.C102_binning_border_partial"
   ],
   "note": "C102_binning_border_violated: Without the automatic crop the values of the bins are averages of the pixels of the image that they cover: the incomplete bins at the border are averaged with zeros. | C102_binning_border_partial: It is true of the bins that the image covers completely, in particular of all bins if the factor divides the sizes; and the sum of `b²` times all bins is the sum of all pixels in any case."
  },
  {
   "property": "C103",
   "status": "partial",
   "theorems": [
    "Verif.C103_background_margins_violated",
    "Verif.C103_background_margins_partial"
   ],
   "note": "C103_background_margins_violated: The background of order zero is the average of the pixels of the margins: with an empty right margin the whole row is summed. | C103_background_margins_partial: It is true if the right margin is not empty; margins that overlap raise an error, and the others are accepted."
  },
  {
   "property": "C104",
   "status": "proved",
   "theorems": [
    "Verif.C104_snip_equivariant"
   ],
   "note": ""
  },
  {
   "property": "C105",
   "status": "proved",
   "theorems": [
    "Verif.C105_variance_poisson"
   ],
   "note": ""
  },
  {
   "property": "C106",
   "status": "partial",
   "theorems": [
    "Verif.C106_variance_transmission_violated",
    "Verif.C106_variance_transmission_partial"
   ],
   "note": "C106_variance_transmission_violated: `compute_variance_transmission` is the first-order variance of the linearised attenuation `-log(Is / I0)`. | C106_variance_transmission_partial: It is that variance multiplied by the transmission `Is / I0`, and by the mean of the reference with the normalisation; and it is not negative."
  },
  {
   "property": "C107",
   "status": "proved",
   "theorems": [
    "Verif.C107_variance_weights"
   ],
   "note": ""
  },
  {
   "property": "C108",
   "status": "proved",
   "theorems": [
    "Verif.C108_flat_field"
   ],
   "note": ""
  },
  {
   "property": "C109",
   "status": "proved",
   "theorems": [
    "Verif.C109_frc_invariant"
   ],
   "note": ""
  },
  {
   "property": "C110",
   "status": "partial",
   "theorems": [
    "Verif.C110_frc_smoothing_violated",
    "Verif.C110_frc_smoothing_partial"
   ],
   "note": "C110_frc_smoothing_violated: The correlation is defined for any size of the smoothing window: that of size 2 is zero, and its normalisation divides by zero. | C110_frc_smoothing_partial: It is defined for all other sizes."
  },
  {
   "property": "C111",
   "status": "partial",
   "theorems": [
    "Verif.C111_scale_bias_partial",
    "Verif.C111_image_violated"
   ],
   "note": "C111_scale_bias_partial: For any linear projector, image and data, the two numbers that `fit_scale_bias` gives to the minimiser are the partial derivatives of its objective, half the squared norm of `P(a x + b) - y`; a point where both are zero minimises it over all scales and biases; if the projections of the image and of the constant are not proportional, that point is unique; and for data that are exactly `P(a x + b)`, it is `(a, b)`. | C111_image_violated: the objective is then half the square of the largest singular value of the residual, of which the two numbers are not the derivatives (src/corrct/processing/post.py:460)."
  },
  {
   "property": "C112",
   "status": "proved",
   "theorems": [
    "Verif.C112_filter_linear_selfadjoint"
   ],
   "note": ""
  },
  {
   "property": "C113",
   "status": "partial",
   "theorems": [
    "Verif.C113_filter_real_violated",
    "Verif.C113_filter_real_partial"
   ],
   "note": "C113_filter_real_violated: Assigning to `filter_real` the value that it has leaves the filter as it is. | C113_filter_real_partial: It multiplies the entry of frequency `l` by `(-1)^l`, as the getter moves the centre to the middle and the setter expects it at the first pixel; doing it twice gives the filter back."
  },
  {
   "property": "C114",
   "status": "partial",
   "theorems": [
    "Verif.C114_basis_cover_violated",
    "Verif.C114_basis_cover_partial"
   ],
   "note": "C114_basis_cover_violated: The windows of order zero cover all the frequencies, for any options: without binning the largest is left out. | C114_basis_cover_partial: All frequencies are covered if and only if the last window passes the largest one, `n / 2`; the smaller ones always are."
  },
  {
   "property": "C115",
   "status": "proved",
   "theorems": [
    "Verif.C115_fitted_filter"
   ],
   "note": ""
  },
  {
   "property": "C116",
   "status": "partial",
   "theorems": [
    "Verif.C116_filter_history_violated",
    "Verif.C116_filter_history_partial"
   ],
   "note": "C116_filter_history_violated: What a `FilterMR` does with data does not depend on the data that it has processed before: it keeps the basis of the first ones, and fails for data with another padded size. | C116_filter_history_partial: It does not if all data have the same padded size."
  },
  {
   "property": "C117",
   "status": "partial",
   "theorems": [
    "Verif.C117_pencil_beam_violated",
    "Verif.C117_pencil_beam_partial",
    "Verif.C117_beam_shapes"
   ],
   "note": "C117_pencil_beam_violated: The profile of a pencil beam is an array of numbers: for voxels of 1/30 of a micron, and less, there is one sampling point only, outside the voxel. | C117_pencil_beam_partial: If the extent of the profile is more than a tenth of a micron, it is an array of non-negative numbers, that is symmetric, positive at its centre, and sums to one."
  },
  {
   "property": "C118",
   "status": "proved",
   "theorems": [
    "Verif.C118_attenuation",
    "Verif.C118_elements",
    "Verif.C118_others",
    "Verif.C118_compton_cross_section",
    "Verif.C118_compton",
    "Verif.C118_cross_section",
    "Verif.C118_phase_shift",
    "Verif.C118_linear_attenuation"
   ],
   "note": ""
  },
  {
   "property": "C119",
   "status": "partial",
   "theorems": [
    "Verif.C119_compound_unchanged_violated",
    "Verif.C119_compound_unchanged_partial"
   ],
   "note": "C119_compound_unchanged_violated: Asking for the linear attenuation coefficient of a compound does not change later answers for the same compound: a density that is given for one call stays in the dictionary. | C119_compound_unchanged_partial: It does not if no density is given; and with a density each answer is the one for a compound of that density, proportional to it and to the size of the pixel."
  },
  {
   "property": "C120",
   "status": "proved",
   "theorems": [
    "Verif.C120_detector"
   ],
   "note": ""
  },
  {
   "property": "C121",
   "status": "partial",
   "theorems": [
    "Verif.C121_steradians_violated",
    "Verif.C121_steradians_partial"
   ],
   "note": "C121_steradians_violated: `solid_angle_sr` is in steradians: a detector with the surface of the whole sphere has `4 π`. | C121_steradians_partial: It is the fraction of the sphere: `4 π` times it is the surface over the squared distance, and the fractions of detectors of the same distance add up as their surfaces, to 1 for the sphere."
  },
  {
   "property": "C122",
   "status": "partial",
   "theorems": [
    "Verif.C122_parallax_violated",
    "Verif.C122_parallax_partial"
   ],
   "note": "C122_parallax_violated: The warning about parallax comes exactly if there is some: the size of the sample in cm is added to the distance in mm. | C122_parallax_partial: The check is the right one for a sample ten times smaller."
  },
  {
   "property": "C123",
   "status": "partial",
   "theorems": [
    "Verif.C123_distances_violated",
    "Verif.C123_distances_partial"
   ],
   "note": "C123_distances_violated: A detector can be made with an array of positive distances, as its annotation says. | C123_distances_partial: With one distance, exactly the detectors with a non-negative surface and a positive distance can be made."
  },
  {
   "property": "C124",
   "status": "partial",
   "theorems": [
    "Verif.C124_rot_index_violated",
    "Verif.C124_rot_index_partial"
   ],
   "note": "C124_rot_index_violated: `get_maps(rot_ind=i)` returns the map of rotation `i`, where negative numbers count from the end. | C124_rot_index_partial: It does for all numbers but `-1`, for which there is no map at all."
  },
  {
   "property": "C125",
   "status": "partial",
   "theorems": [
    "Verif.C125_projector_args_violated",
    "Verif.C125_projector_args_partial"
   ],
   "note": "C125_projector_args_violated: `get_projector_args` accepts any selection of detectors, and gives as many maps as angles. | C125_projector_args_partial: For all detectors, and for a number other than `-1`, the maps and angles are those of the same detectors; with `-1` there is the angle of the last detector and no map; slices are rejected."
  },
  {
   "property": "C126",
   "status": "proved",
   "theorems": [
    "Verif.C126_sub_angles"
   ],
   "note": ""
  },
  {
   "property": "C127",
   "status": "proved",
   "theorems": [
    "Verif.C127_filters",
    "Verif.C127_images",
    "Verif.C127_inversion"
   ],
   "note": ""
  },
  {
   "property": "C128",
   "status": "partial",
   "theorems": [
    "Verif.C128_no_zero_violated",
    "Verif.C128_nan_violated",
    "Verif.C128_no_zero_partial"
   ],
   "note": "C128_no_zero_violated: No propagation filter is zero at a frequency of the image: the CTF filter may be. | C128_nan_violated: With such a zero no pixel of the result is a number, whatever the image: here for images of 2 × 2 pixels. | C128_no_zero_partial: The TIE filter never is, and the CTF filter is positive at all frequencies for which the product of distance, wavelength and squared frequency is below one half."
  },
  {
   "property": "C129",
   "status": "proved",
   "theorems": [
    "Verif.C129_direct_filter"
   ],
   "note": ""
  },
  {
   "property": "C130",
   "status": "partial",
   "theorems": [
    "Verif.C130_mura_any_fov_violated",
    "Verif.C130_mura_any_fov_partial"
   ],
   "note": "C130_mura_any_fov_violated: The masks that the constructor makes are not always decodable: a field of view of 9 pixels gives masks of 9 points, and the correlation is not two-valued. | C130_mura_any_fov_partial: The masks have `4 k + 1` points, at least as many as asked for and less than four more; when the number is prime they decode. Missing: composite numbers, for which the constructor gives no error."
  },
  {
   "property": "C131",
   "status": "partial",
   "theorems": [
    "Verif.C131_buckets_fraction_violated",
    "Verif.C131_buckets_fraction_partial"
   ],
   "note": "C131_buckets_fraction_violated: The collection does not hold the fraction of buckets asked for: the interval is applied to both axes, and a quarter of `10 × 10` buckets gives 9 of them. | C131_buckets_fraction_partial: With sequential or random shifts the number of buckets is the fraction of the pixels, rounded up, at most all the shifts. Missing: the interval."
  },
  {
   "property": "C132",
   "status": "partial",
   "theorems": [
    "Verif.C132_single_fov_violated",
    "Verif.C132_single_fov_all_violated",
    "Verif.C132_single_fov_partial"
   ],
   "note": "C132_single_fov_violated: A field of view given as one number, that the generators accept, gives masks with one axis, for which no collection can be generated. | C132_single_fov_all_violated: The error comes for all the types of shifts and all fractions. | C132_single_fov_partial: With two sizes there is a collection, the masks cover the field of view, and their pixels are not larger than asked for."
  },
  {
   "property": "C133",
   "status": "proved",
   "theorems": [
    "Verif.C133_transmission",
    "Verif.C133_transmission_bucket"
   ],
   "note": ""
  },
  {
   "property": "C134",
   "status": "partial",
   "theorems": [
    "Verif.C134_ghost_adjoint_violated",
    "Verif.C134_ghost_adjoint_partial"
   ],
   "note": "C134_ghost_adjoint_violated: The back-projection is not the adjoint of the forward projection: the MURA masks decode with other masks. | C134_ghost_adjoint_partial: With the same masks for encoding and decoding it is. Missing: different decoding masks."
  },
  {
   "property": "C135",
   "status": "partial",
   "theorems": [
    "Verif.C135_qr_buckets",
    "Verif.C135_more_masks_violated",
    "Verif.C135_shapes_partial"
   ],
   "note": "C135_more_masks_violated: With more masks than pixels there is no decomposition: the triangular factor is not square and its inversion fails. | C135_shapes_partial: with at most as many masks as pixels there are as many new masks and new buckets as before."
  },
  {
   "property": "C136",
   "status": "partial",
   "theorems": [
    "Verif.C136_reorder_pairs_violated",
    "Verif.C136_reorder_pairs_partial"
   ],
   "note": "C136_reorder_pairs_violated: With more than one row of buckets the buckets of the rows are mixed: a mask gets the bucket of another mask. | C136_reorder_pairs_partial: With one row each mask keeps its bucket, and the order is that of the rotation by `shift`. Missing: more rows."
  },
  {
   "property": "C137",
   "status": "proved",
   "theorems": [
    "Verif.C137_adjust_sampling"
   ],
   "note": ""
  },
  {
   "property": "C138",
   "status": "partial",
   "theorems": [
    "Verif.C138_least_squares",
    "Verif.C138_use_lstsq_violated",
    "Verif.C138_use_lstsq_partial",
    "Verif.C138_stack_violated"
   ],
   "note": "C138_use_lstsq_violated: `use_lstsq=False` does not always give the cross-correlation: with one kind of masks the least squares are used. | C138_use_lstsq_partial: With different decoding masks the argument decides. | C138_stack_violated: The direct reconstruction does not take stacks of buckets that the back-projection takes."
  },
  {
   "property": "C139",
   "status": "partial",
   "theorems": [
    "Verif.C139_ghost_tomo_shape_violated",
    "Verif.C139_one_mask_violated",
    "Verif.C139_ghost_tomo_shape_partial",
    "Verif.C139_ghost_tomo_adjoint"
   ],
   "note": "C139_ghost_tomo_shape_violated: The projections that the back-projection of ghost tomography hands on do not always have the shape of the projector: for one angle an axis is lost. | C139_one_mask_violated: With one mask there is an error. | C139_ghost_tomo_shape_partial: For more than one mask, angle, row and column the shapes are right."
  },
  {
   "property": "C140",
   "status": "partial",
   "theorems": [
    "Verif.C140_ghost_init_violated",
    "Verif.C140_ghost_init_partial"
   ],
   "note": "C140_ghost_init_violated: Projections whose shape does not match the masks are not refused with the `ValueError` announced, but with an `AttributeError`: the message needs an attribute that is not yet there. | C140_ghost_init_partial: They are refused, and matching ones are accepted."
  },
  {
   "property": "C141",
   "status": "proved",
   "theorems": [
    "Verif.C141_pdhg_converges",
    "Verif.C141_pdhg_converges_limits",
    "Verif.C141_pdhg_converges_plain",
    "Verif.C141_pdhg_converges_lsq",
    "Verif.C141_l1_regularizers",
    "Verif.C141_l1",
    "Verif.C141_tv_l1",
    "Verif.C141_laplacian",
    "Verif.C141_tv",
    "Verif.C141_smooth",
    "Verif.C141_huber_tv"
   ],
   "note": ""
  },
  {
   "property": "C142",
   "status": "partial",
   "theorems": [
    "Verif.C142_default_tv_violated"
   ],
   "note": "C142_default_tv_violated: The statement of C141 fails for total variation with its default padding (\"edge\"): for two pixels, the identity as operator, l2 data term and all defaults, the problem has a solution, but the returned volumes do not converge to one."
  },
  {
   "property": "C143",
   "status": "proved",
   "theorems": [
    "Verif.C143_sart_single_angle",
    "Verif.C143_sart_fixed"
   ],
   "note": ""
  },
  {
   "property": "C144",
   "status": "partial",
   "theorems": [
    "Verif.C144_vtv_feasible",
    "Verif.C144_vtv_projection_partial",
    "Verif.C144_vtv_infinite_violated"
   ],
   "note": "C144_vtv_projection_partial: the result is the nearest feasible point, i.e. the dual proximal map of the penalty. | C144_vtv_infinite_violated: C144 fails for an infinite exponent (the default of the channels): the array is scaled down to the border of the ball, which is not its nearest point."
  },
  {
   "property": "C145",
   "status": "proved",
   "theorems": [
    "Verif.C145_values",
    "Verif.C145_mask_order",
    "Verif.C145_bounds",
    "Verif.C145_error"
   ],
   "note": ""
  },
  {
   "property": "C146",
   "status": "partial",
   "theorems": [
    "Verif.C146_array_background_violated",
    "Verif.C146_mlem_array_background_violated",
    "Verif.C146_background_partial"
   ],
   "note": "C146_array_background_violated: with an array as background no iterative solver gives a result if there is a test mask, for any operator, data, masks and settings. | C146_mlem_array_background_violated: with an array as background it gives no result even without a test mask. | C146_background_partial: SIRT accepts an array background without a test mask, and a number with one."
  },
  {
   "property": "C147",
   "status": "partial",
   "theorems": [
    "Verif.C147_l1_vector_partial",
    "Verif.C147_l1_image_partial",
    "Verif.C147_l1_image_violated",
    "Verif.C147_flattened_partial"
   ],
   "note": "C147_l1_vector_partial: The norm reported by the l1 term is the sum of the absolute values. | C147_l1_image_partial: For two-dimensional data it is the largest of the sums of the columns: every column is below it, and one of them attains it. So it is at most the sum over the image, and it is zero only for a zero residual. | C147_l1_image_violated: one row of two pixels; the reported norm is not the sum of the absolute values (src/corrct/data_terms.py:584, no `flatten`). | C147_flattened_partial: The squared norms of l2 and the norm of KL do not depend on the shape."
  },
  {
   "property": "C148",
   "status": "partial",
   "theorems": [
    "Verif.C148_l1_partial",
    "Verif.C148_kl_partial",
    "Verif.C148_l2_violated",
    "Verif.C148_l1_background_violated",
    "Verif.C148_background_twice_violated",
    "Verif.C148_l1b_violated",
    "Verif.C148_mask_violated"
   ],
   "note": "C148_l1_partial: For a dual variable between -1 and 1 that is feasible, the reported gap bounds how far the functional is from its minimum; in particular, it is not negative. | C148_kl_partial: The value returned by the KL term for a dual variable is the divergence of the projection from the data: it does not depend on the dual variable, is not negative, and vanishes only if the projection reproduces the data. | C148_l2_violated: the norms are not squared, and the gap of a primal-dual solution is negative (src/corrct/data_terms.py:326-331). | C148_l1_background_violated: the background is added twice (src/corrct/data_terms.py:589-592). | C148_background_twice_violated: **C148 is violated by l1 and Huber with a background**: the reported gap is that of the term without background at the projection plus *twice* the background. | C148_l1b_violated: the term for the radius of the ball is missing (src/corrct/data_terms.py:586-595). | C148_mask_violated: the product with the data ignores it (src/corrct/data_terms.py:326-331, 595), so that the gap of the l1 term depends on data of pixels that are masked out."
  },
  {
   "property": "C149",
   "status": "proved",
   "theorems": [
    "Verif.C149_nuclear_projection",
    "Verif.C149_independent_of_svd"
   ],
   "note": ""
  },
  {
   "property": "C150",
   "status": "partial",
   "theorems": [
    "Verif.C150_bias_row_partial",
    "Verif.C150_bias_rows_violated"
   ],
   "note": "C150_bias_row_partial: the result is the nearest-matrix projection of the matrix with the bias row appended, without that row. | C150_bias_rows_violated: the call fails whatever the decomposition."
  },
  {
   "property": "C151",
   "status": "partial",
   "theorems": [
    "Verif.C151_tnv_reference_violated",
    "Verif.C151_vtv_flat_reference_partial",
    "Verif.C151_vtv_reference_shrinks_partial",
    "Verif.C151_vtv_reference_channel_partial"
   ],
   "note": "C151_tnv_reference_violated: whatever the reference volume is, the regularizer is the same. | C151_vtv_flat_reference_partial: a reference without edges is no reference, for every pair of exponents. | C151_vtv_reference_shrinks_partial: adding a reference never makes a component of the result larger. | C151_vtv_reference_channel_partial: the first step with a reference is the step for the volume with the reference as one more channel (`X none` is the reference), for every pair of exponents."
  },
  {
   "property": "C152",
   "status": "partial",
   "theorems": [
    "Verif.C152_single_matrix_partial",
    "Verif.C152_line_upper_bound_partial",
    "Verif.C152_stack_violated"
   ],
   "note": "C152_single_matrix_partial: the reported norm is the nuclear norm. | C152_line_upper_bound_partial: the reported value is at most the sum of the nuclear norms. | C152_stack_violated: C152 is violated for a line of pixels (the norm of the stack is a maximum over singular value ranks) and for images (the call raises `ValueError`)."
  },
  {
   "property": "C153",
   "status": "proved",
   "theorems": [
    "Verif.C153_svd_round_trip"
   ],
   "note": ""
  },
  {
   "property": "C154",
   "status": "partial",
   "theorems": [
    "Verif.C154_transpose_after_partial",
    "Verif.C154_given_values_partial",
    "Verif.C154_transpose_before_violated"
   ],
   "note": "C154_transpose_after_partial: The transpose taken after the operator was applied restores the matrix. | C154_given_values_partial: The transpose works on the singular values it is given, not on the stored ones: multiplied by a factor each, they give the volume of the same vectors with those values. | C154_transpose_before_violated: the transpose of a new operator, taken before the operator was applied, fails (`op.T` is a copy). And one taken after the operator was applied to something else restores with the other's vectors."
  },
  {
   "property": "C155",
   "status": "partial",
   "theorems": [
    "Verif.C155_one_level_partial",
    "Verif.C155_levels_mixed_violated",
    "Verif.C155_decimated_details_partial",
    "Verif.C155_stationary_approx_partial",
    "Verif.C155_decimated_approx_violated"
   ],
   "note": "C155_one_level_partial: exactly the orientations at one position are shrunk jointly. | C155_levels_mixed_violated: C155 is violated with two levels and three orientations (two axes): bands of different levels are shrunk together. | C155_decimated_details_partial: the details of a level are shrunk jointly over the orientations. | C155_stationary_approx_partial: C155, approximation band of the stationary transform: every coefficient by itself, to the interval `[-w, w]`. | C155_decimated_approx_violated: C155 is violated by the decimated transform's approximation band: its columns are shrunk jointly."
  },
  {
   "property": "C156",
   "status": "partial",
   "theorems": [
    "Verif.C156_delta_prox_partial",
    "Verif.C156_exp_violated"
   ],
   "note": "C156_delta_prox_partial: C156 for the filter \"delta\" and one threshold: the result is the unique minimiser of `t · penalty(y) + ‖y - x‖² / 2`, for any image, shape and set of axes. | C156_exp_violated: two pixels, `1` and `-1`; the result has a larger value than the zero image."
  },
  {
   "property": "C157",
   "status": "partial",
   "theorems": [
    "Verif.C157_steps_preceding",
    "Verif.C157_steps_value",
    "Verif.C157_step_contract_partial",
    "Verif.C157_three_levels_partial",
    "Verif.C157_deep_violated"
   ],
   "note": "C157_step_contract_partial: if the l1 norm of the low-pass filter to the power of the number of axes times the number of levels is at most the weight that the regularizer publishes, the step sizes keep the contract. (Missing: the other cases, where they do not.) | C157_three_levels_partial: C157 for two-dimensional Haar wavelets and at most three levels: `lo`, `mult` are computed from the filters' l1 norms `√2`. | C157_deep_violated: C157 is violated for every orthogonal transform with four or more levels and an approximation coefficient."
  },
  {
   "property": "C158",
   "status": "partial",
   "theorems": [
    "Verif.C158_matching_partial",
    "Verif.C158_channels_violated"
   ],
   "note": "C158_matching_partial: C158 when the number of bands is one more than the number of channels: every channel is kept. | C158_channels_violated: with one level in two dimensions (four bands) and two channels the call fails; and with one level in one dimension (two bands) and any number of channels above one, all channels become the first."
  },
  {
   "property": "C159",
   "status": "proved",
   "theorems": [
    "Verif.C159_line_peaks",
    "Verif.C159_array_peak"
   ],
   "note": ""
  },
  {
   "property": "C160",
   "status": "partial",
   "theorems": [
    "Verif.C160_vertex_partial",
    "Verif.C160_default_coordinates_violated"
   ],
   "note": "C160_vertex_partial: C160 with given coordinates, or with three samples: for samples of a polynomial of degree two with a single stationary point, that point is returned if it is inside the ranges of the coordinates, otherwise an error is raised. | C160_default_coordinates_violated: C160 is violated by the default coordinates of more than three samples: the maximum of `-(y - 1/2)² - x²`, sampled at the default coordinates of a 5 × 5 region, is said to be at `(1/4, 0)`."
  },
  {
   "property": "C161",
   "status": "partial",
   "theorems": [
    "Verif.C161_sad_shift_partial",
    "Verif.C161_without_padding_violated",
    "Verif.C161_range_end_violated"
   ],
   "note": "C161_sad_shift_partial: a row that was displaced by a whole number of pixels, smaller than the search range, and that is zero at both ends, gives that displacement exactly, for every padded fit, every error norm and every precision. | C161_without_padding_violated: C161 is violated without `pad_u`, which is the default: no row at all has a result. | C161_range_end_violated: C161 is violated at the end of the search range, where the next shift is taken from the other end: the row `0 1 1 0 0`, displaced by one pixel, with a range of one pixel, does not give one pixel."
  },
  {
   "property": "C162",
   "status": "proved",
   "theorems": [
    "Verif.C162_background",
    "Verif.C162_reference_moves",
    "Verif.C162_aligned",
    "Verif.C162_limits"
   ],
   "note": ""
  },
  {
   "property": "C163",
   "status": "partial",
   "theorems": [
    "Verif.C163_opposite_pairs_partial",
    "Verif.C163_centre_partial",
    "Verif.C163_angle_order_violated"
   ],
   "note": "C163_opposite_pairs_partial: if every projection of the first half turn has an opposite one, every comparison is between opposite projections, and every projection of the first half turn is compared once. | C163_centre_partial: if opposite projections are mirror images around the centre of rotation (a multiple of half a pixel from the centre of the detector, the shift being allowed), that centre is returned. | C163_angle_order_violated: C163 is violated by a full scan whose angles are not in increasing order: projections that are not opposite are compared."
  },
  {
   "property": "C164",
   "status": "proved",
   "theorems": [
    "Verif.C164_drifts"
   ],
   "note": ""
  },
  {
   "property": "C165",
   "status": "proved",
   "theorems": [
    "Verif.C165_pad_sinogram"
   ],
   "note": ""
  },
  {
   "property": "C166",
   "status": "proved",
   "theorems": [
    "Verif.C166_shift_projections",
    "Verif.C166_fraction"
   ],
   "note": ""
  },
  {
   "property": "C167",
   "status": "partial",
   "theorems": [
    "Verif.C167_fft_shift_violated",
    "Verif.C167_fft_shift_partial"
   ],
   "note": "C167_fft_shift_violated: Projections with an odd number of columns cannot be shifted with `use_fft=True`, by any shift: it raises `ValueError`. | C167_fft_shift_partial: With an even number of columns, `shift_proj_stack(..., use_fft=True)` moves a projection by whole pixels to exactly where it should be, with what leaves at one side entering at the opposite one; and by any shift, whole or not, it keeps the sum of the projection."
  },
  {
   "property": "C168",
   "status": "partial",
   "theorems": [
    "Verif.C168_several_darks_violated",
    "Verif.C168_several_darks_partial"
   ],
   "note": "C168_several_darks_violated: Several dark images are not averaged, while several flat images are: with two projections and three dark images there is an error; with two projections and two dark images, each projection gets one of them. | C168_several_darks_partial: With one dark image (or several equal ones, as many as the projections and the flat images), the projections are those minus the dark image over the mean flat image minus the dark image; the number of projections does not change."
  },
  {
   "property": "C169",
   "status": "partial",
   "theorems": [
    "Verif.C169_smoothing",
    "Verif.C169_snip_background_violated",
    "Verif.C169_snip_background_partial"
   ],
   "note": "C169_snip_background_violated: With a smoothing that is not trivial (`smooth_std` of at least an eighth of a pixel), whatever its width and the number of iterations, the background of a projection with a dip is above the projection: here a row of three pixels `1, 0, 1`. | C169_snip_background_partial: Each projection of the stack is treated on its own; without smoothing the background is nowhere above the projection, nowhere below its minimum, follows changes of scale and offset, and is the projection itself where that is constant. With smoothing all this holds of the background of the smoothed projections."
  },
  {
   "property": "C170",
   "status": "proved",
   "theorems": [
    "Verif.C170_eigen_flats"
   ],
   "note": ""
  },
  {
   "property": "C171",
   "status": "partial",
   "theorems": [
    "Verif.C171_circular_mask_violated",
    "Verif.C171_circular_mask_partial",
    "Verif.C171_distances"
   ],
   "note": "C171_circular_mask_violated: The tapered mask with the default offset and target (`circular_mask(shape, taper_func=\"cos\")`) is NaN at every pixel of every volume. | C171_circular_mask_partial: Unless the taper has no width, every pixel of `circular_mask` has a value, between 0 and 1. It is the mean over its `ss ^ d` sub-pixels of: without taper, 1 within the radius (half the smallest chosen size plus the offset) and 0 outside; with taper, 1 within the radius (if the cut-off is beyond it), 0 from the cut-off radius on, and in between it does not increase with the distance. Without an origin the mask is symmetric under reflections along any axes."
  },
  {
   "property": "C172",
   "status": "partial",
   "theorems": [
    "Verif.C172_mask_shape_violated",
    "Verif.C172_mask_shape_partial"
   ],
   "note": "C172_mask_shape_violated: The mask that `power_spectrum` and `compute_frc` multiply the image with is squeezed: for an image with one column the product is a square image; and without squeezing, a mask over one axis has one axis too many. | C172_mask_shape_partial: For images with no axis of size one, or with such axes only in front, tapering keeps the shape; without squeezing, the mask over two or more axes, or with super-sampling, has the shape of the volume."
  },
  {
   "property": "C173",
   "status": "partial",
   "theorems": [
    "Verif.C173_ball_violated",
    "Verif.C173_ball_partial"
   ],
   "note": "C173_ball_violated: With an even super-sampling the ball is not symmetric about its centre: in a row of three pixels with two sub-pixels each, a ball of radius 3/4 is `0, 1, 1/2`. | C173_ball_partial: Without `func`, the values of `ball` are between 0 and 1; with an odd super-sampling (the default is 5), the ball is symmetric about the pixel `n // 2` under reflections along any axes, and its value at an offset `t` is the mean of the indicator of the radius (times `func`) over the `ss` parts of each pixel, at `t + (k - (ss - 1) / 2) / ss`."
  },
  {
   "property": "C174",
   "status": "partial",
   "theorems": [
    "Verif.C174_cross_correlation_violated",
    "Verif.C174_cross_correlation_partial"
   ],
   "note": "C174_cross_correlation_violated: For a stack of images: the auto-correlation at no displacement is not 1 (it is divided by the length of the whole stack), and the images of the result are not in the order of the input (the `ifftshift` acts on the axis of the stack too): with two images of one pixel, 1 and 2, the result is 4/5, then 1/5. | C174_cross_correlation_partial: For two images of the same shape, neither of them zero: the result at `[i, j]` is their correlation at the displacement with the signed frequencies `i` and `j` of the size of the result (so no displacement is at `[0, 0]`), over the product of their lengths; it is between -1 and 1; the auto-correlation is 1 at `[0, 0]`. With the full or with the same size."
  },
  {
   "property": "C175",
   "status": "proved",
   "theorems": [
    "Verif.C175_template_matching"
   ],
   "note": ""
  },
  {
   "property": "C176",
   "status": "partial",
   "theorems": [
    "Verif.C176_power_spectrum_violated",
    "Verif.C176_power_spectrum_partial"
   ],
   "note": "C176_power_spectrum_violated: The power spectrum is not always defined: with smoothing over seven rings, that of every signal of four samples is NaN at the position 1, as the average takes in a ring without frequencies. | C176_power_spectrum_partial: For any image of any number of axes, taper, exponent: `power_spectrum` without smoothing is defined at each of its positions, and is there between any bounds of the moduli (to the exponent) of the transform at the frequencies less than one from the ring, over the value of the flat spectrum; with smoothing or not, it does not get negative, scales with the absolute value of the image's factor to the exponent, and without taper does not change if the image is displaced circularly. Without smoothing and taper and with the exponent 2, weighted by the sizes of the rings it sums to the energy of the image."
  },
  {
   "property": "C177",
   "status": "proved",
   "theorems": [
    "Verif.C177_frc_threshold"
   ],
   "note": ""
  },
  {
   "property": "C178",
   "status": "partial",
   "theorems": [
    "Verif.C178_resolution_violated",
    "Verif.C178_resolution_partial"
   ],
   "note": "C178_resolution_violated: For stacks of images, with the threshold curves that `compute_frc(..., theo_threshold=False)` returns for them, `estimate_resolution` finds no resolution: it either raises an error or returns `None`, even though the curve crosses the thresholds. | C178_resolution_partial: With one threshold curve (as `compute_frc` returns by default), `estimate_resolution` returns the first crossing of the curves at or after the first frequency: a point of both curves between two sampled frequencies, and `None` exactly if they do not cross there. If the correlation is not below the threshold at the first frequency, then it is not below it at any sampled frequency up to the one before the returned resolution, and is below it at the next."
  },
  {
   "property": "C179",
   "status": "partial",
   "theorems": [
    "Verif.C179_gains",
    "Verif.C179_padding",
    "Verif.C179_destripe_violated",
    "Verif.C179_destripe_partial"
   ],
   "note": "C179_destripe_violated: Two things that `destripe_wlf_vwu` should do and does not: the wavelet transform leaves out the axis of the angles (it does not, for any data), and the angles may be along any axis (with two axes, if they are along the last one the call fails, whatever the transform, for square data of more than two pixels; and with three axes, if they are along the first one of a cube). | C179_destripe_partial: For data of any shape, wavelet transform that meets the specification, level and angles along the last but one axis (the default): `destripe_wlf_vwu` returns data of the same shape, is linear, leaves of data that is the same for all angles (stripes) only the approximation bands, changes no data whose details vanish, and of data whose details are an oscillation of `f` periods along the angles scales the details by `1 - exp(-(f / angles)² / (2 sigma²))`."
  },
  {
   "property": "C180",
   "status": "partial",
   "theorems": [
    "Verif.C180_psf_steps",
    "Verif.C180_single_weight_partial",
    "Verif.C180_denoise_limit_partial",
    "Verif.C180_denoise_weight_partial",
    "Verif.C180_denoise_violated"
   ],
   "note": "C180_single_weight_partial: With one weight, the result is the image PDHG returns for the regularizer of that weight, started at the image. | C180_denoise_limit_partial: `denoise_image` without PSF and lower limit, for one weight: if the images returned after `N` iterations converge as `N` grows, then the limit solves the denoising problem with *changed* pixel weights: `1 / (1 / w + 1 / 0.95)` instead of `w`. (The transpose of the identity returns its argument, so the solver overwrites the dual of the data; C71.) | C180_denoise_weight_partial: the limit solves the documented problem for a penalty 39/19 (about 2.05) times the requested one. | C180_denoise_violated: for a pixel of value 1 and an l1 penalty of weight 1/4 the denoised images converge to 37/76, but the denoising problem is solved by 3/4 only."
  },
  {
   "property": "C181",
   "status": "partial",
   "theorems": [
    "Verif.C181_several_weights_partial",
    "Verif.C181_chosen_weight_partial",
    "Verif.C181_two_weights_violated"
   ],
   "note": "C181_several_weights_partial: With several increasing positive weights: if a result is returned, then there were at least three weights, the returned weight is within their range, the image is the one returned for that weight alone, and the image respects the lower limit. (The weight is that of a parabola fit, C38.) | C181_chosen_weight_partial: With at least three increasing positive weights, three test masks, scored cross-validation runs and a solver that runs for every weight, `denoise_image` returns an image and the weight that the logarithmic fit (C38) finds for the mean test losses. | C181_two_weights_violated: with two weights `denoise_image` fails, whatever the image, the options and the weights."
  },
  {
   "property": "C182",
   "status": "partial",
   "theorems": [
    "Verif.C182_held_out_partial",
    "Verif.C182_held_out_violated"
   ],
   "note": "C182_held_out_partial: the reconstructions of the cross-validation depend on held-out pixels only through the start image: if two images agree at the training pixels and their median-filtered images agree at the test pixels, the reconstructions are the same. | C182_held_out_violated: the start image of the cross-validation runs is median filtered including the held-out pixels. Two 11×11 images which differ at the (only) test pixel give different reconstructions."
  },
  {
   "property": "C183",
   "status": "partial",
   "theorems": [
    "Verif.C183_phases_violated",
    "Verif.C183_phases_partial"
   ],
   "note": "C183_phases_violated: at a grey value of exactly one half, the voxel belongs to no phase. | C183_phases_partial: In every voxel whose grey value is not exactly 0.1, 0.25 or 0.5, the phantom is made of exactly the material of that grey value: it attenuates as that material at the incoming and at the outgoing energy, and it produces the fluorescence of the element's mass fraction in that material. What is missing: at the three values the voxel is empty — it neither attenuates nor fluoresces. In all voxels no two phases overlap."
  },
  {
   "property": "C184",
   "status": "partial",
   "theorems": [
    "Verif.C184_multi_violated",
    "Verif.C184_multi_partial"
   ],
   "note": "C184_multi_violated: for a detector in the direction of the beam (position 0) the last volumes are left empty. | C184_multi_partial: If every element has an emission line, the result has one volume of production and one of attenuation for each element, which are those of `phantom_assign_concentration` for that element and line; the attenuation at the incoming energy is the same as there; and for a detector position other than 0 one more pair: the Compton production and the attenuation at the Compton energy, at that position. Otherwise (a list of lines shorter than the list of elements) the call fails. What is missing: detector position 0, for which the last pair of volumes is empty."
  },
  {
   "property": "C185",
   "status": "proved",
   "theorems": [
    "Verif.C185_add_noise",
    "Verif.C185_noise"
   ],
   "note": ""
  },
  {
   "property": "C186",
   "status": "partial",
   "theorems": [
    "Verif.C186_sino_violated",
    "Verif.C186_sino_partial",
    "Verif.C186_angles"
   ],
   "note": "C186_sino_violated: without attenuation volumes the point spread function is dropped. | C186_sino_partial: With attenuation volumes, or without a point spread function: the noise-free sinogram of `create_sino` is the forward projection of the expected production returned with it, the background is 0, and the expected production is the phantom times the number of photons and the solid angle of the detector, 0.0375² sr. With a point spread function but no attenuation volume, the sinogram is the projection without that function (what is missing)."
  },
  {
   "property": "C187",
   "status": "proved",
   "theorems": [
    "Verif.C187_transmission"
   ],
   "note": ""
  },
  {
   "property": "C188",
   "status": "proved",
   "theorems": [
    "Verif.C188_error_power"
   ],
   "note": ""
  },
  {
   "property": "C189",
   "status": "proved",
   "theorems": [
    "Verif.C189_parts",
    "Verif.C189_format"
   ],
   "note": ""
  },
  {
   "property": "C190",
   "status": "proved",
   "theorems": [
    "Verif.C190_sums",
    "Verif.C190_serial",
    "Verif.C190_parallel"
   ],
   "note": ""
  },
  {
   "property": "C191",
   "status": "partial",
   "theorems": [
    "Verif.C191_init_keywords_violated",
    "Verif.C191_keywords_partial"
   ],
   "note": "C191_init_keywords_violated: no function accepted as task initialization function can take any additional keyword argument. | C191_keywords_partial: Without additional keyword arguments, the calls go through for every initialization function of one positional parameter; an execution function of one positional parameter and keyword parameters takes exactly the keyword arguments among their names (all of them if it has a `**` parameter). What is missing: keyword arguments of the initialization function, which always fail."
  },
  {
   "property": "C192",
   "status": "partial",
   "theorems": [
    "Verif.C192_errors_violated",
    "Verif.C192_errors_partial"
   ],
   "note": "C192_errors_violated: with `plot_result` the call raises. | C192_errors_partial: Without plotting: for every number of threads or executor and every order of completion, the errors are, in the order of the hyper-parameter values, the sum of the absolute differences and the sum of the squared differences of each reconstruction to the truth — zero exactly where they are equal; and the loss values of the L-curve are those of the reconstructions in the same order, which are returned with them. What is missing: `plot_result=True`, with which the errors are never returned."
  },
  {
   "property": "C193",
   "status": "partial",
   "theorems": [
    "Verif.C193_executor_violated",
    "Verif.C193_executor_partial"
   ],
   "note": "C193_executor_violated: one failing task shuts the caller's executor down. | C193_executor_partial: The executor stays usable exactly as long as no batch fails: any sequence of successful batches leaves it alive, and a batch on an executor that is alive gives the same results as a serial evaluation. What is missing: after a failing batch every non-empty batch on that executor fails."
  },
  {
   "property": "C194",
   "status": "partial",
   "theorems": [
    "Verif.C194_step_size_violated",
    "Verif.C194_residual_partial"
   ],
   "note": "C194_step_size_violated: the residual of the l2-ball term with local error 4 (tolerance 2), data 0 and a projection of 3 is 1 in SIRT (step size 1) and 0 in PDHG with a step size 2. | C194_residual_partial: for every step size the residual of a pixel is zero exactly if the data differ from the projection by at most the step size times the square root of the local error, otherwise it is the difference moved towards zero by that amount. Missing: the factor of the step size should not be there; with step size one (SIRT, SART, FISTA) it is not."
  },
  {
   "property": "C195",
   "status": "partial",
   "theorems": [
    "Verif.C195_single_detector_violated",
    "Verif.C195_weights_partial",
    "Verif.C195_maps"
   ],
   "note": "C195_single_detector_violated: one detector with two weights is accepted; the forward projection silently uses the first of them, and the back-projection cannot take the sinogram. | C195_weights_partial: arguments with a meaning are accepted, and the forward projection multiplies the line of each detector with the weight that is meant, and the back-projection takes its result; with several detectors, and at least one weight, the other arguments are rejected. Missing: several weights with one detector, and empty lists."
  },
  {
   "property": "C196",
   "status": "partial",
   "theorems": [
    "Verif.C196_half_width_partial",
    "Verif.C196_no_width_violated",
    "Verif.C196_contrast",
    "Verif.C196_mean_and_min"
   ],
   "note": "C196_half_width_partial: For a mask that is not constant, the entry is the half width at half maximum of the radial profile of the auto-correlation of the mask minus its mean, or 0 if the profile does not fall below one half within the size of the mask. Missing: masks without such a half width should not be reported as the sharpest. | C196_no_width_violated: Not every entry is a half width: a mask without structure, and any mask with a single row, whose auto-correlation has no profile, are reported with the width 0; so a collection with such a mask has the smallest width 0."
  },
  {
   "property": "C197",
   "status": "proved",
   "theorems": [
    "Verif.C197_pencil_beam"
   ],
   "note": ""
  },
  {
   "property": "C198",
   "status": "partial",
   "theorems": [
    "Verif.C198_accepts",
    "Verif.C198_binned_support_violated",
    "Verif.C198_binned_partial"
   ],
   "note": "C198_binned_support_violated: The support of the masks is not kept consistent: after binning it is still that of the masks before. | C198_binned_partial: the stack keeps its axes and the field of view is divided; the support is the old one."
  },
  {
   "property": "C199",
   "status": "partial",
   "theorems": [
    "Verif.C199_operator_shapes_violated",
    "Verif.C199_operator_shapes_partial"
   ],
   "note": "C199_operator_shapes_violated: As a linear operator, the projector of masks with one axis does not take vectors of the size of an image; the ghost tomography projector does not take vectors of the size of the volume. | C199_operator_shapes_partial: For masks with two axes, a vector of the size of the image takes the shape of the image, no other vector is taken, and there is one bucket for each mask. Missing: masks with another number of axes, ghost tomography."
  },
  {
   "property": "C200",
   "status": "proved",
   "theorems": [
    "Verif.C200_absolute"
   ],
   "note": ""
  },
  {
   "property": "C201",
   "status": "partial",
   "theorems": [
    "Verif.C201_ghost_fbp_violated",
    "Verif.C201_ghost_fbp_partial"
   ],
   "note": "C201_ghost_fbp_violated: On the Python versions 3.10 and 3.11, which the package supports, the reconstruction always fails; with a single angle it fails on all versions, as the buckets of the only angle are taken for angles. | C201_ghost_fbp_partial: On later versions and with masks that distinguish all the images, the direct reconstruction of the buckets of a volume is the filtered back-projection of the projections of that volume. Missing: the versions and the single angle above."
  },
  {
   "property": "C202",
   "status": "partial",
   "theorems": [
    "Verif.C202_half_gaussian_violated",
    "Verif.C202_random_masks_partial",
    "Verif.C202_number_partial"
   ],
   "note": "C202_half_gaussian_violated: The values of half-Gaussian masks are not between the transmission of the closed mask and one. | C202_random_masks_partial: Bernoulli masks have the values one (open) and `1 - t` (closed); half-Gaussian masks are at least `1 - t`, and at most one exactly where the number that was drawn is at most one in absolute value. | C202_number_partial: as the random masks allow for more shifts than pixels (ratio at least one), every fraction up to one gives the fraction of the pixels, rounded up, for sequential and random shifts."
  },
  {
   "property": "C203",
   "status": "partial",
   "theorems": [
    "Verif.C203_tilt_found_partial",
    "Verif.C203_tilt_removed_partial",
    "Verif.C203_rounded_centres_partial",
    "Verif.C203_small_tilt_violated"
   ],
   "note": "C203_tilt_found_partial: The angle computed from the projections of the centres of two circles, the first one below the second, is the tilt of the detector, up to the rounding to four decimals; so tilts of up to 119 degrees are found, and the wrong order of the circles is noticed for tilts of up to 59 degrees. | C203_tilt_removed_partial: If the tilt found is the tilt of the detector and more than a tenth of a degree, the corrected points are those that a detector without the tilt would have seen, and the whole calibration is exact: together with `C89`, the stored geometry is that of the acquisition. | C203_rounded_centres_partial: With the centres rounded to hundredths of a pixel, as those that are fitted, the angle is off by at most the angle under which the rounding is seen. | C203_small_tilt_violated: It is false that the rotation axis is vertical in the points that are fitted: tilts of less than a tenth of a degree are left in them (but still stored in the geometry)."
  },
  {
   "property": "C204",
   "status": "partial",
   "theorems": [
    "Verif.C204_origin_partial",
    "Verif.C204_returned_geometry_violated",
    "Verif.C204_last_fit_partial",
    "Verif.C204_stale_origin_violated"
   ],
   "note": "C204_origin_partial: With the exact projections of the two centres, the first successful fit finds the projection of the origin (the point of the rotation axis at the height of the source). | C204_returned_geometry_violated: It is false that the geometry returned by a fit stays what it was when the object is used for another fit: all the calls return the same object, and the later one overwrites it. | C204_last_fit_partial: The values are those of the last successful fit, whatever was fitted before: except for the origin, which is that of the first one. | C204_stale_origin_violated: It is false that after a successful fit with the right side of the source the origin is the projection of the origin: a successful fit before it, with the wrong side, leaves its own."
  },
  {
   "property": "C205",
   "status": "partial",
   "theorems": [
    "Verif.C205_update_partial",
    "Verif.C205_distinct_violated"
   ],
   "note": "C205_update_partial: `update` changes the named parameter only, to the value that is asked for: exactly without decimals, else up to half a unit of the last one. The tuning geometries are those for each of the values, in the same order. | C205_distinct_violated: It is false that different values give different tuning geometries: the values are rounded to three decimals, so steps of less than half a thousandth (of a degree, for the angles) are not tested at all."
  },
  {
   "property": "C206",
   "status": "partial",
   "theorems": [
    "Verif.C206_round_trip",
    "Verif.C206_refusals",
    "Verif.C206_write_after_update_violated",
    "Verif.C206_atomic_load_violated"
   ],
   "note": "C206_write_after_update_violated: It is false that a geometry that can be written still can after `update`: integers become NumPy integers. | C206_atomic_load_violated: It is false that a failed load leaves the object as it was: with a missing entry, those before it are already changed."
  },
  {
   "property": "C207",
   "status": "proved",
   "theorems": [
    "Verif.C207_volume_extent"
   ],
   "note": ""
  },
  {
   "property": "C208",
   "status": "partial",
   "theorems": [
    "Verif.C208_tuning_partial",
    "Verif.C208_residual_violated"
   ],
   "note": "C208_tuning_partial: With at least three increasing values for each parameter (each one given once), the tuning does not fail, keeps the other parameters, and changes each of the given ones to a value within those tested, up to the rounding to three decimals. | C208_residual_violated: It is false that the tuning does not make the residual larger: the minimum of the parabola is not checked."
  },
  {
   "property": "C209",
   "status": "proved",
   "theorems": [
    "Verif.C209_no_effect",
    "Verif.C209_mask_pixels",
    "Verif.C209_empty_mask"
   ],
   "note": ""
  },
  {
   "property": "C210",
   "status": "partial",
   "theorems": [
    "Verif.C210_positive_weights_partial",
    "Verif.C210_smooth_zero_partial",
    "Verif.C210_zero_weight_violated",
    "Verif.C210_fista_l1_zero_partial"
   ],
   "note": "C210_positive_weights_partial: With positive weights the values of the duals are always numbers. | C210_smooth_zero_partial: Smooth regularizers of the gradient (with any norm that is not of the l1 family, such as the default l2 norm) with weight zero do not change the results of PDHG. | C210_zero_weight_violated: It is false that a weight of zero means no regularization: for the total variation (l1 or l12 norm) the first update of the dual, from the default start volume, is `0 / 0`. | C210_fista_l1_zero_partial: The l1 regularizer with weight zero does not change the results of FISTA."
  },
  {
   "property": "C211",
   "status": "proved",
   "theorems": [
    "Verif.C211_fbp_filter",
    "Verif.C211_repeated_angles",
    "Verif.C211_filter_names"
   ],
   "note": ""
  },
  {
   "property": "C212",
   "status": "partial",
   "theorems": [
    "Verif.C212_kernels",
    "Verif.C212_no_filter",
    "Verif.C212_constructor_partial",
    "Verif.C212_constructor_violated",
    "Verif.C212_calls"
   ],
   "note": "C212_constructor_partial: The filters given to the constructor are applied with the even parts of their kernels: so exactly those of even kernels, the real ones, are applied as they are. | C212_constructor_violated: A filter given to the constructor is the one that is applied."
  },
  {
   "property": "C213",
   "status": "partial",
   "theorems": [
    "Verif.C213_subpixel",
    "Verif.C213_volume_shift_partial",
    "Verif.C213_image_shift_partial",
    "Verif.C213_odd_size_violated"
   ],
   "note": "C213_volume_shift_partial: `fit_shifts_zyx_xc`: if the reference is the volume moved by whole voxels (around the borders), that displacement is found exactly, with and without normalisation, for all volumes without a period, with the full transform, and with the real one if the last axis has an even number of voxels. | C213_image_shift_partial: `fit_shifts_vu_xc` with normalisation (`normalize_fourier`), or without: the same for images, of which the data is the other one moved by whole pixels. | C213_odd_size_violated: With the default options, the displacement of volumes is found whatever the number of voxels along the axes: it is not for an odd number of voxels along the last axis. Here a displacement of -1 is taken for +1."
  },
  {
   "property": "C214",
   "status": "partial",
   "theorems": [
    "Verif.C214_com_volume_moves",
    "Verif.C214_methods_agree_partial",
    "Verif.C214_methods_agree_violated"
   ],
   "note": "C214_methods_agree_partial: Re-centring on a reference volume that shows the object displaced by whole voxels: the methods \"com\" and \"xc\" give the same shifts, those of the displacement, for an even number of voxels along the last axis and objects without a period. | C214_methods_agree_violated: The same for all sizes: not for an odd number of voxels along the last axis."
  },
  {
   "property": "C215",
   "status": "partial",
   "theorems": [
    "Verif.C215_vertical_shifts_partial",
    "Verif.C215_intensity",
    "Verif.C215_masks",
    "Verif.C215_even_rows_violated"
   ],
   "note": "C215_vertical_shifts_partial: Vertical pre-alignment: if the intensity of the rows, summed over the columns, is that of an object on a constant background that is moved by `-s w` rows at angle `w` and never touches the first or the last row, the shifts are exactly `s w`, up to a common constant that makes their mean zero, and rounding - for every object with the derivative, for every one above the background without. With the real transform (the default) the number of rows must be odd with the derivative and even without; otherwise see `C215_even_rows_violated`. | C215_even_rows_violated: With the default options (derivative and real transform) the shifts are wrong for an even number of rows: the inverse transform has one sample less than the profiles. Four rows, one bright row that moves by one."
  },
  {
   "property": "C216",
   "status": "partial",
   "theorems": [
    "Verif.C216_centre_partial",
    "Verif.C216_tilt_violated",
    "Verif.C216_no_tilt_violated",
    "Verif.C216_no_tilt_refused"
   ],
   "note": "C216_centre_partial: If the rows of the first image are those of the second, each moved by twice `a * x + b` at height `x` above the middle (so that the centres of rotation of the rows are on this line, which is inclined), then the centre of rotation that is found is `b`, whichever norm is used for the line. What is missing: the angle is half of the slope of the line (`C216_tilt_violated`), and a line that is not inclined is refused (`C216_no_tilt_violated`). | C216_tilt_violated: The tilt (in radians) is the inclination of the line of the centres of rotation, with the opposite sign, up to terms of the third order of the slope (so that the slope, and the angle whose tangent it is, are both accepted). It is half of it. | C216_no_tilt_violated: Images whose rows are all moved by the same whole number of pixels, twice the centre of rotation, are given this centre and no tilt: the call raises an exception instead, even for two images that are the same."
  },
  {
   "property": "C217",
   "status": "partial",
   "theorems": [
    "Verif.C217_moves_partial",
    "Verif.C217_disk",
    "Verif.C217_position_partial",
    "Verif.C217_odd_rows_violated"
   ],
   "note": "C217_moves_partial: In an image that is the marker image moved (around the borders) by `sv` rows and `su` columns, the position that is found is the middle of the image of the marker, moved by as much: for an even number of columns. | C217_position_partial: In an image that shows the disk at a pixel, this pixel is the position that is found, for images with even numbers of rows and of columns. | C217_odd_rows_violated: The pixel of the disk is found whatever the numbers of rows: for an odd number it is missed by half a pixel, even in the image of the marker itself."
  },
  {
   "property": "C218",
   "status": "partial",
   "theorems": [
    "Verif.C218_shapes",
    "Verif.C218_rotation_scale_partial",
    "Verif.C218_even_radius_violated"
   ],
   "note": "C218_rotation_scale_partial: If the polar spectrum of the second image is that of the first turned by `-t` degrees (which half a turn leaves as it is) and with the logarithms of the radii lessened by `k` samples (around the ends), then the rotation is `t` degrees and the scale is the ratio of the radii of samples `k` apart: for an odd number of samples along the radius. | C218_even_radius_violated: The rotation and the scale are found whatever the number of samples along the radius: not for an even number. Here a scale below 1 is taken for one above 1."
  },
  {
   "property": "C219",
   "status": "partial",
   "theorems": [
    "Verif.C219_detectors_partial",
    "Verif.C219_accepted",
    "Verif.C219_angles",
    "Verif.C219_shapes_partial",
    "Verif.C219_positions_violated",
    "Verif.C219_shapes_violated"
   ],
   "note": "C219_detectors_partial: An attenuation volume has a detector for each position, in their order, at the angles asked for (those given as `DetectorXRF` objects are kept), exactly if the positions are `DetectorXRF` objects or Python floats; a single position is a sequence of one. The shape is that of the volumes. What is missing: integers and 32-bit floats (`C219_positions_violated`). | C219_shapes_partial: No volumes at all, volumes of the same number of dimensions and different shapes, and volumes of other than two or three dimensions are refused; everything else that agrees is accepted. What is missing: `C219_shapes_violated`. | C219_positions_violated: A detector position is accepted as any kind of number: integers and 32-bit floats are refused. | C219_shapes_violated: Volumes of different shapes are refused: a cube and a line of the same length are not."
  },
  {
   "property": "C220",
   "status": "partial",
   "theorems": [
    "Verif.C220_sizes",
    "Verif.C220_default_limits_partial",
    "Verif.C220_format_violated",
    "Verif.C220_borders"
   ],
   "note": "C220_default_limits_partial: With the axes in the order detector, row, angle, column, shifts are limited by default to half of the number of rows (if there are several) and half of the number of columns. What is missing: other orders of the axes (`C220_format_violated`). | C220_format_violated: Whatever the order of the axes, the default limits are half of the numbers of rows and of columns: with the angles first, half of the number of angles is the limit of the vertical shifts."
  },
  {
   "property": "C221",
   "status": "partial",
   "theorems": [
    "Verif.C221_weighted_adjoint_partial",
    "Verif.C221_adjoint_partial",
    "Verif.C221_energy_partial",
    "Verif.C221_unnormalised_violated",
    "Verif.C221_edge_violated"
   ],
   "note": "C221_weighted_adjoint_partial: for orthogonal wavelets and padding with zeros the transpose applied to coefficients, against an image, is the sum over the bands of `1 / 2 ** (m * levels)` (1, if normalized) times the coefficients against the transform. | C221_adjoint_partial: the normalized transform of an orthogonal wavelet with padding with zeros. (Missing: the default padding \"edge\", transforms that are not normalized, and biorthogonal wavelets, where it fails.) | C221_energy_partial: C221, the energies of the bands add up to the energy of the image. | C221_unnormalised_violated: C221 fails for transforms that are not normalized (the default of the regularizer). | C221_edge_violated: C221 fails for the default padding of the transform (\"edge\")."
  },
  {
   "property": "C222",
   "status": "proved",
   "theorems": [
    "Verif.C222_round_trip",
    "Verif.C222_orthogonal"
   ],
   "note": ""
  },
  {
   "property": "C223",
   "status": "partial",
   "theorems": [
    "Verif.C223_stands_for_partial",
    "Verif.C223_converges_weighted_partial",
    "Verif.C223_converges_partial",
    "Verif.C223_converges_limits_partial",
    "Verif.C223_default_violated"
   ],
   "note": "C223_stands_for_partial: the regularizer stands for the l1 norm of the bands with the weights `bandWeight`. | C223_converges_weighted_partial: C223, with all defaults but the weights of the bands: a primal-dual reconstruction with the stationary wavelet regularizer of an orthogonal wavelet converges to a solution of the problem in which the weight of a band is divided by `2 ** (m * levels)`, unless it is normalized. | C223_converges_partial: with `normalized=True` a primal-dual reconstruction converges to a minimiser of the data term plus the weight times the l1 norm of the wavelet coefficients, for orthogonal wavelets and padding with zeros. (Missing: `normalized=False`, the default, where it fails.) | C223_converges_limits_partial: nothing has to be assumed about solutions. (Missing: as in `C223_converges_partial`.) | C223_default_violated: C223 fails for the default `normalized=False`: for one pixel, the identity as operator, l2 data term, Haar wavelet with one level and all defaults, the problem has a solution, but the returned volumes do not converge to one."
  },
  {
   "property": "C224",
   "status": "proved",
   "theorems": [
    "Verif.C224_sigma_le_tau",
    "Verif.C224_sigma_value",
    "Verif.C224_step_contract"
   ],
   "note": ""
  },
  {
   "property": "C225",
   "status": "partial",
   "theorems": [
    "Verif.C225_zero_partial",
    "Verif.C225_periodization_partial",
    "Verif.C225_energy_partial",
    "Verif.C225_constant_violated"
   ],
   "note": "C225_zero_partial: Mode \"zero\", for every shape: the transpose is the adjoint. What is missing: the other modes (except \"periodization\", next), for which it is not. | C225_periodization_partial: Mode \"periodization\" with sizes divisible by `2 ** level`: the transpose is the adjoint. | C225_energy_partial: In these cases the energy is kept. | C225_constant_violated: With the default mode of the regularizer (\"constant\"), the transpose is not the adjoint."
  },
  {
   "property": "C226",
   "status": "proved",
   "theorems": [
    "Verif.C226_round_trip",
    "Verif.C226_orthogonal",
    "Verif.C226_extension",
    "Verif.C226_haar_values"
   ],
   "note": ""
  },
  {
   "property": "C227",
   "status": "partial",
   "theorems": [
    "Verif.C227_proximal_partial",
    "Verif.C227_default_violated"
   ],
   "note": "C227_proximal_partial: Mode \"periodization\", sizes divisible by `2 ** level`, orthogonal wavelets: what `apply_proximal_primal` returns minimises the sum of half the squared distance and of the penalty, and every other image is worse by at least half its squared distance from it. What is missing: the other modes, where it is not the proximal (below). | C227_default_violated: With the default mode (\"constant\") `apply_proximal_primal` does not return the proximal: one pixel, Haar, one level."
  },
  {
   "property": "C228",
   "status": "partial",
   "theorems": [
    "Verif.C228_accepted_partial",
    "Verif.C228_default_violated"
   ],
   "note": "C228_accepted_partial: Which of the documented options are accepted. What is missing: the others, among them the default. | C228_default_violated: The documented options, and the default, are not all accepted."
  },
  {
   "property": "C229",
   "status": "partial",
   "theorems": [
    "Verif.C229_levels_violated",
    "Verif.C229_stands_for_partial",
    "Verif.C229_converges_partial",
    "Verif.C229_converges_limits_partial"
   ],
   "note": "C229_levels_violated: for images of 32 by 32 pixels, the identity as operator, l2 data term, Haar wavelets, the default relaxation and mode \"periodization\", for which the transpose is the adjoint, the problem has a solution, but the returned volumes alternate between two images. | C229_stands_for_partial: The regularizer stands for the penalty, if its steps keep the contract. | C229_converges_partial: when the transpose is the adjoint and the steps keep their contract, a primal-dual reconstruction with the decimated wavelet regularizer converges to a minimiser of the data term plus the weight times the l1 norm of the wavelet coefficients. (Missing: the modes whose transpose is not the adjoint, and more levels, where it fails.) | C229_converges_limits_partial: nothing has to be assumed about solutions. (Missing: as in `C229_converges_partial`.)"
  },
  {
   "property": "C230",
   "status": "partial",
   "theorems": [
    "Verif.C230_right_angles_partial",
    "Verif.C230_oblique_violated",
    "Verif.C230_even_violated"
   ],
   "note": "C230_right_angles_partial: at right angles the back-projection is the adjoint of the forward projection, if the number of pixels is odd or the angles are 0 or 90 degrees. (Missing: all other angles, and even numbers of pixels at 180 and 270 degrees, where it is not.) | C230_oblique_violated: C230 fails at 45 degrees, also for odd numbers of pixels. | C230_even_violated: C230 fails at 180 degrees for even numbers of pixels: the first row is never projected."
  },
  {
   "property": "C231",
   "status": "partial",
   "theorems": [
    "Verif.C231_right_angles_partial",
    "Verif.C231_oblique_violated"
   ],
   "note": "C231_right_angles_partial: at right angles, with an odd number of pixels, the total of the projection is that of the volume. (Missing: other angles and even numbers of pixels, where it is not.) | C231_oblique_violated: a volume of one voxel with the value 1, in the centre, is projected to a total of `7 - 4 * sqrt 2`, which is above 1.34."
  },
  {
   "property": "C232",
   "status": "partial",
   "theorems": [
    "Verif.C232_square_partial",
    "Verif.C232_exactly_partial",
    "Verif.C232_shapes_violated"
   ],
   "note": "C232_square_partial: square volumes with voxels of size one are projected and back-projected. (Missing: rectangular volumes and other voxels, where the calls raise.) | C232_exactly_partial: with unit voxels both calls succeed for square volumes and for those with a single column, and for no others. | C232_shapes_violated: C232 fails for rectangular volumes, and for voxels of another size."
  },
  {
   "property": "C233",
   "status": "partial",
   "theorems": [
    "Verif.C233_float_partial",
    "Verif.C233_integer_violated"
   ],
   "note": "C233_float_partial: for floating-point volumes and projections, the projections of all the angles are those of the single angles, and the back-projection is the sum of the back-projections of the single angles. (Missing: integers, where they are not.) | C233_integer_violated: the projections of all the angles are truncated, and both are divided by the largest integer; and for projections of integers."
  },
  {
   "property": "C234",
   "status": "partial",
   "theorems": [
    "Verif.C234_unpreconditioned_partial",
    "Verif.C234_unregularized_partial",
    "Verif.C234_documented_violated"
   ],
   "note": "C234_unpreconditioned_partial: C234, partial, for regularizers with a voxel-wise proximal step `g`, without preconditioning, if the power method found the norm `L` of the matrix: after `k` iterations the documented objective, with the regularizer multiplied by `L`, exceeds that of any admissible volume by at most `2 L² dist² / (ω (k + 1)²)`. (Missing: `L = 1`, see the violation below.) | C234_unregularized_partial: without preconditioning, if the power method found the norm `L` of the matrix, the documented objective. | C234_documented_violated: C234 is violated, with preconditioning (the default) and without: one pixel and one value, the matrix 2, the data 4, the l1 norm with weight 1. After any positive number of iterations, for every random start, the result is 3/2 (the minimiser for the weight 2), whose documented objective exceeds that of 7/4 by 1/8."
  },
  {
   "property": "C235",
   "status": "partial",
   "theorems": [
    "Verif.C235_wavelet_partial",
    "Verif.C235_preconditioned_violated"
   ],
   "note": "C235_wavelet_partial: orthogonal wavelets, mode \"periodization\", sizes divisible by `2 ** level`, without preconditioning, limits and solution mask, if the power method found the norm `L` of the matrix: after `k` iterations half the squared residual plus `L · weight` times the l1 norm of the wavelet coefficients exceeds that of any volume by at most `2 L² dist² / (ω (k + 1)²)`. (Missing: preconditioning, see the violation below.) | C235_preconditioned_violated: C235 is violated with preconditioning, the default: two pixels, the matrix `diag(1, 2)`, the data 0 and 8, Haar, one level, weight 1. After any positive number of iterations the result is `(0, 4 - √2)`; the row-normalised misfit (C61) plus the penalty exceeds that of `(0, 4 - √2/2)` by 1/2. The proximal step uses the threshold of the first pixel for all coefficients."
  },
  {
   "property": "C236",
   "status": "partial",
   "theorems": [
    "Verif.C236_pdhg",
    "Verif.C236_fista",
    "Verif.C236_mlem",
    "Verif.C236_sirt_partial",
    "Verif.C236_symmetric_partial",
    "Verif.C236_sirt_violated"
   ],
   "note": "C236_sirt_partial: with entries that are not negative the functions give exactly what the matrix gives. (Missing: entries of both signs.) | C236_symmetric_partial: C236, a symmetric matrix needs only one function: without the second one the solvers compute the same. | C236_sirt_violated: one datum, two pixels, the row `(1, -1/2)`, given by functions, the data 1, any relaxation from 1 on (the default is 1.95). After `n` iterations the residual is `(3 ω - 1) ^ n`, at least `2 ^ n`: SIRT diverges; with the matrix it never increases the misfit (C59)."
  },
  {
   "property": "C237",
   "status": "partial",
   "theorems": [
    "Verif.C237_tnv_converges_partial",
    "Verif.C237_tnv_converges_limits_partial",
    "Verif.C237_default_tnv_violated"
   ],
   "note": "C237_tnv_converges_partial: PDHG with total nuclear variation with zero or periodic padding, for every matrix, volume shape, number of channels, weight, reference volume and correct singular value decomposition: the iterates converge to a solution of the problem \"data term plus weight times the sum of the nuclear norms of the pixels' derivative matrices\". | C237_tnv_converges_limits_partial: C237, both limits given and a data term that is finite everywhere: a solution exists, so that no hypothesis about it is needed. | C237_default_tnv_violated: C237 is violated with the default padding (\"edge\"): one channel of two pixels, the identity as operator, l2 data term and all defaults; the problem has a solution, but the returned volumes do not converge to one."
  },
  {
   "property": "C238",
   "status": "partial",
   "theorems": [
    "Verif.C238_two_dimensional_partial",
    "Verif.C238_three_dimensional_partial",
    "Verif.C238_violated"
   ],
   "note": "C238_two_dimensional_partial: what `fp` returns for all angles, or for one, can be given to `bp`, with both backends. | C238_three_dimensional_partial: exactly when what `fp` returns can be given to `bp`. All angles with the direct backend: always. All angles with the ASTRA backend: if the detector has at most one row, or if there is more than one angle and more than one column. One angle, with both backends: only if the detector has at most one row. In the other cases `bp` raises `IndexError`. | C238_violated: back-projecting a single projection of a 3D volume, as SART and the attenuation corrections do, raises `IndexError` with both backends; so does `bp` of what `fp` of the ASTRA backend returns for one angle."
  },
  {
   "property": "C239",
   "status": "partial",
   "theorems": [
    "Verif.C239_geometry_unchanged_partial",
    "Verif.C239_stale_detector_partial",
    "Verif.C239_violated"
   ],
   "note": "C239_geometry_unchanged_partial: the direct backend never changes the geometry it is given; the ASTRA backend does not if the geometry has a detector shape. | C239_stale_detector_partial: with the ASTRA backend and a geometry without detector shape, the detector of the first 3D volume stays in the geometry: a second projector created with the same geometry for another volume gets the detector of the first. | C239_violated: after a projector for a volume of 5 slices of 10×10 voxels, the same geometry used for a volume of 8 slices of 20×20 gives a projector that expects 5 × 10 pixels; with a fresh geometry it expects 8 × 20."
  },
  {
   "property": "C240",
   "status": "partial",
   "theorems": [
    "Verif.C240_accepted_shapes_partial",
    "Verif.C240_three_axes_partial",
    "Verif.C240_accepted_shapes_2d_partial",
    "Verif.C240_violated"
   ],
   "note": "C240_accepted_shapes_partial: projections that `bp` takes have the right number of values, and along the columns and the rows (the last axis and the third from the end) they have the shape of the detector, if it is larger than one. | C240_three_axes_partial: C240 (3D volumes, all angles, at least two rows and columns): an array with three axes is only taken if it has the shape `(V, W, U)`. | C240_accepted_shapes_2d_partial: the same, for the number of values and the last axis. | C240_violated: a projector for a 2D volume and 36 angles takes a stack of two sinograms with 18 angles each; one for a detector with a single column takes the transposed sinogram, and one for a 3D volume takes an array with a fourth axis, angles split in two."
  },
  {
   "property": "C241",
   "status": "partial",
   "theorems": [
    "Verif.C241_index_partial",
    "Verif.C241_negative_partial",
    "Verif.C241_violated"
   ],
   "note": "C241_index_partial: for an index from zero, data and projector are those of that angle; indices from the number of angles on are refused by the ASTRA backend. | C241_negative_partial: what happens with negative indices, `-1 - j` for `j < nA`: the data are those of the angle counted from the end, but the projector is the one of the *next* angle, and the one of all angles for the index -1. | C241_violated: for the last angle given as `-1`, the ASTRA backend combines the data of the last angle with the projector of all angles, for `-2` the data of one angle with the projector of another."
  },
  {
   "property": "C242",
   "status": "partial",
   "theorems": [
    "Verif.C242_direct_partial",
    "Verif.C242_astra_partial",
    "Verif.C242_unit_voxels_partial",
    "Verif.C242_voxel_positions_partial",
    "Verif.C242_violated"
   ],
   "note": "C242_direct_partial: for every 3D geometry with one row per array, all angles and voxel sizes, the rays that reach the pixels are those of the geometry that was given. | C242_astra_partial: a point of the volume is projected where the geometry that was given would project the point *multiplied by the voxel size*; so the projections are those of the geometry if the voxel size is one. | C242_unit_voxels_partial: with voxels of the size of a pixel, both backends project along the geometry that was given. | C242_voxel_positions_partial: The position of a voxel: the volume is centred, and voxels have the size `vox` in units of pixels. | C242_violated: the default parallel geometry at the angle zero, and a volume of eight voxels of half a pixel in each direction, so that the detector has four columns, -2 … 2. The border of the volume, at 2 pixels from the axis, is projected on the border of the detector by the direct backend, but at one pixel from its centre by the ASTRA backend: the sample covers half of the detector."
  },
  {
   "property": "C243",
   "status": "partial",
   "theorems": [
    "Verif.C243_residual_partial",
    "Verif.C243_dual_step_partial",
    "Verif.C243_l2_partial",
    "Verif.C243_violated"
   ],
   "note": "C243_residual_partial: the residual of a new term is that of the term after `assign_data(None)`, for every class, background and mask. | C243_dual_step_partial: the dual step of a new term of the l1 family or of the KL term is that of the term after `assign_data(None)`. | C243_l2_partial: the dual steps of a new l2 or weighted l2 term leave the dual as it is, whereas after `assign_data(None)` it is divided by two (for weights: by `1 + 1 / w`, and zero where the weight is zero). | C243_violated: a new l2 term has another dual step than the one with no data."
  },
  {
   "property": "C244",
   "status": "partial",
   "theorems": [
    "Verif.C244_sirt_partial",
    "Verif.C244_mlem_partial",
    "Verif.C244_sart_partial",
    "Verif.C244_fista_violated",
    "Verif.C244_pdhg_violated"
   ],
   "note": "C244_sirt_partial: `n + m` iterations give the volume of `m` iterations started from the result of `n` iterations, for every operator, data term, regularizers, masks, limits, and with or without tolerance. | C244_mlem_partial: the same, for masks of the volume with values 0 and 1. | C244_sart_partial: the same without tolerance, if both calls go through the projections in the same (random) order. | C244_fista_violated: two iterations followed by one iteration give 7/8, three iterations give more. | C244_pdhg_violated: one iteration followed by one iteration gives 11/36, two iterations give 7/18."
  },
  {
   "property": "C245",
   "status": "proved",
   "theorems": [
    "Verif.C245_sirt",
    "Verif.C245_mlem",
    "Verif.C245_pdhg",
    "Verif.C245_fista"
   ],
   "note": ""
  },
  {
   "property": "C246",
   "status": "partial",
   "theorems": [
    "Verif.XrfPool.C246_pool",
    "Verif.XrfPool.C246_misuse_is_recorded",
    "Verif.XrfPool.C246_projections",
    "Verif.XrfPool.C246_with_partial",
    "Verif.XrfPool.C246_with_violated"
   ],
   "note": "C246_with_partial: with one block at a time, however often, projections inside a block return, and outside the blocks no pool is left. | C246_with_violated: a threaded projector cannot be used without a block (the other projectors can), and after the end of a nested block it cannot be used in the rest of the outer block."
  },
  {
   "property": "C247",
   "status": "partial",
   "theorems": [
    "Verif.C247_sirt_violated",
    "Verif.C247_pdhg_violated",
    "Verif.C247_fista_violated",
    "Verif.C247_sart_violated",
    "Verif.C247_fbp_partial"
   ],
   "note": "C247_sirt_violated: if the task does not hand the test mask on, every cross-validation score is 0, the best possible. | C247_pdhg_violated: C247 is violated by PDHG. | C247_fista_violated: C247 is violated by FISTA. | C247_sart_violated: C247 is violated by SART, which has no test mask: all its scores are 0. | C247_fbp_partial: a result without iterations (that of FBP, src/corrct/solvers.py:443) is noticed."
  },
  {
   "property": "C248",
   "status": "partial",
   "theorems": [
    "Verif.C248_position_partial",
    "Verif.C248_accepted",
    "Verif.C248_atomic_violated",
    "Verif.C248_distances_violated"
   ],
   "note": "C248_position_partial: when the call returns, the new detector position of every angle is, whatever the old one was, its shift (plus the position of the rotation axis) along its U direction, plus in 3D the vertical shift (if given) along its V direction, plus its distance along Y; nothing else changes. | C248_atomic_violated: a call that raises can leave the detector at a wrong place. The default geometry with three directions (one per angle), a shift for one angle: it raises, and afterwards the detector is at the origin, although it was elsewhere. | C248_distances_violated: a geometry with one detector position refuses two distances for one shift, although its check accepts them (\"if detector positions are more than 1\"), after it has moved the detector."
  },
  {
   "property": "C249",
   "status": "partial",
   "theorems": [
    "Verif.C249_position_partial",
    "Verif.C249_accepted",
    "Verif.C249_last_counts",
    "Verif.C249_one_shift_violated"
   ],
   "note": "C249_position_partial: when the call returns, the horizontal position of the source of every angle is its U shift, the vertical one is in 3D its V shift if given (otherwise 0), and its Y coordinate is the old one; nothing else changes. | C249_one_shift_violated: a geometry with a source for each of two angles does not accept one shift for all of them (a geometry with one source does), and the failed call moves the source to the origin's Y coordinate."
  },
  {
   "property": "C250",
   "status": "partial",
   "theorems": [
    "Verif.C250_mlem_converges_partial",
    "Verif.C250_mlem_rate_partial",
    "Verif.C250_mlem_background_partial",
    "Verif.C250_small_data_violated"
   ],
   "note": "C250_mlem_converges_partial: the volumes returned by MLEM for more and more iterations converge, and the limit is a volume of maximal likelihood (among the non-negative ones that vanish where the start does), provided the expected counts stay above the division floor where counts were measured. | C250_mlem_rate_partial: the rate, for every volume of maximal likelihood: after `n` iterations the likelihood misses the maximum at most by the divergence of that volume from the start, divided by `n`; and each iteration brings the volume closer to it (in that divergence). | C250_mlem_background_partial: with a background of at least the division floor nothing else is needed. | C250_small_data_violated: one pixel, one voxel, a datum of half the division floor (`np.finfo(np.float32).eps`, about 1.2e-7): the unique volume of maximal likelihood is the datum, but the volumes converge to zero."
  },
  {
   "property": "C251",
   "status": "proved",
   "theorems": [
    "Verif.C251_solution_exists",
    "Verif.C251_sirt_converges",
    "Verif.C251_relaxation_two_alternates"
   ],
   "note": ""
  },
  {
   "property": "C252",
   "status": "partial",
   "theorems": [
    "Verif.C252_sart_monotone_partial",
    "Verif.C252_sart_converges_partial",
    "Verif.C252_uneven_violated",
    "Verif.C252_signed_violated"
   ],
   "note": "C252_sart_monotone_partial: with even weights, from the first iteration on, every iteration of SART brings the volume at least as close (in the distance weighted by `c`) to every admissible volume that reproduces the data. | C252_sart_converges_partial: SART on projections with even weights (see `EvenWeights`), without tolerance, relaxation between 0 and 2 (both excluded), for any start volume, data mask, limits and solution mask, and any order of the projections in which all of them appear: if some admissible volume reproduces the (not masked) data, the volumes returned for more and more iterations converge to such a volume. Missing: without even weights this is false (`C252_uneven_violated`), and so it is with negative weights (`C252_signed_violated`). | C252_uneven_violated: the data (1, 2) of the weights (1, 2) and (2, 1) are those of the volume (1, 0) and of no other, but SART (relaxation 1) returns (2/3, 2/3) for every positive number of iterations. | C252_signed_violated: C252 is false with negative weights, which SART sums up with their signs: one projection of one pixel with the weights 1 and -9/10, datum 1 (the datum of the volume (1, 0)). The residual of the volume returned after `n` iterations is -(-18)^n: the volumes diverge."
  },
  {
   "property": "C253",
   "status": "partial",
   "theorems": [
    "Verif.C253_label_partial",
    "Verif.C253_mlem_violated",
    "Verif.C253_mlem_background_partial",
    "Verif.C253_fbp_label"
   ],
   "note": "C253_label_partial: the result of SIRT, PDHG and FISTA (regularizers without array limits) carries a label that starts with the name of the solver and mentions the data term and every regularizer with its weight or limit. Missing: MLEM without background, see `C253_mlem_violated`; array limits, see C254. | C253_mlem_violated: every run without background has the empty label, so that its results cannot be told from anything. | C253_mlem_background_partial: named, with the background."
  },
  {
   "property": "C254",
   "status": "partial",
   "theorems": [
    "Verif.C254_array_limit_violated",
    "Verif.C254_scalar_limits_partial"
   ],
   "note": "C254_array_limit_violated: with a limit constraint whose limit is an array, as its documentation offers, SIRT, PDHG and FISTA raise `TypeError` while composing the label of the run, for every operator, data and options. | C254_scalar_limits_partial: with single-number limits (and all other regularizers) the label never makes a call fail: the call returns the volume that the iterations give, or their error."
  },
  {
   "property": "C255",
   "status": "partial",
   "theorems": [
    "Verif.C255_line_by_name_violated",
    "Verif.C255_LB1_violated",
    "Verif.C255_line_by_name_partial"
   ],
   "note": "C255_line_by_name_violated: The name of a line selects that line only: asking for the line `LB1` gives `LB10`, `LB15` and `LB17` too. | C255_LB1_violated: The lines that `LB1` gives. | C255_line_by_name_partial: For any table of distinct names, the name of a line selects that line only if and only if no other name of the table continues it (in the table of the code, all but `LB1`)."
  },
  {
   "property": "C256",
   "status": "proved",
   "theorems": [
    "Verif.DataFormat.C256_axes_by_format",
    "Verif.DataFormat.C256_default_volume"
   ],
   "note": ""
  },
  {
   "property": "C257",
   "status": "partial",
   "theorems": [
    "Verif.DataFormat.C257_parallel_detector",
    "Verif.DataFormat.C257_cone_detector",
    "Verif.DataFormat.C257_default_shapes_agree",
    "Verif.DataFormat.C257_documented_type_violated",
    "Verif.DataFormat.C257_types_partial",
    "Verif.DataFormat.C257_rotation_directions"
   ],
   "note": "C257_documented_type_violated: With the type written as in the documentation (`\"parallel3d\"`), a geometry of three dimensions is returned whose name is none of the types known to the package, and whose detector has no rows axis although the data have one: only `\"3d\"` and `\"2d\"` work. | C257_types_partial: see `C257_parallel_detector`: for the types `\"3d\"` and `\"2d\"` the number of dimensions is that of the type and the detector has that many axes less one."
  },
  {
   "property": "C258",
   "status": "partial",
   "theorems": [
    "Verif.DataFormat.C258_negative_volume_violated",
    "Verif.DataFormat.C258_sizes_partial"
   ],
   "note": "C258_negative_volume_violated: Padding by more than half the width of the data does not raise: the volume gets a negative size. | C258_sizes_partial: for paddings whose sum does not exceed the width of the data no size is negative, and no voxel is lost or added: the width times the voxel size is the number of unpadded columns."
  },
  {
   "property": "C259",
   "status": "partial",
   "theorems": [
    "Verif.WaveletBasis.C259_symmetric_partial",
    "Verif.WaveletBasis.C259_zero_mean_partial",
    "Verif.WaveletBasis.C259_normalised",
    "Verif.WaveletBasis.C259_few_pixels_violated"
   ],
   "note": "C259_symmetric_partial: For every symmetric wavelet (filters of odd length, at most `2 s + 1`) and as long as the number of pixels exceeds `(2 s + 1) 3^(level - 1)`, the basis has one detail function per level and one approximation, and each of them is symmetric around the first pixel: `r[j] = r[n - j]`, so that its spectrum is real. | C259_zero_mean_partial: Under the same conditions, if the high-pass filter has no mean, neither has any of the detail functions: they do not change the mean of the data. | C259_few_pixels_violated: With few pixels the functions of the higher levels do not fit, and lose symmetry and zero mean (no error is raised)."
  },
  {
   "property": "C260",
   "status": "partial",
   "theorems": [
    "Verif.C260_partial",
    "Verif.C260_what_happens",
    "Verif.C260_violated"
   ],
   "note": "C260_partial: If every background value is an integer, or all the data ever assigned are floating point numbers, then after any history of assignments of data of any numeric types the data term is the one of exact arithmetic: the types have no influence. (Missing: fractional backgrounds with integer data, `C260_violated`.) | C260_violated: \"The residual of the data is the data minus the projection and the background, whatever the types of the data, now or before\" is false: with a background of one half and integer data equal to the projection plus nothing, the residual is zero instead of minus one half; and it stays so after the integer data were replaced by floating point data."
  },
  {
   "property": "C261",
   "status": "partial",
   "theorems": [
    "Verif.C261_partial",
    "Verif.C261_violated",
    "Verif.C261_pdhg_violated",
    "Verif.C261_sart_violated"
   ],
   "note": "C261_partial: With floating point data, whatever the types of the masks (and, for PDHG and FISTA, of the initial volume), the solvers give what exact arithmetic gives; so do SIRT, MLEM and the preconditioned FISTA with integer data, if the background is one of integers, there is no test mask, and the data mask is of no higher type than the data. (Missing: PDHG and un-preconditioned FISTA with integer data, fractional masks or test masks with integer data, integer initial volumes of SIRT and MLEM: `C261_violated`.) | C261_violated: Numbers given as integers are refused where the same numbers given as floating point numbers are accepted. For all operators, data and arguments: * PDHG refuses every integer data set, if it is to do at least one iteration; * FISTA refuses every integer data set without preconditioner (or if the operator has no `absolute`); * SIRT, MLEM and FISTA refuse integer data with a data mask of floating point numbers; * the cross-validation of integer data with a test mask of floating point numbers — such as those made by `create_random_test_mask` by default — is refused by SIRT and MLEM, and so is that of unsigned data with any test mask of truth values; * SIRT and MLEM refuse every integer initial volume, if they are to do at least one iteration. | C261_pdhg_violated: For every matrix that is not zero and every data set, PDHG (with the diagonal step sizes and the least squares term, without regularizer) returns a volume if the data are floating point numbers, and fails if the same numbers are integers. | C261_sart_violated: SART refuses integer data with a data mask of floating point numbers, and every integer initial volume if it has anything to do."
  },
  {
   "property": "C262",
   "status": "partial",
   "theorems": [
    "Verif.C262_partial",
    "Verif.C262_violated"
   ],
   "note": "C262_partial: The residual of SART for data of a type is the one of exact arithmetic, if the data are floating point numbers, or if the projections are integers (not below unsigned data); with floating point data the whole call is the one of exact arithmetic, for every mask, tolerance and floating point initial volume. (Missing: fractional projections with integer data, projections below unsigned data, `C262_violated`.) | C262_violated: \"The residual is the norm of the projections minus the data, whatever the type of the data\" is false for one angle, one pixel and the identity: the residual of integer data 0 for the volume 1/2 is 0 instead of 1/2 (so that every positive tolerance stops the iterations), and the residual of unsigned data for a volume that is too low by one is the largest number of the type instead of 1 (so that no useful tolerance stops them)."
  },
  {
   "property": "C263",
   "status": "partial",
   "theorems": [
    "Verif.C263_partial",
    "Verif.C263_violated"
   ],
   "note": "C263_partial: The denoised floating point image is that of exact arithmetic. (Missing: integer images, `C263_violated`.) | C263_violated: No integer image can be denoised: for every image, blur, weights of the pixels, regularizer and positive number of iterations the call fails, also where it gives an image for the same numbers in floating point (here: one pixel, no penalty)."
  },
  {
   "property": "C264",
   "status": "partial",
   "theorems": [
    "Verif.C264_partial",
    "Verif.C264_order_zero",
    "Verif.C264_violated"
   ],
   "note": "C264_partial: If the averages of the pixels of the margins are values of a polynomial of at most the requested order (positive and smaller than the number of these pixels), then the background is that polynomial at all pixels, whatever the data between the margins — for floating point data, or if the values of the polynomial are integers. Margins that overlap are refused, and if one margin is empty, the background is that of order zero. (Missing: integer data and a polynomial with fractional values, `C264_violated`.) | C264_violated: For integer data the same claim fails: margins of one pixel with the values 0 and 1, order one, three pixels. The straight line has the value 1/2 in the middle, the background is 0 there."
  },
  {
   "property": "C265",
   "status": "partial",
   "theorems": [
    "Verif.C265_partial",
    "Verif.C265_violated"
   ],
   "note": "C265_partial: Pre-processing of floating point images is that of exact arithmetic; integer projections that are shifted by whole pixels are as well. (Missing: SNIP backgrounds of integer images, and shifts of integer projections by fractions of a pixel: `C265_violated`.) | C265_violated: The SNIP background refuses every integer image, of any size, for any window and number of iterations (even none); and a shift by half a pixel of the integer projection `0, 1, 2, …` does not give the averages of neighbours, but `1, 2, …` (it did not move)."
  },
  {
   "property": "C266",
   "status": "partial",
   "theorems": [
    "Verif.C266_shapes_violated",
    "Verif.C266_exact_solution_violated",
    "Verif.C266_symmetric_partial"
   ],
   "note": "C266_shapes_violated: with a tolerance, SART raises `ValueError` for every data set whose numbers of angles and of pixels differ and are both larger than one (for every operator, volume, masks and number of iterations), except where it already fails while computing the step sizes; it does so for no other shape, and for no shape without tolerance. | C266_exact_solution_violated: where the call is accepted, the residual that decides when to stop compares the projections with the transposed data. Of a volume that reproduces the data exactly it is, for as many angles as pixels, the distance of the data from their transpose; for one angle, the distances of all pixels from each other. | C266_symmetric_partial: the recorded residual is the distance from the data (whatever the mask) if there are as many angles as pixels and the projections and the data are unchanged when angles and pixels are exchanged; in particular for one angle and one pixel. (Missing: everything else, `C266_shapes_violated`, `C266_exact_solution_violated`.)"
  },
  {
   "property": "C267",
   "status": "partial",
   "theorems": [
    "Verif.C267_vtv_converges_partial",
    "Verif.C267_vtv_converges_limits_partial",
    "Verif.C267_vtv_violated"
   ],
   "note": "C267_vtv_converges_partial: PDHG with vectorial total variation with the exponents 1 and 2, no reference, and the attribute `pad_mode` set to zero or periodic padding, for every matrix, volume shape, number of channels, weight and convex data term: the iterates converge to a solution of the problem \"data term plus weight times the sum of the norms of the pixels' derivatives\". (Missing: the padding that the constructor sets, `C267_vtv_violated`; infinite exponents, `C144_vtv_infinite_violated`.) | C267_vtv_converges_limits_partial: **C267 (partial)**, both limits given and a data term that is finite everywhere: a solution exists, so that no hypothesis about it is needed. | C267_vtv_violated: With the padding that the constructor sets (\"edge\"), for every pair of exponents (the default included) and the same two-pixel image of one channel (where all point-wise norms are the absolute value of the one derivative): the problem has exactly the solution (1, 9), but PDHG returns 0 at the first pixel after any number of iterations, so that its volumes do not converge to it."
  },
  {
   "property": "C268",
   "status": "proved",
   "theorems": [
    "Verif.C268_vectorial",
    "Verif.C268_nuclear",
    "Verif.C268_huber",
    "Verif.C268_converges_vectorial",
    "Verif.C268_converges_vectorial_limits",
    "Verif.C268_converges_nuclear",
    "Verif.C268_converges_nuclear_limits",
    "Verif.C268_converges_huber",
    "Verif.C268_converges_huber_limits"
   ],
   "note": ""
  },
  {
   "property": "C269",
   "status": "proved",
   "theorems": [
    "Verif.C269_sirt",
    "Verif.C269_fista",
    "Verif.C269_pdhg",
    "Verif.C269_sart",
    "Verif.C269_mlem"
   ],
   "note": ""
  },
  {
   "property": "C270",
   "status": "proved",
   "theorems": [
    "Verif.C270_sirt_stable"
   ],
   "note": ""
  },
  {
   "property": "C271",
   "status": "proved",
   "theorems": [
    "Verif.C271_pdhg",
    "Verif.C271_sirt",
    "Verif.C271_regs"
   ],
   "note": ""
  },
  {
   "property": "C272",
   "status": "proved",
   "theorems": [
    "Verif.C272_matrix",
    "Verif.C272_sirt",
    "Verif.C272_pdhg",
    "Verif.C272_fista",
    "Verif.C272_mlem"
   ],
   "note": ""
  },
  {
   "property": "C273",
   "status": "proved",
   "theorems": [
    "Verif.C273_sart",
    "Verif.C273_sirt_parts",
    "Verif.C273_pdhg_parts",
    "Verif.C273_fista_parts",
    "Verif.C273_mlem_parts",
    "Verif.C273_matrix",
    "Verif.C273_sirt",
    "Verif.C273_pdhg",
    "Verif.C273_fista",
    "Verif.C273_mlem"
   ],
   "note": ""
  },
  {
   "property": "C274",
   "status": "proved",
   "theorems": [
    "Verif.C274_sirt",
    "Verif.C274_fista",
    "Verif.C274_pdhg",
    "Verif.C274_matrix"
   ],
   "note": ""
  },
  {
   "property": "C275",
   "status": "partial",
   "theorems": [
    "Verif.C275_sirt",
    "Verif.C275_fista",
    "Verif.C275_pdhg",
    "Verif.C275_regs",
    "Verif.C275_l1",
    "Verif.C275_tv",
    "Verif.C275_mlem_violated"
   ],
   "note": "C275_mlem_violated: MLEM violates it: projections below `np.finfo(np.float32).eps` are replaced by that number (src/corrct/solvers.py:795). One voxel seen by one pixel with the value 1 is reconstructed as 1; the same measurement in a unit in which it is `d < eps` is reconstructed as `d (d/eps)^(n-1)` after `n` iterations, which tends to 0."
  },
  {
   "property": "C276",
   "status": "proved",
   "theorems": [
    "Verif.C276_sirt",
    "Verif.C276_fista",
    "Verif.C276_pdhg",
    "Verif.C276_mlem",
    "Verif.C276_sart",
    "Verif.C276_fbp",
    "Verif.C276_tolerance_sirt",
    "Verif.C276_tolerance_fista",
    "Verif.C276_tolerance_pdhg",
    "Verif.C276_tolerance_mlem",
    "Verif.C276_tolerance_sart",
    "Verif.C276_restart"
   ],
   "note": ""
  },
  {
   "property": "C277",
   "status": "proved",
   "theorems": [
    "Verif.C277_superposition",
    "Verif.C277_unit"
   ],
   "note": ""
  },
  {
   "property": "C278",
   "status": "proved",
   "theorems": [
    "Verif.C278_lower",
    "Verif.C278_upper"
   ],
   "note": ""
  },
  {
   "property": "C279",
   "status": "partial",
   "theorems": [
    "Verif.C279_duals_partial",
    "Verif.C279_push_partial",
    "Verif.C279_violated"
   ],
   "note": "C279_duals_partial: The duals of the singular values over any sequence of volumes start at 0, never decrease and never exceed the weight. | C279_push_partial: The push after a dual step for `x` has the singular vectors of `x`, with `√(k r)` times the duals as singular values: once the duals have reached the weight it is the gradient of `w √(k r)` times the nuclear norm. | C279_violated: The regularizer violates it: one channel of one pixel, measured directly with the value `b`, and a weight `w > |b|`. The minimiser of half the squared misfit plus `w` times the nuclear norm (the absolute value) is 0; PDHG from any start `c` with `|c| > |b|` does not converge to anything. (The duals of the singular values only ever grow: they are the sums of the singular values, whatever the signs of the relaxed volumes.)"
  },
  {
   "property": "C280",
   "status": "proved",
   "theorems": [
    "Verif.C280_start",
    "Verif.C280_noise"
   ],
   "note": ""
  },
  {
   "property": "C281",
   "status": "proved",
   "theorems": [
    "Verif.C281_settles"
   ],
   "note": ""
  },
  {
   "property": "C282",
   "status": "proved",
   "theorems": [
    "Verif.C282_sart_stable"
   ],
   "note": ""
  },
  {
   "property": "C283",
   "status": "proved",
   "theorems": [
    "Verif.C283_sirt_geometric",
    "Verif.C283_sirt_solution"
   ],
   "note": ""
  },
  {
   "property": "C284",
   "status": "partial",
   "theorems": [
    "Verif.C284_sirt_regs_partial",
    "Verif.C284_sirt_regs_gap",
    "Verif.C284_l1_lipschitz",
    "Verif.C284_tv_lipschitz",
    "Verif.C284_sirt_regs_violated"
   ],
   "note": "C284_sirt_regs_partial: SIRT with regularizers (l2 data term, any list of convex regularizers, limits, masks, relaxation below 2): if the smoothed problem has a solution (it has one when both limits are given), the volumes converge to one, whatever the starting volume; and whenever the volumes converge, their limit is such a solution. Missing: the limit is in general not a solution of the problem with the penalties themselves (`C284_sirt_regs_violated`). | C284_sirt_regs_violated: the limit is not a solution of the problem with the penalty itself. One voxel measured as 1, and the l1 penalty with weight 1: every run of at least one iteration returns 1/2, the solution is 0."
  },
  {
   "property": "C285",
   "status": "proved",
   "theorems": [
    "Verif.C285_sirt_regs_rate"
   ],
   "note": ""
  },
  {
   "property": "C286",
   "status": "proved",
   "theorems": [
    "Verif.C286_sirt_regs_stable"
   ],
   "note": ""
  }
 ]
}