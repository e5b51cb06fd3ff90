{
 "claims": [
  {
   "property": "C01",
   "status": "proved",
   "theorems": [
    "SST.Spatial.C01_zone_is_band",
    "SST.Spatial.C01_zone_at_180",
    "SST.Spatial.C01_zone_mono"
   ],
   "note": ""
  },
  {
   "property": "C02",
   "status": "proved",
   "theorems": [
    "SST.Spatial.C02_array_is_elementwise",
    "SST.Spatial.C02_series_same_rows",
    "SST.Spatial.C02_empty",
    "SST.Spatial.C02_length_mismatch",
    "SST.Spatial.C02_inverse_array_is_elementwise"
   ],
   "note": ""
  },
  {
   "property": "C03",
   "status": "proved",
   "theorems": [
    "SST.Spatial.C03_roundtrip",
    "SST.Spatial.C03_roundtrip_array"
   ],
   "note": ""
  },
  {
   "property": "C04",
   "status": "partial",
   "theorems": [
    "SST.Spatial.C04_lcs_roundtrip_partial",
    "SST.Spatial.C04_violated_explicit_zone",
    "SST.Spatial.C04_violated_across_zones"
   ],
   "note": "The full claim (every zone argument) is false of the code; proved when target and origin share zone and hemisphere and the explicit zone, if any, is the origin's own; two counterexample theorems show the failures."
  },
  {
   "property": "C05",
   "status": "proved",
   "theorems": [
    "SST.Spatial.C05_origin_is_zero",
    "SST.Spatial.C05_origin_independent",
    "SST.Spatial.C05_array_is_elementwise"
   ],
   "note": ""
  },
  {
   "property": "C06",
   "status": "partial",
   "theorems": [
    "SST.Spatial.C06_zone_from_origin_partial",
    "SST.Spatial.C06_explicit_zone",
    "SST.Spatial.C06_violated_across_zones"
   ],
   "note": "False of the code across a zone boundary (counterexample proved); proved when both longitudes lie in one zone."
  },
  {
   "property": "C07",
   "status": "proved",
   "theorems": [
    "SST.Spatial.C07_affine",
    "SST.Spatial.C07_injective",
    "SST.Spatial.C07_methods"
   ],
   "note": ""
  },
  {
   "property": "C08",
   "status": "proved",
   "theorems": [
    "SST.Spatial.C08_rect_pol_rect",
    "SST.Spatial.C08_pol_rect_pol",
    "SST.Spatial.C08_range",
    "SST.Spatial.C08_negative_radius"
   ],
   "note": ""
  },
  {
   "property": "C09",
   "status": "proved",
   "theorems": [
    "SST.Spatial.C09_isometry",
    "SST.Spatial.C09_dot_angle",
    "SST.Spatial.C09_group",
    "SST.Spatial.C09_polar",
    "SST.Spatial.C09_many"
   ],
   "note": ""
  },
  {
   "property": "C10",
   "status": "proved",
   "theorems": [
    "SST.Spatial.C10_projection_value",
    "SST.Spatial.C10_direction_only",
    "SST.Spatial.C10_linear",
    "SST.Spatial.C10_bounded",
    "SST.Spatial.C10_pythagoras",
    "SST.Spatial.C10_zero_direction"
   ],
   "note": ""
  },
  {
   "property": "C11",
   "status": "proved",
   "theorems": [
    "SST.Spatial.C11_value",
    "SST.Spatial.C11_translation",
    "SST.Spatial.C11_reference_free",
    "SST.Spatial.C11_reference_zero"
   ],
   "note": ""
  },
  {
   "property": "C12",
   "status": "proved",
   "theorems": [
    "SST.Spatial.C12_solves",
    "SST.Spatial.C12_parallel_not_finite",
    "SST.Spatial.C12_equivariant",
    "SST.Spatial.C12_rows"
   ],
   "note": ""
  },
  {
   "property": "C13",
   "status": "proved",
   "theorems": [
    "SST.Spatial.C13_entries",
    "SST.Spatial.C13_pseudometric",
    "SST.Spatial.C13_same_time",
    "SST.Spatial.C13_same_site",
    "SST.Spatial.C13_errors"
   ],
   "note": ""
  },
  {
   "property": "C14",
   "status": "proved",
   "theorems": [
    "SST.Spatial.C14_translation",
    "SST.Spatial.C14_time_origin",
    "SST.Spatial.C14_zero_along_drift"
   ],
   "note": ""
  },
  {
   "property": "C15",
   "status": "proved",
   "theorems": [
    "SST.Props.Field.C15_remap_cells",
    "SST.Props.Field.C15_unknown_source",
    "SST.Props.Field.C15_unknown_target"
   ],
   "note": ""
  },
  {
   "property": "C16",
   "status": "proved",
   "theorems": [
    "SST.Props.Field.C16_rows_permuted",
    "SST.Props.Field.C16_inverse",
    "SST.Props.Field.C16_identity"
   ],
   "note": ""
  },
  {
   "property": "C17",
   "status": "proved",
   "theorems": [
    "SST.Props.Field.C17_cascade_law",
    "SST.Props.Field.C17_cascade_pairs",
    "SST.Props.Field.C17_cascade_error",
    "SST.Props.Field.C17_assoc",
    "SST.Props.Field.C17_unit"
   ],
   "note": ""
  },
  {
   "property": "C18",
   "status": "proved",
   "theorems": [
    "SST.Props.Assign.C18_optimal_bijection"
   ],
   "note": ""
  },
  {
   "property": "C19",
   "status": "proved",
   "theorems": [
    "SST.Props.Assign.C19_nan_fixed"
   ],
   "note": ""
  },
  {
   "property": "C20",
   "status": "proved",
   "theorems": [
    "SST.Props.Assign.C20_exact_recovery"
   ],
   "note": ""
  },
  {
   "property": "C21",
   "status": "partial",
   "theorems": [
    "SST.Props.Assign.C21_violated_label_order",
    "SST.Props.Assign.C21_nan_branch_order_partial"
   ],
   "note": "The label-order independence is false of the code when predictions are NaN-free (counterexample proved); the NaN branch is proved order-independent."
  },
  {
   "property": "C22",
   "status": "proved",
   "theorems": [
    "SST.Props.Predict.C22_coherence_exact",
    "SST.Props.Predict.C22_global_exact",
    "SST.Props.Predict.C22_all_shrinks",
    "SST.Props.Predict.C22_distance_shrinks"
   ],
   "note": ""
  },
  {
   "property": "C23",
   "status": "proved",
   "theorems": [
    "SST.Props.Predict.C23_coherence",
    "SST.Props.Predict.C23_global_coherence",
    "SST.Props.Predict.C23_distance",
    "SST.Props.Predict.C23_all_and_invalid"
   ],
   "note": ""
  },
  {
   "property": "C24",
   "status": "partial",
   "theorems": [
    "SST.Props.Predict.C24_violated_correct_entity_nan",
    "SST.Props.Predict.C24_violated_one_zero_error",
    "SST.Props.Predict.C24_near_plan_partial"
   ],
   "note": "False of the code: zero mean error in either direction gives NaN (proved for every layout); for nonzero errors the prediction is finite and within an explicit bound of the plan position."
  },
  {
   "property": "C25",
   "status": "proved",
   "theorems": [
    "SST.Props.Cmv.C25_pairs",
    "SST.Props.Cmv.C25_count",
    "SST.Props.Cmv.C25_distinct"
   ],
   "note": ""
  },
  {
   "property": "C26",
   "status": "proved",
   "theorems": [
    "SST.Props.Cmv.C26_good_iff"
   ],
   "note": ""
  },
  {
   "property": "C27",
   "status": "proved",
   "theorems": [
    "SST.Props.Cmv.C27_last_failing",
    "SST.Props.Cmv.C27_same_site",
    "SST.Props.Cmv.C27_rows"
   ],
   "note": ""
  },
  {
   "property": "C28",
   "status": "proved",
   "theorems": [
    "SST.Props.Cmv.C28_validation",
    "SST.Props.Cmv.C28_unknown_method"
   ],
   "note": ""
  },
  {
   "property": "C29",
   "status": "partial",
   "theorems": [
    "SST.Props.Cmv.C29_violated_shared_options",
    "SST.Props.Cmv.C29_shared_options_partial"
   ],
   "note": "False of the code: gagne after jamaly with the same dictionary raises (proved for every valid dictionary); every sequence without a gagne call after a jamaly call is proved equal to fresh copies."
  },
  {
   "property": "C30",
   "status": "proved",
   "theorems": [
    "SST.Props.Cmv.C30_range",
    "SST.Props.Cmv.C30_vector"
   ],
   "note": ""
  },
  {
   "property": "C31",
   "status": "proved",
   "theorems": [
    "SST.Props.Cmv.C31_null_result",
    "SST.Props.Cmv.C31_only_good"
   ],
   "note": ""
  },
  {
   "property": "C32",
   "status": "proved",
   "theorems": [
    "SST.Props.Cmv.C32_gagne_threshold"
   ],
   "note": ""
  },
  {
   "property": "C33",
   "status": "proved",
   "theorems": [
    "SST.Props.Cmv.C33_gagne_exact"
   ],
   "note": ""
  },
  {
   "property": "C34",
   "status": "proved",
   "theorems": [
    "SST.Props.Cmv.C34_objective",
    "SST.Props.Cmv.C34_jamaly_exact"
   ],
   "note": ""
  },
  {
   "property": "C35",
   "status": "proved",
   "theorems": [
    "SST.Props.Cmv.C35_indices",
    "SST.Props.Cmv.C35_zero_vector",
    "SST.Props.Cmv.C35_scale_invariant",
    "SST.Props.Cmv.C35_rotation_invariant",
    "SST.Props.Cmv.C35_optimal"
   ],
   "note": ""
  },
  {
   "property": "C36",
   "status": "proved",
   "theorems": [
    "SST.Props.Cmv.C36_names",
    "SST.Props.Cmv.C36_case_insensitive"
   ],
   "note": ""
  },
  {
   "property": "C37",
   "status": "proved",
   "theorems": [
    "SST.Props.Corr.C37_bounded",
    "SST.Props.Corr.C37_general_bound",
    "SST.Props.Corr.C37_pearson",
    "SST.Props.Corr.C37_self",
    "SST.Props.Corr.C37_constant",
    "SST.Props.Corr.C37_energy"
   ],
   "note": ""
  },
  {
   "property": "C38",
   "status": "proved",
   "theorems": [
    "SST.Props.Corr.C38_entries",
    "SST.Props.Corr.C38_swap",
    "SST.Props.Corr.C38_linear"
   ],
   "note": ""
  },
  {
   "property": "C39",
   "status": "proved",
   "theorems": [
    "SST.Props.Corr.C39_fft_none",
    "SST.Props.Corr.C39_fft_coeff"
   ],
   "note": ""
  },
  {
   "property": "C40",
   "status": "proved",
   "theorems": [
    "SST.Props.Corr.C40_delays",
    "SST.Props.Corr.C40_xcorr",
    "SST.Props.Corr.C40_antisymm"
   ],
   "note": ""
  },
  {
   "property": "C41",
   "status": "proved",
   "theorems": [
    "SST.Props.Corr.C41_xcorr",
    "SST.Props.Corr.C41_delays",
    "SST.Props.Corr.C41_none"
   ],
   "note": ""
  },
  {
   "property": "C42",
   "status": "proved",
   "theorems": [
    "SST.Props.Corr.C42_delay",
    "SST.Props.Corr.C42_total",
    "SST.Props.Corr.C42_xcorr",
    "SST.Props.Corr.C42_xcorr_none"
   ],
   "note": ""
  },
  {
   "property": "C43",
   "status": "proved",
   "theorems": [
    "SST.Props.Tf.C43_range",
    "SST.Props.Tf.C43_single",
    "SST.Props.Tf.C43_scaled",
    "SST.Props.Tf.C43_symmetric"
   ],
   "note": ""
  },
  {
   "property": "C44",
   "status": "proved",
   "theorems": [
    "SST.Props.Tf.C44_self",
    "SST.Props.Tf.C44_linear",
    "SST.Props.Tf.C44_multiple"
   ],
   "note": ""
  },
  {
   "property": "C45",
   "status": "proved",
   "theorems": [
    "SST.Props.Tf.C45_mask",
    "SST.Props.Tf.C45_multi",
    "SST.Props.Tf.C45_fit",
    "SST.Props.Tf.C45_diff",
    "SST.Props.Tf.C45_least_squares",
    "SST.Props.Tf.C45_circular"
   ],
   "note": ""
  },
  {
   "property": "C46",
   "status": "proved",
   "theorems": [
    "SST.Props.Tf.C46_unwrap",
    "SST.Props.Tf.C46_identity",
    "SST.Props.Tf.C46_recovers",
    "SST.Props.Tf.C46_nan"
   ],
   "note": ""
  },
  {
   "property": "C47",
   "status": "proved",
   "theorems": [
    "SST.Props.Tf.C47_modulus",
    "SST.Props.Tf.C47_group",
    "SST.Props.Tf.C47_roundtrip"
   ],
   "note": ""
  },
  {
   "property": "C48",
   "status": "proved",
   "theorems": [
    "SST.Props.Filters.C48_grid",
    "SST.Props.Filters.C48_square",
    "SST.Props.Filters.C48_triangle",
    "SST.Props.Filters.C48_gaussian",
    "SST.Props.Filters.C48_invalid",
    "SST.Props.Filters.C48_order",
    "SST.Props.Filters.C48_one_sample"
   ],
   "note": ""
  },
  {
   "property": "C49",
   "status": "proved",
   "theorems": [
    "SST.Props.Cam.C49_dc",
    "SST.Props.Cam.C49_passive",
    "SST.Props.Cam.C49_hermitian",
    "SST.Props.Cam.C49_reverse",
    "SST.Props.Cam.C49_scale"
   ],
   "note": ""
  },
  {
   "property": "C50",
   "status": "partial",
   "theorems": [
    "SST.Props.Cam.C50_symmetric_partial",
    "SST.Props.Cam.C50_violated_odd"
   ],
   "note": "False of the code for odd extents (proved for all of them); proved for the grid -N dx/2 .. N dx/2 - dx."
  },
  {
   "property": "C51",
   "status": "proved",
   "theorems": [
    "SST.Props.Apply.C51_unity",
    "SST.Props.Apply.C51_linear",
    "SST.Props.Apply.C51_mean",
    "SST.Props.Apply.C51_range"
   ],
   "note": ""
  },
  {
   "property": "C52",
   "status": "proved",
   "theorems": [
    "SST.Props.Apply.C52_value",
    "SST.Props.Apply.C52_decreasing",
    "SST.Props.Apply.C52_cutoff",
    "SST.Props.Apply.C52_area"
   ],
   "note": ""
  },
  {
   "property": "C53",
   "status": "proved",
   "theorems": [
    "SST.Props.Tf.C53_exact",
    "SST.Props.Tf.C53_magnitude",
    "SST.Props.Tf.C53_range",
    "SST.Props.Tf.C53_order"
   ],
   "note": ""
  },
  {
   "property": "C54",
   "status": "proved",
   "theorems": [
    "SST.Props.Apply.C54_blank",
    "SST.Props.Apply.C54_fft",
    "SST.Props.Apply.C54_empty"
   ],
   "note": ""
  },
  {
   "property": "C55",
   "status": "proved",
   "theorems": [
    "SST.Props.Stats.C55_inequalities",
    "SST.Props.Stats.C55_zero_iff",
    "SST.Props.Stats.C55_symmetry",
    "SST.Props.Stats.C55_triangle"
   ],
   "note": ""
  },
  {
   "property": "C56",
   "status": "proved",
   "theorems": [
    "SST.Props.Stats.C56_offset",
    "SST.Props.Stats.C56_scale",
    "SST.Props.Stats.C56_order"
   ],
   "note": ""
  },
  {
   "property": "C57",
   "status": "proved",
   "theorems": [
    "SST.Props.Ramps.C57_maximum",
    "SST.Props.Ramps.C57_bounds",
    "SST.Props.Ramps.C57_offset",
    "SST.Props.Ramps.C57_scale",
    "SST.Props.Ramps.C57_pct"
   ],
   "note": ""
  },
  {
   "property": "C58",
   "status": "proved",
   "theorems": [
    "SST.Props.Ramps.C58_zero_iff",
    "SST.Props.Ramps.C58_ends",
    "SST.Props.Ramps.C58_subadditive",
    "SST.Props.Ramps.C58_affine",
    "SST.Props.Ramps.C58_concat",
    "SST.Props.Ramps.C58_pct_type",
    "SST.Props.Ramps.C58_blanking",
    "SST.Props.Ramps.C58_subsampling",
    "SST.Props.Ramps.C58_reversal",
    "SST.Props.Ramps.C58_tau"
   ],
   "note": ""
  },
  {
   "property": "C59",
   "status": "proved",
   "theorems": [
    "SST.Props.Vi.C59_bounds",
    "SST.Props.Vi.C59_self",
    "SST.Props.Vi.C59_monotone",
    "SST.Props.Vi.C59_line",
    "SST.Props.Vi.C59_norm",
    "SST.Props.Vi.C59_degenerate"
   ],
   "note": ""
  },
  {
   "property": "C60",
   "status": "partial",
   "theorems": [
    "SST.Props.Vi.C60_groups_partial",
    "SST.Props.Vi.C60_groups_vi_partial",
    "SST.Props.Vi.C60_truncation",
    "SST.Props.Vi.C60_violated_half_second",
    "SST.Props.Vi.C60_averaging"
   ],
   "note": "False of the code when tau*dt is not a whole number of seconds (counterexample; the truncated grouping is proved instead); proved otherwise."
  },
  {
   "property": "C61",
   "status": "proved",
   "theorems": [
    "SST.Props.Quantile.C61_value",
    "SST.Props.Quantile.C61_noninterference",
    "SST.Props.Quantile.C61_causal",
    "SST.Props.Quantile.C61_first_days",
    "SST.Props.Quantile.C61_errors"
   ],
   "note": ""
  },
  {
   "property": "C62",
   "status": "proved",
   "theorems": [
    "SST.Props.Quantile.C62_range",
    "SST.Props.Quantile.C62_monotone",
    "SST.Props.Quantile.C62_extremes"
   ],
   "note": ""
  },
  {
   "property": "C63",
   "status": "partial",
   "theorems": [
    "SST.Props.Quantile.C63_series_partial",
    "SST.Props.Quantile.C63_frame_partial",
    "SST.Props.Quantile.C63_violated_frame"
   ],
   "note": "False of the code for DataFrames with a maximum other than 2 (counterexample); proved for Series and for frames with maximum 2."
  },
  {
   "property": "C64",
   "status": "proved",
   "theorems": [
    "SST.Props.CloudRandom.C64_bounds",
    "SST.Props.CloudRandom.C64_corners",
    "SST.Props.CloudRandom.C64_identity"
   ],
   "note": ""
  },
  {
   "property": "C65",
   "status": "partial",
   "theorems": [
    "SST.Props.CloudRandom.C65_vs_partial",
    "SST.Props.CloudRandom.C65_vs_ends",
    "SST.Props.CloudRandom.C65_violated_large",
    "SST.Props.CloudRandom.C65_wavelet",
    "SST.Props.CloudRandom.C65_stack",
    "SST.Props.CloudRandom.C65_normalize"
   ],
   "note": "False of the code for vs > 180 (all weights NaN, proved); everything else proved."
  },
  {
   "property": "C66",
   "status": "partial",
   "theorems": [
    "SST.Props.CloudMask.C66_distinct",
    "SST.Props.CloudMask.C66_within_one_cell",
    "SST.Props.CloudMask.C66_large_accepted",
    "SST.Props.CloudMask.C66_accepted",
    "SST.Props.CloudMask.C66_range",
    "SST.Props.CloudMask.C66_violated_small"
   ],
   "note": "False of the code for small fields (AssertionError, proved for every five distinct values); the exact count, the acceptance threshold and the accepted masks are proved."
  },
  {
   "property": "C67",
   "status": "partial",
   "theorems": [
    "SST.Props.CloudMask.C67_edge_borders",
    "SST.Props.CloudMask.C67_complement",
    "SST.Props.CloudMask.C67_border_is_edge",
    "SST.Props.CloudMask.C67_violated_isolated",
    "SST.Props.CloudMask.C67_broadened",
    "SST.Props.CloudMask.C67_broadened_interior",
    "SST.Props.CloudMask.C67_uniform"
   ],
   "note": "The converse is false of the code (one-cell clouds, proved for every mask); everything else proved."
  },
  {
   "property": "C68",
   "status": "proved",
   "theorems": [
    "SST.Props.CloudScale.C68_clear_edge",
    "SST.Props.CloudScale.C68_mean"
   ],
   "note": ""
  },
  {
   "property": "C69",
   "status": "partial",
   "theorems": [
    "SST.Props.CloudScale.C69_mean",
    "SST.Props.CloudScale.C69_clear",
    "SST.Props.CloudScale.C69_range_partial",
    "SST.Props.CloudScale.C69_violated_outlier",
    "SST.Props.CloudScale.C69_violated_above_one"
   ],
   "note": "False of the code for outliers and for the bound 1 (counterexamples); mean and clear cells proved, ranges proved without outliers."
  },
  {
   "property": "C70",
   "status": "proved",
   "theorems": [
    "SST.Props.CloudTs.C70_values",
    "SST.Props.CloudTs.C70_shift",
    "SST.Props.CloudTs.C70_samples",
    "SST.Props.CloudTs.C70_errors"
   ],
   "note": ""
  },
  {
   "property": "C71",
   "status": "proved",
   "theorems": [
    "SST.Copula.C71_density",
    "SST.Copula.C71_cdf",
    "SST.Copula.C71_bad_variance"
   ],
   "note": ""
  },
  {
   "property": "C72",
   "status": "proved",
   "theorems": [
    "SST.Copula.C72_bounded",
    "SST.Copula.C72_monotone",
    "SST.Copula.C72_outside"
   ],
   "note": ""
  },
  {
   "property": "C73",
   "status": "proved",
   "theorems": [
    "SST.Copula.C73_mean",
    "SST.Copula.C73_variances",
    "SST.Copula.C73_weight_monotone",
    "SST.Copula.C73_solar_gmm"
   ],
   "note": ""
  },
  {
   "property": "C74",
   "status": "proved",
   "theorems": [
    "SST.Copula.C74_correlation_matrix",
    "SST.Copula.C74_decreasing",
    "SST.Copula.C74_downscale"
   ],
   "note": ""
  },
  {
   "property": "C75",
   "status": "proved",
   "theorems": [
    "SST.Copula.C75_frozen_field"
   ],
   "note": ""
  },
  {
   "property": "C76",
   "status": "partial",
   "theorems": [
    "SST.Copula.C76_value",
    "SST.Copula.C76_monotone_p",
    "SST.Copula.C76_monotone_K_partial",
    "SST.Copula.C76_violated_K"
   ],
   "note": "\"Higher K, slower decay\" is false of the code below K = 1/2 (proved); value, lower bound, monotonicity in the parameter and monotonicity above 1/2 proved."
  },
  {
   "property": "C77",
   "status": "proved",
   "theorems": [
    "SST.Copula.C77_layout",
    "SST.Copula.C77_unscaled_bounds",
    "SST.Copula.C77_scaled_mean",
    "SST.Copula.C77_all_zero"
   ],
   "note": ""
  },
  {
   "property": "C78",
   "status": "partial",
   "theorems": [
    "SST.Copula.C78_hourwise_partial",
    "SST.Copula.C78_rejects",
    "SST.Copula.C78_violated_scalar_speed",
    "SST.Copula.C78_violated_scalar_direction"
   ],
   "note": "False of the code when one of speed and direction is a number and the other a list (proved for all such calls); proved otherwise, with all rejections."
  },
  {
   "property": "C79",
   "status": "partial",
   "theorems": [
    "SST.DataIO.C79_existing_untouched",
    "SST.DataIO.C79_complete",
    "SST.DataIO.C79_idempotent",
    "SST.DataIO.C79_recovery_partial",
    "SST.DataIO.C79_violated_truncated",
    "SST.DataIO.C79_errors"
   ],
   "note": "False of the code for a crash inside a file (proved for every server, list and number of re-runs); completion, idempotence, recovery from every other crash and non-modification proved."
  },
  {
   "property": "C80",
   "status": "proved",
   "theorems": [
    "SST.DataIO.C80_filter",
    "SST.DataIO.C80_all",
    "SST.DataIO.C80_no_dot",
    "SST.DataIO.C80_order_free"
   ],
   "note": ""
  },
  {
   "property": "C81",
   "status": "proved",
   "theorems": [
    "SST.DataIO.C81_flag_qc",
    "SST.DataIO.C81_null_qc",
    "SST.DataIO.C81_idempotent"
   ],
   "note": ""
  },
  {
   "property": "C82",
   "status": "partial",
   "theorems": [
    "SST.DataIO.C82_short_gaps_partial",
    "SST.DataIO.C82_values_partial",
    "SST.DataIO.C82_violated_filled",
    "SST.DataIO.C82_violated_destroyed"
   ],
   "note": "False of the code for longer gaps (proved for every such series sampled each second); proved for series without longer gaps, and that values are never altered."
  },
  {
   "property": "C83",
   "status": "partial",
   "theorems": [
    "SST.DataIO.C83_overwrite",
    "SST.DataIO.C83_content",
    "SST.DataIO.C83_refuse",
    "SST.DataIO.C83_violated_duplicates",
    "SST.DataIO.C83_fresh_partial"
   ],
   "note": "False of the NRCAN converter (proved for every input); proved for the HOPE converter."
  },
  {
   "property": "C84",
   "status": "partial",
   "theorems": [
    "SST.DataIO.C84_causal_partial",
    "SST.DataIO.C84_violated_relabelled",
    "SST.DataIO.C84_on_grid_partial"
   ],
   "note": "False of the code for evenly spaced records off the grid (proved for all of them); proved otherwise."
  },
  {
   "property": "C85",
   "status": "partial",
   "theorems": [
    "SST.Props.Assign.C85_violated_extra_column",
    "SST.Props.Assign.C85_extra_ignored_partial"
   ],
   "note": "False of the code: NaN in a further column changes the branch (counterexample); proved when further columns hold no NaN."
  },
  {
   "property": "C86",
   "status": "proved",
   "theorems": [
    "SST.Props.Assign.C86_too_few",
    "SST.Props.Assign.C86_too_many"
   ],
   "note": ""
  },
  {
   "property": "C87",
   "status": "partial",
   "theorems": [
    "SST.Props.Predict.C87_violated_column_order",
    "SST.Props.Predict.C87_selection_independent_partial"
   ],
   "note": "False of the code: with columns (N, E) the result is off by an exact, proved amount; the selection and the site tables are proved independent of the order."
  },
  {
   "property": "C88",
   "status": "proved",
   "theorems": [
    "SST.Props.Cmv.C88_outcome"
   ],
   "note": ""
  },
  {
   "property": "C89",
   "status": "partial",
   "theorems": [
    "SST.Props.Corr.C89_violated_pulse",
    "SST.Props.Corr.C89_zero_mean_partial"
   ],
   "note": "False of the code (counterexample: pulse [1,1,0] delayed by one sample is reported as advanced by two); proved for signals of zero mean."
  },
  {
   "property": "C90",
   "status": "partial",
   "theorems": [
    "SST.Props.Corr.C90_modes_partial",
    "SST.Props.Corr.C90_violated_ties"
   ],
   "note": "False of the code on ties (counterexample); peak, mean and zero-lag values proved equal always, delays when the peak lag is unique."
  },
  {
   "property": "C91",
   "status": "proved",
   "theorems": [
    "SST.Props.Corr.C91_mean_corr"
   ],
   "note": ""
  },
  {
   "property": "C92",
   "status": "partial",
   "theorems": [
    "SST.Props.Corr.C92_violated_surplus",
    "SST.Props.Corr.C92_mismatch_partial"
   ],
   "note": "False of the code in mode 'loop' (proved for every surplus); the other mismatches are proved to raise."
  },
  {
   "property": "C93",
   "status": "partial",
   "theorems": [
    "SST.Props.Corr.C93_violated_columns",
    "SST.Props.Corr.C93_violated_scaling",
    "SST.Props.Corr.C93_single_partial"
   ],
   "note": "False of the code for several columns with 'coeff' (proved to raise for every shape but one, and wrong scaling there); one pair of columns proved."
  },
  {
   "property": "C94",
   "status": "partial",
   "theorems": [
    "SST.Props.Corr.C94_violated_loop",
    "SST.Props.Corr.C94_fft_partial"
   ],
   "note": "False of the code in mode 'loop' (proved for all constant signals); mode 'fft' proved."
  },
  {
   "property": "C95",
   "status": "proved",
   "theorems": [
    "SST.Props.Corr.C95_correlation",
    "SST.Props.Corr.C95_delays"
   ],
   "note": ""
  },
  {
   "property": "C96",
   "status": "partial",
   "theorems": [
    "SST.Props.Corr.C96_unbiased_partial",
    "SST.Props.Corr.C96_violated_sign"
   ],
   "note": "False of the code when the second signal is longer (sign flips, counterexample); proved for len(estimation) <= len(baseline), scaling unbiased_coeff."
  },
  {
   "property": "C97",
   "status": "partial",
   "theorems": [
    "SST.Props.Tf.C97_violated_fit",
    "SST.Props.Tf.C97_multi_partial"
   ],
   "note": "False of the code for 'fit' (counterexample); proved for 'multi'."
  },
  {
   "property": "C98",
   "status": "partial",
   "theorems": [
    "SST.Props.Tf.C98_violated_first",
    "SST.Props.Tf.C98_violated_detrend",
    "SST.Props.Tf.C98_prefix_partial"
   ],
   "note": "False of the code (proved for every column starting with NaN, and for constant detrending with a rectangular window); proved: exactly the bins before the first NaN count."
  },
  {
   "property": "C99",
   "status": "partial",
   "theorems": [
    "SST.Props.Tf.C99_violated_multi",
    "SST.Props.Tf.C99_violated_fit",
    "SST.Props.Tf.C99_nan_partial"
   ],
   "note": "False of the code ('multi' always, 'fit' for the zero frequency); proved for 'fit' with no bin at all and for all-NaN columns."
  },
  {
   "property": "C100",
   "status": "proved",
   "theorems": [
    "SST.Props.Tf.C100_mean_coherence"
   ],
   "note": ""
  },
  {
   "property": "C101",
   "status": "partial",
   "theorems": [
    "SST.Props.Tf.C101_violated",
    "SST.Props.Tf.C101_limits_partial"
   ],
   "note": "False of the code for freq_limit=None (proved for all inputs); proved with a frequency limit."
  },
  {
   "property": "C102",
   "status": "proved",
   "theorems": [
    "SST.Props.Tf.C102_extras"
   ],
   "note": ""
  },
  {
   "property": "C103",
   "status": "proved",
   "theorems": [
    "SST.Props.Tf.C103_pairs",
    "SST.Props.Tf.C103_mismatch",
    "SST.Props.Tf.C103_independent",
    "SST.Props.Tf.C103_succeeds"
   ],
   "note": ""
  },
  {
   "property": "C104",
   "status": "partial",
   "theorems": [
    "SST.Props.Tf.C104_violated_series",
    "SST.Props.Tf.C104_violated_value",
    "SST.Props.Tf.C104_frame_partial"
   ],
   "note": "False of the code for a Series (proved for all inputs); proved for a DataFrame."
  },
  {
   "property": "C105",
   "status": "proved",
   "theorems": [
    "SST.Props.Tf.C105_nonneg",
    "SST.Props.Tf.C105_parseval"
   ],
   "note": ""
  },
  {
   "property": "C106",
   "status": "proved",
   "theorems": [
    "SST.Props.Tf.C106_unknown",
    "SST.Props.Tf.C106_reference"
   ],
   "note": ""
  },
  {
   "property": "C107",
   "status": "partial",
   "theorems": [
    "SST.Props.Tf.C107_violated",
    "SST.Props.Tf.C107_distinct_partial"
   ],
   "note": "False of the code for colliding names with 'fit' (proved for all data); proved for 'multi' and for distinct names."
  },
  {
   "property": "C108",
   "status": "partial",
   "theorems": [
    "SST.Props.Cam.C108_centred_partial",
    "SST.Props.Cam.C108_error_partial",
    "SST.Props.Cam.C108_violated_odd"
   ],
   "note": "False of the code for odd extents (proved for all of them); the exact error factor exp(4 pi i f x0/V) is proved for every regular grid and its absence for x0 = -N dx/2."
  },
  {
   "property": "C109",
   "status": "partial",
   "theorems": [
    "SST.Props.Apply.C109_violated_default",
    "SST.Props.Apply.C109_covering_partial"
   ],
   "note": "False of the code for every series (proved); proved for frequency vectors that cover the data's frequencies."
  },
  {
   "property": "C110",
   "status": "proved",
   "theorems": [
    "SST.Props.Cam.C110_translation",
    "SST.Props.Cam.C110_direction",
    "SST.Props.Cam.C110_perpendicular",
    "SST.Props.Cam.C110_order",
    "SST.Props.Cam.C110_zero_direction",
    "SST.Props.Cam.C110_identity"
   ],
   "note": ""
  },
  {
   "property": "C111",
   "status": "proved",
   "theorems": [
    "SST.Props.Apply.C111_energy"
   ],
   "note": ""
  },
  {
   "property": "C112",
   "status": "proved",
   "theorems": [
    "SST.Props.Apply.C112_shift",
    "SST.Props.Apply.C112_delay"
   ],
   "note": ""
  },
  {
   "property": "C113",
   "status": "proved",
   "theorems": [
    "SST.Props.Stats.C113_series",
    "SST.Props.Stats.C113_array",
    "SST.Props.Stats.C113_labels",
    "SST.Props.Stats.C113_disjoint"
   ],
   "note": ""
  },
  {
   "property": "C114",
   "status": "partial",
   "theorems": [
    "SST.Props.Vi.C114_same_name_partial",
    "SST.Props.Vi.C114_violated_names"
   ],
   "note": "False of the code for different column names (proved for all data); proved for equal names."
  },
  {
   "property": "C115",
   "status": "partial",
   "theorems": [
    "SST.Props.Quantile.C115_value_partial",
    "SST.Props.Quantile.C115_violated_gap"
   ],
   "note": "False of the code after a day without records (counterexample); proved whenever the day n_days earlier has a record."
  },
  {
   "property": "C116",
   "status": "partial",
   "theorems": [
    "SST.Props.CloudRandom.C116_shift_partial",
    "SST.Props.CloudRandom.C116_top_partial",
    "SST.Props.CloudRandom.C116_violated_zero"
   ],
   "note": "False of the code at vs = 0 (counterexample); proved for 0 < vs < vs' < 180."
  },
  {
   "property": "C117",
   "status": "partial",
   "theorems": [
    "SST.Props.CloudScale.C117_nonneg_partial",
    "SST.Props.CloudScale.C117_violated"
   ],
   "note": "False of the code for cloud cells (counterexample); nonnegativity and the bound on clear and edge cells proved."
  },
  {
   "property": "C118",
   "status": "partial",
   "theorems": [
    "SST.Props.CloudTs.C118_length_partial",
    "SST.Props.CloudTs.C118_violated_short",
    "SST.Props.CloudTs.C118_violated_negative"
   ],
   "note": "False of the code when the path leaves the field (proved for all such paths); proved inside the field."
  },
  {
   "property": "C119",
   "status": "partial",
   "theorems": [
    "SST.Props.CloudSmoothing.C119_basic_partial",
    "SST.Props.CloudTs.C119_violated"
   ],
   "note": "False of the code: the parameter is ignored with 'original' (proved for all inputs). Proved for 'basic' (C119_basic_partial, sizes up to 316): the cells with an edge in their window are scaled from 1 to ktmax and the other cloudy ones from kt1pct; a larger size keeps the former with their values and adds further ones."
  },
  {
   "property": "C120",
   "status": "proved",
   "theorems": [
    "SST.Props.CloudTs.C120_runs",
    "SST.Props.CloudTs.C120_clear_fraction",
    "SST.Props.CloudTs.C120_original_mean",
    "SST.Props.CloudTs.C120_rejects"
   ],
   "note": ""
  },
  {
   "property": "C121",
   "status": "proved",
   "theorems": [
    "SST.Props.CloudTs.C121_stats",
    "SST.Props.CloudTs.C121_moments",
    "SST.Props.CloudTs.C121_threshold",
    "SST.Props.CloudTs.C121_score"
   ],
   "note": ""
  },
  {
   "property": "C122",
   "status": "partial",
   "theorems": [
    "SST.Copula.C122_violated_scalar",
    "SST.Copula.C122_density_partial"
   ],
   "note": "False of the code (CDF of every scalar input is 1, proved for every mixture); proved for the density."
  },
  {
   "property": "C123",
   "status": "partial",
   "theorems": [
    "SST.Copula.C123_nodes_partial",
    "SST.Copula.C123_violated_last"
   ],
   "note": "False of the code at CDF value 1 (proved for every grid); proved below."
  },
  {
   "property": "C124",
   "status": "partial",
   "theorems": [
    "SST.Copula.C124_violated_overcast",
    "SST.Copula.C124_order_partial",
    "SST.Copula.C124_default_partial"
   ],
   "note": "False of the code at mean 0 (proved); proved for the defaults on [0.01, 1] and the equivalence in general."
  },
  {
   "property": "C125",
   "status": "partial",
   "theorems": [
    "SST.Copula.C125_elementwise_partial",
    "SST.Copula.C125_violated_one"
   ],
   "note": "False of the code for one-element arrays below the bound (proved for all of them); proved for two or more."
  },
  {
   "property": "C126",
   "status": "partial",
   "theorems": [
    "SST.Copula.C126_reproducible_partial",
    "SST.Copula.C126_violated_hours"
   ],
   "note": "The second half is false of the code (proved for every generator and input); reproducibility proved."
  },
  {
   "property": "C127",
   "status": "proved",
   "theorems": [
    "SST.Copula.C127_marginal_law",
    "SST.Copula.C127_no_negative_mass"
   ],
   "note": "Proved for all inputs with Mathlib's gaussianReal and independence; the canonical sequence space is the instance."
  },
  {
   "property": "C128",
   "status": "partial",
   "theorems": [
    "SST.DataIO.C128_names",
    "SST.DataIO.C128_contents_partial",
    "SST.DataIO.C128_violated_shared_name"
   ],
   "note": "False of the code for shared names (proved); proved for distinct names."
  },
  {
   "property": "C129",
   "status": "partial",
   "theorems": [
    "SST.DataIO.C129_violated_directory",
    "SST.DataIO.C129_files_partial"
   ],
   "note": "False of the code for directories (proved); proved when only files are listed."
  },
  {
   "property": "C130",
   "status": "partial",
   "theorems": [
    "SST.DataIO.C130_violated_short",
    "SST.DataIO.C130_columns_partial"
   ],
   "note": "False of the code below 2*limit samples (proved for all such series); proved from there on."
  },
  {
   "property": "C131",
   "status": "partial",
   "theorems": [
    "SST.DataIO.C131_frame_partial",
    "SST.DataIO.C131_violated_tmp",
    "SST.DataIO.C131_violated_outside"
   ],
   "note": "False of the code outside the first sensor's labels and for a sensor named tmp (both proved); otherwise the whole conversion is proved to write every sensor's own values."
  },
  {
   "property": "C132",
   "status": "partial",
   "theorems": [
    "SST.DataIO.C132_violated_lost",
    "SST.DataIO.C132_listing_partial"
   ],
   "note": "False of the code (proved); only the failure to list the directory is harmless."
  },
  {
   "property": "C133",
   "status": "partial",
   "theorems": [
    "SST.DataIO.C133_violated_no_sensor",
    "SST.DataIO.C133_untouched_partial",
    "SST.DataIO.C133_column_name"
   ],
   "note": "False of the code without sensor files (proved); proved for all other failures of the loop."
  },
  {
   "property": "C134",
   "status": "proved",
   "theorems": [
    "SST.DataIO.C134_every_point_counted",
    "SST.DataIO.C134_bars",
    "SST.DataIO.C134_rejects"
   ],
   "note": ""
  },
  {
   "property": "C135",
   "status": "proved",
   "theorems": [
    "SST.Props.Cmv.C135_gagne_from_series"
   ],
   "note": ""
  },
  {
   "property": "C136",
   "status": "proved",
   "theorems": [
    "SST.Props.Cmv.C136_jamaly_from_series"
   ],
   "note": ""
  },
  {
   "property": "C137",
   "status": "proved",
   "theorems": [
    "SST.Props.PredictData.C137_from_winds",
    "SST.Props.PredictData.C137_exchanged_columns",
    "SST.Props.PredictData.C137_errors",
    "SST.Props.PredictData.C137_zero_vector",
    "SST.Props.PredictData.C137_null_motion"
   ],
   "note": ""
  },
  {
   "property": "C138",
   "status": "proved",
   "theorems": [
    "SST.Props.PredictData.C138_gains"
   ],
   "note": ""
  },
  {
   "property": "C139",
   "status": "proved",
   "theorems": [
    "SST.Props.PredictData.C139_similarity"
   ],
   "note": ""
  },
  {
   "property": "C140",
   "status": "proved",
   "theorems": [
    "SST.Props.PredictData.C140_swap"
   ],
   "note": ""
  },
  {
   "property": "C141",
   "status": "partial",
   "theorems": [
    "SST.Props.PredictData.C141_order_partial",
    "SST.Props.PredictData.C141_violated_order"
   ],
   "note": "False of the code for another column order (proved); proved when columns and rows are in the same order."
  },
  {
   "property": "C142",
   "status": "proved",
   "theorems": [
    "SST.HopeMain.C142_all_or_nothing",
    "SST.HopeMain.C142_created",
    "SST.HopeMain.C142_answer",
    "SST.HopeMain.C142_refusal"
   ],
   "note": ""
  },
  {
   "property": "C143",
   "status": "proved",
   "theorems": [
    "SST.HopeMain.C143_frame",
    "SST.HopeMain.C143_no_consent",
    "SST.HopeMain.C143_early_errors"
   ],
   "note": ""
  },
  {
   "property": "C144",
   "status": "partial",
   "theorems": [
    "SST.HopeMain.C144_end_to_end_partial",
    "SST.HopeMain.C144_succeeds",
    "SST.HopeMain.C144_violated_incomplete"
   ],
   "note": "False of the code for files with different stations (proved); proved for files with the same stations in any order."
  },
  {
   "property": "C145",
   "status": "partial",
   "theorems": [
    "SST.HopeMain.C145_dataset_partial",
    "SST.HopeMain.C145_unknown_method",
    "SST.HopeMain.C145_violated_qc_case"
   ],
   "note": "False of the code for the name of the method (proved); proved for the dataset."
  },
  {
   "property": "C146",
   "status": "proved",
   "theorems": [
    "SST.HopeMain.C146_rerun"
   ],
   "note": ""
  },
  {
   "property": "C147",
   "status": "partial",
   "theorems": [
    "SST.Props.Args.C147_sized_partial",
    "SST.Props.Args.C147_violated_generator",
    "SST.Props.Args.C147_violated_generator_one",
    "SST.Props.Args.C147_violated_series"
   ],
   "note": "False of the code for generators and pandas Series (proved); proved for lists, tuples, arrays and sets."
  },
  {
   "property": "C148",
   "status": "partial",
   "theorems": [
    "SST.Props.Args.C148_one_column_partial",
    "SST.Props.Args.C148_violated"
   ],
   "note": "False of the code for two or more columns (proved); proved for one column."
  },
  {
   "property": "C149",
   "status": "partial",
   "theorems": [
    "SST.Props.Args.C149_types_partial",
    "SST.Props.Args.C149_violated"
   ],
   "note": "False of the code for integer centers with a float reference (proved); proved otherwise."
  },
  {
   "property": "C150",
   "status": "partial",
   "theorems": [
    "SST.Props.Args.C150_one_zone_partial",
    "SST.Props.Args.C150_violated",
    "SST.Props.Args.C150_violated_frame",
    "SST.Props.Args.C150_row_partial",
    "SST.Props.Args.C150_no_sites_partial"
   ],
   "note": "False of the code across a zone border and for a frame as reference (proved); proved within one zone and hemisphere, and for a row."
  },
  {
   "property": "C151",
   "status": "partial",
   "theorems": [
    "SST.Props.Args.C151_series_partial",
    "SST.Props.Args.C151_short_partial",
    "SST.Props.Args.C151_violated_signal",
    "SST.Props.Args.C151_violated_filter"
   ],
   "note": "False of the code for frames (proved); proved for Series."
  },
  {
   "property": "C152",
   "status": "partial",
   "theorems": [
    "SST.Props.Args.C152_violated",
    "SST.Props.Args.C152_rest_partial"
   ],
   "note": "False of the code (proved); proved for the other settings and for rejected calls."
  },
  {
   "property": "C153",
   "status": "partial",
   "theorems": [
    "SST.Props.Args.C153_violated",
    "SST.Props.Args.C153_small_partial"
   ],
   "note": "False of the code above a score of 0.018 (proved); proved below."
  },
  {
   "property": "C154",
   "status": "proved",
   "theorems": [
    "SST.Props.Cmv.C154_translation"
   ],
   "note": ""
  },
  {
   "property": "C155",
   "status": "proved",
   "theorems": [
    "SST.Props.Cmv.C155_turned"
   ],
   "note": ""
  },
  {
   "property": "C156",
   "status": "proved",
   "theorems": [
    "SST.Props.Cmv.C156_slow_motion"
   ],
   "note": ""
  },
  {
   "property": "C157",
   "status": "proved",
   "theorems": [
    "SST.Props.Cmv.C157_backwards"
   ],
   "note": ""
  },
  {
   "property": "C158",
   "status": "proved",
   "theorems": [
    "SST.Props.Cmv.C158_row_order"
   ],
   "note": ""
  },
  {
   "property": "C159",
   "status": "proved",
   "theorems": [
    "SST.Props.Cmv.C159_names",
    "SST.Props.Cmv.C159_extra_columns"
   ],
   "note": ""
  },
  {
   "property": "C160",
   "status": "proved",
   "theorems": [
    "SST.Props.Cmv.C160_jamaly_report"
   ],
   "note": ""
  },
  {
   "property": "C161",
   "status": "proved",
   "theorems": [
    "SST.Props.Cmv.C161_method_data"
   ],
   "note": ""
  },
  {
   "property": "C162",
   "status": "partial",
   "theorems": [
    "SST.Props.Cmv.C162_noise_free_partial",
    "SST.Props.Cmv.C162_violated_equal_delays"
   ],
   "note": "Violated by the code if the GOOD delays are all equal (C162_violated_equal_delays); proved if two GOOD delays differ."
  },
  {
   "property": "C163",
   "status": "partial",
   "theorems": [
    "SST.Props.Cmv.C163_data_object_partial",
    "SST.Props.Cmv.C163_pairs",
    "SST.Props.Cmv.C163_violated_null_result"
   ],
   "note": "Violated by the code for every null result (C163_violated_null_result); proved with at least two GOOD pairs; the pairs and their flags are always there (C163_pairs)."
  },
  {
   "property": "C164",
   "status": "proved",
   "theorems": [
    "SST.Props.Cmv.C164_gagne_report"
   ],
   "note": ""
  },
  {
   "property": "C165",
   "status": "partial",
   "theorems": [
    "SST.Props.Reassign.C165_found_partial",
    "SST.Props.Reassign.C165_found_clean_sites_partial",
    "SST.Props.Reassign.C165_violated_left_in_place"
   ],
   "note": "Violated by the code for displacements perpendicular to one of the motions (C165_violated_left_in_place); proved otherwise for mode 'all', and for every mode if the sites used are at their places."
  },
  {
   "property": "C166",
   "status": "proved",
   "theorems": [
    "SST.Props.Reassign.C166_contamination",
    "SST.Props.Reassign.C166_same_sites"
   ],
   "note": ""
  },
  {
   "property": "C167",
   "status": "proved",
   "theorems": [
    "SST.Props.Reassign.C167_correct_layout"
   ],
   "note": ""
  },
  {
   "property": "C168",
   "status": "proved",
   "theorems": [
    "SST.Props.Reassign.C168_nearest"
   ],
   "note": ""
  },
  {
   "property": "C169",
   "status": "partial",
   "theorems": [
    "SST.Props.Reassign.C169_confirmed_partial",
    "SST.Props.Reassign.C169_violated_order"
   ],
   "note": "Violated by the code between the first and second round for references not in ascending order (C169_violated_order); proved from the second round on."
  },
  {
   "property": "C170",
   "status": "proved",
   "theorems": [
    "SST.Props.FullProcess.C170_halts"
   ],
   "note": ""
  },
  {
   "property": "C171",
   "status": "partial",
   "theorems": [
    "SST.Props.FullProcess.C171_within_inverters_partial",
    "SST.Props.FullProcess.C171_violated_same_place"
   ],
   "note": "Violated by the code if the name of an inverter is part of another one's (C171_violated_same_place); proved otherwise."
  },
  {
   "property": "C172",
   "status": "partial",
   "theorems": [
    "SST.Props.FullProcess.C172_changed_partial",
    "SST.Props.FullProcess.C172_violated_reports_other"
   ],
   "note": "Violated by the code when the procedure ends without having converged (C172_violated_reports_other); proved: what changed contains, and that the mapping is the last one if changed is empty."
  },
  {
   "property": "C173",
   "status": "proved",
   "theorems": [
    "SST.Props.FullProcess.C173_found"
   ],
   "note": ""
  },
  {
   "property": "C174",
   "status": "proved",
   "theorems": [
    "SST.Props.FullProcess.C174_confirmed"
   ],
   "note": ""
  },
  {
   "property": "C175",
   "status": "partial",
   "theorems": [
    "SST.Props.FullProcess.C175_found_partial",
    "SST.Props.FullProcess.C175_violated_confirms_wrong_plan"
   ],
   "note": "Violated by the code for displacements at right angles to a motion of every kept pair (C175_violated_confirms_wrong_plan); proved for mode 'all' if every misplaced combiner is displaced obliquely to a kept pair."
  },
  {
   "property": "C176",
   "status": "proved",
   "theorems": [
    "SST.Props.FullProcess.C176_pairs",
    "SST.Props.FullProcess.C176_45_degrees"
   ],
   "note": ""
  },
  {
   "property": "C177",
   "status": "proved",
   "theorems": [
    "SST.Props.Segments.C177_mean",
    "SST.Props.Segments.C177_columns"
   ],
   "note": ""
  },
  {
   "property": "C178",
   "status": "partial",
   "theorems": [
    "SST.Props.Segments.C178_blocks_partial",
    "SST.Props.Segments.C178_more_partial",
    "SST.Props.Segments.C178_violated_count"
   ],
   "note": "Violated by the code if navgs does not divide the number of samples (C178_violated_count); proved: exact if it does, never fewer, monotone in the overlap."
  },
  {
   "property": "C179",
   "status": "proved",
   "theorems": [
    "SST.Props.Segments.C179_weighted"
   ],
   "note": ""
  },
  {
   "property": "C180",
   "status": "partial",
   "theorems": [
    "SST.Props.PlantMean.C180_mean_partial",
    "SST.Props.PlantMean.C180_violated_abreast"
   ],
   "note": "Violated by the code for sites abreast of each other (C180_violated_abreast); proved if all sites are at different distances along the motion."
  },
  {
   "property": "C181",
   "status": "proved",
   "theorems": [
    "SST.Props.PlantMean.C181_measured"
   ],
   "note": ""
  },
  {
   "property": "C182",
   "status": "partial",
   "theorems": [
    "SST.Props.CloudDemo.C182_sampled_partial",
    "SST.Props.CloudDemo.C182_violated_line"
   ],
   "note": "Violated by the code for sensors in line along or across the motion (C182_violated_line); proved: exactly which plants can be read, and the length and order of the series."
  },
  {
   "property": "C183",
   "status": "proved",
   "theorems": [
    "SST.Props.CloudDemo.C183_downwind"
   ],
   "note": ""
  },
  {
   "property": "C184",
   "status": "proved",
   "theorems": [
    "SST.Props.CloudDemo.C184_cells"
   ],
   "note": ""
  },
  {
   "property": "C185",
   "status": "proved",
   "theorems": [
    "SST.Props.CloudDemo.C185_gagne"
   ],
   "note": ""
  },
  {
   "property": "C186",
   "status": "proved",
   "theorems": [
    "SST.Props.AutoCmv.C186_hours"
   ],
   "note": ""
  },
  {
   "property": "C187",
   "status": "partial",
   "theorems": [
    "SST.Props.AutoCmv.C187_filter_partial",
    "SST.Props.AutoCmv.C187_violated_first"
   ],
   "note": "Violated by the code: the flag of the first row is used for all (C187_violated_first); proved: which rows are kept."
  },
  {
   "property": "C188",
   "status": "partial",
   "theorems": [
    "SST.Props.AutoCmv.C188_table_partial",
    "SST.Props.AutoCmv.C188_violated_quiet_hour",
    "SST.Props.AutoCmv.C188_violated_last_hour"
   ],
   "note": "Violated by the code for hours with fewer than two GOOD pairs (C188_violated_quiet_hour) or without the closing sample (C188_violated_last_hour); proved: exactly when the table is completed, and its contents."
  },
  {
   "property": "C189",
   "status": "proved",
   "theorems": [
    "SST.Props.AutoCmv.C189_chosen"
   ],
   "note": ""
  },
  {
   "property": "C190",
   "status": "proved",
   "theorems": [
    "SST.Props.CloudMore.C190_rescaled",
    "SST.Props.CloudMore.C190_nested",
    "SST.Props.CloudMore.C190_rearranged"
   ],
   "note": ""
  },
  {
   "property": "C191",
   "status": "partial",
   "theorems": [
    "SST.Props.CloudMore.C191_transposed",
    "SST.Props.CloudMore.C191_mirrored",
    "SST.Props.CloudMore.C191_broadened_mirrored_partial",
    "SST.Props.CloudMore.C191_violated_even",
    "SST.Props.CloudMore.C191_larger_filter",
    "SST.Props.CloudMore.C191_threshold"
   ],
   "note": "Violated by the code for even filter sizes (C191_violated_even); proved for odd sizes, and transposition, monotonicity for all."
  },
  {
   "property": "C192",
   "status": "proved",
   "theorems": [
    "SST.Props.CloudMore.C192_original",
    "SST.Props.CloudMore.C192_basic"
   ],
   "note": ""
  },
  {
   "property": "C193",
   "status": "proved",
   "theorems": [
    "SST.Props.CloudMore.C193_basic",
    "SST.Props.CloudMore.C193_original",
    "SST.Props.CloudMore.C193_weights",
    "SST.Props.CloudMore.C193_normalised",
    "SST.Props.CloudMore.C193_flip"
   ],
   "note": ""
  },
  {
   "property": "C194",
   "status": "partial",
   "theorems": [
    "SST.Props.CloudMore.C194_violated_ignored",
    "SST.Props.CloudMore.C194_violated_duration",
    "SST.Props.CloudMore.C194_second_partial"
   ],
   "note": "Violated by the code: pixres is ignored (C194_violated_ignored, C194_violated_duration); proved for one second per cell."
  },
  {
   "property": "C195",
   "status": "proved",
   "theorems": [
    "SST.Props.Pool.C195_same_as_serial",
    "SST.Props.Pool.C195_no_deadlock",
    "SST.Props.Pool.C195_terminates"
   ],
   "note": ""
  },
  {
   "property": "C196",
   "status": "proved",
   "theorems": [
    "SST.Props.Pool.C196_round",
    "SST.Props.Pool.C196_procedure",
    "SST.Props.Pool.C196_deterministic"
   ],
   "note": ""
  },
  {
   "property": "C197",
   "status": "proved",
   "theorems": [
    "SST.Props.CmvDemo.C197_lags",
    "SST.Props.CmvDemo.C197_travel_time",
    "SST.Props.CmvDemo.C197_no_motion"
   ],
   "note": ""
  },
  {
   "property": "C198",
   "status": "proved",
   "theorems": [
    "SST.Props.CmvDemo.C198_units",
    "SST.Props.CmvDemo.C198_level"
   ],
   "note": ""
  },
  {
   "property": "C199",
   "status": "partial",
   "theorems": [
    "SST.Props.CmvDemo.C199_scaled_partial",
    "SST.Props.CmvDemo.C199_demo_partial",
    "SST.Props.CmvDemo.C199_violated_units"
   ],
   "note": "Violated by the code (C199_violated_units): the limit 0.001 of the standard deviation cannot be converted; proved for data that are above or below it in both units."
  },
  {
   "property": "C200",
   "status": "proved",
   "theorems": [
    "SST.Props.Robust.C200_shift",
    "SST.Props.Robust.C200_bound"
   ],
   "note": ""
  },
  {
   "property": "C201",
   "status": "proved",
   "theorems": [
    "SST.Props.Robust.C201_wrong_wind",
    "SST.Props.Robust.C201_surrounded"
   ],
   "note": ""
  },
  {
   "property": "C202",
   "status": "proved",
   "theorems": [
    "SST.Props.Robust.C202_noise"
   ],
   "note": ""
  },
  {
   "property": "C203",
   "status": "proved",
   "theorems": [
    "SST.Props.RobustFull.C203_noise"
   ],
   "note": ""
  },
  {
   "property": "C204",
   "status": "proved",
   "theorems": [
    "SST.Props.RobustCmv.C204_travel_times",
    "SST.Props.RobustCmv.C204_velocity"
   ],
   "note": ""
  },
  {
   "property": "C205",
   "status": "proved",
   "theorems": [
    "SST.Props.RobustCmv.C205_direction",
    "SST.Props.RobustCmv.C205_noise"
   ],
   "note": ""
  },
  {
   "property": "C206",
   "status": "proved",
   "theorems": [
    "SST.Props.SignalDemo.C206_darr",
    "SST.Props.SignalDemo.C206_vi"
   ],
   "note": ""
  },
  {
   "property": "C207",
   "status": "partial",
   "theorems": [
    "SST.Props.SignalDemo.C207_markov",
    "SST.Props.SignalDemo.C207_plant_partial",
    "SST.Props.SignalDemo.C207_violated_smoothing"
   ],
   "note": "The score of a plant can exceed that of every sensor (C207_violated_smoothing); proved: it is at most the mean ramp magnitude of the sensors."
  },
  {
   "property": "C208",
   "status": "proved",
   "theorems": [
    "SST.Props.SignalDemo.C208_seconds",
    "SST.Props.SignalDemo.C208_exact",
    "SST.Props.SignalDemo.C208_nested"
   ],
   "note": ""
  },
  {
   "property": "C209",
   "status": "partial",
   "theorems": [
    "SST.Props.SignalDemo.C209_complete_partial",
    "SST.Props.SignalDemo.C209_violated_missing",
    "SST.Props.SignalDemo.C209_lower"
   ],
   "note": "Violated by the code with missing samples (C209_violated_missing); proved for complete records."
  },
  {
   "property": "C210",
   "status": "proved",
   "theorems": [
    "SST.Props.SignalDemo.C210_bias",
    "SST.Props.SignalDemo.C210_spread",
    "SST.Props.SignalDemo.C210_errors"
   ],
   "note": ""
  },
  {
   "property": "C211",
   "status": "partial",
   "theorems": [
    "SST.Props.Notebooks.C211_combiners_partial",
    "SST.Props.Notebooks.C211_violated"
   ],
   "note": "Violated by the code for files with other kinds of outlines (C211_violated); proved for combiners only."
  },
  {
   "property": "C212",
   "status": "partial",
   "theorems": [
    "SST.Props.Notebooks.C212_agrees_partial",
    "SST.Props.Notebooks.C212_violated_missing"
   ],
   "note": "Violated by the notebook when a site has no coherence (C212_violated_missing); proved when all coherences are numbers."
  },
  {
   "property": "C213",
   "status": "proved",
   "theorems": [
    "SST.Copula.C213_delayed"
   ],
   "note": ""
  },
  {
   "property": "C214",
   "status": "proved",
   "theorems": [
    "SST.Copula.C214_same_law",
    "SST.Copula.C214_invariant"
   ],
   "note": ""
  },
  {
   "property": "C215",
   "status": "proved",
   "theorems": [
    "SST.Copula.C215_whole_field",
    "SST.Copula.C215_transpose"
   ],
   "note": ""
  },
  {
   "property": "C216",
   "status": "proved",
   "theorems": [
    "SST.Copula.C216_covariance",
    "SST.Copula.C216_variance"
   ],
   "note": ""
  },
  {
   "property": "C217",
   "status": "proved",
   "theorems": [
    "SST.Copula.C217_lag"
   ],
   "note": ""
  },
  {
   "property": "C218",
   "status": "proved",
   "theorems": [
    "SST.Copula.C218_spread",
    "SST.Copula.C218_below_site"
   ],
   "note": ""
  },
  {
   "property": "C219",
   "status": "proved",
   "theorems": [
    "SST.Copula.C219_difference",
    "SST.Copula.C219_ramp"
   ],
   "note": ""
  },
  {
   "property": "C220",
   "status": "proved",
   "theorems": [
    "SST.Tf.C220_multi",
    "SST.Tf.C220_fit",
    "SST.Tf.C220_diff"
   ],
   "note": ""
  },
  {
   "property": "C221",
   "status": "proved",
   "theorems": [
    "SST.Props.HammingTf.C221_hamming_edge",
    "SST.Props.HammingTf.C221_hamming",
    "SST.Tf.C221_edge",
    "SST.Tf.C221_frozen"
   ],
   "note": ""
  },
  {
   "property": "C222",
   "status": "proved",
   "theorems": [
    "SST.Props.CmvTf.C222_delays",
    "SST.Props.CmvTf.C222_velocity",
    "SST.Props.CmvTf.C222_exact",
    "SST.Props.CmvTf.C222_jamaly"
   ],
   "note": ""
  },
  {
   "property": "C223",
   "status": "proved",
   "theorems": [
    "SST.Props.TfMirror.C223_multi",
    "SST.Props.TfMirror.C223_fit",
    "SST.Props.TfMirror.C223_diff",
    "SST.Props.TfMirror.C223_exchange"
   ],
   "note": ""
  },
  {
   "property": "C224",
   "status": "proved",
   "theorems": [
    "SST.Props.TimeUnit.C224_delays",
    "SST.Props.TimeUnit.C224_position"
   ],
   "note": ""
  },
  {
   "property": "C225",
   "status": "proved",
   "theorems": [
    "SST.Copula.C225_correlation",
    "SST.Copula.C225_plant",
    "SST.Copula.C225_apart",
    "SST.Copula.C225_ramp"
   ],
   "note": ""
  },
  {
   "property": "C226",
   "status": "proved",
   "theorems": [
    "SST.Props.CloudLaw.C226_moments",
    "SST.Props.CloudLaw.C226_apart"
   ],
   "note": ""
  },
  {
   "property": "C227",
   "status": "proved",
   "theorems": [
    "SST.Props.CloudSymm.C227_transposed",
    "SST.Props.CloudSymm.C227_mirrored",
    "SST.Props.CloudSymm.C227_columns",
    "SST.Props.CloudSymm.C227_cells"
   ],
   "note": ""
  },
  {
   "property": "C228",
   "status": "proved",
   "theorems": [
    "SST.Props.Noise.C228_level"
   ],
   "note": ""
  },
  {
   "property": "C229",
   "status": "proved",
   "theorems": [
    "SST.Props.Noise.C229_error",
    "SST.Props.Noise.C229_shares"
   ],
   "note": ""
  },
  {
   "property": "C230",
   "status": "proved",
   "theorems": [
    "SST.Props.NoiseDelay.C230_margin",
    "SST.Props.NoiseDelay.C230_probability",
    "SST.Props.NoiseDelay.C230_shift"
   ],
   "note": ""
  },
  {
   "property": "C231",
   "status": "proved",
   "theorems": [
    "SST.Props.NoiseCmv.C231_good",
    "SST.Props.NoiseCmv.C231_gagne",
    "SST.Props.NoiseCmv.C231_jamaly",
    "SST.Props.NoiseCmv.C231_probability"
   ],
   "note": ""
  },
  {
   "property": "C232",
   "status": "proved",
   "theorems": [
    "SST.Props.NoiseTf.C232_multi",
    "SST.Props.NoiseTf.C232_fit"
   ],
   "note": ""
  },
  {
   "property": "C233",
   "status": "proved",
   "theorems": [
    "SST.Cmv.C233_near",
    "SST.Cmv.C233_exact"
   ],
   "note": ""
  },
  {
   "property": "C234",
   "status": "proved",
   "theorems": [
    "SST.Props.PredictTf.C234_bound",
    "SST.Props.PredictTf.C234_exact",
    "SST.Props.PredictTf.C234_reassigned"
   ],
   "note": ""
  },
  {
   "property": "C235",
   "status": "partial",
   "theorems": [
    "SST.Props.Cmv.C235_violated_subscript",
    "SST.Props.Cmv.C235_violated_members",
    "SST.Props.Cmv.C235_violated_keys",
    "SST.Props.Cmv.C235_texts_partial",
    "SST.Props.Cmv.C235_descriptions_partial",
    "SST.Props.Cmv.C235_result_partial"
   ],
   "note": "Violated: DESCS is itself a member of the enumeration, cannot be subscripted, is keyed by numbers and has no entry for STATS. Proved: the texts behind it for all other flags, and that STATS is never reported."
  },
  {
   "property": "C236",
   "status": "proved",
   "theorems": [
    "SST.Props.Cmv.C236_dictionary",
    "SST.Props.Cmv.C236_null_result",
    "SST.Props.Cmv.C236_values"
   ],
   "note": ""
  },
  {
   "property": "C237",
   "status": "proved",
   "theorems": [
    "SST.Props.NoisePredict.C237_disturbed",
    "SST.Props.NoisePredict.C237_probability",
    "SST.Props.NoisePredict.C237_reassigned"
   ],
   "note": ""
  },
  {
   "property": "C238",
   "status": "proved",
   "theorems": [
    "SST.Props.NoiseCmvTf.C238_delays",
    "SST.Props.NoiseCmvTf.C238_velocity",
    "SST.Props.NoiseCmvTf.C238_jamaly",
    "SST.Props.NoiseCmvTf.C238_probability"
   ],
   "note": ""
  },
  {
   "property": "C239",
   "status": "proved",
   "theorems": [
    "SST.Props.CloudComplement.C239_stack",
    "SST.Props.CloudComplement.C239_normalised",
    "SST.Props.CloudComplement.C239_cells",
    "SST.Props.CloudComplement.C239_flip"
   ],
   "note": ""
  },
  {
   "property": "C240",
   "status": "partial",
   "theorems": [
    "SST.Props.CloudComplement.C240_original_partial",
    "SST.Props.CloudComplement.C240_basic_partial",
    "SST.Props.CloudComplement.C240_violated_edge",
    "SST.Props.CloudComplement.C240_violated_cloudy",
    "SST.Props.CloudComplement.C240_violated_smoothed"
   ],
   "note": "Violated: see the C240_violated theorems; the labels are right for the inclusions stated in the _partial theorems."
  },
  {
   "property": "C241",
   "status": "partial",
   "theorems": [
    "SST.Props.CmvText.C241_conditions_partial",
    "SST.Props.CmvText.C241_violated_overcast",
    "SST.Props.CmvText.C241_violated_lowcorr",
    "SST.Props.CmvText.C241_violated_vellimit",
    "SST.Props.CmvText.C241_violated_nosignal",
    "SST.Props.CmvText.C241_violated_nolag",
    "SST.Props.CmvText.C241_violated_allbad"
   ],
   "note": "Violated: see the C241_violated theorems (OVERCAST, LOWCORR, VELLIMIT, NOSIGNAL, NOLAG, ALLBAD). Proved: the condition each flag does imply."
  },
  {
   "property": "C242",
   "status": "proved",
   "theorems": [
    "SST.Props.NoiseFull.C242_records",
    "SST.Props.NoiseFull.C242_noise"
   ],
   "note": ""
  },
  {
   "property": "C243",
   "status": "proved",
   "theorems": [
    "SST.Tf.C243_hamming",
    "SST.Tf.C243_exact"
   ],
   "note": ""
  },
  {
   "property": "C244",
   "status": "proved",
   "theorems": [
    "SST.Props.CmvTf.C244_exact",
    "SST.Props.CmvTf.C244_jamaly"
   ],
   "note": ""
  },
  {
   "property": "C245",
   "status": "proved",
   "theorems": [
    "SST.Props.PulsePredict.C245_exact",
    "SST.Props.PulsePredict.C245_procedure"
   ],
   "note": ""
  },
  {
   "property": "C246",
   "status": "proved",
   "theorems": [
    "SST.Props.FilterSeries.C246_convolution",
    "SST.Props.FilterSeries.C246_order"
   ],
   "note": ""
  },
  {
   "property": "C247",
   "status": "partial",
   "theorems": [
    "SST.Props.FilterSeries.C247_product_partial",
    "SST.Props.FilterSeries.C247_violated_half"
   ],
   "note": "False of the code for even lengths when the value at half the sampling rate is not real (C247_violated_half: the Marcos filter, every plant area). C247_product_partial: filters of real systems."
  },
  {
   "property": "C248",
   "status": "proved",
   "theorems": [
    "SST.Props.FilterSeries.C248_measured"
   ],
   "note": ""
  },
  {
   "property": "C249",
   "status": "partial",
   "theorems": [
    "SST.Props.FilterSeries.C249_violated",
    "SST.Props.FilterSeries.C249_twosided_partial"
   ],
   "note": "False of the code: ValueError for every pair of records (C249_violated). C249_twosided_partial: continued to negative frequencies the transfer function reproduces the output."
  },
  {
   "property": "C250",
   "status": "proved",
   "theorems": [
    "SST.Props.FlatScale.C250_scale",
    "SST.Props.FlatScale.C250_reference"
   ],
   "note": ""
  },
  {
   "property": "C251",
   "status": "proved",
   "theorems": [
    "SST.Props.InterpPhase.C251_phase"
   ],
   "note": ""
  },
  {
   "property": "C252",
   "status": "proved",
   "theorems": [
    "SST.Props.InterpPhase.C252_delay",
    "SST.Props.InterpPhase.C252_alias",
    "SST.Props.InterpPhase.C252_apply"
   ],
   "note": ""
  },
  {
   "property": "C253",
   "status": "proved",
   "theorems": [
    "SST.Props.InterpPhase.C253_resampled"
   ],
   "note": ""
  },
  {
   "property": "C254",
   "status": "proved",
   "theorems": [
    "SST.Props.PsdTf.C254_power",
    "SST.Props.PsdTf.C254_product"
   ],
   "note": ""
  },
  {
   "property": "C255",
   "status": "proved",
   "theorems": [
    "SST.Props.PsdTf.C255_psd",
    "SST.Props.PsdTf.C255_tf"
   ],
   "note": ""
  },
  {
   "property": "C256",
   "status": "partial",
   "theorems": [
    "SST.Props.TfGains.C256_gains_partial",
    "SST.Props.TfGains.C256_offsets_partial",
    "SST.Props.TfGains.C256_violated_offset",
    "SST.Props.TfGains.C256_violated_mean"
   ],
   "note": "False of the code: compute_delays_tf does not remove offsets (detrend=None); with method 'multi' an offset changes the phase at frequency 0, which enters the sum of phases and the unwrapping, and removing the mean makes that bin NaN and the delay 0 (C256_violated_offset, C256_violated_mean). Proved: positive gains have no effect on delays, masks and mean coherences of frames (C256_gains_partial); with the rectangular window offsets have no effect on the delays if all values stay positive (C256_offsets_partial; for method 'fit' a bin other than frequency 0 must be in the mask)."
  },
  {
   "property": "C257",
   "status": "proved",
   "theorems": [
    "SST.Props.DelayShift.C257_multi",
    "SST.Props.DelayShift.C257_fit",
    "SST.Props.DelayShift.C257_diff"
   ],
   "note": ""
  },
  {
   "property": "C258",
   "status": "proved",
   "theorems": [
    "SST.Round.C258_mae",
    "SST.Round.C258_mse",
    "SST.Round.C258_rmse",
    "SST.Round.C258_mbe",
    "SST.Round.C258_digits"
   ],
   "note": ""
  },
  {
   "property": "C259",
   "status": "proved",
   "theorems": [
    "SST.Round.C259_darr",
    "SST.Round.C259_vi"
   ],
   "note": ""
  },
  {
   "property": "C260",
   "status": "proved",
   "theorems": [
    "SST.Round.C260_magnitude",
    "SST.Round.C260_distance",
    "SST.Round.C260_dot",
    "SST.Round.C260_unit",
    "SST.Round.C260_project",
    "SST.Round.C260_rotate"
   ],
   "note": ""
  },
  {
   "property": "C261",
   "status": "partial",
   "theorems": [
    "SST.Props.Ramps.C261_bound_partial",
    "SST.Props.Ramps.C261_violated"
   ],
   "note": "False of the code: average ranks of ties make the score discontinuous; a steady ramp changed by any amount however small can have twice the score (C261_violated). Proved: the score grows at most to twice its value plus 2e, and by at most 2e if the series has no two ramps of equal magnitude (C261_bound_partial)."
  },
  {
   "property": "C262",
   "status": "proved",
   "theorems": [
    "SST.Round.C262_intersection"
   ],
   "note": ""
  },
  {
   "property": "C263",
   "status": "partial",
   "theorems": [
    "SST.Round.C263_zone_partial",
    "SST.Round.C263_violated"
   ],
   "note": "False next to the eastern border of a zone: with 53 digits the longitude -2^-60 is in zone 31 (C263_violated). Proved: right or one too large, the latter only within 1.3e-13 degrees of the border (C263_zone_partial)."
  },
  {
   "property": "C264",
   "status": "partial",
   "theorems": [
    "SST.Round.C264_cell_partial",
    "SST.Round.C264_violated"
   ],
   "note": "False at the border of cells: 0.3 m at 0.1 m/s reads from row 2 with 53 digits (C264_violated). Proved: the right cell away from borders, and never more than one cell off (C264_cell_partial)."
  },
  {
   "property": "C265",
   "status": "partial",
   "theorems": [
    "SST.Spatial.C265_given_zone_partial",
    "SST.Spatial.C265_violated_east",
    "SST.Spatial.C265_violated_west"
   ],
   "note": "False of the code: from 180 degrees on every longitude is put into zone 60 (C265_violated_east), below -180 the number is no zone (C265_violated_west). Proved: the zone given by the caller and zone 60 (C265_given_zone_partial)."
  },
  {
   "property": "C266",
   "status": "proved",
   "theorems": [
    "SST.Round.C266_near_optimal",
    "SST.Round.C266_exact_recovery",
    "SST.Round.C266_gap"
   ],
   "note": ""
  },
  {
   "property": "C267",
   "status": "proved",
   "theorems": [
    "SST.Round.C267_position",
    "SST.Round.C267_float64"
   ],
   "note": ""
  },
  {
   "property": "C268",
   "status": "proved",
   "theorems": [
    "SST.Round.C268_margin",
    "SST.Round.C268_direct",
    "SST.Round.C268_float64"
   ],
   "note": ""
  },
  {
   "property": "C269",
   "status": "proved",
   "theorems": [
    "SST.Round.C269_flat",
    "SST.Round.C269_origin"
   ],
   "note": ""
  },
  {
   "property": "C270",
   "status": "partial",
   "theorems": [
    "SST.Round.C270_psd_partial",
    "SST.Round.C270_tf_partial",
    "SST.Round.C270_half_partial",
    "SST.Round.C270_violated"
   ],
   "note": "False of the code: the product of segment length and overlap may be rounded below a whole number (C270_violated). Proved: right away from whole numbers, at most one sample off, exact for half overlap."
  },
  {
   "property": "C271",
   "status": "partial",
   "theorems": [
    "SST.Round.C271_samples_partial",
    "SST.Round.C271_exact_partial",
    "SST.Round.C271_violated_none",
    "SST.Round.C271_violated_two"
   ],
   "note": "False of the code: sites at the border between two samples may be lost or counted twice (C271_violated_none, C271_violated_two). Proved: right for all samples that are not within rounding of the end of a site."
  },
  {
   "property": "C272",
   "status": "proved",
   "theorems": [
    "SST.Round.C272_round_trip",
    "SST.Round.C272_pol2rect"
   ],
   "note": ""
  },
  {
   "property": "C273",
   "status": "partial",
   "theorems": [
    "SST.Round.C273_bound_partial",
    "SST.Round.C273_violated"
   ],
   "note": "False of the code: rounding makes equal ramps different and doubles the score (C273_violated). Proved: never more than double or half apart from rounding, and right to within rounding if the ramps differ enough."
  },
  {
   "property": "C274",
   "status": "proved",
   "theorems": [
    "SST.Round.C274_symmetric",
    "SST.Round.C274_entries"
   ],
   "note": ""
  },
  {
   "property": "C275",
   "status": "proved",
   "theorems": [
    "SST.Irradiance.C275_error",
    "SST.Irradiance.C275_order"
   ],
   "note": ""
  },
  {
   "property": "C276",
   "status": "proved",
   "theorems": [
    "SST.Round.C276_darr",
    "SST.Round.C276_score"
   ],
   "note": ""
  },
  {
   "property": "C277",
   "status": "proved",
   "theorems": [
    "SST.Round.C277_origin",
    "SST.Round.C277_error",
    "SST.Round.C277_round_trip"
   ],
   "note": ""
  },
  {
   "property": "C278",
   "status": "proved",
   "theorems": [
    "SST.Round.C278_delay"
   ],
   "note": ""
  },
  {
   "property": "C279",
   "status": "proved",
   "theorems": [
    "SST.Round.C279_error",
    "SST.Round.C279_conjugate",
    "SST.Round.C279_dc"
   ],
   "note": ""
  },
  {
   "property": "C280",
   "status": "proved",
   "theorems": [
    "SST.Round.C280_speed",
    "SST.Round.C280_range",
    "SST.Round.C280_direction",
    "SST.Round.C280_reduced",
    "SST.Round.C280_full_turn"
   ],
   "note": ""
  },
  {
   "property": "C281",
   "status": "partial",
   "theorems": [
    "SST.Round.C281_error_partial",
    "SST.Round.C281_violated"
   ],
   "note": "Proved for records with a standard deviation of at least 1 % of their root mean square (C281_error_partial). For sensors that do not vary it fails (C281_violated): with IEEE rounding three samples of 0.1 give an infinite peak_corr, because the computed mean is not 0.1 and what is left has the standard deviation 0."
  },
  {
   "property": "C282",
   "status": "proved",
   "theorems": [
    "SST.Round.C282_dead",
    "SST.Round.C282_same"
   ],
   "note": ""
  },
  {
   "property": "C283",
   "status": "proved",
   "theorems": [
    "SST.Round.C283_range",
    "SST.Round.C283_extremes",
    "SST.Round.C283_error"
   ],
   "note": ""
  },
  {
   "property": "C284",
   "status": "proved",
   "theorems": [
    "SST.Round.C284_weights"
   ],
   "note": ""
  },
  {
   "property": "C285",
   "status": "partial",
   "theorems": [
    "SST.Round.C285_stats_partial",
    "SST.Round.C285_violated"
   ],
   "note": "Everything but the mean is proved (C285_stats_partial). The mean may exceed the maximum (C285_violated: three samples of 0.1); proved is that it does so by at most as many roundings as there are samples."
  },
  {
   "property": "C286",
   "status": "proved",
   "theorems": [
    "SST.Round.C286_large_accepted",
    "SST.Round.C286_accepted"
   ],
   "note": ""
  },
  {
   "property": "C287",
   "status": "proved",
   "theorems": [
    "SST.Round.C287_scaled"
   ],
   "note": ""
  },
  {
   "property": "C288",
   "status": "proved",
   "theorems": [
    "SST.Round.C288_scaled"
   ],
   "note": ""
  },
  {
   "property": "C289",
   "status": "proved",
   "theorems": [
    "SST.Round.C289_sum",
    "SST.Round.C289_normalized"
   ],
   "note": ""
  },
  {
   "property": "C290",
   "status": "proved",
   "theorems": [
    "SST.Round.C290_broadened"
   ],
   "note": ""
  },
  {
   "property": "C291",
   "status": "proved",
   "theorems": [
    "SST.Round.C291_original",
    "SST.Round.C291_basic"
   ],
   "note": ""
  }
 ]
}
