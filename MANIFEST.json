{
 "claims": [
  {
   "property": "C01",
   "status": "proved",
   "theorems": [
    "KK.C01_filter_shapes",
    "KK.C01_ekf_filter_shapes",
    "KK.C01_smooth_shapes",
    "KK.C01_ekf_smooth_shapes"
   ],
   "note": ""
  },
  {
   "property": "C02",
   "status": "proved",
   "theorems": [
    "KK.C02_truncation",
    "KK.C02_ekf_truncation"
   ],
   "note": ""
  },
  {
   "property": "C03",
   "status": "proved",
   "theorems": [
    "KK.C03_prefix",
    "KK.C03_ekf_prefix",
    "KK.C03_causal",
    "KK.C03_ekf_causal"
   ],
   "note": ""
  },
  {
   "property": "C04",
   "status": "proved",
   "theorems": [
    "KK.C04_restart",
    "KK.C04_ekf_restart"
   ],
   "note": ""
  },
  {
   "property": "C05",
   "status": "proved",
   "theorems": [
    "KK.C05_history_independent",
    "KK.C05_ekf_history_independent"
   ],
   "note": ""
  },
  {
   "property": "C06",
   "status": "proved",
   "theorems": [
    "KK.C06_gain_ledger",
    "KK.C06_ekf_gain_ledger"
   ],
   "note": ""
  },
  {
   "property": "C07",
   "status": "proved",
   "theorems": [
    "KK.C07_partial_failure",
    "KK.C07_ekf_partial_failure"
   ],
   "note": ""
  },
  {
   "property": "C08",
   "status": "proved",
   "theorems": [
    "KK.C08_data_independent",
    "KK.C08_smooth_data_independent"
   ],
   "note": ""
  },
  {
   "property": "C09",
   "status": "proved",
   "theorems": [
    "KK.C09_none_U",
    "KK.C09_none_B",
    "KK.C09_predict",
    "KK.C09_control_irrelevant",
    "KK.C09_zero_control"
   ],
   "note": ""
  },
  {
   "property": "C10",
   "status": "proved",
   "theorems": [
    "KK.C10_int_sentinel",
    "KK.C10_none_none",
    "KK.C10_none_is_not_no_control"
   ],
   "note": ""
  },
  {
   "property": "C11",
   "status": "proved",
   "theorems": [
    "KK.C11_nan_observation"
   ],
   "note": ""
  },
  {
   "property": "C12",
   "status": "proved",
   "theorems": [
    "KK.C12_nan_smooth"
   ],
   "note": ""
  },
  {
   "property": "C13",
   "status": "proved",
   "theorems": [
    "KK.C13_ekf_eq_kf",
    "KK.C13_ekf_eq_kf_no_control"
   ],
   "note": ""
  },
  {
   "property": "C14",
   "status": "proved",
   "theorems": [
    "KK.C14_ekf_smooth_eq_kf",
    "KK.C14_ekf_smooth_eq_kf_no_control"
   ],
   "note": ""
  },
  {
   "property": "C15",
   "status": "proved",
   "theorems": [
    "KK.C15_last_smoothed",
    "KK.C15_ekf_last_smoothed"
   ],
   "note": ""
  },
  {
   "property": "C16",
   "status": "proved",
   "theorems": [
    "KK.C16_empty",
    "KK.C16_ekf_empty"
   ],
   "note": ""
  },
  {
   "property": "C17",
   "status": "proved",
   "theorems": [
    "KK.C17_wrong_state_size",
    "KK.C17_default_state_size"
   ],
   "note": ""
  },
  {
   "property": "C18",
   "status": "proved",
   "theorems": [
    "KK.C18_column_state",
    "KK.C18_ekf_column_state"
   ],
   "note": ""
  },
  {
   "property": "C19",
   "status": "proved",
   "theorems": [
    "KK.C19_scalar_parameter",
    "KK.C19_ekf_scalar_parameter"
   ],
   "note": ""
  },
  {
   "property": "C20",
   "status": "proved",
   "theorems": [
    "KK.C20_predict_none"
   ],
   "note": ""
  },
  {
   "property": "C21",
   "status": "proved",
   "theorems": [
    "KK.C21_is_nan_all"
   ],
   "note": ""
  },
  {
   "property": "C22",
   "status": "proved",
   "theorems": [
    "KK.C22_check_none_and_broadcast"
   ],
   "note": ""
  },
  {
   "property": "C23",
   "status": "proved",
   "theorems": [
    "KK.C23_partial_nan_control"
   ],
   "note": ""
  },
  {
   "property": "C24",
   "status": "proved",
   "theorems": [
    "KK.C24_filter_textbook",
    "KK.C24_update",
    "KK.C24_predict"
   ],
   "note": ""
  },
  {
   "property": "C25",
   "status": "proved",
   "theorems": [
    "KK.C25_linalgerror"
   ],
   "note": ""
  },
  {
   "property": "C26",
   "status": "proved",
   "theorems": [
    "KK.C26_psd"
   ],
   "note": ""
  },
  {
   "property": "C27",
   "status": "proved",
   "theorems": [
    "KK.C27_pd"
   ],
   "note": ""
  },
  {
   "property": "C28",
   "status": "proved",
   "theorems": [
    "KK.C28_update_reduces"
   ],
   "note": ""
  },
  {
   "property": "C29",
   "status": "proved",
   "theorems": [
    "KK.C29_joseph"
   ],
   "note": ""
  },
  {
   "property": "C30",
   "status": "proved",
   "theorems": [
    "KK.C30_gain_optimal"
   ],
   "note": ""
  },
  {
   "property": "C31",
   "status": "proved",
   "theorems": [
    "KK.C31_information"
   ],
   "note": ""
  },
  {
   "property": "C32",
   "status": "proved",
   "theorems": [
    "KK.C32_noise_ratio"
   ],
   "note": ""
  },
  {
   "property": "C33",
   "status": "proved",
   "theorems": [
    "KK.C33_state_coordinates"
   ],
   "note": ""
  },
  {
   "property": "C34",
   "status": "proved",
   "theorems": [
    "KK.C34_sequential",
    "KK.C34_sequential_pd"
   ],
   "note": ""
  },
  {
   "property": "C35",
   "status": "proved",
   "theorems": [
    "KK.C35_measurement_coordinates"
   ],
   "note": ""
  },
  {
   "property": "C36",
   "status": "proved",
   "theorems": [
    "KK.C36_superposition"
   ],
   "note": ""
  },
  {
   "property": "C37",
   "status": "proved",
   "theorems": [
    "KK.C37_exact_tracking"
   ],
   "note": ""
  },
  {
   "property": "C38",
   "status": "proved",
   "theorems": [
    "KK.C38_perfect_measurement",
    "KK.C38_perfect_invertible"
   ],
   "note": ""
  },
  {
   "property": "C39",
   "status": "proved",
   "theorems": [
    "KK.C39_useless",
    "KK.C39_certain_run"
   ],
   "note": ""
  },
  {
   "property": "C40",
   "status": "proved",
   "theorems": [
    "KK.C40_precision_weighted_mean",
    "KK.C40_weighted_average"
   ],
   "note": ""
  },
  {
   "property": "C41",
   "status": "proved",
   "theorems": [
    "KK.C41_smooth_rts"
   ],
   "note": ""
  },
  {
   "property": "C42",
   "status": "proved",
   "theorems": [
    "KK.C42_smoothed_le"
   ],
   "note": ""
  },
  {
   "property": "C43",
   "status": "proved",
   "theorems": [
    "KK.C43_filter_batch"
   ],
   "note": ""
  },
  {
   "property": "C44",
   "status": "proved",
   "theorems": [
    "KK.C44_smooth_batch"
   ],
   "note": ""
  },
  {
   "property": "C45",
   "status": "proved",
   "theorems": [
    "KK.C45_normalised_error",
    "KK.C45_calibrated"
   ],
   "note": ""
  },
  {
   "property": "C46",
   "status": "proved",
   "theorems": [
    "KK.C46_best_affine"
   ],
   "note": ""
  },
  {
   "property": "C47",
   "status": "proved",
   "theorems": [
    "KK.C47_best_estimate"
   ],
   "note": ""
  },
  {
   "property": "C48",
   "status": "proved",
   "theorems": [
    "KK.C48_smoother"
   ],
   "note": ""
  },
  {
   "property": "C49",
   "status": "proved",
   "theorems": [
    "KK.C49_monotone"
   ],
   "note": ""
  },
  {
   "property": "C50",
   "status": "proved",
   "theorems": [
    "KK.C50_ekf_psd",
    "KK.C50_update_reduces",
    "KK.C50_smooth_le"
   ],
   "note": ""
  },
  {
   "property": "C51",
   "status": "proved",
   "theorems": [
    "KK.C51_filter_textbook",
    "KK.C51_filter_linalgerror",
    "KK.C51_smooth_textbook",
    "KK.C51_predict",
    "KK.C51_update"
   ],
   "note": ""
  },
  {
   "property": "C52",
   "status": "proved",
   "theorems": [
    "KK.C52_none_is_nan",
    "KK.C52_ignores_control",
    "KK.C52_control_dependent"
   ],
   "note": ""
  },
  {
   "property": "C53",
   "status": "proved",
   "theorems": [
    "KK.C53_scalar_noise_is_full_matrix",
    "KK.C53_smooth_scalar_noise_is_full_matrix",
    "KK.C53_ekf_scalar_noise_is_full_matrix",
    "KK.C53_duplicated_sensor_raises",
    "KK.C53_scalar_is_not_identity"
   ],
   "note": ""
  },
  {
   "property": "C54",
   "status": "proved",
   "theorems": [
    "KK.C54_steady_state"
   ],
   "note": ""
  },
  {
   "property": "C55",
   "status": "proved",
   "theorems": [
    "KK.C55_pendulum",
    "KK.C55_pendulum_jacobians"
   ],
   "note": ""
  },
  {
   "property": "C56",
   "status": "proved",
   "theorems": [
    "KK.C56_constant_velocity"
   ],
   "note": ""
  },
  {
   "property": "C57",
   "status": "proved",
   "theorems": [
    "KK.C57_market_beta"
   ],
   "note": ""
  },
  {
   "property": "C58",
   "status": "proved",
   "theorems": [
    "KK.C58_contraction"
   ],
   "note": ""
  },
  {
   "property": "C59",
   "status": "proved",
   "theorems": [
    "KK.C59_monotone",
    "KK.C59_converges"
   ],
   "note": ""
  },
  {
   "property": "C60",
   "status": "proved",
   "theorems": [
    "KK.C60_threads",
    "KK.C60_threads_ext",
    "KK.C60_progress",
    "KK.C60_progress_ext"
   ],
   "note": ""
  },
  {
   "property": "C61",
   "status": "proved",
   "theorems": [
    "KK.C61_stopped",
    "KK.C61_stopped_ext"
   ],
   "note": ""
  },
  {
   "property": "C62",
   "status": "proved",
   "theorems": [
    "KK.C62_filter_writes_nothing_old",
    "KK.C62_smooth_writes_nothing_old",
    "KK.C62_predict_writes_nothing_old",
    "KK.C62_update_writes_nothing_old",
    "KK.C62_new_writes_nothing_old"
   ],
   "note": ""
  },
  {
   "property": "C63",
   "status": "proved",
   "theorems": [
    "KK.C63_filter_returns_new_arrays",
    "KK.C63_smooth_returns_new_arrays",
    "KK.C63_predict_returns_new_arrays",
    "KK.C63_update_returns_new_arrays"
   ],
   "note": ""
  },
  {
   "property": "C64",
   "status": "proved",
   "theorems": [
    "KK.C64_filter_after_scribbles",
    "KK.C64_smooth_after_scribbles",
    "KK.C64_old_arrays_intact"
   ],
   "note": ""
  },
  {
   "property": "C65",
   "status": "proved",
   "theorems": [
    "KK.C65_constructor_keeps_references",
    "KK.C65_in_place_change_is_seen"
   ],
   "note": ""
  },
  {
   "property": "C66",
   "status": "proved",
   "theorems": [
    "KK.C66_predictions"
   ],
   "note": ""
  },
  {
   "property": "C67",
   "status": "proved",
   "theorems": [
    "KK.C67_white_innovations"
   ],
   "note": ""
  },
  {
   "property": "C68",
   "status": "proved",
   "theorems": [
    "KK.C68_unbiased",
    "KK.C68_unbiased_smooth"
   ],
   "note": ""
  },
  {
   "property": "C69",
   "status": "proved",
   "theorems": [
    "KK.C69_conservative",
    "KK.C69_conservative_smooth"
   ],
   "note": ""
  },
  {
   "property": "C70",
   "status": "proved",
   "theorems": [
    "KK.Version.C70_tagged_checkout"
   ],
   "note": ""
  },
  {
   "property": "C71",
   "status": "proved",
   "theorems": [
    "KK.Version.C71_version_identifies_build"
   ],
   "note": ""
  },
  {
   "property": "C72",
   "status": "proved",
   "theorems": [
    "KK.Version.C72_untagged_checkout"
   ],
   "note": ""
  },
  {
   "property": "C73",
   "status": "proved",
   "theorems": [
    "KK.Version.C73_pep440",
    "KK.Version.C73_unknown_is_invalid",
    "KK.Version.C73_pep440_untagged"
   ],
   "note": ""
  },
  {
   "property": "C74",
   "status": "proved",
   "theorems": [
    "KK.Version.C74_import_succeeds",
    "KK.Version.C74_git_show_fails"
   ],
   "note": ""
  },
  {
   "property": "C75",
   "status": "proved",
   "theorems": [
    "KK.Version.C75_outside_checkout"
   ],
   "note": ""
  },
  {
   "property": "C76",
   "status": "proved",
   "theorems": [
    "KK.Version.C76_archive",
    "KK.Version.C76_archive_unknown"
   ],
   "note": ""
  },
  {
   "property": "C77",
   "status": "proved",
   "theorems": [
    "KK.Version.C77_release_in_every_style",
    "KK.Version.C77_describe_round_trip"
   ],
   "note": ""
  },
  {
   "property": "C78",
   "status": "proved",
   "theorems": [
    "KK.C78_filter_writes_only_scratch",
    "KK.C78_smooth_writes_only_scratch",
    "KK.C78_update_writes_only_scratch",
    "KK.C78_predict_writes_only_scratch",
    "KK.C78_new_writes_nothing_old"
   ],
   "note": ""
  },
  {
   "property": "C79",
   "status": "proved",
   "theorems": [
    "KK.C79_filter_returns_new_arrays",
    "KK.C79_smooth_returns_new_arrays",
    "KK.C79_predict_values",
    "KK.C79_update_returns_new_arrays"
   ],
   "note": ""
  },
  {
   "property": "C80",
   "status": "proved",
   "theorems": [
    "KK.C80_filter_after_scribbles",
    "KK.C80_smooth_after_scribbles",
    "KK.C80_old_arrays_intact"
   ],
   "note": ""
  },
  {
   "property": "C81",
   "status": "proved",
   "theorems": [
    "KK.C81_constructor_keeps_references",
    "KK.C81_in_place_change_is_seen"
   ],
   "note": ""
  },
  {
   "property": "C82",
   "status": "proved",
   "theorems": [
    "KK.C82_convergence"
   ],
   "note": ""
  },
  {
   "property": "C83",
   "status": "proved",
   "theorems": [
    "KK.C83_forgetting"
   ],
   "note": ""
  },
  {
   "property": "C84",
   "status": "proved",
   "theorems": [
    "KK.C84_bounded",
    "KK.C84_bounded_start"
   ],
   "note": ""
  },
  {
   "property": "C85",
   "status": "proved",
   "theorems": [
    "KK.C85_initial_state"
   ],
   "note": ""
  },
  {
   "property": "C86",
   "status": "proved",
   "theorems": [
    "KK.C86_filter_consistent",
    "KK.C86_smooth_consistent",
    "KK.C86_filter_textbook",
    "KK.C86_smooth_rts",
    "KK.C86_filter_continuous",
    "KK.C86_smooth_continuous"
   ],
   "note": ""
  },
  {
   "property": "C87",
   "status": "proved",
   "theorems": [
    "KK.C87_ext_filter_consistent",
    "KK.C87_ext_smooth_consistent",
    "KK.C87_pendulum_consistent"
   ],
   "note": ""
  },
  {
   "property": "C88",
   "status": "proved",
   "theorems": [
    "KK.C88_short_sequence",
    "KK.C88_ekf_short_sequence",
    "KK.C88_short_measurements"
   ],
   "note": ""
  },
  {
   "property": "C89",
   "status": "proved",
   "theorems": [
    "KK.C89_filter_subsystems",
    "KK.C89_smooth_subsystems"
   ],
   "note": ""
  },
  {
   "property": "C90",
   "status": "proved",
   "theorems": [
    "KK.C90_two_filter"
   ],
   "note": ""
  },
  {
   "property": "C91",
   "status": "proved",
   "theorems": [
    "KK.C91_more_data"
   ],
   "note": ""
  },
  {
   "property": "C92",
   "status": "proved",
   "theorems": [
    "KK.C92_better_sensors_filter",
    "KK.C92_better_sensors_smooth",
    "KK.C92_fewer_sensors"
   ],
   "note": ""
  },
  {
   "property": "C93",
   "status": "proved",
   "theorems": [
    "KK.C93_smooth_monotone"
   ],
   "note": ""
  },
  {
   "property": "C94",
   "status": "proved",
   "theorems": [
    "KK.C94_filter",
    "KK.C94_smooth",
    "KK.C94_ext_filter",
    "KK.C94_ext_smooth",
    "KK.C94_binary"
   ],
   "note": ""
  },
  {
   "property": "C95",
   "status": "proved",
   "theorems": [
    "KK.C95_ekf_coordinates",
    "KK.C95_kf_coordinates"
   ],
   "note": ""
  },
  {
   "property": "C96",
   "status": "proved",
   "theorems": [
    "KK.C96_ekf_noise_ratio"
   ],
   "note": ""
  },
  {
   "property": "C97",
   "status": "proved",
   "theorems": [
    "KK.C97_ekf_exact_tracking"
   ],
   "note": ""
  },
  {
   "property": "C98",
   "status": "proved",
   "theorems": [
    "KK.C98_ekf_linearised",
    "KK.C98_ekf_affine"
   ],
   "note": ""
  },
  {
   "property": "C99",
   "status": "proved",
   "theorems": [
    "KK.C99_observer",
    "KK.C99_converges"
   ],
   "note": ""
  },
  {
   "property": "C100",
   "status": "proved",
   "theorems": [
    "KK.C100_gaps"
   ],
   "note": ""
  },
  {
   "property": "C101",
   "status": "proved",
   "theorems": [
    "KK.C101_forecast"
   ],
   "note": ""
  },
  {
   "property": "C102",
   "status": "proved",
   "theorems": [
    "KK.Version.C102_sdist",
    "KK.Version.C102_any_text"
   ],
   "note": ""
  },
  {
   "property": "C103",
   "status": "proved",
   "theorems": [
    "KK.Version.C103_installed",
    "KK.Version.C103_installed_from_checkout"
   ],
   "note": ""
  },
  {
   "property": "C104",
   "status": "proved",
   "theorems": [
    "KK.Version.C104_same_in_checkout"
   ],
   "note": ""
  },
  {
   "property": "C105",
   "status": "proved",
   "theorems": [
    "KK.Version.C105_newer_with_history",
    "KK.Version.C105_between_releases",
    "KK.Version.C105_text_determines"
   ],
   "note": ""
  },
  {
   "property": "C106",
   "status": "proved",
   "theorems": [
    "KK.Version.C106_styles",
    "KK.Version.C106_untagged",
    "KK.Version.C106_pre_after_post",
    "KK.Version.C106_pre_after_bare_post",
    "KK.Version.C106_styles",
    "KK.Version.C106_newer_with_history",
    "KK.Version.C106_branch_sorts_backwards",
    "KK.Version.C106_dirty_sorts_backwards"
   ],
   "note": ""
  },
  {
   "property": "C107",
   "status": "proved",
   "theorems": [
    "KK.Version.C107_on_branch",
    "KK.Version.C107_detached"
   ],
   "note": ""
  },
  {
   "property": "C108",
   "status": "proved",
   "theorems": [
    "KK.C108_no_drift",
    "KK.C108_binary"
   ],
   "note": ""
  },
  {
   "property": "C109",
   "status": "proved",
   "theorems": [
    "KK.C109_steady_start",
    "KK.C109_fixed_gain"
   ],
   "note": ""
  },
  {
   "property": "C110",
   "status": "proved",
   "theorems": [
    "KK.C110_uncertainty_stays",
    "KK.C110_offset_stays",
    "KK.C110_unobservable_mode"
   ],
   "note": ""
  },
  {
   "property": "C111",
   "status": "proved",
   "theorems": [
    "KK.C111_fixed_lag",
    "KK.C111_bounded_data"
   ],
   "note": ""
  },
  {
   "property": "C112",
   "status": "proved",
   "theorems": [
    "KK.C112_steady_smoother"
   ],
   "note": ""
  },
  {
   "property": "C113",
   "status": "proved",
   "theorems": [
    "KK.C113_filter_one_by_one",
    "KK.C113_smooth_one_by_one"
   ],
   "note": ""
  },
  {
   "property": "C114",
   "status": "proved",
   "theorems": [
    "KK.C114_no_drift_smooth",
    "KK.C114_binary"
   ],
   "note": ""
  },
  {
   "property": "C115",
   "status": "proved",
   "theorems": [
    "KK.C115_filter_subsystems",
    "KK.C115_smooth_subsystems"
   ],
   "note": ""
  },
  {
   "property": "C116",
   "status": "proved",
   "theorems": [
    "KK.C116_error_bars",
    "KK.C116_error_bars_smooth",
    "KK.C116_posterior",
    "KK.C116_posterior_smooth",
    "KK.C116_predictive"
   ],
   "note": ""
  },
  {
   "property": "C117",
   "status": "proved",
   "theorems": [
    "KK.C117_observable",
    "KK.C117_observer",
    "KK.C117_full_state",
    "KK.C117_pendulum"
   ],
   "note": ""
  },
  {
   "property": "C118",
   "status": "proved",
   "theorems": [
    "KK.C118_by_hand",
    "KK.C118_ext_by_hand",
    "KK.C118_missing",
    "KK.C118_ext_missing"
   ],
   "note": ""
  },
  {
   "property": "C119",
   "status": "proved",
   "theorems": [
    "KK.C119_covariance",
    "KK.C119_forgets",
    "KK.C119_constant"
   ],
   "note": ""
  },
  {
   "property": "C120",
   "status": "proved",
   "theorems": [
    "KK.C120_observer",
    "KK.C120_bounded"
   ],
   "note": ""
  },
  {
   "property": "C121",
   "status": "proved",
   "theorems": [
    "KK.C121_initial_state"
   ],
   "note": ""
  },
  {
   "property": "C122",
   "status": "proved",
   "theorems": [
    "KK.C122_fixed_lag",
    "KK.C122_from_start"
   ],
   "note": ""
  },
  {
   "property": "C123",
   "status": "proved",
   "theorems": [
    "KK.C123_smoother_observer"
   ],
   "note": ""
  },
  {
   "property": "C124",
   "status": "proved",
   "theorems": [
    "KK.C124_forgets"
   ],
   "note": ""
  },
  {
   "property": "C125",
   "status": "proved",
   "theorems": [
    "KK.C125_no_drift_varying",
    "KK.C125_binary"
   ],
   "note": ""
  },
  {
   "property": "C126",
   "status": "proved",
   "theorems": [
    "KK.C126_no_drift_smooth_varying",
    "KK.C126_binary"
   ],
   "note": ""
  },
  {
   "property": "C127",
   "status": "proved",
   "theorems": [
    "KK.C127_smoother_observer",
    "KK.C127_observable",
    "KK.C127_pendulum"
   ],
   "note": ""
  },
  {
   "property": "C128",
   "status": "proved",
   "theorems": [
    "KK.Version.C128_text_is_kept",
    "KK.Version.C128_unconfigured",
    "KK.Version.C128_old_lines_lost",
    "KK.Version.C128_other_vcs",
    "KK.Version.C128_old_lines_replaced"
   ],
   "note": ""
  },
  {
   "property": "C129",
   "status": "proved",
   "theorems": [
    "KK.Version.C129_once",
    "KK.Version.C129_twice",
    "KK.Version.C129_not_repaired",
    "KK.Version.C129_settings",
    "KK.Version.C129_settings_any",
    "KK.Version.C129_no_toml"
   ],
   "note": ""
  },
  {
   "property": "C130",
   "status": "proved",
   "theorems": [
    "KK.C130_ext_no_drift",
    "KK.C130_ext_no_drift_float"
   ],
   "note": ""
  },
  {
   "property": "C131",
   "status": "proved",
   "theorems": [
    "KK.C131_update",
    "KK.C131_direct",
    "KK.C131_negative",
    "KK.C131_asymmetric"
   ],
   "note": ""
  },
  {
   "property": "C132",
   "status": "proved",
   "theorems": [
    "KK.C132_means",
    "KK.C132_covariances",
    "KK.C132_check",
    "KK.C132_ieee"
   ],
   "note": ""
  },
  {
   "property": "C133",
   "status": "proved",
   "theorems": [
    "KK.C133_covariances",
    "KK.C133_means"
   ],
   "note": ""
  },
  {
   "property": "C134",
   "status": "proved",
   "theorems": [
    "KK.C134_smooth",
    "KK.C134_ext_smooth",
    "KK.C134_from_data"
   ],
   "note": ""
  },
  {
   "property": "C135",
   "status": "proved",
   "theorems": [
    "KK.C135_ext_update",
    "KK.C135_ext_filter",
    "KK.C135_ext_trap",
    "KK.C135_update",
    "KK.C135_filter",
    "KK.C135_trap",
    "KK.C135_one_sensor"
   ],
   "note": ""
  },
  {
   "property": "C136",
   "status": "proved",
   "theorems": [
    "KK.C136_new",
    "KK.C136_predict",
    "KK.C136_update",
    "KK.C136_filter",
    "KK.C136_smooth",
    "KK.C136_no_control"
   ],
   "note": ""
  },
  {
   "property": "C137",
   "status": "proved",
   "theorems": [
    "KK.C137_new",
    "KK.C137_predict_transition",
    "KK.C137_predict_control",
    "KK.C137_update",
    "KK.C137_filter",
    "KK.C137_ragged"
   ],
   "note": ""
  },
  {
   "property": "C138",
   "status": "proved",
   "theorems": [
    "KK.C138_filter",
    "KK.C138_smooth",
    "KK.C138_jacobian_A",
    "KK.C138_jacobian_H",
    "KK.C138_lists_clash"
   ],
   "note": ""
  },
  {
   "property": "C139",
   "status": "proved",
   "theorems": [
    "KK.C139_broadcast",
    "KK.C139_ext_broadcast"
   ],
   "note": ""
  },
  {
   "property": "C140",
   "status": "proved",
   "theorems": [
    "KK.C140_accepted",
    "KK.C140_fits",
    "KK.C140_exceptions",
    "KK.C140_ext_accepted",
    "KK.C140_ext_fits",
    "KK.C140_ext_exceptions"
   ],
   "note": ""
  },
  {
   "property": "C141",
   "status": "proved",
   "theorems": [
    "KK.C141_noise_vectors",
    "KK.C141_rejected",
    "KK.C141_accepted",
    "KK.C141_shared_correction",
    "KK.C141_initial_variances"
   ],
   "note": ""
  },
  {
   "property": "C142",
   "status": "proved",
   "theorems": [
    "KK.C142_filter",
    "KK.C142_smooth",
    "KK.C142_predict",
    "KK.C142_update"
   ],
   "note": ""
  },
  {
   "property": "C143",
   "status": "proved",
   "theorems": [
    "KK.C143_logging_is_invisible",
    "KK.C143_filter_calls",
    "KK.C143_filter_calls_until",
    "KK.C143_smooth_calls",
    "KK.C143_smooth_calls_until"
   ],
   "note": ""
  },
  {
   "property": "C144",
   "status": "proved",
   "theorems": [
    "KK.C144_filter_time_varying",
    "KK.C144_counters_after_error",
    "KK.C144_counters_after_smooth",
    "KK.C144_smooth_runs_out"
   ],
   "note": ""
  },
  {
   "property": "C145",
   "status": "proved",
   "theorems": [
    "KK.C145_filter_reads_once",
    "KK.C145_smooth_reads_twice",
    "KK.C145_filter_reentrant",
    "KK.C145_smooth_reentrant",
    "KK.C145_methods_only_append"
   ],
   "note": ""
  },
  {
   "property": "C146",
   "status": "proved",
   "theorems": [
    "KK.C146_filter",
    "KK.C146_ext_filter",
    "KK.C146_read",
    "KK.C146_ext_read",
    "KK.C146_raised",
    "KK.C146_ext_raised",
    "KK.C146_repeat",
    "KK.C146_ext_repeat",
    "KK.C146_second",
    "KK.C146_observations",
    "KK.C146_no_control"
   ],
   "note": ""
  },
  {
   "property": "C147",
   "status": "proved",
   "theorems": [
    "KK.C147_smooth",
    "KK.C147_raises",
    "KK.C147_ext_smooth",
    "KK.C147_ext_raises"
   ],
   "note": ""
  },
  {
   "property": "C148",
   "status": "proved",
   "theorems": [
    "KK.C148_all_single",
    "KK.C148_single_A",
    "KK.C148_single_A_controlled",
    "KK.C148_rest_zero",
    "KK.C148_single_noise",
    "KK.C148_ext_single_noise",
    "KK.C148_ext_rest_zero",
    "KK.C148_single_H",
    "KK.C148_single_square_H"
   ],
   "note": ""
  },
  {
   "property": "C149",
   "status": "proved",
   "theorems": [
    "KK.C149_filter",
    "KK.C149_smooth",
    "KK.C149_ext_filter",
    "KK.C149_ext_smooth",
    "KK.C149_plain",
    "KK.C149_ext_plain"
   ],
   "note": ""
  },
  {
   "property": "C150",
   "status": "proved",
   "theorems": [
    "KK.C150_ext_missing_filter",
    "KK.C150_skipping",
    "KK.C150_ext_skipping",
    "KK.C150_missing_filter",
    "KK.C150_missing_smooth"
   ],
   "note": ""
  },
  {
   "property": "C151",
   "status": "proved",
   "theorems": [
    "KK.C151_calls_in_between",
    "KK.C151_assigned",
    "KK.C151_B_none",
    "KK.C151_stale_length",
    "KK.C151_without_control",
    "KK.C151_other_size",
    "KK.C151_size_assigned",
    "KK.C151_size_assigned_from_one",
    "KK.C151_ext_calls_in_between",
    "KK.C151_ext_assigned"
   ],
   "note": ""
  },
  {
   "property": "C152",
   "status": "proved",
   "theorems": [
    "KK.C152_logging_is_invisible",
    "KK.C152_ext_logging_is_invisible",
    "KK.C152_filter_calls",
    "KK.C152_filter_calls_until",
    "KK.C152_ext_filter_calls",
    "KK.C152_ext_filter_calls_until",
    "KK.C152_smooth_calls",
    "KK.C152_smooth_calls_until",
    "KK.C152_ext_smooth_calls",
    "KK.C152_ext_smooth_calls_until"
   ],
   "note": ""
  },
  {
   "property": "C153",
   "status": "proved",
   "theorems": [
    "KK.C153_likelihood",
    "KK.C153_chi_square",
    "KK.C153_log"
   ],
   "note": ""
  },
  {
   "property": "C154",
   "status": "proved",
   "theorems": [
    "KK.C154_results",
    "KK.C154_undisturbed",
    "KK.C154_ledgers",
    "KK.C154_shallow_copy",
    "KK.C154_deep_copy",
    "KK.C154_new",
    "KK.C154_changed",
    "KK.C154_rebound"
   ],
   "note": ""
  },
  {
   "property": "C155",
   "status": "proved",
   "theorems": [
    "KK.C155_least_squares",
    "KK.C155_order",
    "KK.C155_smooth",
    "KK.C155_error",
    "KK.C155_consistency",
    "KK.C155_mean_square"
   ],
   "note": ""
  },
  {
   "property": "C156",
   "status": "proved",
   "theorems": [
    "KK.C156_uniform"
   ],
   "note": ""
  },
  {
   "property": "C157",
   "status": "proved",
   "theorems": [
    "KK.C157_filter",
    "KK.C157_ext_filter",
    "KK.C157_read",
    "KK.C157_ext_read",
    "KK.C157_raised",
    "KK.C157_ext_raised",
    "KK.C157_smooth",
    "KK.C157_noise"
   ],
   "note": ""
  },
  {
   "property": "C158",
   "status": "proved",
   "theorems": [
    "KK.C158_inherited",
    "KK.C158_ext_inherited",
    "KK.C158_raises",
    "KK.C158_ext_raises",
    "KK.C158_adds",
    "KK.C158_ext_adds",
    "KK.C158_same",
    "KK.C158_ext_same",
    "KK.C158_rts",
    "KK.C158_ext_rts"
   ],
   "note": ""
  },
  {
   "property": "C159",
   "status": "proved",
   "theorems": [
    "KK.C159_filter",
    "KK.C159_smooth",
    "KK.C159_gate",
    "KK.C159_any",
    "KK.C159_any_smooth"
   ],
   "note": ""
  },
  {
   "property": "C160",
   "status": "proved",
   "theorems": [
    "KK.C160_outcome",
    "KK.C160_ext_outcome",
    "KK.C160_fits",
    "KK.C160_after_filter",
    "KK.C160_ext_fits",
    "KK.C160_ext_after_filter"
   ],
   "note": ""
  },
  {
   "property": "C161",
   "status": "proved",
   "theorems": [
    "KK.C161_exists",
    "KK.C161_reverse",
    "KK.C161_filter_last",
    "KK.C161_stationary",
    "KK.C161_reversible"
   ],
   "note": ""
  },
  {
   "property": "C162",
   "status": "proved",
   "theorems": [
    "KK.C162_cross",
    "KK.C162_trajectory",
    "KK.C162_moments"
   ],
   "note": ""
  },
  {
   "property": "C163",
   "status": "proved",
   "theorems": [
    "KK.Version.C163_root",
    "KK.Version.C163_anywhere",
    "KK.Version.C163_other_project",
    "KK.Version.C163_this_project",
    "KK.Version.C163_checkout",
    "KK.Version.C163_no_toml"
   ],
   "note": ""
  },
  {
   "property": "C164",
   "status": "proved",
   "theorems": [
    "KK.C164_moving_frame",
    "KK.C164_deviations"
   ],
   "note": ""
  },
  {
   "property": "C165",
   "status": "proved",
   "theorems": [
    "KK.C165_convergence",
    "KK.C165_observer",
    "KK.C165_bounded",
    "KK.C165_conditions"
   ],
   "note": ""
  },
  {
   "property": "C166",
   "status": "proved",
   "theorems": [
    "KK.C166_steady",
    "KK.C166_grows",
    "KK.C166_bounded"
   ],
   "note": ""
  },
  {
   "property": "C167",
   "status": "proved",
   "theorems": [
    "KK.C167_filter",
    "KK.C167_means",
    "KK.C167_memory"
   ],
   "note": ""
  },
  {
   "property": "C168",
   "status": "proved",
   "theorems": [
    "KK.C168_fixed_gain",
    "KK.C168_forget"
   ],
   "note": ""
  },
  {
   "property": "C169",
   "status": "proved",
   "theorems": [
    "KK.C169_no_drift",
    "KK.C169_binary"
   ],
   "note": ""
  },
  {
   "property": "C170",
   "status": "proved",
   "theorems": [
    "KK.C170_no_drift_smooth",
    "KK.C170_binary",
    "KK.C170_conditions"
   ],
   "note": ""
  },
  {
   "property": "C171",
   "status": "proved",
   "theorems": [
    "KK.C171_fixed_lag",
    "KK.C171_bounded"
   ],
   "note": ""
  },
  {
   "property": "C172",
   "status": "proved",
   "theorems": [
    "KK.C172_steady_smoother"
   ],
   "note": ""
  },
  {
   "property": "C173",
   "status": "proved",
   "theorems": [
    "KK.C173_fixed_gains",
    "KK.C173_forget"
   ],
   "note": ""
  },
  {
   "property": "C174",
   "status": "proved",
   "theorems": [
    "KK.C174_exponential_smoothing"
   ],
   "note": ""
  },
  {
   "property": "C175",
   "status": "proved",
   "theorems": [
    "KK.C175_order",
    "KK.C175_no_overshoot"
   ],
   "note": ""
  }
 ]
}