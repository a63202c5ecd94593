{
 "claims": [
  {
   "property": "C01",
   "status": "proved",
   "theorems": [
    "PyOTF.C01_fft_pad_shape",
    "PyOTF.C01_fft_pad_shape_int",
    "PyOTF.C01_fft_pad_shape_default",
    "PyOTF.C01_fft_pad_rank0"
   ],
   "note": ""
  },
  {
   "property": "C02",
   "status": "proved",
   "theorems": [
    "PyOTF.C02_fft_pad_aligned",
    "PyOTF.C02_fft_pad_zero_elsewhere"
   ],
   "note": ""
  },
  {
   "property": "C03",
   "status": "proved",
   "theorems": [
    "PyOTF.C03_pad_crop_roundtrip"
   ],
   "note": ""
  },
  {
   "property": "C04",
   "status": "proved",
   "theorems": [
    "PyOTF.C04_centre_displacement",
    "PyOTF.C04_centre_iff_parity"
   ],
   "note": ""
  },
  {
   "property": "C05",
   "status": "proved",
   "theorems": [
    "PyOTF.C05_slice_maker_window",
    "PyOTF.C05_rounding_half_even"
   ],
   "note": ""
  },
  {
   "property": "C06",
   "status": "proved",
   "theorems": [
    "PyOTF.C06_scalar_width",
    "PyOTF.C06_length_mismatch",
    "PyOTF.C06_complex",
    "PyOTF.C06_negative_width",
    "PyOTF.C06_accepts_iff"
   ],
   "note": ""
  },
  {
   "property": "C07",
   "status": "proved",
   "theorems": [
    "PyOTF.C07_easy_ifft_easy_fft",
    "PyOTF.C07_easy_fft_easy_ifft",
    "PyOTF.C07_round_trip_general",
    "PyOTF.C07_round_trip_odd_fails"
   ],
   "note": ""
  },
  {
   "property": "C08",
   "status": "proved",
   "theorems": [
    "PyOTF.C08_easy_fft_centred",
    "PyOTF.C08_easy_fft_1d",
    "PyOTF.C08_easy_fft_2d"
   ],
   "note": ""
  },
  {
   "property": "C09",
   "status": "proved",
   "theorems": [
    "PyOTF.C09_easy_fft_energy"
   ],
   "note": ""
  },
  {
   "property": "C10",
   "status": "proved",
   "theorems": [
    "PyOTF.C10_cart2pol",
    "PyOTF.C10_cart2pol_unique"
   ],
   "note": ""
  },
  {
   "property": "C11",
   "status": "proved",
   "theorems": [
    "PyOTF.C11_center_data",
    "PyOTF.C11_center_data_perm",
    "PyOTF.C11_center_data_ifftshift",
    "PyOTF.C11_center_data_empty"
   ],
   "note": ""
  },
  {
   "property": "C12",
   "status": "proved",
   "theorems": [
    "PyOTF.C12_remove_bg",
    "PyOTF.C12_mode_unique",
    "PyOTF.C12_remove_bg_rejects"
   ],
   "note": ""
  },
  {
   "property": "C13",
   "status": "proved",
   "theorems": [
    "PyOTF.C13_psqrt",
    "PyOTF.C13_psqrt_mono"
   ],
   "note": ""
  },
  {
   "property": "C14",
   "status": "proved",
   "theorems": [
    "PyOTF.C14_prep_pad"
   ],
   "note": ""
  },
  {
   "property": "C15",
   "status": "proved",
   "theorems": [
    "PyOTF.C15_prep_crop",
    "PyOTF.C15_prep_crop_peak",
    "PyOTF.C15_prep_crop_not_square",
    "PyOTF.C15_prep_crop_negative"
   ],
   "note": ""
  },
  {
   "property": "C16",
   "status": "proved",
   "theorems": [
    "PyOTF.C16_bin_blocks",
    "PyOTF.C16_bin_broadcast"
   ],
   "note": ""
  },
  {
   "property": "C17",
   "status": "proved",
   "theorems": [
    "PyOTF.C17_bin_total",
    "PyOTF.C17_bin_average"
   ],
   "note": ""
  },
  {
   "property": "C18",
   "status": "proved",
   "theorems": [
    "PyOTF.C18_nothing_given",
    "PyOTF.C18_unknown_operation",
    "PyOTF.C18_unknown_operation_bin",
    "PyOTF.C18_rank_mismatch",
    "PyOTF.C18_not_dividing",
    "PyOTF.C18_case_insensitive",
    "PyOTF.C18_dividing_accepted",
    "PyOTF.C18_mean_of_nothing",
    "PyOTF.C18_zero_size"
   ],
   "note": ""
  },
  {
   "property": "C19",
   "status": "proved",
   "theorems": [
    "PyOTF.C19_radial_profile",
    "PyOTF.C19_radial_profile_complex"
   ],
   "note": ""
  },
  {
   "property": "C20",
   "status": "proved",
   "theorems": [
    "PyOTF.C20_no_empty_ring",
    "PyOTF.C20_constant_image"
   ],
   "note": ""
  },
  {
   "property": "C21",
   "status": "proved",
   "theorems": [
    "PyOTF.C21_numeric_property",
    "PyOTF.C21_zero_and_nan_accepted"
   ],
   "note": ""
  },
  {
   "property": "C22",
   "status": "proved",
   "theorems": [
    "PyOTF.C22_noll_degrees_noll",
    "PyOTF.C22_degrees_noll_degrees"
   ],
   "note": ""
  },
  {
   "property": "C23",
   "status": "proved",
   "theorems": [
    "PyOTF.C23_standard_numbering",
    "PyOTF.C23_ordering"
   ],
   "note": ""
  },
  {
   "property": "C24",
   "status": "proved",
   "theorems": [
    "PyOTF.C24_noll_below_one",
    "PyOTF.C24_noll_above_120",
    "PyOTF.C24_parity",
    "PyOTF.C24_aliasing",
    "PyOTF.C24_inadmissible_accepted",
    "PyOTF.C24_wrap_and_range"
   ],
   "note": ""
  },
  {
   "property": "C25",
   "status": "proved",
   "theorems": [
    "PyOTF.C25_radial",
    "PyOTF.C25_radial_sign",
    "PyOTF.C25_rim"
   ],
   "note": ""
  },
  {
   "property": "C26",
   "status": "proved",
   "theorems": [
    "PyOTF.C26_orthonormal"
   ],
   "note": ""
  },
  {
   "property": "C27",
   "status": "proved",
   "theorems": [
    "PyOTF.C27_support",
    "PyOTF.C27_parity_zero",
    "PyOTF.C27_rotation",
    "PyOTF.C27_sin_cos",
    "PyOTF.C27_closed_form"
   ],
   "note": ""
  },
  {
   "property": "C28",
   "status": "proved",
   "theorems": [
    "PyOTF.C28_argument_count",
    "PyOTF.C28_index_rank",
    "PyOTF.C28_domain_errors",
    "PyOTF.C28_values",
    "PyOTF.C28_flat_pair"
   ],
   "note": ""
  },
  {
   "property": "C29",
   "status": "proved",
   "theorems": [
    "PyOTF.C29_names_denote_degrees",
    "PyOTF.C29_bijection"
   ],
   "note": ""
  },
  {
   "property": "C30",
   "status": "proved",
   "theorems": [
    "PyOTF.C30_named_coefficients",
    "PyOTF.C30_named_sum",
    "PyOTF.C30_order_independent"
   ],
   "note": ""
  },
  {
   "property": "C31",
   "status": "proved",
   "theorems": [
    "PyOTF.C31_hanser_coherent",
    "PyOTF.C31_outputs_from_state"
   ],
   "note": ""
  },
  {
   "property": "C32",
   "status": "proved",
   "theorems": [
    "PyOTF.C32_sheppard_coherent",
    "PyOTF.C32_outputs_from_params"
   ],
   "note": ""
  },
  {
   "property": "C33",
   "status": "proved",
   "theorems": [
    "PyOTF.C33_hanser_rejected",
    "PyOTF.C33_sheppard_rejected"
   ],
   "note": ""
  },
  {
   "property": "C34",
   "status": "proved",
   "theorems": [
    "PyOTF.C34_hanser_accepts",
    "PyOTF.C34_sheppard_accepts",
    "PyOTF.C34_hanser_attributes",
    "PyOTF.C34_infinite_wl",
    "PyOTF.C34_infinite_wl_error",
    "PyOTF.C34_nan_accepted",
    "PyOTF.C34_infinite_na",
    "PyOTF.C34_special_res"
   ],
   "note": ""
  },
  {
   "property": "C35",
   "status": "proved",
   "theorems": [
    "PyOTF.C35_limit_after_construction",
    "PyOTF.C35_res_assignment",
    "PyOTF.C35_not_revalidated",
    "PyOTF.C35_sheppard_zres_assignment"
   ],
   "note": ""
  },
  {
   "property": "C36",
   "status": "proved",
   "theorems": [
    "PyOTF.C36_default_planes",
    "PyOTF.C36_spacing",
    "PyOTF.C36_focal_plane",
    "PyOTF.C36_extent",
    "PyOTF.C36_zsize_regenerates",
    "PyOTF.C36_zres_regenerates",
    "PyOTF.C36_zrange_assignment"
   ],
   "note": ""
  },
  {
   "property": "C37",
   "status": "proved",
   "theorems": [
    "PyOTF.C37_pupil_in_force",
    "PyOTF.C37_pupil_forgotten"
   ],
   "note": ""
  },
  {
   "property": "C38",
   "status": "proved",
   "theorems": [
    "PyOTF.C38_original_unchanged",
    "PyOTF.C38_named_original_unchanged",
    "PyOTF.C38_depends_on_params_only",
    "PyOTF.C38_missing_coefficients",
    "PyOTF.C38_no_coefficients",
    "PyOTF.C38_length_mismatch"
   ],
   "note": ""
  },
  {
   "property": "C39",
   "status": "proved",
   "theorems": [
    "PyOTF.C39_intensity",
    "PyOTF.C39_shape"
   ],
   "note": ""
  },
  {
   "property": "C40",
   "status": "proved",
   "theorems": [
    "PyOTF.C40_same_energy",
    "PyOTF.C40_energy",
    "PyOTF.C40_parseval"
   ],
   "note": ""
  },
  {
   "property": "C41",
   "status": "proved",
   "theorems": [
    "PyOTF.C41_planes_independent"
   ],
   "note": ""
  },
  {
   "property": "C42",
   "status": "proved",
   "theorems": [
    "PyOTF.C42_total_is_sum",
    "PyOTF.C42_total_energy",
    "PyOTF.C42_sheppard_total",
    "PyOTF.C42_sheppard_energy"
   ],
   "note": ""
  },
  {
   "property": "C43",
   "status": "proved",
   "theorems": [
    "PyOTF.C43_hanser_components",
    "PyOTF.C43_sheppard_components"
   ],
   "note": ""
  },
  {
   "property": "C44",
   "status": "proved",
   "theorems": [
    "PyOTF.C44_otfi",
    "PyOTF.C44_computable",
    "PyOTF.C44_sheppard_otfi"
   ],
   "note": ""
  },
  {
   "property": "C45",
   "status": "proved",
   "theorems": [
    "PyOTF.C45_diffraction_limit",
    "PyOTF.C45_otfi"
   ],
   "note": ""
  },
  {
   "property": "C46",
   "status": "proved",
   "theorems": [
    "PyOTF.C46_mirror",
    "PyOTF.C46_defocus",
    "PyOTF.C46_exchange",
    "PyOTF.C46_exchange_xy"
   ],
   "note": ""
  },
  {
   "property": "C47",
   "status": "proved",
   "theorems": [
    "PyOTF.C47_strehl",
    "PyOTF.C47_peak",
    "PyOTF.C47_ideal"
   ],
   "note": ""
  },
  {
   "property": "C48",
   "status": "proved",
   "theorems": [
    "PyOTF.C48_linear",
    "PyOTF.C48_piston"
   ],
   "note": ""
  },
  {
   "property": "C49",
   "status": "proved",
   "theorems": [
    "PyOTF.C49_aberrated",
    "PyOTF.C49_zero",
    "PyOTF.C49_phase_conserves_energy",
    "PyOTF.C49_strehl",
    "PyOTF.C49_piston",
    "PyOTF.C49_too_many_coefficients"
   ],
   "note": ""
  },
  {
   "property": "C50",
   "status": "proved",
   "theorems": [
    "PyOTF.C50_value",
    "PyOTF.C50_support",
    "PyOTF.C50_dual_symmetric"
   ],
   "note": ""
  },
  {
   "property": "C51",
   "status": "proved",
   "theorems": [
    "PyOTF.C51_scalar_ignores_condition",
    "PyOTF.C51_vectorial_scaled"
   ],
   "note": ""
  },
  {
   "property": "C52",
   "status": "proved",
   "theorems": [
    "PyOTF.C52_lower_cap_nan",
    "PyOTF.C52_everything_nan",
    "PyOTF.C52_single_never_nan",
    "PyOTF.C52_pole_nan"
   ],
   "note": ""
  },
  {
   "property": "C53",
   "status": "proved",
   "theorems": [
    "PyOTF.C53_normalised",
    "PyOTF.C53_exists"
   ],
   "note": ""
  },
  {
   "property": "C54",
   "status": "proved",
   "theorems": [
    "PyOTF.C54_super_pixel",
    "PyOTF.C54_centre",
    "PyOTF.C54_widefield"
   ],
   "note": ""
  },
  {
   "property": "C55",
   "status": "proved",
   "theorems": [
    "PyOTF.C55_oversample",
    "PyOTF.C55_accepted",
    "PyOTF.C55_sequence",
    "PyOTF.C55_unreachable",
    "PyOTF.C55_subclasses"
   ],
   "note": ""
  },
  {
   "property": "C56",
   "status": "proved",
   "theorems": [
    "PyOTF.C56_stale_differs",
    "PyOTF.C56_coherent",
    "PyOTF.C56_refresh",
    "PyOTF.C56_stale",
    "PyOTF.C56_oversample_assignment"
   ],
   "note": ""
  },
  {
   "property": "C57",
   "status": "proved",
   "theorems": [
    "PyOTF.C57_pinhole",
    "PyOTF.C57_symmetric"
   ],
   "note": ""
  },
  {
   "property": "C58",
   "status": "proved",
   "theorems": [
    "PyOTF.C58_confocal",
    "PyOTF.C58_constructed",
    "PyOTF.C58_wl_exc_ignored",
    "PyOTF.C58_wl_exc_unset",
    "PyOTF.C58_nonneg"
   ],
   "note": ""
  },
  {
   "property": "C59",
   "status": "proved",
   "theorems": [
    "PyOTF.C59_incoherent",
    "PyOTF.C59_lattice",
    "PyOTF.C59_dc_suppress",
    "PyOTF.C59_coherent_empty",
    "PyOTF.C59_classes"
   ],
   "note": ""
  },
  {
   "property": "C60",
   "status": "proved",
   "theorems": [
    "PyOTF.C60_wiener_none",
    "PyOTF.C60_wiener_none_never",
    "PyOTF.C60_wiener_none_later",
    "PyOTF.C60_int_na",
    "PyOTF.C60_int_wl",
    "PyOTF.C60_wiener_negative"
   ],
   "note": ""
  },
  {
   "property": "C61",
   "status": "proved",
   "theorems": [
    "PyOTF.C61_repr"
   ],
   "note": ""
  },
  {
   "property": "C62",
   "status": "proved",
   "theorems": [
    "PyOTF.C62_arrays",
    "PyOTF.C62_returns",
    "PyOTF.C62_rejects"
   ],
   "note": ""
  },
  {
   "property": "C63",
   "status": "proved",
   "theorems": [
    "PyOTF.C63_error_reduction_phase_only",
    "PyOTF.C63_error_reduction",
    "PyOTF.C63_one_step",
    "PyOTF.C63_pupils"
   ],
   "note": ""
  },
  {
   "property": "C64",
   "status": "proved",
   "theorems": [
    "PyOTF.C64_fixed_point",
    "PyOTF.C64_ideal_data",
    "PyOTF.C64_frozen"
   ],
   "note": ""
  },
  {
   "property": "C65",
   "status": "proved",
   "theorems": [
    "PyOTF.C65_support"
   ],
   "note": ""
  },
  {
   "property": "C66",
   "status": "proved",
   "theorems": [
    "PyOTF.C66_consistency",
    "PyOTF.C66_exhausted_differs"
   ],
   "note": ""
  },
  {
   "property": "C67",
   "status": "proved",
   "theorems": [
    "PyOTF.C67_params",
    "PyOTF.C67_bad_keywords"
   ],
   "note": ""
  },
  {
   "property": "C68",
   "status": "proved",
   "theorems": [
    "PyOTF.C68_complex_pupil",
    "PyOTF.C68_generate_psf",
    "PyOTF.C68_matches_model"
   ],
   "note": ""
  },
  {
   "property": "C69",
   "status": "proved",
   "theorems": [
    "PyOTF.C69_size",
    "PyOTF.C69_centre"
   ],
   "note": ""
  },
  {
   "property": "C70",
   "status": "proved",
   "theorems": [
    "PyOTF.C70_optimum",
    "PyOTF.C70_recovers",
    "PyOTF.C70_unusable",
    "PyOTF.C70_retrieved"
   ],
   "note": ""
  },
  {
   "property": "C71",
   "status": "proved",
   "theorems": [
    "PyOTF.C71_recon",
    "PyOTF.C71_additive",
    "PyOTF.C71_complex_pupil",
    "PyOTF.C71_zd_psf",
    "PyOTF.C71_zd_missing"
   ],
   "note": ""
  },
  {
   "property": "C72",
   "status": "proved",
   "theorems": [
    "PyOTF.C72_max_min",
    "PyOTF.C72_fft_max_min"
   ],
   "note": ""
  },
  {
   "property": "C73",
   "status": "proved",
   "theorems": [
    "PyOTF.C73_defined",
    "PyOTF.C73_composition",
    "PyOTF.C73_value",
    "PyOTF.C73_direction",
    "PyOTF.C73_paraxial"
   ],
   "note": ""
  },
  {
   "property": "C74",
   "status": "proved",
   "theorems": [
    "PyOTF.C74_psf_slices",
    "PyOTF.C74_psf_mip",
    "PyOTF.C74_otf",
    "PyOTF.C74_rejects"
   ],
   "note": ""
  },
  {
   "property": "C75",
   "status": "proved",
   "theorems": [
    "PyOTF.C75_labview",
    "PyOTF.C75_rejects"
   ],
   "note": ""
  },
  {
   "property": "C76",
   "status": "proved",
   "theorems": [
    "PyOTF.C76_diffraction_integral",
    "PyOTF.C76_computable",
    "PyOTF.C76_constructed"
   ],
   "note": ""
  },
  {
   "property": "C77",
   "status": "proved",
   "theorems": [
    "PyOTF.C77_origin",
    "PyOTF.C77_bright"
   ],
   "note": ""
  },
  {
   "property": "C78",
   "status": "proved",
   "theorems": [
    "PyOTF.C78_circle",
    "PyOTF.C78_bowties"
   ],
   "note": ""
  },
  {
   "property": "C79",
   "status": "proved",
   "theorems": [
    "PyOTF.C79_hanser",
    "PyOTF.C79_sheppard",
    "PyOTF.C79_hanser_constructed",
    "PyOTF.C79_sheppard_constructed"
   ],
   "note": ""
  },
  {
   "property": "C80",
   "status": "proved",
   "theorems": [
    "PyOTF.C80_defocused_pupil"
   ],
   "note": ""
  },
  {
   "property": "C81",
   "status": "proved",
   "theorems": [
    "PyOTF.C81_tilted_pupil",
    "PyOTF.C81_intensity"
   ],
   "note": ""
  },
  {
   "property": "C82",
   "status": "proved",
   "theorems": [
    "PyOTF.C82_spectrum",
    "PyOTF.C82_hermitian"
   ],
   "note": ""
  },
  {
   "property": "C83",
   "status": "proved",
   "theorems": [
    "PyOTF.C83_wiener",
    "PyOTF.C83_even",
    "PyOTF.C83_gain",
    "PyOTF.C83_used"
   ],
   "note": ""
  },
  {
   "property": "C84",
   "status": "proved",
   "theorems": [
    "PyOTF.C84_hanser",
    "PyOTF.C84_hanser_computable",
    "PyOTF.C84_sheppard",
    "PyOTF.C84_sheppard_even"
   ],
   "note": ""
  },
  {
   "property": "C85",
   "status": "proved",
   "theorems": [
    "PyOTF.C85_psfi",
    "PyOTF.C85_peak",
    "PyOTF.C85_energy"
   ],
   "note": ""
  },
  {
   "property": "C86",
   "status": "proved",
   "theorems": [
    "PyOTF.C86_inversion",
    "PyOTF.C86_mirror",
    "PyOTF.C86_exchange"
   ],
   "note": ""
  },
  {
   "property": "C87",
   "status": "proved",
   "theorems": [
    "PyOTF.C87_hanser_valid",
    "PyOTF.C87_sheppard_valid"
   ],
   "note": ""
  },
  {
   "property": "C88",
   "status": "proved",
   "theorems": [
    "PyOTF.C88_hanser_repr",
    "PyOTF.C88_hanser_outputs",
    "PyOTF.C88_sheppard_repr"
   ],
   "note": ""
  },
  {
   "property": "C89",
   "status": "proved",
   "theorems": [
    "PyOTF.C89_region",
    "PyOTF.C89_panels",
    "PyOTF.C89_planes",
    "PyOTF.C89_rejects",
    "PyOTF.C89_micro"
   ],
   "note": ""
  },
  {
   "property": "C90",
   "status": "proved",
   "theorems": [
    "PyOTF.C90_model",
    "PyOTF.C90_micro",
    "PyOTF.C90_zero_frequency"
   ],
   "note": ""
  },
  {
   "property": "C91",
   "status": "proved",
   "theorems": [
    "PyOTF.C91_exposure",
    "PyOTF.C91_exposure_phase_only",
    "PyOTF.C91_dim_data_stop"
   ],
   "note": ""
  },
  {
   "property": "C92",
   "status": "proved",
   "theorems": [
    "PyOTF.C92_result_plot",
    "PyOTF.C92_zd_plot",
    "PyOTF.C92_only_matrices",
    "PyOTF.C92_convergence"
   ],
   "note": ""
  },
  {
   "property": "C93",
   "status": "proved",
   "theorems": [
    "PyOTF.C93_named",
    "PyOTF.C93_five",
    "PyOTF.C93_too_few",
    "PyOTF.C93_fitted",
    "PyOTF.C93_all"
   ],
   "note": ""
  },
  {
   "property": "C94",
   "status": "proved",
   "theorems": [
    "PyOTF.C94_oversample",
    "PyOTF.C94_confocal",
    "PyOTF.C94_sim",
    "PyOTF.C94_plain",
    "PyOTF.C94_valid",
    "PyOTF.C94_psf",
    "PyOTF.C94_keywords"
   ],
   "note": ""
  },
  {
   "property": "C95",
   "status": "proved",
   "theorems": [
    "PyOTF.C95_closed_form",
    "PyOTF.C95_sectioning",
    "PyOTF.C95_hanser"
   ],
   "note": ""
  },
  {
   "property": "C96",
   "status": "proved",
   "theorems": [
    "PyOTF.C96_conjugate_pupil",
    "PyOTF.C96_opposite_phase",
    "PyOTF.C96_even_modes"
   ],
   "note": ""
  },
  {
   "property": "C97",
   "status": "proved",
   "theorems": [
    "PyOTF.Version.C97_described",
    "PyOTF.Version.C97_untagged",
    "PyOTF.Version.C97_tag_is_genuine",
    "PyOTF.Version.C97_unparseable"
   ],
   "note": ""
  },
  {
   "property": "C98",
   "status": "proved",
   "theorems": [
    "PyOTF.Version.C98_pep440",
    "PyOTF.Version.C98_unambiguous",
    "PyOTF.Version.C98_one_plus",
    "PyOTF.Version.C98_styles",
    "PyOTF.Version.C98_styles_untagged",
    "PyOTF.Version.C98_unknown_style"
   ],
   "note": ""
  },
  {
   "property": "C99",
   "status": "proved",
   "theorems": [
    "PyOTF.Version.C99_archive",
    "PyOTF.Version.C99_not_an_archive"
   ],
   "note": ""
  },
  {
   "property": "C100",
   "status": "proved",
   "theorems": [
    "PyOTF.Version.C100_tagged",
    "PyOTF.Version.C100_untagged",
    "PyOTF.Version.C100_no_git",
    "PyOTF.Version.C100_archive",
    "PyOTF.Version.C100_parentdir",
    "PyOTF.Version.C100_raises_iff"
   ],
   "note": ""
  },
  {
   "property": "C101",
   "status": "proved",
   "theorems": [
    "PyOTF.Version.C101_parentdir",
    "PyOTF.Version.C101_keywords_read_back",
    "PyOTF.Version.C101_no_file",
    "PyOTF.Version.C101_parentdir_none"
   ],
   "note": ""
  },
  {
   "property": "C102",
   "status": "proved",
   "theorems": [
    "PyOTF.C102_two_steps",
    "PyOTF.C102_two_steps_iff"
   ],
   "note": ""
  },
  {
   "property": "C103",
   "status": "proved",
   "theorems": [
    "PyOTF.C103_bin_two_steps"
   ],
   "note": ""
  },
  {
   "property": "C104",
   "status": "proved",
   "theorems": [
    "PyOTF.C104_translation",
    "PyOTF.C104_idempotent",
    "PyOTF.C104_rescaling",
    "PyOTF.C104_ties"
   ],
   "note": ""
  },
  {
   "property": "C105",
   "status": "proved",
   "theorems": [
    "PyOTF.C105_offset",
    "PyOTF.C105_gain"
   ],
   "note": ""
  },
  {
   "property": "C106",
   "status": "proved",
   "theorems": [
    "PyOTF.C106_affine",
    "PyOTF.C106_add",
    "PyOTF.C106_bounds",
    "PyOTF.C106_total"
   ],
   "note": ""
  },
  {
   "property": "C107",
   "status": "proved",
   "theorems": [
    "PyOTF.C107_fourier_sum",
    "PyOTF.C107_linear",
    "PyOTF.C107_shift",
    "PyOTF.C107_hermitian",
    "PyOTF.C107_convolution",
    "PyOTF.C107_filtering"
   ],
   "note": ""
  },
  {
   "property": "C108",
   "status": "proved",
   "theorems": [
    "PyOTF.C108_mode_bound",
    "PyOTF.C108_mode_bound_attained",
    "PyOTF.C108_zernike_bound"
   ],
   "note": ""
  },
  {
   "property": "C109",
   "status": "proved",
   "theorems": [
    "PyOTF.C109_coefficient",
    "PyOTF.C109_mean_square",
    "PyOTF.C109_mean",
    "PyOTF.C109_variance",
    "PyOTF.C109_unique",
    "PyOTF.C109_noll_rms"
   ],
   "note": ""
  },
  {
   "property": "C110",
   "status": "proved",
   "theorems": [
    "PyOTF.C110_expansion",
    "PyOTF.C110_coefficients_unique",
    "PyOTF.C110_count",
    "PyOTF.C110_mode_is_polynomial",
    "PyOTF.C110_noll"
   ],
   "note": ""
  },
  {
   "property": "C111",
   "status": "proved",
   "theorems": [
    "PyOTF.C111_stops",
    "PyOTF.C111_stops_pupil",
    "PyOTF.C111_passes",
    "PyOTF.C111_energy",
    "PyOTF.C111_descent"
   ],
   "note": ""
  },
  {
   "property": "C112",
   "status": "proved",
   "theorems": [
    "PyOTF.C112_transposed",
    "PyOTF.C112_mirrored_x",
    "PyOTF.C112_mirrored_y",
    "PyOTF.C112_planes",
    "PyOTF.C112_inverted",
    "PyOTF.C112_point_symmetric"
   ],
   "note": ""
  },
  {
   "property": "C113",
   "status": "proved",
   "theorems": [
    "PyOTF.C113_bands_2d",
    "PyOTF.C113_bands_3d",
    "PyOTF.C113_bands_lattice",
    "PyOTF.C113_otf"
   ],
   "note": ""
  },
  {
   "property": "C114",
   "status": "proved",
   "theorems": [
    "PyOTF.C114_resolution",
    "PyOTF.C114_resolution_lattice",
    "PyOTF.C114_hanser_cutoff",
    "PyOTF.C114_wiener_cutoff",
    "PyOTF.C114_otf_limit"
   ],
   "note": ""
  },
  {
   "property": "C115",
   "status": "proved",
   "theorems": [
    "PyOTF.C115_spectrum",
    "PyOTF.C115_resolution",
    "PyOTF.C115_otf_limit"
   ],
   "note": ""
  },
  {
   "property": "C116",
   "status": "proved",
   "theorems": [
    "PyOTF.C116_open_pinhole"
   ],
   "note": ""
  },
  {
   "property": "C117",
   "status": "proved",
   "theorems": [
    "PyOTF.C117_autocorrelation",
    "PyOTF.C117_contrast",
    "PyOTF.C117_focus"
   ],
   "note": ""
  },
  {
   "property": "C118",
   "status": "proved",
   "theorems": [
    "PyOTF.C118_model",
    "PyOTF.C118_widefield"
   ],
   "note": ""
  },
  {
   "property": "C119",
   "status": "proved",
   "theorems": [
    "PyOTF.C119_recovers",
    "PyOTF.C119_unique"
   ],
   "note": ""
  },
  {
   "property": "C120",
   "status": "proved",
   "theorems": [
    "PyOTF.C120_widefield",
    "PyOTF.C120_apotome",
    "PyOTF.C120_confocal"
   ],
   "note": ""
  },
  {
   "property": "C121",
   "status": "proved",
   "theorems": [
    "PyOTF.C121_widefield",
    "PyOTF.C121_apotome",
    "PyOTF.C121_confocal",
    "PyOTF.C121_sim"
   ],
   "note": ""
  },
  {
   "property": "C122",
   "status": "proved",
   "theorems": [
    "PyOTF.C122_samples",
    "PyOTF.C122_helmholtz",
    "PyOTF.C122_gauss",
    "PyOTF.C122_ideal"
   ],
   "note": ""
  },
  {
   "property": "C123",
   "status": "proved",
   "theorems": [
    "PyOTF.C123_samples",
    "PyOTF.C123_refine",
    "PyOTF.C123_relative"
   ],
   "note": ""
  },
  {
   "property": "C124",
   "status": "proved",
   "theorems": [
    "PyOTF.C124_limit",
    "PyOTF.C124_means",
    "PyOTF.C124_same_total"
   ],
   "note": ""
  },
  {
   "property": "C125",
   "status": "proved",
   "theorems": [
    "PyOTF.C125_planes_needed",
    "PyOTF.C125_values",
    "PyOTF.C125_no_orientations"
   ],
   "note": ""
  },
  {
   "property": "C126",
   "status": "proved",
   "theorems": [
    "PyOTF.C126_binning",
    "PyOTF.C126_microscope",
    "PyOTF.C126_total",
    "PyOTF.C126_getPSF",
    "PyOTF.C126_double"
   ],
   "note": ""
  },
  {
   "property": "C127",
   "status": "proved",
   "theorems": [
    "PyOTF.C127_amplitude",
    "PyOTF.C127_intensity",
    "PyOTF.C127_ideal",
    "PyOTF.C127_aberrated",
    "PyOTF.C127_relative"
   ],
   "note": ""
  },
  {
   "property": "C128",
   "status": "proved",
   "theorems": [
    "PyOTF.C128_perfect",
    "PyOTF.C128_marechal",
    "PyOTF.C128_limit"
   ],
   "note": ""
  },
  {
   "property": "C129",
   "status": "proved",
   "theorems": [
    "PyOTF.C129_same",
    "PyOTF.C129_empty",
    "PyOTF.C129_fft_pad",
    "PyOTF.C129_interpolation",
    "PyOTF.C129_resample"
   ],
   "note": ""
  },
  {
   "property": "C130",
   "status": "proved",
   "theorems": [
    "PyOTF.C130_refines",
    "PyOTF.C130_no_writes",
    "PyOTF.C130_frame",
    "PyOTF.C130_own_pupil",
    "PyOTF.C130_same_array",
    "PyOTF.C130_poisoned",
    "PyOTF.C130_zrange_stale",
    "PyOTF.C130_given_array",
    "PyOTF.C130_copy_shares_planes",
    "PyOTF.C130_copy_shares_cache",
    "PyOTF.C130_stale_nan"
   ],
   "note": ""
  },
  {
   "property": "C131",
   "status": "proved",
   "theorems": [
    "PyOTF.C131_std_nan",
    "PyOTF.C131_radial_degree",
    "PyOTF.C131_noll2degrees",
    "PyOTF.C131_degrees2noll",
    "PyOTF.C131_rings",
    "PyOTF.C131_profile"
   ],
   "note": ""
  },
  {
   "property": "C132",
   "status": "proved",
   "theorems": [
    "PyOTF.C132_history",
    "PyOTF.C132_retrieved",
    "PyOTF.C132_generate_stable",
    "PyOTF.C132_fit_stable",
    "PyOTF.C132_zd_before_fit"
   ],
   "note": ""
  },
  {
   "property": "C133",
   "status": "proved",
   "theorems": [
    "PyOTF.C133_alone",
    "PyOTF.C133_size_race",
    "PyOTF.C133_pupil_race",
    "PyOTF.C133_concurrent_reads",
    "PyOTF.C133_terminates"
   ],
   "note": ""
  },
  {
   "property": "C134",
   "status": "proved",
   "theorems": [
    "PyOTF.C134_limit",
    "PyOTF.C134_herschel",
    "PyOTF.C134_models_agree"
   ],
   "note": ""
  },
  {
   "property": "C135",
   "status": "proved",
   "theorems": [
    "PyOTF.C135_alone",
    "PyOTF.C135_read",
    "PyOTF.C135_assignment",
    "PyOTF.C135_zrange",
    "PyOTF.C135_pupil",
    "PyOTF.C135_retry",
    "PyOTF.C135_retry_stale",
    "PyOTF.C135_repair"
   ],
   "note": ""
  },
  {
   "property": "C136",
   "status": "proved",
   "theorems": [
    "PyOTF.C136_alone",
    "PyOTF.C136_inputs",
    "PyOTF.C136_history",
    "PyOTF.C136_interrupted",
    "PyOTF.C136_threads",
    "PyOTF.C136_clash",
    "PyOTF.C136_one_image",
    "PyOTF.C136_one_height",
    "PyOTF.C136_race",
    "PyOTF.C136_silent_race"
   ],
   "note": ""
  },
  {
   "property": "C137",
   "status": "proved",
   "theorems": [
    "PyOTF.C137_concurrent_reads",
    "PyOTF.C137_terminates",
    "PyOTF.C137_interrupted_read",
    "PyOTF.C137_size_race",
    "PyOTF.C137_stale",
    "PyOTF.C137_history",
    "PyOTF.C137_saved",
    "PyOTF.C137_not_updated",
    "PyOTF.C137_saved_threads"
   ],
   "note": ""
  },
  {
   "property": "C138",
   "status": "proved",
   "theorems": [
    "PyOTF.C138_amplitude",
    "PyOTF.C138_intensity",
    "PyOTF.C138_aperture",
    "PyOTF.C138_same_aperture",
    "PyOTF.C138_symmetric",
    "PyOTF.C138_abbe",
    "PyOTF.C138_nyquist",
    "PyOTF.C138_edge",
    "PyOTF.C138_all_amplitudes",
    "PyOTF.C138_all_intensities"
   ],
   "note": ""
  },
  {
   "property": "C139",
   "status": "proved",
   "theorems": [
    "PyOTF.C139_refines",
    "PyOTF.C139_no_writes",
    "PyOTF.C139_frame",
    "PyOTF.C139_model_psf_is_cache",
    "PyOTF.C139_model_psf_poisons",
    "PyOTF.C139_model_psf_private",
    "PyOTF.C139_same_array",
    "PyOTF.C139_poisoned",
    "PyOTF.C139_psf_own",
    "PyOTF.C139_otf_own",
    "PyOTF.C139_confocal_planes"
   ],
   "note": ""
  },
  {
   "property": "C140",
   "status": "proved",
   "theorems": [
    "PyOTF.C140_refines",
    "PyOTF.C140_no_writes",
    "PyOTF.C140_frame",
    "PyOTF.C140_outputs_private",
    "PyOTF.C140_pupils_private",
    "PyOTF.C140_psf_pure",
    "PyOTF.C140_data_not_kept",
    "PyOTF.C140_result_own",
    "PyOTF.C140_fit_own",
    "PyOTF.C140_given_planes",
    "PyOTF.C140_current",
    "PyOTF.C140_mag_shared",
    "PyOTF.C140_phase_shared",
    "PyOTF.C140_coefs_shared"
   ],
   "note": ""
  },
  {
   "property": "C141",
   "status": "proved",
   "theorems": [
    "PyOTF.C141_radial",
    "PyOTF.C141_rim",
    "PyOTF.C141_zero_mode",
    "PyOTF.C141_mode",
    "PyOTF.C141_jump",
    "PyOTF.C141_noll_floats",
    "PyOTF.C141_whole",
    "PyOTF.C141_bad_degrees",
    "PyOTF.C141_values"
   ],
   "note": ""
  },
  {
   "property": "C142",
   "status": "proved",
   "theorems": [
    "PyOTF.C142_terminates",
    "PyOTF.C142_set_alone",
    "PyOTF.C142_set_race",
    "PyOTF.C142_concurrent_reads",
    "PyOTF.C142_linear"
   ],
   "note": ""
  },
  {
   "property": "C143",
   "status": "proved",
   "theorems": [
    "PyOTF.C143_read",
    "PyOTF.C143_assignment",
    "PyOTF.C143_retry_stale",
    "PyOTF.C143_session",
    "PyOTF.C143_repair",
    "PyOTF.C143_stale_example"
   ],
   "note": ""
  },
  {
   "property": "C144",
   "status": "proved",
   "theorems": [
    "PyOTF.C144_private",
    "PyOTF.C144_shared",
    "PyOTF.C144_noninterference",
    "PyOTF.C144_alone",
    "PyOTF.C144_terminates",
    "PyOTF.C144_finishes"
   ],
   "note": ""
  }
 ]
}