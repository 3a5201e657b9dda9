{
 "claims": [
  {
   "property": "C01",
   "status": "proved",
   "theorems": [
    "PI.chunk_raw_flatten_float",
    "PI.chunk_raw_flatten_exact",
    "PI.chunk_it_perm_raw",
    "PI.chunk_it_elements_once"
   ],
   "note": "timsort modelled as insertion sort (only the permutation is used)"
  },
  {
   "property": "C02",
   "status": "proved",
   "theorems": [
    "PI.chunk_raw_exact_closed",
    "PI.chunk_raw_exact_balanced",
    "PI.chunk_it_count",
    "PI.chunk_it_extra_chunk",
    "PI.chunk_it_nil",
    "PI.chunk_it_zero"
   ],
   "note": ""
  },
  {
   "property": "C03",
   "status": "proved",
   "theorems": [
    "PI.chunk_it_empty_iff"
   ],
   "note": ""
  },
  {
   "property": "C04",
   "status": "proved",
   "theorems": [
    "PI.coadd_parallel_eq_sequential",
    "PI.parallel_chunks_spec",
    "PI.coadd_spec"
   ],
   "note": "worker counts up to 2^25 and p*len up to 2^50 (binary64 model of chunk_it); real arithmetic"
  },
  {
   "property": "C05",
   "status": "proved",
   "theorems": [
    "PI.schedule_independent",
    "PI.never_fails",
    "PI.can_fail",
    "PI.fails_iff",
    "PI.stepWorker_progress",
    "PI.coadd_schedule_independent",
    "PI.coadd_can_fail",
    "PI.distinct_objects",
    "PI.object_twice"
   ],
   "note": "the tests, the computation, the two stores and the read of s_hat_comp are interleaved; computing it is deterministic and one step; all workers may run at the same time"
  },
  {
   "property": "C06",
   "status": "proved",
   "theorems": [
    "PI.coadd_workers_iff",
    "PI.coadd_single_default_fails"
   ],
   "note": ""
  },
  {
   "property": "C07",
   "status": "proved",
   "theorems": [
    "PI.coadd_mask_union"
   ],
   "note": ""
  },
  {
   "property": "C08",
   "status": "proved",
   "theorems": [
    "PI.coadd_order_independent"
   ],
   "note": ""
  },
  {
   "property": "C09",
   "status": "proved",
   "theorems": [
    "PI.coadd_is_zackay",
    "PI.coadd_R_eq",
    "PI.coadd_copies",
    "PI.singlePsf_sqnorm",
    "PI.coadd_returns_zackay",
    "PI.coadd_copies_pixels"
   ],
   "note": "each image's transform carries its own recentring phase; frequencies with zero PSF power excluded by the quotient convention x/0=0"
  },
  {
   "property": "C10",
   "status": "proved",
   "theorems": [
    "PI.coadd_psf_sum_one",
    "PI.coadd_psf_raw_sum",
    "PI.coadd_returns_psf"
   ],
   "note": ""
  },
  {
   "property": "C11",
   "status": "proved",
   "theorems": [
    "PI.coadd_mixed_shapes",
    "PI.coadd_result_shape",
    "PI.coadd_no_images"
   ],
   "note": "shapes with positive sides"
  },
  {
   "property": "C12",
   "status": "proved",
   "theorems": [
    "PI.coadd_wraps_in_place",
    "PI.align_for_coadd_spec",
    "PI.align_for_coadd_returns",
    "PI.align_for_coadd_nil"
   ],
   "note": ""
  },
  {
   "property": "C13",
   "status": "proved",
   "theorems": [
    "PI.crossmatch_spec",
    "PI.crossmatch_euclid",
    "PI.bruteQuery_contract"
   ],
   "note": "the KD-tree is a parameter with scipy's documented contract; bruteQuery_contract shows the contract is satisfiable; squared distances"
  },
  {
   "property": "C14",
   "status": "proved",
   "theorems": [
    "PI.matching_iff_mutual",
    "PI.matching_injective",
    "PI.mutual_geometry",
    "PI.strict_neighbours_matched",
    "PI.mutual_unique",
    "PI.matching_length"
   ],
   "note": ""
  },
  {
   "property": "C15",
   "status": "proved",
   "theorems": [
    "PI.matching_mask_iff",
    "PI.matching_mask_drops_zero"
   ],
   "note": ""
  },
  {
   "property": "C16",
   "status": "proved",
   "theorems": [
    "PI.transparency_detect",
    "PI.mem_idsFor_iff",
    "PI.fluxOf_newCat",
    "PI.mutualAt_within2",
    "PI.transparency_detected_iff"
   ],
   "note": "distinct image objects"
  },
  {
   "property": "C17",
   "status": "proved",
   "theorems": [
    "PI.transparency_two_images",
    "PI.isLsq_iff_normal",
    "PI.lsqSolver_exists",
    "PI.magOf_ratio"
   ],
   "note": ""
  },
  {
   "property": "C18",
   "status": "proved",
   "theorems": [
    "PI.transparency_rows_iff",
    "PI.transparency_three_images_misordered",
    "PI.transparency_detect"
   ],
   "note": "exact characterisation: holds iff at most two images or at most one common source"
  },
  {
   "property": "C19",
   "status": "proved",
   "theorems": [
    "PI.transparency_length",
    "PI.trMatch_total"
   ],
   "note": "distinct image objects"
  },
  {
   "property": "C20",
   "status": "proved",
   "theorems": [
    "PI.transparency_repeat_same_master",
    "PI.transparency_stale_detected",
    "PI.transparency_stale_witness"
   ],
   "note": "the same-master part assumes no distance ties; the general claim is refuted by the witness"
  },
  {
   "property": "C21",
   "status": "proved",
   "theorems": [
    "PI.transparency_closed_form",
    "PI.transparency_two_closed_form",
    "PI.transparency_identical_images",
    "PI.transparency_ratio_not_flux_ratio",
    "PI.isMinLsq_iff",
    "PI.minLsqSolver_exists"
   ],
   "note": ""
  },
  {
   "property": "C22",
   "status": "proved",
   "theorems": [
    "PI.subtract_switch_table",
    "PI.subtract_iterative_irrelevant",
    "PI.subtract_unsuccessful_fit",
    "PI.subtract_fit_used",
    "PI.subtract_fit_bounds",
    "PI.stayOpt_contract"
   ],
   "note": "optimisers are parameters with scipy's bounds contract (satisfiable: stayOpt_contract)"
  },
  {
   "property": "C23",
   "status": "proved",
   "theorems": [
    "PI.subtract_ratio_raises_iff",
    "PI.subtract_small_images",
    "PI.subtract_small_ValueError"
   ],
   "note": "the fit's residual without any unmasked pixel is np.ma.masked, for which scipy raises ValueError"
  },
  {
   "property": "C24",
   "status": "proved",
   "theorems": [
    "PI.subtract_D_is_zackay",
    "PI.subtract_dzp_is_zackay",
    "PI.subtract_P_is_zackay",
    "PI.subtract_output",
    "PI.centerOfMass_balance",
    "PI.subtract_image_hat",
    "PI.subtract_psf_hat"
   ],
   "note": ""
  },
  {
   "property": "C25",
   "status": "proved",
   "theorems": [
    "PI.subtract_self_zero"
   ],
   "note": "with fitted_psf=False the centre of mass of the new PSF must not be negative"
  },
  {
   "property": "C26",
   "status": "proved",
   "theorems": [
    "PI.subtract_swap",
    "PI.subtract_swap_calls",
    "PI.zackayD_swap"
   ],
   "note": ""
  },
  {
   "property": "C27",
   "status": "proved",
   "theorems": [
    "PI.subtract_norm_pos",
    "PI.subtract_norm_zero",
    "PI.psfHat_ne_zero"
   ],
   "note": ""
  },
  {
   "property": "C28",
   "status": "proved",
   "theorems": [
    "PI.subtract_shape_mismatch",
    "PI.subtract_masks_and_shapes",
    "PI.subtract_returns"
   ],
   "note": ""
  },
  {
   "property": "C29",
   "status": "proved",
   "theorems": [
    "PI.subtract_psf_total",
    "PI.subtract_psf_total_unit",
    "PI.subtract_psf_total_equal",
    "PI.subtract_returned_psf_total"
   ],
   "note": "PSF stamps that fit into the frame, with non-zero sums"
  },
  {
   "property": "C30",
   "status": "proved",
   "theorems": [
    "PI.construct_extreme_masked"
   ],
   "note": ""
  },
  {
   "property": "C31",
   "status": "proved",
   "theorems": [
    "PI.construct_growth",
    "PI.construct_growth_mono"
   ],
   "note": ""
  },
  {
   "property": "C32",
   "status": "proved",
   "theorems": [
    "PI.grow_step_iff",
    "PI.single_pixel_never_grows",
    "PI.construct_single_pixel",
    "PI.single_pixel_grows_in_one_row",
    "PI.two_pixels_no_interior_growth",
    "PI.two_pixels_grow_at_edge"
   ],
   "note": "two neighbours suffice only at an edge, where reflection counts them twice"
  },
  {
   "property": "C33",
   "status": "proved",
   "theorems": [
    "PI.explicit_mask_honoured",
    "PI.explicit_mask_flat",
    "PI.explicit_mask_misaligned_by_crop"
   ],
   "note": ""
  },
  {
   "property": "C34",
   "status": "proved",
   "theorems": [
    "PI.invalid_pixels_masked",
    "PI.nan_has_no_influence",
    "PI.nan_file_unmasked"
   ],
   "note": ""
  },
  {
   "property": "C35",
   "status": "proved",
   "theorems": [
    "PI.gain_and_crop_take_effect",
    "PI.masked_array_gain",
    "PI.gainOf_iff",
    "PI.gain_and_crop_ignored",
    "PI.stored_pixels",
    "PI.gain_skips_masked",
    "PI.gain_lost_by_guessing"
   ],
   "note": ""
  },
  {
   "property": "C36",
   "status": "proved",
   "theorems": [
    "PI.crop_geometry",
    "PI.crop_zero_margin_empties"
   ],
   "note": ""
  },
  {
   "property": "C37",
   "status": "proved",
   "theorems": [
    "PI.median_zero_iff",
    "PI.mask_file_majority"
   ],
   "note": "mask images without negative values"
  },
  {
   "property": "C38",
   "status": "proved",
   "theorems": [
    "PI.stored_mask_default_threshold",
    "PI.stored_mask_threshold_one",
    "PI.maskInts_median"
   ],
   "note": ""
  },
  {
   "property": "C39",
   "status": "proved",
   "theorems": [
    "PI.borders_raise_iff",
    "PI.borders_remove_spec",
    "PI.borders_loss",
    "PI.borders_drop_nonzero_row"
   ],
   "note": ""
  },
  {
   "property": "C40",
   "status": "proved",
   "theorems": [
    "PI.construct_error_iff",
    "PI.construct_unsupported",
    "PI.construct_single_extend"
   ],
   "note": ""
  },
  {
   "property": "C41",
   "status": "proved",
   "theorems": [
    "PI.best_sources_size",
    "PI.best_sources_too_few",
    "PI.best_sources_returns"
   ],
   "note": ""
  },
  {
   "property": "C42",
   "status": "proved",
   "theorems": [
    "PI.ladder_keeps_enough",
    "PI.ladder_retry",
    "PI.ladder_not_fewer",
    "PI.ladder_retry_raises",
    "PI.detect_state"
   ],
   "note": ""
  },
  {
   "property": "C43",
   "status": "proved",
   "theorems": [
    "PI.cuts_or_all",
    "PI.cuts_keep",
    "PI.cuts_no_fallback"
   ],
   "note": ""
  },
  {
   "property": "C44",
   "status": "proved",
   "theorems": [
    "PI.update_sources_unset",
    "PI.update_sources_replaces",
    "PI.update_sources_stale",
    "PI.update_sources_redetect"
   ],
   "note": ""
  },
  {
   "property": "C45",
   "status": "proved",
   "theorems": [
    "PI.default_stamp",
    "PI.default_stamp_set"
   ],
   "note": ""
  },
  {
   "property": "C46",
   "status": "proved",
   "theorems": [
    "PI.stamps_aligned",
    "PI.extraction_spec",
    "PI.accepted_rejected_count",
    "PI.n_sources_after"
   ],
   "note": "at least one candidate; extraction_spec is an iff giving the whole state afterwards"
  },
  {
   "property": "C47",
   "status": "proved",
   "theorems": [
    "PI.stamps_final_shape",
    "PI.accepted_shape",
    "PI.candidate_error"
   ],
   "note": "at least one candidate"
  },
  {
   "property": "C48",
   "status": "proved",
   "theorems": [
    "PI.margin_test_iff",
    "PI.stamps_always_enlarged"
   ],
   "note": ""
  },
  {
   "property": "C49",
   "status": "proved",
   "theorems": [
    "PI.strict_not_disabled",
    "PI.strict_still_rejects"
   ],
   "note": ""
  },
  {
   "property": "C50",
   "status": "proved",
   "theorems": [
    "PI.catalogue_after_stamps",
    "PI.delete_rejected"
   ],
   "note": ""
  },
  {
   "property": "C51",
   "status": "proved",
   "theorems": [
    "PI.stamp_shows_image",
    "PI.stamp_enlarge_keeps",
    "PI.stamp_exists",
    "PI.centrePix_near",
    "PI.stamp_content"
   ],
   "note": ""
  },
  {
   "property": "C52",
   "status": "proved",
   "theorems": [
    "PI.kl_cut_least",
    "PI.kl_cut_range",
    "PI.kl_cut_antitone",
    "PI.kl_cut_negative"
   ],
   "note": "exact arithmetic"
  },
  {
   "property": "C53",
   "status": "proved",
   "theorems": [
    "PI.cov_sym_psd",
    "PI.cov_single",
    "PI.cov_matrix_read",
    "PI.cov_matrix_nan"
   ],
   "note": "exact arithmetic"
  },
  {
   "property": "C54",
   "status": "proved",
   "theorems": [
    "PI.cov_formulas",
    "PI.cov_formulas_differ",
    "PI.cov_few",
    "PI.cov_many",
    "PI.cov_matrix_few",
    "PI.cov_matrix_many"
   ],
   "note": ""
  },
  {
   "property": "C55",
   "status": "proved",
   "theorems": [
    "PI.basis_elements",
    "PI.field_elements",
    "PI.variable_psf_paired",
    "PI.variable_psf_honours_loss"
   ],
   "note": "at most 250 sources and no smoothing in variable_psf_paired; basis_elements covers both branches"
  },
  {
   "property": "C56",
   "status": "proved",
   "theorems": [
    "PI.variable_psf_honours_loss",
    "PI.assigned_loss_ignored"
   ],
   "note": ""
  },
  {
   "property": "C57",
   "status": "proved",
   "theorems": [
    "PI.s_component_first",
    "PI.s_component_later",
    "PI.s_component_stale"
   ],
   "note": ""
  },
  {
   "property": "C58",
   "status": "proved",
   "theorems": [
    "PI.zp_first",
    "PI.zp_ignored",
    "PI.normal_not_refreshed",
    "PI.fresh_s_hat"
   ],
   "note": ""
  },
  {
   "property": "C59",
   "status": "proved",
   "theorems": [
    "PI.psf_xy_pairs",
    "PI.psf_inside",
    "PI.psf_unit_sum",
    "PI.psf_axis_iff",
    "PI.psf_raises_iff",
    "PI.psf_even_raises",
    "PI.psf_oblong_raises",
    "PI.psf_before_first",
    "PI.psf_xy_variable",
    "PI.psf_xy_constant"
   ],
   "note": ""
  },
  {
   "property": "C60",
   "status": "proved",
   "theorems": [
    "PI.interp_once",
    "PI.interp_no_nan",
    "PI.interp_keeps",
    "PI.interp_terminates",
    "PI.interp_hole",
    "PI.interp_mean",
    "PI.interp_crater",
    "PI.interp_bounds",
    "PI.interp_all_masked",
    "PI.interp_const",
    "PI.interp_const_inner",
    "PI.interp_const_border",
    "PI.interped_eq",
    "PI.cosmics_ignored"
   ],
   "note": "convolve_fft is modelled from astropy's source: with boundary='fill' and fill_value=0 pixels outside count as zeros, and a pixel without any weight becomes 0"
  },
  {
   "property": "C61",
   "status": "proved",
   "theorems": [
    "PI.clean_never_raises",
    "PI.clean_dat",
    "PI.clean_map",
    "PI.clean_others",
    "PI.clean_both",
    "PI.map_leaks",
    "PI.clean_twice",
    "PI.with_image",
    "PI.with_image_removes"
   ],
   "note": ""
  },
  {
   "property": "C62",
   "status": "proved",
   "theorems": [
    "PI.primes_prime",
    "PI.primes_few",
    "PI.primes_many",
    "PI.primes_dvd",
    "PI.primes_eq_self_iff"
   ],
   "note": ""
  },
  {
   "property": "C63",
   "status": "proved",
   "theorems": [
    "PI.grid_room",
    "PI.grid_exact",
    "PI.grid_small",
    "PI.autopsf_default",
    "PI.autopsf_given",
    "PI.autopsf_iso_oblong",
    "PI.autopsf_iso_kw",
    "PI.coef_default",
    "PI.coef_constant"
   ],
   "note": "exact square root"
  },
  {
   "property": "C64",
   "status": "proved",
   "theorems": [
    "PI.plot_ok_iff",
    "PI.plot_other"
   ],
   "note": ""
  },
  {
   "property": "C65",
   "status": "proved",
   "theorems": [
    "PI.psf_ok",
    "PI.psf_transpose"
   ],
   "note": "exact rational widths, 2.335 exact, no underflow"
  },
  {
   "property": "C66",
   "status": "proved",
   "theorems": [
    "PI.psf_odd",
    "PI.psf_even"
   ],
   "note": ""
  },
  {
   "property": "C67",
   "status": "proved",
   "theorems": [
    "PI.astropy_psf_error",
    "PI.astropy_psf_ok"
   ],
   "note": "exact arithmetic, no underflow"
  },
  {
   "property": "C68",
   "status": "proved",
   "theorems": [
    "PI.airy_nan_iff",
    "PI.airy_even",
    "PI.airy_symm"
   ],
   "note": "the Bessel function is a parameter"
  },
  {
   "property": "C69",
   "status": "proved",
   "theorems": [
    "PI.sersic_eq",
    "PI.sersic_norm",
    "PI.sersic_strictAnti_iff",
    "PI.sersic_increasing"
   ],
   "note": ""
  },
  {
   "property": "C70",
   "status": "proved",
   "theorems": [
    "PI.gal_sersic_px",
    "PI.gal_sersic_asymmetric",
    "PI.gal_sersic_corner"
   ],
   "note": ""
  },
  {
   "property": "C71",
   "status": "proved",
   "theorems": [
    "PI.cartesian_product_rows",
    "PI.cartesian_product_nil",
    "PI.cartesian_product_length",
    "PI.nodup_prodList"
   ],
   "note": ""
  },
  {
   "property": "C72",
   "status": "proved",
   "theorems": [
    "PI.delta_point_ok",
    "PI.delta_point_err",
    "PI.delta_point_type_error",
    "PI.delta_point_center"
   ],
   "note": ""
  },
  {
   "property": "C73",
   "status": "proved",
   "theorems": [
    "PI.tile_px",
    "PI.tile_few",
    "PI.sim_varpsf_few",
    "PI.sim_varpsf_unseeded",
    "PI.varFrame_seeded",
    "PI.sim_varpsf_seeded",
    "PI.draw_in_frame",
    "PI.varFrame_small",
    "PI.sim_varpsf_returns"
   ],
   "note": "numpy's generators are a parameter; normal deviates are the standard deviation times standard normal deviates; scipy's rotate is a parameter"
  },
  {
   "property": "C74",
   "status": "proved",
   "theorems": [
    "PI.image_gaussian",
    "PI.image_poisson",
    "PI.image_unknown",
    "PI.image_shape",
    "PI.image_ignores",
    "PI.image_seed",
    "PI.conv_delta",
    "PI.psfTheta_ok",
    "PI.psfTheta_rotated"
   ],
   "note": "SN is not zero where b/SN is used; the 32 bit rounding of Poisson deviates is not modelled"
  },
  {
   "property": "C75",
   "status": "proved",
   "theorems": [
    "PI.maxima_entries",
    "PI.maxima_positive",
    "PI.maxima_ring",
    "PI.maxima_pair",
    "PI.labelling_exists",
    "PI.maxima_two"
   ],
   "note": "the clipped mean and deviation are parameters; scipy's label is a parameter with its documented contract"
  },
  {
   "property": "C76",
   "status": "proved",
   "theorems": [
    "PI.storeHDU_ok",
    "PI.storeHDU_err",
    "PI.store_img_spec",
    "PI.store_img_refused"
   ],
   "note": "astropy's handling of element types is modelled from its table of FITS types"
  },
  {
   "property": "C77",
   "status": "proved",
   "theorems": [
    "PI.dest_name",
    "PI.dest_ne",
    "PI.dest_inj",
    "PI.align_for_diff_frame",
    "PI.align_for_diff_pair",
    "PI.align_for_diff_overwrites_ref"
   ],
   "note": "POSIX paths as strings; links are not modelled"
  },
  {
   "property": "C78",
   "status": "proved",
   "theorems": [
    "PI.shift_cost_ignores_border",
    "PI.shift_cost_constant_small",
    "PI.shift_cost_sees_interior",
    "PI.subtract_small_images",
    "PI.subtract_small_ValueError"
   ],
   "note": ""
  },
  {
   "property": "C79",
   "status": "proved",
   "theorems": [
    "PI.shift_residual_is_difference",
    "PI.rolled_background_opposite",
    "PI.rolled_background_axis",
    "PI.rolled_background_total",
    "PI.roundReal_small",
    "PI.roundReal_nine"
   ],
   "note": ""
  },
  {
   "property": "C80",
   "status": "proved",
   "theorems": [
    "PI.subtract_D_real",
    "PI.subtract_P_real",
    "PI.subtract_D_not_real"
   ],
   "note": ""
  },
  {
   "property": "C81",
   "status": "proved",
   "theorems": [
    "PI.candidate_changes_image",
    "PI.stamps_change_interped"
   ],
   "note": "astropy's extract_array returns a view when the window lies inside the image (external contract)"
  },
  {
   "property": "C82",
   "status": "proved",
   "theorems": [
    "PI.requested_shape_reextracts",
    "PI.unrequested_shape_cached"
   ],
   "note": ""
  },
  {
   "property": "C83",
   "status": "proved",
   "theorems": [
    "PI.kl_reconstructs",
    "PI.kl_reconstructs_stamp",
    "PI.kl_error"
   ],
   "note": "orthonormal eigenvectors are the contract of numpy.linalg.eigh"
  },
  {
   "property": "C84",
   "status": "proved",
   "theorems": [
    "PI.basis_sum",
    "PI.psf_sum_zero",
    "PI.psf_sum_zero_single"
   ],
   "note": ""
  },
  {
   "property": "C85",
   "status": "proved",
   "theorems": [
    "PI.failed_loss_sticks"
   ],
   "note": ""
  },
  {
   "property": "C86",
   "status": "proved",
   "theorems": [
    "PI.coadd_one_delta"
   ],
   "note": ""
  },
  {
   "property": "C87",
   "status": "proved",
   "theorems": [
    "PI.subtract_output",
    "PI.subtract_score_units",
    "PI.score_hat",
    "PI.score_variance",
    "PI.score_var_total",
    "PI.score_kernels",
    "PI.subCenter_spec",
    "PI.scoreVar_real_nonneg"
   ],
   "note": "the peak of P is a parameter; x/0=0 where the variance vanishes"
  },
  {
   "property": "C88",
   "status": "proved",
   "theorems": [
    "PI.transparency_meanmags",
    "PI.transparency_two_meanmags",
    "PI.transparency_catalogues"
   ],
   "note": "distinct image objects, master without a sourceid column"
  },
  {
   "property": "C89",
   "status": "proved",
   "theorems": [
    "PI.front_keeps_objects",
    "PI.front_hides_error",
    "PI.front_missing_file",
    "PI.front_array_error",
    "PI.front_masked_retry",
    "PI.front_primary_retry",
    "PI.front_masked_unmasks",
    "PI.front_masked_unmasks_example",
    "PI.front_regrows",
    "PI.front_loses_seven_rows",
    "PI.front_regrow_twice",
    "PI.front_regrow_example",
    "PI.front_align",
    "PI.front_align_ignores_mask",
    "PI.front_result",
    "PI.front_shape_mismatch",
    "PI.front_align_mismatch"
   ],
   "note": "astroalign.register and the part of the constructor that changes neither pixels nor mask are parameters"
  },
  {
   "property": "C90",
   "status": "proved",
   "theorems": [
    "PI.renderPsf_px",
    "PI.renderPsf_peak",
    "PI.renderPsf_outside",
    "PI.renderPsf_increases_downwards",
    "PI.renderPsf_increases_rightwards",
    "PI.renderPsf_square_centred",
    "PI.renderPsf_total",
    "PI.fitted_psf_not_unit",
    "PI.renderPsf_examples"
   ],
   "note": "astropy's Gaussian2D and render are modelled after their sources"
  },
  {
   "property": "C91",
   "status": "proved",
   "theorems": [
    "PI.meanModel_identical",
    "PI.meanModel_widths",
    "PI.meanModel_perm",
    "PI.meanModel_units",
    "PI.meanModel_ignores",
    "PI.meanModel_few",
    "PI.gauss_same_profile",
    "PI.gauss_mean_of_equal_stars",
    "PI.gauss_mean_of_angles"
   ],
   "note": "the fitter's results are the input"
  },
  {
   "property": "C92",
   "status": "proved",
   "theorems": [
    "PI.varpsf_normal_constant",
    "PI.varpsf_filter_constant",
    "PI.varpsf_power"
   ],
   "note": "scipy's convolve and fourier_shift are modelled after their documentation; exact arithmetic"
  },
  {
   "property": "C93",
   "status": "proved",
   "theorems": [
    "PI.coadd_split_psf",
    "PI.coadd_total_brightness"
   ],
   "note": "constant coefficient fields; exact arithmetic"
  },
  {
   "property": "C94",
   "status": "proved",
   "theorems": [
    "PI.filtered_is_correlation",
    "PI.filtered_star"
   ],
   "note": "centre of mass on a whole pixel; exact arithmetic"
  },
  {
   "property": "C95",
   "status": "proved",
   "theorems": [
    "PI.pSqnorm_even",
    "PI.pSqnorm_even_peak",
    "PI.pSqnorm_symmetric",
    "PI.pSqnorm_odd_no_centre"
   ],
   "note": "exact arithmetic"
  },
  {
   "property": "C96",
   "status": "proved",
   "theorems": [
    "PI.coadd_psf_peak"
   ],
   "note": "exact arithmetic"
  },
  {
   "property": "C97",
   "status": "proved",
   "theorems": [
    "PI.strict_rejects_iff",
    "PI.scatter_bound",
    "PI.scatter_redundant",
    "PI.strict_raises_iff"
   ],
   "note": "the catalogue of local maxima is any list; finite stamps in exact arithmetic"
  },
  {
   "property": "C98",
   "status": "proved",
   "theorems": [
    "PI.kl_basis_fresh",
    "PI.kl_basis_returns",
    "PI.many_index_error",
    "PI.kl_basis_not_finite",
    "PI.basis_elements",
    "PI.many_element",
    "PI.many_element_sum",
    "PI.many_element_nonneg",
    "PI.many_element_negative",
    "PI.many_element_inverted",
    "PI.recombined_total",
    "PI.smoothed_sum"
   ],
   "note": "exact arithmetic; sums that are zero are excluded by hypotheses"
  },
  {
   "property": "C99",
   "status": "proved",
   "theorems": [
    "PI.lone_value",
    "PI.lone_plane",
    "PI.lone_corner",
    "PI.lone_interped"
   ],
   "note": "the kernel is the one Box2DKernel(10) gives: 11 by 11 with halved borders; exact arithmetic"
  },
  {
   "property": "C100",
   "status": "proved",
   "theorems": [
    "PI.prepare_ok",
    "PI.coadd_image_terms",
    "PI.coadd_image_cached",
    "PI.coadd_again"
   ],
   "note": "Coh holds for every state reachable from an unmeasured object, see C55; the weight is any function of zero point and basis"
  },
  {
   "property": "C101",
   "status": "proved",
   "theorems": [
    "PI.align_unmeasured",
    "PI.align_updates",
    "PI.align_first",
    "PI.align_second"
   ],
   "note": "repeatable random choice, or at most 1800 sources; detection independent of the buffer size is a hypothesis of align_second"
  },
  {
   "property": "C102",
   "status": "proved",
   "theorems": [
    "PI.detect_buffered",
    "PI.redetect_lowers_threshold",
    "PI.overflow_elsewhere"
   ],
   "note": "sep.extract is assumed to fail exactly if it needs more than the buffer holds"
  },
  {
   "property": "C103",
   "status": "proved",
   "theorems": [
    "PI.varFrame_content",
    "PI.varFrame_returns",
    "PI.varFrame_made",
    "PI.neverDark_of_nonneg",
    "PI.stars_placed",
    "PI.linspace_star"
   ],
   "note": "the generator returns as many integers as asked for within the bounds (numpy contract)"
  },
  {
   "property": "C104",
   "status": "proved",
   "theorems": [
    "PI.subtract_noise_linear",
    "PI.subtract_noise_white"
   ],
   "note": "the measured zero points, PSFs and noise levels are held fixed"
  },
  {
   "property": "C105",
   "status": "proved",
   "theorems": [
    "PI.coadd_noise_linear",
    "PI.coadd_noise_white"
   ],
   "note": "the measured zero points, PSFs and noise levels are held fixed"
  },
  {
   "property": "C106",
   "status": "proved",
   "theorems": [
    "PI.subtract_star_new",
    "PI.subtract_star_ref",
    "PI.subtract_D_total",
    "PI.starAt_inside"
   ],
   "note": "exact arithmetic; the guard that replaces coefficients with vanishing real part must be idle for the shape statements"
  },
  {
   "property": "C107",
   "status": "proved",
   "theorems": [
    "PI.subtract_constant_star"
   ],
   "note": "the guard that replaces coefficients with vanishing real part must be idle"
  },
  {
   "property": "C108",
   "status": "proved",
   "theorems": [
    "PI.coadd_star",
    "PI.coadd_returns_psf"
   ],
   "note": "weighted PSF power non-zero at every frequency"
  },
  {
   "property": "C109",
   "status": "proved",
   "theorems": [
    "PI.varpsf_normal_shape",
    "PI.varpsf_normal_px",
    "PI.varpsf_normal_linear",
    "PI.varpsf_normal_edge",
    "PI.balancePoint_iff"
   ],
   "note": "scipy's convolve is modelled after its documentation; exact arithmetic"
  },
  {
   "property": "C110",
   "status": "proved",
   "theorems": [
    "PI.varpsf_normal_rescale",
    "PI.varpsf_filter_rescale",
    "PI.varpsf_power_rescale"
   ],
   "note": "division by a zero of the normalisation image gives zero in the model"
  },
  {
   "property": "C111",
   "status": "proved",
   "theorems": [
    "PI.scale_cost_is_difference",
    "PI.shift_residual_is_difference",
    "PI.sky_in_difference",
    "PI.scale_cost_sees_sky",
    "PI.scale_cost_pure_sky",
    "PI.perfect_fit_of_sky",
    "PI.scale_cost_at_truth",
    "PI.fit_costs"
   ],
   "note": "The optimiser and the background estimate are parameters; the minimiser is assumed perfect only for this one cost. Exact arithmetic."
  },
  {
   "property": "C112",
   "status": "proved",
   "theorems": [
    "PI.plotR_raises_iff",
    "PI.plotR_empty",
    "PI.plotR_draws",
    "PI.log10_default_fill"
   ],
   "note": "Drawing is reduced to the array and limits given to imshow; backends whose show() does not wait. Integer arrays are not covered."
  },
  {
   "property": "C113",
   "status": "proved",
   "theorems": [
    "PI.plotS_many_masked",
    "PI.plotS_few_masked",
    "PI.plotS_axes",
    "PI.plotS_pixels"
   ],
   "note": "Exact arithmetic; the fractions between one tenth and one seventh are not decided; arrays of floats without NaN or infinities."
  },
  {
   "property": "C114",
   "status": "proved",
   "theorems": [
    "PI.store_names_differ",
    "PI.store_then_open",
    "PI.store_names_unsorted",
    "PI.store_place",
    "PI.store_cards",
    "PI.store_read_back"
   ],
   "note": "astropy's Time is a parameter; float32 rounding on reading and failures to write are not modelled."
  },
  {
   "property": "C115",
   "status": "proved",
   "theorems": [
    "PI.s_hat_depends_on_order",
    "PI.s_hat_order_example"
   ],
   "note": "The numerical libraries are parameters; the transform is represented by the image it is the transform of."
  },
  {
   "property": "C116",
   "status": "proved",
   "theorems": [
    "PI.coadd_optimal",
    "PI.common_bound"
   ],
   "note": "weighted PSF power non-zero at every frequency; whole-pixel positions"
  },
  {
   "property": "C117",
   "status": "proved",
   "theorems": [
    "PI.subtract_optimal",
    "PI.ignoring_bound"
   ],
   "note": "without fits; guard idle, centres of mass on whole pixels"
  },
  {
   "property": "C118",
   "status": "proved",
   "theorems": [
    "PI.stamp_content",
    "PI.skyLevel_affine",
    "PI.skyLevel_none_iff",
    "PI.stamp_exposure_sky",
    "PI.stamp_not_finite",
    "PI.flat_stamp_nan",
    "PI.star_accepted"
   ],
   "note": "exact arithmetic"
  },
  {
   "property": "C119",
   "status": "proved",
   "theorems": [
    "PI.score_noise",
    "PI.score_linear",
    "PI.dot_score_noise"
   ],
   "note": "without fits; displacements by whole pixels; exact arithmetic"
  },
  {
   "property": "C120",
   "status": "proved",
   "theorems": [
    "PI.gauss_coadd_noise",
    "PI.gauss_coadd_white_iff",
    "PI.gauss_coadd_linear",
    "PI.gauss_coadd_star",
    "PI.gauss_coadd_psf",
    "PI.gauss_star_psf_iff",
    "PI.narrow_not_white",
    "PI.narrow_star_shape"
   ],
   "note": "the rendered Gaussian and the basis are arbitrary arrays; PSF centres at whole pixels for the statements on stars; exact arithmetic"
  },
  {
   "property": "C121",
   "status": "proved",
   "theorems": [
    "PI.history_background",
    "PI.history_interped",
    "PI.interped_moment",
    "PI.history_catalogue",
    "PI.catalogue_moment",
    "PI.assign_array",
    "PI.assign_unsupported",
    "PI.assign_dark_middle",
    "PI.refresh_needs_catalogue",
    "PI.mask_none_restores",
    "PI.own_mask_iff",
    "PI.own_mask_bar",
    "PI.built_tame",
    "PI.list_doubles",
    "PI.eaten"
   ],
   "note": "background, catalogue and interpolated image are represented by the pixels they are computed from; failures of detection and interpolation are left out"
  },
  {
   "property": "C122",
   "status": "proved",
   "theorems": [
    "PI.score_star_new",
    "PI.score_star_ref",
    "PI.score_star_peak",
    "PI.selfCorr_le",
    "PI.dot_score_star"
   ],
   "note": "without the fits; whole-pixel centres; the image in the denominator is held fixed"
  },
  {
   "property": "C123",
   "status": "proved",
   "theorems": [
    "PI.subtract_transpose",
    "PI.tr_shiftResidual",
    "PI.shift_residual_asymmetric"
   ],
   "note": "the position of the highest pixel is an oracle, transposed with the image; this is exact where it is unique"
  },
  {
   "property": "C124",
   "status": "proved",
   "theorems": [
    "PI.subtract_rolled",
    "PI.dot_rolled"
   ],
   "note": "without the shift fit"
  },
  {
   "property": "C125",
   "status": "proved",
   "theorems": [
    "PI.subtract_units",
    "PI.score_units",
    "PI.dot_units"
   ],
   "note": "without the shift fit; closed form of S without the scale fit"
  },
  {
   "property": "C126",
   "status": "proved",
   "theorems": [
    "PI.coadd_transpose",
    "PI.coadd_rolled",
    "PI.coadd_units",
    "PI.twoExposures_rolled"
   ],
   "note": "images with a single PSF; exact arithmetic"
  },
  {
   "property": "C127",
   "status": "proved",
   "theorems": [
    "PI.transparency_brighter",
    "PI.subtract_brighter_copy",
    "PI.starStore_scale"
   ],
   "note": "without fits; exact logarithms"
  },
  {
   "property": "C128",
   "status": "proved",
   "theorems": [
    "PI.coadd_pair_factor",
    "PI.pairGain_true",
    "PI.pairGain_lt",
    "PI.pairGain_bound",
    "PI.coadd_brighter_copy"
   ],
   "note": "images with a single PSF; exact arithmetic"
  },
  {
   "property": "C129",
   "status": "proved",
   "theorems": [
    "PI.transparency_copies",
    "PI.copyZp_equal_iff",
    "PI.copyZp_three_two",
    "PI.coadd_copies_factor",
    "PI.copyGain_le",
    "PI.coadd_copies_measured",
    "PI.twoStars_gain",
    "PI.subtract_copies_measured"
   ],
   "note": "images with a single PSF; exact arithmetic; subtraction without fits"
  },
  {
   "property": "C130",
   "status": "proved",
   "theorems": [
    "PI.construct_array",
    "PI.subtract_raw_mask",
    "PI.coadd_raw_mask",
    "PI.raw_interped",
    "PI.bad_value_irrelevant"
   ],
   "note": "the background is the same in both calls (it is an oracle)"
  },
  {
   "property": "C131",
   "status": "proved",
   "theorems": [
    "PI.centerOfMass_framed",
    "PI.fft_framed",
    "PI.restamped_framed",
    "PI.subtract_restamped",
    "PI.toCoImg_framed",
    "PI.coadd_framed",
    "PI.dot_score_moves"
   ],
   "note": "needs the guard on the real part of the PSF transform to be idle in both layouts; coadd for constant PSFs only"
  },
  {
   "property": "C132",
   "status": "proved",
   "theorems": [
    "PI.centerOfMass_times",
    "PI.fft_times",
    "PI.rescaled_times",
    "PI.subtract_psf_scale",
    "PI.subtract_psf_common",
    "PI.twice_normalised"
   ],
   "note": "needs the guard on the real part of the PSF transform to be idle, a brightest-pixel search that does not depend on the unit, and a positive scale"
  },
  {
   "property": "C133",
   "status": "proved",
   "theorems": [
    "PI.maxima_scaled",
    "PI.maxima_offset",
    "PI.maxima_offset_raises",
    "PI.maxima_transposed",
    "PI.maxima_transposed_iff",
    "PI.maxima_placed",
    "PI.maxima_mirrored",
    "PI.maxima_two"
   ],
   "note": "the clipped mean and deviation are taken to follow the image; moving and mirroring for a detection level that is not negative"
  },
  {
   "property": "C134",
   "status": "proved",
   "theorems": [
    "PI.registerOne_mask",
    "PI.registerOne_array",
    "PI.coadd_aligned_masks",
    "PI.coadd_aligned_mask",
    "PI.coadd_order_mask",
    "PI.subtract_aligned_mask",
    "PI.blank_unmasked"
   ],
   "note": "astroalign.register is a parameter that here returns its input; the part of the constructor after the mask is taken not to raise"
  },
  {
   "property": "C135",
   "status": "proved",
   "theorems": [
    "PI.transparency_pairs",
    "PI.transparency_swap",
    "PI.subtract_swap_measured",
    "PI.coadd_pair_swap_measured",
    "PI.coadd_series",
    "PI.coadd_three_order",
    "PI.twoStars_coadd_order",
    "PI.twoStore_swap"
   ],
   "note": "fresh catalogues (no earlier transparency run wrote into them); minimum-norm least-squares solver"
  },
  {
   "property": "C136",
   "status": "proved",
   "theorems": [
    "PI.subKernels_real",
    "PI.score_quotient",
    "PI.sky_in_variance",
    "PI.sky_in_filtered",
    "PI.subtract_under_sky",
    "PI.subtract_matched_sky",
    "PI.coadd_under_sky",
    "PI.twoExposures_sky",
    "PI.point_sky"
   ],
   "note": "exact arithmetic; the photometry and the noise estimates are held fixed"
  },
  {
   "property": "C137",
   "status": "proved",
   "theorems": [
    "PI.coadd_last_zero_point",
    "PI.transparency_repeats",
    "PI.coadd_one_object",
    "PI.twoStars_object",
    "PI.faintBright_object"
   ],
   "note": "one process for the reading loop; fresh catalogues; a last zero point of exactly 0 (division 0/0 in the code) is excluded"
  },
  {
   "property": "C138",
   "status": "proved",
   "theorems": [
    "PI.explicit_mask_hides",
    "PI.masked_array_hides",
    "PI.subImg_alike",
    "PI.subtract_masked_values",
    "PI.borders_read_masked"
   ],
   "note": "sep's background and extraction are assumed to look only at unmasked pixels; no alignment; NaN pixels outside of an explicit mask are outside of the model of subtract"
  },
  {
   "property": "C139",
   "status": "proved",
   "theorems": [
    "PI.kl_best",
    "PI.inf_loss_promise",
    "PI.kl_near_best",
    "PI.nearPair_decomposed",
    "PI.kl_misses_mean"
   ],
   "note": "np.linalg.eigh is assumed exact (orthonormal eigenvectors, increasing eigenvalues); above 250 stars the statement is about the combinations of stamps before the code renormalises them (C98)"
  },
  {
   "property": "C140",
   "status": "proved",
   "theorems": [
    "PI.kl_vals_unique",
    "PI.kl_model_unique",
    "PI.kl_element_unique",
    "PI.kl_single_unique",
    "PI.decomposed_reorder",
    "PI.equalPair_decomposed",
    "PI.kl_tie"
   ],
   "note": "np.linalg.eigh is assumed exact; the fit of the coefficient fields is not part of the statement; for more than 250 stars the elements meant are those before renormalisation"
  },
  {
   "property": "C141",
   "status": "proved",
   "theorems": [
    "PI.transparency_moved",
    "PI.shift_keeps",
    "PI.rotation_keeps",
    "PI.transparency_far",
    "PI.transparency_row_order"
   ],
   "note": "fresh catalogues (no sourceid column yet); exact arithmetic; the least-squares routine returns the solution of least norm"
  },
  {
   "property": "C142",
   "status": "proved",
   "theorems": [
    "PI.clipped_exists",
    "PI.clipped_affine",
    "PI.clipped_moved",
    "PI.detected_bound",
    "PI.maxima_default_bound",
    "PI.few_pixels_none",
    "PI.stars_found",
    "PI.detected_entry",
    "PI.one_star_found",
    "PI.bright_hides_faint"
   ],
   "note": "sigma_clipped_stats is modelled after its documentation (sigma=3, median and standard deviation, maxiters=3) in exact arithmetic; the square root may be off by a relative tolerance, since the model of find_S_local_maxima is over the rationals"
  },
  {
   "property": "C143",
   "status": "proved",
   "theorems": [
    "PI.power_split",
    "PI.errors_not_amplified",
    "PI.pair_recovered",
    "PI.pixel_error",
    "PI.coadd_power_bound",
    "PI.power_split_example"
   ],
   "note": "exact arithmetic; power_split and pair_recovered for PSFs on which the guard against small frequencies does not act; without fitting (the fitted zero point would depend on the pixels)"
  },
  {
   "property": "C144",
   "status": "proved",
   "theorems": [
    "PI.subtract_turned",
    "PI.score_turned",
    "PI.score_not_turned",
    "PI.coadd_turned",
    "PI.dot_turned",
    "PI.twoExposures_turned"
   ],
   "note": "exact arithmetic; the backgrounds enter through their difference; shift=False"
  },
  {
   "property": "C145",
   "status": "proved",
   "theorems": [
    "PI.coadd_finite",
    "PI.coadd_pixel_finite_iff",
    "PI.coadd_psf_finite",
    "PI.zero_over_zero",
    "PI.mirror_psf_vanishes",
    "PI.coadd_mirror_nan",
    "PI.sharp_psf_sees",
    "PI.coaddN_same_run",
    "PI.box_exposure"
   ],
   "note": "a second model of the last step with nan; exact arithmetic decides which coefficient is zero"
  },
  {
   "property": "C146",
   "status": "proved",
   "theorems": [
    "PI.align_for_diff_writes_reference",
    "PI.align_for_diff_forgets_new",
    "PI.align_for_diff_aligned",
    "PI.align_for_diff_mask_error",
    "PI.register_twice",
    "PI.new_image_read",
    "PI.new_image_mask",
    "PI.new_image_mask_shape",
    "PI.register_arguments",
    "PI.aligned_written"
   ],
   "note": "astroalign.register is a parameter; that it resamples its first argument is its documented behaviour"
  },
  {
   "property": "C147",
   "status": "proved",
   "theorems": [
    "PI.plot_imshow",
    "PI.coef_colour_scale",
    "PI.psf_interpolation",
    "PI.options_leak",
    "PI.bars_depend_on_order",
    "PI.autopsfDrawn_arrays",
    "PI.gauss_autopsf_fails",
    "PI.contours_square_only"
   ],
   "note": "which options matplotlib accepts is not modelled"
  },
  {
   "property": "C148",
   "status": "proved",
   "theorems": [
    "PI.coadd_psf_is_zp",
    "PI.coadd_psf_common",
    "PI.coadd_point_mean",
    "PI.coadd_point_weights",
    "PI.coadd_basis_scale",
    "PI.pointPair_weights"
   ],
   "note": ""
  },
  {
   "property": "C149",
   "status": "proved",
   "theorems": [
    "PI.fit_starts",
    "PI.start_val",
    "PI.start_between",
    "PI.start_peak",
    "PI.start_off_centre",
    "PI.fitCost_zero",
    "PI.fit_residual",
    "PI.fit_flat",
    "PI.fit_swap",
    "PI.fit_units",
    "PI.fit_mirror",
    "PI.flat_stars_bias",
    "PI.fit_example",
    "PI.fits_to_psf"
   ],
   "note": "the fitter is a parameter; finite pixels only"
  },
  {
   "property": "C150",
   "status": "proved",
   "theorems": [
    "PI.conv_shape",
    "PI.conv_sources",
    "PI.conv_total",
    "PI.conv_total_le",
    "PI.conv_loses",
    "PI.conv_rowMoment",
    "PI.conv_shift",
    "PI.conv_flipped",
    "PI.conv_one_pixel",
    "PI.conv_example"
   ],
   "note": "scipy's fftconvolve is modelled as the exact sum; a PSF without pixels (scipy returns an empty array) is not covered"
  },
  {
   "property": "C151",
   "status": "proved",
   "theorems": [
    "PI.accepted_iff",
    "PI.refused_value_error",
    "PI.background_from",
    "PI.integers_refused",
    "PI.transposed_refused",
    "PI.files_accepted",
    "PI.primary_refused",
    "PI.repr_shape",
    "PI.accept_example"
   ],
   "note": "what sep accepts is modelled after its source"
  },
  {
   "property": "C152",
   "status": "proved",
   "theorems": [
    "PI.attached_to",
    "PI.by_name_plain",
    "PI.by_name_masked",
    "PI.reserved_path",
    "PI.file_named_like_class",
    "PI.named_example"
   ],
   "note": ""
  },
  {
   "property": "C153",
   "status": "proved",
   "theorems": [
    "PI.psf_model_fit",
    "PI.psf_model_full",
    "PI.psf_model_exact",
    "PI.psf_model_at_star",
    "PI.fit_at_stars",
    "PI.fit_unique",
    "PI.fit_exact",
    "PI.fit_frame",
    "PI.fit_order",
    "PI.psf_model_order",
    "PI.triangle_determines",
    "PI.few_stars",
    "PI.fit_ambiguous",
    "PI.fit_exists",
    "PI.fitsLsq_exists",
    "PI.two_star_fields"
   ],
   "note": "astropy's linear fitter is a parameter that minimises the sum of squares (satisfiable: fitsLsq_exists); exact arithmetic"
  },
  {
   "property": "C154",
   "status": "proved",
   "theorems": [
    "PI.coadd_in_stages",
    "PI.coadd_own_coadd",
    "PI.positivePower_single",
    "PI.nights_in_stages"
   ],
   "note": "exact arithmetic; the second stage is given images with the stated attributes (pixels, PSF, centre, zero point, noise, mask), not images whose attributes are measured again"
  },
  {
   "property": "C155",
   "status": "proved",
   "theorems": [
    "PI.coadd_peak",
    "PI.coadd_snr",
    "PI.peak_grows",
    "PI.peak_grows_strictly",
    "PI.peak_between",
    "PI.peak_adds_iff",
    "PI.peak_loses",
    "PI.sharpAndSoft_peaks",
    "PI.sharpAndSoft_star"
   ],
   "note": "exact arithmetic; stars are centred on a pixel"
  },
  {
   "property": "C156",
   "status": "proved",
   "theorems": [
    "PI.subtract_snr",
    "PI.diff_term",
    "PI.diff_better",
    "PI.diff_le_new",
    "PI.diff_eq_new_iff",
    "PI.diff_le_ref",
    "PI.diff_half",
    "PI.alone_best",
    "PI.seeing_half",
    "PI.seeing_transient"
   ],
   "note": "exact arithmetic; the guard of the PSF transform is assumed idle (GuardIdle), as in C117"
  },
  {
   "property": "C157",
   "status": "proved",
   "theorems": [
    "PI.coadd_as_reference",
    "PI.deeper_reference",
    "PI.reference_le_new",
    "PI.reference_limit",
    "PI.softRef_reference"
   ],
   "note": "exact arithmetic; subtract is given an image with the stated attributes, not one whose PSF and zero point are measured again; guard of the PSF transform idle"
  },
  {
   "property": "C158",
   "status": "proved",
   "theorems": [
    "PI.psf_profile",
    "PI.astropy_profile",
    "PI.psf_astropy_same",
    "PI.half_height_iff",
    "PI.half_radius_bounds",
    "PI.half_width_pixel"
   ],
   "note": "without rotation; exact arithmetic with the exact decimal 2.335"
  },
  {
   "property": "C159",
   "status": "proved",
   "theorems": [
    "PI.stored_kind",
    "PI.floating_same",
    "PI.normal_integers",
    "PI.normal_there",
    "PI.score_integers",
    "PI.coadd_integers",
    "PI.psf_xy_integers"
   ],
   "note": "NumPy's casting rule for in-place additions is modelled after its documentation; for images that do not have the matched filter and the normalisation image yet; subtract does not read them and is not part of the claim"
  },
  {
   "property": "C160",
   "status": "proved",
   "theorems": [
    "PI.psf_survives",
    "PI.psf_lost",
    "PI.positions_only",
    "PI.many_stars_lost",
    "PI.few_stars_survive",
    "PI.gauss_lost",
    "PI.gauss_uncut"
   ],
   "note": "tinynpydb is trusted: opening in store mode creates the files, loading from a removed file raises FileNotFoundError; the removal is taken to succeed (see C61 for when it does not); many_stars_lost is for a PSF of more than one element"
  },
  {
   "property": "C161",
   "status": "proved",
   "theorems": [
    "PI.psf_xy_own_place",
    "PI.psf_xy_one_shape",
    "PI.psf_xy_off_centre",
    "PI.psf_xy_bar"
   ],
   "note": "exact arithmetic; the fields are affine functions on the whole frame and normal_image is their convolution with the elements (C109)"
  },
  {
   "property": "C162",
   "status": "proved",
   "theorems": [
    "PI.constant_sky",
    "PI.changed_sky",
    "PI.sky_alone",
    "PI.coadd_sky",
    "PI.coadd_sky_alone",
    "PI.seeing_sky",
    "PI.sharpAndSoft_sky"
   ],
   "note": "exact arithmetic; guard of the PSF transform idle (GuardIdle); for coadd single-PSF images with weighted PSF power non-zero at every frequency; light that leaves the frame re-enters on the other side, as in the transforms"
  },
  {
   "property": "C163",
   "status": "proved",
   "theorems": [
    "PI.unchanged_iff",
    "PI.changed_sky_total",
    "PI.wrong_zero_points",
    "PI.misaligned",
    "PI.misaligned_total",
    "PI.coadd_unchanged_iff",
    "PI.seeing_dipole",
    "PI.seeing_unchanged"
   ],
   "note": "exact arithmetic; guard of the PSF transform idle (GuardIdle); displacement around the frame; unchanged_iff needs a non-zero noise (of the new image, or of the reference with b non-zero); coadd_unchanged_iff is for single-PSF images with weighted PSF power non-zero at every frequency"
  },
  {
   "property": "C164",
   "status": "proved",
   "theorems": [
    "PI.float_sums",
    "PI.float_sums_64",
    "PI.float_power",
    "PI.float_procs",
    "PI.float_grid",
    "PI.float_coadd",
    "PI.workers_change_the_sum",
    "PI.coaddSumsR_exact",
    "PI.rnd64_relErr",
    "PI.rnd64_exactOn",
    "PI.cancelling_power",
    "PI.cancelling_coadd"
   ],
   "note": "binary64 without overflow and subnormal numbers; the contributions of the images are taken as computed; the steps after the sums (square root, division, inverse transform) are not rounded here; the bounds hold for any rounding with relative error u"
  },
  {
   "property": "C165",
   "status": "proved",
   "theorems": [
    "PI.clean_iff",
    "PI.diff_zero_iff",
    "PI.scale_cost_zero_iff",
    "PI.beta_recovers",
    "PI.shift_cost_at_truth",
    "PI.shift_recovers",
    "PI.displaced_whole",
    "PI.displaced_hat",
    "PI.beta_instance",
    "PI.shift_instance"
   ],
   "note": "exact arithmetic; guard of the PSF transform idle (GuardIdle); sky displaced around the frame by its Fourier series; the optimiser is assumed to find a global minimum of its own cost only; scipy's optimisers are local, so this is what they can at best achieve"
  },
  {
   "property": "C166",
   "status": "proved",
   "theorems": [
    "PI.deprecated_same_result",
    "PI.deprecated_as_error",
    "PI.deprecated_silent_by_default",
    "PI.deprecated_shown",
    "PI.deprecated_refiltered"
   ],
   "note": "CPython's warnings module is modelled from its source (filters, registry with version, once registry); the wrapped function is an arbitrary one"
  },
  {
   "property": "C167",
   "status": "proved",
   "theorems": [
    "PI.repr_tells_shape",
    "PI.afield_domain"
   ],
   "note": ""
  },
  {
   "property": "C168",
   "status": "proved",
   "theorems": [
    "PI.wrong_psf_iff",
    "PI.wrong_psf_star_iff",
    "PI.common_blur",
    "PI.one_wrong_psf",
    "PI.wrong_psf_total",
    "PI.seeing_sharper"
   ],
   "note": "exact arithmetic; guard of the PSF transform idle (GuardIdle); scale and shift fits switched off; the sky wraps around the frame"
  },
  {
   "property": "C169",
   "status": "proved",
   "theorems": [
    "PI.coadd_weights",
    "PI.coadd_any_signal",
    "PI.coadd_wrong_psf",
    "PI.sharpAndSoft_mistaken"
   ],
   "note": "images with a PSF that does not vary; exact arithmetic; power nonzero at every frequency"
  },
  {
   "property": "C170",
   "status": "proved",
   "theorems": [
    "PI.subtract_any_signal",
    "PI.subtract_wrong_psf",
    "PI.subtract_wrong_psf_same",
    "PI.ignoring_bound_as"
   ],
   "note": "exact arithmetic; scale and shift fits switched off; guard of the PSF transforms idle for the statements about stars"
  },
  {
   "property": "C171",
   "status": "proved",
   "theorems": [
    "PI.subtract_noise_true",
    "PI.subtract_noise_between",
    "PI.subtract_white_iff",
    "PI.coadd_noise_true",
    "PI.coadd_noise_between",
    "PI.coadd_wrong_weights",
    "PI.uneven_noise",
    "PI.sharpAndSoft_noisy"
   ],
   "note": "exact arithmetic; noise uncorrelated between pixels and images; scale and shift fits switched off; PSFs that do not vary; coadd: power nonzero at every frequency"
  },
  {
   "property": "C172",
   "status": "proved",
   "theorems": [
    "PI.subtract_upDown",
    "PI.subtract_upDown_exact",
    "PI.coadd_upDown",
    "PI.subtract_checkerboard",
    "PI.coadd_checkerboard",
    "PI.column_upDown"
   ],
   "note": "exact arithmetic; real part of D and R; shift fit switched off; PSF stamps with a nonzero total and no coefficient whose real part vanishes (so the guard of the PSF coefficients is idle); coadd: power nonzero at every frequency, PSFs that do not vary; subtract: where no star could be fitted the centre of the new PSF lies inside its stamp"
  },
  {
   "property": "C173",
   "status": "proved",
   "theorems": [
    "PI.varfilter_formula",
    "PI.varfilter_noise",
    "PI.varfilter_star",
    "PI.varfilter_misplaces",
    "PI.varfilter_noise_uneven",
    "PI.coadd_var_noise",
    "PI.coadd_var_noise_le",
    "PI.coadd_var_noise_two"
   ],
   "note": "exact arithmetic; s_component: centre of mass of the first basis element on a whole pixel; division by a zero of the normalisation or of the power gives zero in the model; coefficient fields do not depend on the pixels; errors independent between pixels and images"
  },
  {
   "property": "C174",
   "status": "proved",
   "theorems": [
    "PI.unit_total",
    "PI.unit_total_pos",
    "PI.psf_total_float",
    "PI.numpy_sums",
    "PI.numpy_depth",
    "PI.simPsfR_exact",
    "PI.divSumR_exact",
    "PI.divSum_unitImg",
    "PI.plan_error",
    "PI.psf_thousand",
    "PI.three_thirds",
    "PI.cancelling_stamp"
   ],
   "note": "the contents of the array are taken as computed; no overflow and no subnormal numbers; the order of numpy is that of its pairwise summation of contiguous doubles, the general bounds hold for every order; a sum that is zero gives no numbers (NaN or infinities)"
  },
  {
   "property": "C175",
   "status": "proved",
   "theorems": [
    "PI.coadd_var_transpose",
    "PI.coadd_var_turned",
    "PI.coadd_even_not_turned",
    "PI.coadd_var_units",
    "PI.coadd_basis_order",
    "PI.coadd_var_spec"
   ],
   "note": "exact arithmetic; a division by a zero of the normalisation image gives zero in the model (no numbers in numpy); the coefficient fields are given on the pixel grid; images without coefficient fields are treated in C126 and C144"
  },
  {
   "property": "C176",
   "status": "proved",
   "theorems": [
    "PI.outlier_detected",
    "PI.darkest_not_detected",
    "PI.lone_star_score",
    "PI.same_psf_corr",
    "PI.score_noise_pos",
    "PI.outlier_detected_near",
    "PI.new_star_found",
    "PI.default_found",
    "PI.pixel_star_found",
    "PI.faded_star_missed",
    "PI.pixel_star_faded"
   ],
   "note": "sigma_clipped_stats as in C142; the score image is exact and the image handed on differs from it by the stated rounding; equal PSFs and zero points, the sky is the same in both exposures; the pixels in the denominator may contain the star and must be above -1"
  },
  {
   "property": "C177",
   "status": "proved",
   "theorems": [
    "PI.chain_constant_sky",
    "PI.chain_noise_white",
    "PI.chain_optimal",
    "PI.coadd_psf_centred",
    "PI.coadd_guard_idle"
   ],
   "note": "exact arithmetic; the reference is given the PSF image, noise and flux scale of the coadd, which the program would estimate; PSF centres on whole pixels, that of the coadd at the stamp size (proved where the frame is 2 psf_shape + 1 square); competing statistics are linear"
  },
  {
   "property": "C178",
   "status": "proved",
   "theorems": [
    "PI.first_psf",
    "PI.first_psf_fits",
    "PI.psf_again",
    "PI.first_matched_filter"
   ],
   "note": "stamp extraction, eigenvalue routine, fits and interpolation are parameters that may raise; that the stamps are found is a hypothesis (see C46 and C98 for when they are)"
  },
  {
   "property": "C179",
   "status": "proved",
   "theorems": [
    "PI.diff_gaussian",
    "PI.false_alarms",
    "PI.weighted_gaussian",
    "PI.psf_image_info",
    "PI.star_gaussian",
    "PI.star_detected",
    "PI.coadd_gaussian",
    "PI.coadd_false_alarms",
    "PI.gauss_errors_exist"
   ],
   "note": "Exact arithmetic; errors are any random variables with the stated laws, independent of each other (`GaussErrors`); `gauss_errors_exist` builds such a space for every choice of noise levels. `psf_image_info`: the square sum of the returned PSF image is the information of C156 times the noise of D."
  },
  {
   "property": "C180",
   "status": "proved",
   "theorems": [
    "PI.moved_star_power",
    "PI.moved_star_invisible",
    "PI.moved_star_total",
    "PI.moved_star_small",
    "PI.moved_star_gaussian"
   ],
   "note": "Stars are drawn with the PSF of their image, wrapping around the edges (as in C106, C107)."
  },
  {
   "property": "C181",
   "status": "proved",
   "theorems": [
    "PI.coadd_most_powerful",
    "PI.subtract_most_powerful"
   ],
   "note": "Exact arithmetic; PSF centres on whole pixels; stars drawn with the PSF of their image, wrapping around the edges; scale and shift fits switched off. The test may know the sky without the star."
  },
  {
   "property": "C182",
   "status": "proved",
   "theorems": [
    "PI.chain_gaussian",
    "PI.chain_false_alarms",
    "PI.chain_most_powerful"
   ],
   "note": "Conditions of C177: the reference is given the PSF image, noise and flux scale of the coadd, which the program would estimate; PSF centres on whole pixels, that of the coadd at the stamp size; exact arithmetic."
  },
  {
   "property": "C183",
   "status": "proved",
   "theorems": [
    "PI.coadd_sufficient",
    "PI.coadd_replaces",
    "PI.coadd_replaces_test",
    "PI.sky_onto",
    "PI.coadd_minimal"
   ],
   "note": "densities and conditional expectations from Mathlib; the frame is periodic as for the Fourier transform the code uses; the statistic that replaces a given one exists by conditional expectation and is not computed"
  },
  {
   "property": "C184",
   "status": "proved",
   "theorems": [
    "PI.through_onto",
    "PI.same_difference_iff",
    "PI.blind_iff_from_difference"
   ],
   "note": "periodic frame, exact arithmetic; the two PSF centres are displaced alike from the pixels taken as their centres"
  },
  {
   "property": "C185",
   "status": "proved",
   "theorems": [
    "PI.coadd_flux_best",
    "PI.subtract_flux_best"
   ],
   "note": "the Cramer-Rao bound, derived from the inequality of Hammersley, Chapman and Robbins for the shifted Gaussian laws of Mathlib; single PSFs, centres of mass on pixels, PSF transforms above the guard, beta=False and shift=False; measurements must have a finite second moment"
  },
  {
   "property": "C186",
   "status": "proved",
   "theorems": [
    "PI.transparency_same_stars",
    "PI.extraction_drops",
    "PI.subtract_again",
    "PI.subtract_again_differs"
   ],
   "note": "The stars dropped when the PSF is measured are a parameter; extraction_drops: what cutting out the stars (C46, C50) does to the catalogue is the dropping used here. transparency_same_stars: order and earlier numbers of the stars do not matter. subtract_again: what every call gets. subtract_again_differs is the field of sixteen stars of the statement, worked out."
  },
  {
   "property": "C187",
   "status": "proved",
   "theorems": [
    "PI.transparency_same_stars_many",
    "PI.coadd_zps_again",
    "PI.coadd_again_differs",
    "PI.coadd_again_pixels",
    "PI.onePixel_again"
   ],
   "note": "exact arithmetic; where the summed weights of the second call vanish numpy gives nan (C145). That the object keeps its matched filter: C58, C100. coadd_again_differs (zero points) and onePixel_again (pixels) are worked out."
  },
  {
   "property": "C188",
   "status": "proved",
   "theorems": [
    "PI.stars_apart",
    "PI.reads_own_stars",
    "PI.shared_overwritten",
    "PI.copy_shares",
    "PI.fork_collides",
    "PI.dbName_inj"
   ],
   "note": "tinynpydb is trusted to read the files at each load and to empty them when it is opened in store mode; each of its operations is taken as not interrupted by another. threeImages is a history with a reused address, worked out."
  },
  {
   "property": "C189",
   "status": "proved",
   "theorems": [
    "PI.coadd_misfit",
    "PI.coadd_best_fit",
    "PI.coadd_best_star",
    "PI.subtract_misfit",
    "PI.subtract_best_star"
   ],
   "note": "single PSFs, centres of mass on pixels, PSF transforms above the guard, beta=False and shift=False; coadd_best_fit and coadd_best_star follow from coadd_misfit, subtract_best_star from subtract_misfit; the least misfit over the unchanging skies is attained"
  },
  {
   "property": "C190",
   "status": "proved",
   "theorems": [
    "PI.score_gaussian",
    "PI.score_law",
    "PI.score_false_alarm",
    "PI.score_alarms_expected",
    "PI.noiseRatio_pos",
    "PI.score_flat_alarm",
    "PI.dot_false_alarm",
    "PI.bright_pixel_alarm"
   ],
   "note": "without fits; displacements by whole pixels; exact arithmetic; the denominator of S is held fixed (in the program it is made of the same noisy pixels); bright_pixel_alarm is the star of 97 counts"
  },
  {
   "property": "C191",
   "status": "proved",
   "theorems": [
    "PI.photometry_errors",
    "PI.photometry_errors_bounded",
    "PI.photometry_errors_sharp",
    "PI.one_variable_star",
    "PI.unmatched_star",
    "PI.one_star_unbounded"
   ],
   "note": "two images; exact arithmetic; kd-tree query and lsqr as oracles with their contracts"
  },
  {
   "property": "C192",
   "status": "proved",
   "theorems": [
    "PI.one_element_iff",
    "PI.star_weights",
    "PI.one_element_mean",
    "PI.mean_star_between",
    "PI.many_element_mean",
    "PI.same_stars",
    "PI.same_stars_psf",
    "PI.alikePair_psf"
   ],
   "note": "np.linalg.eigh is assumed exact; exact arithmetic; that stars are cut out and finite is a hypothesis (C46, C98); stars that are not positively correlated: see C84 and C139"
  },
  {
   "property": "C193",
   "status": "proved",
   "theorems": [
    "PI.diff_errors_bounded",
    "PI.diff_errors_count",
    "PI.diff_few_wrong",
    "PI.diff_errors_reached",
    "PI.coadd_errors"
   ],
   "note": "exact arithmetic; PSFs, noise levels and zero points are held fixed (their errors: C168 to C171, C191); that the PSFs of the exposures of a coadd do not all vanish at one frequency is a hypothesis (C145 says what happens otherwise)"
  },
  {
   "property": "C194",
   "status": "proved",
   "theorems": [
    "PI.coadd_one_psf",
    "PI.coadd_one_psf_power",
    "PI.coadd_pixelwise_iff",
    "PI.diff_one_psf",
    "PI.diff_one_psf_power",
    "PI.diff_pixelwise_iff",
    "PI.row_pixelwise",
    "PI.row_hollow"
   ],
   "note": "exact arithmetic; periodic frame; row_pixelwise and row_hollow are the PSF of three pixels; what a vanishing frequency does to coadd is C145"
  },
  {
   "property": "C195",
   "status": "proved",
   "theorems": [
    "PI.coadd_sharpness",
    "PI.coadd_sharp_between",
    "PI.diff_sharpness",
    "PI.diff_sharp_between"
   ],
   "note": "exact arithmetic; periodic frame; contrast is the squared modulus of the unnormalised transform, imgPower the summed squares"
  },
  {
   "property": "C196",
   "status": "proved",
   "theorems": [
    "PI.epochs_optimal",
    "PI.epochs_bound",
    "PI.epochs_noise_white",
    "PI.epochs_sky",
    "PI.epochs_swap",
    "PI.epochs_less",
    "PI.epochs_more",
    "PI.epochs_equal",
    "PI.epochs_halves"
   ],
   "note": "exact arithmetic; periodic frame; the hypotheses on a season are bundled in the structure Epoch, which demoEpoch shows to hold of the coadd of two exposures; the flux scales of the coadds are given to subtract as its fitted zero points"
  },
  {
   "property": "C197",
   "status": "proved",
   "theorems": [
    "PI.edge_diff_eq",
    "PI.edge_diff",
    "PI.edge_diff_inside",
    "PI.edge_diff_iff",
    "PI.edge_coadd",
    "PI.cut_add_wrapped",
    "PI.wrapped_inside",
    "PI.wrapped_star"
   ],
   "note": "exact arithmetic; real images (AxisOK: odd sides or whole-pixel centres); stampLight and cutSky say what an exposure shows without any wrapping, cut_add_wrapped ties them to the periodic sky of C162"
  },
  {
   "property": "C198",
   "status": "proved",
   "theorems": [
    "PI.shared_cov",
    "PI.shared_one_psf",
    "PI.shared_same",
    "PI.refShare_between",
    "PI.sum_linear",
    "PI.sum_noise_cov",
    "PI.sum_noise_same",
    "PI.mean_noise",
    "PI.mean_noise_floor",
    "PI.mean_noise_least",
    "PI.mean_white_iff",
    "PI.contrast_noise"
   ],
   "note": "Variances and covariances are the second moments of the response of D to independent errors of all pixels; sum_linear says that the response is all there is. shared_cov is for any PSFs, shared_one_psf for one PSF, shared_same and the sums for new exposures with one PSF, noise and flux ratio."
  },
  {
   "property": "C199",
   "status": "proved",
   "theorems": [
    "PI.bits_self",
    "PI.bits_exchange",
    "PI.bits_units",
    "PI.bits_exact",
    "PI.exactPix_sound",
    "PI.roundPix_sound",
    "PI.roundPix_doubling",
    "PI.bits_self_round",
    "PI.nearestEven_whole",
    "PI.floor_whole",
    "PI.digits_rounds",
    "PI.digits_pos"
   ],
   "note": "The operations that lead to D (Model/SubtractBits) over an arbitrary arithmetic; bits_exact ties them to the exact model of subtract, roundPix_sound and roundPix_doubling give the laws for rounding after every operation. That the transforms of the libraries obey the laws (equal results for equal arrays, odd, exact under doubling) is an assumption on pyfftw and scipy; zeros of either sign are one number; no overflow or underflow."
  },
  {
   "property": "C200",
   "status": "proved",
   "theorems": [
    "PI.chunk_singletons",
    "PI.bits_workers",
    "PI.bits_workers_round",
    "PI.bits_order",
    "PI.bits_two",
    "PI.bits_coadd_zp",
    "PI.bits_coadd_psf",
    "PI.bits_coadd_units",
    "PI.bits_coadd_exact",
    "PI.roundCo_sums",
    "PI.roundCo_doubling",
    "PI.rnd64_digits",
    "PI.rnd64_rounds",
    "PI.bits_order_three"
   ],
   "note": "The operations that lead to R and P_r (Model/CoaddBits) over an arbitrary arithmetic; bits_coadd_exact ties them to the exact model of coadd, roundCo_sums and roundCo_doubling give the laws for rounding after every operation. That the transforms and sums of the libraries obey the laws (equal results for equal arrays, exact under doubling) is an assumption on pyfftw, numpy and scipy; zeros of either sign are one number; no overflow or underflow."
  },
  {
   "property": "C201",
   "status": "proved",
   "theorems": [
    "PI.bits_score_self",
    "PI.bits_score_self_round",
    "PI.bits_score_exchange",
    "PI.bits_P_units",
    "PI.bits_score_exact",
    "PI.roundSc_signs",
    "PI.exactSc_signs"
   ],
   "note": "The operations that lead to P and S_corr (Model/ScoreBits) over an arbitrary arithmetic; bits_score_exact ties them to the exact model of subtract, roundSc_signs gives the laws for rounding after every operation. That the transforms of the libraries obey the laws is an assumption on pyfftw and scipy; zeros of either sign are one number; no overflow or underflow. The centre of P is any function of P."
  },
  {
   "property": "C202",
   "status": "proved",
   "theorems": [
    "PI.bits_var_workers",
    "PI.bits_var_order",
    "PI.bits_var_zp",
    "PI.bits_var_units",
    "PI.bits_var_fields",
    "PI.bits_var_psf",
    "PI.bits_var_exact",
    "PI.roundVa_doubling"
   ],
   "note": "The operations that lead to R and P_r with coefficient fields (Model/VarBits) over an arbitrary arithmetic; bits_var_exact ties them to the exact model of coadd, roundCo_sums (C200) and roundVa_doubling give the laws for rounding after every operation. That transforms, sums and convolutions of the libraries obey the laws is an assumption on pyfftw, numpy and scipy; zeros of either sign are one number; no overflow or underflow."
  }
 ]
}