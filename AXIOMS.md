# Axioms of the property theorems

Output of `#print axioms` for every theorem of `MANIFEST.json`, grouped.

## none

`C02_setReferencePt_bug`, `C02_shiftXYZ_bug`, `C107_threads_bug`, `C18_empty_bug`, `C18_unsorted_bug`, `C67_profile_order_bug`, `C78_values_partial`

## propext

`C03_clone_ub`, `C03_drain_bug`, `C03_setSize_bug`, `C05_releaseAll_bug`, `C09_bounds`, `C09_lattice`, `C115_zero`, `C117_errors`, `C16_threshold`, `C20_errors`, `C21_crop_bug`, `C22_union`, `C23_noOrigin_bug`, `C23_operator_bug`, `C23_zero_bug`, `C24_hS2_bug`, `C24_negative_bug`, `C24_nrot_zero_bug`, `C25_errors`, `C28_slices_bug`, `C34_pop_empty`, `C34_signed_bug`, `C63_antiextensive`, `C64_errors`, `C65_errors`, `C65_mono`, `C65_unique`, `C67_corners_error`, `C67_errors`, `C67_rectangle_clip_bug`, `C67_rectangle_ub`, `C68_order_error`, `C74_errors`, `C88_errors`, `C96_slice_ub`

## propext, Classical.choice, Quot.sound

`C01_isOffsetInImage_bug`, `C01_isOffsetInImage_partial`, `C01_offset`, `C02_cursor_partial`, `C02_getCoords_getOffset`, `C02_setReferencePt_iff`, `C02_step`, `C03_allocated`, `C03_clone`, `C03_defined`, `C03_ownership`, `C03_reported`, `C03_setSize_partial`, `C04_registration_partial`, `C05_clear_bug`, `C05_destroy_partial`, `C05_histories`, `C06_add_partial`, `C06_add_unsigned`, `C06_sub_partial`, `C06_sub_unsigned`, `C07_addNoSat`, `C07_add_sub_cancel`, `C07_div_unsigned`, `C07_mulNoSat_partial`, `C07_mul_clamps`, `C07_subNoSat`, `C07_sub_add_cancel`, `C08_de_morgan`, `C08_inv_antitone`, `C08_inv_extremes`, `C08_inv_involution`, `C09_absDiff`, `C101_blobs`, `C101_empty_ub`, `C101_rectangles_partial`, `C101_slices_error`, `C102_cut_partial`, `C102_isolated_throws`, `C102_merge_partial`, `C102_mosaic_partial`, `C102_single_bug`, `C102_wide_bug`, `C103_bytes`, `C103_kuwahara_partial`, `C103_overflow_ub`, `C103_refuse`, `C103_variance_bug`, `C103_window`, `C104_alone_ub`, `C104_bytes_partial`, `C104_deviation`, `C104_inplace_bug`, `C104_near`, `C104_negative_ub`, `C104_overflow_ub`, `C104_refuse`, `C104_sigma_partial`, `C104_window`, `C104_zero`, `C105_cross_partial`, `C105_default_ub`, `C105_normalized_bug`, `C105_normalized_partial`, `C105_overflow_ub`, `C105_refuse`, `C105_scale_bug`, `C105_steps_ub`, `C106_distV0`, `C106_ends_iff`, `C106_no_zero_endless`, `C107_delete_all`, `C107_kill_bug`, `C107_registry`, `C107_shared_bug`, `C107_threads`, `C108_elements`, `C108_fastLabel`, `C108_same`, `C108_slices_ub`, `C109_case`, `C109_count`, `C109_extension`, `C109_nodot`, `C109_pbm`, `C109_read`, `C109_read_errors`, `C109_repeat_bug`, `C109_roundtrip_partial`, `C109_scheme`, `C109_scheme_bug`, `C109_slices`, `C109_spill_bug`, `C109_stack`, `C109_unknown`, `C109_write_stops`, `C10_complements`, `C10_partition`, `C110_alias_bug`, `C110_centre`, `C110_drawGraph`, `C110_errors`, `C110_slice_bug`, `C111_binary_partial`, `C111_brute_bug`, `C111_brute_row_bug`, `C111_opening`, `C111_short_bug`, `C112_bounds_partial`, `C112_closing_partial`, `C112_diagonal_bug`, `C112_inplace_bug`, `C112_level_bug`, `C112_lost_bug`, `C112_update`, `C113_inplace_bug`, `C113_queue`, `C113_sorted`, `C113_values_partial`, `C114_lines`, `C114_number`, `C114_split`, `C115_bijection`, `C115_inWindow`, `C115_inside`, `C115_translate`, `C116_direct`, `C116_image`, `C116_increasing`, `C116_max`, `C116_max_bug`, `C116_min`, `C116_subtractive_bug`, `C117_closing_bug`, `C117_open_partial`, `C117_range`, `C117_sort`, `C118_dual`, `C118_int32_bug`, `C118_values_partial`, `C119_direction`, `C119_edits_partial`, `C119_reverse_bug`, `C11_add`, `C11_errors`, `C11_inv`, `C11_inv_inv`, `C11_pixelwise`, `C11_sub`, `C120_digraph`, `C120_remove_bug`, `C120_sort_bug`, `C120_values`, `C12_generic_partial`, `C12_map`, `C12_table_partial`, `C13_copyChannel`, `C13_copyToChannel`, `C13_merge`, `C13_merge_split`, `C13_split3D_bug`, `C13_split_merge_partial`, `C13_split_partial`, `C14_equ_bug`, `C14_generic_lattice_partial`, `C14_int`, `C14_lt_bug`, `C14_ne_bug`, `C14_ne_partial`, `C14_order`, `C14_relations`, `C14_rgb_lattice`, `C14_sup_bug`, `C15_array`, `C15_bins_partial`, `C15_full_partial`, `C15_map_partial`, `C15_mask_partial`, `C16_reversed_partial`, `C17_area`, `C17_boundBox`, `C17_extremes`, `C17_maxPos_partial`, `C17_mean`, `C17_median_partial`, `C17_minPos_partial`, `C17_mode_partial`, `C17_moments`, `C17_offsets`, `C17_valueList`, `C17_vol`, `C18_computeBlobs`, `C18_drawBack_partial`, `C18_drawLut_partial`, `C18_draw_partial`, `C18_draw_safe`, `C18_last_pixel_bug`, `C19_areaThreshold`, `C19_areaThreshold_binary_partial`, `C19_areaThreshold_labels`, `C19_blobsArea`, `C19_blobsExtremes`, `C19_blobsMoments`, `C19_blobsVolume`, `C19_measure`, `C19_measure_pos`, `C19_race_bug`, `C20_flip_inplace`, `C20_horizFlip`, `C20_horizFlip_involutive`, `C20_rotate_bug`, `C20_rotate_compose_partial`, `C20_rotate_inplace_partial`, `C20_rotate_negative_bug`, `C20_rotate_partial`, `C20_vertFlip`, `C20_vertFlip_involutive`, `C21_addBorder`, `C21_copy`, `C21_copy_errors`, `C21_copy_whole`, `C21_crop`, `C21_crop_errors_partial`, `C21_translate_bug`, `C21_translate_partial`, `C22_addIndex`, `C22_builtin`, `C22_noCenter`, `C22_transpose`, `C23_minkowski`, `C23_operator_le`, `C23_square`, `C23_square_count`, `C23_square_operator`, `C23_sums`, `C24_list`, `C24_rotateList`, `C25_dilate_max`, `C25_dilate_partial`, `C25_erode_min`, `C25_erode_partial`, `C25_hexagon`, `C25_noCenter_bug`, `C25_wide_ub`, `C26_depth`, `C26_dilate_partial`, `C26_erode_partial`, `C27_cross`, `C27_cross_erosion`, `C27_cross_race_free`, `C27_run_exists`, `C27_square_cube`, `C27_vertical`, `C27_vertical_erosion`, `C28_adjunction_partial`, `C29_dilate_sup`, `C29_erode_inf`, `C29_extensive`, `C29_increasing`, `C30_duality_partial`, `C31_close`, `C31_duality_partial`, `C31_open`, `C31_total`, `C32_dualTopHat_partial`, `C32_gradient_partial`, `C32_topHat_partial`, `C33_cdf_partial`, `C33_constant_bug`, `C33_endless_bug`, `C33_ends_partial`, `C33_family`, `C33_granulometry_partial`, `C33_nan_bug`, `C33_steps_partial`, `C34_fifo`, `C34_refinement_partial`, `C35_build_eq_geoBuild_partial`, `C35_build_partial`, `C35_dualBuild_partial`, `C35_dual_eq_geo_partial`, `C35_geoBuild_partial`, `C35_least_partial`, `C35_paths_partial`, `C36_bounds_idempotent_partial`, `C36_duality_partial`, `C36_increasing_partial`, `C37_buildClose_partial`, `C37_buildOpen_above_open_partial`, `C37_buildOpen_antiextensive_partial`, `C37_buildOpen_idempotent_partial`, `C37_buildOpen_increasing_partial`, `C37_fillHoles_extensive_partial`, `C37_fillHoles_idempotent_partial`, `C37_fillHoles_increasing_partial`, `C37_fillHoles_minima_partial`, `C37_fillHoles_total`, `C37_fillHoles_value_partial`, `C37_hBuild_partial`, `C37_levelPics_partial`, `C38_maxima_partial`, `C38_minima_partial`, `C39_label`, `C39_lambdaLabel`, `C39_overflow_bug`, `C39_withoutFunctor`, `C39_wrap`, `C40_neighbors_partial`, `C41_basins_partial`, `C41_labels_partial`, `C42_watershed_partial`, `C43_basins_partial`, `C43_build`, `C43_stack`, `C43_watershed_partial`, `C44_edits_partial`, `C44_loop_bug`, `C44_min_weight_bug`, `C44_no_parallel_partial`, `C44_progress_partial`, `C44_sort_bug`, `C44_sort_partial`, `C44_zero_bug`, `C45_mst_partial`, `C45_single_bug`, `C46_isolated_bug`, `C46_isolated_throws`, `C46_labelize_partial`, `C47_mosaic_partial`, `C47_single_bug`, `C48_cross`, `C48_cross3d_partial`, `C49_euclidean_partial`, `C49_square`, `C50_distance_partial`, `C50_generic_partial`, `C51_agree_partial`, `C51_antiextensive`, `C51_hex_bug`, `C51_idempotent`, `C51_increasing`, `C51_maxtree_partial`, `C51_unionfind_partial`, `C51_unique`, `C52_extensivity_partial`, `C52_fullThick_partial`, `C52_fullThin_partial`, `C52_full_binary_partial`, `C52_hitOrMissList_partial`, `C52_hitOrMiss_gray_partial`, `C52_hitOrMiss_partial`, `C52_thick_partial`, `C52_thin_partial`, `C53_arrow_interior`, `C53_arrow_low`, `C53_arrow_partial`, `C53_arrow_size_partial`, `C54_empty_bug`, `C54_mean_partial`, `C54_median_partial`, `C54_rank_one_bug`, `C54_rank_partial`, `C54_rank_zero_partial`, `C55_binary`, `C55_copy`, `C55_copyAt_partial`, `C55_fill`, `C55_getPixel_partial`, `C55_image`, `C55_inv`, `C55_setOffset_partial`, `C55_setPixel_partial`, `C55_test`, `C56_left_partial`, `C56_multiple_bug`, `C56_right_partial`, `C56_zero`, `C57_bmp8`, `C57_bmprgb`, `C57_pgm`, `C57_pgm_name_bug`, `C57_vtk_letter_bug`, `C57_vtk_newline_bug`, `C57_vtk_partial`, `C57_vtk_type_bug`, `C58_pgm_hang`, `C58_vtk_ascii_bug`, `C58_vtk_blank_bug`, `C58_vtk_partial`, `C59_basins`, `C59_flood_partial`, `C59_merge`, `C59_output_partial`, `C59_rank_partial`, `C60_freeze`, `C60_restored`, `C60_silent`, `C62_otsu_partial`, `C62_signed_bug`, `C62_threshold_bug`, `C62_variance_bug`, `C63_area_close_partial`, `C63_area_partial`, `C63_disconnected_bug`, `C63_height_close_partial`, `C63_height_partial`, `C63_idempotent`, `C63_increasing`, `C63_width_close_partial`, `C63_width_partial`, `C64_close_partial`, `C64_dilate_partial`, `C64_erode_partial`, `C64_flat_bug`, `C64_open_partial`, `C64_posdiag_bug`, `C64_square_agree_partial`, `C64_square_close_partial`, `C64_square_erode_partial`, `C64_square_open_partial`, `C64_square_partial`, `C64_steep_bug`, `C64_width_ub`, `C65_absorb`, `C65_antiext`, `C65_bytes_partial`, `C65_granulometry`, `C65_idem`, `C65_open_partial`, `C65_posdiag_ub`, `C65_stack_ub`, `C66_inflBasins_bug`, `C66_inflBasins_partial`, `C66_inflBasins_seeds`, `C66_inflZones_empty_bug`, `C66_inflZones_ub`, `C66_skiz`, `C67_box_partial`, `C67_bresenhamLine_fails`, `C67_circle`, `C67_circle_midpoint_bug`, `C67_circle_near`, `C67_corners_partial`, `C67_disc`, `C67_drawLine_inside`, `C67_drawLine_partial`, `C67_drawLine_ub`, `C67_drawLine_wrap_bug`, `C67_points`, `C67_points_range`, `C67_profile`, `C67_profile_ub`, `C67_rectangle_partial`, `C67_sphere`, `C68_assoc`, `C68_inplace_bug`, `C68_multiply`, `C68_transpose`, `C68_transpose_inv`, `C68_transpose_multiply`, `C69_accuracy_bug`, `C69_accuracy_partial`, `C69_complement_bug`, `C69_constant_bug`, `C69_errors`, `C69_fscore`, `C69_hamming`, `C69_hamming_metric`, `C69_hausdorff_bug`, `C69_hausdorff_partial`, `C69_hausdorff_slices_bug`, `C69_indices`, `C69_negative_bug`, `C69_range`, `C69_ruzicka`, `C69_symm`, `C70_extinction`, `C70_prune`, `C70_prune_hex_bug`, `C70_prune_inplace_bug`, `C70_skeleton`, `C70_skeleton_bug`, `C70_skeleton_empty_bug`, `C70_skiz`, `C71_filled`, `C71_hierarchy`, `C71_last_level_bug`, `C71_levels_partial`, `C71_waterfall_partial`, `C71_watershed_partial`, `C72_alone_bug`, `C72_inplace_bug`, `C72_maxima_partial`, `C72_minima_partial`, `C72_propagate`, `C73_hMaximaLabeled_partial`, `C73_hMaxima_partial`, `C73_hMinimaLabeled_partial`, `C73_hMinima_partial`, `C73_maximaLabeled_partial`, `C73_saturated_bug`, `C74_geoDilate`, `C74_geoErode`, `C74_mask_bug`, `C74_reconstruction_partial`, `C74_sizes`, `C75_asBuildClose_partial`, `C75_asBuildOpen_partial`, `C75_asfClose`, `C75_asfOpen`, `C75_leveling_partial`, `C76_centre_bug`, `C76_constant_partial`, `C76_convolve_partial`, `C76_even_kernel_bug`, `C76_horiz_partial`, `C76_increasing_partial`, `C76_inplace_bug`, `C76_left_border_bug`, `C76_narrow_bug`, `C76_range_partial`, `C76_sizes_bug`, `C76_vert_partial`, `C77_constant_partial`, `C77_errors`, `C77_flat_partial`, `C77_gauss_partial`, `C77_increasing_partial`, `C77_range_partial`, `C78_cases`, `C78_closest_partial`, `C78_depth_bug`, `C78_grid_partial`, `C78_inplace_bug`, `C78_like_partial`, `C78_map_partial`, `C78_one_bug`, `C79_depth_bug`, `C79_grid_partial`, `C79_increasing_partial`, `C79_like_partial`, `C79_linear_partial`, `C79_range_partial`, `C79_scale_one_bug`, `C79_scale_partial`, `C80_auto_partial`, `C80_constant_bug`, `C80_full_partial`, `C80_int32_bug`, `C80_order_partial`, `C80_point_bug`, `C80_point_partial`, `C80_refused`, `C80_stretch_partial`, `C80_wrap_bug`, `C81_constant_bug`, `C81_crossed_bug`, `C81_enhance_partial`, `C81_ignored_partial`, `C81_peak_partial`, `C81_proper_partial`, `C81_range_partial`, `C81_refused`, `C81_signed_bug`, `C81_size_bug`, `C81_wide_bug`, `C82_label_bug`, `C82_labels_partial`, `C82_one`, `C82_refused`, `C82_search_partial`, `C82_variance_bug`, `C82_zero_bug`, `C82_zeros_bug`, `C83_distance_partial`, `C83_small_partial`, `C83_stale_bug`, `C84_area`, `C84_blank`, `C84_bounds_bug`, `C84_max_bug`, `C84_maxima`, `C84_mean`, `C84_mean_bug`, `C84_refused`, `C84_return_bug`, `C84_size_bug`, `C84_volume`, `C85_auto`, `C85_centered_bug`, `C85_centered_witness_bug`, `C85_clamp_bug`, `C85_covariance_partial`, `C85_normalized_partial`, `C85_overflow_bug`, `C85_refused`, `C85_unallocated_bug`, `C85_unit_direction`, `C85_zero_bug`, `C86_blobs`, `C86_bounds`, `C86_entropy`, `C86_mask_partial`, `C86_mask_size_bug`, `C86_relabel`, `C86_unallocated_bug`, `C86_wide_bug`, `C87_barycenter`, `C87_barycenter_hull`, `C87_blobsBarycenter`, `C87_blobsMoments`, `C87_central`, `C87_empty_bug`, `C87_inertia2`, `C87_inertia2_axes_bug`, `C87_inertia3`, `C87_inertia_nonneg`, `C87_labels`, `C87_labels_bug`, `C87_nan_bug`, `C87_negative_bug`, `C88_arrowMinStep_partial`, `C88_arrowMin_inside`, `C88_arrowMin_partial`, `C88_peak_bug`, `C89_cast_back_partial`, `C89_cast_order_partial`, `C89_cast_partial`, `C89_cast_signed_bug`, `C89_expand3_partial`, `C89_expand3_reversed_bug`, `C89_expand3_signed_bug`, `C89_expand_flat`, `C89_expand_full_partial`, `C89_expand_partial`, `C89_expand_wrap_bug`, `C89_scurve_partial`, `C89_scurve_pivot_bug`, `C89_scurve_wrap_bug`, `C89_sigmoid`, `C90_openings`, `C90_steps_partial`, `C90_ultimate_partial`, `C90_unique`, `C90_wrap_bug`, `C91_diameter_partial`, `C91_elongation_partial`, `C91_errors`, `C91_extremities_partial`, `C91_flat_zone_pixel_bug`, `C91_flat_zones_partial`, `C91_in_place_bug`, `C91_levels_bug`, `C91_longer_than_needed_bug`, `C91_low_maximum_bug`, `C91_path_opening_partial`, `C91_scale_bug`, `C91_single_pixel_bug`, `C91_slices_partial`, `C91_tortuosity_partial`, `C91_zero_length_bug`, `C92_box`, `C92_box_labels`, `C92_mean_partial`, `C92_median_partial`, `C92_mode_partial`, `C92_size_bug`, `C92_values`, `C93_errors`, `C93_labels_partial`, `C93_same`, `C94_area_partial`, `C94_closing`, `C94_errors`, `C94_path_partial`, `C94_types_bug`, `C94_unique`, `C95_errors`, `C95_flat_ub`, `C95_one_level_ub`, `C95_partial`, `C95_size_bug`, `C95_types_bug`, `C95_zones`, `C96_assign_ub`, `C96_data`, `C96_defined`, `C96_noleak`, `C96_pixels`, `C96_slice`, `C96_views_partial`, `C97_idempotent`, `C97_signed_ub`, `C97_thin_partial`, `C97_topology`, `C98_ascii_partial`, `C98_binary`, `C98_reject`, `C99_algebra`, `C99_bits`, `C99_demorgan`, `C99_ext`, `C99_images`, `C99_inv`, `C99_order`

## propext, Quot.sound

`C01_coords_of_offset`, `C01_default_depth_bug`, `C01_injective`, `C01_offset_of_coords`, `C04_dangling_bug`, `C04_disconnectAll_bug`, `C05_limit_hangs`, `C05_reuse`, `C06_add_fails`, `C06_add_int32_ub`, `C06_add_signed_bug`, `C06_sub_signed_bug`, `C07_mulNoSat_bug`, `C08_inv_int32_ub`, `C09_absDiff_signed_bug`, `C100_fromArray`, `C100_length`, `C100_narrow_bug`, `C100_roundtrip`, `C100_toArray`, `C100_values`, `C101_short_ub`, `C106_origin_bug`, `C106_refused`, `C106_signed_bug`, `C107_copy_shared_bug`, `C108_grey_bug`, `C108_in_place_endless`, `C108_lambda_bug`, `C108_one_line_ub`, `C108_refused`, `C108_size_bug`, `C108_slices_bug`, `C108_vertical_bug`, `C10_compare`, `C10_values`, `C111_errors`, `C111_signed_bug`, `C111_volume_ub`, `C112_closing_type_bug`, `C112_errors`, `C113_decrease_bug`, `C113_empty_bug`, `C113_errors`, `C113_overflow_bug`, `C113_volume_bug`, `C117_size0_bug`, `C117_slices_bug`, `C118_errors`, `C118_increase_bug`, `C118_undefined_bug`, `C118_volume_bug`, `C11_autoresize_bug`, `C11_subConst_bug`, `C12_max_bug`, `C12_narrow_key_bug`, `C12_negative_bug`, `C12_refuse`, `C13_refuse`, `C14_int_bug`, `C15_bins_mask_bug`, `C15_fullrange_bug`, `C15_signed_bins_bug`, `C15_unallocated_bug`, `C15_wide_bug`, `C16_overloads`, `C16_reversed_bug`, `C17_emptybox_bug`, `C17_median_wide_bug`, `C17_median_zero_bug`, `C17_minpos_bug`, `C17_mode_bug`, `C19_errors`, `C19_single_label_bug`, `C21_inplace_bug`, `C21_translate_errors`, `C22_nodup`, `C24_action`, `C24_compl`, `C24_complList`, `C24_point_hex`, `C24_point_square`, `C25_one_line_ub`, `C27_vertical_race_free`, `C32_signed_bug`, `C34_deterministic`, `C34_fifo_overflow`, `C35_size_bug`, `C37_buildOpen_inplace_bug`, `C37_fillHoles_inplace_bug`, `C37_hBuild_inplace_bug`, `C38_inplace_bug`, `C38_saturated_bug`, `C39_asymmetric_bug`, `C39_error_code_bug`, `C39_inplace_bug`, `C39_lambda_zero_bug`, `C39_origin_bug`, `C40_hex_bug`, `C40_inplace_bug`, `C40_left_bug`, `C41_max_label`, `C41_minima_bug`, `C41_signed_bug`, `C42_bit_bug`, `C42_line_label_bug`, `C47_parallel_bug`, `C48_cross3d_bug`, `C48_errors`, `C49_deep_bug`, `C49_overflow_bug`, `C49_slice_bug`, `C49_uint32_bug`, `C49_wrap_bug`, `C50_errors`, `C50_no_zero_bug`, `C50_size_bug`, `C51_errors`, `C51_inplace_bug`, `C51_size0_bug`, `C52_empty_bug`, `C52_errors`, `C52_inplace_bug`, `C52_inplace_list_bug`, `C53_border_bug`, `C53_errors`, `C53_inplace_bug`, `C53_ninth_bug`, `C53_size_bug`, `C55_copyIdx_bug`, `C55_distinct`, `C55_overflow_bug`, `C56_border_bug`, `C56_right_bug`, `C57_raw`, `C58_bmp8_bug`, `C58_bmp8_partial`, `C58_bmprgb`, `C58_pgm_ascii_bug`, `C58_pgm_partial`, `C58_raw_bit_bug`, `C59_asym_bug`, `C59_nomarker_bug`, `C59_rank_bug`, `C59_return_bug`, `C59_reuse_bug`, `C61_conversion_bug`, `C61_copy_incr`, `C61_plus_bug`, `C61_plus_partial`, `C61_store`, `C63_errors`, `C63_uint32_ub`, `C63_unique`, `C64_open_bug`, `C65_border_bug`, `C65_decreasing`, `C65_missed_bug`, `C65_posdiag_row_bug`, `C65_stale_bug`, `C65_volume_bug`, `C66_decided`, `C66_errors`, `C66_keep`, `C66_mask`, `C67_bresenhamLine_bug`, `C67_rectangle_empty_bug`, `C68_errors`, `C68_uint16_ub`, `C69_resize_bug`, `C70_errors`, `C71_errors`, `C71_one_zone_bug`, `C71_size_bug`, `C71_top_bug`, `C71_zones`, `C72_bits_bug`, `C72_sign_bug`, `C72_size_bug`, `C73_basin`, `C73_errors`, `C73_nested`, `C73_peak`, `C73_saturated_instance_bug`, `C73_separate`, `C73_size_bug`, `C73_zero`, `C75_errors`, `C83_overflow_bug`, `C83_refused`, `C88_bits_bug`, `C88_slices_bug`, `C90_errors`, `C90_uint32_ub`, `C92_median_bug`, `C92_mode_bug`, `C93_resize_bug`, `C93_wrap_bug`, `C93_zero_bug`, `C94_int32_ub`, `C96_clone_ub`, `C96_setSize_bug`, `C97_product_bug`, `C97_vanish_bug`, `C98_truncated_bug`, `C98_unseparated_bug`, `C99_binary`, `C99_logic`, `C99_order_bug`
