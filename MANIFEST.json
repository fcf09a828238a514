{
 "claims": [
  {
   "property": "C01",
   "status": "partial",
   "theorems": [
    "Smil.C01_offset",
    "Smil.C01_coords_of_offset",
    "Smil.C01_offset_of_coords",
    "Smil.C01_injective",
    "Smil.C01_isOffsetInImage_bug",
    "Smil.C01_isOffsetInImage_partial",
    "Smil.C01_default_depth_bug"
   ],
   "note": "Offset/coordinate bijection proved for every size; isOffsetInImage proved for every offset except the pixel count, which it wrongly accepts (bug theorem); default z argument rejects every 2D pixel (bug theorem)."
  },
  {
   "property": "C02",
   "status": "partial",
   "theorems": [
    "Smil.C02_step",
    "Smil.C02_cursor_partial",
    "Smil.C02_setReferencePt_bug",
    "Smil.C02_shiftXYZ_bug",
    "Smil.C02_setReferencePt_iff",
    "Smil.C02_getCoords_getOffset"
   ],
   "note": "Invariant over arbitrary call sequences for setReference(x,y,z), setReference(offset), shift(IntPoint); the other two overloads violate it (witnesses, exact condition)."
  },
  {
   "property": "C03",
   "status": "partial",
   "theorems": [
    "Smil.C03_allocated",
    "Smil.C03_ownership",
    "Smil.C03_reported",
    "Smil.C03_defined",
    "Smil.C03_setSize_partial",
    "Smil.C03_setSize_bug",
    "Smil.C03_clone_ub",
    "Smil.C03_clone",
    "Smil.C03_drain_bug"
   ],
   "note": "Invariant over all histories of create/destroy/setSize/allocate/deallocate/clone on any number of images: buffer size, line table, ownership, no leak, reported memory, exact characterisation of undefined behaviour. setSize with allocation fails on a non-allocated image of the same size and clone then writes to null (witnesses); drain without delete leads to a double delete (witness)."
  },
  {
   "property": "C04",
   "status": "partial",
   "theorems": [
    "Smil.C04_registration_partial",
    "Smil.C04_disconnectAll_bug",
    "Smil.C04_dangling_bug"
   ],
   "note": "Refinement to the list of connections over all histories without direct disconnectAll; disconnectAll leaves dangling registrations (witnesses)."
  },
  {
   "property": "C05",
   "status": "partial",
   "theorems": [
    "Smil.C05_histories",
    "Smil.C05_reuse",
    "Smil.C05_destroy_partial",
    "Smil.C05_clear_bug",
    "Smil.C05_releaseAll_bug",
    "Smil.C05_limit_hangs"
   ],
   "note": "All getBuffer/releaseBuffer histories (calls serialised); destructor frees each buffer once; clear/initialize then destruction is a double free in every state with an available buffer (theorem). The unlocked push in releaseBuffer under threads is not modelled."
  },
  {
   "property": "C06",
   "status": "partial",
   "theorems": [
    "Smil.C06_add_unsigned",
    "Smil.C06_sub_unsigned",
    "Smil.C06_add_partial",
    "Smil.C06_sub_partial",
    "Smil.C06_add_signed_bug",
    "Smil.C06_sub_signed_bug",
    "Smil.C06_add_int32_ub",
    "Smil.C06_add_fails"
   ],
   "note": "Exact clamp for every unsigned type; signed types violate it (witnesses), partial theorem gives the exact guard for signed types."
  },
  {
   "property": "C07",
   "status": "partial",
   "theorems": [
    "Smil.C07_addNoSat",
    "Smil.C07_subNoSat",
    "Smil.C07_add_sub_cancel",
    "Smil.C07_sub_add_cancel",
    "Smil.C07_mulNoSat_bug",
    "Smil.C07_mul_clamps",
    "Smil.C07_mulNoSat_partial",
    "Smil.C07_div_unsigned"
   ],
   "note": "addNoSat/subNoSat modular laws for all types; mulNoSat is saturating in the code (witness), partial theorem for products in range."
  },
  {
   "property": "C08",
   "status": "proved",
   "theorems": [
    "Smil.C08_inv_involution",
    "Smil.C08_inv_antitone",
    "Smil.C08_inv_extremes",
    "Smil.C08_de_morgan",
    "Smil.C08_inv_int32_ub"
   ],
   "note": "All integer types of up to 16 bits and unsigned types of any width; INT32 inversion is undefined behaviour for some values (theorem C08_inv_int32_ub)."
  },
  {
   "property": "C09",
   "status": "partial",
   "theorems": [
    "Smil.C09_lattice",
    "Smil.C09_bounds",
    "Smil.C09_absDiff",
    "Smil.C09_absDiff_signed_bug"
   ],
   "note": "Lattice laws for all types; absDiff exact for unsigned types, witness for signed."
  },
  {
   "property": "C10",
   "status": "proved",
   "theorems": [
    "Smil.C10_values",
    "Smil.C10_partition",
    "Smil.C10_complements",
    "Smil.C10_compare"
   ],
   "note": "Values, trichotomy, complements, compare/test dispatch."
  },
  {
   "property": "C11",
   "status": "partial",
   "theorems": [
    "Smil.C11_pixelwise",
    "Smil.C11_errors",
    "Smil.C11_autoresize_bug",
    "Smil.C11_subConst_bug",
    "Smil.C11_add",
    "Smil.C11_sub",
    "Smil.C11_inv",
    "Smil.C11_inv_inv"
   ],
   "note": "All arities, schedules, aliasing patterns and sizes; error branches. With automatic resizing a second input of another size is destroyed (theorem), and sub(im,value,out) misses the size check (witness)."
  },
  {
   "property": "C12",
   "status": "partial",
   "theorems": [
    "Smil.C12_generic_partial",
    "Smil.C12_table_partial",
    "Smil.C12_map",
    "Smil.C12_refuse",
    "Smil.C12_max_bug",
    "Smil.C12_negative_bug",
    "Smil.C12_narrow_key_bug"
   ],
   "note": "Generic applyLookup proved for key types that hold the pixel values and table values not below the output minimum, including the exact refusal of values above the maximum; the UINT8/UINT16 table version when the maximum of the type is a key or absent; other map<T1,T2> without proviso; all refusals. The code departs from the claim: uninitialised last table cell (C12_max_bug), negative values wrapped instead of refused (C12_negative_bug), narrower key types alias (C12_narrow_key_bug)."
  },
  {
   "property": "C13",
   "status": "partial",
   "theorems": [
    "Smil.C13_split_partial",
    "Smil.C13_merge",
    "Smil.C13_split_merge_partial",
    "Smil.C13_merge_split",
    "Smil.C13_copyChannel",
    "Smil.C13_copyToChannel",
    "Smil.C13_refuse",
    "Smil.C13_split3D_bug"
   ],
   "note": "Split, merge, both round trips, copyChannel, copyToChannel and refusals proved for all sizes and channel numbers; the split side needs an input of one slice, since the code copies only the first slice (C13_split3D_bug)."
  },
  {
   "property": "C14",
   "status": "partial",
   "theorems": [
    "Smil.C14_relations",
    "Smil.C14_order",
    "Smil.C14_rgb_lattice",
    "Smil.C14_generic_lattice_partial",
    "Smil.C14_ne_partial",
    "Smil.C14_int",
    "Smil.C14_ne_bug",
    "Smil.C14_lt_bug",
    "Smil.C14_sup_bug",
    "Smil.C14_equ_bug",
    "Smil.C14_int_bug"
   ],
   "note": "<= and >= are the channelwise order and == is equality; RGB sup/inf are join and meet. != , < and > ask every channel, so != is not the negation of == (C14_ne_bug, C14_lt_bug); sup/inf of the other multichannel types return an operand (C14_sup_bug, proved correct when one pixel is strictly below in every channel); equ and diff of RGB images disagree (C14_equ_bug); comparison with an int wraps (C14_int_bug)."
  },
  {
   "property": "C15",
   "status": "partial",
   "theorems": [
    "Smil.C15_bins_mask_bug",
    "Smil.C15_map_partial",
    "Smil.C15_full_partial",
    "Smil.C15_mask_partial",
    "Smil.C15_array",
    "Smil.C15_bins_partial",
    "Smil.C15_fullrange_bug",
    "Smil.C15_unallocated_bug",
    "Smil.C15_wide_bug",
    "Smil.C15_signed_bins_bug"
   ],
   "note": "Map, masked map, array, masked array and binned histograms: entries are exactly the values of the range requested with their numbers of occurrences, and sum to the number of pixels. Partial: for 32 bit types the span of the values must be representable (C15_wide_bug), the full range form misses entries on an image constant at the type minimum (C15_fullrange_bug), bins are proved for unsigned types (C15_signed_bins_bug), an unallocated image is undefined behaviour. The masked histogramMap ignores its mask (C15_bins_mask_bug)."
  },
  {
   "property": "C16",
   "status": "partial",
   "theorems": [
    "Smil.C16_threshold",
    "Smil.C16_reversed_partial",
    "Smil.C16_overloads",
    "Smil.C16_reversed_bug"
   ],
   "note": "Interval indicator for ordered thresholds and the two shorter forms, for all types, values and sizes, with the refusals. Partial: with reversed thresholds the end points get the false value (C16_reversed_bug)."
  },
  {
   "property": "C17",
   "status": "partial",
   "theorems": [
    "Smil.C17_area",
    "Smil.C17_vol",
    "Smil.C17_extremes",
    "Smil.C17_valueList",
    "Smil.C17_median_partial",
    "Smil.C17_mode_partial",
    "Smil.C17_mean",
    "Smil.C17_offsets",
    "Smil.C17_minPos_partial",
    "Smil.C17_maxPos_partial",
    "Smil.C17_boundBox",
    "Smil.C17_moments",
    "Smil.C17_median_zero_bug",
    "Smil.C17_mode_bug",
    "Smil.C17_median_wide_bug",
    "Smil.C17_minpos_bug",
    "Smil.C17_emptybox_bug"
   ],
   "note": "The drivers over non-zero runs and over lines, and area, vol, minVal, maxVal, rangeVal, valueList, modeVal, medianVal, the sums of meanVal, nonZeroOffsets, measBoundBox, raw moments, minVal/maxVal with position, for every image. Partial: the median and the mode ignore zero and negative pixels even when asked for all (C17_median_zero_bug, C17_mode_bug), the median misorders values of 2^31 or more, the position of the minimum is wrong when only the type maximum is left, the box of an empty image is inside out. Sums are integers where the code uses double."
  },
  {
   "property": "C18",
   "status": "partial",
   "theorems": [
    "Smil.C18_computeBlobs",
    "Smil.C18_draw_safe",
    "Smil.C18_draw_partial",
    "Smil.C18_drawLut_partial",
    "Smil.C18_drawBack_partial",
    "Smil.C18_last_pixel_bug",
    "Smil.C18_unsorted_bug",
    "Smil.C18_empty_bug"
   ],
   "note": "computeBlobs is proved for every image: the runs stay within one line, are disjoint and cover exactly the pixels of their value. Drawing the blobs back gives the image when no blob reaches the last pixel of the image; C18_last_pixel_bug shows that a blob containing it is rejected (offset+size >= pixelCount), C18_unsorted_bug and C18_empty_bug that the bound test only looks at the last sequence and reads it on an empty blob."
  },
  {
   "property": "C19",
   "status": "partial",
   "theorems": [
    "Smil.C19_measure",
    "Smil.C19_measure_pos",
    "Smil.C19_blobsArea",
    "Smil.C19_blobsVolume",
    "Smil.C19_blobsExtremes",
    "Smil.C19_blobsMoments",
    "Smil.C19_areaThreshold_labels",
    "Smil.C19_areaThreshold",
    "Smil.C19_areaThreshold_binary_partial",
    "Smil.C19_errors",
    "Smil.C19_race_bug",
    "Smil.C19_single_label_bug"
   ],
   "note": "Measures on blobs (areas, volumes, extremes, moments of order 0 and 1, and any functor that processes pixels in order) are proved to be the measure of the pixels of the label. areaThreshold is proved for label images, and for binary images with fewer components than the maximum of the output type. Found: the last loop inserts into a shared std::map in parallel (C19_race_bug); a label image with one label value is treated as binary (C19_single_label_bug). Floating-point rounding of the double sums is not modelled; inertia matrices and entropy are in C87 and C86."
  },
  {
   "property": "C20",
   "status": "partial",
   "theorems": [
    "Smil.C20_vertFlip",
    "Smil.C20_horizFlip",
    "Smil.C20_vertFlip_involutive",
    "Smil.C20_horizFlip_involutive",
    "Smil.C20_rotate_partial",
    "Smil.C20_rotate_compose_partial",
    "Smil.C20_rotate_bug",
    "Smil.C20_rotate_negative_bug",
    "Smil.C20_errors",
    "Smil.C20_flip_inplace",
    "Smil.C20_rotate_inplace_partial"
   ],
   "note": "vertFlip, horizFlip and rotateX90 (DImageTransform.hpp) are modelled with their loops, index arithmetic and in-place variants. The flips are proved to be the mirror images and involutive without restriction. The rotation is proved to turn the image by any number of quarter turns under the condition that excludes the two faults of the code, and the rotations compose: C20_rotate_bug shows that an odd turn of a non-square image by n mod 4 = 1 writes outside of the image, C20_rotate_negative_bug that negative counts return success without writing the output."
  },
  {
   "property": "C21",
   "status": "partial",
   "theorems": [
    "Smil.C21_translate_partial",
    "Smil.C21_translate_bug",
    "Smil.C21_inplace_bug",
    "Smil.C21_translate_errors",
    "Smil.C21_copy",
    "Smil.C21_copy_errors",
    "Smil.C21_copy_whole",
    "Smil.C21_crop",
    "Smil.C21_crop_errors_partial",
    "Smil.C21_crop_bug",
    "Smil.C21_addBorder"
   ],
   "note": "translate, copy with windows, copy with conversion, crop and addBorder (DImageTransform.hpp) are modelled with their loops and size_t/int conversions. copy, crop and addBorder are proved exactly; translate under the condition that the vector is not longer than the lines (C21_translate_bug proves undefined behaviour in every other case) and, in place, that it moves towards lines already processed (C21_inplace_bug). C21_crop_bug shows that crop with a start outside destroys the output before reporting the error."
  },
  {
   "property": "C22",
   "status": "proved",
   "theorems": [
    "Smil.C22_nodup",
    "Smil.C22_union",
    "Smil.C22_addIndex",
    "Smil.C22_transpose",
    "Smil.C22_noCenter",
    "Smil.C22_builtin"
   ],
   "note": "No separate merge function exists; union is adding the points of one element to another. int coordinates are unbounded integers in the model."
  },
  {
   "property": "C23",
   "status": "partial",
   "theorems": [
    "Smil.C23_sums",
    "Smil.C23_minkowski",
    "Smil.C23_noOrigin_bug",
    "Smil.C23_square",
    "Smil.C23_square_count",
    "Smil.C23_zero_bug",
    "Smil.C23_operator_le",
    "Smil.C23_square_operator",
    "Smil.C23_operator_bug"
   ],
   "note": "The n-fold Minkowski sum is proved on both grids (hexagonal: even slices) for 1<=s<2^32 and elements with the origin; the operator clause is proved with the dilation model. s=0 wraps the unsigned bound (witness)."
  },
  {
   "property": "C24",
   "status": "partial",
   "theorems": [
    "Smil.C24_point_square",
    "Smil.C24_point_hex",
    "Smil.C24_action",
    "Smil.C24_list",
    "Smil.C24_nrot_zero_bug",
    "Smil.C24_compl",
    "Smil.C24_negative_bug",
    "Smil.C24_hS2_bug",
    "Smil.C24_rotateList",
    "Smil.C24_complList"
   ],
   "note": "Proved for non-negative steps; false for negative steps in the code (C24_negative_bug); nrot=0 divides by zero."
  },
  {
   "property": "C25",
   "status": "partial",
   "theorems": [
    "Smil.C25_dilate_partial",
    "Smil.C25_erode_partial",
    "Smil.C25_dilate_max",
    "Smil.C25_erode_min",
    "Smil.C25_hexagon",
    "Smil.C25_errors",
    "Smil.C25_one_line_ub",
    "Smil.C25_wide_ub",
    "Smil.C25_noCenter_bug"
   ],
   "note": "Pointwise supremum/infimum for the generic algorithm and all specialised kernels, under SEOk (element not empty, no rhombicuboctahedron, hexagonal elements on one slice only, kernels with special type carry their own points, line shifts not wider than the image). Outside this guard witnesses show wrong results or undefined behaviour (noCenter, one line images, wide shifts)."
  },
  {
   "property": "C26",
   "status": "partial",
   "theorems": [
    "Smil.C26_dilate_partial",
    "Smil.C26_erode_partial",
    "Smil.C26_depth"
   ],
   "note": "Every specialised kernel equals the generic algorithm under the same guard as C25."
  },
  {
   "property": "C27",
   "status": "proved",
   "theorems": [
    "Smil.C27_vertical",
    "Smil.C27_cross",
    "Smil.C27_square_cube",
    "Smil.C27_vertical_erosion",
    "Smil.C27_cross_erosion",
    "Smil.C27_vertical_race_free",
    "Smil.C27_cross_race_free",
    "Smil.C27_run_exists"
   ],
   "note": "Every interleaving of the row steps of the threads gives the sequential result, for every number of threads; also race freedom of the steps and existence of runs."
  },
  {
   "property": "C28",
   "status": "partial",
   "theorems": [
    "Smil.C28_adjunction_partial",
    "Smil.C28_slices_bug"
   ],
   "note": "Adjunction for every accepted call under SEOk; C28_slices_bug shows it fails for hexagonal elements on odd slices."
  },
  {
   "property": "C29",
   "status": "proved",
   "theorems": [
    "Smil.C29_dilate_sup",
    "Smil.C29_erode_inf",
    "Smil.C29_increasing",
    "Smil.C29_extensive"
   ],
   "note": "Under SEOk (same guard as C25), for all images over any bounded linear order."
  },
  {
   "property": "C30",
   "status": "partial",
   "theorems": [
    "Smil.C30_duality_partial"
   ],
   "note": "All unsigned types and INT8/INT16 (inv is undefined or wrong on wider signed types, see C08); guard SEOk."
  },
  {
   "property": "C31",
   "status": "partial",
   "theorems": [
    "Smil.C31_open",
    "Smil.C31_close",
    "Smil.C31_total",
    "Smil.C31_duality_partial"
   ],
   "note": "Anti-extensivity, monotonicity, idempotence and the dual statements, and duality by complementation, under SEOk."
  },
  {
   "property": "C32",
   "status": "partial",
   "theorems": [
    "Smil.C32_gradient_partial",
    "Smil.C32_topHat_partial",
    "Smil.C32_dualTopHat_partial",
    "Smil.C32_signed_bug"
   ],
   "note": "Exact differences on unsigned types; C32_signed_bug: on signed types the subtraction saturates wrongly."
  },
  {
   "property": "C33",
   "status": "partial",
   "theorems": [
    "Smil.C33_steps_partial",
    "Smil.C33_cdf_partial",
    "Smil.C33_nan_bug",
    "Smil.C33_constant_bug",
    "Smil.C33_endless_bug",
    "Smil.C33_ends_partial",
    "Smil.C33_granulometry_partial",
    "Smil.C33_family"
   ],
   "note": "Decreasing family, absorption, the volume of every step, non-negative volumes adding up to at most the volume, the cumulated form as a distribution function, for every number of steps, and a condition for the loop to end; double sums are exact integers and quotients rationals in the model. Not a number when nothing is removed (C33_nan_bug, C33_constant_bug); the loop need not end without a maximal size (C33_endless_bug)."
  },
  {
   "property": "C34",
   "status": "partial",
   "theorems": [
    "Smil.C34_refinement_partial",
    "Smil.C34_deterministic",
    "Smil.C34_pop_empty",
    "Smil.C34_signed_bug",
    "Smil.C34_fifo",
    "Smil.C34_fifo_overflow"
   ],
   "note": "Refinement to a stable priority queue over every legal history for unsigned types, both orders, and the preallocated FIFO; signed types are broken (C34_signed_bug)."
  },
  {
   "property": "C35",
   "status": "partial",
   "theorems": [
    "Smil.C35_build_partial",
    "Smil.C35_paths_partial",
    "Smil.C35_dualBuild_partial",
    "Smil.C35_least_partial",
    "Smil.C35_geoBuild_partial",
    "Smil.C35_build_eq_geoBuild_partial",
    "Smil.C35_dual_eq_geo_partial",
    "Smil.C35_size_bug"
   ],
   "note": "Exact reconstruction (largest level carried along a path), least stable image, equality with geoBuild for size-1 elements containing the origin. Unsigned types up to 64 bits; signed queue is broken (C34_signed_bug); geoBuild differs for larger sizes (C35_size_bug)."
  },
  {
   "property": "C36",
   "status": "partial",
   "theorems": [
    "Smil.C36_increasing_partial",
    "Smil.C36_bounds_idempotent_partial",
    "Smil.C36_duality_partial"
   ],
   "note": "Increasing, bounded, idempotent, dual; unsigned types."
  },
  {
   "property": "C37",
   "status": "partial",
   "theorems": [
    "Smil.C37_fillHoles_total",
    "Smil.C37_fillHoles_extensive_partial",
    "Smil.C37_fillHoles_minima_partial",
    "Smil.C37_fillHoles_value_partial",
    "Smil.C37_fillHoles_idempotent_partial",
    "Smil.C37_fillHoles_increasing_partial",
    "Smil.C37_buildOpen_antiextensive_partial",
    "Smil.C37_buildOpen_increasing_partial",
    "Smil.C37_buildOpen_above_open_partial",
    "Smil.C37_buildOpen_idempotent_partial",
    "Smil.C37_buildClose_partial",
    "Smil.C37_hBuild_partial",
    "Smil.C37_hBuild_inplace_bug",
    "Smil.C37_fillHoles_inplace_bug",
    "Smil.C37_buildOpen_inplace_bug",
    "Smil.C37_levelPics_partial"
   ],
   "note": "fillHoles total, extensive, increasing, idempotent, no regional minimum off the border; buildOpen/buildClose/hBuild laws. Unsigned types, distinct input and output: the in-place calls are wrong (three bug theorems)."
  },
  {
   "property": "C38",
   "status": "partial",
   "theorems": [
    "Smil.C38_minima_partial",
    "Smil.C38_maxima_partial",
    "Smil.C38_saturated_bug",
    "Smil.C38_inplace_bug"
   ],
   "note": "Exact set of marked pixels for unsigned types into another image; saturated plateaus are missed (C38_saturated_bug) and in-place calls read uninitialised memory (C38_inplace_bug)."
  },
  {
   "property": "C39",
   "status": "proved",
   "theorems": [
    "Smil.C39_label",
    "Smil.C39_wrap",
    "Smil.C39_overflow_bug",
    "Smil.C39_lambdaLabel",
    "Smil.C39_error_code_bug",
    "Smil.C39_withoutFunctor",
    "Smil.C39_asymmetric_bug",
    "Smil.C39_inplace_bug",
    "Smil.C39_lambda_zero_bug",
    "Smil.C39_origin_bug"
   ],
   "note": "label with distinct input and output, symmetric neighbourhoods, any number of components (numbering modulo max-1 stated by C39_wrap); lambdaLabel and labelWithoutFunctor too. Deviations proved: overflow at exactly max components, in-place call drops the element, asymmetric elements, size_t error code, lambdaLabel labels zero pixels."
  },
  {
   "property": "C40",
   "status": "partial",
   "theorems": [
    "Smil.C40_neighbors_partial",
    "Smil.C40_inplace_bug",
    "Smil.C40_left_bug",
    "Smil.C40_hex_bug"
   ],
   "note": "Elements must fit the image width (RowOk); failures outside are proved: in-place recursion, elements entirely to the left, odd-line shift beyond the rightmost point."
  },
  {
   "property": "C41",
   "status": "partial",
   "theorems": [
    "Smil.C41_basins_partial",
    "Smil.C41_labels_partial",
    "Smil.C41_max_label",
    "Smil.C41_minima_bug",
    "Smil.C41_signed_bug"
   ],
   "note": "basins terminates, keeps markers, labels exactly the pixels connected to a marker, only with marker labels, each of least pass height; for unsigned types (the hierarchical queue is broken for signed types, C41_signed_bug). The overload without markers drops the element (C41_minima_bug). Images of a call are distinct objects."
  },
  {
   "property": "C42",
   "status": "partial",
   "theorems": [
    "Smil.C42_watershed_partial",
    "Smil.C42_line_label_bug",
    "Smil.C42_bit_bug"
   ],
   "note": "Separation of non-line neighbours, kept markers, labelled non-line pixels, reasons for line pixels and connectivity of labels for all images, markers and symmetric elements without repeated points, unsigned types with at least 5 values. Markers that touch no other marker are off the line; when no markers touch, every pixel off the line is joined to its marker off the line and every line pixel touches two labels off the line or is enclosed. The clause that line pixels are unlabelled is false (C42_line_label_bug)."
  },
  {
   "property": "C43",
   "status": "partial",
   "theorems": [
    "Smil.C43_basins_partial",
    "Smil.C43_watershed_partial",
    "Smil.C43_stack",
    "Smil.C43_build"
   ],
   "note": "basins and watershed push each pixel at most once, and at most the preallocated number per level; a preallocated stack never overflows; build pushes each pixel at most twice and its queues are not preallocated. Unsigned types."
  },
  {
   "property": "C44",
   "status": "partial",
   "theorems": [
    "Smil.C44_edits_partial",
    "Smil.C44_progress_partial",
    "Smil.C44_no_parallel_partial",
    "Smil.C44_zero_bug",
    "Smil.C44_loop_bug",
    "Smil.C44_min_weight_bug",
    "Smil.C44_sort_partial",
    "Smil.C44_sort_bug"
   ],
   "note": "Histories that respect GOp.Ok: no edge from node 0 to itself, no removal of the edges of a node that has a loop (undefined behaviour, C44_loop_bug). sortEdges proved when no edge was removed, C44_sort_bug otherwise. The documented minimum of the weights does not happen (C44_min_weight_bug)."
  },
  {
   "property": "C45",
   "status": "partial",
   "theorems": [
    "Smil.C45_mst_partial",
    "Smil.C45_single_bug"
   ],
   "note": "Graphs with two nodes at least, built with the guards of C44. C45_single_bug: one node."
  },
  {
   "property": "C46",
   "status": "partial",
   "theorems": [
    "Smil.C46_labelize_partial",
    "Smil.C46_isolated_throws",
    "Smil.C46_isolated_bug"
   ],
   "note": "Every node has or had an edge; otherwise labelizeNodes throws (C46_isolated_throws, C46_isolated_bug)."
  },
  {
   "property": "C47",
   "status": "partial",
   "theorems": [
    "Smil.C47_mosaic_partial",
    "Smil.C47_parallel_bug",
    "Smil.C47_single_bug"
   ],
   "note": "With an image of edge values and for elements that fit the width (RowOk); the nodes are the regions that touch another one. C47_parallel_bug: without edge values there are parallel edges. C47_single_bug: a single region gives no node."
  },
  {
   "property": "C48",
   "status": "proved",
   "theorems": [
    "Smil.C48_cross",
    "Smil.C48_errors",
    "Smil.C48_cross3d_partial",
    "Smil.C48_cross3d_bug"
   ],
   "note": "Full for distCross: C48_cross holds for all images, sizes and pixel types (the distance is capped by the maximum of the output type). Beyond the property: C48_cross3d_partial covers distCross3d for output types of at most 16 bits and C48_cross3d_bug shows it wrong for UINT32."
  },
  {
   "property": "C49",
   "status": "partial",
   "theorems": [
    "Smil.C49_square",
    "Smil.C49_euclidean_partial",
    "Smil.C49_slice_bug",
    "Smil.C49_wrap_bug",
    "Smil.C49_overflow_bug",
    "Smil.C49_uint32_bug",
    "Smil.C49_deep_bug"
   ],
   "note": "C49_square is full (all images, sizes, types). C49_euclidean_partial: the squared distance is exact under guards the code does not check (type of at most 16 bits, squared diagonal fits, depth at most the width, a zero in every slice). C49_slice_bug, C49_wrap_bug, C49_overflow_bug, C49_uint32_bug and C49_deep_bug show that the code is wrong or undefined without each guard."
  },
  {
   "property": "C50",
   "status": "partial",
   "theorems": [
    "Smil.C50_generic_partial",
    "Smil.C50_distance_partial",
    "Smil.C50_errors",
    "Smil.C50_no_zero_bug",
    "Smil.C50_size_bug"
   ],
   "note": "C50_generic_partial and C50_distance_partial: for symmetric elements of size 1 accepted by the erosion, unsigned input, and distances that fit the output type, the result is the length of a shortest neighbour path from a zero pixel and 0 when there is none. C50_no_zero_bug and C50_size_bug show the values given without a zero pixel and with a size above 1. Not covered: input and output the same image."
  },
  {
   "property": "C51",
   "status": "partial",
   "theorems": [
    "Smil.C51_unique",
    "Smil.C51_antiextensive",
    "Smil.C51_increasing",
    "Smil.C51_idempotent",
    "Smil.C51_unionfind_partial",
    "Smil.C51_errors",
    "Smil.C51_size0_bug",
    "Smil.C51_inplace_bug",
    "Smil.C51_hex_bug",
    "Smil.C51_maxtree_partial",
    "Smil.C51_agree_partial"
   ],
   "note": "Proved for the union-find implementation: for every symmetric square-grid element, every size >= 1 and distinct images, areaOpening returns the area opening (largest level whose component has at least n pixels); the specification is proved to be unique, anti-extensive, increasing and idempotent. For the max-tree (C51_maxtree_partial), the same on connected neighbourhoods, 8 and 16 bit unsigned types; hence both implementations agree (C51_agree_partial). Bugs proved: size 0, in-place call, hexagonal elements (union-find)."
  },
  {
   "property": "C52",
   "status": "partial",
   "theorems": [
    "Smil.C52_hitOrMiss_gray_partial",
    "Smil.C52_hitOrMiss_partial",
    "Smil.C52_hitOrMissList_partial",
    "Smil.C52_thin_partial",
    "Smil.C52_thick_partial",
    "Smil.C52_extensivity_partial",
    "Smil.C52_fullThin_partial",
    "Smil.C52_fullThick_partial",
    "Smil.C52_full_binary_partial",
    "Smil.C52_errors",
    "Smil.C52_inplace_bug",
    "Smil.C52_inplace_list_bug",
    "Smil.C52_empty_bug"
   ],
   "note": "Grey-level and binary meaning of hitOrMiss (one template and lists), thin and thick exact, (anti-)extensivity, termination of fullThin/fullThick at a common fixed point of all templates, for all images of unsigned (or at most 16 bit) types. Missing: templates whose element type has a dedicated kernel, size other than one, hexagonal templates on several slices; volumes are exact integers instead of doubles. In place and with empty foregrounds the code violates the claim (witnesses)."
  },
  {
   "property": "C53",
   "status": "partial",
   "theorems": [
    "Smil.C53_arrow_partial",
    "Smil.C53_arrow_size_partial",
    "Smil.C53_arrow_low",
    "Smil.C53_arrow_interior",
    "Smil.C53_errors",
    "Smil.C53_border_bug",
    "Smil.C53_ninth_bug",
    "Smil.C53_inplace_bug",
    "Smil.C53_size_bug"
   ],
   "note": "Exact meaning of every bit for all images, elements of at most 64 points and all five operations, with the outside counted as the border value; the claim in full for \"<\" with the default border and away from the sides for all operations. The claim fails at the sides for the other operations, for outputs with fewer bits than points, in place and for sizes above one with equal types (witnesses). arrowPropagate is in C72, arrowMin and arrowMinStep in C88."
  },
  {
   "property": "C54",
   "status": "partial",
   "theorems": [
    "Smil.C54_median_partial",
    "Smil.C54_rank_partial",
    "Smil.C54_rank_zero_partial",
    "Smil.C54_rank_one_bug",
    "Smil.C54_empty_bug",
    "Smil.C54_mean_partial"
   ],
   "note": "median and rank are order statistics when the element fits the width and no neighbourhood is empty; percentile 1 and empty neighbourhoods read outside the sorted vector (proved). mean with an exact quotient."
  },
  {
   "property": "C55",
   "status": "partial",
   "theorems": [
    "Smil.C55_distinct",
    "Smil.C55_getPixel_partial",
    "Smil.C55_setPixel_partial",
    "Smil.C55_setOffset_partial",
    "Smil.C55_overflow_bug",
    "Smil.C55_binary",
    "Smil.C55_inv",
    "Smil.C55_test",
    "Smil.C55_fill",
    "Smil.C55_copy",
    "Smil.C55_copyAt_partial",
    "Smil.C55_copyIdx_bug",
    "Smil.C55_image"
   ],
   "note": "Word and bit arithmetic of DBitArray.h modulo 2^32, line tables, set/get, fill, copy, complement, test, the 17 binary word operations, and the image loop. Proved for all sizes below 2^32 bits; above it positions collide (C55_overflow_bug). A copy starting inside a source line ignores the start (C55_copyIdx_bug)."
  },
  {
   "property": "C56",
   "status": "partial",
   "theorems": [
    "Smil.C56_left_partial",
    "Smil.C56_right_partial",
    "Smil.C56_zero",
    "Smil.C56_multiple_bug",
    "Smil.C56_right_bug",
    "Smil.C56_border_bug"
   ],
   "note": "bitShiftLeft, bitShiftRight and shiftLine on words. Right for dx>0 not a multiple of 64; for dx<0 only when the length is a multiple of 64, or border 0 and small padding. Counterexamples: multiples of 64 (undefined shift), length 65 with dx=-1, border 1 with padding."
  },
  {
   "property": "C57",
   "status": "partial",
   "theorems": [
    "Smil.C57_bmp8",
    "Smil.C57_bmprgb",
    "Smil.C57_raw",
    "Smil.C57_pgm",
    "Smil.C57_pgm_name_bug",
    "Smil.C57_vtk_letter_bug",
    "Smil.C57_vtk_newline_bug",
    "Smil.C57_vtk_type_bug",
    "Smil.C57_vtk_partial"
   ],
   "note": "Proved for 8-bit and RGB BMP, RAW and binary PGM (file names without line feed) for every size within int, and for VTK (UINT8 and UINT16, both byte orders, images that are not empty) when the first data byte is not a letter, '#', or a line feed. C57_vtk_letter_bug, C57_vtk_newline_bug, C57_vtk_type_bug and C57_pgm_name_bug are files written by the library and not read back."
  },
  {
   "property": "C58",
   "status": "partial",
   "theorems": [
    "Smil.C58_raw_bit_bug",
    "Smil.C58_bmp8_partial",
    "Smil.C58_bmp8_bug",
    "Smil.C58_bmprgb",
    "Smil.C58_pgm_partial",
    "Smil.C58_pgm_ascii_bug",
    "Smil.C58_pgm_hang",
    "Smil.C58_vtk_partial",
    "Smil.C58_vtk_blank_bug",
    "Smil.C58_vtk_ascii_bug"
   ],
   "note": "For every byte string: RGB BMP never leaves its image or row; 8-bit BMP when the header announces at least 256 colours (C58_bmp8_bug: with 0 colours, the usual value, the empty table is read, for every such file); PGM other than P2 (C58_pgm_ascii_bug: every text PGM with a pixel writes beyond the image; C58_pgm_hang: endless loop); VTK binary files whose header is well formed (blank line and text files: witnesses). Bit-image RAW: C58_raw_bit_bug. PBM, PNG, JPG and TIFF are not modelled."
  },
  {
   "property": "C59",
   "status": "partial",
   "theorems": [
    "Smil.C59_merge",
    "Smil.C59_basins",
    "Smil.C59_flood_partial",
    "Smil.C59_rank_partial",
    "Smil.C59_rank_bug",
    "Smil.C59_output_partial",
    "Smil.C59_return_bug",
    "Smil.C59_nomarker_bug",
    "Smil.C59_reuse_bug",
    "Smil.C59_asym_bug"
   ],
   "note": "Merge law and conservation for all sequences of operations (C59_merge, C59_basins); flooding of a connected image for unsigned types and symmetric neighbourhoods (C59_flood_partial), ranks and outputs. UINT and the extinction type wrap modulo 2^32 and 2^bits. Negations with witnesses: return code always RES_ERR, no marker, reused object, output type too small for the ranks, asymmetric neighbourhood. Not modelled: flood overload with a graph (same run; edges are recorded), signed types."
  },
  {
   "property": "C60",
   "status": "proved",
   "theorems": [
    "Smil.C60_restored",
    "Smil.C60_silent",
    "Smil.C60_freeze"
   ],
   "note": "Arbitrary nesting of freezes over any number of images."
  },
  {
   "property": "C61",
   "status": "partial",
   "theorems": [
    "Smil.C61_copy_incr",
    "Smil.C61_plus_partial",
    "Smil.C61_plus_bug",
    "Smil.C61_store",
    "Smil.C61_conversion_bug"
   ],
   "note": "Copy, increment and stores proved for all pointers; addition on pointers not incremented since creation; addition after an increment counts it twice (C61_plus_bug) and addressed pixels always convert to 0 (C61_conversion_bug)."
  },
  {
   "property": "C62",
   "status": "partial",
   "theorems": [
    "Smil.C62_otsu_partial",
    "Smil.C62_threshold_bug",
    "Smil.C62_variance_bug",
    "Smil.C62_signed_bug"
   ],
   "note": "One threshold, images of non-negative values, exact arithmetic in place of double: the search visits enough thresholds and returns the first one of greatest variance between classes. Several thresholds: C82. Partial: the threshold image puts the threshold value in the wrong class (C62_threshold_bug), the variance does not fit the pixel type it is returned in (C62_variance_bug), negative values break the search (C62_signed_bug)."
  },
  {
   "property": "C63",
   "status": "partial",
   "theorems": [
    "Smil.C63_unique",
    "Smil.C63_area_partial",
    "Smil.C63_height_partial",
    "Smil.C63_width_partial",
    "Smil.C63_errors",
    "Smil.C63_antiextensive",
    "Smil.C63_increasing",
    "Smil.C63_idempotent",
    "Smil.C63_area_close_partial",
    "Smil.C63_height_close_partial",
    "Smil.C63_width_close_partial",
    "Smil.C63_uint32_ub",
    "Smil.C63_disconnected_bug"
   ],
   "note": "For the area, height and width criteria, openings and closings, unsigned 8 and 16 bit types, every symmetric element (square or hexagonal grid), every size, fewer than 41943040 pixels: the pixels joined to a pixel of least value receive the attribute opening, so the whole image does when the element joins all pixels (connected_squ, connected_cross, connected_hex). Bugs proved: pixels not joined to the minimum get 0 (C63_disconnected_bug), UINT32 images write outside of the table of labels (C63_uint32_ub). Missing: signed types, the HA and HWA criteria, the ultimate opening."
  },
  {
   "property": "C64",
   "status": "partial",
   "theorems": [
    "Smil.C64_dilate_partial",
    "Smil.C64_errors",
    "Smil.C64_posdiag_bug",
    "Smil.C64_flat_bug",
    "Smil.C64_steep_bug",
    "Smil.C64_open_bug",
    "Smil.C64_width_ub",
    "Smil.C64_erode_partial",
    "Smil.C64_open_partial",
    "Smil.C64_close_partial",
    "Smil.C64_square_partial",
    "Smil.C64_square_agree_partial",
    "Smil.C64_square_erode_partial",
    "Smil.C64_square_open_partial",
    "Smil.C64_square_close_partial"
   ],
   "note": "Proved for all 2D images, radii and contents of the working arrays: exact segment maxima for horizontal and vertical lines (lengths other than 1 and 2r+1), the descending diagonal, and all Bresenham slopes with dx*dy>0; erosions, opening and closing laws, squares and their agreement with dilate. Lengths 1 and 2r+1 are undefined behaviour (proved for all images). Ascending diagonal: all pixels right but one (proved). The slopes with dx*dy<0 leave pixels unwritten (witnesses). Not modelled: trigonometry from the angle, circle operators."
  },
  {
   "property": "C65",
   "status": "partial",
   "theorems": [
    "Smil.C65_open_partial",
    "Smil.C65_bytes_partial",
    "Smil.C65_unique",
    "Smil.C65_antiext",
    "Smil.C65_mono",
    "Smil.C65_granulometry",
    "Smil.C65_absorb",
    "Smil.C65_idem",
    "Smil.C65_decreasing",
    "Smil.C65_errors",
    "Smil.C65_posdiag_ub",
    "Smil.C65_stack_ub",
    "Smil.C65_stale_bug",
    "Smil.C65_missed_bug",
    "Smil.C65_posdiag_row_bug",
    "Smil.C65_volume_bug",
    "Smil.C65_border_bug"
   ],
   "note": "Proved for rows, columns, the diagonal dx = -dy and slopes with dx*dy > 0 and max(|dx|,|dy|) <= 2r*min(|dx|,|dy|), on 2D images with 8 bit pixels or lines of at most 256 pixels. Outside: the stack overflows (C65_stack_ub), the diagonal dx = dy reads behind the image (C65_posdiag_ub), stale variables (C65_stale_bug), pixels left aside (C65_missed_bug), other slices (C65_volume_bug). The conversion of the angle is not modelled."
  },
  {
   "property": "C66",
   "status": "partial",
   "theorems": [
    "Smil.C66_skiz",
    "Smil.C66_keep",
    "Smil.C66_mask",
    "Smil.C66_decided",
    "Smil.C66_errors",
    "Smil.C66_inflBasins_partial",
    "Smil.C66_inflBasins_seeds",
    "Smil.C66_inflBasins_bug",
    "Smil.C66_inflZones_empty_bug",
    "Smil.C66_inflZones_ub"
   ],
   "note": "lblSkiz proved for unsigned images: termination and zones of influence for the distance in steps; inflBasins proved up to its opening, which may remove particles when the element is not the default one (bug theorem); inflZones subtracts an image that is never written (ub theorem). Volumes are exact sums, double in the code."
  },
  {
   "property": "C67",
   "status": "partial",
   "theorems": [
    "Smil.C67_points",
    "Smil.C67_points_range",
    "Smil.C67_drawLine_partial",
    "Smil.C67_drawLine_inside",
    "Smil.C67_profile",
    "Smil.C67_rectangle_partial",
    "Smil.C67_corners_partial",
    "Smil.C67_corners_error",
    "Smil.C67_box_partial",
    "Smil.C67_disc",
    "Smil.C67_sphere",
    "Smil.C67_circle",
    "Smil.C67_circle_near",
    "Smil.C67_errors",
    "Smil.C67_drawLine_ub",
    "Smil.C67_drawLine_wrap_bug",
    "Smil.C67_bresenhamLine_bug",
    "Smil.C67_bresenhamLine_fails",
    "Smil.C67_profile_order_bug",
    "Smil.C67_profile_ub",
    "Smil.C67_rectangle_clip_bug",
    "Smil.C67_rectangle_ub",
    "Smil.C67_rectangle_empty_bug",
    "Smil.C67_circle_midpoint_bug"
   ],
   "note": "Segments, ends inside, oblique lines, profiles, discs, spheres and circles are proved for all inputs; straight lines and rectangles that leave the image break the property (undefined behaviour or wrapped pixels), as do empty rectangles, bresenhamLine, the order of straight profiles and the start value of the circle. Coordinates are unbounded integers."
  },
  {
   "property": "C68",
   "status": "proved",
   "theorems": [
    "Smil.C68_transpose",
    "Smil.C68_transpose_inv",
    "Smil.C68_multiply",
    "Smil.C68_assoc",
    "Smil.C68_transpose_multiply",
    "Smil.C68_errors",
    "Smil.C68_order_error",
    "Smil.C68_uint16_ub",
    "Smil.C68_inplace_bug"
   ],
   "note": "All five orders and the copies, with inverses; products modulo 2^bits for UINT8, INT8, INT16, UINT32, associativity, transposed products, error codes. Exceptions as theorems: UINT16 pixels are multiplied as int and 65535*65535 overflows (C68_uint16_ub); with the first matrix as output the values already written are used as factors (C68_inplace_bug). The omp loops are modelled in sequence (each line is written by one iteration)."
  },
  {
   "property": "C69",
   "status": "partial",
   "theorems": [
    "Smil.C69_indices",
    "Smil.C69_fscore",
    "Smil.C69_range",
    "Smil.C69_complement_bug",
    "Smil.C69_symm",
    "Smil.C69_ruzicka",
    "Smil.C69_hamming",
    "Smil.C69_hamming_metric",
    "Smil.C69_accuracy_partial",
    "Smil.C69_errors",
    "Smil.C69_negative_bug",
    "Smil.C69_accuracy_bug",
    "Smil.C69_constant_bug",
    "Smil.C69_resize_bug",
    "Smil.C69_hausdorff_bug",
    "Smil.C69_hausdorff_slices_bug",
    "Smil.C69_hausdorff_partial"
   ],
   "note": "The indices, Ruzicka, Hamming and its metric laws are proved in full for binary images without negative values. Accuracy: proved for equal nonzero values and for unsigned non-binary images (threshold). Hausdorff: proved that the result is the Hausdorff distance of the boundaries (8 neighbours in the slice) of unsigned images with at least two lines; it is not that of the objects (C69_hausdorff_bug, C69_hausdorff_slices_bug). Exceptions: negative values, different nonzero values, constant images, resized inputs, complements. Doubles are modelled by rationals."
  },
  {
   "property": "C70",
   "status": "partial",
   "theorems": [
    "Smil.C70_skiz",
    "Smil.C70_skeleton",
    "Smil.C70_skeleton_bug",
    "Smil.C70_extinction",
    "Smil.C70_prune",
    "Smil.C70_prune_inplace_bug",
    "Smil.C70_errors",
    "Smil.C70_skeleton_empty_bug",
    "Smil.C70_prune_hex_bug"
   ],
   "note": "skiz is proved for every binary image of one slice (any type without overflow in the inversion): zones and objects in bijection, components of the background kept, no free end. skeleton and extinctionValues are proved equal to what the loops compute for every unsigned input; that this is the morphological skeleton is false (level 0 omitted, stop at the first empty level: C70_skeleton_bug, C70_skeleton_empty_bug). pruneSkiz is proved pointwise for every type; it ignores the hexagonal grid (C70_prune_hex_bug) and erases its input in place (C70_prune_inplace_bug). The double volume of fullThin is exact here."
  },
  {
   "property": "C71",
   "status": "partial",
   "theorems": [
    "Smil.C71_watershed_partial",
    "Smil.C71_zones",
    "Smil.C71_waterfall_partial",
    "Smil.C71_filled",
    "Smil.C71_levels_partial",
    "Smil.C71_hierarchy",
    "Smil.C71_top_bug",
    "Smil.C71_last_level_bug",
    "Smil.C71_one_zone_bug",
    "Smil.C71_size_bug",
    "Smil.C71_errors"
   ],
   "note": "Proved for every image of an unsigned type of at least three bits, every symmetric element of size 1 without repeated points, and every number of levels: one zone for each regional minimum below the maximum of the type, thin line, filled relief, minima of each level contain minima of the first. Fails for images at the maximum (C71_top_bug), at the last level, where one zone becomes all line (C71_last_level_bug, C71_one_zone_bug), and for elements of size 2 (C71_size_bug). Not modelled: outputs that are also the relief. Not proved: that each step of the waterfall removes at least one zone."
  },
  {
   "property": "C72",
   "status": "partial",
   "theorems": [
    "Smil.C72_propagate",
    "Smil.C72_minima_partial",
    "Smil.C72_maxima_partial",
    "Smil.C72_bits_bug",
    "Smil.C72_sign_bug",
    "Smil.C72_size_bug",
    "Smil.C72_inplace_bug",
    "Smil.C72_alone_bug"
   ],
   "note": "Proved for every image (any size, signed or unsigned type of at least 3 bits) and every symmetric element of size 1 whose neighbours have a bit each: the output marks exactly the regional minima (maxima). arrowPropagate is proved in full over an output without the value. Fails for elements with more neighbours than bits (C72_bits_bug), for a neighbour on the sign bit of a signed type (C72_sign_bug), for size 2 (C72_size_bug), in place (C72_inplace_bug), for elements without neighbours (C72_alone_bug). Threads and the rhombicuboctahedron are not modelled; an output of another size is undefined in the code."
  },
  {
   "property": "C73",
   "status": "partial",
   "theorems": [
    "Smil.C73_hMinima_partial",
    "Smil.C73_hMaxima_partial",
    "Smil.C73_hMinimaLabeled_partial",
    "Smil.C73_hMaximaLabeled_partial",
    "Smil.C73_maximaLabeled_partial",
    "Smil.C73_basin",
    "Smil.C73_peak",
    "Smil.C73_separate",
    "Smil.C73_nested",
    "Smil.C73_zero",
    "Smil.C73_saturated_bug",
    "Smil.C73_saturated_instance_bug",
    "Smil.C73_size_bug",
    "Smil.C73_errors"
   ],
   "note": "Proved for unsigned types, all heights, all images and all symmetric elements: hMinima and hMaxima mark exactly the basins deeper and the peaks higher than h (C73_hMinima_partial, C73_hMaxima_partial; also in place), one label for each part (elements of size 1), structure of the parts (C73_basin, C73_peak, C73_separate, C73_nested, C73_zero). The claim fails where bottom + h reaches the maximum of the type (C73_saturated_bug) and for labelled extrema with elements of size 2 (C73_size_bug)."
  },
  {
   "property": "C74",
   "status": "proved",
   "theorems": [
    "Smil.C74_geoDilate",
    "Smil.C74_geoErode",
    "Smil.C74_sizes",
    "Smil.C74_reconstruction_partial",
    "Smil.C74_mask_bug",
    "Smil.C74_errors"
   ],
   "note": "Full specification of geoDilate and geoErode for every type, element and size (C74_geoDilate, C74_geoErode, C74_sizes). C74_reconstruction_partial compares with build, whose model is correct for unsigned types. C74_mask_bug: with the mask as output the result is the ordinary dilation."
  },
  {
   "property": "C75",
   "status": "proved",
   "theorems": [
    "Smil.C75_asfOpen",
    "Smil.C75_asfClose",
    "Smil.C75_asBuildOpen_partial",
    "Smil.C75_asBuildClose_partial",
    "Smil.C75_leveling_partial",
    "Smil.C75_errors"
   ],
   "note": "IsSeqFilter collects the laws (total, increasing, idempotent, absorbing, between opening and closing, identity for size 0). asfOpen and asfClose: every type and every accepted element. asBuildOpen and asBuildClose: unsigned types, symmetric elements with their origin (hence _partial), and levelings."
  },
  {
   "property": "C76",
   "status": "partial",
   "theorems": [
    "Smil.C76_horiz_partial",
    "Smil.C76_vert_partial",
    "Smil.C76_convolve_partial",
    "Smil.C76_range_partial",
    "Smil.C76_constant_partial",
    "Smil.C76_increasing_partial",
    "Smil.C76_narrow_bug",
    "Smil.C76_even_kernel_bug",
    "Smil.C76_sizes_bug",
    "Smil.C76_left_border_bug",
    "Smil.C76_centre_bug",
    "Smil.C76_inplace_bug"
   ],
   "note": "Exact arithmetic. Departures are proved: lines shorter than twice the radius leave the line for every image and kernel, an even kernel loses its last weight, sizes are never refused, kernels that are not symmetric or not normalised, and vertical convolution in place."
  },
  {
   "property": "C77",
   "status": "partial",
   "theorems": [
    "Smil.C77_gauss_partial",
    "Smil.C77_range_partial",
    "Smil.C77_constant_partial",
    "Smil.C77_increasing_partial",
    "Smil.C77_flat_partial",
    "Smil.C77_errors"
   ],
   "note": "Exact arithmetic and arbitrary positive weights instead of the values of exp in double; every other part of the statement is proved without restriction."
  },
  {
   "property": "C78",
   "status": "partial",
   "theorems": [
    "Smil.C78_closest_partial",
    "Smil.C78_values_partial",
    "Smil.C78_map_partial",
    "Smil.C78_grid_partial",
    "Smil.C78_depth_bug",
    "Smil.C78_one_bug",
    "Smil.C78_inplace_bug",
    "Smil.C78_cases",
    "Smil.C78_like_partial"
   ],
   "note": "Exact arithmetic. Departures are proved: images with several slices, new width or height 1, in-place calls."
  },
  {
   "property": "C79",
   "status": "partial",
   "theorems": [
    "Smil.C79_linear_partial",
    "Smil.C79_range_partial",
    "Smil.C79_increasing_partial",
    "Smil.C79_grid_partial",
    "Smil.C79_scale_partial",
    "Smil.C79_scale_one_bug",
    "Smil.C79_depth_bug",
    "Smil.C79_like_partial"
   ],
   "note": "Exact arithmetic. Departures are proved: new width or height 1, images of width or height 1 in scale, 2D call on an image with several slices."
  },
  {
   "property": "C80",
   "status": "partial",
   "theorems": [
    "Smil.C80_stretch_partial",
    "Smil.C80_order_partial",
    "Smil.C80_auto_partial",
    "Smil.C80_full_partial",
    "Smil.C80_refused",
    "Smil.C80_point_bug",
    "Smil.C80_constant_bug",
    "Smil.C80_point_partial",
    "Smil.C80_int32_bug",
    "Smil.C80_wrap_bug"
   ],
   "note": "Exact arithmetic instead of double. Departures are proved: equal input bounds and constant images divide by zero, the default range of INT32 overflows, unordered bounds wrap on UINT32."
  },
  {
   "property": "C81",
   "status": "partial",
   "theorems": [
    "Smil.C81_range_partial",
    "Smil.C81_peak_partial",
    "Smil.C81_ignored_partial",
    "Smil.C81_proper_partial",
    "Smil.C81_enhance_partial",
    "Smil.C81_refused",
    "Smil.C81_constant_bug",
    "Smil.C81_size_bug",
    "Smil.C81_crossed_bug",
    "Smil.C81_signed_bug",
    "Smil.C81_wide_bug"
   ],
   "note": "Unsigned 8 and 16 bit images, exact arithmetic. Departures are proved: constant images, saturations where the ends meet or cross, signed and 32 bit types, refused outputs reported as success."
  },
  {
   "property": "C82",
   "status": "partial",
   "theorems": [
    "Smil.C82_search_partial",
    "Smil.C82_one",
    "Smil.C82_labels_partial",
    "Smil.C82_refused",
    "Smil.C82_zero_bug",
    "Smil.C82_label_bug",
    "Smil.C82_variance_bug",
    "Smil.C82_zeros_bug"
   ],
   "note": "C82_search_partial: for 1 <= K <= the greatest value the search ends (any bound from hi^K turns gives the same) and returns the first increasing thresholds of greatest variance between classes, against every choice of K integers (finer cuts never lower the variance). C82_one: for K = 1 this is the variance of C62. C82_labels_partial: what is written at each pixel. Partial: exact arithmetic instead of double; non-negative values; K above the greatest value; the labels are not the classes (C82_label_bug), the variance does not fit the pixel type (C82_variance_bug), images of zeros are not written (C82_zeros_bug), K = 0 never ends (C82_zero_bug)."
  },
  {
   "property": "C83",
   "status": "partial",
   "theorems": [
    "Smil.C83_distance_partial",
    "Smil.C83_small_partial",
    "Smil.C83_refused",
    "Smil.C83_stale_bug",
    "Smil.C83_overflow_bug"
   ],
   "note": "C83_distance_partial: the value of each pixel is the least length of a walk from a zero pixel of the mask through the object, zero where there is none; the loop ends. C83_small_partial: the same without the hypothesis on the distances when the image has at most hi pixels. Partial: unsigned types of at most 16 bits, symmetric elements, distances that fit (C83_overflow_bug), zeros in the output beforehand (C83_stale_bug: otherwise the old content is taken for distances)."
  },
  {
   "property": "C84",
   "status": "proved",
   "theorems": [
    "Smil.C84_area",
    "Smil.C84_volume",
    "Smil.C84_maxima",
    "Smil.C84_mean",
    "Smil.C84_blank",
    "Smil.C84_refused",
    "Smil.C84_return_bug",
    "Smil.C84_max_bug",
    "Smil.C84_mean_bug",
    "Smil.C84_size_bug",
    "Smil.C84_bounds_bug"
   ],
   "note": "Components are given by chains of neighbours of equal value, not by the labelling of the model. Measures are rationals; the code uses double. Departures from the documentation: C84_return_bug, C84_max_bug, C84_mean_bug, C84_size_bug, C84_bounds_bug."
  },
  {
   "property": "C85",
   "status": "partial",
   "theorems": [
    "Smil.C85_covariance_partial",
    "Smil.C85_unit_direction",
    "Smil.C85_normalized_partial",
    "Smil.C85_auto",
    "Smil.C85_refused",
    "Smil.C85_centered_bug",
    "Smil.C85_centered_witness_bug",
    "Smil.C85_clamp_bug",
    "Smil.C85_overflow_bug",
    "Smil.C85_zero_bug",
    "Smil.C85_unallocated_bug"
   ],
   "note": "Without centring, displacements inside the image: means over exactly the pairs, for all sizes and directions; complete for directions with steps of one pixel. The centred version does not satisfy the claim for any image that is not constant (C85_centered_bug, C85_centered_witness_bug); further exceptions: C85_clamp_bug, C85_overflow_bug, C85_zero_bug, C85_unallocated_bug. Exact arithmetic instead of double."
  },
  {
   "property": "C86",
   "status": "partial",
   "theorems": [
    "Smil.C86_entropy",
    "Smil.C86_bounds",
    "Smil.C86_relabel",
    "Smil.C86_mask_partial",
    "Smil.C86_blobs",
    "Smil.C86_unallocated_bug",
    "Smil.C86_wide_bug",
    "Smil.C86_mask_size_bug"
   ],
   "note": "Without a mask and for blobs: Shannon's entropy, bounds with the case of equality, invariance. With a mask under the condition of C15 on the span of 32 bit images (C86_wide_bug without it). Real arithmetic instead of double."
  },
  {
   "property": "C87",
   "status": "partial",
   "theorems": [
    "Smil.C87_barycenter",
    "Smil.C87_blobsBarycenter",
    "Smil.C87_barycenter_hull",
    "Smil.C87_central",
    "Smil.C87_blobsMoments",
    "Smil.C87_labels",
    "Smil.C87_inertia3",
    "Smil.C87_inertia2",
    "Smil.C87_inertia_nonneg",
    "Smil.C87_inertia2_axes_bug",
    "Smil.C87_negative_bug",
    "Smil.C87_nan_bug",
    "Smil.C87_empty_bug",
    "Smil.C87_labels_bug"
   ],
   "note": "Barycentre, centred moments, moments and inertia matrices of blobs for every image; centred moments need unsigned pixels or a positive mass (C87_negative_bug without). Images of one slice: the documented matrix, whose axes are exchanged (C87_inertia2_axes_bug). Rational arithmetic instead of double."
  },
  {
   "property": "C88",
   "status": "partial",
   "theorems": [
    "Smil.C88_arrowMin_partial",
    "Smil.C88_arrowMin_inside",
    "Smil.C88_arrowMinStep_partial",
    "Smil.C88_errors",
    "Smil.C88_peak_bug",
    "Smil.C88_slices_bug",
    "Smil.C88_bits_bug"
   ],
   "note": "Exact meaning of every bit for all images and all elements of at most 64 points in one slice, with the outside counted as the border value (C88_arrowMin_partial), the claim on the pixels of the image alone with the default border (C88_arrowMin_inside), arrowMinStep where a neighbour is not lower (C88_arrowMinStep_partial). The claim fails for arrowMinStep at pixels above all their neighbours (proved for all such pixels, C88_peak_bug), for elements with points in other slices and for outputs with fewer bits than points (witnesses). Use in place is not modelled."
  },
  {
   "property": "C89",
   "status": "partial",
   "theorems": [
    "Smil.C89_cast_partial",
    "Smil.C89_cast_order_partial",
    "Smil.C89_cast_back_partial",
    "Smil.C89_expand_partial",
    "Smil.C89_expand_full_partial",
    "Smil.C89_expand_flat",
    "Smil.C89_expand3_partial",
    "Smil.C89_sigmoid",
    "Smil.C89_scurve_partial",
    "Smil.C89_cast_signed_bug",
    "Smil.C89_expand3_signed_bug",
    "Smil.C89_expand3_reversed_bug",
    "Smil.C89_expand_wrap_bug",
    "Smil.C89_scurve_pivot_bug",
    "Smil.C89_scurve_wrap_bug"
   ],
   "note": "Proved for all images: cast to unsigned types (C89_cast_partial, order and bounds, round trip through wider types), expand to a range (increasing or decreasing, bounds reached exactly), expand with two ranges for unsigned types with the bounds in order, the sigmoid of sCurve (value and derivative at the pivot, order, bounds) and its application to 8 and 16 bit images. Fails for cast to every signed type whenever the image has a pixel of greatest value (C89_cast_signed_bug, general), and in the cases of the other bug theorems. double is replaced by exact rational or real arithmetic."
  },
  {
   "property": "C90",
   "status": "partial",
   "theorems": [
    "Smil.C90_unique",
    "Smil.C90_ultimate_partial",
    "Smil.C90_openings",
    "Smil.C90_steps_partial",
    "Smil.C90_errors",
    "Smil.C90_uint32_ub",
    "Smil.C90_wrap_bug"
   ],
   "note": "Full characterisation, uniqueness and the link with heightOpen for unsigned 8 and 16 bit images, symmetric elements, any stop size and delta, indicator types that hold the height. Exceptions proved: wrap of the default stop size, UINT32."
  },
  {
   "property": "C91",
   "status": "partial",
   "theorems": [
    "Smil.C91_diameter_partial",
    "Smil.C91_elongation_partial",
    "Smil.C91_tortuosity_partial",
    "Smil.C91_extremities_partial",
    "Smil.C91_slices_partial",
    "Smil.C91_flat_zones_partial",
    "Smil.C91_path_opening_partial",
    "Smil.C91_errors",
    "Smil.C91_longer_than_needed_bug",
    "Smil.C91_low_maximum_bug",
    "Smil.C91_single_pixel_bug",
    "Smil.C91_scale_bug",
    "Smil.C91_in_place_bug",
    "Smil.C91_zero_length_bug",
    "Smil.C91_flat_zone_pixel_bug",
    "Smil.C91_levels_bug"
   ],
   "note": "The components, the walks, the two ends, the flat zones and the levels of the path opening are proved for all images and scales, with `double` as rationals and any root that is positive on positive numbers. The length is bounded by the number of steps on both sides but is not the least one (C91_longer_than_needed_bug). Exceptions: maximum 1, single pixels, dzOverDx, in place, length 0, all levels of the type."
  },
  {
   "property": "C92",
   "status": "partial",
   "theorems": [
    "Smil.C92_mean_partial",
    "Smil.C92_values",
    "Smil.C92_mode_partial",
    "Smil.C92_median_partial",
    "Smil.C92_box",
    "Smil.C92_box_labels",
    "Smil.C92_mode_bug",
    "Smil.C92_median_bug",
    "Smil.C92_size_bug"
   ],
   "note": "Mean, values, mode, median and box of every label, for all label images and grey images of the same size. double are rationals and the square root is not taken. Mode and median count positive values only (C92_mode_bug, C92_median_bug); sizes are not compared (C92_size_bug)."
  },
  {
   "property": "C93",
   "status": "partial",
   "theorems": [
    "Smil.C93_labels_partial",
    "Smil.C93_same",
    "Smil.C93_errors",
    "Smil.C93_zero_bug",
    "Smil.C93_wrap_bug",
    "Smil.C93_resize_bug"
   ],
   "note": "The regions of two partitions are numbered in raster order modulo max-2; with at most max-2 regions two pixels have the same label exactly if they are in the same region; errors. Exceptions: zeros of the first image (C93_zero_bug), numbers that start again (C93_wrap_bug), a second image of another size in the resizing mode (C93_resize_bug)."
  },
  {
   "property": "C94",
   "status": "partial",
   "theorems": [
    "Smil.C94_unique",
    "Smil.C94_closing",
    "Smil.C94_area_partial",
    "Smil.C94_path_partial",
    "Smil.C94_errors",
    "Smil.C94_int32_ub",
    "Smil.C94_types_bug"
   ],
   "note": "areaClosing computes the area closing (also in place), which is extensive, increasing and idempotent; geodesicPathClosing with the diameter and one pixel type computes the dual of the path opening; errors. Exceptions: output of another type (C94_types_bug), negative INT32 pixels (C94_int32_ub), hexagonal elements, size 0, images with all levels of their type."
  },
  {
   "property": "C95",
   "status": "partial",
   "theorems": [
    "Smil.C95_zones",
    "Smil.C95_partial",
    "Smil.C95_one_level_ub",
    "Smil.C95_errors",
    "Smil.C95_size_bug",
    "Smil.C95_flat_ub",
    "Smil.C95_types_bug"
   ],
   "note": "For all images of values 0..255 and N ≤ 255 and for any list of the zones (unique up to order): the exact outcome, features over the zones with shifted sizes or the out-of-bounds write. The claim with the true sizes fails: C95_size_bug, C95_one_level_ub, C95_flat_ub, C95_types_bug. grayLevelZMDistance is not modelled."
  },
  {
   "property": "C96",
   "status": "partial",
   "theorems": [
    "Smil.C96_views_partial",
    "Smil.C96_data",
    "Smil.C96_noleak",
    "Smil.C96_defined",
    "Smil.C96_pixels",
    "Smil.C96_slice",
    "Smil.C96_slice_ub",
    "Smil.C96_assign_ub",
    "Smil.C96_setSize_bug",
    "Smil.C96_clone_ub"
   ],
   "note": "Invariant over all safe histories (C96_views_partial, C96_data, C96_noleak, C96_defined), what a view reads (C96_pixels), slices (C96_slice). Excluded operations are shown to fail: assignment from the same data or from no data (C96_assign_ub, all states), setSize and clone through Image<T>& (C96_setSize_bug, C96_clone_ub), slices of unallocated images (C96_slice_ub)."
  },
  {
   "property": "C97",
   "status": "partial",
   "theorems": [
    "Smil.C97_thin_partial",
    "Smil.C97_topology",
    "Smil.C97_idempotent",
    "Smil.C97_vanish_bug",
    "Smil.C97_product_bug",
    "Smil.C97_signed_ub"
   ],
   "note": "Proved for unsigned images with pixels at most 1290 (every UINT8 image): termination, refinement to the two phases on sets, values, connectivity, holes, idempotence. Negations proved: 2x2 squares vanish, products overflow or wrap above 1290, undefined behaviour for every signed image."
  },
  {
   "property": "C98",
   "status": "partial",
   "theorems": [
    "Smil.C98_binary",
    "Smil.C98_ascii_partial",
    "Smil.C98_reject",
    "Smil.C98_truncated_bug",
    "Smil.C98_unseparated_bug"
   ],
   "note": "Binary bitmaps of all sizes and headers are read bit for bit (C98_binary); other NetPBM types are refused (C98_reject). ASCII ones only when the values are separated by white space (C98_ascii_partial): the code misreads digits that are not separated, and accepts truncated files (negations proved)."
  },
  {
   "property": "C99",
   "status": "proved",
   "theorems": [
    "Smil.C99_bits",
    "Smil.C99_ext",
    "Smil.C99_inv",
    "Smil.C99_algebra",
    "Smil.C99_demorgan",
    "Smil.C99_order",
    "Smil.C99_binary",
    "Smil.C99_logic",
    "Smil.C99_images",
    "Smil.C99_order_bug"
   ],
   "note": "Bit by bit for all types (C99_bits, C99_ext), complement (C99_inv, where inv is defined), Boolean algebra, De Morgan, order and sums on unsigned types, agreement with inf and sup on binary images, logical operators, and images with any aliasing and schedule (C99_images). C99_order_bug delimits the order clause."
  },
  {
   "property": "C100",
   "status": "proved",
   "theorems": [
    "Smil.C100_toArray",
    "Smil.C100_roundtrip",
    "Smil.C100_values",
    "Smil.C100_length",
    "Smil.C100_fromArray",
    "Smil.C100_narrow_bug"
   ],
   "note": "Contents, lengths, round trips and overruns for all pairs of element types; C100_narrow_bug shows the losses the statement mentions."
  },
  {
   "property": "C101",
   "status": "partial",
   "theorems": [
    "Smil.C101_rectangles_partial",
    "Smil.C101_blobs",
    "Smil.C101_empty_ub",
    "Smil.C101_slices_error",
    "Smil.C101_short_ub"
   ],
   "note": "Proved for every map which is not empty and whose rectangles lie in the image, and for the boxes of the blobs of every label image of one slice with a label (C101_blobs). Undefined behaviour proved for label images without labels and short vectors; images of several slices give an error."
  },
  {
   "property": "C102",
   "status": "partial",
   "theorems": [
    "Smil.C102_mosaic_partial",
    "Smil.C102_merge_partial",
    "Smil.C102_cut_partial",
    "Smil.C102_isolated_throws",
    "Smil.C102_single_bug",
    "Smil.C102_wide_bug"
   ],
   "note": "Partial: every node has or had an edge, nodes fit the pixel type, the provisos of C12 (maximum of UINT8/UINT16) and C47 (elements that fit the width). The cut theorem composes mosaicToGraph, removeHighEdges, labelizeNodes and applyLookup. Exceptions: isolated nodes throw, one zone is refused, wide node types wrap."
  },
  {
   "property": "C103",
   "status": "partial",
   "theorems": [
    "Smil.C103_kuwahara_partial",
    "Smil.C103_bytes",
    "Smil.C103_window",
    "Smil.C103_refuse",
    "Smil.C103_overflow_ub",
    "Smil.C103_variance_bug"
   ],
   "note": "Exact rational arithmetic instead of double and a radius that is not negative. The 8-bit types carry no condition; the wider types need values of at most 46340 and a variance less than 9999999, and both conditions are shown necessary (C103_overflow_ub, C103_variance_bug)."
  },
  {
   "property": "C104",
   "status": "partial",
   "theorems": [
    "Smil.C104_deviation",
    "Smil.C104_near",
    "Smil.C104_sigma_partial",
    "Smil.C104_bytes_partial",
    "Smil.C104_window",
    "Smil.C104_zero",
    "Smil.C104_refuse",
    "Smil.C104_alone_ub",
    "Smil.C104_negative_ub",
    "Smil.C104_overflow_ub",
    "Smil.C104_inplace_bug"
   ],
   "note": "Exact rational arithmetic instead of double, an output distinct from the input and sigma not negative. The 8-bit types carry no condition on the values; the wider types need values of at most 46340. The other conditions are shown necessary (C104_alone_ub, C104_negative_ub, C104_overflow_ub, C104_inplace_bug)."
  },
  {
   "property": "C105",
   "status": "partial",
   "theorems": [
    "Smil.C105_cross_partial",
    "Smil.C105_normalized_partial",
    "Smil.C105_refuse",
    "Smil.C105_scale_bug",
    "Smil.C105_normalized_bug",
    "Smil.C105_steps_ub",
    "Smil.C105_default_ub",
    "Smil.C105_overflow_ub"
   ],
   "note": "Types of at most 8 bits and displacements within the image; the entries are the frequencies times the square of the maximum of the type, so the claim holds up to this factor, which cancels in the normalised vector of one value. Exact rational arithmetic instead of double. The negations for the other cases are proved (C105_scale_bug, C105_normalized_bug, C105_steps_ub, C105_default_ub, C105_overflow_ub)."
  },
  {
   "property": "C106",
   "status": "proved",
   "theorems": [
    "Smil.C106_distV0",
    "Smil.C106_ends_iff",
    "Smil.C106_refused",
    "Smil.C106_no_zero_endless",
    "Smil.C106_origin_bug",
    "Smil.C106_signed_bug"
   ],
   "note": "distV0 = ceil(least walk length to a zero pixel / size) clipped at the type maximum; ends iff every pixel reaches a zero pixel (endless otherwise, general theorem); refusals. For non-negative values and elements with the origin; exceptions C106_origin_bug, C106_signed_bug, C106_no_zero_endless."
  },
  {
   "property": "C107",
   "status": "partial",
   "theorems": [
    "Smil.C107_registry",
    "Smil.C107_delete_all",
    "Smil.C107_threads",
    "Smil.C107_shared_bug",
    "Smil.C107_copy_shared_bug",
    "Smil.C107_kill_bug",
    "Smil.C107_threads_bug"
   ],
   "note": "Refinement of the registry to the list of living registered objects for all legal programs, provided the name \"Image\" is neither given to nor taken from an existing object (C107_registry, C107_delete_all, C107_threads); shared images break it (C107_shared_bug: general; C107_copy_shared_bug), as do kill without keepAlive and the thread counters."
  },
  {
   "property": "C108",
   "status": "partial",
   "theorems": [
    "Smil.C108_same",
    "Smil.C108_fastLabel",
    "Smil.C108_elements",
    "Smil.C108_refused",
    "Smil.C108_in_place_endless",
    "Smil.C108_slices_ub",
    "Smil.C108_grey_bug",
    "Smil.C108_slices_bug",
    "Smil.C108_vertical_bug",
    "Smil.C108_size_bug",
    "Smil.C108_lambda_bug",
    "Smil.C108_one_line_ub"
   ],
   "note": "Proved equal to label (C39) for unsigned two-valued images of one slice, at least two lines, and every symmetric neighbourhood between the cross and the 3 by 3 square, with the planar boundary lemma; refused inputs covered. The general claim fails in the code: grey images, slices, other elements, size two, lambdaFastLabel, in place and one line, each with a witness or a general theorem."
  },
  {
   "property": "C109",
   "status": "partial",
   "theorems": [
    "Smil.C109_extension",
    "Smil.C109_nodot",
    "Smil.C109_case",
    "Smil.C109_scheme",
    "Smil.C109_unknown",
    "Smil.C109_pbm",
    "Smil.C109_read",
    "Smil.C109_slices",
    "Smil.C109_read_errors",
    "Smil.C109_stack",
    "Smil.C109_roundtrip_partial",
    "Smil.C109_count",
    "Smil.C109_write_stops",
    "Smil.C109_repeat_bug",
    "Smil.C109_scheme_bug",
    "Smil.C109_spill_bug"
   ],
   "note": "Round trip proved for volumes over BMP and PGM names of different files without URL prefix (C109_roundtrip_partial) and, given their own round trip, for any format (C109_stack; VTK needs the proviso of C57 on the first byte); exact meaning of reading a list for files of any sizes (C109_read). UINT8 pixels; PNG, JPEG, TIFF are parameters. Failures proved: C109_repeat_bug, C109_scheme_bug, C109_spill_bug."
  },
  {
   "property": "C110",
   "status": "partial",
   "theorems": [
    "Smil.C110_drawGraph",
    "Smil.C110_centre",
    "Smil.C110_errors",
    "Smil.C110_alias_bug",
    "Smil.C110_slice_bug"
   ],
   "note": "For nodes that are values of the pixels of the mosaic. Doubles are rationals (exact integer part for sums below 2^53). Exceptions proved: a node outside the pixel type is taken for another region, volumes are drawn on the first slice."
  },
  {
   "property": "C111",
   "status": "partial",
   "theorems": [
    "Smil.C111_binary_partial",
    "Smil.C111_errors",
    "Smil.C111_volume_ub",
    "Smil.C111_opening",
    "Smil.C111_short_bug",
    "Smil.C111_signed_bug",
    "Smil.C111_brute_bug",
    "Smil.C111_brute_row_bug"
   ],
   "note": "Exact characterisation by paths and the laws of an opening for every plane unsigned image (C111_binary_partial, C111_opening); the documented criterion is one pixel longer (C111_short_bug). Signed pixels, volumes and the version by thresholds fail, each with a witness or a general theorem."
  },
  {
   "property": "C112",
   "status": "partial",
   "theorems": [
    "Smil.C112_update",
    "Smil.C112_bounds_partial",
    "Smil.C112_level_bug",
    "Smil.C112_inplace_bug",
    "Smil.C112_errors",
    "Smil.C112_closing_partial",
    "Smil.C112_diagonal_bug",
    "Smil.C112_lost_bug",
    "Smil.C112_closing_type_bug"
   ],
   "note": "Update of a level exact in all eight directions (C112_update); result bounded above by the pixel and below by the paths of three orientations; errors and undefined cases. Missing: the fourth orientation and the right level, which the code does not give (witnesses)."
  },
  {
   "property": "C113",
   "status": "partial",
   "theorems": [
    "Smil.C113_queue",
    "Smil.C113_sorted",
    "Smil.C113_values_partial",
    "Smil.C113_inplace_bug",
    "Smil.C113_decrease_bug",
    "Smil.C113_overflow_bug",
    "Smil.C113_empty_bug",
    "Smil.C113_volume_bug",
    "Smil.C113_errors"
   ],
   "note": "The heap of pixels is proved a priority queue for all sequences of operations, with the exact set of undefined runs. The closing is proved to take only values of the first slice and to copy the other slices; that it is the area closing is false in general (five exceptions proved), and is not proved on the images where the code does not fail."
  },
  {
   "property": "C114",
   "status": "proved",
   "theorems": [
    "Smil.C114_split",
    "Smil.C114_number",
    "Smil.C114_lines"
   ],
   "note": "All strings and delimiters: the parts are characterised uniquely, counted, and joined back. find_first_of and substr are modelled as the standard specifies them."
  },
  {
   "property": "C115",
   "status": "proved",
   "theorems": [
    "Smil.C115_bijection",
    "Smil.C115_inWindow",
    "Smil.C115_translate",
    "Smil.C115_inside",
    "Smil.C115_zero"
   ],
   "note": "All windows whose points can be counted in 64 bits; overflow and division by zero are undefined in the model and excluded by stated bounds."
  },
  {
   "property": "C116",
   "status": "partial",
   "theorems": [
    "Smil.C116_direct",
    "Smil.C116_min",
    "Smil.C116_max",
    "Smil.C116_increasing",
    "Smil.C116_image",
    "Smil.C116_max_bug",
    "Smil.C116_subtractive_bug"
   ],
   "note": "The filters are proved for every tree in the order the code relies on (AMTree.OK); that MaxTreeFlood builds such a tree, and the attributes, are not modelled, and values of attributes are rationals. Max (non-increasing attributes) and Subtractive deviate from their rules: C116_max_bug, C116_subtractive_bug."
  },
  {
   "property": "C117",
   "status": "partial",
   "theorems": [
    "Smil.C117_sort",
    "Smil.C117_open_partial",
    "Smil.C117_range",
    "Smil.C117_size0_bug",
    "Smil.C117_slices_bug",
    "Smil.C117_closing_bug",
    "Smil.C117_errors"
   ],
   "note": "Proved for plane images and sizes at least 1, the same specification as C51. Sizes below 1 and volumes are exceptions (C117_size0_bug, C117_slices_bug); the closing is undefined on every plane image (C117_closing_bug)."
  },
  {
   "property": "C118",
   "status": "partial",
   "theorems": [
    "Smil.C118_dual",
    "Smil.C118_values_partial",
    "Smil.C118_increase_bug",
    "Smil.C118_undefined_bug",
    "Smil.C118_volume_bug",
    "Smil.C118_int32_bug",
    "Smil.C118_errors"
   ],
   "note": "Duality with the closing of C113 and the values of the result; the result is not always the area opening (C118_increase_bug)."
  },
  {
   "property": "C119",
   "status": "partial",
   "theorems": [
    "Smil.C119_edits_partial",
    "Smil.C119_reverse_bug",
    "Smil.C119_direction"
   ],
   "note": "Edits under the guards of C44; C119_direction covers every reversal of edges; an edge and its reverse cannot coexist (C119_reverse_bug)."
  },
  {
   "property": "C120",
   "status": "proved",
   "theorems": [
    "Smil.C120_values",
    "Smil.C120_digraph",
    "Smil.C120_sort_bug",
    "Smil.C120_remove_bug"
   ],
   "note": "All sequences of edits and sorts; the values outlive their nodes (C120_sort_bug, C120_remove_bug)."
  }
 ]
}