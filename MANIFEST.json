{
 "claims": [
  {
   "property": "C01",
   "status": "partial",
   "theorems": [
    "Pixell.C01_length",
    "Pixell.C01_unit_step",
    "Pixell.C01_area",
    "Pixell.C01_stride_offset",
    "Pixell.C01_empty_slice_refuted"
   ],
   "note": "Lengths, positions (unit steps) and pixel areas (any step) proved for in-range slices. Refuted: empty slices can get a negative length. For |step|>1 the geometry describes whole blocks, not the kept pixel."
  },
  {
   "property": "C02",
   "status": "partial",
   "theorems": [
    "Pixell.C02_refuted",
    "Pixell.C02_refuted_negative_step",
    "Pixell.C02_zero_step",
    "Pixell.C02_expand_slice_partial"
   ],
   "note": "Proved for all in-range slices; the general claim is refuted (no clamping of out-of-range bounds, zero step accepted)."
  },
  {
   "property": "C03",
   "status": "proved",
   "theorems": [
    "Pixell.C03_compose",
    "Pixell.C03_compose_numpy",
    "Pixell.C03_flip_flip"
   ],
   "note": ""
  },
  {
   "property": "C04",
   "status": "partial",
   "theorems": [
    "Pixell.C04_pad",
    "Pixell.C04_sky",
    "Pixell.C04_crop",
    "Pixell.C04_crop_geometry",
    "Pixell.C04_wrap_partial",
    "Pixell.C04_wrap_zero_upper_fails",
    "Pixell.C04_wrap_refuted"
   ],
   "note": "Everything proved for constant padding; wrap=True proved for upper width >= 1 and widths up to the axis length, refuted for upper width 0 (the call raises)."
  },
  {
   "property": "C05",
   "status": "proved",
   "theorems": [
    "Pixell.C05_shift",
    "Pixell.C05_compose",
    "Pixell.C05_inverse"
   ],
   "note": ""
  },
  {
   "property": "C06",
   "status": "proved",
   "theorems": [
    "Pixell.C06_edges",
    "Pixell.C06_centers",
    "Pixell.C06_compose",
    "Pixell.C06_inverse",
    "Pixell.C06_extent"
   ],
   "note": ""
  },
  {
   "property": "C07",
   "status": "proved",
   "theorems": [
    "Pixell.C07_downgrade",
    "Pixell.C07_too_small",
    "Pixell.C07_roundtrip",
    "Pixell.C07_roundtrip_offset",
    "Pixell.C07_flux",
    "Pixell.C07_geometry",
    "Pixell.C07_geometry_roundtrip",
    "Pixell.C07_geometry_agrees"
   ],
   "note": "One axis, elements in any rational vector space (so all other axes ride along)."
  },
  {
   "property": "C08",
   "status": "partial",
   "theorems": [
    "Pixell.C08_extract",
    "Pixell.C08_extract_fill"
   ],
   "note": "Proved for contiguous boxes (step +1 or -1), any position and any number of turns; strided boxes inherit the defect shown in C11_stride_refuted."
  },
  {
   "property": "C09",
   "status": "partial",
   "theorems": [
    "Pixell.C09_roundtrip",
    "Pixell.C09_insert",
    "Pixell.C09_noOverlap",
    "Pixell.C09_insert_extract"
   ],
   "note": "Proved for contiguous boxes; strided boxes inherit the defect of C11."
  },
  {
   "property": "C10",
   "status": "proved",
   "theorems": [
    "Pixell.C10_intersect",
    "Pixell.C10_empty"
   ],
   "note": "One axis, without the optional wrap argument."
  },
  {
   "property": "C11",
   "status": "partial",
   "theorems": [
    "Pixell.C11_wrap_partial",
    "Pixell.C11_pieces",
    "Pixell.C11_stride_refuted",
    "Pixell.C11_stride_nowrap_refuted",
    "Pixell.C11_cap_refuted",
    "Pixell.C11_wrapLength"
   ],
   "note": "Proved for contiguous boxes of either direction and caps up to the wrap length; refuted for strides that do not divide the start or wrap length, and for caps above the wrap length."
  },
  {
   "property": "C12",
   "status": "partial",
   "theorems": [
    "Pixell.C12_size",
    "Pixell.C12_fix",
    "Pixell.C12_flip",
    "Pixell.C12_slice",
    "Pixell.C12_slice_empty_refuted",
    "Pixell.C12_mul_refuted",
    "Pixell.C12_mul_partial",
    "Pixell.C12_div"
   ],
   "note": "sbox_mul is refuted for a backwards first box and proved for a forwards one; sbox2slice is refuted for flipped empty boxes and proved for all non-empty ones."
  },
  {
   "property": "C13",
   "status": "proved",
   "theorems": [
    "Pixell.C13_union",
    "Pixell.C13_rejects"
   ],
   "note": ""
  },
  {
   "property": "C14",
   "status": "partial",
   "theorems": [
    "Pixell.C14_refuted",
    "Pixell.C14_project_partial"
   ],
   "note": "Refuted: with equal WCS the input shape is returned (tautological comparison). The exact condition is proved."
  },
  {
   "property": "C15",
   "status": "partial",
   "theorems": [
    "Pixell.C15_recenter",
    "Pixell.C15_recenter_ref",
    "Pixell.C15_fix_wcs_shift",
    "Pixell.C15_fix_wcs_refuted",
    "Pixell.C15_fix_wcs_partial",
    "Pixell.C15_fix_wcs_centered"
   ],
   "note": "recenter_cyl_x proved; fix_wcs refuted for crval != 0 (moves every pixel by crval), proved for crval = 0."
  },
  {
   "property": "C16",
   "status": "partial",
   "theorems": [
    "Pixell.C16_count",
    "Pixell.C16_res_exact",
    "Pixell.C16_res_divides",
    "Pixell.C16_res_free",
    "Pixell.C16_res_sign",
    "Pixell.C16_res_half_free",
    "Pixell.C16_periodic_edge",
    "Pixell.C16_periodic_half_refuted",
    "Pixell.C16_periodic_half_partial",
    "Pixell.C16_adjust_refuted",
    "Pixell.C16_adjust_partial",
    "Pixell.C16_pixelization_partial",
    "Pixell.C16_pixelization_refuted",
    "Pixell.C16_pixelization_shape_refuted"
   ],
   "note": "Proved for all request kinds on non-periodic axes and for edge-centred periodic axes. Refuted: >= 100000 half-offset periodic pixels lose one; adjust with unequal offsets is off centre; pixelization is half a pixel off after dropping the duplicate and ignores shape[-1]."
  },
  {
   "property": "C17",
   "status": "proved",
   "theorems": [
    "Pixell.C17_compatible_iff",
    "Pixell.C17_equivalence",
    "Pixell.C17_tol_mono",
    "Pixell.C17_tol_not_transitive"
   ],
   "note": "At zero tolerance; with the default tolerance transitivity is shown to fail."
  },
  {
   "property": "C18",
   "status": "proved",
   "theorems": [
    "Pixell.C18_rewind",
    "Pixell.C18_unique",
    "Pixell.C18_idempotent",
    "Pixell.C18_congruent"
   ],
   "note": ""
  },
  {
   "property": "C19",
   "status": "proved",
   "theorems": [
    "Pixell.C19_congruent",
    "Pixell.C19_continuous",
    "Pixell.C19_reference",
    "Pixell.C19_unchanged"
   ],
   "note": ""
  },
  {
   "property": "C20",
   "status": "proved",
   "theorems": [
    "Pixell.C20_partition",
    "Pixell.C20_sizes",
    "Pixell.C20_total",
    "Pixell.C20_grid"
   ],
   "note": ""
  },
  {
   "property": "C21",
   "status": "proved",
   "theorems": [
    "Pixell.C21_history",
    "Pixell.C21_set_get",
    "Pixell.C21_inactive",
    "Pixell.C21_buffer"
   ],
   "note": "Flat buffer with cumulative offsets; whole-tile writes."
  },
  {
   "property": "C22",
   "status": "partial",
   "theorems": [
    "Pixell.C22_binop_partial",
    "Pixell.C22_inplace_partial",
    "Pixell.C22_add_sub",
    "Pixell.C22_same_tiles",
    "Pixell.C22_mul_refuted"
   ],
   "note": "Proved for every operation with op x 0 = x (+, -, |, ^, shifts) and any active sets, and for any operation with op 0 0 = 0 on equal active lists. Refuted for products (and so for the operators as a whole): tiles missing on the right keep the left operand."
  },
  {
   "property": "C23",
   "status": "partial",
   "theorems": [
    "Pixell.C23_redistribute_partial",
    "Pixell.C23_order_refuted",
    "Pixell.C23_default"
   ],
   "note": "Proved for increasing active lists on all ranks and any rank count; refuted for unsorted lists, where data of different tiles is mixed up. The default assignment is increasing and covers each tile exactly once."
  },
  {
   "property": "C24",
   "status": "proved",
   "theorems": [
    "Pixell.C24_unity",
    "Pixell.C24_weighted_mean",
    "Pixell.C24_reconstruct",
    "Pixell.C24_read",
    "Pixell.C24_workers",
    "Pixell.C24_large_pad_refuted"
   ],
   "note": "Maps that do not wrap around the sky (the docstring excludes the others)."
  },
  {
   "property": "C25",
   "status": "partial",
   "theorems": [
    "Pixell.C25_sub_partial",
    "Pixell.C25_sub_refuted",
    "Pixell.C25_sub_fails",
    "Pixell.C25_cut_partial",
    "Pixell.C25_union",
    "Pixell.C25_normalize"
   ],
   "note": "range_sub and range_cut are proved for sorted disjoint non-empty ranges on the left; refuted when the left list contains an empty range (wrong points, or an index error)."
  },
  {
   "property": "C26",
   "status": "proved",
   "theorems": [
    "Pixell.C26_mask2range",
    "Pixell.C26_lengths"
   ],
   "note": ""
  },
  {
   "property": "C27",
   "status": "partial",
   "theorems": [
    "Pixell.C27_greedy_simple",
    "Pixell.C27_no_groups",
    "Pixell.C27_greedy_split_partial",
    "Pixell.C27_greedy_split_refuted",
    "Pixell.C27_cumsplit",
    "Pixell.C27_cumsplit_sorted",
    "Pixell.C27_cumsplit_join",
    "Pixell.C27_listsplit"
   ],
   "note": "greedy_split is proved for work and cost functions that do not raise; with its defaults it raises for two or more groups (refuted)."
  },
  {
   "property": "C28",
   "status": "proved",
   "theorems": [
    "Pixell.C28_balance",
    "Pixell.C28_heaviest"
   ],
   "note": ""
  },
  {
   "property": "C29",
   "status": "partial",
   "theorems": [
    "Pixell.C29_linbin",
    "Pixell.C29_linbin_size_partial",
    "Pixell.C29_linbin_size_refuted",
    "Pixell.C29_expbin_partial",
    "Pixell.C29_expbin_terminates_partial",
    "Pixell.C29_expbin_refuted",
    "Pixell.C29_edges2bins",
    "Pixell.C29_bins2edges_partial",
    "Pixell.C29_bins2edges_refuted"
   ],
   "note": "linbin with nbin is proved. Refuted: linbin with bsize runs past n, expbin never returns for n < nmin, bins2edges is wrong unless there are exactly two bins. expbin's candidate edges are an arbitrary list (they come from floating-point exp)."
  },
  {
   "property": "C30",
   "status": "proved",
   "theorems": [
    "Pixell.C30_roundtrip",
    "Pixell.C30_total"
   ],
   "note": ""
  },
  {
   "property": "C31",
   "status": "proved",
   "theorems": [
    "Pixell.C31_reduce",
    "Pixell.C31_unit",
    "Pixell.C31_total",
    "Pixell.C31_expand_reduce",
    "Pixell.C31_idempotent",
    "Pixell.C31_large_offset_refuted",
    "Pixell.C31_bin_resample",
    "Pixell.C31_bin_total"
   ],
   "note": "Offsets up to the axis length; a larger offset is shown to count elements twice. op='linear' of block_expand is not modelled."
  },
  {
   "property": "C32",
   "status": "partial",
   "theorems": [
    "Pixell.C32_above",
    "Pixell.C32_below_partial",
    "Pixell.C32_below_refuted",
    "Pixell.C32_fft_len_above",
    "Pixell.C32_fft_len_below_partial"
   ],
   "note": "direction='above' is proved in full. direction='below' is refuted (fft_len(5) is 4): the last product tried wins, not the largest. What is proved below: the result is a product of the factors, not above n, and cannot be multiplied by any factor without exceeding n."
  },
  {
   "property": "C33",
   "status": "proved",
   "theorems": [
    "Pixell.C33_primes"
   ],
   "note": ""
  },
  {
   "property": "C34",
   "status": "partial",
   "theorems": [
    "Pixell.C34_nditer",
    "Pixell.C34_axes",
    "Pixell.C34_empty_refuted",
    "Pixell.C34_repeated_axis_refuted"
   ],
   "note": "Proved for arrays without empty axes and distinct axes. Refuted: arrays with an empty axis still yield indices; a repeated axis never ends."
  },
  {
   "property": "C35",
   "status": "partial",
   "theorems": [
    "Pixell.C35_seen",
    "Pixell.C35_collect_refuted",
    "Pixell.C35_list_combination",
    "Pixell.C35_empty_refuted"
   ],
   "note": "What is seen during the iteration is proved; collected results are refuted (one list object is reused); list_combination_iter is proved for non-empty lists and raises otherwise."
  },
  {
   "property": "C36",
   "status": "partial",
   "theorems": [
    "Pixell.C36_split_esc_partial",
    "Pixell.C36_refuted"
   ],
   "note": "Proved for tokens without escape characters and a non-empty last token; refuted otherwise."
  },
  {
   "property": "C37",
   "status": "partial",
   "theorems": [
    "Pixell.C37_simple",
    "Pixell.C37_ellipsis",
    "Pixell.C37_empty_array_refuted"
   ],
   "note": "Proved for tuples with no or one ellipsis; refuted for empty index arrays, which are taken for an ellipsis."
  },
  {
   "property": "C38",
   "status": "partial",
   "theorems": [
    "Pixell.C38_round_trip",
    "Pixell.C38_format_partial",
    "Pixell.C38_format_refuted"
   ],
   "note": "Conversion proved; the formatted form loses the sign of angles between -1 and 0 degrees."
  },
  {
   "property": "C39",
   "status": "proved",
   "theorems": [
    "Pixell.C39_all",
    "Pixell.C39_closest",
    "Pixell.C39_first",
    "Pixell.C39_first_group_order"
   ],
   "note": "For any order of the kd-tree groups and any tie-breaking of argsort; the geometry of 'within the radius' is a parameter."
  },
  {
   "property": "C40",
   "status": "partial",
   "theorems": [
    "Pixell.C40_residual",
    "Pixell.C40_orthogonal",
    "Pixell.C40_terminates",
    "Pixell.C40_optimal",
    "Pixell.C40_affine",
    "Pixell.C40_resume",
    "Pixell.C40_resume_middle",
    "Pixell.C40_memory",
    "Pixell.C40_alias_refuted"
   ],
   "note": "Proved in full for a preconditioner that returns a new array; refuted for one that returns its argument (M = lambda x: x)."
  },
  {
   "property": "C41",
   "status": "proved",
   "theorems": [
    "Pixell.C41_residual",
    "Pixell.C41_orthogonal",
    "Pixell.C41_terminates",
    "Pixell.C41_optimal"
   ],
   "note": "Exact arithmetic."
  },
  {
   "property": "C42",
   "status": "proved",
   "theorems": [
    "Pixell.C42_error",
    "Pixell.C42_exact",
    "Pixell.C42_fixed"
   ],
   "note": "Exact arithmetic; any modules."
  },
  {
   "property": "C43",
   "status": "proved",
   "theorems": [
    "Pixell.C43_roundtrip",
    "Pixell.C43_empty"
   ],
   "note": "One spatial axis."
  },
  {
   "property": "C44",
   "status": "partial",
   "theorems": [
    "Pixell.C44_slots",
    "Pixell.C44_even",
    "Pixell.C44_partial",
    "Pixell.C44_odd_up_refuted",
    "Pixell.C44_odd_down_refuted",
    "Pixell.C44_up_down",
    "Pixell.C44_axis",
    "Pixell.C44_map"
   ],
   "note": "Proved when the smaller length is even; for every odd smaller length the highest positive frequency is stored at (or read from) a wrong negative frequency."
  },
  {
   "property": "C45",
   "status": "proved",
   "theorems": [
    "Pixell.C45_order",
    "Pixell.C45_round_trip",
    "Pixell.C45_back",
    "Pixell.C45_real"
   ],
   "note": ""
  },
  {
   "property": "C46",
   "status": "proved",
   "theorems": [
    "Pixell.C46_distinct",
    "Pixell.C46_components",
    "Pixell.C46_full",
    "Pixell.C46_diagonal",
    "Pixell.C46_stable_prefix",
    "Pixell.C46_diag_not_stable"
   ],
   "note": ""
  },
  {
   "property": "C47",
   "status": "partial",
   "theorems": [
    "Pixell.C47_round_trip",
    "Pixell.C47_back",
    "Pixell.C47_combined_refuted",
    "Pixell.C47_combined_partial",
    "Pixell.C47_empty_refuted"
   ],
   "note": "Plain form proved both ways; with combined=True off-diagonals come back doubled (proved for every matrix)."
  },
  {
   "property": "C48",
   "status": "proved",
   "theorems": [
    "Pixell.C48_triangular",
    "Pixell.C48_rectangular",
    "Pixell.C48_default",
    "Pixell.C48_nalm"
   ],
   "note": "Triangular layout for mmax <= lmax."
  },
  {
   "property": "C49",
   "status": "proved",
   "theorems": [
    "Pixell.C49_transfer",
    "Pixell.C49_round_trip",
    "Pixell.C49_transpose"
   ],
   "note": "transpose_alm for layouts with stride 1 (the C code has no stride)."
  },
  {
   "property": "C50",
   "status": "partial",
   "theorems": [
    "Pixell.C50_lmul",
    "Pixell.C50_stride_refuted",
    "Pixell.C50_lmatmul_dp",
    "Pixell.C50_bounds_dp",
    "Pixell.C50_sp_partial",
    "Pixell.C50_sp_bounds_refuted",
    "Pixell.C50_sp_inplace_refuted"
   ],
   "note": "Double precision proved for stride 1, every visiting order and in-place use; refuted for other strides, and in single precision for filters longer than lmax+1 (out-of-bounds access, wrong values)."
  },
  {
   "property": "C51",
   "status": "partial",
   "theorems": [
    "Pixell.C51_schedule",
    "Pixell.ClTrace_of_assignment",
    "Pixell.C51_stride_refuted"
   ],
   "note": "Proved for stride 1 and every thread schedule in exact arithmetic; refuted for other strides."
  },
  {
   "property": "C52",
   "status": "proved",
   "theorems": [
    "Pixell.C52_mempool",
    "Pixell.C52_arenas"
   ],
   "note": "Any sequence of allocations and resets; the raw arenas handed out by the system are assumed disjoint, as malloc guarantees."
  },
  {
   "property": "C53",
   "status": "partial",
   "theorems": [
    "Pixell.C53_exact",
    "Pixell.C53_new_partial",
    "Pixell.C53_refuted"
   ],
   "note": "Exact criterion proved; the property as stated is refuted: after the workload (10,20) the workload (20,20) requests new memory in every round for ever."
  },
  {
   "property": "C54",
   "status": "partial",
   "theorems": [
    "Pixell.C54_first",
    "Pixell.C54_partial",
    "Pixell.C54_refuted"
   ],
   "note": "Proved for a single read; reading twice through the same proxy is refuted (the sign flip/byte swap is done in place on the file view)."
  },
  {
   "property": "C55",
   "status": "partial",
   "theorems": [
    "Pixell.C55_write",
    "Pixell.C55_history",
    "Pixell.C55_bunch_refuted",
    "Pixell.C55_bunch_overwrites"
   ],
   "note": "write_hdf proved for every history of writes; bunch.write refuted (opens the file with mode 'w')."
  },
  {
   "property": "C56",
   "status": "partial",
   "theorems": [
    "Pixell.C56_partial",
    "Pixell.C56_refuted"
   ],
   "note": "Proved for keys without '/'; refuted otherwise."
  },
  {
   "property": "C57",
   "status": "partial",
   "theorems": [
    "Pixell.C57_partial",
    "Pixell.C57_refuted"
   ],
   "note": "Proved for a cache that is not an empty dict; an empty dict is never filled."
  },
  {
   "property": "C58",
   "status": "partial",
   "theorems": [
    "Pixell.C58_partial",
    "Pixell.C58_strides",
    "Pixell.C58_refuted"
   ],
   "note": "Proved for views whose address determines the view; refuted for a matrix and its transpose."
  },
  {
   "property": "C59",
   "status": "partial",
   "theorems": [
    "Pixell.C59_partial",
    "Pixell.C59_delete",
    "Pixell.C59_copy",
    "Pixell.C59_refuted",
    "Pixell.C59_reserved"
   ],
   "note": "Proved for keys other than the reserved '_dict' and the method names."
  },
  {
   "property": "C60",
   "status": "partial",
   "theorems": [
    "Pixell.C60_same",
    "Pixell.C60_contiguous",
    "Pixell.C60_distinct_partial",
    "Pixell.C60_refuted"
   ],
   "note": "Distinct rows get distinct labels only if no column has more distinct values than an earlier one; refuted otherwise."
  },
  {
   "property": "C61",
   "status": "proved",
   "theorems": [
    "Pixell.C61_spin_helper",
    "Pixell.C61_partition",
    "Pixell.C61_empty",
    "Pixell.C61_pre"
   ],
   "note": "Iteration over spin blocks; an empty component list raises (C61_empty)."
  },
  {
   "property": "C62",
   "status": "partial",
   "theorems": [
    "Pixell.C62_rows",
    "Pixell.C62_partial",
    "Pixell.C62_default",
    "Pixell.C62_refuted"
   ],
   "note": "The per-row iteration visits every row except that the last row is skipped exactly when the block size divides ny-1 (C62_refuted)."
  },
  {
   "property": "C63",
   "status": "proved",
   "theorems": [
    "Pixell.C63_table",
    "Pixell.C63_symmetric",
    "Pixell.C63_partition",
    "Pixell.C63_theta",
    "Pixell.C63_phi0",
    "Pixell.C63_selected"
   ],
   "note": "healpix ring table."
  },
  {
   "property": "C64",
   "status": "partial",
   "theorems": [
    "Pixell.C64_get",
    "Pixell.C64_set",
    "Pixell.C64_partition",
    "Pixell.C64_pixel",
    "Pixell.C64_full",
    "Pixell.C64_negative_refuted"
   ],
   "note": "Proved for every non-negative position; maps[-1], valid for the list, raises."
  },
  {
   "property": "C65",
   "status": "proved",
   "theorems": [
    "Pixell.C65_distpow",
    "Pixell.C65_convolve"
   ],
   "note": ""
  },
  {
   "property": "C66",
   "status": "partial",
   "theorems": [
    "Pixell.C66_partial",
    "Pixell.C66_refuted",
    "Pixell.C66_rows_partial"
   ],
   "note": "Holds for |offset| at most the row length; beyond it the code writes out of bounds (C66_refuted)."
  },
  {
   "property": "C67",
   "status": "proved",
   "theorems": [
    "Pixell.C67_geometry",
    "Pixell.C67_buffer",
    "Pixell.C67_round_trip",
    "Pixell.C67_output_buffer"
   ],
   "note": "Work buffer geometry and copying in and out."
  },
  {
   "property": "C68",
   "status": "proved",
   "theorems": [
    "Pixell.C68_dot",
    "Pixell.C68_error",
    "Pixell.C68_join",
    "Pixell.C68_none"
   ],
   "note": ""
  },
  {
   "property": "C69",
   "status": "partial",
   "theorems": [
    "Pixell.C69_edges",
    "Pixell.C69_edges_total",
    "Pixell.C69_blank_refuted",
    "Pixell.C69_axis",
    "Pixell.C69_crop_partial",
    "Pixell.C69_keeps",
    "Pixell.C69_auto",
    "Pixell.C69_pixel",
    "Pixell.C69_median",
    "Pixell.C69_auto_edges",
    "Pixell.C69_auto_refuted",
    "Pixell.C69_auto_strip_refuted"
   ],
   "note": "Entirely blank maps, and constant maps in auto mode, raise; auto mode misses a strip that is blank along one side only."
  },
  {
   "property": "C70",
   "status": "partial",
   "theorems": [
    "Pixell.C70_contains",
    "Pixell.C70_dual",
    "Pixell.C70_zero_refuted",
    "Pixell.C70_grow_sound",
    "Pixell.C70_grow_exact",
    "Pixell.C70_monotone_partial",
    "Pixell.C70_monotone_refuted"
   ],
   "note": "Containment (r>0) and duality hold for every method. Monotonicity and exact dilation proved with exact distances (method simple); refuted for the default cellgrid method on a coarse map."
  },
  {
   "property": "C71",
   "status": "partial",
   "theorems": [
    "Pixell.C71_find",
    "Pixell.C71_find_missing",
    "Pixell.C71_find_any",
    "Pixell.C71_find_any_refuted",
    "Pixell.C71_find_empty",
    "Pixell.C71_common_vals",
    "Pixell.C71_common_inds",
    "Pixell.C71_inverse_order",
    "Pixell.C71_complement_inds_partial",
    "Pixell.C71_complement_inds_refuted",
    "Pixell.C71_unmask_partial",
    "Pixell.C71_unmask_refuted"
   ],
   "note": "Refuted: complement_inds of an empty list raises; unmask only works along the last axis."
  },
  {
   "property": "C72",
   "status": "proved",
   "theorems": [
    "Pixell.C72_sum_by_id",
    "Pixell.C72_total",
    "Pixell.C72_bin_multi",
    "Pixell.C72_clip_inside"
   ],
   "note": ""
  },
  {
   "property": "C73",
   "status": "proved",
   "theorems": [
    "Pixell.C73_cumsum",
    "Pixell.C73_uncat"
   ],
   "note": ""
  },
  {
   "property": "C74",
   "status": "proved",
   "theorems": [
    "Pixell.C74_find_equal_groups",
    "Pixell.C74_fast"
   ],
   "note": "find_equal_groups with tol=0."
  },
  {
   "property": "C75",
   "status": "proved",
   "theorems": [
    "Pixell.C75_python",
    "Pixell.C75_fortran",
    "Pixell.C75_control",
    "Pixell.C75_drivers_differ"
   ],
   "note": "Both drivers; they differ at exact halves (C75_drivers_differ)."
  },
  {
   "property": "C76",
   "status": "proved",
   "theorems": [
    "Pixell.C76_triangle_wave"
   ],
   "note": ""
  },
  {
   "property": "C77",
   "status": "partial",
   "theorems": [
    "Pixell.C77_flatten",
    "Pixell.C77_roundtrip",
    "Pixell.C77_empty_refuted"
   ],
   "note": "Proved for arrays whose kept axes are not empty; refuted otherwise (raises)."
  },
  {
   "property": "C78",
   "status": "proved",
   "theorems": [
    "Pixell.C78_fullsky_dec",
    "Pixell.C78_fullsky_ra"
   ],
   "note": ""
  },
  {
   "property": "C79",
   "status": "partial",
   "theorems": [
    "Pixell.C79_with_tiles_partial",
    "Pixell.C79_empty_refuted",
    "Pixell.C79_modern_refuted"
   ],
   "note": "Proved whenever the two lists can be compared and are both or neither empty. Refuted: an empty map asked for one tile is returned unchanged; with numpy >= 1.25 lists of different lengths raise."
  },
  {
   "property": "C80",
   "status": "partial",
   "theorems": [
    "Pixell.C80_vincenty",
    "Pixell.C80_edges",
    "Pixell.C80_simple",
    "Pixell.C80_exact",
    "Pixell.C80_cylindrical",
    "Pixell.C80_cellgrid_sound",
    "Pixell.C80_transform_sound",
    "Pixell.C80_cellgrid_partial",
    "Pixell.C80_transform_total",
    "Pixell.C80_exact_refuted",
    "Pixell.C80_bubble",
    "Pixell.C80_bubble_exact",
    "Pixell.C80_bubble_refuted"
   ],
   "note": "Exact for method simple on every cylindrical map. The default and bubble methods always finish, never underestimate, and are exact in pixels their closest point reaches through its own domain; they are not exact everywhere."
  },
  {
   "property": "C81",
   "status": "partial",
   "theorems": [
    "Pixell.C81_rows_partial",
    "Pixell.C81_columns",
    "Pixell.C81_dh_refuted",
    "Pixell.C81_equal_area_refuted",
    "Pixell.C81_fullsky"
   ],
   "note": "Rows and columns proved for the CC, F1, MW, MWflip and F2 grids on equidistant (CAR) maps; Driscoll-Healy and equal-area maps are recognised wrongly (refuted)."
  },
  {
   "property": "C82",
   "status": "partial",
   "theorems": [
    "Pixell.C82_transform",
    "Pixell.C82_quad_partial",
    "Pixell.C82_area_partial",
    "Pixell.C82_quad_refuted",
    "Pixell.C82_area_refuted",
    "Pixell.C82_dh_refuted"
   ],
   "note": "Holds for the transform itself; quad_weights returns the weights reversed for maps that are not flipped."
  },
  {
   "property": "C83",
   "status": "partial",
   "theorems": [
    "Pixell.C83_cylindrical",
    "Pixell.C83_limit_partial",
    "Pixell.C83_limit_refuted"
   ],
   "note": "Cylindrical tables proved. Limiting keeps the right rings but not their offsets in the map: refuted."
  },
  {
   "property": "C84",
   "status": "partial",
   "theorems": [
    "Pixell.C84_touch",
    "Pixell.C84_edges",
    "Pixell.C84_whole",
    "Pixell.C84_ceil",
    "Pixell.C84_round",
    "Pixell.C84_cap",
    "Pixell.C84_submap",
    "Pixell.C84_subgeo",
    "Pixell.C84_reversed_refuted",
    "Pixell.C84_inclusive_refuted",
    "Pixell.C84_exclusive_refuted"
   ],
   "note": "Holds for boxes along the pixels; reversed boxes are shifted by one pixel, and inclusive/exclusive do not do what they say: refuted."
  },
  {
   "property": "C85",
   "status": "partial",
   "theorems": [
    "Pixell.C85_registered",
    "Pixell.C85_paint",
    "Pixell.C85_add",
    "Pixell.C85_max",
    "Pixell.C85_min",
    "Pixell.C85_inside",
    "Pixell.C85_around_partial",
    "Pixell.C85_around_refuted",
    "Pixell.C85_op_refuted",
    "Pixell.C85_transpose",
    "Pixell.C85_adjoint"
   ],
   "note": "Proved for all schedules. pointsrcs.sim_objects ignores op, and pixels across the wrap are missed unless the cell size divides the map size: refuted. The pixel box and distances are inputs."
  },
  {
   "property": "C86",
   "status": "partial",
   "theorems": [
    "Pixell.C86_profile",
    "Pixell.C86_equi_partial",
    "Pixell.C86_equi_refuted",
    "Pixell.C86_is_equi_refuted",
    "Pixell.C86_extent",
    "Pixell.C86_beyond",
    "Pixell.C86_tail_refuted",
    "Pixell.C86_table_partial",
    "Pixell.C86_table_small",
    "Pixell.C86_table_le",
    "Pixell.C86_table_refuted",
    "Pixell.C86_bounds_refuted"
   ],
   "note": "Interpolation and direct search proved; the table for long catalogues drops a sample or reads before the array: refuted."
  },
  {
   "property": "C87",
   "status": "partial",
   "theorems": [
    "Pixell.C87_bins_partial",
    "Pixell.C87_last_refuted",
    "Pixell.C87_equi_partial"
   ],
   "note": "Inner bins proved; the last bin is never filled for unequal bins: refuted for all inputs."
  },
  {
   "property": "C88",
   "status": "partial",
   "theorems": [
    "Pixell.C88_border",
    "Pixell.C88_value",
    "Pixell.C88_zero_partial",
    "Pixell.C88_zero_refuted",
    "Pixell.C88_adjoint",
    "Pixell.C88_unity",
    "Pixell.C88_constant",
    "Pixell.C88_grid",
    "Pixell.C88_spline_needs_filter",
    "Pixell.C88_linear"
   ],
   "note": "Proved for the nearest, cyclic and mirror borders and for zero inside the grid; with the zero border whole rows of cells are lost at the edges: refuted."
  },
  {
   "property": "C89",
   "status": "partial",
   "theorems": [
    "Pixell.C89_grid",
    "Pixell.C89_exact",
    "Pixell.C89_accuracy",
    "Pixell.C89_poles",
    "Pixell.C89_eps",
    "Pixell.C89_filter_adjoint",
    "Pixell.C89_adjoint",
    "Pixell.C89_interior_partial",
    "Pixell.C89_nearest_refuted",
    "Pixell.C89_zero_refuted",
    "Pixell.C89_reflect_refuted"
   ],
   "note": "Proved for the cyclic and mirror borders in any dimension, adjoint for every border; nearest and zero borders miss the data at the edges and reflect raises KeyError: refuted."
  },
  {
   "property": "C90",
   "status": "partial",
   "theorems": [
    "Pixell.C90_value",
    "Pixell.C90_weights",
    "Pixell.C90_deriv_partial",
    "Pixell.C90_spline3_refuted",
    "Pixell.C90_order5_refuted",
    "Pixell.C90_integer_refuted",
    "Pixell.C90_integer_wrong",
    "Pixell.C90_trans_partial",
    "Pixell.C90_trans_refuted"
   ],
   "note": "Proved for cubic convolution and splines of order 2 and 4 away from knots; refuted for the default cubic spline, order 5, cubic convolution at grid points, and the transpose."
  },
  {
   "property": "C91",
   "status": "partial",
   "theorems": [
    "Pixell.C91_levels",
    "Pixell.C91_too_narrow",
    "Pixell.C91_butterworth",
    "Pixell.C91_trimmed",
    "Pixell.C91_trim_support",
    "Pixell.C91_trim_lossless",
    "Pixell.C91_butter_loss",
    "Pixell.C91_butter_refuted",
    "Pixell.C91_digital",
    "Pixell.C91_digital_lossless",
    "Pixell.C91_needlet_partial",
    "Pixell.C91_needlet_lmaxs",
    "Pixell.C91_needlet_refuted",
    "Pixell.C91_reconstruct",
    "Pixell.C91_trim_round_trip"
   ],
   "note": "Proved for the default trimmed basis and the digitized basis; plain Butterworth loses less than tol but always something; cosine needlets remove the multipole lmax. Curved-sky transform only, transforms of the wavelet maps assumed exact."
  },
  {
   "property": "C92",
   "status": "proved",
   "theorems": [
    "Pixell.C92_inverse",
    "Pixell.C92_unnormalized",
    "Pixell.C92_adjoint",
    "Pixell.C92_power",
    "Pixell.C92_harm",
    "Pixell.C92_harm_adjoint"
   ],
   "note": "All sizes, normalizations, spins and conventions, exact arithmetic; the library transform is taken to be the defining sum."
  },
  {
   "property": "C93",
   "status": "partial",
   "theorems": [
    "Pixell.C93_roll",
    "Pixell.C93_roll_real",
    "Pixell.C93_compose",
    "Pixell.C93_deriv",
    "Pixell.C93_real_partial",
    "Pixell.C93_compose_real_partial",
    "Pixell.C93_real_refuted"
   ],
   "note": "Proved for complex arrays and real arrays of odd length; refuted for real arrays of every even length."
  },
  {
   "property": "C94",
   "status": "partial",
   "theorems": [
    "Pixell.C94_roundtrip",
    "Pixell.C94_roundtrip2",
    "Pixell.C94_enmap_refuted",
    "Pixell.C94_adjoint_refuted",
    "Pixell.C94_numpy_refuted"
   ],
   "note": "Proved for fft.dct/idct of all eight types; enmap.dct/idct lose a constant factor, dct_adjoint is not the adjoint, the numpy engine computes something else: refuted."
  },
  {
   "property": "C95",
   "status": "proved",
   "theorems": [
    "Pixell.C95_roundtrip",
    "Pixell.C95_default",
    "Pixell.C95_half"
   ],
   "note": "All lengths; the library transform is taken to be the defining sum."
  },
  {
   "property": "C96",
   "status": "partial",
   "theorems": [
    "Pixell.C96_redft00",
    "Pixell.C96_ichebt",
    "Pixell.C96_chebt",
    "Pixell.C96_rows_inverse_partial",
    "Pixell.C96_rows_refuted"
   ],
   "note": "Proved for one-dimensional arrays; with more dimensions the coefficients are wrong: refuted."
  },
  {
   "property": "C97",
   "status": "partial",
   "theorems": [
    "Pixell.C97_rect",
    "Pixell.C97_ang",
    "Pixell.C97_rotation",
    "Pixell.C97_rot_dot",
    "Pixell.C97_rot_inverse",
    "Pixell.C97_decenter",
    "Pixell.C97_recenter",
    "Pixell.C97_tele",
    "Pixell.C97_restore_refuted",
    "Pixell.C97_radius_refuted"
   ],
   "note": "Proved for all angles; refuted: restore=True changes an array of centers given by the caller, and the radius returned by rect2ang is not the length."
  },
  {
   "property": "C98",
   "status": "proved",
   "theorems": [
    "Pixell.C98_angdist",
    "Pixell.C98_metric",
    "Pixell.C98_vec"
   ],
   "note": "All positions; vec_angdist except zero and opposite vectors."
  },
  {
   "property": "C99",
   "status": "proved",
   "theorems": [
    "Pixell.C99_ends",
    "Pixell.C99_there_and_back"
   ],
   "note": "All pairs of systems; single steps are abstract."
  },
  {
   "property": "C100",
   "status": "proved",
   "theorems": [
    "Pixell.C100_boost_inverse",
    "Pixell.C100_boost_compose",
    "Pixell.C100_solid_angle",
    "Pixell.C100_order"
   ],
   "note": "All directions and speeds."
  },
  {
   "property": "C101",
   "status": "partial",
   "theorems": [
    "Pixell.C101_planck_inverse",
    "Pixell.C101_dplanck",
    "Pixell.C101_modulate_partial",
    "Pixell.C101_modulate_refuted",
    "Pixell.C101_linear_units",
    "Pixell.C101_plain"
   ],
   "note": "Refuted for monopoles other than the standard T_cmb: lin2T subtracts utils.T_cmb."
  },
  {
   "property": "C102",
   "status": "proved",
   "theorems": [
    "Pixell.C102_group",
    "Pixell.C102_complex",
    "Pixell.C102_aberration"
   ],
   "note": "All angles, spins and components."
  },
  {
   "property": "C103",
   "status": "partial",
   "theorems": [
    "Pixell.C103_rewind",
    "Pixell.C103_rewind_refuted",
    "Pixell.C103_ydouble",
    "Pixell.C103_ydouble_refuted"
   ],
   "note": "Refuted as called; what the functions do instead is proved."
  },
  {
   "property": "C104",
   "status": "partial",
   "theorems": [
    "Pixell.C104_redistribute_partial",
    "Pixell.C104_redistribute_refuted",
    "Pixell.C104_wrap_refuted"
   ],
   "note": "Proved without wrapping when no task with several input boxes meets a task with several output boxes; refuted otherwise (order of the loops differs between sender and receiver) and with wrapping (exception)."
  },
  {
   "property": "C105",
   "status": "partial",
   "theorems": [
    "Pixell.C105_offset_partial",
    "Pixell.C105_declination_partial",
    "Pixell.C105_pole_refuted",
    "Pixell.C105_rotation",
    "Pixell.C105_lens_rotation",
    "Pixell.C105_lens_rotation_refuted"
   ],
   "note": "Proved for gradients that do not reach a pole; refuted over a pole, and the polarization rotation of lens_map_curved is twice the parallel-transport angle."
  },
  {
   "property": "C106",
   "status": "partial",
   "theorems": [
    "Pixell.C106_pole_wrap",
    "Pixell.C106_lens_pole_wrap",
    "Pixell.C106_lens_range_refuted",
    "Pixell.C106_flat_offset",
    "Pixell.C106_kappa"
   ],
   "note": "utils.pole_wrap for all latitudes; lensing.pole_wrap only for -3pi/2 to 5pi/2, refuted beyond."
  },
  {
   "property": "C107",
   "status": "partial",
   "theorems": [
    "Pixell.C107_flux",
    "Pixell.C107_peak",
    "Pixell.C107_variance",
    "Pixell.C107_optimal",
    "Pixell.noiseCov_power",
    "Pixell.C107_area_refuted"
   ],
   "note": "All sizes, beams, spectra, positions; refuted where the pixel area differs from the mean (flux off by the squared ratio)."
  },
  {
   "property": "C108",
   "status": "partial",
   "theorems": [
    "Pixell.C108_white",
    "Pixell.C108_dual",
    "Pixell.C108_multi",
    "Pixell.C108_lowcorr_partial",
    "Pixell.C108_high_acc",
    "Pixell.C108_smooth_partial",
    "Pixell.C108_corr_partial",
    "Pixell.C108_lowcorr_refuted",
    "Pixell.C108_corr_refuted"
   ],
   "note": "White, dual and constant-covariance models exact; lowcorr, smoothivar and constcorr exact under the named conditions, and lowcorr and constcorr refuted beyond them."
  },
  {
   "property": "C109",
   "status": "proved",
   "theorems": [
    "Pixell.C109_first",
    "Pixell.C109_square",
    "Pixell.C109_odd_refuted"
   ],
   "note": "All symmetric profiles; for others the first power is not the profile."
  },
  {
   "property": "C110",
   "status": "partial",
   "theorems": [
    "Pixell.C110_split",
    "Pixell.C110_split_weak_refuted",
    "Pixell.C110_split_empty_refuted",
    "Pixell.C110_best",
    "Pixell.C110_solve",
    "Pixell.C110_fluxes",
    "Pixell.C110_solve_refuted",
    "Pixell.C110_numpy2_refuted",
    "Pixell.C110_sanitize"
   ],
   "note": "Holds for the values raised to snmin and for symmetric kappa; refuted for raw values, for no sources, for asymmetric kappa and under numpy 2."
  },
  {
   "property": "C111",
   "status": "partial",
   "theorems": [
    "Pixell.C111_nearest",
    "Pixell.C111_nearest_sorted",
    "Pixell.C111_dedup",
    "Pixell.C111_nearest_refuted",
    "Pixell.C111_nearest_empty_refuted",
    "Pixell.C111_dedup_empty_refuted"
   ],
   "note": "All arrays and values; refuted for empty arrays and for sorted arrays of one element."
  },
  {
   "property": "C112",
   "status": "partial",
   "theorems": [
    "Pixell.C112_bounds",
    "Pixell.C112_monotone",
    "Pixell.C112_scale",
    "Pixell.C112_median",
    "Pixell.C112_medmean_partial",
    "Pixell.C112_zero_weight_refuted",
    "Pixell.C112_order_refuted",
    "Pixell.C112_medmean_refuted"
   ],
   "note": "Bounds, monotonicity, scale and median for all inputs; independence of zero weights and of the order of repeated values refuted; medmean refuted when fewer than two elements are cut."
  },
  {
   "property": "C113",
   "status": "partial",
   "theorems": [
    "Pixell.C113_bounding_points",
    "Pixell.C113_bounding_boxes_partial",
    "Pixell.C113_corners",
    "Pixell.C113_contour_on_edge",
    "Pixell.C113_contour_corners",
    "Pixell.C113_overlap_partial",
    "Pixell.C113_overlap_symm_partial",
    "Pixell.C113_pad_partial",
    "Pixell.C113_pad_twice",
    "Pixell.C113_widen_partial",
    "Pixell.C113_bounding_refuted",
    "Pixell.C113_contour_refuted",
    "Pixell.C113_overlap_refuted",
    "Pixell.C113_overlap_ndim_refuted",
    "Pixell.C113_pad_refuted",
    "Pixell.C113_widen_refuted"
   ],
   "note": "All ascending boxes; refuted for descending ones and the cases named."
  },
  {
   "property": "C114",
   "status": "partial",
   "theorems": [
    "Pixell.C114_unwrap",
    "Pixell.C114_full_circle_refuted"
   ],
   "note": "All ranges; refuted strictness for whole periods."
  },
  {
   "property": "C115",
   "status": "proved",
   "theorems": [
    "Pixell.C115_broadcast",
    "Pixell.C115_pad_place",
    "Pixell.C115_comm",
    "Pixell.C115_transpose"
   ],
   "note": "All shapes, places and indices."
  },
  {
   "property": "C116",
   "status": "partial",
   "theorems": [
    "Pixell.C116_label",
    "Pixell.C116_exact",
    "Pixell.C116_tolerance",
    "Pixell.C116_contiguous_refuted"
   ],
   "note": "All arrays and closeness relations; contiguity refuted for tolerances and NaN."
  },
  {
   "property": "C117",
   "status": "partial",
   "theorems": [
    "Pixell.C117_block",
    "Pixell.C117_idempotent",
    "Pixell.C117_extreme",
    "Pixell.C117_partial_block_refuted"
   ],
   "note": "Whole blocks; refuted for an incomplete last block."
  },
  {
   "property": "C118",
   "status": "partial",
   "theorems": [
    "Pixell.C118_split",
    "Pixell.C118_join",
    "Pixell.C118_plain",
    "Pixell.C118_quotes_refuted"
   ],
   "note": "All strings with separators of one character; groups that open and close with the same character refuted."
  },
  {
   "property": "C119",
   "status": "partial",
   "theorems": [
    "Pixell.C119_rotate",
    "Pixell.C119_reverse",
    "Pixell.C119_translate",
    "Pixell.C119_cut",
    "Pixell.C119_triangle_partial",
    "Pixell.C119_rectangle",
    "Pixell.C119_level_refuted"
   ],
   "note": "All polygons for the symmetries and cuttings; triangles with no vertex level with the point and upright rectangles exactly; refuted where a vertex is level with the point."
  },
  {
   "property": "C120",
   "status": "partial",
   "theorems": [
    "Pixell.C120_edge",
    "Pixell.C120_poly_partial",
    "Pixell.C120_repeated_refuted"
   ],
   "note": "All points and polygons without equal or opposite neighbours; NaN for repeated vertices."
  },
  {
   "property": "C121",
   "status": "proved",
   "theorems": [
    "Pixell.C121_rows",
    "Pixell.C121_ravel",
    "Pixell.C121_unravel",
    "Pixell.C121_isqrt",
    "Pixell.C121_neighs",
    "Pixell.C121_symm",
    "Pixell.C121_valid",
    "Pixell.C121_edges",
    "Pixell.C121_edges_labeled"
   ],
   "note": "All nside, pixels, masks and labels."
  },
  {
   "property": "C122",
   "status": "partial",
   "theorems": [
    "Pixell.C122_push",
    "Pixell.C122_pop",
    "Pixell.C122_sorted",
    "Pixell.C122_pop_partial",
    "Pixell.C122_order_refuted"
   ],
   "note": "Contents for all histories, order for filling followed by emptying; refuted for mixed histories."
  },
  {
   "property": "C123",
   "status": "partial",
   "theorems": [
    "Pixell.C123_search",
    "Pixell.C123_exact",
    "Pixell.C123_connected",
    "Pixell.C123_one",
    "Pixell.C123_same_pixel_refuted",
    "Pixell.C123_cap_refuted"
   ],
   "note": "All maps, points and caps; exact where the domains are connected; refuted for points in the same pixel and for the cap at the points."
  },
  {
   "property": "C124",
   "status": "partial",
   "theorems": [
    "Pixell.C124_box_shape",
    "Pixell.C124_box_res",
    "Pixell.C124_ref",
    "Pixell.C124_point",
    "Pixell.C124_compatible",
    "Pixell.C124_signed_refuted",
    "Pixell.C124_band_partial",
    "Pixell.C124_band_refuted",
    "Pixell.C124_band2",
    "Pixell.C124_band2_refuted",
    "Pixell.C124_thumb_center",
    "Pixell.C124_thumb_extent",
    "Pixell.C124_thumb_refuted",
    "Pixell.C124_recentre",
    "Pixell.C124_middle"
   ],
   "note": "All boxes, points, resolutions and references on an axis in the cylindrical projections' declination or right ascension; bands only to within one row."
  },
  {
   "property": "C125",
   "status": "partial",
   "theorems": [
    "Pixell.C125_area",
    "Pixell.C125_fullsky",
    "Pixell.C125_area_refuted",
    "Pixell.C125_area_nan",
    "Pixell.C125_area_nan_refuted",
    "Pixell.C125_pixel",
    "Pixell.C125_sum",
    "Pixell.C125_pixel_refuted",
    "Pixell.C125_extent",
    "Pixell.C125_extent_refuted",
    "Pixell.C125_contour",
    "Pixell.C125_contour_refuted",
    "Pixell.C125_contour_sum",
    "Pixell.C125_contour_pixel",
    "Pixell.C125_plain",
    "Pixell.C125_pixel_nan",
    "Pixell.C125_contour_swapped"
   ],
   "note": "All cylindrical maps with rows partly on the sphere; refuted beyond the poles and for missing edges."
  },
  {
   "property": "C126",
   "status": "partial",
   "theorems": [
    "Pixell.C126_padslice",
    "Pixell.C126_padslice_error",
    "Pixell.C126_padslice_wcs",
    "Pixell.C126_stamps",
    "Pixell.C126_stamps_refuted",
    "Pixell.C126_tiles",
    "Pixell.C126_overlap",
    "Pixell.C126_overlap_wrap_partial",
    "Pixell.C126_overlap_full",
    "Pixell.C126_overlap_refuted",
    "Pixell.C126_overlap_argument_refuted",
    "Pixell.C126_wrap",
    "Pixell.C126_argmax"
   ],
   "note": "All boxes, maps and tilings; fractional stamps and wrapped overlaps refuted."
  },
  {
   "property": "C127",
   "status": "partial",
   "theorems": [
    "Pixell.C127_interp",
    "Pixell.C127_grad",
    "Pixell.C127_laplace",
    "Pixell.C127_div_adjoint",
    "Pixell.C127_div_grad_partial",
    "Pixell.C127_div_grad_refuted",
    "Pixell.C127_smooth_heat",
    "Pixell.C127_smooth_compose",
    "Pixell.C127_smooth_complement",
    "Pixell.C127_smooth_mean",
    "Pixell.C127_pixwin",
    "Pixell.C127_window_partial",
    "Pixell.C127_window_refuted",
    "Pixell.C127_oversample_partial",
    "Pixell.C127_oversample_refuted"
   ],
   "note": "All real maps and sizes; div of grad for odd sizes, windows below twice the pixel size, oversampling away from the middle of odd axes; the rest refuted."
  },
  {
   "property": "C128",
   "status": "partial",
   "theorems": [
    "Pixell.C128_taper",
    "Pixell.C128_profile",
    "Pixell.C128_taper_range",
    "Pixell.C128_error",
    "Pixell.C128_unknown_refuted",
    "Pixell.C128_crossfade",
    "Pixell.C128_crossfade_periodic",
    "Pixell.C128_mask"
   ],
   "note": "All maps, widths and masks; unknown fills refuted; crossfading along one axis and at most half of the map."
  },
  {
   "property": "C129",
   "status": "partial",
   "theorems": [
    "Pixell.C129_bins",
    "Pixell.C129_between",
    "Pixell.C129_total",
    "Pixell.C129_lost_refuted"
   ],
   "note": "All maps and bin sizes; that every pixel is in a bin is refuted for all maps."
  },
  {
   "property": "C130",
   "status": "proved",
   "theorems": [
    "Pixell.C130_box",
    "Pixell.C130_pixels",
    "Pixell.C130_tight"
   ],
   "note": "All positions, radii and cylindrical maps on the sphere. Flat maps always raise an exception and are outside the model."
  },
  {
   "property": "C131",
   "status": "partial",
   "theorems": [
    "Pixell.C131_stokes",
    "Pixell.C131_reads_partial",
    "Pixell.C131_reread_refuted",
    "Pixell.C131_resign_refuted",
    "Pixell.C131_pixbox_partial",
    "Pixell.C131_pixbox_refuted",
    "Pixell.C131_shape",
    "Pixell.C131_header_partial",
    "Pixell.C131_header_refuted",
    "Pixell.C131_dtype_partial",
    "Pixell.C131_dtype_refuted"
   ],
   "note": "All headers with leading Stokes axes; histories of disjoint reads, or of any reads from large files; boxes up to a turn. Refuted for overlapping reads from small files, headers of more than 36 cards and bytes."
  },
  {
   "property": "C132",
   "status": "partial",
   "theorems": [
    "Pixell.C132_unique",
    "Pixell.C132_symm",
    "Pixell.C132_nat",
    "Pixell.C132_inv",
    "Pixell.C132_add",
    "Pixell.C132_sqrt",
    "Pixell.C132_pinv",
    "Pixell.C132_stack_partial",
    "Pixell.C132_stack_refuted",
    "Pixell.C132_merged",
    "Pixell.C132_conditional",
    "Pixell.C132_conditional_zero",
    "Pixell.C132_corr",
    "Pixell.C132_cov",
    "Pixell.C132_corr_le",
    "Pixell.C132_nodiag",
    "Pixell.C132_solve_partial",
    "Pixell.C132_solve_refuted",
    "Pixell.C132_solve_int_refuted"
   ],
   "note": "All symmetric matrices and sizes; stacks with two leading axes only for powers that are not negative, otherwise refuted; solve overwrites its right-hand side."
  },
  {
   "property": "C133",
   "status": "partial",
   "theorems": [
    "Pixell.C133_schedule",
    "Pixell.C133_progress",
    "Pixell.C133_terminates",
    "Pixell.C133_reduced",
    "Pixell.C133_from_tiles",
    "Pixell.C133_reduce_partial",
    "Pixell.C133_write_partial",
    "Pixell.C133_write_refuted"
   ],
   "note": "tree_reduce for all plans fit for the tiles, all schedules and both kinds of sends; reduce and write_map for tiles in increasing order, otherwise refuted."
  },
  {
   "property": "C134",
   "status": "partial",
   "theorems": [
    "Pixell.C134_box_partial",
    "Pixell.C134_smallest",
    "Pixell.C134_box_refuted",
    "Pixell.C134_single_refuted"
   ],
   "note": "All maps with equally spaced rows and columns where the rows beyond the radius are in the map and its pixels are not tiny; refuted near the edges of the map and for single rows or columns. Maps that are not separable are not modelled."
  },
  {
   "property": "C135",
   "status": "partial",
   "theorems": [
    "Pixell.C135_history",
    "Pixell.C135_paint_partial",
    "Pixell.C135_transpose_refuted",
    "Pixell.C135_error_refuted"
   ],
   "note": "Exact count for all histories of calls; painting gives back everything, the transposed operation and failing calls do not."
  },
  {
   "property": "C136",
   "status": "partial",
   "theorems": [
    "Pixell.C136_send",
    "Pixell.C136_allgather",
    "Pixell.C136_gatherv_partial",
    "Pixell.C136_gatherv_empty",
    "Pixell.C136_send_refuted",
    "Pixell.C136_gaps_refuted",
    "Pixell.C136_any_refuted",
    "Pixell.C136_allgather_refuted",
    "Pixell.C136_gatherv_refuted",
    "Pixell.C136_gatherv_hang_refuted"
   ],
   "note": "All sequences of messages and numbers of tasks for arrays in the usual layout and all axes but the last of several; refuted for other layouts, the last axis, and arrays empty along another axis."
  },
  {
   "property": "C137",
   "status": "partial",
   "theorems": [
    "Pixell.C137_covariance",
    "Pixell.C137_scales",
    "Pixell.C137_scales_refuted",
    "Pixell.C137_single_refuted"
   ],
   "note": "Covariance for all spectra and layouts in double precision; agreement between all values of lmax for single spectra. Refuted for several components, and in single precision for spectra longer than lmax."
  },
  {
   "property": "C138",
   "status": "partial",
   "theorems": [
    "Pixell.C138_map2healpix",
    "Pixell.C138_healpix2map_partial",
    "Pixell.C138_inverse",
    "Pixell.C138_systems",
    "Pixell.C138_nside_partial",
    "Pixell.C138_scalar_refuted",
    "Pixell.C138_out_refuted",
    "Pixell.C138_nside_refuted"
   ],
   "note": "map2healpix for all maps, spins, rotations and batch sizes; healpix2map where something has spin or nothing is rotated, otherwise refuted; restrict_nside for all arguments but small ones with mul32, where it is refuted."
  },
  {
   "property": "C139",
   "status": "partial",
   "theorems": [
    "Pixell.C139_distribute_partial",
    "Pixell.C139_populate_partial",
    "Pixell.C139_pointwise",
    "Pixell.C139_distribute_refuted"
   ],
   "note": "All sizes for linear axes; the limit on the tile size is refuted when the limit plus one is a multiple of 3."
  },
  {
   "property": "C140",
   "status": "partial",
   "theorems": [
    "Pixell.C140_alm2map",
    "Pixell.C140_alm2map_adjoint",
    "Pixell.C140_map2alm_2d_adjoint",
    "Pixell.C140_map2alm_cyl_adjoint",
    "Pixell.C140_general_adjoint",
    "Pixell.C140_map2alm_general_adjoint",
    "Pixell.C140_general_fails",
    "Pixell.C140_exact",
    "Pixell.C140_deriv_adjoint_partial",
    "Pixell.C140_deriv_map",
    "Pixell.C140_decflip",
    "Pixell.C140_layout_partial",
    "Pixell.C140_band_partial",
    "Pixell.C140_buffer",
    "Pixell.C140_buffer_out",
    "Pixell.C140_deriv_adjoint_refuted",
    "Pixell.C140_deriv_map_refuted",
    "Pixell.C140_decflip_refuted",
    "Pixell.C140_niter_refuted",
    "Pixell.C140_layout_refuted",
    "Pixell.C140_band_refuted"
   ],
   "note": "Adjointness for all methods without derivatives, for all spins, weights and iterations; with derivatives, other layouts, niter of the general method and coefficients beyond the grid's band limit it is refuted."
  },
  {
   "property": "C141",
   "status": "partial",
   "theorems": [
    "Pixell.C141_cells",
    "Pixell.C141_once",
    "Pixell.C141_paint_partial",
    "Pixell.C141_amps_partial",
    "Pixell.C141_twice_refuted",
    "Pixell.C141_small_refuted",
    "Pixell.C141_empty_refuted",
    "Pixell.C141_reach_refuted",
    "Pixell.C141_amps_refuted"
   ],
   "note": "The grid for all inputs; painting for all maps of more than ten rows and columns whose turn is at least three cells and whose sources reach at most cres pixels; otherwise refuted."
  },
  {
   "property": "C142",
   "status": "partial",
   "theorems": [
    "Pixell.C142_cellify",
    "Pixell.C142_roundtrip",
    "Pixell.C142_crossmatch",
    "Pixell.C142_mutual_refuted"
   ],
   "note": "Cells and nearest matches for all inputs; mutual matching and the shape of an empty result are refuted."
  },
  {
   "property": "C143",
   "status": "partial",
   "theorems": [
    "Pixell.C143_downgrade",
    "Pixell.C143_step",
    "Pixell.C143_deslope_partial",
    "Pixell.C143_repeat_partial",
    "Pixell.C143_between",
    "Pixell.C143_flat_partial",
    "Pixell.C143_deslope_refuted",
    "Pixell.C143_repeat_refuted",
    "Pixell.C143_flat_refuted"
   ],
   "note": "All arrays and sizes; deslope only for w = 1, repeat_filler only for n > 0 and preflat/postflat only for n >= 0, the rest is refuted."
  },
  {
   "property": "C144",
   "status": "partial",
   "theorems": [
    "Pixell.C144_range",
    "Pixell.C144_parse_partial",
    "Pixell.C144_ndigit_partial",
    "Pixell.C144_jname_partial",
    "Pixell.C144_parse_refuted",
    "Pixell.C144_ndigit_refuted",
    "Pixell.C144_jname_refuted"
   ],
   "note": "All lists and ranges with a type given; ndigit from 10 on; jname at least a degree from the equator; the rest is refuted."
  },
  {
   "property": "C145",
   "status": "partial",
   "theorems": [
    "Pixell.C145_corners_partial",
    "Pixell.C145_sky2pix",
    "Pixell.C145_contains_partial",
    "Pixell.C145_corners_refuted",
    "Pixell.C145_contains_refuted"
   ],
   "note": "corners when neighbouring points are less than half a turn apart; contains except within the outermost half pixel; the rest is refuted."
  },
  {
   "property": "C146",
   "status": "partial",
   "theorems": [
    "Pixell.C146_posmap",
    "Pixell.C146_row",
    "Pixell.C146_geometry_partial",
    "Pixell.C146_geometry_refuted"
   ],
   "note": "All maps and block sizes; a Geometry made of a Geometry is refuted."
  },
  {
   "property": "C147",
   "status": "partial",
   "theorems": [
    "Pixell.C147_inds",
    "Pixell.C147_scale",
    "Pixell.C147_columns",
    "Pixell.C147_roundtrip_partial",
    "Pixell.C147_camb_partial",
    "Pixell.C147_corr",
    "Pixell.C147_scale_refuted",
    "Pixell.C147_monopole_refuted",
    "Pixell.C147_single_refuted",
    "Pixell.C147_camb_refuted"
   ],
   "note": "All sizes from two multipoles on, l > 0 when scaled; the rest is refuted."
  },
  {
   "property": "C148",
   "status": "partial",
   "theorems": [
    "Pixell.C148_finder",
    "Pixell.C148_limit",
    "Pixell.C148_contam_refuted",
    "Pixell.C148_maxiter_refuted",
    "Pixell.C148_snrel_refuted"
   ],
   "note": "All finders, modellers and maps with at least one pass; the contamination counts cut objects, which is refuted."
  },
  {
   "property": "C149",
   "status": "partial",
   "theorems": [
    "Pixell.C149_iterative",
    "Pixell.C149_modeller",
    "Pixell.C149_measurer_partial",
    "Pixell.C149_measurer_refuted"
   ],
   "note": "MeasurerMulti only when the cases that occur are exactly 0..k-1; the rest is refuted."
  },
  {
   "property": "C150",
   "status": "partial",
   "theorems": [
    "Pixell.C150_expand",
    "Pixell.C150_compress",
    "Pixell.C150_combine_partial",
    "Pixell.C150_regularize_partial",
    "Pixell.C150_combine_refuted",
    "Pixell.C150_length_refuted",
    "Pixell.C150_flat_refuted",
    "Pixell.C150_start_refuted"
   ],
   "note": "All ellipses, the angle for those that are not circles; combining only a single beam; regularizing beams that fall below the cutoff inside the length asked for. The rest is refuted."
  },
  {
   "property": "C151",
   "status": "partial",
   "theorems": [
    "Pixell.C151_sweeps",
    "Pixell.C151_edges",
    "Pixell.C151_constant_refuted",
    "Pixell.C151_order_refuted"
   ],
   "note": "All scans that move, and all centres with two bins from ref on; constant scans and the order of the edges are refuted."
  },
  {
   "property": "C152",
   "status": "partial",
   "theorems": [
    "Pixell.C152_geometry",
    "Pixell.C152_iter",
    "Pixell.C152_components",
    "Pixell.C152_full",
    "Pixell.C152_insert_partial",
    "Pixell.C152_compatible_partial",
    "Pixell.C152_mul_partial",
    "Pixell.C152_negative_refuted",
    "Pixell.C152_active_refuted",
    "Pixell.C152_slice_refuted",
    "Pixell.C152_alias_refuted",
    "Pixell.C152_compatible_refuted",
    "Pixell.C152_mul_refuted"
   ],
   "note": "Geometry, iteration, components and full maps for all maps; insert for different active tiles, compatible without the wcs, products for the same active tiles. The rest is refuted."
  },
  {
   "property": "C153",
   "status": "partial",
   "theorems": [
    "Pixell.C153_contains_partial",
    "Pixell.C153_inds",
    "Pixell.C153_toNd_partial",
    "Pixell.C153_resize",
    "Pixell.C153_outer_partial",
    "Pixell.C153_strides_partial",
    "Pixell.C153_contig_partial",
    "Pixell.C153_zip_partial",
    "Pixell.C153_contains_refuted",
    "Pixell.C153_toNd_refuted",
    "Pixell.C153_toNd_empty_refuted",
    "Pixell.C153_outer_refuted",
    "Pixell.C153_strides_refuted",
    "Pixell.C153_contig_refuted",
    "Pixell.C153_zip_refuted"
   ],
   "note": "Values not empty, arrays with elements, whole numbers after a first array of integers, no broadcast axes, lengths of two or more and at least one argument, each where it matters; the rest is refuted."
  },
  {
   "property": "C154",
   "status": "partial",
   "theorems": [
    "Pixell.C154_overlap",
    "Pixell.C154_curved_partial",
    "Pixell.C154_lairy",
    "Pixell.C154_airy",
    "Pixell.C154_airy_peak",
    "Pixell.C154_times",
    "Pixell.C154_scales",
    "Pixell.C154_chord_partial",
    "Pixell.C154_deriv_partial",
    "Pixell.C154_rescale_partial",
    "Pixell.C154_curved_refuted",
    "Pixell.C154_curved_int_refuted",
    "Pixell.C154_airy_refuted",
    "Pixell.C154_chord_refuted",
    "Pixell.C154_deriv_refuted",
    "Pixell.C154_rescale_refuted"
   ],
   "note": "Curved overlaps for radii between tol_flat and 90 degrees and distances 0 or above tol_tiny, angles up to half a turn, D for polynomials, arrays that are not constant; the rest is refuted or an approximation."
  },
  {
   "property": "C155",
   "status": "partial",
   "theorems": [
    "Pixell.C155_cache_partial",
    "Pixell.C155_fill_partial",
    "Pixell.C155_lmul_out_partial",
    "Pixell.C155_filter",
    "Pixell.C155_cache_stride_refuted",
    "Pixell.C155_fill_refuted",
    "Pixell.C155_lmul_out_refuted",
    "Pixell.C155_out_dtype_refuted"
   ],
   "note": "Spectra for arrays with the same stride along the last axis, output arrays that numpy can flatten without a copy, layouts with stride 1; the rest is refuted."
  },
  {
   "property": "C156",
   "status": "partial",
   "theorems": [
    "Pixell.C156_interp",
    "Pixell.C156_synthesis",
    "Pixell.C156_grid",
    "Pixell.C156_round_partial",
    "Pixell.C156_lmax",
    "Pixell.C156_round_refuted",
    "Pixell.C156_last_refuted"
   ],
   "note": "The round trip for profiles that are zero at the last radius and beyond; the other pole is refuted."
  },
  {
   "property": "C157",
   "status": "partial",
   "theorems": [
    "Pixell.C157_cov",
    "Pixell.C157_pixel",
    "Pixell.C157_power",
    "Pixell.C157_iso",
    "Pixell.C157_iso_whole",
    "Pixell.C157_between_refuted"
   ],
   "note": "scalar=True only. The interpolation of roots between whole multipoles is refuted against the interpolation of the spectrum."
  },
  {
   "property": "C158",
   "status": "partial",
   "theorems": [
    "Pixell.C158_kernel",
    "Pixell.C158_conv",
    "Pixell.C158_bounds",
    "Pixell.C158_const",
    "Pixell.C158_linear",
    "Pixell.C158_gauss",
    "Pixell.C158_weight_nan",
    "Pixell.C158_massage",
    "Pixell.C158_flat",
    "Pixell.C158_corr",
    "Pixell.C158_corr_partial",
    "Pixell.C158_weight_refuted",
    "Pixell.C158_defined_refuted",
    "Pixell.C158_flat_refuted",
    "Pixell.C158_corr_refuted"
   ],
   "note": "Named weights with the gaussian kernel, maps of at least two rows and columns, even sizes for correlation functions; the rest is refuted."
  },
  {
   "property": "C159",
   "status": "partial",
   "theorems": [
    "Pixell.C159_rprof",
    "Pixell.C159_rprof_partial",
    "Pixell.C159_round",
    "Pixell.C159_lprof",
    "Pixell.C159_mean",
    "Pixell.C159_parseval",
    "Pixell.C159_distortion",
    "Pixell.C159_auto",
    "Pixell.C159_extent",
    "Pixell.C159_hrand",
    "Pixell.C159_round_refuted",
    "Pixell.C159_rprof_refuted",
    "Pixell.C159_auto_refuted",
    "Pixell.C159_hrand_refuted",
    "Pixell.C159_scalar_refuted"
   ],
   "note": "Profiles on maps of even size, or ending before the edge; corners between the poles; draws have the profile over the pixel area. The rest is refuted."
  },
  {
   "property": "C160",
   "status": "partial",
   "theorems": [
    "Pixell.C160_delens",
    "Pixell.C160_undisplaced",
    "Pixell.C160_roll",
    "Pixell.C160_transpose",
    "Pixell.C160_diverge_refuted",
    "Pixell.C160_halfpixel_refuted"
   ],
   "note": "Up to the error of the interpolation, for slopes below one; exactly for whole pixels. The rest is refuted."
  },
  {
   "property": "C161",
   "status": "partial",
   "theorems": [
    "Pixell.C161_band_size",
    "Pixell.C161_bands",
    "Pixell.C161_pol_partial",
    "Pixell.C161_rand_partial",
    "Pixell.C161_seeds_partial",
    "Pixell.C161_bands_refuted",
    "Pixell.C161_tiny_refuted",
    "Pixell.C161_pol_refuted",
    "Pixell.C161_rand_refuted",
    "Pixell.C161_seeds_refuted",
    "Pixell.C161_flat_refuted",
    "Pixell.C161_flat_pad_refuted"
   ],
   "note": "Steps other than one row, scalars followed by spin two, coefficients other than l=lmax, m=0, spectra that do not mix. The rest is refuted."
  },
  {
   "property": "C162",
   "status": "partial",
   "theorems": [
    "Pixell.C162_modes",
    "Pixell.C162_exact_partial",
    "Pixell.C162_ls",
    "Pixell.C162_fits",
    "Pixell.C162_mid",
    "Pixell.C162_white",
    "Pixell.C162_shift_refuted",
    "Pixell.C162_half_pixel_refuted",
    "Pixell.C162_ls_refuted",
    "Pixell.C162_response_refuted",
    "Pixell.C162_double_refuted"
   ],
   "note": "Exact with at most one scale smaller than the map and responses adding up to one. The rest is refuted."
  },
  {
   "property": "C163",
   "status": "partial",
   "theorems": [
    "Pixell.C163_doppler",
    "Pixell.C163_observed",
    "Pixell.C163_inverse_partial",
    "Pixell.C163_compose",
    "Pixell.C163_dipole",
    "Pixell.C163_lin2lin",
    "Pixell.C163_lmax",
    "Pixell.C163_monopole_refuted",
    "Pixell.C163_demodulate_refuted",
    "Pixell.C163_lin2lin_refuted",
    "Pixell.C163_inplace_refuted"
   ],
   "note": "With aberration, for T0 = T_cmb, plain or T2lin/lin2T. The rest is refuted."
  },
  {
   "property": "C164",
   "status": "partial",
   "theorems": [
    "Pixell.C164_union_partial",
    "Pixell.C164_insert_at",
    "Pixell.C164_union_refuted",
    "Pixell.C164_insert_wrap_refuted"
   ],
   "note": "Places compared without wrapping. The rest is refuted."
  },
  {
   "property": "C165",
   "status": "partial",
   "theorems": [
    "Pixell.C165_positive",
    "Pixell.C165_density",
    "Pixell.C165_margin_partial",
    "Pixell.C165_local_partial",
    "Pixell.C165_margin_refuted",
    "Pixell.C165_pixels_refuted"
   ],
   "note": "Within the radius less one pixel, and margins as many pixels wide as the apodization. The rest is refuted."
  },
  {
   "property": "C166",
   "status": "partial",
   "theorems": [
    "Pixell.C166_recenter",
    "Pixell.C166_cdelt_partial",
    "Pixell.C166_extent",
    "Pixell.C166_fix_refuted",
    "Pixell.C166_cdelt_refuted",
    "Pixell.C166_tan_refuted"
   ],
   "note": "Matrices without rotation; all projections but tan. The rest is refuted."
  },
  {
   "property": "C167",
   "status": "partial",
   "theorems": [
    "Pixell.C167_fourier",
    "Pixell.C167_round",
    "Pixell.C167_grid",
    "Pixell.C167_range",
    "Pixell.C167_fftlog",
    "Pixell.C167_fftlog_round",
    "Pixell.C167_fftlog_grid",
    "Pixell.C167_krange_refuted"
   ],
   "note": "FFTLog as an integral without bias, and with xrange. krange is refuted."
  },
  {
   "property": "C168",
   "status": "partial",
   "theorems": [
    "Pixell.C168_angle",
    "Pixell.C168_magnification",
    "Pixell.C168_polarization",
    "Pixell.C168_chain",
    "Pixell.C168_columns",
    "Pixell.C168_shape_refuted"
   ],
   "note": "In the limit of small offsets. The shape of the result with pol or mag given is refuted."
  },
  {
   "property": "C169",
   "status": "partial",
   "theorems": [
    "Pixell.C169_linear",
    "Pixell.C169_nodes",
    "Pixell.C169_exact",
    "Pixell.C169_between",
    "Pixell.C169_grad_partial",
    "Pixell.C169_build_partial",
    "Pixell.C169_grad_refuted",
    "Pixell.C169_outputs_refuted",
    "Pixell.C169_return_refuted",
    "Pixell.C169_accuracy_refuted",
    "Pixell.C169_recheck_refuted",
    "Pixell.C169_obox_refuted"
   ],
   "note": "ip_grad below the last points; build with one input, at the points tested. The rest is refuted."
  },
  {
   "property": "C170",
   "status": "partial",
   "theorems": [
    "Pixell.C170_text",
    "Pixell.C170_decimals",
    "Pixell.C170_fits",
    "Pixell.C170_auto",
    "Pixell.C170_weights_partial",
    "Pixell.C170_components_refuted",
    "Pixell.C170_case_refuted",
    "Pixell.C170_auto_refuted",
    "Pixell.C170_units_refuted",
    "Pixell.C170_weights_refuted"
   ],
   "note": "Catalogs with all columns, read with their number of components; weights without components. The rest is refuted."
  },
  {
   "property": "C171",
   "status": "partial",
   "theorems": [
    "Pixell.C171_parse",
    "Pixell.C171_symmetric",
    "Pixell.C171_limits",
    "Pixell.C171_quantile_partial",
    "Pixell.C171_default",
    "Pixell.C171_dims",
    "Pixell.C171_dims_given",
    "Pixell.C171_tiles",
    "Pixell.C171_stack",
    "Pixell.C171_bounds",
    "Pixell.C171_paste",
    "Pixell.C171_name_partial",
    "Pixell.C171_prune_partial",
    "Pixell.C171_prune_lines",
    "Pixell.C171_quantile_refuted",
    "Pixell.C171_tiles_refuted",
    "Pixell.C171_name_refuted",
    "Pixell.C171_prune_refuted"
   ],
   "note": "Quantiles below one half of the values; names with a directory and an extension; curves without gaps. The rest is refuted."
  },
  {
   "property": "C172",
   "status": "partial",
   "theorems": [
    "Pixell.C172_read_back_partial",
    "Pixell.C172_selection",
    "Pixell.C172_geometry_partial",
    "Pixell.C172_geometry_sel_partial",
    "Pixell.C172_colon_refuted",
    "Pixell.C172_npy_refuted",
    "Pixell.C172_gz_refuted",
    "Pixell.C172_geometry_sel_refuted"
   ],
   "note": "Names without colon and not .npy; selections of pixels. The rest is refuted."
  },
  {
   "property": "C173",
   "status": "partial",
   "theorems": [
    "Pixell.C173_shift",
    "Pixell.C173_lform",
    "Pixell.C173_lpixsize",
    "Pixell.C173_subgrid",
    "Pixell.C173_extent",
    "Pixell.C173_lrmap_partial",
    "Pixell.C173_pixshape_partial",
    "Pixell.C173_bounds_partial",
    "Pixell.C173_spline_partial",
    "Pixell.C173_lrmap_refuted",
    "Pixell.C173_pixshape_refuted",
    "Pixell.C173_bounds_refuted",
    "Pixell.C173_spline_refuted"
   ],
   "note": "No oversampling in lrmap, separable maps, corner=True. The rest is refuted."
  },
  {
   "property": "C174",
   "status": "partial",
   "theorems": [
    "Pixell.C174_legendre",
    "Pixell.C174_legendre_poly",
    "Pixell.C174_cossin_partial",
    "Pixell.C174_ubash_partial",
    "Pixell.C174_decomp",
    "Pixell.C174_profile_transform",
    "Pixell.C174_profile_normalized_partial",
    "Pixell.C174_graybody",
    "Pixell.C174_tsz_form",
    "Pixell.C174_tsz_null",
    "Pixell.C174_noise_factor",
    "Pixell.C174_dice",
    "Pixell.C174_period_partial",
    "Pixell.C174_period_range",
    "Pixell.C174_short_refuted",
    "Pixell.C174_legendre_refuted",
    "Pixell.C174_cossin_refuted",
    "Pixell.C174_ubash_refuted",
    "Pixell.C174_profile_normalized_refuted",
    "Pixell.C174_period_refuted"
   ],
   "note": "Samples not all equal, arrays of floats, at least one input, profiles not zero at the centre, sinusoids of whole periods of at least three samples. The rest is refuted."
  },
  {
   "property": "C175",
   "status": "partial",
   "theorems": [
    "Pixell.C175_glob_partial",
    "Pixell.C175_regex_partial",
    "Pixell.C175_glob_refuted",
    "Pixell.C175_glob_slash_refuted",
    "Pixell.C175_regex_refuted",
    "Pixell.C175_regex_f0_refuted",
    "Pixell.C175_regex_g_refuted",
    "Pixell.C175_regex_other_refuted"
   ],
   "note": "Formats with named conversions of types d, i, u, o, x, f with decimals and s. The rest is refuted."
  },
  {
   "property": "C176",
   "status": "partial",
   "theorems": [
    "Pixell.C176_profile",
    "Pixell.C176_convolution",
    "Pixell.C176_variance",
    "Pixell.C176_bounds_partial",
    "Pixell.C176_ores_default",
    "Pixell.C176_scales_partial",
    "Pixell.C176_one_scale_refuted",
    "Pixell.C176_trim_refuted",
    "Pixell.C176_bounds_refuted",
    "Pixell.C176_ores_refuted",
    "Pixell.C176_geometry_refuted",
    "Pixell.C176_fill_refuted"
   ],
   "note": "Butterworth with two scales or more, scales of full size, no ores, fill values in curved mode. The rest is refuted."
  },
  {
   "property": "C177",
   "status": "partial",
   "theorems": [
    "Pixell.C177_iter",
    "Pixell.C177_reduce",
    "Pixell.C177_full_partial",
    "Pixell.C177_empty_refuted",
    "Pixell.C177_negative_refuted",
    "Pixell.C177_full_refuted",
    "Pixell.C177_full_columns_refuted",
    "Pixell.C177_methods_refuted",
    "Pixell.C177_arguments_refuted"
   ],
   "note": "One component in full, positions not negative. The rest is refuted."
  },
  {
   "property": "C178",
   "status": "partial",
   "theorems": [
    "Pixell.C178_disjoint",
    "Pixell.C178_contents",
    "Pixell.C178_array",
    "Pixell.C178_zeros",
    "Pixell.C178_zeros_reset",
    "Pixell.C178_reuse",
    "Pixell.C178_attr_partial",
    "Pixell.C178_scalar_refuted",
    "Pixell.C178_size_refuted",
    "Pixell.C178_attr_refuted"
   ],
   "note": "All histories, for arrays with axes and names that are not those of methods. The rest is refuted."
  },
  {
   "property": "C179",
   "status": "partial",
   "theorems": [
    "Pixell.C179_safe",
    "Pixell.C179_downgrade",
    "Pixell.C179_box",
    "Pixell.C179_point",
    "Pixell.C179_window",
    "Pixell.C179_any",
    "Pixell.C179_fejer1_partial",
    "Pixell.C179_cc_partial",
    "Pixell.C179_fejer1_refuted",
    "Pixell.C179_shape_refuted",
    "Pixell.C179_wildcard_refuted",
    "Pixell.C179_any_refuted",
    "Pixell.C179_wrap_refuted"
   ],
   "note": "Positions of rows for all variants, of columns for safe; windows that do not cross the end of the sky. The rest is refuted."
  },
  {
   "property": "C180",
   "status": "partial",
   "theorems": [
    "Pixell.C180_samples",
    "Pixell.C180_exact",
    "Pixell.C180_precompute",
    "Pixell.C180_periodic",
    "Pixell.C180_adjoint",
    "Pixell.C180_nufft",
    "Pixell.C180_least_squares",
    "Pixell.C180_roundtrip",
    "Pixell.C180_grid",
    "Pixell.C180_precision_partial",
    "Pixell.C180_npre_partial",
    "Pixell.C180_zero_refuted",
    "Pixell.C180_complex_refuted",
    "Pixell.C180_axes_refuted",
    "Pixell.C180_periodicity_refuted",
    "Pixell.C180_precision_refuted",
    "Pixell.C180_npre_refuted"
   ],
   "note": "Sums, adjoints and inverses for coefficients that are not zero, with axes in order. The rest is refuted."
  },
  {
   "property": "C181",
   "status": "partial",
   "theorems": [
    "Pixell.C181_agree",
    "Pixell.C181_samples",
    "Pixell.C181_exact",
    "Pixell.C181_roundtrip",
    "Pixell.C181_constant_partial",
    "Pixell.C181_row_partial",
    "Pixell.C181_shape_partial",
    "Pixell.C181_bin_partial",
    "Pixell.C181_factor_partial",
    "Pixell.C181_one_refuted",
    "Pixell.C181_odd_refuted",
    "Pixell.C181_real_refuted",
    "Pixell.C181_row_refuted",
    "Pixell.C181_axes_refuted",
    "Pixell.C181_axis_number_refuted",
    "Pixell.C181_bin_refuted",
    "Pixell.C181_factor_refuted",
    "Pixell.C181_equispaced_refuted"
   ],
   "note": "Complex values of any length; last axes. The rest is refuted."
  },
  {
   "property": "C182",
   "status": "partial",
   "theorems": [
    "Pixell.C182_centre",
    "Pixell.C182_pole",
    "Pixell.C182_back",
    "Pixell.C182_nodes",
    "Pixell.C182_object_partial",
    "Pixell.C182_horizon_partial",
    "Pixell.C182_step_partial",
    "Pixell.C182_object_refuted",
    "Pixell.C182_times_refuted",
    "Pixell.C182_case_refuted",
    "Pixell.C182_horizon_refuted",
    "Pixell.C182_step_refuted",
    "Pixell.C182_single_refuted",
    "Pixell.C182_track_refuted"
   ],
   "note": "Positions as references with times of at most one axis. The rest is refuted."
  },
  {
   "property": "C183",
   "status": "partial",
   "theorems": [
    "Pixell.C183_broadcast",
    "Pixell.C183_bincount",
    "Pixell.C183_count",
    "Pixell.C183_medmean",
    "Pixell.C183_place_refuted",
    "Pixell.C183_bool_refuted",
    "Pixell.C183_short_refuted"
   ],
   "note": "Places among the broadcast axes, weights that are numbers, block sizes of at least one. The rest is refuted."
  },
  {
   "property": "C184",
   "status": "partial",
   "theorems": [
    "Pixell.C184_distance",
    "Pixell.C184_labels_partial",
    "Pixell.C184_cylindrical",
    "Pixell.C184_circle",
    "Pixell.C184_safe",
    "Pixell.C184_threshold",
    "Pixell.C184_simple_partial",
    "Pixell.C184_interior_refuted",
    "Pixell.C184_ends_refuted",
    "Pixell.C184_multi_refuted",
    "Pixell.C184_penalty_refuted",
    "Pixell.C184_hole_refuted"
   ],
   "note": "Pixels close to the edge of their region; FinderMultiSafe; FinderSimple with a uniform penalty. The rest is refuted."
  },
  {
   "property": "C185",
   "status": "partial",
   "theorems": [
    "Pixell.C185_pure",
    "Pixell.C185_new",
    "Pixell.C185_set",
    "Pixell.C185_shift",
    "Pixell.C185_shifted",
    "Pixell.C185_independent",
    "Pixell.C185_wcs_partial",
    "Pixell.C185_astype_refuted",
    "Pixell.C185_wrap_refuted",
    "Pixell.C185_window_refuted",
    "Pixell.C185_number_refuted"
   ],
   "note": "Everything but in-place shifts of maps that share a wcs object or pixels, and single offsets, which are refuted."
  },
  {
   "property": "C186",
   "status": "partial",
   "theorems": [
    "Pixell.C186_newton",
    "Pixell.C186_converges",
    "Pixell.C186_thermo",
    "Pixell.C186_plain",
    "Pixell.C186_rotate",
    "Pixell.C186_angle",
    "Pixell.C186_slope",
    "Pixell.C186_stack_refuted",
    "Pixell.C186_tiny_refuted",
    "Pixell.C186_stack_rotate_refuted",
    "Pixell.C186_pol_refuted",
    "Pixell.C186_distortion_refuted",
    "Pixell.C186_amplitude_refuted"
   ],
   "note": "Newton's method, second-order modulation, single maps and angles proved; stacks of maps, aberrate's polarization, remap's amplitude and distortion are refuted. Rotation of the sphere and interpolation taken as exact."
  },
  {
   "property": "C187",
   "status": "partial",
   "theorems": [
    "Pixell.C187_cut",
    "Pixell.C187_plain",
    "Pixell.C187_latitudes_partial",
    "Pixell.C187_longitudes",
    "Pixell.C187_labels_partial",
    "Pixell.C187_entering",
    "Pixell.C187_inside",
    "Pixell.C187_nan_refuted",
    "Pixell.C187_repeated_refuted",
    "Pixell.C187_latitudes_refuted",
    "Pixell.C187_longitudes_refuted",
    "Pixell.C187_labels_refuted",
    "Pixell.C187_twice_refuted"
   ],
   "note": "Cutting of finite lines, plain grids, labels at lower edges proved; refuted for NaN points, repeated points, steps that do not divide the sky, the upper edges and touching points. Where points fall in the image is left to the wcs."
  },
  {
   "property": "C188",
   "status": "partial",
   "theorems": [
    "Pixell.C188_description",
    "Pixell.C188_accepted",
    "Pixell.C188_codes",
    "Pixell.C188_constant",
    "Pixell.C188_reverse",
    "Pixell.C188_direct",
    "Pixell.C188_threads",
    "Pixell.C188_colorcap_partial",
    "Pixell.C188_single_refuted",
    "Pixell.C188_step_refuted",
    "Pixell.C188_drivers_refuted",
    "Pixell.C188_invalid_refuted",
    "Pixell.C188_race_refuted",
    "Pixell.C188_white_refuted"
   ],
   "note": "Two or more control points, schemes without steps, finite colours and direct mode under all schedules proved; direct_colorcap only with one thread. Single points, steps, equal drivers, invalid channels, the race and white are refuted."
  },
  {
   "property": "C189",
   "status": "partial",
   "theorems": [
    "Pixell.C189_cutout_partial",
    "Pixell.C189_given",
    "Pixell.C189_area_partial",
    "Pixell.C189_total",
    "Pixell.C189_odd_refuted",
    "Pixell.C189_pad_refuted",
    "Pixell.C189_near_refuted",
    "Pixell.C189_path_refuted",
    "Pixell.C189_falling_refuted",
    "Pixell.C189_beyond_refuted"
   ],
   "note": "Maps, even sizes or positions not half-way, padding of one or more with one pixel less at the upper edge; declination growing with the row and rows touching the sky. The rest is refuted."
  },
  {
   "property": "C190",
   "status": "partial",
   "theorems": [
    "Pixell.C190_uniform",
    "Pixell.C190_list",
    "Pixell.C190_drawn_partial",
    "Pixell.C190_colour_partial",
    "Pixell.C190_single_refuted",
    "Pixell.C190_edge_refuted",
    "Pixell.C190_steep_refuted",
    "Pixell.C190_nan_refuted"
   ],
   "note": "Levels of both forms; drawing at pixels away from the last row and column and from NaN, one level per pixel. The rest is refuted."
  },
  {
   "property": "C191",
   "status": "partial",
   "theorems": [
    "Pixell.C191_vector",
    "Pixell.C191_sym",
    "Pixell.C191_matrix_partial",
    "Pixell.C191_product_refuted",
    "Pixell.C191_unsymmetric_refuted",
    "Pixell.C191_order_refuted",
    "Pixell.C191_broadcast_refuted"
   ],
   "note": "Stacks of vectors with any axes in rising order, for matmul and matmul_sym; for matrices what is computed instead of the product. The rest is refuted."
  },
  {
   "property": "C192",
   "status": "partial",
   "theorems": [
    "Pixell.C192_ranks",
    "Pixell.C192_components",
    "Pixell.C192_rgb_partial",
    "Pixell.C192_rgb_refuted",
    "Pixell.C192_symmetric_partial",
    "Pixell.C192_symmetric_refuted",
    "Pixell.C192_names",
    "Pixell.C192_maps_refuted",
    "Pixell.C192_options",
    "Pixell.C192_toggle_refuted"
   ],
   "note": "Ranks, plain components, names within a map and options in full; rgb for three components, symmetric except for the colour ranges below the first row. The rest is refuted."
  },
  {
   "property": "C193",
   "status": "partial",
   "theorems": [
    "Pixell.C193_each",
    "Pixell.C193_inverse",
    "Pixell.C193_galactic",
    "Pixell.C193_direction",
    "Pixell.C193_threads_refuted"
   ],
   "note": "Rotations, their inverses and the direction of profiles in full; the number of threads is refuted."
  },
  {
   "property": "C194",
   "status": "partial",
   "theorems": [
    "Pixell.C194_concat_partial",
    "Pixell.C194_merge_partial",
    "Pixell.C194_view",
    "Pixell.C194_whole_refuted",
    "Pixell.C194_text_refuted",
    "Pixell.C194_keys_refuted",
    "Pixell.C194_row_refuted",
    "Pixell.C194_readonly_refuted"
   ],
   "note": "Values that fit the first, tables of equal length with different columns, writable views in full. The rest is refuted."
  },
  {
   "property": "C195",
   "status": "partial",
   "theorems": [
    "Pixell.C195_nearest_partial",
    "Pixell.C195_all",
    "Pixell.C195_unmasked_refuted",
    "Pixell.C195_layout_refuted"
   ],
   "note": "Nearest pixels for all masks with masked and good pixels unless two leading axes are swapped in memory, which is refuted; nothing masked is refuted."
  },
  {
   "property": "C196",
   "status": "partial",
   "theorems": [
    "Pixell.C196_orientation",
    "Pixell.C196_sub_partial",
    "Pixell.C196_sub_refuted",
    "Pixell.C196_mask",
    "Pixell.C196_rgb_mask_partial",
    "Pixell.C196_rgb_mask_refuted",
    "Pixell.C196_infinite_refuted"
   ],
   "note": "Orientation for all slices and finite masks in full; sub, several colour images and infinite masks are refuted."
  },
  {
   "property": "C197",
   "status": "partial",
   "theorems": [
    "Pixell.C197_rotated",
    "Pixell.C197_centered_refuted",
    "Pixell.C197_gnomonic_refuted",
    "Pixell.C197_tasks",
    "Pixell.C197_ivar"
   ],
   "note": "Rotated pixels, tasks and values of inverse variance maps in full; the middle of centered_map and of gnomonic geometries that are not square is refuted."
  },
  {
   "property": "C198",
   "status": "partial",
   "theorems": [
    "Pixell.C198_skip",
    "Pixell.C198_pixel_partial",
    "Pixell.C198_pixel_refuted",
    "Pixell.C198_line",
    "Pixell.C198_left_refuted",
    "Pixell.C198_plain_refuted",
    "Pixell.C198_rect_partial",
    "Pixell.C198_thin_refuted"
   ],
   "note": "What is skipped and how lines are moved in full, pixels within one pixel, rectangles thick enough for their lines; the rest is refuted."
  },
  {
   "property": "C199",
   "status": "partial",
   "theorems": [
    "Pixell.C199_union_partial",
    "Pixell.C199_union_refuted",
    "Pixell.C199_interp_partial",
    "Pixell.C199_interp_refuted",
    "Pixell.C199_maskmed_partial",
    "Pixell.C199_maskmed_refuted",
    "Pixell.C199_ref_range",
    "Pixell.C199_ref_partial",
    "Pixell.C199_ref_refuted"
   ],
   "note": "Two or more arrays, tables of floats, values without NaN, and reference levels where some value is above the median; the rest is refuted."
  },
  {
   "property": "C200",
   "status": "partial",
   "theorems": [
    "Pixell.C200_times_partial",
    "Pixell.C200_history",
    "Pixell.C200_clock_refuted",
    "Pixell.C200_lines",
    "Pixell.C200_line",
    "Pixell.C200_total_partial",
    "Pixell.C200_total_refuted"
   ],
   "note": "All programs whose shown blocks have the standard clock; totals where no block is in another one of its name. Other clocks for show and totals of recursive blocks are refuted."
  },
  {
   "property": "C201",
   "status": "partial",
   "theorems": [
    "Pixell.C201_history",
    "Pixell.C201_replace",
    "Pixell.C201_found_partial",
    "Pixell.C201_found_refuted",
    "Pixell.C201_hasoff"
   ],
   "note": "Environment variables and offsets in full; replacements that differ from the pattern. Equal ones are refuted."
  },
  {
   "property": "C202",
   "status": "partial",
   "theorems": [
    "Pixell.C202_place",
    "Pixell.C202_parts_partial",
    "Pixell.C202_parts_refuted"
   ],
   "note": "The place in full; the parts except for the root and paths that begin with exactly two slashes, which are refuted."
  },
  {
   "property": "C203",
   "status": "partial",
   "theorems": [
    "Pixell.C203_stamps_partial",
    "Pixell.C203_middle_partial",
    "Pixell.C203_middle_refuted"
   ],
   "note": "Number, order and size in full; the source is within a pixel of the middle, and in stamps of two pixels or more. Sources in the middle pixel are refuted for every other pixel."
  },
  {
   "property": "C204",
   "status": "partial",
   "theorems": [
    "Pixell.C204_merge",
    "Pixell.C204_first_partial",
    "Pixell.C204_first_refuted"
   ],
   "note": "The merged plot in full; the plots given stay if the first one already has the bounds of the result. Otherwise the first one moves, which is refuted."
  },
  {
   "property": "C205",
   "status": "partial",
   "theorems": [
    "Pixell.C205_show_partial",
    "Pixell.C205_empty",
    "Pixell.C205_zero_refuted",
    "Pixell.C205_word_refuted"
   ],
   "note": "Positive limits, and limits in the query in small or capital letters. The limit 0 and limits in mixed case are refuted."
  }
 ]
}