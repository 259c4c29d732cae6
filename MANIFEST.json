{
 "claims": [
  {
   "property": "C01",
   "status": "proved",
   "theorems": [
    "JG.C01_inter_includes",
    "JG.C01_inter_undefined",
    "JG.C01_inter_nonempty"
   ],
   "note": "Generic over the coordinate type (integer and float bounds)."
  },
  {
   "property": "C02",
   "status": "proved",
   "theorems": [
    "JG.C02_union_upper",
    "JG.C02_union_least",
    "JG.C02_union_hull",
    "JG.C02_union_identity",
    "JG.C02_union_position"
   ],
   "note": "Union covers both inputs and is the least such rectangle; undefined is the identity."
  },
  {
   "property": "C03",
   "status": "partial",
   "theorems": [
    "JG.C03_made_good",
    "JG.C03_area_counts",
    "JG.C03_size",
    "JG.C03_center",
    "JG.C03_undefined",
    "JG.C03_jax_sizes_counterexample",
    "JG.C03_areaD_counterexample"
   ],
   "note": "Holds for every bounds value built from Python numbers; two counterexample theorems show where the code departs (integer sizes passed as jax arrays with negative extent, float area of undefined bounds)."
  },
  {
   "property": "C04",
   "status": "partial",
   "theorems": [
    "JG.C04_shift_includes_partial",
    "JG.C04_shift_compose",
    "JG.C04_border_includes",
    "JG.C04_border_includes_jax",
    "JG.C04_border_undo",
    "JG.C04_expandI",
    "JG.C04_expandD",
    "JG.C04_undefined_counterexample"
   ],
   "note": "Proved for defined bounds; C04_undefined_counterexample shows shifting an undefined bounds makes it defined."
  },
  {
   "property": "C05",
   "status": "partial",
   "theorems": [
    "JG.C05_copy_defined",
    "JG.C05_copyI",
    "JG.C05_copyD_counterexample",
    "JG.C05_copyD_partial",
    "JG.C05_convert_roundtrip",
    "JG.C05_pytreeI",
    "JG.C05_pytreeD"
   ],
   "note": "Copies and pytree round trips proved; C05_copyD_counterexample shows the float bounds case that fails."
  },
  {
   "property": "C06",
   "status": "partial",
   "theorems": [
    "JG.C06_eq_hash_partial",
    "JG.C06_undefined_counterexample"
   ],
   "note": "Equality and hashing agree for defined bounds; C06_undefined_counterexample shows the undefined case."
  },
  {
   "property": "C07",
   "status": "proved",
   "theorems": [
    "JG.C07_add_sub_neg",
    "JG.C07_group_laws",
    "JG.C07_mixed",
    "JG.C07_mul",
    "JG.C07_mul_div",
    "JG.C07_div_mul",
    "JG.C07_module_laws",
    "JG.C07_round",
    "JG.C07_shear_linear",
    "JG.C07_pytree_eq_hash"
   ],
   "note": "All position operators, including mixed int/float operands, shear and rounding."
  },
  {
   "property": "C08",
   "status": "proved",
   "theorems": [
    "JG.C08_wrap_range",
    "JG.C08_wrap_unique",
    "JG.C08_wrap_fixed",
    "JG.C08_wrap_trig",
    "JG.C08_units"
   ],
   "note": "Wrapping gives the unique representative in the half-open interval and preserves sine and cosine."
  },
  {
   "property": "C09",
   "status": "proved",
   "theorems": [
    "JG.C09_rounding",
    "JG.C09_components",
    "JG.C09_digits",
    "JG.C09_print_parse",
    "JG.C09_roundtrip"
   ],
   "note": "Printing rounds to the requested precision, and parsing the printed string gives back the rounded value exactly."
  },
  {
   "property": "C10",
   "status": "proved",
   "theorems": [
    "JG.C10_g1g2",
    "JG.C10_e1e2",
    "JG.C10_eta1eta2",
    "JG.C10_g_beta",
    "JG.C10_e_eta_beta",
    "JG.C10_q_beta",
    "JG.C10_legal_iff",
    "JG.C10_q_axis_ratio",
    "JG.C10_beta",
    "JG.C10_g1g2_to_e1e2",
    "JG.C10_matrix_axes"
   ],
   "note": "Every constructor reads back; below the code's small-ellipticity switch-over the truncation error is bounded explicitly."
  },
  {
   "property": "C11",
   "status": "proved",
   "theorems": [
    "JG.C11_closed",
    "JG.C11_det",
    "JG.C11_composition",
    "JG.C11_subtraction",
    "JG.C11_group",
    "JG.C11_boundary_counterexample"
   ],
   "note": "Composition law with the reported rotation for all legal shears (|g|<1). C11_boundary_counterexample records that |g|=1 is accepted although its matrix is singular."
  },
  {
   "property": "C12",
   "status": "proved",
   "theorems": [
    "JG.C12_horner",
    "JG.C12_horner2d",
    "JG.C12_triangle",
    "JG.C12_triangle_full"
   ],
   "note": "Any number of coefficients, any commutative ring, ragged arrays included; triangle=True proved to keep exactly i+j<n."
  },
  {
   "property": "C13",
   "status": "partial",
   "theorems": [
    "JG.C13_parse_iff_partial",
    "JG.C13_error_kind_partial",
    "JG.C13_keyerror_counterexample",
    "JG.C13_sequence_counterexample"
   ],
   "note": "Exact characterisation of accepted spellings; the parts of the statement that fail (KeyError for a missing value, long sequences and one-element jax arrays accepted) are proved as counterexamples."
  },
  {
   "property": "C14",
   "status": "proved",
   "theorems": [
    "JG.C14_strictest",
    "JG.C14_order",
    "JG.C14_grouping",
    "JG.C14_equal",
    "JG.C14_check",
    "JG.C14_none_entries",
    "JG.C14_none_ignored",
    "JG.C14_all_none",
    "JG.C14_check_succeeds",
    "JG.C14_check_result"
   ],
   "note": "Strictest value per field, independent of order, repetition and grouping, None entries ignored; check succeeds exactly for usable arguments and known names, and overrides exactly the named fields."
  },
  {
   "property": "C15",
   "status": "partial",
   "theorems": [
    "JG.C15_interval",
    "JG.C15_bracket",
    "JG.C15_converges_partial",
    "JG.C15_exact_root_counterexample",
    "JG.C15_dichotomy"
   ],
   "note": "Convergence proved whenever no probed midpoint is an exact root; C15_exact_root_counterexample shows the failure otherwise."
  },
  {
   "property": "C16",
   "status": "proved",
   "theorems": [
    "JG.C16_knots",
    "JG.C16_differentiable",
    "JG.C16_continuous",
    "JG.C16_derivative_continuous",
    "JG.C16_outside",
    "JG.C16_line"
   ],
   "note": "Both interval searches (searchsorted and fixed spacing)."
  },
  {
   "property": "C17",
   "status": "proved",
   "theorems": [
    "JG.C17_congruent_sum",
    "JG.C17_total",
    "JG.C17_strategies_agree"
   ],
   "note": "For every image size, wrap region inside the image and pixel type (any commutative monoid)."
  },
  {
   "property": "C18",
   "status": "proved",
   "theorems": [
    "JG.C18_hermitian_x",
    "JG.C18_hermitian_y"
   ],
   "note": "Every stored mode, both hermitian='x' and hermitian='y', against the implied full Hermitian image."
  },
  {
   "property": "C19",
   "status": "partial",
   "theorems": [
    "JG.C19_shape_invariant_partial",
    "JG.C19_raise_unchanged_partial",
    "JG.C19_undefined_counterexample",
    "JG.C19_jax_sizes_counterexample",
    "JG.C19_wrap_raise_counterexample"
   ],
   "note": "Every constructor form and every sequence of the listed mutators, including raising ones. Partial: undefined images hold a 1x1 array, jax-array sizes with exactly one non-positive size break it, and wrap mutates before raising when the region is not inside the image."
  },
  {
   "property": "C20",
   "status": "partial",
   "theorems": [
    "JG.C20_reads_latest_write",
    "JG.C20_raises_iff",
    "JG.C20_relabel",
    "JG.C20_nonstatic_counterexample"
   ],
   "note": "Refinement of the image to a coordinate map for all sequences of calls with python coordinates. Partial: with jax-array bounds setSubImage outside the image clamps silently (counterexample)."
  },
  {
   "property": "C21",
   "status": "proved",
   "theorems": [
    "JG.C21_subImage",
    "JG.C21_write_then_read",
    "JG.C21_writeback_identity",
    "JG.C21_copy",
    "JG.C21_rounding"
   ],
   "note": "Static and jax-array bounds inside the image."
  },
  {
   "property": "C22",
   "status": "partial",
   "theorems": [
    "JG.C22_const_partial",
    "JG.C22_const_raises",
    "JG.C22_inplace_counterexample",
    "JG.C22_setArray_counterexample",
    "JG.C22_wrap_counterexample",
    "JG.C22_addTo_counterexample"
   ],
   "note": "Holds for all methods that check isconst; in-place operators, the array setter and wrap do not (counterexamples)."
  },
  {
   "property": "C23",
   "status": "partial",
   "theorems": [
    "JG.C23_moves",
    "JG.C23_bounds",
    "JG.C23_dihedral",
    "JG.C23_permutes",
    "JG.C23_shape",
    "JG.C23_unusable_counterexample"
   ],
   "note": "Pixel moves, group relations, multiset and shapes proved; 'fully usable' fails because _is_const is never set."
  },
  {
   "property": "C24",
   "status": "partial",
   "theorems": [
    "JG.C24_num_keep",
    "JG.C24_which",
    "JG.C24_flux",
    "JG.C24_set_flux",
    "JG.C24_scale_flux",
    "JG.C24_set_total",
    "JG.C24_total_uniform",
    "JG.C24_keep_flux_partial",
    "JG.C24_keep_flux_counterexample",
    "JG.C24_zero_kept_counterexample",
    "JG.C24_new",
    "JG.C24_scale_xy"
   ],
   "note": "num_keep/flux/total bookkeeping proved for every mask; 'kept photons keep their flux' only when the number is unchanged (setting a different number rescales them), and zero kept photons give NaN: both proved as counterexamples."
  },
  {
   "property": "C25",
   "status": "proved",
   "theorems": [
    "JG.C25_convolve",
    "JG.C25_total",
    "JG.C25_num_keep",
    "JG.C25_mask_mismatch",
    "JG.C25_correlated"
   ],
   "note": "Pairing is a permutation sending kept photons to kept photons (order preserving unless both arrays are correlated); flux f1*f2*K with K the kept photons of the second array; second array restored."
  },
  {
   "property": "C26",
   "status": "partial",
   "theorems": [
    "JG.C26_write_read_partial",
    "JG.C26_write_read_scaled",
    "JG.C26_write_read_counterexample"
   ],
   "note": "Proved for arrays without masked photons; with masked photons read multiplies fluxes by total/kept (general formula and witness proved)."
  },
  {
   "property": "C27",
   "status": "partial",
   "theorems": [
    "JG.C27_copy",
    "JG.C27_copy_other",
    "JG.C27_switches",
    "JG.C27_no_flux_partial",
    "JG.C27_no_flux_counterexample",
    "JG.C27_assignAt",
    "JG.C27_assignAt_negative_counterexample",
    "JG.C27_assign_category"
   ],
   "note": "copyFrom/assignAt/assign-by-category exact for all index maps without repetitions; do_flux=False still changes fluxes through the mask, and negative starts of assignAt are not rejected (counterexamples)."
  },
  {
   "property": "C28",
   "status": "partial",
   "theorems": [
    "JG.C28_addTo_partial",
    "JG.C28_undefined",
    "JG.C28_integer_counterexample",
    "JG.C28_integer"
   ],
   "note": "Float images: exact deposition and flux accounting. Integer images are rounded per pixel (proved within 1/2) so the reported flux is not the gained flux (counterexample)."
  },
  {
   "property": "C29",
   "status": "partial",
   "theorems": [
    "JG.C29_deterministic",
    "JG.C29_zero",
    "JG.C29_nonneg_partial",
    "JG.C29_negative_counterexample",
    "JG.C29_flux_partial",
    "JG.C29_flux_poisson",
    "JG.C29_count",
    "JG.C29_extra_noise_counterexample",
    "JG.C29_zero_flux_poisson_counterexample",
    "JG.C29_requested",
    "JG.C29_requested_int"
   ],
   "note": "Counts, determinism and flux conservation proved for all arguments; fails for negative flux without Poisson variation, for positive max_extra_noise and for zero flux with poisson_flux (counterexamples)."
  },
  {
   "property": "C30",
   "status": "partial",
   "theorems": [
    "JG.C30_loop",
    "JG.C30_total_partial",
    "JG.C30_small_maxN_counterexample",
    "JG.C30_shoot_buffer_counterexample",
    "JG.C30_zero_maxN",
    "JG.C30_integer_counterexample"
   ],
   "note": "Loop terminates with exactly Ntot photons and uniform photon flux for every maxN and buffer; total flux correct when the chunk fills the buffer; fails for maxN below the fixed buffer size and for integer images (counterexamples)."
  },
  {
   "property": "C31",
   "status": "partial",
   "theorems": [
    "JG.C31_place_partial",
    "JG.C31_draws",
    "JG.C31_centered",
    "JG.C31_local_wcs",
    "JG.C31_undefined_image_counterexample"
   ],
   "note": "Proved for all argument combinations except an image with undefined bounds together with center (counterexample)."
  },
  {
   "property": "C32",
   "status": "partial",
   "theorems": [
    "JG.C32_good_fft_size",
    "JG.C32_good_fft_size_ge_partial",
    "JG.C32_good_fft_size_counterexample",
    "JG.C32_good_image_size",
    "JG.C32_grid_partial",
    "JG.C32_offcentre_counterexample",
    "JG.C32_fixed_size_counterexample",
    "JG.C32_odd_minimum_counterexample",
    "JG.C32_grid_shape"
   ],
   "note": "good_fft_size fully characterised; grid coverage proved for centred images below 100000 pixels with even minimum size; counterexamples for the remaining cases."
  },
  {
   "property": "C33",
   "status": "proved",
   "theorems": [
    "JG.C33_draw",
    "JG.C33_refines",
    "JG.C33_generate",
    "JG.C33_discard",
    "JG.C33_shared",
    "JG.C33_link",
    "JG.C33_independent",
    "JG.C33_duplicate",
    "JG.C33_reset",
    "JG.C33_seed",
    "JG.C33_seeding"
   ],
   "note": "Refinement of all programs over linked/duplicated/reset deviates to abstract streams; jax.random primitives are uninterpreted functions of the key."
  },
  {
   "property": "C34",
   "status": "proved",
   "theorems": [
    "JG.C34_permute",
    "JG.C34_rearrangement",
    "JG.C34_pairing"
   ],
   "note": "jrandom.permutation assumed to rearrange by a permutation depending on key and length only."
  },
  {
   "property": "C35",
   "status": "proved",
   "theorems": [
    "JG.C35_with_variance",
    "JG.C35_scaled_variance",
    "JG.C35_ccd_shape",
    "JG.C35_refuse",
    "JG.C35_snr"
   ],
   "note": "Gaussian, Poisson and CCD noise, all parameter values, v >= 0 and r >= 0 (a negative variance is not a variance); deviate and variable noise refuse; addNoiseSNR for float images in both modes."
  },
  {
   "property": "C36",
   "status": "partial",
   "theorems": [
    "JG.C36_apply_partial",
    "JG.C36_history_partial",
    "JG.C36_ccd_counterexample",
    "JG.C36_ccd_repeat_counterexample",
    "JG.C36_sky",
    "JG.C36_sky_cancels"
   ],
   "note": "Gaussian, Poisson, deviate and variable noise over all histories of applications. CCD noise violates the property: its deviates are operands of lax.cond, so the state never advances and Poisson and read noise use the same stream elements (counterexample theorems)."
  },
  {
   "property": "C37",
   "status": "proved",
   "theorems": [
    "JG.C37_map",
    "JG.C37_roundtrip",
    "JG.C37_coordinates"
   ],
   "note": "All six linear classes, object and coordinate forms, against the documented matrices."
  },
  {
   "property": "C38",
   "status": "partial",
   "theorems": [
    "JG.C38_shift",
    "JG.C38_compose",
    "JG.C38_given",
    "JG.C38_world_partial",
    "JG.C38_counterexample_given"
   ],
   "note": "Shifts without world_origin move the mapping and compose; with world_origin the new origin maps to it (C38_given). The shift law with world_origin is proved for local systems (world_partial) and false for systems with an origin (counterexample). `_isLocal` comes from upstream galsim, so it is a Boolean parameter, true only for local systems."
  },
  {
   "property": "C39",
   "status": "partial",
   "theorems": [
    "JG.C39_decomposition",
    "JG.C39_scales",
    "JG.C39_counterexample_negative_scale",
    "JG.C39_inverse",
    "JG.C39_shear_partial"
   ],
   "note": "Decomposition and inverse in full. Scales need a positive pixel scale (counterexample for a negative one). Shears: exact above ellipticity 1/100, with an error bound below, where Shear(e1=, e2=) uses a series (shear_partial)."
  },
  {
   "property": "C40",
   "status": "proved",
   "theorems": [
    "JG.C40_area",
    "JG.C40_toWorld",
    "JG.C40_toImage",
    "JG.C40_inverse"
   ],
   "note": "All six classes, every profile of the combinator model, flux ratio and offset."
  },
  {
   "property": "C41",
   "status": "partial",
   "theorems": [
    "JG.C41_eq",
    "JG.C41_pytree",
    "JG.C41_affine",
    "JG.C41_linear_keys",
    "JG.C41_header_partial",
    "JG.C41_counterexample_shear",
    "JG.C41_image_origin",
    "JG.C41_compatible"
   ],
   "note": "Equality, pytrees, affine form and linear header keys in full; header round trip for the classes that have a reader (header_partial). ShearWCS and OffsetShearWCS cannot be read back from the header they write (counterexample). The FITS key filtering of upstream writeToFitsHeader is not modelled."
  },
  {
   "property": "C42",
   "status": "proved",
   "theorems": [
    "JG.C42_xValue",
    "JG.C42_kValue",
    "JG.C42_flux",
    "JG.C42_centroid",
    "JG.C42_centroid_exists",
    "JG.C42_point",
    "JG.C42_flat",
    "JG.C42_single"
   ],
   "note": "For every expression built from leaves by transformations and sums, by induction on the expression: brightness, transform, flux and centroid of the collapsed profile equal those of the operations applied one after the other; the collapsed form is flat."
  },
  {
   "property": "C43",
   "status": "proved",
   "theorems": [
    "JG.C43_expand",
    "JG.C43_dilate",
    "JG.C43_magnify",
    "JG.C43_shear",
    "JG.C43_lens",
    "JG.C43_rotate",
    "JG.C43_shift",
    "JG.C43_transform",
    "JG.C43_withScaledFlux",
    "JG.C43_withFlux",
    "JG.C43_arith",
    "JG.C43_maxSb_bounds"
   ],
   "note": "Every operation of gsobject.py:481-690, with the exact map of points, flux factor and brightness factor."
  },
  {
   "property": "C44",
   "status": "proved",
   "theorems": [
    "JG.C44_values",
    "JG.C44_nesting",
    "JG.C44_centroid",
    "JG.C44_maxk_stepk",
    "JG.C44_flags"
   ],
   "note": "For every list of profiles and every nesting; the centroid is the flux-weighted mean whenever the total flux is not zero."
  },
  {
   "property": "C45",
   "status": "partial",
   "theorems": [
    "JG.C45_values",
    "JG.C45_maxk_stepk",
    "JG.C45_nesting",
    "JG.C45_nesting_maxk_stepk",
    "JG.C45_counterexample_array",
    "JG.C45_array_partial",
    "JG.C45_real_space"
   ],
   "note": "Values, maxk/stepk, nesting and the real-space form are proved for one position. Convolution._kValue takes the product over all axes, so for an array of positions it returns a single number (counterexample); array_partial is the one-position case. Missing: arrays of positions, for which the claim is false. All components share one gsparams in the model."
  },
  {
   "property": "C46",
   "status": "partial",
   "theorems": [
    "JG.C46_inverse",
    "JG.C46_bounded",
    "JG.C46_counterexample_negative_flux",
    "JG.C46_flux",
    "JG.C46_drawK_partial",
    "JG.C46_drawK_outside",
    "JG.C46_counterexample_outside",
    "JG.C46_counterexample_threshold"
   ],
   "note": "The inverse law holds wherever the Fourier value is non-zero and not below the threshold; boundedness holds when flux times accuracy is positive. drawK_partial covers pixels within maxk and off the threshold. Counterexamples: negative flux (not bounded), outside maxk and exactly at the threshold (kValue and drawKImage differ)."
  },
  {
   "property": "C47",
   "status": "partial",
   "theorems": [
    "JG.C47_difference",
    "JG.C47_nonneg_partial",
    "JG.C47_counterexample_scaled",
    "JG.C47_convolution",
    "JG.C47_flux_per_photon"
   ],
   "note": "The difference positive minus negative flux is proved for every tree with ratios of either sign. Non-negativity needs non-negative flux ratios (nonneg_partial); a negative ratio is a counterexample."
  },
  {
   "property": "C48",
   "status": "partial",
   "theorems": [
    "JG.C48_drawReal",
    "JG.C48_drawReal_plain",
    "JG.C48_drawReal_trans",
    "JG.C48_drawK",
    "JG.C48_integer_partial",
    "JG.C48_counterexample_integer_sum"
   ],
   "note": "Real-valued and k-space drawing are proved for every constructible expression. On integer images only a concrete profile, or one transformation of it, is covered (integer_partial); sums round after each term, with a counterexample."
  },
  {
   "property": "C49",
   "status": "proved",
   "theorems": [
    "JG.C49_cosine",
    "JG.C49_symm",
    "JG.C49_zero",
    "JG.C49_angle",
    "JG.C49_triangle",
    "JG.C49_invariant"
   ],
   "note": "All points; both branches of the code. Invariance under precession, galactic, ecliptic and normalisation; triangle inequality through Mathlib's angle."
  },
  {
   "property": "C50",
   "status": "proved",
   "theorems": [
    "JG.C50_deproject_project",
    "JG.C50_project_deproject",
    "JG.C50_textbook",
    "JG.C50_names",
    "JG.C50_dispatch",
    "JG.C50_gnomonic_antipode"
   ],
   "note": "All centres and all points of the domain (near hemisphere for the gnomonic projection, all but the antipode otherwise), both directions, with the textbook radii and directions. Right ascension is recovered up to full turns."
  },
  {
   "property": "C51",
   "status": "proved",
   "theorems": [
    "JG.C51_precession_matrix",
    "JG.C51_precess",
    "JG.C51_galactic_roundtrip",
    "JG.C51_ecliptic_roundtrip",
    "JG.C51_galactic_roundtrip'",
    "JG.C51_ecliptic_roundtrip'",
    "JG.C51_xyz_roundtrip",
    "JG.C51_radec_roundtrip"
   ],
   "note": "Both directions of both round trips, all epochs and dates. The position of the sun (upstream coord.util) is a parameter."
  },
  {
   "property": "C52",
   "status": "partial",
   "theorems": [
    "JG.Fits.C52_list_partial",
    "JG.Fits.C52_write_partial",
    "JG.Fits.C52_frame",
    "JG.Fits.C52_shown",
    "JG.Fits.C52_write_shown",
    "JG.Fits.C52_counterexample_interrupt",
    "JG.Fits.C52_read_dtype"
   ],
   "note": "Heap model with arbitrary crash points and an arbitrary upstream writer. Proved for every synchronous failure and repeated images; false for an asynchronous exception between the replacement of _array and the binding of old_class (counterexample)."
  },
  {
   "property": "C53",
   "status": "partial",
   "theorems": [
    "JG.Interp.C53_interpolating",
    "JG.Interp.C53_counterexample_delta",
    "JG.Interp.C53_even",
    "JG.Interp.C53_support",
    "JG.Interp.C53_ixrange",
    "JG.Interp.C53_lanczos",
    "JG.Interp.C53_lanczos_common",
    "JG.Interp.C53_linear_reproduces",
    "JG.Interp.C53_cubic_reproduces",
    "JG.Interp.C53_quintic_reproduces",
    "JG.Interp.C53_nearest_reproduces_partial",
    "JG.Interp.C53_counterexample_nearest",
    "JG.Interp.C53_counterexample_lanczos",
    "JG.Interp.C53_fluxes",
    "JG.Interp.C53_sinc_fluxes"
   ],
   "note": "All seven kernels. Partial: Nearest doubles half-way positions, Delta is 1/kvalue_accuracy at 0, Lanczos without conserve_dc does not reproduce constants (all three proved as counterexamples). For Lanczos with conserve_dc the divisor is proved to be the stated 1-periodic Fourier series; that the weights then add up to one within 1/(1100 (n-1)^3) is C98_constant."
  },
  {
   "property": "C54",
   "status": "partial",
   "theorems": [
    "JG.Interp.C54_kernel_sum_partial",
    "JG.Interp.C54_at_pixels",
    "JG.Interp.C54_counterexample_nearest",
    "JG.Interp.C54_pos_neg_fluxes",
    "JG.Interp.C54_kernel_seen"
   ],
   "note": "Linear, Cubic, Quintic and Lanczos: the windowed evaluation equals the sum over all pixels, for any array, origin and point; for every kernel it equals the sum with the part of the kernel that the window shows (C54_kernel_seen); at pixel centres every kernel but Delta returns the pixel. Counterexample: Nearest looks only at the pixel below the point. Positive minus negative flux is the image flux."
  },
  {
   "property": "C55",
   "status": "partial",
   "theorems": [
    "JG.Fft.C55_kvalue_on_grid",
    "JG.Interp.C55_fetch",
    "JG.Interp.C55_full_sum_partial",
    "JG.Interp.C55_hermitian",
    "JG.Interp.C55_at_modes",
    "JG.Interp.C55_dft"
   ],
   "note": "The fetch by Hermitian symmetry and wrapping equals the full Hermitian periodic image at every mode; interpolation is the full kernel sum (local kernels), Hermitian and periodic; the hypotheses hold for the transform of any real image."
  },
  {
   "property": "C56",
   "status": "partial",
   "theorems": [
    "JG.Interp.C56_padding_partial",
    "JG.Interp.C56_counterexample_not_recentred",
    "JG.Interp.C56_counterexample_large"
   ],
   "note": "Padding through the Image model (construction, setCenter, assignment): pixels stay at their coordinates, zeros elsewhere, same total. Counterexamples: no recentring (raises), side 131073 (negative padding)."
  },
  {
   "property": "C57",
   "status": "partial",
   "theorems": [
    "JG.Interp.C57_size_partial",
    "JG.Interp.C57_square_exists",
    "JG.Interp.C57_counterexample_unreached"
   ],
   "note": "Smallest centred box reaching the threshold when some box does; always so for square images and a threshold reached by the total. Counterexample when no box reaches it (0.5 is returned)."
  },
  {
   "property": "C58",
   "status": "partial",
   "theorems": [
    "JG.FitsW.C58_tan_partial",
    "JG.FitsW.C58_counterexample"
   ],
   "note": "TanWCS maps a position to the deprojection of the affine transformation's world position when the affine world origin has u = 0; with u0 != 0 the origin is applied with the wrong sign at every position (counterexample)."
  },
  {
   "property": "C59",
   "status": "partial",
   "theorems": [
    "JG.FitsW.C59_tpv_read_partial",
    "JG.FitsW.C59_counterexample_tpv",
    "JG.FitsW.C59_tpv_roundtrip_partial",
    "JG.FitsW.C59_counterexample_tpv_zero",
    "JG.FitsW.C59_sip_read",
    "JG.FitsW.C59_sip_read_reverse",
    "JG.FitsW.C59_sip_roundtrip",
    "JG.FitsW.C59_tnx_read_partial",
    "JG.FitsW.C59_counterexample_tnx_polynomial"
   ],
   "note": "TPV: reading gives the polynomial of the convention, and write/read round trips, when the terms of highest degree d include a non-zero one with d <= 2j+1; otherwise that degree is dropped (counterexample), and an axis without non-zero coefficients raises IndexError (counterexample). SIP: proved without restriction (reading, reverse tables, round trip). TNX: Chebyshev and Legendre surfaces converted to the polynomials they denote; plain polynomial surfaces raise TypeError (counterexample)."
  },
  {
   "property": "C60",
   "status": "proved",
   "theorems": [
    "JG.FitsW.C60_derivatives",
    "JG.FitsW.C60_sound",
    "JG.FitsW.C60_exact",
    "JG.FitsW.C60_residual",
    "JG.FitsW.C60_fixed",
    "JG.FitsW.C60_linear",
    "JG.FitsW.C60_singular"
   ],
   "note": "Derivative tables are the partial derivatives (HasDerivAt) for all tables; a returned position comes from a Newton step of size <= 2e-12 whose linearisation gives the requested value; exact when the step is zero; fixed points and regular linear tables returned exactly; singular start gives NaN without an error."
  },
  {
   "property": "C61",
   "status": "proved",
   "theorems": [
    "JG.Elt.C61_gaussian",
    "JG.Elt.C61_exponential",
    "JG.Elt.C61_gaussian_within",
    "JG.Elt.C61_gaussian_half",
    "JG.Elt.C61_exponential_within",
    "JG.Elt.C61_exponential_half",
    "JG.Elt.C61_moffat",
    "JG.Elt.C61_moffat_fwhm",
    "JG.Elt.C61_moffat_within",
    "JG.Elt.C61_moffat_half_light",
    "JG.Elt.C61_spergel",
    "JG.Elt.C61_spergel_positive"
   ],
   "note": "Size round trips and argument errors for the four profiles; flux inside a radius by polar integration; Gaussian and exponential half-light and fwhm constants to 1e-9; Moffat exact. The Spergel half-light radius is the code's rational fit: only its positivity and the round trip are proved."
  },
  {
   "property": "C62",
   "status": "proved",
   "theorems": [
    "JG.Elt.C62_elementary",
    "JG.Elt.C62_tree",
    "JG.Elt.C62_constructors",
    "JG.Elt.C62_moffat_continuous",
    "JG.Elt.C62_bound",
    "JG.Elt.C62_moffat_bound"
   ],
   "note": "All trees over the six elementary profiles, plus bounds by the flux and continuity of the exact Moffat transform at zero. The maxk fit of the Moffat is an arbitrary function."
  },
  {
   "property": "C63",
   "status": "partial",
   "theorems": [
    "JG.Elt.C63_exponential_cdf",
    "JG.Elt.C63_exponential_radius",
    "JG.Elt.C63_exponential_flux",
    "JG.Elt.C63_moffat",
    "JG.Elt.C63_box",
    "JG.Elt.C63_spergel_flux",
    "JG.Elt.C63_spergel_cdf",
    "JG.Elt.C63_spergel_radius",
    "JG.Elt.C63_spergel_zmax",
    "JG.Elt.C63_spergel_line",
    "JG.Elt.C63_spergel_negative_counterexample"
   ],
   "note": "Exponential: the table is a valid CDF, its radius is monotone and in range and at the knots encloses the right flux. Moffat: closed form. Box: uniform on the box. Spergel, index > 0: valid CDF, radius range, knots enclose the right flux. Spergel, index <= 0: the inner line carries the right flux, but the cumulative flux exchanges the powers of z, so a counterexample (nu=-1/2) has half its photons within 0.0016 scale radii."
  },
  {
   "property": "C64",
   "status": "partial",
   "theorems": [
    "JG.Tree.C64_deviate",
    "JG.Tree.C64_noise_partial",
    "JG.Tree.C64_noise_rng",
    "JG.Tree.C64_deviateNoise_counterexample",
    "JG.Tree.C64_photons",
    "JG.Tree.C64_image_partial",
    "JG.Tree.C64_image_counterexample",
    "JG.Tree.C64_elementary",
    "JG.Tree.C64_elementary_withGSParams",
    "JG.Tree.C64_sum_flat",
    "JG.Tree.C64_profile_partial",
    "JG.Tree.C64_profile_counterexample",
    "JG.Tree.C64_interpolatedImage",
    "JG.Tree.C64_interpolatedImage_withGS"
   ],
   "note": "Deviates, all noise classes but DeviateNoise, photon arrays, concrete profiles, all nestings of Transformation/Sum/Convolution/Deconvolution with default propagate_gsparams and any withGSParams history, and interpolated images: proved. Counterexamples: DeviateNoise always raises on unflatten; an image with photons but no added_flux; a convolution over a propagate_gsparams=False transformation after withGSParams there and back."
  },
  {
   "property": "C65",
   "status": "partial",
   "theorems": [
    "JG.C65_mirror_slope_partial",
    "JG.C65_mirror_partial",
    "JG.C65_mirror_counterexample"
   ],
   "note": "Holds for all interior cubics; fails at the right end of the table."
  },
  {
   "property": "C66",
   "status": "proved",
   "theorems": [
    "JG.C66_make_from_image"
   ],
   "note": "Outside fixed_photon_array_size and for an image without a wcs scale."
  },
  {
   "property": "C67",
   "status": "proved",
   "theorems": [
    "JG.C67_extremes",
    "JG.C67_maxk",
    "JG.C67_stepk"
   ],
   "note": "For every tree of sums, convolutions and transformations, by induction; the stretch factors are shown to be the extreme values of the length over the unit circle."
  },
  {
   "property": "C68",
   "status": "proved",
   "theorems": [
    "JG.C68_curve",
    "JG.C68_jacobian"
   ],
   "note": "All four projections; the first row is the derivative towards the west (decreasing right ascension)."
  },
  {
   "property": "C69",
   "status": "partial",
   "theorems": [
    "JG.C69_angle",
    "JG.C69_area_partial",
    "JG.C69_area_symm",
    "JG.C69_counterexample_large"
   ],
   "note": "Angles for all triples. area is the spherical excess for areas below pi (area_partial); above, it returns the complement (counterexample theorem, with an example of such a triangle)."
  },
  {
   "property": "C70",
   "status": "proved",
   "theorems": [
    "JG.C70_greatCircle"
   ],
   "note": "All pairs of points."
  },
  {
   "property": "C71",
   "status": "partial",
   "theorems": [
    "JG.Interp.C71_quintic_fluxes",
    "JG.Interp.C71_unit_integrals",
    "JG.Interp.C71_unit_integrals_quintic_partial",
    "JG.Interp.C71_counterexample_quintic",
    "JG.Interp.C71_nearest",
    "JG.Interp.C71_linear",
    "JG.Interp.C71_cubic",
    "JG.Interp.C71_quintic",
    "JG.Interp.C71_unit_flux",
    "JG.Interp.C71_cubic_fluxes"
   ],
   "note": "Fourier pairs proved exactly for Nearest, Linear, Cubic and Quintic at all frequencies; positive and negative fluxes of Cubic exactly and of Quintic to 1e-18. The tabulated unit integrals of Quintic are wrong by 1.6e-8 (counterexample), hence partial."
  },
  {
   "property": "C72",
   "status": "proved",
   "theorems": [
    "JG.Fft.C72_forward",
    "JG.Fft.C72_inverse",
    "JG.Fft.C72_round_trip"
   ],
   "note": "calculate_inverse_fft is modelled for bounds already equal to its target bounds; the branch that pads and wraps other k images is not. jnp.fft functions are defined by their documented sums."
  },
  {
   "property": "C73",
   "status": "proved",
   "theorems": [
    "JG.Fft.C73_mode_sum",
    "JG.Fft.C73_total_flux"
   ],
   "note": "drawFFT_finish up to the real image; sub-image selection and rounding for integer images are covered elsewhere (C03-C05) or not modelled."
  },
  {
   "property": "C74",
   "status": "proved",
   "theorems": [
    "JG.FitsW.C74_plane_curve",
    "JG.FitsW.C74_plane",
    "JG.FitsW.C74_sky_curve",
    "JG.FitsW.C74_sky",
    "JG.FitsW.C74_square_tables"
   ],
   "note": "Proved for all projections, triangular tables, positions off the poles, along all differentiable curves (uses C68_curve). C74_square_tables records that tables with coefficients beyond their order, outside the conventions, are treated differently by _uv and _local."
  },
  {
   "property": "C75",
   "status": "partial",
   "theorems": [
    "JG.FitsW.C75_roundtrip",
    "JG.FitsW.C75_sky_roundtrip",
    "JG.FitsW.C75_newOrigin",
    "JG.FitsW.C75_newOrigin_inverse",
    "JG.FitsW.C75_read_partial",
    "JG.FitsW.C75_counterexample_pc",
    "JG.FitsW.C75_write_plain",
    "JG.FitsW.C75_write_sip",
    "JG.FitsW.C75_write_tpv_partial",
    "JG.FitsW.C75_simplify",
    "JG.FitsW.C75_projection"
   ],
   "note": "Round trips without distortions, origin shifts, plain and SIP header round trips and the linear simplification are proved without restriction; reading is proved except PC without CDELT (counterexample); TPV header round trips under the condition of C59."
  },
  {
   "property": "C76",
   "status": "partial",
   "theorems": [
    "JG.Elt.C76_counterexample_moffat_beta",
    "JG.Elt.C76_moffat",
    "JG.Elt.C76_gaussian",
    "JG.Elt.C76_exponential",
    "JG.Elt.C76_spergel_partial",
    "JG.Elt.C76_moffat_untruncated",
    "JG.Elt.C76_moffat_table",
    "JG.Elt.C76_box",
    "JG.Elt.C76_tree",
    "JG.Elt.C76_tree_xValue",
    "JG.Elt.C76_boxes",
    "JG.Elt.C76_elementary_tree"
   ],
   "note": "Gaussian, exponential, box exact; Moffat: error bounded at every frequency (C76_moffat), the bound is useless where the fit of maxk fails (C76_counterexample_moffat_beta: beta above 100); Spergel: exact beyond 1e-10 scale radii, the series inside is bounded (and shown wrong for small indices) in C96, so the transform of the code's own brightness is missing there."
  },
  {
   "property": "C77",
   "status": "partial",
   "theorems": [
    "JG.Elt.C77_counterexample_moffat_maxk",
    "JG.Elt.C77_gaussian_maxk",
    "JG.Elt.C77_spergel_maxk",
    "JG.Elt.C77_exponential_maxk",
    "JG.Elt.C77_box_maxk",
    "JG.Elt.C77_tree_maxk",
    "JG.Elt.C77_gaussian_stepk",
    "JG.Elt.C77_exponential_stepk_partial",
    "JG.Elt.C77_exponential_stepk_counterexample",
    "JG.Elt.C77_moffat_total",
    "JG.Elt.C77_moffat_stepk",
    "JG.Elt.C77_box_stepk",
    "JG.Elt.C77_minimum",
    "JG.Elt.C77_spergel_stepk"
   ],
   "note": "maxk: Gaussian, exponential, Spergel, box and trees of them; Moffat: the fit (moffat.py:434-568) is modelled with its coefficients, shown to be no band limit for beta above its range of 100; inside the range its accuracy is not proved. stepk: Gaussian, Moffat, box, Spergel hold (Spergel: given that 40 scale radii hold enough flux and no bisection midpoint is exactly the root; both bounds); the exponential exceeds folding_threshold by up to 15% (three iterations from below)."
  },
  {
   "property": "C78",
   "status": "proved",
   "theorems": [
    "JG.Elt.C78_angles",
    "JG.Elt.C78_exponential_radius",
    "JG.Elt.C78_moffat",
    "JG.Elt.C78_box",
    "JG.Elt.C78_gaussian",
    "JG.Elt.C78_delta"
   ],
   "note": "Stated as equality of expectations of every bounded measurable test function; deviates are taken as independent uniform (or standard normal) reals. The radial law of exponential and Spergel photons is tabulated by the code and is covered node by node in C63."
  },
  {
   "property": "C79",
   "status": "partial",
   "theorems": [
    "JG.Elt.C79_tree",
    "JG.Elt.C79_pixel",
    "JG.Elt.C79_probabilities",
    "JG.Elt.C79_difference_counterexample"
   ],
   "note": "Needs every term of a sum to have a positive absolute flux: the code reports negative absolute fluxes for subtracted profiles and then passes negative probabilities (C79_difference_counterexample). Exponential and Spergel leaves are covered by C79_tree only under the hypothesis on their photons; independence of deviates is assumed."
  },
  {
   "property": "C80",
   "status": "partial",
   "theorems": [
    "JG.C80_pixels",
    "JG.C80_covers",
    "JG.C80_error_partial",
    "JG.C80_error_counterexample",
    "JG.C80_single_pixel_counterexample"
   ],
   "note": "Pixel values, step, size and centring proved for all arguments; automatic size reaches maxk. That the image passed in is unchanged after an exception is false (ShearWCS image: recentred before the failure); only its pixels are (C80_error_partial). A single-pixel k-image raises ZeroDivisionError."
  },
  {
   "property": "C81",
   "status": "partial",
   "theorems": [
    "JG.C81_real_partial",
    "JG.C81_fft_partial",
    "JG.C81_draws_real",
    "JG.C81_draws_fft"
   ],
   "note": "Real-space and FFT drawing proved for all object trees, uniform wcs and arguments, with photon shooting a parameter. Missing: an image with undefined bounds together with center (wrong placement, see C31_undefined_image_counterexample), FFT grids of odd size, float rounding."
  },
  {
   "property": "C82",
   "status": "partial",
   "theorems": [
    "JG.C82_check",
    "JG.C82_rejected",
    "JG.C82_error_partial",
    "JG.C82_wcs_lost_counterexample",
    "JG.C82_moved_counterexample",
    "JG.C82_hard_edge_counterexample"
   ],
   "note": "Completeness of the checks and rejection without side effects proved; on later exceptions only the pixels and the size are kept (C82_error_partial): counterexamples show a lost wcs and an image left recentred with a unit pixel scale. Boxes cannot be drawn with the default method."
  },
  {
   "property": "C83",
   "status": "partial",
   "theorems": [
    "JG.C83_pixels_partial",
    "JG.C83_total_partial",
    "JG.C83_requested",
    "JG.C83_makePhot",
    "JG.C83_average_partial",
    "JG.C83_image_partial",
    "JG.C83_reports",
    "JG.C83_added_flux",
    "JG.C83_gain_counterexample",
    "JG.C83_erased_counterexample",
    "JG.C83_zero_photons_counterexample",
    "JG.C83_draws"
   ],
   "note": "Missing: arrays larger than the number of photons shot into them (C30_small_maxN_counterexample), integer images (C28_integer), photon operators, other sensors, exponential and Spergel profiles in the averages (their photon laws are approximations, C78). added_flux is smaller by the gain, a failing shoot has already erased the image, and n_photons=0 draws nothing: proved as counterexamples."
  },
  {
   "property": "C84",
   "status": "proved",
   "theorems": [
    "JG.C84_moments",
    "JG.C84_origin",
    "JG.C84_moved",
    "JG.C84_symmetries",
    "JG.C84_positive",
    "JG.C84_brightness",
    "JG.C84_sum",
    "JG.C84_shape",
    "JG.C84_shape_image"
   ],
   "note": "Images, positions and pixel sums in exact arithmetic; a total of zero (nan in the code) is `none`. The specification (pixelSum, light, lightMean, lightCov) sums over the map from coordinates to pixel values, not over the array."
  },
  {
   "property": "C85",
   "status": "proved",
   "theorems": [
    "JG.Quad.C85_weights",
    "JG.Quad.C85_integral",
    "JG.Quad.C85_error",
    "JG.Quad.C85_converges",
    "JG.Quad.C85_error_weights"
   ],
   "note": "Exact reals; the FFT is the exact discrete transform. C85_weights (exactness below degree n, positivity, points), C85_integral (degree 2 order + 1 on any interval), C85_error and C85_converges (continuous functions), C85_error_weights (difference of the two rules; the code does not rescale these weights to [0, 1] as it does the others, they are used nowhere)."
  },
  {
   "property": "C86",
   "status": "partial",
   "theorems": [
    "JG.EqH.C86_equal_partial",
    "JG.EqH.C86_equivalence",
    "JG.EqH.C86_hash_partial",
    "JG.EqH.C86_hash_counterexample_gsparams",
    "JG.EqH.C86_counterexample_brackets",
    "JG.EqH.C86_counterexample_raises",
    "JG.EqH.C86_counterexample_tuple",
    "JG.EqH.C86_wcs_hash_partial",
    "JG.EqH.C86_wcs_counterexample_int"
   ],
   "note": "C86_equal_partial and C86_equivalence: full description of == for scalar parameters that are not NaN. C86_hash_partial: hash contract for profiles whose accuracy parameters have the declared types and whose parameters are not single numbers in brackets (arrays and NaN allowed otherwise). Missing, because false: integer accuracy parameters (C86_hash_counterexample_gsparams), one-entry arrays (C86_counterexample_brackets), number against longer array raises (C86_counterexample_raises), tuple against list of objects (C86_counterexample_tuple), integer pixel scales (C86_wcs_counterexample_int). InterpolatedImage is treated in C87."
  },
  {
   "property": "C87",
   "status": "partial",
   "theorems": [
    "JG.Interp.C87_light",
    "JG.Interp.C87_integral",
    "JG.Interp.C87_counterexample_quarter",
    "JG.Interp.C87_integral_lanczos",
    "JG.Interp.C87_integral_plain",
    "JG.Interp.C87_light_partial",
    "JG.Interp.C87_pixels",
    "JG.Interp.C87_flux",
    "JG.Interp.C87_drawReal_partial",
    "JG.Interp.C87_accepts",
    "JG.Interp.C87_system",
    "JG.Interp.C87_integral_partial",
    "JG.Interp.C87_centroid_partial",
    "JG.Interp.C87_counterexample_centroid",
    "JG.Interp.C87_ranges_partial",
    "JG.Interp.C87_counterexample_ranges",
    "JG.Interp.C87_equal_partial",
    "JG.Interp.C87_counterexample_equal",
    "JG.Interp.C87_counterexample_hash"
   ],
   "note": "Proved: acceptance of arguments, choice of the coordinate system, flux, pixel values at pixel positions, brightness at every position for every kernel (with the part of the kernel that the window shows), integral over the plane and mean of the light for linear, cubic and quintic exactly, for Lanczos with conserve_dc to a stated small error with exact mean, for plain Lanczos with the exact factor. Missing: the integral for sinc. Disproved with witnesses: the integral for nearest and delta (a quarter of the flux), centroid for even-sized images or offsets, maxk/stepk for coordinate systems that stretch directions differently, equality ignoring the coordinate system, hash of equal objects with different pad factors."
  },
  {
   "property": "C88",
   "status": "partial",
   "theorems": [
    "JG.Interp.C88_between",
    "JG.Interp.C88_between_default",
    "JG.Interp.C88_modes_partial",
    "JG.Interp.C88_origin",
    "JG.Interp.C88_outside",
    "JG.Interp.C88_tail_linear",
    "JG.Interp.C88_tail_cubic_partial",
    "JG.Interp.C88_tail_quintic_partial",
    "JG.Interp.C88_counterexample_tail",
    "JG.Interp.C88_lost_linear"
   ],
   "note": "Proved: equality with the Fourier integral of the brightness at every mode of the padded transform inside the range, for linear, cubic and quintic; between the modes the error is bounded in the phase across half the image and the first power the kernel of Fourier space does not reproduce (2.6 per cent of the flux with quintic and pad factor 4, times absolute over total light); value at the origin for every kernel; zero outside the range; bound on what is lost for linear, asymptotic bounds for cubic and quintic. Equality between the modes does not hold, the code interpolates there. Disproved with a witness: beyond the range the quintic transform is below kvalue_accuracy (default 1e-5)."
  },
  {
   "property": "C89",
   "status": "partial",
   "theorems": [
    "JG.Interp.C89_kernel",
    "JG.Interp.C89_mean",
    "JG.Interp.C89_law_partial",
    "JG.Interp.C89_total",
    "JG.Interp.C89_delta",
    "JG.Interp.C89_sinc",
    "JG.Interp.C89_fluxes",
    "JG.Interp.C89_has_photons",
    "JG.Interp.C89_cubic_partial",
    "JG.Interp.C89_quintic_partial",
    "JG.Interp.C89_near_partial",
    "JG.Interp.C89_unit_partial",
    "JG.Interp.C89_counterexample_negative"
   ],
   "note": "Proved: the exact law of the photons for any signs of the pixels and any kernel that can be shot (C89_mean, C89_kernel), equality with the integral of the brightness for the linear kernel and non-negative pixels, and an explicit bound on the error for cubic and quintic, whose kernel is sampled from a table of 10000 points (0.002 and 0.005 pointwise). Missing: the nearest kernel has no separate theorem on the brightness at pixel edges; cubic and quintic only up to the stated bounds. Disproved with a witness: for images with negative pixels the expected flux is not the flux of the object."
  },
  {
   "property": "C90",
   "status": "partial",
   "theorems": [
    "JG.Interp.C90_maxk",
    "JG.Interp.C90_quiet_partial",
    "JG.Interp.C90_stepk_partial",
    "JG.Interp.C90_stepk_square",
    "JG.Interp.C90_stepk_plain",
    "JG.Interp.C90_counterexample_origin"
   ],
   "note": "C90_maxk gives the exact ring at which the scan stops, for every image and limit; the ring of the mode zero is left out by the code (C90_counterexample_origin), and modes beyond the five quiet rings are not looked at. For stepk the radius is shown to hold the light whenever a tried square does, which is always so for images not more than twice as wide as high (C90_stepk_square); C57_counterexample_unreached shows the other case. A number given as calculate_stepk is not modelled."
  },
  {
   "property": "C91",
   "status": "partial",
   "theorems": [
    "JG.Sky.C91_local",
    "JG.Sky.C91_affine",
    "JG.Sky.C91_sky",
    "JG.Sky.C91_sky_uniform",
    "JG.Sky.C91_sky_celestial",
    "JG.Sky.C91_derivative",
    "JG.Sky.C91_local_celestial_partial",
    "JG.Sky.C91_shift",
    "JG.Sky.C91_counterexample_jump",
    "JG.Sky.C91_counterexample_integer",
    "JG.Sky.C91_counterexample_const"
   ],
   "note": "C91_local, C91_affine, C91_derivative, C91_sky, C91_sky_uniform and C91_sky_celestial are complete. Celestial local systems are only right away from jumps of the right ascension (C91_counterexample_jump); integer images are truncated by uniform and celestial systems (C91_counterexample_integer) and constant images are overwritten by the non-uniform ones (C91_counterexample_const). There is no public makeSkyImage in the code, only the private methods."
  },
  {
   "property": "C92",
   "status": "partial",
   "theorems": [
    "JG.IntIm.C92_inplace",
    "JG.IntIm.C92_binary",
    "JG.IntIm.C92_reflected",
    "JG.IntIm.C92_shape",
    "JG.IntIm.C92_run",
    "JG.IntIm.C92_restore",
    "JG.IntIm.C92_neg",
    "JG.IntIm.C92_divmod",
    "JG.IntIm.C92_idiv",
    "JG.IntIm.C92_pow",
    "JG.IntIm.C92_ipow_float",
    "JG.IntIm.C92_counterexample_divisor"
   ],
   "note": "Complete for image operands and, except for // and %, for all Python integers. Divisions by Python integers need the divisor to be a number of the pixel type: C92_counterexample_divisor shows that a negative divisor of an unsigned image is taken modulo 2^16. Divisions by zero are arbitrary. The promotion of types and the wrapping of Python integers by jax are assumptions (64-bit integers enabled). Powers and float operands are in C20/C21."
  },
  {
   "property": "C93",
   "status": "proved",
   "theorems": [
    "JG.BesK.C93_orders",
    "JG.BesK.C93_series_exact",
    "JG.BesK.C93_loop_ends",
    "JG.BesK.C93_small_exact",
    "JG.BesK.C93_fraction_limit",
    "JG.BesK.C93_fraction",
    "JG.BesK.C93_large",
    "JG.BesK.C93_olver",
    "JG.BesK.C93_above_two",
    "JG.BesK.C93_tables",
    "JG.BesK.C93_series",
    "JG.BesK.C93_accuracy",
    "JG.BesK.C93_coefficients",
    "JG.BesK.C93_edges",
    "JG.BesK.C93_gradient",
    "JG.BesK.C93_counterexample_order"
   ],
   "note": "Proved from the code as it is, with its tables and loops, in exact real arithmetic (C93_accuracy; for orders from 50 on, arguments up to |nu|/sqrt(eps), where _sqrt1px2 changes formula). The gradient for the order is zero, which disagrees with the function (C93_counterexample_order, documented in the code as not supported)."
  },
  {
   "property": "C94",
   "status": "proved",
   "theorems": [
    "JG.Si.C94_odd",
    "JG.Si.C94_small",
    "JG.Si.C94_accuracy",
    "JG.Si.C94_limit"
   ],
   "note": "Constants are the exact decimal fractions of the source; rounding of floating point is not modelled."
  },
  {
   "property": "C95",
   "status": "proved",
   "theorems": [
    "JG.J0.C95_series",
    "JG.J0.C95_even",
    "JG.J0.C95_zero",
    "JG.J0.C95_inner",
    "JG.J0.C95_outer",
    "JG.J0.C95_accuracy"
   ],
   "note": "Constants are the exact decimal fractions of the source; rounding of floating point is not modelled. One argument; arrays apply it entry by entry."
  },
  {
   "property": "C96",
   "status": "partial",
   "theorems": [
    "JG.Elt.C96_enclosed",
    "JG.Elt.C96_increasing_counterexample",
    "JG.Elt.C96_double_counterexample",
    "JG.Elt.C96_value_partial"
   ],
   "note": "Enclosed flux proved at every radius (index at least 1e-9 from the integers, or 0-4). Surface brightness within 1e-10 scale radii: error bound in terms of the leading term (partial); the code drops the sign of Gamma, giving a profile that rises outwards for 0 < nu < 1 and more than twice the true value near nu = 0.01-0.02 (counterexamples). Indices within 1e-9 of an integer are not covered."
  },
  {
   "property": "C97",
   "status": "proved",
   "theorems": [
    "JG.C97_smooth",
    "JG.C97_rounded",
    "JG.C97_modulus",
    "JG.C97_converges",
    "JG.C97_quadratic"
   ],
   "note": "The bound of the last interval is larger because the code takes its end slopes from too far left (see C65)."
  },
  {
   "property": "C98",
   "status": "proved",
   "theorems": [
    "JG.Interp.C98_raw",
    "JG.Interp.C98_raw_error",
    "JG.Interp.C98_weighted",
    "JG.Interp.C98_reciprocal",
    "JG.Interp.C98_centre",
    "JG.Interp.C98_small",
    "JG.Interp.C98_dc",
    "JG.Interp.C98_divisor",
    "JG.Interp.C98_constant",
    "JG.Interp.C98_umax",
    "JG.Interp.C98_urange",
    "JG.Interp.C98_table",
    "JG.Interp.C98_outside",
    "JG.Interp.C98_kval"
   ],
   "note": "The sine integral is the exact one or any function within a stated error of it (GalSim's own si is not modelled; the si of bessel.py is within 7e-15 by C94). Constants are reproduced for n >= 2; n = 1 is not covered by the weight-sum bound. The coefficients C agree with the reciprocal of the divisor to second order in K only: the K1^2 term of C[3] makes the value at the centre 1 + 2 K1 (K1 - 2 K2 - K3) (C98_centre)."
  },
  {
   "property": "C99",
   "status": "partial",
   "theorems": [
    "JG.Integ.C99_finite",
    "JG.Integ.C99_failure",
    "JG.Integ.C99_failure_raised",
    "JG.Integ.C99_half",
    "JG.Integ.C99_line",
    "JG.Integ.C99_partial",
    "JG.Integ.C99_counterexample_both",
    "JG.Integ.C99_counterexample_tail"
   ],
   "note": "Finite limits within the cutoff of 1e4, half lines and the whole line are within tolerance of the integral whenever quadgk is accurate when it reports success; failures are never hidden. Finite limits above the cutoff are replaced by infinity: bounded by the tails (C99_partial), with counterexamples (integral from 20000 to 40000 comes out as zero). quadgk itself is third-party code and is an assumption."
  },
  {
   "property": "C100",
   "status": "partial",
   "theorems": [
    "JG.Conv.C100_bounds_from",
    "JG.Conv.C100_bounds_to",
    "JG.Conv.C100_bounds_round",
    "JG.Conv.C100_bounds_back",
    "JG.Conv.C100_position",
    "JG.Conv.C100_shear_from",
    "JG.Conv.C100_shear_to",
    "JG.Conv.C100_gsparams",
    "JG.Conv.C100_coord",
    "JG.Conv.C100_wcs_round",
    "JG.Conv.C100_wcs_back",
    "JG.Conv.C100_wcs_map",
    "JG.Conv.C100_refused",
    "JG.Conv.C100_counterexample_unmatched",
    "JG.Conv.C100_counterexample_none",
    "JG.Conv.C100_image",
    "JG.Conv.C100_image_undefined",
    "JG.Conv.C100_image_round_partial",
    "JG.Conv.C100_counterexample_image"
   ],
   "note": "Bounds, positions, shears, GSParams, coordinates, coordinate systems and image pixels survive in both directions. Not the header and the constness of images, and from_galsim of a jax_galsim coordinate system returns None (counterexamples)."
  },
  {
   "property": "C101",
   "status": "partial",
   "theorems": [
    "JG.IName.C101_name",
    "JG.IName.C101_only",
    "JG.IName.C101_unknown",
    "JG.IName.C101_counterexample_order",
    "JG.IName.C101_gsparams",
    "JG.IName.C101_withGSParams_partial",
    "JG.IName.C101_counterexample_withGSParams",
    "JG.IName.C101_eq",
    "JG.IName.C101_hash_partial",
    "JG.IName.C101_counterexample_hash",
    "JG.IName.C101_hash_class",
    "JG.IName.C101_roundtrip"
   ],
   "note": "Names, refusal, tol/gsparams, equality and the round trip are proved for all strings and parameters.  False of the code and proved as negations: orders 0 and above 30 raise a bare KeyError, withGSParams ignores keywords when the given gsparams equal the own ones, equal interpolants with 5 and 5.0 among the parameters hash different.  str.lower and int are modelled for ASCII."
  },
  {
   "property": "C102",
   "status": "partial",
   "theorems": [
    "JG.C102_init",
    "JG.C102_init_size",
    "JG.C102_eq_partial",
    "JG.C102_counterexample_eq_none",
    "JG.C102_counterexample_eq_corr",
    "JG.C102_repr_partial",
    "JG.C102_counterexample_repr_corr",
    "JG.C102_fromArrays",
    "JG.C102_counterexample_pair",
    "JG.C102_scope",
    "JG.C102_scope_unique"
   ],
   "note": "Construction, fromArrays and the scope of the fixed size are proved in full.  Equality and the text are proved for arrays that keep a photon; false of the code and proved as negations: an array that keeps no photon is not equal to its copy, the correlated flag is neither compared nor printed, fromArrays with one angle leaves the other NaN unlike the constructor.  Scalars broadcast by the setters are not modelled."
  },
  {
   "property": "C103",
   "status": "proved",
   "theorems": [
    "JG.AngOp.C103_value",
    "JG.AngOp.C103_type_error",
    "JG.AngOp.C103_defined",
    "JG.AngOp.C103_measure",
    "JG.AngOp.C103_compare",
    "JG.AngOp.C103_equal",
    "JG.AngOp.C103_init",
    "JG.AngOp.C103_repr",
    "JG.AngOp.C103_from_name",
    "JG.AngOp.C103_valid_names",
    "JG.AngOp.C103_trig"
   ],
   "note": "Proved for all expressions by structural induction: kinds, values, errors; invariance under a change of the internal measure; comparisons, equality, hash; constructors, from_name, text. Python's operator protocol (reflected methods) is part of the model. Strings given to AngleUnit(...) and non-ASCII text are outside."
  },
  {
   "property": "C104",
   "status": "proved",
   "theorems": [
    "JG.WApi.C104_position",
    "JG.WApi.C104_numbers",
    "JG.WApi.C104_back",
    "JG.WApi.C104_back_numbers",
    "JG.WApi.C104_legal_world",
    "JG.WApi.C104_legal_image",
    "JG.WApi.C104_local",
    "JG.WApi.C104_local_refused",
    "JG.WApi.C104_objects",
    "JG.WApi.C104_color",
    "JG.WApi.C104_default_color",
    "JG.WApi.C104_affine",
    "JG.WApi.C104_shift_celestial",
    "JG.WApi.C104_shift_euclidean"
   ],
   "note": "Argument dispatch, type checks, colours, units, local/jacobian/affine and shiftOrigin for systems given by arbitrary functions; scalar arguments, project_center not modelled."
  },
  {
   "property": "C105",
   "status": "partial",
   "theorems": [
    "JG.C105_write",
    "JG.C105_read",
    "JG.C105_program",
    "JG.C105_bounds",
    "JG.C105_refused_partial",
    "JG.C105_counterexample_tuple",
    "JG.C105_counterexample_float",
    "JG.C105_views",
    "JG.C105_centers"
   ],
   "note": "Reads, writes, programs, views and pixel centres are proved. Missing: an index tuple with surplus entries is accepted when assigning (C105_counterexample_tuple), and floats that are whole numbers are accepted by writes and calls but not by im[x, y] (C105_counterexample_float)."
  },
  {
   "property": "C106",
   "status": "proved",
   "theorems": [
    "JG.C106_read",
    "JG.C106_rotate",
    "JG.C106_shear",
    "JG.C106_expand",
    "JG.C106_flip"
   ],
   "note": "Numbers in the text are exact; the zero matrix, whose decomposition divides by zero, is excluded."
  },
  {
   "property": "C107",
   "status": "partial",
   "theorems": [
    "JG.C107_axisymmetric",
    "JG.C107_deconvolution",
    "JG.C107_centroid",
    "JG.C107_kept",
    "JG.C107_analytic_x_partial",
    "JG.C107_counterexample_single"
   ],
   "note": "is_axisymmetric is proved for all trees. is_analytic_x is proved for trees without convolutions; missing: the convolution of one profile claims to be analytic but its surface brightness raises (C107_counterexample_single)."
  },
  {
   "property": "C108",
   "status": "partial",
   "theorems": [
    "JG.C108_shift",
    "JG.C108_relabel",
    "JG.C108_sub",
    "JG.C108_copy",
    "JG.C108_program",
    "JG.C108_resize",
    "JG.C108_copy_wcs",
    "JG.C108_scale_set",
    "JG.C108_scale_partial",
    "JG.C108_counterexample_shear",
    "JG.C108_counterexample_reset"
   ],
   "note": "All claims about relabelling, parts, copies and programs are proved, and the setter of the scale. The getter returns the scale of a ShearWCS (C108_counterexample_shear), and im.scale = im.scale drops the origin of a shifted image (C108_counterexample_reset)."
  },
  {
   "property": "C109",
   "status": "partial",
   "theorems": [
    "JG.C109_flux",
    "JG.C109_count",
    "JG.C109_mean_partial",
    "JG.C109_counterexample_negative"
   ],
   "note": "All claims are proved over the Poisson distribution of Mathlib; calculate_mean_n_photons is proved for fluxes >= 0, for negative fluxes it returns a negative number (C109_counterexample_negative). The default max_sb = inf is not covered."
  },
  {
   "property": "C110",
   "status": "partial",
   "theorems": [
    "JG.C110_elementary",
    "JG.C110_spergel_partial",
    "JG.C110_tree_partial",
    "JG.C110_transform",
    "JG.C110_gaussians",
    "JG.C110_deconvolution",
    "JG.C110_counterexample_sum",
    "JG.C110_counterexample_boxes",
    "JG.C110_counterexample_spergel"
   ],
   "note": "Proved for all elementary profiles (Spergel outside 1e-10 scale radii, positive index), their transformations and sums of parts with non-negative flux; exact for convolutions of Gaussians, and undone by deconvolution. The code violates the claim for sums with negative parts (C110_counterexample_sum), for convolutions of pixels (C110_counterexample_boxes) and for Spergel profiles within 1e-10 scale radii (C110_counterexample_spergel)."
  },
  {
   "property": "C111",
   "status": "partial",
   "theorems": [
    "JG.Tree.C111_gsparams_partial",
    "JG.Tree.C111_roundtrip_partial",
    "JG.Tree.C111_injective_partial",
    "JG.Tree.C111_counterexample_gsparams",
    "JG.Tree.C111_counterexample_propagate"
   ],
   "note": "Proved for all profiles built by the constructors and withGSParams except interpolated images. The code violates the claim for GSParams whose integer fields hold other numbers (C111_counterexample_gsparams) and for a propagating transformation of a non-propagating one (C111_counterexample_propagate)."
  },
  {
   "property": "C112",
   "status": "partial",
   "theorems": [
    "JG.C112_scene_partial",
    "JG.C112_order_partial",
    "JG.C112_sum_partial",
    "JG.C112_draws"
   ],
   "note": "Lists of any length by induction; the calls may mix methods, offsets and wcs arguments as long as each asks for the same wcs. Photon shooting is left out (its pixels are random), and the image of a Sum is compared in real space only: by FFT the sum and its terms use grids of different sizes."
  },
  {
   "property": "C113",
   "status": "partial",
   "theorems": [
    "JG.Rg.C113_roundtrip_partial",
    "JG.Rg.C113_injective_partial",
    "JG.Rg.C113_hash_partial",
    "JG.Rg.C113_counterexample_hash",
    "JG.Rg.C113_counterexample_bounds"
   ],
   "note": "Reading back and telling apart hold for all objects except bounds that count as defined although empty (jax deltas, counterexample). Equal WCS hash alike only if their scalars are of the same kinds: PixelScale(2) == PixelScale(2.0) with different hashes (counterexample). Signed zeros, nan and arrays inside one object are not modelled."
  },
  {
   "property": "C114",
   "status": "partial",
   "theorems": [
    "JG.Rr.C114_deviate",
    "JG.Rr.C114_serialize",
    "JG.Rr.C114_eq",
    "JG.Rr.C114_noise_partial",
    "JG.Rr.C114_counterexample_int_sigma",
    "JG.Rr.C114_counterexample_jax"
   ],
   "note": "Proved in full for deviates. For noises only when the numbers print as Python floats: Gaussian noise with an integer sigma reads back unequal, Poisson and CCD noise with jax parameters do not read back at all (counterexamples). VariableGaussianNoise (text of an image) and numpy scalars are not modelled. wrap_key_data undoing key_data is assumed of jax."
  },
  {
   "property": "C115",
   "status": "proved",
   "theorems": [
    "JG.FitsW.C115_roundtrip",
    "JG.FitsW.C115_eq",
    "JG.FitsW.C115_pytree"
   ],
   "note": "Numbers are floats throughout (headers are read with float()); nan and empty coefficient arrays are left out. The text of the centre is read back as in C113."
  },
  {
   "property": "C116",
   "status": "proved",
   "theorems": [
    "JG.C116_applyTo",
    "JG.C116_template",
    "JG.C116_total",
    "JG.C116_profiles",
    "JG.C116_flux"
   ],
   "note": "Random numbers are arbitrary; the angles and pupil coordinates of the array are allocated in pairs, as the setters do. C116_flux is for profiles without negative parts."
  },
  {
   "property": "C117",
   "status": "proved",
   "theorems": [
    "JG.Pickle.C117_arguments",
    "JG.Pickle.C117_withGS",
    "JG.Pickle.C117_pickle",
    "JG.Pickle.C117_copy",
    "JG.Pickle.C117_wrapper",
    "JG.Pickle.C117_twice",
    "JG.Pickle.C117_gsparams",
    "JG.Pickle.C117_gsparams_eq"
   ],
   "note": "The dictionaries live in a heap so that aliasing is visible, also for withGSParams of interpolated images. The opaque attribute values themselves are shared or serialised by python, which is not modelled."
  },
  {
   "property": "C118",
   "status": "partial",
   "theorems": [
    "JG.InterpCheck.C118_accepts",
    "JG.InterpCheck.C118_names",
    "JG.InterpCheck.C118_wcs",
    "JG.InterpCheck.C118_flux",
    "JG.InterpCheck.C118_usable_partial",
    "JG.InterpCheck.C118_depixelize_counterexample",
    "JG.InterpCheck.C118_zero_flux_counterexample"
   ],
   "note": "Acceptance, wcs and flux are proved. Usability fails for depixelize=True, accepted by the constructor and refused at first use; images summing to zero are accepted when no flux and no size is asked for. Counterexamples are proved."
  },
  {
   "property": "C119",
   "status": "partial",
   "theorems": [
    "JG.Compound.C119_sum",
    "JG.Compound.C119_convolution",
    "JG.Compound.C119_convolve",
    "JG.Compound.C119_nested_counterexample",
    "JG.Compound.C119_hard_edges_counterexample"
   ],
   "note": "Both constructors are characterised in full. Convolve and Convolution differ for a list in a list and for the empty sequence, and two analytic profiles with hard edges raise NotImplementedError unless real_space=False is given; these are proved as counterexamples."
  },
  {
   "property": "C120",
   "status": "partial",
   "theorems": [
    "JG.FitsF.C120_args",
    "JG.FitsF.C120_file",
    "JG.FitsF.C120_linear_cd",
    "JG.FitsF.C120_linear_cdelt",
    "JG.FitsF.C120_written",
    "JG.FitsF.C120_celestial",
    "JG.FitsF.C120_no_warning",
    "JG.FitsF.C120_image_origin",
    "JG.FitsF.C120_counterexample_cd",
    "JG.FitsF.C120_counterexample_pc"
   ],
   "note": "Proved for arbitrary readers of files and celestial headers. Disagreements: a CD matrix without CTYPE1 and CDELT1 is dropped in favour of PixelScale(1.0), and the PC matrix of a linear header is ignored without a warning. Numeric keys are taken to hold numbers; the tag for the repr is left out."
  },
  {
   "property": "C121",
   "status": "proved",
   "theorems": [
    "JG.C121_positional",
    "JG.C121_keywords",
    "JG.C121_four",
    "JG.C121_four_covers",
    "JG.C121_delta_covers",
    "JG.C121_corners",
    "JG.C121_point",
    "JG.C121_nothing",
    "JG.C121_order"
   ],
   "note": "Numbers are those of the class; a BoundsI of other numbers raises TypeError (bounds.py:504-527) and is left out, as is the conversion from the other class, which is in C05."
  }
 ]
}