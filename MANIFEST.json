{
 "claims": [
  {
   "property": "C01",
   "status": "proved",
   "theorems": [
    "Caustics.C01_rotate_derotate",
    "Caustics.C01_derotate_rotate",
    "Caustics.C01_rotate_isometry",
    "Caustics.C01_derotate_isometry",
    "Caustics.C01_direction",
    "Caustics.C01_none"
   ],
   "note": ""
  },
  {
   "property": "C02",
   "status": "proved",
   "theorems": [
    "Caustics.C02_ellipseQuad_code",
    "Caustics.C02_range",
    "Caustics.C02_idempotent",
    "Caustics.C02_identity",
    "Caustics.C02_same_ellipses",
    "Caustics.C02_same_isophotes"
   ],
   "note": ""
  },
  {
   "property": "C03",
   "status": "proved",
   "theorems": [
    "Caustics.C03_e_q",
    "Caustics.C03_c_q",
    "Caustics.C03_e_phi",
    "Caustics.C03_c_phi",
    "Caustics.C03_circular",
    "Caustics.C03_e_roundtrip",
    "Caustics.C03_e_clamped",
    "Caustics.C03_c_roundtrip",
    "Caustics.C03_range"
   ],
   "note": ""
  },
  {
   "property": "C04",
   "status": "proved",
   "theorems": [
    "Caustics.C04_parameters",
    "Caustics.C04_values",
    "Caustics.C04_invalid",
    "Caustics.C04_valid"
   ],
   "note": ""
  },
  {
   "property": "C05",
   "status": "proved",
   "theorems": [
    "Caustics.C05_plane_world_plane",
    "Caustics.C05_world_plane_world",
    "Caustics.C05_sip_terms",
    "Caustics.C05_pixel_plane_pixel_sip",
    "Caustics.C05_pixel_plane_pixel",
    "Caustics.C05_pixel_world_pixel",
    "Caustics.C05_reference",
    "Caustics.C05_singular"
   ],
   "note": ""
  },
  {
   "property": "C06",
   "status": "proved",
   "theorems": [
    "Caustics.C06_entries",
    "Caustics.C06_spacing",
    "Caustics.C06_centred"
   ],
   "note": ""
  },
  {
   "property": "C07",
   "status": "proved",
   "theorems": [
    "Caustics.C07_weights_sum",
    "Caustics.C07_affine",
    "Caustics.C07_symmetric",
    "Caustics.C07_bounded",
    "Caustics.C07_polynomial"
   ],
   "note": ""
  },
  {
   "property": "C08",
   "status": "proved",
   "theorems": [
    "Caustics.C08_knots",
    "Caustics.C08_affine",
    "Caustics.C08_extend",
    "Caustics.C08_segment",
    "Caustics.C08_total"
   ],
   "note": ""
  },
  {
   "property": "C09",
   "status": "proved",
   "theorems": [
    "Caustics.C09_total",
    "Caustics.C09_errors",
    "Caustics.C09_centre",
    "Caustics.C09_cell",
    "Caustics.C09_bounded",
    "Caustics.C09_border_extrapolates",
    "Caustics.C09_nearest",
    "Caustics.C09_nearest_tie",
    "Caustics.C09_zeros",
    "Caustics.C09_clamp",
    "Caustics.C09_affine"
   ],
   "note": ""
  },
  {
   "property": "C10",
   "status": "proved",
   "theorems": [
    "Caustics.C10_total",
    "Caustics.C10_errors",
    "Caustics.C10_centre",
    "Caustics.C10_cell",
    "Caustics.C10_bounded",
    "Caustics.C10_zeros",
    "Caustics.C10_constant"
   ],
   "note": ""
  },
  {
   "property": "C11",
   "status": "proved",
   "theorems": [
    "Caustics.C11_centre",
    "Caustics.C11_supplied_maps",
    "Caustics.C11_exact",
    "Caustics.C11_derivatives",
    "Caustics.C11_pixelated_potential"
   ],
   "note": ""
  },
  {
   "property": "C12",
   "status": "partial",
   "theorems": [
    "Caustics.C12_fails",
    "Caustics.C12_kernels_partial",
    "Caustics.C12_constant_partial"
   ],
   "note": "False as claimed: the returned maps have the opposite sign and the axes are named the other way round (C12_fails). C12_kernels_partial states what is computed; C12_constant_partial: constant images give zero maps."
  },
  {
   "property": "C13",
   "status": "proved",
   "theorems": [
    "Caustics.C13_total",
    "Caustics.C13_chunk_size_irrelevant",
    "Caustics.C13_partition",
    "Caustics.C13_errors",
    "Caustics.C13_mismatch"
   ],
   "note": ""
  },
  {
   "property": "C14",
   "status": "proved",
   "theorems": [
    "Caustics.C14_superposition",
    "Caustics.C14_order",
    "Caustics.C14_empty",
    "Caustics.C14_nesting"
   ],
   "note": ""
  },
  {
   "property": "C15",
   "status": "proved",
   "theorems": [
    "Caustics.C15_batched_eq_single"
   ],
   "note": ""
  },
  {
   "property": "C16",
   "status": "proved",
   "theorems": [
    "Caustics.C16_lens_equation",
    "Caustics.C16_exists_unique",
    "Caustics.C16_empty",
    "Caustics.C16_effective_deflection"
   ],
   "note": ""
  },
  {
   "property": "C17",
   "status": "partial",
   "theorems": [
    "Caustics.C17_order_partial",
    "Caustics.C17_fails_last_not_farthest",
    "Caustics.C17_fails_wrong_value",
    "Caustics.C17_fails"
   ],
   "note": "The code uses the user's list order, so the full claim is false: C17_fails. C17_order_partial: any permutation listed by increasing redshift gives the same result."
  },
  {
   "property": "C18",
   "status": "proved",
   "theorems": [
    "Caustics.C18_one_plane"
   ],
   "note": ""
  },
  {
   "property": "C19",
   "status": "proved",
   "theorems": [
    "Caustics.C19_identity",
    "Caustics.C19_insert"
   ],
   "note": ""
  },
  {
   "property": "C20",
   "status": "partial",
   "theorems": [
    "Caustics.C20_ratio_partial",
    "Caustics.C20_fails"
   ],
   "note": "The full claim (delays agree) is false: C20_fails. C20_ratio_partial gives the exact factors by which the two terms differ."
  },
  {
   "property": "C21",
   "status": "proved",
   "theorems": [
    "Caustics.C21_round_trip",
    "Caustics.C21_lens_consistent",
    "Caustics.C21_physical_first"
   ],
   "note": ""
  },
  {
   "property": "C22",
   "status": "proved",
   "theorems": [
    "Caustics.C22_comoving",
    "Caustics.C22_transverse",
    "Caustics.C22_angular",
    "Caustics.C22_time_delay_distance",
    "Caustics.C22_delay_factor",
    "Caustics.C22_positive"
   ],
   "note": ""
  },
  {
   "property": "C23",
   "status": "partial",
   "theorems": [
    "Caustics.C23_epl_circular",
    "Caustics.C23_epl_partial",
    "Caustics.C23_epl_converges_partial",
    "Caustics.C23_nfw",
    "Caustics.C23_tnfw",
    "Caustics.C23_pseudo_jaffe",
    "Caustics.C23_sis",
    "Caustics.C23_sis_softened_partial",
    "Caustics.C23_fails_sis_softened",
    "Caustics.C23_point",
    "Caustics.C23_mass_sheet",
    "Caustics.C23_external_shear",
    "Caustics.C23_multipole",
    "Caustics.C23_sie_partial",
    "Caustics.C23_sie_circular",
    "Caustics.C23_fails_sie_circular_core"
   ],
   "note": "Proved for point, mass sheet, shear, multipole, NFW, TNFW, pseudo-Jaffe, unsoftened SIS, circular EPL, SIE with core 0 or >= 1e-6. NFW/TNFW exclude the window around the scale radius in which the code clamps or uses a series. False for a softened SIS and for a circular SIE with a core (C23_fails_*). Elliptical EPL up to an explicit truncation error that goes to zero with n_iter (C23_epl_partial, C23_epl_converges_partial). TNFW inside the window of its series: C107_gradient."
  },
  {
   "property": "C24",
   "status": "partial",
   "theorems": [
    "Caustics.C24_epl_partial",
    "Caustics.C24_fails_epl_softened",
    "Caustics.C24_epl_converges_partial",
    "Caustics.C24_nfw",
    "Caustics.C24_tnfw",
    "Caustics.C24_pseudo_jaffe",
    "Caustics.C24_sis",
    "Caustics.C24_sis_softened_partial",
    "Caustics.C24_fails_sis_softened",
    "Caustics.C24_point",
    "Caustics.C24_point_centre",
    "Caustics.C24_point_softened_partial",
    "Caustics.C24_mass_sheet",
    "Caustics.C24_external_shear",
    "Caustics.C24_shear_polar",
    "Caustics.C24_multipole",
    "Caustics.C24_sie",
    "Caustics.C24_sie_circular_partial",
    "Caustics.C24_fails_sie_circular"
   ],
   "note": "Proved for SIS, point, sheet, shear, multipole, NFW, TNFW, pseudo-Jaffe, SIE. EPL: explicit truncation bound going to zero with n_iter (C24_epl_partial, C24_epl_converges_partial). Softened SIS/EPL and circular SIE violate it (C24_fails_*), the last by one part in a million (C24_sie_circular_partial). TNFW inside the window of its series: C107_divergence."
  },
  {
   "property": "C25",
   "status": "proved",
   "theorems": [
    "Caustics.C25_mass_rein_mass",
    "Caustics.C25_rein_mass_rein",
    "Caustics.C25_mass_monotone",
    "Caustics.C25_sigma_v_monotone",
    "Caustics.C25_einstein_ring"
   ],
   "note": ""
  },
  {
   "property": "C26",
   "status": "partial",
   "theorems": [
    "Caustics.C26_partial",
    "Caustics.C26_fails_type_error",
    "Caustics.C26_fails",
    "Caustics.C26_fails_value"
   ],
   "note": "False: most chunk sizes give another value or raise (C26_fails, C26_fails_value, C26_fails_type_error). C26_partial: the sizes None, 1 and those giving one chunk agree."
  },
  {
   "property": "C27",
   "status": "proved",
   "theorems": [
    "Caustics.C27_sis",
    "Caustics.C27_euler",
    "Caustics.C27_sie_convergence"
   ],
   "note": ""
  },
  {
   "property": "C28",
   "status": "partial",
   "theorems": [
    "Caustics.C28_actual_divergence",
    "Caustics.C28_fails",
    "Caustics.C28_partial"
   ],
   "note": "False: the deflection carries an extra 1/r (C28_fails; C28_actual_divergence gives its true divergence). C28_partial: multiplied by r it matches, for the circular lens."
  },
  {
   "property": "C29",
   "status": "proved",
   "theorems": [
    "Caustics.C29_contains_iff",
    "Caustics.C29_vertex_order",
    "Caustics.C29_affine_invariant",
    "Caustics.C29_boundary",
    "Caustics.C29_area"
   ],
   "note": ""
  },
  {
   "property": "C30",
   "status": "proved",
   "theorems": [
    "Caustics.C30_area",
    "Caustics.C30_cover",
    "Caustics.C30_contains"
   ],
   "note": ""
  },
  {
   "property": "C31",
   "status": "proved",
   "theorems": [
    "Caustics.C31_shape",
    "Caustics.C31_shares_vertex",
    "Caustics.C31_cover",
    "Caustics.C31_neighbourhood"
   ],
   "note": ""
  },
  {
   "property": "C32",
   "status": "proved",
   "theorems": [
    "Caustics.C32_points",
    "Caustics.C32_points_idempotent",
    "Caustics.C32_triangles",
    "Caustics.C32_order_dependent"
   ],
   "note": ""
  },
  {
   "property": "C33",
   "status": "proved",
   "theorems": [
    "Caustics.C33_rounds",
    "Caustics.C33_area",
    "Caustics.C33_candidates_contain_source",
    "Caustics.C33_separated",
    "Caustics.C33_points_hit_source",
    "Caustics.C33_no_candidate",
    "Caustics.C33_failures",
    "Caustics.C33_too_shallow"
   ],
   "note": ""
  },
  {
   "property": "C34",
   "status": "proved",
   "theorems": [
    "Caustics.C34_affine",
    "Caustics.C34_never_index_error",
    "Caustics.C34_finds_the_image",
    "Caustics.C34_sheet_shear"
   ],
   "note": ""
  },
  {
   "property": "C35",
   "status": "proved",
   "theorems": [
    "Caustics.C35_step",
    "Caustics.C35_sufficient_decrease",
    "Caustics.C35_batch"
   ],
   "note": ""
  },
  {
   "property": "C36",
   "status": "partial",
   "theorems": [
    "Caustics.C36_partial",
    "Caustics.C36_fails_value",
    "Caustics.C36_fails"
   ],
   "note": "False: on early exit the parameters are those before the step and the chi-square those after it (C36_fails, C36_fails_value). C36_partial: the reported value lies between the two chi-squares."
  },
  {
   "property": "C37",
   "status": "proved",
   "theorems": [
    "Caustics.C37_linear_accepts",
    "Caustics.C37_ratio",
    "Caustics.C37_error",
    "Caustics.C37_closer"
   ],
   "note": ""
  },
  {
   "property": "C38",
   "status": "proved",
   "theorems": [
    "Caustics.C38_shear",
    "Caustics.C38_determinant",
    "Caustics.C38_methods",
    "Caustics.C38_finitediff_affine",
    "Caustics.C38_finitediff_quadratic",
    "Caustics.C38_magnification",
    "Caustics.C38_magnification_sis"
   ],
   "note": ""
  },
  {
   "property": "C39",
   "status": "partial",
   "theorems": [
    "Caustics.C39_accepted",
    "Caustics.C39_rejected",
    "Caustics.C39_setting",
    "Caustics.C39_which_rejected",
    "Caustics.C39_history_partial",
    "Caustics.C39_fails",
    "Caustics.C39_stuck"
   ],
   "note": "Assignments that succeed give exactly the grid of a fresh object, for every history (C39_accepted, C39_history_partial); a rejected assignment that fails inside _build_grid leaves the new setting behind (C39_fails, C39_stuck). Missing: nothing can be claimed after such a failure."
  },
  {
   "property": "C40",
   "status": "partial",
   "theorems": [
    "Caustics.C40_fails",
    "Caustics.C40_conv2d",
    "Caustics.C40_fft_partial",
    "Caustics.C40_agree_partial"
   ],
   "note": "False for non-square grids, because the fft size is given in (x, y) order (C40_fails). conv2d is the linear convolution for every shape (C40_conv2d); fft is too, and agrees with it, when the padded grid is square (C40_fft_partial, C40_agree_partial)."
  },
  {
   "property": "C41",
   "status": "partial",
   "theorems": [
    "Caustics.C41_shape_direct",
    "Caustics.C41_fft_iff",
    "Caustics.C41_square_partial",
    "Caustics.C41_fails"
   ],
   "note": "Exact in conv2d mode (C41_shape_direct); in fft mode exactly characterised (C41_fft_iff), holds for square images (C41_square_partial), fails otherwise (C41_fails)."
  },
  {
   "property": "C42",
   "status": "partial",
   "theorems": [
    "Caustics.C42_linear_source",
    "Caustics.C42_linear_lens_light",
    "Caustics.C42_superposition",
    "Caustics.C42_switches",
    "Caustics.C42_uniform_partial",
    "Caustics.C42_pixels",
    "Caustics.C42_uniform_fails",
    "Caustics.C42_unknown_mode"
   ],
   "note": "Linearity, superposition and switches hold for every configuration. Uniform brightness holds in conv2d mode and for square fft grids (C42_uniform_partial), fails for a non-square one (C42_uniform_fails); an unknown psf_mode given to the constructor skips the convolution (C42_unknown_mode)."
  },
  {
   "property": "C43",
   "status": "proved",
   "theorems": [
    "Caustics.C43_uniform",
    "Caustics.C43_linear",
    "Caustics.C43_bounds",
    "Caustics.C43_inside",
    "Caustics.C43_method",
    "Caustics.C43_unbiased",
    "Caustics.C43_average"
   ],
   "note": ""
  },
  {
   "property": "C44",
   "status": "partial",
   "theorems": [
    "Caustics.C44_resolve_partial",
    "Caustics.C44_fails",
    "Caustics.C44_lists"
   ],
   "note": "References resolve correctly when distinct entries are distinguishable (C44_resolve_partial); two equal entries are confused because the code compares by == (C44_fails), references inside lists are never resolved (C44_lists)."
  },
  {
   "property": "C45",
   "status": "proved",
   "theorems": [
    "Caustics.C45_sum",
    "Caustics.C45_order",
    "Caustics.C45_empty",
    "Caustics.C45_nesting"
   ],
   "note": ""
  },
  {
   "property": "C46",
   "status": "proved",
   "theorems": [
    "Caustics.C46_profile",
    "Caustics.C46_monotone",
    "Caustics.C46_scaling",
    "Caustics.C46_k_positive",
    "Caustics.C46_k_modes",
    "Caustics.C46_class"
   ],
   "note": ""
  },
  {
   "property": "C47",
   "status": "partial",
   "theorems": [
    "Caustics.C47_actual",
    "Caustics.C47_fails",
    "Caustics.C47_nan",
    "Caustics.C47_partial"
   ],
   "note": "False: the law uses the distance in arcsec rather than in stellar radii (C47_fails), NaN beyond distance 1 (C47_nan); C47_actual gives the value everywhere, C47_partial what holds."
  },
  {
   "property": "C48",
   "status": "proved",
   "theorems": [
    "Caustics.C48_normalised",
    "Caustics.C48_symmetric",
    "Caustics.C48_centred",
    "Caustics.C48_profile"
   ],
   "note": ""
  },
  {
   "property": "C49",
   "status": "partial",
   "theorems": [
    "Caustics.C49_members",
    "Caustics.C49_total",
    "Caustics.C49_second_partial",
    "Caustics.C49_greedy_partial",
    "Caustics.C49_fails"
   ],
   "note": "All means are data points and the loop is total when there are enough points (C49_members, C49_total); the first two are right (C49_second_partial); later ones can repeat (C49_fails)."
  },
  {
   "property": "C50",
   "status": "partial",
   "theorems": [
    "Caustics.C50_fft_direct_partial",
    "Caustics.C50_same_values",
    "Caustics.C50_fft_antisymmetric",
    "Caustics.C50_fft_centre_partial",
    "Caustics.C50_conv2d_centre",
    "Caustics.C50_fails_centre",
    "Caustics.C50_fails_modes",
    "Caustics.C50_linear_map",
    "Caustics.C50_linear_scale",
    "Caustics.C50_convergence",
    "Caustics.C50_padding_errors"
   ],
   "note": "Maps characterised as discrete mass sums and linear in the convergence (C50_fft_direct_partial, C50_same_values, C50_linear_*). The two modes do not agree (C50_fails_modes) and the fft map is displaced by half a pixel (C50_fails_centre)."
  },
  {
   "property": "C51",
   "status": "proved",
   "theorems": [
    "Caustics.C51_translation_sis",
    "Caustics.C51_translation_point",
    "Caustics.C51_translation_sheet",
    "Caustics.C51_translation_shear",
    "Caustics.C51_translation_sie",
    "Caustics.C51_translation_epl",
    "Caustics.C51_translation_enclosed",
    "Caustics.C51_translation_nfw",
    "Caustics.C51_translation_tnfw",
    "Caustics.C51_translation_pseudo_jaffe",
    "Caustics.C51_translation_multipole",
    "Caustics.C51_rotation_sie",
    "Caustics.C51_rotation_epl",
    "Caustics.C51_rotation_enclosed",
    "Caustics.C51_rotation_sis",
    "Caustics.C51_rotation_point",
    "Caustics.C51_rotation_sheet",
    "Caustics.C51_rotation_nfw",
    "Caustics.C51_rotation_pseudo_jaffe",
    "Caustics.C51_rotation_tnfw",
    "Caustics.C51_rotation_shear",
    "Caustics.C51_rotation_multipole"
   ],
   "note": ""
  },
  {
   "property": "C52",
   "status": "proved",
   "theorems": [
    "Caustics.C52_value",
    "Caustics.C52_fermat",
    "Caustics.C52_checked",
    "Caustics.C52_unavailable"
   ],
   "note": ""
  },
  {
   "property": "C53",
   "status": "proved",
   "theorems": [
    "Caustics.C53_effective",
    "Caustics.C53_one_plane",
    "Caustics.C53_div_curl",
    "Caustics.C53_two_planes_curl"
   ],
   "note": ""
  },
  {
   "property": "C54",
   "status": "proved",
   "theorems": [
    "Caustics.C54_sis",
    "Caustics.C54_sie",
    "Caustics.C54_epl",
    "Caustics.C54_pseudo_jaffe",
    "Caustics.C54_pseudo_jaffe_mass_grows",
    "Caustics.C54_nfw",
    "Caustics.C54_nfw_deflection",
    "Caustics.C54_pseudo_jaffe_mass",
    "Caustics.C54_tnfw"
   ],
   "note": ""
  },
  {
   "property": "C55",
   "status": "partial",
   "theorems": [
    "Caustics.C55_fails_value",
    "Caustics.C55_fails_unbounded",
    "Caustics.C55_partial",
    "Caustics.C55_fails"
   ],
   "note": "False inside the 1e-6 window: nan at the scale radius and unbounded next to it (C55_fails, C55_fails_value, C55_fails_unbounded). C55_partial: two-sided bounds outside the window."
  },
  {
   "property": "C56",
   "status": "proved",
   "theorems": [
    "Caustics.C56_assign",
    "Caustics.C56_history",
    "Caustics.C56_last",
    "Caustics.C56_constructed"
   ],
   "note": ""
  },
  {
   "property": "C57",
   "status": "proved",
   "theorems": [
    "Caustics.C57_time_delay",
    "Caustics.C57_neither"
   ],
   "note": ""
  },
  {
   "property": "C58",
   "status": "proved",
   "theorems": [
    "Caustics.C58_zero",
    "Caustics.C58_increasing",
    "Caustics.C58_hubble_scaling",
    "Caustics.C58_critical_density"
   ],
   "note": ""
  },
  {
   "property": "C59",
   "status": "partial",
   "theorems": [
    "Caustics.C59_fails_fold",
    "Caustics.C59_fails",
    "Caustics.C59_partial",
    "Caustics.C59_candidates_partial",
    "Caustics.C59_regular_partial",
    "Caustics.C59_smooth",
    "Caustics.C59_fine_grid_partial",
    "Caustics.C59_point_partial",
    "Caustics.C59_fails_units",
    "Caustics.C59_units_partial"
   ],
   "note": "False for a general lens: IndexError on a fold within a cell (C59_fails_fold, C59_fails), and for a regular image when the cells are smaller than the absolute 1e-6 of triangle_equals (C59_fails_units; the same lens in larger units is searched successfully, C59_units_partial). Proved instead: every image at which the lens map, up to an invertible matrix, differs from a translation by at most an eighth over two initial cells is found, all such images in one call, for any grid, depth down to spacing 1e-6 and a root finder that converges from within two cells (C59_regular_partial); every image of finite magnification of a C1 lens map is of this kind below some spacing (C59_smooth, C59_fine_grid_partial); both images of a point mass (C59_point_partial). C118_images and C118_point replace the assumption on the root finder by a proof. Missing: folds inside two cells."
  },
  {
   "property": "C60",
   "status": "partial",
   "theorems": [
    "Caustics.C60_effective",
    "Caustics.C60_partial",
    "Caustics.C60_fails"
   ],
   "note": "False: upsampling narrows the kernel (C60_fails). C60_effective: the result is the kernel for pixels u times larger; C60_partial: upsample = 1."
  },
  {
   "property": "C61",
   "status": "partial",
   "theorems": [
    "Caustics.C61_switch_partial",
    "Caustics.C61_fails"
   ],
   "note": "True with zero padding or without a window (C61_switch_partial); false otherwise (C61_fails)."
  },
  {
   "property": "C62",
   "status": "partial",
   "theorems": [
    "Caustics.C62_tile_periodic",
    "Caustics.C62_reflect",
    "Caustics.C62_fails"
   ],
   "note": "Translation equivariance of tile padding proved (C62_tile_periodic); that circular padding equals it is false (C62_fails)."
  },
  {
   "property": "C63",
   "status": "proved",
   "theorems": [
    "Caustics.C63_tnfw_grows",
    "Caustics.C63_tnfw_below_total",
    "Caustics.C63_tnfw_total",
    "Caustics.C63_tnfw_centre",
    "Caustics.C63_nfw_mass",
    "Caustics.C63_tnfw_scale",
    "Caustics.C63_tnfw_pos",
    "Caustics.C63_pseudo_jaffe_total"
   ],
   "note": ""
  },
  {
   "property": "C64",
   "status": "proved",
   "theorems": [
    "Caustics.C64_deflection",
    "Caustics.C64_convergence",
    "Caustics.C64_potential"
   ],
   "note": ""
  },
  {
   "property": "C65",
   "status": "proved",
   "theorems": [
    "Caustics.C65_meshgrid",
    "Caustics.C65_outside",
    "Caustics.C65_linear",
    "Caustics.C65_scale",
    "Caustics.C65_translate",
    "Caustics.C65_magnify",
    "Caustics.C65_affine",
    "Caustics.C65_bounded"
   ],
   "note": ""
  },
  {
   "property": "C66",
   "status": "proved",
   "theorems": [
    "Caustics.C66_meshgrid",
    "Caustics.C66_outside",
    "Caustics.C66_static"
   ],
   "note": ""
  },
  {
   "property": "C67",
   "status": "proved",
   "theorems": [
    "Caustics.C67_meshgrid",
    "Caustics.C67_outside",
    "Caustics.C67_in_plane",
    "Caustics.C67_linear_lens"
   ],
   "note": ""
  },
  {
   "property": "C68",
   "status": "partial",
   "theorems": [
    "Caustics.C68_fails",
    "Caustics.C68_interior_partial"
   ],
   "note": "False as claimed: C68_fails (a 2x2 image, value -1/4 in the border). C68_interior_partial: true between the outermost pixel centres and outside the image."
  },
  {
   "property": "C69",
   "status": "partial",
   "theorems": [
    "Caustics.C69_channels",
    "Caustics.C69_fails",
    "Caustics.C69_plain_partial",
    "Caustics.C69_rejects",
    "Caustics.C69_dimensions"
   ],
   "note": "False as claimed: C69_fails, and C69_channels says that every array with a channel axis is accepted and then rejected. C69_plain_partial: arrays without channel axis are evaluated everywhere."
  },
  {
   "property": "C70",
   "status": "proved",
   "theorems": [
    "Caustics.C70_attributes",
    "Caustics.C70_links",
    "Caustics.C70_assign",
    "Caustics.C70_angular_value",
    "Caustics.C70_switch_angular",
    "Caustics.C70_cartesian_value",
    "Caustics.C70_assigned"
   ],
   "note": ""
  },
  {
   "property": "C71",
   "status": "partial",
   "theorems": [
    "Caustics.C71_dangling",
    "Caustics.C71_fails",
    "Caustics.C71_refused",
    "Caustics.C71_value_partial",
    "Caustics.C71_assign_partial",
    "Caustics.C71_forward_partial",
    "Caustics.C71_assigned_partial",
    "Caustics.C71_names_partial"
   ],
   "note": "False as stated for both classes: switching back to Rein deletes the parameter from the lens but leaves Rein linked to it (C71_dangling, C71_fails), so it stays a free parameter of the graph. If linking under a used name is refused, a second switch raises half way and leaves the lens stuck (C71_refused). Proved: values and assignments are right if linking replaces (C71_value_partial, C71_assign_partial), and everything holds while the user never switches back (C71_forward_partial)."
  },
  {
   "property": "C72",
   "status": "partial",
   "theorems": [
    "Caustics.C72_flatten_partial",
    "Caustics.C72_fails_flatten",
    "Caustics.C72_pad",
    "Caustics.C72_pad_excess",
    "Caustics.C72_pad_odd",
    "Caustics.C72_pool_partial",
    "Caustics.C72_pool_frame",
    "Caustics.C72_fails_pool",
    "Caustics.C72_pool_sum",
    "Caustics.C72_upsample_sum",
    "Caustics.C72_upsample_uniform",
    "Caustics.C72_fails_upsample",
    "Caustics.C72_upsample_one_partial",
    "Caustics.C72_fails"
   ],
   "note": "False as stated: flatten of scalars and across empty axes (C72_fails_flatten), avg_pool2d with padding (C72_fails_pool), upsample2d always for scale_factor >= 2 on uniform images (C72_fails_upsample). Proved: pad agrees (C72_pad), flatten elsewhere (C72_flatten_partial), avg_pool2d without padding (C72_pool_partial), and what each version conserves."
  },
  {
   "property": "C73",
   "status": "partial",
   "theorems": [
    "Caustics.C73_scalar",
    "Caustics.C73_fails",
    "Caustics.C73_pointwise_partial",
    "Caustics.C73_torch",
    "Caustics.C73_no_broadcast",
    "Caustics.C73_matrix_partial",
    "Caustics.C73_convergence_partial"
   ],
   "note": "Proved for torch (C73_torch) and for jax except scalars (C73_pointwise_partial, C73_matrix_partial, C73_convergence_partial); on jax every scalar position raises (C73_scalar, C73_fails). Derivatives themselves are a parameter."
  },
  {
   "property": "C74",
   "status": "proved",
   "theorems": [
    "Caustics.C74_index",
    "Caustics.C74_default",
    "Caustics.C74_shape",
    "Caustics.C74_rejects"
   ],
   "note": ""
  },
  {
   "property": "C75",
   "status": "proved",
   "theorems": [
    "Caustics.C75_rootfind",
    "Caustics.C75_rootfind_accuracy",
    "Caustics.C75_finds_image",
    "Caustics.C75_single",
    "Caustics.C75_sheet_shear"
   ],
   "note": ""
  },
  {
   "property": "C76",
   "status": "proved",
   "theorems": [
    "Caustics.C76_nfw",
    "Caustics.C76_tnfw",
    "Caustics.C76_pseudo_jaffe",
    "Caustics.C76_sis",
    "Caustics.C76_pseudo_jaffe_total"
   ],
   "note": "Bochner integrals over the whole line; values are positive, so the integrands are integrable. Softening zero; NFW outside the 1e-6 window, TNFW outside its 1% ring or exactly on the scale radius."
  },
  {
   "property": "C77",
   "status": "partial",
   "theorems": [
    "Caustics.C77_sis_partial",
    "Caustics.C77_point_partial",
    "Caustics.C77_sie_partial",
    "Caustics.C77_enclosed_mass_partial",
    "Caustics.C77_nfw_partial",
    "Caustics.C77_fails_pseudo_jaffe",
    "Caustics.C77_fails_tnfw",
    "Caustics.C77_fails_epl",
    "Caustics.C77_off_centre",
    "Caustics.C77_unsoftened",
    "Caustics.C77_fails"
   ],
   "note": "The code violates the statement for PseudoJaffe, TNFW and EPL (C77_fails_*); proved for the other five classes. none stands for nan or inf."
  },
  {
   "property": "C78",
   "status": "proved",
   "theorems": [
    "Caustics.C78_sis",
    "Caustics.C78_point",
    "Caustics.C78_ring",
    "Caustics.C78_count",
    "Caustics.C78_sheet_shear",
    "Caustics.C78_epl_ring"
   ],
   "note": "Solution sets of the lens equation in closed form. C78_epl_ring includes the spurious image at the EPL's own centre."
  },
  {
   "property": "C79",
   "status": "proved",
   "theorems": [
    "Caustics.C79_radial",
    "Caustics.C79_sis",
    "Caustics.C79_point",
    "Caustics.C79_sis_delay",
    "Caustics.C79_point_delay"
   ],
   "note": "The Jacobian is any matrix of partial derivatives of the lens map (HasJac), so both the autograd and analytic routes are covered."
  },
  {
   "property": "C80",
   "status": "partial",
   "theorems": [
    "Caustics.C80_epl",
    "Caustics.C80_epl_mean",
    "Caustics.C80_sie",
    "Caustics.C80_sis",
    "Caustics.C80_pseudo_jaffe",
    "Caustics.C80_tnfw_partial",
    "Caustics.C80_nfw_partial",
    "Caustics.C80_fails_nfw_integrable",
    "Caustics.C80_fails_nfw",
    "Caustics.C80_object_pseudo_jaffe",
    "Caustics.C80_object_tnfw_partial"
   ],
   "note": "EPL, SIE, SIS, PseudoJaffe: full. TNFW and NFW: for discs inside the scale radius up to the series window (_partial). Beyond it the NFW claim is refuted (C80_fails_nfw, C80_fails_nfw_integrable). The TNFW for every disc, the ring of its series included, is C107_convergence_mass (to 1.5e-4)."
  },
  {
   "property": "C81",
   "status": "partial",
   "theorems": [
    "Caustics.C81_partial",
    "Caustics.C81_fails_surface_density",
    "Caustics.C81_fails_physical",
    "Caustics.C81_fails_reduced",
    "Caustics.C81_fails_mass_enclosed",
    "Caustics.C81_fails_mass_enclosed_scale",
    "Caustics.C81_reduced_exact_partial",
    "Caustics.C81_surface_density_exact_partial",
    "Caustics.C81_fails_reduced_nfw",
    "Caustics.C81_fails",
    "Caustics.C81_signatures"
   ],
   "note": "C81_partial: every class, method and argument outside a short explicit list. On the list it is refuted with the exact factor by which the value is off (C81_fails_*), or with the exact condition under which it holds (C81_*_exact_partial). Argument filling by caskade is an assumption stated in Model/LensClass."
  },
  {
   "property": "C82",
   "status": "proved",
   "theorems": [
    "Caustics.C82_lens_object"
   ],
   "note": "All classes with a potential; EPL when circular (general axis ratio: C24_epl_partial), SIS/Point/NFW/TNFW/EPL unsoftened (softened: C23/C24 negations), NFW/TNFW outside their windows at the scale radius. EnclosedMass has no potential and fails (C28)."
  },
  {
   "property": "C83",
   "status": "proved",
   "theorems": [
    "Caustics.C83_mass",
    "Caustics.C83_convergence",
    "Caustics.C83_deflection",
    "Caustics.C83_mass_total",
    "Caustics.C83_deflection_total"
   ],
   "note": "Exact function values outside the window |r/Rs - 1| <= 0.01 in which the code interpolates; deflection and convergence unsoftened (s = 0)."
  },
  {
   "property": "C84",
   "status": "proved",
   "theorems": [
    "Caustics.C84_total",
    "Caustics.C84_within",
    "Caustics.C84_half_light",
    "Caustics.C84_half_light_lenstronomy",
    "Caustics.C84_softened"
   ],
   "note": "Half-light from n = 1/2 on (the class accepts 0.36 on)."
  },
  {
   "property": "C85",
   "status": "proved",
   "theorems": [
    "Caustics.C85_region",
    "Caustics.C85_sis",
    "Caustics.C85_sis_total",
    "Caustics.C85_point",
    "Caustics.C85_point_total",
    "Caustics.C85_sheet_shear"
   ],
   "note": "Softening 0; the Einstein ring itself (area zero) is left out of the regions."
  },
  {
   "property": "C86",
   "status": "partial",
   "theorems": [
    "Caustics.C86_flux",
    "Caustics.C86_fails",
    "Caustics.C86_dark_border_partial",
    "Caustics.C86_bounds_partial",
    "Caustics.C86_light_curve"
   ],
   "note": "Fails in general (edge pixels are extrapolated over the outer half pixel); exact weighted sum proved for every image, plain sum for images with a dark border, and bounds 9/16 and 81/64 for non-negative images."
  },
  {
   "property": "C87",
   "status": "proved",
   "theorems": [
    "Caustics.C87_raytrace",
    "Caustics.C87_images",
    "Caustics.C87_magnification",
    "Caustics.C87_delay",
    "Caustics.C87_weaker",
    "Caustics.C87_weaker_point",
    "Caustics.C87_weaker_epl"
   ],
   "note": "Proved for any lens whose three fields are multiplied by k, and that property proved for the lenses named."
  },
  {
   "property": "C88",
   "status": "proved",
   "theorems": [
    "Caustics.C88_grid",
    "Caustics.C88_grid_rate",
    "Caustics.C88_grid_lens",
    "Caustics.C88_mcmc",
    "Caustics.C88_error",
    "Caustics.C88_standard_error"
   ],
   "note": "Random numbers are modelled as independent pairs uniform on the unit square; real arithmetic."
  },
  {
   "property": "C89",
   "status": "partial",
   "theorems": [
    "Caustics.C89_switch",
    "Caustics.C89_raise",
    "Caustics.C89_run",
    "Caustics.C89_last",
    "Caustics.C89_import",
    "Caustics.C89_fails_third",
    "Caustics.C89_fails",
    "Caustics.C89_agree_partial"
   ],
   "note": "Agreement with caskade after a failed assignment is false when caskade accepts a name that caustics does not (C89_fails_third: caskade is switched before the name is checked); proved when caskade accepts only torch and jax. The rest is proved in full."
  },
  {
   "property": "C90",
   "status": "proved",
   "theorems": [
    "Caustics.C90_fermat",
    "Caustics.C90_images"
   ],
   "note": "Planes at distinct redshifts, listed in order (the code needs that, C17). Multiplane.time_delay itself is not this arrival time (C20_fails)."
  },
  {
   "property": "C91",
   "status": "proved",
   "theorems": [
    "Caustics.C91_deflection",
    "Caustics.C91_potential",
    "Caustics.C91_limit"
   ],
   "note": "Chunk sizes as in C26_partial. The default n_iter=18 gives 2e-10 at q=1/2 (example)."
  },
  {
   "property": "C92",
   "status": "proved",
   "theorems": [
    "Caustics.C92_exists",
    "Caustics.C92_magnified",
    "Caustics.C92_single_plane",
    "Caustics.C92_void"
   ],
   "note": "General form C92_exists/C92_magnified for any lens whose potential generates its deflection and convergence (Massive). SIE needs q<1 and no core or one >= 1e-6 (C23). A source whose first image falls on the centre of a PseudoJaffe has no computed image there (C77); C145 excludes such sources, a set of measure zero. C92_void: false for negative mass."
  },
  {
   "property": "C93",
   "status": "partial",
   "theorems": [
    "Caustics.C93_fresh",
    "Caustics.C93_fresh_torch",
    "Caustics.C93_coordinates",
    "Caustics.C93_reproducible_partial",
    "Caustics.C93_fails",
    "Caustics.C93_torch_key"
   ],
   "note": "Freshness and independence of the coordinates hold on both libraries; repeatability only under jax (C93_reproducible_partial): under torch cluster_means ignores its key (C93_fails) and Microlens rejects it (C93_torch_key). jax's split is a free operation: hash collisions are not modelled."
  },
  {
   "property": "C94",
   "status": "proved",
   "theorems": [
    "Caustics.C94_sie_core",
    "Caustics.C94_sie",
    "Caustics.C94_radial",
    "Caustics.C94_circle",
    "Caustics.C94_epl"
   ],
   "note": "A singular Jacobian gives inf in the code and is described by det = 0. SIE at q = 1 uses the deflection of q = 1 - 1e-6 and is outside C94_sie."
  },
  {
   "property": "C95",
   "status": "partial",
   "theorems": [
    "Caustics.C95_raytrace",
    "Caustics.C95_images",
    "Caustics.C95_magnification",
    "Caustics.C95_delay",
    "Caustics.C95_plane",
    "Caustics.C95_rescaled",
    "Caustics.C95_point",
    "Caustics.C95_sie",
    "Caustics.C95_sie_potential_partial",
    "Caustics.C95_epl",
    "Caustics.C95_pseudo_jaffe",
    "Caustics.C95_pixels",
    "Caustics.C95_sersic",
    "Caustics.C95_star_fails",
    "Caustics.C95_star_partial",
    "Caustics.C95_sie_fails"
   ],
   "note": "The code violates it in two places: StarSource compares the distance from its centre with 1 instead of its radius (C95_star_fails), and the SIE potential clamps the core at 1e-6 in one term only (C95_sie_fails). NFW, TNFW and EnclosedMass are given in physical units and are not covered."
  },
  {
   "property": "C96",
   "status": "partial",
   "theorems": [
    "Caustics.C96_at_most_four",
    "Caustics.C96_own_quadrant",
    "Caustics.C96_cross",
    "Caustics.C96_ring_fails",
    "Caustics.C96_ring_sis"
   ],
   "note": "For q = 1 the code evaluates the deflection at q = 1 - 1e-6, so a circular SIE shows a source behind its centre four times instead of as a ring (C96_ring_fails); the SIS shows the ring (C96_ring_sis)."
  },
  {
   "property": "C97",
   "status": "proved",
   "theorems": [
    "Caustics.C97_raytrace",
    "Caustics.C97_images",
    "Caustics.C97_magnification",
    "Caustics.C97_delay",
    "Caustics.C97_plane",
    "Caustics.C97_mirrored",
    "Caustics.C97_point",
    "Caustics.C97_multipole",
    "Caustics.C97_epl",
    "Caustics.C97_halo",
    "Caustics.C97_light"
   ],
   "note": ""
  },
  {
   "property": "C98",
   "status": "partial",
   "theorems": [
    "Caustics.C98_accuracy_partial",
    "Caustics.C98_increasing",
    "Caustics.C98_horizon",
    "Caustics.C98_beyond",
    "Caustics.C98_fails_last_scattering",
    "Caustics.C98_fails",
    "Caustics.C98_fails_ends",
    "Caustics.C98_ends_exact"
   ],
   "note": "The accuracy holds up to the end of the table, (1+z)^3 Om0/(1-Om0) = 1000 (C98_accuracy_partial). Beyond, the last cubic runs on: distances exceed the horizon and grow without bound (C98_beyond, C98_fails_last_scattering, C98_fails). Om0 = 0 and Om0 = 1, the ends of the declared valid range, give NaN (C98_fails_ends). Om0 below 1e-9, left of the table, is not covered. scipy's hyp2f1 is modelled by Euler's integral; the float32 storage of the table is not modelled."
  },
  {
   "property": "C99",
   "status": "partial",
   "theorems": [
    "Caustics.C99_multiplane",
    "Caustics.C99_thin_lens",
    "Caustics.C99_hubble",
    "Caustics.C99_distances",
    "Caustics.C99_nfw",
    "Caustics.C99_masses",
    "Caustics.C99_friedmann_fails",
    "Caustics.C99_friedmann_partial"
   ],
   "note": "critical_density_0 is a parameter independent of h0, so setting h0 alone breaks Friedmann's equation (C99_friedmann_fails); the rest is proved."
  },
  {
   "property": "C100",
   "status": "partial",
   "theorems": [
    "Caustics.C100_light_jax",
    "Caustics.C100_light_torch_partial",
    "Caustics.C100_light_fails",
    "Caustics.C100_lens_source",
    "Caustics.C100_lens_source_fails",
    "Caustics.C100_single_plane",
    "Caustics.C100_thin_delay",
    "Caustics.C100_raytrace_partial",
    "Caustics.C100_redshifts_refused",
    "Caustics.C100_raytrace_fails",
    "Caustics.C100_delay_partial",
    "Caustics.C100_delay_jax",
    "Caustics.C100_delay_none",
    "Caustics.C100_delay_refused",
    "Caustics.C100_delay_fails",
    "Caustics.C100_finite_difference",
    "Caustics.C100_finite_difference_fails",
    "Caustics.C100_pixel_to_plane_partial",
    "Caustics.C100_pixel_to_plane_fails"
   ],
   "note": "Holds for SinglePlane and thin time delays on both libraries and for everything but batched lens redshifts on jax. On torch the in-place updates of LightStack, LensSource lens light, multiplane time delay, finite difference Jacobian and pixel_to_plane refuse a batched value added to a shared array (C100_light_fails, C100_lens_source_fails, C100_delay_fails, C100_finite_difference_fails, C100_pixel_to_plane_fails); sorting batched lens redshifts is refused by both (C100_raytrace_fails). The partial theorems give the exact conditions."
  },
  {
   "property": "C101",
   "status": "proved",
   "theorems": [
    "Caustics.C101_error",
    "Caustics.C101_rate",
    "Caustics.C101_converges",
    "Caustics.C101_flux"
   ],
   "note": "Quadrature rules are assumed to have nodes in [-1, 1] and non-negative weights with sum 2, as numpy's leggauss does."
  },
  {
   "property": "C102",
   "status": "partial",
   "theorems": [
    "Caustics.C102_exact_partial",
    "Caustics.C102_thin_partial",
    "Caustics.C102_fails",
    "Caustics.C102_nfw_deflection_fails",
    "Caustics.C102_nfw_convergence_fails",
    "Caustics.C102_point_fails"
   ],
   "note": "Fails: no method compares z_l with z_s. C102_exact_partial gives what is computed for any mixture of lenses in front and behind (every plane enters with weight (D_s - D_l)/D_s), C102_thin_partial shows a thin lens behind the source deflects by its full reduced deflection, and an NFW lens behind the source repels light and has negative convergence. A Point of given mass behind the source has a NaN Einstein radius, and all its methods return NaN (C102_point_fails). z_l = z_s divides by zero and is outside the theorems of C102; see C146."
  },
  {
   "property": "C103",
   "status": "proved",
   "theorems": [
    "Caustics.C103_mean_value",
    "Caustics.C103_first_order",
    "Caustics.C103_second_order",
    "Caustics.C103_converges",
    "Caustics.C103_magnification"
   ],
   "note": "The mean value theorem for each difference quotient, and a Taylor bound for the central one, on the model of backend.gradient and meshgrid; real arithmetic, no rounding (in floating point the quotient loses accuracy for very small ps)."
  },
  {
   "property": "C104",
   "status": "proved",
   "theorems": [
    "Caustics.C104_source",
    "Caustics.C104_source_second_order",
    "Caustics.C104_lens",
    "Caustics.C104_lens_second_order",
    "Caustics.C104_lensed_image"
   ],
   "note": "Bilinear weights inside and in the extrapolated border, chord error by convexity, epsilon-delta for the lensed image. Real arithmetic; the table is centred where the object is."
  },
  {
   "property": "C105",
   "status": "partial",
   "theorems": [
    "Caustics.C105_forward",
    "Caustics.C105_reverse",
    "Caustics.C105_value",
    "Caustics.C105_zero_base",
    "Caustics.C105_modes_agree",
    "Caustics.C105_sis",
    "Caustics.C105_point",
    "Caustics.C105_nfw",
    "Caustics.C105_pseudo_jaffe",
    "Caustics.C105_sie",
    "Caustics.C105_tnfw_partial",
    "Caustics.C105_sersic",
    "Caustics.C105_star_partial",
    "Caustics.C105_star_fails",
    "Caustics.C105_star_statement_fails",
    "Caustics.C105_star_loss_fails",
    "Caustics.C105_centre_sis_fails",
    "Caustics.C105_centre_point_fails",
    "Caustics.C105_sis_jacobian",
    "Caustics.C105_sie_jacobian",
    "Caustics.C105_tnfw_scale_radius_reverse_fails",
    "Caustics.C105_tnfw_scale_radius_forward_fails"
   ],
   "note": "Exactness of both modes for any program by induction on the program, then the domain conditions for each lens and source. Fails for StarSource beyond one arcsecond (reverse mode NaN, poisons an image loss), at the centre of softened SIS and point mass, and for TNFW at the scale radius (forward wrong, reverse NaN); those are proved as counterexamples and the _partial theorems say where it holds. Propagation rules of the libraries are trusted."
  },
  {
   "property": "C106",
   "status": "partial",
   "theorems": [
    "Caustics.C106_rays",
    "Caustics.C106_rays_finite",
    "Caustics.C106_delay_nan_fails",
    "Caustics.C106_delay_fails",
    "Caustics.C106_delay_partial",
    "Caustics.C106_close_fails",
    "Caustics.C106_source_nan_fails",
    "Caustics.C106_source_fails"
   ],
   "note": "Rays: proved for every group at every place in the list, with every division by zero modelled. Delay: false; two neighbouring planes at one distance always give NaN or inf, and as two planes approach the delay tends to infinity. A lens at the source redshift makes all rays NaN. What holds of the delay is C106_delay_partial: with distinct distances it is a number, the one of C57."
  },
  {
   "property": "C107",
   "status": "partial",
   "theorems": [
    "Caustics.C107_convergence",
    "Caustics.C107_mass",
    "Caustics.C107_deflection",
    "Caustics.C107_convergence_mass",
    "Caustics.C107_divergence",
    "Caustics.C107_gradient",
    "Caustics.C107_jump_fails"
   ],
   "note": "The accuracy claims are proved at every radius and for every truncation radius. Divergence and gradient are proved inside the window (to 1e-3 and 1e-4; outside C24 and C23 are exact). Continuity is false: for every lens the enclosed mass, and with it the deflection, jumps at the edge of the window."
  },
  {
   "property": "C108",
   "status": "proved",
   "theorems": [
    "Caustics.C108_bound",
    "Caustics.C108_weak",
    "Caustics.C108_second_order"
   ],
   "note": "C108_bound and C108_weak; C108_second_order gives the exact second-order term for two mass sheets."
  },
  {
   "property": "C109",
   "status": "proved",
   "theorems": [
    "Caustics.C109_linearised",
    "Caustics.C109_two_planes",
    "Caustics.C109_no_rotation",
    "Caustics.C109_weak"
   ],
   "note": "C109_linearised, C109_two_planes, C109_no_rotation and C109_weak."
  },
  {
   "property": "C110",
   "status": "proved",
   "theorems": [
    "Caustics.C110_pseudo_jaffe",
    "Caustics.C110_tnfw",
    "Caustics.C110_pseudo_jaffe_far",
    "Caustics.C110_tnfw_far",
    "Caustics.C110_pseudo_jaffe_potential"
   ],
   "note": "Softening 0. The exact statements hold at every radius, the series window of the TNFW included."
  },
  {
   "property": "C111",
   "status": "proved",
   "theorems": [
    "Caustics.C111_remainder",
    "Caustics.C111_limit",
    "Caustics.C111_potential"
   ],
   "note": "C111_remainder is exact; C111_limit and C111_potential are the limits."
  },
  {
   "property": "C112",
   "status": "proved",
   "theorems": [
    "Caustics.C112_radial",
    "Caustics.C112_radial_three",
    "Caustics.C112_sis",
    "Caustics.C112_point",
    "Caustics.C112_pseudo_jaffe"
   ],
   "note": "C112_radial is the general statement by a degree argument on the line through centre and source; C112_radial_three bounds the number."
  },
  {
   "property": "C113",
   "status": "proved",
   "theorems": [
    "Caustics.C113_gauss",
    "Caustics.C113_mean_shear",
    "Caustics.C113_circular",
    "Caustics.C113_sis",
    "Caustics.C113_point",
    "Caustics.C113_pseudo_jaffe",
    "Caustics.C113_tnfw",
    "Caustics.C113_sie",
    "Caustics.C113_disc"
   ],
   "note": "C113_gauss and C113_mean_shear are for arbitrary lenses; C113_tnfw leaves out the window in which the profile is a series (C107)."
  },
  {
   "property": "C114",
   "status": "proved",
   "theorems": [
    "Caustics.C114_rotation",
    "Caustics.C114_angle_period",
    "Caustics.C114_fold",
    "Caustics.C114_no_mass"
   ],
   "note": ""
  },
  {
   "property": "C115",
   "status": "partial",
   "theorems": [
    "Caustics.C115_accepts",
    "Caustics.C115_orders_partial",
    "Caustics.C115_fails",
    "Caustics.C115_zero_division"
   ],
   "note": "The code violates the full statement (C115_fails); C115_orders_partial covers every accepted order up to 46340."
  },
  {
   "property": "C116",
   "status": "partial",
   "theorems": [
    "Caustics.C116_sis",
    "Caustics.C116_point",
    "Caustics.C116_sheet",
    "Caustics.C116_shear",
    "Caustics.C116_raytrace",
    "Caustics.C116_singleplane",
    "Caustics.C116_sum",
    "Caustics.C116_integrator",
    "Caustics.C116_pseudo_jaffe",
    "Caustics.C116_exact",
    "Caustics.C116_nfw_zero",
    "Caustics.C116_nfw_fails",
    "Caustics.C116_nfw_unbounded"
   ],
   "note": "C116_nfw_fails refutes the claim for NFW; the other theorems prove it for the lenses named. C116_exact ties the operation by operation code to the exact model."
  },
  {
   "property": "C117",
   "status": "proved",
   "theorems": [
    "Caustics.C117_negated",
    "Caustics.C117_second_order",
    "Caustics.C117_injective",
    "Caustics.C117_not_exact"
   ],
   "note": "The bounds are explicit sums over the terms: sipSlope and sipSize are written in the property file and do not use the model."
  },
  {
   "property": "C118",
   "status": "proved",
   "theorems": [
    "Caustics.C118_step",
    "Caustics.C118_batch",
    "Caustics.C118_rootfind",
    "Caustics.C118_images",
    "Caustics.C118_point"
   ],
   "note": "In exact arithmetic; the size of the neighbourhood depends on the lens. C118_images removes the assumption on the root finder from C59_fine_grid_partial; jac is only required to be the derivative where the map is differentiable (autodiff, C92)."
  },
  {
   "property": "C119",
   "status": "proved",
   "theorems": [
    "Caustics.C119_sie_convergence",
    "Caustics.C119_sie",
    "Caustics.C119_epl",
    "Caustics.C119_sersic",
    "Caustics.C119_sis",
    "Caustics.C119_point",
    "Caustics.C119_nfw",
    "Caustics.C119_pseudo_jaffe",
    "Caustics.C119_shear",
    "Caustics.C119_shear_angle",
    "Caustics.C119_sheet",
    "Caustics.C119_multipole"
   ],
   "note": "Stated as equivalences; agreement is only asked for away from the centres, where the code returns numbers. Unsoftened profiles. TNFW and EnclosedMass are not covered. EPL through its convergence."
  },
  {
   "property": "C120",
   "status": "partial",
   "theorems": [
    "Caustics.C120_fft",
    "Caustics.C120_conv2d",
    "Caustics.C120_fails_conv2d"
   ],
   "note": "Proved for fft mode with zero padding (C120_fft), including the bilinear interpolation of the map. In conv2d mode the limit is another field (C120_conv2d), which refutes the claim for that mode (C120_fails_conv2d). Padding modes reflect, circular and tile are not covered; no rate of convergence is given."
  },
  {
   "property": "C121",
   "status": "partial",
   "theorems": [
    "Caustics.C121_potential_partial",
    "Caustics.C121_deflection_partial",
    "Caustics.C121_convergence_partial",
    "Caustics.C121_centre_partial",
    "Caustics.C121_fails_centre",
    "Caustics.C121_fails",
    "Caustics.C121_fails_convergence"
   ],
   "note": "The potential has the right limit (C121_potential_partial). The deflection has the limit stated (C121_deflection_partial, C121_centre_partial), which differs from the gradient (C121_fails, C121_fails_centre); the convergence diverges (C121_convergence_partial, C121_fails_convergence). Cause: finding 4, sign and axis of the derivative maps of bicubic_kernels."
  },
  {
   "property": "C122",
   "status": "partial",
   "theorems": [
    "Caustics.C122_keeps_stack",
    "Caustics.C122_keeps_multiplane",
    "Caustics.C122_keeps_pixel_to_plane",
    "Caustics.C122_keeps_plane_to_pixel",
    "Caustics.C122_keeps_scene",
    "Caustics.C122_keeps_kernels",
    "Caustics.C122_keeps_jacobian",
    "Caustics.C122_keeps_interp1d",
    "Caustics.C122_fails_helper",
    "Caustics.C122_sum",
    "Caustics.C122_stack_partial",
    "Caustics.C122_fails_stack",
    "Caustics.C122_stack_jax",
    "Caustics.C122_fails_interp1d",
    "Caustics.C122_add_partial",
    "Caustics.C122_fails_add",
    "Caustics.C122_fails"
   ],
   "note": "C122_keeps_*: storage is unchanged and results are new. C122_stack_partial, C122_stack_jax: values of a LightStack. Refuted: torch at integer positions and larger members (C122_fails_stack, C122_fails), interp1d on jax (C122_fails_interp1d), repeated positions in add_at_indices (C122_fails_add); the helper fill_at_indices itself changes its argument on torch (C122_fails_helper)."
  },
  {
   "property": "C123",
   "status": "partial",
   "theorems": [
    "Caustics.C123_any_order",
    "Caustics.C123_forward_program",
    "Caustics.C123_jacobian_deflection",
    "Caustics.C123_magnification",
    "Caustics.C123_finite_difference",
    "Caustics.C123_shear_partial",
    "Caustics.C123_fails_shear_columns",
    "Caustics.C123_fails_everywhere",
    "Caustics.C123_fails",
    "Caustics.C123_fails_fit",
    "Caustics.C123_loss_value",
    "Caustics.C123_sis",
    "Caustics.C123_point",
    "Caustics.C123_sie",
    "Caustics.C123_nfw",
    "Caustics.C123_pseudo_jaffe"
   ],
   "note": "C123_any_order, C123_forward_program: the program forward mode executes is again a regular program with the true derivative as its meaning, so nesting is exact at every order (C123_sis, _point, _sie, _nfw, _pseudo_jaffe for the lenses). C123_jacobian_deflection, C123_magnification, C123_finite_difference: exact. Refuted for the default shear: C123_fails (statement C123_statement), C123_fails_everywhere, C123_fails_fit; C123_shear_partial keeps the values and shows both modes return zero."
  },
  {
   "property": "C124",
   "status": "partial",
   "theorems": [
    "Caustics.C124_graph",
    "Caustics.C124_device",
    "Caustics.C124_device_partial",
    "Caustics.C124_fails",
    "Caustics.C124_call",
    "Caustics.C124_fails_call",
    "Caustics.C124_call_parameter",
    "Caustics.C124_dtype",
    "Caustics.C124_fails_dtype",
    "Caustics.C124_numbers",
    "Caustics.C124_deflection_type",
    "Caustics.C124_conv2d_map",
    "Caustics.C124_fails_returns",
    "Caustics.C124_values",
    "Caustics.C124_fails_tables"
   ],
   "note": "C124_graph, C124_device, C124_dtype, C124_values, C124_call: one conversion. C124_device_partial: stays on the device under every sequence that assigns no simulator setting below the object (or with d the default device). Refuted: C124_fails (statement C124_statement), C124_fails_call, C124_fails_dtype, C124_fails_returns, C124_fails_tables. caskade's Module.to / Param.to by stated assumption."
  },
  {
   "property": "C125",
   "status": "partial",
   "theorems": [
    "Caustics.C125_near",
    "Caustics.C125_limit",
    "Caustics.C125_sis",
    "Caustics.C125_round_partial",
    "Caustics.C125_fails_axis",
    "Caustics.C125_fails",
    "Caustics.C125_fails_continuous",
    "Caustics.C125_convergence",
    "Caustics.C125_softening"
   ],
   "note": "C125_near, C125_limit, C125_sis, C125_convergence: proved. C125_round_partial: the claim up to 12e-6 Rein. Refuted: C125_fails (statement C125_statement), C125_fails_axis, C125_fails_continuous. C125_softening: `s` of SIS and of SIE are different softenings."
  },
  {
   "property": "C126",
   "status": "partial",
   "theorems": [
    "Caustics.C126_lens_equation",
    "Caustics.C126_in_order_partial",
    "Caustics.C126_delay_partial",
    "Caustics.C126_thin",
    "Caustics.C126_sis_partial",
    "Caustics.C126_fails_raises",
    "Caustics.C126_fails_jump",
    "Caustics.C126_fails"
   ],
   "note": "C126_lens_equation: the solution of the lens equation is continuous, crossings included. raytrace follows it wherever the listed order is the order of redshift (C126_in_order_partial, C126_sis_partial) and for the sorted list everywhere; the delay does where no two planes meet (C126_delay_partial). In the code a crossing raises (C126_fails_raises) or makes the ray jump (C126_fails_jump), because z_ls[i + 1] is the next listed lens and not the next one in redshift."
  },
  {
   "property": "C127",
   "status": "partial",
   "theorems": [
    "Caustics.C127_shift",
    "Caustics.C127_mirror_x_partial",
    "Caustics.C127_mirror_y_partial",
    "Caustics.C127_swap_partial",
    "Caustics.C127_turn_partial",
    "Caustics.C127_symmetric_partial",
    "Caustics.C127_even",
    "Caustics.C127_fails_even",
    "Caustics.C127_fails",
    "Caustics.C127_fails_fft"
   ],
   "note": "Moving holds always (C127_shift). Mirroring holds for PSFs of odd size in psf_mode conv2d for every shape and in fft mode for square images and PSFs; the exchange of axes also for even PSFs. A PSF of even size displaces the image by half a pixel of the sampling grid, even if it is symmetric (C127_even, C127_fails_even), and in fft mode images that are not square lose the symmetry of the scene (C127_fails_fft). Assumed of scipy: Gauss-Legendre rules are symmetric."
  },
  {
   "property": "C128",
   "status": "proved",
   "theorems": [
    "Caustics.C128_sis",
    "Caustics.C128_point",
    "Caustics.C128_mass_sheet",
    "Caustics.C128_shear",
    "Caustics.C128_sie",
    "Caustics.C128_sie_sharp",
    "Caustics.C128_epl",
    "Caustics.C128_epl_outside",
    "Caustics.C128_pseudo_jaffe",
    "Caustics.C128_single_plane",
    "Caustics.C128_field",
    "Caustics.C128_multiplane",
    "Caustics.C128_sharp",
    "Caustics.C128_forward_raytrace",
    "Caustics.C128_finite",
    "Caustics.C128_all_images",
    "Caustics.C128_point_images",
    "Caustics.C128_nfw",
    "Caustics.C128_tnfw",
    "Caustics.C128_tnfw_total",
    "Caustics.C128_multipole",
    "Caustics.C128_multipole_sharp",
    "Caustics.C128_enclosed_mass",
    "Caustics.C128_pixelated_deflection",
    "Caustics.C128_pixelated_convergence",
    "Caustics.C128_pixelated_potential"
   ],
   "note": "All statements proved; C128_all_images uses the convergence of the Levenberg-Marquardt root finder (C118), exact arithmetic, and a jacobian that is the derivative where there is one. How fine the grid must be depends on the lens. PixelatedConvergence has a bound in fft mode without padding."
  },
  {
   "property": "C129",
   "status": "proved",
   "theorems": [
    "Caustics.C129_response",
    "Caustics.C129_derivative",
    "Caustics.C129_lens",
    "Caustics.C129_chi2",
    "Caustics.C129_psf",
    "Caustics.C129_psf_derivative",
    "Caustics.C129_fit",
    "Caustics.C129_pixelated"
   ],
   "note": "All statements proved, for objects made by the constructor (the PSF and fit statements for objects in any state). That automatic differentiation computes these derivatives is C105."
  },
  {
   "property": "C130",
   "status": "partial",
   "theorems": [
    "Caustics.C130_swap",
    "Caustics.C130_fails_equal",
    "Caustics.C130_fails_zero",
    "Caustics.C130_mass_partial",
    "Caustics.C130_numbers_partial",
    "Caustics.C130_fails",
    "Caustics.C130_deflection_limit",
    "Caustics.C130_equal_limit",
    "Caustics.C130_point_limit",
    "Caustics.C130_convergence_limit",
    "Caustics.C130_potential_limit",
    "Caustics.C130_cored_isothermal",
    "Caustics.C130_isothermal",
    "Caustics.C130_central"
   ],
   "note": "Fails in the code: with Rc = Rs no method returns a number, with Rc = 0 or Rs = 0 (the declared lower end) only mass_enclosed_2d does (C130_fails, C130_fails_equal, C130_fails_zero), although the limits exist (C130_deflection_limit and the others). For positive and different radii everything is a number (C130_numbers_partial). The swap, the limits and the central convergence hold in full."
  },
  {
   "property": "C131",
   "status": "proved",
   "theorems": [
    "Caustics.C131_sheared",
    "Caustics.C131_unsheared",
    "Caustics.C131_critical",
    "Caustics.C131_sharp_two",
    "Caustics.C131_sharp_shear",
    "Caustics.C131_ring"
   ],
   "note": "Point masses with s = 0 as Python evaluates them (no number at the point mass itself). The bound N^2+1 is the one of the elimination polynomial; the sharper 5(N-1) of the literature for N > 2 is not proved."
  },
  {
   "property": "C132",
   "status": "proved",
   "theorems": [
    "Caustics.C132_four",
    "Caustics.C132_four_reached",
    "Caustics.C132_two",
    "Caustics.C132_line"
   ],
   "note": "C132_line shows that the condition on the size of the shear is needed: at equality a source can be seen along a whole half line."
  },
  {
   "property": "C133",
   "status": "partial",
   "theorems": [
    "Caustics.C133_einstein_partial",
    "Caustics.C133_einstein_potential",
    "Caustics.C133_fields",
    "Caustics.C133_jaffe_partial",
    "Caustics.C133_tnfw_partial",
    "Caustics.C133_nfw_fails",
    "Caustics.C133_tnfw_fails",
    "Caustics.C133_fails",
    "Caustics.C133_nfw_limit",
    "Caustics.C133_tnfw_limit",
    "Caustics.C133_positive_partial"
   ],
   "note": "False for NFW, and for TNFW with interpret_m_total_mass=False: at mass 0 they return NaN everywhere (C133_nfw_fails, C133_tnfw_fails). Both deflections do tend to zero with the mass (C133_nfw_limit, C133_tnfw_limit). It holds for the other classes."
  },
  {
   "property": "C134",
   "status": "proved",
   "theorems": [
    "Caustics.C134_sis",
    "Caustics.C134_sis_regular",
    "Caustics.C134_point"
   ],
   "note": "C134_sis_regular shows that the hypotheses on the values and Jacobians of raytrace can be met."
  },
  {
   "property": "C135",
   "status": "partial",
   "theorems": [
    "Caustics.C135_sheet",
    "Caustics.C135_point",
    "Caustics.C135_fails_epl_potential",
    "Caustics.C135_potential_infinite",
    "Caustics.C135_potential_differences",
    "Caustics.C135_line",
    "Caustics.C135_line_limit",
    "Caustics.C135_fails_sie_line",
    "Caustics.C135_fails_sie_e1e2",
    "Caustics.C135_sie_limit",
    "Caustics.C135_partial",
    "Caustics.C135_fails"
   ],
   "note": "The code violates the full claim (C135_fails_epl_potential, C135_fails_sie_line); C135_partial is the rest of it."
  },
  {
   "property": "C136",
   "status": "partial",
   "theorems": [
    "Caustics.C136_arithmetic",
    "Caustics.C136_functions",
    "Caustics.C136_undefined",
    "Caustics.C136_halo_helpers",
    "Caustics.C136_numbers_partial",
    "Caustics.C136_edge_on_fails",
    "Caustics.C136_edge_on_limit",
    "Caustics.C136_point_fails",
    "Caustics.C136_point_limit",
    "Caustics.C136_fails",
    "Caustics.C136_sum",
    "Caustics.C136_star",
    "Caustics.C136_enclosed_numbers",
    "Caustics.C136_enclosed_fails"
   ],
   "note": "The code violates the full claim (C136_edge_on_fails, C136_point_fails, C136_enclosed_fails, C136_fails); C136_numbers_partial is the rest of it."
  },
  {
   "property": "C137",
   "status": "partial",
   "theorems": [
    "Caustics.C137_point_mass",
    "Caustics.C137_vanishes",
    "Caustics.C137_numbers_partial",
    "Caustics.C137_fails_ends",
    "Caustics.C137_fails"
   ],
   "note": "The code violates the full claim (C137_fails_ends, C137_fails); C137_point_mass, C137_vanishes and C137_numbers_partial are the rest of it."
  },
  {
   "property": "C138",
   "status": "partial",
   "theorems": [
    "Caustics.C138_defined",
    "Caustics.C138_source_redshift_partial",
    "Caustics.C138_lens_redshift_partial",
    "Caustics.C138_free_partial",
    "Caustics.C138_assign_partial",
    "Caustics.C138_deflection_partial",
    "Caustics.C138_shared_fails",
    "Caustics.C138_fails",
    "Caustics.C138_exception_fails",
    "Caustics.C138_z_ls",
    "Caustics.C138_accepts",
    "Caustics.C138_warnings"
   ],
   "note": "The code violates the full claim (C138_shared_fails, C138_exception_fails, C138_fails); the theorems named _partial are the claim for programs that give each lens to one composite."
  },
  {
   "property": "C139",
   "status": "proved",
   "theorems": [
    "Caustics.C139_defined",
    "Caustics.C139_parity",
    "Caustics.C139_exists",
    "Caustics.C139_two",
    "Caustics.C139_one_star",
    "Caustics.C139_two_stars",
    "Caustics.C139_point_regular"
   ],
   "note": "Positions on the members are NaN in the code and are no images in the model (Option). C139_defined shows the Jacobian exists at every position that can be an image."
  },
  {
   "property": "C140",
   "status": "partial",
   "theorems": [
    "Caustics.C140_single_partial",
    "Caustics.C140_multi_partial",
    "Caustics.C140_hubble",
    "Caustics.C140_one_plane",
    "Caustics.C140_fails_multi",
    "Caustics.C140_fails_single",
    "Caustics.C140_fails"
   ],
   "note": "The code violates the full claim (C140_fails_single, C140_fails_multi, C140_fails); the theorems named _partial are the claim where it holds, C140_one_plane says what happens where it does not."
  },
  {
   "property": "C141",
   "status": "partial",
   "theorems": [
    "Caustics.C141_nearest",
    "Caustics.C141_bounded",
    "Caustics.C141_partial",
    "Caustics.C141_outside",
    "Caustics.C141_fails_ramp",
    "Caustics.C141_fails"
   ],
   "note": "The code violates the full claim beyond the frame (C141_outside, C141_fails_ramp, C141_fails); C141_partial is the claim where it holds."
  },
  {
   "property": "C142",
   "status": "proved",
   "theorems": [
    "Caustics.C142_sheared",
    "Caustics.C142_unsheared",
    "Caustics.C142_binary"
   ],
   "note": "FieldJacobian is the derivative of raytrace at the image. The number of images is a hypothesis: N\u00b2 + 1 is reached for two points (C131_sharp_two); for larger N it may not be reached."
  },
  {
   "property": "C143",
   "status": "proved",
   "theorems": [
    "Caustics.C143_almost_every_regular",
    "Caustics.C143_almost_every",
    "Caustics.C143_shallow_epl",
    "Caustics.C143_epl_odd",
    "Caustics.C143_steep_epl",
    "Caustics.C143_epl_even",
    "Caustics.C143_pseudo_jaffe",
    "Caustics.C143_jaffe_odd",
    "Caustics.C143_soft_sis",
    "Caustics.C143_soft_point",
    "Caustics.C143_cored_sie",
    "Caustics.C143_singular_sie",
    "Caustics.C143_sie_cut",
    "Caustics.C143_odd",
    "Caustics.C143_galaxy",
    "Caustics.C143_one_cusp",
    "Caustics.C143_one_sis",
    "Caustics.C143_one_sie",
    "Caustics.C143_jacobian_exists",
    "Caustics.C143_parities"
   ],
   "note": "The winding number of a continuously differentiable map of the plane around rectangles is developed from nothing in Lemmas/Winding, WindingSum and PlaneDegree. Members that return no value or any value at a kink are allowed. A singular SIE counts by its convex cut, given in closed form (C143_sie_cut). An EPL with t > 1 counts like a point mass, because (1 - phi) times its truncated series stays within f of 1, so the deflection points away from the centre for every n_iter. Not included: EPL with t = 1, whose truncated series has no convex cut, NFW and TNFW, whose formulas have seams on circles."
  },
  {
   "property": "C144",
   "status": "proved",
   "theorems": [
    "Caustics.C144_parities",
    "Caustics.C144_odd",
    "Caustics.C144_bounded",
    "Caustics.C144_soft_sis",
    "Caustics.C144_soft_point",
    "Caustics.C144_cored_sie"
   ],
   "note": "The linear case is a hypothesis: the same planes with only their linear parts map by a matrix of non-zero determinant. C144_bounded discharges it when there are no sheets or shears. Singular members on a multiplane are not included."
  },
  {
   "property": "C145",
   "status": "proved",
   "theorems": [
    "Caustics.C145_at_least",
    "Caustics.C145_stars",
    "Caustics.C145_apart",
    "Caustics.C145_inverted"
   ],
   "note": "Joins C143 (sum of the parities) with C92 (the first image has positive parity). For one point mass without shear the bound is attained (C139_one_star). PseudoJaffe is included although its class returns no value at the centre: almost no source has its first image there."
  },
  {
   "property": "C146",
   "status": "partial",
   "theorems": [
    "Caustics.C146_numbers_partial",
    "Caustics.C146_same_redshift_partial",
    "Caustics.C146_source_independent",
    "Caustics.C146_same_redshift_fails",
    "Caustics.C146_redshift_zero_fails",
    "Caustics.C146_fails"
   ],
   "note": "The claim fails at both ends (C146_fails). At z_l = z_s surface_density of every lens with a convergence is 0 times infinity, time_delay is infinity times 0, and physical_deflection_angle of PseudoJaffe and Point is infinity times 0 (C146_same_redshift_fails), though none of the three depends on the source (C146_source_independent). At z_l = 0 NFW and PseudoJaffe give NaN everywhere and Point infinities or NaN (C146_redshift_zero_fails). Proved: the values strictly between (C146_numbers_partial) and the vanishing of reduced deflection, convergence and potential at z_l = z_s (C146_same_redshift_partial). Rounding and overflow are not modelled."
  },
  {
   "property": "C147",
   "status": "proved",
   "theorems": [
    "Caustics.C147_count",
    "Caustics.C147_where",
    "Caustics.C147_bright"
   ],
   "note": "Extends C78 and C79 (isothermal and point lenses) to every slope. The source at the centre is C78_epl_ring. Chunk sizes are those for which the series is right at all (C26)."
  },
  {
   "property": "C148",
   "status": "proved",
   "theorems": [
    "Caustics.C148_flux",
    "Caustics.C148_not_dimmed",
    "Caustics.C148_area",
    "Caustics.C148_sheet",
    "Caustics.C148_void",
    "Caustics.C148_in_frame"
   ],
   "note": "The integrated form of C92. Where raytrace returns no numbers nothing is counted. The continuous image is meant, before sampling by pixels (C101) and the PSF (C40)."
  },
  {
   "property": "C149",
   "status": "proved",
   "theorems": [
    "Caustics.C149_flux_bounds",
    "Caustics.C149_mean_flux",
    "Caustics.C149_plane_flux",
    "Caustics.C149_rarely",
    "Caustics.C149_bounds",
    "Caustics.C149_mean",
    "Caustics.C149_plane",
    "Caustics.C149_multiplane"
   ],
   "note": "Together with C148, which gives at least one for every source in one plane. Where raytrace returns no numbers nothing is counted. Behind a MassSheet the ratio is that of C148_sheet instead."
  }
 ]
}
