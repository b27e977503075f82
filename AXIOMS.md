# Axioms per theorem

Generated by `tools/axioms.py` from `#print axioms`.

## Classical.choice, Quot.sound, propext (938)

`C01_rotate_derotate`, `C01_derotate_rotate`, `C01_rotate_isometry`, `C01_derotate_isometry`, `C01_direction`, `C01_none`, `C02_ellipseQuad_code`, `C02_range`, `C02_idempotent`, `C02_identity`, `C02_same_ellipses`, `C02_same_isophotes`, `C03_e_q`, `C03_c_q`, `C03_e_phi`, `C03_c_phi`, `C03_circular`, `C03_e_roundtrip`, `C03_e_clamped`, `C03_c_roundtrip`, `C03_range`, `C04_parameters`, `C04_values`, `C04_invalid`, `C04_valid`, `C05_plane_world_plane`, `C05_world_plane_world`, `C05_sip_terms`, `C05_pixel_plane_pixel_sip`, `C05_pixel_plane_pixel`, `C05_pixel_world_pixel`, `C05_reference`, `C05_singular`, `C06_entries`, `C06_spacing`, `C06_centred`, `C07_weights_sum`, `C07_affine`, `C07_symmetric`, `C07_bounded`, `C07_polynomial`, `C08_knots`, `C08_affine`, `C08_extend`, `C08_segment`, `C08_total`, `C09_total`, `C09_centre`, `C09_cell`, `C09_bounded`, `C09_border_extrapolates`, `C09_nearest`, `C09_nearest_tie`, `C09_zeros`, `C09_clamp`, `C09_affine`, `C10_total`, `C10_centre`, `C10_cell`, `C10_bounded`, `C10_zeros`, `C10_constant`, `C11_centre`, `C11_supplied_maps`, `C11_exact`, `C11_derivatives`, `C11_pixelated_potential`, `C12_fails`, `C12_kernels_partial`, `C12_constant_partial`, `C13_partition`, `C13_mismatch`, `C16_lens_equation`, `C16_effective_deflection`, `C17_order_partial`, `C17_fails_last_not_farthest`, `C17_fails_wrong_value`, `C17_fails`, `C18_one_plane`, `C19_identity`, `C19_insert`, `C20_ratio_partial`, `C20_fails`, `C21_round_trip`, `C21_lens_consistent`, `C21_physical_first`, `C22_comoving`, `C22_transverse`, `C22_angular`, `C22_time_delay_distance`, `C22_delay_factor`, `C22_positive`, `C23_epl_circular`, `C23_epl_partial`, `C23_epl_converges_partial`, `C23_nfw`, `C23_tnfw`, `C23_pseudo_jaffe`, `C23_sis`, `C23_sis_softened_partial`, `C23_fails_sis_softened`, `C23_point`, `C23_mass_sheet`, `C23_external_shear`, `C23_multipole`, `C23_sie_partial`, `C23_sie_circular`, `C23_fails_sie_circular_core`, `C24_epl_partial`, `C24_fails_epl_softened`, `C24_epl_converges_partial`, `C24_nfw`, `C24_tnfw`, `C24_pseudo_jaffe`, `C24_sis`, `C24_sis_softened_partial`, `C24_fails_sis_softened`, `C24_point`, `C24_point_centre`, `C24_point_softened_partial`, `C24_mass_sheet`, `C24_external_shear`, `C24_shear_polar`, `C24_multipole`, `C24_sie`, `C24_sie_circular_partial`, `C24_fails_sie_circular`, `C25_mass_rein_mass`, `C25_rein_mass_rein`, `C25_mass_monotone`, `C25_sigma_v_monotone`, `C25_einstein_ring`, `C26_partial`, `C26_fails_type_error`, `C26_fails`, `C26_fails_value`, `C27_sis`, `C27_euler`, `C27_sie_convergence`, `C28_actual_divergence`, `C28_fails`, `C28_partial`, `C29_contains_iff`, `C29_vertex_order`, `C29_affine_invariant`, `C29_boundary`, `C29_area`, `C30_area`, `C30_cover`, `C30_contains`, `C31_shape`, `C31_shares_vertex`, `C31_cover`, `C31_neighbourhood`, `C32_points`, `C32_points_idempotent`, `C32_triangles`, `C32_order_dependent`, `C33_rounds`, `C33_area`, `C33_candidates_contain_source`, `C33_separated`, `C33_points_hit_source`, `C33_no_candidate`, `C33_failures`, `C33_too_shallow`, `C34_affine`, `C34_never_index_error`, `C34_finds_the_image`, `C34_sheet_shear`, `C35_step`, `C35_sufficient_decrease`, `C35_batch`, `C36_partial`, `C36_fails_value`, `C36_fails`, `C37_linear_accepts`, `C37_ratio`, `C37_error`, `C37_closer`, `C38_shear`, `C38_determinant`, `C38_finitediff_affine`, `C38_finitediff_quadratic`, `C38_magnification`, `C38_magnification_sis`, `C39_accepted`, `C39_rejected`, `C39_setting`, `C39_which_rejected`, `C39_history_partial`, `C39_fails`, `C39_stuck`, `C40_fails`, `C40_conv2d`, `C40_fft_partial`, `C40_agree_partial`, `C41_shape_direct`, `C41_fft_iff`, `C41_square_partial`, `C41_fails`, `C42_linear_source`, `C42_linear_lens_light`, `C42_superposition`, `C42_switches`, `C42_uniform_partial`, `C42_pixels`, `C42_uniform_fails`, `C42_unknown_mode`, `C43_uniform`, `C43_linear`, `C43_bounds`, `C43_inside`, `C43_method`, `C43_unbiased`, `C43_average`, `C44_resolve_partial`, `C44_fails`, `C46_profile`, `C46_monotone`, `C46_scaling`, `C46_k_positive`, `C46_k_modes`, `C46_class`, `C47_actual`, `C47_fails`, `C47_nan`, `C47_partial`, `C48_normalised`, `C48_symmetric`, `C48_centred`, `C48_profile`, `C49_members`, `C49_total`, `C49_second_partial`, `C49_greedy_partial`, `C49_fails`, `C50_fft_direct_partial`, `C50_same_values`, `C50_fft_antisymmetric`, `C50_fft_centre_partial`, `C50_conv2d_centre`, `C50_fails_centre`, `C50_fails_modes`, `C50_linear_map`, `C50_linear_scale`, `C50_convergence`, `C50_padding_errors`, `C51_translation_sis`, `C51_translation_point`, `C51_translation_sheet`, `C51_translation_shear`, `C51_translation_sie`, `C51_translation_epl`, `C51_translation_enclosed`, `C51_translation_nfw`, `C51_translation_tnfw`, `C51_translation_pseudo_jaffe`, `C51_translation_multipole`, `C51_rotation_sie`, `C51_rotation_epl`, `C51_rotation_enclosed`, `C51_rotation_sis`, `C51_rotation_point`, `C51_rotation_sheet`, `C51_rotation_nfw`, `C51_rotation_pseudo_jaffe`, `C51_rotation_tnfw`, `C51_rotation_shear`, `C51_rotation_multipole`, `C52_value`, `C52_fermat`, `C53_one_plane`, `C53_div_curl`, `C53_two_planes_curl`, `C54_sis`, `C54_sie`, `C54_epl`, `C54_pseudo_jaffe`, `C54_pseudo_jaffe_mass_grows`, `C54_nfw`, `C54_nfw_deflection`, `C54_pseudo_jaffe_mass`, `C54_tnfw`, `C55_fails_value`, `C55_fails_unbounded`, `C55_partial`, `C55_fails`, `C56_assign`, `C56_history`, `C56_last`, `C56_constructed`, `C57_time_delay`, `C58_zero`, `C58_increasing`, `C58_hubble_scaling`, `C58_critical_density`, `C59_fails_fold`, `C59_fails`, `C59_partial`, `C59_candidates_partial`, `C59_regular_partial`, `C59_smooth`, `C59_fine_grid_partial`, `C59_point_partial`, `C59_fails_units`, `C59_units_partial`, `C60_effective`, `C60_partial`, `C60_fails`, `C61_switch_partial`, `C61_fails`, `C62_tile_periodic`, `C62_reflect`, `C62_fails`, `C63_tnfw_grows`, `C63_tnfw_below_total`, `C63_tnfw_total`, `C63_tnfw_centre`, `C63_nfw_mass`, `C63_tnfw_scale`, `C63_tnfw_pos`, `C63_pseudo_jaffe_total`, `C64_deflection`, `C64_convergence`, `C64_potential`, `C65_meshgrid`, `C65_outside`, `C65_linear`, `C65_scale`, `C65_magnify`, `C65_affine`, `C65_bounded`, `C66_meshgrid`, `C66_outside`, `C66_static`, `C67_meshgrid`, `C67_outside`, `C67_in_plane`, `C67_linear_lens`, `C68_fails`, `C68_interior_partial`, `C69_fails`, `C69_plain_partial`, `C70_attributes`, `C70_links`, `C70_assign`, `C70_angular_value`, `C70_switch_angular`, `C70_cartesian_value`, `C70_assigned`, `C71_dangling`, `C71_fails`, `C71_refused`, `C71_value_partial`, `C71_assign_partial`, `C71_forward_partial`, `C71_assigned_partial`, `C71_names_partial`, `C72_flatten_partial`, `C72_fails_flatten`, `C72_pad`, `C72_pad_excess`, `C72_pool_partial`, `C72_pool_frame`, `C72_fails_pool`, `C72_pool_sum`, `C72_upsample_sum`, `C72_upsample_uniform`, `C72_fails_upsample`, `C72_upsample_one_partial`, `C72_fails`, `C73_pointwise_partial`, `C73_torch`, `C73_no_broadcast`, `C73_matrix_partial`, `C73_convergence_partial`, `C74_index`, `C74_default`, `C75_rootfind`, `C75_rootfind_accuracy`, `C75_finds_image`, `C75_single`, `C75_sheet_shear`, `C76_nfw`, `C76_tnfw`, `C76_pseudo_jaffe`, `C76_sis`, `C76_pseudo_jaffe_total`, `C77_sis_partial`, `C77_point_partial`, `C77_sie_partial`, `C77_enclosed_mass_partial`, `C77_nfw_partial`, `C77_fails_pseudo_jaffe`, `C77_fails_tnfw`, `C77_fails_epl`, `C77_off_centre`, `C77_unsoftened`, `C77_fails`, `C78_sis`, `C78_point`, `C78_ring`, `C78_count`, `C78_sheet_shear`, `C78_epl_ring`, `C79_radial`, `C79_sis`, `C79_point`, `C79_sis_delay`, `C79_point_delay`, `C80_epl`, `C80_epl_mean`, `C80_sie`, `C80_sis`, `C80_pseudo_jaffe`, `C80_tnfw_partial`, `C80_nfw_partial`, `C80_fails_nfw_integrable`, `C80_fails_nfw`, `C80_object_pseudo_jaffe`, `C80_object_tnfw_partial`, `C81_partial`, `C81_fails_surface_density`, `C81_fails_physical`, `C81_fails_reduced`, `C81_fails_mass_enclosed`, `C81_fails_mass_enclosed_scale`, `C81_reduced_exact_partial`, `C81_surface_density_exact_partial`, `C81_fails_reduced_nfw`, `C81_fails`, `C81_signatures`, `C82_lens_object`, `C83_mass`, `C83_convergence`, `C83_deflection`, `C83_mass_total`, `C83_deflection_total`, `C84_total`, `C84_within`, `C84_half_light`, `C84_half_light_lenstronomy`, `C84_softened`, `C85_region`, `C85_sis`, `C85_sis_total`, `C85_point`, `C85_point_total`, `C85_sheet_shear`, `C86_flux`, `C86_fails`, `C86_dark_border_partial`, `C86_bounds_partial`, `C86_light_curve`, `C87_raytrace`, `C87_images`, `C87_magnification`, `C87_delay`, `C87_weaker`, `C87_weaker_point`, `C87_weaker_epl`, `C88_grid`, `C88_grid_rate`, `C88_grid_lens`, `C88_mcmc`, `C88_error`, `C88_standard_error`, `C89_raise`, `C89_run`, `C89_last`, `C89_import`, `C89_agree_partial`, `C90_fermat`, `C90_images`, `C91_deflection`, `C91_potential`, `C91_limit`, `C92_exists`, `C92_magnified`, `C92_single_plane`, `C92_void`, `C93_fresh`, `C93_fresh_torch`, `C93_coordinates`, `C93_reproducible_partial`, `C93_fails`, `C93_torch_key`, `C94_sie_core`, `C94_sie`, `C94_radial`, `C94_circle`, `C94_epl`, `C95_raytrace`, `C95_images`, `C95_magnification`, `C95_delay`, `C95_plane`, `C95_rescaled`, `C95_point`, `C95_sie`, `C95_sie_potential_partial`, `C95_epl`, `C95_pseudo_jaffe`, `C95_pixels`, `C95_sersic`, `C95_star_fails`, `C95_star_partial`, `C95_sie_fails`, `C96_at_most_four`, `C96_own_quadrant`, `C96_cross`, `C96_ring_fails`, `C96_ring_sis`, `C97_raytrace`, `C97_images`, `C97_magnification`, `C97_delay`, `C97_plane`, `C97_mirrored`, `C97_point`, `C97_multipole`, `C97_epl`, `C97_halo`, `C97_light`, `C98_accuracy_partial`, `C98_increasing`, `C98_horizon`, `C98_beyond`, `C98_fails_last_scattering`, `C98_fails`, `C98_fails_ends`, `C98_ends_exact`, `C99_multiplane`, `C99_thin_lens`, `C99_hubble`, `C99_distances`, `C99_nfw`, `C99_masses`, `C99_friedmann_fails`, `C99_friedmann_partial`, `C100_light_torch_partial`, `C100_light_fails`, `C100_raytrace_partial`, `C100_raytrace_fails`, `C100_delay_partial`, `C100_delay_jax`, `C100_delay_fails`, `C100_pixel_to_plane_partial`, `C100_pixel_to_plane_fails`, `C101_error`, `C101_rate`, `C101_converges`, `C101_flux`, `C102_exact_partial`, `C102_thin_partial`, `C102_fails`, `C102_nfw_deflection_fails`, `C102_nfw_convergence_fails`, `C102_point_fails`, `C103_mean_value`, `C103_first_order`, `C103_second_order`, `C103_converges`, `C103_magnification`, `C104_source`, `C104_source_second_order`, `C104_lens`, `C104_lens_second_order`, `C104_lensed_image`, `C105_forward`, `C105_reverse`, `C105_value`, `C105_zero_base`, `C105_modes_agree`, `C105_sis`, `C105_point`, `C105_nfw`, `C105_pseudo_jaffe`, `C105_sie`, `C105_tnfw_partial`, `C105_sersic`, `C105_star_partial`, `C105_star_fails`, `C105_star_statement_fails`, `C105_star_loss_fails`, `C105_centre_sis_fails`, `C105_centre_point_fails`, `C105_sis_jacobian`, `C105_sie_jacobian`, `C105_tnfw_scale_radius_reverse_fails`, `C105_tnfw_scale_radius_forward_fails`, `C106_rays`, `C106_rays_finite`, `C106_delay_nan_fails`, `C106_delay_fails`, `C106_delay_partial`, `C106_close_fails`, `C106_source_nan_fails`, `C106_source_fails`, `C107_convergence`, `C107_mass`, `C107_deflection`, `C107_convergence_mass`, `C107_divergence`, `C107_gradient`, `C107_jump_fails`, `C108_bound`, `C108_weak`, `C108_second_order`, `C109_linearised`, `C109_two_planes`, `C109_no_rotation`, `C109_weak`, `C110_pseudo_jaffe`, `C110_tnfw`, `C110_pseudo_jaffe_far`, `C110_tnfw_far`, `C110_pseudo_jaffe_potential`, `C111_remainder`, `C111_limit`, `C111_potential`, `C112_radial`, `C112_radial_three`, `C112_sis`, `C112_point`, `C112_pseudo_jaffe`, `C113_gauss`, `C113_mean_shear`, `C113_circular`, `C113_sis`, `C113_point`, `C113_pseudo_jaffe`, `C113_tnfw`, `C113_sie`, `C113_disc`, `C114_rotation`, `C114_angle_period`, `C114_fold`, `C114_no_mass`, `C115_accepts`, `C115_orders_partial`, `C115_fails`, `C116_sis`, `C116_point`, `C116_sheet`, `C116_shear`, `C116_raytrace`, `C116_singleplane`, `C116_sum`, `C116_integrator`, `C116_pseudo_jaffe`, `C116_exact`, `C116_nfw_zero`, `C116_nfw_fails`, `C116_nfw_unbounded`, `C117_negated`, `C117_second_order`, `C117_injective`, `C117_not_exact`, `C118_step`, `C118_batch`, `C118_rootfind`, `C118_images`, `C118_point`, `C119_sie_convergence`, `C119_sie`, `C119_epl`, `C119_sersic`, `C119_sis`, `C119_point`, `C119_nfw`, `C119_pseudo_jaffe`, `C119_shear`, `C119_shear_angle`, `C119_sheet`, `C119_multipole`, `C120_fft`, `C120_conv2d`, `C120_fails_conv2d`, `C121_potential_partial`, `C121_deflection_partial`, `C121_convergence_partial`, `C121_centre_partial`, `C121_fails_centre`, `C121_fails`, `C121_fails_convergence`, `C122_sum`, `C122_fails_stack`, `C122_fails_add`, `C122_fails`, `C123_any_order`, `C123_forward_program`, `C123_jacobian_deflection`, `C123_magnification`, `C123_finite_difference`, `C123_shear_partial`, `C123_fails_shear_columns`, `C123_fails_everywhere`, `C123_fails`, `C123_fails_fit`, `C123_loss_value`, `C123_sis`, `C123_point`, `C123_sie`, `C123_nfw`, `C123_pseudo_jaffe`, `C124_graph`, `C124_device`, `C124_device_partial`, `C124_fails`, `C124_call`, `C124_fails_call`, `C124_call_parameter`, `C124_dtype`, `C124_fails_dtype`, `C124_numbers`, `C124_deflection_type`, `C124_conv2d_map`, `C124_fails_returns`, `C124_values`, `C124_fails_tables`, `C125_near`, `C125_limit`, `C125_sis`, `C125_round_partial`, `C125_fails_axis`, `C125_fails`, `C125_fails_continuous`, `C125_convergence`, `C125_softening`, `C126_lens_equation`, `C126_in_order_partial`, `C126_delay_partial`, `C126_thin`, `C126_sis_partial`, `C126_fails_raises`, `C126_fails_jump`, `C126_fails`, `C127_shift`, `C127_mirror_x_partial`, `C127_mirror_y_partial`, `C127_swap_partial`, `C127_turn_partial`, `C127_symmetric_partial`, `C127_even`, `C127_fails_even`, `C127_fails`, `C127_fails_fft`, `C128_sis`, `C128_point`, `C128_mass_sheet`, `C128_shear`, `C128_sie`, `C128_sie_sharp`, `C128_epl`, `C128_epl_outside`, `C128_pseudo_jaffe`, `C128_single_plane`, `C128_field`, `C128_multiplane`, `C128_sharp`, `C128_forward_raytrace`, `C128_finite`, `C128_all_images`, `C128_point_images`, `C128_nfw`, `C128_tnfw`, `C128_tnfw_total`, `C128_multipole`, `C128_multipole_sharp`, `C128_enclosed_mass`, `C128_pixelated_deflection`, `C128_pixelated_convergence`, `C128_pixelated_potential`, `C129_response`, `C129_derivative`, `C129_lens`, `C129_chi2`, `C129_psf`, `C129_psf_derivative`, `C129_fit`, `C129_pixelated`, `C130_swap`, `C130_fails_equal`, `C130_fails_zero`, `C130_mass_partial`, `C130_numbers_partial`, `C130_fails`, `C130_deflection_limit`, `C130_equal_limit`, `C130_point_limit`, `C130_convergence_limit`, `C130_potential_limit`, `C130_cored_isothermal`, `C130_isothermal`, `C130_central`, `C131_sheared`, `C131_unsheared`, `C131_critical`, `C131_sharp_two`, `C131_sharp_shear`, `C131_ring`, `C132_four`, `C132_four_reached`, `C132_two`, `C132_line`, `C133_einstein_partial`, `C133_einstein_potential`, `C133_fields`, `C133_jaffe_partial`, `C133_tnfw_partial`, `C133_nfw_fails`, `C133_tnfw_fails`, `C133_fails`, `C133_nfw_limit`, `C133_tnfw_limit`, `C133_positive_partial`, `C134_sis`, `C134_sis_regular`, `C134_point`, `C135_sheet`, `C135_point`, `C135_fails_epl_potential`, `C135_potential_infinite`, `C135_potential_differences`, `C135_line`, `C135_line_limit`, `C135_fails_sie_line`, `C135_fails_sie_e1e2`, `C135_sie_limit`, `C135_partial`, `C135_fails`, `C136_arithmetic`, `C136_functions`, `C136_undefined`, `C136_halo_helpers`, `C136_numbers_partial`, `C136_edge_on_fails`, `C136_edge_on_limit`, `C136_point_fails`, `C136_point_limit`, `C136_fails`, `C136_sum`, `C136_star`, `C136_enclosed_numbers`, `C136_enclosed_fails`, `C137_point_mass`, `C137_vanishes`, `C137_numbers_partial`, `C137_fails_ends`, `C137_fails`, `C138_defined`, `C138_source_redshift_partial`, `C138_lens_redshift_partial`, `C138_free_partial`, `C138_assign_partial`, `C138_deflection_partial`, `C138_fails`, `C138_z_ls`, `C138_accepts`, `C138_warnings`, `C139_defined`, `C139_parity`, `C139_exists`, `C139_two`, `C139_one_star`, `C139_two_stars`, `C139_point_regular`, `C140_single_partial`, `C140_multi_partial`, `C140_hubble`, `C140_one_plane`, `C140_fails_multi`, `C140_fails_single`, `C140_fails`, `C141_nearest`, `C141_bounded`, `C141_partial`, `C141_outside`, `C141_fails_ramp`, `C141_fails`, `C142_sheared`, `C142_unsheared`, `C142_binary`, `C143_almost_every_regular`, `C143_almost_every`, `C143_shallow_epl`, `C143_epl_odd`, `C143_steep_epl`, `C143_epl_even`, `C143_pseudo_jaffe`, `C143_jaffe_odd`, `C143_soft_sis`, `C143_soft_point`, `C143_cored_sie`, `C143_singular_sie`, `C143_sie_cut`, `C143_odd`, `C143_galaxy`, `C143_one_cusp`, `C143_one_sis`, `C143_one_sie`, `C143_jacobian_exists`, `C143_parities`, `C144_parities`, `C144_odd`, `C144_bounded`, `C144_soft_sis`, `C144_soft_point`, `C144_cored_sie`, `C145_at_least`, `C145_stars`, `C145_apart`, `C145_inverted`, `C146_numbers_partial`, `C146_same_redshift_partial`, `C146_source_independent`, `C146_same_redshift_fails`, `C146_redshift_zero_fails`, `C146_fails`, `C147_count`, `C147_where`, `C147_bright`, `C148_flux`, `C148_not_dimmed`, `C148_area`, `C148_sheet`, `C148_void`, `C148_in_frame`, `C149_flux_bounds`, `C149_mean_flux`, `C149_plane_flux`, `C149_rarely`, `C149_bounds`, `C149_mean`, `C149_plane`, `C149_multiplane`

## Quot.sound, propext (47)

`C09_errors`, `C10_errors`, `C13_total`, `C13_chunk_size_irrelevant`, `C13_errors`, `C14_order`, `C14_nesting`, `C15_batched_eq_single`, `C16_exists_unique`, `C16_empty`, `C38_methods`, `C45_order`, `C45_nesting`, `C52_checked`, `C52_unavailable`, `C53_effective`, `C57_neither`, `C65_translate`, `C69_channels`, `C69_rejects`, `C69_dimensions`, `C72_pad_odd`, `C73_scalar`, `C73_fails`, `C74_shape`, `C74_rejects`, `C100_light_jax`, `C100_thin_delay`, `C100_redshifts_refused`, `C100_delay_none`, `C100_delay_refused`, `C100_finite_difference`, `C100_finite_difference_fails`, `C122_keeps_stack`, `C122_keeps_multiplane`, `C122_keeps_pixel_to_plane`, `C122_keeps_plane_to_pixel`, `C122_keeps_scene`, `C122_keeps_kernels`, `C122_keeps_jacobian`, `C122_keeps_interp1d`, `C122_fails_helper`, `C122_stack_partial`, `C122_stack_jax`, `C122_fails_interp1d`, `C122_add_partial`, `C138_shared_fails`

## none (2)

`C14_empty`, `C45_empty`

## propext (11)

`C14_superposition`, `C44_lists`, `C45_sum`, `C89_switch`, `C89_fails_third`, `C89_fails`, `C100_lens_source`, `C100_lens_source_fails`, `C100_single_plane`, `C115_zero_division`, `C138_exception_fails`
