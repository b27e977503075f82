{
 "C17": {
  "status": "partial",
  "note": "The code uses the user's list order, so the full claim is false: C17_fails. C17_order_partial: any permutation listed by increasing redshift gives the same result."
 },
 "C20": {
  "status": "partial",
  "note": "The full claim (delays agree) is false: C20_fails. C20_ratio_partial gives the exact factors by which the two terms differ."
 },
 "C12": {
  "status": "partial",
  "note": "False as claimed: the returned maps have the opposite sign and the axes are named the other way round (C12_fails). C12_kernels_partial states what is computed; C12_constant_partial: constant images give zero maps."
 },
 "C23": {
  "status": "partial",
  "note": "Proved for point, mass sheet, shear, multipole, NFW, TNFW, pseudo-Jaffe, unsoftened SIS, circular EPL, SIE with core 0 or >= 1e-6. NFW/TNFW exclude the window around the scale radius in which the code clamps or uses a series. False for a softened SIS and for a circular SIE with a core (C23_fails_*). Elliptical EPL up to an explicit truncation error that goes to zero with n_iter (C23_epl_partial, C23_epl_converges_partial). TNFW inside the window of its series: C107_gradient."
 },
 "C24": {
  "status": "partial",
  "note": "Proved for SIS, point, sheet, shear, multipole, NFW, TNFW, pseudo-Jaffe, SIE. EPL: explicit truncation bound going to zero with n_iter (C24_epl_partial, C24_epl_converges_partial). Softened SIS/EPL and circular SIE violate it (C24_fails_*), the last by one part in a million (C24_sie_circular_partial). TNFW inside the window of its series: C107_divergence."
 },
 "C26": {
  "status": "partial",
  "note": "False: most chunk sizes give another value or raise (C26_fails, C26_fails_value, C26_fails_type_error). C26_partial: the sizes None, 1 and those giving one chunk agree."
 },
 "C28": {
  "status": "partial",
  "note": "False: the deflection carries an extra 1/r (C28_fails; C28_actual_divergence gives its true divergence). C28_partial: multiplied by r it matches, for the circular lens."
 },
 "C36": {
  "status": "partial",
  "note": "False: on early exit the parameters are those before the step and the chi-square those after it (C36_fails, C36_fails_value). C36_partial: the reported value lies between the two chi-squares."
 },
 "C39": {
  "status": "partial",
  "note": "Assignments that succeed give exactly the grid of a fresh object, for every history (C39_accepted, C39_history_partial); a rejected assignment that fails inside _build_grid leaves the new setting behind (C39_fails, C39_stuck). Missing: nothing can be claimed after such a failure."
 },
 "C40": {
  "status": "partial",
  "note": "False for non-square grids, because the fft size is given in (x, y) order (C40_fails). conv2d is the linear convolution for every shape (C40_conv2d); fft is too, and agrees with it, when the padded grid is square (C40_fft_partial, C40_agree_partial)."
 },
 "C41": {
  "status": "partial",
  "note": "Exact in conv2d mode (C41_shape_direct); in fft mode exactly characterised (C41_fft_iff), holds for square images (C41_square_partial), fails otherwise (C41_fails)."
 },
 "C42": {
  "status": "partial",
  "note": "Linearity, superposition and switches hold for every configuration. Uniform brightness holds in conv2d mode and for square fft grids (C42_uniform_partial), fails for a non-square one (C42_uniform_fails); an unknown psf_mode given to the constructor skips the convolution (C42_unknown_mode)."
 },
 "C44": {
  "status": "partial",
  "note": "References resolve correctly when distinct entries are distinguishable (C44_resolve_partial); two equal entries are confused because the code compares by == (C44_fails), references inside lists are never resolved (C44_lists)."
 },
 "C47": {
  "status": "partial",
  "note": "False: the law uses the distance in arcsec rather than in stellar radii (C47_fails), NaN beyond distance 1 (C47_nan); C47_actual gives the value everywhere, C47_partial what holds."
 },
 "C49": {
  "status": "partial",
  "note": "All means are data points and the loop is total when there are enough points (C49_members, C49_total); the first two are right (C49_second_partial); later ones can repeat (C49_fails)."
 },
 "C50": {
  "status": "partial",
  "note": "Maps characterised as discrete mass sums and linear in the convergence (C50_fft_direct_partial, C50_same_values, C50_linear_*). The two modes do not agree (C50_fails_modes) and the fft map is displaced by half a pixel (C50_fails_centre)."
 },
 "C55": {
  "status": "partial",
  "note": "False inside the 1e-6 window: nan at the scale radius and unbounded next to it (C55_fails, C55_fails_value, C55_fails_unbounded). C55_partial: two-sided bounds outside the window."
 },
 "C59": {
  "status": "partial",
  "note": "False for a general lens: IndexError on a fold within a cell (C59_fails_fold, C59_fails), and for a regular image when the cells are smaller than the absolute 1e-6 of triangle_equals (C59_fails_units; the same lens in larger units is searched successfully, C59_units_partial). Proved instead: every image at which the lens map, up to an invertible matrix, differs from a translation by at most an eighth over two initial cells is found, all such images in one call, for any grid, depth down to spacing 1e-6 and a root finder that converges from within two cells (C59_regular_partial); every image of finite magnification of a C1 lens map is of this kind below some spacing (C59_smooth, C59_fine_grid_partial); both images of a point mass (C59_point_partial). C118_images and C118_point replace the assumption on the root finder by a proof. Missing: folds inside two cells."
 },
 "C60": {
  "status": "partial",
  "note": "False: upsampling narrows the kernel (C60_fails). C60_effective: the result is the kernel for pixels u times larger; C60_partial: upsample = 1."
 },
 "C61": {
  "status": "partial",
  "note": "True with zero padding or without a window (C61_switch_partial); false otherwise (C61_fails)."
 },
 "C62": {
  "status": "partial",
  "note": "Translation equivariance of tile padding proved (C62_tile_periodic); that circular padding equals it is false (C62_fails)."
 },
 "C68": {
  "status": "partial",
  "note": "False as claimed: C68_fails (a 2x2 image, value -1/4 in the border). C68_interior_partial: true between the outermost pixel centres and outside the image."
 },
 "C69": {
  "status": "partial",
  "note": "False as claimed: C69_fails, and C69_channels says that every array with a channel axis is accepted and then rejected. C69_plain_partial: arrays without channel axis are evaluated everywhere."
 },
 "C71": {
  "note": "False as stated for both classes: switching back to Rein deletes the parameter from the lens but leaves Rein linked to it (C71_dangling, C71_fails), so it stays a free parameter of the graph. If linking under a used name is refused, a second switch raises half way and leaves the lens stuck (C71_refused). Proved: values and assignments are right if linking replaces (C71_value_partial, C71_assign_partial), and everything holds while the user never switches back (C71_forward_partial)."
 },
 "C72": {
  "note": "False as stated: flatten of scalars and across empty axes (C72_fails_flatten), avg_pool2d with padding (C72_fails_pool), upsample2d always for scale_factor >= 2 on uniform images (C72_fails_upsample). Proved: pad agrees (C72_pad), flatten elsewhere (C72_flatten_partial), avg_pool2d without padding (C72_pool_partial), and what each version conserves."
 },
 "C73": {
  "note": "Proved for torch (C73_torch) and for jax except scalars (C73_pointwise_partial, C73_matrix_partial, C73_convergence_partial); on jax every scalar position raises (C73_scalar, C73_fails). Derivatives themselves are a parameter."
 },
 "C76": {
  "note": "Bochner integrals over the whole line; values are positive, so the integrands are integrable. Softening zero; NFW outside the 1e-6 window, TNFW outside its 1% ring or exactly on the scale radius."
 },
 "C77": {
  "note": "The code violates the statement for PseudoJaffe, TNFW and EPL (C77_fails_*); proved for the other five classes. none stands for nan or inf."
 },
 "C78": {
  "note": "Solution sets of the lens equation in closed form. C78_epl_ring includes the spurious image at the EPL's own centre."
 },
 "C79": {
  "note": "The Jacobian is any matrix of partial derivatives of the lens map (HasJac), so both the autograd and analytic routes are covered."
 },
 "C80": {
  "note": "EPL, SIE, SIS, PseudoJaffe: full. TNFW and NFW: for discs inside the scale radius up to the series window (_partial). Beyond it the NFW claim is refuted (C80_fails_nfw, C80_fails_nfw_integrable). The TNFW for every disc, the ring of its series included, is C107_convergence_mass (to 1.5e-4)."
 },
 "C81": {
  "note": "C81_partial: every class, method and argument outside a short explicit list. On the list it is refuted with the exact factor by which the value is off (C81_fails_*), or with the exact condition under which it holds (C81_*_exact_partial). Argument filling by caskade is an assumption stated in Model/LensClass."
 },
 "C82": {
  "note": "All classes with a potential; EPL when circular (general axis ratio: C24_epl_partial), SIS/Point/NFW/TNFW/EPL unsoftened (softened: C23/C24 negations), NFW/TNFW outside their windows at the scale radius. EnclosedMass has no potential and fails (C28)."
 },
 "C83": {
  "note": "Exact function values outside the window |r/Rs - 1| <= 0.01 in which the code interpolates; deflection and convergence unsoftened (s = 0)."
 },
 "C84": {
  "note": "Half-light from n = 1/2 on (the class accepts 0.36 on)."
 },
 "C85": {
  "note": "Softening 0; the Einstein ring itself (area zero) is left out of the regions."
 },
 "C86": {
  "note": "Fails in general (edge pixels are extrapolated over the outer half pixel); exact weighted sum proved for every image, plain sum for images with a dark border, and bounds 9/16 and 81/64 for non-negative images."
 },
 "C87": {
  "note": "Proved for any lens whose three fields are multiplied by k, and that property proved for the lenses named."
 },
 "C88": {
  "note": "Random numbers are modelled as independent pairs uniform on the unit square; real arithmetic."
 },
 "C89": {
  "note": "Agreement with caskade after a failed assignment is false when caskade accepts a name that caustics does not (C89_fails_third: caskade is switched before the name is checked); proved when caskade accepts only torch and jax. The rest is proved in full."
 },
 "C90": {
  "note": "Planes at distinct redshifts, listed in order (the code needs that, C17). Multiplane.time_delay itself is not this arrival time (C20_fails)."
 },
 "C91": {
  "note": "Chunk sizes as in C26_partial. The default n_iter=18 gives 2e-10 at q=1/2 (example)."
 },
 "C92": {
  "note": "General form C92_exists/C92_magnified for any lens whose potential generates its deflection and convergence (Massive). SIE needs q<1 and no core or one >= 1e-6 (C23). A source whose first image falls on the centre of a PseudoJaffe has no computed image there (C77); C145 excludes such sources, a set of measure zero. C92_void: false for negative mass."
 },
 "C93": {
  "note": "Freshness and independence of the coordinates hold on both libraries; repeatability only under jax (C93_reproducible_partial): under torch cluster_means ignores its key (C93_fails) and Microlens rejects it (C93_torch_key). jax's split is a free operation: hash collisions are not modelled."
 },
 "C94": {
  "note": "A singular Jacobian gives inf in the code and is described by det = 0. SIE at q = 1 uses the deflection of q = 1 - 1e-6 and is outside C94_sie."
 },
 "C95": {
  "note": "The code violates it in two places: StarSource compares the distance from its centre with 1 instead of its radius (C95_star_fails), and the SIE potential clamps the core at 1e-6 in one term only (C95_sie_fails). NFW, TNFW and EnclosedMass are given in physical units and are not covered."
 },
 "C96": {
  "note": "For q = 1 the code evaluates the deflection at q = 1 - 1e-6, so a circular SIE shows a source behind its centre four times instead of as a ring (C96_ring_fails); the SIS shows the ring (C96_ring_sis)."
 },
 "C98": {
  "note": "The accuracy holds up to the end of the table, (1+z)^3 Om0/(1-Om0) = 1000 (C98_accuracy_partial). Beyond, the last cubic runs on: distances exceed the horizon and grow without bound (C98_beyond, C98_fails_last_scattering, C98_fails). Om0 = 0 and Om0 = 1, the ends of the declared valid range, give NaN (C98_fails_ends). Om0 below 1e-9, left of the table, is not covered. scipy's hyp2f1 is modelled by Euler's integral; the float32 storage of the table is not modelled."
 },
 "C99": {
  "note": "critical_density_0 is a parameter independent of h0, so setting h0 alone breaks Friedmann's equation (C99_friedmann_fails); the rest is proved."
 },
 "C100": {
  "note": "Holds for SinglePlane and thin time delays on both libraries and for everything but batched lens redshifts on jax. On torch the in-place updates of LightStack, LensSource lens light, multiplane time delay, finite difference Jacobian and pixel_to_plane refuse a batched value added to a shared array (C100_light_fails, C100_lens_source_fails, C100_delay_fails, C100_finite_difference_fails, C100_pixel_to_plane_fails); sorting batched lens redshifts is refused by both (C100_raytrace_fails). The partial theorems give the exact conditions."
 },
 "C101": {
  "note": "Quadrature rules are assumed to have nodes in [-1, 1] and non-negative weights with sum 2, as numpy's leggauss does."
 },
 "C102": {
  "note": "Fails: no method compares z_l with z_s. C102_exact_partial gives what is computed for any mixture of lenses in front and behind (every plane enters with weight (D_s - D_l)/D_s), C102_thin_partial shows a thin lens behind the source deflects by its full reduced deflection, and an NFW lens behind the source repels light and has negative convergence. A Point of given mass behind the source has a NaN Einstein radius, and all its methods return NaN (C102_point_fails). z_l = z_s divides by zero and is outside the theorems of C102; see C146."
 },
 "C103": {
  "note": "The mean value theorem for each difference quotient, and a Taylor bound for the central one, on the model of backend.gradient and meshgrid; real arithmetic, no rounding (in floating point the quotient loses accuracy for very small ps)."
 },
 "C104": {
  "note": "Bilinear weights inside and in the extrapolated border, chord error by convexity, epsilon-delta for the lensed image. Real arithmetic; the table is centred where the object is."
 },
 "C105": {
  "note": "Exactness of both modes for any program by induction on the program, then the domain conditions for each lens and source. Fails for StarSource beyond one arcsecond (reverse mode NaN, poisons an image loss), at the centre of softened SIS and point mass, and for TNFW at the scale radius (forward wrong, reverse NaN); those are proved as counterexamples and the _partial theorems say where it holds. Propagation rules of the libraries are trusted."
 },
 "C106": {
  "note": "Rays: proved for every group at every place in the list, with every division by zero modelled. Delay: false; two neighbouring planes at one distance always give NaN or inf, and as two planes approach the delay tends to infinity. A lens at the source redshift makes all rays NaN. What holds of the delay is C106_delay_partial: with distinct distances it is a number, the one of C57."
 },
 "C107": {
  "note": "The accuracy claims are proved at every radius and for every truncation radius. Divergence and gradient are proved inside the window (to 1e-3 and 1e-4; outside C24 and C23 are exact). Continuity is false: for every lens the enclosed mass, and with it the deflection, jumps at the edge of the window."
 },
 "C108": {
  "note": "C108_bound and C108_weak; C108_second_order gives the exact second-order term for two mass sheets."
 },
 "C109": {
  "note": "C109_linearised, C109_two_planes, C109_no_rotation and C109_weak."
 },
 "C110": {
  "note": "Softening 0. The exact statements hold at every radius, the series window of the TNFW included."
 },
 "C111": {
  "note": "C111_remainder is exact; C111_limit and C111_potential are the limits."
 },
 "C112": {
  "note": "C112_radial is the general statement by a degree argument on the line through centre and source; C112_radial_three bounds the number."
 },
 "C113": {
  "note": "C113_gauss and C113_mean_shear are for arbitrary lenses; C113_tnfw leaves out the window in which the profile is a series (C107)."
 },
 "C115": {
  "note": "The code violates the full statement (C115_fails); C115_orders_partial covers every accepted order up to 46340."
 },
 "C116": {
  "note": "C116_nfw_fails refutes the claim for NFW; the other theorems prove it for the lenses named. C116_exact ties the operation by operation code to the exact model."
 },
 "C117": {
  "note": "The bounds are explicit sums over the terms: sipSlope and sipSize are written in the property file and do not use the model."
 },
 "C118": {
  "note": "In exact arithmetic; the size of the neighbourhood depends on the lens. C118_images removes the assumption on the root finder from C59_fine_grid_partial; jac is only required to be the derivative where the map is differentiable (autodiff, C92)."
 },
 "C119": {
  "note": "Stated as equivalences; agreement is only asked for away from the centres, where the code returns numbers. Unsoftened profiles. TNFW and EnclosedMass are not covered. EPL through its convergence."
 },
 "C120": {
  "note": "Proved for fft mode with zero padding (C120_fft), including the bilinear interpolation of the map. In conv2d mode the limit is another field (C120_conv2d), which refutes the claim for that mode (C120_fails_conv2d). Padding modes reflect, circular and tile are not covered; no rate of convergence is given."
 },
 "C121": {
  "note": "The potential has the right limit (C121_potential_partial). The deflection has the limit stated (C121_deflection_partial, C121_centre_partial), which differs from the gradient (C121_fails, C121_fails_centre); the convergence diverges (C121_convergence_partial, C121_fails_convergence). Cause: finding 4, sign and axis of the derivative maps of bicubic_kernels."
 },
 "C122": {
  "note": "C122_keeps_*: storage is unchanged and results are new. C122_stack_partial, C122_stack_jax: values of a LightStack. Refuted: torch at integer positions and larger members (C122_fails_stack, C122_fails), interp1d on jax (C122_fails_interp1d), repeated positions in add_at_indices (C122_fails_add); the helper fill_at_indices itself changes its argument on torch (C122_fails_helper)."
 },
 "C123": {
  "note": "C123_any_order, C123_forward_program: the program forward mode executes is again a regular program with the true derivative as its meaning, so nesting is exact at every order (C123_sis, _point, _sie, _nfw, _pseudo_jaffe for the lenses). C123_jacobian_deflection, C123_magnification, C123_finite_difference: exact. Refuted for the default shear: C123_fails (statement C123_statement), C123_fails_everywhere, C123_fails_fit; C123_shear_partial keeps the values and shows both modes return zero."
 },
 "C124": {
  "note": "C124_graph, C124_device, C124_dtype, C124_values, C124_call: one conversion. C124_device_partial: stays on the device under every sequence that assigns no simulator setting below the object (or with d the default device). Refuted: C124_fails (statement C124_statement), C124_fails_call, C124_fails_dtype, C124_fails_returns, C124_fails_tables. caskade's Module.to / Param.to by stated assumption."
 },
 "C125": {
  "note": "C125_near, C125_limit, C125_sis, C125_convergence: proved. C125_round_partial: the claim up to 12e-6 Rein. Refuted: C125_fails (statement C125_statement), C125_fails_axis, C125_fails_continuous. C125_softening: `s` of SIS and of SIE are different softenings."
 },
 "C126": {
  "note": "C126_lens_equation: the solution of the lens equation is continuous, crossings included. raytrace follows it wherever the listed order is the order of redshift (C126_in_order_partial, C126_sis_partial) and for the sorted list everywhere; the delay does where no two planes meet (C126_delay_partial). In the code a crossing raises (C126_fails_raises) or makes the ray jump (C126_fails_jump), because z_ls[i + 1] is the next listed lens and not the next one in redshift."
 },
 "C127": {
  "note": "Moving holds always (C127_shift). Mirroring holds for PSFs of odd size in psf_mode conv2d for every shape and in fft mode for square images and PSFs; the exchange of axes also for even PSFs. A PSF of even size displaces the image by half a pixel of the sampling grid, even if it is symmetric (C127_even, C127_fails_even), and in fft mode images that are not square lose the symmetry of the scene (C127_fails_fft). Assumed of scipy: Gauss-Legendre rules are symmetric."
 },
 "C128": {
  "note": "All statements proved; C128_all_images uses the convergence of the Levenberg-Marquardt root finder (C118), exact arithmetic, and a jacobian that is the derivative where there is one. How fine the grid must be depends on the lens. PixelatedConvergence has a bound in fft mode without padding."
 },
 "C129": {
  "note": "All statements proved, for objects made by the constructor (the PSF and fit statements for objects in any state). That automatic differentiation computes these derivatives is C105."
 },
 "C130": {
  "note": "Fails in the code: with Rc = Rs no method returns a number, with Rc = 0 or Rs = 0 (the declared lower end) only mass_enclosed_2d does (C130_fails, C130_fails_equal, C130_fails_zero), although the limits exist (C130_deflection_limit and the others). For positive and different radii everything is a number (C130_numbers_partial). The swap, the limits and the central convergence hold in full."
 },
 "C131": {
  "note": "Point masses with s = 0 as Python evaluates them (no number at the point mass itself). The bound N^2+1 is the one of the elimination polynomial; the sharper 5(N-1) of the literature for N > 2 is not proved."
 },
 "C132": {
  "note": "C132_line shows that the condition on the size of the shear is needed: at equality a source can be seen along a whole half line."
 },
 "C133": {
  "note": "False for NFW, and for TNFW with interpret_m_total_mass=False: at mass 0 they return NaN everywhere (C133_nfw_fails, C133_tnfw_fails). Both deflections do tend to zero with the mass (C133_nfw_limit, C133_tnfw_limit). It holds for the other classes."
 },
 "C134": {
  "note": "C134_sis_regular shows that the hypotheses on the values and Jacobians of raytrace can be met."
 },
 "C135": {
  "note": "The code violates the full claim (C135_fails_epl_potential, C135_fails_sie_line); C135_partial is the rest of it."
 },
 "C136": {
  "note": "The code violates the full claim (C136_edge_on_fails, C136_point_fails, C136_enclosed_fails, C136_fails); C136_numbers_partial is the rest of it."
 },
 "C137": {
  "note": "The code violates the full claim (C137_fails_ends, C137_fails); C137_point_mass, C137_vanishes and C137_numbers_partial are the rest of it."
 },
 "C138": {
  "note": "The code violates the full claim (C138_shared_fails, C138_exception_fails, C138_fails); the theorems named _partial are the claim for programs that give each lens to one composite."
 },
 "C139": {
  "note": "Positions on the members are NaN in the code and are no images in the model (Option). C139_defined shows the Jacobian exists at every position that can be an image."
 },
 "C140": {
  "note": "The code violates the full claim (C140_fails_single, C140_fails_multi, C140_fails); the theorems named _partial are the claim where it holds, C140_one_plane says what happens where it does not."
 },
 "C141": {
  "note": "The code violates the full claim beyond the frame (C141_outside, C141_fails_ramp, C141_fails); C141_partial is the claim where it holds."
 },
 "C142": {
  "note": "FieldJacobian is the derivative of raytrace at the image. The number of images is a hypothesis: N\u00b2 + 1 is reached for two points (C131_sharp_two); for larger N it may not be reached."
 },
 "C143": {
  "note": "The winding number of a continuously differentiable map of the plane around rectangles is developed from nothing in Lemmas/Winding, WindingSum and PlaneDegree. Members that return no value or any value at a kink are allowed. A singular SIE counts by its convex cut, given in closed form (C143_sie_cut). An EPL with t > 1 counts like a point mass, because (1 - phi) times its truncated series stays within f of 1, so the deflection points away from the centre for every n_iter. Not included: EPL with t = 1, whose truncated series has no convex cut, NFW and TNFW, whose formulas have seams on circles."
 },
 "C144": {
  "note": "The linear case is a hypothesis: the same planes with only their linear parts map by a matrix of non-zero determinant. C144_bounded discharges it when there are no sheets or shears. Singular members on a multiplane are not included."
 },
 "C145": {
  "note": "Joins C143 (sum of the parities) with C92 (the first image has positive parity). For one point mass without shear the bound is attained (C139_one_star). PseudoJaffe is included although its class returns no value at the centre: almost no source has its first image there."
 },
 "C146": {
  "note": "The claim fails at both ends (C146_fails). At z_l = z_s surface_density of every lens with a convergence is 0 times infinity, time_delay is infinity times 0, and physical_deflection_angle of PseudoJaffe and Point is infinity times 0 (C146_same_redshift_fails), though none of the three depends on the source (C146_source_independent). At z_l = 0 NFW and PseudoJaffe give NaN everywhere and Point infinities or NaN (C146_redshift_zero_fails). Proved: the values strictly between (C146_numbers_partial) and the vanishing of reduced deflection, convergence and potential at z_l = z_s (C146_same_redshift_partial). Rounding and overflow are not modelled."
 },
 "C147": {
  "note": "Extends C78 and C79 (isothermal and point lenses) to every slope. The source at the centre is C78_epl_ring. Chunk sizes are those for which the series is right at all (C26)."
 },
 "C148": {
  "note": "The integrated form of C92. Where raytrace returns no numbers nothing is counted. The continuous image is meant, before sampling by pixels (C101) and the PSF (C40)."
 },
 "C149": {
  "note": "Together with C148, which gives at least one for every source in one plane. Where raytrace returns no numbers nothing is counted. Behind a MassSheet the ratio is that of C148_sheet instead."
 }
}