{"id": "C01", "title": "Rotation round trip", "statement": "Rotating a position into a lens frame with translate_rotate and rotating the resulting vector back with derotate (same angle) returns the original displacement from the centre; both operations preserve length; omitting the angle means no rotation.", "quantifier": "all real positions, centres and angles, and the phi=None branch", "why_tests_cant": "A test samples a few angles; a swapped sign or swapped component can be invisible at sampled symmetric angles.", "anchors": ["src/caustics/utils.py:translate_rotate", "src/caustics/utils.py:derotate"]}
{"id": "C02", "title": "Axis ratio flip keeps the ellipse", "statement": "flip_axis_ratio returns an axis ratio in (0,1] for every non-zero input, is idempotent on axis ratio, and the returned (q, phi) describe the same family of elliptical isophotes (level sets of the elliptical radius) as the input.", "quantifier": "all non-zero axis ratios, all position angles, all points of the plane", "why_tests_cant": "Same-ellipse is a statement about every point of the plane for every orientation.", "anchors": ["src/caustics/utils.py:flip_axis_ratio", "src/caustics/utils.py:to_elliptical", "src/caustics/utils.py:translate_rotate"]}
{"id": "C03", "title": "Ellipticity conversions round trip", "statement": "Converting (q, phi) to (e1, e2) or (c1, c2) and back returns the same axis ratio and the same orientation modulo pi, and converting (e1, e2)/(c1, c2) to (q, phi) and back is the identity on the physically valid domain.", "quantifier": "all q in (0,1], all phi; all (e1,e2) in the unit disc; all (c1,c2)", "why_tests_cant": "Branch cuts of arctan2 and the clamp make errors appear only on particular quadrants or on boundaries.", "anchors": ["src/caustics/angle_mixin.py:e1e2_to_q", "src/caustics/angle_mixin.py:qphi_to_e1e2", "src/caustics/angle_mixin.py:c1c2_to_q", "src/caustics/angle_mixin.py:qphi_to_c1c2"]}
{"id": "C04", "title": "Angle system switching leaves a consistent parameter set", "statement": "After any sequence of assignments to angle_system (including rejected values), the object exposes exactly the parameters of the current system, q and phi are computed from those parameters when the system is not q_phi, and are free parameters when it is; invalid names are rejected and change nothing.", "quantifier": "all finite sequences of angle_system assignments", "why_tests_cant": "There are infinitely many switch histories; a leftover or dangling parameter shows only after particular orders.", "anchors": ["src/caustics/angle_mixin.py:Angle_Mixin.angle_system"]}
{"id": "C05", "title": "WCS round trips", "statement": "pixel_to_plane followed by plane_to_pixel is the identity when there is no SIP distortion and the CD matrix is invertible; plane_to_world_gnomonic followed by world_to_plane_gnomonic is the identity on the whole tangent plane; hence pixel_to_world followed by world_to_pixel is the identity.", "quantifier": "all pixels, reference values, invertible CD matrices, reference sky positions with cos(dec) > 0", "why_tests_cant": "Round trips must hold for every sky position including across the RA wrap and for every CD matrix.", "anchors": ["src/caustics/utils.py:pixel_to_plane", "src/caustics/utils.py:plane_to_pixel", "src/caustics/utils.py:plane_to_world_gnomonic", "src/caustics/utils.py:world_to_plane_gnomonic", "src/caustics/utils.py:pixel_to_world", "src/caustics/utils.py:world_to_pixel"]}
{"id": "C06", "title": "Pixel grid geometry", "statement": "meshgrid(pixelscale, nx, ny) returns arrays of shape (ny, nx) whose neighbouring samples differ by exactly one pixelscale along exactly one axis, which are centred on the origin, and which depend on x only through the column and on y only through the row.", "quantifier": "all sizes nx, ny, all pixelscales", "why_tests_cant": "Off by one errors in the extent only show as a factor (n-1)/n, which depends on n.", "anchors": ["src/caustics/utils.py:meshgrid"]}
{"id": "C07", "title": "Pixel quadrature is an average", "statement": "The weights used by gaussian_quadrature_grid/_integrator sum to one and the sub-pixel samples lie symmetrically about the pixel centre, so quadrature integration of a constant or affine brightness returns its pixel-centre value exactly, and with non-negative weights the result always lies between the minimum and maximum of the sampled brightness.", "quantifier": "all symmetric one-dimensional node/weight tables with weight sum two, all levels, all pixels and pixelscales, all affine brightness fields", "why_tests_cant": "The property ranges over every quadrature level and every field.", "anchors": ["src/caustics/utils.py:_quad_table", "src/caustics/utils.py:gaussian_quadrature_grid", "src/caustics/utils.py:_integrator", "src/caustics/utils.py:quad"]}
{"id": "C08", "title": "interp1d interpolates its data", "statement": "For strictly increasing knots interp1d returns the tabulated value exactly at every knot (including the first and last), reproduces affine data exactly at every query inside and outside the table, and with extend='const' or 'linear' returns the documented extension beyond the last knot.", "quantifier": "all knot counts >= 2, all strictly increasing knots, all data, all query points", "why_tests_cant": "Index selection by searchsorted minus one wraps to -1 at the left end; only a universally quantified statement covers all knot counts and positions.", "anchors": ["src/caustics/utils.py:interp1d", "src/caustics/utils.py:_h_poly"]}
{"id": "C09", "title": "interp2d is exact at pixel centres, bounded, and total", "statement": "For every image of at least 2x2 pixels, interp2d never indexes outside the image; at a pixel centre it returns that pixel; between the outermost pixel centres linear interpolation lies between the smallest and largest pixel (the half-pixel border of the frame is extrapolated, and can leave that range); padding_mode 'zeros' gives 0 outside the frame, 'clamp' gives the value at the nearest frame point, 'extrapolate' reproduces affine images everywhere; unknown modes or paddings raise.", "quantifier": "all image sizes >= 2, all images, all query points, all mode and padding strings", "why_tests_cant": "Clamping/flooring at the frame edge is decided on measure-zero coordinates that random tests never hit.", "anchors": ["src/caustics/utils.py:interp2d"]}
{"id": "C10", "title": "interp3d is exact at voxel centres and bounded", "statement": "The analogous statements for interp3d: indices are always in range, voxel centres are reproduced, values between the outermost voxel centres are bounded by the cube's extremes, 'zeros' padding vanishes outside, constants are reproduced in the frame.", "quantifier": "all cube sizes >= 2, all cubes, all query points", "why_tests_cant": "Same as interp2d, in three dimensions with 8 corner weights; a swapped corner is invisible on symmetric test cubes.", "anchors": ["src/caustics/utils.py:interp3d", "src/caustics/light/pixelated_time.py:PixelatedTime.brightness"]}
{"id": "C11", "title": "Bicubic interpolation matches supplied values and derivatives", "statement": "interp_bicubic with supplied derivative maps returns the tabulated value at every pixel centre, its first-derivative outputs are the true partial derivatives of its value output (in pixel units) and its second-derivative outputs the true second derivatives, so a pixelated potential's deflection and convergence are the gradient and half Laplacian of its potential inside each cell.", "quantifier": "all images and derivative maps of size >= 2x2, all query points in a cell interior", "why_tests_cant": "Needs derivatives for every coefficient set; sampled finite differences cannot certify equality.", "anchors": ["src/caustics/utils.py:interp_bicubic", "src/caustics/utils.py:BC", "src/caustics/lenses/pixelated_potential.py:PixelatedPotential"]}
{"id": "C12", "title": "Bicubic default derivative maps estimate derivatives", "statement": "When derivative maps are not supplied, bicubic_kernels computes, at interior pixels, the central-difference derivative of the image (exact for quadratic images), so that interpolating a linear ramp reproduces the ramp.", "quantifier": "all images, all interior pixels", "why_tests_cant": "Sign and axis conventions cancel on symmetric or constant test images.", "anchors": ["src/caustics/utils.py:bicubic_kernels", "src/caustics/utils.py:interp_bicubic"]}
{"id": "C13", "title": "Chunked reduction does not depend on the chunk size", "statement": "vmap_reduce with any chunk size returns the same total as applying the function to the whole batch and summing; every batch element is processed exactly once, in order, in chunks of at most chunk_size elements.", "quantifier": "all batch sizes >= 1, all chunk sizes >= 1, all mapped functions, both splitting conventions (torch.chunk and numpy array_split)", "why_tests_cant": "The set of (batch, chunk) pairs is infinite and the remainder chunk appears only for some.", "anchors": ["src/caustics/utils.py:vmap_reduce", "src/caustics/utils.py:_chunk_input", "src/caustics/backend_obj.py:Backend._chunk_torch", "src/caustics/backend_obj.py:Backend._chunk_jax"]}
{"id": "C14", "title": "SinglePlane is the superposition of its members", "statement": "The deflection, convergence and potential of a SinglePlane are the sums of its members' values; they do not depend on the order of the members, an empty plane deflects nothing, and nesting planes is the same as flattening them.", "quantifier": "all finite lists of lenses, all positions", "why_tests_cant": "Quantifies over all lists and permutations.", "anchors": ["src/caustics/lenses/singleplane.py:SinglePlane"]}
{"id": "C15", "title": "BatchedPlane equals SinglePlane", "statement": "A BatchedPlane over B parameter sets returns the same deflection, convergence and potential as a SinglePlane over the B individual lenses, for every chunk size.", "quantifier": "all batches of parameters, all chunk sizes, all positions", "why_tests_cant": "Quantifies over all batch sizes and chunk sizes.", "anchors": ["src/caustics/lenses/batchedplane.py:BatchedPlane", "src/caustics/lenses/singleplane.py:SinglePlane"]}
{"id": "C16", "title": "Multiplane follows the multiplane lens equation", "statement": "Multiplane.raytrace returns the source position given by the closed-form multiplane lens equation (sum over planes of deflections at the traced intersections weighted by distances), for lenses listed in order of increasing redshift.", "quantifier": "all numbers of planes, all strictly increasing redshift lists, all lens models, all additive distance functions, all positions", "why_tests_cant": "Recursion over an arbitrary number of planes; unit tests fix a handful of planes.", "anchors": ["src/caustics/lenses/multiplane.py:Multiplane._raytrace_helper", "src/caustics/lenses/multiplane.py:Multiplane.raytrace"]}
{"id": "C17", "title": "Multiplane does not depend on the order in which lenses are listed", "statement": "Permuting the list of lenses passed to Multiplane does not change raytrace or time_delay.", "quantifier": "all permutations of all lens lists with distinct redshifts", "why_tests_cant": "Number of permutations is unbounded; the shipped tests list the planes in increasing redshift.", "anchors": ["src/caustics/lenses/multiplane.py:Multiplane._raytrace_helper"]}
{"id": "C18", "title": "One-plane Multiplane agrees with the thin lens", "statement": "A Multiplane with a single lens maps every image position to the same source position as the lens's own raytrace (x minus reduced deflection).", "quantifier": "all lens models, redshifts and positions with positive distances", "why_tests_cant": "Equality of two different computation routes for every lens and every cosmology.", "anchors": ["src/caustics/lenses/multiplane.py:Multiplane.raytrace", "src/caustics/lenses/base.py:ThinLens.raytrace"]}
{"id": "C19", "title": "Massless planes are invisible", "statement": "A Multiplane whose planes do not deflect is the identity map, and inserting a non-deflecting plane anywhere in redshift order does not change the traced source position of any ray.", "quantifier": "all plane lists and all insertion redshifts", "why_tests_cant": "Ranges over all configurations.", "anchors": ["src/caustics/lenses/multiplane.py:Multiplane._raytrace_helper"]}
{"id": "C20", "title": "One-plane Multiplane time delay agrees with the thin lens time delay", "statement": "For a single lens plane, Multiplane.time_delay equals ThinLens.time_delay (Shapiro, geometric and total).", "quantifier": "all lens models, redshifts and positions", "why_tests_cant": "Two code paths with different distance conventions must agree for all redshifts.", "anchors": ["src/caustics/lenses/multiplane.py:Multiplane.time_delay", "src/caustics/lenses/base.py:ThinLens.time_delay"]}
{"id": "C21", "title": "Reduced and physical deflections are consistent", "statement": "reduced_from_physical and physical_from_reduced deflection angle conversions are mutually inverse for non-zero distances, and a lens defined through either one returns consistent reduced deflection, physical deflection and ray positions.", "quantifier": "all deflections, all non-zero distances", "why_tests_cant": "Must hold for all distances.", "anchors": ["src/caustics/lenses/func/base.py:reduced_from_physical_deflection_angle", "src/caustics/lenses/func/base.py:physical_from_reduced_deflection_angle", "src/caustics/lenses/base.py:ThinLens"]}
{"id": "C22", "title": "Cosmological distances compose", "statement": "Comoving distances between redshifts are additive along the line of sight, antisymmetric, vanish for equal redshifts and reduce to the distance from the observer at z1=0; angular diameter distances, critical surface density and time delay distance satisfy their defining mutual identities.", "quantifier": "all redshift triples, all distance functions vanishing at redshift zero", "why_tests_cant": "Identities over all redshift triples.", "anchors": ["src/caustics/cosmology/base.py:Cosmology", "src/caustics/cosmology/FlatLambdaCDM.py:FlatLambdaCDM.comoving_distance"]}
{"id": "C23", "title": "Deflection is the gradient of the potential", "statement": "For each analytic lens (SIS, Point, MassSheet, ExternalShear, Multipole, NFW, PseudoJaffe, SIE, EPL) the reduced deflection returned at a position is the gradient of the returned potential there.", "quantifier": "all positions away from the singular point, all admissible parameters", "why_tests_cant": "Pointwise equality of a derivative for all parameters; autodiff tests only sample.", "anchors": ["src/caustics/lenses/func/sis.py", "src/caustics/lenses/func/point.py", "src/caustics/lenses/func/mass_sheet.py", "src/caustics/lenses/func/external_shear.py", "src/caustics/lenses/func/multipole.py", "src/caustics/lenses/func/nfw.py", "src/caustics/lenses/func/pseudo_jaffe.py", "src/caustics/lenses/func/sie.py", "src/caustics/lenses/func/epl.py"]}
{"id": "C24", "title": "Convergence is half the divergence of the deflection", "statement": "For each analytic lens the returned convergence equals half the divergence of the returned reduced deflection (the Poisson equation) away from singular points.", "quantifier": "all positions away from the singular point, all admissible parameters", "why_tests_cant": "Pointwise equality of derivatives for all parameters.", "anchors": ["src/caustics/lenses/func/sis.py", "src/caustics/lenses/func/point.py", "src/caustics/lenses/func/mass_sheet.py", "src/caustics/lenses/func/external_shear.py", "src/caustics/lenses/func/multipole.py", "src/caustics/lenses/func/nfw.py", "src/caustics/lenses/func/pseudo_jaffe.py", "src/caustics/lenses/func/sie.py", "src/caustics/lenses/func/tnfw.py"]}
{"id": "C25", "title": "Point mass and Einstein radius conversions are inverse", "statement": "mass_to_rein_point and rein_to_mass_point are mutually inverse for positive distances and non-negative arguments; sigma_v_to_rein is strictly increasing in velocity dispersion.", "quantifier": "all non-negative masses and radii, all positive distances", "why_tests_cant": "Round trip for all magnitudes.", "anchors": ["src/caustics/lenses/func/point.py:mass_to_rein_point", "src/caustics/lenses/func/point.py:rein_to_mass_point", "src/caustics/lenses/func/sie.py:sigma_v_to_rein_sie"]}
{"id": "C26", "title": "EPL series does not depend on the chunk size", "statement": "The EPL deflection for a given number of series terms is the same whatever chunk_size is used to evaluate the series (chunk_size is documented as a speed/memory setting).", "quantifier": "all n_iter, all chunk_size >= 1, all positions and parameters", "why_tests_cant": "All pairs (n_iter, chunk_size); tests use the default pair.", "anchors": ["src/caustics/lenses/func/epl.py:_r_omega"]}
{"id": "C27", "title": "EPL limits", "statement": "With slope t=1 and q=1 the EPL deflection is the SIS deflection, the EPL potential satisfies the Euler homogeneity relation with the deflection, and EPL convergence at t=1 equals SIE convergence with the same parameters.", "quantifier": "all positions, Einstein radii and numbers of series terms", "why_tests_cant": "Identity between different lens classes at all positions.", "anchors": ["src/caustics/lenses/func/epl.py", "src/caustics/lenses/func/sie.py", "src/caustics/lenses/func/sis.py"]}
{"id": "C28", "title": "EnclosedMass deflection matches its convergence", "statement": "For a circular EnclosedMass lens half the divergence of the returned deflection equals the returned convergence (up to the fixed unit conversion factor), for every enclosed-mass function.", "quantifier": "all differentiable mass profiles, all radii", "why_tests_cant": "The functional argument ranges over all profiles; the shipped test only checks finiteness.", "anchors": ["src/caustics/lenses/func/enclosed_mass.py", "src/caustics/lenses/enclosed_mass.py:EnclosedMass"]}
{"id": "C29", "title": "triangle_contains decides membership in the closed triangle", "statement": "For a non-degenerate triangle triangle_contains(p, v) is true exactly when v is a convex combination of the three vertices, independent of vertex order and invariant under affine maps.", "quantifier": "all non-degenerate triangles and points, all vertex orders", "why_tests_cant": "Boundary points and orientation (clockwise or not) matter; random tests miss boundaries.", "anchors": ["src/caustics/lenses/func/base.py:triangle_contains", "src/caustics/lenses/func/base.py:triangle_area"]}
{"id": "C30", "title": "triangle_upsample covers the triangle", "statement": "The four sub-triangles returned by triangle_upsample each have a quarter of the area, are contained in the parent, and every point of the parent lies in at least one of them.", "quantifier": "all triangles and points", "why_tests_cant": "Covering is a statement about every point.", "anchors": ["src/caustics/lenses/func/base.py:triangle_upsample"]}
{"id": "C31", "title": "triangle_neighbors surrounds the triangle", "statement": "The thirteen triangles returned by triangle_neighbors all have the area of the parent, include the parent, each shares a vertex with it, and together cover a full neighbourhood of it (every point whose barycentric coordinates are slightly negative is covered).", "quantifier": "all non-degenerate triangles and points", "why_tests_cant": "Covering is a statement about every point.", "anchors": ["src/caustics/lenses/func/base.py:triangle_neighbors"]}
{"id": "C32", "title": "Deduplication keeps one representative of each cluster", "statement": "remove_duplicate_points and remove_triangle_duplicates return a sub-list of the input in input order, containing the first element, such that no two returned elements are within tolerance and every input element is within tolerance of a returned one.", "quantifier": "all input lists and tolerances > 0", "why_tests_cant": "Greedy order-dependent selection over all lists.", "anchors": ["src/caustics/lenses/func/base.py:remove_duplicate_points", "src/caustics/lenses/func/base.py:remove_triangle_duplicates"]}
{"id": "C33", "title": "forward_raytrace refines, stops and reports separated points", "statement": "forward_raytrace performs at most max_depth+1 refinement rounds; at round k every candidate triangle has exactly 4^-k times the initial grid triangle's area; any points it returns are pairwise at least epsilon apart; every candidate it keeps is a triangle whose raytraced image contains the source; with no containing triangle the call fails instead of returning an empty answer.", "quantifier": "all raytrace maps, sources, fields of view, grid sizes, tolerances and depths", "why_tests_cant": "Loop executions are unbounded in number and depend on an arbitrary lens map.", "anchors": ["src/caustics/lenses/func/base.py:forward_raytrace"]}
{"id": "C34", "title": "forward_raytrace never loses an image of an affine lens", "statement": "For an affine invertible lens map (mass sheet plus shear), if the image of the source lies in the field of view then at every round some candidate triangle contains the true image position.", "quantifier": "all invertible affine maps, all sources imaged into the field of view, all rounds", "why_tests_cant": "Completeness over all rounds and all maps.", "anchors": ["src/caustics/lenses/func/base.py:forward_raytrace"]}
{"id": "C35", "title": "Levenberg-Marquardt step never increases chi-square and keeps damping in range", "statement": "One call of the LM step returns a point whose chi-square is not larger than that of the incoming point, leaves the point unchanged when the step is rejected, and returns a damping parameter inside [L_min, L_max]; the same holds after any number of iterations of batch_lm.", "quantifier": "all model functions, Jacobians, data, starting points, iteration counts and positive acceptance thresholds", "why_tests_cant": "Invariant over all iteration histories.", "anchors": ["src/caustics/utils.py:_lm_step", "src/caustics/utils.py:batch_lm"]}
{"id": "C36", "title": "batch_lm returns the point whose chi-square and damping it reports", "statement": "The triple returned by batch_lm is consistent: the returned chi-square is the chi-square of the returned parameters.", "quantifier": "all problems and all stopping rounds", "why_tests_cant": "The early-stop branch is taken only at convergence; values are nearly equal there so tests cannot see the mismatch.", "anchors": ["src/caustics/utils.py:batch_lm"]}
{"id": "C37", "title": "LM on a linear problem accepts every step", "statement": "For an affine forward model with positive weights, every LM step with a non-zero gradient is accepted and strictly reduces chi-square.", "quantifier": "all affine one-parameter models, data, starting points and damping values", "why_tests_cant": "Universal over problems.", "anchors": ["src/caustics/utils.py:_lm_step"]}
{"id": "C38", "title": "Jacobian, shear, convergence and magnification agree", "statement": "From a lens-equation Jacobian A, trace(A)=2-2*convergence, the returned shear components satisfy det(A)=(1-kappa)^2-gamma1^2-gamma2^2 for a symmetric A, magnification is 1/|det A|, and the finite-difference Jacobian is exact for affine deflection fields at interior and edge pixels.", "quantifier": "all Jacobians; all affine deflection fields, grid sizes and pixelscales", "why_tests_cant": "Index conventions (row/column, x/y) cancel for symmetric sampled lenses.", "anchors": ["src/caustics/lenses/base.py:Lens.shear", "src/caustics/lenses/base.py:ThinLens._jacobian_deflection_angle_finitediff", "src/caustics/lenses/base.py:ThinLens._jacobian_lens_equation_finitediff", "src/caustics/lenses/utils.py:magnification"]}
{"id": "C39", "title": "LensSource derived grid always matches its configuration", "statement": "After construction and after any sequence of successful or rejected assignments to pixelscale, pixels_x, pixels_y, upsample_factor, quad_level and psf_shape, the internal sampling grid, padding and FFT size are exactly those a freshly constructed simulator with the current settings would have; assigning upsample_factor below one is rejected and changes nothing.", "quantifier": "all sequences of property assignments", "why_tests_cant": "Infinite histories of assignments.", "anchors": ["src/caustics/sims/lens_source.py:LensSource._build_grid", "src/caustics/sims/lens_source.py:LensSource"]}
{"id": "C40", "title": "FFT and direct PSF convolution agree", "statement": "With psf_mode 'fft' and 'conv2d' LensSource returns the same image, equal to the direct linear convolution with the normalised PSF, without wrap-around from the opposite edge.", "quantifier": "all images, all PSFs (odd or even sized), all FFT padding sizes", "why_tests_cant": "Wrap-around depends on sizes and content at the image edge.", "anchors": ["src/caustics/sims/lens_source.py:LensSource._fft2_padded", "src/caustics/sims/lens_source.py:LensSource._unpad_fft", "src/caustics/sims/lens_source.py:LensSource.__call__"]}
{"id": "C41", "title": "LensSource output shape", "statement": "The returned image has shape (pixels_y, pixels_x) for every configuration, in every psf_mode.", "quantifier": "all pixel counts, upsample factors and PSF shapes", "why_tests_cant": "Shape algebra over all configurations; tests mostly use square images.", "anchors": ["src/caustics/sims/lens_source.py:LensSource.__call__", "src/caustics/sims/lens_source.py:LensSource._build_grid"]}
{"id": "C42", "title": "LensSource preserves uniform brightness and is linear", "statement": "If the brightness is constant over the padded field the output image is that constant in every pixel, whatever the PSF, upsampling, quadrature level; the image is linear in the light and the image of source plus lens light is the sum of the separate images.", "quantifier": "all constants, brightness fields, PSFs with non-zero sum, upsample factors and quadrature tables", "why_tests_cant": "Quantifies over all PSFs and sampling settings.", "anchors": ["src/caustics/sims/lens_source.py:LensSource.__call__"]}
{"id": "C43", "title": "Microlens flux estimate", "statement": "For a uniform brightness Microlens returns brightness times field area with zero error in both methods; the estimate is linear in the brightness; the reported error is non-negative; all sample positions lie inside the requested field of view; unknown methods raise.", "quantifier": "all sample sets, fields of view, brightness functions and method names", "why_tests_cant": "Monte-Carlo output is random; only identities that hold for every draw can be relied on.", "anchors": ["src/caustics/sims/microlens.py:Microlens"]}
{"id": "C44", "title": "build_simulator resolves references to previously built objects", "statement": "Each keyword argument of a configuration entry that refers to an earlier entry is replaced by the object built for that entry, other arguments are passed unchanged, and the last entry's object is returned.", "quantifier": "all configurations (ordered mappings) and all reference graphs", "why_tests_cant": "Quantifies over all configurations.", "anchors": ["src/caustics/sims/simulator.py:build_simulator"]}
{"id": "C45", "title": "LightStack is the superposition of its members", "statement": "LightStack.brightness is the sum of the members' brightness, independent of order, zero when empty.", "quantifier": "all finite lists of light models", "why_tests_cant": "All lists and permutations.", "anchors": ["src/caustics/light/light_stack.py:LightStack"]}
{"id": "C46", "title": "Sersic profile shape", "statement": "Sersic brightness equals Ie on the ellipse of elliptical radius Re, is positive, strictly decreases with elliptical radius, is constant on ellipses, and scales linearly with Ie, for either formula for k that is positive.", "quantifier": "all positions, all parameters with n>0, Re>0, Ie>0, k>0", "why_tests_cant": "Monotonicity over the whole half-line.", "anchors": ["src/caustics/light/func/sersic.py:brightness_sersic"]}
{"id": "C47", "title": "Star source limb darkening", "statement": "StarSource brightness vanishes outside theta_s, equals Ie at the centre and follows the linear limb darkening law with mu = sqrt(1-(r/theta_s)^2), so it equals (1-gamma) Ie at the limb.", "quantifier": "all theta_s > 0, gamma in [0,1], all positions", "why_tests_cant": "All radii and all theta_s; only theta_s = 1 makes the unnormalised formula right.", "anchors": ["src/caustics/light/func/star_source.py:brightness_star"]}
{"id": "C48", "title": "Gaussian PSF kernel is normalised", "statement": "gaussian(...) returns a strictly positive kernel that sums to one, is symmetric under both reflections and its maximum is at the centre.", "quantifier": "all sizes, pixelscales, widths > 0 and upsample factors", "why_tests_cant": "All sizes including even ones.", "anchors": ["src/caustics/utils.py:gaussian"]}
{"id": "C49", "title": "cluster_means picks distinct starting centres", "statement": "cluster_means uses k distinct data points as starting centres, so that with k distinct points it returns those points.", "quantifier": "all data sets and all k", "why_tests_cant": "The index mix-up depends on the order of the data.", "anchors": ["src/caustics/utils.py:cluster_means"]}
{"id": "C50", "title": "PixelatedConvergence modes agree and are linear", "statement": "With zero padding, the 'fft' and 'conv2d' modes give the same deflection and potential maps, equal to the direct sum over pixels of kernel times convergence; maps are linear in the convergence map and in scale; a symmetric map has zero deflection at the centre.", "quantifier": "all square convergence maps, all sizes", "why_tests_cant": "Index offsets depend on the parity of the size.", "anchors": ["src/caustics/lenses/func/pixelated_convergence.py", "src/caustics/lenses/pixelated_convergence.py:PixelatedConvergence"]}
{"id": "C51", "title": "Lens models are translation and rotation covariant", "statement": "Moving the lens centre by a vector translates its deflection, potential and convergence fields by that vector, and changing its position angle by an angle rotates them (deflections rotate as vectors, potential and convergence as scalars).", "quantifier": "all centres, angles, positions, parameters", "why_tests_cant": "Covariance over all continuous parameters.", "anchors": ["src/caustics/lenses/func/sie.py", "src/caustics/lenses/func/epl.py", "src/caustics/lenses/func/enclosed_mass.py", "src/caustics/lenses/func/sis.py", "src/caustics/lenses/func/point.py", "src/caustics/lenses/func/nfw.py", "src/caustics/lenses/func/pseudo_jaffe.py", "src/caustics/lenses/func/mass_sheet.py"]}
{"id": "C52", "title": "Thin lens time delay is Fermat's principle", "statement": "ThinLens.time_delay is the factor (1+z_l) d_l d_s/(c d_ls) times (half squared displacement minus potential); images of a source (solutions of the lens equation) are exactly the stationary points of the arrival time at fixed source position; the switches select the Shapiro and geometric terms additively.", "quantifier": "all differentiable potentials, all positions, all positive distances", "why_tests_cant": "Equivalence for all potentials.", "anchors": ["src/caustics/lenses/base.py:ThinLens.time_delay", "src/caustics/lenses/func/base.py:time_delay_arcsec2_to_days"]}
{"id": "C53", "title": "Effective deflection, div and curl of a thick lens", "statement": "ThickLens.effective_reduced_deflection_angle is the image position minus the traced position; for a single plane its curl vanishes and its half divergence is the convergence; two planes in general have non-zero curl.", "quantifier": "all lens lists and positions", "why_tests_cant": "Quantifies over all lens models.", "anchors": ["src/caustics/lenses/base.py:ThickLens"]}
{"id": "C54", "title": "Analytic profiles are physically admissible", "statement": "Convergences of SIS, SIE, EPL, NFW (outside its rounding window), TNFW (outside its 1% ring, and on the scale radius itself), PseudoJaffe are positive and decrease with radius; NFW and PseudoJaffe enclosed masses/deflections are non-negative.", "quantifier": "all radii > 0 and all admissible parameters", "why_tests_cant": "Sign and monotonicity over a continuum.", "anchors": ["src/caustics/lenses/func/nfw.py", "src/caustics/lenses/func/pseudo_jaffe.py", "src/caustics/lenses/func/sis.py", "src/caustics/lenses/func/sie.py", "src/caustics/lenses/func/tnfw.py"]}
{"id": "C55", "title": "NFW convergence is defined at the scale radius", "statement": "The NFW convergence is finite at every positive radius including exactly the scale radius, where it is the limit 2/3 kappa_s of nearby values.", "quantifier": "all positive radii and parameters", "why_tests_cant": "A single radius in the continuum is affected.", "anchors": ["src/caustics/lenses/func/nfw.py:convergence_nfw"]}
{"id": "C56", "title": "PixelatedConvergence convolution mode switching", "statement": "After any sequence of assignments to convolution_mode (accepted or rejected) the cached kernels are the ones for the current mode; invalid names raise and change nothing.", "quantifier": "all finite sequences of assignments", "why_tests_cant": "Infinite histories.", "anchors": ["src/caustics/lenses/pixelated_convergence.py:PixelatedConvergence.convolution_mode"]}
{"id": "C57", "title": "Multiplane time delay is the documented sum along the ray", "statement": "For lenses listed by increasing redshift, Multiplane.time_delay equals the sum over consecutive planes of the Shapiro term (weighted by the documented beta factor) and the geometric term, each evaluated where the ray actually crosses the plane; the two flags select exactly the two sums, and asking for neither raises.", "quantifier": "all non-empty redshift-ordered lists of lenses, all distance functions positive and increasing on them, all image positions, all four flag combinations", "why_tests_cant": "Number of planes is unbounded and a wrong weight or a plane evaluated at the wrong position only shows with several deflecting planes.", "anchors": ["src/caustics/lenses/multiplane.py:Multiplane.time_delay"]}
{"id": "C58", "title": "FlatLambdaCDM distances", "statement": "The comoving distance of FlatLambdaCDM is zero at redshift zero, strictly increasing with redshift, scales exactly as 1/h0, and the critical density equals the supplied present-day value at redshift zero and increases with redshift.", "quantifier": "all redshifts, h0 > 0, 0 < Om0 < 1, any strictly increasing distance table", "why_tests_cant": "Monotonicity and scaling quantify over pairs of points in a continuum of parameters.", "anchors": ["src/caustics/cosmology/flat_lambda_cdm.py:FlatLambdaCDM.comoving_distance", "src/caustics/cosmology/flat_lambda_cdm.py:FlatLambdaCDM.critical_density"]}
{"id": "C59", "title": "forward_raytrace finds every image of a general lens", "statement": "For a continuous lens map and a root finder that solves the lens equation, every image position inside the field of view is within epsilon of a returned point.", "quantifier": "all continuous lens maps, all sources with an image in the field of view, all grids with at least two points, sufficient depth", "why_tests_cant": "Tests use lenses whose images are well separated compared to the grid; a pair of images inside one grid cell is never tried.", "anchors": ["src/caustics/lenses/func/base.py:forward_raytrace", "src/caustics/lenses/base.py:Lens.forward_raytrace"]}
{"id": "C60", "title": "gaussian upsampling refines the requested pixels", "statement": "gaussian(pixelscale, nx, ny, sigma, upsample=u) is the kernel for pixels of size pixelscale, each represented by u by u points inside the pixel, so the width of the kernel in pixels does not depend on upsample.", "quantifier": "all pixel scales, widths, sizes and upsample factors", "why_tests_cant": "The tests only call it with one upsample factor and check that a simulation runs; whether the width changes with the factor is a relation between all factors.", "anchors": ["src/caustics/utils.py:gaussian"]}
{"id": "C61", "title": "Switching convolution_mode is the same as constructing with that mode", "statement": "A PixelatedConvergence whose convolution_mode is assigned a mode m computes the same deflections as one constructed with convolution_mode=m and otherwise equal arguments. Holds for zero padding or window_kernel <= 0; fails otherwise because the kernel window is applied only by a constructor that starts in fft mode.", "quantifier": "all map sizes, pixel scales, paddings, windows, initial and final modes, convergence maps and positions", "why_tests_cant": "The setter has unboundedly many histories and the effect depends on the constructor's initial mode; tests only compare freshly built lenses on an almost vanishing map with atol 1e-20.", "anchors": ["src/caustics/lenses/pixelated_convergence.py:PixelatedConvergence.__init__", "src/caustics/lenses/pixelated_convergence.py:PixelatedConvergence.convolution_mode"]}
{"id": "C62", "title": "Periodic paddings of PixelatedConvergence", "statement": "With padding='tile' and convolution_mode='fft' (when twice the map size is a fast FFT length) cyclically translating the convergence map cyclically translates the deflection and potential maps by the same number of pixels; padding='circular' would have to give the same maps as 'tile' but does not (it pads n-1 instead of n samples).", "quantifier": "all map sizes, convergence maps, kernels and translations", "why_tests_cant": "Translation equivariance ranges over all maps and shifts; the existing comparison of tile and circular uses a vanishing map.", "anchors": ["src/caustics/lenses/func/pixelated_convergence.py:_fft2_padded", "src/caustics/lenses/func/pixelated_convergence.py:_unpad_fft", "src/caustics/lenses/func/pixelated_convergence.py:reduced_deflection_angle_pixelated_convergence"]}
{"id": "C63", "title": "Meaning of the mass parameter of halo lenses", "statement": "TNFW with interpret_m_total_mass=True: mass_enclosed_2d(r) tends to `mass` as r grows and to 0 as r shrinks; with False: `mass` is the integral of the untruncated density (scale radius Rs, get_scale_density) over the ball of get_concentration scale radii, whose mean density is 200 times critical. NFW: the same for its own scale radius and density. PseudoJaffe: mass_enclosed_2d is 0 at 0, non-decreasing and tends to `mass`. For radii off TNFW's 1% ring mass_enclosed_2d is positive, grows with r and stays below `mass`. A positive mass always gives a positive normalisation M0.", "quantifier": "all positive masses, radii, truncations, distances and critical densities", "why_tests_cant": "Limits at infinity and integrals over all radii cannot be reached by evaluating finitely many points; tests only compare single numbers with other packages.", "anchors": ["src/caustics/lenses/func/tnfw.py:M0_totmass_tnfw", "src/caustics/lenses/func/tnfw.py:M0_scalemass_tnfw", "src/caustics/lenses/func/tnfw.py:mass_enclosed_2d_tnfw", "src/caustics/lenses/func/tnfw.py:concentration_tnfw", "src/caustics/lenses/func/nfw.py:scale_density_nfw", "src/caustics/lenses/func/nfw.py:scale_radius_nfw", "src/caustics/lenses/func/pseudo_jaffe.py:mass_enclosed_2d_pseudo_jaffe", "src/caustics/lenses/tnfw.py:TNFW.M0"]}
{"id": "C64", "title": "A TNFW lens without truncation is an NFW lens", "statement": "With interpret_m_total_mass=False, as tau grows the reduced deflection, the convergence and the potential of TNFW tend to those of the NFW lens with the same mass and cosmology and concentration get_concentration(), at every position outside the 1% ring around the scale radius.", "quantifier": "all positions off the centre and off the ring, all positive parameters", "why_tests_cant": "It is a limit in a parameter; a test at one large tau cannot distinguish a wrong constant from slow convergence.", "anchors": ["src/caustics/lenses/tnfw.py:TNFW", "src/caustics/lenses/func/tnfw.py:potential_tnfw", "src/caustics/lenses/func/tnfw.py:convergence_tnfw", "src/caustics/lenses/func/tnfw.py:physical_deflection_angle_tnfw", "src/caustics/lenses/func/nfw.py"]}
{"id": "C65", "title": "Pixelated sources show their image", "statement": "On meshgrid(pixelscale, nx, ny) moved to its centre Pixelated returns image*scale exactly; it is zero outside the rectangle of the image, linear in image and scale, unchanged when source and query move together, depends only on the offset in pixels, reproduces affine brightness exactly, and stays within the range of the image between the outermost pixel centres.", "quantifier": "all image shapes at least 2x2, images, positions, pixel scales, scales and padding modes", "why_tests_cant": "Ranges over all images and real positions; half-pixel and axis-order mistakes are invisible on the square constant images of the tests.", "anchors": ["src/caustics/light/pixelated.py:Pixelated.brightness", "src/caustics/utils.py:interp2d", "src/caustics/utils.py:meshgrid"]}
{"id": "C66", "title": "Time-varying pixelated sources show their cube", "statement": "PixelatedTime returns cube[k]*scale at the pixel centres at the middle of the k-th of n equal parts of [0, t_end]; it is zero outside the rectangle and outside [0, t_end]; a cube whose frames are all equal gives the same brightness as Pixelated with that frame.", "quantifier": "all cube shapes, cubes, positions, times, pixel scales", "why_tests_cant": "Ranges over all cubes and real times; an off-by-half-frame error is invisible for cubes that vary slowly.", "anchors": ["src/caustics/light/pixelated_time.py:PixelatedTime.brightness", "src/caustics/utils.py:interp3d"]}
{"id": "C67", "title": "Tabulated deflections deflect by the table", "statement": "PixelatedDeflection deflects by (map[0][i,j], map[1][i,j]) at pixel centre (i,j) and raytrace subtracts it; outside the table there is no deflection; a table sampled from a linear lens (mass sheet plus shear) deflects exactly as that lens everywhere on the table. A SinglePlane with a PixelatedDeflection among its members deflects by the sum of its members, but its convergence and potential raise NotImplementedError.", "quantifier": "all table shapes and values, positions and pixel scales", "why_tests_cant": "Ranges over all tables and real positions; exchanged components or axes go unnoticed on symmetric square tables.", "anchors": ["src/caustics/lenses/pixelated_deflection.py:PixelatedDeflection.reduced_deflection_angle", "src/caustics/lenses/base.py:ThinLens.raytrace", "src/caustics/lenses/pixelated_deflection.py:PixelatedDeflection.potential", "src/caustics/lenses/singleplane.py:SinglePlane.potential"]}
{"id": "C68", "title": "A non-negative image has a non-negative brightness", "statement": "Wherever Pixelated with a non-negative image and scale is evaluated its brightness is not negative. Holds between the outermost pixel centres and outside the image; fails in the half-pixel border, where the interpolation extrapolates.", "quantifier": "all non-negative images and positions", "why_tests_cant": "Random images tested at grid points never hit the half-pixel border.", "anchors": ["src/caustics/light/pixelated.py:Pixelated.brightness", "src/caustics/utils.py:interp2d"]}
{"id": "C69", "title": "Arrays accepted by a constructor can be evaluated", "statement": "An image accepted by the Pixelated constructor (2D or, as documented, 3D channels first) and a cube accepted by PixelatedTime (3D or 4D) can be evaluated. Holds without channel axis; every array with a channel axis is accepted and then rejected with ValueError by brightness.", "quantifier": "all arrays of any number of dimensions, all parameters and positions", "why_tests_cant": "Tests construct only the plain case; the accepted arrays form an unbounded family of shapes.", "anchors": ["src/caustics/light/pixelated.py:Pixelated.__init__", "src/caustics/light/pixelated.py:Pixelated.brightness", "src/caustics/light/pixelated_time.py:PixelatedTime.__init__", "src/caustics/light/pixelated_time.py:PixelatedTime.brightness", "src/caustics/lenses/pixelated_deflection.py:PixelatedDeflection.__init__"]}
{"id": "C70", "title": "ExternalShear.parametrization switching", "statement": "After any sequence of assignments to parametrization (accepted or rejected) and of values to parameters, an ExternalShear has parameters gamma and phi exactly when it is 'angular'; gamma_1 and gamma_2 then depend on exactly these two objects and equal gamma*cos(2 phi) and gamma*sin(2 phi) of their current values; switching back leaves gamma_1 and gamma_2 free and without dependencies; an accepted name never raises, a name already in effect changes nothing, any other name raises ValueError and changes nothing.", "quantifier": "all finite histories of assignments, all initial values, all parameter values", "why_tests_cant": "The test follows one history of four assignments; the claim is about every interleaving of switches, rejected names and value assignments, and about object identity of parameters that are deleted and created anew.", "anchors": ["src/caustics/lenses/external_shear.py:ExternalShear.parametrization", "src/caustics/lenses/func/external_shear.py:gamma_phi_to_gamma1", "src/caustics/lenses/func/external_shear.py:gamma_phi_to_gamma2"]}
{"id": "C71", "title": "Point and SIE parametrization switching", "statement": "After any sequence of assignments to parametrization and of values, Rein of a Point or SIE depends only on parameters the lens has; it equals the conversion of the current mass (velocity dispersion) and redshifts when the lens is parametrised that way, and its own value otherwise; accepted names never raise.", "quantifier": "all finite histories of assignments, both lens classes, all initial values, both behaviours of linking under a used name", "why_tests_cant": "The tests switch once there and back and look at the value of Rein and at one attribute; what remains linked, and what a second switch does, is not observed.", "anchors": ["src/caustics/lenses/point.py:Point.parametrization", "src/caustics/lenses/sie.py:SIE.parametrization", "src/caustics/lenses/func/point.py:mass_to_rein_point", "src/caustics/lenses/func/sie.py:sigma_v_to_rein_sie"]}
{"id": "C72", "title": "Array helpers give the same result on torch and jax", "statement": "For every argument the torch version of backend.flatten, pad, avg_pool2d and upsample2d accepts, the jax version returns the same result. Holds for pad, for flatten of arrays without empty axes that are not scalars, and for avg_pool2d without padding; fails for flatten of scalars, for avg_pool2d with padding (ignored by jax) and for upsample2d (torch conserves the sum, jax the value).", "quantifier": "all shapes, axis ranges, padding lists, kernels, strides, images and scale factors", "why_tests_cant": "The backend tests check one 4x4 image of ones and only its shape after upsampling; agreement over all shapes and axis ranges cannot be enumerated.", "anchors": ["src/caustics/backend_obj.py:Backend._flatten_jax", "src/caustics/backend_obj.py:Backend._pad_jax", "src/caustics/backend_obj.py:Backend._avg_pool2d_jax", "src/caustics/backend_obj.py:Backend._upsample2d_torch", "src/caustics/backend_obj.py:Backend._upsample2d_jax"]}
{"id": "C73", "title": "Autograd defaults work on arrays of any shape", "statement": "The default reduced_deflection_angle, convergence and Jacobians of a lens, evaluated on arrays x and y of equal shape with any chunk size, return arrays of that shape (with trailing 2x2 axes for Jacobians) whose entry at each index is the gradient, half Laplacian or Jacobian at the position with that index; arrays with different numbers of elements are refused. Fails on jax for scalar positions (ZeroDivisionError in flatten).", "quantifier": "all shapes, positions, chunk sizes, functions and both array libraries", "why_tests_cant": "Tests evaluate a handful of shapes and one chunk size; the index bookkeeping of flatten, chunking, stacking and reshaping is claimed for every rank.", "anchors": ["src/caustics/lenses/base.py:ThinLens.reduced_deflection_angle", "src/caustics/lenses/base.py:ThinLens.convergence", "src/caustics/lenses/base.py:ThinLens._jacobian_deflection_angle_autograd", "src/caustics/backend_obj.py:Backend._flatten_jax", "src/caustics/backend_obj.py:Backend._vmap_torch"]}
{"id": "C74", "title": "vmap_n maps over the leading axes", "statement": "vmap_n(f, depth)(x)[i_1..i_depth, j...] = f(x[i_1..i_depth])[j...]; with in_dims = k and out_dims = m the batch axes k..k+depth-1 of the input become, in order, the axes m..m+depth-1 of the output; the shape is that of f with the batch sizes put in at m; depth < 1 and arrays with too few axes raise ValueError.", "quantifier": "all functions, depths, axes, arrays and indices", "why_tests_cant": "vmap_n has no test (its docstring says so), and the claim is for every depth.", "anchors": ["src/caustics/utils.py:vmap_n", "src/caustics/backend_obj.py:Backend._vmap_torch"]}
{"id": "C75", "title": "forward_raytrace finds the image of an affine lens with its own root finder", "statement": "For a lens whose map is affine and invertible (mass sheet with external shear off the critical values) and a source whose image v lies in the field of view, forward_raytrace, with max_depth large enough for epsilon, does not raise, returns at least one point and only points within 4/3 epsilon of v. If the lens compresses little enough for the fixed tolerance 1e-4 of the root finder, it returns exactly one point, within that tolerance (times sqrt2 (1 + 1/(11 sigma^2))) of v. The root finder never raises and never moves a point further from v than the worst start.", "quantifier": "all invertible affine maps, sources, fields of view, grid sizes, resolutions, depths, batches of starts", "why_tests_cant": "A test runs one lens at one setting; the claim is about the interplay of triangle refinement, the damped iteration, its stopping rule shared by the batch and the removal of duplicates, for every lens and setting.", "anchors": ["src/caustics/lenses/base.py:Lens.forward_raytrace", "src/caustics/lenses/func/base.py:forward_raytrace", "src/caustics/lenses/func/base.py:forward_raytrace_rootfind", "src/caustics/utils.py:batch_lm"]}
{"id": "C76", "title": "Convergence is the line-of-sight projection of the 3D density over the critical surface density", "statement": "convergence(x, y) times critical_surface_density equals the integral along the line of sight of the profile's published 3D density, at the physical impact parameter d_l*theta*arcsec_to_rad: rho_s/(r/rs (1+r/rs)^2) for NFW, the same times tau^2/(tau^2+(r/rs)^2) with scale M0/(4 pi rs^3) for TNFW, the dual pseudo-isothermal density for PseudoJaffe, and sigma_v^2/(2 pi G r^2) for the isothermal sphere whose Einstein radius comes from sigma_v_to_rein_sie. The PseudoJaffe density integrates to mass over space. Excluded: NFW's rounding window of 1e-6 and TNFW's 1% ring around the scale radius (TNFW holds on the scale radius itself), non-zero softening.", "quantifier": "all positions off the centre, all admissible lens parameters, all cosmologies with positive distances", "why_tests_cant": "An identity between an elementary function with branches and an improper integral, over a continuum of radii and parameters.", "anchors": ["src/caustics/lenses/func/nfw.py:convergence_nfw", "src/caustics/lenses/func/tnfw.py:convergence_tnfw", "src/caustics/lenses/func/pseudo_jaffe.py:convergence_pseudo_jaffe", "src/caustics/lenses/func/sis.py:convergence_sis", "src/caustics/lenses/func/sie.py:sigma_v_to_rein_sie", "src/caustics/cosmology/base.py:Cosmology.critical_surface_density"]}
{"id": "C77", "title": "Softening removes the singularity of the deflection at the lens", "statement": "For every lens class with a softening parameter s > 0, reduced_deflection_angle is a finite number at every position, is zero at the lens's own centre and tends to zero there. Without softening it is finite exactly off the centre. (Holds for SIS, Point, SIE, NFW, EnclosedMass. PseudoJaffe never uses its s and is 0/0 at the centre; a softened TNFW deflects its own centre by a non-zero amount along +x; EPL passes s to the convergence only and jumps by the Einstein radius at the centre.)", "quantifier": "all lens parameters, all softenings, all positions", "why_tests_cant": "A test evaluates finitely many positions and almost never the centre; finiteness everywhere and the limit at the centre are statements about a continuum.", "anchors": ["src/caustics/lenses/sis.py:SIS.reduced_deflection_angle", "src/caustics/lenses/point.py:Point.reduced_deflection_angle", "src/caustics/lenses/sie.py:SIE.reduced_deflection_angle", "src/caustics/lenses/nfw.py:NFW.reduced_deflection_angle", "src/caustics/lenses/enclosed_mass.py:EnclosedMass.reduced_deflection_angle", "src/caustics/lenses/pseudo_jaffe.py:PseudoJaffe.reduced_deflection_angle", "src/caustics/lenses/tnfw.py:TNFW.reduced_deflection_angle", "src/caustics/lenses/epl.py:EPL.reduced_deflection_angle"]}
{"id": "C78", "title": "Which positions on the sky are images of a source", "statement": "For a singular isothermal sphere, raytrace maps exactly the following positions to a source at distance β > 0 from the lens centre: one on the source's side at distance β + Rein and, iff β < Rein, one on the opposite side at distance Rein − β. For a point mass there are always exactly two, at the signed distances (β ± √(β² + 4 Rein²))/2. A source behind the centre is imaged into the circle of radius Rein and nothing else. A mass sheet with shear has exactly one image whenever it is not critical. The Einstein ring of a circular EPL of any slope has radius Rein; EPL reports its own centre as one more image.", "quantifier": "all lens positions, all Einstein radii, all slopes, all source positions, all image positions", "why_tests_cant": "A test can confirm that a listed position is an image; that there is no other image is a statement about the whole plane.", "anchors": ["src/caustics/lenses/base.py:ThinLens.raytrace", "src/caustics/lenses/sis.py:SIS.reduced_deflection_angle", "src/caustics/lenses/point.py:Point.reduced_deflection_angle", "src/caustics/lenses/mass_sheet.py:MassSheet.reduced_deflection_angle", "src/caustics/lenses/external_shear.py:ExternalShear.reduced_deflection_angle", "src/caustics/lenses/epl.py:EPL.reduced_deflection_angle"]}
{"id": "C79", "title": "Brightness and arrival time of the images of a source", "statement": "Of the two images that raytrace maps to a source behind a singular isothermal sphere, magnification gives values that sum to 2 Rein/β and differ by 2; for a point mass they sum to (β² + 2 Rein²)/(β √(β² + 4 Rein²)) and differ by 1. time_delay is larger at the inner image than at the outer one, by the distance factor times 2 Rein β for the sphere and β w/2 + Rein² log((w + β)/(w − β)), w = √(β² + 4 Rein²), for the point mass.", "quantifier": "all lens positions, Einstein radii, source positions, redshifts and cosmologies; whichever two positions the lens equation is solved by", "why_tests_cant": "The relations tie together four API calls at positions that depend on the source; a test checks them to rounding at a few sources.", "anchors": ["src/caustics/lenses/base.py:ThinLens.raytrace", "src/caustics/lenses/base.py:Lens.magnification", "src/caustics/lenses/base.py:ThinLens.time_delay", "src/caustics/lenses/sis.py:SIS.potential", "src/caustics/lenses/point.py:Point.potential"]}
{"id": "C80", "title": "The convergence integrates to the mass the lens claims", "statement": "The integral of convergence over the region enclosed by an isodensity contour is the enclosed mass: π R² (Rein/R)^t over the ellipse of radius R for EPL (so the mean convergence inside the Einstein ellipse is exactly 1, whatever the axis ratio and slope), π Rein (√(R² + q s²) − √q s) for SIE, π Rein R for SIS, and for PseudoJaffe, TNFW and NFW the (physical) mass that mass_enclosed_2d or the deflection uses. (Fails for NFW on every disc reaching beyond the scale radius: the computed convergence is not integrable there.)", "quantifier": "all lens positions, orientations, axis ratios, slopes, Einstein radii, masses, and all radii of the region", "why_tests_cant": "It is an integral over a two-dimensional region containing a singularity; numerical quadrature in a test would only approximate it and would step over the non-integrable window of NFW.", "anchors": ["src/caustics/lenses/func/epl.py:convergence_epl", "src/caustics/lenses/func/sie.py:convergence_sie", "src/caustics/lenses/func/sis.py:convergence_sis", "src/caustics/lenses/func/pseudo_jaffe.py:convergence_pseudo_jaffe", "src/caustics/lenses/func/pseudo_jaffe.py:mass_enclosed_2d_pseudo_jaffe", "src/caustics/lenses/func/tnfw.py:convergence_tnfw", "src/caustics/lenses/func/tnfw.py:mass_enclosed_2d_tnfw", "src/caustics/lenses/func/nfw.py:convergence_nfw", "src/caustics/lenses/func/nfw.py:_f_nfw"]}
{"id": "C81", "title": "Passing a parameter to a method acts as setting it", "statement": "Calling a method of a lens with a parameter passed by name (lens.surface_density(x, y, z_s=1.2)) returns what the method returns without it after the parameter has been set to that value; a name the method does not have is a TypeError. (Fails where a method calls another one without passing its arguments on: z_l in NFW/TNFW reduced_deflection_angle and raytrace, z_s and z_l in surface_density of NFW/TNFW/PseudoJaffe/EnclosedMass and in PseudoJaffe.physical_deflection_angle, Rs or tau in TNFW.mass_enclosed_2d.)", "quantifier": "all lens classes, methods, cosmologies, parameter values, lists of arguments passed by name and positions", "why_tests_cant": "There are as many combinations of class, method and argument as one cares to enumerate, and the values that come out of the failing ones look plausible; no test passes these arguments.", "anchors": ["src/caustics/lenses/base.py:ThinLens.physical_deflection_angle", "src/caustics/lenses/base.py:ThinLens.surface_density", "src/caustics/lenses/base.py:ThinLens.raytrace", "src/caustics/lenses/nfw.py:NFW.reduced_deflection_angle", "src/caustics/lenses/tnfw.py:TNFW.reduced_deflection_angle", "src/caustics/lenses/tnfw.py:TNFW.mass_enclosed_2d", "src/caustics/lenses/enclosed_mass.py:EnclosedMass.reduced_deflection_angle"]}
{"id": "C82", "title": "The methods of one lens object describe one lens", "statement": "For a lens object of any class, reduced_deflection_angle is the gradient of potential, convergence is half its divergence (and its curl is zero), raytrace subtracts it from the position, d_s times it is d_ls times physical_deflection_angle, and surface_density is convergence times the cosmology's critical surface density, with every distance taken from the object's own cosmology and redshifts.", "quantifier": "all lens classes with a potential, all cosmologies with increasing comoving distance, all redshifts 0 < z_l < z_s, all physical parameter values, all positions outside the documented singular ones", "why_tests_cant": "It relates seven methods through derivatives and through distances computed at several places; tests compare single values with another package for one cosmology.", "anchors": ["src/caustics/lenses/base.py:ThinLens", "src/caustics/lenses/sis.py:SIS", "src/caustics/lenses/point.py:Point", "src/caustics/lenses/mass_sheet.py:MassSheet", "src/caustics/lenses/external_shear.py:ExternalShear", "src/caustics/lenses/sie.py:SIE", "src/caustics/lenses/epl.py:EPL", "src/caustics/lenses/nfw.py:NFW", "src/caustics/lenses/tnfw.py:TNFW", "src/caustics/lenses/pseudo_jaffe.py:PseudoJaffe"]}
{"id": "C83", "title": "What truncating an NFW lens does", "statement": "At fixed mass and concentration, a TNFW lens whose mass argument is the NFW mass (interpret_m_total_mass=False) has, at every radius, an enclosed mass, a convergence and a deflection that strictly increase with the truncation parameter tau; convergence and deflection stay below those of the untruncated NFW lens of the same mass and concentration. When the mass argument is the total mass, enlarging tau strictly lowers the enclosed mass and the deflection at every radius, and the enclosed mass never reaches the total.", "quantifier": "all truncation parameters tau < tau', all masses, concentrations, distances and positions away from the lens centre and from the 1 percent window around the scale radius", "why_tests_cant": "It orders a whole family of lenses at every position; tests compare single (tau, position) pairs with another package to a tolerance.", "anchors": ["src/caustics/lenses/tnfw.py:TNFW", "src/caustics/lenses/func/tnfw.py:mass_enclosed_2d_tnfw", "src/caustics/lenses/func/tnfw.py:convergence_tnfw", "src/caustics/lenses/func/tnfw.py:M0_totmass_tnfw", "src/caustics/lenses/func/tnfw.py:M0_scalemass_tnfw"]}
{"id": "C84", "title": "Flux and half-light radius of a Sersic source", "statement": "The total flux of a Sersic source (its brightness integrated over the plane) is finite and equals 2 pi q n Ie Re^2 e^k k^(-2n) Gamma(2n), whatever its position and orientation; the flux inside the ellipse of elliptical radius Re differs from half of the total by at most 3/n per cent (3 per cent more with use_lenstronomy_k); softening lowers the flux.", "quantifier": "all Sersic indices n from 0.36 (half-light: from 1/2, to 10 with use_lenstronomy_k), all effective radii, intensities, axis ratios, angles, centres, softenings", "why_tests_cant": "The half-light property is what the parameter Re means, but it concerns an integral over the whole plane for a continuum of n; tests compare brightness values at pixels.", "anchors": ["src/caustics/light/sersic.py:Sersic", "src/caustics/light/func/sersic.py:brightness_sersic", "src/caustics/light/func/sersic.py:k_sersic", "src/caustics/light/func/sersic.py:k_lenstronomy"]}
{"id": "C85", "title": "Flux observed from a source behind a lens", "statement": "Lensing conserves surface brightness: over any region of the image plane that raytrace maps one to one, the image divided by magnification integrates to the flux of the part of the source it maps to. The image of any source behind an SIS has flux equal to the source weighted by 1 + Rein/b outside the Einstein ring and by Rein/b - 1 (for b < Rein) inside; behind a point mass the two weights are (A(b) +- 1)/2, with A the Paczynski magnification; behind a mass sheet with external shear the flux is multiplied by 1/|(1-kappa)^2 - gamma^2|.", "quantifier": "all sources (any nonnegative brightness function, measurable for the sums), all lens parameters, lens not critical", "why_tests_cant": "An integral over the plane of an arbitrary brightness function; a pixel image only samples it.", "anchors": ["src/caustics/lenses/base.py:ThinLens.raytrace", "src/caustics/lenses/base.py:ThinLens.magnification", "src/caustics/lenses/func/sis.py:reduced_deflection_angle_sis", "src/caustics/lenses/func/point.py:reduced_deflection_angle_point", "src/caustics/lenses/func/mass_sheet.py:reduced_deflection_angle_mass_sheet", "src/caustics/lenses/func/external_shear.py:reduced_deflection_angle_external_shear"]}
{"id": "C86", "title": "Flux of a pixelated source", "statement": "The brightness of a Pixelated source with at least two pixels along each axis, integrated over the sky, is finite and equals pixelscale^2 * scale * the sum of its pixels. Expected by users; it holds for images dark in the two outermost pixels on each side; in general the outermost pixel of a row counts 9/8 and the next one 7/8 (3/4 if it is next to both borders). The flux of a PixelatedTime source is linear in time between its frames.", "quantifier": "all images and cubes of any size from 2 pixels along each axis, all centres, pixel scales, scales, times", "why_tests_cant": "The integral of the interpolated image over the plane for every image; tests compare values at sample points.", "anchors": ["src/caustics/light/pixelated.py:Pixelated.brightness", "src/caustics/light/pixelated_time.py:PixelatedTime.brightness", "src/caustics/utils.py:interp2d", "src/caustics/utils.py:interp3d"]}
{"id": "C87", "title": "Mass-sheet degeneracy", "statement": "Multiply the strength of a lens by k and put it in a SinglePlane with a MassSheet of convergence 1-k: every ray meets the source plane at its former place contracted by k towards the centre of the sheet, the convergence becomes k*kappa + 1-k, the image positions of every source (moved accordingly) are the same, all magnifications are divided by k^2, and the Fermat time delays between images of one source are multiplied by k. The strength is Rein for SIS and SIE, the shear components, kappa, the multipole amplitudes, the mass for PseudoJaffe and TNFW(interpret_m_total_mass), Rein by sqrt(k) for Point and by k^(1/t) for EPL.", "quantifier": "all real k (k != 0 for the images, k >= 0 for Point and EPL), all lenses, sheet centres, positions, source positions, redshifts", "why_tests_cant": "An exact degeneracy between two different configurations, for every lens, image and time delay.", "anchors": ["src/caustics/lenses/singleplane.py:SinglePlane", "src/caustics/lenses/mass_sheet.py:MassSheet", "src/caustics/lenses/base.py:ThinLens.raytrace", "src/caustics/lenses/base.py:ThinLens.time_delay", "src/caustics/lenses/sie.py:SIE", "src/caustics/lenses/epl.py:EPL", "src/caustics/lenses/point.py:Point"]}
{"id": "C88", "title": "Microlens estimates converge to the flux and the reported error is the standard error", "statement": "With method='grid' the estimate tends to the integral of the brightness seen over the field of view as N_grid grows, for every lens and source whose image is bounded and almost everywhere continuous there, and for a continuous image the error is at most the area times the largest change of the image over 1/N_grid of the field. With method='mcmc' and independent uniform draws the estimate is unbiased for every N_mcmc and converges to the same integral with probability one; its mean square deviation is the variance of one sample over N; the mean square of the reported error is (N-1)/N times that, and sqrt(N) times the reported error converges to the standard deviation of one sample with probability one.", "quantifier": "all lenses, sources and fields of view of positive area, all sample numbers, all probability spaces carrying independent uniform draws", "why_tests_cant": "Convergence and statements about expectations and almost every random sequence cannot be observed on finitely many runs.", "anchors": ["src/caustics/sims/microlens.py:Microlens.__call__", "src/caustics/backend_obj.py:Backend._std_torch"]}
{"id": "C89", "title": "Switching the array backend", "statement": "Assigning a supported name to caustics.backend.backend leaves every helper, the array module and caskade on that library; an assignment that raises leaves caustics as it was; after any sequence of assignments caustics uses one library throughout and caskade uses the same one.", "quantifier": "all sequences of assigned names (None included), all values of CASKADE_BACKEND, all sets of names accepted by caskade", "why_tests_cant": "Sequences of switches, failed ones included, are unbounded; a test suite runs in one backend.", "anchors": ["src/caustics/backend_obj.py:Backend.backend", "src/caustics/backend_obj.py:Backend._load_backend", "src/caustics/backend_obj.py:Backend.setup_torch", "src/caustics/backend_obj.py:Backend.setup_jax"]}
{"id": "C90", "title": "Multiplane rays obey Fermat's principle", "statement": "Among all paths from the source to the observer that are straight between the planes of a Multiplane, those whose arrival time (geometric path length plus the potentials, Petters et al. 2001 eq. 6.22 with comoving distances) is stationary under moving any crossing point are exactly the rays that raytrace follows; so the images of a source under Multiplane.raytrace are the directions of arrival of the paths of stationary time.", "quantifier": "any number of planes with increasing distances, any lenses whose reduced deflection is the gradient of their potential, all paths and source positions", "why_tests_cant": "A statement about all competing paths through any number of planes.", "anchors": ["src/caustics/lenses/multiplane.py:Multiplane.raytrace", "src/caustics/lenses/base.py:ThinLens.physical_deflection_angle"]}
{"id": "C91", "title": "The EPL series and the SIE closed form are the same lens", "statement": "At slope t=1 the EPL deflection, a series cut after n_iter terms, is within Rein/sqrt(q) f^n_iter/(2 n_iter+1) of the SIE deflection with the same parameters and no core, f=(1-q)/(1+q); the potentials differ by at most that times the distance from the centre; so the EPL tends to the SIE uniformly on the sky as n_iter grows.", "quantifier": "all positions other than the centre, centres, orientations, Einstein radii, axis ratios 0<q<1, numbers of terms", "why_tests_cant": "Two independent implementations (hypergeometric series and arctan/arctanh) compared at all positions and axis ratios with an exact error bound.", "anchors": ["src/caustics/lenses/func/epl.py:reduced_deflection_angle_epl", "src/caustics/lenses/func/sie.py:reduced_deflection_angle_sie", "src/caustics/lenses/func/epl.py:potential_epl", "src/caustics/lenses/func/sie.py:potential_sie"]}
{"id": "C92", "title": "Every source has a first image, and it is not demagnified", "statement": "Behind a SinglePlane of SIS, SIE, Point, PseudoJaffe (its deflection at the centre, where the class returns no value, continued by its limit 0), MassSheet (kappa>=0) and ExternalShear lenses whose sheets and shears add up to less than one, raytrace maps at least one position to every source position. Among the images of a source there is one with the smallest time_delay; at that image convergence is at most 1, the parity is positive and magnification is at least 1 (at least 1/(1-kappa)^2).", "quantifier": "any number of members, all parameter values, positions and orientations, all sources, redshifts and cosmologies with a positive time-delay factor", "why_tests_cant": "Existence of an image for every source and a bound on the brightest of them: a global statement over the lens plane tying raytrace, time_delay, convergence and magnification together.", "anchors": ["src/caustics/lenses/singleplane.py:SinglePlane", "src/caustics/lenses/base.py:ThinLens.raytrace", "src/caustics/lenses/base.py:ThinLens.time_delay", "src/caustics/lenses/base.py:ThinLens.magnification", "src/caustics/lenses/sie.py:SIE"]}
{"id": "C93", "title": "Random numbers: fresh without a key, repeatable with one", "statement": "In any sequence of Microlens (mcmc or grid), cluster_means, rand, randn and randint calls the draws for which no key was passed never reuse random numbers, whatever keyed calls are interleaved. The two coordinates sampled by Microlens use different random numbers. A call that is given a key returns the same result whatever was drawn before, and does not advance the library's state.", "quantifier": "all programs of such calls, all lenses and sources, all states of either array library, any numbers the library may deliver", "why_tests_cant": "Reuse of a key depends on the whole history of the process; a sampled history shows nothing about the others, and reused random numbers look random.", "anchors": ["src/caustics/backend_obj.py:Backend._rand_jax", "src/caustics/backend_obj.py:Backend._randn_jax", "src/caustics/backend_obj.py:Backend._randint_jax", "src/caustics/backend_obj.py:Backend._split_key_jax", "src/caustics/sims/microlens.py:Microlens.__call__", "src/caustics/utils.py:cluster_means"]}
{"id": "C94", "title": "Critical curves", "statement": "Without core, SIE has det(d raytrace) = 1 - 2 convergence everywhere, so magnification is 1/|1 - 2 kappa|; it is infinite exactly on an ellipse of axis ratio q and area pi Rein^2, images inside it have negative parity and images outside positive parity. With a core the determinant has the extra term q Rein^2 s/(psi ((psi+s)^2+(1-q^2)x^2)). The critical curve of SIS and Point is the circle of radius Rein; a circular EPL has in addition a radial critical circle of radius Rein (1-t)^(1/t) exactly when t < 1.", "quantifier": "all parameters (0<q<1 for SIE), all positions other than the centre, all EPL iteration and chunk settings", "why_tests_cant": "Where a quantity diverges is a statement about a curve, not about sampled points; it links deflection, convergence, magnification and the meaning of Rein.", "anchors": ["src/caustics/lenses/func/sie.py:reduced_deflection_angle_sie", "src/caustics/lenses/func/sie.py:convergence_sie", "src/caustics/lenses/func/epl.py:reduced_deflection_angle_epl", "src/caustics/lenses/utils.py:pixel_magnification", "src/caustics/lenses/base.py:ThinLens.raytrace"]}
{"id": "C95", "title": "Change of the unit of angle", "statement": "Positions and every parameter that is an angle (centres, Einstein radii, cores, scale radii, multipole amplitudes, pixel scales, effective radii) may be given in another unit, k times smaller. Deflections are then multiplied by k, convergence is unchanged, the potential is multiplied by k^2 up to a constant; rays and images are the rescaled ones (all of them), Jacobian and magnification are the same numbers, delays between positions are multiplied by k^2; surface brightness is unchanged. Planes of lenses inherit this.", "quantifier": "all k > 0, all parameters and positions; SIS, Point, SIE, EPL (any iteration count and chunk size, errors included), MassSheet, ExternalShear, Multipole, PseudoJaffe, pixelated lenses and sources, Sersic, StarSource; planes of any length", "why_tests_cant": "It relates two runs on different inputs for a continuum of factors; absolute thresholds hidden in the code (1e-6 floors, comparisons with 1) break it only for some parameter values.", "anchors": ["src/caustics/lenses/func/sis.py", "src/caustics/lenses/func/point.py", "src/caustics/lenses/func/sie.py:potential_sie", "src/caustics/lenses/func/epl.py:_r_omega", "src/caustics/lenses/func/multipole.py", "src/caustics/lenses/func/pseudo_jaffe.py", "src/caustics/light/func/sersic.py:brightness_sersic", "src/caustics/light/func/star_source.py:brightness_star", "src/caustics/lenses/pixelated_potential.py", "src/caustics/light/pixelated.py"]}
{"id": "C96", "title": "Number of images of an isothermal ellipsoid", "statement": "A SIE without core shows a source at most four times (positions other than its centre with raytrace(p) = b). A source off the lens axes has exactly one image in its own quadrant. A source behind the centre has exactly four images: at distance A arctan(f/q) on one axis and A artanh(f) on the other, with f = sqrt(1-q^2), A = Rein sqrt(q)/f.", "quantifier": "all centres, 0 < q <= 1, position angles, Rein > 0 and source positions", "why_tests_cant": "The number of solutions of a transcendental equation in the plane: a numerical search can miss images and cannot exclude further ones.", "anchors": ["src/caustics/lenses/func/sie.py:reduced_deflection_angle_sie", "src/caustics/lenses/base.py:ThinLens.raytrace", "src/caustics/lenses/base.py:ThinLens.forward_raytrace"]}
{"id": "C97", "title": "Mirror images", "statement": "Mirroring a lens in the x axis (centre y0 -> -y0, position angle phi -> -phi, gamma2 -> -gamma2, multipole angles negated) mirrors everything it does: the deflection at (x, -y) is the mirrored deflection, convergence and potential are equal, raytracing mirrors, the images of the mirrored source are the mirrored images with the same magnification and delays, and a plane of mirrored lenses is the mirrored plane. The same holds for Sersic and star light. With translations and rotations (C51) no handedness is built into the library.", "quantifier": "all lens parameters, positions, source positions, lens lists, EPL iteration counts and chunk sizes, integer multipole orders", "why_tests_cant": "An equality of functions for all parameters, including the branch cut of arctan2 and the complex series of the EPL with every chunking.", "anchors": ["src/caustics/utils.py:translate_rotate", "src/caustics/utils.py:derotate", "src/caustics/lenses/func/sie.py", "src/caustics/lenses/func/epl.py", "src/caustics/lenses/func/multipole.py", "src/caustics/lenses/func/external_shear.py", "src/caustics/lenses/func/nfw.py", "src/caustics/lenses/func/tnfw.py", "src/caustics/lenses/func/pseudo_jaffe.py", "src/caustics/light/func/sersic.py"]}
{"id": "C98", "title": "FlatLambdaCDM distances are those of a flat universe with a cosmological constant", "statement": "comoving_distance(z) is c/H0 times the integral of du / sqrt(Om0 (1+u)^3 + 1 - Om0) from 0 to z, up to the resolution of the tabulated helper (1/2000 of c/H0 / (Om0^(1/3) (1-Om0)^(1/6))). It is zero at redshift zero and strictly increasing. It never exceeds the horizon.", "quantifier": "all h0 > 0, Om0 in the valid range, redshifts z >= 0, values of the physical constants", "why_tests_cant": "Accuracy of an interpolated transcendental function uniformly over all redshifts and matter densities; comparisons with another library sample a few redshifts inside the table.", "anchors": ["src/caustics/cosmology/FlatLambdaCDM.py:FlatLambdaCDM.comoving_distance", "src/caustics/cosmology/FlatLambdaCDM.py:FlatLambdaCDM._comoving_distance_helper", "src/caustics/cosmology/FlatLambdaCDM.py:FlatLambdaCDM.__init__", "src/caustics/utils.py:interp1d"]}
{"id": "C99", "title": "What the Hubble constant does", "statement": "Changing h0 to s h0 divides every distance by s. Thin and multiplane ray tracing of lenses given in angular units does not change, and every time delay is divided by s; failures are the same. Lenses given by a mass (Point, PseudoJaffe, NFW, TNFW) keep deflection, convergence and potential when masses are divided by s and the critical density is multiplied by s^2 (units with h). A universe whose h0 is set obeys Friedmann's equation.", "quantifier": "all cosmologies, scale factors, lens lists in any order, redshifts, parameters, positions", "why_tests_cant": "A scaling identity for all lens systems and parameters.", "anchors": ["src/caustics/cosmology/FlatLambdaCDM.py:FlatLambdaCDM", "src/caustics/lenses/multiplane.py:Multiplane._raytrace_helper", "src/caustics/lenses/base.py:ThinLens.time_delay", "src/caustics/lenses/func/nfw.py", "src/caustics/lenses/func/tnfw.py", "src/caustics/lenses/func/pseudo_jaffe.py", "src/caustics/lenses/func/point.py"]}
{"id": "C100", "title": "A batch of parameters gives what one call per element gives", "statement": "torch.vmap(f)(params) and jax.vmap(f)(params) return for every batch element what f returns for that element's parameters, whichever of coordinates, lens, light, source redshift, cosmology and distortion parameters carry the batch: for LightStack.brightness, the image of LensSource, SinglePlane, thin and multiplane time delays, multiplane ray tracing, the finite difference Jacobian and pixel_to_plane.", "quantifier": "all batch sizes, all numbers of lenses and light models, all choices of which values are batched, both array libraries", "why_tests_cant": "Every combination of batched and shared values is another execution; the test suite runs a few of them.", "anchors": ["src/caustics/light/light_stack.py:LightStack.brightness", "src/caustics/sims/lens_source.py:LensSource.__call__", "src/caustics/lenses/singleplane.py:SinglePlane", "src/caustics/lenses/multiplane.py:Multiplane._raytrace_helper", "src/caustics/lenses/base.py:ThinLens.time_delay", "src/caustics/lenses/base.py:ThinLens._jacobian_deflection_angle_finitediff", "src/caustics/utils.py:pixel_to_plane", "src/caustics/backend_obj.py:Backend._fill_at_indices_torch"]}
{"id": "C101", "title": "Upsampling converges to the light falling on each pixel", "statement": "Without a PSF, as upsample_factor of LensSource grows every pixel of the image tends to the lensed brightness averaged over that pixel's square on the sky, and the pixel values times the pixel area tend in sum to the light in the field of view, if the brightness is bounded and continuous at almost every point (so also across sharp edges, caustics and lens centres); at a finite factor the error is at most the change of the brightness over one sub-pixel, for a Lipschitz brightness at most constant times pixelscale / upsample_factor, whatever quad_level is.", "quantifier": "all lenses, sources, lens light, pixel grids and field centres, all upsampling factors, all quadrature levels", "why_tests_cant": "A limit over all upsampling factors and an integral over a continuum of positions.", "anchors": ["src/caustics/sims/lens_source.py:LensSource.__call__", "src/caustics/sims/lens_source.py:LensSource._build_grid", "src/caustics/utils.py:gaussian_quadrature_grid", "src/caustics/utils.py:gaussian_quadrature_integrator"]}
{"id": "C102", "title": "Lenses behind the source do nothing", "statement": "A lens whose redshift exceeds the source redshift does not change where a ray meets the source plane: Multiplane.raytrace with such a lens appended equals raytrace without it, and an NFW lens behind the source does not deflect.", "quantifier": "all lens lists in order of redshift, all lenses behind the source, all cosmologies, all positions", "why_tests_cant": "The behaviour differs by the relation of two continuous parameters that priors in an inference cross freely; all configurations would have to be tried.", "anchors": ["src/caustics/lenses/multiplane.py:Multiplane._raytrace_helper", "src/caustics/lenses/base.py:ThinLens.physical_deflection_angle", "src/caustics/lenses/nfw.py:NFW", "src/caustics/cosmology/base.py:Cosmology.critical_surface_density"]}
{"id": "C103", "title": "Finite-difference Jacobians are first order everywhere and second order inside", "statement": "`jacobian_lens_equation(X, Y, method='finitediff', pixelscale=ps)` on a `meshgrid` of at least 2x2 pixels returns in every pixel, edges and corners included, entries that the exact Jacobian takes within one pixel along the axis of differentiation. Hence the error is at most M*ps where M bounds the change of the Jacobian per unit length there, at most M*ps^2/6 in interior pixels where M bounds the change of its derivative, and the value in a pixel near a point of smoothness converges to the exact Jacobian (and magnification and shear to the exact ones off the critical curves) as ps -> 0, whatever happens to the field elsewhere (for example at a singular lens centre).", "quantifier": "all deflection fields, grid offsets, pixel scales, grid shapes and pixels; smoothness needed only within one pixel", "why_tests_cant": "A test compares with autograd at one pixel scale with a loose tolerance; a one-sided difference in the interior or a half-pixel offset passes it, while the order of the error is a statement about all pixel scales and all fields.", "anchors": ["src/caustics/lenses/base.py:ThinLens._jacobian_deflection_angle_finitediff", "src/caustics/lenses/base.py:ThickLens._jacobian_effective_deflection_angle_finitediff", "src/caustics/backend_obj.py:gradient", "src/caustics/utils.py:meshgrid", "src/caustics/lenses/utils.py:pixel_magnification"]}
{"id": "C104", "title": "A table stands for the function it was sampled from", "statement": "Sample any brightness f, or the deflection of any lens, on meshgrid(ps, w, h) moved to a centre and give the samples to Pixelated or PixelatedDeflection. Between the outermost pixel centres the value read differs from the function by at most what the function changes within one pixel, and by at most (Mx+My)*ps^2/8 where its second derivatives along the axes are at most Mx, My; in the half-pixel border by at most four times what it changes within 1.5 pixels. A ray traced through a tabulated lens into a tabulated source gives the brightness of the true source behind the true lens to any accuracy when both tables are fine enough and cover the points, whatever their sizes and centres.", "quantifier": "all functions, table sizes >= 2x2, centres, pixel sizes and positions in the table; continuity or derivatives needed only near the position", "why_tests_cant": "Tests compare one table of one function at one resolution with a loose tolerance; a half-pixel shift, transposed axes of a square symmetric table or a wrong field of view hides in that tolerance, while the order of accuracy is a statement about all resolutions.", "anchors": ["src/caustics/light/pixelated.py:Pixelated.brightness", "src/caustics/lenses/pixelated_deflection.py:PixelatedDeflection.reduced_deflection_angle", "src/caustics/lenses/base.py:ThinLens.raytrace", "src/caustics/utils.py:interp2d", "src/caustics/utils.py:meshgrid"]}
{"id": "C105", "title": "Automatic differentiation of lenses and sources is exact", "statement": "Differentiate the functional form of a lens or source with backend.jacfwd or backend.grad, with respect to the position or any parameter. Where the function is differentiable both return its derivative, and they agree. This holds for SIS, point mass, NFW, pseudo-Jaffe, SIE and Sersic away from the centre (softened SIE also at it) and away from the radii where a formula switches, and in general for any composition of the operations used, whenever no operation that is evaluated is at the edge of its domain.", "quantifier": "all positions, parameters and directions; all expressions built from the operations; all images for the loss", "why_tests_cant": "A NaN or wrong derivative needs a particular pixel: one beyond an arcsecond from a star, one exactly at the centre or at the scale radius. Tests compare gradients at a few generic points of a few lenses; fitting code meets all pixels and all parameters at once.", "anchors": ["src/caustics/backend_obj.py:Backend._jacfwd_torch", "src/caustics/backend_obj.py:Backend._grad_torch", "src/caustics/light/func/star_source.py:brightness_star", "src/caustics/lenses/func/sis.py:reduced_deflection_angle_sis", "src/caustics/lenses/func/tnfw.py:convergence_tnfw", "src/caustics/lenses/func/nfw.py:physical_deflection_angle_nfw", "src/caustics/lenses/func/sie.py:reduced_deflection_angle_sie", "src/caustics/lenses/base.py:ThinLens._jacobian_deflection_angle_autograd"]}
{"id": "C106", "title": "Lenses at one redshift act as one plane", "statement": "Several lenses of a Multiplane may have the same redshift. Listing them one by one gives the same raytrace and time_delay as putting them in a SinglePlane at that redshift, whatever lies in front and behind; the result changes little when the redshifts are a little different; and a lens in the plane of the source deflects nothing.", "quantifier": "all redshift-ordered lists of lenses, all groups at one redshift and their place in the list, all positions, all cosmologies, infinities and NaN included", "why_tests_cant": "Equal redshifts are the special value at which one distance is zero; tests use distinct redshifts, so neither the NaN nor the unbounded delay near it is seen, and that the rays agree for every grouping is a statement about all lists.", "anchors": ["src/caustics/lenses/multiplane.py:Multiplane._raytrace_helper", "src/caustics/lenses/multiplane.py:Multiplane.raytrace", "src/caustics/lenses/multiplane.py:Multiplane.time_delay", "src/caustics/lenses/singleplane.py:SinglePlane", "src/caustics/lenses/base.py:ThinLens.physical_deflection_angle"]}
{"id": "C107", "title": "The truncated NFW lens is accurate and smooth at every radius, the window around its scale radius included", "statement": "Around its scale radius the TNFW replaces two functions by short series. The convergence, the enclosed mass and the deflection it returns are still those of the truncated NFW density (to 1.4e-4, 6e-6 and 6e-6 of their value, at every radius), the integral of the convergence over a disc is the enclosed mass, half the divergence of the deflection is the convergence and the gradient of the potential is the deflection, and all of them vary continuously with the position.", "quantifier": "all scale radii, truncation radii, masses and distances, all positions but the centre, all discs", "why_tests_cant": "The series is used in a ring one hundredth of the scale radius wide, which a grid of test points may miss entirely; the accuracy of a truncated series is a statement about every point of the ring and every truncation radius; a jump at its edge is not visible to a comparison within a tolerance.", "anchors": ["src/caustics/lenses/func/tnfw.py:_F_tnfw", "src/caustics/lenses/func/tnfw.py:_P_tnfw", "src/caustics/lenses/func/tnfw.py:mass_enclosed_2d_tnfw", "src/caustics/lenses/func/tnfw.py:physical_deflection_angle_tnfw", "src/caustics/lenses/func/tnfw.py:convergence_tnfw", "src/caustics/lenses/func/tnfw.py:potential_tnfw"]}
{"id": "C108", "title": "Weak lenses add up, whatever their redshifts", "statement": "To first order in the strength of the lenses, effective_reduced_deflection_angle of a Multiplane is the reduced_deflection_angle of the SinglePlane of the same lenses. The difference is at most the sum over all pairs of one lens in front of another of the largest deflection of the first times the Lipschitz constant of the second, whatever the distances.", "quantifier": "all redshift-ordered lists of thin lenses in front of the source, all distances growing with redshift, all positions", "why_tests_cant": "A limit as the strength goes to zero, and a bound over all lenses and distances; a test compares two numbers for one system and cannot tell a second-order difference from a wrong weight.", "anchors": ["src/caustics/lenses/multiplane.py:Multiplane._raytrace_helper", "src/caustics/lenses/multiplane.py:Multiplane.effective_reduced_deflection_angle", "src/caustics/lenses/singleplane.py:SinglePlane.reduced_deflection_angle", "src/caustics/lenses/base.py:ThinLens.physical_deflection_angle"]}
{"id": "C109", "title": "Convergence and rotation of a multiplane lens", "statement": "The Jacobian of Multiplane.raytrace is raytrace of the same planes with each lens replaced by the derivative of its deflection where the ray meets it. For two planes effective_convergence_div is kappa1 + kappa2 - w (kappa1 kappa2 + gamma1 . gamma2) and effective_convergence_curl is w times the cross product of the shears, with w between 0 and 1 given by the distances. There is no rotation when all shears are aligned, for any number of planes. For weak lenses effective_convergence_div is the sum of the convergences and effective_convergence_curl vanishes, to first order.", "quantifier": "all redshift-ordered lists of differentiable thin lenses in front of the source, all distances growing with redshift, all positions", "why_tests_cant": "A test evaluates the Jacobian of one system at a few positions, with automatic differentiation of the same code; it cannot show that the rotation vanishes for all aligned shears or that it is of second order in the strength.", "anchors": ["src/caustics/lenses/multiplane.py:Multiplane._raytrace_helper", "src/caustics/lenses/multiplane.py:Multiplane.raytrace", "src/caustics/lenses/base.py:ThickLens.effective_convergence_div", "src/caustics/lenses/base.py:ThickLens.effective_convergence_curl", "src/caustics/lenses/base.py:Lens._jacobian_lens_equation_autograd"]}
{"id": "C110", "title": "A halo acts like a point mass", "statement": "At every position other than its centre a PseudoJaffe or TNFW lens deflects exactly like a Point lens at the same place whose Einstein radius is mass_to_rein of the mass_enclosed_2d at that radius. Far away the deflection is that of a Point lens of the parameter mass (for TNFW with interpret_m_total_mass=True); for PseudoJaffe the relative difference is at most (Rc + Rs)/2R and the potentials agree in the limit without an additive constant.", "quantifier": "all lens parameters, distances and positions; the far field for all accuracies", "why_tests_cant": "It compares three classes with separately written unit conversions over all radii and in the limit of large radius; tests compare each class with stored numbers at a few positions.", "anchors": ["src/caustics/lenses/func/pseudo_jaffe.py:reduced_deflection_angle_pseudo_jaffe", "src/caustics/lenses/func/pseudo_jaffe.py:mass_enclosed_2d_pseudo_jaffe", "src/caustics/lenses/func/pseudo_jaffe.py:potential_pseudo_jaffe", "src/caustics/lenses/func/tnfw.py:physical_deflection_angle_tnfw", "src/caustics/lenses/func/tnfw.py:mass_enclosed_2d_tnfw", "src/caustics/lenses/func/point.py:reduced_deflection_angle_point", "src/caustics/lenses/func/point.py:mass_to_rein_point", "src/caustics/lenses/func/point.py:potential_point"]}
{"id": "C111", "title": "A distant mass acts as an external shear", "statement": "Relative to its value at the origin, the deflection of a Point lens at distance d in direction phi differs from that of the ExternalShear with gamma = (Rein/d)^2 and angle phi + pi/2 by a vector of length (Rein/d)^2 r^2 / (distance from the point). As d grows with Rein/d fixed the deflection tends to that of the ExternalShear, and the potential, less its value and gradient at the origin, to its potential.", "quantifier": "all strengths, directions and positions, all distances; the limit of large distance", "why_tests_cant": "An exact remainder for all distances and a limit, relating the sign and orientation conventions of two classes that no test evaluates together.", "anchors": ["src/caustics/lenses/func/external_shear.py:reduced_deflection_angle_external_shear", "src/caustics/lenses/func/external_shear.py:potential_external_shear", "src/caustics/lenses/func/external_shear.py:gamma_phi_to_gamma1", "src/caustics/lenses/func/point.py:reduced_deflection_angle_point", "src/caustics/lenses/func/point.py:potential_point"]}
{"id": "C112", "title": "One or three images, parities adding up to one", "statement": "PseudoJaffe (positive mass, softening as its class applies it), and SIS and Point with s > 0: for any source off the centre raytrace maps at most three positions to it. If the determinant of the lens equation vanishes at none of them there are exactly one or three, and the signs of the determinants add up to one. Any circular lens with bounded deflection vanishing at the centre has an odd number of images with parities adding up to one.", "quantifier": "all lens parameters, all source positions, all positions in the plane", "why_tests_cant": "A statement about every position in the plane; a numerical search such as forward_raytrace can miss images and cannot show there is no further one.", "anchors": ["src/caustics/lenses/base.py:ThinLens.raytrace", "src/caustics/lenses/base.py:Lens.forward_raytrace", "src/caustics/lenses/func/pseudo_jaffe.py:reduced_deflection_angle_pseudo_jaffe", "src/caustics/lenses/func/sis.py:reduced_deflection_angle_sis", "src/caustics/lenses/func/point.py:reduced_deflection_angle_point"]}
{"id": "C113", "title": "Mass and shear around a circle", "statement": "For every lens whose convergence is half the divergence of its deflection, of any shape, and every pair of concentric circles anywhere: twice the convergence integrated between them is the difference of the fluxes of reduced_deflection_angle through them (inside one circle, if the deflection is bounded there, the flux itself). For every lens the mean on a circle of the tangential shear that Lens.shear returns is the mean convergence inside less the mean convergence on it. For circular lenses (SIS, Point, PseudoJaffe, TNFW) this holds at each point, there is no cross shear, and the mean convergence inside is mass_enclosed_2d over the critical surface density.", "quantifier": "all lenses with continuous convergence on the annulus, all circles; all positions and parameters of the circular lenses", "why_tests_cant": "Integral identities over continua and for arbitrary lenses; they fix the signs of shear, deflection and convergence relative to each other.", "anchors": ["src/caustics/lenses/base.py:Lens.shear", "src/caustics/lenses/base.py:ThinLens.reduced_deflection_angle", "src/caustics/lenses/base.py:ThinLens.convergence", "src/caustics/lenses/func/pseudo_jaffe.py:mass_enclosed_2d_pseudo_jaffe", "src/caustics/lenses/func/tnfw.py:mass_enclosed_2d_tnfw"]}
{"id": "C114", "title": "Multipoles turn with phi_m, repeat with their order and hold no mass", "statement": "For every stack of orders: adding an angle to every phi_m turns the deflection of Multipole about its centre by that angle and carries convergence and potential along; adding a multiple of 2 pi / m to the phi_m of order m (so in particular 2 pi, which the cyclic parameter range relies on) changes nothing; if d divides every order the lens is unchanged by a turn of 2 pi / d; and on every circle about the centre convergence and potential average to zero and no deflection flows through the circle, so a multipole adds no mass to the lens it perturbs.", "quantifier": "all numbers of orders, all integer orders, amplitudes, angles, and positions off the centre; all radii", "why_tests_cant": "Holds on the branch cut of arctan2 and for all orders and angles; the mass statement is an integral.", "anchors": ["src/caustics/lenses/multipole.py:Multipole", "src/caustics/lenses/func/multipole.py:reduced_deflection_angle_multipole", "src/caustics/lenses/func/multipole.py:potential_multipole", "src/caustics/lenses/func/multipole.py:convergence_multipole"]}
{"id": "C115", "title": "The orders of a Multipole are 32 bit integers", "statement": "Whatever stack of orders m the constructor of Multipole accepts (exactly those from 2 to 2^31 - 1), its deflection is the gradient of its potential and its convergence half the divergence of its deflection. True up to order 46340; false from 46341 on, because 1 - m**2 is computed in int32: the deflection and the potential change sign, and at 2^31 - 1 they divide by zero.", "quantifier": "all lists of integers given as orders, all amplitudes, angles and positions off the centre", "why_tests_cant": "No test uses such orders; the wrap is silent and both potential and deflection are wrong in the same way, so comparing them shows nothing.", "anchors": ["src/caustics/lenses/multipole.py:Multipole.__init__", "src/caustics/lenses/multipole.py:Multipole.reduced_deflection_angle", "src/caustics/lenses/func/multipole.py:reduced_deflection_angle_multipole"]}
{"id": "C116", "title": "What rounding does to deflections and sums", "statement": "In any arithmetic whose operations are right up to a relative error u (IEEE double: 2^-53, single: 2^-24; overflow and underflow aside), at every position: SIS, Point and MassSheet deflections are right to a relative error of 7, 13 and 2 roundings, ExternalShear and PseudoJaffe to 3 and 23 roundings of their terms, ray tracing and a SinglePlane of n lenses add 1 and n roundings relative to the sum of the sizes, and the integral over n non-negative sub-pixel values has a relative error of n roundings whatever order the library adds in. The same claim for NFW is false: its profile cancels towards the centre, and in correctly rounded arithmetic of any precision there are positions arbitrarily close to the centre whose computed deflection is exactly zero.", "quantifier": "all arithmetics with unit roundoff u, all parameters and positions off the centre, all numbers of lenses and sub-pixels, all orders of summation", "why_tests_cant": "A test compares at a few positions and with a tolerance; the bound is over all positions and the failure is near the centre only.", "anchors": ["src/caustics/lenses/func/sis.py:reduced_deflection_angle_sis", "src/caustics/lenses/func/point.py:reduced_deflection_angle_point", "src/caustics/lenses/func/pseudo_jaffe.py:reduced_deflection_angle_pseudo_jaffe", "src/caustics/lenses/func/nfw.py:_h_nfw", "src/caustics/lenses/func/nfw.py:physical_deflection_angle_nfw", "src/caustics/lenses/singleplane.py:SinglePlane.reduced_deflection_angle", "src/caustics/utils.py:gaussian_quadrature_integrator"]}
{"id": "C117", "title": "Undoing a SIP distortion with the negated coefficients", "statement": "The documentation advises to undo a SIP distortion with the negative of its coefficients. Going from pixels to the plane with the coefficients and back with their negatives misses the pixel by at most the slope of the distortion times the distortion, both taken over the region around the reference pixel; so when all coefficients shrink by a factor e the miss shrinks by e^2, uniformly over any bounded set of pixels. It is not an exact inverse. Where the slope stays below one, two different pixels never map to the same position.", "quantifier": "all powers and coefficients, any number of terms, all invertible CD matrices, all reference points, all pixels within any radius", "why_tests_cant": "A test tries one set of coefficients at one tolerance; the order of the error is a statement about all sizes of the distortion.", "anchors": ["src/caustics/utils.py:pixel_to_plane", "src/caustics/utils.py:plane_to_pixel"]}
{"id": "C118", "title": "The root finder converges to every regular image it is started near to", "statement": "Near a point at which the lens map is continuously differentiable with an invertible Jacobian, every damped step of batch_lm is accepted and shrinks the distance to that point by a factor at most L/(sigma^2 + L) plus an arbitrarily small amount; so batch_lm, started anywhere in a neighbourhood, never moves away and comes within the stopping tolerance at a geometric rate, whatever the other members of the batch do. Consequently forward_raytrace, with its own root finder, finds all of finitely many images of finite magnification of any such lens on every grid that is fine enough and covers them, in particular both images of a point mass.", "quantifier": "all dimensions, all maps continuously differentiable at the solution, all invertible Jacobians, all batch sizes and other members of the batch, all damping parameters with 0 < L_min <= L < L_max, all numbers of rounds; all lenses with finitely many regular images, all fine enough grids and depths down to spacing 1e-6", "why_tests_cant": "A test follows a handful of starts for one lens; convergence is a statement about a neighbourhood of every regular image of every lens.", "anchors": ["src/caustics/utils.py:_lm_step", "src/caustics/utils.py:batch_lm", "src/caustics/lenses/func/base.py:forward_raytrace_rootfind", "src/caustics/lenses/func/base.py:forward_raytrace"]}
{"id": "C119", "title": "Different parameters are different lenses", "statement": "Two lenses of one class that deflect alike (or have the same convergence), or two Sersic sources that look alike, have the same parameters, up to the stated repetitions: position angles of SIE, EPL, Sersic and shear repeat with pi, the period declared for them, and the angle of a circular profile is irrelevant; the angle of a multipole of order m repeats with 2 pi / m, not only with the declared 2 pi, and with pi / m if the amplitude changes sign; core and scale radius of a pseudo-Jaffe lens can be exchanged; the centre of a sheet or shear of zero strength is irrelevant. For SIS, point mass, SIE, EPL, NFW (mass and concentration), pseudo-Jaffe, Sersic (index included), sheet, shear and multipoles of distinct orders nothing else is repeated.", "quantifier": "all parameter values in the declared ranges (axis ratio above 0, below 1 for SIE deflections), all multipole order lists with distinct entries", "why_tests_cant": "A fit that has a second, hidden solution shows no error; that there is none is a statement about all pairs of parameters and all positions.", "anchors": ["src/caustics/lenses/func/sie.py:reduced_deflection_angle_sie", "src/caustics/lenses/func/sie.py:convergence_sie", "src/caustics/lenses/func/epl.py:convergence_epl", "src/caustics/lenses/func/nfw.py:physical_deflection_angle_nfw", "src/caustics/lenses/func/pseudo_jaffe.py:reduced_deflection_angle_pseudo_jaffe", "src/caustics/lenses/func/multipole.py:convergence_multipole", "src/caustics/light/func/sersic.py:brightness_sersic", "src/caustics/lenses/func/external_shear.py:reduced_deflection_angle_external_shear"]}
{"id": "C120", "title": "Finer convergence maps lead to the continuous lens", "statement": "Sample a continuous convergence at the pixel centres of an n by n map with a fixed field of view and hand the map to PixelatedConvergence. As n grows, reduced_deflection_angle and potential at every position inside the field of view tend to the integrals of the convergence over the field of view against (x - z) / (pi |x - z|^2) and log|x - z| / pi. This holds whatever lengths next_fast_len chooses, as long as they are asymptotically 2n. The claim fails for convolution_mode='conv2d', where in the inner quarter of the field of view the limit is the deflection at twice the distance from the centre.", "quantifier": "all continuous convergences, fields of view, centres, scales, positions inside the field of view, transform lengths asymptotic to 2n", "why_tests_cant": "A test compares one map with a loose tolerance; that the error vanishes with the pixel size, across the singular kernel and the half pixel offset of the kernel table, is a statement about all resolutions.", "anchors": ["src/caustics/lenses/pixelated_convergence.py:PixelatedConvergence", "src/caustics/lenses/func/pixelated_convergence.py:reduced_deflection_angle_pixelated_convergence", "src/caustics/lenses/func/pixelated_convergence.py:potential_pixelated_convergence", "src/caustics/lenses/func/pixelated_convergence.py:build_kernels_pixelated_convergence", "src/caustics/utils.py:interp2d"]}
{"id": "C121", "title": "Finer potential maps lead to the lens of the potential", "statement": "Sample a potential at the pixel centres of an n by n map with a fixed field of view and hand the map to PixelatedPotential. As n grows, at every position inside the field of view where the potential is differentiable, potential tends to the value and reduced_deflection_angle to the gradient of the sampled potential. The claim holds for potential (continuity at the position is enough) and fails for reduced_deflection_angle and convergence: with (t, u) the position between the neighbouring pixel centres and (gx, gy) the true gradient, the deflection tends to (6t(1-t)(gx+gy) - gy, 6u(1-u)(gx+gy) - gx), and the convergence times the pixel scale tends to 6(1-t-u)(gx+gy), so it exceeds every bound where gx + gy is not zero.", "quantifier": "all potentials continuous / differentiable at the position, fields of view, centres, positions inside the field of view", "why_tests_cant": "A test on one map can be fooled by a smooth potential or a query at special positions; that the error does not vanish, and what the lens becomes instead, is a statement about all resolutions.", "anchors": ["src/caustics/lenses/pixelated_potential.py:PixelatedPotential", "src/caustics/utils.py:interp_bicubic", "src/caustics/utils.py:bicubic_kernels"]}
{"id": "C122", "title": "Calls leave the caller's arrays alone, and in-place updates agree on torch and jax", "statement": "The functions of the package that write to arrays (LightStack.brightness, Multiplane ray tracing with delays, pixel_to_plane, plane_to_pixel, LensSource, bicubic_kernels, the finite-difference Jacobian, interp1d) change no array that existed before the call, also when they raise, and the array returned is a new one, so writing to it changes no argument. Where they accumulate with +=, the result is the same on torch and jax. The first part holds on both libraries. The second holds for LightStack when the members return arrays shaped like x and x holds floating numbers; it fails on torch for integer positions and for members larger than x, and for interp1d with extend='const' or 'linear' on jax.", "quantifier": "all storages and arrays, all lists of members / planes / SIP terms, all calls of members that leave storage alone (returning new or stored arrays), both libraries", "why_tests_cant": "Aliasing shows only if a later reader of the array notices; a test checks the returned values of one call, not every array reachable by the caller, and rarely runs integer positions or batched parameters on both libraries.", "anchors": ["src/caustics/light/light_stack.py:LightStack.brightness", "src/caustics/lenses/multiplane.py:Multiplane._raytrace_helper", "src/caustics/utils.py:pixel_to_plane", "src/caustics/utils.py:plane_to_pixel", "src/caustics/utils.py:bicubic_kernels", "src/caustics/utils.py:interp1d", "src/caustics/sims/lens_source.py:LensSource", "src/caustics/lenses/base.py:ThickLens", "src/caustics/backend_obj.py:Backend.fill_at_indices", "src/caustics/backend_obj.py:Backend.add_at_indices"]}
{"id": "C123", "title": "Derivatives of derivatives: differentiating Jacobians, shears and magnifications", "statement": "Derivatives of any order obtained by applying jacfwd repeatedly are the true derivatives: at every point where the deflection programs are regular, jacobian_deflection_angle(method='autograd') is the exact Jacobian and forward and reverse differentiation of it (with respect to the position and every lens parameter) return its true derivative; the same holds for utils.magnification off the critical curves and for jacobian_lens_equation / shear with method='finitediff' (as derivatives of the difference quotient). For jacobian_lens_equation and shear with the default method='autograd' the claim fails: the values are right but the Jacobian is detached, so every derivative of the shear is returned as zero, and the gradient of any least-squares fit to shears is zero.", "quantifier": "all programs built from the modelled operations, all numbers of parameters, all orders and lists of variables, all regular points, all data sets", "why_tests_cant": "A test compares values of the shear at a few points; that its gradient is identically zero shows only when someone optimises through it, and exactness for every order and program is a statement about infinitely many programs.", "anchors": ["src/caustics/lenses/base.py:Lens.jacobian_lens_equation", "src/caustics/lenses/base.py:ThinLens._jacobian_lens_equation_autograd", "src/caustics/lenses/base.py:ThickLens._jacobian_lens_equation_autograd", "src/caustics/lenses/base.py:Lens.shear", "src/caustics/lenses/base.py:ThinLens._jacobian_deflection_angle_autograd", "src/caustics/lenses/utils.py:magnification", "src/caustics/backend_obj.py:Backend.jacfwd", "src/caustics/backend_obj.py:Backend.detach"]}
{"id": "C124", "title": "Moving objects to another device or precision", "statement": "obj.to(device, dtype) converts the arrays of the object and of everything below it, shared objects included, and nothing else; afterwards every array is on the device, every array that is no Fourier kernel has the element type, moving alone changes no number, and the simulator can be called. This stays so while convolution modes are assigned and objects are converted again. The full claim fails: assigning any setting of a LensSource after moving it rebuilds the grid on the default device and element type, so the next call raises on any other device; PixelatedConvergence.to leaves the element type of the Fourier kernels alone (the deflection keeps the old precision until the same mode is assigned again) and returns None; the tables of FlatLambdaCDM stay rounded to single precision after conversion to double precision.", "quantifier": "all graphs of objects with shared children, all devices and element types, all sequences of conversions and assignments, all rounding functions", "why_tests_cant": "Test machines have one device, and tests call .to once on a fresh object; what happens to every array of every object graph after every later sequence of assignments cannot be enumerated.", "anchors": ["src/caustics/sims/lens_source.py:LensSource.to", "src/caustics/sims/lens_source.py:LensSource._build_grid", "src/caustics/lenses/pixelated_convergence.py:PixelatedConvergence.to", "src/caustics/lenses/pixelated_convergence.py:PixelatedConvergence.convolution_mode", "src/caustics/lenses/multipole.py:Multipole.to", "src/caustics/cosmology/FlatLambdaCDM.py:FlatLambdaCDM.to", "src/caustics/backend_obj.py:Backend.to"]}
{"id": "C125", "title": "An isothermal ellipsoid of axis ratio 1 is an isothermal sphere", "statement": "SIE with q = 1 deflects like the isothermal sphere (without core: like SIS with the same Rein), and the deflection is continuous in q there. Holds up to 12e-6 Rein at every position, and the limit q -> 1 is exact; the claim itself fails because q = 1 is replaced by 1 - 1e-6: the deflection on the long axis is strictly smaller than Rein and jumps at q = 1, while the convergence uses q = 1 and does not.", "quantifier": "all centres, orientations, Einstein radii, cores and positions; all q in [1/2, 1]", "why_tests_cant": "Tests compare a few positions with a tolerance of 1e-4 or so; a bound uniform in position, orientation and core, the existence of the limit and the jump are statements over all real inputs.", "anchors": ["src/caustics/lenses/func/sie.py:reduced_deflection_angle_sie", "src/caustics/lenses/func/sie.py:convergence_sie", "src/caustics/lenses/func/sis.py:reduced_deflection_angle_sis"]}
{"id": "C126", "title": "A Multiplane with free redshifts", "statement": "Where a ray meets the source plane (Multiplane.raytrace) changes continuously with every parameter: the redshifts of the lenses and of the source, the parameters of the lenses and of the cosmology, the position on the sky. This includes parameters at which two lens planes have the same redshift or pass through each other.", "quantifier": "all numbers of lenses, all parameter spaces, all continuous dependences of redshifts, distances and deflections on the parameters, all points at which the lenses are in front of the source", "why_tests_cant": "Continuity is a statement about all neighbourhoods; it fails exactly where the order of two redshifts changes, a set a test with fixed redshifts never crosses.", "anchors": ["src/caustics/lenses/multiplane.py:Multiplane._raytrace_helper", "src/caustics/lenses/multiplane.py:Multiplane.raytrace", "src/caustics/lenses/multiplane.py:Multiplane.time_delay", "src/caustics/lenses/base.py:ThinLens.physical_deflection_angle"]}
{"id": "C127", "title": "Images move, mirror and turn with the scene", "statement": "Moving lens, source, lens light and field centre (x0, y0) of a LensSource together changes no pixel. Mirroring the scene and the PSF left to right or upside down mirrors the image, exchanging the axes of scene, PSF and pixel counts transposes it, a quarter turn of the scene turns it, and a symmetric scene gives a symmetric image; whatever the upsampling and the quadrature level.", "quantifier": "all lenses, sources, PSFs, pixel counts, upsample factors, quadrature levels and both psf modes", "why_tests_cant": "An orientation or half-pixel error is invisible in the symmetric, square, centred scenes tests use; the claim is about all scenes and all shapes.", "anchors": ["src/caustics/sims/lens_source.py:LensSource.__call__", "src/caustics/sims/lens_source.py:LensSource._build_grid", "src/caustics/utils.py:meshgrid", "src/caustics/utils.py:gaussian_quadrature_grid"]}
{"id": "C128", "title": "How far from a source its images can be, and the field of view that holds them all", "statement": "For every lens class there is a circle about its centre and two numbers such that outside the circle it deflects by no more than a constant plus a multiple of the distance: SIS (Rein, everywhere, any core), Point (Rein outside Rein), SIE (Rein sqrt(q) artanh(f)/f, everywhere, reached on the short axis), EPL (any slope in (0,2), any number of series terms: (Rein sqrt(q)/r)^t r/q at elliptical radius r; from slope 1 on, Rein q^(-t/2) outside Rein), PseudoJaffe (point of the same total mass), MassSheet (|kappa| times the distance), ExternalShear (the shear times the distance), EnclosedMass with a bounded mass function (4 G/c^2 A q^(-3/2) / rho^2 outside rho), PixelatedDeflection and PixelatedConvergence (six times the largest table entry, nothing beyond the frame), PixelatedPotential (80 times the largest entry over the pixel scale). Consequently every image found by solving the lens equation of a SinglePlane of any number of such lenses is inside one of these circles or no further from its source than the constants add up to, with the sheets and shears dividing by one minus their sum; the bound is attained. For a Multiplane of lenses with bounded deflections it is the sum of the bounds, whatever the distances. A field of view of forward_raytrace at least twice that, plus one cell, contains every image there is, so if all images of the source are regular they are finitely many and, on a fine enough grid, forward_raytrace with its own root finder misses none on the whole sky.", "quantifier": "all lists of lenses, all parameters in the stated ranges, all image and source positions, all redshifts and growing distance functions, all fields, grids and tolerances", "why_tests_cant": "That there is no image outside a field of view is a statement about infinitely many positions; a test can only search the field it was given.", "anchors": ["src/caustics/lenses/base.py: raytrace, forward_raytrace", "src/caustics/lenses/func/sis.py: reduced_deflection_angle_sis", "src/caustics/lenses/func/point.py: reduced_deflection_angle_point", "src/caustics/lenses/func/sie.py: reduced_deflection_angle_sie", "src/caustics/lenses/func/epl.py: reduced_deflection_angle_epl", "src/caustics/lenses/func/pseudo_jaffe.py: reduced_deflection_angle_pseudo_jaffe", "src/caustics/lenses/singleplane.py: reduced_deflection_angle", "src/caustics/lenses/multiplane.py: raytrace_z1z2", "src/caustics/lenses/func/enclosed_mass.py: physical_deflection_angle_enclosed_mass", "src/caustics/lenses/pixelated_deflection.py: reduced_deflection_angle", "src/caustics/lenses/pixelated_convergence.py: reduced_deflection_angle"]}
{"id": "C129", "title": "Derivatives of simulated images, and fits of the light of a source", "statement": "A LensSource is a fixed linear response to the light arriving at the positions of its grid: the weights depend on its settings and on the PSF only, in every psf_mode, for every upsampling and quadrature level. Hence the derivative of a pixel with respect to any parameters of lens, source, lens light or field centre is the pixel of the image of the derivative of the sky, provided the sky is differentiable at the sampled positions; for lens parameters it is minus the image of the gradient of the source, at the traced position, along the derivative of the deflection; the gradient of a chi-square is twice the weighted residuals times these. A pixel is the PSF-weighted average of the pixels seen with each element of the PSF alone, which gives its derivative with respect to the PSF. With the lens fixed, the weights of light components minimise the chi-square if and only if the residuals are orthogonal to the image of every component (so no other local minimum exists), and the image of a Pixelated source is the sum of its pixel values times the images of its single pixels.", "quantifier": "all settings, scenes, PSFs, parameter spaces, data, weights and numbers of components", "why_tests_cant": "A gradient test compares finite differences of a few scenes; that no pixel, mode or parameter breaks linearity or differentiability is a statement about all of them.", "anchors": ["src/caustics/sims/lens_source.py:LensSource.__call__", "src/caustics/sims/lens_source.py:LensSource._build_grid", "src/caustics/light/pixelated.py:Pixelated.brightness", "src/caustics/utils.py:gaussian_quadrature_integrator"]}
{"id": "C130", "title": "The pseudo-Jaffe lens at the ends of its parameter range", "statement": "PseudoJaffe declares mass, Rc and Rs valid from 0 up. For every such lens reduced_deflection_angle, convergence, potential and mass_enclosed_2d return numbers away from the centre; exchanging Rc and Rs changes none of them; and the familiar limits are reached: Rc -> Rs the Kuzmin profile, Rc and Rs -> 0 the Point lens of the mass, Rs -> infinity with mass proportional to Rs - Rc an isothermal sphere with core Rc, and the SIS lens when Rc -> 0 as well. central_convergence is the convergence at the centre for the lens of central density rho_0.", "quantifier": "all masses, radii, distances, positions off the centre; limits over all sequences of radii", "why_tests_cant": "The failures lie on a measure-zero set of parameters (Rc = Rs, Rc = 0) that random tests do not draw and that an optimiser reaches exactly at a bound; limits need every sequence of radii.", "anchors": ["src/caustics/lenses/func/pseudo_jaffe.py: convergence_0_pseudo_jaffe, mass_enclosed_2d_pseudo_jaffe, reduced_deflection_angle_pseudo_jaffe, potential_pseudo_jaffe, convergence_pseudo_jaffe", "src/caustics/lenses/pseudo_jaffe.py: PseudoJaffe.__init__ (valid ranges), get_convergence_0, central_convergence"]}
{"id": "C131", "title": "A field of point masses makes finitely many images", "statement": "Behind a SinglePlane of Point lenses (s = 0), MassSheets and ExternalShears in any order, raytrace maps only finitely many positions to a source position. With point masses at N different places there are at most (N+1)^2 images when the shears do not cancel and at most N^2+1 when they do, unless there is a single point mass with the source exactly behind it, where the images form a ring. When the sheets add up to the critical density there are at most N+1. The numbers N^2+1 and (N+1)^2 are reached, for two equal point masses and for one point mass with shear.", "quantifier": "any number of members in any order, all positions (coinciding ones included), nonzero Einstein radii, all sheets and shears, all sources", "why_tests_cant": "A bound on the number of solutions of the lens equation over the whole plane; a search from any number of starting points only gives a lower bound.", "anchors": ["src/caustics/lenses/singleplane.py::SinglePlane.reduced_deflection_angle", "src/caustics/lenses/func/point.py::reduced_deflection_angle_point", "src/caustics/lenses/func/mass_sheet.py::reduced_deflection_angle_mass_sheet", "src/caustics/lenses/func/external_shear.py::reduced_deflection_angle_external_shear", "src/caustics/lenses/base.py::ThinLens.raytrace"]}
{"id": "C132", "title": "An isothermal sphere with external shear makes at most four images", "statement": "Behind a SinglePlane that holds one SIS (s = 0) and any number of ExternalShears and MassSheets in any order, raytrace maps at most four positions to any source position, provided the shears do not cancel and their sum differs in size from 1 minus the summed convergence of the sheets. A source behind the centre of an SIS with shear less than 1 has exactly four, on the axes of the shear. When the shears cancel there are at most two, unless the source is exactly behind the centre of the sphere.", "quantifier": "all Einstein radii, centres, sheets, shears and orders, all sources", "why_tests_cant": "A bound on the number of solutions over the whole plane, for every source: a search cannot exclude a fifth image.", "anchors": ["src/caustics/lenses/singleplane.py::SinglePlane.reduced_deflection_angle", "src/caustics/lenses/func/sis.py::reduced_deflection_angle_sis", "src/caustics/lenses/func/external_shear.py::reduced_deflection_angle_external_shear", "src/caustics/lenses/func/mass_sheet.py::reduced_deflection_angle_mass_sheet", "src/caustics/lenses/base.py::ThinLens.raytrace"]}
{"id": "C133", "title": "A lens of zero strength does nothing", "statement": "The strength parameters (Rein of SIS, SIE, EPL and Point, mass of NFW, TNFW and PseudoJaffe, kappa of MassSheet, gamma of ExternalShear, a_m of Multipole) may be 0: it is the lower end of the declared valid range, or no range is declared. The lens then deflects no ray away from its centre, and its deflection tends to zero as the parameter does.", "quantifier": "all values of the other parameters, all positions other than the centre", "why_tests_cant": "The value at the end of the range depends on every intermediate quotient being defined there (scale radius, concentration, scale density); tests use ordinary masses.", "anchors": ["src/caustics/lenses/nfw.py::NFW.reduced_deflection_angle", "src/caustics/lenses/func/nfw.py::scale_radius_nfw", "src/caustics/lenses/func/tnfw.py::concentration_tnfw", "src/caustics/lenses/func/tnfw.py::scale_density_tnfw", "src/caustics/lenses/func/sie.py::reduced_deflection_angle_sie", "src/caustics/lenses/func/pseudo_jaffe.py::reduced_deflection_angle_pseudo_jaffe"]}
{"id": "C134", "title": "Magnifications of four images add up to a constant", "statement": "Let a SinglePlane hold one SIS or one Point (s = 0) and any MassSheets and ExternalShears in any order, with summed convergence k and summed shear g, g not zero and |g| different from |1 - k|. If raytrace maps four positions to one source position, none of them is on a critical curve, and the four magnifications, each with the sign of its parity, add up to 2 / ((1 - k)^2 - |g|^2) for the SIS and to 1 / ((1 - k)^2 - |g|^2) for the Point, wherever the source is.", "quantifier": "all Einstein radii, centres, sheets, shears and orders, all sources with four images", "why_tests_cant": "The value does not depend on the source; checking it numerically needs all four images of every source to arbitrary accuracy.", "anchors": ["src/caustics/lenses/singleplane.py::SinglePlane.reduced_deflection_angle", "src/caustics/lenses/func/sis.py::reduced_deflection_angle_sis", "src/caustics/lenses/func/point.py::reduced_deflection_angle_point", "src/caustics/lenses/utils.py::pixel_magnification", "src/caustics/lenses/base.py::ThinLens.raytrace"]}
{"id": "C135", "title": "Elliptical lenses at the ends of their ranges of slope and axis ratio", "statement": "EPL and SIE return numbers off their axis for every slope t in [0, 2] and axis ratio q in [0, 1] they declare valid. At t = 0 an EPL is a MassSheet of convergence 1 plus an ExternalShear equal to minus its ellipticity (deflection, potential and convergence, any Rein and n_iter). At t = 2 it is a Point of the same Rein whatever q and phi, up to a relative error ((1-q)/(1+q))**n_iter of the deflection. At q = 0 it deflects nothing, the limit of small q. Fails: EPL.potential at t = 2 divides by zero (it has no limit there; its differences do), and SIE.reduced_deflection_angle at q = 0 is NaN at every position although it tends to 0 as q does; in the angle system e1_e2 every ellipticity of length 1 or more gives q = 0.", "quantifier": "all positions off the axis of the lens, all centres, orientations, Einstein radii, term counts and softenings", "why_tests_cant": "Limits of series and identities between lens classes on the edge of a continuous parameter range.", "anchors": ["src/caustics/lenses/epl.py::EPL", "src/caustics/lenses/func/epl.py::_r_omega", "src/caustics/lenses/func/epl.py::reduced_deflection_angle_epl", "src/caustics/lenses/func/epl.py::potential_epl", "src/caustics/lenses/func/epl.py::convergence_epl", "src/caustics/lenses/sie.py::SIE", "src/caustics/lenses/func/sie.py::reduced_deflection_angle_sie", "src/caustics/lenses/func/sie.py::convergence_sie", "src/caustics/angle_mixin.py::e1e2_to_q"]}
{"id": "C136", "title": "Sources and enclosed-mass lenses at the ends of their declared ranges, with inf and NaN", "statement": "For every axis ratio q in [0, 1] and effective radius Re >= 0 that Sersic declares valid, brightness returns a number at every position. Fails: at q = 0 it is 0 off the major axis and NaN on it (0/0), although the limit of small q exists there too (the profile along the axis); at Re = 0 it is 0 off the centre and NaN at the centre unless softened, although the limit of small Re exists. One NaN source makes a LightStack or a pixel mean NaN. A StarSource with theta_s = 0 returns numbers everywhere. EnclosedMass returns the numbers of its formulas for 0 < q, and at q = 0 is NaN at every position, whatever the mass function and softening. With q > 0 and Re > 0 the floating point reading (infinities, NaN, no rounding) and the real number formulas agree. The helpers of the halo lenses at a radius that is NaN or infinite: _f_nfw of NaN is 0 and of infinity NaN, _g_nfw and _h_nfw pass both on, the F of the truncated lens passes NaN on and has its limit 0 at infinity.", "quantifier": "all positions, centres, orientations, Sersic indices at least 0.36, both k conventions, softenings and mass functions", "why_tests_cant": "The failing set is a line or a point of the plane that a pixel grid of a test need not meet; the limits are over continuous parameters.", "anchors": ["src/caustics/light/sersic.py::Sersic", "src/caustics/light/func/sersic.py::brightness_sersic", "src/caustics/light/star_source.py::StarSource", "src/caustics/light/light_stack.py::LightStack", "src/caustics/lenses/enclosed_mass.py::EnclosedMass", "src/caustics/lenses/func/enclosed_mass.py::physical_deflection_angle_enclosed_mass", "src/caustics/lenses/func/nfw.py:_f_nfw", "src/caustics/lenses/func/nfw.py:_g_nfw", "src/caustics/lenses/func/nfw.py:_h_nfw", "src/caustics/lenses/func/tnfw.py:_F_tnfw"]}
{"id": "C137", "title": "TNFW with a vanishing truncation or scale radius", "statement": "A TNFW lens returns numbers off its centre for every tau >= 0 and Rs >= 0 it declares valid, and these are continuous at 0. With interpret_m_total_mass=True (unsoftened) the deflection tends to that of a Point lens of the same mass as tau tends to 0 and as Rs tends to 0; with interpret_m_total_mass=False it tends to 0 both ways. Fails at the ends themselves: tau = 0 and Rs = 0 give NaN at every position off the centre under both readings of the mass. For tau > 0 and Rs > 0 the floating point reading (infinities, NaN, no rounding) gives the numbers of the formulas.", "quantifier": "all positions off the centre, all masses, distances, critical densities, both readings of the mass; all softenings for the NaN and number parts", "why_tests_cant": "Limits over continuous parameters and identities between lens classes in the limit.", "anchors": ["src/caustics/lenses/tnfw.py::TNFW", "src/caustics/lenses/func/tnfw.py::mass_enclosed_2d_tnfw", "src/caustics/lenses/func/tnfw.py::physical_deflection_angle_tnfw", "src/caustics/lenses/func/tnfw.py::_L_tnfw", "src/caustics/lenses/func/tnfw.py::M0_totmass_tnfw", "src/caustics/lenses/func/tnfw.py::M0_scalemass_tnfw", "src/caustics/lenses/func/point.py::reduced_deflection_angle_point"]}
{"id": "C138", "title": "Composite lenses hand their redshifts down", "statement": "After any sequence of lens constructions and redshift assignments, every lens nested at any depth in a SinglePlane, BatchedPlane or Multiplane is evaluated at the source redshift of the outermost lens, every lens nested in a SinglePlane or BatchedPlane at its lens redshift, and the deflection of a SinglePlane is the sum of the deflections of all lenses in it at its own redshifts; assigning the redshift of the outermost lens later moves them all, and none of them keeps a free source redshift. Holds when each lens is given to one composite only and not assigned afterwards. Redshifts can always be evaluated (no circular pointers) and get_z_ls returns the current lens redshifts unless a member is a Multiplane, which the constructor accepts. Warnings are issued for exactly the members with a fixed redshift. Fails: a lens given to two composites silently follows the last one, so the first evaluates it at a redshift that is not its own; and a SinglePlane constructor that raises (a Multiplane among its members) has already replaced the redshifts of the members listed before.", "quantifier": "all programs of constructions and assignments of any length, all nesting depths, all values of free parameters", "why_tests_cant": "Quantifies over all construction histories and nestings; sharing and exceptions leave hidden state.", "anchors": ["src/caustics/lenses/singleplane.py::SinglePlane.__init__", "src/caustics/lenses/batchedplane.py::BatchedPlane.__init__", "src/caustics/lenses/multiplane.py::Multiplane.__init__", "src/caustics/lenses/multiplane.py::Multiplane.get_z_ls", "src/caustics/lenses/base.py::Lens.__init__", "src/caustics/lenses/base.py::ThinLens.__init__"]}
{"id": "C139", "title": "Even or odd numbers of images of a field of point masses", "statement": "Behind a SinglePlane of Point lenses (s = 0) at N different places, MassSheets and ExternalShears in any order, with summed convergence k and summed shear g, |g| different from |1 - k| and k different from 1: for every source none of whose images is on a critical curve (and which, when the shears cancel, is not seen exactly behind a point mass), the number of positions that raytrace maps to it is even when N is odd and odd when N is even. When |g| < 1 - k every source has an image; an odd number of point masses makes at least two; one point mass makes two or four, exactly two when the shears cancel; two point masses without shear make one, three or five.", "quantifier": "all lists of members of any length, all parameter values, all source positions", "why_tests_cant": "The number of members and the source position are unbounded; solving for the images numerically cannot show that none was missed.", "anchors": ["src/caustics/lenses/singleplane.py::SinglePlane.reduced_deflection_angle", "src/caustics/lenses/func/point.py::reduced_deflection_angle_point", "src/caustics/lenses/func/mass_sheet.py::reduced_deflection_angle_mass_sheet", "src/caustics/lenses/func/external_shear.py::reduced_deflection_angle_external_shear", "src/caustics/lenses/base.py::ThinLens.raytrace"]}
{"id": "C140", "title": "Composite lenses and the cosmologies of their members", "statement": "Every lens constructor takes a cosmology; SinglePlane and Multiplane act as if all their members had been constructed with the composite's own. Holds for a SinglePlane whose members are parametrised by angles and pure numbers (SIS, Point, MassSheet, ExternalShear, SIE, EPL): reduced_deflection_angle, raytrace, physical_deflection_angle, potential, convergence and surface_density are the same whatever cosmologies the members have. Holds for raytrace of a Multiplane whose members are EnclosedMass lenses, or of those classes with cosmologies of the same D_s/D_ls, e.g. FlatLambdaCDM of any h0. Otherwise it fails without a warning: a Multiplane of one such lens multiplies its deflection by the ratio of its own D_ls/D_s to that of the member, and a SinglePlane evaluates a mass-parametrised member with the distances of the member's cosmology.", "quantifier": "all composites, all numbers of members, all cosmologies, all parameters and positions", "why_tests_cant": "Quantifies over all pairs of cosmologies and all members; with one cosmology object, as in every test, the question does not arise.", "anchors": ["src/caustics/lenses/singleplane.py::SinglePlane.__init__", "src/caustics/lenses/multiplane.py::Multiplane.__init__", "src/caustics/lenses/multiplane.py::Multiplane._raytrace_helper", "src/caustics/lenses/base.py::ThinLens.physical_deflection_angle", "src/caustics/lenses/base.py::Lens.__init__"]}
{"id": "C141", "title": "Potential maps beyond their frame", "statement": "The deflection of a PixelatedPotential is the gradient of its potential on the whole sky. Holds for each component wherever the coordinate along its axis is inside the frame. Beyond the frame potential, deflection and convergence are those of the nearest position of the field of view, so none of them changes outwards, and the deflection across an edge is the derivative of the potential only where it is zero at that edge. The claim fails: right of a map of four pixels that rises by 1 the deflection is (-9/2, 1/2) at every distance and the potential constant. On the whole sky the deflection is at most 56 times the largest absolute entry of the map over the pixel scale in each component.", "quantifier": "all maps of at least 2 by 2 pixels, all centres, all positive pixel scales, all positions", "why_tests_cant": "Quantifies over all maps and the whole unbounded sky.", "anchors": ["src/caustics/lenses/pixelated_potential.py::PixelatedPotential.reduced_deflection_angle", "src/caustics/lenses/pixelated_potential.py::PixelatedPotential.potential", "src/caustics/lenses/pixelated_potential.py::PixelatedPotential.convergence", "src/caustics/utils.py::interp_bicubic"]}
{"id": "C142", "title": "Magnifications of a field of point masses with all its images", "statement": "A SinglePlane of Points at N places, MassSheets and ExternalShears that makes as many images of a source as such a field can, N² + 1 without shear and (N + 1)² with shear, has no image on a critical curve, and the magnifications of the images, each with the sign of its parity, add up to 1 / ((1 - kappa)² - gamma²). In particular the five images of a binary lens always add up to 1 / (1 - kappa)², whatever the masses, their separation and the source. The only exception is one Point alone with the source exactly behind it.", "quantifier": "all finite lists of members, all source positions, all sets of images of that size", "why_tests_cant": "Quantifies over all fields of point masses and over all sources with that many images, of which tests can try only some.", "anchors": ["src/caustics/lenses/point.py::Point.reduced_deflection_angle", "src/caustics/lenses/mass_sheet.py::MassSheet.reduced_deflection_angle", "src/caustics/lenses/external_shear.py::ExternalShear.reduced_deflection_angle", "src/caustics/lenses/singleplane.py::SinglePlane.reduced_deflection_angle", "src/caustics/lenses/base.py::ThinLens.magnification"]}
{"id": "C143", "title": "Parities of the images of a lens plane", "statement": "Take a SinglePlane of any number of Points, MassSheets, ExternalShears, SIS, SIEs without a core, EPLs of any slope but the isothermal one and any other lenses whose deflection is continuous, smooth except at finitely many positions and grows slower than the distance, such as a softened SIS or Point, a cored SIE, a PseudoJaffe or an EPL with t < 1. For almost every source position the number of images is finite and none is on a critical curve, and the number of images of positive parity (positive determinant of the Jacobian) less the number of images of negative parity is 1 if gamma² < (1 - kappa)² and -1 otherwise, less the number of places with unsoftened Points or EPLs with t > 1, less the number of unsoftened SIS and coreless SIEs whose cut covers the source, that is to whose centre the rest of the lens assigns a source position whose offset from the source is enclosed by the deflections the member makes. For an SIS this is the disc with the Einstein radius, for an SIE the region q² tan²(x/k) + tanh²(y/k) < 1 - q² in the frame of its axes, with k = Rein sqrt(q) / sqrt(1 - q²). So without singular members every source off the caustics has an odd number of images, and a singular isothermal sphere or ellipsoid with any smooth neighbours makes an even number exactly of the sources inside its cut. An EPL with external shear and convergence, whatever its n_iter, makes an odd number of images if t < 1 and an even number if t > 1.", "quantifier": "all finite lists of members, all source positions in general position and so almost all source positions", "why_tests_cant": "Quantifies over all numbers and kinds of members, including ones a user writes, and over all sources; counting every image of a source requires solving the lens equation exactly.", "anchors": ["src/caustics/lenses/singleplane.py::SinglePlane.reduced_deflection_angle", "src/caustics/lenses/base.py::ThinLens.raytrace", "src/caustics/lenses/base.py::ThinLens.jacobian_lens_equation", "src/caustics/lenses/sis.py::SIS.reduced_deflection_angle", "src/caustics/lenses/point.py::Point.reduced_deflection_angle", "src/caustics/lenses/sie.py::SIE.reduced_deflection_angle", "src/caustics/lenses/epl.py::EPL.reduced_deflection_angle", "src/caustics/lenses/func/epl.py::reduced_deflection_angle_epl", "src/caustics/lenses/pseudo_jaffe.py::PseudoJaffe.reduced_deflection_angle"]}
{"id": "C144", "title": "Parities of the images of a multiplane lens", "statement": "Take a Multiplane of any number of planes whose deflections are continuously differentiable and differ from linear maps (sheets and shears, or nothing) by a bounded amount, such as softened SIS and Points and cored SIEs on any number of planes. For almost every source position the number of images is finite and odd, no image is on a critical curve, and the number of images of positive determinant of the Jacobian exceeds the number of those of negative determinant by 1 if the linear maps alone keep the orientation of the plane, and falls short of it by 1 if they reverse it. So as on a single plane the code's find-all-images problem never has an even number of solutions for smooth lenses, although the multiplane map is not the gradient of an arrival time in the image position alone and its Jacobian is not symmetric.", "quantifier": "all lists of planes, all distances, all smooth deflections with linear growth, almost all source positions", "why_tests_cant": "Quantifies over all numbers of planes and all lenses on them and over almost all sources; requires all images of a source.", "anchors": ["src/caustics/lenses/multiplane.py::Multiplane._raytrace_helper", "src/caustics/lenses/multiplane.py::Multiplane.raytrace", "src/caustics/lenses/base.py::ThinLens.physical_deflection_angle", "src/caustics/lenses/base.py::Lens.jacobian_lens_equation"]}
{"id": "C145", "title": "How many images a plane of masses makes at least", "statement": "Take a SinglePlane of any number of Points, SIS, SIEs with or without a core, PseudoJaffes, MassSheets of non-negative convergence and ExternalShears, the convergences and shears of the last two adding up to less than one. For almost every source there is an image of positive parity with magnification at least one, there is at least one image of negative parity for each place with Points and for each SIS or coreless SIE whose cut covers the source, and so the number of images is at least one more than these: N point masses at different places make at least N + 1 images of almost every source. If instead the summed shear exceeds |1 - kappa| there is one image of negative parity more than these.", "quantifier": "all finite lists of members, all parameters, almost all source positions", "why_tests_cant": "Quantifies over all numbers of members and almost all sources; a numerical solver cannot show that an image exists where it found none.", "anchors": ["src/caustics/lenses/singleplane.py::SinglePlane.reduced_deflection_angle", "src/caustics/lenses/base.py::ThinLens.raytrace", "src/caustics/lenses/base.py::ThinLens.time_delay", "src/caustics/lenses/base.py::Lens.magnification", "src/caustics/lenses/point.py::Point.reduced_deflection_angle", "src/caustics/lenses/sis.py::SIS.reduced_deflection_angle", "src/caustics/lenses/sie.py::SIE.reduced_deflection_angle"]}
{"id": "C146", "title": "A source at the redshift of the lens, and a lens at the observer", "statement": "For a lens at z_l and a source at z_s with 0 <= z_l <= z_s (the declared range of both parameters starts at zero) every method of NFW, PseudoJaffe and Point returns numbers away from the centre of the lens. For 0 < z_l < z_s they are those of the formulas. For z_l = z_s > 0 the source is not deflected: reduced_deflection_angle, convergence and potential are zero and raytrace returns the position it was given. physical_deflection_angle, surface_density and the Shapiro part of time_delay do not depend on the source, so they have the same value for every z_s from z_l on.", "quantifier": "all cosmologies whose comoving distance grows with redshift, all redshifts, all lens parameters, all positions", "why_tests_cant": "The tests use one pair of redshifts with the source well behind the lens; quotients of distances that vanish are met at single values of real parameters.", "anchors": ["src/caustics/lenses/base.py::ThinLens.physical_deflection_angle", "src/caustics/lenses/base.py::ThinLens.reduced_deflection_angle", "src/caustics/lenses/base.py::ThinLens.surface_density", "src/caustics/lenses/base.py::ThinLens.time_delay", "src/caustics/lenses/func/base.py::physical_from_reduced_deflection_angle", "src/caustics/lenses/func/base.py::time_delay_arcsec2_to_days", "src/caustics/cosmology/base.py::Cosmology.critical_surface_density", "src/caustics/lenses/nfw.py::NFW", "src/caustics/lenses/pseudo_jaffe.py::PseudoJaffe", "src/caustics/lenses/point.py::Point"]}
{"id": "C147", "title": "Number and places of the images of a circular power law", "statement": "Take an EPL lens with axis ratio 1, Einstein radius b > 0 and slope t > 0 and a source at distance beta > 0 from its centre. The positions that raytrace maps to the source are: two if t > 1; two if t = 1 and beta < b, one if t = 1 and beta >= b; and for t < 1 three, two or one as beta is less than, equal to or greater than b (1-t)^(1/t) t/(1-t). All lie on the line through centre and source. Exactly one is on the side of the source; it is outside the Einstein ring, farther out than the source, and for t < 2 its magnification exceeds one. The others are on the opposite side inside the Einstein ring. The number of terms of the series and the chunk size do not matter.", "quantifier": "all centres, angles, Einstein radii, slopes, numbers of terms, allowed chunk sizes and source positions", "why_tests_cant": "The number of solutions of an equation with a real exponent, over all exponents; a grid of starting positions cannot show that there are no more.", "anchors": ["src/caustics/lenses/epl.py::EPL.reduced_deflection_angle", "src/caustics/lenses/func/epl.py::reduced_deflection_angle_epl", "src/caustics/lenses/func/epl.py::_r_omega", "src/caustics/lenses/base.py::ThinLens.raytrace", "src/caustics/lenses/base.py::Lens.magnification"]}
{"id": "C148", "title": "A lens does not dim a source", "statement": "Take a SinglePlane of any number of Points, SIS, SIEs with or without a core, PseudoJaffes, MassSheets of non-negative convergence and ExternalShears, the convergences and shears of the last two adding up to less than one, and a source of any non-negative brightness. The brightness seen through the lens, source.brightness(*lens.raytrace(x, y)), integrated over the image plane is at least the integral of source.brightness over the source plane, and at least 1/(1-kappa)^2 times it if kappa is the sum of the convergences of the MassSheets; behind a single MassSheet it is exactly that. Any region of the source plane is seen under at least its own area. For a source that ends at a distance r from some point, a frame of the size C128 gives already holds this flux. A MassSheet of negative convergence dims every source.", "quantifier": "all finite lists of members, all parameters, all measurable brightness functions, finite or infinite flux", "why_tests_cant": "An integral over the whole plane of an arbitrary function composed with an arbitrary lens; a pixel image samples a finite field of view and one source.", "anchors": ["src/caustics/sims/lens_source.py::LensSource.__call__", "src/caustics/lenses/singleplane.py::SinglePlane.reduced_deflection_angle", "src/caustics/lenses/base.py::ThinLens.raytrace", "src/caustics/lenses/point.py::Point.reduced_deflection_angle", "src/caustics/lenses/sis.py::SIS.reduced_deflection_angle", "src/caustics/lenses/sie.py::SIE.reduced_deflection_angle", "src/caustics/lenses/pseudo_jaffe.py::PseudoJaffe.reduced_deflection_angle", "src/caustics/lenses/mass_sheet.py::MassSheet.reduced_deflection_angle", "src/caustics/lenses/external_shear.py::ExternalShear.reduced_deflection_angle"]}
{"id": "C149", "title": "Averaged over the sky a lens magnifies by one", "statement": "Let a lens displace no ray by more than B outside a set of places of finite area A: a SinglePlane of any number of Points, SIS, SIEs and PseudoJaffes without MassSheet or ExternalShear, or a Multiplane of any number of lenses of bounded deflection at any redshifts in front of the source. A disc of radius R in the source plane, anywhere, is seen through lens.raytrace under an area between pi (R-B)^2 - A and pi (R+B)^2 + A for every R at least B, and the ratio of that area to pi R^2 tends to one as R grows: what the lens magnifies in one place it takes from another. Likewise for a source of any brightness profile and finite flux: the flux received through the lens, averaged over the positions of the source in a disc, tends to the flux of the source as the disc grows; and behind masses in one plane the fraction of positions at which the flux is raised by a given amount or more tends to zero.", "quantifier": "all finite lists of members, all parameters, all centres of the disc, all radii at least the largest displacement, all measurable profiles of finite flux", "why_tests_cant": "An area in a limit of infinitely large regions for arbitrary lenses; a test samples one lens on one finite grid.", "anchors": ["src/caustics/lenses/singleplane.py::SinglePlane.reduced_deflection_angle", "src/caustics/lenses/multiplane.py::Multiplane.raytrace", "src/caustics/lenses/base.py::ThinLens.raytrace", "src/caustics/lenses/point.py::Point.reduced_deflection_angle", "src/caustics/lenses/sis.py::SIS.reduced_deflection_angle", "src/caustics/lenses/sie.py::SIE.reduced_deflection_angle", "src/caustics/lenses/pseudo_jaffe.py::PseudoJaffe.reduced_deflection_angle"]}
