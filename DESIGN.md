# Formal model of caustics: design

Subject: the Python package `caustics` (source text in `/repo/src/caustics`), read as
text and never executed.  Everything here is Lean 4 (4.33.0) with single Mathlib
modules imported on demand.

## 1. Layout

* `lean/Verif/Model/*.lean` - definitions only.  One file per source area, every
  definition cites `file:lines` of `/repo/src/caustics` and names each simplification.
* `lean/Verif/Spec/*.lean` - the small, code-independent vocabulary used in statements
  (gradient, divergence, convex hull, linear convolution, ...).
* `lean/Verif/Lemmas/*.lean` - helper lemmas.
* `lean/Verif/Props/*.lean` - the property theorems, one section per property id, each
  followed by an `example` exhibiting a concrete non-trivial instance of its hypotheses.
* `properties.jsonl` - the property list; `MANIFEST.json` - property -> theorem names.
* `seeded/LOG.jsonl` - record of deliberately wrong models and which theorems broke.

## 2. Trusted base

* Lean's kernel, and the three standard axioms `propext`, `Classical.choice`,
  `Quot.sound`.  No axiom is added; no compiled-code evaluation is used in proofs.
* The reading of the Python source into the model (cited per definition).
* Numbers.  Floating point arithmetic is modelled by exact arithmetic: a linear ordered
  field `K` where the code is rational, the real numbers (or complex, for EPL) where it
  uses roots, logarithms or trigonometry.  Rounding, overflow, NaN propagation through
  ordinary arithmetic and dtype/device handling are NOT modelled, except that C115 models
  the int32 orders of a multipole and C116 the rounding (not overflow or underflow) of the
  simple deflections and sums, and C136 and C137 (`Model/Flt`) follow infinities and NaN, without rounding and
  with one zero, through sources, enclosed-mass lenses and `TNFW`.  Where a definition
  can divide by zero in Python, either the theorem carries the exact guard, or the
  division is modelled by an `Option` (`none` = inf/nan) and the failing branch is
  covered by its own theorem.
* The array backends (torch / jax.numpy) are modelled by the documented meaning of the
  operation used (`chunk`, `array_split`, `cat`, `roll`, `searchsorted`, `clamp`,
  `gradient`, `fft.rfft2`, `conv2d(padding="same")`, `avg_pool2d`, `vmap`, `sum`).
* Automatic differentiation (`jacfwd`, `grad`, `hessian`) is the true derivative except in C105, where
  `Model/AutoDiff` defines forward and reverse mode operation by operation, with infinities and NaN, and the
  derivative is what is proved (or refuted).  There the propagation rules of the libraries are trusted, an
  array is taken entry by entry and no number is rounded.
* The `caskade` parameter framework (`@forward`, `Param`) is modelled only as "each
  argument named like a parameter receives that parameter's current value unless the caller passes it
  by name"; for the angle-system setter the
  attribute/link bookkeeping is modelled explicitly.
* External tables (`roots_legendre`, `next_fast_len`) are parameters with the
  stated assumed behaviour (weights sum to 2, nodes symmetric; `n <= next_fast_len n`).
  `scipy.special.hyp2f1` is Euler's integral; where the values do not matter (C58) its table is arbitrary.

### What is modelled

| source (under `src/caustics`) | Lean module | left out |
|---|---|---|
| in-place updates of `light_stack.py`, `multiplane.py`, `lens_source.py`, `utils.py`, `base.py`, `backend_obj.py` | `Model/InPlace` | the values of all other steps (arbitrary new arrays); views |
| `utils.py` coordinates, angle conversions | `Model/Coord` | - |
| `utils.py:168-196, 605-755` grids, quadrature | `Model/Grid` | Legendre table is a parameter |
| `utils.py:794-1069` interp1d/2d/3d | `Model/Interp`, `Model/Py` | batches of queries |
| `utils.py:1079-1321` bicubic; `lenses/pixelated_potential.py` | `Model/Bicubic` | - |
| `utils.py:1371-1483` vmap_reduce, chunking | `Model/Chunk` | - |
| `utils.py:1486-1529` cluster_means | `Model/ClusterMeans` | quality of the random index |
| `utils.py:1532-1635` batch_lm | `Model/LM` | inversion of the covariance |
| `utils.py:1638-1661` gaussian | `Model/Gaussian` | - |
| `utils.py:199-602` WCS (pixel/plane/world) | `Model/WCS` | - |
| `angle_mixin.py` | `Model/AngleMixin` | - |
| `cosmology/*` | `Model/Cosmology` (helper a parameter), `Model/LambdaTable` (the table itself) | float32 rounding of the table |
| `lenses/base.py`, `lenses/func/base.py` (conversions, Jacobians, time delay) | `Model/Multiplane`, `Model/Jacobian` | autograd is a parameter |
| `backend_obj.py:392-426` (`jacfwd`, `grad`) applied to `func/sis, point, nfw, pseudo_jaffe, sie, tnfw, sersic, star_source` | `Model/AutoDiff`, `Model/AutoDiffPrograms` | `hessian`, sign of infinity |
| `lenses/singleplane.py`, `batchedplane.py`, `light/light_stack.py` | `Model/Plane` | - |
| `lenses/multiplane.py` | `Model/Multiplane`, `Model/MultiplaneNum` (with division by zero) | - |
| `lenses/func/{sis,point,mass_sheet,external_shear,multipole,enclosed_mass,sie,nfw,pseudo_jaffe,tnfw}.py` | `Model/Lenses` | TNFW interpretation switches |
| `lenses/func/epl.py` | `Model/EPL` | - |
| `lenses/func/base.py:7-244` image search | `Model/Triangle` | the root finder is a parameter; `Model/RootFind` fills it in with `batch_lm` at its defaults |
| `lenses/{,func/}pixelated_convergence.py` | `Model/FFT`, `Model/PixConv` | device transfer |
| `sims/lens_source.py` | `Model/FFT`, `Model/LensSource` | chunked evaluation |
| `sims/microlens.py` | `Model/Microlens` | random numbers are inputs |
| `backend_obj.py:523-565` random numbers, with their use in `sims/microlens.py`, `utils.py:1505` | `Model/RandomKey` | collisions of jax keys; seeding |
| `sims/simulator.py:15-44` build_simulator | `Model/BuildSim` | YAML parsing, class bodies |
| `light/func/{sersic,star_source}.py` | `Model/Light` | - |
| `light/{pixelated,pixelated_time}.py`, `lenses/pixelated_deflection.py` | `Model/PixLight` | - |
| `lenses/tnfw.py`, `lenses/func/{tnfw,nfw}.py` mass normalisations | `Model/TNFWMass` | - |
| `backend_obj.py` flatten, reshape, vmap; `utils.py:1324-1368` vmap_n; flattened evaluation in `lenses/base.py` | `Model/NDArray` | derivatives are a parameter; `vmap` of one or two arrays, non-negative axes |
| evaluation inside `vmap` of `light_stack.py`, `lens_source.py:372-400`, `singleplane.py`, `multiplane.py`, `lenses/base.py` delay and finite differences, `utils.py:311-321` | `Model/Vmap` | which values carry the batch; the rule for in-place operations and for branches is the one documented by the libraries |
| `backend_obj.py` pad, avg_pool2d, upsample2d | `Model/BackendObj` | pad values other than the widths; other resize methods |
| `reduced_deflection_angle` of the lens classes with softening, with divisions by zero visible | `Model/Softening` | an intermediate infinity counts as failure |
| `raytrace` and `time_delay` of SIS and Point with divisions by zero visible | `Model/Images` | - |
| methods of the lens classes, which arguments and distances they hand on | `Model/LensClass` | `Multipole`, pixelated lenses, planes; positional arguments |
| `to` of all classes, `_build_grid` and mode setter as far as devices and element types go | `Model/ToDevice` | numbers of grids and transforms (arbitrary functions); `caskade`: `Module.to` calls `to` on the children, `Param.to` converts the value |
| `lenses/{external_shear,point,sie}.py` `parametrization` setters | `Model/Parametrization` | warnings, shapes; `caskade` by stated assumptions |

### Axioms

The list per theorem is generated by `tools/axioms.py` into `AXIOMS.md`.  Every theorem named in
`MANIFEST.json` depends on a subset of `propext`, `Classical.choice`, `Quot.sound`.

Not modelled at all: GPU/device/dtype moves, JIT, random number quality, plotting,
YAML parsing (the parsed mapping is the input), warnings text.

## 3. Plan per property

| id | model | proof method |
|----|-------|--------------|
| C01 | `translate_rotate`, `derotate` over the reals, `phi` an `Option` | ring + cos^2+sin^2=1 |
| C02 | `flip_axis_ratio`, `to_elliptical` | case split q<=1, trig shift by pi/2 |
| C03 | angle conversions with `arctan2 = Complex.arg` | polar form; `Complex.arg` of `r e^{it}`; mod pi |
| C04 | setter as a state machine on the set of attributes and links | invariant by induction on the assignment list |
| C05 | pixel/plane/world maps, no-SIP and SIP | 2x2 inverse algebra; gnomonic via unit vectors and `Complex.arg` |
| C06 | `meshgrid` as function of (row, col) | field arithmetic |
| C07 | quadrature table as finite sums | finite sums; symmetric involution on nodes |
| C08 | `interp1d` over an ordered field, Python negative index included | searchsorted characterisation by counting; Hermite identities |
| C09 | `interp2d` with `Except` for bad modes | floor/clamp lemmas, bilinear convexity |
| C10 | `interp3d` | same, trilinear |
| C11 | `interp_bicubic` with BC matrix | matrix identities by `ring`; `HasDerivAt` of cubics |
| C12 | `bicubic_kernels` | negation witness (sign and axis); partial: what it does compute |
| C13 | `_chunk_input`/`vmap_reduce` on lists, both split conventions | list induction; ceil-division arithmetic |
| C14 | `SinglePlane` folds | list induction; `List.Perm` |
| C15 | `BatchedPlane` via C13 and C14 | composition |
| C16 | `_raytrace_helper` as list recursion with `Option` for index errors | induction over planes |
| C17 | same | negation witness for an unsorted list; partial for sorted lists |
| C18 | same + `ThinLens.raytrace` | field arithmetic |
| C19 | same | induction over planes |
| C20 | both time delays | negation witness; partial: Shapiro ratio is exactly `1+z_l`... |
| C21 | conversions, `ThinLens` defaults | field arithmetic |
| C22 | `Cosmology` methods from an arbitrary distance function | field arithmetic |
| C23 | potential and deflection functions per lens | `HasDerivAt` calculus |
| C24 | deflection and convergence per lens | `HasDerivAt` calculus |
| C25 | mass/Einstein radius maps | `Real.sqrt` algebra |
| C26 | `_r_omega` both branches, slices as lists | negation witness; partial for chunk sizes with one chunk |
| C27 | EPL specialised | series collapses for q=1 |
| C28 | EnclosedMass functions | negation witness; partial: corrected power |
| C29 | `triangle_contains` over an ordered field | linear algebra, barycentric uniqueness |
| C30 | `triangle_upsample` | barycentric case split |
| C31 | `triangle_neighbors` | barycentric case split |
| C32 | dedup loops | list induction |
| C33 | `forward_raytrace` loop with fuel = `max_depth+1`, root finder a parameter | loop invariant by induction |
| C34 | same on affine maps | C29-C31 plus loop invariant |
| C35 | `_lm_step`, `batch_lm` with solver as a parameter | case split, induction over iterations |
| C36 | `batch_lm` | negation witness; partial: consistent when the loop is exhausted |
| C37 | `_lm_step` specialised to an affine model | field arithmetic |
| C38 | `shear`, Jacobians, `backend.gradient` | matrix algebra; affine fields |
| C39 | setters and `_build_grid` as a state machine | invariant by induction |
| C40 | FFT as explicit DFT sums, `conv2d` as direct sums | DFT convolution theorem, index ranges |
| C41 | shape arithmetic of both modes | arithmetic; negation witness for non-square fft |
| C42 | full `__call__` pipeline on functions | finite sums |
| C43 | Microlens estimators | finite sums, variance of a constant |
| C44 | `build_simulator` on ordered association lists | list induction; negation witness for equal entries |
| C45 | `LightStack` fold | list induction |
| C46 | `brightness_sersic` | `Real.exp`/`rpow` monotonicity |
| C47 | `brightness_star` with `Option` square root | negation witness; partial for theta_s = 1 |
| C48 | `gaussian` | positivity, symmetry of finite sums |
| C49 | `cluster_means` selection loop | negation witness; partial |
| C50 | kernels, padded FFT and direct convolution | as C40 |
| C51 | all lens functions | rewriting through `translate_rotate` |
| C52 | `ThinLens.time_delay` | calculus |
| C53 | `ThickLens` div/curl | calculus; witness |
| C54 | profile formulas | inequalities |
| C55 | `convergence_nfw` with `Option` division | negation witness at r = rs; partial elsewhere |
| C56 | setter state machine | induction over assignments |
| C57 | `Multiplane.time_delay` fold | induction over planes along the ray of C16 |
| C58 | `FlatLambdaCDM` with the tabulated helper as a parameter | monotonicity, field arithmetic |
| C59 | `frLoop` on arbitrary maps | fold and unit counterexamples; regular images: piecewise linear interpolation on the mesh is a homeomorphism onto a neighbourhood (contraction), neighbours cover it, induction over rounds; `C^1` maps by the strict derivative |
| C60 | `gaussian` with `upsample` | exact effective kernel; negation witness |
| C61 | constructor and mode setter of PixelatedConvergence | state equality; negation witness |
| C62 | `_fft2_padded` paddings | periodic sums; negation witness |
| C63 | TNFW/NFW/pseudo-Jaffe normalisations | limits at infinity and at zero of the enclosed mass |
| C64 | TNFW functions as `tau -> inf` | explicit limits, continuity of a polynomial in the pieces |
| C65 | `Pixelated.brightness` through `interp2d` | affine change of variables, floor lemmas |
| C66 | `PixelatedTime.brightness` through `interp3d` | same |
| C67 | `PixelatedDeflection` | same |
| C68 | `Pixelated.brightness` | negation witness in the border; partial: interior convexity |
| C69 | constructors on arrays of any rank | case analysis; negation witness |
| C70 | setter as a program on attributes, links and object identities | invariant by induction on the history |
| C71 | same, link behaviour a parameter | negation for both behaviours; partial: invariants |
| C72 | both versions of each helper | list induction; finite sums; negation witnesses |
| C73 | row-major `ravel`/`unravel`, chunked `vmap` | induction on the shape; induction on the list |
| C74 | iterated `vmap` on index functions | induction on the depth |
| C75 | `frLoop` with `forwardRaytraceRootfind` | error of damped steps on affine maps (contraction, a-posteriori bound), extents of triangles halve, induction over both loops |
| C76 | `NFW/TNFW/PJaffe.convergence`, `sisConvergence`, `sigmaVToRein`, `criticalSurfaceDensity` | explicit antiderivatives along the line of sight, limits at ±∞, `integral_of_hasDerivAt_of_tendsto` |
| C77 | `*DeflectionOpt` (`Model/Softening.lean`: the deflections with partial division, roots, logarithms) | checked arithmetic = total arithmetic off the singular set; continuity at the centre; boundedness of the NFW profile on compacts; TNFW mass monotone |
| C78, C79 | `raytraceOpt`, `sisThin`, `pointThin` (`Model/Images.lean`) on the checked deflections of C77 | radial lens equation solved on the line through centre and source; magnification from tangential and radial stretch; delay from C60's formula |
| C80 | `*Convergence`, `mass_enclosed_2d` | integral over a disc/ellipse by polar coordinates and an affine change of variables; fundamental theorem with the enclosed mass as primitive; `1/(x-1)` is not integrable |
| C81, C82 | `LensKind.call` (`Model/LensClass.lean`) over the functions of `Model/Lenses`, `Model/EPL` | case analysis over classes and methods; exact scaling with the critical surface density; C23/C24 with distances from the cosmology |
| C83 | `TNFWLens` (`Model/TNFWMass`), `Lemmas/TNFWShape` | line-of-sight integrals of the density for two truncations compared integrand by integrand; limit of a strictly increasing family |
| C84 | `Sersic.brightness` (`Model/Light`), `Lemmas/SersicFlux`, `Lemmas/GammaMedian` | polar coordinates on the plane and on ellipses; median of the Gamma distribution by the substitution u = m v^3, which makes the integrand nearly symmetric about v = 1 |
| C85 | `sisDeflection`, `pointDeflection`, `sheetDeflection`, `shearDeflection`, `pixelMagnification` | change of variables (Mathlib `lintegral_image_eq_lintegral_abs_det_fderiv_mul`) on the two sides of the Einstein ring, on which C78 gives the inverse map |
| C86 | `pixelatedBrightness`, `pixelatedTimeBrightness` (`Model/PixLight`), `Lemmas/PixFlux` | row integral by adjacent cells plus the half pixels, image as a sum of products of hat functions, Fubini |
| C87 | `singlePlane` (`Model/Plane`), `ThinLensFn.raytrace/timeDelay`, the lens models | algebra on the plane's left fold; uniqueness of the Jacobian for the magnification |
| C88 | `microlens` (`Model/Microlens`) | grid mean as integral of a step function and dominated convergence; strong law of large numbers; variance of sums of independent variables |
| C89 | `setBackend`, `loadBackend`, `importBackend`, `runSwitches` (`Model/BackendSwitch`) | invariant over sequences of assignments; counterexample |
| C90 | `mpRaytrace`, `ThinLensFn.plane` (`Model/Multiplane`) | gradient of the arrival time is the mismatch of bending angles; induction over planes; uniqueness of the ray |
| C91 | `eplDeflection`, `eplPotential` (`Model/EPL`), `sieDeflection`, `siePotential` (`Model/Lenses`) | arctangent series, doubling formula and remainder over ℂ |
| C92 | `singlePlane` (`Model/Plane`), `ThinLensFn.timeDelay` (`Model/Multiplane`), lens functions (`Model/Lenses`) | coercive arrival time attains its minimum off cusps and poles; first and second order conditions; closure under superposition |
| C93 | `drawFrom`, `microlensRun`, `clusterRun` (`Model/RandomKey`) | invariant: the keys a state can still produce, induction over programs; counterexample on torch |
| C94 | `sieDeflection`, `sisDeflection`, `pointDeflection`, `eplDeflection` (`Model/Lenses`, `Model/EPL`), `pixelMagnification` (`Model/Jacobian`) | determinant in the lens frame; rpow for the power law |
| C95 | `Model/Lenses`, `Model/EPL`, `Model/Light`, `Model/PixLight`, `Model/Bicubic`, `Model/Plane` | homogeneity; induction over the loops of `_r_omega` and over the members of a plane |
| C96 | `sieDeflection` (`Model/Lenses`), `ThinLensFn.raytrace` (`Model/Multiplane`) | the deflection is constant on rays from the centre; the equation for the slope is strictly concave in each quadrant |
| C97 | `Model/Lenses`, `Model/EPL`, `Model/NFW`, `Model/TNFW`, `Model/Light` | parity of every formula; complex conjugation commutes with the EPL series |
| C98 | `lambdaGrid`, `lambdaTable`, `lambdaHelper`, `comovingOpt` (`Model/LambdaTable`), `interp1d` (`Model/Interp`) | substitution in Euler's integral, mean value theorem in every cell of the table, comparison of the cubic with its chord |
| C99 | `mpHelper`, `ThinLensFn.timeDelay` (`Model/Multiplane`), `FlatLambda` (`Model/Cosmology`), `Model/Lenses` | induction over the lens planes with the state scaled; field arithmetic |
| C100 | `BV`, in-place and functional updates inside `vmap` (`Model/Vmap`) | induction over models, planes and SIP terms; invariant that the delay keeps carrying the batch |
| C101 | `Sim.new`, `Sim.call` (`Model/LensSource`), Lebesgue measure on the sky | sub-pixel sums as integrals of step functions, Fubini, dominated convergence |
| C102 | `mpRaytrace`, `ThinLensFn.plane`, `NFW`, `Cosmo` | loop invariant up to the last plane with an auxiliary source redshift, linearity of the last step; sign change of the NFW lens |
| C103 | gradient1, jacFiniteDiff, meshgrid, lensEqJac, pixelMagnification, shearFromJac | mean value theorem; Taylor bound; epsilon-delta |
| C104 | pixelatedBrightness, pixelatedDeflection, pixelatedDeflectionRaytrace, interp2d | bilinear weights; convexity; epsilon-delta |
| C105 | Ex, XR, Ex.val, Ex.fwd, Ex.rev, sisX, pointX, nfwX, pjX, sieX, tnfwConv, sersicEx, starEx, starLoss | induction on programs; Fréchet derivatives; NaN propagation |
| C106 | `mpHelperO`, `mpTimeDelayO`, `singlePlaneO` (`Model/MultiplaneNum`) | merging planes commutes with the step of the ray, induction over the list; NaN propagation; limits |
| C107 | `tnfwF`, `tnfwP`, `tnfwMassEnclosed` (`Model/Lenses`), `TNFW` | the exact functions solve first-order equations the series solves up to a cubic remainder; integrating factor; lower bounds from the projection integral |
| C108 | `mpEffectiveDeflection`, `ThinLensFn.plane`, `singlePlane` | the weights of the ray lie between 0 and 1 and are 1 at the source; induction over the planes |
| C109 | `mpRaytrace`, `mpEffectiveDeflection`, `effectiveDiv`, `effectiveCurl` | the derivative of the ray equation is the ray equation of the linearised planes; induction over the planes |
| C110 | `PJaffe`, `TNFWLens`, `pointDeflection`, `massToReinPoint`, `pointPotential` | both sides as multiples of the enclosed mass; limits of the enclosed mass and of the logarithms |
| C111 | `pointDeflection`, `pointPotential`, `shearDeflection`, `shearPotential`, `gammaPhiToGamma1` | exact remainder by algebra; second-order expansion of the logarithm |
| C112 | `raytraceOpt`, `PJaffe.classDeflectionOpt`, `sisDeflectionOpt`, `pointDeflectionOpt` | counting zeros by signs of the derivative (induction on their number), Rolle, monotonicity of mean convergence |
| C113 | `shearFromJac`, `lensEqJac`, lens deflections and convergences | divergence theorem in polar coordinates, fundamental theorem of calculus along the circle |
| C114 | `multipoleDeflection`, `multipoleConvergence`, `multipolePotential` | polar form with the angle up to whole turns; integrals of cosines |
| C115 | `multipoleInit`, `multipoleDen`, `multipoleClassDeflection` | balanced remainder modulo 2^32; C23/C24 |
| C116 | `Arith`, `Arith.sisDeflection` ..., `SumTree`, `nearestArith` | relative error up to k roundings closed under the operations; induction over lists and sum trees |
| C117 | WCS | Lipschitz bound of a monomial on a box, summed over the terms; composition with the round trip of C05 |
| C118 | RootFind, ForwardRaytrace | bounds on the damped normal equations from a lower bound on the Jacobian; induction over rounds; composition with C59 |
| C119 | all lens functions | proportional powers of two quadratic forms are equal; asymptotics at zero and infinity (NFW, pseudo-Jaffe); orthogonality of cosines |
| C120 | `PixLens` of C50 on sampled maps | sums over pixels as integrals of functions constant on pixels, dominated convergence with the bound `1/√|ab|` |
| C121 | `PixPot` of C11 on sampled maps | the interpolation is linear in the map; explicit polynomial for a ramp, bound on the matrix rows for the remainder |
| C122 | `Model/InPlace`: a storage of arrays, references, exceptions that keep the storage | Hoare-style invariant "the first n arrays are untouched"; induction over members, planes and terms |
| C123 | `Model/AutoDiffNested`: the derivative program of an expression (tangent), `jacLensAutograd` with its `detach`, shear, pixel magnification, finite differences | induction over expressions: the tangent program is regular with the Fréchet derivative as its meaning; list induction for higher orders and for the loss |
| C124 | `Model/ToDevice`: a store of objects with shared children, arrays with device and element type, `to`, mode and simulator setters | fuel recursion over an acyclic graph equals conversion of the reachable set (idempotence); invariant over sequences |
| C125 | `sieDeflection` with its replacement of q = 1 | Taylor bounds of arctan and artanh with explicit constants, rotation invariance, squeeze |
| C126 | `mpRaytrace`, `mpTimeDelay` (`Model/Multiplane`) | along an ultrafilter the order of the planes is fixed; well-founded induction over it; concrete families for the failures |
| C127 | `Sim.call` (`Model/LensSource`) | pixels of the padded grid as quadratures of one sky brightness; reflection of the sums of quadrature, convolution and pooling; witnesses with a PSF of two pixels and with a column of 13 pixels |
| C128 | `Model/Lenses`, `eplDeflection`, `singlePlane`, `mpRaytrace`, `forwardRaytrace` | `Lemmas/FieldOfView`, `Props/FieldOfView`, `Props/FieldOfViewHalo`, `Props/FieldOfViewMaps`: bounds on deflections per class, how far images are from their source in one plane and in many, the field of view of `forward_raytrace` that holds all images |
| C129 | `Sim.call` (`Model/LensSource`), `pixelatedBrightness` | `Lemmas/SimDeriv`: impulse response of the pipeline, expansion of image and PSF in single pixels; derivatives of finite sums; completing the square |
| C130 | `PJaffe`, `pjKappa0Opt`, `pjMassEnclosedOpt`, `PJaffe.convergenceOpt`, `PJaffe.potentialOpt`, `pjCentralConvergence` | the enclosed fraction written without the division by `Rs - Rc` is continuous in both radii; slope of `c log(c+√(c²+R²)) - √(c²+R²)` for the potential; squeeze for `Rs → ∞` |
| C131 | `singlePlaneO`, `pointDeflectionOpt`, `sheetDeflection`, `shearDeflection`, `raytraceOpt` | lens equation in complex form; its conjugate gives the conjugate of an image as a rational function; substituting gives a polynomial that does not vanish at a point mass; number of roots |
| C132 | `singlePlaneO`, `sisDeflectionOpt`, `sheetDeflection`, `shearDeflection`, `raytraceOpt` | rotate to the axes of the shear; the Einstein radius over the image's distance is a root of a quartic and determines the image; sources on an axis by hand |
| C133 | `sisDeflectionOpt`, `pointDeflectionOpt`, `sieDeflectionOpt`, `eplClassDeflectionOpt`, `PJaffe.classDeflectionOpt`, `NFW.deflectionOpt`, `TNFWLens.deflectionOpt` | evaluation at zero; for the limits the field-of-view bound of C128 with rs ∝ m^(1/3), and log(1+c) − c/(1+c) ≥ c²/((2+c)(1+c)) |
| C134 | `singlePlaneO`, `sisDeflectionOpt`, `pointDeflectionOpt`, `raytraceOpt`, `pixelMagnification` | in the axes of the shear the determinant at an image is, up to a quadratic factor, the derivative of a quartic at its root; Lagrange interpolation at the four roots and zero; sources on an axis by hand |
| C135 | `eplDeflection`, `eplPotentialOpt`, `eplConvergenceOpt`, `sieDeflectionOpt`, `sieConvergenceOpt` | at t = 0 all but the first term vanish; at t = 2 the series is geometric and the elliptical radius cancels; continuity in q; artanh below a logarithm |
| C136 | `Flt`, `sersicFlt`, `enclosedFlt`, `sumFlt` | operation by operation with infinities and NaN; limits of `exp(-k (e/Re)^(1/n))` |
| C137 | `TNFWLens.deflectionFlt`, `TNFWLens.massEnclosed`, `pointDeflection` | the bracket of the enclosed mass is its total plus a bounded rest as tau falls; arsinh(tau/g)/tau; C110; NaN propagation |
| C138 | `ZWorld`, `ZCmd.run`, `zHandDown`, `zConstruct`, `zResolve`, `ZWorld.deflection` | invariant over programs: pointers lead to younger objects; induction on the program from the right |
| C139 | `fieldImages`, `singlePlaneO`, `raytraceOpt`, `pointDeflectionOpt`, `sheetDeflection`, `shearDeflection` | images are the fixed points of an involution on the roots of a polynomial of degree (N+1)^2 (or N^2+1); partners have equal multiplicity (orders of vanishing); minimum of the arrival time for existence |
| C140 | `CLens`, `CPlane`, `CMulti`, `LensKind.reduced`, `mpRaytrace` | case analysis over the classes, induction over the members; one-plane ray by computation |
| C141 | `PixPot`, `interpBicubic`, `bicubicKernels` | clamping is idempotent; cubic Hermite weights bounded on [-1/2, 3/2] |
| C142 | `FieldLens`, `singlePlaneO`, `raytraceOpt`, `pixelMagnification` | the images are all zeros of a polynomial whose derivative there is the Jacobian determinant times a known factor; Lagrange interpolation reads the sum off two leading coefficients |
| C143 | `PlaneMember`, `singlePlaneO`, `raytraceOpt` | winding number of the lens equation around large rectangles by comparison with the sheet and shear alone, around each image by the derivative, around each singularity by its limit (a deflection that depends on the direction only goes farthest at `u` in the direction `u`, so the lens equation turns once around a covered source and not at all around another; towards a point mass or a steep power law the radial component grows without bound); a nested bisection adds them up; critical values have no area (Sard) |
| C144 | `mpRaytrace`, `ThinLensFn.plane` | the state of the recursion stays within a bounded distance of that of the linear planes; degree of the map as for C143; critical values have no area |
| C145 | `MassiveLens.member`, `planeImages` | at the minimum of the arrival time no member has a pole or a cusp and, for almost every source, no member is undefined, so it is an image of positive determinant; the sum of the parities of C143 then bounds the number of negative ones from below |
| C146 | `Model/SameRedshift.lean`: `sigmaCrFlt`, `NFWPar`, `PJPar`, `PointMass`, `thinDelayFlt` | the methods over `Flt`; inside the range each operation stays among numbers and gives the real model, at the two ends the vanishing distances give 0 · ∞ |
| C147 | `eplDeflection` at `q = 1` | the lens equation on the line through centre and source, in Einstein radii: `u(1 - abs(u)^(-t)) = y`; monotone on the side of the source, and on the other side monotone for `t > 1` and rising then falling for `t < 1` |
| C148 | `observed`, `MassiveLens.member` | the first images of all sources (C92) form part of a measurable set on which the Jacobian is at most `(1 - kappa)^2` and whose image is the whole plane; the area of the image of a measurable set is at most the integral of the Jacobian, so Lebesgue measure is below the image measure |
| C149 | `seenDisc`, `Displaces` | the image of the disc of radius `R` contains the disc of radius `R - B` and lies in that of radius `R + B` up to the exceptional places (C128) and a null set; area of a disc from Mathlib through the complex plane; for other profiles Tonelli turns the mean over positions into the integral of the profile times such areas, and the last claim is Markov's inequality with C148 |

## 4. Findings: code that does not do what is claimed

Each has a kernel-checked witness; the theorem is named.

1. `Multiplane` uses the lenses in list order, not by redshift (`C17_fails*`).
2. `Multiplane.time_delay` with one plane is not the thin-lens delay (`C20_fails`, factors in `C20_ratio_partial`).
3. EPL with `chunk_size` gives other values or raises (`C26_fails*`).
4. `bicubic_kernels` returns derivatives with the wrong sign and axis (`C12_fails`).
5. `cluster_means` mixes up positions and can repeat a centre (`C49_fails`).
6. `batch_lm` on early exit returns parameters from before the step with the chi-square after it (`C36_fails`);
   its acceptance ratio is between 1/3 and 2/3 for an exact model (`C37_ratio`).
7. `EnclosedMass` deflection has an extra `1/r` (`C28_fails`).
8. NFW convergence is 0/0 at the scale radius and unbounded next to it (`C55_fails*`).
9. `LensSource` in fft mode swaps x and y in the transform size: wrong shape and values for non-square
   images (`C40_fails`, `C41_fails`, `C42_uniform_fails`).
10. Softened SIS / EPL / point and circular SIE with core: deflection, potential and convergence disagree
    (`C23_fails_*`, `C24_fails_*`); a circular SIE is evaluated with `q = 1 - 1e-6` in the deflection only.
11. The star profile measures the limb in arcsec, not in radii; NaN beyond 1 (`C47_fails`, `C47_nan`).
12. `forward_raytrace` raises IndexError / UnboundLocalError or misses fold images (`C33_*`, `C59_fails*`).
13. `build_simulator` resolves references by equality and never inside lists (`C44_fails`, `C44_lists`).
14. A `LensSource` setter that fails keeps the new setting and a stale grid (`C39_fails`, `C39_stuck`); an
    unknown `psf_mode` passed to the constructor silently disables the PSF (`C42_unknown_mode`).
15. `gaussian(upsample=u)` shrinks the kernel by `u` (`C60_fails`).
16. `PixelatedConvergence`: the fft map is displaced by half a pixel, the conv2d map is stretched by two
    (`C50_fails_centre`, `C50_fails_modes`); the kernel window depends on the *initial* mode (`C61_fails`);
    `circular` and `tile` padding differ (`C62_fails`); an unknown padding is only noticed at evaluation
    in fft mode and never in conv2d mode (`C50_padding_errors`).
17. `Pixelated` extrapolates linearly over the half pixel beyond the outermost pixel centres, which gives
    negative brightness for some non-negative images (`C68_fails`).
18. Images with a channel axis are accepted by `Pixelated`/`PixelatedTime` and can never be evaluated
    (`C69_fails`, `C69_channels`).
19. `Point` and `SIE`: switching `parametrization` back to `Rein` leaves `Rein` linked to the deleted
    parameter (`C71_dangling`, `C71_fails`); if the graph refuses a second link of that name, the next
    switch raises half way and the lens is stuck (`C71_refused`).
20. The two array libraries differ: `upsample2d` divides by `scale_factor²` only on torch, `avg_pool2d`
    ignores `padding` on jax, `flatten` of a scalar raises on jax (`C72_fails_*`), hence the default
    deflection, convergence and Jacobians of a lens raise on jax for scalar positions (`C73_scalar`).
21. Softening: `PseudoJaffe` never uses its own `s` (deflection 0/0 at the centre), a softened `TNFW`
    deflects its own centre along +x (`arctan2(0, 0) = 0`), `EPL` gives `s` to the convergence only
    (`C77_fails_pseudo_jaffe`, `C77_fails_tnfw`, `C77_fails_epl`).
22. `NFW.convergence` is not integrable over any disc reaching past the scale radius, so it has no
    mass there in the sense of the integral (`C80_fails_nfw_integrable`).
23. `EPL` reports its own centre as an image of a source behind it: `nan_to_num` turns the 0/0 of the
    deflection into 0 (`C78_epl_ring`).
24. Arguments passed by name are not handed on: `surface_density(x, y, z_s=z)` of a halo, the default
    `physical_deflection_angle(x, y, z_s=z)` of `PseudoJaffe`, `reduced_deflection_angle`/`raytrace` of
    `NFW`/`TNFW` with `z_l=z`, and `TNFW.mass_enclosed_2d(r, tau=t)` or `Rs=R` mix the passed value with the
    stored one (`C81_fails_*`).
25. The flux of a `Pixelated` source is not the sum of its pixels times their area: the outermost pixels
    count for more and the ones next to them for less (`C86_fails`, exact weights in `C86_flux`).
26. `forward_raytrace` depends on the unit of length: triangles closer than an absolute `1e-6` are merged, so
    below that spacing the neighbours of a candidate are never examined and images are missed
    (`C59_fails_units`).
27. `backend.backend = name` switches caskade before it checks the name: with a name that caskade accepts and
    caustics does not, it raises `ValueError` and leaves the two on different libraries (`C89_fails_third`).
28. `cluster_means(xs, k, key=...)` is not repeatable under torch: `_randint_torch` ignores the key without a
    word (`C93_fails`), while `Microlens(..., key=...)` raises `NotImplementedError` there (`C93_torch_key`).
29. The SIE potential clamps the core at an absolute `1e-6` inside the logarithms but not in their coefficient nor in
    the deflection, so for a smaller non-zero core it depends on the unit of angle (`C95_sie_fails`).
30. A SIE with `q = 1` is not circular: its deflection is that of `q = 1 - 1e-6`, so a source behind the centre has
    four images and not a ring (`C96_ring_fails`).
    The error is at most `12e-6 Rein` (`C125_round_partial`), the deflection jumps at `q = 1`
    (`C125_fails_continuous`), and `s` means different softenings in `SIS` and `SIE` (`C125_softening`).
31. `FlatLambdaCDM` tabulates its helper up to `x = 10` and lets the last cubic run on beyond: with `Om0 = 0.3` the table
    ends at redshift 12, distances then grow without bound although the universe has a horizon, and at redshift 1100 the
    distance is more than seven times the true one (`C98_fails_last_scattering`).
32. `Om0` is declared valid on `[0, 1]`, but both ends give NaN distances (`C98_fails_ends`), although both universes have
    elementary ones (`C98_ends_exact`).
33. `critical_density_0` does not follow `h0`: changing `h0` alone leaves the critical density of another universe behind,
    which halo lenses then use for their scale radius (`C99_friedmann_fails`).
34. In-place updates stop `torch.vmap` over parameters at fixed coordinates: `LightStack.brightness`, lens light without a
   batched source in `LensSource`, the multiplane time delay, the finite difference Jacobian (always, its `zeros` never
   carries the batch) and `pixel_to_plane` with batched SIP coefficients raise RuntimeError on torch and work on jax;
   `SinglePlane` and the thin time delay, written `a = a + b`, work on both. Batched redshifts of two lenses or more are
   refused by both libraries, because `Multiplane` sorts them (C100).
35. Lenses behind the source deflect: `Multiplane._raytrace_helper` and the thin lens methods never compare `z_l` with `z_s`. A thin lens behind the source acts with its full reduced deflection; a lens given by its mass (NFW) acts as a negative mass (C102).
36. Reverse-mode gradients of `StarSource` are NaN with respect to position, centre, `Ie` and `gamma` for every pixel outside the disc and more than one arcsecond from the star: `where` discards the value of `sqrt(1 - R**2)` but not the NaN of its derivative. One such pixel makes the gradient of an image loss NaN (C105). Clamping the argument, or dividing `R` by `theta_s`, would avoid it.
37. At the centre of a softened SIS or point mass the deflection has a Jacobian, `Rein/s` or `Rein^2/s^2` times the identity, but `jacobian_deflection_angle(method="autograd")` gives NaN: the softening is added outside the square root. SIE, where it is inside, is right (C105).
38. Convergence of a TNFW at the scale radius: the branch written for `g == 1` is constant, so forward mode loses the derivative of that term and returns a wrong finite number; reverse mode returns NaN from the `0/0` of the other branch (C105).
39. `Multiplane.time_delay` is NaN or infinite as soon as two neighbouring lenses share a redshift: `tau` divides by the distance between them (multiplane.py:108). The rays are right, and a `SinglePlane` of the same lenses gives a number. When the two redshifts are not equal but approach each other the delay tends to infinity, because the geometric part uses the deflection of one plane instead of the difference of the two image positions (C106).
40. A thin lens at the redshift of the source makes every ray of a `Multiplane` NaN (`d_s / d_ls`), although its weight in the lens equation is zero (C106).
41. The enclosed mass, the deflection and the convergence of the TNFW jump where its series starts and stops, at `|r / Rs - 1| = 1e-2` (C107). The size of the jump is below 6e-6 of the mass.
42. `Multipole` squares its orders in int32: from order 46341 on the deflection and the potential have the wrong sign or size for the convergence, and order `2^31 - 1` divides by zero (C115).
43. `_h_nfw` adds `log(x / 2)` and `arccosh(1 / x) / sqrt(1 - x**2)`, which cancel towards the centre: the deflection computed close to the centre of an unsoftened NFW is noise, and exactly zero at some positions in every precision (C116). The relative error is of order `u / x**2`, with `x` the radius over the scale radius.
44. `PixelatedConvergence` with `convolution_mode="conv2d"` does not tend to the lens of the given convergence
    when the map is refined: in the inner quarter of the field of view it tends to the deflection at twice the
    distance from the centre (`C120_conv2d`, `C120_fails_conv2d`).
45. `PixelatedPotential` does not tend to the lens of the given potential when the map is refined, because of
    finding 4. Between pixel centres, at fractions `t` and `u` of a pixel, the deflection tends to
    `6t(1-t)(gx+gy) - gy` and `6u(1-u)(gx+gy) - gx` in place of `gx` and `gy`, and the convergence grows like
    one over the pixel scale (`C121_deflection_partial`, `C121_fails`, `C121_fails_convergence`).
    Only `potential` itself has the right limit.
46. `LightStack.brightness` starts from `zeros_like(x)` and adds with `+=`, which on torch writes into that array:
    it raises at positions given as integers, and when a member returns an array larger than `x`
    (parameters with more entries than positions), although every member can be evaluated there and jax
    returns the sum (`C122_fails_stack`, `C122_fails`). `Multiplane` accumulates time delays the same way.
    `interp1d` with `extend="const"` or `"linear"` raises on jax (`C122_fails_interp1d`), and `add_at_indices`
    gives different sums for repeated positions (`C122_fails_add`).
47. The default `shear` cannot be differentiated (C123). `jacobian_lens_equation(method="autograd")` subtracts
    `backend.detach(J)` (base.py:551, 1048), so `shear`, `jacobian_lens_equation` and anything built on them have the
    right values and zero derivative with respect to every parameter and position, in both modes and on both libraries.
    A least-squares fit to observed shears has zero gradient everywhere. `jacobian_deflection_angle`,
    `utils.magnification` and `method="finitediff"` are differentiated correctly.
48. `to` is not complete and does not last (C124). Every setter of `LensSource` rebuilds the grid with `meshgrid` on the
    default device and element type (lens_source.py:273-277), so after `sim.to(device)` the next assignment makes `sim()`
    raise on that device (`C124_fails_call`). `PixelatedConvergence.to` passes no element type to the Fourier kernels
    (deflections keep the old precision until the same `convolution_mode` is assigned again, `C124_fails_dtype`) and
    returns `None`, so `lens = lens.to(...)` loses the lens (`C124_fails_returns`). The tables of `FlatLambdaCDM` are cut to
    single precision at construction; `to(dtype=float64)` does not bring the digits back (`C124_fails_tables`).
49. As a consequence of 1, `Multiplane.raytrace` is not continuous in the lens redshifts: when a sampler moves the
    last listed lens in front of its neighbour by any amount the call raises, and when two earlier ones change order the ray jumps,
    although the lens equation itself has no discontinuity there (C126). Rebuilding the `Multiplane` with the lenses sorted avoids it.
50. A PSF with an even number of columns or rows, symmetric or not, displaces the simulated image by half a pixel of the
    sampling grid, in both modes: its centre is taken to be the element `k // 2` (C127). Nothing rejects such a PSF or warns.
51. `PseudoJaffe` declares `Rc` and `Rs` valid from 0 up (lenses/pseudo_jaffe.py:161-162), but every
    method divides by `Rs - Rc`, and the central convergence by `Rc * Rs`.  With equal radii no method
    returns a number, and with a radius 0 only `mass_enclosed_2d` does, though all of them have finite
    limits there (C130).

52. `TNFW` declares `mass` valid from 0 up (lenses/tnfw.py:155) and `NFW` declares no range (lenses/nfw.py:162),
    so mass 0 is accepted by both; but at mass 0 an `NFW` lens returns NaN everywhere
    (its scale radius is 0 and the radius is divided by it), and so does a `TNFW` lens with
    `interpret_m_total_mass=False` (its concentration is 0 and the scale density is 0 / 0).  The other
    lenses do nothing at strength 0, and these two tend to nothing as the mass does (C133).

53. `EPL` declares `t` valid up to 2 and both `EPL` and `SIE` declare `q` valid from 0 (lenses/epl.py:196-201,
    lenses/sie.py:124), but `EPL.potential` divides by `2 - t`, and an `SIE` with `q = 0` returns NaN at every
    position (`0 * atanh(1)`), where the deflection tends to 0 and an `EPL` returns 0.  With `angle_system="e1_e2"`
    every ellipticity of length 1 or more is clamped to `q = 0` (C135).

54. `Sersic` declares `q` valid from 0 and `Re` from 0 (light/sersic.py), but with `q = 0` it returns NaN on its major
    axis, and with `Re = 0` and no softening NaN at its centre, where limits exist; an `EnclosedMass` lens with `q = 0`
    returns NaN at every position.  A single NaN makes the whole pixel or `LightStack` NaN (C136).
55. `TNFW` declares `tau` and `Rs` valid from 0 (lenses/tnfw.py:155-157), but each being 0 gives NaN at every position,
    where the deflection tends to that of a point of the same mass (total mass reading) or to 0 (C137).

56. `SinglePlane`, `BatchedPlane` and `Multiplane` point the redshifts of their members at their own
    (lenses/singleplane.py:44-55, lenses/multiplane.py:44-49).  A lens used in two of them follows the last one only, with no
    warning, and the first then evaluates it at a redshift that is not its own.  A `SinglePlane` refused because of a
    `Multiplane` member has already replaced the redshifts of the members before it; a `Multiplane` accepts a `Multiplane`
    and raises only when called (C138).

57. `SinglePlane` and `Multiplane` take a cosmology and so does each of their members; nothing compares or hands them down.
    A `Multiplane` of one isothermal sphere multiplies its deflection by the ratio of `D_ls / D_s` in the two cosmologies;
    a `SinglePlane` reduces an `EnclosedMass`, `NFW`, `TNFW` or `PseudoJaffe` member with the member's distances and
    converts the sum to physical deflections with its own (C140).

58. `interp_bicubic` clamps positions to the frame (utils.py:1233, 1235) and then returns the slopes found there: beyond its
    map a `PixelatedPotential` keeps deflecting by the edge value at any distance although its potential no longer changes,
    and reports the convergence of the edge (C141).
59. A source at the redshift of the lens: `critical_surface_density` is infinite (cosmology/base.py:288) and
    `surface_density` multiplies it by a convergence of zero (lenses/base.py:824); `physical_from_reduced_deflection_angle`
    and `time_delay_arcsec2_to_days` divide by `d_ls` = 0 and then multiply a zero. All three are NaN, though surface
    density, physical deflection and Shapiro delay do not depend on the source. NFW is better off only in the physical
    deflection, which its class computes directly. A lens at `z_l = 0`, the lower end of the declared range
    (lenses/base.py:625), gives NaN or infinities throughout (C146).

## 5. Wrong programs

`seeded/LOG.jsonl` records, for each deliberately wrong edit of the model made in a scratch copy, the
claim it breaks and the theorems that no longer check.  Edits that nothing caught led to the tightened
theorems named in the entry.
