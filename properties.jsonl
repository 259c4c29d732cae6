{"id": "C01", "title": "Intersection of bounds is set intersection", "statement": "A point is included in `a & b` exactly when it is included in both `a` and `b`; disjoint or undefined operands give an undefined result that includes nothing. Holds for BoundsI and BoundsD.", "quantifier": "for all pairs of bounds (including undefined ones) and all points", "why_tests_cant": "The set of rectangle pairs and their relative positions (nested, touching, crossing, disjoint, undefined) is infinite.", "anchors": ["jax_galsim/bounds.py: Bounds.__and__, Bounds.includes, BoundsI.xmax, BoundsD.xmax"]}
{"id": "C02", "title": "Union of bounds is the smallest enclosing bounds", "statement": "`a + b` includes every point of `a` and of `b`, and any bounds including both operands includes `a + b`; adding a position gives the smallest bounds including the old bounds and that position; undefined bounds are the identity.", "quantifier": "for all bounds, positions and candidate enclosing bounds", "why_tests_cant": "Minimality quantifies over every other rectangle.", "anchors": ["jax_galsim/bounds.py: Bounds.__add__, Bounds.includes"]}
{"id": "C03", "title": "BoundsI size, shape, area and centre agree with the set of included pixels", "statement": "For defined integer bounds the number of integer points included is `area()`, equal to the product of `numpyShape()`; xmax-xmin+1 is the x size; the (integer) centre and the true centre lie inside, and the integer centre is the pixel within half a pixel up/right of the true centre.", "quantifier": "for all integer bounds of any size and position", "why_tests_cant": "Counting over arbitrary rectangles; tests use a few sizes and often only one parity.", "anchors": ["jax_galsim/bounds.py: BoundsI._area, BoundsI.numpyShape, BoundsI._center, Bounds.true_center"]}
{"id": "C04", "title": "Shifting and padding bounds move exactly the covered pixels", "statement": "`b.shift(d)` includes p+d iff `b` includes p, shifts compose additively and are undone by the opposite shift; `withBorder(n)` includes exactly the points within n of the bounds, and `withBorder(-n)` undoes it; `expand(f)` with f>=1 contains the original bounds and its size is at least f times the original extent.", "quantifier": "for all bounds, shifts, borders and expansion factors", "why_tests_cant": "Infinite families of sizes/shifts, signs and fractional factors.", "anchors": ["jax_galsim/bounds.py: Bounds.shift, Bounds.withBorder, Bounds.expand"]}
{"id": "C05", "title": "Copying bounds and flattening/unflattening them preserves their meaning", "statement": "`B(b) == b` for every bounds of the same class; converting BoundsI to BoundsD and back is the identity; flatten followed by unflatten gives equal bounds with the same definedness and staticness.", "quantifier": "for all bounds, defined or not, static or traced", "why_tests_cant": "Undefined and degenerate cases are rarely exercised; a round trip must hold for every value.", "anchors": ["jax_galsim/bounds.py: Bounds._parse_args, BoundsI.tree_flatten, BoundsI.tree_unflatten, Bounds.tree_flatten"]}
{"id": "C06", "title": "Equal bounds hash equal", "statement": "Whenever `a == b` for two bounds then `hash(a) == hash(b)`.", "quantifier": "for all pairs of bounds", "why_tests_cant": "Hash/equality contract is a relation on all pairs.", "anchors": ["jax_galsim/bounds.py: Bounds.__eq__, Bounds.__hash__, BoundsI.__eq__, BoundsI.__hash__"]}
{"id": "C07", "title": "Positions form a vector space and integer/float positions agree", "statement": "Position addition, subtraction, negation and scaling satisfy the vector-space laws; combining PositionI and PositionD gives the PositionD of the numerically equal positions; scaling and dividing by a nonzero number are inverse; rounding a position gives the nearest integer position; shearing is linear; pytree round trip is the identity.", "quantifier": "for all positions and scalars", "why_tests_cant": "Algebraic laws over all values and mixed type combinations.", "anchors": ["jax_galsim/position.py: Position.__add__, __sub__, __mul__, __truediv__, shear, round"]}
{"id": "C08", "title": "Angle wrapping lands in the half-open turn around the centre", "statement": "`theta.wrap(center)` lies within half a turn of `center`, differs from `theta` by a whole number of turns, is unchanged if already in range, is idempotent and depends only on theta modulo a turn.", "quantifier": "for all angles and centres", "why_tests_cant": "Real-valued inputs, including those many turns away and exactly on the boundary.", "anchors": ["jax_galsim/angle.py: Angle.wrap, _wrap helper"]}
{"id": "C09", "title": "Angle DMS/HMS strings parse back to the angle they print", "statement": "The string printed by `Angle.dms/hms` with a precision denotes an angle within half a unit of the last printed digit, minutes and seconds printed are always below 60, the sign is right even for angles between -1 and 0 degrees, and parsing the printed string gives back exactly the printed value.", "quantifier": "for all angles, separators and precisions", "why_tests_cant": "Rounding carries (59.9999 -> 60) occur on a measure-small set tests miss.", "anchors": ["jax_galsim/angle.py: _make_dms_string, _parse_dms, Angle.dms, Angle.from_dms"]}
{"id": "C10", "title": "Shear parametrisations are mutually consistent", "statement": "Building a Shear from (g1,g2), (e1,e2), (eta1,eta2) or (q,beta)/(g,beta)/(e,beta)/(eta,beta) and reading back the same quantities returns the inputs on the legal domain; |g|<1 iff |e|<1; q = (1-|g|)/(1+|g|).", "quantifier": "for all legal shears", "why_tests_cant": "Continuum of values, including the switch between series and closed form near zero.", "anchors": ["jax_galsim/shear.py: Shear.__init__, Shear.e1/e2/g1/g2/eta1/eta2/q/beta, _g2e, _e2g, _g2eta, _eta2g"]}
{"id": "C11", "title": "Shear composition matches matrix composition", "statement": "The Shear returned by `s1 + s2` together with the rotation `s1.rotationWith(s2)` reproduces the product of the shear matrices; legal shears are closed under addition; -s is the inverse; adding the zero shear changes nothing; every shear matrix has determinant 1.", "quantifier": "for all pairs of legal shears", "why_tests_cant": "Non-commutative group-like law over a continuum.", "anchors": ["jax_galsim/shear.py: Shear.__add__, __neg__, __sub__, getMatrix, rotationWith"]}
{"id": "C12", "title": "Horner evaluation equals polynomial evaluation", "statement": "`horner(x, coef)` equals sum_k coef[k] x^k and `horner2d(x,y,coefs)` equals sum_ij coefs[i,j] x^i y^j for any coefficient array; with triangle=True the result equals the full sum when the array is upper-left triangular.", "quantifier": "for all coefficient arrays of any size and all points", "why_tests_cant": "Arbitrary orders/shapes.", "anchors": ["jax_galsim/utilities.py: horner, horner2d"]}
{"id": "C13", "title": "Position-argument parsing is unambiguous", "statement": "Every function that takes a position accepts exactly one of: two scalars, a position object, a 2-tuple/list, or the two named keywords, and all spellings of the same numbers give the same coordinates; any other combination raises TypeError instead of silently picking a value.", "quantifier": "for all argument shapes", "why_tests_cant": "Combinatorial space of argument forms.", "anchors": ["jax_galsim/utilities.py: parse_pos_args"]}
{"id": "C14", "title": "Combining GSParams keeps the strictest accuracy", "statement": "Combining any list of GSParams gives a result at least as accurate as each input in every accuracy field, is one of the input values field by field, does not depend on order or grouping, and combining equal params returns the same params.", "quantifier": "for all non-empty lists of GSParams", "why_tests_cant": "Any list length, order and nesting.", "anchors": ["jax_galsim/gsparams.py: GSParams.combine, GSParams.check, GSParams.withParams"]}
{"id": "C15", "title": "Bisection root finding keeps a bracket and converges", "statement": "For any function with a sign change between low and high, the value returned by the bisection helper after n steps is within (high-low)/2^n of a point where a continuous function vanishes.", "quantifier": "for all functions with a strict sign change, all intervals and all iteration counts", "why_tests_cant": "Quantifies over functions; failing cases are when a midpoint is an exact root.", "anchors": ["jax_galsim/core/utils.py: bisect_for_root"]}
{"id": "C16", "title": "Akima interpolation passes through the data", "statement": "The interpolant equals the data value at every knot, is continuous and has a continuous first derivative at interior knots, reproduces straight lines exactly, and is zero outside the table.", "quantifier": "for all strictly increasing knot tables (length >= 5) and values", "why_tests_cant": "All tables; smoothness is a limit property.", "anchors": ["jax_galsim/core/interpolate.py: akima_interp_coeffs, akima_interp"]}
{"id": "C17", "title": "Wrapping an image sums all congruent pixels", "statement": "After `image.wrap(bounds)` each pixel of the wrapped region equals the sum of all original pixels whose coordinates are congruent to it modulo the wrap sizes; total flux is conserved; both internal reduction strategies (row then column, or per pixel) agree.", "quantifier": "for all image sizes, contents and wrap bounds", "why_tests_cant": "All shape/offset combinations including non-multiples and wrap region touching the edge.", "anchors": ["jax_galsim/core/wrap_image.py: wrap_nonhermitian", "jax_galsim/image.py: Image.wrap, Image._wrap"]}
{"id": "C18", "title": "Hermitian wrapping sums congruent modes using conjugate symmetry", "statement": "Wrapping a half-plane (hermitian='x' or 'y') k image gives, at every stored mode, the sum over all modes of the implied full Hermitian image that are congruent to it modulo the wrap size.", "quantifier": "for all half-plane images with symmetric range and all wrap sizes", "why_tests_cant": "All sizes/parities; errors appear only on the symmetric axis.", "anchors": ["jax_galsim/core/wrap_image.py: wrap_hermitian_x, wrap_hermitian_y, expand_hermitian_x, contract_hermitian_x", "jax_galsim/image.py: Image.wrap"]}
{"id": "C19", "title": "Image array shape always matches its bounds", "statement": "Starting from any constructor and applying any sequence of public mutators (resize, shift, setCenter, setOrigin, fill, setValue, addValue, setSubImage, arithmetic, wrap, copyFrom, invertSelf, replaceNegative) the array shape equals bounds.numpyShape(), and operations that raise leave the image unchanged.", "quantifier": "for all sequences of operations", "why_tests_cant": "Unbounded operation histories.", "anchors": ["jax_galsim/image.py: Image.__init__, resize, shift, setCenter, setOrigin, fill, setSubImage, wrap, copyFrom"]}
{"id": "C20", "title": "Pixel reads see the latest write", "statement": "After any sequence of setValue/addValue/fill/setSubImage/setZero calls, getValue(x,y) returns what a simple map from coordinates to values updated by the same calls would return; accesses outside the bounds raise and change nothing; shifting relabels coordinates without changing values.", "quantifier": "for all operation sequences and coordinates", "why_tests_cant": "Unbounded histories (refinement to an abstract map).", "anchors": ["jax_galsim/image.py: getValue, setValue, addValue, fill, setZero, subImage, setSubImage, shift, __getitem__, __setitem__"]}
{"id": "C21", "title": "Image views/copies: sub-images hold exactly the requested pixels", "statement": "For static bounds inside the image, `image.subImage(b)` has bounds b and contains at every pixel of b the pixel of the image; writing it back is the identity; writing an image to b then reading b gives what was written and other pixels are unchanged.", "quantifier": "for all images and included bounds", "why_tests_cant": "All sub-rectangles.", "anchors": ["jax_galsim/image.py: subImage, setSubImage"]}
{"id": "C22", "title": "Constant images reject modification", "statement": "An image made with make_const=True can never change its pixel values through the public API.", "quantifier": "for all sequences of public operations", "why_tests_cant": "Unbounded API histories.", "anchors": ["jax_galsim/image.py: Image.isconst, setValue, addValue, fill, __iadd__, array setter, wrap"]}
{"id": "C23", "title": "Flips, rotations and transpose form the symmetry group of the square", "statement": "transpose, flip_lr, flip_ud, rot_cw, rot_ccw, rot_180 satisfy the dihedral relations, permute pixels without changing the multiset of values, and return fully usable images.", "quantifier": "for all images", "why_tests_cant": "All shapes including non-square; relations hold for every content.", "anchors": ["jax_galsim/image.py: transpose, flip_lr, flip_ud, rot_cw, rot_ccw, rot_180, _Image"]}
{"id": "C24", "title": "PhotonArray bookkeeping of kept photons", "statement": "With a fixed-size photon buffer, setting the number of kept photons n makes the array report n kept photons, photons not kept contribute zero flux, kept ones keep their true flux, and the total flux reported equals the sum over kept photons.", "quantifier": "for all buffer sizes, masks and fluxes", "why_tests_cant": "All masks/histories.", "anchors": ["jax_galsim/photon_array.py: PhotonArray._num_keep, flux, getTotalFlux, setTotalFlux, scaleFlux"]}
{"id": "C25", "title": "Photon convolution adds displacements and multiplies fluxes for the right pairs", "statement": "Convolving two photon arrays pairs kept photons with kept photons, adds positions, makes fluxes f1*f2*N, leaves the second array unchanged, and total flux is the product when the second array's fluxes are uniform.", "quantifier": "for all arrays and masks with equal numbers of kept photons", "why_tests_cant": "All masks (permutation argument).", "anchors": ["jax_galsim/photon_array.py: convolve, _sort_by_nokeep, _set_self_at_inds"]}
{"id": "C26", "title": "Writing photons then reading them back preserves them", "statement": "A photon list written to a file and read back has the same photons with the same fluxes and total flux.", "quantifier": "for all photon arrays including those with masked photons", "why_tests_cant": "Masked arrays are an internal state tests seldom write.", "anchors": ["jax_galsim/photon_array.py: write, read"]}
{"id": "C27", "title": "Assigning photon arrays into a range touches exactly that range", "statement": "`assignAt(i, rhs)`/`copyFrom` with given ranges copies exactly the selected photons, leaves all others unchanged and rejects ranges that do not fit; do_flux/do_xy/do_other select which attributes change.", "quantifier": "for all sizes, ranges and contents", "why_tests_cant": "All index ranges.", "anchors": ["jax_galsim/photon_array.py: assignAt, copyFrom, _copyFrom"]}
{"id": "C28", "title": "Adding photons to an image conserves flux", "statement": "Adding photons to an image deposits each photon inside the bounds in the pixel whose unit square contains it, drops the others, and the added flux reported equals the total flux gained by the image.", "quantifier": "for all photons and images", "why_tests_cant": "Photons exactly on edges, outside, any bounds.", "anchors": ["jax_galsim/photon_array.py: addTo, _add_photons_to_image"]}
{"id": "C29", "title": "Number of photons and flux per photon give the requested flux", "statement": "For every object, flux, gain options and n_photons setting, the number of photons times the mean flux per photon equals the flux to draw; the number is non-negative; with poisson_flux off it is deterministic.", "quantifier": "for all option combinations and fluxes (positive, zero, negative)", "why_tests_cant": "Combinatorial option space with real parameters.", "anchors": ["jax_galsim/core/draw.py: calculate_n_photons"]}
{"id": "C30", "title": "Chunked photon drawing is independent of the chunk size", "statement": "Drawing Ntot photons in chunks of at most maxN draws exactly Ntot photons in total, deposits the same total flux for every maxN and every fixed buffer size, and terminates.", "quantifier": "for all Ntot, maxN>0 and buffer sizes", "why_tests_cant": "Loop over unbounded iteration counts.", "anchors": ["jax_galsim/gsobject.py: drawPhot, _draw_phot_while_loop, _draw_phot_while_loop_shoot"]}
{"id": "C31", "title": "Drawn objects land where requested", "statement": "drawImage places the object's origin at the true centre of the image (or at the given center) plus the given offset, for every image shape (odd/even), with images given, nx/ny given, bounds given or automatically sized.", "quantifier": "for all image shapes, origins, offsets, centres and use_true_center settings", "why_tests_cant": "Parity and half-pixel cases in combination.", "anchors": ["jax_galsim/gsobject.py: _setup_image, _get_new_bounds, _adjust_offset, _parse_offset, _parse_center, drawImage"]}
{"id": "C32", "title": "Drawing FFT grids cover the image", "statement": "The FFT size chosen for drawing is even, at least the image size, within the configured maximum (else an error is raised), and the drawn image's pixels all fall inside the computed real-space grid.", "quantifier": "for all image sizes/positions and FFT-size parameters", "why_tests_cant": "All sizes/offsets.", "anchors": ["jax_galsim/gsobject.py: drawFFT_makeKImage, drawFFT_finish, getGoodImageSize", "jax_galsim/image.py: good_fft_size"]}
{"id": "C33", "title": "Random deviates produce one reproducible stream", "statement": "Generating n values at once equals n single calls; discarding n equals drawing and ignoring n; two deviates built from the same deviate share one stream (values interleave) while duplicates are independent and produce the same future values; reset with the same seed restarts the stream.", "quantifier": "for all interleavings of operations on any number of linked/duplicated deviates", "why_tests_cant": "Unbounded interleavings.", "anchors": ["jax_galsim/random.py: BaseDeviate, _DeviateState.split_one, discard, generate, duplicate, reset, clearCache"]}
{"id": "C34", "title": "permute applies one permutation to all arrays", "statement": "Permuting several equal-length lists applies the same permutation to each, preserving the pairing, and the result is a rearrangement.", "quantifier": "for all lists", "why_tests_cant": "All lengths/contents.", "anchors": ["jax_galsim/random.py: permute"]}
{"id": "C35", "title": "Noise variance bookkeeping is exact", "statement": "withVariance(v).getVariance() == v and withScaledVariance(r).getVariance() == r*getVariance() for every noise type, and addNoiseSNR reaches the requested signal-to-noise with or without preserving flux.", "quantifier": "for all noise parameters and variances", "why_tests_cant": "Continuum of parameters plus gain/sky/read-noise branch combinations.", "anchors": ["jax_galsim/noise.py: GaussianNoise, PoissonNoise, CCDNoise, DeviateNoise, addNoiseSNR"]}
{"id": "C36", "title": "Applying noise consumes fresh randomness", "statement": "Two successive applications of a noise object use disjoint parts of the random stream, so they add different noise; components of one application (Poisson and read noise) are also drawn from disjoint parts.", "quantifier": "for all noise types and histories of applications", "why_tests_cant": "Stream disjointness is a statement about all histories.", "anchors": ["jax_galsim/noise.py: CCDNoise._applyTo, GaussianNoise._applyTo, PoissonNoise._applyTo"]}
{"id": "C37", "title": "WCS image/world round trip", "statement": "toImage(toWorld(p)) == p and toWorld(toImage(q)) == q for every PixelScale, ShearWCS, JacobianWCS, OffsetWCS, OffsetShearWCS and AffineTransform with non-degenerate parameters.", "quantifier": "for all parameters and positions", "why_tests_cant": "Continuum.", "anchors": ["jax_galsim/wcs.py: _x,_y,_u,_v of each class, _posToWorld, _posToImage"]}
{"id": "C38", "title": "Moving a WCS origin shifts its mapping", "statement": "`wcs.shiftOrigin(o, w).toWorld(p + o) == wcs.toWorld(p) + w`; shifts compose; withOrigin on a local WCS places world_origin at origin.", "quantifier": "for all WCS, origins and positions", "why_tests_cant": "Continuum and repeated shifts.", "anchors": ["jax_galsim/wcs.py: EuclideanWCS._shiftOrigin, shiftOrigin, withOrigin, _newOrigin"]}
{"id": "C39", "title": "WCS Jacobian decomposition reconstructs the Jacobian", "statement": "scale, shear, rotation and flip returned by getDecomposition multiply back to the Jacobian; minLinearScale and maxLinearScale are the extreme stretch factors and multiply to the pixel area; the inverse Jacobian composes to the identity.", "quantifier": "for all non-singular Jacobians", "why_tests_cant": "Continuum with flips and degenerate rotations.", "anchors": ["jax_galsim/wcs.py: JacobianWCS.getDecomposition, _minScale, _maxScale, _inverse, _pixelArea"]}
{"id": "C40", "title": "Profiles keep their flux between image and world coordinates", "statement": "profileToWorld and profileToImage are inverse of each other, and convert flux so that the surface brightness per pixel is preserved as documented (flux is unchanged).", "quantifier": "for all profiles and linear WCS", "why_tests_cant": "All profiles and Jacobians.", "anchors": ["jax_galsim/wcs.py: JacobianWCS._profileToWorld, _profileToImage, PixelScale"]}
{"id": "C41", "title": "WCS equality, pytree and header round trips", "statement": "Writing a linear WCS to a FITS header and reading it back gives a WCS with the same mapping; flattening and unflattening gives an equal WCS.", "quantifier": "for all linear WCS", "why_tests_cant": "All parameter values.", "anchors": ["jax_galsim/wcs.py: _writeHeader, _readHeader, tree_flatten, tree_unflatten", "jax_galsim/fitswcs.py: FitsWCS"]}
{"id": "C42", "title": "Transformations compose: nested transforms equal one transform", "statement": "Applying a sequence of shear/rotate/dilate/shift/flux-scaling operations to a profile, which the library collapses into a single transformation, gives the same surface brightness, Fourier value, flux and centroid at every point as applying them one after the other.", "quantifier": "for all profiles, all operation sequences of any length and all evaluation points", "why_tests_cant": "Unbounded nesting.", "anchors": ["jax_galsim/transform.py: Transformation.__init__, _xValue, _kValue, _flux, _centroid", "jax_galsim/gsobject.py: expand, dilate, magnify, shear, rotate, shift, transform"]}
{"id": "C43", "title": "dilate preserves flux, expand preserves surface brightness, shears/rotations preserve both", "statement": "Flux and peak-surface-brightness rules documented for expand/dilate/magnify/lens/shear/rotate/shift/withFlux/withScaledFlux hold.", "quantifier": "for all profiles and parameters", "why_tests_cant": "Continuum.", "anchors": ["jax_galsim/gsobject.py: expand, dilate, magnify, lens, shear, rotate, withFlux, withScaledFlux", "jax_galsim/transform.py: _flux_scaling"]}
{"id": "C44", "title": "Adding profiles adds their values", "statement": "The sum of profiles has surface brightness, Fourier value and flux equal to the sums, is insensitive to how sums are nested, has flux-weighted centroid, maxk the maximum and stepk the minimum of the components.", "quantifier": "for all expression trees of sums and transforms", "why_tests_cant": "Unbounded trees.", "anchors": ["jax_galsim/sum.py: Sum.__init__, _flux, _xValue, _kValue, _centroid, _maxk, _stepk", "jax_galsim/gsobject.py: __add__, __sub__, __mul__, __neg__"]}
{"id": "C45", "title": "Convolving profiles multiplies Fourier values", "statement": "The convolution of profiles has flux the product, Fourier value the product at every k (also when evaluated on arrays of positions), centroid the sum, stepk/maxk combined rules; and is insensitive to nesting.", "quantifier": "for all lists of profiles, nesting and k positions", "why_tests_cant": "Unbounded lists, array-valued evaluation points.", "anchors": ["jax_galsim/convolve.py: Convolution._flux, _kValue, _centroid, _maxk, _stepk"]}
{"id": "C46", "title": "Deconvolution inverts convolution where the profile is resolvable", "statement": "Convolving a profile with its deconvolution gives Fourier value 1 wherever |kValue| is above the accuracy threshold and k is within maxk; drawing it in k space agrees with kValue point by point; flux is the reciprocal.", "quantifier": "for all profiles and k", "why_tests_cant": "Continuum and threshold boundary.", "anchors": ["jax_galsim/convolve.py: Deconvolution._kValue, _drawKImage, _flux"]}
{"id": "C47", "title": "Positive and negative flux are consistent with total flux", "statement": "For every profile built from sums, convolutions and flux scalings, positive_flux >= 0, negative_flux >= 0 and positive_flux - negative_flux equals flux.", "quantifier": "for all profile expression trees and flux scalings of any sign", "why_tests_cant": "Unbounded trees with negative scalings.", "anchors": ["jax_galsim/gsobject.py: positive_flux, negative_flux", "jax_galsim/transform.py: _positive_flux", "jax_galsim/sum.py: _positive_flux", "jax_galsim/convolve.py: _calc_pn"]}
{"id": "C48", "title": "Drawing in real space samples the profile", "statement": "Drawing without convolution assigns each pixel the profile's surface brightness at the pixel centre (after Jacobian and offset) times pixel area and flux scaling; drawing a transformed profile equals sampling the transformed surface brightness.", "quantifier": "for all profiles, Jacobians, offsets and pixels", "why_tests_cant": "All combos of jac/offset.", "anchors": ["jax_galsim/core/draw.py: draw_by_xValue, draw_by_kValue", "jax_galsim/transform.py: _drawReal, _drawKImage"]}
{"id": "C49", "title": "Celestial distance is the great-circle angle", "statement": "distanceTo is symmetric, zero iff the points coincide, within [0, pi], satisfies cos(distance) = dot product of unit vectors, and is invariant under precession / change of coordinate system.", "quantifier": "for all pairs of points on the sphere", "why_tests_cant": "Continuum, including the near-antipodal branch.", "anchors": ["jax_galsim/celestial.py: distanceTo, _raw_dsq, _raw_cross, precess, galactic, ecliptic"]}
{"id": "C50", "title": "Tangent-plane projections invert", "statement": "deproject(project(p)) is p for every point in the valid hemisphere/domain, for the gnomonic, stereographic, lambert and postel projections.", "quantifier": "for all centres and points", "why_tests_cant": "Continuum.", "anchors": ["jax_galsim/celestial.py: _project, _deproject"]}
{"id": "C51", "title": "Galactic/ecliptic/precession coordinate changes are rotations with exact inverses", "statement": "from_galactic(galactic(p)) is p, from_ecliptic(ecliptic(p)) is p, precession matrices are orthogonal with determinant 1 and precessing from an epoch to itself is the identity.", "quantifier": "for all points and epochs", "why_tests_cant": "Continuum of epochs.", "anchors": ["jax_galsim/celestial.py: galactic, from_galactic, ecliptic, from_ecliptic, _precess_kern"]}
{"id": "C52", "title": "Writing images never alters them, whatever fails", "statement": "After fits.write/writeMulti/writeCube return or raise at any point, every jax_galsim image passed in has the same class and the same array object as before, even if an image occurs several times in the list.", "quantifier": "for all lists of images and all crash points", "why_tests_cant": "Crash points and aliasing.", "anchors": ["jax_galsim/fits.py: _image_as_numpy, write, writeMulti, writeCube"]}
{"id": "C53", "title": "Interpolants interpolate", "statement": "Each interpolation kernel is 1 at 0 and 0 at other integers, is even, vanishes outside its range, reproduces constants (weights sum to 1 at every sub-pixel position) and the documented polynomial degree; positive_flux - negative_flux = 1.", "quantifier": "for all real sub-pixel positions", "why_tests_cant": "Continuum of positions.", "anchors": ["jax_galsim/interpolant.py: Nearest, Linear, Cubic, Quintic, Lanczos"]}
{"id": "C54", "title": "InterpolatedImage evaluates the full kernel sum", "statement": "The value of an InterpolatedImage at any point equals the sum over all image pixels of pixel value times kernel weights, i.e. no pixel within the kernel's range is missed; at pixel centres it equals the pixel value.", "quantifier": "for all images, kernels and points", "why_tests_cant": "Continuum of points; windows at edges.", "anchors": ["jax_galsim/interpolatedimage.py: _draw_with_interpolant_xval, _interp_weight_1d_xval", "jax_galsim/interpolant.py: ixrange"]}
{"id": "C55", "title": "k-space interpolation uses a consistent Hermitian periodic image", "statement": "When interpolating the half-stored k image, the pixel fetched for every (ky,kx) index is the value of one full periodic image that satisfies f(-k) = conj f(k).", "quantifier": "for all even sizes and all integer index pairs", "why_tests_cant": "All index wraparound cases.", "anchors": ["jax_galsim/interpolatedimage.py: _draw_with_interpolant_kval, _interp_weight_1d_kval"]}
{"id": "C56", "title": "Padding keeps the image in place", "statement": "The zero-padded working image of an InterpolatedImage has the original pixels at the same coordinates, zeros elsewhere and the same total flux.", "quantifier": "for all image shapes and pad factors", "why_tests_cant": "All parities.", "anchors": ["jax_galsim/interpolatedimage.py: _xim, _zeropad_image"]}
{"id": "C57", "title": "Flux-enclosing size used for folding is correct", "statement": "The radius returned for the requested flux fraction is the smallest half-width whose centred square contains at least that flux.", "quantifier": "for all images and thresholds", "why_tests_cant": "Images where no square reaches the threshold are rare.", "anchors": ["jax_galsim/interpolatedimage.py: _calculate_size_containing_flux, _flux_frac"]}
{"id": "C58", "title": "TanWCS realises the affine transformation it is given", "statement": "TanWCS(affine, world_origin) maps an image position to the tangent-plane position affine.toWorld(position), deprojected about world_origin.", "quantifier": "for all affine transforms and positions", "why_tests_cant": "Sign conventions matter only when a seldom-used parameter (affine world_origin) is non-zero.", "anchors": ["jax_galsim/fitswcs.py: TanWCS, GSFitsWCS._uv"]}
{"id": "C59", "title": "FITS distortion tables keep all their terms", "statement": "Reading a TPV header keeps every non-zero coefficient at the right power; writing and re-reading gives the same distortion polynomials; TNX Chebyshev/Legendre tables are converted to the polynomial they denote; SIP tables round trip.", "quantifier": "for all orders and coefficient sets", "why_tests_cant": "Depends on which coefficient is the last non-zero one.", "anchors": ["jax_galsim/fitswcs.py: _read_tpv, _writeHeader, _read_sip, _parse_tnx_data"]}
{"id": "C60", "title": "Newton inversion of distortion polynomials is sound", "statement": "If the iteration reports no further movement the returned pixel position maps exactly to the requested plane position; derivative tables used are the true partial derivatives of the polynomial.", "quantifier": "for all distortion tables", "why_tests_cant": "All coefficient sets.", "anchors": ["jax_galsim/fitswcs.py: _invert_ab_noraise"]}
{"id": "C61", "title": "Profile size parametrisations agree", "statement": "A Moffat (or Gaussian/Exponential/Spergel) built from fwhm, half_light_radius or scale_radius reports back that value; giving two sizes or none raises; for the Moffat, the surface brightness at fwhm/2 is half the peak and half the analytic flux is inside half_light_radius.", "quantifier": "for all sizes and shape parameters", "why_tests_cant": "Continuum and argument combinations.", "anchors": ["jax_galsim/moffat.py: Moffat.__init__, fwhm, half_light_radius", "jax_galsim/gaussian.py", "jax_galsim/exponential.py", "jax_galsim/spergel.py"]}
{"id": "C62", "title": "Fourier value at zero is the flux", "statement": "kValue(0,0) equals flux for every elementary profile and every tree of sums, convolutions and transformations of them.", "quantifier": "for all profile expression trees", "why_tests_cant": "Unbounded trees.", "anchors": ["jax_galsim/gaussian.py: _kValue", "jax_galsim/exponential.py: _kValue", "jax_galsim/box.py: _kValue", "jax_galsim/transform.py: _kValue", "jax_galsim/sum.py: _kValue", "jax_galsim/convolve.py: _kValue"]}
{"id": "C63", "title": "Photon sampling CDFs are valid", "statement": "The cumulative distributions used for photon shooting start at 0, end at 1 and never decrease, so inverse sampling returns radii in range.", "quantifier": "for all parameters and radii", "why_tests_cant": "Continuum.", "anchors": ["jax_galsim/exponential.py: _shoot_cdf", "jax_galsim/spergel.py: _shoot_neg_cdf", "jax_galsim/moffat.py: _shoot"]}
{"id": "C64", "title": "Objects survive flattening and unflattening", "statement": "For every profile, noise, deviate and image type, unflattening the flattened object gives an equal object (needed for jit, vmap, grad and lax control flow).", "quantifier": "for all objects, including optional fields set in any combination", "why_tests_cant": "All combinations of optional attributes.", "anchors": ["jax_galsim/gsobject.py: tree_flatten", "jax_galsim/image.py: tree_flatten, tree_unflatten", "jax_galsim/noise.py: tree_unflatten", "jax_galsim/random.py: tree_unflatten"]}
{"id": "C65", "title": "Akima interpolation has no preferred direction", "statement": "Reversing the order of a table (negating the knots and reversing the values) gives the mirrored interpolant: the value at -t of the reversed table equals the value at t of the original.", "quantifier": "for all strictly increasing knot tables and values, and all points", "why_tests_cant": "Fails only at the table ends and only for data that are not locally linear there; interior tests look symmetric.", "anchors": ["jax_galsim/core/interpolate.py: akima_interp_coeffs, akima_interp"]}
{"id": "C66", "title": "Photons made from an image reproduce the image", "statement": "`PhotonArray.makeFromImage` makes photons of at most max_flux each, all inside the image's pixels, such that adding them to an empty image of the same bounds gives back every pixel value and reports the image's total; a non-positive max_flux is refused.", "quantifier": "for all images with defined bounds, all max_flux and all uniform deviates in [0,1)", "why_tests_cant": "All pixel values, shapes and random draws.", "anchors": ["jax_galsim/photon_array.py: makeFromImage, addTo, _add_photons_to_image"]}
{"id": "C67", "title": "Band limit and folding radius stay valid for composed profiles", "statement": "If each concrete profile's Fourier values are below a fraction eps of its absolute flux beyond its maxk, the same holds for every tree of sums, convolutions and transformations beyond the maxk the library computes; pi/stepk of a transformed profile reaches the image of every point within the original's pi/stepk; the stretch factors used are the extreme singular values of the Jacobian.", "quantifier": "for all profile expression trees, Jacobians, offsets and wave vectors", "why_tests_cant": "Tests compare maxk/stepk with reference values for a few transformations; that the combination rules are always conservative is a statement about all trees and all k.", "anchors": ["jax_galsim/transform.py:16-21", "jax_galsim/transform.py:287-302", "jax_galsim/sum.py:114-122", "jax_galsim/convolve.py:201-214"]}
{"id": "C68", "title": "jac_deproject is the derivative of deproject", "statement": "For every projection, centre and plane position not deprojecting to a pole, the columns of jac_deproject are the west and north components of the velocity of the deprojected point as u, respectively v, varies.", "quantifier": "for all projections, centres and plane positions", "why_tests_cant": "Derivative on a continuum, including the removable singularity at the centre of the postel projection.", "anchors": ["jax_galsim/celestial.py: _jac_deproject, _deproject"]}
{"id": "C69", "title": "Angles and areas of spherical triangles", "statement": "angleBetween satisfies the spherical laws of cosines and sines with the sign of the orientation; area is the spherical excess (sum of the interior angles less pi), whatever the order of the vertices.", "quantifier": "for all triples of points", "why_tests_cant": "Continuum, including degenerate and large triangles.", "anchors": ["jax_galsim/celestial.py: angleBetween, area, _triple, _alt_triple"]}
{"id": "C70", "title": "greatCirclePoint walks the great circle", "statement": "greatCirclePoint(q, theta) is in the plane of the two points, at distance theta from the first, towards the second, and is the second for theta equal to their distance; it fails exactly when the two points are equal or antipodal.", "quantifier": "for all pairs of points and angles", "why_tests_cant": "Continuum.", "anchors": ["jax_galsim/celestial.py: greatCirclePoint"]}
{"id": "C71", "title": "Interpolant tables and k-space formulae describe the real-space kernel", "statement": "kval of Nearest, Linear, Cubic and Quintic is the exact Fourier transform of xval at every frequency; the tabulated unit_integrals are the integrals of the kernel over pixels up to rounding; the kernels integrate to 1 and Cubic's positive and negative fluxes are the integrals of its positive and negative parts.", "quantifier": "for all real frequencies and all table entries", "why_tests_cant": "Continuum of frequencies; a numerically integrated table looks right at test tolerances.", "anchors": ["jax_galsim/interpolant.py: Nearest._uval, Linear._uval, Cubic._uval, Quintic._uval, _unit_integrals, _positive_flux"]}
{"id": "C72", "title": "Image Fourier transforms are the Fourier sum of the pixels and invert each other", "statement": "For every real image with defined bounds and every pixel scale dx, calculate_fft succeeds and returns, at the stored mode (i, j), dx^2 times the Fourier sum of the pixels at their own coordinates at the wave vector (i dk, j dk), with N dk dx = 2 pi; calculate_inverse_fft of the stored half of a Hermitian periodic k image is the normalised inverse sum over a full period of modes; and the inverse transform of the transform is the image again at the same coordinates and scale, with zeros outside its bounds.", "quantifier": "all image shapes, origins (also bounds not containing the origin), pixel values and pixel scales", "why_tests_cant": "The existing tests transform a few images; the shifts, the half-plane storage and the zero padding can be wrong only for particular origins or parities of the size.", "anchors": ["jax_galsim/image.py:834-956"]}
{"id": "C73", "title": "An image drawn with an FFT is the full inverse Fourier sum of the profile", "statement": "For every Hermitian k-value function, wrap size and (possibly larger) k-image size, the image made by drawFFT_finish has at pixel (x, y) the inverse Fourier sum over all the modes the profile was evaluated at, including those folded by the wrapping; its pixels add up to the sum of the k values at multiples of the period, which is the value at k = 0 when nothing is aliased onto it.", "quantifier": "all k-value functions, all wrap sizes and k-image sizes at least as large, all pixels", "why_tests_cant": "Tests compare drawn images with reference images to a few decimals, where errors in the N/2 row and column, or in the folding of high modes, are invisible for smooth profiles.", "anchors": ["jax_galsim/gsobject.py:865-970", "jax_galsim/core/wrap_image.py"]}
{"id": "C74", "title": "The local Jacobian of a FITS WCS is the derivative of its map to the sky", "statement": "For every FITS WCS whose distortion tables follow their conventions (no coefficient beyond the order) and every image position not mapped to a pole, GSFitsWCS._local evaluates the same tangent plane position as _uv, its plane matrix holds the partial derivatives of _uv, and the JacobianWCS it returns gives, in arcsec, the west and north components of the velocity of the sky position along every differentiable curve of image positions.", "quantifier": "for all WCS types, distortion tables, positions and curves", "why_tests_cant": "Chain rule over arbitrary polynomials and projections on a continuum.", "anchors": ["jax_galsim/fitswcs.py: GSFitsWCS._local, _uv, _radec", "jax_galsim/celestial.py: _jac_deproject"]}
{"id": "C75", "title": "FITS world coordinates round trip through the sky and through headers", "statement": "Without distortions toImage and toWorld are inverse for every projection; _newOrigin shifts positions, Jacobians and inverses; a header is read as the FITS standard prescribes (axis order, CD or CDELT with optional PC, units, reference point); writing and reading a header gives the same map; simplifying a linear WCS keeps its map.", "quantifier": "for all WCS types, headers and positions", "why_tests_cant": "Depends on combinations of header keys and orders of the axes.", "anchors": ["jax_galsim/fitswcs.py: GSFitsWCS._xy, _radec, _newOrigin, _read_header, _writeHeader, FitsWCS"]}
{"id": "C76", "title": "The Fourier values of profiles are the Fourier transforms of their surface brightness", "statement": "For Gaussian, exponential and box profiles kValue is the Fourier transform of xValue (up to the 1e-15 rounding of the constant 1/2pi); for Spergel profiles of any index above -1 it is the transform of the analytic profile that xValue follows outside 1e-10 scale radii; for Moffat profiles it is so at every frequency up to the flux beyond the cutoff and an explicit error of the table of 700 frequencies and of the expansion beyond it; and every tree of transformations, sums and convolutions of such profiles keeps this property, with the surface brightness of a transformation that of the mapped coordinates, of a sum the sum, and of a convolution the convolution integral.", "quantifier": "for all parameters, frequencies, and finite trees of profiles", "why_tests_cant": "An identity between an integral over the plane and a closed form on a continuum of frequencies, for arbitrarily nested trees.", "anchors": ["jax_galsim/gaussian.py: _xValue, _kValue", "jax_galsim/exponential.py: _xValue, _kValue", "jax_galsim/box.py: _xValue, _kValue", "jax_galsim/spergel.py: _xValue, _kValue", "jax_galsim/moffat.py: _xValue, _kValue", "jax_galsim/transform.py:265-355", "jax_galsim/sum.py:155-161", "jax_galsim/convolve.py:294-298"]}
{"id": "C77", "title": "maxk and stepk of the elementary profiles keep their promises", "statement": "For Gaussian, exponential, Spergel and box profiles the Fourier value is at most maxk_threshold of the flux at every frequency from maxk on (exactly that fraction at maxk for Gaussian and Spergel), hence so it is for every tree of transformations, sums and convolutions of them; the flux of Gaussian, exponential, Moffat and box profiles outside the radius pi/stepk is at most folding_threshold of the total; that radius is at least stepk_minimum_hlr half-light radii.", "quantifier": "for all sizes, thresholds, frequencies in all directions, and trees", "why_tests_cant": "A bound over an unbounded set of frequencies and an integral over an unbounded region, for a continuum of thresholds.", "anchors": ["jax_galsim/gaussian.py:115-124", "jax_galsim/exponential.py:100-124", "jax_galsim/spergel.py:394-406", "jax_galsim/box.py:69-75", "jax_galsim/moffat.py:262-305"]}
{"id": "C78", "title": "Photons are distributed like the light of the profile", "statement": "The mean of any bounded measurable quantity over the photons shot from a Gaussian, Moffat or box profile of unit flux equals its integral against the surface brightness (for the Gaussian up to the rounded constant 1/(2 pi), for the Moffat against the untruncated profile); photon radii of an exponential profile enclose the fraction of light given by the deviate up to the cell width of the table; photons of exponential, Moffat and Spergel profiles with a given radius are spread uniformly over the circle of that radius.", "quantifier": "for all profile parameters and all bounded measurable test functions", "why_tests_cant": "Equality of two probability distributions on the plane; samples only show closeness within statistical error.", "anchors": ["jax_galsim/gaussian.py:150-157", "jax_galsim/moffat.py:412-432", "jax_galsim/box.py:101-107", "jax_galsim/exponential.py:155-170", "jax_galsim/spergel.py:514-522"]}
{"id": "C79", "title": "Photons of transformed, summed and convolved profiles are distributed like their light", "statement": "For every tree of transformations, sums and convolutions of profiles whose photons are distributed like their light, the expected flux of its photons falling in any region (such as a pixel) is the integral of its surface brightness over the region; the probabilities with which a sum picks the component of a photon are positive and add up to one.", "quantifier": "for all trees of any depth and width, regions and parameters", "why_tests_cant": "Equality of distributions over arbitrary nested objects; tests only compare a few noisy images.", "anchors": ["jax_galsim/transform.py:394-400", "jax_galsim/sum.py:191-240", "jax_galsim/convolve.py:303-313", "jax_galsim/photon_array.py:664-815"]}
{"id": "C80", "title": "drawKImage samples the Fourier transform on the requested grid, up to maxk", "statement": "Whatever its arguments, a k-image returned by drawKImage holds at each pixel the Fourier value of the profile at dk times the pixel coordinates (added to the old value with add_to_image), carries dk as pixel scale, has the requested size and is centred on the origin unless recenter=False, where dk is the scale given, or that of the image given, or stepk; a k-image made without a size is a square of odd size centred on the origin that reaches maxk; when the call raises the image passed in is as before.", "quantifier": "for all profiles, images, sizes, scales and flags", "why_tests_cant": "Tests draw a few k-images with default arguments; the combinations of image, bounds, scale, recenter and add_to_image, and the state of the image after an exception, are not enumerated.", "anchors": ["jax_galsim/gsobject.py:985-1088", "jax_galsim/image.py:409-430"]}
{"id": "C81", "title": "drawImage puts the light of the object into the right pixels", "statement": "Whatever its arguments (other than photon shooting), an image returned by drawImage is the image passed in, has the wcs and the rectangle asked for, and every pixel holds, on top of its old value with add_to_image, the surface brightness of the object at the world position of the pixel relative to that of the object times the pixel area and area*exptime/gain (method no_pixel, sb: without the area), or, when drawn by FFT, the inverse Fourier sum of the object's Fourier values times those of the pixel over a grid that covers the image and reaches maxk; added_flux is the sum of what was added in units of the flux.", "quantifier": "for all objects, uniform wcs, images, sizes, offsets, centres and flags", "why_tests_cant": "The composition of wcs, offset, centring, flux scaling and drawing code over all argument combinations is infinite; tests compare a few rendered images with a tolerance.", "anchors": ["jax_galsim/gsobject.py:533-820", "jax_galsim/gsobject.py:823-982"]}
{"id": "C82", "title": "drawImage rejects wrong arguments and then leaves the image alone", "statement": "drawImage checks its arguments completely before doing anything; arguments that do not make sense together are rejected without a change to the image passed in, and when drawImage raises later the image passed in is as before.", "quantifier": "for all argument combinations and images", "why_tests_cant": "Tests check that exceptions are raised, not what the image looks like afterwards, for a handful of combinations.", "anchors": ["jax_galsim/gsobject.py:533-571", "jax_galsim/gsobject.py:619-820"]}
{"id": "C83", "title": "Drawing with photons puts every photon into its pixel and is right on average", "statement": "drawPhot adds every one of its photons, with flux g*weight/(gain*N), to the pixel in whose square it falls and to no other, whatever the sizes of the arrays in which the photons are shot; it reports the sum of what it added. drawImage with method phot returns the image asked for, and the average of each pixel over the photons is the old pixel plus the object's light in the pixel, the object being at the requested position, times area*exptime/gain and g (1 for a requested number of photons without Poisson variation); added_flux is the flux added.", "quantifier": "for all trees of Gaussian, box and Moffat profiles, photons, images, wcs, sizes, numbers of photons and chunk sizes", "why_tests_cant": "Photon shooting is random; tests compare moments of a few seeds with wide tolerances and cannot distinguish a systematic error below the noise.", "anchors": ["jax_galsim/gsobject.py:1098-1181", "jax_galsim/gsobject.py:1197-1325", "jax_galsim/gsobject.py:1405-1546", "jax_galsim/gsobject.py:574-820"]}
{"id": "C84", "title": "Moments and shape of an image are those of its light", "statement": "unweighted_moments(image, origin) returns the total light M0, the mean position (seen from `origin`) and the second moments about the mean position of the light of the image, where a pixel is a mass at its coordinates; they are finite exactly when the total is not zero. A different origin changes only Mx and My. Shifting, transposing, flipping and turning the image move the centroid along and transform the second moments as A Q A^T; a brightness factor changes only M0; the moments of a sum of images are those of the combined light. For images without negative pixels the centroid lies in the image, the matrix of second moments is positive semi-definite and the shape (e1, e2) has length at most 1; for an ellipse with axes a, b at angle beta the shape is (a^2-b^2)/(a^2+b^2) (cos 2 beta, sin 2 beta).", "quantifier": "every image with defined bounds and matching array, every origin of either position class, every shift, every symmetry of the square, every brightness factor, all pairs of images", "why_tests_cant": "The tests compare the moments of one FFT image and one photon image with each other to a loose tolerance; a wrong offset, a swapped axis that is symmetric in the test image, or second moments taken about the wrong point would pass.", "anchors": ["jax_galsim/utilities.py:110-140", "jax_galsim/image.py:1052-1053", "jax_galsim/bounds.py:163-164", "jax_galsim/image.py:1201-1240"]}
{"id": "C85", "title": "The Clenshaw-Curtis quadrature is exact for polynomials and converges for continuous functions", "statement": "abs_weights(n) fails for n < 2 and otherwise returns n points increasing from -1 to 1 and n positive weights whose sum over a function is its integral over [-1, 1] for every polynomial of degree less than n. ClenshawCurtisQuad.init(order) fails for order 0; for order >= 1 quad_integral(f, a, b, quad) is the integral of f over [a, b] for every polynomial of degree at most 2 order + 1, is within 2 eps |b - a| of the integral when f is within eps of such a polynomial, and converges to the integral of every continuous f as the order grows. The error weights are the difference between the rule and the one with every second point (for [-1, 1], not rescaled to [0, 1]) and vanish on polynomials of degree at most order.", "quantifier": "every number of points, every order, every polynomial within the degree, every interval (also reversed or empty), every continuous function and tolerance", "why_tests_cant": "No test of the repository integrates with this rule at more than a few orders; the weights come from an inverse FFT of a hand-written vector, where a wrong entry for odd n or at the middle would only show at orders that are not tried.", "anchors": ["jax_galsim/core/integrate.py:8-35", "jax_galsim/core/integrate.py:38-71", "jax_galsim/core/integrate.py:74-83"]}
{"id": "C86", "title": "Profiles are equal exactly when they describe the same thing, and equal profiles hash equal", "statement": "p == q for profiles is true exactly if both have the same class, the same parameter values and the same settings (accuracy parameters, propagation, real-space flag), down to their components, however the numbers are represented (Python, numpy or 0-dimensional jax arrays); it is an equivalence relation and never raises. Profiles and local WCSs that compare equal have equal hashes.", "quantifier": "every pair of profiles of the seven elementary classes, sums, convolutions, deconvolutions and transformations nested to any depth, all parameter values and number types, every object identity relation", "why_tests_cant": "The tests compare a fixed list of objects with hand-made variants; the hash contract has to hold for every pair of representations of equal numbers at every depth, which the tests never mix.", "anchors": ["jax_galsim/core/utils.py:80-162", "jax_galsim/gsobject.py:199-203", "jax_galsim/gsparams.py:140-156", "jax_galsim/sum.py:93-101", "jax_galsim/convolve.py:164-182", "jax_galsim/convolve.py:405-421", "jax_galsim/transform.py:160-183", "jax_galsim/box.py:40-49", "jax_galsim/moffat.py:215-225", "jax_galsim/wcs.py:954-963", "jax_galsim/wcs.py:1283-1301"]}
{"id": "C87", "title": "An InterpolatedImage shows the image in world coordinates", "statement": "The brightness of an InterpolatedImage at a world position is the interpolated value of the given pixels at the corresponding image position (relative to the requested reference point: true or nominal centre plus offset), divided by the area of a pixel and scaled to the requested flux. So it reproduces the pixels at their positions, its integral over the plane is its flux, its centroid is the mean position of its light, maxk and stepk cover what the interpolated image contains, drawing it in real space puts its brightness into the pixels, the constructor accepts exactly the documented arguments and takes the coordinate system from scale, wcs or image in that order, and objects that compare equal show the same light and hash equal.", "quantifier": "every image with consistent bounds and non-zero sum, every interpolant, every invertible local coordinate system, every flux, normalization, offset and pad factor, every world position", "why_tests_cant": "The tests compare values with GalSim for a few images with square pixels at a few positions; the claim relates the value at every real position to all pixels for every coordinate system and centre convention.", "anchors": ["jax_galsim/interpolatedimage.py:47-254", "jax_galsim/interpolatedimage.py:256-341", "jax_galsim/interpolatedimage.py:343-420", "jax_galsim/interpolatedimage.py:420-700", "jax_galsim/transform.py:200-360"]}
{"id": "C88", "title": "The Fourier values of an InterpolatedImage are the transform of its brightness", "statement": "kValue(k) of an InterpolatedImage is the Fourier transform of its brightness xValue at the wave vector k: it equals the flux at the origin, and values set to zero beyond the range of the interpolant are smaller than kvalue_accuracy times the flux.", "quantifier": "every image with consistent bounds and non-zero sum, every invertible local coordinate system, every flux, offset and pad factor, every wave vector", "why_tests_cant": "The tests compare a few values with GalSim, which uses the same formulas; that a finite sum over padded modes, folded, interpolated and rescaled by the coordinate system is the integral of the brightness over the plane is a statement about integrals.", "anchors": ["jax_galsim/interpolatedimage.py:698-700", "jax_galsim/interpolatedimage.py:769-782", "jax_galsim/interpolatedimage.py:1050-1088", "jax_galsim/transform.py:273-285", "jax_galsim/transform.py:353-355", "jax_galsim/interpolant.py:476-478", "jax_galsim/interpolant.py:541-549", "jax_galsim/interpolant.py:635-644"]}
{"id": "C89", "title": "The photons of an InterpolatedImage follow its brightness", "statement": "The photons that shoot draws from an InterpolatedImage are, on average, distributed as the brightness xValue: for every bounded test function the mean of the sum of flux times test function over the photons is the integral of the brightness times the test function, and in particular the expected total flux is the flux of the object.", "quantifier": "every image with consistent bounds and non-zero sum, every invertible local coordinate system, every flux, offset, pad factor and normalisation, every interpolant, every bounded measurable test function", "why_tests_cant": "The tests histogram a finite random sample of a few images and compare within statistical errors; they cannot see a bias that depends on the sign of the pixels or an error of the tabulated distribution of the kernel smaller than the noise.", "anchors": ["jax_galsim/interpolatedimage.py:849-933", "jax_galsim/interpolant.py:228-264", "jax_galsim/interpolant.py:314-319", "jax_galsim/interpolant.py:359-363", "jax_galsim/interpolant.py:490-494", "jax_galsim/transform.py:332-338", "jax_galsim/transform.py:395-400", "jax_galsim/gsobject.py:133-139"]}
{"id": "C90", "title": "The Fourier range an InterpolatedImage finds from its pixels follows its light", "statement": "With calculate_maxk, the largest wave number of an InterpolatedImage is the first one from which on no Fourier mode of the light of the image is above maxk_threshold times its total light in five rings of modes in a row, limited by the range of the kernel or by the given number; with calculate_stepk, pi/stepk combines in quadrature the radius of the kernel with the half-width of the smallest tried square around the central pixel that holds all but folding_threshold of the light. Without the calculations the kernel's range and half of the image size are used.", "quantifier": "All images with light, sizes, pad factors, thresholds, kernels and limits (working size below 100000).", "why_tests_cant": "The scan counts pixels of a Hermitian half-array with a running sum over five columns; whether it stops at the right ring, also at the first and the last column and for modes that are only present by symmetry, depends on every mode and on the size of the image, which tests sample at a few smooth galaxies.", "anchors": ["jax_galsim/interpolatedimage.py:703-752", "jax_galsim/interpolatedimage.py:1198-1217", "jax_galsim/interpolatedimage.py:1246-1322", "jax_galsim/interpolant.py:215-218"]}
{"id": "C91", "title": "Sky images and local systems of any coordinate system give the area of each pixel", "statement": "For any EuclideanWCS the local system at a point is the matrix of half differences of the world positions one pixel away, which differs from the true derivatives by at most a sixth of a bound of the third derivatives, and affine() touches the map there with the same half differences. The sky image holds in each pixel the sky level times the pixel area of the local system at its centre, rounded for integer images, and leaves the bounds alone; uniform systems give the same formula, and for celestial systems the area is that on the sky in square arc seconds whatever full-turn jumps the right ascension makes.", "quantifier": "All functions u, v or ra, dec, all origins, images with defined bounds, sky levels and points.", "why_tests_cant": "The sky image differences a padded grid by array slices; an offset by one row or column, a swapped axis or a wrong treatment of the jump of right ascension is invisible for the linear or smooth systems and square images tests use.", "anchors": ["jax_galsim/wcs.py:166-182", "jax_galsim/wcs.py:401-404", "jax_galsim/wcs.py:492-555", "jax_galsim/wcs.py:596-597", "jax_galsim/wcs.py:725-799"]}
{"id": "C92", "title": "Arithmetic of integer images is exact modulo the size of the pixel type", "statement": "For images of uint16, uint32, int16 and int32 pixels and operands that are images of any of these types or Python integers: every pixel of a result of +, -, *, //, %, &, |, ^ is the number of the result type congruent to the exact result modulo 2^bits, whatever type the operation is computed in; in-place forms keep type, bounds and mutability, binary forms give a new mutable image at the same place; any sequence of in-place sums, differences and products stores the exact result; += then -=, and ^= twice, restore the image; (a//b)*b + a%b = a; -a stores the negative; /= stores the nearest integer; operands of different shape are refused and change nothing. A power with a non-negative integer exponent stores the exact power, equal to that of repeated products, and one with a float exponent its rounding.", "quantifier": "All pixel types, shapes, pixel values, operands, sequences of operations.", "why_tests_cant": "Overflow, sign and promotion interact per pair of types; the 4x4 pairs times 8 operations times boundary values are not enumerable by example images, and in-place forms branch on type equality.", "anchors": ["jax_galsim/image.py:35-58", "jax_galsim/image.py:147-171", "jax_galsim/image.py:271-304", "jax_galsim/image.py:1445-1792", "jax_galsim/image.py:1658-1674"]}
{"id": "C93", "title": "The Bessel function kv approximates K_nu with a stated relative error, and its gradient is the derivative", "statement": "The Chebyshev tables give the Gamma-function coefficients with error at most 9e-16, and Temme's series with these tables, as its loop stops it, gives K_u and K_{u+1} for |u| <= 1/2 and 0 < x <= 2 with relative error at most 36 times the tolerance plus 5.2e-12; Steed's continued fraction converges to them for every x > 0 and, as its loop stops it, gives them for x > 2 with relative error at most 1100 times the tolerance; Olver's expansion with the table of the code has relative error at most 1e-16 for every order from 50; the recurrence over the order does not increase the relative error, so kv has relative error at most 1100 times the tolerance plus 5.2e-12 for every order and every positive argument (up to |nu|/sqrt(eps) for orders from 50 on). kv is even in the order, infinite at 0 and not a number below; the custom gradient is the derivative for x with the same relative error.", "quantifier": "All real orders, all positive arguments, tolerances between 2^-53 and 2^-20 (between 2^-200 and 1/1000 for the series).", "why_tests_cant": "Tests compare with scipy at sampled orders and arguments; the loop ends at a different index for every argument, the rounding of the order switches at every half integer, and the small-order limit v = 0 is a removable singularity.", "anchors": ["jax_galsim/bessel.py:175-238", "jax_galsim/bessel.py:241-303", "jax_galsim/bessel.py:306-409", "jax_galsim/bessel.py:412-519", "jax_galsim/bessel.py:540-565"]}
{"id": "C94", "title": "The sine integral si approximates the integral of sin t / t", "statement": "For every real x the value of si differs from the integral of sin t / t from 0 to x by at most 7e-15, and by at most 4e-17 |x| when |x| <= 4. si is odd, and tends to pi/2 and -pi/2 at plus and minus infinity.", "quantifier": "All real arguments.", "why_tests_cant": "Tests compare at sampled arguments; one wrong digit in a table of 57 coefficients or the wrong branch at |x| = 4 changes values only in some range, and the range is unbounded.", "anchors": ["jax_galsim/bessel.py:9-37", "jax_galsim/bessel.py:40-68", "jax_galsim/bessel.py:71-91", "jax_galsim/bessel.py:94-104"]}
{"id": "C95", "title": "j0 approximates the Bessel function of order zero everywhere", "statement": "For every real x the value of j0 differs from Bessel's integral (1/pi) int_0^pi cos(x sin t) dt, whose power series is sum (-1)^k (x/2)^(2k) / k!^2, by at most 2.3e-15; by at most 3e-18 for |x| <= 8, and by at most 6.3e-15 / sqrt|x| beyond. j0 is even and exact at 0.", "quantifier": "All real arguments.", "why_tests_cant": "Tests compare at sampled arguments; the eight tables, the split zeros of the two inner ranges and the phase of the outer range each matter only in part of an unbounded range.", "anchors": ["jax_galsim/bessel.py:568-579", "jax_galsim/bessel.py:582-718"]}
{"id": "C96", "title": "Spergel profile near its centre and its enclosed flux", "statement": "Within 1e-10 scale radii the Spergel profile is evaluated by truncated series. (a) The enclosed flux calculateIntegratedFlux equals, at every radius, the integral over the disc of the analytic profile r^nu K_nu(r), exactly beyond 1e-10 scale radii and to 5e-15 + 2e-20/d inside (d: distance of the index from the integers). (b) The surface brightness of the series agrees with r^nu K_nu(r). (b) fails: the series drops the sign of Gamma, so for 0 < nu < 1 the brightness increases outwards and for nu about 0.01-0.02 it is more than twice the true value; outside small indices its error is bounded.", "quantifier": "all indices from -0.85 to 4, all scale radii, fluxes and radii", "why_tests_cant": "The radii concerned are 1e-10 of the scale radius and the error depends on the index in a way a few test points miss; the comparison needs the true Bessel function and an integral.", "anchors": ["jax_galsim/spergel.py:14-166", "jax_galsim/spergel.py:361-363", "jax_galsim/spergel.py:413-417"]}
{"id": "C97", "title": "Akima interpolation is close to the function that filled the table", "statement": "For any table of at least five increasing knots with spacing at most h, filled from a continuous function whose derivative changes with slope at most M, the interpolated value is within M h^2 of the function everywhere in the range of the table (and within 3/4 M h^2 before the last interval, whose end slopes the code takes from too far left); for an evenly spaced table of a function that changes by at most w over one spacing it is within 3/2 w; hence with more and more knots it converges uniformly for every continuous function; and quadratic functions on even tables are reproduced exactly away from the ends.", "quantifier": "for all tables, functions, points of the range, and both ways of finding the interval", "why_tests_cant": "Tests compare a few functions at a few points with a reference spline; the bound is over all functions and tables and covers the 1e-12 branch of the slopes.", "anchors": ["jax_galsim/core/interpolate.py:8-150"]}
{"id": "C98", "title": "The Lanczos kernel in Fourier space", "statement": "The sine-integral formula used for Lanczos(n) is exactly the Fourier transform of the kernel sinc(x) sinc(x/n); with conserve_dc the tabulated value is the transform of the real-space kernel up to second order in the correction coefficients, and the interpolated kval differs from the transform by an explicit bound at every frequency inside the range and is zero outside; the search for the largest frequency always ends and returns a frequency above the accuracy followed by none for a full 1/n; with conserve_dc the weights at every sub-pixel position add up to one within 1/(1100 (n-1)^3).", "quantifier": "for all n, all frequencies, all sub-pixel positions, all table spacings and accuracies", "why_tests_cant": "Continuum of frequencies and positions; termination of an unbounded loop.", "anchors": ["jax_galsim/interpolant.py: _gs_raw_uval, _gs_uval, _find_umax_lanczos, _lanczos_kval_interp_table, _compute_C_K_lanczos, Lanczos._interp_kval"]}
{"id": "C99", "title": "int1d gives the integral between its limits", "statement": "int1d(f, min, max, rel_err, abs_err) returns the integral of f from min to max within the requested tolerance, for finite limits in either order and for infinite limits, or raises; a failure of any of the quadratures it is made of is never hidden.", "quantifier": "for all integrands, all finite or infinite limits, all tolerances, and every quadrature routine that is accurate whenever it reports success", "why_tests_cant": "tests integrate a few functions between small or infinite limits and never between large finite limits; the claim is about all integrands and limits", "anchors": ["jax_galsim/integ.py:27-80"]}
{"id": "C100", "title": "Conversion from and to the reference package keeps the meaning of objects", "statement": "from_galsim and to_galsim of bounds, positions, shears, angles, celestial coordinates, GSParams, coordinate systems and images keep what the object means (included points, components, fields by name, the map, the pixels) and are inverse to each other; arguments that are not such objects are refused.", "quantifier": "for all objects of both packages, including undefined bounds and bounds out of order", "why_tests_cant": "tests convert a few objects of each class; an argument in the wrong position, a swapped field, or a class that falls through the chain of tests is only excluded by a statement about all objects", "anchors": ["jax_galsim/bounds.py:358-396", "jax_galsim/position.py:158-183", "jax_galsim/gsparams.py:26-64", "jax_galsim/shear.py:327-333", "jax_galsim/celestial.py:934-942", "jax_galsim/angle.py:423-429", "jax_galsim/wcs.py:229-345", "jax_galsim/image.py:1295-1318"]}
{"id": "C101", "title": "Interpolants are identified by their names and parameters", "statement": "Interpolant.from_name gives the named interpolant for every spelling of a name in any capitalisation (Lanczos with its order and its optional T or F flag) and an error for every other string; tol and gsparams set the accuracy parameters; withGSParams changes only these; two interpolants are equal exactly when class, order, flag and parameters are equal, equal ones hash equal, and flattening and unflattening gives the object back.", "quantifier": "for all strings, all orders, all accuracy parameters and all keyword lists", "why_tests_cant": "tests use the seven lower-case names and a few orders; which strings are accepted, and what the parser of the order does with each, is a statement about all strings", "anchors": ["jax_galsim/interpolant.py:47-95", "jax_galsim/interpolant.py:110-119", "jax_galsim/interpolant.py:121-143", "jax_galsim/interpolant.py:169-183", "jax_galsim/interpolant.py:1366-1432", "jax_galsim/gsparams.py:67-93"]}
{"id": "C102", "title": "Photon arrays are what they were made from, and the fixed size is scoped", "statement": "The constructor and fromArrays give arrays whose attributes are the given ones (defaults otherwise) and whose reported fluxes are those of the kept photons; == holds exactly between arrays with the same photons; the text of an array is read back as an equal array; whatever program runs, with exceptions raised or caught anywhere, each array is made with the size of the innermost enclosing fixed_photon_array_size and the global is restored afterwards.", "quantifier": "for all sizes, all arguments, all masks, and all programs built from constructions, nested context managers, exceptions and handlers", "why_tests_cant": "tests build a few arrays and nest the context manager once or twice without exceptions; the scope property is about all executions", "anchors": ["jax_galsim/photon_array.py:28-37", "jax_galsim/photon_array.py:78-226", "jax_galsim/photon_array.py:283-406", "jax_galsim/photon_array.py:815-862"]}
{"id": "C103", "title": "Arithmetic of angles and units is dimensionally sound", "statement": "An expression built from numbers, angles and units with +, -, *, /, unary minus and plus, abs, Angle(..), .rad, .deg and wrap has a value exactly when each operation makes sense dimensionally (sums of like kinds, number times angle or unit, angle over number or unit, unit over unit) and nothing is divided by zero; otherwise a TypeError is raised whatever the numbers are. The value has the right kind and is the number obtained by computing in radians, and it does not depend on radians being the internal measure. Comparisons order angles as their measures in any unit and refuse anything else, in either order of the operands; equality separates kinds, never fails and agrees with the hash. from_name accepts exactly the texts beginning with a unit name up to case and surrounding space; the printed form of a unit or angle reads back as the same object.", "quantifier": "all expressions (any depth), all real values, all strings of ASCII characters, all scale factors", "why_tests_cant": "The operator table has nine pairs of kinds per operator in two orders, reached through Python's reflected methods; expressions nest without bound, and confusion of units shows only as a wrong number, not as an error.", "anchors": ["jax_galsim/angle.py:49-121", "jax_galsim/angle.py:148-290"]}
{"id": "C104", "title": "A coordinate system gives one answer whichever way its interface is asked", "statement": "toWorld of a position, toWorld of two numbers (in any units, for a celestial system), and toImage of what they return are consistent: the numbers are the position, toImage gives back the input. local, jacobian, affine and the conversions of profiles and shears give the same result whether the place is named by image_pos or by the world position it maps to; naming both is an error, naming none works only for uniform systems. affine is the linear system that agrees with the original at the place asked, with the local Jacobian. A colour passed to a call acts exactly as the colour of the system, and leaving it out means the colour of the system, in every method. A call that succeeds is one of the documented forms (number and classes of arguments, keywords) and returns the documented kind of object; everything else is refused. shiftOrigin moves the image by the shift, or carries the new origin to the world origin given; celestial systems refuse a world origin.", "quantifier": "all coordinate systems (any functions of position and colour), positions, colours, units, argument lists and keywords", "why_tests_cant": "The dispatch has many combinations of argument classes, keywords, celestial or euclidean systems and colours; a colour dropped on one path shows only for colour dependent systems, which the tests hardly use.", "anchors": ["jax_galsim/wcs.py:48-190", "jax_galsim/wcs.py:389-429", "jax_galsim/wcs.py:434-514", "jax_galsim/wcs.py:582-583", "jax_galsim/wcs.py:675-719", "jax_galsim/wcs.py:794-826"]}
{"id": "C105", "title": "Every way of naming a pixel reads and writes the same pixel", "statement": "im[x, y], im[PositionI], im(x, y), im(pos), im(x=.., y=..), and the assignments im[..] = v, setValue and addValue in each of their spellings name the same pixel: after any program of such statements a read in any spelling gives what the latest write to that pixel left there, and raises outside of the image. im[bounds] reads and writes a part of the image. Anything else between the brackets, a number for a part and an image for a pixel are refused and change nothing. real, imag and conjugate split a complex image, keep its bounds and give back zero, unwritable imaginary parts for real images; get_pixel_centers gives the coordinates under which each element of the array is found.", "quantifier": "all images, all programs of assignments, all spellings of arguments, all pixel values", "why_tests_cant": "Tests assign and read pixels with one spelling at a time and with legal indices; mixed spellings, surplus entries of an index tuple and floats that are whole numbers are not tried, and a silently ignored argument gives no error.", "anchors": ["jax_galsim/image.py:452-481", "jax_galsim/image.py:551-558", "jax_galsim/image.py:670-718", "jax_galsim/image.py:1055-1122", "jax_galsim/utilities.py:15-77"]}
{"id": "C106", "title": "The text of a transformed object describes the transformation", "statement": "str(obj) of a transformed object names methods that rebuild it: applied to the original object they give the same offset and flux ratio and a matrix within three parts in 10^12 of its size, and if nothing is named the transformation does nothing. A rotation is called a rotation by its angle, a shear a shear with its components, an expansion an expansion by its factor; flips and combinations are printed with the matrix in full.", "quantifier": "all original objects, all non-zero matrices (singular ones included), all offsets and flux ratios", "why_tests_cant": "The text is chosen by thresholds on a decomposition of the matrix; tests look at a few texts, and a part dropped from the text because it is below its threshold, or because another part replaced it, is not seen.", "anchors": ["jax_galsim/transform.py:198-246", "jax_galsim/wcs.py:1194-1233", "jax_galsim/gsobject.py:248-334"]}
{"id": "C107", "title": "The flags of a profile tell the truth", "statement": "A profile whose is_axisymmetric is true has the same surface brightness at equal distances from the origin, the same Fourier value at equal wave numbers, and its centroid, if finite, at the origin, however it was put together from elementary profiles by transformations, sums, convolutions and a deconvolution; a transformation keeps the flag exactly if it is a rotation and expansion about the origin. A profile whose is_analytic_x is true has a surface brightness everywhere.", "quantifier": "all profile trees, all positions", "why_tests_cant": "The flags are combined over trees of any depth and speak about all pairs of points of the plane; tests compare the flag with an expected constant for a few objects.", "anchors": ["jax_galsim/transform.py:304-323", "jax_galsim/sum.py:124-142", "jax_galsim/convolve.py:216-238", "jax_galsim/convolve.py:286-292", "jax_galsim/convolve.py:444-450", "jax_galsim/gsobject.py:80-98"]}
{"id": "C108", "title": "The sky stays with the pixels", "statement": "An image with a wcs shows each pixel value at a place on the sky. Shifting the image, setting its origin or its centre, and copying it (with another origin or centre) change the coordinates of the pixels and leave every value at its place on the sky; a part of an image shows the pixels of the part at their places; so does any sequence of these. A copy with a scale or a wcs has that one and refuses both. Setting im.scale gives pixels of that size, which im.scale then reports, and is refused on an image whose wcs is not a simple pixel scale; reading im.scale is refused on such an image too. Setting the scale that an image has changes nothing.", "quantifier": "all images with python bounds, all uniform wcs, all positions and all programs of these operations", "why_tests_cant": "The claim relates integer pixel coordinates, bounds and an affine map after programs of any length; tests check the wcs attribute after one call with one wcs class.", "anchors": ["jax_galsim/image.py:408-429", "jax_galsim/image.py:492-548", "jax_galsim/image.py:568-614", "jax_galsim/image.py:1019-1038", "jax_galsim/wcs.py:600-617"]}
{"id": "C109", "title": "Photon numbers and fluxes are right on average", "statement": "With poisson_flux the total flux that photon shooting gives an object is its flux on average, with variance flux_per_photon^2 |flux|; when extra noise is allowed each photon carries 1 + nu/max_sb times as much and the number of photons is smaller by this factor. The mean number of photons is |flux| / flux_per_photon^2 over that factor, rounded up, and calculate_mean_n_photons is this mean to less than one photon.", "quantifier": "all fluxes, fluxes per photon, surface brightnesses, noise levels and requested numbers of photons; expectation over the Poisson deviate", "why_tests_cant": "The claims are about expectations over an unbounded distribution for real parameters; tests draw a few hundred samples at one flux.", "anchors": ["jax_galsim/core/draw.py:110-137", "jax_galsim/core/draw.py:296-479"]}
{"id": "C110", "title": "No point of a profile is brighter than max_sb", "statement": "The surface brightness of a profile is nowhere greater than its max_sb (in absolute value), and an elementary profile has this brightness at its centre. Transformations and sums keep the bound. The max_sb of a convolution is exact for Gaussians and otherwise not too small; deconvolving by one part of a convolution gives back the flux, the centroid and the max_sb of the rest.", "quantifier": "all elementary profiles, all trees of transformations and sums, all lists of Gaussians, all points of the plane", "why_tests_cant": "A maximum over the plane for trees of any depth; tests compare max_sb with a fixed factor of the value at the centre for one object per class.", "anchors": ["jax_galsim/gaussian.py:126-128", "jax_galsim/exponential.py:126-128", "jax_galsim/moffat.py:306-308", "jax_galsim/box.py:77-79", "jax_galsim/spergel.py:408-411", "jax_galsim/deltafunction.py:52-54", "jax_galsim/transform.py:344-346", "jax_galsim/sum.py:150-153", "jax_galsim/convolve.py:273-289", "jax_galsim/convolve.py:436-474"]}
{"id": "C111", "title": "The repr of a profile reads back as an equal profile", "statement": "For every profile that can be built, evaluating the text given by repr raises nothing and gives a profile equal to it, with the same parameters and accuracy settings in every part; two profiles have the same text exactly when they are equal.", "quantifier": "all nestings of transformations, sums, convolutions and deconvolutions of concrete profiles, all gsparams, both values of propagate_gsparams, after any number of withGSParams", "why_tests_cant": "Profiles nest without bound and accuracy settings are changed and propagated in any order; tests check the text of a few fixed objects.", "anchors": ["jax_galsim/gsparams.py:117-160", "jax_galsim/gaussian.py:102-107", "jax_galsim/exponential.py:87-92", "jax_galsim/box.py:51-57", "jax_galsim/box.py:141-146", "jax_galsim/deltafunction.py:31-35", "jax_galsim/moffat.py:227-237", "jax_galsim/spergel.py:376-382", "jax_galsim/transform.py:185-196", "jax_galsim/sum.py:103-108", "jax_galsim/convolve.py:184-193", "jax_galsim/convolve.py:423-428", "jax_galsim/position.py:102-107"]}
{"id": "C112", "title": "Images of objects superpose", "statement": "When objects are drawn one after the other onto an image with add_to_image, the calls succeed exactly if each object can be drawn alone, the image keeps its rectangle and wcs, every pixel is the old pixel plus the sum of the pixels of the objects drawn alone, and the order does not matter; the image of a sum of objects is the sum of their images.", "quantifier": "all finite lists of objects with their own offsets, centers, methods, gains and exposure times, all images and wcs, real space and FFT", "why_tests_cant": "A scene has any number of objects in any order and each call moves the center, the bounds and the wcs of the shared image and restores them; tests draw one or two.", "anchors": ["jax_galsim/gsobject.py:344-435", "jax_galsim/gsobject.py:484-571", "jax_galsim/gsobject.py:587-820", "jax_galsim/gsobject.py:823-982"]}
{"id": "C113", "title": "The repr of positions, bounds, angles, shears, coordinates and WCS reads back", "statement": "Evaluating the repr of a position, bounds, angle, angle unit, shear, sky coordinate or uniform WCS raises nothing and gives the same object, and two objects have the same text exactly when they are the same; equal WCS hash alike (their hash is that of the text).", "quantifier": "all objects of these classes with any coordinates, integer or float scalars, integer or float origins", "why_tests_cant": "The parameters are continuous and mix numbers of different kinds in every slot; tests check the text of a few fixed objects.", "anchors": ["jax_galsim/position.py:21-58", "jax_galsim/position.py:102-121", "jax_galsim/bounds.py:48-141", "jax_galsim/bounds.py:455-465", "jax_galsim/bounds.py:491-530", "jax_galsim/bounds.py:666-676", "jax_galsim/angle.py:100-112", "jax_galsim/angle.py:252-253", "jax_galsim/shear.py:39-46", "jax_galsim/shear.py:302-303", "jax_galsim/celestial.py:67-91", "jax_galsim/celestial.py:826-839", "jax_galsim/wcs.py:200-212", "jax_galsim/wcs.py:600-606", "jax_galsim/wcs.py:954-963", "jax_galsim/wcs.py:1077-1088", "jax_galsim/wcs.py:1283-1301", "jax_galsim/wcs.py:1396-1404", "jax_galsim/wcs.py:1477-1486", "jax_galsim/wcs.py:1608-1621"]}
{"id": "C114", "title": "The repr of deviates and noises reads back with the same random stream", "statement": "At any time after its construction, evaluating the repr of a deviate gives an equal deviate of the same class which returns the same numbers in every sequence of drawing operations, and resetting any deviate to a serialized text continues the stream of the serialized one. Equality of deviates is an equivalence that implies equal class and stream. The repr of a noise evaluates to an equal noise which changes every image in the same way and has the same variance.", "quantifier": "all deviate classes, parameters (Python or jax numbers), keys and sequences of draws; all Gaussian, Poisson, CCD and deviate noises; all images", "why_tests_cant": "The key space is 2^64 and the sequences of draws unbounded; tests read back a handful of seeds and float parameters only.", "anchors": ["jax_galsim/random.py:80-82", "jax_galsim/random.py:113-160", "jax_galsim/random.py:246-277", "jax_galsim/random.py:302-335", "jax_galsim/random.py:379-402", "jax_galsim/random.py:451-488", "jax_galsim/random.py:555-574", "jax_galsim/random.py:621-644", "jax_galsim/random.py:687-709", "jax_galsim/random.py:747-751", "jax_galsim/noise.py:42-50", "jax_galsim/noise.py:108-110", "jax_galsim/noise.py:134-171", "jax_galsim/noise.py:194-197", "jax_galsim/noise.py:262-263", "jax_galsim/noise.py:284-290", "jax_galsim/noise.py:417-423", "jax_galsim/noise.py:454-487", "jax_galsim/core/utils.py:45-65", "jax_galsim/core/utils.py:147-162"]}
{"id": "C115", "title": "Text, equality, hash and pytree form of GSFitsWCS agree", "statement": "Evaluating the repr of a GSFitsWCS gives the same WCS, and so does flattening and unflattening it as a pytree; two of them are equal, have the same text and have the same hash exactly when all their data agree, and then they map every pixel to the same sky coordinate.", "quantifier": "all ten wcs types, all reference pixels, CD matrices and centres, with or without pv, ab and abp arrays of any order", "why_tests_cant": "The data contain up to hundreds of real coefficients; tests read a few FITS headers.", "anchors": ["jax_galsim/fitswcs.py:83-115", "jax_galsim/fitswcs.py:155-174", "jax_galsim/fitswcs.py:834-876", "jax_galsim/core/utils.py:140-162", "jax_galsim/celestial.py:841-846"]}
{"id": "C116", "title": "A profile as a photon operator displaces photons and leaves their other data alone", "statement": "applyTo pairs the photons of the array one to one with photons shot from the profile (in image coordinates if a wcs is given): positions are displaced by the shot positions, fluxes are multiplied by the shot flux times the number of shot photons; which photons count and the angles, wavelengths, pupil coordinates and times stay; the shot photons see the wavelengths, pupil coordinates and times of the array; with shot photons of equal flux the total flux is multiplied by the flux of the profile.", "quantifier": "all photon arrays with at least one photon that counts, all shooting profiles: elementary ones, interpolated images and every nesting of transformations, sums and convolutions, whatever they draw, with or without wcs, all random permutations", "why_tests_cant": "The pairing goes through a random permutation and a sort that puts uncounted photons last; tests compare statistics of a few arrays.", "anchors": ["jax_galsim/gsobject.py:1345-1374", "jax_galsim/photon_array.py:693-814"]}
{"id": "C117", "title": "Pickling and copying keep every attribute and leave the original alone", "statement": "The object rebuilt from the state of a GSObject or Interpolant has every attribute of the original, its cache being present iff it was and empty, and no marker left over; building the state changes no existing object; an assignment to a copy does not reach the original nor the other way round; doing it twice changes nothing more; the wrapper of an interpolated image keeps its whole dictionary, and its withGSParams gives an object with all its other arguments in dictionaries of its own without changing the original; GSParams are rebuilt from their state field by field, and equality of states is equality of parameters.", "quantifier": "all objects, whatever attributes they have, all heaps of other objects in the pickling and in the unpickling process, all values of the GSParams fields", "why_tests_cant": "Tests pickle a few objects and compare with ==, which looks only at a few attributes and not at the original afterwards.", "anchors": ["jax_galsim/gsobject.py:34-43", "jax_galsim/interpolant.py:34-43", "jax_galsim/interpolatedimage.py:553-557", "jax_galsim/gsparams.py:118-139"]}
{"id": "C118", "title": "An interpolated image accepts exactly the arguments it can use", "statement": "InterpolatedImage(...) succeeds exactly when the image has a float type and defined bounds, the normalization is one of the four names in any capitalisation, the interpolants can be converted, nothing unsupported (pad_image, noise padding) is asked for, pad_factor is positive, at most one of scale and wcs is given and one of scale, wcs and the wcs of the image exists, and the pixels do not sum to zero when a flux or a size is to be computed. An accepted image has a wcs (scale before wcs before that of the image), the flux asked for, and can be used.", "quantifier": "all images and all combinations of arguments", "why_tests_cant": "The checks interact in a fixed order over many arguments; tests try single wrong arguments.", "anchors": ["jax_galsim/interpolatedimage.py:117-125", "jax_galsim/interpolatedimage.py:449-524", "jax_galsim/interpolatedimage.py:590-653"]}
{"id": "C119", "title": "Sums and convolutions take their objects one by one or as a sequence", "statement": "Sum(...) and Convolution(...) succeed exactly when at least one object is given, one by one or as one list or tuple, all being profiles, with no unknown keyword and, for convolutions, without real-space evaluation; both forms give the same, the objects (for sums their terms) being kept in order; an empty sequence needs gsparams. Convolve and Convolution agree.", "quantifier": "all argument lists, nested or not, all profiles, all values of real_space and gsparams", "why_tests_cant": "Argument lists nest and grow without bound; tests use two or three objects.", "anchors": ["jax_galsim/sum.py:26-69", "jax_galsim/convolve.py:16-139"]}
{"id": "C120", "title": "FitsWCS gives the coordinate system that the header describes", "statement": "FitsWCS raises exactly if both or neither of file_name and header are given or the file cannot be read; a file name gives what its header gives. A linear header (CTYPE1 LINEAR, or CDELT1 without CTYPE1) gives, without a warning, a system with the map CRVAL + CD (pixel - CRPIX); the header written by any uniform system, also the two shear classes, is read as a system with the same map. Any other header gives the celestial system, or else the linear part with a warning. Without a warning the system is the one described by the header.", "quantifier": "all headers, all uniform coordinate systems, all argument combinations, any reader of celestial headers and of files", "why_tests_cant": "The choice of class depends on exact equalities between header values; tests read a few files.", "anchors": ["jax_galsim/fitswcs.py:924-1008", "jax_galsim/wcs.py:1573-1595", "jax_galsim/wcs.py:1633-1658"]}
{"id": "C121", "title": "Every form of the arguments of Bounds means the same region", "statement": "BoundsI(...) and BoundsD(...) accept positional arguments exactly in the forms (), (bounds), (position), (position, position), (xmin, xmax, ymin, ymax), and keywords exactly as xmin, ymin with both of xmax, ymax or both of deltax, deltay, without positional or other arguments; anything else raises TypeError. Four numbers in order, in either way, give the points between them; deltax, deltay give that many columns and rows; two positions give the rectangle between them in whatever order and corners they are given; one position gives that point alone; numbers in the wrong order and no argument give bounds that include nothing.", "quantifier": "all argument lists and keyword sets, both classes, python numbers and jax arrays", "why_tests_cant": "Combinations of argument kinds, keywords and corner orders.", "anchors": ["jax_galsim/bounds.py:48-141", "jax_galsim/bounds.py:405-446", "jax_galsim/bounds.py:493-595"]}
