# Formal model of JAX-GalSim: design

## Layout

* `lean/Verif/Model/*.lean` — shallow models of the functions in `/repo/jax_galsim`, branch by
  branch, exceptions as values. Every definition cites file and lines and names its simplifications.
* `lean/Verif/Lemmas/*.lean` — helper lemmas only.
* `lean/Verif/Props/*.lean` — small independent specifications, the property theorems
  (`C01_...`, `C02_...`) and, beside each, an `example` exhibiting a non-trivial instance.
* `properties.jsonl` — the properties; `MANIFEST.json` — which theorem settles which property;
  `seeded/LOG.jsonl` — log of the mutation attempts on the model.

## Conventions and trusted base

* Lean 4.33.0 kernel; Mathlib; axioms at most `propext`, `Classical.choice`, `Quot.sound`
  (listed per theorem at the end of this file). No own axioms, no `sorry`, no `native_decide`.
* Python ints are `ℤ`. Floats are modelled as exact reals `ℝ` (or a generic commutative ring / field
  where nothing else is needed): **rounding, overflow, NaN and infinities are not modelled**. A division by zero is
  never allowed to be silently `0`: every theorem involving a division has the guard as a hypothesis
  or the model has an explicit error value.
* JAX arrays are functions from indices or lists; `.at[]`, `dynamic_slice` (start clamping), negative
  index wrap, `lax.cond` (operands are copies) are modelled where a property depends on them.
* The PRNG is an abstract `split : Key → Key × Key` and `draw : Key → Value`. The only statistical claims are C78, C79, C83, C89:
  there the deviates are taken to be independent with their nominal distribution.
* The upstream `galsim`, `numpy`, `astropy` packages are outside the model.
* The tie between model and code is the reading of the code; nothing is extracted or executed.

## Plan per property

| id | modelled | proof |
|----|----------|-------|
| C01–C06 | `Bounds`, `BoundsI`, `BoundsD`: constructor forms, `&`, `+`, `includes`, `shift`, `withBorder`, `expand`, flatten/unflatten, eq/hash; definedness and python/jax scalar kind are explicit fields | order reasoning; counting by `Finset.card`; negations by witness |
| C07 | `PositionI`/`PositionD` arithmetic | ring laws |
| C08 | `Angle.wrap` on ℝ with the real turn `2π` | floor lemmas |
| C09 | `_make_dms_string` / `_parse_dms` at field level (sign, h, m, s, fraction digits) | integer division, induction on digits |
| C10, C11 | `Shear` as complex `g`; conversions, addition, matrix, rotation | complex algebra, `tanh`/`artanh` |
| C12 | `horner`, `horner2d` on lists | induction |
| C13 | `parse_pos_args` on an inductive type of argument shapes | case analysis |
| C14 | `GSParams.combine` | list induction, lattice laws |
| C15 | `bisect_for_root` loop | induction, IVT, negation witness |
| C16 | Akima coefficients and evaluation | algebra, limits |
| C17, C18 | wrap loops over index functions | finite sums, induction |
| C19–C23 | `Image` as a state machine | invariant induction, refinement to a map |
| C24–C28 | `PhotonArray` as lists with mask | list/permutation lemmas |
| C29 | `calculate_n_photons` branch by branch | algebra, witnesses |
| C30 | photon while loop | loop invariant |
| C31, C32 | `_setup_image`, `_get_new_bounds`, `_adjust_offset`, FFT sizing | integer/real arithmetic |
| C33, C34 | deviates as a heap of key cells | induction on traces |
| C35, C36 | noise classes | algebra; key-use traces |
| C37–C41 | linear WCS classes | linear algebra |
| C42–C48, C62 | profile expression trees with semantics in x and k space | structural induction |
| C49–C51 | sphere, projections, rotations | trigonometry |
| C52 | heap of image objects, crash points | induction |
| C53–C57 | interpolants, window sums, padding | algebra, finite sums |
| C58–C60 | `TanWCS`, TPV/SIP/TNX tables, Newton step | algebra, arithmetic |
| C61, C63 | size conversions, CDFs | real powers, derivatives |
| C64 | flatten/unflatten of the composite classes | case analysis |
| C65 | Akima interpolation of the mirrored table | algebra, witness |
| C66 | `makeFromImage`, `addTo` | finite sums |
| C67 | `maxk`, `stepk` of transformed, summed and convolved profiles | order reasoning on singular values |
| C68–C70 | spherical triangles, `jac_deproject`, great circles | trigonometry, derivatives |
| C71 | interpolant kernels, `_uval`, tables | integrals of piecewise polynomials |
| C72, C73 | `calculate_fft`, `calculate_inverse_fft`, `drawFFT_finish` | orthogonality of characters, Hermitian symmetry |
| C74, C75 | FITS coordinate systems: local Jacobian, headers, inversion | derivatives, list lemmas |
| C76–C78 | Fourier pairs, ranges and photons of the elementary profiles | Fourier and Bessel integrals, change of variables |
| C79 | photons of composed profiles | structural induction over measures |
| C80–C83 | `drawKImage`, `drawImage`, `drawPhot`, `makePhot` as whole calls | case analysis over the argument record, loop invariants |
| C84 | `unweighted_moments`, `unweighted_shape` | finite sums |
| C85 | Clenshaw-Curtis rule | trigonometric sums, Weierstrass approximation |
| C86 | `__eq__`, `__hash__` of profiles, `GSParams`, local WCS | mutual structural induction |
| C87–C90 | `InterpolatedImage`: light, Fourier values, photons, Fourier range in world coordinates | composition of the earlier results, change of variables |
| C91 | finite-difference local systems and sky images of `EuclideanWCS`, `CelestialWCS`, `UniformWCS` | mean value bounds, case analysis of jumps |
| C92 | arithmetic of integer images | congruences, bits of two's complement, induction over operation lists |
| C93 | Bessel function `kv` | exact `K_ν` as an integral; tables of the Gamma function by convexity of its logarithm and Stirling bounds; series started from inexact coefficients by linearity; ladder relations by parts, Wronskians, limits of series, ratio bounds; continued fraction by a minimal solution and super-solutions of its recurrence; Olver's expansion by comparison with sub- and super-solutions of Bessel's equation |
| C94 | sine integral `si` | Taylor bounds below 4; above, bound on the derivative of the error by positivity of polynomials on subintervals |
| C95 | Bessel function `j0` | Taylor bounds up to 8; beyond, the energy of the error in Bessel's equation and bounds of the residual by positivity of polynomials |
| C96 | Spergel profile near its centre | ascending series of `r^ν K_ν`, Gamma reflection and log-convexity; fundamental theorem of calculus on the disc |
| C97 | Akima interpolation error | slopes between neighbouring chord slopes; mean value theorem; uniform continuity |
| C98 | Lanczos kernel in Fourier space | sine-integral primitive; Laplace transforms for large argument; Poisson summation; loop invariant |
| C99 | `int1d` around the third-party `quadgk` | additivity of the integral over extended real intervals |
| C100 | `from_galsim`, `to_galsim` | case analysis; meaning functions for the objects of the reference package |
| C101 | interpolant names, parameters, equality | parser soundness and completeness by induction over the characters |
| C102 | photon array construction, `==`, text, `fixed_photon_array_size` | attribute-wise computation; induction over programs against a lexically scoped big-step semantics |
| C103 | operators, comparison, names and text of angles and units | Python's operator protocol; structural induction over expressions |
| C104 | the calls of a coordinate system: arguments, keywords, colours, units, local, affine, shiftOrigin | case analysis of the dispatch; inverse functions |
| C105 | pixels and parts of images by index, call and method, complex views | spellings as an inductive relation; refinement to a map by induction over programs |
| C106 | `str` of a transformation | text as a value, read back by the methods it names; perturbation of the decomposition |
| C107 | `is_axisymmetric`, `is_analytic_x` of profile trees | invariance under rotations by structural induction |
| C108 | attribute `wcs` of `Image` under shift, relabelling, parts, copies, `scale` | pixel value at a place on the sky as the abstract state, invariant over programs |
| C109 | `calculate_n_photons`, `calculate_mean_n_photons` | expectations over the Poisson distribution of the deviate |
| C110 | `max_sb` of all classes, `Deconvolution` as a part | bound by structural induction; exact Gaussian convolution |
| C111 | `repr` of profiles, `GSParams` and positions as expressions; `eval` with Python's argument binding | invariant of built objects (parts carry the settings of a propagating whole), structural induction |
| C112 | repeated `drawImage` onto one image | normal form of one call (what depends on the old pixels and what does not), induction over the list, permutations |
| C113 | `repr`, `eval`, `==` and hash of positions, bounds, angles, shears, coordinates and uniform wcs; ints and floats told apart | case analysis over the classes, injectivity from the round trip |
| C114 | `repr`, `serialize`, `eval`, `reset` and `==` of deviates and noises; jax and Python numbers told apart; keys are two words | case analysis over the classes; streams by the key and parameters |
| C115 | `GSFitsWCS`: `repr`, `eval`, `==`, hash, pytree; coefficient arrays of any size | lists of rows read back by induction; equality and text through the round trip |
| C116 | `GSObject.applyTo`: the array that is shot, the wcs, `convolve`; the effect of every `_shoot` on the photon array, for arbitrary draws | the pairing of C25; each setter leaves a paired array alone; induction over the profile: no mask, no new column |
| C117 | `__getstate__`, `__setstate__` of objects, interpolants, wrappers and `GSParams`, on a heap of dictionaries | lookups after `put` and `drop`; a new dictionary is at the end of the heap |
| C118 | the checks of `InterpolatedImage(...)` in their order, the wcs, pixels and flux ratio that rely on them | case analysis of each check; the names by a relation on characters |
| C119 | the positional arguments of `Sum`, `Convolution` and `Convolve`, the choice of real space, the exceptions | induction over the argument list; case analysis of the forms |
| C120 | `FitsWCS(...)`: arguments, the choice of the class, warnings; `readFromFitsHeader` of headers without `GS_WCS` | case analysis; the linear keywords of C41 and the simplification of C75 |
| C121 | `Bounds._parse_args`: positional and keyword arguments of both classes | case analysis of the argument list; the inclusion test of C01 |

Anything that turns out false of the code is kept as a negation theorem with a concrete witness,
with the true part in a `_partial` theorem, and listed under "Disagreements" below.

## What is modelled and what is not

Modelled (the file and lines are in the comment of each definition): `angle.py` (values, operators, wrapping, strings), `bounds.py`,
`box.py`, `celestial.py`, `convolve.py`, `core/bisect` in `core/utils.py`, `core/draw.py`, `core/integrate.py`,
`core/interpolate.py`, `core/wrap_image.py`, `deltafunction.py`, `exponential.py`, `fits.py` (writers), `fitswcs.py`,
`gaussian.py`, `gsobject.py`, `gsparams.py`, `integ.py`, `image.py` (state, sub-images, wrapping, binning, FFTs), `interpolant.py`
(all kernels in real and Fourier space, names and equality), `interpolatedimage.py`,
`moffat.py`, `noise.py`, `photon_array.py`, `position.py`, `random.py`, `sensor.py`
(accumulate), `shear.py`, `spergel.py`, `sum.py`, `transform.py`, `utilities.py`, the uniform and celestial classes of `wcs.py`,
`from_galsim`/`to_galsim` of all classes.

Not modelled: the tabulated fluxes and unit integrals of Lanczos, `core/testing.py`,
documentation helpers, `str` (the `repr` forms are modelled, with decimal conversion of floats left abstract), the byte
format of pickle (its state protocol is modelled, C117), the tracing
machinery of jax (`jit`, `vmap`, gradients, custom derivatives), device placement and dtypes beyond integer / floating, the
upstream `galsim` and `astropy` packages.

## Disagreements found

Places where the code does not do what the property says, each proved by a concrete witness:

* `C03_areaD_counterexample`: an undefined `BoundsD` can report a positive area (`BoundsD(1, 0, 1, 0).area() == 1`).
* `C03_jax_sizes_counterexample`: with jax-array sizes, bounds empty in one direction only are reported as defined, with a non-positive area although they include no point (`BoundsI(jnp.array(1), jnp.array(-1), 1, 5)`).
* `C04_undefined_counterexample`: shifting an undefined float bounds, or padding an undefined integer bounds, gives a defined bounds that includes points (`BoundsD().shift(p)`, `BoundsI().withBorder(1)`).
* `C05_copyD_counterexample`: copying an undefined `BoundsD` gives a *defined* bounds, not equal to the original; converting it to `BoundsI` gives a defined one-pixel bounds.
* `C06_undefined_counterexample`: two undefined bounds compare equal but hash different tuples (`BoundsI()` and `BoundsI(5, 4, 1, 1)`).
* `C100_counterexample_image`: a constant image of galsim becomes an image which may be modified, and on the way back to galsim the header is lost.
* `C100_counterexample_none`: a coordinate system of jax_galsim itself is neither refused nor returned by `from_galsim`; the result is `None`, because its class derives from `galsim.BaseWCS`, its name is known, and no `isinstance` test matches.
* `C100_counterexample_unmatched`: a galsim object of a class of its own that has a known name but is none of the seven classes (such as a subclass of a base class called `UniformWCS`) gives `None` instead of an exception.
* `C101_counterexample_hash`: interpolants are hashed by their text, so two equal ones whose parameters were given as `5` and as `5.0` have different hashes.
* `C101_counterexample_order`: a Lanczos kernel of an order which is not in the tables (above 30, or 0) is refused with a bare `KeyError` instead of an exception of the package: the name is `lanczosN` with an integer `N`, as the message of the other exception asks for.
* `C101_counterexample_withGSParams`: `withGSParams(i.gsparams, kvalue_accuracy=v)` ignores the keyword: the parameters given are the ones the object has, so it is returned as it is. The same test is in every `withGSParams` of the profiles.
* `C102_counterexample_eq_corr`: the flag set by `setCorrelated` is not compared (photon_array.py:849-862).
* `C102_counterexample_eq_none`: an array none of whose photons is kept is not equal to any array, so not to its own copy: its fluxes read NaN (`0 * inf`, photon_array.py:315-322) and NaN fluxes compare unequal.
* `C102_counterexample_pair`: with one angle given, `fromArrays` leaves the other NaN where the constructor sets it to zero (photon_array.py:198-207 against 340-356), so that the two ways to make the array give different arrays.
* `C102_counterexample_repr_corr`: the flag set by `setCorrelated` is not in the text.
* `C105_counterexample_float`: `im[x, y] = v` accepts floats that are whole numbers, but reading `im[x, y]` with the same floats is a `TypeError`, while `im(x, y)` accepts them.
* `C105_counterexample_tuple`: an assignment to `im[x, y, z]` changes the pixel `(x, y)` and drops `z` silently, while reading `im[x, y, z]` is a `TypeError`.
* `C107_counterexample_single`: the convolution of a single profile, which the constructor accepts without a warning, says that it is analytic in real space if the profile is, but its surface brightness raises `NotImplementedError` everywhere.
* `C108_counterexample_reset`: giving an image the scale that it has, `im.scale = im.scale`, moves its pixels on the sky if the image was shifted before: the origin of its wcs is dropped.
* `C108_counterexample_shear`: an image with a `ShearWCS` is not one with a simple pixel scale, and `im.scale = v` refuses it with the message that the scale is undefined, but reading `im.scale` gives the number in the `ShearWCS`.
* `C109_counterexample_negative`: for a profile of negative flux `calculate_mean_n_photons` returns a negative number, although as many photons are shot as for the opposite flux.
* `C110_counterexample_boxes`: the `max_sb` of a convolution is said to be "likely to be too high, which is acceptable", but the convolution of two pixels has the brightness 1 at its centre and its `max_sb` is 1/2.
* `C110_counterexample_spergel`: at `1e-10` scale radii from the centre, a Spergel profile of index 1/100 to 1/50 is brighter than its `max_sb`.
* `C110_counterexample_sum`: the `max_sb` of a sum with a negative part is too small: here it is zero, though the brightness is not.
* `C111_counterexample_gsparams`: `GSParams.__repr__` prints `table_spacing` (and the two FFT sizes) with `%d` (gsparams.py:141-145), so a value that is not an integer is cut off and the text reads back as other parameters.
* `C111_counterexample_propagate`: a propagating transformation of a transformation that does not propagate keeps the parameters of the innermost profile (transform.py:63-65, 77-87), although its text says that they are propagated: read back, the innermost profile has other parameters.
* `C113_counterexample_bounds`: `BoundsI` with a jax `deltax` of 0 and a positive jax `deltay` counts as defined (the deltas are only checked together if they are jax numbers), and its text reads back as undefined bounds, which are not equal to it.
* `C113_counterexample_hash`: `PixelScale(2) == PixelScale(2.0)`, but the hashes are of the different texts `galsim.PixelScale(2)` and `galsim.PixelScale(2.0)`; the same holds for every kind of wcs.
* `C114_counterexample_int_sigma`: Gaussian noise with an integer standard deviation does not read back as an equal noise: its deviate keeps the integer and the noise the float, the text `GaussianNoise(rng=GaussianDeviate(seed=..., mean=0.0, sigma=2), sigma=2.0)` evaluates to a noise whose deviate has `sigma=2.0`, and noises are compared by their texts.
* `C114_counterexample_jax`: the texts of Poisson noise with a jax number as sky level, and of CCD noise with a jax number as any of its three parameters, contain `Array(...)` and cannot be evaluated (the other texts pass through `ensure_hashable`).
* `C118_depixelize_counterexample`: `depixelize=True` is not supported, but the constructor accepts it; the exception comes at the first use of the object.
* `C118_zero_flux_counterexample`: an image whose pixels sum to zero is refused only when `calculate_stepk`, `calculate_maxk` or a flux is given; otherwise it is accepted and its flux ratio is `0 / 0`.
* `C119_hard_edges_counterexample`: two objects with hard edges that are analytic in real space, such as two boxes, cannot be convolved without `real_space=False`: real space is chosen and then raises.
* `C119_nested_counterexample`: `Convolve([[a, b]])`, with a list in a list, is accepted, while `Convolution([[a, b]])` raises `TypeError`.
* `C11_boundary_counterexample`: `|g| = 1` is accepted, but its matrix divides by zero (in exact arithmetic with `x/0 = 0` the matrix has determinant 0, in floats it is infinite/nan).
* `C120_counterexample_cd`: a header with a `CD` matrix but with neither `CTYPE1` nor `CDELT1` (both are optional, and a missing `CTYPE` means a linear axis) is taken to have no coordinate system: the result is `PixelScale(1.0)`, whatever the matrix, although `AffineTransform._readHeader` reads it.
* `C120_counterexample_pc`: for a linear header the matrix `PC` of the FITS standard is ignored, silently: a header that has it next to `CDELT` is read as if the matrix were the identity. (For celestial headers it is used.)
* `C13_keyerror_counterexample`: a missing value gives `KeyError`, not `TypeError` (`image.setValue(1, 2)` without a value).
* `C13_sequence_counterexample`: a sequence longer than two is silently truncated, and a one-element jax array is read as `(v, v)`, instead of raising `TypeError`.
* `C15_exact_root_counterexample`: when a probed midpoint is an exact root the search leaves it and converges to `low`: for `f(x) = x` on `[-1, 1]` the result after `n + 2` steps is at most `-1/2`, at distance more than `(high-low)/2^(n+2)` from the only root once `n ≥ 1`; with the default 75 steps it is `-1 + 2^-74`.
* `C19_jax_sizes_counterexample`: with jax-array sizes a rectangle empty in one direction counts as defined, and an image made from it has a 1x1 array while `bounds.numpyShape()` is `(5, 0)`.
* `C19_undefined_counterexample`: an image without defined bounds (`Image()`) holds a 1x1 array although `bounds.numpyShape()` is `(0, 0)`.
* `C19_wrap_raise_counterexample`: `wrap` to a region that is not inside the image raises only after it has overwritten the pixels (`ImageD(2, 2)` with pixels 1, 2, 3, 4 wrapped to `BoundsI(2, 3, 1, 1)`).
* `C20_nonstatic_counterexample`: with jax-array coordinates (e.g. bounds made by `b1 & b2`) writing a sub-image outside the image neither raises nor leaves the image unchanged: it overwrites other pixels (`BoundsI(100, 100, 5, 5)` in a 3x2 image overwrites its last pixel).
* `C22_addTo_counterexample`: `addTo` does not check whether the image is constant: a photon changes the pixel of a constant image.
* `C22_inplace_counterexample`: in-place arithmetic changes a constant image (`im += 1` turns its first pixel from 0 into 1); the same holds for `-=`, `*=`, `/=`, ... because none of them looks at `isconst`.
* `C22_setArray_counterexample`: assigning to `im.array` changes a constant image.
* `C22_wrap_counterexample`: `wrap` changes a constant image (wrapping the 3x2 image onto its lower left pixel turns 0 into 36).
* `C23_unusable_counterexample`: the images returned by transpose, flips and rotations lack the `_is_const` attribute, so that every mutator that checks it (`setValue`, `fill`, `resize`, ...) raises `AttributeError` on them.
* `C24_keep_flux_counterexample`: setting the number of kept photons rescales the fluxes of the photons that stay kept; here two photons of flux 1 become one photon of flux 2.
* `C24_zero_kept_counterexample`: keeping zero photons of a non-empty buffer makes every reported flux and the total flux NaN (`0 * N / 0`), instead of zero.
* `C26_write_read_counterexample`: `read` constructs the photons as if all were kept and only then restores the mask, so an array with masked photons comes back with every flux multiplied by total/kept (here 9 becomes 27/2).
* `C27_assignAt_negative_counterexample`: a negative start is not rejected; assigning one photon at -1 (or at any start below -1) of a two-photon array silently does nothing.
* `C27_no_flux_counterexample`: `copyFrom(.., do_flux=False)` still copies the mask, which changes the fluxes of photons outside the selected range: copying one masked photon doubles the flux of the other photon.
* `C28_integer_counterexample`: on integer images the deposited flux is rounded per pixel but the reported flux is not: a photon of flux 2/5 reports 2/5 although the image gains nothing.
* `C29_extra_noise_counterexample`: with a positive `max_extra_noise` (and finite maximum surface brightness) the photons already share the whole flux of the object among fewer photons and are then scaled by `g = 1 + ν/|max_sb|` once more, so the drawn flux is too large by that factor: flux 10, max_sb 1, ν 1 draws flux 20.
* `C29_negative_counterexample`: for a negative flux without Poisson variation the number of photons is negative (the upstream code takes the absolute value): flux -10 asks for -10 photons.
* `C29_zero_flux_poisson_counterexample`: with a given number of photons, zero flux and Poisson variation the scaling `g` is `0/0`.
* `C30_integer_counterexample`: on integer images every chunk is rounded before the next one is added, so the image depends on the chunk size: a pixel receiving 4/5 in one chunk becomes 1, in two chunks of 2/5 it stays 0.
* `C30_shoot_buffer_counterexample`: `shoot(n)` inside a larger fixed buffer reports total flux `flux * n / buffer`, not `flux` (this is what `makePhot` returns).
* `C30_small_maxN_counterexample`: when both a fixed buffer and a smaller `maxN` are set, profiles divide their flux by the buffer size while only `maxN` photons of the buffer are shot, so the flux is too small by `maxN / buffer`: buffer 4, `maxN` 2, flux 1, two photons draw a total flux of 1/2.
* `C31_undefined_image_counterexample`: an image with undefined bounds is resized to start at (1,1) even if `center` is given, while the offset is computed as if it had been centred on `ceil(center)`; the object then lands elsewhere: with an automatic size of 6 and centre (100, 100) it is drawn at (4, 4).
* `C32_fixed_size_counterexample`: with `maximum_fft_size = minimum_fft_size` the size of the image is never checked: an image of 6 × 6 pixels is drawn on a grid of size 4.
* `C32_good_fft_size_counterexample`: the reduction of the size by `1e-5` (meant for rounding errors) exceeds one pixel for sizes above 100000, so the "good" size can be smaller than the size asked for: `good_fft_size(131073) = 131072`.
* `C32_odd_minimum_counterexample`: an odd `minimum_fft_size` is used unchanged, so the grid size is odd.
* `C32_offcentre_counterexample`: for an image not centred at the origin (`drawFFT` called directly) the size check allows a pixel at `+N/2`, outside of the real-space grid: the single pixel (4, 4) asks for 8 pixels, but the grid `-4..3` does not contain it.
* `C36_ccd_counterexample`: CCD noise does not advance the random state, and its Poisson and read-noise components are drawn from the same stream elements: the result for every image (positive gain and read noise) is computed pixel by pixel from the elements at the current position, and the state afterwards is the state before.
* `C36_ccd_repeat_counterexample`: applying the same CCD noise object to two copies of an image adds identical noise.
* `C38_counterexample_given`: on a system with its own origin, `shiftOrigin(o, w)` discards that origin (the given position becomes the new origin), so it is not a shift of the mapping by `o` and `w`.
* `C39_counterexample_negative_scale`: a negative `PixelScale` is accepted and its `minLinearScale` and `maxLinearScale` are negative.
* `C41_counterexample_shear`: `ShearWCS` and `OffsetShearWCS` write their name into the header but define no `_readHeader`, so reading the header back fails.
* `C45_counterexample_array`: `Convolution._kValue` multiplies over all axes of the array of Fourier values, so for an array of positions it returns one number, the product over the positions, instead of one value per position.
* `C46_counterexample_negative_flux`: for a profile of negative flux the threshold `flux · accuracy` is negative, so small Fourier values are never cut off and the deconvolution is not bounded (here: 10^20 for a value of 10^-20, accuracy 10^-5).
* `C46_counterexample_outside`: outside `maxk`, `_kValue` does not return the 0 that `_drawKImage` draws.
* `C46_counterexample_threshold`: exactly at the threshold `_kValue` inverts the value but `_drawKImage` replaces it by the threshold; for a negative Fourier value the two have opposite sign.
* `C47_counterexample_scaled`: scaling by a negative factor multiplies both fluxes by it instead of exchanging them, so `-profile` has a negative `positive_flux`.
* `C48_counterexample_integer_sum`: drawing a sum onto an integer image rounds the first term before the others are added (two terms of 0.4 give 0 instead of round(0.8) = 1).
* `C52_counterexample_interrupt`: an asynchronous exception (`KeyboardInterrupt`) between the replacement of `_array` and the binding of `old_class` makes the `finally` clause of `_image_as_numpy` raise `UnboundLocalError` before it restores anything; the image keeps the numpy copy.
* `C53_counterexample_delta`: `Delta` is not 1 at 0 (its value there is `1/kvalue_accuracy`).
* `C53_counterexample_lanczos`: `Lanczos` without `conserve_dc` does not reproduce constants: half way between two samples the weights of `Lanczos(1)` add up to `8/π²`.
* `C53_counterexample_nearest`: half way between two samples `Nearest` counts both with weight 1, so a constant image is doubled there.
* `C54_counterexample_nearest`: with `Nearest` the window of `_draw_with_interpolant_xval` has only the pixel below the point (`ixrange // 2 = 0`), so a point more than half a pixel above it gets 0 instead of the value of the pixel above. Here the image is constant 1 and the point is `(0.75, 0)`.
* `C56_counterexample_large`: a side of 131073 pixels is "padded" to 131072, a negative amount, which raises.
* `C56_counterexample_not_recentred`: without recentring (`_recenter_image=False`, always passed by `_InterpolatedImage`) an image with the usual origin `(1, 1)` does not fit in the unpadded working image, which is centred on `(0, 0)`: the assignment raises.
* `C57_counterexample_unreached`: if no tried box reaches the threshold, `argmin` of an array of infinities is 0 and the size 0.5 is returned, as if the central pixel had all the flux. Here a 1×3 image whose flux is at its ends: only the central pixel is tried, and `stepk` becomes as large as for a single pixel.
* `C58_counterexample`: `TanWCS` moves the reference pixel by the inverse of a matrix whose first row has the opposite sign, so a world origin `u0 ≠ 0` is applied as `-u0`: the tangent plane position is wrong at every image position.
* `C59_counterexample_tnx_polynomial`: a TNX header with plain polynomial surfaces (code 3) makes `_parse_tnx_data` return `None`, and `_read_tnx` fails with a `TypeError`.
* `C59_counterexample_tpv`: a TPV header whose last non-zero coefficient is `PV1_4` (the square of the axis' own coordinate) is read as if that coefficient were zero: `order` is computed from the position of the last coefficient as if all terms of its degree were present.
* `C59_counterexample_tpv_zero`: a distortion whose second component vanishes (or a header without `PV2` keys) cannot be read: `np.nonzero(pv2)[0][-1]` raises `IndexError`.
* `C63_spergel_negative_counterexample`: for a Spergel profile with `nu ≤ 0` the sampling table is not a cumulative distribution. `cumulflux` (spergel.py:488-496) integrates `z (a + b z)` as `a z³/3 + b z²/2`, with the two powers exchanged. For `nu = -1/2` and a `shoot_accuracy` of about `1e-8` the table jumps to more than 2 at its second entry and comes down to 1 at the end; every deviate below 1 then falls in the first interval, and all photons land within `0.0016` scale radii of the centre, although the half-light radius of the profile is about `0.69` scale radii.
* `C64_deviateNoise_counterexample`: no `DeviateNoise` can be unflattened: `tree_unflatten` calls the constructor with the keyword `rng`, but its parameter is called `dev`, a `TypeError` (noise.py:455, 501-505).
* `C64_image_counterexample`: an image with `photons` but without `added_flux` comes back with the photon array as its `added_flux` and without `photons`, since unflattening goes by position (image.py:1257-1263, 1276-1291).
* `C64_profile_counterexample`: when a transformation was made with `propagate_gsparams=False` inside another one, a convolution of it whose `gsparams` were changed and changed back is not equal to what unflattening returns: the convolution flattens the list from before the changes, and the innermost profile gets back its old `gsparams` (convolve.py:152-162, 322-338, transform.py:77-89). The four steps build the object; the last part compares.
* `C65_mirror_counterexample`: at the right end the slope is taken from the second to last secant instead of the last, so reversing the table does not mirror the result: for knots `0..4` with values `(0, 0, 0, 0, 1)` the interpolant at `3.5` differs from the value at `0.5` for the mirrored data `(1, 0, 0, 0, 0)`.
* `C69_counterexample_large`: for a triangle of area greater than `π`, `area` returns `2π` less the area (up to full turns), never the area: `arctan |F / D|` loses the sign of `D`.
* `C71_counterexample_quintic`: the tabulated unit integrals of `Quintic` (made by numerical integration) are off by `1.6e-8`, far more than rounding; the exact value for the central pixel is `10051/11520`.
* `C75_counterexample_pc`: `PC` keys without `CDELT` keys (which then default to 1) are ignored: the matrix becomes the identity.
* `C76_counterexample_moffat_beta`: above the range of the fit of `maxk` (`beta ≤ 100`) the Fourier values of a Moffat profile are not bounded by its flux. The table of Bessel values ends at `maxk`, the asymptotic form used beyond it is far from its range, and at twice `maxk` the value returned is more than `2 ^ 90` times the flux.
* `C77_counterexample_moffat_maxk`: above the range of its fit (`beta ≤ 100`) `Moffat.maxk` is not a band limit. For every size there is a slope accepted by the constructor for which the transform of the profile at a frequency beyond `maxk` is still 99% of the flux, with `maxk_threshold = 1e-3`.
* `C77_exponential_stepk_counterexample`: without a minimum number of half-light radii, the flux of an exponential profile outside the radius `π / stepk` exceeds `folding_threshold` of the total for every threshold: the comment of exponential.py:106-117 asks that it be no more, and the loop of three steps approaches that radius from below.
* `C79_difference_counterexample`: for a difference of two profiles the probabilities are not a distribution: `a - b` with fluxes 2 and 1 gives 2 and -1, because the subtracted profile reports negative `positive_flux` and `negative_flux` (transform.py:332-338).
* `C80_error_counterexample`: `drawKImage` reads the scale of an image with a `ShearWCS` and recentres the image, but then cannot set the scale; the call fails and leaves the image moved.
* `C80_single_pixel_counterexample`: a k-image of a single pixel with a python scale, whose only pixel would be the flux, cannot be drawn: `np.pi / (max(image.array.shape) // 2 * dk)` divides by zero, though its value is not used.
* `C82_hard_edge_counterexample`: a hard-edged profile with a brightness formula, such as a box, cannot be drawn with the default method: its convolution with the pixel would have to be done in real space, which is not implemented. (The image, if given, loses its wcs as above.)
* `C82_moved_counterexample`: despite the comment in the code no view of the image is made: when the drawing step raises (here because a sensor is not supported without photon shooting; an FFT that is too large does the same), the image is left recentred at (0, 0), with pixels of size 1 as its wcs.
* `C82_wcs_lost_counterexample`: `drawImage` with a scale (or wcs) clears the wcs of the image before the other arguments are checked; here the call is rejected because `nx` is given with an image, and the image has lost its wcs.
* `C83_erased_counterexample`: when the object cannot be shot (a deconvolution, say), `drawPhot` has already set the image to zero when it raises, so the caller's pixels are lost.
* `C83_gain_counterexample`: with a gain other than 1, `added_flux` for method `phot` is not the flux added (what is added to the pixels over the counts per flux), as it is for the other methods (`C81_real_partial`, `C81_fft_partial`): it is smaller by the gain.
* `C83_zero_photons_counterexample`: a requested number of photons below one half is no photon at all (zero upstream stands for the number that the flux asks for): with `maxN` the image stays empty, although the object has flux.
* `C86_counterexample_brackets`: a number and the same number in an array with one entry compare equal from the left and different from the right, and have different hashes.
* `C86_counterexample_raises`: comparing a profile that has a number with one that has an array of two numbers raises instead of being `False`; the other way round it is `False`.
* `C86_counterexample_tuple`: with `propagate_gsparams=False`, `Convolution(a, b)` and `Convolution([a, b])` are the same convolution, but they compare different, because one keeps a tuple and the other a list.
* `C86_hash_counterexample_gsparams`: `GSParams(stepk_minimum_hlr=5)` equals the default `GSParams()` (where it is `5.0`), but its hash is that of a different `repr`; so do profiles with these parameters.
* `C86_wcs_counterexample_int`: `PixelScale(1) == PixelScale(1.0)`, but their hashes are those of different strings.
* `C87_counterexample_centroid`: `_centroid` of the inner object (interpolatedimage.py:578-584) leaves out the offset that `_xValue` adds, so an image of even size with the default `use_true_center=True` reports a centroid half a pixel away from the mean of its light: four equal pixels are symmetric about `(0, 0)` and `centroid` is `(-1/2, -1/2)`.
* `C87_counterexample_equal`: `__eq__` (interpolatedimage.py:330-341) does not compare the coordinate systems, so the same image with unit pixels and with pixels rotated by 90 degrees compare equal while their light differs: at `(1, 0)` one shows the pixel with value 5 and the other nothing.
* `C87_counterexample_hash`: `__hash__` (interpolatedimage.py:256-293) uses `pad_factor`, which `__eq__` does not compare, so objects that compare equal feed different values to the hash.
* `C87_counterexample_quarter`: with `Nearest` or `Delta` the object drawn in real space holds a quarter of its flux, whatever the image: the window of `_draw_with_interpolant_xval` has only the pixel below the point (interpolatedimage.py:1020-1021 with `ixrange` 1 and 0), so half of the kernel is cut off in each direction. With `Nearest` the light is also moved by a quarter of a pixel.
* `C87_counterexample_ranges`: `maxk` is divided by the largest and `stepk` by the smallest scale of the coordinate system (interpolatedimage.py:222-239) where the other one is needed (as in transform.py:283-300). With pixels of 1 by 2 and `maxk = stepk = 1` in the image, the wave vector `(3/4, 0)` is beyond the reported `maxk` but inside the band, and the image displacement `(0, π)` is within `π/stepk` of the image but at twice the reported `π/stepk` in the world.
* `C88_counterexample_tail`: `Quintic.urange` (interpolant.py:635-644) keeps only the leading term of the transform for large arguments, so with the default `kvalue_accuracy` of 1e-5 there is a wave number beyond the range, where `kValue` is set to zero, at which the transform is larger than `kvalue_accuracy`.
* `C89_counterexample_negative`: with negative pixels `_shoot` (interpolatedimage.py:876-925) picks the pixels by their absolute values but gives every photon the absolute flux (pos - neg)/N instead of (pos + neg)/N, so the expected total flux is smaller than the flux of the object by the ratio of the light to the total of the absolute values: for the pixels 3 and -1 it is 1, not 2. The factor by which `drawPhot` multiplies the photons is 1 on average and does not repair this.
* `C90_counterexample_origin`: the ring of the mode zero is never counted (`delta_msk` starts with a zero, interpolatedimage.py:1275-1279), so that an image whose light is above the threshold at the mode zero only reports the largest wave number zero, at which its light is all there is: four equal pixels without padding. The first wave number without light above the threshold is `π`.
* `C91_counterexample_const`: a uniform system refuses to overwrite an image that may not be changed, the other systems overwrite it.
* `C91_counterexample_integer`: the sky level of an integer image is rounded by `EuclideanWCS`, but cut off by a uniform system with the same pixels: `1.6` becomes `2` in one and `1` in the other.
* `C91_counterexample_jump`: the local system of a celestial system has no such treatment of jumps of the right ascension. At the jump its first entry is about `5000` times too large and of the wrong sign.
* `C92_counterexample_divisor`: dividing an unsigned image by a negative Python integer takes the divisor modulo the size of the dtype: `ImageUS([12, ...]) // -5` is `0`, the number stored for `-3` would be `65533`.
* `C93_counterexample_order`: the gradient for the order is always zero, but the function depends on its order (bessel.py:563, "not supported").
* `C96_double_counterexample`: C96: Disagreement: for indices from 1/100 to 1/50, at `1e-10` scale radii from the centre, the surface brightness of the code is more than twice the true one (the term in `r^(2ν)` has the wrong sign).
* `C96_increasing_counterexample`: C96: Disagreement: the series used within `1e-10` scale radii takes `Γ` without its sign, so for every index between 0 and 1 the surface brightness the code computes there increases outwards; the true profile decreases.
* `C99_counterexample_both`: two finite limits on the same side of the cutoff are both taken for infinity, and the integral from 20000 to 40000 of a positive function comes out as zero. The quadrature is exact here.
* `C99_counterexample_tail`: an upper limit of 20000 is taken for infinity; the result is then off by more than twenty times the relative tolerance, although no failure is reported. The quadrature is exact here.

## Axioms per theorem

Result of `#print axioms` on the 850 theorems named in `MANIFEST.json`: all depend on exactly `propext`, `Classical.choice`
and `Quot.sound`, except

* `JG.C01_inter_undefined`: [propext]
* `JG.C02_union_identity`: [propext]
* `JG.C04_shift_compose`: [propext]
* `JG.C04_border_undo`: [propext]
* `JG.C05_copy_defined`: [propext]
* `JG.C06_undefined_counterexample`: [propext]
* `JG.C50_dispatch`: none
* `JG.Fits.C52_counterexample_interrupt`: [propext]
* `JG.Fits.C52_read_dtype`: [propext]
* `JG.Conv.C100_bounds_to`: [propext]
* `JG.IName.C101_roundtrip`: [propext]
* `JG.C102_scope_unique`: [propext, Quot.sound]
* `JG.Pickle.C117_wrapper`: [propext, Quot.sound]
* `JG.Pickle.C117_twice`: none
* `JG.Compound.C119_sum`: [propext]
* `JG.Compound.C119_convolution`: [propext, Quot.sound]
* `JG.Compound.C119_convolve`: [propext]
* `JG.Compound.C119_nested_counterexample`: [propext, Quot.sound]
* `JG.Compound.C119_hard_edges_counterexample`: [propext, Quot.sound]
* `JG.C121_positional`: [propext, Quot.sound]
* `JG.C121_keywords`: [propext, Quot.sound]
* `JG.C121_four`: [propext]
* `JG.C121_delta_covers`: [propext]
* `JG.C121_point`: [propext]
* `JG.C121_nothing`: [propext]
* `JG.C121_order`: [propext]
