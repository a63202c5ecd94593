{"id": "C01", "title": "fft_pad returns the requested shape", "statement": "For an array of any rank >= 1 and any shape, and a requested shape of the same rank (None = keep that axis), fft_pad returns an array of exactly the requested shape, whether each axis grows, shrinks or stays; the only rejections are rank 0 (TypeError) and a non-'constant' mode asked to grow an empty axis (ValueError).", "quantifier": "every rank, every old shape, every requested shape, every padding mode", "why_tests_cant": "ranges over unboundedly many shapes/values; a test only samples a few", "anchors": ["pyotf/utils.py:fft_pad", "pyotf/utils.py:_padding_slices", "pyotf/utils.py:_calc_pad", "pyotf/utils.py:_calc_crop"]}
{"id": "C02", "title": "fft_pad keeps data aligned", "statement": "fft_pad places the old data so that index (n+1)//2 of every axis keeps that role: new element i is old element i-(new+1)//2+(old+1)//2 whenever that index exists, and (mode='constant') 0 otherwise.", "quantifier": "every rank, shape pair, array content and index", "why_tests_cant": "ranges over unboundedly many shapes/values; a test only samples a few", "anchors": ["pyotf/utils.py:fft_pad", "pyotf/utils.py:_calc_pad"]}
{"id": "C03", "title": "cropping back undoes padding", "statement": "Padding an array to a larger shape (any mode) and calling fft_pad again with the original shape gives back the original array exactly.", "quantifier": "every rank, every pair old<=new, every content, every padding mode", "why_tests_cant": "ranges over unboundedly many shapes/values; a test only samples a few", "anchors": ["pyotf/utils.py:fft_pad", "pyotf/utils.py:_padding_slices"]}
{"id": "C04", "title": "when fft_pad keeps the FFT centre", "statement": "The FFT centre (index n//2, where fftshift puts frequency zero) of an axis lands on the FFT centre of the new axis exactly when old and new lengths have the same parity; odd->even lands one sample low and even->odd one sample high.", "quantifier": "every pair of lengths", "why_tests_cant": "the docstring samples 6 pairs and none of them checks the centre", "anchors": ["pyotf/utils.py:_calc_pad"]}
{"id": "C05", "title": "slice_maker selects the centred window", "statement": "For any real centre/width, the slice returned for an axis selects, on an axis of any length, exactly the indices i of the axis with x-w//2 <= i < x+(w-w//2), x and w being the inputs rounded half-to-even; it is never inverted and never wraps around through a negative bound.", "quantifier": "every centre (negative, outside included), every non-negative width, every axis length", "why_tests_cant": "ranges over unboundedly many shapes/values; a test only samples a few", "anchors": ["pyotf/utils.py:slice_maker"]}
{"id": "C06", "title": "slice_maker input validation", "statement": "slice_maker rejects complex input (TypeError), any negative width (ValueError) and a width sequence whose length differs from the centres (RuntimeError); a scalar width is used for every axis; anything else is accepted and gives one slice per centre.", "quantifier": "every centre list and width argument", "why_tests_cant": "ranges over unboundedly many shapes/values; a test only samples a few", "anchors": ["pyotf/utils.py:slice_maker"]}
{"id": "C07", "title": "easy_ifft inverts easy_fft exactly on even lengths", "statement": "easy_ifft(easy_fft(x)) == x and easy_fft(easy_ifft(x)) == x for every array provided each transformed axis has even length (or length 1); for an odd length > 1 it is false: the round trip on one axis is x moved by one sample and multiplied by a phase ramp.", "quantifier": "every rank, shape, axis set and complex content (exact arithmetic)", "why_tests_cant": "tests never round-trip, and the statement is about all lengths and contents", "anchors": ["pyotf/utils.py:easy_fft", "pyotf/utils.py:easy_ifft"]}
{"id": "C08", "title": "easy_fft is the centred DFT", "statement": "easy_fft(x)[k] on an axis of length n is sum_j x[j] exp(-2 pi i (j-n//2)(k-n//2)/n): both domains have their origin at index n//2 (even and odd n).", "quantifier": "every length, content and frequency", "why_tests_cant": "ranges over unboundedly many shapes/values; a test only samples a few", "anchors": ["pyotf/utils.py:easy_fft"]}
{"id": "C09", "title": "easy_fft conserves energy", "statement": "sum |easy_fft(x)|^2 == N * sum |x|^2 with N the product of the transformed lengths, for every rank and axis set.", "quantifier": "every rank, shape, axis set and content (exact arithmetic)", "why_tests_cant": "ranges over unboundedly many shapes/values; a test only samples a few", "anchors": ["pyotf/utils.py:easy_fft"]}
{"id": "C10", "title": "cart2pol is a polar decomposition", "statement": "For every point cart2pol returns (rho, theta) with rho >= 0, -pi < theta <= pi, rho cos theta == x, rho sin theta == y, and any other pair with those properties and rho > 0 is the same pair.", "quantifier": "every real point", "why_tests_cant": "tests sample 10 random points", "anchors": ["pyotf/utils.py:cart2pol"]}
{"id": "C11", "title": "center_data centres the maximum and loses nothing", "statement": "center_data returns an array of the same shape holding the (first, C-order) maximum at index n//2 of every axis; every element is the original element displaced by the same cyclic offset, so the multiset of values is unchanged and ifftshift puts the maximum at the origin.", "quantifier": "every rank, shape and content", "why_tests_cant": "ranges over unboundedly many shapes/values; a test only samples a few", "anchors": ["pyotf/utils.py:center_data"]}
{"id": "C12", "title": "remove_bg subtracts the mode", "statement": "remove_bg(data, k) subtracts k times the most frequent value (the smallest one on ties) from every element, for any non-negative integer data; negative integers and empty data are rejected.", "quantifier": "every integer array and multiplier", "why_tests_cant": "ranges over unboundedly many shapes/values; a test only samples a few", "anchors": ["pyotf/utils.py:remove_bg"]}
{"id": "C13", "title": "psqrt", "statement": "psqrt is the non-negative square root of the positive part: zero on negative input, its square is the input on non-negative input, monotone.", "quantifier": "every real", "why_tests_cant": "tests sample 20 integers", "anchors": ["pyotf/utils.py:psqrt"]}
{"id": "C14", "title": "prep_data_for_PR: pad path", "statement": "When xysize is omitted or at least both lateral sizes, prep_data_for_PR returns an (nz, xysize, xysize) array with no negative value, equal to max(0, data - multiplier*mode) inside the aligned window and 0 elsewhere.", "quantifier": "every shape, content, multiplier and xysize >= max(ny, nx)", "why_tests_cant": "ranges over unboundedly many shapes/values; a test only samples a few", "anchors": ["pyotf/utils.py:prep_data_for_PR"]}
{"id": "C15", "title": "prep_data_for_PR: crop path", "statement": "When xysize is smaller than both lateral sizes the result has shape (nz, xysize, xysize) and is a window of the centred, background-subtracted data; negative values are NOT clipped, the peak sits at index xysize//2 only on even axes (one lower on odd ones), and the result is not square when one lateral size exceeds xysize while the other is smaller than xysize, or equal to it and odd (equal and even stays square); with xysize=1 on odd axes the peak is outside the window.", "quantifier": "every shape, content, multiplier and xysize < max(ny, nx)", "why_tests_cant": "the documented contract (clip at zero, pad or crop to xysize) is false on this branch and no test enters it", "anchors": ["pyotf/utils.py:prep_data_for_PR"]}
{"id": "C16", "title": "bin_ndarray sums blocks", "statement": "bin_ndarray(a, bin_size=b) drops the trailing remainder of each axis and returns shape old//b whose element q is the sum (or mean) of the b-sized block starting at q*b on every axis.", "quantifier": "every rank, shape, bin sizes >= 1, content", "why_tests_cant": "ranges over unboundedly many shapes/values; a test only samples a few", "anchors": ["pyotf/utils.py:bin_ndarray"]}
{"id": "C17", "title": "bin_ndarray conserves the total", "statement": "The total of a binned array equals the total of the input when the bins divide the shape (operation 'sum'); with 'mean' the average is conserved.", "quantifier": "every rank, shape, bin sizes, content", "why_tests_cant": "ranges over unboundedly many shapes/values; a test only samples a few", "anchors": ["pyotf/utils.py:bin_ndarray"]}
{"id": "C18", "title": "bin_ndarray argument checks", "statement": "bin_ndarray raises ValueError when neither new_shape nor bin_size is given, for an unknown operation, for a rank mismatch and for a new_shape that does not divide the old one; operation names are case-insensitive.", "quantifier": "every argument combination", "why_tests_cant": "ranges over unboundedly many shapes/values; a test only samples a few", "anchors": ["pyotf/utils.py:bin_ndarray"]}
{"id": "C19", "title": "radial_profile averages rings", "statement": "radial_profile's bin k is the mean of the elements whose distance from the centre divided by binsize rounds (half to even) to k, the std is the population std of the same elements (never the root of a negative number), and complex data are handled as real + i imag.", "quantifier": "every shape, content, centre, bin size > 0", "why_tests_cant": "ranges over unboundedly many shapes/values; a test only samples a few", "anchors": ["pyotf/utils.py:radial_profile"]}
{"id": "C20", "title": "radial_profile has no empty ring at unit bins", "statement": "With binsize 1 and the default centre every bin up to the largest is non-empty for data of any rank and shape (no NaN); hence a constant image has a constant profile with zero std.", "quantifier": "every rank and non-empty shape", "why_tests_cant": "the code comment claims it; tests check one 11x11 image", "anchors": ["pyotf/utils.py:radial_profile"]}
{"id": "C21", "title": "NumericProperty validation", "statement": "Assigning a numeric property raises TypeError for a wrong type, ValueError for a negative number, otherwise it stores it; a rejected assignment changes nothing and an equal value neither replaces the stored value nor invalidates anything. Zero and NaN are accepted although the message says 'must be larger than 0'.", "quantifier": "every Python scalar and every prior value", "why_tests_cant": "ranges over unboundedly many shapes/values; a test only samples a few", "anchors": ["pyotf/utils.py:NumericProperty"]}
{"id": "C22", "title": "Noll <-> degrees are inverse", "statement": "noll2degrees and degrees2noll are mutually inverse bijections between 1..120 and the admissible (n,m) with n <= 14.", "quantifier": "all 120 indices / all 120 pairs", "why_tests_cant": "tests draw 10 random indices below 36", "anchors": ["pyotf/zernike.py:noll2degrees", "pyotf/zernike.py:degrees2noll", "pyotf/zernike.py:noll_mapping"]}
{"id": "C23", "title": "Noll numbering is the standard one", "statement": "degrees2noll(n,m) is Noll's index n(n+1)/2+|m|+{0,1} with the standard parity rule (even index <-> cosine mode), for every admissible pair in the table.", "quantifier": "all admissible pairs", "why_tests_cant": "tests check the first 10", "anchors": ["pyotf/zernike.py:noll_mapping", "pyotf/zernike.py:degrees2noll"]}
{"id": "C24", "title": "Noll lookup errors", "statement": "noll2degrees raises ValueError when any index is < 1 and IndexError when any exceeds 120; degrees2noll raises ValueError on a parity mismatch but does NOT reject |m|>n or negative n: such pairs silently alias the index of another mode.", "quantifier": "every list of integers", "why_tests_cant": "ranges over unboundedly many shapes/values; a test only samples a few", "anchors": ["pyotf/zernike.py:noll2degrees", "pyotf/zernike.py:degrees2noll"]}
{"id": "C25", "title": "radial polynomials", "statement": "Inside the unit disk the radial part returned for (n,m) is the textbook Zernike radial polynomial sum_k (-1)^k (n-k)!/(k!((n+m)/2-k)!((n-m)/2-k)!) r^(n-2k) times (-1)^m: exactly the textbook one for even m and its negative for odd m (tip, tilt, coma, trefoil ...).", "quantifier": "every admissible (n,m), every r in [0,1]", "why_tests_cant": "test_norm only checks squares, so a sign error is invisible to tests", "anchors": ["pyotf/zernike.py:_radial_zernike"]}
{"id": "C26", "title": "Zernike modes are orthonormal", "statement": "With the default normalisation (which is norm=True although documented False) the mean over the unit disk of the product of two modes is 1 if they are the same mode and 0 otherwise.", "quantifier": "every pair of admissible (n,m), unbounded degree", "why_tests_cant": "tests integrate numerically 15 modes with degree-dependent tolerance", "anchors": ["pyotf/zernike.py:_zernike", "pyotf/zernike.py:_radial_zernike"]}
{"id": "C27", "title": "Zernike support and parity", "statement": "zernike is 0 outside the unit disk and for every pair with n-|m| odd, is even/odd under rotation by pi according to n, and sin/cos according to the sign of m.", "quantifier": "every (n,m), r, theta", "why_tests_cant": "ranges over unboundedly many shapes/values; a test only samples a few", "anchors": ["pyotf/zernike.py:_zernike", "pyotf/zernike.py:_radial_zernike"]}
{"id": "C28", "title": "zernike argument handling", "statement": "zernike raises ValueError for a negative r, rank > 2 of r, n < |m|, a bad number of positional arguments or rank > 2 of the index; a flat pair (a, b) given as one argument is read as two Noll indices, not as degrees (n, m).", "quantifier": "every argument combination", "why_tests_cant": "ranges over unboundedly many shapes/values; a test only samples a few", "anchors": ["pyotf/zernike.py:zernike"]}
{"id": "C29", "title": "aberration names", "statement": "The 15 aberration names and Noll indices 1..15 are in bijection and each name denotes the degrees (n,m) of the classical aberration.", "quantifier": "all names", "why_tests_cant": "finite table checked whole", "anchors": ["pyotf/zernike.py:noll2name", "pyotf/zernike.py:name2noll"]}
{"id": "C30", "title": "named aberration coefficients", "statement": "named_aberration_to_pcoefs(name, a) has length 15, a at index noll-1 and 0 elsewhere, and raises KeyError for any other name; apply_named_aberrations uses the sum over the dictionary, independent of its order.", "quantifier": "every string, magnitude, dictionary", "why_tests_cant": "ranges over unboundedly many shapes/values; a test only samples a few", "anchors": ["pyotf/otf.py:named_aberration_to_pcoefs", "pyotf/otf.py:apply_named_aberrations"]}
{"id": "C31", "title": "a HanserPSF is always coherent with its parameters", "statement": "After any history of attribute assignments (accepted or rejected), pupil applications and reads, every read of PSFa, OTFa, PSFi, OTFi returns what a cache-free object with the same current parameters and pupil would compute.", "quantifier": "every finite history of operations on a constructed object", "why_tests_cant": "histories are unbounded and stale caches show only in specific interleavings", "anchors": ["pyotf/otf.py:BasePSF", "pyotf/otf.py:HanserPSF", "pyotf/utils.py:NumericProperty"]}
{"id": "C32", "title": "a SheppardPSF is always coherent with its parameters", "statement": "Same as C31 for SheppardPSF (including dual).", "quantifier": "every finite history of operations", "why_tests_cant": "as C31", "anchors": ["pyotf/otf.py:SheppardPSF", "pyotf/otf.py:BasePSF"]}
{"id": "C33", "title": "rejected assignments leave the model untouched", "statement": "An attribute assignment that raises leaves every parameter and every subsequently readable output unchanged.", "quantifier": "every object state, attribute, value", "why_tests_cant": "ranges over unboundedly many shapes/values; a test only samples a few", "anchors": ["pyotf/otf.py:BasePSF", "pyotf/otf.py:HanserPSF", "pyotf/otf.py:SheppardPSF"]}
{"id": "C34", "title": "constructor acceptance", "statement": "HanserPSF/SheppardPSF construction succeeds exactly when wl, na, ni, size, zsize have the right type and are non-negative, res is below wl/(2 na), zres is positive (Sheppard: and below wl/(2 ni)), vec_corr and condition are known keywords; omitted zres/zsize default to res/size. NaN and infinities: an infinite wavelength raises ZeroDivisionError; a NaN wavelength or aperture is accepted and switches the sampling limit off; an infinite aperture admits only negative pixel sizes; a NaN or -inf pixel size is accepted.", "quantifier": "every argument tuple", "why_tests_cant": "ranges over unboundedly many shapes/values; a test only samples a few", "anchors": ["pyotf/otf.py:BasePSF.__init__"]}
{"id": "C35", "title": "sampling limit after construction", "statement": "Right after construction and right after any accepted assignment of res the pixel size is below the Abbe limit wl/(2 na); later assignments of wl or na are not re-validated, so the limit can be violated silently (likewise Sheppard's zres limit), and res <= 0 is never rejected.", "quantifier": "every history", "why_tests_cant": "requires a history of assignments, tests do one", "anchors": ["pyotf/otf.py:BasePSF.res", "pyotf/otf.py:SheppardPSF.zres"]}
{"id": "C36", "title": "default z planes", "statement": "The default zrange has zsize planes spaced by zres with the focal plane z=0 at index (zsize+1)//2; it contains the focal plane iff zsize >= 2; for odd zsize the planes run from -(zsize+1)/2 to (zsize-3)/2 times zres, so they are not symmetric about the focus. An accepted assignment of zsize or zres regenerates it (discarding a custom one, even if the value is the same), assigning zrange leaves zsize and zres alone.", "quantifier": "every zsize, zres, history", "why_tests_cant": "ranges over unboundedly many shapes/values; a test only samples a few", "anchors": ["pyotf/otf.py:HanserPSF._gen_zrange", "pyotf/otf.py:HanserPSF.zsize", "pyotf/otf.py:HanserPSF.zres"]}
{"id": "C37", "title": "when an applied pupil is in force", "statement": "After a successful apply_pupil(P) the outputs are those of P through reads, rejected assignments and assignments giving wl, na, ni or size the value they have; any other accepted assignment (res, zres, zsize, vec_corr, condition, zrange count even with the same value) and a failed apply_pupil forget it, after which the outputs are those of the ideal pupil.", "quantifier": "every history", "why_tests_cant": "ranges over unboundedly many shapes/values; a test only samples a few", "anchors": ["pyotf/otf.py:HanserPSF.apply_pupil", "pyotf/otf.py:BasePSF._attribute_changed"]}
{"id": "C38", "title": "aberrating a copy", "statement": "apply_aberration, apply_named_aberration(s) leave the model passed in unchanged; the result depends only on its parameters and the coefficients, ignoring any previously applied pupil - except that with both coefficient vectors None a plain copy (with any applied pupil) is returned.", "quantifier": "every model state and coefficient vector", "why_tests_cant": "ranges over unboundedly many shapes/values; a test only samples a few", "anchors": ["pyotf/otf.py:apply_aberration"]}
{"id": "C39", "title": "PSFi is non-negative and is the summed squared amplitude", "statement": "PSFi >= 0 everywhere and PSFi[z,y,x] = sum over components of |PSFa|^2, shape (number of z planes, size, size).", "quantifier": "every parameter set and pupil", "why_tests_cant": "tests check two parameter sets", "anchors": ["pyotf/otf.py:BasePSF.PSFi"]}
{"id": "C40", "title": "every z plane carries the same energy", "statement": "For any pupil, condition and vectorial correction, the sum of PSFi over a z plane is the same for every plane, equal to the pupil energy divided by size^2 (Parseval).", "quantifier": "every parameter set, pupil, plane (exact arithmetic)", "why_tests_cant": "ranges over unboundedly many shapes/values; a test only samples a few", "anchors": ["pyotf/otf.py:HanserPSF._gen_psf", "pyotf/otf.py:HanserPSF._calc_defocus"]}
{"id": "C41", "title": "z planes are independent", "statement": "The PSF plane computed at a given z does not depend on the other planes requested.", "quantifier": "every parameter set, pupil and pair of zranges", "why_tests_cant": "ranges over unboundedly many shapes/values; a test only samples a few", "anchors": ["pyotf/otf.py:HanserPSF._calc_defocus", "pyotf/otf.py:HanserPSF._gen_psf"]}
{"id": "C42", "title": "vectorial 'total' is the sum of x, y and z", "statement": "PSFi with vec_corr='total' is the sum of PSFi with 'x', 'y', 'z' (Hanser; Sheppard with one objective), and the total energy is exactly twice that of the squared apodisation (for Hanser: exactly twice the plane energy of vec_corr='none').", "quantifier": "every parameter set and pupil", "why_tests_cant": "ranges over unboundedly many shapes/values; a test only samples a few", "anchors": ["pyotf/otf.py:HanserPSF._gen_psf", "pyotf/otf.py:SheppardPSF._gen_radsym_otf", "pyotf/otf.py:BasePSF.PSFi"]}
{"id": "C43", "title": "number of field components", "statement": "PSFa and OTFa have 1, 2, 2, 2, 6 components for vec_corr none, x, y, z, total, for both models.", "quantifier": "every parameter set", "why_tests_cant": "ranges over unboundedly many shapes/values; a test only samples a few", "anchors": ["pyotf/otf.py:HanserPSF._gen_psf", "pyotf/otf.py:SheppardPSF._gen_otf"]}
{"id": "C44", "title": "OTFi is Hermitian with its maximum at DC", "statement": "OTFi at index n//2 on every axis is the total of PSFi, |OTFi| never exceeds it, and OTFi at opposite frequencies is complex conjugate.", "quantifier": "every parameter set and pupil", "why_tests_cant": "ranges over unboundedly many shapes/values; a test only samples a few", "anchors": ["pyotf/otf.py:BasePSF.OTFi"]}
{"id": "C45", "title": "diffraction limit", "statement": "When res is below the Nyquist limit wl/(4 na), the lateral Fourier transform of every plane of PSFi (ideal pupil or any pupil supported in the NA disk) vanishes at every grid frequency >= 2 na/wl, and so does OTFi.", "quantifier": "every parameter set below Nyquist, every masked pupil, every frequency", "why_tests_cant": "ranges over unboundedly many shapes/values; a test only samples a few", "anchors": ["pyotf/otf.py:HanserPSF._gen_pupil", "pyotf/otf.py:HanserPSF._gen_psf"]}
{"id": "C46", "title": "symmetry of the ideal PSF", "statement": "Without aberration and with 0 < res < wl/(2 na), PSFi is symmetric under the mirror y -> -y and the mirror x -> -x about index n//2 (indices mod n) and under z -> -z; exchange of x and y leaves it unchanged for vec_corr none, z and total and turns the 'x' model into the 'y' model.", "quantifier": "every parameter set, plane, pixel", "why_tests_cant": "ranges over unboundedly many shapes/values; a test only samples a few", "anchors": ["pyotf/otf.py:HanserPSF._gen_psf"]}
{"id": "C47", "title": "the in-focus peak", "statement": "Scalar theory: for a real non-negative pupil PSFi has its maximum over all planes and pixels at pixel (n//2, n//2) of the in-focus plane; for any pupil every value of PSFi is at most that of the in-focus PSF with the same pupil magnitude and no phase (Strehl <= 1).", "quantifier": "every parameter set and pupil", "why_tests_cant": "ranges over unboundedly many shapes/values; a test only samples a few", "anchors": ["pyotf/otf.py:HanserPSF._gen_psf"]}
{"id": "C48", "title": "apply_pupil is linear", "statement": "PSFa is linear in the applied pupil; multiplying a pupil by a unit-modulus constant (piston) leaves PSFi unchanged.", "quantifier": "every parameter set, pupils, scalars", "why_tests_cant": "ranges over unboundedly many shapes/values; a test only samples a few", "anchors": ["pyotf/otf.py:HanserPSF.apply_pupil"]}
{"id": "C49", "title": "zero aberration is the identity and phase aberration conserves energy", "statement": "apply_aberration with all-zero coefficients gives the unaberrated PSFa; with only phase coefficients |pupil| is the ideal pupil, so the energy of each plane is unchanged; piston alone leaves PSFi unchanged.", "quantifier": "every parameter set and coefficient vector (up to 120)", "why_tests_cant": "ranges over unboundedly many shapes/values; a test only samples a few", "anchors": ["pyotf/otf.py:apply_aberration"]}
{"id": "C50", "title": "Sheppard support", "statement": "With dual=False OTFa of a SheppardPSF is exactly 1 (scalar) or the apodised polarisation factor of the direction on the cap of the sphere |k| = ni/wl, and 0 elsewhere; every non-zero (or NaN) sample lies within one pixel of that shell and has kz (|kz| with dual=True) above sqrt((ni/wl)^2-(na/wl)^2) by at least the smaller pixel; with dual=True and a scalar field OTFa is symmetric under kz -> -kz.", "quantifier": "every parameter set with size, zsize >= 3 and res > 0, every grid point", "why_tests_cant": "ranges over unboundedly many shapes/values; a test only samples a few", "anchors": ["pyotf/otf.py:SheppardPSF._gen_kr", "pyotf/otf.py:SheppardPSF._gen_otf"]}
{"id": "C51", "title": "Sheppard ignores condition for scalar fields", "statement": "With vec_corr='none' a SheppardPSF gives the same OTFa for every condition, while for a vectorial correction the samples are scaled by 1/sqrt(s) or 1/s.", "quantifier": "every parameter set", "why_tests_cant": "no test compares conditions", "anchors": ["pyotf/otf.py:SheppardPSF._gen_otf"]}
{"id": "C52", "title": "Sheppard dual vectorial fields are NaN", "statement": "With dual=True, condition='sine' and a vectorial correction every sample on the lower (kz<0) cap is NaN, hence all of PSFa, PSFi and OTFi; for 'x' and 'y' the pole of the lower cap is NaN whatever the condition; without dual no NaN ever occurs in OTFa, PSFa, PSFi or OTFi.", "quantifier": "every parameter set with size, zsize >= 3 and res > 0 whose OTFa can be computed", "why_tests_cant": "ranges over unboundedly many shapes/values; a test only samples a few", "anchors": ["pyotf/otf.py:SheppardPSF._gen_otf"]}
{"id": "C53", "title": "microscope PSF is normalised", "statement": "PSF sums to 1 whenever the model PSF has a non-zero total and the OTF is 1 at the centre.", "quantifier": "every microscope kind and parameter set with non-zero total", "why_tests_cant": "ranges over unboundedly many shapes/values; a test only samples a few", "anchors": ["pyotf/microscope.py:WidefieldMicroscope.PSF", "pyotf/microscope.py:WidefieldMicroscope.OTF"]}
{"id": "C54", "title": "oversampling keeps the centre", "statement": "For odd oversampling the block summed into pixel (size//2, size//2) is exactly the block centred on the model's centre pixel, for even and odd sizes; the PSF has shape (zsize, size, size).", "quantifier": "every size and odd factor", "why_tests_cant": "ranges over unboundedly many shapes/values; a test only samples a few", "anchors": ["pyotf/microscope.py:WidefieldMicroscope.PSF"]}
{"id": "C55", "title": "oversample_factor validation", "statement": "Construction with an even factor (0 included) fails an assertion, a negative one raises ValueError and a non-integer TypeError; the explicit 'must be positive' ValueError is unreachable.", "quantifier": "every value", "why_tests_cant": "ranges over unboundedly many shapes/values; a test only samples a few", "anchors": ["pyotf/microscope.py:WidefieldMicroscope.__init__"]}
{"id": "C56", "title": "microscope cache and its limits", "statement": "PSF/OTF reflect the current microscope for histories that only use the numeric properties; mutating the inner model, wiener, orientations or the returned array leaves a stale PSF, and changing oversample_factor does not re-sample the model.", "quantifier": "every history", "why_tests_cant": "ranges over unboundedly many shapes/values; a test only samples a few", "anchors": ["pyotf/microscope.py:WidefieldMicroscope._attribute_changed", "pyotf/microscope.py:WidefieldMicroscope.PSF"]}
{"id": "C57", "title": "pinhole kernel", "statement": "The pinhole kernel has odd size, contains the whole disk, is symmetric, non-negative and sums to 1 for every radius > 0.", "quantifier": "every radius", "why_tests_cant": "ranges over unboundedly many shapes/values; a test only samples a few", "anchors": ["pyotf/microscope.py:_disk_kernel"]}
{"id": "C58", "title": "confocal PSF", "statement": "The confocal PSF is the product of excitation and pinhole-convolved detection PSFs, non-negative, and equals the plain product for pinholes of radius <= 1.5 pixels; assigning wl_exc has no effect on it and reading wl_exc before assignment raises AttributeError.", "quantifier": "every parameter set", "why_tests_cant": "ranges over unboundedly many shapes/values; a test only samples a few", "anchors": ["pyotf/microscope.py:ConfocalMicroscope"]}
{"id": "C59", "title": "SIM excitation patterns", "statement": "The effective 2D-SIM PSF is psf * sum over orientations (2+2cos(2 f sin(a) r)); with dc_suppress one copy of psf remains: psf*(1+sum 2cos); 3D-SIM and lattice SIM follow the three-beam and coherent formulas.", "quantifier": "every orientation list, parameter set, voxel", "why_tests_cant": "ranges over unboundedly many shapes/values; a test only samples a few", "anchors": ["pyotf/microscope.py:BaseSIMMicroscope.model_psf"]}
{"id": "C60", "title": "SIM constructor quirks", "statement": "wiener=None, documented as 'no deconvolution', always raises TypeError at construction; na_exc/wl_exc omitted raises TypeError when the emission na/wl were given as int.", "quantifier": "every parameter set", "why_tests_cant": "no test constructs a SIM microscope", "anchors": ["pyotf/microscope.py:BaseSIMMicroscope.__init__"]}
{"id": "C61", "title": "microscope repr", "statement": "Re-building a microscope from the arguments shown by repr gives the same model size iff oversample_factor is 1.", "quantifier": "every parameter set", "why_tests_cant": "ranges over unboundedly many shapes/values; a test only samples a few", "anchors": ["pyotf/microscope.py:WidefieldMicroscope.__repr__"]}
{"id": "C62", "title": "retrieve_phase terminates within max_iters", "statement": "retrieve_phase performs at least 1 and at most max_iters iterations, the three convergence arrays have that common length, only the last iteration can satisfy the stopping rule, and the first entries of the two difference arrays are NaN.", "quantifier": "every data, parameters, tolerances, max_iters", "why_tests_cant": "ranges over unboundedly many shapes/values; a test only samples a few", "anchors": ["pyotf/phaseretrieval.py:retrieve_phase"]}
{"id": "C63", "title": "error reduction", "statement": "Each iteration, with phase_only=False or True, does not increase the amplitude error sum (|PSFa|-sqrt(max(0,data)))^2.", "quantifier": "every data set, parameter set and iteration (exact arithmetic)", "why_tests_cant": "convergence behaviour over all data cannot be sampled", "anchors": ["pyotf/phaseretrieval.py:retrieve_phase"]}
{"id": "C64", "title": "true pupil is a fixed point", "statement": "If data is the PSFi of a pupil supported in the NA disk then one iteration started at that pupil returns it, and its mse is 0.", "quantifier": "every supported pupil", "why_tests_cant": "ranges over unboundedly many shapes/values; a test only samples a few", "anchors": ["pyotf/phaseretrieval.py:retrieve_phase"]}
{"id": "C65", "title": "retrieved pupil support", "statement": "The magnitude and phase of the result are 0 outside the NA disk; with phase_only the magnitude after at least one update is exactly 1 inside.", "quantifier": "every data set and iteration count", "why_tests_cant": "ranges over unboundedly many shapes/values; a test only samples a few", "anchors": ["pyotf/phaseretrieval.py:retrieve_phase"]}
{"id": "C66", "title": "result consistency on convergence and on exhaustion", "statement": "If the stopping rule fired, the model in the result and mse[-1] belong to the returned pupil; if max_iters was exhausted they belong to the previous iterate.", "quantifier": "every run", "why_tests_cant": "ranges over unboundedly many shapes/values; a test only samples a few", "anchors": ["pyotf/phaseretrieval.py:retrieve_phase"]}
{"id": "C67", "title": "retrieve_phase overwrites the caller's parameters", "statement": "The params dictionary of the caller is updated in place with vec_corr, condition, zsize, size and nothing else.", "quantifier": "every dictionary", "why_tests_cant": "ranges over unboundedly many shapes/values; a test only samples a few", "anchors": ["pyotf/phaseretrieval.py:retrieve_phase"]}
{"id": "C68", "title": "result pupil round trip", "statement": "complex_pupil of the result is the fftshift of the last pupil and generate_psf() without arguments is the PSFi of that pupil (for any phase unwrapping by multiples of 2 pi).", "quantifier": "every run", "why_tests_cant": "ranges over unboundedly many shapes/values; a test only samples a few", "anchors": ["pyotf/phaseretrieval.py:PhaseRetrievalResult"]}
{"id": "C69", "title": "generate_psf resizing", "statement": "generate_psf(size=s) has lateral shape (s, s) for every s; cropping keeps the FFT centre n//2 -> s//2, padding keeps it only for equal parity.", "quantifier": "every size pair", "why_tests_cant": "ranges over unboundedly many shapes/values; a test only samples a few", "anchors": ["pyotf/phaseretrieval.py:PhaseRetrievalResult._generate_psf"]}
{"id": "C70", "title": "Zernike fit", "statement": "fit_to_zernikes recovers exactly any pupil that is a combination of the fitted modes (if the sampled modes are independent), is a least-squares optimum, and fit_to_zernikes(1) always raises.", "quantifier": "every pupil, number of modes", "why_tests_cant": "ranges over unboundedly many shapes/values; a test only samples a few", "anchors": ["pyotf/phaseretrieval.py:_fit_to_zerns", "pyotf/phaseretrieval.py:PhaseRetrievalResult.fit_to_zernikes"]}
{"id": "C71", "title": "reconstruction is additive over slices", "statement": "phase(s)/mag(s) over a partition of the modes add up to the full reconstruction; the default generate_zd_psf drops exactly piston, tip, tilt, defocus from the phase.", "quantifier": "every coefficient vector and split", "why_tests_cant": "ranges over unboundedly many shapes/values; a test only samples a few", "anchors": ["pyotf/phaseretrieval.py:ZernikeDecomposition"]}
{"id": "C72", "title": "plot extents", "statement": "max_min(n,d) are the coordinates of the first and last pixel of an n//2-centred grid, fft_max_min(n,d) the smallest and largest fftfreq.", "quantifier": "every n >= 1, d", "why_tests_cant": "ranges over unboundedly many shapes/values; a test only samples a few", "anchors": ["pyotf/display.py:max_min", "pyotf/display.py:fft_max_min"]}
{"id": "C73", "title": "z_squeeze", "statement": "For positive indices and an aperture z_squeeze is a positive number, 1 without a change of index, multiplicative over a sequence of media, > 1 into a denser medium, and tends to n2/n1 for small apertures.", "quantifier": "every indices and NA > 0", "why_tests_cant": "laws over all real arguments", "anchors": ["pyotf/display.py:z_squeeze"]}
{"id": "C74", "title": "plot panel labels", "statement": "In psf_plot (slices and maximum projections) and otf_plot the panel titled XY shows x-y, but the panel titled YZ shows z-x and the one titled XZ shows y-z, with the axis ranges announced by the titles.", "quantifier": "every array", "why_tests_cant": "no display test", "anchors": ["pyotf/display.py:psf_plot", "pyotf/display.py:otf_plot"]}
{"id": "C75", "title": "labview wrapper", "statement": "labview(data, ...) is retrieve_phase of the default-prepared data with the given parameters, and its phase is a square list of max(ny,nx) rows.", "quantifier": "every data set and parameters", "why_tests_cant": "ranges over unboundedly many shapes/values; a test only samples a few", "anchors": ["pyotf/labview.py:labview"]}
{"id": "C76", "title": "the Hanser amplitude PSF is the diffraction integral of the pupil in force", "statement": "For every model with ordinary parameters, PSFa[c, iz, y, x] is the inverse discrete Fourier transform about pixel (n//2, n//2) of pupil x exp(2 pi i kz z) x apodisation x polarisation factor, where kz = sqrt(max(0,(ni/wl)^2-kr^2)), the pupil is the applied one or the aperture kr < na/wl; it can be computed exactly when wl, res and size are non-zero (and ni if directions matter).", "quantifier": "every parameter set, pupil of size x size, component, plane and pixel", "why_tests_cant": "a closed form for all sizes, parameters and pupils; a test samples a few", "anchors": ["pyotf/otf.py:HanserPSF._gen_kr", "pyotf/otf.py:HanserPSF._gen_pupil", "pyotf/otf.py:HanserPSF._calc_defocus", "pyotf/otf.py:HanserPSF._gen_psf", "pyotf/otf.py:HanserPSF.apply_pupil"]}
{"id": "C77", "title": "alignment of the SIM pattern with the PSF", "statement": "The excitation pattern of a SIM microscope has its origin at pixel (n+1)//2 of every axis, where all beams are in phase and the pattern is brightest; this is the centre n//2 of the PSF on even grids only - on odd grids pattern and PSF are one (oversampled) pixel apart.", "quantifier": "every grid size, orientation list and parameter set", "why_tests_cant": "ranges over unboundedly many sizes; no test builds a SIM microscope", "anchors": ["pyotf/microscope.py:BaseSIMMicroscope.model_psf"]}
{"id": "C78", "title": "outlines drawn over the OTF", "statement": "otf_plot draws, for 0 < na <= ni, a circle of radius 2 na/wl around the origin and per axial panel four arcs of radius ni/wl from the origin to the lateral cutoff 2 na/wl reaching the axial extent (ni - sqrt(ni^2-na^2))/wl - the boundary of the OTF support; the zero-frequency pixel appears at the origin for odd sizes only and pixels appear (1-1/n) frequency steps apart.", "quantifier": "every OTF array, every optical parameters with na <= ni, every size", "why_tests_cant": "geometry for all parameters and sizes; no test looks at the figure", "anchors": ["pyotf/display.py:otf_plot", "pyotf/display.py:fft_max_min"]}
{"id": "C79", "title": "the unit of length does not matter", "statement": "Multiplying wl, res, zres and every plane of zrange by one positive factor changes no image: HanserPSF and SheppardPSF accept the scaled arguments exactly when they accept the original ones, and PSFa, PSFi, OTFa and OTFi are identical arrays.", "quantifier": "every accepted set of arguments, every pupil, every positive scale factor", "why_tests_cant": "an invariance under a continuous group for all parameters; a test compares two settings", "anchors": ["pyotf/otf.py:BasePSF.__init__", "pyotf/otf.py:HanserPSF._gen_psf", "pyotf/otf.py:SheppardPSF._gen_otf"]}
{"id": "C80", "title": "a defocused pupil is a displacement of the planes", "statement": "Applying a pupil multiplied by exp(2 pi i kz z0), kz the axial frequency of each wave, gives the same PSFa as the unmultiplied pupil with z0 added to every plane of zrange.", "quantifier": "every parameter set, pupil (applied or ideal), displacement, component, plane and pixel", "why_tests_cant": "an identity in a real displacement for all pupils and parameters", "anchors": ["pyotf/otf.py:HanserPSF._calc_defocus", "pyotf/otf.py:HanserPSF.apply_pupil", "pyotf/otf.py:HanserPSF.zrange"]}
{"id": "C81", "title": "a tilted pupil translates the image", "statement": "Multiplying the pupil by the linear phase exp(-2 pi i (sy*i + sx*j)/n) moves PSFa (every component and plane) and PSFi by sy rows and sx columns, cyclically.", "quantifier": "every parameter set, pupil, integer translation, component, plane and pixel", "why_tests_cant": "for all pupils, sizes and translations", "anchors": ["pyotf/otf.py:HanserPSF._gen_psf", "pyotf/otf.py:HanserPSF.apply_pupil"]}
{"id": "C82", "title": "the OTF of a microscope is a normalised transfer function", "statement": "After any history of assignments and reads, whenever the OTF of a widefield, confocal or Apotome microscope can be read it is 1 at zero frequency and at most 1 in modulus everywhere; the OTF of every microscope, SIM included, takes conjugate values at opposite frequencies; and every element of the PSF of a widefield, confocal or Apotome microscope lies in [0, 1].", "quantifier": "every microscope kind, constructor arguments, history of assignments and reads, grid size and frequency", "why_tests_cant": "ranges over all histories, grids and frequencies", "anchors": ["pyotf/microscope.py:WidefieldMicroscope.OTF", "pyotf/microscope.py:WidefieldMicroscope.PSF"]}
{"id": "C83", "title": "the Wiener filter", "statement": "With Wiener parameter w the PSF the SIM microscopes modulate has spectrum |OTF|^2/(|OTF|^2+(w T)^2), T the total of the model PSF (the largest |OTF|): a gain in [0,1), increasing with the power, and 1/(1+w^2) at zero frequency; for w=0 the gain is 1 wherever |OTF|^2 > 1e-16 and 0 elsewhere. On even grids the filtered PSF has exactly this spectrum; on an odd axis the code returns that image displaced by one pixel and modulated by a cosine.", "quantifier": "every model PSF, Wiener parameter w >= 0 and grid size of either parity", "why_tests_cant": "for all spectra, parameters and grid parities", "anchors": ["pyotf/microscope.py:BaseSIMMicroscope.model_psf", "pyotf/utils.py:easy_ifft"]}
{"id": "C84", "title": "amplitude PSF and amplitude OTF are a Fourier pair", "statement": "HanserPSF.OTFa is, component by component, the centred discrete Fourier transform of PSFa over all three axes, and can be read exactly when PSFa can and has at least one plane and pixel. SheppardPSF.PSFa is the centred inverse transform of OTFa on even axes; on an odd axis the code returns that image displaced by one pixel and multiplied by a unit-modulus phase ramp. A NaN anywhere in a component of the Sheppard OTFa makes that whole component of PSFa NaN.", "quantifier": "every parameter set, vectorial correction, pupil, grid size of either parity, component, plane and pixel", "why_tests_cant": "for all pupils, sizes and parities; tests check one even grid", "anchors": ["pyotf/otf.py:HanserPSF.OTFa", "pyotf/otf.py:SheppardPSF.PSFa", "pyotf/utils.py:easy_fft", "pyotf/utils.py:easy_ifft"]}
{"id": "C85", "title": "position and energy of the Sheppard PSF", "statement": "SheppardPSF.PSFi is the summed squared modulus of the superposition of the plane waves on the Ewald cap, with its origin at pixel n//2 on even axes and n//2+1 on odd ones (off centre by one); the scalar PSF has its maximum there, positive as soon as a sample lies on the cap; and its sum over all voxels is the pupil energy (sum of |OTFa|^2) divided by the number of voxels.", "quantifier": "every parameter set with at least 3 pixels and planes, vectorial correction, apodisation, one or two objectives, voxel", "why_tests_cant": "for all optics, sizes and parities", "anchors": ["pyotf/otf.py:SheppardPSF.PSFa", "pyotf/otf.py:BasePSF.PSFi", "pyotf/otf.py:SheppardPSF._gen_radsym_otf"]}
{"id": "C86", "title": "symmetry of the Sheppard PSF", "statement": "SheppardPSF.PSFi is unchanged by inversion through its origin pixel, and by each of the three mirror reflections through it (for vectorial models: when no Nyquist sample lies on the cap); exchanging x and y leaves the scalar, 'z' and 'total' PSFs unchanged and turns the 'x' PSF into the 'y' PSF.", "quantifier": "every parameter set with at least 3 pixels and planes, grid parity, voxel", "why_tests_cant": "for all optics, sizes and voxels", "anchors": ["pyotf/otf.py:SheppardPSF._gen_radsym_otf", "pyotf/otf.py:BasePSF.PSFi"]}
{"id": "C87", "title": "attributes of a PSF model are always valid", "statement": "After any successful construction and any history of attribute assignments (accepted or rejected), pupils and reads, wl, na and ni are non-negative numbers, size and zsize non-negative integers, res a number, zres a positive number, vec_corr and condition recognised keywords, and zrange (HanserPSF) or dual (SheppardPSF) is present.", "quantifier": "every accepted constructor call and every finite history of operations with arbitrary Python values", "why_tests_cant": "an invariant over unbounded histories with arbitrary assigned values", "anchors": ["pyotf/utils.py:NumericProperty", "pyotf/otf.py:BasePSF", "pyotf/otf.py:HanserPSF", "pyotf/otf.py:SheppardPSF"]}
{"id": "C88", "title": "repr of a PSF model", "statement": "After any history, evaluating repr(model) succeeds exactly when the current res is below wl/(2 na) (SheppardPSF: and 0 < ni and zres below wl/(2 ni)); the rebuilt model has exactly the same parameters, custom planes included, and the same PSFa, OTFa, PSFi and OTFi if no pupil was applied, otherwise those of the unaberrated model.", "quantifier": "every constructor call, every history, every finite wl, na, ni, res, zres", "why_tests_cant": "all histories and parameters", "anchors": ["pyotf/otf.py:BasePSF.__repr__", "pyotf/otf.py:HanserPSF.__repr__", "pyotf/otf.py:SheppardPSF.__repr__"]}
{"id": "C89", "title": "what plot_psf shows", "statement": "plot_psf of a PSF model requires evenly spaced planes (HanserPSF: at least three, every step within 1e-8 + 1e-5|mean| of the mean step; otherwise RuntimeError and an unchanged model; default planes pass exactly if there are at least three), then shows the block of PSFi around its brightest voxel - along z the number of planes closest to 16 wl/(ni - sqrt(ni^2-na^2)), laterally the number of pixels closest to 32 Abbe limits, clipped to the stack, brightest voxel included - as the three projections of psf_plot; na > ni, negative res or too distant planes raise. Microscopes do the same with their PSF, using pixel_size also as the plane distance.", "quantifier": "every model state, optics, stack shape and content, list of planes", "why_tests_cant": "all images, sizes, optics and plane lists", "anchors": ["pyotf/otf.py:BasePSF._validate_zrange", "pyotf/otf.py:BasePSF.plot_psf", "pyotf/microscope.py:WidefieldMicroscope.plot_psf", "pyotf/utils.py:slice_maker", "pyotf/display.py:psf_plot"]}
{"id": "C90", "title": "what plot_otf shows", "statement": "plot_otf shows the three planes through zero frequency of |OTF| divided by its largest value and bounded below by 2^-52, on the frequency ranges of otf_plot; for PSF models after any history the largest value is that at zero frequency; for microscopes other than SIM it is 1, so the OTF itself is shown, with pixel_size used also as the plane distance.", "quantifier": "every model or microscope, history, stack shape", "why_tests_cant": "all histories, optics and sizes", "anchors": ["pyotf/otf.py:BasePSF.plot_otf", "pyotf/microscope.py:WidefieldMicroscope.plot_otf", "pyotf/display.py:otf_plot"]}
{"id": "C91", "title": "exposure of the data in phase retrieval", "statement": "With zero (or negative) tolerances, multiplying the data given to retrieve_phase by a constant c > 0 leaves the retrieved phase unchanged, multiplies the magnitude by sqrt(c) and mse[1:] by c**2; with phase_only=True and mse_tol <= 0 phase, magnitude, number of passes and pupil_diff are unchanged for any pupil_tol. With mse_tol > 0 this fails: mse_tol is compared with the error itself, so data that are dim enough stop after at most two passes.", "quantifier": "every stack, c > 0, valid parameters, number of iterations", "why_tests_cant": "all data and all factors", "anchors": ["pyotf/phaseretrieval.py:retrieve_phase"]}
{"id": "C92", "title": "what the plots of a retrieved pupil show", "statement": "PhaseRetrievalResult.plot() shows the phase on the fixed colour scale -pi..pi with exactly the pixels of zero magnitude masked, and the magnitude; every pixel outside the aperture is masked, and with phase_only=True no other. ZernikeDecomposition.plot(smag, sphase) of a fit shows the sums of the selected modes, everything outside the aperture masked. plot_convergence() draws mse, mse_diff, pupil_diff with one point per pass.", "quantifier": "every run of retrieve_phase, every fit of 2 to 120 modes, all slices", "why_tests_cant": "all data, grids and slices", "anchors": ["pyotf/phaseretrieval.py:PhaseRetrievalResult.plot", "pyotf/phaseretrieval.py:ZernikeDecomposition.plot", "pyotf/phaseretrieval.py:_plot_complex_pupil", "pyotf/phaseretrieval.py:PhaseRetrievalResult.plot_convergence"]}
{"id": "C93", "title": "names and coefficients in plot_named_coefs", "statement": "With 15 or more phase coefficients plot_named_coefs() draws one bar for each Noll number 5..15, labelled with the classical name of that mode (the one with those degrees in the fit) and as high as its coefficient. With exactly five coefficients all eleven bars have the height of the fifth; with any other number below 15 a ValueError is raised. plot_coefs() numbers the magnitude and phase coefficients from 1.", "quantifier": "every decomposition and number of coefficients", "why_tests_cant": "all coefficient lists of every length", "anchors": ["pyotf/phaseretrieval.py:ZernikeDecomposition.plot_named_coefs", "pyotf/phaseretrieval.py:ZernikeDecomposition.plot_coefs", "pyotf/zernike.py:noll2name"]}
{"id": "C94", "title": "assigned attributes read back and leave the others alone", "statement": "For microscopes of every class and PSF models of both classes, in every state: an accepted assignment to an attribute makes that attribute read the assigned value (or keep the equal number it had, in which case nothing at all changes) and no other attribute changes; a new value drops the cached PSF and OTF of a microscope. A value of the wrong type raises TypeError, a negative one ValueError, both leaving the microscope as it is: oversample_factor takes int, pinhole_size float or int, wl_exc and na_exc float, coherent, dc and dc_suppress bool. Hence after any history of constructor, assignments and reads all attributes of a microscope have the declared types and are not negative. The z planes of a HanserPSF change only with zsize, zres, zrange.", "quantifier": "every state of every object, every attribute, every Python value assigned; every history for validity", "why_tests_cant": "the claim ranges over all pairs of attributes, all values and all histories", "anchors": ["pyotf/microscope.py:WidefieldMicroscope", "pyotf/microscope.py:ConfocalMicroscope", "pyotf/microscope.py:BaseSIMMicroscope", "pyotf/otf.py:BasePSF", "pyotf/utils.py:NumericProperty"]}
{"id": "C95", "title": "the Apotome dims every plane by its transfer at half the Abbe limit", "statement": "After any history, if some plane of the PSF of the model of an ApotomeMicroscope is lit and the sampling is fine enough (res < wl / (2 na)), the model PSF of the microscope is defined and its plane iz is the plane of the PSF of its PSF model times |mean of the centred 2D spectrum of the plane over the pixels at rounded distance k//2 from the centre| / (energy of the brightest plane), k being the Abbe limit 2 na / wl in frequency pixels, rounded half to even; the factor lies in [0, 1]. For a Hanser model with ordinary arguments the factor is the modulus of the normalised transfer function of that very plane, so the Apotome PSF lies between 0 and the widefield PSF everywhere.", "quantifier": "every construction, every history, every PSF of the model with a lit plane; every ordinary argument list for the Hanser case", "why_tests_cant": "a closed form over all sizes, wavelengths, apertures and images; an off-by-one ring or a wrong normalisation changes the PSF only by a plane dependent factor that tests on shapes and ranges do not see", "anchors": ["pyotf/microscope.py:ApotomeMicroscope.model_psf", "pyotf/utils.py:radial_profile"]}
{"id": "C96", "title": "a PSF cannot tell a pupil from its twin", "statement": "Two Hanser models with the same optics, the second with the complex conjugate pupil: the intensity of the second at height -z is that of the first at height z inverted through the centre pixel (coordinates modulo the size). In particular apply_aberration with the opposite phase coefficients gives the stack inverted through its centre. If only modes of even azimuthal order occur (piston, defocus, astigmatism, spherical) and the sampling is below the Abbe limit, the opposite sign gives the same stack with the heights reversed, every plane is centrosymmetric, and an in-focus image does not depend on the sign at all.", "quantifier": "all optics, all vectorial modes and conditions, all pupils, all coefficient lists up to 120 modes, all pixels and planes, all heaps", "why_tests_cant": "an identity between two runs over all pupils and coefficients; a wrong sign convention or a shift by one pixel breaks it only for asymmetric pupils", "anchors": ["pyotf/otf.py:HanserPSF._gen_psf", "pyotf/otf.py:apply_aberration", "pyotf/zernike.py:zernike"]}
{"id": "C97", "title": "a git description is parsed back into its parts", "statement": "In a checkout that git describes as TAG-NUM-gHEX, with or without -dirty, git_pieces_from_vcs returns exactly that tag (without the prefix; it may contain hyphens), number, commit and dirty flag, and rendering them in the style git-describe-long prints the description again. Without a tag it returns no tag, the number of commits and seven digits of the commit. A tag is never invented: whenever a tag is reported, git's answer was that tag followed by the reported number, commit and flag. A description with a hyphen of another form gives version 'unknown' and an error in every style.", "quantifier": "all tags, prefixes, numbers, commits, dirty flags and all outcomes of the git commands", "why_tests_cant": "tags are arbitrary text, and only the greedy match makes the parse unambiguous for tags such as v1-2-gabc", "anchors": ["pyotf/_version.py:git_pieces_from_vcs", "pyotf/_version.py:run_command", "pyotf/_version.py:render_git_describe_long"]}
{"id": "C98", "title": "version strings", "statement": "render gives in every style the documented closed form of tag, distance, commit and dirty flag. For the package's style: if tags have no '+', two checkouts with the same version have the same closest tag and are both clean checkouts of it, or agree in distance, commit and dirty flag; a version has at most one '+' if the tag has. Any style not listed is a ValueError.", "quantifier": "all tags, distances, commits, dirty flags, dates and styles", "why_tests_cant": "unambiguity is a statement about all pairs of checkouts", "anchors": ["pyotf/_version.py:render", "pyotf/_version.py:render_pep440", "pyotf/_version.py:render_pep440_pre", "pyotf/_version.py:render_pep440_post", "pyotf/_version.py:render_pep440_old", "pyotf/_version.py:render_git_describe", "pyotf/_version.py:plus_or_dot"]}
{"id": "C99", "title": "the version of an archive", "statement": "From the keywords that git archive substitutes, the version is the smallest tag (in code point order) of the commit that starts with the prefix, without the prefix: only names decorated with 'tag: ' if any is, else the names containing a digit; '0+unknown' if there is none. The commit is the substituted one and the tree counts as clean. Unsubstituted keywords are never used.", "quantifier": "all lists of ref names, commits, dates and prefixes", "why_tests_cant": "lists of refs are unbounded and set order must not matter", "anchors": ["pyotf/_version.py:git_versions_from_keywords"]}
{"id": "C100", "title": "the version of the package", "statement": "pyotf.__version__ is the PEP 440 form of what git says about the checkout: tag, or 0+untagged.COUNT.gCOMMIT. Without git, outside a checkout or without __file__ it is '0+unknown' and nothing is raised. If git describes the checkout, importing the package raises if and only if there is no hyphen in the description and git cannot count the commits, or the description is well formed and git cannot tell the date of the commit. In an archive git and the directory are not consulted. If a directory prefix is configured, a tree git does not know takes its version from the directory's name.", "quantifier": "all outcomes of every git command (missing executables, failures, any output), all file locations", "why_tests_cant": "the environment is arbitrary: each of five commands may be missing, fail or answer anything", "anchors": ["pyotf/_version.py:get_versions", "pyotf/_version.py:git_pieces_from_vcs", "pyotf/__init__.py"]}
{"id": "C101", "title": "keywords and directory names are read back", "statement": "git_get_keywords returns exactly the text between the quotes of the three assignments of the file, whatever git substituted there (quotes and equal signs included) and whatever the other lines are; an unreadable file gives no keywords, which are then rejected. versions_from_parentdir takes the version from the innermost of three directory names that starts with the prefix, and does not apply otherwise.", "quantifier": "all files of that shape, all substituted values without line feeds, all directory names and prefixes", "why_tests_cant": "the substituted text is arbitrary", "anchors": ["pyotf/_version.py:git_get_keywords", "pyotf/_version.py:versions_from_parentdir"]}
{"id": "C102", "title": "padding in two steps", "statement": "fft_pad of zero-padded or cropped data through an intermediate shape gives the same array as padding directly to the final shape if, and only if, the intermediate shape is nowhere smaller than both the original and the final one; every step succeeds.", "quantifier": "all arrays of any rank and size, all intermediate and final shapes of the same rank", "why_tests_cant": "whether the centre stays the centre depends on the parity of three sizes per axis; the converse needs a counterexample for every other triple of shapes", "anchors": ["pyotf/utils.py:fft_pad", "pyotf/utils.py:_calc_pad", "pyotf/utils.py:_calc_crop"]}
{"id": "C103", "title": "binning in two steps", "statement": "bin_ndarray by one set of factors and then by another equals binning once by their products, for sums and for means, also when the sizes are not multiples of the factors (trailing pixels dropped by the two steps are exactly those dropped by the single one).", "quantifier": "all real arrays of any rank and size, all positive factors, both operations", "why_tests_cant": "it must hold for every remainder on every axis", "anchors": ["pyotf/utils.py:bin_ndarray"]}
{"id": "C104", "title": "center_data of moved or rescaled data", "statement": "If the maximum is attained at one pixel only, center_data gives the same result however the data were displaced cyclically beforehand, and applying it twice is the same as applying it once; it commutes with every strictly increasing rescaling of the values. With tied maxima it is not idempotent.", "quantifier": "all arrays of any rank and size with a unique maximum, all lists of cyclic displacements along existing axes, all strictly increasing maps", "why_tests_cant": "every displacement and every position of the maximum", "anchors": ["pyotf/utils.py:center_data"]}
{"id": "C105", "title": "remove_bg and the camera offset", "statement": "Adding a constant c to every pixel of integer data changes the result of remove_bg by (1 - multiplier) * c at every pixel, and multiplying the data by a positive integer gain multiplies the result by it: only with multiplier 1 is the result independent of the camera offset.", "quantifier": "all non-negative integer images, all offsets which keep them so, all multipliers, all gains", "why_tests_cant": "the mode is a discontinuous function of the data; all images and offsets are meant", "anchors": ["pyotf/utils.py:remove_bg"]}
{"id": "C106", "title": "radial_profile as a function of the data", "statement": "The mean profile of alpha*data+beta is alpha*profile+beta and the standard deviations are multiplied by |alpha|; the mean profile of a sum is the sum of the profiles; profiles stay between the bounds of the data and standard deviations below half their distance; the ring sizes times the means add up to the sum of the data and the ring sizes to the number of pixels.", "quantifier": "all real arrays, all accepted centres, all positive bin sizes, all alpha, beta and bounds", "why_tests_cant": "all images and centres", "anchors": ["pyotf/utils.py:radial_profile"]}
{"id": "C107", "title": "laws of easy_fft in n dimensions", "statement": "easy_fft is the Fourier sum with pixels and frequencies counted from the centres n//2; it is linear; displacing the data cyclically multiplies the transform by the phase ramp of the displacement and keeps its magnitude; conjugating the data conjugates and mirrors the transform, so that of real data is Hermitian; the transform of a circular convolution (kernel origin at the centre pixel) is the product of the transforms, and for even sizes transforming the product back gives the convolution.", "quantifier": "all complex arrays of any rank and size, all frequencies and displacements", "why_tests_cant": "all sizes, both parities, any number of dimensions", "anchors": ["pyotf/utils.py:easy_fft", "pyotf/utils.py:easy_ifft"]}
{"id": "C108", "title": "Zernike modes are bounded", "statement": "Every value returned by zernike is at most 1 in absolute value with norm=False, and at most sqrt(2(N+1)) with the default normalisation when no requested mode has n > N. For one mode the exact bounds are 1, and sqrt(n+1) (m = 0) or sqrt(2(n+1)) (m != 0); each is attained on the rim of the disk.", "quantifier": "every admissible pair (n,m) of any degree, both normalisations, all coordinates r >= 0 and theta; every successful call with arrays of coordinates and indices", "why_tests_cant": "It bounds a family of polynomials of unbounded degree at every point of the disk; sampled points can miss the maximum.", "anchors": ["pyotf/zernike.py: zernike, _radial_zernike"]}
{"id": "C109", "title": "Zernike coefficients are root-mean-square amplitudes", "statement": "The wavefront sum of c_k Z_k over distinct modes with the default normalisation has mean square over the unit disk equal to the sum of the c_k^2, mean equal to the piston coefficient, and variance equal to the sum of the other squares; each coefficient is the mean of the wavefront times its mode, so a wavefront determines its coefficients. In particular for any distinct Noll numbers 1..120.", "quantifier": "all finite sets of admissible pairs of degrees, all real coefficients", "why_tests_cant": "Integrals over the continuous disk for every finite combination of modes.", "anchors": ["pyotf/zernike.py: zernike, noll2degrees"]}
{"id": "C110", "title": "the Zernike modes are complete", "statement": "On the unit disk every polynomial in x, y of degree at most N is the sum of the (N+1)(N+2)/2 modes with n <= N, each multiplied by the mean over the disk of the polynomial times the mode, and by no other coefficients; conversely every mode is on the disk a polynomial of degree at most n. For N <= 14 these modes are those of the first (N+1)(N+2)/2 Noll numbers.", "quantifier": "all real polynomials in two variables, all N, all points of the disk", "why_tests_cant": "Ranges over all polynomials and all degrees.", "anchors": ["pyotf/zernike.py: zernike, noll2degrees"]}
{"id": "C111", "title": "phase retrieval converges", "statement": "With phase_only=False and a positive mse_tol, whatever the data and pupil_tol, retrieve_phase is ended by its stopping rule and not by max_iters, provided max_iters is large enough: all calls with max_iters >= K give one and the same result, of fewer than K passes. With a positive pupil_tol alone this holds if some voxel is bright in the data and in the ideal PSF, and an explicit bound on the number of passes follows from the first update. Each update lowers the amplitude error by at least Z times the mean squared change of the pupil; the energy of the retrieved pupil never decreases with max_iters and never exceeds the energy of the data per plane.", "quantifier": "every data set, parameter set, pair of tolerances and max_iters (exact arithmetic)", "why_tests_cant": "a run that stops on sample data says nothing about other data; non-termination by rule would need unbounded runs to observe", "anchors": ["pyotf/phaseretrieval.py:retrieve_phase"]}
{"id": "C112", "title": "phase retrieval respects the symmetries of the optics", "statement": "retrieve_phase on data with y and x exchanged, or mirrored at the centre pixel in y or x, returns the pupil exchanged or mirrored likewise, with the same mse, mse_diff and pupil_diff; rearranging the planes together with zrange changes nothing; data inverted through the centre with opposite heights give the complex conjugate pupil, so point-symmetric data give a real one.", "quantifier": "every data set, parameter set, tolerances, max_iters, phase_only, permutation of the planes", "why_tests_cant": "equivariance must hold for all data and every number of passes, including where the stopping rule fires", "anchors": ["pyotf/phaseretrieval.py:retrieve_phase"]}
{"id": "C113", "title": "The spectrum of a SIM PSF is a sum of displaced copies of the widefield spectrum", "statement": "For a SIM2D/SIM3D/lattice microscope the spectrum (at any real frequency) of the PSF it models is the zero band of the underlying (Wiener filtered or plain) model PSF with the documented weight plus, for each orientation, copies of it displaced by plus and minus the pattern frequency 2 na_exc / wl_exc and, for three beams, copies displaced laterally by na_exc / wl_exc and axially by (ni / wl_exc)(1 - cos); without oversampling the microscope's OTF is this spectrum divided by its value at zero frequency and sampled at the frequencies (k - n // 2) / (n d), with a phase ramp on odd axes only.", "quantifier": "all model PSFs, sizes of either parity, orientations, excitation NA and wavelength, pixel sizes, real frequencies", "why_tests_cant": "an identity between continuous spectra for every frequency, orientation and array size", "anchors": ["pyotf/microscope.py: BaseSIMMicroscope._model_psf, OTF", "pyotf/utils.py: easy_fft"]}
{"id": "C114", "title": "Resolution limit of structured illumination", "statement": "If the model PSF of a SIM microscope contains no lateral frequency of rho or more (which holds with rho = 2 na / wl for HanserPSF below the Nyquist limit, also after the Wiener filter on even grids) and the patterns repeat in the field of view, then the PSF and (without oversampling) the OTF of the SIM microscope vanish at all lateral frequencies of rho + 2 na_exc / wl_exc or more, in every plane, as long as that limit is itself sampled.", "quantifier": "all HanserPSF parameters, sizes, excitation parameters, orientations on the frequency grid, OTF elements", "why_tests_cant": "vanishing of all OTF elements beyond a limit for every optical configuration", "anchors": ["pyotf/microscope.py: BaseSIMMicroscope, SIM2DMicroscope, SIM3DMicroscope, LatticeSIM", "pyotf/otf.py: HanserPSF.PSFi, OTFi"]}
{"id": "C115", "title": "Spectrum and resolution of the confocal microscope", "statement": "With a pinhole of at most 1.5 model pixels radius the spectrum of each plane of the confocal PSF is the cyclic convolution of the spectra of the excitation and the detection PSF; if these vanish from rho and sigma on, the confocal PSF vanishes from rho + sigma on; in particular the OTF of an ordinary (Hanser model, not oversampled) ConfocalMicroscope vanishes at all lateral frequencies of 2 na / wl + 2 na / wl_exc or more, provided this limit is sampled.", "quantifier": "all models, sizes, wavelengths, pinholes up to the threshold, OTF elements", "why_tests_cant": "vanishing of all OTF elements beyond a limit for every optical configuration", "anchors": ["pyotf/microscope.py: ConfocalMicroscope.model_psf, OTF", "pyotf/otf.py: HanserPSF.PSFi"]}
{"id": "C116", "title": "A confocal microscope with an open pinhole is a widefield microscope at the excitation wavelength", "statement": "If the pinhole covers the field of view (its radius in model pixels is at least sqrt 2 times the size) then PSF of ConfocalMicroscope(wl_exc=v, pinhole_size=p, **kwargs) equals, pixel for pixel, PSF of WidefieldMicroscope(**kwargs with wl=v) (Hanser model, any odd oversampling).", "quantifier": "all ordinary constructor arguments, sizes, odd oversampling factors, wavelengths and pinholes", "why_tests_cant": "equality of two independently constructed models for every set of arguments", "anchors": ["pyotf/microscope.py: ConfocalMicroscope.__init__, model_psf, _disk_kernel, WidefieldMicroscope.PSF", "pyotf/otf.py: HanserPSF.PSFi"]}
{"id": "C117", "title": "The transfer function of a plane is the autocorrelation of the pupil; neither defocus nor aberration improves contrast", "statement": "For every HanserPSF model with ordinary parameters and any fitting pupil, the lateral discrete spectrum of each plane of PSFi equals, up to the phase factor that places the origin at pixel N // 2 and the factor 1/N^2, the sum over the polarisation components of the cyclic autocorrelation of the pupil (with the defocus phase of the plane). With scalar theory the modulus of that spectrum, at every lateral frequency and in every plane, is at most that of the focal plane of the model whose pupil has the same magnitude but no phase; in particular every plane of an ideal model has at most the contrast of its focal plane.", "quantifier": "all HanserPSF models with ordinary parameters, all pupils, planes and integer lateral frequencies", "why_tests_cant": "An inequality between spectra of all aberrated and defocused models; a test samples a few aberrations, grids and frequencies.", "anchors": ["pyotf/otf.py: HanserPSF._gen_psf, HanserPSF._gen_pupil, BasePSF.PSFi", "pyotf/otf.py: apply_aberration"]}
{"id": "C118", "title": "Missing cone: no axial frequencies at zero lateral frequency", "statement": "For every HanserPSF model with any pupil and any theory, OTFi is zero at every axial frequency other than zero on the optical axis (element [kz, N//2, N//2] with kz != Z//2). For every ordinary WidefieldMicroscope with a Hanser model and any odd oversampling, every plane of PSF has total 1/nz, and OTF[kz, n//2, n//2] is 1 for kz = nz//2 and 0 for all other kz.", "quantifier": "all models and pupils; all ordinary microscope arguments, any odd oversample_factor, sizes, planes", "why_tests_cant": "An exact zero of a computed spectrum for every pupil, size and oversampling; tests see only rounding-level numbers for sampled parameters.", "anchors": ["pyotf/otf.py: BasePSF.OTFi, HanserPSF._gen_psf", "pyotf/microscope.py: WidefieldMicroscope.PSF, BaseMicroscope.OTF", "pyotf/utils.py: bin_ndarray, easy_fft"]}
{"id": "C119", "title": "The pixels of the aperture determine the Zernike coefficients", "statement": "If the radius na/wl * N * res of the aperture is at least h frequency pixels and the grid has more than 2h pixels, fit_to_zernikes(L) with L <= h(2h+1) modes (L <= 120) returns exactly the coefficients of any magnitude and phase that are combinations of these modes inside the aperture; and for any magnitude and phase the fit is unique, so that every correct least-squares routine returns the same coefficients. All 120 modes need a radius of 8 pixels.", "quantifier": "all results of ordinary models, all L from 2 to 120, all grids with a sufficient aperture, all least-squares routines, all coefficient lists", "why_tests_cant": "Full column rank of the sampled modes for every grid, aperture and number of modes; a test computes the rank (numerically) for single grids.", "anchors": ["pyotf/phaseretrieval.py: PhaseRetrievalResult.fit_to_zernikes, _fit_to_zernikes", "pyotf/zernike.py: zernike"]}
{"id": "C120", "title": "The PSFs of the microscopes inherit the symmetry of the optics", "statement": "For ordinary arguments (Hanser model, odd oversampling, default planes) the camera-pixel PSF of WidefieldMicroscope, ApotomeMicroscope and ConfocalMicroscope is mirror-symmetric in z about plane (nz+1)//2 and in y and x about pixel n//2 (coordinates modulo n), and symmetric under exchange of y and x for vec_corr 'none' or 'total'. For the confocal microscope the lateral mirror symmetry holds everywhere if n is odd or the pinhole is too small to matter, and otherwise for every coordinate at least a pinhole radius plus half a pixel away from the edge: the pinhole averages with zeros beyond the edge.", "quantifier": "all ordinary microscope arguments, all odd oversamplings, sizes, numbers of planes, wavelengths, pinhole sizes, all voxels", "why_tests_cant": "Tests read one microscope at one size; that no combination of oversampling, re-binning shift, pinhole and parity decentres the PSF is a statement about every size and parity.", "anchors": ["pyotf/microscope.py:WidefieldMicroscope.PSF", "pyotf/microscope.py:WidefieldMicroscope", "pyotf/microscope.py:ConfocalMicroscope.model_psf", "pyotf/microscope.py:ApotomeMicroscope.model_psf", "pyotf/otf.py:HanserPSF"]}
{"id": "C121", "title": "The unit of length does not matter to the microscopes", "statement": "If every length given to a microscope (pixel_size, zres, wl, wl_exc) is multiplied by the same positive factor and everything else (na, ni, na_exc, pinhole size in Airy units, wiener, orientations, sizes, oversampling, options) is unchanged, then WidefieldMicroscope, ApotomeMicroscope, ConfocalMicroscope and all SIM microscopes show exactly the same PSF and OTF, or raise the same error.", "quantifier": "all ordinary arguments of the four microscope families, all positive factors, all orientations and Wiener parameters, all voxels", "why_tests_cant": "A test compares one pair of units; that no place mixes a length with a number (pinhole radius, Abbe ring, illumination pattern, defocus) is a statement about all arguments.", "anchors": ["pyotf/microscope.py:WidefieldMicroscope.__init__", "pyotf/microscope.py:ConfocalMicroscope.model_psf", "pyotf/microscope.py:ApotomeMicroscope.model_psf", "pyotf/microscope.py:BaseSIMMicroscope.model_psf"]}
{"id": "C122", "title": "A Hanser PSF samples a solution of Maxwell's equations", "statement": "PSFa holds, at every plane and pixel, the values of a field that is defined at all real positions: a superposition of plane waves whose amplitudes are the pupil in force times the apodisation and polarisation factors. If the pupil transmits no evanescent waves (always so for the unaberrated pupil of an objective with na <= ni), every component of this field solves the wave equation of light of wavelength wl in a medium of index ni, and with vec_corr='total' the six components form two divergence-free vector fields (z, y, x for light polarised along x and along y; the z axis is opposite to the direction in which the planes are counted). PSFi of the unaberrated PSF holds the summed squared magnitudes of this field.", "quantifier": "all wavelengths, apertures, indices, pixel sizes, sizes, planes, vectorial corrections, conditions and pupils in force; all components, planes, pixels and all real positions between them", "why_tests_cant": "a partial differential equation at every point of space cannot be observed on samples", "anchors": ["pyotf/otf.py:HanserPSF._gen_psf", "pyotf/otf.py:HanserPSF._calc_defocus", "pyotf/otf.py:HanserPSF._gen_kr"]}
{"id": "C123", "title": "The pixel size only says where an unaberrated PSF is sampled", "statement": "For a HanserPSF without custom pupil and a pixel below the Abbe limit, PSFi[iz,y,x] is the intensity of a fixed field at the position of the pixel, divided by size^4. The field consists of all plane waves inside the aperture that fit a field of view of width size*res; it does not depend on how this width is divided into pixels. Hence two such PSFs with the same instrument, planes and field of view agree (times size^4) at every position where both have a pixel; in particular, t times as many pixels of 1/t the size show exactly the same PSF at the old pixels, divided by t^4.", "quantifier": "all instruments, planes, vectorial corrections, conditions, all pairs of pixel sizes below the Abbe limit with equal field of view, all coinciding pixels, even and odd sizes", "why_tests_cant": "a test compares two grids of one instrument; the claim covers every pair of grids", "anchors": ["pyotf/otf.py:HanserPSF._gen_kr", "pyotf/otf.py:HanserPSF._gen_pupil", "pyotf/otf.py:HanserPSF._gen_psf"]}
{"id": "C124", "title": "Oversampling converges to the integral over the camera pixel", "statement": "For a WidefieldMicroscope with a Hanser model and odd oversample_factor o, camera pixel (y,x) of plane z is the mean of a fixed intensity over the centres of the o x o parts of the pixel, divided by the total of these means over all pixels and planes; the intensity and the total do not depend on o. As o grows, every pixel tends to the integral of the intensity over the area of the pixel divided by the total of these integrals.", "quantifier": "all ordinary arguments (even and odd camera sizes), all pixels and planes, all odd oversampling factors, every tolerance", "why_tests_cant": "a limit: no finite set of oversampling factors shows it", "anchors": ["pyotf/microscope.py:WidefieldMicroscope.__init__", "pyotf/microscope.py:WidefieldMicroscope.PSF", "pyotf/utils.py:bin_ndarray"]}
{"id": "C125", "title": "SIM microscopes whose model has other planes than the microscope, and any number of coherent orientations", "statement": "For a SIM microscope whose model PSF has P planes while the microscope was given zsize=Z: with at least one orientation, model_psf can be computed exactly if Z = P, or Z = 1, or the beams are coherent with a central beam and P = 1; otherwise ValueError is raised. The result has P planes (Z if P = 1) and every voxel is the model PSF there times the intensity of all beams: the squared modulus of the sum of all beams for coherent microscopes (any number of orientations), the sum over orientations otherwise; a single plane of the microscope evaluates the pattern once for all planes and a single plane of the model is repeated. Without orientations a coherent microscope raises UnboundLocalError and an incoherent one returns zeros (or, with dc_suppress, the model PSF) whatever the planes.", "quantifier": "all SIM microscopes with boolean coherent/dc/dc_suppress, all lists of orientations, all Z, P, sizes, spacings, apertures and wavelengths in the ordinary range, all (filtered) model PSFs", "why_tests_cant": "the number of orientations, of planes on either side and the optics are unbounded; shape mismatches only arise by assigning zrange on the model afterwards or by passing it to the constructor", "anchors": ["pyotf/microscope.py:BaseSIMMicroscope.model_psf", "pyotf/microscope.py:LatticeSIMMicroscope"]}
{"id": "C126", "title": "Rounding errors of bin_ndarray and of the normalisation of a microscope PSF", "statement": "In floating point arithmetic with unit roundoff u and any order of additions, bin_ndarray of a non-negative array fails exactly when it does in exact arithmetic and otherwise every element has the exact value up to one relative error u per level of additions on each axis (one more per axis for a mean). The PSF of a microscope computed from a non-negative model PSF exists exactly when it does in exact arithmetic, every pixel is relatively accurate, and the pixels sum to one up to (T+1)u/(1-Tu), where T is the depth of the sum over all pixels; in double precision 1e-14 with pairwise summation for up to 2^30 pixels, 1e-6 if added one after the other.", "quantifier": "all non-negative arrays, all bin sizes and new shapes, all roundings with relative error at most u, all orders of summation, all oversampling factors and sizes", "why_tests_cant": "NumPy's order of summation depends on length, memory layout and hardware, and the arrays are arbitrary", "anchors": ["pyotf/utils.py:bin_ndarray", "pyotf/microscope.py:WidefieldMicroscope.PSF"]}
{"id": "C127", "title": "large arrays show the diffraction integral of the continuous pupil", "statement": "For HanserPSF models with the same optics (na < ni, pixel below the Abbe limit) on ever larger fields of view (size*res tends to infinity, whatever the pixel sizes), PSFa / res^2 at any fixed physical position and plane tends to the Debye diffraction integral of the pupil over the continuous aperture, and PSFi / res^4 to its intensity: for the ideal pupil, for any applied pupil which samples a bounded function continuous inside the aperture, and for the models returned by apply_aberration with Zernike amplitudes and phases, with scalar or vectorial theory and any condition. With scalar theory PSFi relative to its value at the focus tends to the same ratio of the integrals.", "quantifier": "every wavelength, aperture, index, sequence of sizes and pixel sizes with growing field of view, plane, position, theory, condition, coefficients", "why_tests_cant": "a limit over unbounded array sizes", "anchors": ["pyotf/otf.py:HanserPSF._gen_psf", "pyotf/otf.py:HanserPSF._gen_kr", "pyotf/otf.py:apply_aberration", "pyotf/otf.py:HanserPSF.apply_pupil"]}
{"id": "C128", "title": "how much a wavefront error dims the focus", "statement": "Scalar theory, apply_aberration with phase coefficients only: with sigma^2 the variance of the phase over the pixels of the aperture (weighted by the apodisation), the intensity at the centre of the focal plane is at least (1 - sigma^2) times, and for sigma^2 <= 2 at least (1 - sigma^2/2)^2 times, the unaberrated one, and at most the unaberrated one (Marechal). Without apodisation the ratio tends, on growing fields of view, to a number obeying the same bounds with sigma^2 the sum of the squares of the coefficients other than piston: coefficients are root-mean-square phases in radians. It is exactly as bright as the unaberrated one if and only if the phase is the same, up to whole waves, at all pixels of the aperture.", "quantifier": "every model, coefficient vector (up to 120 modes), heap, sequence of sizes", "why_tests_cant": "an inequality in 120 real coefficients and a limit", "anchors": ["pyotf/otf.py:apply_aberration", "pyotf/otf.py:HanserPSF._gen_psf", "pyotf/zernike.py:zernike"]}
{"id": "C129", "title": "Sampling theorem: below the Nyquist limit a finer pixel grid only zero-pads the transfer function", "statement": "Let two unaberrated Hanser models describe the same instrument, field of view (size * res) and planes, with different pixel sizes below wl / (4 na). Then size^2 * OTFi is the same number at every lateral frequency both arrays hold, the frequencies only the finer array has are zero, and for sizes of the same parity utils.fft_pad of the coarse OTFi to the shape of the fine one is exactly the fine OTFi times (N'/N)^2. Moreover PSFi at any position, in particular at every pixel of any other grid over the same field of view, is the Dirichlet interpolation of the pixels of the coarse one.", "quantifier": "every wavelength, aperture, index, pair of pixel sizes and sizes with equal field of view below the Nyquist limit, all planes, all vectorial corrections and conditions, all elements and all real positions", "why_tests_cant": "an equality of every element of two arrays for all instruments and grids; a test samples a few instruments with floating point tolerances", "anchors": ["pyotf/otf.py:HanserPSF", "pyotf/otf.py:BasePSF.OTFi", "pyotf/utils.py:fft_pad"]}
{"id": "C130", "title": "Arrays are shared: outputs, zrange and copies", "statement": "The arrays a HanserPSF returns are the arrays it keeps: reading an output twice returns the same array, what a client writes into m.PSFi is returned by every later read (and is what OTFi is then computed from), also by a copy made with apply_aberration(m, None, None). An array given as zrange (constructor or assignment) is kept without a copy and shared with every aberrated copy; writing a plane into it, or into m.zrange, changes m.zrange of all of them but leaves the cached outputs as they were, until zrange is assigned again. Conversely, no call of the package changes the contents of an existing array, a pupil passed to apply_pupil is not kept, and a client program that writes into no shared array observes exactly what it would observe if every variable and cache had its own copy of the array.", "quantifier": "every client program (any number of models, arrays, assignments, reads, applied pupils, aberrated copies and writes, in any order)", "why_tests_cant": "which arrays are shared depends on the whole history of the program; freedom from interference must hold for every history", "anchors": ["pyotf/otf.py:BasePSF._attribute_changed", "pyotf/otf.py:HanserPSF.zrange", "pyotf/otf.py:BasePSF.PSFi", "pyotf/otf.py:BasePSF.OTFi", "pyotf/otf.py:HanserPSF.PSFa", "pyotf/otf.py:HanserPSF.OTFa", "pyotf/otf.py:HanserPSF.apply_pupil", "pyotf/otf.py:apply_aberration"]}
{"id": "C131", "title": "Whole numbers computed through floating point are right, and radial_profile's statistics have bounded rounding error", "statement": "In floating point arithmetic with unit roundoff u that represents whole numbers up to 1/u exactly: noll2degrees and degrees2noll return exactly the results of exact arithmetic for every input (u at most 1/2048, so in half, single and double precision); radial_profile with default centre and bin size puts every pixel into the ring of exact arithmetic as long as 40 u times the sum of the squared axis lengths is at most 1; then the returned mean of each ring is off by at most ((1+u)^(T+1)-1) times the mean absolute value and the squared standard deviation by at most ((1+u)^(2T+6)-1) times twice the mean square (T the depth of the sum), and NaN occurs in a non-empty ring only if the exact variance is below that level. That NaN does occur: radial_profile(np.full((2, 2), 0.1)) has a NaN standard deviation in double precision, where exact arithmetic gives 0.", "quantifier": "all rounding functions with relative error u exact on whole numbers up to 1/u, all orders of summation, all lists of Noll numbers or degree pairs, all real images of every dimension and size within the bound", "why_tests_cant": "A test sees one rounding mode, one platform and a handful of images; the claim covers every image and summation order, and the NaN occurs only for particular values.", "anchors": ["pyotf/zernike.py: noll2degrees, degrees2noll", "pyotf/utils.py: radial_profile"]}
{"id": "C132", "title": "the life of a PhaseRetrievalResult", "statement": "For every result of retrieve_phase and every history of operations - assignments to result.model's attributes (accepted or rejected), pupils applied to result.model, reads of its outputs, assignments to result.mag and result.phase, complex_pupil, fit_to_zernikes, generate_psf, generate_zd_psf, successful or not - every operation returns or raises what a machine without copies and caches returns: generating PSFs changes nothing; PSFs are those a new HanserPSF with the model's current parameters shows for the pupil mag*exp(i phase) (or the last fitted decomposition), with zsize and zrange assigned if given, then resized; fit_to_zernikes depends only on mag, phase and the coordinates, aperture and wavelength at the time of retrieval, and replaces zd_result only if it succeeds; generate_zd_psf before the first fit is an AttributeError. Consequently generate_psf is unaffected by any reads, fits, generated PSFs and pupils applied to result.model, and a fit by any change to result.model.", "quantifier": "all data, parameters, stopping rules, all histories of any length, all arguments, any least squares and phase unwrapping routine", "why_tests_cant": "Histories are unbounded; tests try a few call orders.", "anchors": ["pyotf/phaseretrieval.py: PhaseRetrievalResult, fit_to_zernikes, _generate_psf, generate_psf, generate_zd_psf", "pyotf/otf.py: HanserPSF"]}
{"id": "C133", "title": "several threads and one PSF", "statement": "Any number of threads may read PSFa, OTFa, PSFi, OTFi of the same HanserPSF objects (each with any history) in any interleaving of their attribute accesses: every read returns or raises what it would have returned to a single thread, the objects keep their parameters and stay coherent at every moment, and the threads neither deadlock nor loop (at most 51 accesses per read), with the locking cached_property of Python 3.8-3.11 and with the lock-free one of 3.12. Writers are not safe: for every object with an empty cache there is a schedule in which an assignment of size (or apply_pupil) and a read both succeed and the object keeps showing the PSF of the old size (or without the pupil).", "quantifier": "every set of objects with any history, every number of threads, every list of reads per thread, every schedule of atomic accesses, both cached_property implementations", "why_tests_cant": "the number of interleavings is astronomical and a test run samples a handful chosen by the scheduler", "anchors": ["pyotf/otf.py:HanserPSF._gen_psf", "pyotf/otf.py:HanserPSF._gen_kr", "pyotf/otf.py:BasePSF._attribute_changed", "pyotf/otf.py:HanserPSF.PSFa", "pyotf/otf.py:HanserPSF.apply_pupil"]}
{"id": "C134", "title": "SheppardPSF on large fields of view: the diffraction integral with an extra apodisation; when it agrees with HanserPSF", "statement": "SheppardPSF, one objective, na < ni: as the field of view N*res grows (the ratio tau of N*res to zsize*zres fixed, voxels below the sampling limits by a margin), the intensity PSF at a fixed position times zsize^2/res^4 tends to the intensity of the waves of the continuous aperture, each wave weighted - besides its polarisation and apodisation - with the mean number of samples of the cap above its lateral frequency, 2*sqrt(tau^2 kz^2 + kr^2)/(tau kz). For tau = 1 this factor is 2/cos(theta): a scalar SheppardPSF (whatever its condition) and a vectorial one with condition='none' tend to 4 times the diffraction integral of HanserPSF with condition='herschel' (not 'none' or 'sine'), and the PSFs of both classes, divided by their values at the focus, tend to the same number.", "quantifier": "every optics with na < ni, polarisation, condition, ratio tau, position, sequence of sizes and voxel sizes", "why_tests_cant": "a limit over infinitely many grid sizes, and a statement on the equidistribution of lattice points near a sphere", "anchors": ["pyotf/otf.py:SheppardPSF._gen_kr", "pyotf/otf.py:SheppardPSF._gen_otf", "pyotf/otf.py:SheppardPSF._gen_psf", "pyotf/otf.py:HanserPSF._gen_psf", "pyotf/otf.py:BasePSF.PSFi"]}
{"id": "C135", "title": "Interrupted calls on a HanserPSF", "statement": "Abandon a call on a HanserPSF (KeyboardInterrupt, MemoryError) after any number of its attribute accesses. (1) An interrupted read of PSFa, OTFa, PSFi or OTFi leaves every object answering every later history of operations as if the read had never started. (2) An interrupted assignment or apply_pupil leaves, output by output, what was there before or what would have been there after (or, for zsize, zres and apply_pupil, the output before with the applied pupil forgotten); a rejected assignment leaves the object untouched; other objects are never touched. (3) Repeating the interrupted call has the result and effect of an uninterrupted one, for every call except assignments to wl, na, ni and size: for these the repetition can be a silent no-op that leaves outputs of the old value behind the new attribute (proved, a defect). (4) After any session of completed and interrupted calls, assigning vec_corr its own value, or applying a pupil, makes the object answer every history as a cache-free one.", "quantifier": "every object with any history behind it, every call with every argument, every crash point, every session of completed and interrupted calls, every later history; both versions of cached_property", "why_tests_cant": "crash points are between any two bytecodes, histories and sessions are unbounded", "anchors": ["pyotf/otf.py:_attribute_changed", "pyotf/otf.py:HanserPSF", "pyotf/utils.py:NumericProperty"]}
{"id": "C136", "title": "One parameter dictionary for several retrievals; images and heights of different number", "statement": "retrieve_phase writes vec_corr, condition, zsize and size into the caller's dictionary, but what a call returns or raises depends on the other entries only. Hence a dictionary may be reused: after any history of calls with it - for stacks of any shapes, that returned, raised or were interrupted anywhere - the caller's own entries are unchanged and a call has the outcome it would have had with the original dictionary. Threads whose stacks have one shape may share a dictionary: under every schedule each call that has ended has the outcome it would have alone. Threads with stacks of different shapes may not: a schedule exists after which a call that would return raises ValueError, and a call for a single image returns, without a warning, the result for copies of its image at the heights of the other stack. The number of images is never compared with the number of heights in zrange: if both are more than one and differ, ValueError is raised; one image is treated as one copy per height; one height is used for all images.", "quantifier": "all dictionaries, data, tolerances, iteration limits; all sequences of calls and interruption points; all numbers of threads and schedules (of the races: all pairs of shapes named)", "why_tests_cant": "Quantifies over histories, interruption points and thread schedules.", "anchors": ["pyotf/phaseretrieval.py:retrieve_phase", "pyotf/otf.py:HanserPSF"]}
{"id": "C137", "title": "several threads and one SheppardPSF; the attributes it saves", "statement": "Any number of threads may read PSFa, OTFa, PSFi, OTFi of the same SheppardPSF objects in any interleaving of their attribute accesses: every read returns or raises what it would have returned to a single thread, the threads neither deadlock nor loop (at most 69 accesses per read), and a read abandoned at any access (KeyboardInterrupt) changes no later answer. Whenever a read of an output has succeeded - computed or cached, in one thread or among many - the attributes kmag, dk, dkz, valid_points, kzz, kyy, kxx the object carries are those of its parameters: the radius ni/wl of the sphere, the frequency spacings 1/(size*res) and 1/(zsize*zres), the mask of the points on the spherical cap and the coordinates of exactly these points in array order. An assignment does not update them: they are stale until the next read. Writers are not safe: for every object with an empty cache there is a schedule in which an assignment of size and a read both succeed and the object keeps showing the OTF of the old size.", "quantifier": "every set of objects with any history, every number of threads, every list of reads per thread, every schedule of atomic accesses, both cached_property implementations, every access at which a read is abandoned", "why_tests_cant": "the number of interleavings and histories is unbounded and a test run samples a handful", "anchors": ["pyotf/otf.py:SheppardPSF._gen_kr", "pyotf/otf.py:SheppardPSF._gen_otf", "pyotf/otf.py:SheppardPSF.OTFa", "pyotf/otf.py:SheppardPSF.PSFa", "pyotf/otf.py:BasePSF._attribute_changed"]}
{"id": "C138", "title": "Rounding and the pupil: aperture, sampling limit and PSF of HanserPSF in floating point", "statement": "In floating point arithmetic of unit roundoff u, a pixel of the pupil whose exact radial frequency is below (1-7u)*na/wl is inside the computed aperture and one of at least (1+7u)*na/wl is not, so the computed aperture is the exact one unless a pixel is within a few units in the last place of the edge; whatever happens at the edge, the aperture keeps the symmetry of the square; the limit for res is decided correctly up to four units in the last place; for pixel sizes below the limit by more than that the aperture stays clear of the Nyquist row and column; and the amplitude and intensity PSF of every unaberrated model - scalar, vectorial with averaged dipoles or with every vectorial component, and with every apodisation condition - differ from the exact ones at every pixel by at most an explicit bound that grows with |z| and with the angle of the marginal ray. At the edge rounding does decide: with wl=600, na=1.0, res=60, size=100 a pixel exactly on the edge (excluded in exact arithmetic) is included in double precision.", "quantifier": "all rounding functions with relative error u <= 1/1000, all library functions hypot, exp, arcsin, sin, cos, arctan2 and ifftn of given accuracy, all sizes, pixel sizes, wavelengths, apertures below the index, planes and pixels", "why_tests_cant": "A test compares with a few parameters on one machine and with a tolerance chosen by hand; that an error bound holds for every model and every rounding function, and where membership of the aperture depends on rounding, needs an error analysis.", "anchors": ["pyotf/otf.py:HanserPSF._gen_kr", "pyotf/otf.py:HanserPSF._gen_pupil", "pyotf/otf.py:HanserPSF._calc_defocus", "pyotf/otf.py:HanserPSF._gen_psf", "pyotf/otf.py:BasePSF.res", "pyotf/otf.py:BasePSF.PSFi", "pyotf/utils.py:cart2pol", "pyotf/utils.py:psqrt"]}
{"id": "C139", "title": "Arrays of microscopes: who shares what", "statement": "As long as a client writes into no array that someone else refers to, everything it sees of any number of models and microscopes is as if arrays were values; no constructor, read or assignment changes the contents of an existing array. The outputs PSF and OTF of a microscope are the arrays it keeps (reading twice gives the same array; a write shows in later reads and in an OTF not yet computed), but no model and no other microscope refers to them: writing into them changes no output elsewhere. model_psf of a widefield microscope is the model's own PSFi array, so writing into it changes m.model.PSFi and a PSF not yet read; model_psf of every other microscope is the caller's own array. A confocal microscope keeps the caller's array of planes for model, while model_exc has its own copy.", "quantifier": "every client program (any sequence of constructors of models and microscopes, attribute assignments, reads, pupils, aberrations and writes into arrays it holds), every microscope kind, array, index and value", "why_tests_cant": "Aliasing depends on the whole history of reads and writes; a test shows one program, the theorem covers every program and state reached.", "anchors": ["pyotf/microscope.py:WidefieldMicroscope", "pyotf/microscope.py:ConfocalMicroscope", "pyotf/microscope.py:ApotomeMicroscope", "pyotf/microscope.py:BaseSIMMicroscope", "pyotf/otf.py:HanserPSF"]}
{"id": "C140", "title": "Arrays of retrieval results and decompositions: who shares what", "statement": "As long as a client writes into no array that someone else refers to, everything it sees of models, retrieval results and Zernike decompositions is as if arrays were values; no call, read or assignment changes the contents of an existing array. retrieve_phase does not keep the image stack: writing into it afterwards (or into anything else the result does not refer to) changes nothing; the arrays of a new result are new and distinct, as are those of a decomposition, so later writes into result.mag or result.phase do not reach a decomposition already made. What generate_psf, generate_zd_psf, complex_pupil, zd.mag, zd.phase return is the caller's own, and the first two change neither result.model nor any other model, whether or not they succeed. result.mag, result.phase, zd.mcoefs and zd.pcoefs are the live arrays: a write shows in the attribute and in everything computed from it. An array given as params['zrange'] is kept by result.model.", "quantifier": "every client program (any sequence of constructors, reads, assignments, retrievals, fits, PSFs and writes into arrays it holds), every unwrap and least squares function, array, index and value", "why_tests_cant": "Aliasing depends on the whole history of calls and writes; a test shows one program, the theorem covers every program and state reached.", "anchors": ["pyotf/phaseretrieval.py:retrieve_phase", "pyotf/phaseretrieval.py:PhaseRetrievalResult", "pyotf/phaseretrieval.py:ZernikeDecomposition"]}
{"id": "C141", "title": "Zernike degrees given as floats", "statement": "Whole degrees may be passed to zernike as integers or as floats, also mixed: the call returns or raises exactly the same. Noll indices must be of integer type: a float array is a ValueError, as are float arguments of degrees2noll. Degrees that are no whole numbers are accepted: if n-|m| is an even whole number the mode is the textbook formula with the Gamma function in place of factorials (up to the sign (-1)^floor|m|), times sine or cosine of |m| theta and the usual norm, with value +-1 of the radial part on the rim; its sine modes jump along theta = +-pi unless m is whole. All other finite or infinite degrees with n >= |m| silently give zeros; a nan or n < |m| raises ValueError.", "quantifier": "all rational and infinite degrees, all shapes of arguments, all radii and angles, normalised or not", "why_tests_cant": "Tests use whole degrees up to some order; the statement is about every real degree and every mix of element types.", "anchors": ["pyotf/zernike.py:zernike", "pyotf/zernike.py:_zernike", "pyotf/zernike.py:_radial_zernike", "pyotf/zernike.py:noll2degrees", "pyotf/zernike.py:degrees2noll"]}
{"id": "C142", "title": "several threads and shared microscopes", "statement": "Any number of threads may read PSF, OTF and model_psf of the same microscopes (widefield, Apotome, confocal, SIM), and the outputs of the PSF models behind them, in any interleaving of their attribute accesses, also when several microscopes share one model and whatever is cached beforehand: every read returns or raises what it would have to a single thread with the untouched objects; no attribute changes at any moment; every later history of reads and assignments answers as if the reads had been made one after the other in any order, and the caches hold the same arrays. The threads neither deadlock nor loop: at most 150 accesses per read, although a microscope holds its own lock while it takes those of its models. Writers are not safe: for every microscope whose PSF is computable and not cached, and every accepted assignment to one of its numeric attributes, there is a schedule in which the assignment and a read both succeed, the attribute has the new value, and the PSF kept is that of the old value.", "quantifier": "every memory of PSF models with any histories and microscopes with any attributes and caches, every number of threads, every list of reads per thread, every schedule of atomic accesses, both cached_property implementations; for the race every microscope and every accepted assignment", "why_tests_cant": "the number of interleavings, sharing patterns and histories is unbounded and a test run samples a handful", "anchors": ["pyotf/microscope.py:WidefieldMicroscope.PSF", "pyotf/microscope.py:WidefieldMicroscope.OTF", "pyotf/microscope.py:WidefieldMicroscope.model_psf", "pyotf/microscope.py:ConfocalMicroscope.model_psf", "pyotf/microscope.py:ApotomeMicroscope.model_psf", "pyotf/microscope.py:BaseSIMMicroscope.model_psf", "pyotf/otf.py:BasePSF.PSFi", "pyotf/utils.py:NumericProperty"]}
{"id": "C143", "title": "interrupted calls on microscopes", "statement": "A call on a microscope may be abandoned between any two of its attribute accesses (KeyboardInterrupt). Abandoned reads of PSF, OTF, model_psf or of an output of a model change no attribute and no later answer of any microscope or model. An abandoned assignment to a numeric attribute leaves the microscope untouched, or it is one that would have been accepted: then every attribute is as after the assignment and each output is the one before or the one after it, and nothing else is touched. Unlike a read it cannot simply be repeated: if PSF and OTF were cached and the new value is a finite number, after an interruption between storing the value and deleting the caches the repeated assignment is silently ignored and PSF and OTF stay those of the old value, and after an interruption between the two deletions PSF is that of the new value and OTF that of the old one. However many calls were abandoned, the models are intact, and the next assignment that changes a value repairs the microscope: from then on it answers every history as one without caches.", "quantifier": "every memory of PSF models with any histories and microscopes of any class, attributes and caches; every call, every access at which it is abandoned, every session of finished and abandoned calls, every later history", "why_tests_cant": "the place of the interruption, the history before and the history after are arbitrary; a test interrupts at a few places", "anchors": ["pyotf/microscope.py:WidefieldMicroscope._attribute_changed", "pyotf/microscope.py:WidefieldMicroscope.PSF", "pyotf/microscope.py:WidefieldMicroscope.OTF", "pyotf/microscope.py:WidefieldMicroscope.model_psf", "pyotf/utils.py:NumericProperty"]}
{"id": "C144", "title": "microscopes of one's own", "statement": "Threads that agree on who uses which microscope need no locks. If every microscope is either used - read and assigned to - by one thread only or only read, by any threads, then, although all microscopes may share PSF models and any thread may read the outputs of the models directly, a finished thread has seen of each microscope of its own exactly the answers of the sequential history of its own calls on it, and of everything else what a single read in the untouched memory would have shown. Its own microscopes answer every later history as after that sequential history, and at every moment the models and the microscopes that belong to nobody have their old attributes and answer every later history as if nothing had happened. What a thread sees depends neither on the other threads nor on the interleaving nor on the version of cached_property. With or without the agreement, threads that read and assign never deadlock and never loop.", "quantifier": "every memory of PSF models with any histories and microscopes of any class, attributes and caches; every assignment of microscopes to threads, any number of threads, all lists of calls that respect it, every interleaving of attribute accesses, both versions of cached_property, every later history", "why_tests_cant": "the interleaving is chosen by the interpreter; the number of threads, calls and the histories are unbounded", "anchors": ["pyotf/microscope.py:WidefieldMicroscope.PSF", "pyotf/microscope.py:WidefieldMicroscope.OTF", "pyotf/microscope.py:WidefieldMicroscope.model_psf", "pyotf/microscope.py:WidefieldMicroscope._attribute_changed", "pyotf/otf.py:BasePSF.PSFi", "pyotf/utils.py:NumericProperty"]}
