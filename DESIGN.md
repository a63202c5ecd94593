# A Lean 4 model of pyOTF

## 1. Approach

* `lean/Verif/Model/*.lean` – the model, one file per source module. Every definition cites the
  lines of `/repo` it models and names its simplifications.
* `lean/Verif/Spec/*.lean` – small, model-independent specifications used in theorem statements
  (aligned windows, frequency grids, the physics of a pupil, the Sheppard shell, contracts of external
  functions). Some specifications used by one property only stand at the head of its `Props` file.
* `lean/Verif/Lemmas/*.lean` – helper lemmas (never cited in the manifest).
* `lean/Verif/Props/*.lean` – the property theorems `Cnn_…`, with concrete non-trivial cases meeting
  their hypotheses (`example`s and `demo…` theorems).
* `seeded/` – wrong programs: `mutate.py` applies one edit to a scratch copy of the model, rebuilds,
  and records which theorems fail (`LOG.jsonl`).
* `tools/manifest.py` regenerates `MANIFEST.json` and `lean/Verif.lean`; `tools/design.py` this file.

### Modelling conventions

* **Arrays**: `Arr α` = shape (`List ℕ`) + element function on index lists (`List ℕ → α`), C order.
  Only in-range indices are meaningful; all theorems speak about in-range indices or about `shape`.
  The N-d NumPy operations used by pyOTF (`roll`, `fftshift`, `ifftshift`, `fftn`, `ifftn`, basic
  slicing, `pad`, `reshape`, `sum(axis)`, `argmax`, `bincount`, `fftfreq`, `rint`) are defined for every
  rank.
* **Numbers**: array elements live in ℝ/ℂ with exact arithmetic. Rounding of IEEE doubles is *not*
  modelled. Python `int` is ℤ; a finite Python float is ℚ (every finite double is a rational); NaN and
  ±inf are separate constructors wherever validation code compares them.
* **NaN**: where the property is about NaN (empty radial bins, `sqrt` of a negative number, 0/0) the
  element type is `Option`, `none` = NaN. Elsewhere `Err.nan` means "the array contains NaN or inf".
* **Exceptions**: `Except Err`, one constructor per Python exception class.
* **Objects**: a record of the backing attributes and of the `cached_property` slots; each setter and
  getter is a state transformer (`PyM σ α = σ → Except Err α × σ`). `copy.copy` makes a new heap cell.
  In-place mutation of arrays shared with the caller is modelled only where a property says so.
* **External code** is modelled by its documented contract: `numpy.fft` (the DFT sums),
  `scipy.special.eval_jacobi` (hypergeometric sum), `scipy.signal.fftconvolve(mode='same')` (the
  convolution sum). `skimage.restoration.unwrap_phase` and `numpy.linalg.lstsq` are *arbitrary*
  functions, parameters of the model; theorems that need something of them say so by the hypotheses
  `Unwraps` (adds an integer multiple of 2π at each unmasked point) and `LeastSquares` (returns a
  minimiser; `leastSquares_exists` shows such a function exists).

## 2. Plan per property

Column 2: what is modelled. Column 3: how it is proved. The theorem names are in `MANIFEST.json`.

| property | modelled | proof |
|---|---|---|
| C01 fft_pad returns the requested shape | `fft_pad`, `_padding_slices`, `np.pad` (all modes), slicing, any rank | induction over the axes, `omega` per axis |
| C02 fft_pad keeps data aligned | same | index arithmetic lifted to N-d; element formula stated with `Aligned` (Spec/Pad) |
| C03 cropping back undoes padding | same | two applications of C02 |
| C04 when fft_pad keeps the FFT centre | same | `omega` on the parity cases |
| C05 slice_maker selects the centred window | `slice_maker`, `np.rint` (half to even), Python slice semantics incl. clipping | characterisation of `rint`; slice membership |
| C06 slice_maker input validation | `slice_maker` validation | case analysis, `iff` for acceptance |
| C07 easy_ifft inverts easy_fft exactly on even lengths | `easy_fft`, `easy_ifft` = shift/fftn/shift on any axis set | 1-d round trip by orthogonality of roots of unity; lifted axis by axis (`alongAxes`) |
| C08 easy_fft is the centred DFT | same | the kernel of the shifted DFT as a sum; 1-d, 2-d corollaries |
| C09 easy_fft conserves energy | same | Parseval along one axis, induction over axes |
| C10 cart2pol is a polar decomposition | `cart2pol` (`abs`, `arg`) | Mathlib's polar form |
| C11 center_data centres the maximum and loses nothing | `center_data` (argmax, roll per axis) | roll = index rotation; permutation by a bijection of index sets |
| C12 remove_bg subtracts the mode | `remove_bg` (bincount argmax) | list counting; mode is the least maximiser |
| C13 psqrt | `psqrt` | real square root |
| C14 prep_data_for_PR: pad path | `prep_data_for_PR`, no crop | composition of C02, C11, C12 |
| C15 prep_data_for_PR: crop path | `prep_data_for_PR`, crop | composition of C05, C11, C12; explicit counterexamples |
| C16 bin_ndarray sums blocks | `bin_ndarray` (reshape + sum over odd axes) | reshape as mixed radix index arithmetic |
| C17 bin_ndarray conserves the total | same | re-indexing of a double sum |
| C18 bin_ndarray argument checks | same, argument handling | case analysis |
| C19 radial_profile averages rings | `radial_profile` (indices, rint, bincount) | sums over fibres; variance identity |
| C20 radial_profile has no empty ring at unit bins | same | integer points on every ring along one axis |
| C21 NumericProperty validation | `NumericProperty.__set__` | case analysis over all Python values |
| C22 Noll <-> degrees are inverse | `noll2degrees`, `degrees2noll`, the tables | kernel `decide` over the whole finite table, lifted to arrays of any shape |
| C23 Noll numbering is the standard one | same | same, against an independent definition of Noll's numbering |
| C24 Noll lookup errors | same | same; all integers (outside the table by `omega`) |
| C25 radial polynomials | `zernike` radial part via `eval_jacobi` | re-indexing of the hypergeometric sum |
| C26 Zernike modes are orthonormal | `zernike` | orthogonality of radial polynomials by finite differences; integration in polar coordinates |
| C27 Zernike support and parity | `zernike` | from the closed form |
| C28 zernike argument handling | `zernike` argument handling | case analysis |
| C29 aberration names | `name2noll`, `noll2name` | kernel `decide` over the complete table |
| C30 named aberration coefficients | `named_aberration_to_pcoefs`, `apply_named_aberrations` | list sums, permutation invariance |
| C31 a HanserPSF is always coherent with its parameters | HanserPSF: all setters, caches, `apply_pupil`, getters | simulation of a cache-free specification machine, induction over the history |
| C32 a SheppardPSF is always coherent with its parameters | SheppardPSF likewise | same |
| C33 rejected assignments leave the model untouched | setters | case analysis over all assignments |
| C34 constructor acceptance | constructors (order of assignments, keyword handling) | `iff` from the unfolded constructor |
| C35 sampling limit after construction | `res`, `zres` setters | case analysis; explicit histories |
| C36 default z planes | default `zrange`, setters | list arithmetic |
| C37 when an applied pupil is in force | `apply_pupil`, `_attribute_changed` | induction over histories of harmless steps |
| C38 aberrating a copy | `apply_aberration`, `apply_named_aberration(s)`, `copy.copy` (heap model) | heap frame argument |
| C39 PSFi is non-negative and is the summed squared amplitude | `PSFi` | unfolding of the closed form of the stack |
| C40 every z plane carries the same energy | `_gen_psf`, `PSFi` | Parseval |
| C41 z planes are independent | `zrange` dependence | closed form |
| C42 vectorial 'total' is the sum of x, y and z | vectorial factors | sum of squares of direction cosines |
| C43 number of field components | shapes | shape lemma |
| C44 OTFi is Hermitian with its maximum at DC | `OTFi = easy_fft(PSFi)` | C08 plus triangle inequality |
| C45 diffraction limit | `OTFi` of band limited pupils | autocorrelation of the pupil: index argument modulo n |
| C46 symmetry of the ideal PSF | ideal `PSFi` | symmetries of the frequency grid |
| C47 the in-focus peak | ideal `PSFi` | triangle inequality for the field |
| C48 apply_pupil is linear | `apply_pupil` | linearity of the closed form |
| C49 zero aberration is the identity and phase aberration conserves energy | `apply_aberration` to PSFi | closed form of the aberrated pupil |
| C50 Sheppard support | `SheppardPSF._gen_otf` (shell rounding, cap) | case analysis on the shell; real estimates |
| C51 Sheppard ignores condition for scalar fields | condition factor | closed form |
| C52 Sheppard dual vectorial fields are NaN | NaN propagation (`Option`) | NaN in one sample reaches every sample of a DFT |
| C53 microscope PSF is normalised | `WidefieldMicroscope.PSF`, `OTF` | sums |
| C54 oversampling keeps the centre | `_attribute_changed`, roll + bin | index arithmetic |
| C55 oversample_factor validation | constructor | case analysis |
| C56 microscope cache and its limits | numeric properties, caches of the microscope | simulation as for C31; explicit stale histories |
| C57 pinhole kernel | `_disk_kernel` | membership of the disk, symmetry of the grid |
| C58 confocal PSF | `ConfocalMicroscope` | closed form of `fftconvolve` with a kernel |
| C59 SIM excitation patterns | `BaseSIMMicroscope.model_psf` | trigonometric identities over the list of orientations |
| C60 SIM constructor quirks | SIM constructor | case analysis |
| C61 microscope repr | `__repr__` arguments | re-running the constructor on them |
| C62 retrieve_phase terminates within max_iters | `retrieve_phase` loop | induction over the iteration |
| C63 error reduction | the same, amplitude error | projection argument (Gerchberg-Saxton) in the complex plane per pixel, Parseval per plane |
| C64 true pupil is a fixed point | the same | fixed point of the update |
| C65 retrieved pupil support | the same | invariant of the loop |
| C66 result consistency on convergence and on exhaustion | the same | last step of the loop |
| C67 retrieve_phase overwrites the caller's parameters | `retrieve_phase` and the caller's dict | state monad over the dictionary |
| C68 result pupil round trip | `PhaseRetrievalResult` | `Unwraps` contract; polar form |
| C69 generate_psf resizing | `generate_psf(size)` | C02/C05 of the resizing |
| C70 Zernike fit | `fit_to_zernikes` over any `lstsq` with the contract `LeastSquares` | uniqueness of the minimiser |
| C71 reconstruction is additive over slices | `ZernikeDecomposition` | linearity; slices of a list |
| C72 plot extents | `max_min`, `fft_max_min` | arithmetic |
| C73 z_squeeze | `z_squeeze` | real analysis (limits) |
| C74 plot panel labels | `psf_plot`, `otf_plot` | record of panels |
| C75 labview wrapper | `labview.py` | composition |
| C76 the Hanser amplitude PSF is the diffraction integral of the pupil in force | `HanserPSF._gen_pupil/_calc_defocus/_gen_psf` | closed form of the whole stack |
| C77 alignment of the SIM pattern with the PSF | SIM coordinate origin | maximum of a trigonometric sum |
| C78 outlines drawn over the OTF | `otf_plot` overlays | plane geometry |
| C79 the unit of length does not matter | units | the closed form depends on products only |
| C80 a defocused pupil is a displacement of the planes | defocus factor | closed form |
| C81 a tilted pupil translates the image | tilt | shift theorem |
| C82 the OTF of a microscope is a normalised transfer function | `OTF` of microscopes after any history | C44 for the binned image, C56 |
| C83 the Wiener filter | Wiener filter | inverse of the centred DFT, both parities |
| C84 amplitude PSF and amplitude OTF are a Fourier pair | `OTFa`/`PSFa` of both models as centred transforms (`Spec/Centred.lean`) | roll = phase, both parities; NaN contagion |
| C85 position and energy of the Sheppard PSF | Sheppard `PSFi` as squared modulus of cap waves | C84 + the cap form of C50; triangle inequality; Parseval |
| C86 symmetry of the Sheppard PSF | Sheppard symmetries | re-indexing the cap sum by opposite / transposed samples |
| C87 attributes of a PSF model are always valid | setters and constructors (`Model/Objects.lean`), attributes as Python values | invariant over histories: each statement of a setter preserves `ValidAttrs` |
| C88 repr of a PSF model | `__repr__` as the constructor call it denotes (`Model/Repr.lean`; digits printed in full) | C87 invariant + the exact constructor characterisation of C34/C35 |
| C89 what plot_psf shows | `_validate_zrange`, extents, crop, `plot_psf` of models and microscopes (`Model/Plot.lean`) | telescoping sum of the steps; `SelectsWindow` of C05; panels of C74 |
| C90 what plot_otf shows | `plot_otf` of models and microscopes | argmax; panels of C74; largest modulus at zero frequency by C44/C82 |
| C91 exposure of the data in phase retrieval | `retrieve_phase` on data and on `c` times the data | the update is homogeneous of degree 1/2 in the data and 0 in the pupil (induction over the iterates) |
| C92 what the plots of a retrieved pupil show | `plot`, `plot_convergence`, `_plot_complex_pupil` (`Model/PrPlot.lean`) | support of C65, closed form of the modes (C70, C71) |
| C93 names and coefficients in plot_named_coefs | `plot_named_coefs`, `plot_coefs`, `str.title`, broadcasting of `bar` | finite name table by kernel evaluation, uniqueness of Noll numbers up to 15, all lengths of the coefficient list |
| C94 assigned attributes read back and leave the others alone | `Micro.set`, `Micro.get`, `setAttr` of both PSF classes | the outcome of the property setter (C21) applied to each attribute of each class; frame lemma for the statements of the setters; induction over histories |
| C95 the Apotome dims every plane by its transfer at half the Abbe limit | `apotomePsf`, `apotomeProfile`, `abbeLimit`, `radialProfileC`, `easyFft` | closed form of the radial average of the spectrum, triangle inequality against the zero frequency (= energy of the plane, attained), lexicographic maximum of the complex profile identified with that energy, equal energy of Hanser planes (C40) |
| C96 a PSF cannot tell a pupil from its twin | `hanserGenPsf`, `applyAberration`, `aberratedPupil`, Zernike modes | conjugation of the discrete diffraction integral inverts it; parity of Zernike modes through arg(-z) and of the vector weights under frequency reversal; Nyquist rows lie outside the aperture |
| C97 a git description is parsed back into its parts | `Model/Version.lean`: `runCommand`, `gitPiecesFromVcs`, `matchDescribe` | last-hyphen decomposition of the reversed text; decimal printing and reading are inverse; converse by inverting every branch |
| C98 version strings | `Model/Version.lean`: `render` and the styles | case analysis to the closed forms; injectivity by cutting at the first '+', '.' and 'g' (digits and hex digits contain none) |
| C99 the version of an archive | `Model/Version.lean`: `gitVersionsFromKeywords` | split of the joined decoration gives back the names; the head of a sorted list is its least element |
| C100 the version of the package | `Model/Version.lean`: `getVersions` | composition of C97 and C98; exhaustive inversion of the outcomes of the commands |
| C101 keywords and directory names are read back | `Model/Version.lean`: `gitGetKeywords`, `quoted`, `versionsFromParentdir` | induction over the line up to the equal sign; invariance of the fold under other lines |
| C102 padding in two steps | `Model/Utils.lean`: `fftPad`, `calcPad`, `calcCrop` | offset arithmetic per axis, composition of the characterisation C01/C03; a unit impulse at a lost pixel for the converse |
| C103 binning in two steps | `Model/Utils.lean`: `binNdarray` | nested block sums regrouped by induction over the axes |
| C104 center_data of moved or rescaled data | `Model/Utils.lean`: `centerData`, `argmax` | uniqueness of the argument of the maximum; composition of rolls; `decide` on the witness for ties |
| C105 remove_bg and the camera offset | `Model/Utils.lean`: `removeBg`, `modeOf` | counts and order are kept by injective monotone maps, so the mode moves with the data |
| C106 radial_profile as a function of the data | `Model/Utils.lean`: `radialProfile` | the profile is a list of means over rings which partition the pixels (C14); finite sums, Popoviciu's inequality |
| C107 laws of easy_fft in n dimensions | `Model/Utils.lean`: `easyFft`, `easyIfft` | induction over the axes to the n-dimensional sum; re-indexing by the displaced pixel; exchange of sums |
| C108 Zernike modes are bounded | `zernike`, `zernike1`, `radialZernike` as for C25-C28 | the radial polynomial is a diagonal entry of the matrix of a plane rotation on homogeneous polynomials of degree n, orthogonal for binomial weights (Lemmas/ZernikeBound); rim value from C25 |
| C109 Zernike coefficients are root-mean-square amplitudes | `zernike1` evaluated through the library's `cart2pol`; `noll2degrees` | orthonormality C26, integrability from the bound C108 and measurability of the Cartesian form, finite sums; Noll version through C22, C23 |
| C110 the Zernike modes are complete | `zernike1` evaluated through the library's `cart2pol`; `noll2degrees` | r^(2l) times harmonics are combinations of modes (triangular system with non-zero diagonal), and are closed under multiplication by x and y; induction over monomials; coefficients from C109; Noll version by counting |
| C111 phase retrieval converges | retrievePhase, iterates of the specification (Problem.update) | the update is an orthogonal projection (Pythagoras via Parseval), squared steps are summable, errors of close pupils of bounded energy are close; the loop is insensitive to unused passes |
| C112 phase retrieval respects the symmetries of the optics | retrievePhase, iterates of the specification | an abstract symmetry (rearrangement of samples, pixels, planes, optional conjugation) commutes with field, analysis, magnitude replacement and averaging; induction over the passes |
| C113 The spectrum of a SIM PSF is a sum of displaced copies of the widefield spectrum | SimNum patterns, Micro.modelPsf, Micro.getOTF; spec: spectrumAt, planeWave, otfFreq, axialFreq | product of a cosine and a plane wave as two plane waves, summed over the pattern; C59 for the pattern; closed form of the centred transform |
| C114 Resolution limit of structured illumination | as C113, plus HSpec.PSFi, wienerPsf | bands of C113, triangle inequality for displaced frequencies, aliasing on the N-grid, cut-off of the autocorrelation of the pupil (C45), inversion of the axial transform |
| C115 Spectrum and resolution of the confocal microscope | Micro.modelPsf (confocal), Micro.getOTF, HSpec.PSFi; spec: sliceSpectrum, CutOff, OrdinaryArgs | orthogonality of characters for the product, aliasing and triangle inequality, C45/C114 for the cut-off of a Hanser model |
| C116 A confocal microscope with an open pinhole is a widefield microscope at the excitation wavelength | Micro.newConfocal, Micro.newWidefield, convSame, diskKernel, microPsf | the disk contains all displacements, so the pinhole collects the energy of the plane, which is the same for all planes (C40); binning and normalisation are linear (C54) |
| C117 The transfer function of a plane is the autocorrelation of the pupil; neither defocus nor aberration improves contrast | sliceSpectrum (plane spectrum) of HSpec.PSFi; specification `overlap`, `defocusedPupil` | expand the squared modulus of the field, orthogonality of characters collapses the double sum to the autocorrelation; triangle inequality |
| C118 Missing cone: no axial frequencies at zero lateral frequency | HSpec.OTFi, Micro.newWidefield, Micro.getPSF, Micro.getOTF | planes have equal energy (C40), camera pixels cover the field once, orthogonality of characters along z |
| C119 The pixels of the aperture determine the Zernike coefficients | PRResult.fitToZernikes, zernike, lstsq as a parameter that solves least squares problems | modes are polynomials of total degree n; a polynomial of degree 2h-1 with zeros on the diamond of integer points vanishes (row by row); orthonormality (C109); strict convexity for uniqueness |
| C120 The PSFs of the microscopes inherit the symmetry of the optics | Microscope.lean, Hanser.lean; small spec: MirrorSymmetric (z, y, x; lateral coordinates restricted to a set) and ExchangeSymmetric of a stack | C46 for the inner models; the camera sums the finer pixels symmetrically (finePixel_mirror, camera_symmetric); the Apotome factor depends on the plane only; the pinhole disk is symmetric and its zero padding is symmetric on odd grids and invisible a radius away from the edge (pinhole_symmetric) |
| C121 The unit of length does not matter to the microscopes | Microscope.lean (constructors, modelPsf, getPSF, getOTF); small spec: RescaledArgs (the two sets of arguments) and SameOutput (equal results of reading PSF and OTF) | C79 for the inner models; the pinhole radius, the Abbe limit in pixels and the phases of the beams are ratios of lengths; then the results of model_psf agree and so do PSF and OTF |
| C122 A Hanser PSF samples a solution of Maxwell's equations | the computed arrays of Model/Hanser.lean; Spec/Wave.lean defines the field at real positions, the Helmholtz equation and the divergence with Mathlib's derivative | the discrete phases equal the waves at the positions of the pixels; derivatives of finite sums of exponentials, dispersion relation kz^2 + kr^2 = (ni/wl)^2 inside the mask, transversality of the polarisation factors |
| C123 The pixel size only says where an unaberrated PSF is sampled | Model/Hanser.lean; Spec/Wave.lean: fovField sums over pairs of integers in a disk, with no grid | bijection between the frequency samples inside the aperture and the integer points of the disk (below the Abbe limit none is lost or aliased); amplitude_eq_wave of C122 |
| C124 Oversampling converges to the integral over the camera pixel | Model/Microscope.lean; small spec: pixelEdge, pixelMean, pixelIntegral (Mathlib interval integrals), the grid-free intensity of Spec/Wave.lean | C54 and C123 turn a camera pixel into a midpoint sum of a continuous periodic function; two-dimensional midpoint sums converge by uniform continuity; the denominator is constant by Parseval (C40) |
| C125 SIM microscopes whose model has other planes than the microscope, and any number of coherent orientations | Model/Microscope.lean simPsf with NumPy's broadcasting of the in-place additions and of the coherent product | Props/C125_SimPlanes.lean: sum of phasors by induction over the orientations, case analysis of the broadcast |
| C126 Rounding errors of bin_ndarray and of the normalisation of a microscope PSF | Model/Rounding.lean: Arith (rounding and summation trees), Arith.binNdarray, Arith.microPsf; no overflow or underflow | Props/C126_Rounding.lean: induction over summation trees and over the reduced axes; concrete 53-digit rounding with sequential and pairwise sums as instances |
| C127 large arrays show the diffraction integral of the continuous pupil | hanserGenPsf, applyAberration; specification Spec/Debye.lean | the amplitude is a lattice sum (C122, C123); Riemann sums of bounded almost everywhere continuous functions by dominated convergence (Lemmas/Riemann.lean) |
| C128 how much a wavefront error dims the focus | applyAberration, aberratedPupil; specification Spec/Strehl.lean | cos x >= 1 - x^2/2 for the phasors of the aperture about their mean phase; limit of the variance by C127's Riemann sums and orthonormality (C109) |
| C129 Sampling theorem: below the Nyquist limit a finer pixel grid only zero-pads the transfer function | hanserGenPsf, psfiOf, otfiOf, fftPad | PSFi is a trigonometric polynomial of the field of view (C123) whose frequencies are differences of two waves inside the aperture; below Nyquist they are distinct modulo N, so orthogonality gives the autocorrelation, which depends on the field of view only; C45 gives the empty frequencies; the Dirichlet kernel reproduces each wave |
| C130 Arrays are shared: outputs, zrange and copies | Model/Memory.lean: arrays in memory, objects hold references; Spec/Aliasing.lean: client programs run by reference and with values | simulation between the two machines for every statement (parametricity of the setters in what the caches are made of), induction over programs; ownership invariant for pupils |
| C131 Whole numbers computed through floating point are right, and radial_profile's statistics have bounded rounding error | Model/Floating.lean: the three functions with every floating point operation rounded | gap between square roots of whole numbers and the decision points (odd numbers, half-integers) exceeds the accumulated error; an error calculus for sums, products and quotients; explicit evaluation in double precision for the NaN |
| C132 the life of a PhaseRetrievalResult | Model/PrObject.lean: a result as an object on the heap of HanserPSF objects | simulation between the object with copies and caches and the cache-free machine (extends that of C31), induction on the history |
| C133 several threads and one PSF | `Model/Threads.lean`: threads as trees of atomic `__dict__` accesses, schedules as lists of thread numbers, locks of cached_property; scratch attributes `_k`, `_kr`, `_phi`, `_kmag`, `_kz`; a computation on reads that do not fit together gives an arbitrary value | rely-guarantee judgement (invariant HRel of C31 plus monotone facts on the scratch attributes), lock ranks, step bounds; a single thread is proved equal to the sequential model; races by explicit schedules |
| C134 SheppardPSF on large fields of view: the diffraction integral with an extra apodisation; when it agrees with HanserPSF | SSpec.PSFi of Model/Sheppard.lean and HSpec.PSFi of Model/Hanser.lean; capDebyeIntensity, capThickness (Spec/CapLimit.lean) as independent specification | samples above a lateral frequency are the integers near a phase (onCap_inside); averaged over neighbouring columns their number tends to twice the thickness wherever the slope of the cap is irrational (Lemmas/Strip, approximation by rationals), hence almost everywhere; translation invariance of the integral and dominated convergence turn the average into the sum (Lemmas/StripSum); C85 and C127 connect to the two models |
| C135 Interrupted calls on a HanserPSF | Model/Interrupt.lean: every call as a program of single accesses to the instance dictionary (Model/Threads.lean, plus all setters), Prog.cut abandons it after n steps, sessionT strings completed and abandoned calls together | invariants kept at every crash point (Lemmas/Interrupt.lean), caches at a crash point are a subset of the old ones, reads of such objects case by case, idempotence of the setters; run alone the programs are the sequential model |
| C136 One parameter dictionary for several retrievals; images and heights of different number | Model/PrThreads.lean: the call as two atomic accesses to the dictionary (update, keyword expansion) and a local rest; histories with interruptions; the schedules of Model/Threads.lean. | Props/C136_Dictionary.lean (invariant over schedules: between its two accesses a thread finds its own four entries), Props/C136_Planes.lean and Lemmas/PrPlanes.lean (the loop with broadcast arrays, pass by pass), Props/C136_Mismatch.lean. |
| C137 several threads and one SheppardPSF; the attributes it saves | `Model/SheppardThreads.lean`: every access of `_gen_kr`, `_gen_otf` and the cached properties to the object's `__dict__`, including the saved attributes; a computation on reads that do not fit together gives an arbitrary value | rely-guarantee judgement with per-attribute monotone facts; the saved attributes are related to the spherical cap of C50 by the index maps of fftshift; race by an explicit schedule |
| C138 Rounding and the pupil: aperture, sampling limit and PSF of HanserPSF in floating point | Model/FloatPupil.lean: the operations of _gen_kr, _gen_pupil, _calc_defocus, the scalar unapodised branch of _gen_psf, PSFi and the limit in the res setter, each rounded by an arbitrary function; hypot, exp and ifftn arbitrary functions. Model/FloatWeights.lean: apodisation and polarisation weights (theta, phi, plist), every branch of _gen_psf, and the sum over components in PSFi; arcsin, sin, cos, arctan2 arbitrary functions. No overflow or underflow. | Relative errors carried through each operation; gap of whole numbers around the squared radius for the aperture; phase error through the square root; Parseval for the transform; double precision (round to nearest even) evaluated for the pixel at the edge; a model in double precision meets all hypotheses with amplitude error below 1e-12. |
| C139 Arrays of microscopes: who shares what | Model/MicroMemory.lean: microscopes whose cached arrays are references into the memory of Model/Memory.lean, deep copies included; Spec/MicroAliasing.lean runs the same client program by reference and with the values of Model/Microscope.lean | forward simulation between both runs, statement by statement (Lemmas/MicroMemory, MicroStep, MicroNew, MicroProg); an invariant that models and microscopes have their arrays to themselves, kept by every statement including shared writes (Lemmas/MicroSep) |
| C140 Arrays of retrieval results and decompositions: who shares what | Model/PrMemory.lean: results and decompositions whose arrays are references into the memory of Model/Memory.lean and whose model is an instance there; Spec/PrAliasing.lean runs the same client program by reference and with the values of Model/PhaseRetrieval.lean | forward simulation between both runs, statement by statement (Lemmas/PrMemory, PrProg); an invariant that references are valid and the arrays of models, results and decompositions are apart (QGood); results of the temporary copies are new references (Lemmas/PrFresh) |
| C141 Zernike degrees given as floats | Model/ZernikeFloat.lean: index arguments of either element type, IEEE rules for nan and infinite degrees, SciPy's formula for eval_jacobi with a float degree | term-by-term identities of Gamma quotients by induction; the rim value by comparing polynomials in the azimuthal degree that agree at all natural numbers; the integer case by reduction to Model/Zernike.lean |
| C142 several threads and shared microscopes | Model/MicroThreads.lean: microscopes, HanserPSF and SheppardPSF objects in one memory, programs of atomic accesses with locks; the programs of Model/Threads.lean and Model/SheppardThreads.lean lifted to it | a rely-guarantee invariant per object, lifted from the models (Lemmas/ThreadsLift, Lab); an order of the locks for progress; a schedule built from lone runs for the race (Props/C142_Race) |
| C143 interrupted calls on microscopes | Model/MicroInterrupt.lean: the programs of Model/MicroThreads.lean abandoned after any number of accesses, and sessions of such calls | the invariant of C142 holds at every moment of a read; the states an assignment passes through are enumerated; an invariant of the models over sessions |
| C144 microscopes of one's own | Model/PrivateMicro.lean: threads of reads and assignments, made of the programs of Model/MicroThreads.lean; whose microscopes they are is a function from microscopes to threads | a rely-guarantee judgement with a rely and a guarantee for each thread (Lemmas/RelyGuarantee.lean); the safety of reads in C142 is carried over because the programs neither look at nor change microscopes of others; deadlock by lock ranks, termination by a bound on the accesses of a call |

Not expressible here (no property listed): floating point rounding error outside C126 (sums), C131 (index tests) and C138 (pupil and PSF), run time, matplotlib
rendering (colours, ticks), file I/O, logging.

## 3. Trusted base

* Lean 4.33.0's kernel, and Mathlib as installed (checked by the same kernel).
* Axioms: every manifest theorem depends on a subset of `propext`, `Classical.choice`, `Quot.sound`
  (checked with `#print axioms`). No axioms of our own; no `native_decide`, no `bv_decide`.
  `decide +kernel` is used on closed finite tables only (Noll tables, aberration names) and on
  literals in examples: the kernel itself evaluates it.
* The faithfulness of the definitions in `lean/Verif/Model` to `/repo` – by reading; the code cannot be
  run here. Each definition cites file and lines.
* The reading of NumPy/SciPy semantics: DFT conventions of `numpy.fft`, `fftshift` rolls by `n//2`,
  `ifftshift` by `-(n//2)`, `rint` half to even, Python slice clipping and negative wrap, `//` is floor
  division, `bincount` on non-negative integers only, `argmax` returns the first maximum, broadcasting of
  a scalar width. They are definitions (`Model/NumPy.lean`, `Model/PyVal.lean`), not axioms.
* `imshow(extent)` maps pixel centres affinely to the extent rectangle (C72, C74, C78).

## 4. What is modelled and what is not

| source | modelled | not modelled |
|---|---|---|
| `utils.py` | `fft_pad`, `_padding_slices`, `slice_maker`, `easy_fft/ifft`, `cart2pol`, `psqrt`, `center_data`, `remove_bg`, `prep_data_for_PR`, `bin_ndarray`, `radial_profile`, `NumericProperty`, `cached_property` use | `expand_kernel` options of NumPy's `pad` beyond the mode; object dtypes; signed zeros; `binsize=0`; 1-d data with a longer centre in `radial_profile` |
| `zernike.py` | tables, conversions, `zernike`, `_zern_*`, names, argument handling, degrees given as floats (`ZernikeFloat.lean`) | unsigned, `bool` and complex index arrays |
| `otf.py` | `BasePSF` (all properties, setters, caches), `HanserPSF`, `SheppardPSF`, aberrations, `__repr__`, `plot_psf`/`plot_otf` | number formatting and abbreviation of long arrays in `__repr__`; log messages; module `__main__` demo |
| `microscope.py` | all classes, their constructors, caches, `model_psf`, `PSF`, `OTF`, `plot_psf`, `plot_otf`, `__repr__` | `choose_model` string formatting of the error |
| `phaseretrieval.py` | `retrieve_phase`, `_calc_mse`, `PhaseRetrievalResult`, `ZernikeDecomposition`, `fit_to_zernikes`, all plots | colour maps, layout, the `axs` arguments |
| `display.py` | `psf_plot`, `otf_plot` panels/extents/overlays, `max_min`, `fft_max_min`, `z_squeeze` | colour maps, norms, figure creation |
| `labview.py` | the wrapper | – |
| `_version.py` | every function: `run_command`, `git_get_keywords`, `git_versions_from_keywords`, `git_pieces_from_vcs`, the six render styles, `render`, `versions_from_parentdir`, `get_versions` | git itself (a parameter: the outcome of each launch), the verbose messages, the handler registry, non-ASCII digits and white space |
| `versioneer.py`, `setup.py` | – | build tooling, not imported by the package |

Arrays are values in all `Model` files except `Memory.lean`, `MicroMemory.lean` and `PrMemory.lean`, where those of `HanserPSF`, of the microscopes with such a model and of retrieval results are references; C130, C139 and C140
prove that the two agree for clients that write into no shared array.  Not modelled: a zero-dimensional array assigned to `zrange` has its shape changed in place.

`Model/Threads.lean` models `HanserPSF` access by access, for several threads [C133]; `Model/Interrupt.lean` adds the remaining setters at that
level and abandons calls at any access [C135]; `Model/PrThreads.lean` does the same for the dictionary of `retrieve_phase` [C136] and `Model/SheppardThreads.lean` for `SheppardPSF` with the attributes it saves on the object (reads, and assignments to `size`; heaps of `SheppardPSF` objects only) [C137]; `Model/MicroThreads.lean` puts both kinds of models and all four classes of microscopes into one memory, with one lock for `PSFi` and one for `OTFi` of all models as before Python 3.12 (reads, and assignments to the numeric attributes of microscopes) [C142], `Model/MicroInterrupt.lean` abandons these calls at any access [C143] and `Model/PrivateMicro.lean` lets every thread read and assign, each to microscopes of its own [C144]; all other files are about one thread and calls that return or raise by themselves.

The module docs at the head of each `Model` file list the remaining simplifications.

## 5. Status

`MANIFEST.json` gives the status of every property (`proved` unless it says otherwise; a theorem that
proves only part of its property has the suffix `_partial`).

## 6. Findings (behaviour of the code at odds with its documentation or with expectation)

Proved as part of the properties named in brackets, or visible from the model.

* `easy_ifft` is not the inverse of `easy_fft` on odd axes: one sample shift and a phase ramp [C07]. The
  Wiener filter inherits this [C83], and so does `SheppardPSF.PSFa`: on odd sizes its origin is at pixel
  `n//2 + 1`, one off the centre at which `HanserPSF` puts it [C84, C85].
* `fft_pad` moves the FFT centre when the parity changes (2 → 1 loses it) [C04]; rank 0 raises
  `TypeError`, an empty axis cannot grow in other modes than 'constant' [C01].
* `prep_data_for_PR` with cropping does not clip negative values, need not be square, is off-centre on odd
  axes; `xysize=1` can lose the peak [C15].
* `zernike`: sign of odd `m` opposite to the textbook [C25], `norm` defaults to True although documented
  False [C26], a flat pair is two Noll indices [C28], `degrees2noll` aliases inadmissible pairs [C24].
* `fit_to_zernikes(0)`, `(1)` and `(>120)` raise `IndexError` [C70]; `apply_aberration` with `size=1`,
  `retrieve_phase` with 1×1 images: `squeeze` removes the lateral axes.
* `zernike` uses `r <= 1`, the pupil `kr < na/wl` strictly.
* `res <= 0` is accepted; `res` is not re-validated when `wl`/`na` change [C35]. `zsize=1` is out of focus
  and odd stacks are asymmetric [C36].
* `LatticeSIMMicroscope` with a model of a single plane returns `zsize` planes, other SIM classes raise `ValueError` for another number of planes than
  `zsize`, and `zsize=1` evaluates the pattern at `-zres` for all planes [C125].
* Assigning `res`, `zres`, `zsize`, `vec_corr`, `condition` their present value drops an applied pupil and
  a custom `zrange` [C36, C37]. The `zrange` setter keeps the caller's array and an in-place
  change of it (or of `m.zrange`) leaves stale caches, also in aberrated copies; the returned outputs are the caches themselves and can be overwritten [C130].
* `repr` of a PSF model may not be evaluable after `wl`/`na` changed, and does not show an applied pupil [C88].
* `SheppardPSF` ignores `condition` for scalar fields [C51]; `dual=True` with vectorial fields is NaN [C52];
  `size=2` makes the frequency step negative.
* Microscopes: inner-model, `wiener`, `orientations` changes leave stale PSFs [C56]; `wl_exc` of a confocal
  microscope has no effect and is unset until assigned [C58]; SIM with `wiener=None` cannot be built [C60],
  integer `na`/`wl` break the defaults [C60]; the SIM pattern is one pixel off on odd grids [C77]; empty
  `orientations` with coherent illumination raises `UnboundLocalError` [C59]; `repr` shows the oversampled
  size [C61], shows `coherent`/`dc` which the subclasses' constructors reject, and does not quote strings.
* For even sizes the block of camera pixel row 0 wraps around to the opposite edge [C54].
* The pinhole convolution of the confocal microscope pads with zeros, which on grids of even size (centre at `n // 2`) is not symmetric: the lateral
  mirror symmetry is guaranteed only a pinhole radius away from the edge [C120].
* `retrieve_phase` never compares the number of images with the number of heights in `zrange`: a single image is taken at every height, a single height for every
  image, without a warning; threads that share a `params` dictionary and have stacks of different shapes disturb each other [C136].
* `retrieve_phase` overwrites its `params` argument [C67] and on exhaustion returns model and mse of the
  previous iterate [C66]. `mse_tol` is also compared with the error itself, which scales with the square of the exposure:
  dim data stop after two passes [C91].
* `generate_psf(size)` shifts the centre by one pixel when padding changes parity [C69].
* `psf_plot`/`otf_plot`: the panels titled YZ and XZ are exchanged [C74]; in `otf_plot` zero frequency is off
  the origin for even sizes and the pixel pitch is scaled by `1-1/n` [C78]. `z_squeeze` with `na=0` is NaN.
* `plot_psf`/`plot_otf` of a `HanserPSF`: two planes are rejected; the evenness check has the absolute tolerance `1e-8`, so
  in metres irregular planes pass [C89]; planes further apart than twice the axial extent give an empty crop and a
  `ValueError` [C89]. The microscope plots label z with `pixel_size` even if `zres` was given [C89, C90].
* `plot_named_coefs()` needs 15 coefficients; with five it draws eleven equal bars, with another number below 15 it raises
  `ValueError` [C93].
* The version of an archive is the smallest tag *as text*, so `1.10` wins over `1.9`; parentheses at the ends of ref names are stripped [C99].
* Tags with a `+` make version strings ambiguous, and `pep440-pre` forgets the dirty flag [C98].
* `import pyotf` raises (`TypeError`, `ValueError`, `AttributeError`) if git can describe the checkout but cannot count its commits or tell the
  date of the last one [C100].
* `center_data` is not idempotent when the maximum is attained twice [C104].
* `remove_bg` with its default `multiplier=1.5` is not invariant to a camera offset: half of it is subtracted from every pixel [C105].
* In floating point `radial_profile` can return NaN for the standard deviation of a ring whose exact standard deviation is 0, e.g. for
  `np.full((2, 2), 0.1)`: the difference of two rounded numbers comes out negative [C131].
* Threads that only read a `HanserPSF` are safe, but assigning to it while another thread computes leaves a cache for the old
  parameters, and `apply_pupil` next to a reader may lose the pupil [C133]; the same race exists in `SheppardPSF` [C137] and in the microscopes: an
  attribute assigned while another thread computes `PSF` leaves the `PSF` of the old value cached [C142].
* `SheppardPSF` leaves `kmag`, `dk`, `dkz`, `valid_points`, `kzz`, `kyy`, `kxx` on the object; an assignment does not update or
  delete them, so between an assignment and the next read they are those of the old parameters [C137].
* An assignment to `wl`, `na`, `ni` or `size` that is interrupted after the value is stored leaves the caches of the old value; repeating it is a
  silent no-op, because the value is no longer new. Other calls can be repeated [C135]. The numeric attributes of microscopes behave the same way; interrupted between
  the two deletions, `PSF` is the new one and `OTF` the old one, until an assignment changes a value again [C143].
* `SheppardPSF` weights every wave with the number of samples of the shell above it, on large arrays `2/cos(theta)` for equal extents of the field of view: without
  condition (and always in scalar theory) it shows the PSF of `HanserPSF(condition="herschel")`, and the ratio of `N*res` to `zsize*zres` changes the apodisation [C134].
* Pixels exactly on the edge of the aperture (`size*res*na/wl` whole) are excluded by `kr < diff_limit` but rounding may include them: `wl=600, na=1.0,
  res=60, size=100` in double precision [C138].
* NaN is accepted for `wl` and `na` and disables the Abbe limit for `res` [C34].
* `np.int` (used by `radial_profile` and the Apotome) no longer exists in current NumPy.
* `m.model_psf` of a `WidefieldMicroscope` is the cached array of `m.model` itself, while the other microscopes return a new array: writing into it changes `m.model.PSFi`, and `m.PSF`
  if that has not been read (C139).
* `ConfocalMicroscope(..., zrange=z)` keeps the caller's array `z` for `m.model` but deep-copies it for `m.model_exc`: writing into `z` later moves the planes of one model only, so the
  detection and excitation PSFs that are multiplied belong to different planes (C139).
- `result.mag`, `result.phase`, `zd.mcoefs` and `zd.pcoefs` are the live arrays: a write into what they return shows in `complex_pupil`, `zd.phase()` etc. afterwards, but not in
  a decomposition already made.  An array given as `params["zrange"]` is kept by `result.model`: a later write into it shows in `result.model.zrange`, without resetting what
  that model has computed (C140).
- `zernike` accepts degrees that are no whole numbers: `(2.5, -0.5)` gives a mode with a jump of twice its value along the line θ = ±π, infinite degrees and pairs such as `(2.5, 0)`
  give zeros, all without an error; only Noll indices have to be of integer type - `4.0` is refused (C141).

## 7. Wrong programs

`seeded/LOG.jsonl` records every edit tried, the claim it breaks, the theorems that stopped proving and
the theorems tightened as a consequence.
