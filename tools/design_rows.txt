C01|`fft_pad`, `_padding_slices`, `np.pad` (all modes), slicing, any rank|induction over the axes, `omega` per axis
C02|same|index arithmetic lifted to N-d; element formula stated with `Aligned` (Spec/Pad)
C03|same|two applications of C02
C04|same|`omega` on the parity cases
C05|`slice_maker`, `np.rint` (half to even), Python slice semantics incl. clipping|characterisation of `rint`; slice membership
C06|`slice_maker` validation|case analysis, `iff` for acceptance
C07|`easy_fft`, `easy_ifft` = shift/fftn/shift on any axis set|1-d round trip by orthogonality of roots of unity; lifted axis by axis (`alongAxes`)
C08|same|the kernel of the shifted DFT as a sum; 1-d, 2-d corollaries
C09|same|Parseval along one axis, induction over axes
C10|`cart2pol` (`abs`, `arg`)|Mathlib's polar form
C11|`center_data` (argmax, roll per axis)|roll = index rotation; permutation by a bijection of index sets
C12|`remove_bg` (bincount argmax)|list counting; mode is the least maximiser
C13|`psqrt`|real square root
C14|`prep_data_for_PR`, no crop|composition of C02, C11, C12
C15|`prep_data_for_PR`, crop|composition of C05, C11, C12; explicit counterexamples
C16|`bin_ndarray` (reshape + sum over odd axes)|reshape as mixed radix index arithmetic
C17|same|re-indexing of a double sum
C18|same, argument handling|case analysis
C19|`radial_profile` (indices, rint, bincount)|sums over fibres; variance identity
C20|same|integer points on every ring along one axis
C21|`NumericProperty.__set__`|case analysis over all Python values
C22|`noll2degrees`, `degrees2noll`, the tables|kernel `decide` over the whole finite table, lifted to arrays of any shape
C23|same|same, against an independent definition of Noll's numbering
C24|same|same; all integers (outside the table by `omega`)
C25|`zernike` radial part via `eval_jacobi`|re-indexing of the hypergeometric sum
C26|`zernike`|orthogonality of radial polynomials by finite differences; integration in polar coordinates
C27|`zernike`|from the closed form
C28|`zernike` argument handling|case analysis
C29|`name2noll`, `noll2name`|kernel `decide` over the complete table
C30|`named_aberration_to_pcoefs`, `apply_named_aberrations`|list sums, permutation invariance
C31|HanserPSF: all setters, caches, `apply_pupil`, getters|simulation of a cache-free specification machine, induction over the history
C32|SheppardPSF likewise|same
C33|setters|case analysis over all assignments
C34|constructors (order of assignments, keyword handling)|`iff` from the unfolded constructor
C35|`res`, `zres` setters|case analysis; explicit histories
C36|default `zrange`, setters|list arithmetic
C37|`apply_pupil`, `_attribute_changed`|induction over histories of harmless steps
C38|`apply_aberration`, `apply_named_aberration(s)`, `copy.copy` (heap model)|heap frame argument
C39|`PSFi`|unfolding of the closed form of the stack
C40|`_gen_psf`, `PSFi`|Parseval
C41|`zrange` dependence|closed form
C42|vectorial factors|sum of squares of direction cosines
C43|shapes|shape lemma
C44|`OTFi = easy_fft(PSFi)`|C08 plus triangle inequality
C45|`OTFi` of band limited pupils|autocorrelation of the pupil: index argument modulo n
C46|ideal `PSFi`|symmetries of the frequency grid
C47|ideal `PSFi`|triangle inequality for the field
C48|`apply_pupil`|linearity of the closed form
C49|`apply_aberration` to PSFi|closed form of the aberrated pupil
C50|`SheppardPSF._gen_otf` (shell rounding, cap)|case analysis on the shell; real estimates
C51|condition factor|closed form
C52|NaN propagation (`Option`)|NaN in one sample reaches every sample of a DFT
C53|`WidefieldMicroscope.PSF`, `OTF`|sums
C54|`_attribute_changed`, roll + bin|index arithmetic
C55|constructor|case analysis
C56|numeric properties, caches of the microscope|simulation as for C31; explicit stale histories
C57|`_disk_kernel`|membership of the disk, symmetry of the grid
C58|`ConfocalMicroscope`|closed form of `fftconvolve` with a kernel
C59|`BaseSIMMicroscope.model_psf`|trigonometric identities over the list of orientations
C60|SIM constructor|case analysis
C61|`__repr__` arguments|re-running the constructor on them
C62|`retrieve_phase` loop|induction over the iteration
C63|the same, amplitude error|projection argument (Gerchberg-Saxton) in the complex plane per pixel, Parseval per plane
C64|the same|fixed point of the update
C65|the same|invariant of the loop
C66|the same|last step of the loop
C67|`retrieve_phase` and the caller's dict|state monad over the dictionary
C68|`PhaseRetrievalResult`|`Unwraps` contract; polar form
C69|`generate_psf(size)`|C02/C05 of the resizing
C70|`fit_to_zernikes` over any `lstsq` with the contract `LeastSquares`|uniqueness of the minimiser
C71|`ZernikeDecomposition`|linearity; slices of a list
C72|`max_min`, `fft_max_min`|arithmetic
C73|`z_squeeze`|real analysis (limits)
C74|`psf_plot`, `otf_plot`|record of panels
C75|`labview.py`|composition
C76|`HanserPSF._gen_pupil/_calc_defocus/_gen_psf`|closed form of the whole stack
C77|SIM coordinate origin|maximum of a trigonometric sum
C78|`otf_plot` overlays|plane geometry
C79|units|the closed form depends on products only
C80|defocus factor|closed form
C81|tilt|shift theorem
C82|`OTF` of microscopes after any history|C44 for the binned image, C56
C83|Wiener filter|inverse of the centred DFT, both parities
C84|`OTFa`/`PSFa` of both models as centred transforms (`Spec/Centred.lean`)|roll = phase, both parities; NaN contagion
C85|Sheppard `PSFi` as squared modulus of cap waves|C84 + the cap form of C50; triangle inequality; Parseval
C86|Sheppard symmetries|re-indexing the cap sum by opposite / transposed samples
C87|setters and constructors (`Model/Objects.lean`), attributes as Python values|invariant over histories: each statement of a setter preserves `ValidAttrs`
C88|`__repr__` as the constructor call it denotes (`Model/Repr.lean`; digits printed in full)|C87 invariant + the exact constructor characterisation of C34/C35
C89|`_validate_zrange`, extents, crop, `plot_psf` of models and microscopes (`Model/Plot.lean`)|telescoping sum of the steps; `SelectsWindow` of C05; panels of C74
C90|`plot_otf` of models and microscopes|argmax; panels of C74; largest modulus at zero frequency by C44/C82
C91|`retrieve_phase` on data and on `c` times the data|the update is homogeneous of degree 1/2 in the data and 0 in the pupil (induction over the iterates)
C92|`plot`, `plot_convergence`, `_plot_complex_pupil` (`Model/PrPlot.lean`)|support of C65, closed form of the modes (C70, C71)
C93|`plot_named_coefs`, `plot_coefs`, `str.title`, broadcasting of `bar`|finite name table by kernel evaluation, uniqueness of Noll numbers up to 15, all lengths of the coefficient list
C94|`Micro.set`, `Micro.get`, `setAttr` of both PSF classes|the outcome of the property setter (C21) applied to each attribute of each class; frame lemma for the statements of the setters; induction over histories
C95|`apotomePsf`, `apotomeProfile`, `abbeLimit`, `radialProfileC`, `easyFft`|closed form of the radial average of the spectrum, triangle inequality against the zero frequency (= energy of the plane, attained), lexicographic maximum of the complex profile identified with that energy, equal energy of Hanser planes (C40)
C96|`hanserGenPsf`, `applyAberration`, `aberratedPupil`, Zernike modes|conjugation of the discrete diffraction integral inverts it; parity of Zernike modes through arg(-z) and of the vector weights under frequency reversal; Nyquist rows lie outside the aperture
C97|`Model/Version.lean`: `runCommand`, `gitPiecesFromVcs`, `matchDescribe`|last-hyphen decomposition of the reversed text; decimal printing and reading are inverse; converse by inverting every branch
C98|`Model/Version.lean`: `render` and the styles|case analysis to the closed forms; injectivity by cutting at the first '+', '.' and 'g' (digits and hex digits contain none)
C99|`Model/Version.lean`: `gitVersionsFromKeywords`|split of the joined decoration gives back the names; the head of a sorted list is its least element
C100|`Model/Version.lean`: `getVersions`|composition of C97 and C98; exhaustive inversion of the outcomes of the commands
C101|`Model/Version.lean`: `gitGetKeywords`, `quoted`, `versionsFromParentdir`|induction over the line up to the equal sign; invariance of the fold under other lines
C102|`Model/Utils.lean`: `fftPad`, `calcPad`, `calcCrop`|offset arithmetic per axis, composition of the characterisation C01/C03; a unit impulse at a lost pixel for the converse
C103|`Model/Utils.lean`: `binNdarray`|nested block sums regrouped by induction over the axes
C104|`Model/Utils.lean`: `centerData`, `argmax`|uniqueness of the argument of the maximum; composition of rolls; `decide` on the witness for ties
C105|`Model/Utils.lean`: `removeBg`, `modeOf`|counts and order are kept by injective monotone maps, so the mode moves with the data
C106|`Model/Utils.lean`: `radialProfile`|the profile is a list of means over rings which partition the pixels (C14); finite sums, Popoviciu's inequality
C107|`Model/Utils.lean`: `easyFft`, `easyIfft`|induction over the axes to the n-dimensional sum; re-indexing by the displaced pixel; exchange of sums
C108|`zernike`, `zernike1`, `radialZernike` as for C25-C28|the radial polynomial is a diagonal entry of the matrix of a plane rotation on homogeneous polynomials of degree n, orthogonal for binomial weights (Lemmas/ZernikeBound); rim value from C25
C109|`zernike1` evaluated through the library's `cart2pol`; `noll2degrees`|orthonormality C26, integrability from the bound C108 and measurability of the Cartesian form, finite sums; Noll version through C22, C23
C110|`zernike1` evaluated through the library's `cart2pol`; `noll2degrees`|r^(2l) times harmonics are combinations of modes (triangular system with non-zero diagonal), and are closed under multiplication by x and y; induction over monomials; coefficients from C109; Noll version by counting
C111|retrievePhase, iterates of the specification (Problem.update)|the update is an orthogonal projection (Pythagoras via Parseval), squared steps are summable, errors of close pupils of bounded energy are close; the loop is insensitive to unused passes
C112|retrievePhase, iterates of the specification|an abstract symmetry (rearrangement of samples, pixels, planes, optional conjugation) commutes with field, analysis, magnitude replacement and averaging; induction over the passes
C113|SimNum patterns, Micro.modelPsf, Micro.getOTF; spec: spectrumAt, planeWave, otfFreq, axialFreq|product of a cosine and a plane wave as two plane waves, summed over the pattern; C59 for the pattern; closed form of the centred transform
C114|as C113, plus HSpec.PSFi, wienerPsf|bands of C113, triangle inequality for displaced frequencies, aliasing on the N-grid, cut-off of the autocorrelation of the pupil (C45), inversion of the axial transform
C115|Micro.modelPsf (confocal), Micro.getOTF, HSpec.PSFi; spec: sliceSpectrum, CutOff, OrdinaryArgs|orthogonality of characters for the product, aliasing and triangle inequality, C45/C114 for the cut-off of a Hanser model
C116|Micro.newConfocal, Micro.newWidefield, convSame, diskKernel, microPsf|the disk contains all displacements, so the pinhole collects the energy of the plane, which is the same for all planes (C40); binning and normalisation are linear (C54)
C117|sliceSpectrum (plane spectrum) of HSpec.PSFi; specification `overlap`, `defocusedPupil`|expand the squared modulus of the field, orthogonality of characters collapses the double sum to the autocorrelation; triangle inequality
C118|HSpec.OTFi, Micro.newWidefield, Micro.getPSF, Micro.getOTF|planes have equal energy (C40), camera pixels cover the field once, orthogonality of characters along z
C119|PRResult.fitToZernikes, zernike, lstsq as a parameter that solves least squares problems|modes are polynomials of total degree n; a polynomial of degree 2h-1 with zeros on the diamond of integer points vanishes (row by row); orthonormality (C109); strict convexity for uniqueness
C120|Microscope.lean, Hanser.lean; small spec: MirrorSymmetric (z, y, x; lateral coordinates restricted to a set) and ExchangeSymmetric of a stack|C46 for the inner models; the camera sums the finer pixels symmetrically (finePixel_mirror, camera_symmetric); the Apotome factor depends on the plane only; the pinhole disk is symmetric and its zero padding is symmetric on odd grids and invisible a radius away from the edge (pinhole_symmetric)
C121|Microscope.lean (constructors, modelPsf, getPSF, getOTF); small spec: RescaledArgs (the two sets of arguments) and SameOutput (equal results of reading PSF and OTF)|C79 for the inner models; the pinhole radius, the Abbe limit in pixels and the phases of the beams are ratios of lengths; then the results of model_psf agree and so do PSF and OTF
C122|the computed arrays of Model/Hanser.lean; Spec/Wave.lean defines the field at real positions, the Helmholtz equation and the divergence with Mathlib's derivative|the discrete phases equal the waves at the positions of the pixels; derivatives of finite sums of exponentials, dispersion relation kz^2 + kr^2 = (ni/wl)^2 inside the mask, transversality of the polarisation factors
C123|Model/Hanser.lean; Spec/Wave.lean: fovField sums over pairs of integers in a disk, with no grid|bijection between the frequency samples inside the aperture and the integer points of the disk (below the Abbe limit none is lost or aliased); amplitude_eq_wave of C122
C124|Model/Microscope.lean; small spec: pixelEdge, pixelMean, pixelIntegral (Mathlib interval integrals), the grid-free intensity of Spec/Wave.lean|C54 and C123 turn a camera pixel into a midpoint sum of a continuous periodic function; two-dimensional midpoint sums converge by uniform continuity; the denominator is constant by Parseval (C40)
C125|Model/Microscope.lean simPsf with NumPy's broadcasting of the in-place additions and of the coherent product|Props/C125_SimPlanes.lean: sum of phasors by induction over the orientations, case analysis of the broadcast
C126|Model/Rounding.lean: Arith (rounding and summation trees), Arith.binNdarray, Arith.microPsf; no overflow or underflow|Props/C126_Rounding.lean: induction over summation trees and over the reduced axes; concrete 53-digit rounding with sequential and pairwise sums as instances
C127|hanserGenPsf, applyAberration; specification Spec/Debye.lean|the amplitude is a lattice sum (C122, C123); Riemann sums of bounded almost everywhere continuous functions by dominated convergence (Lemmas/Riemann.lean)
C128|applyAberration, aberratedPupil; specification Spec/Strehl.lean|cos x >= 1 - x^2/2 for the phasors of the aperture about their mean phase; limit of the variance by C127's Riemann sums and orthonormality (C109)
C129|hanserGenPsf, psfiOf, otfiOf, fftPad|PSFi is a trigonometric polynomial of the field of view (C123) whose frequencies are differences of two waves inside the aperture; below Nyquist they are distinct modulo N, so orthogonality gives the autocorrelation, which depends on the field of view only; C45 gives the empty frequencies; the Dirichlet kernel reproduces each wave
C130|Model/Memory.lean: arrays in memory, objects hold references; Spec/Aliasing.lean: client programs run by reference and with values|simulation between the two machines for every statement (parametricity of the setters in what the caches are made of), induction over programs; ownership invariant for pupils
C131|Model/Floating.lean: the three functions with every floating point operation rounded|gap between square roots of whole numbers and the decision points (odd numbers, half-integers) exceeds the accumulated error; an error calculus for sums, products and quotients; explicit evaluation in double precision for the NaN
C132|Model/PrObject.lean: a result as an object on the heap of HanserPSF objects|simulation between the object with copies and caches and the cache-free machine (extends that of C31), induction on the history
C133|`Model/Threads.lean`: threads as trees of atomic `__dict__` accesses, schedules as lists of thread numbers, locks of cached_property; scratch attributes `_k`, `_kr`, `_phi`, `_kmag`, `_kz`; a computation on reads that do not fit together gives an arbitrary value|rely-guarantee judgement (invariant HRel of C31 plus monotone facts on the scratch attributes), lock ranks, step bounds; a single thread is proved equal to the sequential model; races by explicit schedules
C134|SSpec.PSFi of Model/Sheppard.lean and HSpec.PSFi of Model/Hanser.lean; capDebyeIntensity, capThickness (Spec/CapLimit.lean) as independent specification|samples above a lateral frequency are the integers near a phase (onCap_inside); averaged over neighbouring columns their number tends to twice the thickness wherever the slope of the cap is irrational (Lemmas/Strip, approximation by rationals), hence almost everywhere; translation invariance of the integral and dominated convergence turn the average into the sum (Lemmas/StripSum); C85 and C127 connect to the two models
C135|Model/Interrupt.lean: every call as a program of single accesses to the instance dictionary (Model/Threads.lean, plus all setters), Prog.cut abandons it after n steps, sessionT strings completed and abandoned calls together|invariants kept at every crash point (Lemmas/Interrupt.lean), caches at a crash point are a subset of the old ones, reads of such objects case by case, idempotence of the setters; run alone the programs are the sequential model
C136|Model/PrThreads.lean: the call as two atomic accesses to the dictionary (update, keyword expansion) and a local rest; histories with interruptions; the schedules of Model/Threads.lean.|Props/C136_Dictionary.lean (invariant over schedules: between its two accesses a thread finds its own four entries), Props/C136_Planes.lean and Lemmas/PrPlanes.lean (the loop with broadcast arrays, pass by pass), Props/C136_Mismatch.lean.
C137|`Model/SheppardThreads.lean`: every access of `_gen_kr`, `_gen_otf` and the cached properties to the object's `__dict__`, including the saved attributes; a computation on reads that do not fit together gives an arbitrary value|rely-guarantee judgement with per-attribute monotone facts; the saved attributes are related to the spherical cap of C50 by the index maps of fftshift; race by an explicit schedule
C138|Model/FloatPupil.lean: the operations of _gen_kr, _gen_pupil, _calc_defocus, the scalar unapodised branch of _gen_psf, PSFi and the limit in the res setter, each rounded by an arbitrary function; hypot, exp and ifftn arbitrary functions. Model/FloatWeights.lean: apodisation and polarisation weights (theta, phi, plist), every branch of _gen_psf, and the sum over components in PSFi; arcsin, sin, cos, arctan2 arbitrary functions. No overflow or underflow.|Relative errors carried through each operation; gap of whole numbers around the squared radius for the aperture; phase error through the square root; Parseval for the transform; double precision (round to nearest even) evaluated for the pixel at the edge; a model in double precision meets all hypotheses with amplitude error below 1e-12.
C139|Model/MicroMemory.lean: microscopes whose cached arrays are references into the memory of Model/Memory.lean, deep copies included; Spec/MicroAliasing.lean runs the same client program by reference and with the values of Model/Microscope.lean|forward simulation between both runs, statement by statement (Lemmas/MicroMemory, MicroStep, MicroNew, MicroProg); an invariant that models and microscopes have their arrays to themselves, kept by every statement including shared writes (Lemmas/MicroSep)
C140|Model/PrMemory.lean: results and decompositions whose arrays are references into the memory of Model/Memory.lean and whose model is an instance there; Spec/PrAliasing.lean runs the same client program by reference and with the values of Model/PhaseRetrieval.lean|forward simulation between both runs, statement by statement (Lemmas/PrMemory, PrProg); an invariant that references are valid and the arrays of models, results and decompositions are apart (QGood); results of the temporary copies are new references (Lemmas/PrFresh)
C141|Model/ZernikeFloat.lean: index arguments of either element type, IEEE rules for nan and infinite degrees, SciPy's formula for eval_jacobi with a float degree|term-by-term identities of Gamma quotients by induction; the rim value by comparing polynomials in the azimuthal degree that agree at all natural numbers; the integer case by reduction to Model/Zernike.lean
C142|Model/MicroThreads.lean: microscopes, HanserPSF and SheppardPSF objects in one memory, programs of atomic accesses with locks; the programs of Model/Threads.lean and Model/SheppardThreads.lean lifted to it|a rely-guarantee invariant per object, lifted from the models (Lemmas/ThreadsLift, Lab); an order of the locks for progress; a schedule built from lone runs for the race (Props/C142_Race)
C143|Model/MicroInterrupt.lean: the programs of Model/MicroThreads.lean abandoned after any number of accesses, and sessions of such calls|the invariant of C142 holds at every moment of a read; the states an assignment passes through are enumerated; an invariant of the models over sessions
C144|Model/PrivateMicro.lean: threads of reads and assignments, made of the programs of Model/MicroThreads.lean; whose microscopes they are is a function from microscopes to threads|a rely-guarantee judgement with a rely and a guarantee for each thread (Lemmas/RelyGuarantee.lean); the safety of reads in C142 is carried over because the programs neither look at nor change microscopes of others; deadlock by lock ranks, termination by a bound on the accesses of a call
