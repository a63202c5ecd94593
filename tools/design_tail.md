
Not expressible here (no property listed): floating point rounding error outside C126 (sums), C131 (index tests) and C138 (pupil and PSF), run time, matplotlib
rendering (colours, ticks), file I/O, logging.

## 3. Trusted base

* Lean 4.33.0's kernel, and Mathlib as installed (checked by the same kernel).
* Axioms: every manifest theorem depends on a subset of `propext`, `Classical.choice`, `Quot.sound`
  (checked with `#print axioms`). No axioms of our own; no `native_decide`, no `bv_decide`.
  `decide +kernel` is used on closed finite tables only (Noll tables, aberration names) and on
  literals in examples: the kernel itself evaluates it.
* The faithfulness of the definitions in `lean/Verif/Model` to `/repo` – by reading; the code cannot be
  run here. Each definition cites file and lines.
* The reading of NumPy/SciPy semantics: DFT conventions of `numpy.fft`, `fftshift` rolls by `n//2`,
  `ifftshift` by `-(n//2)`, `rint` half to even, Python slice clipping and negative wrap, `//` is floor
  division, `bincount` on non-negative integers only, `argmax` returns the first maximum, broadcasting of
  a scalar width. They are definitions (`Model/NumPy.lean`, `Model/PyVal.lean`), not axioms.
* `imshow(extent)` maps pixel centres affinely to the extent rectangle (C72, C74, C78).

## 4. What is modelled and what is not

| source | modelled | not modelled |
|---|---|---|
| `utils.py` | `fft_pad`, `_padding_slices`, `slice_maker`, `easy_fft/ifft`, `cart2pol`, `psqrt`, `center_data`, `remove_bg`, `prep_data_for_PR`, `bin_ndarray`, `radial_profile`, `NumericProperty`, `cached_property` use | `expand_kernel` options of NumPy's `pad` beyond the mode; object dtypes; signed zeros; `binsize=0`; 1-d data with a longer centre in `radial_profile` |
| `zernike.py` | tables, conversions, `zernike`, `_zern_*`, names, argument handling, degrees given as floats (`ZernikeFloat.lean`) | unsigned, `bool` and complex index arrays |
| `otf.py` | `BasePSF` (all properties, setters, caches), `HanserPSF`, `SheppardPSF`, aberrations, `__repr__`, `plot_psf`/`plot_otf` | number formatting and abbreviation of long arrays in `__repr__`; log messages; module `__main__` demo |
| `microscope.py` | all classes, their constructors, caches, `model_psf`, `PSF`, `OTF`, `plot_psf`, `plot_otf`, `__repr__` | `choose_model` string formatting of the error |
| `phaseretrieval.py` | `retrieve_phase`, `_calc_mse`, `PhaseRetrievalResult`, `ZernikeDecomposition`, `fit_to_zernikes`, all plots | colour maps, layout, the `axs` arguments |
| `display.py` | `psf_plot`, `otf_plot` panels/extents/overlays, `max_min`, `fft_max_min`, `z_squeeze` | colour maps, norms, figure creation |
| `labview.py` | the wrapper | – |
| `_version.py` | every function: `run_command`, `git_get_keywords`, `git_versions_from_keywords`, `git_pieces_from_vcs`, the six render styles, `render`, `versions_from_parentdir`, `get_versions` | git itself (a parameter: the outcome of each launch), the verbose messages, the handler registry, non-ASCII digits and white space |
| `versioneer.py`, `setup.py` | – | build tooling, not imported by the package |

Arrays are values in all `Model` files except `Memory.lean`, `MicroMemory.lean` and `PrMemory.lean`, where those of `HanserPSF`, of the microscopes with such a model and of retrieval results are references; C130, C139 and C140
prove that the two agree for clients that write into no shared array.  Not modelled: a zero-dimensional array assigned to `zrange` has its shape changed in place.

`Model/Threads.lean` models `HanserPSF` access by access, for several threads [C133]; `Model/Interrupt.lean` adds the remaining setters at that
level and abandons calls at any access [C135]; `Model/PrThreads.lean` does the same for the dictionary of `retrieve_phase` [C136] and `Model/SheppardThreads.lean` for `SheppardPSF` with the attributes it saves on the object (reads, and assignments to `size`; heaps of `SheppardPSF` objects only) [C137]; `Model/MicroThreads.lean` puts both kinds of models and all four classes of microscopes into one memory, with one lock for `PSFi` and one for `OTFi` of all models as before Python 3.12 (reads, and assignments to the numeric attributes of microscopes) [C142], `Model/MicroInterrupt.lean` abandons these calls at any access [C143] and `Model/PrivateMicro.lean` lets every thread read and assign, each to microscopes of its own [C144]; all other files are about one thread and calls that return or raise by themselves.

The module docs at the head of each `Model` file list the remaining simplifications.

## 5. Status

`MANIFEST.json` gives the status of every property (`proved` unless it says otherwise; a theorem that
proves only part of its property has the suffix `_partial`).

## 6. Findings (behaviour of the code at odds with its documentation or with expectation)

Proved as part of the properties named in brackets, or visible from the model.

* `easy_ifft` is not the inverse of `easy_fft` on odd axes: one sample shift and a phase ramp [C07]. The
  Wiener filter inherits this [C83], and so does `SheppardPSF.PSFa`: on odd sizes its origin is at pixel
  `n//2 + 1`, one off the centre at which `HanserPSF` puts it [C84, C85].
* `fft_pad` moves the FFT centre when the parity changes (2 → 1 loses it) [C04]; rank 0 raises
  `TypeError`, an empty axis cannot grow in other modes than 'constant' [C01].
* `prep_data_for_PR` with cropping does not clip negative values, need not be square, is off-centre on odd
  axes; `xysize=1` can lose the peak [C15].
* `zernike`: sign of odd `m` opposite to the textbook [C25], `norm` defaults to True although documented
  False [C26], a flat pair is two Noll indices [C28], `degrees2noll` aliases inadmissible pairs [C24].
* `fit_to_zernikes(0)`, `(1)` and `(>120)` raise `IndexError` [C70]; `apply_aberration` with `size=1`,
  `retrieve_phase` with 1×1 images: `squeeze` removes the lateral axes.
* `zernike` uses `r <= 1`, the pupil `kr < na/wl` strictly.
* `res <= 0` is accepted; `res` is not re-validated when `wl`/`na` change [C35]. `zsize=1` is out of focus
  and odd stacks are asymmetric [C36].
* `LatticeSIMMicroscope` with a model of a single plane returns `zsize` planes, other SIM classes raise `ValueError` for another number of planes than
  `zsize`, and `zsize=1` evaluates the pattern at `-zres` for all planes [C125].
* Assigning `res`, `zres`, `zsize`, `vec_corr`, `condition` their present value drops an applied pupil and
  a custom `zrange` [C36, C37]. The `zrange` setter keeps the caller's array and an in-place
  change of it (or of `m.zrange`) leaves stale caches, also in aberrated copies; the returned outputs are the caches themselves and can be overwritten [C130].
* `repr` of a PSF model may not be evaluable after `wl`/`na` changed, and does not show an applied pupil [C88].
* `SheppardPSF` ignores `condition` for scalar fields [C51]; `dual=True` with vectorial fields is NaN [C52];
  `size=2` makes the frequency step negative.
* Microscopes: inner-model, `wiener`, `orientations` changes leave stale PSFs [C56]; `wl_exc` of a confocal
  microscope has no effect and is unset until assigned [C58]; SIM with `wiener=None` cannot be built [C60],
  integer `na`/`wl` break the defaults [C60]; the SIM pattern is one pixel off on odd grids [C77]; empty
  `orientations` with coherent illumination raises `UnboundLocalError` [C59]; `repr` shows the oversampled
  size [C61], shows `coherent`/`dc` which the subclasses' constructors reject, and does not quote strings.
* For even sizes the block of camera pixel row 0 wraps around to the opposite edge [C54].
* The pinhole convolution of the confocal microscope pads with zeros, which on grids of even size (centre at `n // 2`) is not symmetric: the lateral
  mirror symmetry is guaranteed only a pinhole radius away from the edge [C120].
* `retrieve_phase` never compares the number of images with the number of heights in `zrange`: a single image is taken at every height, a single height for every
  image, without a warning; threads that share a `params` dictionary and have stacks of different shapes disturb each other [C136].
* `retrieve_phase` overwrites its `params` argument [C67] and on exhaustion returns model and mse of the
  previous iterate [C66]. `mse_tol` is also compared with the error itself, which scales with the square of the exposure:
  dim data stop after two passes [C91].
* `generate_psf(size)` shifts the centre by one pixel when padding changes parity [C69].
* `psf_plot`/`otf_plot`: the panels titled YZ and XZ are exchanged [C74]; in `otf_plot` zero frequency is off
  the origin for even sizes and the pixel pitch is scaled by `1-1/n` [C78]. `z_squeeze` with `na=0` is NaN.
* `plot_psf`/`plot_otf` of a `HanserPSF`: two planes are rejected; the evenness check has the absolute tolerance `1e-8`, so
  in metres irregular planes pass [C89]; planes further apart than twice the axial extent give an empty crop and a
  `ValueError` [C89]. The microscope plots label z with `pixel_size` even if `zres` was given [C89, C90].
* `plot_named_coefs()` needs 15 coefficients; with five it draws eleven equal bars, with another number below 15 it raises
  `ValueError` [C93].
* The version of an archive is the smallest tag *as text*, so `1.10` wins over `1.9`; parentheses at the ends of ref names are stripped [C99].
* Tags with a `+` make version strings ambiguous, and `pep440-pre` forgets the dirty flag [C98].
* `import pyotf` raises (`TypeError`, `ValueError`, `AttributeError`) if git can describe the checkout but cannot count its commits or tell the
  date of the last one [C100].
* `center_data` is not idempotent when the maximum is attained twice [C104].
* `remove_bg` with its default `multiplier=1.5` is not invariant to a camera offset: half of it is subtracted from every pixel [C105].
* In floating point `radial_profile` can return NaN for the standard deviation of a ring whose exact standard deviation is 0, e.g. for
  `np.full((2, 2), 0.1)`: the difference of two rounded numbers comes out negative [C131].
* Threads that only read a `HanserPSF` are safe, but assigning to it while another thread computes leaves a cache for the old
  parameters, and `apply_pupil` next to a reader may lose the pupil [C133]; the same race exists in `SheppardPSF` [C137] and in the microscopes: an
  attribute assigned while another thread computes `PSF` leaves the `PSF` of the old value cached [C142].
* `SheppardPSF` leaves `kmag`, `dk`, `dkz`, `valid_points`, `kzz`, `kyy`, `kxx` on the object; an assignment does not update or
  delete them, so between an assignment and the next read they are those of the old parameters [C137].
* An assignment to `wl`, `na`, `ni` or `size` that is interrupted after the value is stored leaves the caches of the old value; repeating it is a
  silent no-op, because the value is no longer new. Other calls can be repeated [C135]. The numeric attributes of microscopes behave the same way; interrupted between
  the two deletions, `PSF` is the new one and `OTF` the old one, until an assignment changes a value again [C143].
* `SheppardPSF` weights every wave with the number of samples of the shell above it, on large arrays `2/cos(theta)` for equal extents of the field of view: without
  condition (and always in scalar theory) it shows the PSF of `HanserPSF(condition="herschel")`, and the ratio of `N*res` to `zsize*zres` changes the apodisation [C134].
* Pixels exactly on the edge of the aperture (`size*res*na/wl` whole) are excluded by `kr < diff_limit` but rounding may include them: `wl=600, na=1.0,
  res=60, size=100` in double precision [C138].
* NaN is accepted for `wl` and `na` and disables the Abbe limit for `res` [C34].
* `np.int` (used by `radial_profile` and the Apotome) no longer exists in current NumPy.
* `m.model_psf` of a `WidefieldMicroscope` is the cached array of `m.model` itself, while the other microscopes return a new array: writing into it changes `m.model.PSFi`, and `m.PSF`
  if that has not been read (C139).
* `ConfocalMicroscope(..., zrange=z)` keeps the caller's array `z` for `m.model` but deep-copies it for `m.model_exc`: writing into `z` later moves the planes of one model only, so the
  detection and excitation PSFs that are multiplied belong to different planes (C139).
- `result.mag`, `result.phase`, `zd.mcoefs` and `zd.pcoefs` are the live arrays: a write into what they return shows in `complex_pupil`, `zd.phase()` etc. afterwards, but not in
  a decomposition already made.  An array given as `params["zrange"]` is kept by `result.model`: a later write into it shows in `result.model.zrange`, without resetting what
  that model has computed (C140).
- `zernike` accepts degrees that are no whole numbers: `(2.5, -0.5)` gives a mode with a jump of twice its value along the line θ = ±π, infinite degrees and pairs such as `(2.5, 0)`
  give zeros, all without an error; only Noll indices have to be of integer type - `4.0` is refused (C141).

## 7. Wrong programs

`seeded/LOG.jsonl` records every edit tried, the claim it breaks, the theorems that stopped proving and
the theorems tightened as a consequence.
