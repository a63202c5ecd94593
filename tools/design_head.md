# A Lean 4 model of pyOTF

## 1. Approach

* `lean/Verif/Model/*.lean` – the model, one file per source module. Every definition cites the
  lines of `/repo` it models and names its simplifications.
* `lean/Verif/Spec/*.lean` – small, model-independent specifications used in theorem statements
  (aligned windows, frequency grids, the physics of a pupil, the Sheppard shell, contracts of external
  functions). Some specifications used by one property only stand at the head of its `Props` file.
* `lean/Verif/Lemmas/*.lean` – helper lemmas (never cited in the manifest).
* `lean/Verif/Props/*.lean` – the property theorems `Cnn_…`, with concrete non-trivial cases meeting
  their hypotheses (`example`s and `demo…` theorems).
* `seeded/` – wrong programs: `mutate.py` applies one edit to a scratch copy of the model, rebuilds,
  and records which theorems fail (`LOG.jsonl`).
* `tools/manifest.py` regenerates `MANIFEST.json` and `lean/Verif.lean`; `tools/design.py` this file.

### Modelling conventions

* **Arrays**: `Arr α` = shape (`List ℕ`) + element function on index lists (`List ℕ → α`), C order.
  Only in-range indices are meaningful; all theorems speak about in-range indices or about `shape`.
  The N-d NumPy operations used by pyOTF (`roll`, `fftshift`, `ifftshift`, `fftn`, `ifftn`, basic
  slicing, `pad`, `reshape`, `sum(axis)`, `argmax`, `bincount`, `fftfreq`, `rint`) are defined for every
  rank.
* **Numbers**: array elements live in ℝ/ℂ with exact arithmetic. Rounding of IEEE doubles is *not*
  modelled. Python `int` is ℤ; a finite Python float is ℚ (every finite double is a rational); NaN and
  ±inf are separate constructors wherever validation code compares them.
* **NaN**: where the property is about NaN (empty radial bins, `sqrt` of a negative number, 0/0) the
  element type is `Option`, `none` = NaN. Elsewhere `Err.nan` means "the array contains NaN or inf".
* **Exceptions**: `Except Err`, one constructor per Python exception class.
* **Objects**: a record of the backing attributes and of the `cached_property` slots; each setter and
  getter is a state transformer (`PyM σ α = σ → Except Err α × σ`). `copy.copy` makes a new heap cell.
  In-place mutation of arrays shared with the caller is modelled only where a property says so.
* **External code** is modelled by its documented contract: `numpy.fft` (the DFT sums),
  `scipy.special.eval_jacobi` (hypergeometric sum), `scipy.signal.fftconvolve(mode='same')` (the
  convolution sum). `skimage.restoration.unwrap_phase` and `numpy.linalg.lstsq` are *arbitrary*
  functions, parameters of the model; theorems that need something of them say so by the hypotheses
  `Unwraps` (adds an integer multiple of 2π at each unmasked point) and `LeastSquares` (returns a
  minimiser; `leastSquares_exists` shows such a function exists).

## 2. Plan per property

Column 2: what is modelled. Column 3: how it is proved. The theorem names are in `MANIFEST.json`.

