import Verif.Model.Microscope
import Verif.Props.C44_C45_Otfi
import Verif.Props.C16_C18_Bin
import Verif.Lemmas.Dc
import Verif.Spec.Pad

/-!
# C53-C55: normalisation, oversampling and validation of microscopes
-/

namespace PyOTF

/-! ## C53: the numerical part -/

theorem normalised_sum {b a : Arr ℝ} (h : normalised b = .ok a) : a.sum = 1 ∧ a.shape = b.shape := by
  unfold normalised at h
  by_cases h0 : b.sum = 0
  · rw [if_pos h0] at h
    cases h
  · rw [if_neg h0] at h
    cases h
    have e : (b.map fun v => v / b.sum).sum = (b.sum)⁻¹ * b.sum := by
      simp only [Arr.sum, Arr.map]
      rw [← sumIdx_mul_left]
      exact sumIdx_congr fun i _ => by rw [div_eq_inv_mul]
    exact ⟨by rw [e, inv_mul_cancel₀ h0], rfl⟩

theorem microPsf_inv {o : ℤ} {size : ℕ} {psf a : Arr ℝ} (h : microPsf o size psf = .ok a) :
    ∃ b, binned o size psf = .ok b ∧ normalised b = .ok a := by
  unfold microPsf at h
  cases hb : binned o size psf with
  | error e => rw [hb] at h; cases h
  | ok b => rw [hb] at h; exact ⟨b, rfl, h⟩

theorem microPsf_sum {o : ℤ} {size : ℕ} {psf a : Arr ℝ} (h : microPsf o size psf = .ok a) : a.sum = 1 := by
  obtain ⟨b, -, h⟩ := microPsf_inv h
  exact (normalised_sum h).1

/-! ### Histories of a microscope -/

/-- What a user can do to a microscope.  `model f`, `excModel f` are arbitrary mutations of (or assignments to) `m.model`,
`m.model_exc`. -/
inductive MOp
  | set (a : Micro.MAttr) (v : PyVal)
  | wiener (w : PyVal)
  | orientations (o : List ℝ)
  | model (f : Inner → Inner)
  | excModel (f : Inner → Inner)
  | readPSF
  | readOTF
  | readModelPsf

/-- Mutating the excitation model. -/
def Micro.mapExc (f : Inner → Inner) (m : Micro) : Micro :=
  match m.kind with
  | .confocal e ph w => { m with kind := .confocal (f e) ph w }
  | _ => m

/-- One operation. -/
noncomputable def Micro.step (m : Micro) : MOp → Py (Out (Arr ℂ) (Arr ℝ)) × Micro
  | .set a v => outAs (fun _ => .done) (Micro.set a v m)
  | .wiener w => outAs (fun _ => .done) (Micro.setWiener w m)
  | .orientations o => outAs (fun _ => .done) (Micro.setOrientations o m)
  | .model f => (.ok .done, { m with model := f m.model })
  | .excModel f => (.ok .done, m.mapExc f)
  | .readPSF => outAs .real (Micro.getPSF m)
  | .readOTF => outAs .cplx (Micro.getOTF m)
  | .readModelPsf => outAs .real (Micro.modelPsf m)

/-- Microscopes that a constructor returned. -/
def Constructed (m : Micro) : Prop :=
  (∃ a, Micro.newWidefield a = .ok m) ∨ (∃ a, Micro.newApotome a = .ok m) ∨
  (∃ a wl ph, Micro.newConfocal a wl ph = .ok m) ∨
  (∃ a na wl w co dc ds os, Micro.newSIM a na wl w co dc ds os = .ok m)

/-- The caches and the parameters of `m` are untouched. -/
def SameCache (m m' : Micro) : Prop :=
  m'.psf = m.psf ∧ m'.otf = m.otf ∧ m'.oversample = m.oversample ∧ m'.psfParams = m.psfParams ∧ m'.pixelSize = m.pixelSize

/-- A computation that leaves the caches and the parameters untouched. -/
def KeepsCache {α : Type} (f : PyM Micro α) : Prop := ∀ m, SameCache m (f m).2

theorem keeps_bind {α β : Type} {f : PyM Micro α} {g : α → PyM Micro β} (hf : KeepsCache f) (hg : ∀ a, KeepsCache (g a)) :
    KeepsCache (f >>= g) := by
  intro m
  rw [PyM.bind_apply]
  have h1 := hf m
  rcases hfm : f m with ⟨e | a, m'⟩
  · rw [hfm] at h1; exact h1
  · rw [hfm] at h1
    have h2 := hg a m'
    obtain ⟨a1, a2, a3, a4, a5⟩ := h1
    obtain ⟨b1, b2, b3, b4, b5⟩ := h2
    exact ⟨b1.trans a1, b2.trans a2, b3.trans a3, b4.trans a4, b5.trans a5⟩

theorem keeps_lift {α : Type} (x : Py α) : KeepsCache (PyM.lift x : PyM Micro α) := fun _ => ⟨rfl, rfl, rfl, rfl, rfl⟩

theorem keeps_raise {α : Type} (x : Err) : KeepsCache (PyM.raise x : PyM Micro α) := fun _ => ⟨rfl, rfl, rfl, rfl, rfl⟩

theorem keeps_onModel {α : Type} (f : PyM Inner α) : KeepsCache (Micro.onModel f) := fun _ => ⟨rfl, rfl, rfl, rfl, rfl⟩

theorem keeps_onExc {α : Type} (f : PyM Inner α) : KeepsCache (Micro.onExc f) := by
  intro m
  unfold Micro.onExc
  split <;> exact ⟨rfl, rfl, rfl, rfl, rfl⟩

theorem keeps_simFiltered (w : PyVal) : KeepsCache (Micro.simFiltered w) := by
  unfold Micro.simFiltered
  split
  · exact keeps_onModel _
  · refine keeps_bind (keeps_lift _) fun x => ?_
    split
    · refine keeps_bind (keeps_onModel _) fun t => ?_
      split
      · exact keeps_lift _
      · exact keeps_raise _
    · exact keeps_raise _

theorem keeps_modelPsf : KeepsCache Micro.modelPsf := by
  unfold Micro.modelPsf
  refine keeps_bind (fun _ => ⟨rfl, rfl, rfl, rfl, rfl⟩) fun m => ?_
  split
  · exact keeps_onModel _
  · exact keeps_bind (keeps_onModel _) fun _ => keeps_lift _
  · exact keeps_bind (keeps_lift _) fun _ => keeps_bind (keeps_onModel _) fun _ => keeps_bind (keeps_lift _) fun _ =>
      keeps_bind (keeps_onExc _) fun _ => keeps_lift _
  · exact keeps_bind (keeps_lift _) fun _ => keeps_bind (keeps_simFiltered _) fun _ => keeps_lift _

/-- The transform of a real array. -/
noncomputable def spectrum (a : Arr ℝ) : Arr ℂ := easyFft none (a.map fun (v : ℝ) => (v : ℂ))

/-- The invariant: a cached PSF is normalised, a cached OTF is the transform of the cached PSF. -/
def MInv (m : Micro) : Prop :=
  (∀ a, m.psf = some a → a.sum = 1) ∧ (∀ t, m.otf = some t → ∃ a, m.psf = some a ∧ t = spectrum a)

theorem getPSF_run (m : Micro) : Micro.getPSF m =
    match m.psf with
    | some a => (.ok a, m)
    | none =>
      match Micro.modelPsf m with
      | (.error e, m') => (.error e, m')
      | (.ok a, m') =>
        match microPsf (pyInt m.oversample) (pyInt m.psfParams.size).toNat a with
        | .error e => (.error e, m')
        | .ok b => (.ok b, { m' with psf := some b }) := by
  rcases hp : m.psf with _ | a
  · simp only [Micro.getPSF, PyM.bind_apply, PyM.get_apply, hp]
    have hk := keeps_modelPsf m
    rcases hm : Micro.modelPsf m with ⟨e | a, m'⟩
    · rfl
    · rw [hm] at hk
      have k3 : m'.oversample = m.oversample := hk.2.2.1
      have k4 : m'.psfParams = m.psfParams := hk.2.2.2.1
      simp only [PyM.lift_apply]
      rw [← k3, ← k4]
      rcases microPsf (pyInt m'.oversample) (pyInt m'.psfParams.size).toNat a with e | b <;> rfl
  · simp only [Micro.getPSF, PyM.bind_apply, PyM.get_apply, hp, PyM.pure_apply]

theorem getPSF_inv {m : Micro} (h : MInv m) : MInv (Micro.getPSF m).2 ∧ ∀ a, (Micro.getPSF m).1 = .ok a →
    a.sum = 1 ∧ (Micro.getPSF m).2.psf = some a ∧ (Micro.getPSF m).2.otf = m.otf := by
  rw [getPSF_run]
  rcases hp : m.psf with _ | a
  · have hk := keeps_modelPsf m
    have hotf : m.otf = none := by
      rcases ho : m.otf with _ | t
      · rfl
      · obtain ⟨a, ha, -⟩ := h.2 t ho
        rw [hp] at ha; cases ha
    rcases hm : Micro.modelPsf m with ⟨e | a, m'⟩
    · rw [hm] at hk
      have k1 : m'.psf = m.psf := hk.1
      have k2 : m'.otf = m.otf := hk.2.1
      refine ⟨⟨?_, ?_⟩, by simp⟩
      · simp only [k1, hp]; simp
      · simp only [k2, hotf]; simp
    · rw [hm] at hk
      have k1 : m'.psf = m.psf := hk.1
      have k2 : m'.otf = m.otf := hk.2.1
      simp only []
      rcases hb : microPsf (pyInt m.oversample) (pyInt m.psfParams.size).toNat a with e | b
      · refine ⟨⟨?_, ?_⟩, by simp⟩
        · simp only [k1, hp]; simp
        · simp only [k2, hotf]; simp
      · have hs := microPsf_sum hb
        refine ⟨⟨?_, ?_⟩, ?_⟩
        · intro a' ha'; cases ha'; exact hs
        · simp only [k2, hotf]; simp
        · intro a' ha'; cases ha'; exact ⟨hs, rfl, hk.2.1⟩
  · refine ⟨h, ?_⟩
    intro a' ha'; cases ha'; exact ⟨h.1 _ hp, hp, rfl⟩

theorem getOTF_run (m : Micro) : Micro.getOTF m =
    match m.otf with
    | some t => (.ok t, m)
    | none =>
      match Micro.getPSF m with
      | (.error e, m') => (.error e, m')
      | (.ok a, m') => (.ok (spectrum a), { m' with otf := some (spectrum a) }) := by
  rcases hp : m.otf with _ | a
  · simp only [Micro.getOTF, PyM.bind_apply, PyM.get_apply, hp]
    rcases hm : Micro.getPSF m with ⟨e | a, m'⟩ <;> rfl
  · simp only [Micro.getOTF, PyM.bind_apply, PyM.get_apply, hp, PyM.pure_apply]

theorem getOTF_inv {m : Micro} (h : MInv m) : MInv (Micro.getOTF m).2 ∧ ∀ t, (Micro.getOTF m).1 = .ok t →
    ∃ a, (Micro.getPSF m).1 = .ok a ∧ t = spectrum a := by
  rw [getOTF_run]
  rcases hp : m.otf with _ | t
  · obtain ⟨h1, h2⟩ := getPSF_inv h
    rcases hm : Micro.getPSF m with ⟨e | a, m'⟩
    · rw [hm] at h1
      exact ⟨h1, by simp⟩
    · rw [hm] at h1 h2
      obtain ⟨-, k2, -⟩ := h2 a rfl
      refine ⟨⟨h1.1, ?_⟩, ?_⟩
      · intro t ht; cases ht; exact ⟨a, k2, rfl⟩
      · intro t ht; cases ht; exact ⟨a, rfl, rfl⟩
  · refine ⟨h, ?_⟩
    intro t' ht'; cases ht'
    obtain ⟨a, ha, e⟩ := h.2 t hp
    refine ⟨a, ?_, e⟩
    rw [getPSF_run, ha]

theorem set_run (a : Micro.MAttr) (v : PyVal) (m : Micro) : Micro.set a v m =
    match m.read a with
    | none => (.ok (), m)
    | some old =>
      match numericSet (Micro.vartype a) old v with
      | .error e => (.error e, m)
      | .ok none => (.ok (), m)
      | .ok (some w) => (.ok (), { m.write a w with psf := none, otf := none }) := by
  rcases hp : m.read a with _ | old
  · simp only [Micro.set, PyM.bind_apply, PyM.get_apply, hp, PyM.pure_apply]
  · simp only [Micro.set, PyM.bind_apply, PyM.get_apply, hp, PyM.lift_apply]
    rcases numericSet (Micro.vartype a) old v with e | _ | w <;> rfl

theorem step_inv {m : Micro} (h : MInv m) (op : MOp) : MInv (m.step op).2 := by
  have same : ∀ m' : Micro, m'.psf = m.psf → m'.otf = m.otf → MInv m' := by
    intro m' e1 e2
    exact ⟨fun a ha => h.1 a (e1 ▸ ha), fun t ht => by
      obtain ⟨a, ha, e⟩ := h.2 t (e2 ▸ ht)
      exact ⟨a, by rw [e1]; exact ha, e⟩⟩
  cases op with
  | set a v =>
    simp only [Micro.step, outAs, set_run]
    rcases m.read a with _ | old
    · exact h
    · simp only []
      rcases numericSet (Micro.vartype a) old v with e | _ | w
      · exact h
      · exact h
      · exact ⟨by simp, by simp⟩
  | wiener w =>
    exact same _ rfl rfl
  | orientations o =>
    exact same _ rfl rfl
  | model f => exact same _ rfl rfl
  | excModel f =>
    simp only [Micro.step, Micro.mapExc]
    split <;> exact same _ rfl rfl
  | readPSF => exact (getPSF_inv h).1
  | readOTF => exact (getOTF_inv h).1
  | readModelPsf =>
    have hk := keeps_modelPsf m
    exact same _ hk.1 hk.2.1

theorem run_inv {m : Micro} (h : MInv m) (ops : List MOp) : MInv (runHistory Micro.step m ops).2 := by
  induction ops generalizing m with
  | nil => exact h
  | cons op ops ih => exact ih (step_inv h op)

theorem newWidefield_fresh {a : MicroArgs} {m : Micro} (h : Micro.newWidefield a = .ok m) : m.psf = none ∧ m.otf = none := by
  unfold Micro.newWidefield at h
  obtain ⟨o, -, h⟩ := py_bind_ok h
  obtain ⟨sr, -, h⟩ := py_bind_ok h
  obtain ⟨mo, -, h⟩ := py_bind_ok h
  cases h
  exact ⟨rfl, rfl⟩

theorem constructed_fresh {m : Micro} (h : Constructed m) : m.psf = none ∧ m.otf = none := by
  rcases h with ⟨a, h⟩ | ⟨a, h⟩ | ⟨a, wl, ph, h⟩ | ⟨a, na, wl, w, co, dc, ds, os, h⟩
  · exact newWidefield_fresh h
  · unfold Micro.newApotome at h
    obtain ⟨m', h', h⟩ := py_bind_ok h
    have := newWidefield_fresh h'
    cases h
    exact this
  · unfold Micro.newConfocal at h
    obtain ⟨m', h', h⟩ := py_bind_ok h
    obtain ⟨p, -, h⟩ := py_bind_ok h
    rcases hs : Inner.set .wl wl m'.model with ⟨e | u, exc⟩
    · rw [hs] at h; cases h
    · have := newWidefield_fresh h'
      rw [hs] at h; cases h
      exact this
  · unfold Micro.newSIM at h
    obtain ⟨m', h', h⟩ := py_bind_ok h
    obtain ⟨x1, -, h⟩ := py_bind_ok h
    obtain ⟨x2, -, h⟩ := py_bind_ok h
    obtain ⟨x3, -, h⟩ := py_bind_ok h
    obtain ⟨x4, -, h⟩ := py_bind_ok h
    obtain ⟨x5, -, h⟩ := py_bind_ok h
    obtain ⟨x6, -, h⟩ := py_bind_ok h
    cases x6
    · have := newWidefield_fresh h'
      cases h
      exact this
    · cases h

theorem constructed_inv {m : Micro} (h : Constructed m) : MInv m := by
  obtain ⟨h1, h2⟩ := constructed_fresh h
  exact ⟨by rw [h1]; simp, by rw [h2]; simp⟩

/-- C53: whatever was done before to a microscope of any kind - its numeric properties, its other attributes, its inner
models, reads in any order - a `PSF` that can be read sums to 1, an `OTF` that can be read is the centred transform of what
`PSF` reads, and is 1 at the centre. -/
theorem C53_normalised (m₀ : Micro) (h₀ : Constructed m₀) (ops : List MOp) (m : Micro)
    (hm : m = (runHistory Micro.step m₀ ops).2) :
    (∀ a, (Micro.getPSF m).1 = .ok a → a.sum = 1) ∧
    (∀ t, (Micro.getOTF m).1 = .ok t → t.get (fftCentre t.shape) = 1 ∧
      ∃ a, (Micro.getPSF m).1 = .ok a ∧ t = easyFft none (a.map fun (v : ℝ) => (v : ℂ))) := by
  have hinv : MInv m := hm ▸ run_inv (constructed_inv h₀) ops
  have h1 : ∀ a, (Micro.getPSF m).1 = .ok a → a.sum = 1 := fun a ha => ((getPSF_inv hinv).2 a ha).1
  refine ⟨h1, fun t ht => ?_⟩
  obtain ⟨a, ha, rfl⟩ := (getOTF_inv hinv).2 t ht
  refine ⟨?_, a, ha, rfl⟩
  have hs := h1 a ha
  have h0 : 0 ∉ a.shape := by
    intro h0
    rw [Arr.sum, sumIdx_empty h0] at hs
    exact zero_ne_one hs
  have hd := easyFft_dc (a.map fun (v : ℝ) => (v : ℂ)) h0
  rw [spectrum, easyFft_shape]
  refine hd.trans ?_
  have : (a.map fun (v : ℝ) => (v : ℂ)).sum = ((a.sum : ℝ) : ℂ) := by
    simp only [Arr.sum, Arr.map]
    generalize a.get = f
    generalize a.shape = s
    induction s generalizing f with
    | nil => rfl
    | cons n s ih => simp only [sumIdx, ih, Complex.ofReal_sum]
  rw [this, hs, Complex.ofReal_one]

/-- C53: the PSF of a microscope can be computed whenever its model PSF can, and has a non-zero total after binning. -/
theorem C53_exists (m : Micro) (hc : m.psf = none) (p b : Arr ℝ) (hp : (Micro.modelPsf m).1 = .ok p)
    (hb : binned (pyInt m.oversample) (pyInt m.psfParams.size).toNat p = .ok b) (h0 : b.sum ≠ 0) :
    (Micro.getPSF m).1 = .ok (b.map fun v => v / b.sum) := by
  rw [getPSF_run, hc]
  rcases hm : Micro.modelPsf m with ⟨e | a, m'⟩
  · rw [hm] at hp; cases hp
  · rw [hm] at hp; cases hp
    simp only [microPsf, hb, Except.bind, normalised, if_neg h0]

/-! ## C54 -/

/-- Cyclic index. -/
def cyc (N : ℕ) (k : ℤ) : ℕ := (k % N).toNat

/-- Camera pixel `(y, x)` of an `n`x`n` camera over a model grid of `n*o`x`n*o` points: the sum over the `o`x`o` points
centred (as `o` is odd) on the point that lies `(y - n//2) * o`, `(x - n//2) * o` points away from the centre of the
model grid. -/
noncomputable def superPixel (o n : ℕ) (f : ℕ → ℕ → ℝ) (y x : ℕ) : ℝ :=
  ∑ dy ∈ Finset.range o, ∑ dx ∈ Finset.range o,
    f (cyc (n * o) (((n * o / 2 : ℕ) : ℤ) + ((y : ℤ) - (n / 2 : ℕ)) * o + ((dy : ℤ) - (o / 2 : ℕ))))
      (cyc (n * o) (((n * o / 2 : ℕ) : ℤ) + ((x : ℤ) - (n / 2 : ℕ)) * o + ((dx : ℤ) - (o / 2 : ℕ))))

theorem roll2_get {α : Type} (a : Arr α) (Z N : ℕ) (hs : a.shape = [Z, N, N]) (s : ℤ) (z y x : ℕ) :
    ((a.roll s 1).roll s 2).get [z, y, x] = a.get [z, rollIdx N s y, rollIdx N s x] := by
  simp [Arr.roll, Arr.alongAxis, hs, roll1]

theorem roll2_sum (a : Arr ℝ) (s : ℤ) : ((a.roll s 1).roll s 2).sum = a.sum :=
  sum_alongAxes_roll (fun _ => s) [2, 1] (by simp) a

theorem centre_even {n o : ℕ} (hn : n % 2 = 0) : ((n * o / 2 : ℕ) : ℤ) - (n / 2 : ℕ) * o = 0 := by
  obtain ⟨k, rfl⟩ := Nat.dvd_of_mod_eq_zero hn
  have : 2 * k * o / 2 = k * o := by rw [mul_assoc, Nat.mul_div_cancel_left _ (by norm_num)]
  rw [this, Nat.mul_div_cancel_left _ (by norm_num)]
  push_cast; ring

theorem centre_odd {n o : ℕ} (hn : n % 2 = 1) (ho : o % 2 = 1) : ((n * o / 2 : ℕ) : ℤ) - (n / 2 : ℕ) * o = (o / 2 : ℕ) := by
  obtain ⟨k, rfl⟩ : ∃ k, n = 2 * k + 1 := ⟨n / 2, by omega⟩
  obtain ⟨j, rfl⟩ : ∃ j, o = 2 * j + 1 := ⟨o / 2, by omega⟩
  have h1 : (2 * k + 1) * (2 * j + 1) / 2 = k * (2 * j + 1) + j := by
    have : (2 * k + 1) * (2 * j + 1) = 1 + 2 * (k * (2 * j + 1) + j) := by ring
    omega
  have h2 : (2 * k + 1) / 2 = k := by omega
  have h3 : (2 * j + 1) / 2 = j := by omega
  rw [h1, h2, h3]
  push_cast; ring

theorem mul_mod_two {n o : ℕ} (ho : o % 2 = 1) : n * o % 2 = n % 2 := by
  rw [Nat.mul_mod, ho, mul_one, Nat.mod_mod]

/-- C54: with an odd oversampling factor every camera pixel is the sum of the model points around its centre, for even
and odd sizes, divided by the total of the model PSF. -/
theorem C54_super_pixel (o n nz : ℕ) (ho : o % 2 = 1) (psf : Arr ℝ) (hs : psf.shape = [nz, n * o, n * o])
    (h0 : psf.sum ≠ 0) : ∃ a, microPsf o (n * o) psf = .ok a ∧ a.shape = [nz, n, n] ∧
    ∀ z < nz, ∀ y < n, ∀ x < n, a.get [z, y, x] = superPixel o n (fun i j => psf.get [z, i, j]) y x / psf.sum := by
  have hopos : 0 < o := by omega
  by_cases h1 : (1 : ℤ) < o
  · set r := (if n * o % 2 = 0 then (psf.roll ((o : ℤ) / 2) 1).roll ((o : ℤ) / 2) 2 else psf) with hr
    have hrs : r.shape = [nz, n * o, n * o] := by
      rw [hr]; split_ifs
      · exact hs
      · exact hs
    have hrsum : r.sum = psf.sum := by
      rw [hr]; split_ifs
      · exact roll2_sum _ _
      · rfl
    have hb : (BinSize.seq [1, o, o]).broadcast r.shape.length = .ok [1, o, o] := by simp [BinSize.broadcast, hrs]
    have hz : 0 ∉ [1, o, o] := by simp; omega
    have hop : OpIs "sum" false := by unfold OpIs; decide +kernel
    obtain ⟨b, e1, e2, e3⟩ := C16_bin_blocks r _ _ hb hz "sum" false hop
    have hbs : b.shape = [nz, n, n] := by rw [e2, hrs]; simp [Nat.mul_div_cancel _ hopos]
    have hsum : b.sum = psf.sum := by
      rw [← hrsum]
      refine C17_bin_total r _ _ hb hz ?_ "sum" hop b e1
      rw [hrs]
      exact .cons (one_dvd _) (.cons (dvd_mul_left _ _) (.cons (dvd_mul_left _ _) .nil))
    refine ⟨b.map fun v => v / b.sum, ?_, hbs, ?_⟩
    · unfold microPsf binned
      have : ((o : ℤ)).toNat = o := by simp
      simp only [h1, if_true, this]
      rw [← hr, e1]
      simp only [Except.bind, normalised]
      rw [if_neg (by rw [hsum]; exact h0)]
    · intro z hz' y hy x hx
      have hin : InShape [z, y, x] b.shape := by rw [hbs]; exact .cons hz' (.cons hy (.cons hx .nil))
      simp only [Arr.map]
      rw [hsum, e3 _ hin]
      congr 1
      simp only [blockWeight, Bool.false_eq_true, if_false, div_one, sumIdx, Finset.range_one, Finset.sum_singleton, blockIdx,
        mul_one, add_zero, superPixel]
      have hN : 0 < n * o := Nat.mul_pos (by omega) hopos
      have key : ∀ y' d : ℕ, y' < n → d < o →
          cyc (n * o) (((n * o / 2 : ℕ) : ℤ) + ((y' : ℤ) - (n / 2 : ℕ)) * o + ((d : ℤ) - (o / 2 : ℕ))) =
          if n * o % 2 = 0 then rollIdx (n * o) ((o : ℤ) / 2) (y' * o + d) else y' * o + d := by
        intro y' d hy' hd
        have hlt : y' * o + d < n * o := by nlinarith
        split_ifs with hpar
        · have hc := centre_even (o := o) (by rw [← mul_mod_two (n := n) ho]; exact hpar)
          unfold cyc rollIdx
          congr 2
          push_cast
          push_cast at hc
          linear_combination hc
        · have hc := centre_odd (o := o) (n := n) (by rw [← mul_mod_two (n := n) ho]; omega) ho
          unfold cyc
          have : ((n * o / 2 : ℕ) : ℤ) + ((y' : ℤ) - (n / 2 : ℕ)) * o + ((d : ℤ) - (o / 2 : ℕ)) = ((y' * o + d : ℕ) : ℤ) := by
            simp only [Nat.cast_add, Nat.cast_mul]
            linear_combination hc
          rw [this, Int.emod_eq_of_lt (by positivity) (by exact_mod_cast hlt)]
          exact Int.toNat_natCast _
      refine Finset.sum_congr rfl fun dy hdy => Finset.sum_congr rfl fun dx hdx => ?_
      rw [key y dy hy (Finset.mem_range.mp hdy), key x dx hx (Finset.mem_range.mp hdx), hr]
      split_ifs with hpar
      · exact roll2_get psf nz (n * o) hs _ _ _ _
      · rfl
  · have ho1 : o = 1 := by omega
    subst ho1
    rw [mul_one] at hs ⊢
    refine ⟨psf.map fun v => v / psf.sum, ?_, hs, ?_⟩
    · unfold microPsf binned
      simp only [Nat.cast_one, lt_self_iff_false, if_false, Except.bind, normalised]
      rw [if_neg h0]
    · intro z hz' y hy x hx
      have key : ∀ y' < n, cyc (n * 1) (((n * 1 / 2 : ℕ) : ℤ) + ((y' : ℤ) - (n / 2 : ℕ)) * (1 : ℕ) + (((0 : ℕ) : ℤ) - (1 / 2 : ℕ))) = y' := by
        intro y' hy'
        have : ((n * 1 / 2 : ℕ) : ℤ) + ((y' : ℤ) - (n / 2 : ℕ)) * (1 : ℕ) + (((0 : ℕ) : ℤ) - (1 / 2 : ℕ)) = y' := by simp
        rw [cyc, this, mul_one, Int.emod_eq_of_lt (by positivity) (by exact_mod_cast hy')]
        simp
      simp only [Arr.map, superPixel, Finset.range_one, Finset.sum_singleton]
      rw [key y hy, key x hx]

/-- C54: the centre pixel of the camera is the sum of the `o`x`o` model points around the centre point of the model grid
(for a camera of at least one pixel none of them wraps around). -/
theorem C54_centre (o n nz : ℕ) (ho : o % 2 = 1) (hn : 2 ≤ n) (psf : Arr ℝ) (hs : psf.shape = [nz, n * o, n * o])
    (a : Arr ℝ) (ha : microPsf o (n * o) psf = .ok a) (z : ℕ) (hz : z < nz) : a.get [z, n / 2, n / 2] * psf.sum =
    ∑ dy ∈ Finset.range o, ∑ dx ∈ Finset.range o,
      psf.get [z, n * o / 2 - o / 2 + dy, n * o / 2 - o / 2 + dx] := by
  have h0 : psf.sum ≠ 0 := by
    intro h0
    have hop : OpIs "sum" false := by unfold OpIs; decide +kernel
    have hopos : 0 < o := by omega
    obtain ⟨b, hb, ha⟩ := microPsf_inv ha
    unfold binned at hb
    have hsum : b.sum = 0 := by
      split_ifs at hb with h1 h2
      · rw [← h0, ← roll2_sum psf ((o : ℤ) / 2)]
        refine C17_bin_total _ _ [1, ((o : ℤ)).toNat, ((o : ℤ)).toNat] ?_ (by simp; omega) ?_ "sum" hop b hb
        · simp [BinSize.broadcast, Arr.roll, Arr.alongAxis, hs]
        · simp only [Arr.roll, Arr.alongAxis, hs, Int.toNat_natCast]
          exact .cons (one_dvd _) (.cons (dvd_mul_left _ _) (.cons (dvd_mul_left _ _) .nil))
      · rw [← h0]
        refine C17_bin_total _ _ [1, ((o : ℤ)).toNat, ((o : ℤ)).toNat] ?_ (by simp; omega) ?_ "sum" hop b hb
        · simp [BinSize.broadcast, hs]
        · simp only [hs, Int.toNat_natCast]
          exact .cons (one_dvd _) (.cons (dvd_mul_left _ _) (.cons (dvd_mul_left _ _) .nil))
      · cases hb; exact h0
    rw [normalised, if_pos hsum] at ha
    cases ha
  obtain ⟨a', e1, -, e3⟩ := C54_super_pixel o n nz ho psf hs h0
  rw [ha] at e1; cases e1
  rw [e3 z hz _ (by omega) _ (by omega), div_mul_cancel₀ _ h0, superPixel]
  have hge : o / 2 ≤ n * o / 2 := Nat.div_le_div_right (by nlinarith)
  have hlt : n * o / 2 - o / 2 + o ≤ n * o := by
    have : 2 * o ≤ n * o := by nlinarith
    omega
  have key : ∀ d < o, cyc (n * o) (((n * o / 2 : ℕ) : ℤ) + (((n / 2 : ℕ) : ℤ) - (n / 2 : ℕ)) * o + ((d : ℤ) - (o / 2 : ℕ))) =
      n * o / 2 - o / 2 + d := by
    intro d hd
    have : ((n * o / 2 : ℕ) : ℤ) + (((n / 2 : ℕ) : ℤ) - (n / 2 : ℕ)) * o + ((d : ℤ) - (o / 2 : ℕ)) = ((n * o / 2 - o / 2 + d : ℕ) : ℤ) := by
      rw [Nat.cast_add, Nat.cast_sub hge]; ring
    rw [cyc, this, Int.emod_eq_of_lt (by positivity) (by exact_mod_cast (by omega))]
    exact Int.toNat_natCast _
  refine Finset.sum_congr rfl fun dy hdy => Finset.sum_congr rfl fun dx hdx => ?_
  rw [key dy (Finset.mem_range.mp hdy), key dx (Finset.mem_range.mp hdx)]

/-! ## C55 -/

theorem oversampleSet (v : PyVal) : numericSet PyVal.isInt none v =
    if v.isInt = false then .error .typeError else if pyInt v < 0 then .error .valueError else .ok (some v) := by
  cases v with
  | int z =>
    simp only [numericSet, PyVal.isInt, PyVal.ltZero, PyVal.num?, PyFloat.lt, pyInt]
    by_cases h : z < 0
    · have : (z : ℚ) < 0 := by exact_mod_cast h
      simp [this, h, bind, Except.bind]; rfl
    · have : ¬ (z : ℚ) < 0 := by exact_mod_cast h
      simp [this, h, bind, Except.bind, PyVal.ne, PyVal.num?]; rfl
  | bool b => cases b <;> rfl
  | float x => rfl
  | none => rfl
  | str s => rfl
  | other h => rfl

theorem oversampled_even {o : PyVal} (h : ¬ pyInt o % 2 = 1) (s p : PyVal) : oversampled o s p = .error .assertionError := by
  unfold oversampled
  rw [if_pos h]; rfl

theorem oversampled_one {o : PyVal} (h : pyInt o = 1) (s p : PyVal) : oversampled o s p = .ok (s, p) := by
  unfold oversampled
  rw [if_neg (by omega), if_pos h]; rfl

theorem oversampled_odd {o : PyVal} (h : pyInt o % 2 = 1) (h1 : 1 < pyInt o) (s p : PyVal) : oversampled o s p =
    (do return (← pyMulInt s (pyInt o), ← pyDivInt p (pyInt o))) := by
  unfold oversampled
  rw [if_neg (by omega), if_neg (by omega), if_pos h1]

theorem newWidefield_run (a : MicroArgs) : Micro.newWidefield a = (do
    let o := (← numericSet PyVal.isInt none a.oversample).getD a.oversample
    let (size, res) ← oversampled o a.size a.pixelSize
    let p : PsfParams :=
      { na := a.na, ni := a.ni, wl := a.wl, zres := a.kw.zres.getD a.pixelSize, zsize := a.kw.zsize.getD a.size
        size := size, res := res, kw := a.kw }
    let model ← chooseModel a.model p
    return { oversample := o, psfParams := p, pixelSize := a.pixelSize, model := model, kind := .widefield }) := rfl

/-- C55: what happens to every value given as `oversample_factor`: not an `int` (or `bool`) - TypeError; negative -
ValueError; even, 0 and `False` included - AssertionError; odd (or `True`) - accepted, and what happens next depends only on
the PSF model. -/
theorem C55_oversample (a : MicroArgs) :
    (a.oversample.isInt = false → Micro.newWidefield a = .error .typeError) ∧
    (∀ z : ℤ, a.oversample = .int z → z < 0 → Micro.newWidefield a = .error .valueError) ∧
    (∀ z : ℤ, a.oversample = .int z → 0 ≤ z → z % 2 = 0 → Micro.newWidefield a = .error .assertionError) ∧
    (a.oversample = .bool false → Micro.newWidefield a = .error .assertionError) := by
  refine ⟨fun h => ?_, fun z h hz => ?_, fun z h hz h2 => ?_, fun h => ?_⟩
  · rw [newWidefield_run, oversampleSet, if_pos h]; rfl
  · rw [newWidefield_run, oversampleSet, h, if_neg (by simp [PyVal.isInt]), if_pos (by simpa [pyInt] using hz)]; rfl
  · rw [newWidefield_run, oversampleSet, h, if_neg (by simp [PyVal.isInt]), if_neg (by simpa [pyInt] using hz)]
    simp [bind, Except.bind, oversampled_even (o := .int z) (show ¬ pyInt (.int z) % 2 = 1 by simp only [pyInt]; omega)]
  · rw [newWidefield_run, oversampleSet, h]; rfl

/-- C55: an odd factor is accepted and kept; a camera of `size` pixels of size `p` is modelled on `size * factor` points of
spacing `p / factor`; the planes are those of the camera unless given. -/
theorem C55_accepted (a : MicroArgs) (z : ℤ) (hz : 0 ≤ z) (h2 : z % 2 = 1) (ha : a.oversample = .int z) (n : ℤ) (p : PyFloat)
    (hs : a.size = .int n) (hp : a.pixelSize = .float p) : Micro.newWidefield a = (do
      let q : PsfParams :=
        { na := a.na, ni := a.ni, wl := a.wl, zres := a.kw.zres.getD a.pixelSize, zsize := a.kw.zsize.getD a.size
          size := .int (n * z), res := .float (if z = 1 then p else (PyFloat.div p (.fin z)).toOption.getD .nan), kw := a.kw }
      return { oversample := a.oversample, psfParams := q, pixelSize := a.pixelSize, model := ← chooseModel a.model q,
               kind := .widefield }) := by
  rw [newWidefield_run, oversampleSet, ha, if_neg (by simp [PyVal.isInt]), if_neg (by simpa [pyInt] using hz)]
  simp only [bind, Except.bind, Option.getD_some, hs, hp]
  by_cases h1 : z = 1
  · subst h1
    rw [oversampled_one (o := .int 1) rfl]
    simp [pure, Except.pure]
  · have hz0 : (z : ℚ) ≠ 0 := by exact_mod_cast (by omega : z ≠ 0)
    rw [oversampled_odd (o := .int z) (by simpa [pyInt] using h2) (by simp only [pyInt]; omega)]
    simp only [pyMulInt, pyDivInt, pyNum, PyVal.num?, bind, Except.bind, pure, Except.pure, h1, if_false, pyInt]
    cases p <;> simp [PyFloat.div, hz0, Except.toOption]

/-- C55: a size given as a string (or as another sequence) is not an error of the microscope itself: the repeated sequence goes to the
PSF model, which rejects it after the arguments that it looks at before. -/
theorem C55_sequence (a : MicroArgs) (z : ℤ) (h1 : 1 < z) (h2 : z % 2 = 1) (ha : a.oversample = .int z) (p : PyFloat)
    (hs : (∃ s, a.size = .str s) ∨ ∃ h, a.size = .other h) (hp : a.pixelSize = .float p) : Micro.newWidefield a = (do
      let q : PsfParams :=
        { na := a.na, ni := a.ni, wl := a.wl, zres := a.kw.zres.getD a.pixelSize, zsize := a.kw.zsize.getD a.size
          size := a.size, res := .float ((PyFloat.div p (.fin z)).toOption.getD .nan), kw := a.kw }
      return { oversample := a.oversample, psfParams := q, pixelSize := a.pixelSize, model := ← chooseModel a.model q,
               kind := .widefield }) := by
  rw [newWidefield_run, oversampleSet, ha, if_neg (by simp [PyVal.isInt]), if_neg (by simp only [pyInt]; omega)]
  have hz0 : (z : ℚ) ≠ 0 := by exact_mod_cast (by omega : z ≠ 0)
  rcases hs with ⟨s, hs⟩ | ⟨s, hs⟩
  all_goals
    simp only [bind, Except.bind, Option.getD_some, hs, hp]
    rw [oversampled_odd (o := .int z) (by simpa [pyInt] using h2) (by simp only [pyInt]; omega)]
    simp only [pyMulInt, pyDivInt, pyNum, PyVal.num?, bind, Except.bind, pure, Except.pure, pyInt]
    cases p <;> simp [PyFloat.div, hz0, Except.toOption]

/-- C55: the branch `raise ValueError("oversample_factor must be positive")` is never taken: the computation of the grid
raises no ValueError for a factor that the setter accepted. -/
theorem C55_unreachable (v w size px : PyVal) (h : numericSet PyVal.isInt none v = .ok (some w)) :
    oversampled w size px ≠ .error .valueError := by
  rw [oversampleSet] at h
  split_ifs at h with h1 h2
  cases h
  intro h
  by_cases h3 : pyInt v % 2 = 1
  · by_cases h4 : pyInt v = 1
    · rw [oversampled_one h4] at h; cases h
    · rw [oversampled_odd h3 (by omega)] at h
      have hz0 : (pyInt v : ℚ) ≠ 0 := by exact_mod_cast (by omega : pyInt v ≠ 0)
      have hd : ∀ x, PyFloat.div x (.fin (pyInt v)) ≠ .error .valueError := by
        intro x
        cases x <;> simp [PyFloat.div, hz0]
      have hd' : pyDivInt px (pyInt v) ≠ .error .valueError := by
        intro h
        unfold pyDivInt at h
        rcases hn : pyNum px with e | x
        · rw [hn] at h
          unfold pyNum at hn
          split at hn <;> cases hn
          cases h
        · rw [hn] at h
          have h' : (PyFloat.div x (.fin (pyInt v))).bind (fun y => (Except.ok (PyVal.float y) : Py PyVal)) = Except.error Err.valueError := h
          rcases hx : PyFloat.div x (.fin (pyInt v)) with e | y
          · rw [hx] at h'; cases h'; exact hd x hx
          · rw [hx] at h'; cases h'
      rcases hm : pyMulInt size (pyInt v) with e | x
      · rw [hm] at h
        cases h
        cases size <;> cases hm
      · rw [hm] at h
        rcases hx : pyDivInt px (pyInt v) with e | y
        · rw [hx] at h; cases h; exact hd' hx
        · rw [hx] at h; cases h
  · rw [oversampled_even h3] at h; cases h

/-- C55: the subclasses fail exactly like the base class. -/
theorem C55_subclasses (a : MicroArgs) (e : Err) (h : Micro.newWidefield a = .error e) :
    Micro.newApotome a = .error e ∧ (∀ wl ph, Micro.newConfocal a wl ph = .error e) ∧
    (∀ na wl w co dc ds os, Micro.newSIM a na wl w co dc ds os = .error e) := by
  refine ⟨?_, fun _ _ => ?_, fun _ _ _ _ _ _ _ => ?_⟩
  · simp only [Micro.newApotome, h]; rfl
  · simp only [Micro.newConfocal, h]; rfl
  · simp only [Micro.newSIM, h]; rfl

end PyOTF
