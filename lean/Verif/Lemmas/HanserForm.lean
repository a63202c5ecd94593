import Verif.Model.Hanser
import Verif.Lemmas.EasyFft
import Verif.Spec.Field

/-!
# Closed form of the amplitude PSF
-/

namespace PyOTF

open Complex

theorem field_eq (A B : ℕ) (P : ℕ → ℕ → ℂ) (y x : ℕ) : field A B P y x =
    (∑ i ∈ Finset.range A, ∑ j ∈ Finset.range B, P i j * (W A (((y : ℤ) - (A / 2 : ℕ)) * i) *
      W B (((x : ℤ) - (B / 2 : ℕ)) * j))) / (A * B) := by
  simp only [field, W, ← exp_add]
  congr 1
  refine Finset.sum_congr rfl fun i _ => Finset.sum_congr rfl fun j _ => ?_
  congr 2
  simp only [Int.cast_mul, Int.cast_sub, Int.cast_natCast]
  ring

theorem field_ifft (A B : ℕ) (hA : 0 < A) (hB : 0 < B) (P : ℕ → ℕ → ℂ) (y x : ℕ) : field A B P y x =
    ifft1 A (fun i => ifft1 B (P i) (rollIdx B (B / 2 : ℕ) x)) (rollIdx A (A / 2 : ℕ) y) := by
  rw [field_eq]
  simp only [ifft1_eq]
  have e1 : ∀ (n : ℕ) (_ : 0 < n) (y k : ℕ), W n ((rollIdx n (n / 2 : ℕ) y : ℕ) * (k : ℤ)) = W n (((y : ℤ) - (n / 2 : ℕ)) * k) := by
    intro n hn y k
    rw [mul_comm, W_rollIdx hn, mul_comm]
  simp only [e1 A hA, e1 B hB]
  rw [div_eq_mul_inv, div_eq_mul_inv, Finset.sum_mul, Finset.sum_mul]
  refine Finset.sum_congr rfl fun i _ => ?_
  rw [div_eq_mul_inv, Finset.sum_mul, Finset.sum_mul, Finset.sum_mul, Finset.sum_mul]
  refine Finset.sum_congr rfl fun j _ => ?_
  rw [mul_inv]
  ring

/-- Elements of `fftshift(ifftn(pupils, axes=(2, 3)), axes=(2, 3))`. -/
theorem shift_ifft_get (a : Arr ℂ) (C Z A B : ℕ) (hs : a.shape = [C, Z, A, B]) (hA : 0 < A) (hB : 0 < B) (c z y x : ℕ) :
    (fftshift (some [2, 3]) (ifftn (some [2, 3]) a)).get [c, z, y, x]
      = field A B (fun i j => a.get [c, z, i, j]) y x := by
  rw [field_ifft A B hA hB]
  simp [fftshift, ifftn, Arr.alongAxes, Arr.alongAxis, axesOf, fftshift1, roll1, hs]

theorem ifft1_parseval (n : ℕ) (x : ℕ → ℂ) :
    ∑ k ∈ Finset.range n, ‖ifft1 n x k‖ ^ 2 = (∑ j ∈ Finset.range n, ‖x j‖ ^ 2) / n := by
  rcases Nat.eq_zero_or_pos n with rfl | hn
  · simp
  have hn' : (n : ℝ) ≠ 0 := by exact_mod_cast hn.ne'
  have h := fft1_parseval n (ifft1 n x)
  rw [eq_div_iff hn', mul_comm, ← h]
  exact Finset.sum_congr rfl fun i hi => by rw [fft1_ifft1 n x i (Finset.mem_range.mp hi)]

/-- Parseval: the energy of a plane. -/
theorem field_parseval (A B : ℕ) (hA : 0 < A) (hB : 0 < B) (P : ℕ → ℕ → ℂ) :
    ∑ y ∈ Finset.range A, ∑ x ∈ Finset.range B, ‖field A B P y x‖ ^ 2 =
      (∑ i ∈ Finset.range A, ∑ j ∈ Finset.range B, ‖P i j‖ ^ 2) / (A * B) := by
  simp only [field_ifft A B hA hB]
  rw [sum_rollIdx A (A / 2 : ℕ) fun y' => ∑ x ∈ Finset.range B,
    ‖ifft1 A (fun i => ifft1 B (P i) (rollIdx B (B / 2 : ℕ) x)) y'‖ ^ 2, Finset.sum_comm]
  simp only [ifft1_parseval]
  rw [← Finset.sum_div, Finset.sum_comm]
  have : ∀ i, ∑ y ∈ Finset.range B, ‖ifft1 B (P i) (rollIdx B (B / 2 : ℕ) y)‖ ^ 2 = (∑ j ∈ Finset.range B, ‖P i j‖ ^ 2) / B := by
    intro i
    rw [sum_rollIdx B (B / 2 : ℕ) fun y => ‖ifft1 B (P i) y‖ ^ 2, ifft1_parseval]
  simp only [this, ← Finset.sum_div]
  rw [div_div, mul_comm (B : ℝ)]

theorem field_add (A B : ℕ) (P Q : ℕ → ℕ → ℂ) (y x : ℕ) :
    field A B (fun i j => P i j + Q i j) y x = field A B P y x + field A B Q y x := by
  simp only [field, ← add_div, ← Finset.sum_add_distrib, add_mul]

theorem field_mul (A B : ℕ) (c : ℂ) (P : ℕ → ℕ → ℂ) (y x : ℕ) :
    field A B (fun i j => c * P i j) y x = c * field A B P y x := by
  simp only [field, mul_assoc, ← Finset.mul_sum, mul_div_assoc]

theorem field_congr {A B : ℕ} {P Q : ℕ → ℕ → ℂ} (h : ∀ i < A, ∀ j < B, P i j = Q i j) (y x : ℕ) :
    field A B P y x = field A B Q y x := by
  simp only [field]
  congr 1
  refine Finset.sum_congr rfl fun i hi => Finset.sum_congr rfl fun j hj => ?_
  rw [h i (Finset.mem_range.mp hi) j (Finset.mem_range.mp hj)]

/-! ## The numbers behind the parameters -/

/-- The numbers that enter the computation are those of the parameters: `res`, the shell radius `ni / wl`,
the pupil radius `na / wl`, the planes. -/
structure NumbersOf (p : Params) (h : HanserNum) : Prop where
  size : ∃ v, p.size = some v ∧ h.size = pyNat v
  res : ∃ v q, p.res = some v ∧ v.num? = some (.fin q) ∧ h.res = (q : ℝ)
  kmag : ∃ ni wl x y q, p.ni = some ni ∧ p.wl = some wl ∧ ni.num? = some x ∧ wl.num? = some y ∧
    PyFloat.div x y = .ok (.fin q) ∧ h.kmag = (q : ℝ)
  limit : ∃ na wl x y, p.na = some na ∧ p.wl = some wl ∧ na.num? = some x ∧ wl.num? = some y ∧
    PyFloat.div x y = .ok h.limit
  z : ∃ zs : List ℚ, p.zrange = some (zs.map PyFloat.fin) ∧ h.z = zs.map fun (q : ℚ) => (q : ℝ)
  vecCorr : p.vecCorr = some h.vecCorr
  condition : p.condition = some h.condition
  pos : h.res ≠ 0 ∧ 0 < h.size
  usesTheta : h.usesTheta = true → h.kmag ≠ 0

theorem attr_ok {α : Type} {o : Option α} {a : α} (h : attr o = .ok a) : o = some a := by
  cases o with
  | none => cases h
  | some b => cases h; rfl

theorem pyNum_ok {v : PyVal} {x : PyFloat} (h : pyNum v = .ok x) : v.num? = some x := by
  unfold pyNum at h
  cases hv : v.num? with
  | none => rw [hv] at h; cases h
  | some y => rw [hv] at h; cases h; rfl

theorem py_bind_ok {α β : Type} {m : Py α} {f : α → Py β} {b : β} (h : m >>= f = .ok b) :
    ∃ a, m = .ok a ∧ f a = .ok b := by
  cases m with
  | error e => cases h
  | ok a => exact ⟨a, rfl, h⟩

theorem py_pure_ok {α : Type} {a b : α} (h : (pure a : Py α) = .ok b) : a = b := by cases h; rfl

theorem finReals_ok {l : List PyFloat} {r : List ℝ} (h : finReals l = .ok r) :
    ∃ qs : List ℚ, l = qs.map PyFloat.fin ∧ r = qs.map fun (q : ℚ) => (q : ℝ) := by
  unfold finReals at h
  split_ifs at h with hall
  cases h
  induction l with
  | nil => exact ⟨[], rfl, rfl⟩
  | cons x l ih =>
    simp only [List.all_cons, Bool.and_eq_true] at hall
    obtain ⟨qs, h1, h2⟩ := ih hall.2
    cases x with
    | fin q => exact ⟨q :: qs, by rw [h1]; rfl, by rw [List.map_cons, h2]; rfl⟩
    | nan => simp [PyFloat.fin?] at hall
    | inf b => simp [PyFloat.fin?] at hall

theorem finReals_fin (qs : List ℚ) : finReals (qs.map PyFloat.fin) = .ok (qs.map fun (q : ℚ) => (q : ℝ)) := by
  unfold finReals
  rw [if_pos]
  · simp [PyFloat.toReal]
  · simp [PyFloat.fin?]

theorem hanserGenKr_ok {p : Params} {size : ℕ} {res kmag limit : PyFloat}
    (h : hanserGenKr p = .ok (size, res, kmag, limit)) :
    (∃ v, p.size = some v ∧ size = pyNat v) ∧ (∃ v, p.res = some v ∧ v.num? = some res) ∧
    (∃ ni wl x y, p.ni = some ni ∧ p.wl = some wl ∧ ni.num? = some x ∧ wl.num? = some y ∧ PyFloat.div x y = .ok kmag) ∧
    (∃ na wl x y, p.na = some na ∧ p.wl = some wl ∧ na.num? = some x ∧ wl.num? = some y ∧ PyFloat.div x y = .ok limit) ∧
    (res ≠ .fin 0) ∧ (size = 0 → ∀ q, res ≠ .fin q) := by
  unfold hanserGenKr at h
  obtain ⟨s, hs, h⟩ := py_bind_ok h
  obtain ⟨rv, hr, h⟩ := py_bind_ok h
  obtain ⟨r, hr', h⟩ := py_bind_ok h
  obtain ⟨d, hd, h⟩ := py_bind_ok h
  obtain ⟨niv, hni, h⟩ := py_bind_ok h
  obtain ⟨ni, hni', h⟩ := py_bind_ok h
  obtain ⟨wlv, hwl, h⟩ := py_bind_ok h
  obtain ⟨wl, hwl', h⟩ := py_bind_ok h
  obtain ⟨km, hkm, h⟩ := py_bind_ok h
  obtain ⟨nav, hna, h⟩ := py_bind_ok h
  obtain ⟨na, hna', h⟩ := py_bind_ok h
  obtain ⟨lm, hlm, h⟩ := py_bind_ok h
  have := py_pure_ok h
  simp only [Prod.mk.injEq] at this
  obtain ⟨rfl, rfl, rfl, rfl⟩ := this
  refine ⟨⟨s, attr_ok hs, rfl⟩, ⟨rv, attr_ok hr, pyNum_ok hr'⟩,
    ⟨niv, wlv, ni, wl, attr_ok hni, attr_ok hwl, pyNum_ok hni', pyNum_ok hwl', hkm⟩,
    ⟨nav, wlv, na, wl, attr_ok hna, attr_ok hwl, pyNum_ok hna', pyNum_ok hwl', hlm⟩, ?_, ?_⟩
  · rintro rfl; simp [PyFloat.mul, PyFloat.div] at hd
  · intro h0 q hq; simp [PyFloat.mul, PyFloat.div, hq, h0] at hd

theorem hanserNum_ok {p : Params} {size : ℕ} {res kmag limit : PyFloat} {h : HanserNum}
    (hg : hanserGenKr p = .ok (size, res, kmag, limit)) (hn : hanserNum p size res kmag limit = .ok h) :
    NumbersOf p h ∧ h.size = size := by
  unfold hanserNum at hn
  obtain ⟨vc, hvc, hn⟩ := py_bind_ok hn
  obtain ⟨cd, hcd, hn⟩ := py_bind_ok hn
  obtain ⟨zv, hz, hn⟩ := py_bind_ok hn
  obtain ⟨z, hz', hn⟩ := py_bind_ok hn
  obtain ⟨f, hf, hn⟩ := py_bind_ok hn
  obtain ⟨qs, hq1, hq2⟩ := finReals_ok hf
  obtain ⟨zs, hz1, hz2⟩ := finReals_ok hz'
  obtain ⟨h1, h2, h3, h4, h5, h6⟩ := hanserGenKr_ok hg
  match qs, hq1, hq2 with
  | [], hq1, _ => simp at hq1
  | [_], hq1, _ => simp at hq1
  | _ :: _ :: _ :: _, hq1, _ => simp at hq1
  | [r, k], hq1, hq2 =>
    simp only [List.map_cons, List.map_nil, List.cons.injEq, and_true] at hq1
    obtain ⟨rfl, rfl⟩ := hq1
    subst hq2 hz1 hz2
    simp only [List.map_cons, List.map_nil, List.getD_cons_zero, List.getD_cons_succ] at hn
    have hr0 : r ≠ 0 := by rintro rfl; exact h5 rfl
    have hs0 : 0 < size := by
      rcases Nat.eq_zero_or_pos size with h0 | h0
      · exact absurd rfl (h6 h0 r)
      · exact h0
    split_ifs at hn with ht
    · cases hn
    · have := py_pure_ok hn
      subst this
      refine ⟨⟨h1, ?_, ?_, h4, ⟨zs, attr_ok hz, rfl⟩, attr_ok hvc, attr_ok hcd, ?_, ?_⟩, rfl⟩
      · obtain ⟨v, hv1, hv2⟩ := h2; exact ⟨v, r, hv1, hv2, rfl⟩
      · obtain ⟨a, b, x, y, e1, e2, e3, e4, e5⟩ := h3
        exact ⟨a, b, x, y, k, e1, e2, e3, e4, e5, rfl⟩
      · exact ⟨Rat.cast_ne_zero.mpr hr0, hs0⟩
      · intro hu hk
        apply ht
        have hk' : k = 0 := Rat.cast_eq_zero.mp hk
        subst hk'
        simpa using hu

/-- Amplitude of component `c` in the pupil plane for plane `z`: base pupil, defocus, apodisation, vectorial
factor. -/
noncomputable def HanserNum.pupilAt (h : HanserNum) (P : ℕ → ℕ → ℂ) (c iz i j : ℕ) : ℂ :=
  P i j * h.defocus iz i j * (h.apod i j : ℝ) * ((h.vecFactors i j).getD c 0 : ℝ)

/-- The base pupil: ideal or supplied. -/
noncomputable def HanserNum.baseOf (h : HanserNum) (pupil : Option (Arr ℂ)) (i j : ℕ) : ℂ :=
  match pupil with
  | none => h.idealPupil.get [i, j]
  | some P => P.get [i, j]

/-- A successful `_gen_psf`, in closed form, for the ideal pupil or a pupil of the right size. -/
theorem genPsf_closed {p : Params} {pupil : Option (Arr ℂ)} {a : Arr ℂ} (hok : hanserGenPsf p pupil = .ok a)
    (hsz : ∀ P v, pupil = some P → p.size = some v → P.shape = [pyNat v, pyNat v]) :
    ∃ h : HanserNum, NumbersOf p h ∧ a.shape = [h.ncomp, h.z.length, h.size, h.size] ∧
      ∀ c iz y x, a.get [c, iz, y, x] = field h.size h.size
        (h.pupilAt (h.baseOf pupil) c iz) y x := by
  unfold hanserGenPsf at hok
  obtain ⟨⟨size, res, kmag, limit⟩, hg, hok⟩ := py_bind_ok hok
  obtain ⟨v, hv, hvs⟩ := (hanserGenKr_ok hg).1
  have core : ∀ (h : HanserNum) (base : Arr ℂ), NumbersOf p h → base.shape = [h.size, h.size] →
      a = fftshift (some [2, 3]) (ifftn (some [2, 3]) (hanserPupils h base h.size h.size)) →
      a.shape = [h.ncomp, h.z.length, h.size, h.size] ∧
      ∀ c iz y x, a.get [c, iz, y, x] = field h.size h.size (h.pupilAt (fun i j => base.get [i, j]) c iz) y x := by
    intro h base hN hb ha
    subst ha
    have hpos := hN.pos.2
    refine ⟨by simp [fftshift, ifftn, alongAxes_shape, hanserPupils], fun c iz y x => ?_⟩
    rw [shift_ifft_get _ h.ncomp h.z.length h.size h.size rfl hpos hpos]
    refine field_congr (fun i hi j hj => ?_) y x
    have hbix : ∀ i < h.size, bix h.size i = i := by
      intro i hi; unfold bix; split_ifs with h1
      · omega
      · rfl
    simp [hanserPupils, HanserNum.pupilAt, hb, hbix i hi, hbix j hj]
  cases pupil with
  | none =>
    obtain ⟨zr, hz, hok⟩ := py_bind_ok hok
    obtain ⟨_, _, hok⟩ := py_bind_ok hok
    obtain ⟨h, hn, hok⟩ := py_bind_ok hok
    obtain ⟨hN, hs⟩ := hanserNum_ok hg hn
    obtain ⟨e1, e2⟩ := core h h.idealPupil hN rfl (by rw [← py_pure_ok hok, hs])
    exact ⟨h, hN, e1, e2⟩
  | some P =>
    have hP := hsz P v rfl hv
    rw [← hvs] at hP
    simp only [hP] at hok
    have hb : bdim size size = .ok size := by simp [bdim]
    simp only [hb] at hok
    obtain ⟨A, hA, hok⟩ := py_bind_ok hok
    obtain ⟨B, hB, hok⟩ := py_bind_ok hok
    cases hA; cases hB
    obtain ⟨_, _, hok⟩ := py_bind_ok hok
    obtain ⟨h, hn, hok⟩ := py_bind_ok hok
    obtain ⟨hN, hs⟩ := hanserNum_ok hg hn
    obtain ⟨e1, e2⟩ := core h P hN (by rw [hP, hs]) (by rw [← py_pure_ok hok, hs])
    exact ⟨h, hN, e1, e2⟩

theorem psfiOf_shape (a : Arr ℂ) (C Z A B : ℕ) (hs : a.shape = [C, Z, A, B]) : (psfiOf a).shape = [Z, A, B] := by
  simp [psfiOf, Arr.sumAxis, Arr.map, hs]

theorem psfiOf_get (a : Arr ℂ) (C Z A B : ℕ) (hs : a.shape = [C, Z, A, B]) (z y x : ℕ) :
    (psfiOf a).get [z, y, x] = ∑ c ∈ Finset.range C, ‖a.get [c, z, y, x]‖ ^ 2 := by
  simp [psfiOf, Arr.sumAxis, Arr.map, hs]

/-- Conversely the numbers behind the parameters are all it takes. -/
theorem hanserGenKr_of {p : Params} {h : HanserNum} (hN : NumbersOf p h) :
    ∃ r k : ℚ, h.res = r ∧ h.kmag = k ∧ hanserGenKr p = .ok (h.size, .fin r, .fin k, h.limit) := by
  obtain ⟨sv, hs1, hs2⟩ := hN.size
  obtain ⟨rv, r, hr1, hr2, hr3⟩ := hN.res
  obtain ⟨niv, wlv, ni, wl, k, h1, h2, h3, h4, h5, h6⟩ := hN.kmag
  obtain ⟨nav, wlv', na, wl', g1, g2, g3, g4, g5⟩ := hN.limit
  rw [h2] at g2; cases g2
  rw [h4] at g4; cases g4
  have hr0 : r ≠ 0 := by
    have := hN.pos.1; rw [hr3] at this; exact Rat.cast_ne_zero.mp this
  have hs0 : (pyNat sv : ℚ) ≠ 0 := by
    have := hN.pos.2; rw [hs2] at this; exact_mod_cast this.ne'
  have hd : PyFloat.div (.fin 1) (PyFloat.mul (.fin (pyNat sv : ℚ)) (.fin r)) = .ok (.fin (1 / (pyNat sv * r))) := by
    simp only [PyFloat.mul, PyFloat.div]
    rw [if_neg (mul_ne_zero hs0 hr0)]
  refine ⟨r, k, hr3, h6, ?_⟩
  simp only [hanserGenKr, hs1, hr1, h1, h2, g1, attr, pyNum, hr2, h3, h4, g3, bind, Except.bind, hd, h5, g5, pure,
    Except.pure, hs2]

theorem hanserNum_of {p : Params} {h : HanserNum} (hN : NumbersOf p h) {r k : ℚ} (hr : h.res = r) (hk : h.kmag = k) :
    hanserNum p h.size (.fin r) (.fin k) h.limit = .ok h := by
  obtain ⟨zs, hz1, hz2⟩ := hN.z
  have hf : finReals [PyFloat.fin r, PyFloat.fin k] = .ok [(r : ℝ), (k : ℝ)] := finReals_fin [r, k]
  have e : (⟨h.size, (r : ℝ), (k : ℝ), h.limit, zs.map fun (q : ℚ) => (q : ℝ), h.vecCorr, h.condition⟩ : HanserNum) = h := by
    rw [← hr, ← hk, ← hz2]
  have ht : (h.usesTheta && decide (PyFloat.fin k = PyFloat.fin 0)) = false := by
    rcases hu : h.usesTheta with _ | _
    · rfl
    · have := hN.usesTheta hu
      rw [hk] at this
      have : k ≠ 0 := Rat.cast_ne_zero.mp this
      simp [this]
  simp only [hanserNum, hN.vecCorr, hN.condition, hz1, attr, bind, Except.bind, finReals_fin, hf, List.getD_cons_zero,
    List.getD_cons_succ, e, ht, pure, Except.pure]
  rfl

/-- `_gen_psf()` succeeds exactly when the parameters are finite numbers with `res ≠ 0`, `size > 0`, `wl ≠ 0`, and
`ni ≠ 0` if the angle is needed. -/
theorem genPsf_none_of {p : Params} {h : HanserNum} (hN : NumbersOf p h) :
    hanserGenPsf p none = .ok (fftshift (some [2, 3]) (ifftn (some [2, 3]) (hanserPupils h h.idealPupil h.size h.size))) := by
  obtain ⟨r, k, hr, hk, hg⟩ := hanserGenKr_of hN
  obtain ⟨zs, hz1, hz2⟩ := hN.z
  have hpos := hN.pos.2
  have hc : fftCheck [2, 3] [1, (zs.map PyFloat.fin).length, h.size, h.size] = .ok () := by
    have : h.size ≠ 0 := hpos.ne'
    simp [fftCheck, this]
  simp only [hanserGenPsf, hg, bind, Except.bind, attr, hz1, hc, hanserNum_of hN hr hk, pure, Except.pure]

theorem genPsf_some_of {p : Params} {h : HanserNum} (hN : NumbersOf p h) {P : Arr ℂ} (hP : P.shape = [h.size, h.size]) :
    hanserGenPsf p (some P) = .ok (fftshift (some [2, 3]) (ifftn (some [2, 3]) (hanserPupils h P h.size h.size))) := by
  obtain ⟨r, k, hr, hk, hg⟩ := hanserGenKr_of hN
  have hpos := hN.pos.2
  have hc : fftCheck [2, 3] [1, 1, h.size, h.size] = .ok () := by
    have : h.size ≠ 0 := hpos.ne'
    simp [fftCheck, this]
  simp only [hanserGenPsf, hg, bind, Except.bind, hP, bdim, if_true, hc, hanserNum_of hN hr hk, pure, Except.pure]

/-- The numbers are determined by the parameters. -/
theorem NumbersOf.agree {p p' : Params} {h h' : HanserNum} (hN : NumbersOf p h) (hN' : NumbersOf p' h')
    (e1 : p'.wl = p.wl) (e2 : p'.na = p.na) (e3 : p'.ni = p.ni) (e4 : p'.size = p.size) (e5 : p'.res = p.res) :
    h' = { h with z := h'.z, vecCorr := h'.vecCorr, condition := h'.condition } := by
  obtain ⟨s, hs1, hs2⟩ := hN.size
  obtain ⟨s', hs1', hs2'⟩ := hN'.size
  rw [e4, hs1] at hs1'; cases hs1'
  obtain ⟨v, q, hr1, hr2, hr3⟩ := hN.res
  obtain ⟨v', q', hr1', hr2', hr3'⟩ := hN'.res
  rw [e5, hr1] at hr1'; cases hr1'
  rw [hr2] at hr2'; cases hr2'
  obtain ⟨niv, wlv, ni, wl, k, h1, h2, h3, h4, h5, h6⟩ := hN.kmag
  obtain ⟨niv', wlv', ni', wl', k', h1', h2', h3', h4', h5', h6'⟩ := hN'.kmag
  rw [e3, h1] at h1'; cases h1'
  rw [e1, h2] at h2'; cases h2'
  rw [h3] at h3'; cases h3'
  rw [h4] at h4'; cases h4'
  rw [h5] at h5'; cases h5'
  obtain ⟨nav, wlv, na, wl, g1, g2, g3, g4, g5⟩ := hN.limit
  obtain ⟨nav', wlv', na', wl', g1', g2', g3', g4', g5'⟩ := hN'.limit
  rw [e2, g1] at g1'; cases g1'
  rw [e1, g2] at g2'; cases g2'
  rw [g3] at g3'; cases g3'
  rw [g4] at g4'; cases g4'
  rw [g5] at g5'
  injection g5' with g5'
  cases h with
  | mk size res kmag limit z vc cd =>
    cases h' with
    | mk size' res' kmag' limit' z' vc' cd' =>
      simp only at hs2 hs2' hr3 hr3' h6 h6' g5'
      subst hs2 hs2' hr3 hr3' h6 h6' g5'
      rfl

theorem genPsf_none_iff {p : Params} : (∃ a, hanserGenPsf p none = .ok a) ↔ ∃ h, NumbersOf p h := by
  constructor
  · rintro ⟨a, ha⟩
    obtain ⟨h, hN, -⟩ := genPsf_closed ha (by intro P v hP; cases hP)
    exact ⟨h, hN⟩
  · rintro ⟨h, hN⟩
    exact ⟨_, genPsf_none_of hN⟩

theorem norm_defocus (h : HanserNum) (iz i j : ℕ) : ‖h.defocus iz i j‖ = 1 := by
  have : (2 * Real.pi * I * h.kz i j * (h.z.getD iz 0 : ℝ) : ℂ) = ((2 * Real.pi * h.kz i j * h.z.getD iz 0 : ℝ) : ℂ) * I := by
    push_cast; ring
  rw [HanserNum.defocus, this, norm_exp_ofReal_mul_I]

end PyOTF
