import Verif.Model.PhaseRetrieval
import Verif.Lemmas.Analysis
import Verif.Lemmas.AberrationForm

/-!
# The loop of `retrieve_phase` computes the iterates of the specification
-/

namespace PyOTF

open Complex Physics

theorem applyPupil_run (P : Arr ℂ) (o : HObj) : HObj.applyPupil P o =
    match hanserGenPsf o.params (some P) with
    | .ok a => (.ok (), { params := o.params, psfa := some a })
    | .error e => (.error e, { params := o.params }) := by
  simp only [HObj.applyPupil, PyM.bind_apply, PyM.get_apply, HObj.genPsf, attributeChanged, PyM.modify_apply, PyM.lift_apply]
  rcases hanserGenPsf o.params (some P) with e | a <;> rfl

/-! ### Broadcasting -/

theorem bshape_self (s : List ℕ) : bshape s s = .ok s := by
  have h : ∀ s : List ℕ, bshapeRev s s = .ok s := by
    intro s
    induction s with
    | nil => rfl
    | cons a s ih => simp [bshapeRev, ih, bdim, bind, Except.bind, pure, Except.pure]
  unfold bshape
  rw [h]
  simp [bind, Except.bind, pure, Except.pure]

theorem broadcastTo_self {α : Type} (a : Arr α) : ∃ b, broadcastTo a.shape a = .ok b ∧ b.shape = a.shape ∧
    ∀ i, InShape i a.shape → b.get i = a.get i := by
  unfold broadcastTo
  have h2 : (List.zip a.shape a.shape).all (fun p => decide (p.1 = p.2 ∨ p.1 = 1)) = true := by
    rw [List.all_eq_true]
    intro p hp
    have : p.1 = p.2 := by
      obtain ⟨k, hk, rfl⟩ := List.mem_iff_getElem.mp hp
      simp
    simp [this]
  simp only [Nat.sub_self, List.replicate_zero, List.nil_append, lt_irrefl, if_false, h2, if_true, List.drop_zero]
  refine ⟨_, rfl, rfl, fun i hi => congrArg a.get ?_⟩
  apply List.ext_getElem (by simp [hi.length])
  intro k h1 h2
  have hk : k < a.shape.length := by simpa [hi.length] using h1
  have hlt := hi.lt hk
  rw [List.getElem_zipWith]
  rw [List.getD_eq_getElem _ _ (by rw [hi.length]; exact hk), List.getD_eq_getElem _ _ hk] at hlt
  split_ifs with h
  · omega
  · rfl

/-- Operands of equal shape. -/
theorem zipB_same {α β γ : Type} (f : α → β → γ) (a : Arr α) (b : Arr β) (h : b.shape = a.shape) :
    ∃ c, a.zipB f b = .ok c ∧ c.shape = a.shape ∧ ∀ i, InShape i a.shape → c.get i = f (a.get i) (b.get i) := by
  obtain ⟨a', ha, -, ha2⟩ := broadcastTo_self a
  obtain ⟨b', hb, -, hb2⟩ := broadcastTo_self b
  rw [h] at hb hb2
  refine ⟨⟨a.shape, fun i => f (a'.get i) (b'.get i)⟩, ?_, rfl, fun i hi => ?_⟩
  · unfold Arr.zipB
    simp only [h, bshape_self, bind, Except.bind, ha, hb, pure, Except.pure]
  · simp only [ha2 i hi, hb2 i hi]

theorem izipB_same {α β : Type} (f : α → β → α) (a : Arr α) (b : Arr β) (h : b.shape = a.shape) :
    ∃ c, a.izipB f b = .ok c ∧ c.shape = a.shape ∧ ∀ i, InShape i a.shape → c.get i = f (a.get i) (b.get i) := by
  obtain ⟨b', hb, -, hb2⟩ := broadcastTo_self b
  rw [h] at hb hb2
  refine ⟨⟨a.shape, fun i => f (a.get i) (b'.get i)⟩, ?_, rfl, fun i hi => ?_⟩
  · unfold Arr.izipB
    simp only [bind, Except.bind, hb, pure, Except.pure]
  · simp only [hb2 i hi]

theorem inShape2 {A B i j : ℕ} : InShape [i, j] [A, B] ↔ i < A ∧ j < B := by simp [InShape]

theorem inShape3 {Z A B z i j : ℕ} : InShape [z, i, j] [Z, A, B] ↔ z < Z ∧ i < A ∧ j < B := by simp [InShape]

/-- The stack of measured magnitudes times a squeezed PSF. -/
theorem zipB_squeeze {γ : Type} (f : ℝ → ℝ → γ) (m : Arr ℝ) (p : Arr ℝ) (Z N : ℕ) (hN : 2 ≤ N) (hm : m.shape = [Z, N, N])
    (hp : p.shape = [1, Z, N, N]) : ∃ c, m.zipB f p.squeeze = .ok c ∧ c.shape = [Z, N, N] ∧
    ∀ z < Z, ∀ y < N, ∀ x < N, c.get [z, y, x] = f (m.get [z, y, x]) (p.get [0, z, y, x]) := by
  have hN1 : N ≠ 1 := by omega
  by_cases hZ : Z = 1
  · subst hZ
    have hs : p.squeeze.shape = [N, N] := by simp [Arr.squeeze, hp, hN1]
    have hb : bshape m.shape p.squeeze.shape = .ok [1, N, N] := by
      rw [hm, hs]
      simp [bshape, bshapeRev, bdim, bind, Except.bind, pure, Except.pure]
    have h1 : broadcastTo [1, N, N] m = .ok ⟨[1, N, N], fun i => m.get (List.zipWith (fun i n => if n = 1 then 0 else i) i [1, N, N])⟩ := by
      simp [broadcastTo, hm]
    have h2 : broadcastTo [1, N, N] p.squeeze = .ok ⟨[1, N, N], fun i => p.squeeze.get
        ((List.zipWith (fun i n => if n = 1 then 0 else i) i [1, N, N]).drop 1)⟩ := by
      simp [broadcastTo, hs]
    refine ⟨⟨[1, N, N], fun i => f (m.get (List.zipWith (fun i n => if n = 1 then 0 else i) i [1, N, N]))
      (p.squeeze.get ((List.zipWith (fun i n => if n = 1 then 0 else i) i [1, N, N]).drop 1))⟩, ?_, ?_, ?_⟩
    · unfold Arr.zipB
      simp only [hb, bind, Except.bind, h1, h2, pure, Except.pure]
    · rfl
    · intro z hz y hy x hx
      have : z = 0 := by omega
      subst this
      simp [hN1, Arr.squeeze, hp, unsqueezeIdx]
  · have hs : p.squeeze.shape = m.shape := by simp [Arr.squeeze, hp, hN1, hZ, hm]
    obtain ⟨c, h1, h2, h3⟩ := zipB_same f m p.squeeze hs
    refine ⟨c, h1, by rw [h2, hm], fun z hz y hy x hx => ?_⟩
    rw [h3 _ (by rw [hm]; exact inShape3.mpr ⟨hz, hy, hx⟩)]
    simp [Arr.squeeze, hp, unsqueezeIdx, hN1, hZ]


/-! ### One pass -/

/-- The problem behind the data and the numbers of a model. -/
noncomputable def problemOf (h : HanserNum) (l : ℝ) (data : Arr ℝ) : Problem where
  N := h.size
  Z := h.z.length
  pixel := h.res
  shell := h.kmag
  limit := l
  height z := h.z.getD z 0
  data z y x := data.get [z, y, x]

/-- The pupil held in an array. -/
def pupilFn (P : Arr ℂ) (i j : ℕ) : ℂ := P.get [i, j]

theorem defocus_eq (h : HanserNum) (l : ℝ) (data : Arr ℝ) (z i j : ℕ) :
    h.defocus z i j = (problemOf h l data).defocus z i j := by
  simp only [HanserNum.defocus, Problem.defocus, problemOf, kz_eq]
  congr 1
  ring

/-- `fftn(ifftshift(a, axes=(1, 2)), axes=(1, 2))`. -/
theorem fft_shift_get (a : Arr ℂ) (Z N : ℕ) (hs : a.shape = [Z, N, N]) (hN : 0 < N) (z i j : ℕ) :
    (fftn (some [1, 2]) (ifftshift (some [1, 2]) a)).get [z, i, j] = analysis N (fun y x => a.get [z, y, x]) i j := by
  rw [analysis_fft N hN]
  simp [ifftshift, fftn, Arr.alongAxes, Arr.alongAxis, axesOf, ifftshift1, roll1, hs]

/-- A scalar model without apodisation. -/
structure Scalar (p : Params) (h : HanserNum) : Prop where
  num : NumbersOf p h
  vec : h.vecCorr = .none
  cond : h.condition = .none

/-- `apply_pupil(P)` and then `PSFa`, `PSFi`. -/
theorem psf_form {p : Params} {h : HanserNum} (hr : Scalar p h) (l : ℝ) (data : Arr ℝ) (P : Arr ℂ) (hP : P.shape = [h.size, h.size]) :
    ∃ a, hanserGenPsf p (some P) = .ok a ∧ a.shape = [1, h.z.length, h.size, h.size] ∧
      ∀ z y x, a.get [0, z, y, x] = (problemOf h l data).amplitude (pupilFn P) z y x := by
  have hok := genPsf_some_of hr.num hP
  refine ⟨_, hok, ?_, ?_⟩
  · simp [fftshift, ifftn, alongAxes_shape, hanserPupils, HanserNum.ncomp, hr.vec]
  · intro z y x
    have hpos := hr.num.pos.2
    rw [shift_ifft_get _ h.ncomp h.z.length h.size h.size rfl hpos hpos]
    unfold Problem.amplitude
    refine field_congr (fun i hi j hj => ?_) y x
    have hbix : ∀ i < h.size, bix h.size i = i := by
      intro i hi; unfold bix; split_ifs with h1
      · omega
      · rfl
    rw [← defocus_eq]
    simp [hanserPupils, hP, hbix i hi, hbix j hj, HanserNum.apod, hr.cond, HanserNum.vecFactors, hr.vec, pupilFn]


/-- The configuration set up by `retrieve_phase`. -/
structure ConfOk (c : PrConf) (l : ℚ) : Prop where
  mag : c.mag = c.data.map psqrt
  mask : c.mask = c.h.idealPupil.map Complex.re
  shape : c.data.shape = [c.h.z.length, c.h.size, c.h.size]
  limit : c.h.limit = .fin l
  size : 2 ≤ c.h.size
  planes : 0 < c.h.z.length

/-- The problem a configuration stands for. -/
noncomputable def PrConf.problem (c : PrConf) (l : ℚ) : Problem := problemOf c.h l c.data

/-- One step of the specification. -/
noncomputable def Physics.Problem.step (S : Problem) (phaseOnly : Bool) (P : ℕ → ℕ → ℂ) : ℕ → ℕ → ℂ :=
  if phaseOnly then S.updatePhase P else S.update P

theorem mask_get {c : PrConf} {l : ℚ} (hc : ConfOk c l) (i j : ℕ) :
    ((c.mask.get [i, j] : ℝ) : ℂ) = aperture c.h.size c.h.res l i j := by
  rw [hc.mask]
  simp only [Arr.map, idealPupil_eq c.h hc.limit, aperture]
  split_ifs <;> simp

theorem nextPupil_form {c : PrConf} {l : ℚ} (hc : ConfOk c l) (P : ℕ → ℕ → ℂ) (a : Arr ℂ)
    (ha : a.shape = [1, c.h.z.length, c.h.size, c.h.size])
    (hget : ∀ z y x, a.get [0, z, y, x] = (c.problem l).amplitude P z y x) :
    ∃ Q, nextPupil c a = .ok Q ∧ Q.shape = [c.h.size, c.h.size] ∧
      ∀ i < c.h.size, ∀ j < c.h.size, pupilFn Q i j = (c.problem l).step c.phaseOnly P i j := by
  have hN := hc.size
  have hN0 : 0 < c.h.size := by omega
  have hZ := hc.planes
  have hm : c.mag.shape = [c.h.z.length, c.h.size, c.h.size] := by rw [hc.mag]; exact hc.shape
  obtain ⟨f, f1, f2, f3⟩ := zipB_squeeze (fun (m p : ℝ) => (m : ℂ) * Complex.exp (Complex.I * (p : ℂ))) c.mag (a.map Complex.arg)
    c.h.z.length c.h.size hN hm ha
  have f1' : c.mag.zipB (fun (m p : ℝ) => (m : ℂ) * Complex.exp (Complex.I * (p : ℂ))) (a.squeeze.map Complex.arg) = .ok f := f1
  have hcor : ∀ z < c.h.z.length, ∀ y < c.h.size, ∀ x < c.h.size, f.get [z, y, x] = (c.problem l).corrected P z y x := by
    intro z hz y hy x hx
    rw [f3 z hz y hy x hx, hc.mag]
    simp only [Arr.map, hget, Problem.corrected, PrConf.problem, problemOf, psqrt]
  have hchk : fftCheck [1, 2] f.shape = .ok () := by
    have : c.h.size ≠ 0 := by omega
    simp [fftCheck, f2, this]
  have hsF : (fftn (some [1, 2]) (ifftshift (some [1, 2]) f)).shape = [c.h.z.length, c.h.size, c.h.size] := by
    simp [fftn, ifftshift, alongAxes_shape, f2]
  obtain ⟨g, g1, g2, g3⟩ := izipB_same (fun v d : ℂ => v / d) (fftn (some [1, 2]) (ifftshift (some [1, 2]) f)) c.h.defocusArr
    (by rw [hsF]; rfl)
  rw [hsF] at g2 g3
  have hg : ∀ z < c.h.z.length, ∀ i < c.h.size, ∀ j < c.h.size, g.get [z, i, j] =
      analysis c.h.size ((c.problem l).corrected P z) i j / (c.problem l).defocus z i j := by
    intro z hz i hi j hj
    rw [g3 _ (inShape3.mpr ⟨hz, hi, hj⟩), fft_shift_get f _ _ f2 hN0]
    have e : analysis c.h.size (fun y x => f.get [z, y, x]) i j = analysis c.h.size ((c.problem l).corrected P z) i j := by
      unfold analysis
      refine Finset.sum_congr rfl fun y hy => Finset.sum_congr rfl fun x hx => ?_
      exact congrArg (· * _) (hcor z hz y (Finset.mem_range.mp hy) x (Finset.mem_range.mp hx))
    rw [e]
    congr 1
    simp only [HanserNum.defocusArr, List.getD_cons_zero, List.getD_cons_succ]
    exact defocus_eq c.h l c.data z i j
  have hhead : g.shape.headD 0 = c.h.z.length := by rw [g2]; rfl
  have hmean : ((g.sumAxis 0).map fun v => v / (g.shape.headD 0 : ℂ)).shape = [c.h.size, c.h.size] := by
    simp [Arr.map, Arr.sumAxis, g2]
  have hmask : c.mask.shape = [c.h.size, c.h.size] := by rw [hc.mask]; rfl
  obtain ⟨n, n1, n2, n3⟩ := zipB_same (fun (v : ℂ) (m : ℝ) => v * (m : ℂ)) ((g.sumAxis 0).map fun v => v / (g.shape.headD 0 : ℂ))
    c.mask (by rw [hmask, hmean])
  rw [hmean] at n2 n3
  have hn : ∀ i < c.h.size, ∀ j < c.h.size, n.get [i, j] = (c.problem l).update P i j := by
    intro i hi j hj
    rw [n3 _ (inShape2.mpr ⟨hi, hj⟩), mask_get hc, hhead]
    have e : (g.sumAxis 0).get [i, j] = ∑ z ∈ Finset.range c.h.z.length,
        analysis c.h.size ((c.problem l).corrected P z) i j / (c.problem l).defocus z i j := by
      simp only [Arr.sumAxis, g2, List.getD_cons_zero, List.insertIdx_zero]
      exact Finset.sum_congr rfl fun z hz => hg z (Finset.mem_range.mp hz) i hi j hj
    simp only [Arr.map, e, aperture, Problem.update]
    by_cases hin : radial c.h.size c.h.res i j < l
    · have hin' : (c.problem l).Inside i j := hin
      rw [if_pos hin, if_pos hin', mul_one]
      rfl
    · have hin' : ¬ (c.problem l).Inside i j := hin
      rw [if_neg hin, if_neg hin', mul_zero]
  have hg0 : g.shape.headD 0 ≠ 0 := by rw [hhead]; omega
  by_cases hp : c.phaseOnly = true
  · obtain ⟨q, q1, q2, q3⟩ := zipB_same (fun (v : ℂ) (m : ℝ) => v * (m : ℂ))
      (n.map fun v => Complex.exp (Complex.I * (Complex.arg v : ℂ))) c.mask (by rw [hmask]; exact n2.symm)
    have hsq : (n.map fun v => Complex.exp (Complex.I * (Complex.arg v : ℂ))).shape = [c.h.size, c.h.size] := n2
    rw [hsq] at q2 q3
    refine ⟨q, ?_, q2, ?_⟩
    · unfold nextPupil
      simp only [f1', bind, Except.bind, hchk, g1, if_neg hg0, n1, hp, if_true, q1]
    · intro i hi j hj
      rw [pupilFn, q3 _ (inShape2.mpr ⟨hi, hj⟩), mask_get hc, Problem.step, if_pos hp]
      simp only [Arr.map, hn i hi j hj, aperture, Problem.updatePhase]
      by_cases hin : radial c.h.size c.h.res i j < l
      · have hin' : (c.problem l).Inside i j := hin
        rw [if_pos hin, if_pos hin', mul_one]
      · have hin' : ¬ (c.problem l).Inside i j := hin
        rw [if_neg hin, if_neg hin', mul_zero]
  · refine ⟨n, ?_, n2, ?_⟩
    · unfold nextPupil
      simp only [f1', bind, Except.bind, hchk, g1, if_neg hg0, n1, hp]
      rfl
    · intro i hi j hj
      rw [pupilFn, hn i hi j hj, Problem.step, if_neg hp]

/-- `_calc_mse(data, model.PSFi)`. -/
theorem calcMse_form {c : PrConf} {l : ℚ} (hc : ConfOk c l) (P : ℕ → ℕ → ℂ) (a : Arr ℂ)
    (ha : a.shape = [1, c.h.z.length, c.h.size, c.h.size])
    (hget : ∀ z y x, a.get [0, z, y, x] = (c.problem l).amplitude P z y x) :
    calcMse c.data (psfiOf a) = .ok ((c.problem l).mse P) := by
  have hN := hc.size
  have hZ := hc.planes
  obtain ⟨d, d1, d2, d3⟩ := zipB_same (fun a b : ℝ => (a - b) ^ 2) c.data (psfiOf a) (by rw [psfiOf_shape a _ _ _ _ ha, hc.shape])
  rw [hc.shape] at d2 d3
  have hp : d.shape.prod ≠ 0 := by
    rw [d2]
    simp only [List.prod_cons, List.prod_nil, mul_one]
    positivity
  unfold calcMse
  simp only [d1, bind, Except.bind, Arr.mean, if_neg hp]
  congr 1
  simp only [Arr.sum, d2, sumIdx, Problem.mse, Problem.mean]
  congr 1
  · refine Finset.sum_congr rfl fun z hz => Finset.sum_congr rfl fun y hy => Finset.sum_congr rfl fun x hx => ?_
    rw [d3 _ (inShape3.mpr ⟨Finset.mem_range.mp hz, Finset.mem_range.mp hy, Finset.mem_range.mp hx⟩),
      psfiOf_get a _ _ _ _ ha]
    simp [hget, PrConf.problem, problemOf]
  · simp [PrConf.problem, problemOf, mul_assoc]


/-! ### The loop -/

namespace Physics.Problem

variable (S : Problem)

theorem amplitude_congr {P Q : ℕ → ℕ → ℂ} (h : S.SamePupil P Q) (z y x : ℕ) : S.amplitude P z y x = S.amplitude Q z y x :=
  field_congr (fun i hi j hj => by rw [h i hi j hj]) y x

/-- Relative change of the error. -/
noncomputable def errorChange (b : Bool) : ℕ → NpReal
  | 0 => .nan
  | j + 1 => npDiv |S.errorAt b j - S.errorAt b (j + 1)| (S.errorAt b j)

/-- Relative change of the pupil. -/
noncomputable def pupilChange (b : Bool) : ℕ → NpReal
  | 0 => .nan
  | j + 1 => npDiv (S.distance (S.iterate b j) (S.iterate b (j + 1))) (S.energy (S.iterate b j))

theorem npDiv_lt (a b t : ℝ) : (npDiv a b).lt t ↔ b ≠ 0 ∧ a / b < t := by
  unfold npDiv
  by_cases hb : b = 0
  · by_cases ha : a = 0 <;> simp [ha, hb, NpReal.lt]
  · simp [hb, NpReal.lt]

theorem stops_iff (b : Bool) (pt mt : ℝ) (k : ℕ) : ((S.pupilChange b k).lt pt ∨ (S.errorChange b k).lt mt ∨ S.errorAt b k < mt) ↔
    S.Stops b pt mt k := by
  cases k with
  | zero => simp [pupilChange, errorChange, Stops, NpReal.lt]
  | succ j =>
    simp only [pupilChange, errorChange, Stops, npDiv_lt, Nat.add_right_cancel_iff, exists_eq_left']
    tauto

end Physics.Problem

/-- An array holds the pupil `P`. -/
def HoldsPupil (S : Problem) (a : Arr ℂ) (P : ℕ → ℕ → ℂ) : Prop := a.shape = [S.N, S.N] ∧ S.SamePupil (pupilFn a) P

/-- The object holds the PSF of the pupil `P`. -/
def HoldsPsf (S : Problem) (p : Params) (o : HObj) (P : ℕ → ℕ → ℂ) : Prop :=
  ∃ a : Arr ℂ, o = { params := p, psfa := some a, psfi := some (psfiOf a) } ∧ a.shape = [1, S.Z, S.N, S.N] ∧
    (∀ z y x, a.get [0, z, y, x] = S.amplitude P z y x) ∧ ∃ Q, hanserGenPsf p (some Q) = .ok a ∧ HoldsPupil S Q P

theorem pupilChange_form (S : Problem) (hN : 0 < S.N) {a b : Arr ℂ} {P Q : ℕ → ℕ → ℂ} (ha : HoldsPupil S a P) (hb : HoldsPupil S b Q) :
    pupilChange a b = .ok (npDiv (S.distance P Q) (S.energy P)) := by
  obtain ⟨a1, a2⟩ := ha
  obtain ⟨b1, b2⟩ := hb
  obtain ⟨d, d1, d2, d3⟩ := zipB_same (fun a b : ℂ => ‖a - b‖ ^ 2) a b (by rw [a1, b1])
  rw [a1] at d2 d3
  have hp : [S.N, S.N].prod ≠ 0 := by
    simp only [List.prod_cons, List.prod_nil, mul_one]
    positivity
  have e1 : d.mean = .ok (S.distance P Q) := by
    simp only [Arr.mean, d2, if_neg hp, Arr.sum, sumIdx, Problem.distance]
    congr 2
    · refine Finset.sum_congr rfl fun i hi => Finset.sum_congr rfl fun j hj => ?_
      rw [Finset.mem_range] at hi hj
      rw [d3 _ (inShape2.mpr ⟨hi, hj⟩), ← a2 i hi j hj, ← b2 i hi j hj]; rfl
    · simp
  have e2 : (a.map fun v => ‖v‖ ^ 2).mean = .ok (S.energy P) := by
    simp only [Arr.mean, Arr.map, a1, if_neg hp, Arr.sum, sumIdx, Problem.energy]
    congr 2
    · refine Finset.sum_congr rfl fun i hi => Finset.sum_congr rfl fun j hj => ?_
      rw [Finset.mem_range] at hi hj
      rw [← a2 i hi j hj]; rfl
    · simp
  unfold pupilChange
  simp only [d1, bind, Except.bind, e1, e2, pure, Except.pure]

/-- State at the start of pass `k`. -/
structure Inv (c : PrConf) (l : ℚ) (p : Params) (k : ℕ) (s : PrState) : Prop where
  params : s.model.params = p
  pupil : HoldsPupil (c.problem l) s.pupil ((c.problem l).iterate c.phaseOnly k)
  old : (k = 0 ∧ s.old = none) ∨ ∃ j P, k = j + 1 ∧ s.old = some ((c.problem l).errorAt c.phaseOnly j, P) ∧
    HoldsPupil (c.problem l) P ((c.problem l).iterate c.phaseOnly j)
  mse : s.mse = (List.range k).map ((c.problem l).errorAt c.phaseOnly)
  mseDiff : s.mseDiff = (List.range k).map ((c.problem l).errorChange c.phaseOnly)
  pupilDiff : s.pupilDiff = (List.range k).map ((c.problem l).pupilChange c.phaseOnly)

theorem getPSFi_held (p : Params) (a : Arr ℂ) :
    HObj.getPSFi { params := p, psfa := some a } = (.ok (psfiOf a), { params := p, psfa := some a, psfi := some (psfiOf a) }) := rfl

theorem getPSFa_held (p : Params) (a : Arr ℂ) (i : Option (Arr ℝ)) :
    HObj.getPSFa { params := p, psfa := some a, psfi := i } = (.ok a, { params := p, psfa := some a, psfi := i }) := rfl

open Classical in
theorem prBody_form {c : PrConf} {l : ℚ} (hc : ConfOk c l) {p : Params} (hs : Scalar p c.h) {k : ℕ} {s : PrState}
    (inv : Inv c l p k s) :
    ∃ s', prBody c s = .ok (s', decide ((c.problem l).Stops c.phaseOnly c.pupilTol c.mseTol k)) ∧
      s'.mse = (List.range (k + 1)).map ((c.problem l).errorAt c.phaseOnly) ∧
      s'.mseDiff = (List.range (k + 1)).map ((c.problem l).errorChange c.phaseOnly) ∧
      s'.pupilDiff = (List.range (k + 1)).map ((c.problem l).pupilChange c.phaseOnly) ∧
      HoldsPsf (c.problem l) p s'.model ((c.problem l).iterate c.phaseOnly k) ∧
      ((c.problem l).Stops c.phaseOnly c.pupilTol c.mseTol k → s'.pupil = s.pupil) ∧
      (¬ (c.problem l).Stops c.phaseOnly c.pupilTol c.mseTol k → Inv c l p (k + 1) s') := by
  set S := c.problem l with hS
  have hN0 : 0 < S.N := hs.num.pos.2
  obtain ⟨a, ha, hash, haget⟩ := psf_form hs l c.data s.pupil inv.pupil.1
  have hget : ∀ z y x, a.get [0, z, y, x] = S.amplitude (S.iterate c.phaseOnly k) z y x := fun z y x =>
    (haget z y x).trans (S.amplitude_congr inv.pupil.2 z y x)
  have hmse : calcMse c.data (psfiOf a) = .ok (S.errorAt c.phaseOnly k) := calcMse_form hc _ a hash hget
  have happ : HObj.applyPupil s.pupil s.model = (.ok (), { params := p, psfa := some a }) := by
    rw [applyPupil_run, inv.params, ha]
  have hdiff : prDiffs s.old (S.errorAt c.phaseOnly k) s.pupil = .ok (S.errorChange c.phaseOnly k, S.pupilChange c.phaseOnly k) := by
    rcases inv.old with ⟨rfl, h⟩ | ⟨j, P, rfl, h, hP⟩
    · rw [h]; rfl
    · rw [h]
      simp only [prDiffs, pupilChange_form S hN0 hP inv.pupil, bind, Except.bind, pure, Except.pure]
      rfl
  obtain ⟨Q, q1, q2, q3⟩ := nextPupil_form hc (S.iterate c.phaseOnly k) a hash hget
  have hheld : HoldsPsf S p { params := p, psfa := some a, psfi := some (psfiOf a) } (S.iterate c.phaseOnly k) :=
    ⟨a, rfl, hash, hget, s.pupil, ha, inv.pupil⟩
  have hr : ∀ {β : Type} (f : ℕ → β), (List.range (k + 1)).map f = (List.range k).map f ++ [f k] := by
    intro β f; rw [List.range_succ, List.map_append]; rfl
  by_cases hst : S.Stops c.phaseOnly c.pupilTol c.mseTol k
  · refine ⟨⟨{ params := p, psfa := some a, psfi := some (psfiOf a) }, s.pupil, s.old, s.mse ++ [S.errorAt c.phaseOnly k],
      s.mseDiff ++ [S.errorChange c.phaseOnly k], s.pupilDiff ++ [S.pupilChange c.phaseOnly k]⟩, ?_, ?_, ?_, ?_, hheld,
      fun _ => rfl, fun h => absurd hst h⟩
    · unfold prBody
      simp only [happ, bind, Except.bind, getPSFi_held, hmse, hdiff]
      rw [if_pos ((S.stops_iff _ _ _ _).mpr hst), decide_eq_true hst]
      rfl
    · rw [hr, inv.mse]
    · rw [hr, inv.mseDiff]
    · rw [hr, inv.pupilDiff]
  · refine ⟨⟨{ params := p, psfa := some a, psfi := some (psfiOf a) }, Q, some (S.errorAt c.phaseOnly k, s.pupil),
      s.mse ++ [S.errorAt c.phaseOnly k],
      s.mseDiff ++ [S.errorChange c.phaseOnly k], s.pupilDiff ++ [S.pupilChange c.phaseOnly k]⟩, ?_, ?_, ?_, ?_, hheld,
      fun h => absurd h hst, fun _ => ⟨rfl, ⟨q2, ?_⟩, Or.inr ⟨k, s.pupil, rfl, rfl, inv.pupil⟩, ?_, ?_, ?_⟩⟩
    · unfold prBody
      simp only [happ, bind, Except.bind, getPSFi_held, hmse, hdiff]
      rw [if_neg (fun h => hst ((S.stops_iff _ _ _ _).mp h)), decide_eq_false hst]
      simp only [getPSFa_held, q1]
      rfl
    · rw [hr, inv.mse]
    · rw [hr, inv.mseDiff]
    · rw [hr, inv.pupilDiff]
    · intro i hi j hj
      rw [q3 i hi j hj]
      simp only [Problem.step, Problem.iterate]
      split_ifs <;> rfl
    · rw [hr, inv.mse]
    · rw [hr, inv.mseDiff]
    · rw [hr, inv.pupilDiff]

/-- Outcome of the loop: `m` passes were made. -/
structure Outcome (c : PrConf) (l : ℚ) (p : Params) (m : ℕ) (s : PrState) : Prop where
  mse : s.mse = (List.range m).map ((c.problem l).errorAt c.phaseOnly)
  mseDiff : s.mseDiff = (List.range m).map ((c.problem l).errorChange c.phaseOnly)
  pupilDiff : s.pupilDiff = (List.range m).map ((c.problem l).pupilChange c.phaseOnly)
  model : HoldsPsf (c.problem l) p s.model ((c.problem l).iterate c.phaseOnly (m - 1))
  stopped : (c.problem l).Stops c.phaseOnly c.pupilTol c.mseTol (m - 1) →
    HoldsPupil (c.problem l) s.pupil ((c.problem l).iterate c.phaseOnly (m - 1))
  exhausted : ¬ (c.problem l).Stops c.phaseOnly c.pupilTol c.mseTol (m - 1) →
    HoldsPupil (c.problem l) s.pupil ((c.problem l).iterate c.phaseOnly m)

open Classical in
theorem prLoop_form {c : PrConf} {l : ℚ} (hc : ConfOk c l) {p : Params} (hs : Scalar p c.h) (n k : ℕ) (s : PrState)
    (inv : Inv c l p k s) (hn : 0 < n) :
    ∃ s' m, prLoop c n s = .ok s' ∧ k < m ∧ m ≤ k + n ∧ Outcome c l p m s' ∧
      (∀ j, k ≤ j → j + 1 < m → ¬ (c.problem l).Stops c.phaseOnly c.pupilTol c.mseTol j) ∧
      (m < k + n → (c.problem l).Stops c.phaseOnly c.pupilTol c.mseTol (m - 1)) := by
  induction n generalizing k s with
  | zero => omega
  | succ n ih =>
    obtain ⟨s', h1, h2, h3, h4, h5, h6, h7⟩ := prBody_form hc hs inv
    by_cases hst : (c.problem l).Stops c.phaseOnly c.pupilTol c.mseTol k
    · refine ⟨s', k + 1, ?_, by omega, by omega, ⟨h2, h3, h4, h5, fun _ => ?_, fun h => absurd hst h⟩, by omega, fun _ => hst⟩
      · simp only [prLoop, h1, decide_eq_true hst]
      · rw [h6 hst]; exact inv.pupil
    · have hb : prLoop c (n + 1) s = prLoop c n s' := by
        simp only [prLoop, h1, decide_eq_false hst]
      rcases Nat.eq_zero_or_pos n with rfl | hn'
      · refine ⟨s', k + 1, ?_, by omega, by omega, ⟨h2, h3, h4, h5, fun h => absurd h hst, fun _ => (h7 hst).pupil⟩, by omega,
          by omega⟩
        rw [hb]; rfl
      · obtain ⟨s2, m, e1, e2, e3, e4, e5, e6⟩ := ih (k + 1) s' (h7 hst) hn'
        refine ⟨s2, m, by rw [hb, e1], by omega, by omega, e4, ?_, fun h => e6 (by omega)⟩
        intro j hj hjm
        rcases Nat.eq_or_lt_of_le hj with rfl | hj
        · exact hst
        · exact e5 j hj hjm

end PyOTF
