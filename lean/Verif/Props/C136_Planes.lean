import Verif.Lemmas.PrPlanes
import Verif.Props.C136_Dictionary

/-!
# C136: images and heights of different number

The number of images (the first axis of the data) and the number of heights (`zrange`, or those another thread has put into the dictionary) are never
compared.  Broadcasting decides.
-/

namespace PyOTF

open Physics

/-- The same image `Z` times, `np.repeat(data, Z, axis=0)`. -/
def repeatImage (Z : ℕ) (data : Arr ℝ) : Arr ℝ := ⟨Z :: data.shape.tail, fun idx => data.get (idx.modifyHead fun _ => 0)⟩

/-- Two results tell the same story: the same errors and changes, and the same pupil. -/
structure SameReport (N : ℕ) (res res' : PRResult) : Prop where
  mse : res.mse = res'.mse
  mseDiff : res.mseDiff = res'.mseDiff
  pupilDiff : res.pupilDiff = res'.pupilDiff
  pupil : ∀ i < N, ∀ j < N, retrieved N res i j = retrieved N res' i j

open Classical in
theorem report_unique {S : Problem} {b : Bool} {pt mt : ℝ} {M : ℕ} {unwrap : Arr ℝ → Arr ℝ} {res res' : PRResult} {m m' : ℕ}
    {F F' : ℕ → ℕ → ℂ} (h : Report S b pt mt M unwrap res m F) (h' : Report S b pt mt M unwrap res' m' F') (hun : Unwraps unwrap) :
    SameReport S.N res res' := by
  have hm : m = m' := by
    have := h.pos
    have := h'.pos
    rcases lt_trichotomy m m' with hl | hl | hl
    · exact absurd (h.early (lt_of_lt_of_le hl h'.le)) (h'.before (m - 1) (by omega))
    · exact hl
    · exact absurd (h'.early (lt_of_lt_of_le hl h.le)) (h.before (m' - 1) (by omega))
  subst hm
  have hF : F = F' := by rw [h.last, h'.last]
  subst hF
  exact ⟨h.mse.trans h'.mse.symm, h.mseDiff.trans h'.mseDiff.symm, h.pupilDiff.trans h'.pupilDiff.symm, fun i hi j hj =>
    (report_retrieved h hun i hi j hj).trans (report_retrieved h' hun i hi j hj).symm⟩

/-! ## One image, several heights -/

theorem bshape_cast (Z N : ℕ) : bshape [1, N, N] [Z, N, N] = .ok [Z, N, N] := by
  have h : bdim 1 Z = .ok Z := by
    unfold bdim
    split_ifs with h1 h2
    · rw [h1]
    · rfl
    · exact absurd rfl h2
    · exact absurd rfl h2
  have h2 : bdim N N = .ok N := by simp [bdim]
  simp [bshape, bshapeRev, h, h2, bind, Except.bind, pure, Except.pure]

theorem broadcast_repeat {Z N : ℕ} (hZ : Z ≠ 1) (hN : N ≠ 1) (a : Arr ℝ) (ha : a.shape = [1, N, N]) :
    broadcastTo [Z, N, N] (repeatImage Z a) = broadcastTo [Z, N, N] a := by
  simp only [broadcastTo, repeatImage, ha]
  simp [hZ, hN]
  funext idx
  rcases idx with _ | ⟨i, _ | ⟨j, _ | ⟨k, t⟩⟩⟩ <;> simp

theorem zipB_repeat {β γ : Type} (f : ℝ → β → γ) {Z N : ℕ} (hZ : Z ≠ 1) (hN : N ≠ 1) (a : Arr ℝ) (ha : a.shape = [1, N, N]) (b : Arr β)
    (hb : b.shape = [Z, N, N]) : a.zipB f b = (repeatImage Z a).zipB f b := by
  have hs : (repeatImage Z a).shape = [Z, N, N] := by simp [repeatImage, ha]
  unfold Arr.zipB
  rw [hs, ha, hb, bshape_cast, bshape_self]
  simp only [bind, Except.bind, broadcast_repeat hZ hN a ha]

theorem calcMse_repeat {Z N : ℕ} (hZ : Z ≠ 1) (hN : N ≠ 1) (a : Arr ℝ) (ha : a.shape = [1, N, N]) (b : Arr ℝ) (hb : b.shape = [Z, N, N]) :
    calcMse a b = calcMse (repeatImage Z a) b := by
  unfold calcMse
  rw [zipB_repeat _ hZ hN a ha b hb]

theorem nextPupil_repeat {c : PrConf} {Z N : ℕ} (hZ : Z ≠ 1) (hN : N ≠ 1) (hd : c.data.shape = [1, N, N]) (hm : c.mag = c.data.map psqrt) (a : Arr ℂ)
    (ha : a.shape = [1, Z, N, N]) : nextPupil c a = nextPupil { c with data := repeatImage Z c.data, mag := (repeatImage Z c.data).map psqrt } a := by
  have hs : (a.squeeze.map Complex.arg).shape = [Z, N, N] := by simp [Arr.map, Arr.squeeze, ha, hZ, hN]
  have e : (repeatImage Z c.data).map psqrt = repeatImage Z c.mag := by
    rw [hm]; rfl
  have hms : c.mag.shape = [1, N, N] := by rw [hm]; exact hd
  unfold nextPupil
  simp only [e, zipB_repeat _ hZ hN c.mag hms _ hs]

theorem prBody_repeat {c : PrConf} {l : ℚ} {p : Params} {k : ℕ} {s : PrState} (hc : c.data.shape = [1, c.h.size, c.h.size])
    (hm : c.mag = c.data.map psqrt) (hZ : c.h.z.length ≠ 1) (hN : c.h.size ≠ 1) (hs : Scalar p c.h)
    (inv : Inv { c with data := repeatImage c.h.z.length c.data, mag := (repeatImage c.h.z.length c.data).map psqrt } l p k s) :
    prBody c s = prBody { c with data := repeatImage c.h.z.length c.data, mag := (repeatImage c.h.z.length c.data).map psqrt } s := by
  obtain ⟨a, ha, hash, -⟩ := psf_form hs l c.data s.pupil inv.pupil.1
  have happ : HObj.applyPupil s.pupil s.model = (.ok (), { params := p, psfa := some a }) := by
    rw [applyPupil_run, inv.params, ha]
  unfold prBody
  simp only [happ, bind, Except.bind, getPSFi_held, getPSFa_held]
  rw [calcMse_repeat hZ hN c.data hc (psfiOf a) (psfiOf_shape a _ _ _ _ hash), nextPupil_repeat hZ hN hc hm a hash]

theorem prLoop_repeat {c : PrConf} {l : ℚ} {p : Params} (hc : c.data.shape = [1, c.h.size, c.h.size])
    (hm : c.mag = c.data.map psqrt) (hs : Scalar p c.h)
    (hok : ConfOk { c with data := repeatImage c.h.z.length c.data, mag := (repeatImage c.h.z.length c.data).map psqrt } l) (hZ : c.h.z.length ≠ 1)
    (n k : ℕ) (s : PrState)
    (inv : Inv { c with data := repeatImage c.h.z.length c.data, mag := (repeatImage c.h.z.length c.data).map psqrt } l p k s) :
    prLoop c n s = prLoop { c with data := repeatImage c.h.z.length c.data, mag := (repeatImage c.h.z.length c.data).map psqrt } n s := by
  have hN : c.h.size ≠ 1 := by
    have : 2 ≤ c.h.size := hok.size
    omega
  induction n generalizing k s with
  | zero => rfl
  | succ n ih =>
    obtain ⟨s', h1, -, -, -, -, -, h7⟩ := prBody_form hok hs inv
    simp only [prLoop, prBody_repeat hc hm hZ hN hs inv, h1]
    by_cases hst : (PrConf.problem { c with data := repeatImage c.h.z.length c.data, mag := (repeatImage c.h.z.length c.data).map psqrt } l).Stops
      c.phaseOnly c.pupilTol c.mseTol k
    · simp only [hst, decide_true]
    · simp only [hst, decide_false]
      exact ih (k + 1) s' (h7 hst)

/-- One image and a model of several planes: the run is the one for as many copies of the image. -/
theorem prRun_repeat (unwrap : Arr ℝ → Arr ℝ) (data : Arr ℝ) (D : PyDict) {o : HObj} {w n i r : ℚ} {Z N : ℕ} {zs : List ℚ}
    (ho : hanserOfDict D = .ok o) (hopt : Optics o.params w n i r N zs .none .none) (hw : w ≠ 0) (hr : r ≠ 0) (hlen : zs.length = Z)
    (hdata : data.shape = [1, N, N]) (hN : 2 ≤ N) (hZ : 2 ≤ Z) (M : ℕ) (pt mt : ℝ) (b : Bool) :
    prRun unwrap data D M pt mt b = prRun unwrap (repeatImage Z data) D M pt mt b := by
  have hnum := hopt.numbersOf hw hr (by omega) (by simp)
  have hgc := optics_genCoords hopt hw hr (by omega) (by simp)
  set h : HanserNum := ⟨N, r, ((i / w : ℚ) : ℝ), .fin (n / w), zs.map fun (q : ℚ) => (q : ℝ), .none, .none⟩ with hh
  have hzl : h.z.length = Z := by simp [hh, hlen]
  let c : PrConf := ⟨data, data.map psqrt, h.idealPupil.map Complex.re, h, pt, mt, b⟩
  have hcz : c.h.z.length = Z := hzl
  have hs : Scalar o.params c.h := ⟨hnum, rfl, rfl⟩
  have hrs : (repeatImage c.h.z.length c.data).shape = [c.h.z.length, N, N] := by
    show c.h.z.length :: data.shape.tail = _
    rw [hdata]; rfl
  have hok : ConfOk { c with data := repeatImage c.h.z.length c.data, mag := (repeatImage c.h.z.length c.data).map psqrt } (n / w) :=
    ⟨rfl, rfl, hrs, rfl, hN, by show 0 < c.h.z.length; omega⟩
  have inv0 : Inv { c with data := repeatImage c.h.z.length c.data, mag := (repeatImage c.h.z.length c.data).map psqrt } (n / w) o.params 0
      ⟨o, h.idealPupil, none, [], [], []⟩ := by
    refine ⟨rfl, ⟨rfl, ?_⟩, Or.inl ⟨rfl, rfl⟩, rfl, rfl, rfl⟩
    intro a _ b' _
    exact idealPupil_eq h rfl a b'
  have key := prLoop_repeat (c := c) (l := n / w) hdata rfl hs hok (by omega) M 0 _ inv0
  rw [hcz] at key
  unfold prRun
  simp only [ho, bind, Except.bind, hgc]
  have key' : prLoop ⟨data, data.map psqrt, h.idealPupil.map Complex.re, h, pt, mt, b⟩ M ⟨o, h.idealPupil, none, [], [], []⟩ =
    prLoop ⟨repeatImage Z data, (repeatImage Z data).map psqrt, h.idealPupil.map Complex.re, h, pt, mt, b⟩ M ⟨o, h.idealPupil, none, [], [], []⟩ := key
  rw [key']

/-! ## Several images, one height -/

/-- Several images and a model of one plane: the run reports what it would if the model had the plane as many times. -/
theorem prRun_same_height (unwrap : Arr ℝ → Arr ℝ) (hun : ∀ a, (unwrap a).shape = a.shape) (data : Arr ℝ) (D : PyDict) {o : HObj} {w n i r : ℚ}
    {Z N : ℕ} {q : ℚ} (ho : hanserOfDict D = .ok o) (hopt : Optics o.params w n i r N [q] .none .none) (hw : w ≠ 0) (hr : r ≠ 0)
    (hdata : data.shape = [Z, N, N]) (hN : 2 ≤ N) (hZ : 0 < Z) (M : ℕ) (hM : 0 < M) (pt mt : ℝ) (b : Bool) :
    ∃ res m F, prRun unwrap data D M pt mt b = .ok res ∧ Report (prProblem data w n i r Z N (List.replicate Z q)) b pt mt M unwrap res m F := by
  have hnum := hopt.numbersOf hw hr (by omega) (by simp)
  set h : HanserNum := ⟨N, r, ((i / w : ℚ) : ℝ), .fin (n / w), [q].map fun (q : ℚ) => (q : ℝ), .none, .none⟩ with hh
  let c : PrConf := ⟨data, data.map psqrt, h.idealPupil.map Complex.re, h, pt, mt, b⟩
  have hc : Conf1 c (n / w) Z q := ⟨rfl, rfl, hdata, rfl, hN, hZ, rfl⟩
  have hs : Scalar o.params c.h := ⟨hnum, rfl, rfl⟩
  have hS : c.problem1 (n / w) Z q = prProblem data w n i r Z N (List.replicate Z q) := by
    have hz : ∀ z, (List.replicate Z (q : ℝ)).getD z 0 = (((List.replicate Z q).getD z 0 : ℚ) : ℝ) := by
      intro z
      rw [List.getD_eq_getElem?_getD, List.getD_eq_getElem?_getD, List.getElem?_replicate, List.getElem?_replicate]
      split_ifs <;> simp
    simp only [PrConf.problem1, problemOf, prProblem, c, hz]
    simp only [hh]
  have inv0 : Inv1 c (n / w) Z q o.params 0 ⟨o, h.idealPupil, none, [], [], []⟩ := by
    refine ⟨rfl, ⟨rfl, ?_⟩, Or.inl ⟨rfl, rfl⟩, rfl, rfl, rfl⟩
    intro a _ b' _
    exact idealPupil_eq h rfl a b'
  obtain ⟨s, m, l1, l2, l3, l4, l5, l6⟩ := prLoop_form1 hc hs M 0 _ inv0 (by omega)
  rw [Nat.zero_add] at l3 l6
  obtain ⟨res, F, e1, -, e3⟩ := report_of_loop unwrap hun data D (Z := Z) (zs' := List.replicate Z q) (S := c.problem1 (n / w) Z q) (m := m) ho hopt hw hr
    hN M pt mt b hS (fun h' e => by rw [e]; exact l1) l4.model (by omega) l3 l4.mse l4.mseDiff l4.pupilDiff l4.stopped l4.exhausted
    (fun j hj => l5 j (Nat.zero_le _) hj) l6
  rw [hS] at e3
  exact ⟨res, m, F, e1, e3⟩

/-! ## Neither -/

/-- Images and planes that do not fit, by number or by size. -/
theorem prRun_clash (unwrap : Arr ℝ → Arr ℝ) (data : Arr ℝ) (D : PyDict) {o : HObj} {w n i r : ℚ} {Z Z' N N' : ℕ} {zs : List ℚ}
    (ho : hanserOfDict D = .ok o) (hopt : Optics o.params w n i r N' zs .none .none) (hw : w ≠ 0) (hr : r ≠ 0) (hlen : zs.length = Z')
    (hdata : data.shape = [Z, N, N]) (hN : 2 ≤ N) (hN' : 2 ≤ N') (hZ : (Z ≠ Z' ∧ Z ≠ 1 ∧ Z' ≠ 1) ∨ N ≠ N') (M : ℕ) (hM : 0 < M) (pt mt : ℝ)
    (b : Bool) : prRun unwrap data D M pt mt b = .error .valueError := by
  have hnum := hopt.numbersOf hw hr (by omega) (by simp)
  have hgc := optics_genCoords hopt hw hr (by omega) (by simp)
  set h : HanserNum := ⟨N', r, ((i / w : ℚ) : ℝ), .fin (n / w), zs.map fun (q : ℚ) => (q : ℝ), .none, .none⟩ with hh
  have hzl : h.z.length = Z' := by simp [hh, hlen]
  have hs : Scalar o.params h := ⟨hnum, rfl, rfl⟩
  obtain ⟨a, ha, hash, -⟩ := psf_form hs (n / w : ℚ) data h.idealPupil rfl
  have happ : HObj.applyPupil h.idealPupil o = (.ok (), { params := o.params, psfa := some a }) := by rw [applyPupil_run, ha]
  have hps : (psfiOf a).shape = [Z', N', N'] := by rw [psfiOf_shape a _ _ _ _ hash, hzl]
  have hb : bshape [Z, N, N] [Z', N', N'] = .error .valueError := by
    by_cases e : N = N'
    · subst e
      have h2 : bdim N N = .ok N := by simp [bdim]
      have h3 : bdim Z Z' = .error .valueError := by
        obtain ⟨c1, c2, c3⟩ := hZ.resolve_right (fun g => g rfl)
        unfold bdim
        simp [c1, c2, c3]
      simp [bshape, bshapeRev, h2, h3, bind, Except.bind]
    · have h3 : bdim N N' = .error .valueError := by
        unfold bdim
        simp [e, show N ≠ 1 by omega, show N' ≠ 1 by omega]
      simp [bshape, bshapeRev, h3, bind, Except.bind]
  have hmse : calcMse data (psfiOf a) = .error .valueError := by
    unfold calcMse Arr.zipB
    simp only [hdata, hps, hb, bind, Except.bind]
  obtain ⟨M, rfl⟩ : ∃ k, M = k + 1 := ⟨M - 1, by omega⟩
  unfold prRun
  simp only [ho, bind, Except.bind, hgc, prLoop, prBody, happ, getPSFi_held, hmse]

end PyOTF
