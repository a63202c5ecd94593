import Verif.Lemmas.PrSetup

/-!
# Phase retrieval when the data have several planes and the model has one
-/

namespace PyOTF

open Complex Physics

/-- The configuration set up by `retrieve_phase` for `Z` images and a model of the single plane `q`. -/
structure Conf1 (c : PrConf) (l : ℚ) (Z : ℕ) (q : ℝ) : Prop where
  mag : c.mag = c.data.map psqrt
  mask : c.mask = c.h.idealPupil.map Complex.re
  shape : c.data.shape = [Z, c.h.size, c.h.size]
  limit : c.h.limit = .fin l
  size : 2 ≤ c.h.size
  planes : 0 < Z
  one : c.h.z = [q]

/-- The problem it stands for: all images at the same height. -/
noncomputable def PrConf.problem1 (c : PrConf) (l : ℚ) (Z : ℕ) (q : ℝ) : Problem :=
  { problemOf { c.h with z := List.replicate Z q } l c.data with Z := Z }

theorem mask_get1 {c : PrConf} {l : ℚ} {Z : ℕ} {q0 : ℝ} (hc : Conf1 c l Z q0) (i j : ℕ) :
    ((c.mask.get [i, j] : ℝ) : ℂ) = aperture c.h.size c.h.res l i j := by
  rw [hc.mask]
  simp only [Arr.map, idealPupil_eq c.h hc.limit, aperture]
  split_ifs <;> simp

theorem bshape_one (Z N : ℕ) : bshape [Z, N, N] [1, N, N] = .ok [Z, N, N] := by
  have h : bdim Z 1 = .ok Z := by
    unfold bdim
    split_ifs with h1 h2
    · rfl
    · rfl
    · exact absurd rfl h2
  have h2 : bdim N N = .ok N := by simp [bdim]
  simp [bshape, bshapeRev, h, h2, bind, Except.bind, pure, Except.pure]

theorem broadcastTo_one {α : Type} (b : Arr α) {Z N : ℕ} (hN : 2 ≤ N) (hb : b.shape = [1, N, N]) :
    ∃ b', broadcastTo [Z, N, N] b = .ok b' ∧ ∀ z y x, b'.get [z, y, x] = b.get [0, y, x] := by
  have hN1 : N ≠ 1 := by omega
  refine ⟨⟨[Z, N, N], fun i => b.get (List.zipWith (fun i n => if n = 1 then 0 else i) i [1, N, N])⟩, by simp [broadcastTo, hb], fun z y x => ?_⟩
  simp [hN1]

theorem broadcastTo_full {α : Type} (a : Arr α) {Z N : ℕ} (ha : a.shape = [Z, N, N]) :
    ∃ a', broadcastTo [Z, N, N] a = .ok a' ∧ ∀ z < Z, ∀ y < N, ∀ x < N, a'.get [z, y, x] = a.get [z, y, x] := by
  obtain ⟨a', h1, -, h3⟩ := broadcastTo_self a
  rw [ha] at h1 h3
  exact ⟨a', h1, fun z hz y hy x hx => h3 _ (inShape3.mpr ⟨hz, hy, hx⟩)⟩

theorem zipB_one {α β γ : Type} (f : α → β → γ) (a : Arr α) (b : Arr β) {Z N : ℕ} (hN : 2 ≤ N) (ha : a.shape = [Z, N, N]) (hb : b.shape = [1, N, N])
    : ∃ c, a.zipB f b = .ok c ∧ c.shape = [Z, N, N] ∧
    ∀ z < Z, ∀ y < N, ∀ x < N, c.get [z, y, x] = f (a.get [z, y, x]) (b.get [0, y, x]) := by
  obtain ⟨a', a1, a2⟩ := broadcastTo_full a ha
  obtain ⟨b', b1, b2⟩ := broadcastTo_one (Z := Z) b hN hb
  refine ⟨⟨[Z, N, N], fun i => f (a'.get i) (b'.get i)⟩, ?_, rfl, fun z hz y hy x hx => ?_⟩
  · unfold Arr.zipB
    simp only [ha, hb, bshape_one Z N, bind, Except.bind, a1, b1, pure, Except.pure]
  · simp only [a2 z hz y hy x hx, b2]

theorem izipB_one {α β : Type} (f : α → β → α) (a : Arr α) (b : Arr β) {Z N : ℕ} (hN : 2 ≤ N) (ha : a.shape = [Z, N, N]) (hb : b.shape = [1, N, N]) :
    ∃ c, a.izipB f b = .ok c ∧ c.shape = [Z, N, N] ∧
    ∀ z < Z, ∀ y < N, ∀ x < N, c.get [z, y, x] = f (a.get [z, y, x]) (b.get [0, y, x]) := by
  obtain ⟨b', b1, b2⟩ := broadcastTo_one (Z := Z) b hN hb
  refine ⟨⟨a.shape, fun i => f (a.get i) (b'.get i)⟩, ?_, ha, fun z hz y hy x hx => ?_⟩
  · unfold Arr.izipB
    simp only [ha, bind, Except.bind, b1, pure, Except.pure]
  · simp only [b2]

theorem zipB_squeeze1 {γ : Type} (f : ℝ → ℝ → γ) (m : Arr ℝ) (p : Arr ℝ) (Z N : ℕ) (hN : 2 ≤ N) (hm : m.shape = [Z, N, N])
    (hp : p.shape = [1, 1, N, N]) : ∃ c, m.zipB f p.squeeze = .ok c ∧ c.shape = [Z, N, N] ∧
    ∀ z < Z, ∀ y < N, ∀ x < N, c.get [z, y, x] = f (m.get [z, y, x]) (p.get [0, 0, y, x]) := by
  have hN1 : N ≠ 1 := by omega
  have hs : p.squeeze.shape = [N, N] := by simp [Arr.squeeze, hp, hN1]
  have hb : bshape m.shape p.squeeze.shape = .ok [Z, N, N] := by
    rw [hm, hs]
    simp [bshape, bshapeRev, bdim, bind, Except.bind, pure, Except.pure]
  obtain ⟨m', m1, m2⟩ := broadcastTo_full m hm
  have h2 : broadcastTo [Z, N, N] p.squeeze = .ok ⟨[Z, N, N], fun i => p.squeeze.get
      ((List.zipWith (fun i n => if n = 1 then 0 else i) i [1, N, N]).drop 1)⟩ := by
    simp [broadcastTo, hs]
  refine ⟨⟨[Z, N, N], fun i => f (m'.get i) (p.squeeze.get ((List.zipWith (fun i n => if n = 1 then 0 else i) i [1, N, N]).drop 1))⟩, ?_, rfl, ?_⟩
  · unfold Arr.zipB
    simp only [hb, bind, Except.bind, m1, h2, pure, Except.pure]
  · intro z hz y hy x hx
    simp only [m2 z hz y hy x hx]
    simp [hN1, Arr.squeeze, hp, unsqueezeIdx]

theorem nextPupil_form1 {c : PrConf} {l : ℚ} {Z : ℕ} {q0 : ℝ} (hc : Conf1 c l Z q0) (P : ℕ → ℕ → ℂ) (a : Arr ℂ)
    (ha : a.shape = [1, 1, c.h.size, c.h.size])
    (hget : ∀ z < Z, ∀ y x, a.get [0, 0, y, x] = (c.problem1 l Z q0).amplitude P z y x) :
    ∃ Q, nextPupil c a = .ok Q ∧ Q.shape = [c.h.size, c.h.size] ∧
      ∀ i < c.h.size, ∀ j < c.h.size, pupilFn Q i j = (c.problem1 l Z q0).step c.phaseOnly P i j := by
  have hN := hc.size
  have hN0 : 0 < c.h.size := by omega
  have hZ := hc.planes
  have hm : c.mag.shape = [Z, c.h.size, c.h.size] := by rw [hc.mag]; exact hc.shape
  obtain ⟨f, f1, f2, f3⟩ := zipB_squeeze1 (fun (m p : ℝ) => (m : ℂ) * Complex.exp (Complex.I * (p : ℂ))) c.mag (a.map Complex.arg)
    Z c.h.size hN hm ha
  have f1' : c.mag.zipB (fun (m p : ℝ) => (m : ℂ) * Complex.exp (Complex.I * (p : ℂ))) (a.squeeze.map Complex.arg) = .ok f := f1
  have hcor : ∀ z < Z, ∀ y < c.h.size, ∀ x < c.h.size, f.get [z, y, x] = (c.problem1 l Z q0).corrected P z y x := by
    intro z hz y hy x hx
    rw [f3 z hz y hy x hx, hc.mag]
    simp only [Arr.map, hget z hz, Problem.corrected, PrConf.problem1, problemOf, psqrt]
  have hchk : fftCheck [1, 2] f.shape = .ok () := by
    have : c.h.size ≠ 0 := by omega
    simp [fftCheck, f2, this]
  have hsF : (fftn (some [1, 2]) (ifftshift (some [1, 2]) f)).shape = [Z, c.h.size, c.h.size] := by
    simp [fftn, ifftshift, alongAxes_shape, f2]
  obtain ⟨g, g1, g2, g3⟩ := izipB_one (fun v d : ℂ => v / d) (fftn (some [1, 2]) (ifftshift (some [1, 2]) f)) c.h.defocusArr
    hN hsF (by simp [HanserNum.defocusArr, hc.one])
  have hg : ∀ z < Z, ∀ i < c.h.size, ∀ j < c.h.size, g.get [z, i, j] =
      analysis c.h.size ((c.problem1 l Z q0).corrected P z) i j / (c.problem1 l Z q0).defocus z i j := by
    intro z hz i hi j hj
    rw [g3 z hz i hi j hj, fft_shift_get f _ _ f2 hN0]
    have e : analysis c.h.size (fun y x => f.get [z, y, x]) i j = analysis c.h.size ((c.problem1 l Z q0).corrected P z) i j := by
      unfold analysis
      refine Finset.sum_congr rfl fun y hy => Finset.sum_congr rfl fun x hx => ?_
      exact congrArg (· * _) (hcor z hz y (Finset.mem_range.mp hy) x (Finset.mem_range.mp hx))
    rw [e]
    congr 1
    simp only [HanserNum.defocusArr, List.getD_cons_zero, List.getD_cons_succ]
    rw [defocus_eq c.h l c.data 0 i j]
    simp [Problem.defocus, PrConf.problem1, problemOf, hc.one, hz]
  have hhead : g.shape.headD 0 = Z := by rw [g2]; rfl
  have hmean : ((g.sumAxis 0).map fun v => v / (g.shape.headD 0 : ℂ)).shape = [c.h.size, c.h.size] := by
    simp [Arr.map, Arr.sumAxis, g2]
  have hmask : c.mask.shape = [c.h.size, c.h.size] := by rw [hc.mask]; rfl
  obtain ⟨n, n1, n2, n3⟩ := zipB_same (fun (v : ℂ) (m : ℝ) => v * (m : ℂ)) ((g.sumAxis 0).map fun v => v / (g.shape.headD 0 : ℂ))
    c.mask (by rw [hmask, hmean])
  rw [hmean] at n2 n3
  have hn : ∀ i < c.h.size, ∀ j < c.h.size, n.get [i, j] = (c.problem1 l Z q0).update P i j := by
    intro i hi j hj
    rw [n3 _ (inShape2.mpr ⟨hi, hj⟩), mask_get1 hc, hhead]
    have e : (g.sumAxis 0).get [i, j] = ∑ z ∈ Finset.range Z,
        analysis c.h.size ((c.problem1 l Z q0).corrected P z) i j / (c.problem1 l Z q0).defocus z i j := by
      simp only [Arr.sumAxis, g2, List.getD_cons_zero, List.insertIdx_zero]
      exact Finset.sum_congr rfl fun z hz => hg z (Finset.mem_range.mp hz) i hi j hj
    simp only [Arr.map, e, aperture, Problem.update]
    by_cases hin : radial c.h.size c.h.res i j < l
    · have hin' : (c.problem1 l Z q0).Inside i j := hin
      rw [if_pos hin, if_pos hin', mul_one]
      rfl
    · have hin' : ¬ (c.problem1 l Z q0).Inside i j := hin
      rw [if_neg hin, if_neg hin', mul_zero]
  have hg0 : g.shape.headD 0 ≠ 0 := by rw [hhead]; omega
  by_cases hp : c.phaseOnly = true
  · obtain ⟨q, q1, q2, q3⟩ := zipB_same (fun (v : ℂ) (m : ℝ) => v * (m : ℂ))
      (n.map fun v => Complex.exp (Complex.I * (Complex.arg v : ℂ))) c.mask (by rw [hmask]; exact n2.symm)
    have hsq : (n.map fun v => Complex.exp (Complex.I * (Complex.arg v : ℂ))).shape = [c.h.size, c.h.size] := n2
    rw [hsq] at q2 q3
    refine ⟨q, ?_, q2, ?_⟩
    · unfold nextPupil
      simp only [f1', bind, Except.bind, hchk, g1, if_neg hg0, n1, hp, if_true, q1]
    · intro i hi j hj
      rw [pupilFn, q3 _ (inShape2.mpr ⟨hi, hj⟩), mask_get1 hc, Problem.step, if_pos hp]
      simp only [Arr.map, hn i hi j hj, aperture, Problem.updatePhase]
      by_cases hin : radial c.h.size c.h.res i j < l
      · have hin' : (c.problem1 l Z q0).Inside i j := hin
        rw [if_pos hin, if_pos hin', mul_one]
      · have hin' : ¬ (c.problem1 l Z q0).Inside i j := hin
        rw [if_neg hin, if_neg hin', mul_zero]
  · refine ⟨n, ?_, n2, ?_⟩
    · unfold nextPupil
      simp only [f1', bind, Except.bind, hchk, g1, if_neg hg0, n1, hp]
      rfl
    · intro i hi j hj
      rw [pupilFn, hn i hi j hj, Problem.step, if_neg hp]

/-- `_calc_mse(data, model.PSFi)`. -/
theorem calcMse_form1 {c : PrConf} {l : ℚ} {Z : ℕ} {q0 : ℝ} (hc : Conf1 c l Z q0) (P : ℕ → ℕ → ℂ) (a : Arr ℂ)
    (ha : a.shape = [1, 1, c.h.size, c.h.size])
    (hget : ∀ z < Z, ∀ y x, a.get [0, 0, y, x] = (c.problem1 l Z q0).amplitude P z y x) :
    calcMse c.data (psfiOf a) = .ok ((c.problem1 l Z q0).mse P) := by
  have hN := hc.size
  have hZ := hc.planes
  obtain ⟨d, d1, d2, d3⟩ := zipB_one (fun a b : ℝ => (a - b) ^ 2) c.data (psfiOf a) hN hc.shape (psfiOf_shape a _ _ _ _ ha)
  have hp : d.shape.prod ≠ 0 := by
    rw [d2]
    simp only [List.prod_cons, List.prod_nil, mul_one]
    positivity
  unfold calcMse
  simp only [d1, bind, Except.bind, Arr.mean, if_neg hp]
  congr 1
  simp only [Arr.sum, d2, sumIdx, Problem.mse, Problem.mean]
  congr 1
  · refine Finset.sum_congr rfl fun z hz => Finset.sum_congr rfl fun y hy => Finset.sum_congr rfl fun x hx => ?_
    rw [d3 z (Finset.mem_range.mp hz) y (Finset.mem_range.mp hy) x (Finset.mem_range.mp hx), psfiOf_get a _ _ _ _ ha]
    simp [hget z (Finset.mem_range.mp hz), PrConf.problem1, problemOf]
  · simp [PrConf.problem1, problemOf, mul_assoc]

/-- State at the start of pass `k`. -/
structure Inv1 (c : PrConf) (l : ℚ) (Z : ℕ) (q0 : ℝ) (p : Params) (k : ℕ) (s : PrState) : Prop where
  params : s.model.params = p
  pupil : HoldsPupil (c.problem1 l Z q0) s.pupil ((c.problem1 l Z q0).iterate c.phaseOnly k)
  old : (k = 0 ∧ s.old = none) ∨ ∃ j P, k = j + 1 ∧ s.old = some ((c.problem1 l Z q0).errorAt c.phaseOnly j, P) ∧
    HoldsPupil (c.problem1 l Z q0) P ((c.problem1 l Z q0).iterate c.phaseOnly j)
  mse : s.mse = (List.range k).map ((c.problem1 l Z q0).errorAt c.phaseOnly)
  mseDiff : s.mseDiff = (List.range k).map ((c.problem1 l Z q0).errorChange c.phaseOnly)
  pupilDiff : s.pupilDiff = (List.range k).map ((c.problem1 l Z q0).pupilChange c.phaseOnly)

open Classical in
theorem prBody_form1 {c : PrConf} {l : ℚ} {Z : ℕ} {q0 : ℝ} (hc : Conf1 c l Z q0) {p : Params} (hs : Scalar p c.h) {k : ℕ} {s : PrState}
    (inv : Inv1 c l Z q0 p k s) :
    ∃ s', prBody c s = .ok (s', decide ((c.problem1 l Z q0).Stops c.phaseOnly c.pupilTol c.mseTol k)) ∧
      s'.mse = (List.range (k + 1)).map ((c.problem1 l Z q0).errorAt c.phaseOnly) ∧
      s'.mseDiff = (List.range (k + 1)).map ((c.problem1 l Z q0).errorChange c.phaseOnly) ∧
      s'.pupilDiff = (List.range (k + 1)).map ((c.problem1 l Z q0).pupilChange c.phaseOnly) ∧
      s'.model.params = p ∧
      ((c.problem1 l Z q0).Stops c.phaseOnly c.pupilTol c.mseTol k → s'.pupil = s.pupil) ∧
      (¬ (c.problem1 l Z q0).Stops c.phaseOnly c.pupilTol c.mseTol k → Inv1 c l Z q0 p (k + 1) s') := by
  set S := c.problem1 l Z q0 with hS
  have hN0 : 0 < S.N := hs.num.pos.2
  obtain ⟨a, ha, hash0, haget⟩ := psf_form hs l c.data s.pupil inv.pupil.1
  have hash : a.shape = [1, 1, c.h.size, c.h.size] := by rw [hash0, hc.one]; rfl
  have hget : ∀ z < Z, ∀ y x, a.get [0, 0, y, x] = S.amplitude (S.iterate c.phaseOnly k) z y x := by
    intro z hz y x
    rw [haget 0 y x, ← S.amplitude_congr inv.pupil.2 z y x]
    have hd : ∀ i j, (problemOf c.h l c.data).defocus 0 i j = S.defocus z i j := by
      intro i j
      simp [Problem.defocus, hS, PrConf.problem1, problemOf, hc.one, hz]
    simp only [Problem.amplitude, hd]
    rfl
  have hmse : calcMse c.data (psfiOf a) = .ok (S.errorAt c.phaseOnly k) := calcMse_form1 hc _ a hash hget
  have happ : HObj.applyPupil s.pupil s.model = (.ok (), { params := p, psfa := some a }) := by
    rw [applyPupil_run, inv.params, ha]
  have hdiff : prDiffs s.old (S.errorAt c.phaseOnly k) s.pupil = .ok (S.errorChange c.phaseOnly k, S.pupilChange c.phaseOnly k) := by
    rcases inv.old with ⟨rfl, h⟩ | ⟨j, P, rfl, h, hP⟩
    · rw [h]; rfl
    · rw [h]
      simp only [prDiffs, pupilChange_form S hN0 hP inv.pupil, bind, Except.bind, pure, Except.pure]
      rfl
  obtain ⟨Q, q1, q2, q3⟩ := nextPupil_form1 hc (S.iterate c.phaseOnly k) a hash hget
  have hr : ∀ {β : Type} (f : ℕ → β), (List.range (k + 1)).map f = (List.range k).map f ++ [f k] := by
    intro β f; rw [List.range_succ, List.map_append]; rfl
  by_cases hst : S.Stops c.phaseOnly c.pupilTol c.mseTol k
  · refine ⟨⟨{ params := p, psfa := some a, psfi := some (psfiOf a) }, s.pupil, s.old, s.mse ++ [S.errorAt c.phaseOnly k],
      s.mseDiff ++ [S.errorChange c.phaseOnly k], s.pupilDiff ++ [S.pupilChange c.phaseOnly k]⟩, ?_, ?_, ?_, ?_, rfl,
      fun _ => rfl, fun h => absurd hst h⟩
    · unfold prBody
      simp only [happ, bind, Except.bind, getPSFi_held, hmse, hdiff]
      rw [if_pos ((S.stops_iff _ _ _ _).mpr hst), decide_eq_true hst]
      rfl
    · rw [hr, inv.mse]
    · rw [hr, inv.mseDiff]
    · rw [hr, inv.pupilDiff]
  · refine ⟨⟨{ params := p, psfa := some a, psfi := some (psfiOf a) }, Q, some (S.errorAt c.phaseOnly k, s.pupil),
      s.mse ++ [S.errorAt c.phaseOnly k],
      s.mseDiff ++ [S.errorChange c.phaseOnly k], s.pupilDiff ++ [S.pupilChange c.phaseOnly k]⟩, ?_, ?_, ?_, ?_, rfl,
      fun h => absurd h hst, fun _ => ⟨rfl, ⟨q2, ?_⟩, Or.inr ⟨k, s.pupil, rfl, rfl, inv.pupil⟩, ?_, ?_, ?_⟩⟩
    · unfold prBody
      simp only [happ, bind, Except.bind, getPSFi_held, hmse, hdiff]
      rw [if_neg (fun h => hst ((S.stops_iff _ _ _ _).mp h)), decide_eq_false hst]
      simp only [getPSFa_held, q1]
      rfl
    · rw [hr, inv.mse]
    · rw [hr, inv.mseDiff]
    · rw [hr, inv.pupilDiff]
    · intro i hi j hj
      rw [q3 i hi j hj]
      simp only [Problem.step, Problem.iterate]
      split_ifs <;> rfl
    · rw [hr, inv.mse]
    · rw [hr, inv.mseDiff]
    · rw [hr, inv.pupilDiff]

/-- Outcome of the loop: `m` passes were made. -/
structure Outcome1 (c : PrConf) (l : ℚ) (Z : ℕ) (q0 : ℝ) (p : Params) (m : ℕ) (s : PrState) : Prop where
  mse : s.mse = (List.range m).map ((c.problem1 l Z q0).errorAt c.phaseOnly)
  mseDiff : s.mseDiff = (List.range m).map ((c.problem1 l Z q0).errorChange c.phaseOnly)
  pupilDiff : s.pupilDiff = (List.range m).map ((c.problem1 l Z q0).pupilChange c.phaseOnly)
  model : s.model.params = p
  stopped : (c.problem1 l Z q0).Stops c.phaseOnly c.pupilTol c.mseTol (m - 1) →
    HoldsPupil (c.problem1 l Z q0) s.pupil ((c.problem1 l Z q0).iterate c.phaseOnly (m - 1))
  exhausted : ¬ (c.problem1 l Z q0).Stops c.phaseOnly c.pupilTol c.mseTol (m - 1) →
    HoldsPupil (c.problem1 l Z q0) s.pupil ((c.problem1 l Z q0).iterate c.phaseOnly m)

open Classical in
theorem prLoop_form1 {c : PrConf} {l : ℚ} {Z : ℕ} {q0 : ℝ} (hc : Conf1 c l Z q0) {p : Params} (hs : Scalar p c.h) (n k : ℕ) (s : PrState)
    (inv : Inv1 c l Z q0 p k s) (hn : 0 < n) :
    ∃ s' m, prLoop c n s = .ok s' ∧ k < m ∧ m ≤ k + n ∧ Outcome1 c l Z q0 p m s' ∧
      (∀ j, k ≤ j → j + 1 < m → ¬ (c.problem1 l Z q0).Stops c.phaseOnly c.pupilTol c.mseTol j) ∧
      (m < k + n → (c.problem1 l Z q0).Stops c.phaseOnly c.pupilTol c.mseTol (m - 1)) := by
  induction n generalizing k s with
  | zero => omega
  | succ n ih =>
    obtain ⟨s', h1, h2, h3, h4, h5, h6, h7⟩ := prBody_form1 hc hs inv
    by_cases hst : (c.problem1 l Z q0).Stops c.phaseOnly c.pupilTol c.mseTol k
    · refine ⟨s', k + 1, ?_, by omega, by omega, ⟨h2, h3, h4, h5, fun _ => ?_, fun h => absurd hst h⟩, by omega, fun _ => hst⟩
      · simp only [prLoop, h1, decide_eq_true hst]
      · rw [h6 hst]; exact inv.pupil
    · have hb : prLoop c (n + 1) s = prLoop c n s' := by
        simp only [prLoop, h1, decide_eq_false hst]
      rcases Nat.eq_zero_or_pos n with rfl | hn'
      · refine ⟨s', k + 1, ?_, by omega, by omega, ⟨h2, h3, h4, h5, fun h => absurd h hst, fun _ => (h7 hst).pupil⟩, by omega,
          by omega⟩
        rw [hb]; rfl
      · obtain ⟨s2, m, e1, e2, e3, e4, e5, e6⟩ := ih (k + 1) s' (h7 hst) hn'
        refine ⟨s2, m, by rw [hb, e1], by omega, by omega, e4, ?_, fun h => e6 (by omega)⟩
        intro j hj hjm
        rcases Nat.eq_or_lt_of_le hj with rfl | hj
        · exact hst
        · exact e5 j hj hjm


end PyOTF
