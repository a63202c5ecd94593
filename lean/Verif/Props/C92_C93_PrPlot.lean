import Verif.Model.PrPlot
import Verif.Props.C70_C71_Zernike
import Verif.Props.C28_C30_Names

/-!
# C92, C93: the plots of phase retrieval results and of Zernike decompositions
-/

namespace PyOTF

open Physics

/-! ## C92 -/

/-- The phase panel: `none` exactly where the magnitude is 0, the phase elsewhere, on the colour scale `-π .. π`; and the magnitude panel. -/
structure ShowsPupil (N : ℕ) (mag phase : ℕ → ℕ → ℝ) (panels : List MaskedImage) : Prop where
  shown : ∃ p m, panels = [⟨"Pupil Phase", p, some (-Real.pi, Real.pi)⟩, ⟨"Pupil Magnitude", m, none⟩] ∧ p.shape = [N, N] ∧ m.shape = [N, N] ∧
    ∀ y < N, ∀ x < N, m.get [y, x] = some (mag y x) ∧ (mag y x = 0 → p.get [y, x] = none) ∧ (mag y x ≠ 0 → p.get [y, x] = some (phase y x))

theorem plotComplexPupil_shows (mag phase : Arr ℝ) (N : ℕ) (hm : mag.shape = [N, N]) (hp : phase.shape = [N, N]) :
    ∃ panels, plotComplexPupil mag phase = .ok panels ∧
      ShowsPupil N (fun y x => mag.get [y, x]) (fun y x => phase.get [y, x]) panels := by
  unfold plotComplexPupil maskWhereZero matshow
  rw [if_neg (by rw [hm, hp]; simp)]
  simp only [bind, Except.bind, hm, hp, List.length_cons, List.length_nil, ne_eq, not_true_eq_false, if_false, pure, Except.pure]
  refine ⟨_, rfl, ⟨_, _, rfl, rfl, hm, fun y _ x _ => ⟨rfl, fun h => ?_, fun h => ?_⟩⟩⟩
  · simp only [h, if_true]
  · simp only [h, if_false]

/-- C92: `plot()` of a retrieved pupil shows phase and magnitude; the phase of every pixel outside the aperture is masked, and with `phase_only`
no other pixel is. -/
theorem C92_result_plot (unwrap : Arr ℝ → Arr ℝ) (hun : ∀ a, (unwrap a).shape = a.shape) (data : Arr ℝ) (d : PyDict)
    (w n i r : ℚ) (Z N : ℕ) (zs : List ℚ) (hset : Setup d w n i r Z zs) (hdata : data.shape = [Z, N, N]) (hN : 2 ≤ N)
    (hZ : 0 < Z) (M : ℤ) (hM : 0 < M) (pt mt : ℝ) (b : Bool) (res : PRResult) (d' : PyDict)
    (h : retrievePhase unwrap data M pt mt b d = (.ok res, d')) :
    ∃ panels, res.plot = .ok panels ∧ ShowsPupil N (fun y x => res.mag.get [y, x]) (fun y x => res.phase.get [y, x]) panels ∧
      ∃ p, panels[0]? = some p ∧ ∀ y < N, ∀ x < N,
        (((n / w : ℚ) : ℝ) ≤ radial N r (sampleAt N y) (sampleAt N x) → p.image.get [y, x] = none) ∧
        (b = true → p.image.get [y, x] = none → ((n / w : ℚ) : ℝ) ≤ radial N r (sampleAt N y) (sampleAt N x)) := by
  obtain ⟨hm, hp, hsup⟩ := C65_support unwrap hun data d w n i r Z N zs hset hdata hN hZ M hM pt mt b res d' h
  obtain ⟨panels, e, hs⟩ := plotComplexPupil_shows res.mag res.phase N hm hp
  refine ⟨panels, e, hs, ?_⟩
  obtain ⟨p, m, rfl, -, -, hget⟩ := hs.shown
  refine ⟨_, rfl, fun y hy x hx => ⟨fun hout => ?_, fun hb hnone => ?_⟩⟩
  · exact (hget y hy x hx).2.1 ((hsup y hy x hx).1 hout).1
  · by_contra hin
    have h1 := (hsup y hy x hx).2 hb (not_le.mp hin)
    have h2 := (hget y hy x hx).2.2 (by rw [h1]; exact one_ne_zero)
    rw [h2] at hnone
    cases hnone

open Classical in
/-- C92: `plot(smag, sphase)` of a fitted decomposition shows the sums of the selected modes; every pixel outside the aperture is masked. -/
theorem C92_zd_plot (lstsq : ℕ → List (List ℝ) → List ℝ → Py (List ℝ)) (hls : LeastSquares lstsq) (x : PRResult)
    (w n r : ℚ) (N : ℕ) (hx : ResultOf x w n r N) (hw : 0 < w) (hn : 0 < n) (hN : 2 ≤ N) (hm : x.mag.shape = [N, N])
    (hp : x.phase.shape = [N, N]) (L : ℕ) (hL : 2 ≤ L) (hL' : L ≤ 120) (zd : ZD) (h : x.fitToZernikes lstsq L = .ok zd) (s t : Slice) :
    ∃ panels, zd.plot s t = .ok panels ∧
      ShowsPupil N (fun y x => modesSum zd.mcoefs zd.zerns s y x) (fun y x => modesSum zd.pcoefs zd.zerns t y x) panels ∧
      ∃ p, panels[0]? = some p ∧ ∀ y < N, ∀ x < N, ((n / w : ℚ) : ℝ) < radial N r (sampleAt N y) (sampleAt N x) → p.image.get [y, x] = none := by
  obtain ⟨zd', D, e, -, h1, h2, h3, h4, -⟩ := C70_optimum lstsq hls x w n r N hx hw hn hN hm hp L hL hL'
  rw [h] at e
  injection e with e
  subst e
  obtain ⟨_, m, -, m1, -, m2, m3⟩ := C71_recon zd L N h2 h1 h3 s
  obtain ⟨p, _, p1, -, p2, -, p3⟩ := C71_recon zd L N h2 h1 h3 t
  obtain ⟨panels, e, hs⟩ := plotComplexPupil_shows m p N m2 p2
  have hs' : ShowsPupil N (fun y x => modesSum zd.mcoefs zd.zerns s y x) (fun y x => modesSum zd.pcoefs zd.zerns t y x) panels := by
    obtain ⟨a, b, q1, q2, q3, q4⟩ := hs.shown
    refine ⟨a, b, q1, q2, q3, fun y hy x hx => ?_⟩
    have := q4 y hy x hx
    simp only [(m3 y hy x hx).2, (p3 y hy x hx).1] at this
    exact this
  refine ⟨panels, ?_, hs', ?_⟩
  · unfold ZD.plot
    rw [m1, p1]
    exact e
  · obtain ⟨a, b, rfl, -, -, q4⟩ := hs'.shown
    refine ⟨_, rfl, fun y hy x' hx' hout => (q4 y hy x' hx').2.1 ?_⟩
    unfold modesSum
    refine Finset.sum_eq_zero fun k hk => ?_
    have hk' : k < L := by
      have := (Finset.mem_filter.mp hk).1
      rw [h1] at this
      exact Finset.mem_range.mp this
    have hl : (0 : ℝ) < ((n / w : ℚ) : ℝ) := by exact_mod_cast div_pos hn hw
    rw [h4 k hk' y x', zernikeMode, if_neg (by rw [div_le_one hl]; exact not_le.mpr hout), mul_zero]

/-- C92: after `result.mag = ...`, `result.phase = ...` the result can be shown exactly if both are matrices of one size; everything else is a `ValueError`. -/
theorem C92_only_matrices (x : PRResult) :
    ((∃ panels, x.plot = .ok panels) ↔ ∃ R C, x.mag.shape = [R, C] ∧ x.phase.shape = [R, C]) ∧ ∀ e, x.plot = .error e → e = .valueError := by
  by_cases h1 : x.mag.shape = x.phase.shape
  · by_cases h2 : x.mag.shape.length = 2
    · have h3 : x.phase.shape.length = 2 := h1 ▸ h2
      have e : ∃ panels, x.plot = .ok panels := by
        simp [PRResult.plot, plotComplexPupil, maskWhereZero, matshow, h1, h3, bind, Except.bind, pure, Except.pure]
      obtain ⟨R, C, hRC⟩ := List.length_eq_two.mp h2
      refine ⟨⟨fun _ => ⟨R, C, hRC, h1 ▸ hRC⟩, fun _ => e⟩, fun e' he => ?_⟩
      obtain ⟨_, e⟩ := e
      rw [e] at he
      cases he
    · have h3 : ¬ x.phase.shape.length = 2 := h1 ▸ h2
      have e : x.plot = .error .valueError := by
        simp [PRResult.plot, plotComplexPupil, maskWhereZero, matshow, h1, h3, bind, Except.bind]
      refine ⟨⟨fun ⟨_, h⟩ => ?_, fun ⟨R, C, h, _⟩ => ?_⟩, fun e' he => ?_⟩
      · rw [e] at h; cases h
      · exact absurd (by rw [h]; rfl) h2
      · rw [e] at he; cases he; rfl
  · have e : x.plot = .error .valueError := by
      simp [PRResult.plot, plotComplexPupil, maskWhereZero, h1, bind, Except.bind]
    refine ⟨⟨fun ⟨_, h⟩ => ?_, fun ⟨R, C, h, h'⟩ => ?_⟩, fun e' he => ?_⟩
    · rw [e] at h; cases h
    · exact absurd (h.trans h'.symm) h1
    · rw [e] at he; cases he; rfl

/-- C92: `plot_convergence()` draws three curves with one point per pass. -/
theorem C92_convergence (unwrap : Arr ℝ → Arr ℝ) (data : Arr ℝ) (M : ℤ) (pt mt : ℝ) (b : Bool) (d d' : PyDict) (res : PRResult)
    (h : retrievePhase unwrap data M pt mt b d = (.ok res, d')) :
    res.plotConvergence = [("Mean Squared Error", res.mse.map .fin), ("Relative Change in MSE", res.mseDiff),
      ("Relative Change in Pupil", res.pupilDiff)] ∧ ∀ c ∈ res.plotConvergence, c.2.length = res.mse.length := by
  obtain ⟨-, -, h1, h2, -⟩ := C62_arrays unwrap data M pt mt b d d' res h
  refine ⟨rfl, fun c hc => ?_⟩
  simp only [PRResult.plotConvergence, List.zip_cons_cons, List.zip_nil_right, List.mem_cons, List.not_mem_nil, or_false] at hc
  rcases hc with rfl | rfl | rfl
  · simp
  · exact h1
  · exact h2

/-! ## C93 -/

/-- The capitalised names and degrees of the modes with Noll numbers 5 to 15. -/
def namedBars : List (ℕ × String × ℤ × ℤ) := [
  (5, "Oblique Astigmatism", 2, -2), (6, "Vertical Astigmatism", 2, 2), (7, "Vertical Coma", 3, -1), (8, "Horizontal Coma", 3, 1),
  (9, "Vertical Trefoil", 3, -3), (10, "Oblique Trefoil", 3, 3), (11, "Primary Spherical", 4, 0),
  (12, "Vertical Secondary Astigmatism", 4, 2), (13, "Oblique Secondary Astigmatism", 4, -2),
  (14, "Vertical Quadrafoil", 4, 4), (15, "Oblique Quadrafoil", 4, -4)]

theorem orderedNames_eq : orderedNames = .ok (["Piston", "Tip", "Tilt", "Defocus"] ++ namedBars.map fun q => q.2.1) := by
  decide +kernel

theorem namedBars_length : namedBars.length = 11 := rfl

theorem plotNamedCoefs_eq (z : ZD) : z.plotNamedCoefs =
    bar (namedBars.map fun q => q.1) ((z.pcoefs.take 15).drop 4) (some (namedBars.map fun q => q.2.1)) := by
  unfold ZD.plotNamedCoefs
  rw [orderedNames_eq]
  rfl

/-- C93: with 15 or more coefficients there is one bar for each of the modes 5 to 15, labelled with the name of that mode and as high as its
phase coefficient. -/
theorem C93_named (z : ZD) (h : 15 ≤ z.pcoefs.length) :
    z.plotNamedCoefs = .ok (namedBars.map fun q => ⟨q.1, z.pcoefs.getD (q.1 - 1) 0, some q.2.1⟩) := by
  rw [plotNamedCoefs_eq, bar]
  have hl : ((z.pcoefs.take 15).drop 4).length = 11 := by simp; omega
  have hg : ∀ k < 11, ((z.pcoefs.take 15).drop 4).getD k 0 = z.pcoefs.getD (k + 4) 0 := by
    intro k hk
    rw [List.getD_eq_getElem?_getD, List.getD_eq_getElem?_getD, List.getElem?_drop, List.getElem?_take_of_lt (by omega), Nat.add_comm 4 k]
  simp only [hl, List.length_map, namedBars_length]
  rw [if_neg (by norm_num)]
  simp only [show (11 : ℕ) ≠ 1 by norm_num, if_false]
  congr 1
  simp only [namedBars, List.range_succ, List.range_zero, List.nil_append, List.cons_append, List.map_cons, List.map_nil]
  rw [hg 0 (by norm_num), hg 1 (by norm_num), hg 2 (by norm_num), hg 3 (by norm_num), hg 4 (by norm_num), hg 5 (by norm_num),
    hg 6 (by norm_num), hg 7 (by norm_num), hg 8 (by norm_num), hg 9 (by norm_num), hg 10 (by norm_num)]
  rfl

/-- C93: with exactly five coefficients all eleven bars get the height of the fifth coefficient (oblique astigmatism). -/
theorem C93_five (z : ZD) (h : z.pcoefs.length = 5) :
    z.plotNamedCoefs = .ok (namedBars.map fun q => ⟨q.1, z.pcoefs.getD 4 0, some q.2.1⟩) := by
  rw [plotNamedCoefs_eq, bar]
  match hp : z.pcoefs, h with
  | [a, b, c, d, e], _ => rfl

/-- C93: with any other number below 15 a `ValueError` is raised. -/
theorem C93_too_few (z : ZD) (h : z.pcoefs.length < 15) (h5 : z.pcoefs.length ≠ 5) : z.plotNamedCoefs = .error .valueError := by
  rw [plotNamedCoefs_eq, bar]
  have hl : ((z.pcoefs.take 15).drop 4).length = z.pcoefs.length - 4 := by simp; omega
  simp only [hl, List.length_map, namedBars_length]
  rw [if_pos (by omega)]

/-- The names in the table belong to the degrees in it. -/
theorem namedBars_names : ∀ q ∈ namedBars, ∃ name, q.2.1 = title name ∧ (name, q.2.2.1, q.2.2.2) ∈ classicalAberrations := by
  have key : ∀ q ∈ namedBars, ∃ c ∈ classicalAberrations, q.2.1 = title c.1 ∧ c.2 = q.2.2 := by decide +kernel
  intro q hq
  obtain ⟨⟨name, c⟩, hc, h1, h2⟩ := key q hq
  exact ⟨name, h1, by rw [← show c = q.2.2 from h2]; exact hc⟩

theorem degrees_small {n m : ℤ} (h : Admissible n m) (hj : nollStd n m ≤ 15) : 0 ≤ n ∧ n ≤ 4 := by
  have h0 := (abs_nonneg m).trans h.1
  refine ⟨h0, ?_⟩
  by_contra hn
  have h1 : 30 ≤ n * (n + 1) := by nlinarith
  have h2 : 15 ≤ n * (n + 1) / 2 := by omega
  have h4 := abs_nonneg m
  unfold nollStd at hj
  split_ifs at hj with hc
  · have : |m| ≠ 0 := by rw [Ne, abs_eq_zero]; rintro rfl; simp at hc
    omega
  · omega

theorem namedBars_degrees : ∀ q ∈ namedBars, ∀ n ∈ Finset.Icc (0 : ℤ) 4, ∀ m ∈ Finset.Icc (-4 : ℤ) 4, Admissible n m → nollStd n m = q.1 →
    (n, m) = q.2.2 := by
  decide +kernel

/-- C93: after `fit_to_zernikes(L)` with `L ≥ 15` each bar carries the classical name of the mode whose coefficient it shows. -/
theorem C93_fitted (lstsq : ℕ → List (List ℝ) → List ℝ → Py (List ℝ)) (hls : LeastSquares lstsq) (x : PRResult)
    (w n r : ℚ) (N : ℕ) (hx : ResultOf x w n r N) (hw : 0 < w) (hn : 0 < n) (hN : 2 ≤ N) (hm : x.mag.shape = [N, N])
    (hp : x.phase.shape = [N, N]) (L : ℕ) (hL : 15 ≤ L) (hL' : L ≤ 120) :
    ∃ zd D bars, x.fitToZernikes lstsq L = .ok zd ∧ NollModes D L ∧
      (∀ k < L, ∀ a b, zd.zerns.get [k, a, b] =
        zernikeMode (D.getD k (0, 0)) (radial N r (sampleAt N a) (sampleAt N b) / ((n / w : ℚ) : ℝ)) (azimuth N r (sampleAt N a) (sampleAt N b))) ∧
      zd.plotNamedCoefs = .ok bars ∧ bars.map Bar.x = (List.range 11).map (· + 5) ∧
      ∀ bar ∈ bars, bar.height = zd.pcoefs.getD (bar.x - 1) 0 ∧
        ∃ name n' m', bar.label = some (title name) ∧ (name, n', m') ∈ classicalAberrations ∧ D.getD (bar.x - 1) (0, 0) = (n', m') := by
  obtain ⟨zd, D, e, hD, h1, h2, h3, h4, -⟩ := C70_optimum lstsq hls x w n r N hx hw hn hN hm hp L (by omega) hL'
  refine ⟨zd, D, _, e, hD, h4, C93_named zd (by omega), rfl, ?_⟩
  intro bar hbar
  obtain ⟨q, hq, rfl⟩ := List.mem_map.mp hbar
  refine ⟨rfl, ?_⟩
  obtain ⟨name, hname, hmem⟩ := namedBars_names q hq
  refine ⟨name, q.2.2.1, q.2.2.2, by rw [hname], hmem, ?_⟩
  have hq1 : 5 ≤ q.1 ∧ q.1 ≤ 15 := by
    have : ∀ q ∈ namedBars, 5 ≤ q.1 ∧ q.1 ≤ 15 := by decide +kernel
    exact this q hq
  have hk : q.1 - 1 < L := by omega
  have ha := hD.admissible _ hk
  have hno := hD.noll _ hk
  have hno' : nollStd (D.getD (q.1 - 1) (0, 0)).1 (D.getD (q.1 - 1) (0, 0)).2 = q.1 := by
    rw [hno]; omega
  obtain ⟨b1, b2⟩ := degrees_small ha (by rw [hno']; omega)
  have hmb := abs_le.mp (ha.1.trans b2)
  exact namedBars_degrees q hq _ (Finset.mem_Icc.mpr ⟨b1, b2⟩) _ (Finset.mem_Icc.mpr hmb) ha hno'

/-- C93: `plot_coefs()` numbers both sets of coefficients from 1. -/
theorem C93_all (z : ZD) : z.plotCoefs = .ok
    [("Magnitude Coefficients", (List.range z.mcoefs.length).map fun k => ⟨k + 1, z.mcoefs.getD k 0, none⟩),
     ("Phase Coefficients", (List.range z.pcoefs.length).map fun k => ⟨k + 1, z.pcoefs.getD k 0, none⟩)] := by
  have key : ∀ l : List ℝ, bar ((List.range l.length).map (· + 1)) l none = .ok ((List.range l.length).map fun k => ⟨k + 1, l.getD k 0, none⟩) := by
    intro l
    unfold bar
    simp only [List.length_map, List.length_range, ne_eq, not_true_eq_false, false_and, if_false, ite_self]
    congr 1
    refine List.map_congr_left fun k hk => ?_
    have hk := List.mem_range.mp hk
    by_cases h1 : l.length = 1
    · have : k = 0 := by omega
      subst this
      match l, h1 with
      | [a], _ => rfl
    · simp [h1, hk, List.getD_eq_getElem?_getD]
  unfold ZD.plotCoefs
  rw [key, key]
  rfl

/-- Non-vacuity: retrieve from a stack, plot, fit 15 modes, plot. -/
example : ∃ lstsq, LeastSquares lstsq ∧ ∃ res d' panels zd bars,
    retrievePhase id ⟨[3, 8, 8], fun _ => 0⟩ 2 0 0 false demoDict = (.ok res, d') ∧ res.plot = .ok panels ∧ panels.length = 2 ∧
      res.fitToZernikes lstsq 15 = .ok zd ∧ zd.plotNamedCoefs = .ok bars ∧ bars.length = 11 := by
  obtain ⟨lstsq, hls⟩ := leastSquares_exists
  have hun : Unwraps (id : Arr ℝ → Arr ℝ) := ⟨fun _ => rfl, fun a idx => ⟨0, by simp⟩⟩
  obtain ⟨res, d', h⟩ := C62_returns id (fun _ => rfl) ⟨[3, 8, 8], fun _ => 0⟩ demoDict _ _ _ _ 3 8 _ (demoDict_setup 3) rfl (by norm_num)
    (by norm_num) 2 (by norm_num) 0 0 false
  obtain ⟨panels, p1, p2, -⟩ := C92_result_plot id hun.shape _ demoDict _ _ _ _ 3 8 _ (demoDict_setup 3) rfl
    (by norm_num) (by norm_num) 2 (by norm_num) 0 0 false res _ h
  obtain ⟨h1, h2, h3⟩ := retrieved_result id hun _ demoDict _ _ _ _ 3 8 _ (demoDict_setup 3) rfl
    (by norm_num) (by norm_num) 2 (by norm_num) 0 0 false res _ h
  obtain ⟨zd, D, bars, g1, -, -, g2, g3, -⟩ := C93_fitted lstsq hls res _ _ _ 8 h1 (demoDict_setup 3).wl.2 (demoDict_setup 3).na.2 (by norm_num)
    h2 h3 15 le_rfl (by norm_num)
  obtain ⟨a, b, hp, -⟩ := p2.shown
  refine ⟨lstsq, hls, res, d', panels, zd, bars, h, p1, by rw [hp]; rfl, g1, g2, ?_⟩
  have := congrArg List.length g3
  simpa using this

end PyOTF
