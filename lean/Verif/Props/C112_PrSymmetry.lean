import Verif.Lemmas.PrSym
import Verif.Lemmas.CentredInv
import Verif.Props.C46_C48_Symmetry

/-!
# C112: phase retrieval respects the symmetries of the optics
-/

namespace PyOTF

open Complex Physics

theorem opp_dvd_add {n i : ℕ} (hi : i < n) : (n : ℤ) ∣ (i : ℤ) + opp n i - 2 * (n / 2 : ℕ) := by
  have := opp_dvd hi
  have e : (i : ℤ) + opp n i - 2 * (n / 2 : ℕ) = ((i : ℤ) - (n / 2 : ℕ)) + ((opp n i : ℤ) - (n / 2 : ℕ)) := by ring
  rw [e]; exact this

theorem exp_arg_conj (v : ℂ) : exp (I * (arg ((starRingEnd ℂ) v) : ℝ)) = (starRingEnd ℂ) (exp (I * (arg v : ℝ))) := by
  have e : (starRingEnd ℂ) (exp (I * (arg v : ℝ))) = exp (I * ((-arg v : ℝ) : ℂ)) := by
    rw [← exp_conj, map_mul, conj_I, conj_ofReal]
    push_cast; ring_nf
  rw [e, arg_conj]
  by_cases h : arg v = Real.pi
  · rw [if_pos h, h]
    have h1 : I * (Real.pi : ℂ) = Real.pi * I := mul_comm _ _
    have h2 : I * ((-Real.pi : ℝ) : ℂ) = -(Real.pi * I) := by push_cast; ring
    rw [h1, h2, exp_neg, exp_pi_mul_I]; norm_num
  · rw [if_neg h]

theorem defocus_prProblem (data data' : Arr ℝ) (w n i r : ℚ) (Z N : ℕ) (zs zs' : List ℚ) (z z' a b a' b' : ℕ)
    (hz : zs'.getD z' 0 = zs.getD z 0) (hr : radial N r a' b' = radial N r a b) :
    (prProblem data' w n i r Z N zs').defocus z' a' b' = (prProblem data w n i r Z N zs).defocus z a b := by
  simp only [Problem.defocus, prProblem, axial, hz, hr]

theorem defocus_prProblem_neg (data data' : Arr ℝ) (w n i r : ℚ) (Z N : ℕ) (zs zs' : List ℚ) (z z' a b : ℕ)
    (hz : zs'.getD z' 0 = -zs.getD z 0) :
    (prProblem data' w n i r Z N zs').defocus z' a b = (starRingEnd ℂ) ((prProblem data w n i r Z N zs).defocus z a b) := by
  simp only [Problem.defocus, prProblem, axial, hz]
  rw [← exp_conj]
  congr 1
  have h2 : (starRingEnd ℂ) 2 = 2 := Complex.conj_ofNat 2
  simp [h2, conj_ofReal]

theorem retrieve_symmetry {unwrap unwrap' : Arr ℝ → Arr ℝ} (hun : Unwraps unwrap) (hun' : Unwraps unwrap') {data data' : Arr ℝ} {d d' : PyDict}
    {w n i r : ℚ} {Z N : ℕ} {zs zs' : List ℚ} (hset : Setup d w n i r Z zs) (hset' : Setup d' w n i r Z zs')
    (hdata : data.shape = [Z, N, N]) (hdata' : data'.shape = [Z, N, N]) (hN : 2 ≤ N) (hZ : 0 < Z) {M : ℤ} (hM : 0 < M) {pt mt : ℝ} {b : Bool}
    {res res' : PRResult} {d₁ d₂ : PyDict} (h : retrievePhase unwrap data M pt mt b d = (.ok res, d₁))
    (h' : retrievePhase unwrap' data' M pt mt b d' = (.ok res', d₂)) {c : ℂ →+* ℂ} {τ σ : ℕ × ℕ → ℕ × ℕ} {ζ : ℕ → ℕ}
    (hs : Symmetry (prProblem data w n i r Z N zs) (prProblem data' w n i r Z N zs') c τ σ ζ) :
    res'.mse = res.mse ∧ res'.mseDiff = res.mseDiff ∧ res'.pupilDiff = res.pupilDiff ∧
      ∀ a < N, ∀ e < N, retrieved N res' a e = c (retrieved N res (τ (a, e)).1 (τ (a, e)).2) := by
  obtain ⟨r1, m1, F1, p1, e1, run1, -⟩ := retrieve_form unwrap hun.shape data d hset hdata hN hZ M hM pt mt b
  obtain ⟨r2, m2, F2, p2, e2, run2, -⟩ := retrieve_form unwrap' hun'.shape data' d' hset' hdata' hN hZ M hM pt mt b
  rw [h] at e1
  rw [h'] at e2
  simp only [Prod.mk.injEq, Except.ok.injEq] at e1 e2
  obtain ⟨rfl, -⟩ := e1
  obtain ⟨rfl, -⟩ := e2
  exact symmetry_run hs hun hun' run1 run2

/-- C112: exchanging the two lateral axes of the data exchanges those of the retrieved pupil; errors, differences and the
number of passes are the same. -/
theorem C112_transposed (unwrap : Arr ℝ → Arr ℝ) (hun : Unwraps unwrap) (data data' : Arr ℝ) (d : PyDict)
    (w n i r : ℚ) (Z N : ℕ) (zs : List ℚ) (hset : Setup d w n i r Z zs) (hdata : data.shape = [Z, N, N]) (hdata' : data'.shape = [Z, N, N])
    (hN : 2 ≤ N) (hZ : 0 < Z) (M : ℤ) (hM : 0 < M) (pt mt : ℝ) (b : Bool) (res res' : PRResult) (d₁ d₂ : PyDict)
    (h : retrievePhase unwrap data M pt mt b d = (.ok res, d₁)) (h' : retrievePhase unwrap data' M pt mt b d = (.ok res', d₂))
    (hsym : ∀ z < Z, ∀ y < N, ∀ x < N, data'.get [z, y, x] = data.get [z, x, y]) :
    res'.mse = res.mse ∧ res'.mseDiff = res.mseDiff ∧ res'.pupilDiff = res.pupilDiff ∧
      ∀ a < N, ∀ e < N, retrieved N res' a e = retrieved N res e a := by
  refine retrieve_symmetry hun hun hset hset hdata hdata' hN hZ hM h h' (c := RingHom.id ℂ) (τ := Prod.swap) (σ := Prod.swap) (ζ := id) ?_
  exact {
    N := rfl
    Z := rfl
    inside := fun a _ e _ => by
      show radial N r a e < _ ↔ radial N r e a < _
      rw [radial_comm]; rfl
    norm := fun _ => rfl
    real := fun _ => rfl
    dir := fun _ => rfl
    pupilMaps := fun p h1 h2 => ⟨h2, h1, rfl⟩
    imageMaps := fun p h1 h2 => ⟨h2, h1, rfl⟩
    planeMaps := Set.bijOn_id _
    field := fun P y _ x _ => by
      simp only [RingHom.id_apply, Prod.swap_prod_mk]
      rw [field_swap]
    defocus := fun z _ a _ e _ => defocus_prProblem _ _ _ _ _ _ _ _ _ _ _ _ _ _ _ _ rfl (radial_comm N r a e)
    data := fun z hz y hy x hx => hsym z hz y hy x hx }

/-- C112: mirroring the data in x at the centre pixel (modulo the width) mirrors the retrieved pupil. -/
theorem C112_mirrored_x (unwrap : Arr ℝ → Arr ℝ) (hun : Unwraps unwrap) (data data' : Arr ℝ) (d : PyDict)
    (w n i r : ℚ) (Z N : ℕ) (zs : List ℚ) (hset : Setup d w n i r Z zs) (hdata : data.shape = [Z, N, N]) (hdata' : data'.shape = [Z, N, N])
    (hN : 2 ≤ N) (hZ : 0 < Z) (M : ℤ) (hM : 0 < M) (pt mt : ℝ) (b : Bool) (res res' : PRResult) (d₁ d₂ : PyDict)
    (h : retrievePhase unwrap data M pt mt b d = (.ok res, d₁)) (h' : retrievePhase unwrap data' M pt mt b d = (.ok res', d₂))
    (hsym : ∀ z < Z, ∀ y < N, ∀ x < N, data'.get [z, y, x] = data.get [z, y, opp N x]) :
    res'.mse = res.mse ∧ res'.mseDiff = res.mseDiff ∧ res'.pupilDiff = res.pupilDiff ∧
      ∀ a < N, ∀ e < N, retrieved N res' a e = retrieved N res a ((N - e) % N) := by
  refine retrieve_symmetry hun hun hset hset hdata hdata' hN hZ hM h h' (c := RingHom.id ℂ) (τ := fun p => (p.1, negIdx N p.2))
    (σ := fun p => (p.1, opp N p.2)) (ζ := id) ?_
  exact {
    N := rfl
    Z := rfl
    inside := fun a _ e he => by
      show radial N r a e < _ ↔ radial N r a (negIdx N e) < _
      rw [radial_neg_x (N := N) (r : ℝ) a he]; rfl
    norm := fun _ => rfl
    real := fun _ => rfl
    dir := fun _ => rfl
    pupilMaps := fun p h1 h2 => ⟨h1, negIdx_lt (show 0 < N by omega) _, Prod.ext rfl (negIdx_negIdx h2)⟩
    imageMaps := fun p h1 h2 => ⟨h1, opp_lt h2, Prod.ext rfl (opp_opp h2)⟩
    planeMaps := Set.bijOn_id _
    field := fun P y _ x hx => by
      simp only [RingHom.id_apply]
      exact (field_mirror_x N N P y x (opp N x) (opp_dvd_add (n := N) hx)).symm
    defocus := fun z _ a _ e he => defocus_prProblem _ _ _ _ _ _ _ _ _ _ _ _ _ _ _ _ rfl (radial_neg_x (r : ℝ) a he).symm
    data := fun z hz y hy x hx => hsym z hz y hy x hx }

/-- C112: the same in y. -/
theorem C112_mirrored_y (unwrap : Arr ℝ → Arr ℝ) (hun : Unwraps unwrap) (data data' : Arr ℝ) (d : PyDict)
    (w n i r : ℚ) (Z N : ℕ) (zs : List ℚ) (hset : Setup d w n i r Z zs) (hdata : data.shape = [Z, N, N]) (hdata' : data'.shape = [Z, N, N])
    (hN : 2 ≤ N) (hZ : 0 < Z) (M : ℤ) (hM : 0 < M) (pt mt : ℝ) (b : Bool) (res res' : PRResult) (d₁ d₂ : PyDict)
    (h : retrievePhase unwrap data M pt mt b d = (.ok res, d₁)) (h' : retrievePhase unwrap data' M pt mt b d = (.ok res', d₂))
    (hsym : ∀ z < Z, ∀ y < N, ∀ x < N, data'.get [z, y, x] = data.get [z, opp N y, x]) :
    res'.mse = res.mse ∧ res'.mseDiff = res.mseDiff ∧ res'.pupilDiff = res.pupilDiff ∧
      ∀ a < N, ∀ e < N, retrieved N res' a e = retrieved N res ((N - a) % N) e := by
  refine retrieve_symmetry hun hun hset hset hdata hdata' hN hZ hM h h' (c := RingHom.id ℂ) (τ := fun p => (negIdx N p.1, p.2))
    (σ := fun p => (opp N p.1, p.2)) (ζ := id) ?_
  exact {
    N := rfl
    Z := rfl
    inside := fun a ha e _ => by
      show radial N r a e < _ ↔ radial N r (negIdx N a) e < _
      rw [radial_neg_y (N := N) (r : ℝ) ha]; rfl
    norm := fun _ => rfl
    real := fun _ => rfl
    dir := fun _ => rfl
    pupilMaps := fun p h1 h2 => ⟨negIdx_lt (show 0 < N by omega) _, h2, Prod.ext (negIdx_negIdx h1) rfl⟩
    imageMaps := fun p h1 h2 => ⟨opp_lt h1, h2, Prod.ext (opp_opp h1) rfl⟩
    planeMaps := Set.bijOn_id _
    field := fun P y hy x _ => by
      simp only [RingHom.id_apply]
      exact (field_mirror_y N N P y (opp N y) x (opp_dvd_add (n := N) hy)).symm
    defocus := fun z _ a ha e _ => defocus_prProblem _ _ _ _ _ _ _ _ _ _ _ _ _ _ _ _ rfl (radial_neg_y (r : ℝ) ha e).symm
    data := fun z hz y hy x hx => hsym z hz y hy x hx }

/-- C112: the order of the planes does not matter: data and heights rearranged in the same way give the same pupil. -/
theorem C112_planes (unwrap : Arr ℝ → Arr ℝ) (hun : Unwraps unwrap) (data data' : Arr ℝ) (d d' : PyDict)
    (w n i r : ℚ) (Z N : ℕ) (zs zs' : List ℚ) (hset : Setup d w n i r Z zs) (hset' : Setup d' w n i r Z zs')
    (hdata : data.shape = [Z, N, N]) (hdata' : data'.shape = [Z, N, N])
    (hN : 2 ≤ N) (hZ : 0 < Z) (M : ℤ) (hM : 0 < M) (pt mt : ℝ) (b : Bool) (res res' : PRResult) (d₁ d₂ : PyDict)
    (h : retrievePhase unwrap data M pt mt b d = (.ok res, d₁)) (h' : retrievePhase unwrap data' M pt mt b d' = (.ok res', d₂))
    (ζ : ℕ → ℕ) (hζ : Set.BijOn ζ (Set.Iio Z) (Set.Iio Z)) (hzs : ∀ z < Z, zs'.getD z 0 = zs.getD (ζ z) 0)
    (hsym : ∀ z < Z, ∀ y < N, ∀ x < N, data'.get [z, y, x] = data.get [ζ z, y, x]) :
    res'.mse = res.mse ∧ res'.mseDiff = res.mseDiff ∧ res'.pupilDiff = res.pupilDiff ∧
      ∀ a < N, ∀ e < N, retrieved N res' a e = retrieved N res a e := by
  refine retrieve_symmetry hun hun hset hset' hdata hdata' hN hZ hM h h' (c := RingHom.id ℂ) (τ := id)
    (σ := id) (ζ := ζ) ?_
  exact {
    N := rfl
    Z := rfl
    inside := fun a ha e _ => Iff.rfl
    norm := fun _ => rfl
    real := fun _ => rfl
    dir := fun _ => rfl
    pupilMaps := fun p h1 h2 => ⟨h1, h2, rfl⟩
    imageMaps := fun p h1 h2 => ⟨h1, h2, rfl⟩
    planeMaps := hζ
    field := fun P y hy x _ => rfl
    defocus := fun z hz a ha e _ => defocus_prProblem _ _ _ _ _ _ _ _ _ _ _ _ _ _ _ _ (hzs z hz) rfl
    data := fun z hz y hy x hx => hsym z hz y hy x hx }

/-- C112: data inverted through the centre, planes at opposite heights: the complex conjugate pupil is retrieved. -/
theorem C112_inverted (unwrap : Arr ℝ → Arr ℝ) (hun : Unwraps unwrap) (data data' : Arr ℝ) (d d' : PyDict)
    (w n i r : ℚ) (Z N : ℕ) (zs zs' : List ℚ) (hset : Setup d w n i r Z zs) (hset' : Setup d' w n i r Z zs')
    (hdata : data.shape = [Z, N, N]) (hdata' : data'.shape = [Z, N, N])
    (hN : 2 ≤ N) (hZ : 0 < Z) (M : ℤ) (hM : 0 < M) (pt mt : ℝ) (b : Bool) (res res' : PRResult) (d₁ d₂ : PyDict)
    (h : retrievePhase unwrap data M pt mt b d = (.ok res, d₁)) (h' : retrievePhase unwrap data' M pt mt b d' = (.ok res', d₂))
    (ζ : ℕ → ℕ) (hζ : Set.BijOn ζ (Set.Iio Z) (Set.Iio Z)) (hzs : ∀ z < Z, zs'.getD z 0 = -zs.getD (ζ z) 0)
    (hsym : ∀ z < Z, ∀ y < N, ∀ x < N, data'.get [z, y, x] = data.get [ζ z, opp N y, opp N x]) :
    res'.mse = res.mse ∧ res'.mseDiff = res.mseDiff ∧ res'.pupilDiff = res.pupilDiff ∧
      ∀ a < N, ∀ e < N, retrieved N res' a e = (starRingEnd ℂ) (retrieved N res a e) := by
  refine retrieve_symmetry hun hun hset hset' hdata hdata' hN hZ hM h h' (c := starRingEnd ℂ) (τ := id)
    (σ := fun p => (opp N p.1, opp N p.2)) (ζ := ζ) ?_
  exact {
    N := rfl
    Z := rfl
    inside := fun a ha e _ => Iff.rfl
    norm := fun _ => RCLike.norm_conj _
    real := fun _ => conj_ofReal _
    dir := exp_arg_conj
    pupilMaps := fun p h1 h2 => ⟨h1, h2, rfl⟩
    imageMaps := fun p h1 h2 => ⟨opp_lt h1, opp_lt h2, Prod.ext (opp_opp h1) (opp_opp h2)⟩
    planeMaps := hζ
    field := fun P y hy x hx => field_conj N N P y x _ _ (show 0 < N by omega) (show 0 < N by omega) (opp_dvd_add (n := N) hy) (opp_dvd_add (n := N) hx)
    defocus := fun z hz a ha e _ => defocus_prProblem_neg _ _ _ _ _ _ _ _ _ _ _ _ _ _ (hzs z hz)
    data := fun z hz y hy x hx => hsym z hz y hy x hx }

/-- C112: data that are their own inversion (plane `ζ z` at height `-z`): the retrieved pupil is real. -/
theorem C112_point_symmetric (unwrap : Arr ℝ → Arr ℝ) (hun : Unwraps unwrap) (data : Arr ℝ) (d : PyDict)
    (w n i r : ℚ) (Z N : ℕ) (zs : List ℚ) (hset : Setup d w n i r Z zs) (hdata : data.shape = [Z, N, N])
    (hN : 2 ≤ N) (hZ : 0 < Z) (M : ℤ) (hM : 0 < M) (pt mt : ℝ) (b : Bool) (res : PRResult) (d₁ : PyDict)
    (h : retrievePhase unwrap data M pt mt b d = (.ok res, d₁))
    (ζ : ℕ → ℕ) (hζ : Set.BijOn ζ (Set.Iio Z) (Set.Iio Z)) (hzs : ∀ z < Z, zs.getD (ζ z) 0 = -zs.getD z 0)
    (hsym : ∀ z < Z, ∀ y < N, ∀ x < N, data.get [ζ z, opp N y, opp N x] = data.get [z, y, x]) :
    ∀ a < N, ∀ e < N, (retrieved N res a e).im = 0 := by
  intro a ha e he
  have := (C112_inverted unwrap hun data data d d w n i r Z N zs zs hset hset hdata hdata hN hZ M hM pt mt b res res d₁ d₁ h h ζ hζ
    (fun z hz => by rw [hzs z hz, neg_neg]) (fun z hz y hy x hx => (hsym z hz y hy x hx).symm)).2.2.2 a ha e he
  exact conj_eq_iff_im.mp this.symm

/-! ## Non-vacuity -/

example (data : Arr ℝ) (hs : data.shape = [3, 8, 8]) : ∃ data' res res' d₁ d₂,
    retrievePhase id data 5 0 0 false demoDict = (.ok res, d₁) ∧ retrievePhase id data' 5 0 0 false demoDict = (.ok res', d₂) ∧
    ∀ a < 8, ∀ e < 8, retrieved 8 res' a e = retrieved 8 res e a := by
  have hun : Unwraps (id : Arr ℝ → Arr ℝ) := ⟨fun _ => rfl, fun a idx => ⟨0, by simp⟩⟩
  let data' : Arr ℝ := ⟨[3, 8, 8], fun i => data.get [i.getD 0 0, i.getD 2 0, i.getD 1 0]⟩
  obtain ⟨res, d₁, h₁⟩ := C62_returns id (fun _ => rfl) data _ _ _ _ _ 3 8 _ (demoDict_setup 3) hs
    (by norm_num) (by norm_num) 5 (by norm_num) 0 0 false
  obtain ⟨res', d₂, h₂⟩ := C62_returns id (fun _ => rfl) data' _ _ _ _ _ 3 8 _ (demoDict_setup 3) rfl
    (by norm_num) (by norm_num) 5 (by norm_num) 0 0 false
  exact ⟨data', res, res', d₁, d₂, h₁, h₂, (C112_transposed id hun data data' demoDict _ _ _ _ 3 8 _ (demoDict_setup 3) hs rfl
    (by norm_num) (by norm_num) 5 (by norm_num) 0 0 false res res' d₁ d₂ h₁ h₂ (fun _ _ _ _ _ _ => rfl)).2.2.2⟩

/-- Three planes at heights -200, 0, 200. -/
def centredDict : PyDict := demoDict ++ [("zrange", .seq [.fin (-200), .fin 0, .fin 200])]

theorem centredDict_setup : Setup centredDict 500 1 (3/2) 100 3 [-200, 0, 200] where
  keys := by decide
  wl := ⟨⟨_, rfl, rfl⟩, by norm_num⟩
  na := ⟨⟨.int 1, rfl, by simp [Denotes, PyVal.num?]⟩, by norm_num⟩
  ni := ⟨⟨_, rfl, rfl⟩, by norm_num⟩
  res := ⟨⟨_, rfl, rfl⟩, by norm_num, by norm_num⟩
  planes := ⟨by simp, 200, by norm_num, Or.inr ⟨_, rfl, rfl⟩, Or.inr (Or.inl rfl)⟩

/-- Data that do not vary laterally and are symmetric in z. -/
example (u v : ℝ) : ∃ res d₁, retrievePhase id ⟨[3, 8, 8], fun i => if i.getD 0 0 = 1 then u else v⟩ 5 0 0 false centredDict = (.ok res, d₁) ∧
    ∀ a < 8, ∀ e < 8, (retrieved 8 res a e).im = 0 := by
  have hun : Unwraps (id : Arr ℝ → Arr ℝ) := ⟨fun _ => rfl, fun a idx => ⟨0, by simp⟩⟩
  obtain ⟨res, d₁, h₁⟩ := C62_returns id (fun _ => rfl) ⟨[3, 8, 8], fun i => if i.getD 0 0 = 1 then u else v⟩ _ _ _ _ _ 3 8 _ centredDict_setup rfl
    (by norm_num) (by norm_num) 5 (by norm_num) 0 0 false
  refine ⟨res, d₁, h₁, C112_point_symmetric id hun _ centredDict _ _ _ _ 3 8 _ centredDict_setup rfl (by norm_num) (by norm_num) 5 (by norm_num)
    0 0 false res d₁ h₁ (fun z => 2 - z) ⟨?_, ?_, ?_⟩ ?_ ?_⟩
  · intro z hz; simp only [Set.mem_Iio] at hz ⊢; omega
  · intro a ha b hb h; simp only [Set.mem_Iio] at ha hb h; omega
  · intro z hz
    simp only [Set.mem_Iio] at hz
    exact ⟨2 - z, by simp only [Set.mem_Iio]; omega, by simp only; omega⟩
  · intro z hz
    have : z = 0 ∨ z = 1 ∨ z = 2 := by omega
    rcases this with rfl | rfl | rfl <;> simp
  · intro z hz y _ x _
    have : z = 0 ∨ z = 1 ∨ z = 2 := by omega
    rcases this with rfl | rfl | rfl <;> simp

end PyOTF
