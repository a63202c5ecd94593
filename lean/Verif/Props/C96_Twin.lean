import Verif.Props.C49_Aberration
import Verif.Props.C70_C71_Zernike
import Mathlib.Analysis.SpecialFunctions.Trigonometric.Angle

/-!
# C96: twin images

An intensity PSF does not tell a pupil from its complex conjugate: the conjugate pupil gives the same stack, inverted through the centre.
-/

open Complex PyOTF.Physics

namespace PyOTF

/-- Pixels `(y, x)` and `(y', x')` of an `N × N` image are images of each other under inversion through the centre pixel `(N // 2, N // 2)`
(coordinates modulo `N`: the first row and column of an even image are their own mirror images). -/
def Inverted (N y x y' x' : ℕ) : Prop :=
  (N : ℤ) ∣ (y : ℤ) + y' - 2 * (N / 2 : ℕ) ∧ (N : ℤ) ∣ (x : ℤ) + x' - 2 * (N / 2 : ℕ)

theorem amplitude_conj {N : ℕ} (r k : ℝ) (v : VecCorr) (cd : Condition) (hN : 0 < N) (P : ℕ → ℕ → ℂ) (z : ℝ) (c y x y' x' : ℕ)
    (h : Inverted N y x y' x') :
    ‖amplitude N r k v cd (fun i j => (starRingEnd ℂ) (P i j)) (-z) c y x‖ = ‖amplitude N r k v cd P z c y' x'‖ := by
  rw [amplitude, amplitude, ← field_conj_norm N N _ y x _ _ hN hN h.1 h.2]
  congr 1
  refine field_congr (fun i _ j _ => ?_) y x
  rw [map_mul, map_mul, conj_ofReal, ← exp_conj]
  congr 3
  have h2 : (starRingEnd ℂ) 2 = 2 := Complex.conj_ofNat 2
  simp [h2, conj_ofReal]

/-- C96: two Hanser models with the same optics, the second with the complex conjugate pupil: its intensity at height `-z` is the intensity of
the first at height `z`, inverted through the centre of the image. -/
theorem C96_conjugate_pupil (s s' : HSpec) (hf : s.Fits) (hf' : s'.Fits) {w n i r : ℚ} {N : ℕ} {zs zs' : List ℚ} {v : VecCorr}
    {cd : Condition} (ho : Optics s.params w n i r N zs v cd) (ho' : Optics s'.params w n i r N zs' v cd) (P P' : Arr ℂ)
    (hP : s.pupil = some P) (hP' : s'.pupil = some P') (hconj : ∀ a < N, ∀ b < N, P'.get [a, b] = (starRingEnd ℂ) (P.get [a, b]))
    (b b' : Arr ℝ) (hb : s.PSFi = .ok b) (hb' : s'.PSFi = .ok b') (iz iz' y x y' x' : ℕ) (hz : zs'.getD iz' 0 = -zs.getD iz 0)
    (h : Inverted N y x y' x') : b'.get [iz', y', x'] = b.get [iz, y, x] := by
  obtain ⟨-, hN, hg⟩ := psfi_amplitude s hf ho b hb
  obtain ⟨-, -, hg'⟩ := psfi_amplitude s' hf' ho' b' hb'
  rw [hg, hg', hz]
  refine Finset.sum_congr rfl fun c _ => ?_
  rw [Rat.cast_neg, ← amplitude_conj _ _ v cd hN _ _ c y' x' y x (by unfold Inverted at *; rwa [add_comm (y' : ℤ), add_comm (x' : ℤ)])]
  congr 2
  refine amplitude_congr (fun p hp q hq => ?_) _ _ _ _
  simp only [HSpec.pupilFn, hP, hP']
  exact hconj p hp q hq

theorem zernikeSum_neg (D : List (ℤ × ℤ)) (c : List ℝ) (N : ℕ) (r l : ℝ) (a b : ℕ) :
    zernikeSum D (c.map (- ·)) N r l a b = -zernikeSum D c N r l a b := by
  unfold zernikeSum
  rw [List.length_map, ← Finset.sum_neg_distrib]
  refine Finset.sum_congr rfl fun k hk => ?_
  have : (c.map (- ·)).getD k 0 = -c.getD k 0 := by
    have := Finset.mem_range.mp hk
    simp [List.getD_eq_getElem?_getD, this]
  rw [this]; ring

theorem aberrated_conj (D : List (ℤ × ℤ)) (m ph : List ℝ) (N : ℕ) (r l : ℝ) (a b : ℕ) :
    aberrated D m (ph.map (- ·)) N r l a b = (starRingEnd ℂ) (aberrated D m ph N r l a b) := by
  have ha : (starRingEnd ℂ) (aperture N r l a b) = aperture N r l a b := by
    unfold aperture; split_ifs <;> simp
  rw [aberrated, aberrated, map_mul, map_add, ha, conj_ofReal, ← exp_conj, map_mul, conj_I, conj_ofReal, zernikeSum_neg]
  congr 2
  push_cast; ring

/-- C96: the same model aberrated with the opposite phase coefficients, the planes at opposite heights: the image inverted through its centre. -/
theorem C96_opposite_phase (heap heap' : Heap) (k k' : ℕ) (o o' : HObj) (hk : heap[k]? = some o) (hk' : heap'[k']? = some o')
    (mc pc mc' pc' : Option (List ℝ)) (m ph : List ℝ) (hc : fillCoefs mc pc = some (m, ph))
    (hc' : fillCoefs mc' pc' = some (m, ph.map (- ·))) {w n i r : ℚ} {N : ℕ} {zs zs' : List ℚ} {v : VecCorr} {cd : Condition}
    (hA : Aberrable o m ph w n i r N zs v cd) (hA' : Aberrable o' m (ph.map (- ·)) w n i r N zs' v cd) :
    ∃ ref p b ref' p' b', (applyAberration k mc pc heap).1 = .ok ref ∧ (applyAberration k mc pc heap).2[ref]? = some p ∧
      (HObj.getPSFi p).1 = .ok b ∧ (applyAberration k' mc' pc' heap').1 = .ok ref' ∧
      (applyAberration k' mc' pc' heap').2[ref']? = some p' ∧ (HObj.getPSFi p').1 = .ok b' ∧
      ∀ iz iz' y x y' x', zs'.getD iz' 0 = -zs.getD iz 0 → Inverted N y x y' x' → b'.get [iz', y', x'] = b.get [iz, y, x] := by
  obtain ⟨ref, p, a, D, h1, h2, -, -, h5, h6, h7, h8⟩ := C49_aberrated heap k o hk mc pc m ph hc hA
  obtain ⟨ref', p', a', D', g1, g2, -, -, g5, g6, g7, g8⟩ := C49_aberrated heap' k' o' hk' mc' pc' m _ hc' hA'
  obtain rfl := h6.unique g6
  refine ⟨ref, p, _, ref', p', _, h1, h2, h5, g1, g2, g5, fun iz iz' y x y' x' hz h => ?_⟩
  have hN : 0 < N := by have := hA.pixels; omega
  rw [psfiOf_get a _ _ _ _ h7, psfiOf_get a' _ _ _ _ g7]
  refine Finset.sum_congr rfl fun c _ => ?_
  rw [h8, g8, hz, Rat.cast_neg,
    ← amplitude_conj _ _ v cd hN _ _ c y' x' y x (by unfold Inverted at *; rwa [add_comm (y' : ℤ), add_comm (x' : ℤ)])]
  congr 2
  exact amplitude_congr (fun p _ q _ => aberrated_conj D m ph N _ _ p q) _ _ _ _

/-! ## Even modes -/

theorem trig_arg_neg (z : ℂ) (p : ℕ) : Real.cos ((2 * p : ℕ) * arg (-z)) = Real.cos ((2 * p : ℕ) * arg z) ∧
    Real.sin ((2 * p : ℕ) * arg (-z)) = Real.sin ((2 * p : ℕ) * arg z) := by
  rcases eq_or_ne z 0 with rfl | hz
  · simp
  have h := arg_neg_coe_angle hz
  rw [← Real.Angle.coe_add, Real.Angle.angle_eq_iff_two_pi_dvd_sub] at h
  obtain ⟨q, hq⟩ := h
  have e : ((2 * p : ℕ) : ℝ) * arg (-z) = (2 * p : ℕ) * arg z + ((p * (2 * q + 1) : ℤ) : ℝ) * (2 * Real.pi) := by
    have : arg (-z) = arg z + Real.pi + 2 * Real.pi * q := by linarith
    rw [this]; push_cast; ring
  rw [e]
  exact ⟨Real.cos_add_int_mul_two_pi _ _, Real.sin_add_int_mul_two_pi _ _⟩

/-- The index of the opposite frequency. -/
theorem freq_point {N : ℕ} (r : ℝ) {a b : ℕ} (ha : a < N) (hb : b < N) (ha2 : 2 * a ≠ N) (hb2 : 2 * b ≠ N) :
    azimuth N r (negIdx N a) (negIdx N b) = arg (-(⟨freq N r b, freq N r a⟩ : ℂ)) := by
  unfold azimuth
  rw [freq_neg r ha ha2, freq_neg r hb hb2]
  congr 1

theorem zernikeMode_even (n q : ℤ) (hq : Even q) (ρ : ℝ) (z : ℂ) : zernikeMode (n, q) ρ (arg (-z)) = zernikeMode (n, q) ρ (arg z) := by
  have : ∃ p : ℕ, q.natAbs = 2 * p := by
    have := Int.natAbs_even.mpr hq
    obtain ⟨p, hp⟩ := this
    exact ⟨p, by omega⟩
  obtain ⟨p, hp⟩ := this
  obtain ⟨h1, h2⟩ := trig_arg_neg z p
  simp only [zernikeMode, hp, h1, h2]

/-- Coefficient `k` belongs to Noll mode `k + 1`; only modes of even azimuthal order (piston, defocus, astigmatism, spherical, ...) occur. -/
def EvenModes (c : List ℝ) : Prop :=
  ∀ k < c.length, c.getD k 0 ≠ 0 → ∀ n m : ℤ, Admissible n m → nollStd n m = (k : ℤ) + 1 → Even m

theorem zernikeSum_even {D : List (ℤ × ℤ)} {c : List ℝ} (hD : NollModes D c.length) (hc : EvenModes c) {N : ℕ} (r l : ℝ) {a b : ℕ}
    (ha : a < N) (hb : b < N) (ha2 : 2 * a ≠ N) (hb2 : 2 * b ≠ N) :
    zernikeSum D c N r l (negIdx N a) (negIdx N b) = zernikeSum D c N r l a b := by
  unfold zernikeSum
  refine Finset.sum_congr rfl fun k hk => ?_
  have hk := Finset.mem_range.mp hk
  rcases eq_or_ne (c.getD k 0) 0 with h0 | h0
  · rw [h0, zero_mul, zero_mul]
  · have := hc k hk h0 _ _ (hD.admissible k hk) (hD.noll k hk)
    rw [radial_neg_y r ha, radial_neg_x r a hb, freq_point r ha hb ha2 hb2]
    rw [show D.getD k (0, 0) = ((D.getD k (0, 0)).1, (D.getD k (0, 0)).2) from rfl, zernikeMode_even _ _ this]
    rfl

theorem amplitude_point {N : ℕ} (r k : ℝ) (v : VecCorr) (cd : Condition) (P : ℕ → ℕ → ℂ)
    (heven : ∀ a < N, ∀ b < N, 2 * a ≠ N → 2 * b ≠ N → P (negIdx N a) (negIdx N b) = P a b)
    (hedge : ∀ a < N, ∀ b < N, 2 * a = N ∨ 2 * b = N → P a b = 0) (z : ℝ) (c y x y' x' : ℕ) (h : Inverted N y x y' x') :
    ‖amplitude N r k v cd P z c y' x'‖ = ‖amplitude N r k v cd P z c y x‖ := by
  obtain ⟨ε, h1, h2⟩ := weight_mirror_y (N := N) r k v cd c
  obtain ⟨δ, d1, d2⟩ := weight_mirror_x (N := N) r k v cd c
  rw [amplitude, field_mirror_y N N _ y y' x' h.1, field_mirror_x N N _ y x x' h.2, amplitude]
  rw [field_congr (Q := fun i j => ((ε * δ : ℝ) : ℂ) * (P i j * exp (2 * Real.pi * axial N r k i j * z * I) * (weight N r k v cd c i j : ℝ)))]
  · rw [field_mul, norm_mul, norm_real, Real.norm_eq_abs, abs_mul, h1, d1, one_mul, one_mul]
  · intro a ha b hb
    by_cases hh : 2 * a = N ∨ 2 * b = N
    · have h0 := hedge a ha b hb hh
      have h0' : P (negIdx N a) (negIdx N b) = 0 := by
        have hn : 0 < N := by omega
        refine hedge _ (negIdx_lt hn _) _ (negIdx_lt hn _) ?_
        rcases hh with hh | hh
        · left; rw [negIdx_half hh]; exact hh
        · right; rw [negIdx_half hh]; exact hh
      rw [h0, h0']; ring
    · push Not at hh
      rw [heven a ha b hb hh.1 hh.2, h2 a ha hh.1, d2 a b hb hh.2]
      simp only [axial, radial_neg_y r ha, radial_neg_x r a hb]
      push_cast; ring

theorem aberrated_edge {N : ℕ} {r l : ℝ} (hr : 0 < r) (hl : 0 < l) (hab : 2 * (l * r) < 1) (D : List (ℤ × ℤ)) (m ph : List ℝ) {a b : ℕ}
    (ha : a < N) (h : 2 * a = N ∨ 2 * b = N) : aberrated D m ph N r l a b = 0 := by
  have hN : 0 < N := by omega
  have key : l < radial N r a b := by
    by_contra hc
    have hcl : radial N r a b ≤ l := not_lt.mp hc
    -- enlarge the aperture a little: the edge is still outside
    obtain ⟨l', h1, h2⟩ : ∃ l', l < l' ∧ 2 * (l' * r) < 1 := by
      refine ⟨(l + 1 / (2 * r)) / 2, ?_, ?_⟩
      · have : l < 1 / (2 * r) := by rw [lt_div_iff₀ (by positivity)]; linarith
        linarith
      · have : (l + 1 / (2 * r)) / 2 * r = (l * r + 1 / 2) / 2 := by field_simp
        rw [this]; linarith
    have : aperture N r l' a b = 0 := by
      rcases h with h | h
      · exact (aperture_edge hr h2 hN h b).1
      · exact (aperture_edge hr h2 hN h a).2
    simp only [aperture, lt_of_le_of_lt hcl h1, if_true, one_ne_zero] at this
  have h1 : aperture N r l a b = 0 := by simp [aperture, key.le]
  have h2 : zernikeSum D m N r l a b = 0 := by
    refine Finset.sum_eq_zero fun k _ => ?_
    rw [zernikeMode, if_neg (by rw [not_le, one_lt_div hl]; exact key), mul_zero]
  simp [aberrated, h1, h2]

/-- C96: aberrations made of even modes only (defocus, astigmatism, spherical, ...), sampling below the Abbe limit: reversing the sign of all phase
coefficients is the same as reversing the order of the planes; in focus it changes nothing, so one in-focus image cannot tell the sign. -/
theorem C96_even_modes (heap heap' : Heap) (k k' : ℕ) (o o' : HObj) (hk : heap[k]? = some o) (hk' : heap'[k']? = some o')
    (mc pc mc' pc' : Option (List ℝ)) (m ph : List ℝ) (hc : fillCoefs mc pc = some (m, ph))
    (hc' : fillCoefs mc' pc' = some (m, ph.map (- ·))) {w n i r : ℚ} {N : ℕ} {zs zs' : List ℚ} {v : VecCorr} {cd : Condition}
    (hA : Aberrable o m ph w n i r N zs v cd) (hA' : Aberrable o' m (ph.map (- ·)) w n i r N zs' v cd)
    (hr : 0 < r) (habbe : r < w / (2 * n)) (hm : EvenModes m) (hph : EvenModes ph) :
    ∃ ref p b ref' p' b', (applyAberration k mc pc heap).1 = .ok ref ∧ (applyAberration k mc pc heap).2[ref]? = some p ∧
      (HObj.getPSFi p).1 = .ok b ∧ (applyAberration k' mc' pc' heap').1 = .ok ref' ∧
      (applyAberration k' mc' pc' heap').2[ref']? = some p' ∧ (HObj.getPSFi p').1 = .ok b' ∧
      (∀ iz iz' y x, zs'.getD iz' 0 = -zs.getD iz 0 → b'.get [iz', y, x] = b.get [iz, y, x]) ∧
      ∀ iz y x y' x', Inverted N y x y' x' → b.get [iz, y', x'] = b.get [iz, y, x] := by
  obtain ⟨ref, p, a, D, h1, h2, -, -, h5, h6, h7, h8⟩ := C49_aberrated heap k o hk mc pc m ph hc hA
  obtain ⟨ref', p', a', D', g1, g2, -, -, g5, g6, g7, g8⟩ := C49_aberrated heap' k' o' hk' mc' pc' m _ hc' hA'
  obtain rfl := h6.unique g6
  have hN : 0 < N := by have := hA.pixels; omega
  have hw := hA.wl
  have hn := hA.na
  have hr' : (0 : ℝ) < r := by exact_mod_cast hr
  have hl : (0 : ℝ) < ((n / w : ℚ) : ℝ) := by exact_mod_cast div_pos hn hw
  have hab : 2 * (((n / w : ℚ) : ℝ) * r) < 1 := by
    have : 2 * (n / w * r) < 1 := by
      rw [lt_div_iff₀ (by positivity)] at habbe
      have e : 2 * (n / w * r) = r * (2 * n) / w := by ring
      rw [e, div_lt_one hw]; exact habbe
    exact_mod_cast this
  have h6' : NollModes D ph.length := hA.same ▸ h6
  have hpt := fun (z : ℝ) (c y x y' x' : ℕ) (h : Inverted N y x y' x') =>
    amplitude_point (N := N) r ((i / w : ℚ) : ℝ) v cd (aberrated D m ph N r ((n / w : ℚ) : ℝ))
      (fun a ha b hb ha2 hb2 => by
        simp only [aberrated, aperture, radial_neg_y (r : ℝ) ha, radial_neg_x (r : ℝ) a hb, zernikeSum_even h6 hm _ _ ha hb ha2 hb2,
          zernikeSum_even h6' hph _ _ ha hb ha2 hb2])
      (fun a ha b _ hh => aberrated_edge hr' hl hab D m ph ha hh) z c y x y' x' h
  refine ⟨ref, p, _, ref', p', _, h1, h2, h5, g1, g2, g5, fun iz iz' y x hz => ?_, fun iz y x y' x' h => ?_⟩
  · have hinv : ∀ y : ℕ, (N : ℤ) ∣ (y : ℤ) + (2 * (N / 2) + (N - 1) * y : ℕ) - 2 * (N / 2 : ℕ) := by
      intro y
      refine ⟨y, ?_⟩
      have : ((N - 1 : ℕ) : ℤ) = N - 1 := by omega
      push_cast [this]; ring
    have hI : Inverted N y x (2 * (N / 2) + (N - 1) * y) (2 * (N / 2) + (N - 1) * x) := ⟨hinv y, hinv x⟩
    rw [psfiOf_get a _ _ _ _ h7, psfiOf_get a' _ _ _ _ g7]
    refine Finset.sum_congr rfl fun c _ => ?_
    rw [h8, g8, hz, Rat.cast_neg, ← hpt _ c y x _ _ hI, ← amplitude_conj _ _ v cd hN _ _ c y x _ _ hI]
    congr 2
    exact amplitude_congr (fun p _ q _ => aberrated_conj D m ph N _ _ p q) _ _ _ _
  · rw [psfiOf_get a _ _ _ _ h7, psfiOf_get a _ _ _ _ h7]
    refine Finset.sum_congr rfl fun c _ => ?_
    rw [h8, h8, hpt _ c y x _ _ h]

/-- Noll mode 4 is defocus, an even mode. -/
theorem evenModes_defocus (c : ℝ) : EvenModes [0, 0, 0, c] := by
  intro k hk h0 n m hnm he
  have hk3 : k = 3 := by
    simp only [List.length_cons, List.length_nil] at hk
    have : k = 0 ∨ k = 1 ∨ k = 2 ∨ k = 3 := by omega
    rcases this with rfl | rfl | rfl | rfl <;> simp_all
  subst hk3
  have := nollStd_inj hnm (by decide : Admissible 2 0) (by rw [he]; decide)
  rw [this.2]; exact ⟨0, rfl⟩

/-- Non-vacuity: the demo model with one radian of defocus and with minus one radian; plane `64 - iz` of the second is plane `iz` of the first. -/
example : ∃ o ref p b ref' p' b', HObj.new demoArgs none = .ok o ∧ (applyAberration 0 none (some [0, 0, 0, 1]) [o]).1 = .ok ref ∧
    (applyAberration 0 none (some [0, 0, 0, 1]) [o]).2[ref]? = some p ∧ (HObj.getPSFi p).1 = .ok b ∧
    (applyAberration 0 none (some [0, 0, 0, -1]) [o]).1 = .ok ref' ∧
    (applyAberration 0 none (some [0, 0, 0, -1]) [o]).2[ref']? = some p' ∧ (HObj.getPSFi p').1 = .ok b' ∧
    ∀ iz, 0 < iz → iz < 64 → ∀ y x, b'.get [64 - iz, y, x] = b.get [iz, y, x] := by
  obtain ⟨o, ho, hf, hA⟩ := demo_aberrable
  have hA' : Aberrable o [0, 0, 0, 0] ([0, 0, 0, 1].map (- ·)) 520 (17/20) 1 130 64 ((List.range 64).map (plane 64 130)) .none .sine :=
    ⟨hA.optics, hA.wl, hA.na, hA.res, hA.pixels, hA.index, rfl, by simp, by simp⟩
  have hE0 : EvenModes [0, 0, 0, 0] := evenModes_defocus 0
  obtain ⟨ref, p, b, ref', p', b', h1, h2, h3, h4, h5, h6, h7, -⟩ := C96_even_modes [o] [o] 0 0 o o rfl rfl none (some [0, 0, 0, 1])
    none (some [0, 0, 0, -1]) _ _ hf (by simp [fillCoefs]) hA hA' (by norm_num) (by norm_num) hE0 (evenModes_defocus 1)
  refine ⟨o, ref, p, b, ref', p', b', ho, h1, h2, h3, h4, h5, h6, fun iz h0 h64 y x => h7 iz (64 - iz) y x ?_⟩
  rw [List.getD_eq_getElem _ _ (by simp; omega), List.getD_eq_getElem _ _ (by simpa using h64)]
  simp only [List.getElem_map, List.getElem_range, plane]
  have : ((64 - iz : ℕ) : ℚ) = 64 - iz := by rw [Nat.cast_sub h64.le]; norm_num
  rw [this]; norm_num; ring

/-- Non-vacuity of the twin of a pupil: the demo optics with the pupils `i` and `-i`. -/
example : ∃ (s s' : HSpec) (b b' : Arr ℝ), s.pupil ≠ s'.pupil ∧ s.PSFi = .ok b ∧ s'.PSFi = .ok b' ∧
    b'.get [31, 20, 20] = b.get [33, 44, 44] := by
  obtain ⟨o, a, ho, hf, h3, ha⟩ := demo_optics
  obtain ⟨u, hu, hu'⟩ := h3.size
  have fits : ∀ P : Arr ℂ, P.shape = [64, 64] → (⟨o.params, some P⟩ : HSpec).Fits := by
    intro P hP P' v' h1 h2
    cases h1
    simp only at h2
    rw [hu] at h2; cases h2
    rw [hP, hu']
  have comp : ∀ P : Arr ℂ, P.shape = [64, 64] → ∃ a, (⟨o.params, some P⟩ : HSpec).PSFa = .ok a := fun P hP =>
    (C76_computable ⟨o.params, some P⟩ (fits P hP) h3).mpr ⟨by norm_num, by norm_num, by norm_num, by norm_num⟩
  obtain ⟨a1, e1⟩ := comp ⟨[64, 64], fun _ => I⟩ rfl
  obtain ⟨a2, e2⟩ := comp ⟨[64, 64], fun _ => -I⟩ rfl
  refine ⟨⟨o.params, some ⟨[64, 64], fun _ => I⟩⟩, ⟨o.params, some ⟨[64, 64], fun _ => -I⟩⟩, _, _, ?_, PSFi_of e1, PSFi_of e2, ?_⟩
  · intro h
    have := congrArg (fun a => (a.getD ⟨[], fun _ => 0⟩).get []) h
    have := congrArg Complex.im this
    norm_num at this
  · refine C96_conjugate_pupil _ _ (fits ⟨[64, 64], fun _ => I⟩ rfl) (fits ⟨[64, 64], fun _ => -I⟩ rfl) h3 h3 _ _ rfl rfl
      (fun _ _ _ _ => by simp) _ _ (PSFi_of e1) (PSFi_of e2) _ _ _ _ _ _ ?_ ⟨by norm_num, by norm_num⟩
    rw [List.getD_eq_getElem _ _ (by simp), List.getD_eq_getElem _ _ (by simp)]
    simp only [List.getElem_map, List.getElem_range, plane]
    norm_num

end PyOTF
