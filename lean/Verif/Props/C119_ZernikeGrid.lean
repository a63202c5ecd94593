import Verif.Props.C70_C71_Zernike
import Verif.Props.C108_C110_ZernikeSpace
import Verif.Props.C39_C43_Hanser
import Verif.Lemmas.GridPoly

/-!
# C119: the pixels of the aperture determine the Zernike coefficients
-/

namespace PyOTF

open Physics

/-- The polynomial that the mode `(|m| + 2k, m)` is inside the disk. -/
noncomputable def modePoly (m : ℤ) (k : ℕ) (p : ℝ × ℝ) : ℝ :=
  modePeak (|m| + 2 * k) m true * ((-1) ^ (m.natAbs + k) * (harm m p *
      ∑ s ∈ Finset.range (k + 1), (-1 : ℝ) ^ s * (k.choose s : ℝ) * ((m.natAbs + k + s).choose k : ℝ) * (p.1 ^ 2 + p.2 ^ 2) ^ s))

theorem modePoly_polyFn (m : ℤ) (k : ℕ) : PolyFn (m.natAbs + 2 * k) (modePoly m k) := by
  have h1 : PolyFn m.natAbs (harm m) := by
    unfold harm
    by_cases hm : m < 0
    · simp only [if_pos hm]; exact (PolyFn.zpow _).2
    · simp only [if_neg hm]; exact (PolyFn.zpow _).1
  have h2 : PolyFn 2 fun p : ℝ × ℝ => p.1 ^ 2 + p.2 ^ 2 := by
    simpa using (PolyFn.x.pow 2).add (PolyFn.y.pow 2)
  have h3 : PolyFn (2 * k) fun p : ℝ × ℝ => ∑ s ∈ Finset.range (k + 1), (-1 : ℝ) ^ s * (k.choose s : ℝ) * ((m.natAbs + k + s).choose k : ℝ) *
      (p.1 ^ 2 + p.2 ^ 2) ^ s :=
    PolyFn.sum _ _ fun s hs => ((h2.pow s).smul _).mono (by have := Finset.mem_range.mp hs; omega)
  exact ((h1.mul h3).smul _).smul _

theorem zernikeXY_poly {n m : ℤ} {k : ℕ} (hk : n = |m| + 2 * k) (p : ℝ × ℝ) (hp : InDisk p) : zernikeXY n m true p = modePoly m k p := by
  rw [zernikeXY_cart hk true p, if_pos hp, hk]; rfl

/-- The degree of a mode among the first `(d + 1) (d + 2) / 2`. -/
theorem noll_degree {n m : ℤ} (h : Admissible n m) {d : ℤ} (hd : 0 ≤ d) (hj : 2 * nollStd n m ≤ (d + 1) * (d + 2)) : n ≤ d := by
  have tri : 2 * (n * (n + 1) / 2) = n * (n + 1) := by
    have : n * (n + 1) % 2 = 0 := by
      rcases Int.emod_two_eq_zero_or_one n with h | h <;> simp [Int.mul_emod, Int.add_emod, h]
    omega
  have b : n * (n + 1) + 2 ≤ 2 * nollStd n m := by
    obtain ⟨h1, h2⟩ := h
    unfold nollStd
    rcases abs_cases m with ⟨ha, hb⟩ | ⟨ha, hb⟩ <;> rw [ha] at h1 ⊢ <;> split_ifs <;> omega
  have hn : 0 ≤ n := le_trans (abs_nonneg m) h.1
  by_contra hc
  push Not at hc
  nlinarith

/-- A mode on the grid is the mode at the point of the unit disk. -/
theorem mode_grid (d : ℤ × ℤ) (h : Admissible d.1 d.2) (N : ℕ) (r l : ℝ) (hl : 0 < l) (i j : ℕ) :
    zernikeMode d (radial N r i j / l) (azimuth N r i j) = zernikeXY d.1 d.2 true (freq N r j / l, freq N r i / l) := by
  rw [← zernike1_mode d h, zernikeXY]
  simp only [cart2pol]
  congr 1
  · rw [radial, div_pow, div_pow, ← add_div, Real.sqrt_div' _ (by positivity), Real.sqrt_sq hl.le]
  · rw [azimuth]
    have : (⟨freq N r j / l, freq N r i / l⟩ : ℂ) = ((l⁻¹ : ℝ) : ℂ) * ⟨freq N r j, freq N r i⟩ := by
      apply Complex.ext
      · rw [Complex.re_ofReal_mul]; exact div_eq_inv_mul _ _
      · rw [Complex.im_ofReal_mul]; exact div_eq_inv_mul _ _
    rw [this, Complex.arg_real_mul _ (by positivity)]

/-- The pixel that shows frequency `p`. -/
theorem pixel_exists {N h : ℕ} (hN : 2 * h < N) (r : ℝ) (p : ℤ) (hp : |p| ≤ h) : ∃ a < N, freq N r (sampleAt N a) = p / (N * r) := by
  rw [abs_le] at hp
  refine ⟨((N / 2 : ℕ) + p).toNat, by omega, ?_⟩
  by_cases h0 : 0 ≤ p
  · have : sampleAt N ((N / 2 : ℕ) + p).toNat = p.toNat := by
      unfold sampleAt
      rw [show ((N / 2 : ℕ) + p).toNat + (N - N / 2) = p.toNat + N by omega, Nat.add_mod_right, Nat.mod_eq_of_lt (by omega)]
    rw [this, freq, if_pos (by omega)]
    congr 1
    exact_mod_cast congrArg (fun z : ℤ => (z : ℝ)) (Int.toNat_of_nonneg h0)
  · have : sampleAt N ((N / 2 : ℕ) + p).toNat = (N + p).toNat := by
      unfold sampleAt
      rw [show ((N / 2 : ℕ) + p).toNat + (N - N / 2) = (N + p).toNat by omega, Nat.mod_eq_of_lt (by omega)]
    rw [this, freq, if_neg (by omega)]
    congr 1
    have := congrArg (fun z : ℤ => (z : ℝ)) (Int.toNat_of_nonneg (by omega : (0 : ℤ) ≤ N + p))
    push_cast at this
    rw [this]; ring

/-- On a grid whose aperture has a radius of at least `h` pixels the first `h (2 h + 1)` modes are linearly independent. -/
theorem modes_independent {D : List (ℤ × ℤ)} {L : ℕ} (hD : NollModes D L) {N h : ℕ} {r l : ℝ} (hh : 0 < h) (hL : L ≤ h * (2 * h + 1)) (hl : 0 < l)
    (hr : 0 < r) (hN : 2 * h < N) (hρ : h ≤ l * (N * r)) (c : List ℝ) (hc : c.length = L)
    (hz : ∀ a < N, ∀ b < N, radial N r (sampleAt N a) (sampleAt N b) ≤ l → zernikeSum D c N r l (sampleAt N a) (sampleAt N b) = 0) :
    ∀ k < L, c.getD k 0 = 0 := by
  have hNr : (0 : ℝ) < N * r := by have : (0 : ℝ) < N := by exact_mod_cast (by omega : 0 < N)
                                   positivity
  have hρ0 : (0 : ℝ) < l * (N * r) := mul_pos hl hNr
  have hdeg : ∀ k < L, ∃ j : ℕ, (D.getD k (0, 0)).1 = |(D.getD k (0, 0)).2| + 2 * j ∧ (D.getD k (0, 0)).2.natAbs + 2 * j ≤ 2 * h - 1 := by
    intro k hk
    obtain ⟨j, hj⟩ := admissible_iff.mp (hD.admissible k hk)
    refine ⟨j, hj, ?_⟩
    have h1 := noll_degree (hD.admissible k hk) (d := 2 * h - 1) (by omega) (by
      rw [hD.noll k hk]
      have : ((k : ℤ) + 1) ≤ h * (2 * h + 1) := by exact_mod_cast (by omega : k + 1 ≤ h * (2 * h + 1))
      nlinarith)
    have := Int.abs_eq_natAbs (D.getD k (0, 0)).2
    omega
  choose! J hJ hJd using hdeg
  set f : ℝ × ℝ → ℝ := fun p => ∑ k ∈ Finset.range L, c.getD k 0 * modePoly (D.getD k (0, 0)).2 (J k) p with hf
  have hfp : PolyFn (2 * h - 1) f :=
    PolyFn.sum _ _ fun k hk => ((modePoly_polyFn _ _).smul _).mono (hJd k (Finset.mem_range.mp hk))
  have hfe : ∀ p, InDisk p → f p = ∑ k ∈ Finset.range L, c.getD k 0 * zernikeXY (D.getD k (0, 0)).1 (D.getD k (0, 0)).2 true p := by
    intro p hp
    refine Finset.sum_congr rfl fun k hk => ?_
    rw [zernikeXY_poly (hJ k (Finset.mem_range.mp hk)) p hp]
  have hf0 : ∀ p, f p = 0 := by
    refine diamond_vanish h hh (l * (N * r)) hρ0.ne' f hfp fun p q hpq => ?_
    obtain ⟨a, ha, ea⟩ := pixel_exists hN r q (by have := abs_nonneg p; omega)
    obtain ⟨b, hb, eb⟩ := pixel_exists hN r p (by have := abs_nonneg q; omega)
    have ep : ∀ t : ℤ, (t : ℝ) / (N * r) / l = t / (l * (N * r)) := fun t => by rw [div_div, mul_comm l]
    have hdisk : InDisk ((p : ℝ) / (l * (N * r)), (q : ℝ) / (l * (N * r))) := by
      show ((p : ℝ) / (l * (N * r))) ^ 2 + ((q : ℝ) / (l * (N * r))) ^ 2 ≤ 1
      rw [div_pow, div_pow, ← add_div, div_le_one (by positivity)]
      have h1 : |(p : ℝ)| + |(q : ℝ)| ≤ h := by exact_mod_cast hpq
      have h2 : |(p : ℝ)| + |(q : ℝ)| ≤ l * (N * r) := h1.trans hρ
      rw [← sq_abs (p : ℝ), ← sq_abs (q : ℝ)]
      nlinarith [abs_nonneg (p : ℝ), abs_nonneg (q : ℝ), mul_nonneg (abs_nonneg (p : ℝ)) (abs_nonneg (q : ℝ))]
    have hin : radial N r (sampleAt N a) (sampleAt N b) ≤ l := by
      rw [radial, ea, eb, Real.sqrt_le_left hl.le]
      have h3 : ((p : ℝ) / (l * (N * r))) ^ 2 + ((q : ℝ) / (l * (N * r))) ^ 2 ≤ 1 := hdisk
      rw [← ep, ← ep, div_pow _ l, div_pow _ l, ← add_div, div_le_one (by positivity)] at h3
      linarith
    have h0 := hz a ha b hb hin
    rw [hfe _ hdisk]
    refine Eq.trans ?_ h0
    rw [zernikeSum, hc]
    refine Finset.sum_congr rfl fun k hk => ?_
    rw [mode_grid _ (hD.admissible k (Finset.mem_range.mp hk)) N r l hl, ea, eb, ep, ep]
  -- orthonormality on the disk
  have hinj : ∀ k ∈ Finset.range L, ∀ k' ∈ Finset.range L, D.getD k (0, 0) = D.getD k' (0, 0) → k = k' := by
    intro k hk k' hk' e
    have h1 := hD.noll k (Finset.mem_range.mp hk)
    have h2 := hD.noll k' (Finset.mem_range.mp hk')
    rw [e, h2] at h1; omega
  have huniq := C109_unique ((Finset.range L).image fun k => D.getD k (0, 0))
    (fun q hq => by obtain ⟨k, hk, rfl⟩ := Finset.mem_image.mp hq; exact hD.admissible k (Finset.mem_range.mp hk))
    (fun q => c.getD (nollStd q.1 q.2 - 1).toNat 0) (fun _ => 0) (fun p hp => by
      rw [Finset.sum_image hinj]
      simp only [zero_mul, Finset.sum_const_zero]
      refine Eq.trans ?_ (hf0 p)
      rw [hfe p hp]
      refine Finset.sum_congr rfl fun k hk => ?_
      rw [hD.noll k (Finset.mem_range.mp hk), show ((k : ℤ) + 1 - 1).toNat = k by omega])
  intro k hk
  have := huniq _ (Finset.mem_image.mpr ⟨k, Finset.mem_range.mpr hk, rfl⟩)
  simp only [hD.noll k hk] at this
  rwa [show ((k : ℤ) + 1 - 1).toNat = k by omega] at this

/-- C119: if the radius `na / wl * N * res` of the aperture is at least `h` frequency pixels, `fit_to_zernikes` with up to `h (2 h + 1)` modes returns the
coefficients of any magnitude and phase that are combinations of these modes. -/
theorem C119_recovers (lstsq : ℕ → List (List ℝ) → List ℝ → Py (List ℝ)) (hls : LeastSquares lstsq) (x : PRResult)
    (w n r : ℚ) (N : ℕ) (hx : ResultOf x w n r N) (hw : 0 < w) (hn : 0 < n) (hr : 0 < r) (hm : x.mag.shape = [N, N])
    (hp : x.phase.shape = [N, N]) (L : ℕ) (hL : 2 ≤ L) (hL' : L ≤ 120) (h : ℕ) (hh : L ≤ h * (2 * h + 1)) (hN : 2 * h < N) (hρ : h ≤ n / w * (N * r))
    (D : List (ℤ × ℤ)) (hD : NollModes D L) (cm cp : List ℝ) (hcm : cm.length = L) (hcp : cp.length = L)
    (hmag : ∀ a < N, ∀ b < N, radial N r (sampleAt N a) (sampleAt N b) ≤ ((n / w : ℚ) : ℝ) →
      x.mag.get [a, b] = zernikeSum D cm N r ((n / w : ℚ) : ℝ) (sampleAt N a) (sampleAt N b))
    (hphase : ∀ a < N, ∀ b < N, radial N r (sampleAt N a) (sampleAt N b) ≤ ((n / w : ℚ) : ℝ) →
      x.phase.get [a, b] = zernikeSum D cp N r ((n / w : ℚ) : ℝ) (sampleAt N a) (sampleAt N b)) :
    ∃ zd, x.fitToZernikes lstsq L = .ok zd ∧ zd.mcoefs = cm ∧ zd.pcoefs = cp := by
  have h0 : 0 < h := by
    rcases Nat.eq_zero_or_pos h with rfl | h0
    · omega
    · exact h0
  obtain ⟨zd, h1, -, h2⟩ := C70_recovers lstsq hls x w n r N hx hw hn (by omega) hm hp L hL hL' D hD cm cp hcm hcp hmag hphase
  have hl : (0 : ℝ) < ((n / w : ℚ) : ℝ) := by exact_mod_cast div_pos hn hw
  have hρ' : (h : ℝ) ≤ ((n / w : ℚ) : ℝ) * (N * r) := by exact_mod_cast hρ
  exact ⟨zd, h1, h2 fun c hc hz => modes_independent hD h0 hh hl (by exact_mod_cast hr) hN hρ' c hc hz⟩

theorem zernikeSum_zipWith (D : List (ℤ × ℤ)) (L : ℕ) (c c' : List ℝ) (hc : c.length = L) (hc' : c'.length = L) (s t : ℝ) (N : ℕ) (r l : ℝ) (i j : ℕ) :
    zernikeSum D (List.zipWith (fun a b => s * a + t * b) c c') N r l i j = s * zernikeSum D c N r l i j + t * zernikeSum D c' N r l i j := by
  simp only [zernikeSum, List.length_zipWith, hc, hc', min_self, Finset.mul_sum]
  rw [← Finset.sum_add_distrib]
  refine Finset.sum_congr rfl fun k hk => ?_
  have hk' := Finset.mem_range.mp hk
  have e : (List.zipWith (fun a b => s * a + t * b) c c').getD k 0 = s * c.getD k 0 + t * c'.getD k 0 := by
    simp only [List.getD_eq_getElem?_getD, List.getElem?_zipWith]
    rw [List.getElem?_eq_getElem (by omega), List.getElem?_eq_getElem (by omega)]; simp
  rw [e]; ring

/-- The best approximation is unique. -/
theorem fit_unique {D : List (ℤ × ℤ)} {L : ℕ} (hD : NollModes D L) {N h : ℕ} {r l : ℝ} (hh : 0 < h) (hL : L ≤ h * (2 * h + 1)) (hl : 0 < l)
    (hr : 0 < r) (hN : 2 * h < N) (hρ : h ≤ l * (N * r)) (f : Arr ℝ) (c c' : List ℝ) (hc : c.length = L) (hc' : c'.length = L)
    (h1 : ∀ d : List ℝ, d.length = L → fitError D N r l f c ≤ fitError D N r l f d)
    (h2 : ∀ d : List ℝ, d.length = L → fitError D N r l f c' ≤ fitError D N r l f d) : c = c' := by
  classical
  set e : List ℝ := List.zipWith (fun a b => (1 / 2 : ℝ) * a + (1 / 2) * b) c c' with he
  set u : List ℝ := List.zipWith (fun a b => (1 : ℝ) * a + (-1) * b) c c' with hu
  have hel : e.length = L := by rw [he, List.length_zipWith, hc, hc', min_self]
  have hul : u.length = L := by rw [hu, List.length_zipWith, hc, hc', min_self]
  have key : fitError D N r l f e = fitError D N r l f c / 2 + fitError D N r l f c' / 2 -
      (∑ y ∈ Finset.range N, ∑ x ∈ Finset.range N, if radial N r (sampleAt N y) (sampleAt N x) ≤ l then
        zernikeSum D u N r l (sampleAt N y) (sampleAt N x) ^ 2 else 0) / 4 := by
    simp only [fitError, Finset.sum_div, ← Finset.sum_add_distrib, ← Finset.sum_sub_distrib]
    refine Finset.sum_congr rfl fun y _ => Finset.sum_congr rfl fun x _ => ?_
    by_cases hin : radial N r (sampleAt N y) (sampleAt N x) ≤ l
    · rw [if_pos hin, if_pos hin, if_pos hin, if_pos hin, he, hu, zernikeSum_zipWith D L c c' hc hc', zernikeSum_zipWith D L c c' hc hc']
      ring
    · rw [if_neg hin, if_neg hin, if_neg hin, if_neg hin]; ring
  have hle : (∑ y ∈ Finset.range N, ∑ x ∈ Finset.range N, if radial N r (sampleAt N y) (sampleAt N x) ≤ l then
        zernikeSum D u N r l (sampleAt N y) (sampleAt N x) ^ 2 else 0) ≤ 0 := by
    have a1 := h1 e hel
    have a2 := h2 e hel
    linarith
  have hnn : ∀ y x : ℕ, 0 ≤ (if radial N r (sampleAt N y) (sampleAt N x) ≤ l then zernikeSum D u N r l (sampleAt N y) (sampleAt N x) ^ 2 else 0) := by
    intro y x; split_ifs
    · exact sq_nonneg _
    · exact le_rfl
  have h0 := le_antisymm hle (Finset.sum_nonneg fun y _ => Finset.sum_nonneg fun x _ => hnn y x)
  rw [Finset.sum_eq_zero_iff_of_nonneg fun y _ => Finset.sum_nonneg fun x _ => hnn y x] at h0
  have hz := modes_independent hD hh hL hl hr hN hρ u hul (fun a ha b hb hin => by
    have h3 := h0 a (Finset.mem_range.mpr ha)
    rw [Finset.sum_eq_zero_iff_of_nonneg fun x _ => hnn a x] at h3
    have h4 := h3 b (Finset.mem_range.mpr hb)
    rw [if_pos hin] at h4
    exact pow_eq_zero_iff two_ne_zero |>.mp h4)
  refine List.ext_getElem (by rw [hc, hc']) fun k hk hk' => ?_
  have h5 := hz k (by omega)
  rw [hu, List.getD_eq_getElem?_getD, List.getElem?_zipWith, List.getElem?_eq_getElem hk, List.getElem?_eq_getElem hk'] at h5
  simp at h5
  linarith

/-- C119: under the same condition the fit is unique: every least squares routine gives the same coefficients, for any magnitude and phase. -/
theorem C119_unique (lstsq lstsq' : ℕ → List (List ℝ) → List ℝ → Py (List ℝ)) (hls : LeastSquares lstsq) (hls' : LeastSquares lstsq') (x : PRResult)
    (w n r : ℚ) (N : ℕ) (hx : ResultOf x w n r N) (hw : 0 < w) (hn : 0 < n) (hr : 0 < r) (hm : x.mag.shape = [N, N])
    (hp : x.phase.shape = [N, N]) (L : ℕ) (hL : 2 ≤ L) (hL' : L ≤ 120) (h : ℕ) (hh : L ≤ h * (2 * h + 1)) (hN : 2 * h < N) (hρ : h ≤ n / w * (N * r)) :
    ∃ zd zd', x.fitToZernikes lstsq L = .ok zd ∧ x.fitToZernikes lstsq' L = .ok zd' ∧ zd.mcoefs = zd'.mcoefs ∧ zd.pcoefs = zd'.pcoefs := by
  have h0 : 0 < h := by
    rcases Nat.eq_zero_or_pos h with rfl | h0
    · omega
    · exact h0
  have hl : (0 : ℝ) < ((n / w : ℚ) : ℝ) := by exact_mod_cast div_pos hn hw
  have hρ' : (h : ℝ) ≤ ((n / w : ℚ) : ℝ) * (N * r) := by exact_mod_cast hρ
  have hr' : (0 : ℝ) < r := by exact_mod_cast hr
  obtain ⟨zd, D, h1, hD, l1, l2, -, -, hopt⟩ := C70_optimum lstsq hls x w n r N hx hw hn (by omega) hm hp L hL hL'
  obtain ⟨zd', D', h1', hD', l1', l2', -, -, hopt'⟩ := C70_optimum lstsq' hls' x w n r N hx hw hn (by omega) hm hp L hL hL'
  obtain rfl := hD'.unique hD
  exact ⟨zd, zd', h1, h1',
    fit_unique hD h0 hh hl hr' hN hρ' x.mag _ _ l1 l1' (fun d hd => (hopt d hd).1) (fun d hd => (hopt' d hd).1),
    fit_unique hD h0 hh hl hr' hN hρ' x.phase _ _ l2 l2' (fun d hd => (hopt d hd).2) (fun d hd => (hopt' d hd).2)⟩

/-- Non-vacuity: a model of 64 x 64 pixels whose aperture has a radius of 13.6 pixels, all 120 modes. -/
example : ∃ lstsq, LeastSquares lstsq ∧ ∃ x zd, PRResult.fitToZernikes lstsq x 120 = .ok zd ∧ zd.mcoefs = List.replicate 120 1 ∧
    zd.pcoefs = List.replicate 120 (1 / 2) := by
  obtain ⟨lstsq, hls⟩ := leastSquares_exists
  obtain ⟨o, a, ho, hf, h3, ha⟩ := demo_optics
  obtain ⟨x0, -, e1, e2, hx0⟩ := resultOf_new (mag := ⟨[64, 64], fun _ => 0⟩) (phase := ⟨[64, 64], fun _ => 0⟩) (mse := []) (pd := []) (md := []) h3
    (by norm_num) (by norm_num) (by norm_num) (by norm_num)
  obtain ⟨zd0, D, -, hD, -⟩ := C70_optimum lstsq hls x0 520 (17/20) 130 64 hx0 (by norm_num) (by norm_num) (by norm_num) (by rw [e1]) (by rw [e2]) 120
    (by norm_num) (by norm_num)
  obtain ⟨x, -, e1, e2, hx⟩ := resultOf_new
    (mag := ⟨[64, 64], fun i => zernikeSum D (List.replicate 120 1) 64 ((130 : ℚ) : ℝ) ((17/20/520 : ℚ) : ℝ) (sampleAt 64 (i.getD 0 0)) (sampleAt 64 (i.getD 1 0))⟩)
    (phase := ⟨[64, 64], fun i => zernikeSum D (List.replicate 120 (1/2)) 64 ((130 : ℚ) : ℝ) ((17/20/520 : ℚ) : ℝ) (sampleAt 64 (i.getD 0 0)) (sampleAt 64 (i.getD 1 0))⟩)
    (mse := []) (pd := []) (md := []) h3 (by norm_num) (by norm_num) (by norm_num) (by norm_num)
  obtain ⟨zd, q1, q2, q3⟩ := C119_recovers lstsq hls x 520 (17/20) 130 64 hx (by norm_num) (by norm_num) (by norm_num) (by rw [e1]) (by rw [e2]) 120
    (by norm_num) (by norm_num) 8 (by norm_num) (by norm_num) (by norm_num) D hD (List.replicate 120 1) (List.replicate 120 (1/2)) (by simp) (by simp)
    (fun a _ b _ _ => by rw [e1]; rfl) (fun a _ b _ _ => by rw [e2]; rfl)
  exact ⟨lstsq, hls, x, zd, q1, q2, q3⟩

end PyOTF
