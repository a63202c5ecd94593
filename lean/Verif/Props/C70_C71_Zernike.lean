import Verif.Props.C68_C69_Phase
import Verif.Lemmas.AberrationForm
import Verif.Lemmas.Lstsq

/-!
# C70, C71: Zernike decomposition of a phase retrieval result
-/

namespace PyOTF

open Physics

/-- A result `x` whose model is an ordinary one: wavelength `w`, numerical aperture `n`, pixel size `r`, `N` pixels. -/
structure ResultOf (x : PRResult) (w n r : ℚ) (N : ℕ) : Prop where
  wl : ∃ u, x.wl = u ∧ u.num? = some (.fin w)
  na : ∃ u, x.na = u ∧ u.num? = some (.fin n)
  rShape : x.r.shape = [N, N]
  radius : ∀ a b, x.r.get [a, b] = radial N r (sampleAt N a) (sampleAt N b)
  tShape : x.theta.shape = [N, N]
  theta : ∀ a b, x.theta.get [a, b] = azimuth N r (sampleAt N a) (sampleAt N b)

theorem resultOf_new {mag phase : Arr ℝ} {mse : List ℝ} {pd md : List NpReal} {model : HObj} {w n i r : ℚ} {N : ℕ}
    {zs : List ℚ} {v : VecCorr} {cd : Condition} (ho : Optics model.params w n i r N zs v cd) (hw : w ≠ 0) (hr : r ≠ 0)
    (hN : 0 < N) (hi : (v ≠ .none ∨ cd ≠ .none) → i ≠ 0) :
    ∃ x, PRResult.new mag phase mse pd md model = .ok x ∧ x.mag = mag ∧ x.phase = phase ∧ ResultOf x w n r N := by
  have hg := optics_genCoords ho hw hr hN hi
  obtain ⟨u1, a1, b1⟩ := ho.wl
  obtain ⟨u2, a2, b2⟩ := ho.na
  have hsh : ∀ (f : ℕ → ℕ → ℝ) (a b : ℕ), (fftshift none (⟨[N, N], fun i => f (i.getD 0 0) (i.getD 1 0)⟩ : Arr ℝ)).get [a, b] =
      f (sampleAt N a) (sampleAt N b) := by
    intro f a b
    rw [← rollIdx_sampleAt N a, ← rollIdx_sampleAt N b]
    simp [fftshift, Arr.alongAxes, Arr.alongAxis, axesOf, fftshift1, roll1, List.range_succ]
  unfold PRResult.new
  simp only [hg, bind, Except.bind, a1, a2, attr, pure, Except.pure]
  refine ⟨_, rfl, rfl, rfl, ⟨u1, rfl, b1⟩, ⟨u2, rfl, b2⟩, by simp [fftshift_shape], fun a b => ?_, by simp [fftshift_shape],
    fun a b => ?_⟩
  · refine (hsh _ a b).trans ?_
    rw [kr_eq]
  · refine (hsh _ a b).trans ?_
    simp only [HanserNum.phi, cart2pol, HanserNum.k, freq_eq, azimuth]

/-! ## C70 -/

theorem nollStd_inj {n m n' m' : ℤ} (h : Admissible n m) (h' : Admissible n' m') (e : nollStd n m = nollStd n' m') :
    n = n' ∧ m = m' := by
  have tri : ∀ n : ℤ, 2 * (n * (n + 1) / 2) = n * (n + 1) := by
    intro n
    have : n * (n + 1) % 2 = 0 := by
      rcases Int.emod_two_eq_zero_or_one n with h | h <;> simp [Int.mul_emod, Int.add_emod, h]
    omega
  have bound : ∀ n m : ℤ, Admissible n m → n * (n + 1) + 2 ≤ 2 * nollStd n m ∧ 2 * nollStd n m ≤ (n + 1) * (n + 2) := by
    intro n m h
    obtain ⟨h1, h2⟩ := h
    have t := tri n
    unfold nollStd
    have e : (n + 1) * (n + 2) = n * (n + 1) + 2 * n + 2 := by ring
    rw [e]
    rcases abs_cases m with ⟨ha, hb⟩ | ⟨ha, hb⟩ <;> rw [ha] at h1 ⊢ <;> split_ifs <;> omega
  have b1 := bound n m h
  have b2 := bound n' m' h'
  have hn : 0 ≤ n := le_trans (abs_nonneg m) h.1
  have hn' : 0 ≤ n' := le_trans (abs_nonneg m') h'.1
  have hnn : n = n' := by
    rcases lt_trichotomy n n' with hlt | heq | hgt
    · nlinarith
    · exact heq
    · nlinarith
  subst hnn
  refine ⟨rfl, ?_⟩
  obtain ⟨h1, h2⟩ := h
  obtain ⟨h1', h2'⟩ := h'
  unfold nollStd at e
  rcases abs_cases m with ⟨ha, hb⟩ | ⟨ha, hb⟩ <;> rcases abs_cases m' with ⟨ha', hb'⟩ | ⟨ha', hb'⟩ <;>
    rw [ha, ha'] at e <;> split_ifs at e <;> omega

/-- Noll's order is one order. -/
theorem NollModes.unique {D D' : List (ℤ × ℤ)} {L : ℕ} (h : NollModes D L) (h' : NollModes D' L) : D = D' := by
  refine List.ext_getElem (by rw [h.length, h'.length]) fun k hk hk' => ?_
  have hkL : k < L := by rw [← h.length]; exact hk
  have e : ∀ (D : List (ℤ × ℤ)) (hk : k < D.length), D.getD k (0, 0) = D[k] := by
    intro D hk
    rw [List.getD_eq_getElem?_getD, List.getElem?_eq_getElem hk, Option.getD_some]
  have := nollStd_inj (h.admissible k hkL) (h'.admissible k hkL) (by rw [h.noll k hkL, h'.noll k hkL])
  rw [e D hk, e D' hk'] at this
  exact Prod.ext this.1 this.2


open Classical in
/-- Squared error, over the pixels of the closed aperture, of approximating the picture `f` by `Σ c_k Z_k`. -/
noncomputable def fitError (D : List (ℤ × ℤ)) (N : ℕ) (r l : ℝ) (f : Arr ℝ) (c : List ℝ) : ℝ :=
  ∑ y ∈ Finset.range N, ∑ x ∈ Finset.range N,
    if radial N r (sampleAt N y) (sampleAt N x) ≤ l then
      (f.get [y, x] - zernikeSum D c N r l (sampleAt N y) (sampleAt N x)) ^ 2
    else 0

theorem filter_map_sum {α : Type} (l : List α) (q : α → Bool) (f : α → ℝ) :
    ((l.filter q).map f).sum = (l.map fun a => if q a then f a else 0).sum := by
  induction l with
  | nil => rfl
  | cons a l ih => by_cases h : q a <;> simp [h, ih]

theorem indices2_sum (A B : ℕ) (g : List ℕ → ℝ) :
    ((indices [A, B]).map g).sum = ∑ y ∈ Finset.range A, ∑ x ∈ Finset.range B, g [y, x] := by
  have h1 : ∀ (l : List ℕ) (h : ℕ → List (List ℕ)), ((l.flatMap h).map g).sum = (l.map fun y => ((h y).map g).sum).sum := by
    intro l h
    induction l with
    | nil => rfl
    | cons a l ih => simp [ih]
  have h2 : ∀ (n : ℕ) (f : ℕ → ℝ), ((List.range n).map f).sum = ∑ x ∈ Finset.range n, f x := by
    intro n f
    rw [Finset.sum_range, ← List.sum_ofFn]
    congr 1
    apply List.ext_getElem <;> simp
  simp only [indices, List.map_cons, List.map_nil]
  rw [h1, h2]
  refine Finset.sum_congr rfl fun y _ => ?_
  rw [List.map_map, ← h2]
  have : ∀ l : List ℕ, (l.flatMap fun i => [[i]]) = l.map fun i => [i] := by
    intro l
    induction l with
    | nil => rfl
    | cons a l ih => simp [ih]
  rw [this, List.map_map]
  rfl

/-- The matrix problem is the fit. -/
theorem fit_residual {f r z : Arr ℝ} {D : List (ℤ × ℤ)} {L N : ℕ} {rr l : ℝ} (hl : 0 < l) (hr : r.shape = [N, N])
    (hrg : ∀ y x, r.get [y, x] = radial N rr (sampleAt N y) (sampleAt N x) / l)
    (hz : ∀ k < L, ∀ y x, z.get [k, y, x] =
      zernikeMode (D.getD k (0, 0)) (radial N rr (sampleAt N y) (sampleAt N x) / l) (azimuth N rr (sampleAt N y) (sampleAt N x)))
    (c : List ℝ) (hc : c.length = L) :
    residual ((validPoints r).map fun p => (List.range L).map fun k => z.get (k :: p)) ((validPoints r).map f.get) c =
      fitError D N rr l f c := by
  unfold residual
  rw [List.zip_map', List.map_map, validPoints, filter_map_sum, hr, indices2_sum]
  unfold fitError
  refine Finset.sum_congr rfl fun y _ => Finset.sum_congr rfl fun x _ => ?_
  have hiff : (decide (r.get [y, x] ≤ 1) = true) ↔ radial N rr (sampleAt N y) (sampleAt N x) ≤ l := by
    rw [decide_eq_true_iff, hrg, div_le_one hl]
  by_cases h : radial N rr (sampleAt N y) (sampleAt N x) ≤ l
  · rw [if_pos (hiff.mpr h), if_pos h]
    simp only [Function.comp]
    congr 2
    rw [zipWith_mul_sum _ c L (by simp) hc, zernikeSum, hc]
    refine Finset.sum_congr rfl fun k hk => ?_
    have hk' := Finset.mem_range.mp hk
    rw [← hz k hk', List.getD_eq_getElem?_getD, List.getElem?_map, List.getElem?_range hk', mul_comm]
    rfl
  · rw [if_neg (fun h' => h (hiff.mp h')), if_neg h]

/-- C70: `fit_to_zernikes(L)`, 2 <= L <= 120, of a result with `N`x`N` pictures: the coefficients of magnitude and phase
are the best approximation by the first `L` Zernike modes (Noll's order, unit disk = aperture `na / wl`) over the pixels
of the aperture. -/
theorem C70_optimum (lstsq : ℕ → List (List ℝ) → List ℝ → Py (List ℝ)) (hls : LeastSquares lstsq) (x : PRResult)
    (w n r : ℚ) (N : ℕ) (hx : ResultOf x w n r N) (hw : 0 < w) (hn : 0 < n) (hN : 2 ≤ N) (hm : x.mag.shape = [N, N])
    (hp : x.phase.shape = [N, N]) (L : ℕ) (hL : 2 ≤ L) (hL' : L ≤ 120) :
    ∃ zd D, x.fitToZernikes lstsq L = .ok zd ∧ NollModes D L ∧ zd.mcoefs.length = L ∧ zd.pcoefs.length = L ∧
      zd.zerns.shape = [L, N, N] ∧
      (∀ k < L, ∀ a b, zd.zerns.get [k, a, b] =
        zernikeMode (D.getD k (0, 0)) (radial N r (sampleAt N a) (sampleAt N b) / ((n / w : ℚ) : ℝ)) (azimuth N r (sampleAt N a) (sampleAt N b))) ∧
      ∀ c : List ℝ, c.length = L →
        fitError D N r ((n / w : ℚ) : ℝ) x.mag zd.mcoefs ≤ fitError D N r ((n / w : ℚ) : ℝ) x.mag c ∧
        fitError D N r ((n / w : ℚ) : ℝ) x.phase zd.pcoefs ≤ fitError D N r ((n / w : ℚ) : ℝ) x.phase c := by
  obtain ⟨u1, rfl, b1⟩ := hx.wl
  obtain ⟨u2, rfl, b2⟩ := hx.na
  have hnw : n / w ≠ 0 := div_ne_zero hn.ne' hw.ne'
  have hl : (0 : ℝ) < ((n / w : ℚ) : ℝ) := by exact_mod_cast div_pos hn hw
  set l : ℝ := ((n / w : ℚ) : ℝ) with hldef
  have hfin : finReals [PyFloat.fin (n / w)] = .ok [l] := finReals_fin [n / w]
  obtain ⟨ra, hra⟩ : ∃ ra : Arr ℝ, ra = x.r.map fun v => v / l := ⟨_, rfl⟩
  have hras : ra.shape = [N, N] := by rw [hra]; exact hx.rShape
  have hrag : ∀ a b, ra.get [a, b] = radial N r (sampleAt N a) (sampleAt N b) / l := by
    intro a b; rw [hra]; show x.r.get [a, b] / l = _; rw [hx.radius]
  obtain ⟨D, z, hz, hD1, hD2, hD3, hzs, hzg⟩ := zernike_stack ra x.theta L N hras hx.tShape
    (by
      intro idx hidx
      rw [hras] at hidx
      obtain ⟨a, b, rfl⟩ : ∃ a b, idx = [a, b] := by
        cases hidx with
        | @cons a _ ja _ _ hj => cases hj with
          | @cons b _ jb _ _ hj => cases hj; exact ⟨a, b, rfl⟩
      rw [hrag]
      exact div_nonneg (radial_nonneg _ _ _ _) hl.le) (by omega) hL' hN
  have hL1 : L ≠ 1 := by omega
  have hzs' : z.shape = [L, N, N] := by
    rcases hzs with ⟨h, -⟩ | ⟨-, h⟩
    · exact absurd h hL1
    · exact h
  have hadm : ∀ k < L, Admissible (D.getD k (0, 0)).1 (D.getD k (0, 0)).2 := by
    intro k hk
    rw [List.getD_eq_getElem?_getD, List.getElem?_eq_getElem (by omega), Option.getD_some]
    exact hD2 _ (List.getElem_mem _)
  have hzg' : ∀ k < L, ∀ a b, z.get [k, a, b] =
      zernikeMode (D.getD k (0, 0)) (radial N r (sampleAt N a) (sampleAt N b) / l) (azimuth N r (sampleAt N a) (sampleAt N b)) := by
    intro k hk a b
    have := hzg k hk a b
    rw [if_neg hL1] at this
    rw [this, zernike1_mode _ (hadm k hk), hrag, hx.theta]
  have hfit : ∀ f : Arr ℝ, f.shape = [N, N] → ∃ c, fitToZerns lstsq f z ra = .ok c ∧ c.length = L ∧
      ∀ c' : List ℝ, c'.length = L → fitError D N r l f c ≤ fitError D N r l f c' := by
    intro f hf
    obtain ⟨c, h1, h2, h3⟩ := hls L ((validPoints ra).map fun p => (List.range L).map fun k => z.get (k :: p))
      ((validPoints ra).map f.get) (by simp) (by
        intro row hrow
        simp only [List.mem_map] at hrow
        obtain ⟨p, -, rfl⟩ := hrow
        simp)
    refine ⟨c, ?_, h2, fun c' hc' => ?_⟩
    · unfold fitToZerns
      rw [if_neg (by rw [hf, hras]; simp)]
      simp only [hzs', hras, ne_eq, not_true, if_false]
      exact h1
    · have := h3 c' hc'
      rwa [fit_residual hl hras hrag hzg' c h2, fit_residual hl hras hrag hzg' c' hc'] at this
  obtain ⟨cm, m1, m2, m3⟩ := hfit x.mag hm
  obtain ⟨cp, p1, p2, p3⟩ := hfit x.phase hp
  refine ⟨⟨cm, cp, z⟩, D, ?_, ⟨hD1, hadm, hD3⟩, m2, p2, hzs', hzg', fun c hc => ⟨m3 c hc, p3 c hc⟩⟩
  unfold PRResult.fitToZernikes
  have hdiv : PyFloat.div (.fin n) (.fin w) = .ok (.fin (n / w)) := by simp [PyFloat.div, hw.ne']
  simp only [pyNum_of_num b1, pyNum_of_num b2, hdiv, bind, Except.bind, hfin]
  rw [if_neg (by intro h; injection h with h; exact hnw h)]
  simp only [List.getD_cons_zero]
  rw [← hra, hz]
  simp only [m1, p1, ZD.new]
  rw [if_pos]
  simp [m2, p2, hzs']

theorem fitError_nonneg (D : List (ℤ × ℤ)) (N : ℕ) (r l : ℝ) (f : Arr ℝ) (c : List ℝ) : 0 ≤ fitError D N r l f c :=
  Finset.sum_nonneg fun y _ => Finset.sum_nonneg fun x _ => by split_ifs <;> positivity

theorem fitError_zero_iff (D : List (ℤ × ℤ)) (N : ℕ) (r l : ℝ) (f : Arr ℝ) (c : List ℝ) : fitError D N r l f c = 0 ↔
    ∀ y < N, ∀ x < N, radial N r (sampleAt N y) (sampleAt N x) ≤ l → f.get [y, x] = zernikeSum D c N r l (sampleAt N y) (sampleAt N x) := by
  unfold fitError
  rw [Finset.sum_eq_zero_iff_of_nonneg (fun y _ => Finset.sum_nonneg fun x _ => by split_ifs <;> positivity)]
  simp only [Finset.mem_range]
  refine forall_congr' fun y => forall_congr' fun _ => ?_
  rw [Finset.sum_eq_zero_iff_of_nonneg (fun x _ => by split_ifs <;> positivity)]
  simp only [Finset.mem_range]
  refine forall_congr' fun x => forall_congr' fun _ => ?_
  split_ifs with h
  · simp [h, sub_eq_zero]
  · simp [h]

/-- C70: a magnitude or phase that is a combination of the fitted modes inside the aperture is reproduced exactly; if the
sampled modes are linearly independent the coefficients themselves are recovered. -/
theorem C70_recovers (lstsq : ℕ → List (List ℝ) → List ℝ → Py (List ℝ)) (hls : LeastSquares lstsq) (x : PRResult)
    (w n r : ℚ) (N : ℕ) (hx : ResultOf x w n r N) (hw : 0 < w) (hn : 0 < n) (hN : 2 ≤ N) (hm : x.mag.shape = [N, N])
    (hp : x.phase.shape = [N, N]) (L : ℕ) (hL : 2 ≤ L) (hL' : L ≤ 120) (D : List (ℤ × ℤ)) (hD : NollModes D L)
    (cm cp : List ℝ) (hcm : cm.length = L) (hcp : cp.length = L)
    (hmag : ∀ a < N, ∀ b < N, radial N r (sampleAt N a) (sampleAt N b) ≤ ((n / w : ℚ) : ℝ) →
      x.mag.get [a, b] = zernikeSum D cm N r ((n / w : ℚ) : ℝ) (sampleAt N a) (sampleAt N b))
    (hphase : ∀ a < N, ∀ b < N, radial N r (sampleAt N a) (sampleAt N b) ≤ ((n / w : ℚ) : ℝ) →
      x.phase.get [a, b] = zernikeSum D cp N r ((n / w : ℚ) : ℝ) (sampleAt N a) (sampleAt N b)) :
    ∃ zd, x.fitToZernikes lstsq L = .ok zd ∧
      (∀ a < N, ∀ b < N, radial N r (sampleAt N a) (sampleAt N b) ≤ ((n / w : ℚ) : ℝ) →
        zernikeSum D zd.mcoefs N r ((n / w : ℚ) : ℝ) (sampleAt N a) (sampleAt N b) = x.mag.get [a, b] ∧
        zernikeSum D zd.pcoefs N r ((n / w : ℚ) : ℝ) (sampleAt N a) (sampleAt N b) = x.phase.get [a, b]) ∧
      ((∀ c : List ℝ, c.length = L → (∀ a < N, ∀ b < N, radial N r (sampleAt N a) (sampleAt N b) ≤ ((n / w : ℚ) : ℝ) →
          zernikeSum D c N r ((n / w : ℚ) : ℝ) (sampleAt N a) (sampleAt N b) = 0) → ∀ k < L, c.getD k 0 = 0) →
        zd.mcoefs = cm ∧ zd.pcoefs = cp) := by
  obtain ⟨zd, D', h1, hD', l1, l2, -, -, hopt⟩ := C70_optimum lstsq hls x w n r N hx hw hn hN hm hp L hL hL'
  obtain rfl := hD'.unique hD
  have hz1 : fitError D' N r ((n / w : ℚ) : ℝ) x.mag zd.mcoefs = 0 := by
    have h0 := (fitError_zero_iff D' N r ((n / w : ℚ) : ℝ) x.mag cm).mpr hmag
    exact le_antisymm (by rw [← h0]; exact (hopt cm hcm).1) (fitError_nonneg _ _ _ _ _ _)
  have hz2 : fitError D' N r ((n / w : ℚ) : ℝ) x.phase zd.pcoefs = 0 := by
    have h0 := (fitError_zero_iff D' N r ((n / w : ℚ) : ℝ) x.phase cp).mpr hphase
    exact le_antisymm (by rw [← h0]; exact (hopt cp hcp).2) (fitError_nonneg _ _ _ _ _ _)
  rw [fitError_zero_iff] at hz1 hz2
  refine ⟨zd, h1, fun a ha b hb hin => ⟨(hz1 a ha b hb hin).symm, (hz2 a ha b hb hin).symm⟩, fun hind => ?_⟩
  have key : ∀ (c c' : List ℝ), c.length = L → c'.length = L → (∀ a < N, ∀ b < N, radial N r (sampleAt N a) (sampleAt N b) ≤ ((n / w : ℚ) : ℝ) →
      zernikeSum D' c N r ((n / w : ℚ) : ℝ) (sampleAt N a) (sampleAt N b) =
      zernikeSum D' c' N r ((n / w : ℚ) : ℝ) (sampleAt N a) (sampleAt N b)) → c = c' := by
    intro c c' hc hc' heq
    have hd : ∀ k, (List.zipWith (fun a b => a - b) c c').getD k 0 = c.getD k 0 - c'.getD k 0 := by
      intro k
      simp only [List.getD_eq_getElem?_getD, List.getElem?_zipWith]
      rcases Nat.lt_or_ge k L with h | h
      · rw [List.getElem?_eq_getElem (by omega), List.getElem?_eq_getElem (by omega)]; simp
      · rw [List.getElem?_eq_none (by omega), List.getElem?_eq_none (by omega)]; simp
    have := hind (List.zipWith (fun a b => a - b) c c') (by simp [hc, hc']) (by
      intro a ha b hb hin
      have h0 := heq a ha b hb hin
      unfold zernikeSum at h0 ⊢
      rw [hc, hc'] at h0
      simp only [List.length_zipWith, hc, hc', min_self, hd, sub_mul, Finset.sum_sub_distrib]
      rw [h0, sub_self])
    refine List.ext_getElem (by omega) fun k h1 h2 => ?_
    have h3 := this k (by omega)
    rw [hd, List.getD_eq_getElem?_getD, List.getD_eq_getElem?_getD, List.getElem?_eq_getElem h1, List.getElem?_eq_getElem h2] at h3
    simpa [sub_eq_zero] using h3
  exact ⟨key _ _ l1 hcm fun a ha b hb hin => by rw [← hz1 a ha b hb hin, hmag a ha b hb hin],
    key _ _ l2 hcp fun a ha b hb hin => by rw [← hz2 a ha b hb hin, hphase a ha b hb hin]⟩

/-! ## C70: unusable numbers of modes -/

theorem fitToZernikes_run (lstsq : ℕ → List (List ℝ) → List ℝ → Py (List ℝ)) (x : PRResult) (w n r : ℚ) (N : ℕ)
    (hx : ResultOf x w n r N) (hw : 0 < w) (hn : 0 < n) (L : ℕ) :
    ∃ ra : Arr ℝ, ra.shape = [N, N] ∧ (∀ i, InShape i ra.shape → 0 ≤ ra.get i) ∧
      x.fitToZernikes lstsq L = (do
        let zerns ← zernike ra x.theta [⟨[L], fun i => (i.getD 0 0 : ℤ) + 1⟩]
        let m ← fitToZerns lstsq x.mag zerns ra
        let p ← fitToZerns lstsq x.phase zerns ra
        ZD.new m p zerns) := by
  obtain ⟨u1, rfl, b1⟩ := hx.wl
  obtain ⟨u2, rfl, b2⟩ := hx.na
  have hnw : n / w ≠ 0 := div_ne_zero hn.ne' hw.ne'
  have hl : (0 : ℝ) < ((n / w : ℚ) : ℝ) := by exact_mod_cast div_pos hn hw
  have hfin : finReals [PyFloat.fin (n / w)] = .ok [((n / w : ℚ) : ℝ)] := finReals_fin [n / w]
  refine ⟨x.r.map fun v => v / ((n / w : ℚ) : ℝ), hx.rShape, fun idx hidx => ?_, ?_⟩
  · have hidx' : InShape idx [N, N] := by rw [← hx.rShape]; exact hidx
    obtain ⟨a, b, rfl⟩ : ∃ a b, idx = [a, b] := by
      cases hidx' with
      | @cons a _ ja _ _ hj => cases hj with
        | @cons b _ jb _ _ hj => cases hj; exact ⟨a, b, rfl⟩
    show 0 ≤ x.r.get [a, b] / _
    rw [hx.radius]
    exact div_nonneg (radial_nonneg _ _ _ _) hl.le
  · unfold PRResult.fitToZernikes
    have hdiv : PyFloat.div (.fin n) (.fin w) = .ok (.fin (n / w)) := by simp [PyFloat.div, hw.ne']
    simp only [pyNum_of_num b1, pyNum_of_num b2, hdiv, bind, Except.bind, hfin]
    rw [if_neg (by intro h; injection h with h; exact hnw h)]
    simp only [List.getD_cons_zero]

/-- C70: `fit_to_zernikes(0)` and `fit_to_zernikes(1)` always raise `IndexError` (the stack of modes loses its first axis),
and so do more than 120 modes (the table ends there) - whatever the result and the least squares routine. -/
theorem C70_unusable (lstsq : ℕ → List (List ℝ) → List ℝ → Py (List ℝ)) (x : PRResult)
    (w n r : ℚ) (N : ℕ) (hx : ResultOf x w n r N) (hw : 0 < w) (hn : 0 < n) (hN : 2 ≤ N) (L : ℕ) (hL : L ≤ 1 ∨ 120 < L) :
    x.fitToZernikes lstsq L = .error .indexError := by
  obtain ⟨ra, hs, hnn, hrun⟩ := fitToZernikes_run lstsq x w n r N hx hw hn L
  rw [hrun]
  have hbad : ∀ (f z : Arr ℝ), (∀ m, z.shape ≠ [m, N, N]) → fitToZerns lstsq f z ra = .error .indexError := by
    intro f z hz
    unfold fitToZerns
    by_cases hf : f.shape ≠ ra.shape
    · rw [if_pos hf]
    · rw [if_neg hf]
      split
      · rename_i m s e
        rw [if_pos]
        intro h
        rw [h, hs] at e
        exact hz m e
      · rfl
  rcases hL with hL | hL
  · rcases Nat.le_one_iff_eq_zero_or_eq_one.mp hL with rfl | rfl
    · have hz : zernike ra x.theta [⟨[0], fun i => (i.getD 0 0 : ℤ) + 1⟩] = .ok ⟨[0], fun _ => 0⟩ := by
        have hd : zernikeDegrees [⟨[0], fun i => (i.getD 0 0 : ℤ) + 1⟩] = .ok [] := by
          simp [zernikeDegrees, Arr.ravel, indices, noll2degrees, pure, Except.pure]
        unfold zernike
        simp only [hd, bind, Except.bind, if_neg (not_not.mpr hnn), hs]
        simp [pure, Except.pure]
      rw [hz]
      simp only [bind, Except.bind]
      rw [hbad x.mag _ (by simp)]
    · obtain ⟨D, z, hz, -, -, -, hzs, -⟩ := zernike_stack ra x.theta 1 N hs hx.tShape hnn le_rfl (by norm_num) hN
      rw [hz]
      simp only [bind, Except.bind]
      rw [hbad x.mag]
      intro m hm
      rcases hzs with ⟨-, h⟩ | ⟨h, -⟩
      · rw [h] at hm; simp at hm
      · omega
  · have hz : zernike ra x.theta [⟨[L], fun i => (i.getD 0 0 : ℤ) + 1⟩] = .error .indexError := by
      have hd : zernikeDegrees [⟨[L], fun i => (i.getD 0 0 : ℤ) + 1⟩] = .error .indexError := by
        have hrav : (⟨[L], fun i => (i.getD 0 0 : ℤ) + 1⟩ : Arr ℤ).ravel = (List.range L).map fun (k : ℕ) => (k : ℤ) + 1 := by
          have : ∀ l : List ℕ, (l.flatMap fun i => [[i]]) = l.map fun i => [i] := by
            intro l
            induction l with
            | nil => rfl
            | cons a l ih => simp [ih]
          simp only [Arr.ravel, indices, List.map_cons, List.map_nil, this, List.map_map]
          rfl
        simp only [zernikeDegrees, hrav]
        refine C24_noll_above_120 _ (fun j hj => ?_) ⟨L, ?_, by exact_mod_cast hL⟩
        · simp only [List.mem_map] at hj
          obtain ⟨k, -, rfl⟩ := hj
          omega
        · simp only [List.mem_map, List.mem_range]
          exact ⟨L - 1, by omega, by omega⟩
      unfold zernike
      simp only [hd, bind, Except.bind]
    rw [hz]
    rfl

/-! ## C71 -/

/-- Mode number `k` (from 0) is selected by Python's `s` from `m` modes: negative bounds count from the end. -/
def Selected (s : Slice) (m k : ℕ) : Prop :=
  k < m ∧ (∀ a, s.start = some a → (if a < 0 then a + m else a) ≤ k) ∧ ∀ b, s.stop = some b → (k : ℤ) < (if b < 0 then b + m else b)

theorem selected_iff (s : Slice) (m k : ℕ) : Selected s m k ↔ s.lo m ≤ k ∧ k < s.hi m := by
  unfold Selected Slice.lo Slice.hi clipBound
  rcases s with ⟨_ | a, _ | b⟩ <;> simp only [Option.elim, reduceCtorEq, false_implies, implies_true, Option.some.injEq, forall_eq',
      and_true, true_and] <;>
    (try split_ifs) <;> omega

open Classical in
/-- The sum of the modes selected by `s`, weighted with their coefficients, at pixel `(y, x)`. -/
noncomputable def modesSum (c : List ℝ) (zerns : Arr ℝ) (s : Slice) (y x : ℕ) : ℝ :=
  ∑ k ∈ (Finset.range c.length).filter (Selected s c.length), c.getD k 0 * zerns.get [k, y, x]

open Classical in
theorem recon_form (z : ZD) (c : List ℝ) (N : ℕ) (hz : z.zerns.shape = [c.length, N, N]) (s : Slice) :
    ∃ a, z.recon c s = .ok a ∧ a.shape = [N, N] ∧ ∀ y < N, ∀ x < N, a.get [y, x] = modesSum c z.zerns s y x := by
  have hhi : s.hi c.length ≤ c.length := by
    unfold Slice.hi clipBound
    rcases s with ⟨_ | a, _ | b⟩ <;> simp only [Option.elim] <;> (try split_ifs) <;> omega
  have hlen : (sliceList s c).length = s.len c.length := by
    simp only [sliceList, List.length_take, List.length_drop, Slice.len]
    omega
  have hsh : (z.zerns.slice [s]).shape = [s.len c.length, N, N] := by
    simp [Arr.slice, hz, Slice.all, Slice.len, Slice.lo, Slice.hi, List.replicate]
  have hget : ∀ k y x, (z.zerns.slice [s]).get [k, y, x] = z.zerns.get [k + s.lo c.length, y, x] := by
    intro k y x
    simp [Arr.slice, hz, Slice.all, Slice.lo, List.replicate, Nat.add_comm]
  have hmul : ∃ a, (column (sliceList s c)).mulB (z.zerns.slice [s]) = .ok a ∧ a.shape = [s.len c.length, N, N] ∧
      ∀ k < s.len c.length, ∀ y < N, ∀ x < N, a.get [k, y, x] = (sliceList s c).getD k 0 * z.zerns.get [k + s.lo c.length, y, x] := by
    have hsl : ∀ k y x, (z.zerns.slice [s]).get [k, y, x] = z.zerns.get [k + s.lo c.length, y, x] := hget
    obtain ⟨Z, hZ⟩ : ∃ Z, Z = z.zerns.slice [s] := ⟨_, rfl⟩
    rw [← hZ] at hsh hsl ⊢
    have hb : bdim 1 N = .ok N := by unfold bdim; split_ifs <;> simp_all
    have hb' : bdim (s.len c.length) (s.len c.length) = .ok (s.len c.length) := by simp [bdim]
    simp only [Arr.mulB, bshape, column, hsh, hlen, List.reverse_cons, List.reverse_nil, List.nil_append, List.cons_append,
      bshapeRev, hb, hb', bind, Except.bind, pure, Except.pure, broadcastTo, List.length_cons, List.length_nil]
    simp only [Nat.sub_self, List.replicate_zero, List.nil_append, List.zip_cons_cons, List.zip_nil_right, List.all_cons, List.all_nil,
      true_or, or_true, decide_true, Bool.and_self, if_true, if_neg (lt_irrefl _)]
    refine ⟨_, rfl, rfl, fun k hk y hy x hx => ?_⟩
    simp only [List.zipWith_cons_cons, List.zipWith_nil_right, List.drop_zero, List.getD_cons_zero]
    congr 1
    · congr 1; split_ifs <;> omega
    · rw [← hsl]
      congr 2
      · split_ifs <;> omega
      · congr 1
        · split_ifs <;> omega
        · congr 1
          split_ifs <;> omega
  obtain ⟨a, ha, has, hag⟩ := hmul
  refine ⟨a.sumAxis 0, ?_, by simp [Arr.sumAxis, has], fun y hy x hx => ?_⟩
  · unfold ZD.recon reconFromZerns
    rw [ha]; rfl
  · have hL : (a.sumAxis 0).get [y, x] = ∑ k ∈ Finset.range (s.len c.length), a.get [k, y, x] := by
      simp [Arr.sumAxis, has]
    rw [hL]
    unfold modesSum
    have hset : (Finset.range c.length).filter (Selected s c.length) = Finset.Ico (s.lo c.length) (s.hi c.length) := by
      ext k
      simp only [Finset.mem_filter, Finset.mem_range, Finset.mem_Ico, selected_iff]
      omega
    rw [hset, Finset.sum_Ico_eq_sum_range]
    refine Finset.sum_congr rfl fun k hk => ?_
    have hk' : k < s.len c.length := Finset.mem_range.mp hk
    rw [hag k hk' y hy x hx, add_comm k]
    congr 1
    simp only [sliceList, List.getD_eq_getElem?_getD, List.getElem?_take, List.getElem?_drop, if_pos hk']

/-- C71: `phase(s)` and `mag(s)` are the sums of the selected modes times their coefficients. -/
theorem C71_recon (z : ZD) (m N : ℕ) (hp : z.pcoefs.length = m) (hm : z.mcoefs.length = m) (hz : z.zerns.shape = [m, N, N])
    (s : Slice) :
    ∃ a b, z.phase s = .ok a ∧ z.mag s = .ok b ∧ a.shape = [N, N] ∧ b.shape = [N, N] ∧ ∀ y < N, ∀ x < N,
      a.get [y, x] = modesSum z.pcoefs z.zerns s y x ∧ b.get [y, x] = modesSum z.mcoefs z.zerns s y x := by
  obtain ⟨a, a1, a2, a3⟩ := recon_form z z.pcoefs N (by rw [hz, hp]) s
  obtain ⟨b, b1, b2, b3⟩ := recon_form z z.mcoefs N (by rw [hz, hm]) s
  exact ⟨a, b, a1, b1, a2, b2, fun y hy x hx => ⟨a3 y hy x hx, b3 y hy x hx⟩⟩

open Classical in
theorem modesSum_split (c : List ℝ) (zerns : Arr ℝ) (a : ℤ) (y x : ℕ) :
    modesSum c zerns ⟨none, some a⟩ y x + modesSum c zerns ⟨some a, none⟩ y x = modesSum c zerns Slice.all y x := by
  unfold modesSum
  rw [← Finset.sum_union]
  · refine Finset.sum_congr ?_ fun _ _ => rfl
    ext k
    rw [Finset.mem_union, Finset.mem_filter, Finset.mem_filter, Finset.mem_filter]
    simp only [Finset.mem_range, Selected, Slice.all, reduceCtorEq, false_implies,
      implies_true, Option.some.injEq, forall_eq', and_true, true_and]
    split_ifs <;> omega
  · rw [Finset.disjoint_left]
    intro k
    simp only [Finset.mem_filter, Finset.mem_range, Selected, reduceCtorEq, false_implies,
      implies_true, Option.some.injEq, forall_eq', and_true, true_and]
    (try split_ifs) <;> omega

/-- C71: cutting the modes at any position `a`, the reconstructions from the two parts add up to the full one. -/
theorem C71_additive (z : ZD) (m N : ℕ) (hp : z.pcoefs.length = m) (hm : z.mcoefs.length = m) (hz : z.zerns.shape = [m, N, N])
    (a : ℤ) :
    ∃ p1 p2 p m1 m2 m', z.phase ⟨none, some a⟩ = .ok p1 ∧ z.phase ⟨some a, none⟩ = .ok p2 ∧ z.phase Slice.all = .ok p ∧
      z.mag ⟨none, some a⟩ = .ok m1 ∧ z.mag ⟨some a, none⟩ = .ok m2 ∧ z.mag Slice.all = .ok m' ∧
      ∀ y < N, ∀ x < N, p1.get [y, x] + p2.get [y, x] = p.get [y, x] ∧ m1.get [y, x] + m2.get [y, x] = m'.get [y, x] := by
  obtain ⟨p1, m1, e1, f1, -, -, g1⟩ := C71_recon z m N hp hm hz ⟨none, some a⟩
  obtain ⟨p2, m2, e2, f2, -, -, g2⟩ := C71_recon z m N hp hm hz ⟨some a, none⟩
  obtain ⟨p, m', e, f, -, -, g⟩ := C71_recon z m N hp hm hz Slice.all
  refine ⟨p1, p2, p, m1, m2, m', e1, e2, e, f1, f2, f, fun y hy x hx => ?_⟩
  rw [(g1 y hy x hx).1, (g1 y hy x hx).2, (g2 y hy x hx).1, (g2 y hy x hx).2, (g y hy x hx).1, (g y hy x hx).2]
  exact ⟨modesSum_split _ _ _ _ _, modesSum_split _ _ _ _ _⟩

open Classical in
theorem modesSum_from (c : List ℝ) (zerns : Arr ℝ) (y x : ℕ) :
    modesSum c zerns ⟨some 4, none⟩ y x = ∑ k ∈ Finset.Ico 4 c.length, c.getD k 0 * zerns.get [k, y, x] := by
  unfold modesSum
  refine Finset.sum_congr ?_ fun _ _ => rfl
  ext k
  simp only [Finset.mem_filter, Finset.mem_range, Selected, Finset.mem_Ico, reduceCtorEq, false_implies,
      implies_true, Option.some.injEq, forall_eq', and_true]
  omega

open Classical in
theorem modesSum_all (c : List ℝ) (zerns : Arr ℝ) (y x : ℕ) :
    modesSum c zerns Slice.all y x = ∑ k ∈ Finset.range c.length, c.getD k 0 * zerns.get [k, y, x] := by
  unfold modesSum
  refine Finset.sum_congr ?_ fun _ _ => rfl
  ext k
  rw [Finset.mem_filter]
  simp only [Finset.mem_range, Selected, Slice.all, reduceCtorEq, false_implies, implies_true]
  tauto

/-- C71: `complex_pupil(smag, sphase)` combines the two reconstructions. -/
theorem C71_complex_pupil (z : ZD) (m N : ℕ) (hp : z.pcoefs.length = m) (hm : z.mcoefs.length = m) (hz : z.zerns.shape = [m, N, N])
    (s t : Slice) :
    ∃ P, z.complexPupil s t = .ok P ∧ P.shape = [N, N] ∧ ∀ y < N, ∀ x < N, P.get [y, x] =
      (modesSum z.mcoefs z.zerns s y x : ℂ) * Complex.exp (Complex.I * (modesSum z.pcoefs z.zerns t y x : ℂ)) := by
  obtain ⟨_, b, -, b1, -, b2, b3⟩ := C71_recon z m N hp hm hz s
  obtain ⟨a, _, a1, -, a2, -, a3⟩ := C71_recon z m N hp hm hz t
  obtain ⟨P, p1, p2, p3⟩ := zipB_same (fun (m p : ℝ) => (m : ℂ) * Complex.exp (Complex.I * (p : ℂ))) b a (by rw [a2, b2])
  rw [b2] at p2 p3
  refine ⟨P, ?_, p2, fun y hy x hx => ?_⟩
  · unfold ZD.complexPupil
    rw [b1, a1]
    exact p1
  · rw [p3 _ (inShape2.mpr ⟨hy, hx⟩), (b3 y hy x hx).2, (a3 y hy x hx).1]

/-- C71: `generate_zd_psf(zsize=.., zrange=..)` with the default slice: the intensities, in the planes asked for, of the
pupil with all the magnitude modes and with the phase modes from number 5 on, i.e. without piston, tip, tilt and
defocus.  Existing objects are left as they were. -/
theorem C71_zd_psf {p : Params} {w n i r dz : ℚ} {N Z : ℕ} {zs zs' : List ℚ} (ho : Optics p w n i r N zs .none .none)
    (hw : w ≠ 0) (hr : r ≠ 0) (hN : 0 < N)
    (h1 : p.zsize = some (.int Z)) (h2 : ∃ u, p.zres = some u ∧ u.num? = some (.fin dz)) {zsize : Option PyVal}
    {zrange : Option ZArg} (hask : Asked zs dz zsize zrange zs') (o : HObj) (hop : o.params = p) (heap : Heap) (ref : ℕ)
    (href : heap[ref]? = some o) (data : Arr ℝ) (zd : ZD) (m : ℕ) (hp : zd.pcoefs.length = m) (hm : zd.mcoefs.length = m)
    (hz : zd.zerns.shape = [m, N, N]) :
    ∃ psf o', (generateZdPsf (some zd) ref (zsize := zsize) (zrange := zrange)) heap = (.ok psf, heap ++ [o']) ∧
      psf.shape = [zs'.length, N, N] ∧ ∀ z y x, psf.get [z, y, x] =
        ‖(prProblem data w n i r zs'.length N zs').amplitude (fun i j =>
          ((∑ k ∈ Finset.range m, zd.mcoefs.getD k 0 * zd.zerns.get [k, pixelOf N i, pixelOf N j] : ℝ) : ℂ) *
            Complex.exp (Complex.I * (∑ k ∈ Finset.Ico 4 m, zd.pcoefs.getD k 0 * zd.zerns.get [k, pixelOf N i, pixelOf N j] : ℝ))) z y x‖ ^ 2 := by
  obtain ⟨P, p1, p2, p3⟩ := C71_complex_pupil zd m N hp hm hz Slice.all ⟨some 4, none⟩
  obtain ⟨A, o', g1, g2, g3⟩ := generatePsf_form ho hw hr hN h1 h2 hask o hop heap ref href P p2 data
  have hshape : (psfiOf A).shape = [zs'.length, N, N] := psfiOf_shape A _ _ _ _ g2
  refine ⟨psfiOf A, o', ?_, hshape, fun z y x => ?_⟩
  · unfold generateZdPsf
    simp only [PyM.bind_apply, PyM.lift_apply, p1, g1, resizePsf_none _ _ _ hshape]
  · rw [psfiOf_get A _ _ _ _ g2, Finset.sum_range_one, g3]
    congr 2
    refine Problem.amplitude_congr _ ?_ z y x
    intro i hi j hj
    have hpx : ∀ k, pixelOf N k < N := fun k => Nat.mod_lt _ hN
    simp only
    rw [p3 _ (hpx i) _ (hpx j), modesSum_all, modesSum_from, hp, hm]

/-- C71: without a previous `fit_to_zernikes` it is an `AttributeError`. -/
theorem C71_zd_missing (ref : ℕ) (s : Slice) (size : Option ℤ) (zsize : Option PyVal) (zrange : Option ZArg) (heap : Heap) :
    (generateZdPsf none ref s size zsize zrange heap).1 = .error .attributeError := rfl

/-! ## Results of `retrieve_phase` -/

/-- The results `retrieve_phase` returns are of the kind C70 is about. -/
theorem retrieved_result (unwrap : Arr ℝ → Arr ℝ) (hun : Unwraps unwrap) (data : Arr ℝ) (d : PyDict)
    (w n i r : ℚ) (Z N : ℕ) (zs : List ℚ) (hset : Setup d w n i r Z zs) (hdata : data.shape = [Z, N, N]) (hN : 2 ≤ N)
    (hZ : 0 < Z) (M : ℤ) (hM : 0 < M) (pt mt : ℝ) (b : Bool) (res : PRResult) (d' : PyDict)
    (h : retrievePhase unwrap data M pt mt b d = (.ok res, d')) :
    ResultOf res w n r N ∧ res.mag.shape = [N, N] ∧ res.phase.shape = [N, N] := by
  obtain ⟨r1, m1, F1, p, e1, run, hopt, hdict⟩ := retrieve_form unwrap hun.shape data d hset hdata hN hZ M hM pt mt b
  rw [h] at e1
  simp only [Prod.mk.injEq, Except.ok.injEq] at e1
  obtain ⟨rfl, -⟩ := e1
  refine ⟨?_, run.magShape, run.phaseShape⟩
  obtain ⟨mag, phase, mse, pd, md, model, hnew⟩ : ∃ mag phase mse pd md model, PRResult.new mag phase mse pd md model = .ok res := by
    have hrun := congrArg Prod.fst h
    unfold retrievePhase at hrun
    simp only [PyM.bind_apply, PyM.lift_apply] at hrun
    have hchk : prChecks data M = .ok (Z, N) := by simp [prChecks, hM, hdata]
    simp only [hchk] at hrun
    have hrun' : prRun unwrap data (d.update (prOverride Z N)) M.toNat pt mt b = .ok res := hrun
    unfold prRun at hrun'
    simp only [bind, Except.bind] at hrun'
    repeat' split at hrun'
    all_goals first | contradiction | exact ⟨_, _, _, _, _, _, hrun'⟩
  have hmodel : res.model = model := by
    unfold PRResult.new at hnew
    simp only [bind, Except.bind, pure, Except.pure] at hnew
    repeat' split at hnew
    all_goals first | contradiction | (injection hnew with hnew; rw [← hnew])
  obtain ⟨a, hmod, -⟩ := run.model
  have hopt' : Optics model.params w n i r N zs .none .none := by
    rw [← hmodel, hmod]; exact hopt
  obtain ⟨x, hx, -, -, hx2⟩ := resultOf_new (mag := mag) (phase := phase) (mse := mse) (pd := pd) (md := md) hopt' hset.wl.2.ne' hset.res.2.2
    (show 0 < N by omega) (by simp)
  rw [hx] at hnew
  injection hnew with hnew
  rw [← hnew]
  exact hx2

/-- C70 for `retrieve_phase`: fitting 2 to 120 modes to a retrieved pupil works and is the least squares optimum. -/
theorem C70_retrieved (lstsq : ℕ → List (List ℝ) → List ℝ → Py (List ℝ)) (hls : LeastSquares lstsq)
    (unwrap : Arr ℝ → Arr ℝ) (hun : Unwraps unwrap) (data : Arr ℝ) (d : PyDict)
    (w n i r : ℚ) (Z N : ℕ) (zs : List ℚ) (hset : Setup d w n i r Z zs) (hdata : data.shape = [Z, N, N]) (hN : 2 ≤ N)
    (hZ : 0 < Z) (M : ℤ) (hM : 0 < M) (pt mt : ℝ) (b : Bool) (res : PRResult) (d' : PyDict)
    (h : retrievePhase unwrap data M pt mt b d = (.ok res, d')) (L : ℕ) (hL : 2 ≤ L) (hL' : L ≤ 120) :
    ∃ zd D, res.fitToZernikes lstsq L = .ok zd ∧ NollModes D L ∧ zd.mcoefs.length = L ∧ zd.pcoefs.length = L ∧
      zd.zerns.shape = [L, N, N] ∧
      ∀ c : List ℝ, c.length = L →
        fitError D N r ((n / w : ℚ) : ℝ) res.mag zd.mcoefs ≤ fitError D N r ((n / w : ℚ) : ℝ) res.mag c ∧
        fitError D N r ((n / w : ℚ) : ℝ) res.phase zd.pcoefs ≤ fitError D N r ((n / w : ℚ) : ℝ) res.phase c := by
  obtain ⟨h1, h2, h3⟩ := retrieved_result unwrap hun data d w n i r Z N zs hset hdata hN hZ M hM pt mt b res d' h
  obtain ⟨zd, D, g1, g2, g3, g4, g5, -, g6⟩ := C70_optimum lstsq hls res w n r N h1 hset.wl.2 hset.na.2 hN h2 h3 L hL hL'
  exact ⟨zd, D, g1, g2, g3, g4, g5, g6⟩

/-- Non-vacuity: retrieve from a 3 x 8 x 8 stack, fit 10 modes with some least squares routine, rebuild the PSF. -/
example : ∃ lstsq, LeastSquares lstsq ∧ ∃ res d' zd psf o,
    retrievePhase id ⟨[3, 8, 8], fun _ => 0⟩ 2 0 0 false demoDict = (.ok res, d') ∧ res.fitToZernikes lstsq 10 = .ok zd ∧
      res.fitToZernikes lstsq 1 = .error .indexError ∧
      (generateZdPsf (some zd) 0 (zsize := some (.int 5))) [res.model] = (.ok psf, [res.model, o]) ∧ psf.shape = [5, 8, 8] := by
  obtain ⟨lstsq, hls⟩ := leastSquares_exists
  have hun : Unwraps (id : Arr ℝ → Arr ℝ) := ⟨fun _ => rfl, fun a idx => ⟨0, by simp⟩⟩
  obtain ⟨res, m, F, p, h, run, hopt, hdict⟩ := retrieve_form id hun.shape ⟨[3, 8, 8], fun _ => 0⟩ demoDict (demoDict_setup 3) rfl (by norm_num)
    (by norm_num) 2 (by norm_num) 0 0 false
  obtain ⟨zd, D, g1, -, g3, g4, g5, -⟩ := C70_retrieved lstsq hls id hun _ demoDict _ _ _ _ 3 8 _ (demoDict_setup 3) rfl
    (by norm_num) (by norm_num) 2 (by norm_num) 0 0 false res _ h 10 (by norm_num) (by norm_num)
  obtain ⟨h1, h2, h3⟩ := retrieved_result id hun _ demoDict _ _ _ _ 3 8 _ (demoDict_setup 3) rfl
    (by norm_num) (by norm_num) 2 (by norm_num) 0 0 false res _ h
  obtain ⟨o0, f1, -, -, f2, f3⟩ := setup_model (N := 8) (demoDict_setup 3)
  rw [hdict] at f1
  injection f1 with f1
  rw [← f1] at f2 f3
  obtain ⟨a, hmod, -⟩ := run.model
  obtain ⟨psf, o, q1, q2, -⟩ := C71_zd_psf hopt (demoDict_setup 3).wl.2.ne' (demoDict_setup 3).res.2.2 (by norm_num) f2
    (f3 200 (Or.inr ⟨_, rfl, rfl⟩)) (zsize := some (.int 5)) (zrange := none)
    (zs' := (List.range 5).map fun (k : ℕ) => ((k : ℚ) - ((5 + 1) / 2 : ℕ)) * 200) ⟨Or.inr ⟨5, rfl⟩, 5, rfl, rfl⟩ res.model (by rw [hmod])
    [res.model] 0 rfl ⟨[], fun _ => 0⟩ zd 10 g4 g3 g5
  exact ⟨lstsq, hls, res, _, zd, psf, o, h, g1,
    C70_unusable lstsq res _ _ _ 8 h1 (demoDict_setup 3).wl.2 (demoDict_setup 3).na.2 (by norm_num) 1 (Or.inl le_rfl), q1, by simpa using q2⟩

end PyOTF
