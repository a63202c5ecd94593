import Verif.Props.C58_Confocal
import Verif.Props.C19_C20_Radial
import Verif.Props.C22_C24_Noll
import Verif.Spec.Centred
import Verif.Lemmas.Pair
import Verif.Props.C07_C09_EasyFft

/-!
# C95: the Apotome PSF
-/

open Complex

namespace PyOTF

/-! ## Specification -/

/-- Centred lateral spectrum of plane `iz` of a stack of `N` x `N` images. -/
noncomputable def planeSpectrum (b : Arr ℝ) (N iz p q : ℕ) : ℂ :=
  ∑ y ∈ Finset.range N, ∑ x ∈ Finset.range N, (b.get [iz, y, x] : ℂ) * exp (-(2 * Real.pi * I * ((turns N y p + turns N x q : ℝ) : ℂ)))

open Classical in
/-- The pixels whose distance from the centre `(N // 2, N // 2)` rounds to `k`. -/
noncomputable def ringPixels (N k : ℕ) : Finset (ℕ × ℕ) :=
  (Finset.range N ×ˢ Finset.range N).filter fun p =>
    rint (Real.sqrt (((p.1 : ℝ) - (N / 2 : ℕ)) ^ 2 + ((p.2 : ℝ) - (N / 2 : ℕ)) ^ 2)) = (k : ℤ)

/-- Mean of the lateral spectrum of a plane over ring `k`. -/
noncomputable def ringMean (b : Arr ℝ) (N iz k : ℕ) : ℂ :=
  (∑ p ∈ ringPixels N k, planeSpectrum b N iz p.1 p.2) / ((ringPixels N k).card : ℂ)

/-! ## Proofs -/

theorem pixelDist_pair (N p q : ℕ) : pixelDist ([N, N].map fun n => ((n / 2 : ℕ) : ℝ)) [p, q] =
    Real.sqrt (((p : ℝ) - (N / 2 : ℕ)) ^ 2 + ((q : ℝ) - (N / 2 : ℕ)) ^ 2) := by
  simp [pixelDist, Finset.sum_range_succ]

theorem ringSet_pair (N k : ℕ) : ringSet [N, N] ([N, N].map fun n => ((n / 2 : ℕ) : ℝ)) 1 k =
    (ringPixels N k).image fun p => [p.1, p.2] := by
  ext i
  simp only [ringSet, ringPixels, Finset.mem_filter, List.mem_toFinset, mem_indices, Finset.mem_image, Finset.mem_product, Finset.mem_range,
    Prod.exists]
  constructor
  · rintro ⟨hi, hr⟩
    cases hi with
    | @cons p _ i _ hp hi =>
      cases hi with
      | @cons q _ i _ hq hi =>
        cases hi
        rw [div_one, pixelDist_pair] at hr
        exact ⟨p, q, ⟨⟨hp, hq⟩, hr⟩, rfl⟩
  · rintro ⟨p, q, ⟨⟨hp, hq⟩, hr⟩, rfl⟩
    refine ⟨.cons hp (.cons hq .nil), ?_⟩
    rw [div_one, pixelDist_pair]; exact hr

theorem pair_injective : Function.Injective fun p : ℕ × ℕ => [p.1, p.2] := by
  rintro ⟨a, b⟩ ⟨c, d⟩ h
  simpa using h

theorem hybrid_get (b : Arr ℝ) (Z N iz p q : ℕ) (hs : b.shape = [Z, N, N]) (hz : iz < Z) (hp : p < N) (hq : q < N) :
    (easyFft (some [1, 2]) (b.map fun (v : ℝ) => (v : ℂ))).get [iz, p, q] = planeSpectrum b N iz p q := by
  have hs' : (b.map fun (v : ℝ) => (v : ℂ)).shape = [Z, N, N] := hs
  have hg : GoodAxes (axesOf (some [1, 2]) (b.map fun (v : ℝ) => (v : ℂ)).shape) (b.map fun (v : ℝ) => (v : ℂ)).shape := by
    rw [hs']; exact ⟨by simp [axesOf], by simp [axesOf]⟩
  rw [(C08_easy_fft_centred _ _ hg).2 [iz, p, q] (by rw [easyFft_shape, hs']; exact .cons hz (.cons hp (.cons hq .nil)))]
  obtain ⟨sh, g⟩ := b
  cases hs
  simp only [axesOf, Arr.alongAxes, Arr.alongAxis, centredDFT, Arr.map, planeSpectrum, List.foldr, List.getD_cons_succ, List.getD_cons_zero,
    List.set_cons_succ, List.set_cons_zero, Option.getD_some]
  refine Finset.sum_congr rfl fun y _ => ?_
  rw [Finset.sum_mul]
  refine Finset.sum_congr rfl fun x _ => ?_
  rw [mul_assoc, ← exp_add]
  congr 2
  simp only [turns]
  generalize N / 2 = h
  push_cast; ring

/-- The profile of one plane. -/
theorem plane_profile (b : Arr ℝ) (Z N : ℕ) (hs : b.shape = [Z, N, N]) (hN : 0 < N) : ∃ L : ℕ, N / 2 < L ∧ ∀ iz < Z, ∃ prof sd,
    radialProfileC ⟨(easyFft (some [1, 2]) (b.map fun (v : ℝ) => (v : ℂ))).shape.tail,
      fun i => (easyFft (some [1, 2]) (b.map fun (v : ℝ) => (v : ℂ))).get (iz :: i)⟩ none 1 = .ok (prof, sd) ∧
    prof.mapM id = some ((List.range L).map fun k => ringMean b N iz k) := by
  have hL : ∃ L : ℕ, ∀ k : ℕ, k < L ↔ ∃ i, InShape i [N, N] ∧ (k : ℤ) ≤ rint (pixelDist ([N, N].map fun n => ((n / 2 : ℕ) : ℝ)) i / 1) := by
    obtain ⟨p, s, -, -, hk, -⟩ := C19_radial_profile ⟨[N, N], fun _ => 0⟩ none _ rfl 1 one_pos
    exact ⟨p.length, hk⟩
  obtain ⟨L, hL⟩ := hL
  refine ⟨L, (hL _).mpr ⟨[0, N / 2], .cons hN (.cons (by omega) .nil), ?_⟩, fun iz hz => ?_⟩
  · rw [div_one, pixelDist_pair]
    have : Real.sqrt ((((0 : ℕ) : ℝ) - (N / 2 : ℕ)) ^ 2 + (((N / 2 : ℕ) : ℝ) - (N / 2 : ℕ)) ^ 2) = ((N / 2 : ℕ) : ℝ) := by
      rw [show (((0 : ℕ) : ℝ) - (N / 2 : ℕ)) ^ 2 + (((N / 2 : ℕ) : ℝ) - (N / 2 : ℕ)) ^ 2 = ((N / 2 : ℕ) : ℝ) ^ 2 by push_cast; ring]
      exact Real.sqrt_sq (by positivity)
    rw [this, rint_natCast]
  · have hsh : (easyFft (some [1, 2]) (b.map fun (v : ℝ) => (v : ℂ))).shape.tail = [N, N] := by
      rw [easyFft_shape]; show b.shape.tail = _; rw [hs]; rfl
    rw [hsh]
    obtain ⟨p, s, h1, -, h2, h3⟩ := C19_radial_profile_complex
      ⟨[N, N], fun i => (easyFft (some [1, 2]) (b.map fun (v : ℝ) => (v : ℂ))).get (iz :: i)⟩ none _ rfl 1 one_pos
    have hpL : p.length = L := by
      have : ∀ k, k < p.length ↔ k < L := fun k => (h2 k).trans (hL k).symm
      have a := this p.length
      have b := this L
      omega
    refine ⟨p, s, h1, ?_⟩
    have hp : p = (List.range L).map fun k => some (ringMean b N iz k) := by
      refine List.ext_getElem (by simp [hpL]) fun k hk _ => ?_
      have hk' := hk
      rw [h2] at hk'
      obtain ⟨i, hi, hki⟩ := hk'
      have h4 := ((h3 k hk).2 (ringSet_nonempty _ k i hi hki)).1
      rw [List.getElem?_eq_getElem hk] at h4
      have h4 := Option.some.inj h4
      rw [h4, List.getElem_map, List.getElem_range, ringMean]
      simp only
      rw [ringSet_pair, Finset.sum_image fun a _ b _ h => pair_injective h, Finset.card_image_of_injective _ pair_injective]
      congr 2
      refine Finset.sum_congr rfl fun pq hpq => ?_
      simp only [ringPixels, Finset.mem_filter, Finset.mem_product, Finset.mem_range] at hpq
      exact hybrid_get b Z N iz _ _ hs hz hpq.1.1 hpq.1.2
    rw [hp]
    clear hp
    generalize List.range L = l
    induction l with
    | nil => rfl
    | cons x l ih => simp [List.mapM_cons, ih]

theorem cmaxLex_left {E : ℝ} {x : ℂ} (hx : ‖x‖ ≤ E) : cmaxLex (E : ℂ) x = E := by
  have h1 : x.re ≤ ‖x‖ := re_le_norm x
  unfold cmaxLex
  rw [if_neg]
  rintro (h | ⟨h, h'⟩)
  · simp at h; linarith
  · simp at h h'
    have : ‖x‖ ^ 2 = x.re ^ 2 + x.im ^ 2 := by rw [← normSq_eq_norm_sq, normSq_apply]; ring
    have hE : ‖x‖ = E := le_antisymm hx (h ▸ h1)
    rw [hE, h] at this
    have : x.im ^ 2 = 0 := by linarith
    have := pow_eq_zero_iff (two_ne_zero) |>.mp this
    linarith

theorem cmaxLex_right {E : ℝ} {x : ℂ} (hx : ‖x‖ ≤ E) : cmaxLex x (E : ℂ) = E := by
  have h1 : x.re ≤ ‖x‖ := re_le_norm x
  have : ‖x‖ ^ 2 = x.re ^ 2 + x.im ^ 2 := by rw [← normSq_eq_norm_sq, normSq_apply]; ring
  unfold cmaxLex
  split_ifs with h
  · rfl
  · simp only [ofReal_re, ofReal_im, not_or, not_lt, not_and] at h
    have hr : x.re = E := le_antisymm (h1.trans hx) h.1
    have h2 := h.2 hr
    have hE : ‖x‖ = E := le_antisymm hx (hr ▸ h1)
    rw [hE, hr] at this
    have h3 : x.im ^ 2 = 0 := by linarith
    have h3 := pow_eq_zero_iff (two_ne_zero) |>.mp h3
    exact Complex.ext (by simpa using hr) (by simpa using h3)

theorem cmaxLex_mem (a b : ℂ) : cmaxLex a b = a ∨ cmaxLex a b = b := by
  unfold cmaxLex; split_ifs <;> simp

theorem fold_cmaxLex {E : ℝ} (l : List ℂ) : ∀ v : ℂ, (∀ x ∈ v :: l, ‖x‖ ≤ E) → (E : ℂ) ∈ v :: l → l.foldl cmaxLex v = E := by
  induction l with
  | nil => intro v _ h; exact (List.mem_singleton.mp h).symm
  | cons w l ih =>
    intro v hb hm
    refine ih _ (fun x hx => ?_) ?_
    · rcases List.mem_cons.mp hx with rfl | hx
      · rcases cmaxLex_mem v w with h | h <;> rw [h]
        · exact hb v (by simp)
        · exact hb w (by simp)
      · exact hb x (by simp [hx])
    · rcases List.mem_cons.mp hm with h | h
      · rw [← h, cmaxLex_left (hb w (by simp))]; simp
      · rcases List.mem_cons.mp h with h | h
        · rw [← h, cmaxLex_right (hb v (by simp))]; simp
        · exact List.mem_cons_of_mem _ h

theorem planeSpectrum_le (b : Arr ℝ) (N iz p q : ℕ) (hb : ∀ i, 0 ≤ b.get i) : ‖planeSpectrum b N iz p q‖ ≤ planeEnergy b N iz := by
  refine (norm_sum_le _ _).trans (Finset.sum_le_sum fun y _ => (norm_sum_le _ _).trans (Finset.sum_le_sum fun x _ => ?_))
  rw [norm_mul, show -(2 * Real.pi * I * ((turns N y p + turns N x q : ℝ) : ℂ)) = ((-(2 * Real.pi * (turns N y p + turns N x q)) : ℝ) : ℂ) * I by
    push_cast; ring, norm_exp_ofReal_mul_I, mul_one, norm_real, Real.norm_of_nonneg (hb _)]

theorem ringMean_le (b : Arr ℝ) (N iz k : ℕ) (hb : ∀ i, 0 ≤ b.get i) : ‖ringMean b N iz k‖ ≤ planeEnergy b N iz := by
  have hE : 0 ≤ planeEnergy b N iz := Finset.sum_nonneg fun _ _ => Finset.sum_nonneg fun _ _ => hb _
  rw [ringMean, norm_div, norm_natCast]
  rcases Nat.eq_zero_or_pos (ringPixels N k).card with h | h
  · rw [h]; simpa using hE
  · rw [div_le_iff₀ (by exact_mod_cast h)]
    refine (norm_sum_le _ _).trans ((Finset.sum_le_card_nsmul _ _ _ fun p _ => planeSpectrum_le b N iz _ _ hb).trans ?_)
    rw [nsmul_eq_mul, mul_comm]

theorem ringPixels_zero (N : ℕ) (hN : 0 < N) : ringPixels N 0 = {(N / 2, N / 2)} := by
  ext ⟨p, q⟩
  simp only [ringPixels, Finset.mem_filter, Finset.mem_product, Finset.mem_range, Finset.mem_singleton, Prod.mk.injEq]
  constructor
  · rintro ⟨⟨hp, hq⟩, hr⟩
    have h1 := rint_nearest (Real.sqrt (((p : ℝ) - (N / 2 : ℕ)) ^ 2 + ((q : ℝ) - (N / 2 : ℕ)) ^ 2))
    rw [hr] at h1
    simp only [Nat.cast_zero, Int.cast_zero, sub_zero] at h1
    rw [abs_of_nonneg (Real.sqrt_nonneg _), Real.sqrt_le_left (by norm_num)] at h1
    have key : ∀ (u : ℕ) (c : ℕ), ((u : ℝ) - c) ^ 2 ≤ (1 / 2) ^ 2 → u = c := by
      intro u c h
      by_contra hne
      have : (1 : ℤ) ≤ ((u : ℤ) - c) ^ 2 := by
        have : (u : ℤ) - c ≠ 0 := by omega
        have := sq_pos_of_ne_zero this
        omega
      have : (1 : ℝ) ≤ ((u : ℝ) - c) ^ 2 := by exact_mod_cast this
      norm_num at h
      linarith
    exact ⟨key _ _ (le_trans (by nlinarith [sq_nonneg ((q : ℝ) - (N / 2 : ℕ))]) h1), key _ _ (le_trans (by nlinarith [sq_nonneg ((p : ℝ) - (N / 2 : ℕ))]) h1)⟩
  · rintro ⟨rfl, rfl⟩
    refine ⟨by omega, ?_⟩
    simp only [sub_self]
    rw [show ((0 : ℝ) ^ 2 + 0 ^ 2) = 0 by norm_num, Real.sqrt_zero]
    simpa using rint_natCast (K := ℝ) 0

theorem ringMean_zero (b : Arr ℝ) (N iz : ℕ) (hN : 0 < N) : ringMean b N iz 0 = (planeEnergy b N iz : ℝ) := by
  rw [ringMean, ringPixels_zero N hN]
  simp only [Finset.sum_singleton, Finset.card_singleton, Nat.cast_one, div_one, planeSpectrum, planeEnergy, turns, sub_self, mul_zero, zero_div,
    add_zero, ofReal_zero, neg_zero, exp_zero, mul_one, ofReal_sum]

/-- C95: closed form of the Apotome PSF of a stack of images: every plane is multiplied by the modulus of its spectrum averaged over ring `k // 2`
(`k` the Abbe limit in pixels), relative to the energy of the brightest plane. -/
theorem C95_closed_form (b : Arr ℝ) (Z N : ℕ) (hs : b.shape = [Z, N, N]) (hN : 0 < N) (hb : ∀ i, 0 ≤ b.get i) (E : ℝ) (hE : 0 < E)
    (hmax : ∀ iz < Z, planeEnergy b N iz ≤ E) (hatt : ∃ iz < Z, planeEnergy b N iz = E) (k : ℕ) (hk : k / 2 ≤ N / 2) :
    ∃ a, apotomePsf b (.ok (k : ℤ)) = .ok a ∧ a.shape = b.shape ∧ ∀ iz < Z, ∀ y x,
      a.get [iz, y, x] = ‖ringMean b N iz (k / 2)‖ / E * b.get [iz, y, x] := by
  obtain ⟨L, hL, hrow⟩ := plane_profile b Z N hs hN
  have hp : apotomeProfile b (.ok (k : ℤ)) = .ok ((List.range Z).map fun iz => ‖ringMean b N iz (k / 2)‖ / E) := by
    unfold apotomeProfile
    simp only [hs, List.getD_cons_zero]
    rw [mapM_ok _ (fun iz => (List.range L).map fun k => ringMean b N iz k) (List.range Z) (by
      intro iz hiz
      obtain ⟨prof, sd, h1, h2⟩ := hrow iz (List.mem_range.mp hiz)
      rw [h1]
      simp only [bind, Except.bind, h2])]
    simp only [bind, Except.bind]
    obtain ⟨iz0, hz0, hEz⟩ := hatt
    have hmem : (E : ℂ) ∈ ((List.range Z).map fun iz => (List.range L).map fun k => ringMean b N iz k).flatten := by
      rw [List.mem_flatten]
      refine ⟨_, List.mem_map.mpr ⟨iz0, List.mem_range.mpr hz0, rfl⟩, List.mem_map.mpr ⟨0, List.mem_range.mpr (by omega), ?_⟩⟩
      rw [ringMean_zero b N iz0 hN, hEz]
    have hbd : ∀ x ∈ ((List.range Z).map fun iz => (List.range L).map fun k => ringMean b N iz k).flatten, ‖x‖ ≤ E := by
      intro x hx
      rw [List.mem_flatten] at hx
      obtain ⟨l, hl, hx⟩ := hx
      obtain ⟨iz, hiz, rfl⟩ := List.mem_map.mp hl
      obtain ⟨j, -, rfl⟩ := List.mem_map.mp hx
      exact (ringMean_le b N iz j hb).trans (hmax iz (List.mem_range.mp hiz))
    cases hf : ((List.range Z).map fun iz => (List.range L).map fun k => ringMean b N iz k).flatten with
    | nil => rw [hf] at hmem; cases hmem
    | cons v vs =>
      rw [hf] at hmem hbd
      have hm := fold_cmaxLex vs v hbd hmem
      simp only [hm]
      rw [if_neg (by exact_mod_cast hE.ne')]
      rw [show (List.range Z).map (fun iz => ‖ringMean b N iz (k / 2)‖ / E) =
        ((List.range Z).map fun iz => (List.range L).map fun k => ringMean b N iz k).map fun row => ‖row.getD (k / 2) 0 / (E : ℂ)‖ by
          rw [List.map_map]
          refine List.map_congr_left fun iz _ => ?_
          rw [Function.comp, List.getD_eq_getElem _ _ (by simp; omega)]
          simp [abs_of_pos hE]]
      refine mapM_ok _ _ _ fun row hrow' => ?_
      obtain ⟨iz, -, rfl⟩ := List.mem_map.mp hrow'
      have hkz : ((k : ℤ) / 2) = ((k / 2 : ℕ) : ℤ) := by omega
      rw [hkz]
      unfold pyIndex
      rw [if_neg (by omega), Int.toNat_natCast, List.getElem?_eq_getElem (by simp; omega)]
      simp only [List.length_map, List.length_range]
      rw [if_neg (by omega), List.getD_eq_getElem _ _ (by simp; omega)]
      rfl
  refine ⟨⟨b.shape, fun i => ((List.range Z).map fun iz => ‖ringMean b N iz (k / 2)‖ / E).getD (i.getD 0 0) 0 * b.get i⟩,
    by rw [apotomePsf, hp]; rfl, rfl, fun iz hz y x => ?_⟩
  simp only [List.getD_cons_zero]
  rw [List.getD_eq_getElem _ _ (by simpa using hz), List.getElem_map, List.getElem_range]

theorem fdiv_fin {a b : ℚ} (h : b ≠ 0) : PyFloat.div (.fin a) (.fin b) = .ok (.fin (a / b)) := by
  simp [PyFloat.div, h]

/-- The Abbe limit `2 na / wl` in pixels of the frequency grid, rounded. -/
theorem abbeLimit_fin {wl na size res : PyVal} {w n r : ℚ} {N : ℕ} (hw : Denotes wl w) (hn : Denotes na n) (hs : Denotes size N)
    (hr : Denotes res r) (hw0 : 0 < w) (hn0 : 0 < n) :
    abbeLimit wl na size res = .ok (rint (N * r * (2 * n / w))) := by
  unfold Denotes at hw hn hs hr
  have h1 : w / n / 4 ≠ 0 := by positivity
  have h2 : (N : ℚ) * r / (w / n / 4) / 2 = N * r * (2 * n / w) := by field_simp; ring
  have d1 : PyFloat.div (.fin w) (.fin n) = .ok (.fin (w / n)) := fdiv_fin hn0.ne'
  have d2 : PyFloat.div (.fin (w / n)) (.fin 4) = .ok (.fin (w / n / 4)) := fdiv_fin (by norm_num : (4 : ℚ) ≠ 0)
  have d3 : PyFloat.div (PyFloat.mul (.fin N) (.fin r)) (.fin (w / n / 4)) = .ok (.fin (N * r / (w / n / 4))) := fdiv_fin h1
  have d4 : PyFloat.div (.fin (N * r / (w / n / 4))) (.fin 2) = .ok (.fin (N * r / (w / n / 4) / 2)) := fdiv_fin (by norm_num : (2 : ℚ) ≠ 0)
  simp only [abbeLimit, bind, Except.bind, pyNum_of_num hw, pyNum_of_num hn, pyNum_of_num hs, pyNum_of_num hr, d1, d2, d3, d4, h2]
  rfl

theorem modelPsf_apotome (m : Micro) (hk : m.kind = .apotome) :
    (Micro.modelPsf m).1 = (do
      let psfi ← (Inner.getPSFi m.model).1
      apotomePsf psfi (abbeLimit m.psfParams.wl m.psfParams.na m.psfParams.size m.psfParams.res)) := by
  have e : Micro.modelPsf m = (match m.kind with
      | .widefield => Micro.onModel Inner.getPSFi
      | .apotome => do
        let psfi ← Micro.onModel Inner.getPSFi
        PyM.lift (apotomePsf psfi (abbeLimit m.psfParams.wl m.psfParams.na m.psfParams.size m.psfParams.res))
      | .confocal _ pinhole _ => do
        let r ← PyM.lift (pinholeRadius m.model.params pinhole)
        let psfi ← Micro.onModel Inner.getPSFi
        let det ← PyM.lift (pinholed r psfi)
        let exc ← Micro.onExc Inner.getPSFi
        PyM.lift (det.mulB exc)
      | .sim naExc wlExc coherent dc dcSuppress orientations wiener => do
        let s ← PyM.lift (Micro.simNum m.psfParams naExc wlExc)
        let psf ← Micro.simFiltered wiener
        PyM.lift (simPsf s (decide (coherent = .bool true)) (decide (dc = .bool true)) (decide (dcSuppress = .bool true))
          orientations psf) : PyM Micro (Arr ℝ)) m := rfl
  rw [e, hk]
  simp only [PyM.bind_apply, Micro.onModel]
  rcases (Inner.getPSFi m.model).1 with er | p <;> rfl

/-- C95: an Apotome microscope after any history: as long as the images of its PSF model are not all dark and have the size and the sampling the
microscope was built with, its model PSF is the PSF of the model with plane `iz` dimmed by the factor `|mean spectrum of the plane over the ring at half
the Abbe limit| / (energy of the brightest plane)`, a number between 0 and 1. -/
theorem C95_sectioning (m₀ : Micro) (h₀ : Constructed m₀) (ops : List UOp) (m : Micro) (hm : m = (runHistory Micro.ustep m₀ ops).2)
    (hk : m.kind = .apotome) (b : Arr ℝ) (hb : (Inner.getPSFi m.model).1 = .ok b) (Z N : ℕ) (hs : b.shape = [Z, N, N])
    (hlit : ∃ iz < Z, 0 < planeEnergy b N iz) (w n r : ℚ) (hwl : Denotes m.psfParams.wl w) (hna : Denotes m.psfParams.na n)
    (hsize : Denotes m.psfParams.size N) (hres : Denotes m.psfParams.res r) (hw0 : 0 < w) (hn0 : 0 < n) (hr0 : 0 ≤ r) (hr : r < w / (2 * n)) :
    ∃ (c : Arr ℝ) (E : ℝ) (k : ℕ), (Micro.modelPsf m).1 = .ok c ∧ c.shape = [Z, N, N] ∧
      (k : ℤ) = rint (N * r * (2 * n / w)) ∧ k / 2 ≤ N / 2 ∧
      (∀ iz < Z, planeEnergy b N iz ≤ E) ∧ (∃ iz < Z, planeEnergy b N iz = E) ∧
      ∀ iz < Z, 0 ≤ ‖ringMean b N iz (k / 2)‖ / E ∧ ‖ringMean b N iz (k / 2)‖ / E ≤ 1 ∧
        ∀ y x, c.get [iz, y, x] = ‖ringMean b N iz (k / 2)‖ / E * b.get [iz, y, x] := by
  have hl : MLive m _ := hm ▸ urun_live (constructed_live h₀) ops
  have hnn : NonnegArr b := by
    refine nonneg_psfi hl.model ?_
    rw [← (inner_PSFi hl.model).1]; exact hb
  obtain ⟨iz0, hz0, hpos⟩ := hlit
  obtain ⟨izm, hzm, hmax⟩ := Finset.exists_max_image (Finset.range Z) (fun iz => planeEnergy b N iz) ⟨iz0, Finset.mem_range.mpr hz0⟩
  have hmax' : ∀ iz < Z, planeEnergy b N iz ≤ planeEnergy b N izm := fun iz hz => hmax iz (Finset.mem_range.mpr hz)
  have hE : 0 < planeEnergy b N izm := lt_of_lt_of_le hpos (hmax' iz0 hz0)
  have hN : 0 < N := by
    rcases Nat.eq_zero_or_pos N with rfl | h
    · simp [planeEnergy] at hpos
    · exact h
  have hx : (N : ℚ) * r * (2 * n / w) ≤ N := by
    rw [mul_assoc]
    refine mul_le_of_le_one_right (by positivity) ?_
    rw [lt_div_iff₀ (by positivity)] at hr
    rw [mul_div_assoc', div_le_one hw0]; exact hr.le
  have hk0 : 0 ≤ rint ((N : ℚ) * r * (2 * n / w)) := rint_nonneg (by positivity)
  have hk1 : rint ((N : ℚ) * r * (2 * n / w)) ≤ N := by
    have := rint_mono hx; rwa [rint_natCast] at this
  obtain ⟨k, hkk⟩ := Int.eq_ofNat_of_zero_le hk0
  have hkN : k / 2 ≤ N / 2 := by rw [hkk] at hk1; omega
  obtain ⟨c, c1, c2, c3⟩ := C95_closed_form b Z N hs hN hnn _ hE hmax' ⟨izm, Finset.mem_range.mp hzm, rfl⟩ k hkN
  refine ⟨c, planeEnergy b N izm, k, ?_, by rw [c2, hs], hkk.symm, hkN, hmax', ⟨izm, Finset.mem_range.mp hzm, rfl⟩, fun iz hz => ⟨?_, ?_, fun y x => c3 iz hz y x⟩⟩
  · rw [modelPsf_apotome m hk, hb, abbeLimit_fin hwl hna hsize hres hw0 hn0, hkk]
    exact c1
  · positivity
  · rw [div_le_one hE]; exact (ringMean_le b N iz _ hnn).trans (hmax' iz hz)

/-- C95: `ApotomeMicroscope(model="hanser", ...)` with ordinary arguments can be built; its model PSF is the widefield PSF with every plane dimmed by the
modulus of its normalised transfer function at half the Abbe limit (averaged over the ring), hence nowhere brighter than the widefield PSF. -/
theorem C95_hanser (a : MicroArgs) (o n nz : ℕ) (ho : o % 2 = 1) (hn0 : 0 < n) (hnz : 0 < nz) (q w na i z : ℚ)
    (hq0 : 0 < q) (hmod : a.model = .str "hanser") (hdual : a.kw.dual = none) (hzr : a.kw.zrange = none)
    (hov : a.oversample = .int o) (hsize : a.size = .int n) (hpix : a.pixelSize = .float (.fin q))
    (hwl : Denotes a.wl w) (hw : 0 < w) (hna : Denotes a.na na) (hna0 : 0 < na) (hni : Denotes a.ni i) (hi : 0 < i)
    (hres : q / o < w / (2 * na))
    (hz : Denotes (a.kw.zres.getD a.pixelSize) z) (hz0 : 0 < z) (hzs : DenotesNat (a.kw.zsize.getD a.size) nz)
    (hspec : NoSpecialArgs (PsfParams.initArgs ⟨a.na, a.ni, a.wl, a.kw.zres.getD a.pixelSize, a.kw.zsize.getD a.size,
      .int (n * o), .float (.fin (q / o)), a.kw⟩))
    (hvc : a.kw.vecCorr.getD (.str "none") ∈ [PyVal.str "none", .str "x", .str "y", .str "total"])
    (hcd : a.kw.condition.getD (.str "sine") ∈ [PyVal.str "none", .str "sine", .str "herschel"]) :
    ∃ (m : Micro) (h : HObj) (b c : Arr ℝ) (k : ℕ), Micro.newApotome a = .ok m ∧ m.model = .hanser h ∧ (HObj.getPSFi h).1 = .ok b ∧
      (Micro.modelPsf m).1 = .ok c ∧ b.shape = [nz, n * o, n * o] ∧ c.shape = [nz, n * o, n * o] ∧ (k : ℤ) = rint (n * q * (2 * na / w)) ∧
      ∀ iz < nz, 0 < planeEnergy b (n * o) iz ∧ ∀ y x,
        c.get [iz, y, x] = ‖ringMean b (n * o) iz (k / 2)‖ / planeEnergy b (n * o) iz * b.get [iz, y, x] ∧
        0 ≤ c.get [iz, y, x] ∧ c.get [iz, y, x] ≤ b.get [iz, y, x] := by
  have hopos : 0 < o := by omega
  have ho0 : (o : ℚ) ≠ 0 := by exact_mod_cast hopos.ne'
  obtain ⟨h, v, cd, hnew, hh, hvz, hO⟩ := widefield_setup a o n nz ho q w na i z hmod hdual hzr hov hsize hpix hwl hw hna hna0
    hni hi hres hz hz0 hzs hspec hvc hcd
  obtain ⟨b, hb, hbs, hpos⟩ := hanser_total_pos ⟨h.params, none⟩ rfl hO hw hna0 hi (div_ne_zero hq0.ne' ho0)
    (Nat.mul_pos hn0 hopos) (by simp; omega) hvz
  have hlen : ((List.range nz).map (plane nz z)).length = nz := by simp
  rw [hlen] at hbs
  have hf : (⟨h.params, none⟩ : HSpec).Fits := by intro P' v' h; cases h
  have hsame := C40_same_energy ⟨h.params, none⟩ hf b hb nz (n * o) hbs
  have hrel : HRel h ⟨h.params, none⟩ := by
    obtain ⟨r1, r2⟩ := hanser_ready hh
    rw [r2]; exact HRel.cleared r1
  have hget : (HObj.getPSFi h).1 = .ok b := by rw [(getPSFi_rel hrel).1, hb]
  have hnn : NonnegArr b := nonneg_psfi (i := .hanser h) (s := .hanser ⟨h.params, none⟩) hrel hb
  have hEpos : ∀ iz, 0 < planeEnergy b (n * o) iz := by
    intro iz
    refine lt_of_le_of_ne (Finset.sum_nonneg fun _ _ => Finset.sum_nonneg fun _ _ => hnn _) fun h0 => ?_
    have : b.sum = ∑ iz ∈ Finset.range nz, planeEnergy b (n * o) iz := by
      simp only [Arr.sum, hbs, sumIdx, planeEnergy]
    rw [this, Finset.sum_eq_zero fun j _ => by rw [hsame j iz, ← h0]] at hpos
    exact lt_irrefl _ hpos
  set m := Micro.mk (.int o) (ordinaryParams a n o q) a.pixelSize (.hanser h) .apotome none none with hm
  have hnewA : Micro.newApotome a = .ok m := by rw [Micro.newApotome, hnew]; rfl
  obtain ⟨c, E, k, c1, c2, c3, c4, c5, ⟨iz1, c6, c7⟩, c8⟩ := C95_sectioning m (Or.inr (Or.inl ⟨a, hnewA⟩)) [] m rfl rfl b hget nz (n * o) hbs
    ⟨0, hnz, hEpos 0⟩ w na (q / o) hwl hna (by simp [hm, ordinaryParams, Denotes, PyVal.num?]) rfl hw hna0 (by positivity) hres
  refine ⟨m, h, b, c, k, hnewA, rfl, hget, c1, hbs, c2, ?_, fun iz hiz => ⟨hEpos iz, fun y x => ?_⟩⟩
  · rw [c3]; congr 1; push_cast; field_simp
  · obtain ⟨d1, d2, d3⟩ := c8 iz hiz
    have e1 : E = planeEnergy b (n * o) iz := by rw [← c7]; exact hsame _ _
    refine ⟨by rw [d3, e1], by rw [d3]; exact mul_nonneg d1 (hnn _), by rw [d3]; exact mul_le_of_le_one_left (hnn _) d2⟩

/-- Non-vacuity: the Apotome with the parameters of `demoMicroArgs`; the Abbe limit rounds to 27 pixels, so the grid is at ring 13. -/
example : ∃ m h b c, Micro.newApotome demoMicroArgs = .ok m ∧ m.model = .hanser h ∧ (HObj.getPSFi h).1 = .ok b ∧ (Micro.modelPsf m).1 = .ok c ∧
    ∀ iz < 64, ∀ y x, c.get [iz, y, x] = ‖ringMean b 192 iz 13‖ / planeEnergy b 192 iz * b.get [iz, y, x] := by
  obtain ⟨m, h, b, c, k, h1, h2, h3, h4, -, -, h5, h6⟩ := C95_hanser demoMicroArgs 3 64 64 rfl (by norm_num) (by norm_num)
    130 520 (17/20) 1 130 (by norm_num) rfl rfl rfl rfl rfl rfl (by norm_num [demoMicroArgs, Denotes, PyVal.num?])
    (by norm_num) (by norm_num [demoMicroArgs, Denotes, PyVal.num?]) (by norm_num)
    (by norm_num [demoMicroArgs, Denotes, PyVal.num?]) (by norm_num) (by norm_num)
    (by norm_num [demoMicroArgs, Denotes, PyVal.num?]) (by norm_num) (Or.inl rfl)
    (by constructor <;> simp [demoMicroArgs, NotSpecial, PsfParams.initArgs]) (by simp [demoMicroArgs]) (by simp [demoMicroArgs])
  have hk : k = 27 := by
    have : rint (((64 : ℕ) : ℚ) * 130 * (2 * (17 / 20) / 520)) = 27 := by
      refine rint_unique _ _ ?_ ?_ <;> norm_num [abs_le, abs_of_nonneg]
    rw [this] at h5; omega
  subst hk
  exact ⟨m, h, b, c, h1, h2, h3, h4, fun iz hz y x => ((h6 iz hz).2 y x).1⟩

end PyOTF
