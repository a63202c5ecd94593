import Verif.Props.C39_C43_Hanser
import Verif.Props.C07_C09_EasyFft
import Verif.Lemmas.FieldSym

/-!
# C44-C45: intensity OTF, diffraction limit
-/

namespace PyOTF

open Physics Complex

/-! ## C44 -/

theorem easyFft3_get (u : Arr ℂ) (Z A B : ℕ) (hs : u.shape = [Z, A, B]) (a p q : ℕ) (ha : a < Z) (hp : p < A) (hq : q < B) :
    (easyFft none u).get [a, p, q] = ∑ z ∈ Finset.range Z, ∑ y ∈ Finset.range A, ∑ x ∈ Finset.range B, u.get [z, y, x] *
      (W B (-(((x : ℤ) - (B / 2 : ℕ)) * ((q : ℤ) - (B / 2 : ℕ)))) * W A (-(((y : ℤ) - (A / 2 : ℕ)) * ((p : ℤ) - (A / 2 : ℕ)))) *
        W Z (-(((z : ℤ) - (Z / 2 : ℕ)) * ((a : ℤ) - (Z / 2 : ℕ))))) := by
  rw [(easyFft_same none u (goodAxes_all _)).2 [a, p, q] (by rw [easyFft_shape, hs]; exact .cons ha (.cons hp (.cons hq .nil)))]
  simp only [axesOf, hs, Option.getD_none, List.length_cons, List.length_nil, zero_add, List.range_succ, List.range_zero,
    List.nil_append, List.cons_append, Arr.alongAxes, List.foldr_cons, List.foldr_nil, Arr.alongAxis, List.getD_cons_zero,
    List.getD_cons_succ, List.set_cons_zero, List.set_cons_succ]
  rw [easy1_eq _ ha]
  refine Finset.sum_congr rfl fun z _ => ?_
  rw [easy1_eq _ hp, Finset.sum_mul]
  refine Finset.sum_congr rfl fun y _ => ?_
  rw [easy1_eq _ hq, Finset.sum_mul, Finset.sum_mul]
  refine Finset.sum_congr rfl fun x _ => ?_
  ring

/-- `t` is a centred spectrum of a non-negative three-dimensional array `b`: its central element is the total of `b`,
which no element exceeds in modulus, and elements at opposite frequencies are complex conjugate. -/
structure SpectrumOf (b : List ℕ → ℝ) (t : List ℕ → ℂ) (Z A B : ℕ) : Prop where
  dc : t [Z / 2, A / 2, B / 2] =
    ((∑ z ∈ Finset.range Z, ∑ y ∈ Finset.range A, ∑ x ∈ Finset.range B, b [z, y, x] : ℝ) : ℂ)
  le : ∀ a < Z, ∀ p < A, ∀ q < B, ‖t [a, p, q]‖ ≤
    ∑ z ∈ Finset.range Z, ∑ y ∈ Finset.range A, ∑ x ∈ Finset.range B, b [z, y, x]
  hermitian : ∀ a < Z, ∀ a' < Z, ∀ p < A, ∀ p' < A, ∀ q < B, ∀ q' < B,
    (Z : ℤ) ∣ ((a : ℤ) - (Z / 2 : ℕ)) + ((a' : ℤ) - (Z / 2 : ℕ)) →
    (A : ℤ) ∣ ((p : ℤ) - (A / 2 : ℕ)) + ((p' : ℤ) - (A / 2 : ℕ)) →
    (B : ℤ) ∣ ((q : ℤ) - (B / 2 : ℕ)) + ((q' : ℤ) - (B / 2 : ℕ)) → t [a', p', q'] = (starRingEnd ℂ) (t [a, p, q])

theorem hermitian_easyFft (b : Arr ℝ) (Z A B : ℕ) (hs : b.shape = [Z, A, B]) (hZ : 0 < Z) (hA : 0 < A) (hB : 0 < B) :
    ∀ a < Z, ∀ a' < Z, ∀ p < A, ∀ p' < A, ∀ q < B, ∀ q' < B,
    (Z : ℤ) ∣ ((a : ℤ) - (Z / 2 : ℕ)) + ((a' : ℤ) - (Z / 2 : ℕ)) →
    (A : ℤ) ∣ ((p : ℤ) - (A / 2 : ℕ)) + ((p' : ℤ) - (A / 2 : ℕ)) →
    (B : ℤ) ∣ ((q : ℤ) - (B / 2 : ℕ)) + ((q' : ℤ) - (B / 2 : ℕ)) →
    (easyFft none (b.map fun (v : ℝ) => (v : ℂ))).get [a', p', q'] =
      (starRingEnd ℂ) ((easyFft none (b.map fun (v : ℝ) => (v : ℂ))).get [a, p, q]) := by
  have hg := easyFft3_get (b.map fun (v : ℝ) => (v : ℂ)) Z A B hs
  intro a ha a' ha' p hp p' hp' q hq q' hq' d1 d2 d3
  rw [hg a p q ha hp hq, hg a' p' q' ha' hp' hq']
  simp only [map_sum, map_mul, W_conj, Arr.map, conj_ofReal]
  refine Finset.sum_congr rfl fun z _ => Finset.sum_congr rfl fun y _ => Finset.sum_congr rfl fun x _ => ?_
  have key : ∀ (n : ℕ) (_ : 0 < n) (a a' z : ℕ), (n : ℤ) ∣ ((a : ℤ) - (n / 2 : ℕ)) + ((a' : ℤ) - (n / 2 : ℕ)) →
      W n (-(((z : ℤ) - (n / 2 : ℕ)) * ((a' : ℤ) - (n / 2 : ℕ)))) =
      W n (- -(((z : ℤ) - (n / 2 : ℕ)) * ((a : ℤ) - (n / 2 : ℕ)))) := by
    intro n hn a a' z ⟨d, hd⟩
    apply W_modEq hn
    exact ⟨-(((z : ℤ) - (n / 2 : ℕ)) * d), by linear_combination -(((z : ℤ) - (n / 2 : ℕ))) * hd⟩
  rw [key Z hZ a a' z d1, key A hA p p' y d2, key B hB q q' x d3]

theorem spectrum_easyFft (b : Arr ℝ) (Z A B : ℕ) (hs : b.shape = [Z, A, B]) (hZ : 0 < Z) (hA : 0 < A) (hB : 0 < B)
    (h0 : ∀ z y x, 0 ≤ b.get [z, y, x]) :
    SpectrumOf b.get (easyFft none (b.map fun (v : ℝ) => (v : ℂ))).get Z A B := by
  have hg := easyFft3_get (b.map fun (v : ℝ) => (v : ℂ)) Z A B hs
  refine ⟨?_, ?_, ?_⟩
  · rw [hg _ _ _ (by omega) (by omega) (by omega)]
    simp [W_zero, Arr.map]
  · intro a ha p hp q hq
    rw [hg a p q ha hp hq]
    refine (norm_sum_le _ _).trans (Finset.sum_le_sum fun z _ => ?_)
    refine (norm_sum_le _ _).trans (Finset.sum_le_sum fun y _ => ?_)
    refine (norm_sum_le _ _).trans (Finset.sum_le_sum fun x _ => ?_)
    simp [norm_W, Arr.map, abs_of_nonneg (h0 z y x)]
  · exact hermitian_easyFft b Z A B hs hZ hA hB

theorem fftCheck_pos {axes shape : List ℕ} (h : fftCheck axes shape = .ok ()) : ∀ ax ∈ axes, 0 < shape.getD ax 0 := by
  intro ax hax
  unfold fftCheck at h
  split_ifs at h with hc
  simp only [List.any_eq_true, not_exists, not_and, decide_eq_true_eq] at hc
  exact Nat.pos_of_ne_zero (hc ax hax)

/-- C44: the intensity OTF of a `HanserPSF`, for every state in which it can be computed. -/
theorem C44_otfi (s : HSpec) (t : Arr ℂ) (ht : s.OTFi = .ok t) : ∃ b Z A B, s.PSFi = .ok b ∧ b.shape = [Z, A, B] ∧
    t.shape = [Z, A, B] ∧ 0 < Z ∧ 0 < A ∧ 0 < B ∧ SpectrumOf b.get t.get Z A B := by
  unfold HSpec.OTFi at ht
  obtain ⟨b, hb, ht⟩ := py_bind_ok ht
  unfold otfiOf at ht
  obtain ⟨_, hc, ht⟩ := py_bind_ok ht
  obtain ⟨a, ha, rfl⟩ := PSFi_ok hb
  obtain ⟨b', C, Z, A, B, hb', -, hs, hget⟩ := C39_intensity s a ha
  rw [hb] at hb'
  cases hb'
  have hpos := fftCheck_pos hc
  rw [hs] at hpos
  have hZ := hpos 0 (by simp)
  have hA := hpos 1 (by simp)
  have hB := hpos 2 (by simp)
  simp only [List.getD_cons_zero, List.getD_cons_succ] at hZ hA hB
  refine ⟨_, Z, A, B, hb, hs, ?_, hZ, hA, hB, ?_⟩
  · rw [← py_pure_ok ht, easyFft_shape]; exact hs
  · rw [← py_pure_ok ht]
    exact spectrum_easyFft _ Z A B hs hZ hA hB fun z y x => (hget z y x).2

/-- C44: it can be computed whenever the intensity PSF can and has at least one plane. -/
theorem C44_computable (s : HSpec) (b : Arr ℝ) (hb : s.PSFi = .ok b) :
    (∃ t, s.OTFi = .ok t) ↔ ∀ n ∈ b.shape, n ≠ 0 := by
  have hb0 := hb
  obtain ⟨a, ha, rfl⟩ := PSFi_ok hb
  obtain ⟨b', C, Z, A, B, hb', -, hs, -⟩ := C39_intensity s a ha
  rw [hb] at hb'
  cases hb'
  have e : s.OTFi = otfiOf (psfiOf a) := by rw [HSpec.OTFi, hb0]; rfl
  rw [e, otfiOf, hs]
  simp only [fftCheck, List.length_cons, List.length_nil, zero_add, List.range_succ, List.range_zero, List.nil_append,
    List.cons_append]
  by_cases h : Z = 0 ∨ A = 0 ∨ B = 0
  · have : ¬ ∀ n ∈ [Z, A, B], n ≠ 0 := by
      intro hh; simp at hh; omega
    simp only [this, iff_false]
    rintro ⟨t, ht⟩
    rw [if_pos (by simpa using h)] at ht
    cases ht
  · have h' : ∀ n ∈ [Z, A, B], n ≠ 0 := by simp; omega
    refine iff_of_true ?_ h'
    rw [if_neg (by simpa using h)]
    exact ⟨_, rfl⟩

/-- C44: the same for a `SheppardPSF` whose intensity PSF is free of NaN. -/
theorem C44_sheppard_otfi (p : Params) (t : Arr (Option ℂ)) (ht : SSpec.OTFi p = .ok t) : ∃ b Z A B,
    SSpec.PSFi p = .ok b ∧ b.shape = [Z, A, B] ∧ t.shape = [Z, A, B] ∧
    ((∃ idx, InShape idx [Z, A, B] ∧ b.get idx = none) ∧ (∀ idx, t.get idx = none) ∨
      ∃ (b' : List ℕ → ℝ) (t' : List ℕ → ℂ), (∀ idx, InShape idx [Z, A, B] → b.get idx = some (b' idx)) ∧
        (∀ idx, t.get idx = some (t' idx)) ∧ SpectrumOf b' t' Z A B) := by
  unfold SSpec.OTFi at ht
  rcases hb : SSpec.PSFi p with e | b
  · rw [hb] at ht; cases ht
  rw [hb] at ht
  cases ht
  have hb0 := hb
  unfold SSpec.PSFi SSpec.PSFa SSpec.OTFa at hb
  rcases ho : sheppardGenOtf p with e | o
  · rw [ho] at hb; cases hb
  rw [ho] at hb
  cases hb
  obtain ⟨h, hN, rfl⟩ := sheppardGenOtf_ok ho
  obtain ⟨-, -, -, h1⟩ := hN.size
  obtain ⟨-, -, -, h2⟩ := hN.zsize
  obtain ⟨b, hbd⟩ : ∃ b, b = sheppardPSFi (sheppardPSFa (fftshift (some [1, 2, 3]) h.otf)) := ⟨_, rfl⟩
  rw [← hbd] at hb0 ⊢
  have hs : b.shape = [h.zsize, h.size, h.size] := by
    rw [hbd, sheppardPSFi, sheppardPSFa, nanTransform, sheppard_otf_shape]; rfl
  have hnn : ∀ idx r, b.get idx = some r → 0 ≤ r := by
    intro idx r hr
    rw [hbd] at hr
    simp only [sheppardPSFi, nanSum] at hr
    split_ifs at hr
    cases hr
    refine Finset.sum_nonneg fun c _ => ?_
    cases (sheppardPSFa (fftshift (some [1, 2, 3]) h.otf)).get (c :: idx) <;> simp
  refine ⟨b, h.zsize, h.size, h.size, rfl, hs, by rw [sheppardOTFi]; exact hs, ?_⟩
  by_cases hnan : ∃ idx, InShape idx [h.zsize, h.size, h.size] ∧ b.get idx = none
  · left
    refine ⟨hnan, fun idx => ?_⟩
    simp only [sheppardOTFi]
    rw [if_pos (by rw [hs]; exact hnan)]
  · right
    refine ⟨fun idx => (b.get idx).getD 0, (easyFft none (b.map fun (v : Option ℝ) => ((v.getD 0 : ℝ) : ℂ))).get, ?_, ?_, ?_⟩
    · intro idx hi
      rcases hv : b.get idx with _ | v
      · exact absurd ⟨idx, hi, hv⟩ hnan
      · simp [hv]
    · intro idx
      simp only [sheppardOTFi]
      rw [if_neg (by rw [hs]; exact hnan)]
    · refine spectrum_easyFft (b.map fun (v : Option ℝ) => v.getD 0) _ _ _ hs (by omega) (by omega) (by omega) ?_
      intro z y x
      simp only [Arr.map]
      rcases hv : b.get [z, y, x] with _ | v
      · exact le_rfl
      · exact hnn _ _ hv

/-! ## Intensity of ordinary models -/

theorem psfi_amplitude (s : HSpec) (hf : s.Fits) {w n i r : ℚ} {N : ℕ} {zs : List ℚ} {v : VecCorr} {cd : Condition}
    (ho : Optics s.params w n i r N zs v cd) (b : Arr ℝ) (hb : s.PSFi = .ok b) :
    b.shape = [zs.length, N, N] ∧ 0 < N ∧ ∀ iz y x, b.get [iz, y, x] = ∑ c ∈ Finset.range (components v),
      ‖amplitude N r ((i / w : ℚ) : ℝ) v cd (s.pupilFn N r ((n / w : ℚ) : ℝ)) ((zs.getD iz 0 : ℚ) : ℝ) c y x‖ ^ 2 := by
  obtain ⟨a, ha, rfl⟩ := PSFi_ok hb
  obtain ⟨hs, hget⟩ := C76_diffraction_integral s hf ho a ha
  have := (C76_computable s hf ho).mp ⟨a, ha⟩
  refine ⟨psfiOf_shape a _ _ _ _ hs, this.2.2.1, fun iz y x => ?_⟩
  rw [psfiOf_get a _ _ _ _ hs]
  exact Finset.sum_congr rfl fun c _ => by rw [hget]

/-! ## C45 -/

/-- Signed frequency number. -/
def fnum (N i : ℕ) : ℤ := if 2 * i < N then (i : ℤ) else i - N

theorem freq_fnum (N : ℕ) (r : ℝ) (i : ℕ) : freq N r i = (fnum N i : ℝ) / (N * r) := by
  unfold freq fnum
  split_ifs <;> push_cast <;> rfl

theorem fnum_dvd (N i : ℕ) : (N : ℤ) ∣ (i : ℤ) - fnum N i := by
  unfold fnum; split_ifs
  · simp
  · exact ⟨1, by ring⟩

/-- No two waves inside the aperture differ by a frequency `(m1, m2)` of twice its radius or more. -/
theorem no_pair {N : ℕ} {r l : ℝ} (hN : 0 < N) (hr : 0 < r) (hny : 4 * (l * r) < 1) {i j i' j' : ℕ}
    {m1 m2 : ℤ} (hm1 : |2 * m1| ≤ N) (hm2 : |2 * m2| ≤ N)
    (hm : 2 * l ≤ √(((m1 : ℝ) / (N * r)) ^ 2 + ((m2 : ℝ) / (N * r)) ^ 2))
    (h : radial N r i j < l) (h' : radial N r i' j' < l)
    (d1 : (N : ℤ) ∣ (i : ℤ) - i' - m1) (d2 : (N : ℤ) ∣ (j : ℤ) - j' - m2) : False := by
  have hN' : (0 : ℝ) < N := by exact_mod_cast hN
  have hNr : 0 < N * r := by positivity
  have small : ∀ a b : ℕ, radial N r a b < l → |4 * fnum N a| < N ∧ |4 * fnum N b| < N := by
    intro a b hab
    have h1 : |freq N r a| ≤ radial N r a b := by
      rw [radial]; exact Real.abs_le_sqrt (by nlinarith [sq_nonneg (freq N r b)])
    have h2 : |freq N r b| ≤ radial N r a b := by
      rw [radial]; exact Real.abs_le_sqrt (by nlinarith [sq_nonneg (freq N r a)])
    have key : ∀ c, |freq N r c| < l → |4 * fnum N c| < N := by
      intro c hc
      rw [freq_fnum, abs_div, abs_of_pos hNr, div_lt_iff₀ hNr] at hc
      have : |(4 * fnum N c : ℝ)| < N := by
        rw [abs_mul, abs_of_pos (by norm_num : (0 : ℝ) < 4)]
        calc 4 * |(fnum N c : ℝ)| < 4 * (l * (N * r)) := by linarith
          _ = (4 * (l * r)) * N := by ring
          _ < 1 * N := by gcongr
          _ = N := one_mul _
      exact_mod_cast this
    exact ⟨key a (lt_of_le_of_lt h1 hab), key b (lt_of_le_of_lt h2 hab)⟩
  have exact1 : ∀ a a' : ℕ, ∀ m : ℤ, |4 * fnum N a| < N → |4 * fnum N a'| < N → |2 * m| ≤ N →
      (N : ℤ) ∣ (a : ℤ) - a' - m → m = fnum N a - fnum N a' := by
    intro a a' m ha ha' hm hd
    have hd' : (N : ℤ) ∣ fnum N a - fnum N a' - m := by
      have h1 := fnum_dvd N a
      have h2 := fnum_dvd N a'
      have : fnum N a - fnum N a' - m = ((a : ℤ) - a' - m) - ((a : ℤ) - fnum N a) + ((a' : ℤ) - fnum N a') := by ring
      rw [this]
      exact dvd_add (dvd_sub hd h1) h2
    have := Int.eq_zero_of_abs_lt_dvd hd' (by rw [abs_lt] at ha ha' ⊢; rw [abs_le] at hm; constructor <;> omega)
    omega
  obtain ⟨s1, s2⟩ := small i j h
  obtain ⟨s1', s2'⟩ := small i' j' h'
  have e1 := exact1 i i' m1 s1 s1' hm1 d1
  have e2 := exact1 j j' m2 s2 s2' hm2 d2
  have e : √(((m1 : ℝ) / (N * r)) ^ 2 + ((m2 : ℝ) / (N * r)) ^ 2) =
      ‖(⟨freq N r j, freq N r i⟩ : ℂ) - ⟨freq N r j', freq N r i'⟩‖ := by
    rw [Complex.norm_eq_sqrt_sq_add_sq]
    simp only [sub_re, sub_im, freq_fnum, e1, e2]
    push_cast
    congr 1; ring
  rw [e] at hm
  have := norm_sub_le (⟨freq N r j, freq N r i⟩ : ℂ) ⟨freq N r j', freq N r i'⟩
  rw [norm_cart, norm_cart] at this
  linarith

theorem plane_spectrum_zero (s : HSpec) (hf : s.Fits) {w n i r : ℚ} {N : ℕ} {zs : List ℚ} {v : VecCorr} {cd : Condition}
    (ho : Optics s.params w n i r N zs v cd) (b : Arr ℝ) (hb : s.PSFi = .ok b)
    (hw : 0 < w) (hr : 0 < r) (hn : 0 < n) (hny : r < w / (4 * n))
    (hmask : ∀ a < N, ∀ c < N, s.pupilFn N r ((n / w : ℚ) : ℝ) a c ≠ 0 → radial N r a c < ((n / w : ℚ) : ℝ))
    (iz : ℕ) {m1 m2 : ℤ} (hm1 : |2 * m1| ≤ N) (hm2 : |2 * m2| ≤ N)
    (hm : 2 * ((n / w : ℚ) : ℝ) ≤ √(((m1 : ℝ) / (N * r)) ^ 2 + ((m2 : ℝ) / (N * r)) ^ 2)) :
    ∑ y ∈ Finset.range N, ∑ x ∈ Finset.range N, (b.get [iz, y, x] : ℂ) * (W N (-(m1 * y)) * W N (-(m2 * x))) = 0 := by
  obtain ⟨hs, hN, hget⟩ := psfi_amplitude s hf ho b hb
  have hr' : (0 : ℝ) < r := by exact_mod_cast hr
  have hny' : 4 * (((n / w : ℚ) : ℝ) * r) < 1 := by
    have : 4 * (n / w * r) < 1 := by
      rw [lt_div_iff₀ (by positivity)] at hny
      have : n / w * r = (r * n) / w := by ring
      rw [this, ← mul_div_assoc, div_lt_one hw]
      linarith
    exact_mod_cast this
  simp only [hget, ofReal_sum, Finset.sum_mul]
  have sw : ∀ f : ℕ → ℕ → ℕ → ℂ, ∑ y ∈ Finset.range N, ∑ x ∈ Finset.range N, ∑ c ∈ Finset.range (components v), f y x c =
      ∑ c ∈ Finset.range (components v), ∑ y ∈ Finset.range N, ∑ x ∈ Finset.range N, f y x c := by
    intro f
    rw [← Finset.sum_product', Finset.sum_comm]
    exact Finset.sum_congr rfl fun c _ => by rw [← Finset.sum_product']
  rw [sw]
  refine Finset.sum_eq_zero fun c _ => ?_
  refine spectrum_zero N N hN hN _ m1 m2 ?_
  intro a ha a' ha' d hd d' hd' hP hP' h1 h2
  have g1 : s.pupilFn N r ((n / w : ℚ) : ℝ) a d ≠ 0 := fun h0 => hP (by simp only [h0, zero_mul])
  have g2 : s.pupilFn N r ((n / w : ℚ) : ℝ) a' d' ≠ 0 := fun h0 => hP' (by simp only [h0, zero_mul])
  exact no_pair hN hr' hny' hm1 hm2 hm (hmask a ha d hd g1) (hmask a' ha' d' hd' g2) h1 h2

/-- C45: below the Nyquist limit, for a pupil that is zero outside the aperture (the ideal pupil in particular), the
lateral spectrum of every plane vanishes at every grid frequency of `2 na / wl` or more. -/
theorem C45_diffraction_limit (s : HSpec) (hf : s.Fits) {w n i r : ℚ} {N : ℕ} {zs : List ℚ} {v : VecCorr} {cd : Condition}
    (ho : Optics s.params w n i r N zs v cd) (b : Arr ℝ) (hb : s.PSFi = .ok b)
    (hw : 0 < w) (hr : 0 < r) (hn : 0 < n) (hny : r < w / (4 * n))
    (hmask : ∀ a < N, ∀ c < N, s.pupilFn N r ((n / w : ℚ) : ℝ) a c ≠ 0 → radial N r a c < ((n / w : ℚ) : ℝ))
    (iz p q : ℕ) (hp : p < N) (hq : q < N) (hlim : 2 * ((n / w : ℚ) : ℝ) ≤ radial N r p q) :
    ∑ y ∈ Finset.range N, ∑ x ∈ Finset.range N,
      (b.get [iz, y, x] : ℂ) * exp (-(2 * Real.pi * I * (p * y + q * x) / N)) = 0 := by
  have hN : 0 < N := by omega
  have hb1 : ∀ p < N, |2 * fnum N p| ≤ N := by
    intro p hp; unfold fnum; split_ifs <;> rw [abs_le] <;> constructor <;> omega
  rw [← plane_spectrum_zero s hf ho b hb hw hr hn hny hmask iz (hb1 p hp) (hb1 q hq)
    (by rw [← freq_fnum, ← freq_fnum]; exact hlim)]
  refine Finset.sum_congr rfl fun y _ => Finset.sum_congr rfl fun x _ => ?_
  congr 1
  have e : ∀ a b : ℕ, W N (-(fnum N a * b)) = W N (-(a * b)) := by
    intro a b
    apply W_modEq hN
    obtain ⟨d, hd⟩ := fnum_dvd N a
    exact ⟨d * b, by linear_combination (b : ℤ) * hd⟩
  rw [e, e, W, W, ← exp_add]
  congr 1
  push_cast; ring

/-- C45: so does the intensity OTF, whose element `(kz, p, q)` has the lateral frequency `(p - N//2, q - N//2)`. -/
theorem C45_otfi (s : HSpec) (hf : s.Fits) {w n i r : ℚ} {N : ℕ} {zs : List ℚ} {v : VecCorr} {cd : Condition}
    (ho : Optics s.params w n i r N zs v cd) (t : Arr ℂ) (ht : s.OTFi = .ok t)
    (hw : 0 < w) (hr : 0 < r) (hn : 0 < n) (hny : r < w / (4 * n))
    (hmask : ∀ a < N, ∀ c < N, s.pupilFn N r ((n / w : ℚ) : ℝ) a c ≠ 0 → radial N r a c < ((n / w : ℚ) : ℝ))
    (kz p q : ℕ) (hk : kz < zs.length) (hp : p < N) (hq : q < N)
    (hlim : 2 * ((n / w : ℚ) : ℝ) ≤ √((((p : ℝ) - (N / 2 : ℕ)) / (N * r)) ^ 2 + (((q : ℝ) - (N / 2 : ℕ)) / (N * r)) ^ 2)) :
    t.get [kz, p, q] = 0 := by
  unfold HSpec.OTFi at ht
  obtain ⟨b, hb, ht⟩ := py_bind_ok ht
  unfold otfiOf at ht
  obtain ⟨_, hc, ht⟩ := py_bind_ok ht
  rw [← py_pure_ok ht]
  obtain ⟨hs, hN, -⟩ := psfi_amplitude s hf ho b hb
  rw [easyFft3_get (b.map fun (v : ℝ) => (v : ℂ)) zs.length N N hs kz p q hk hp hq]
  refine Finset.sum_eq_zero fun z _ => ?_
  have key := plane_spectrum_zero s hf ho b hb hw hr hn hny hmask z (m1 := (p : ℤ) - (N / 2 : ℕ)) (m2 := (q : ℤ) - (N / 2 : ℕ))
    (by rw [abs_le]; constructor <;> omega) (by rw [abs_le]; constructor <;> omega) (by
      simp only [Int.cast_sub, Int.cast_natCast]; exact hlim)
  have e : ∀ y x : ℕ, (b.map fun (v : ℝ) => (v : ℂ)).get [z, y, x] *
      (W N (-(((x : ℤ) - (N / 2 : ℕ)) * ((q : ℤ) - (N / 2 : ℕ)))) * W N (-(((y : ℤ) - (N / 2 : ℕ)) * ((p : ℤ) - (N / 2 : ℕ)))) *
        W zs.length (-(((z : ℤ) - (zs.length / 2 : ℕ)) * ((kz : ℤ) - (zs.length / 2 : ℕ))))) =
      (W zs.length (-(((z : ℤ) - (zs.length / 2 : ℕ)) * ((kz : ℤ) - (zs.length / 2 : ℕ)))) *
        W N ((N / 2 : ℕ) * ((q : ℤ) - (N / 2 : ℕ))) * W N ((N / 2 : ℕ) * ((p : ℤ) - (N / 2 : ℕ)))) *
      ((b.get [z, y, x] : ℂ) * (W N (-(((p : ℤ) - (N / 2 : ℕ)) * y)) * W N (-(((q : ℤ) - (N / 2 : ℕ)) * x)))) := by
    intro y x
    have w1 : W N (-(((x : ℤ) - (N / 2 : ℕ)) * ((q : ℤ) - (N / 2 : ℕ)))) =
        W N ((N / 2 : ℕ) * ((q : ℤ) - (N / 2 : ℕ))) * W N (-(((q : ℤ) - (N / 2 : ℕ)) * x)) := by
      rw [← W_add]; congr 1; ring
    have w2 : W N (-(((y : ℤ) - (N / 2 : ℕ)) * ((p : ℤ) - (N / 2 : ℕ)))) =
        W N ((N / 2 : ℕ) * ((p : ℤ) - (N / 2 : ℕ))) * W N (-(((p : ℤ) - (N / 2 : ℕ)) * y)) := by
      rw [← W_add]; congr 1; ring
    rw [w1, w2]
    simp only [Arr.map]
    ring
  simp only [e, ← Finset.mul_sum]
  rw [key, mul_zero]

/-- The ideal pupil is zero outside the aperture. -/
theorem ideal_masked (s : HSpec) (h : s.pupil = none) (N : ℕ) (r l : ℝ) (a c : ℕ) (hne : s.pupilFn N r l a c ≠ 0) :
    radial N r a c < l := by
  unfold HSpec.pupilFn at hne
  rw [h] at hne
  by_contra hc
  exact hne (by simp [aperture, hc])

/-- Non-vacuity of C44 and C45: the demo model (`wl=520`, `na=0.85`, `res=130`, 64 pixels, Nyquist 152.9) has an
intensity OTF, and its corner element lies beyond the diffraction limit. -/
theorem demo_otfi : ∃ (s : HSpec) (t : Arr ℂ), s.Fits ∧
    Optics s.params 520 (17/20) 1 130 64 ((List.range 64).map (plane 64 130)) .none .sine ∧ s.OTFi = .ok t ∧
    t.get [32, 0, 0] = 0 := by
  obtain ⟨o, a, ho, hf, h3, ha⟩ := demo_optics
  obtain ⟨hs, -, -⟩ := psfi_amplitude _ hf h3 _ (PSFi_of ha)
  obtain ⟨t, ht⟩ := (C44_computable _ _ (PSFi_of ha)).mpr (by rw [hs]; simp)
  refine ⟨_, t, hf, h3, ht, ?_⟩
  refine C45_otfi _ hf h3 t ht (by norm_num) (by norm_num) (by norm_num) (by norm_num)
    (fun a _ c _ h => ideal_masked _ rfl _ _ _ _ _ h) 32 0 0 (by simp) (by norm_num) (by norm_num) ?_
  refine Real.le_sqrt_of_sq_le ?_
  norm_num

end PyOTF
