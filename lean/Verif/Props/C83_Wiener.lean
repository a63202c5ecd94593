import Verif.Lemmas.CentredInv
import Verif.Spec.Centred
import Verif.Props.C59_Sim

/-!
# C83: the Wiener filter of the SIM microscopes
-/

namespace PyOTF

open Complex

/-- Gain of the Wiener filter with parameter `w` at a frequency where the power `|OTF|^2` is `v`, `T` being the largest `|OTF|`:
`v / (v + (w T)^2)`; for `w = 0` 1 wherever the power exceeds `1e-16`. -/
noncomputable def wienerGain (w T v : ℝ) : ℝ := by
  classical exact if w = 0 then (if v > 1 / 10 ^ 16 then 1 else 0) else v / (v + T ^ 2 * w ^ 2)

theorem roundTrip_eq (n : ℕ) (x : ℕ → ℂ) (j : ℕ) :
    roundTrip n x j = x (cameFrom n j) * exp (-(2 * Real.pi * I * (phaseRamp n j : ℝ))) := by
  unfold roundTrip cameFrom phaseRamp
  split_ifs
  · simp
  · congr 2; push_cast; ring

theorem maxElem_of_max (a : Arr ℝ) (i : List ℕ) (hi : InShape i a.shape) (h : ∀ j, InShape j a.shape → a.get j ≤ a.get i) :
    maxElem a = .ok (a.get i) := by
  have hm : i ∈ indices a.shape := mem_indices.mpr hi
  have hl : a.ravel ≠ [] := by
    intro h0
    have : a.get i ∈ a.ravel := List.mem_map.mpr ⟨i, hm, rfl⟩
    rw [h0] at this; cases this
  obtain ⟨k, v, hk, hf⟩ := argmax_spec a.ravel hl
  simp only [maxElem, hk]
  show Except.ok _ = _
  congr 1
  obtain ⟨hv, hmax⟩ := hf
  rw [List.getD_eq_getElem?_getD, hv, Option.getD_some]
  have hmem : v ∈ a.ravel := List.mem_of_getElem? hv
  obtain ⟨j, hj, rfl⟩ := List.mem_map.mp hmem
  refine le_antisymm (h j (mem_indices.mp hj)) ?_
  have : a.get i ∈ a.ravel := List.mem_map.mpr ⟨i, hm, rfl⟩
  obtain ⟨q, hq⟩ := List.mem_iff_getElem?.mp this
  exact hmax.1 q _ hq

theorem wienerGain_pos {w T v : ℝ} (hw : w ≠ 0) : wienerGain w T v = v / (v + T ^ 2 * w ^ 2) := by
  unfold wienerGain; rw [if_neg hw]

/-- What the code computes: the inverse transform of the gain. -/
theorem wienerPsf_run (w : ℚ) (b : List ℕ → ℝ) (t : Arr ℂ) (Z A B : ℕ) (hs : t.shape = [Z, A, B]) (hZ : 0 < Z) (hA : 0 < A) (hB : 0 < B)
    (sp : SpectrumOf b t.get Z A B) (T : ℝ) (hT : T = ∑ z ∈ Finset.range Z, ∑ y ∈ Finset.range A, ∑ x ∈ Finset.range B, b [z, y, x])
    (hpos : 0 < T) : wienerPsf w t = .ok ((easyIfft none (t.map fun v => ((wienerGain w T (‖v‖ ^ 2) : ℝ) : ℂ))).map Complex.re) := by
  unfold wienerPsf
  by_cases hw : w = 0
  · simp only [hw, if_true]
    show Except.ok _ = _
    congr 3
    unfold Arr.map
    congr 1
    funext i
    simp only [wienerGain, Rat.cast_zero, if_true]
    split_ifs <;> simp
  · have hwR : (w : ℝ) ≠ 0 := by exact_mod_cast hw
    have hdc : ‖t.get [Z / 2, A / 2, B / 2]‖ = T := by
      rw [sp.dc, ← hT, Complex.norm_real, Real.norm_eq_abs, abs_of_pos hpos]
    have hmax : maxElem (t.map fun v => ‖v‖ ^ 2) = .ok (T ^ 2) := by
      rw [← hdc]
      refine maxElem_of_max (t.map fun v => ‖v‖ ^ 2) [Z / 2, A / 2, B / 2] ?_ ?_
      · show InShape _ t.shape
        rw [hs]; exact .cons (by omega) (.cons (by omega) (.cons (by omega) .nil))
      · intro j hj
        have hj : InShape j t.shape := hj
        rw [hs] at hj
        obtain ⟨a, p, q, rfl, ha, hp, hq⟩ : ∃ a p q, j = [a, p, q] ∧ a < Z ∧ p < A ∧ q < B := by
          cases hj with
          | cons ha hj => cases hj with
            | cons hp hj => cases hj with
              | cons hq hj => cases hj; exact ⟨_, _, _, rfl, ha, hp, hq⟩
        show ‖t.get [a, p, q]‖ ^ 2 ≤ ‖t.get [Z / 2, A / 2, B / 2]‖ ^ 2
        have := sp.le a ha p hp q hq
        rw [← hT, ← hdc] at this
        gcongr
    have hn : ¬ ∃ i, InShape i (t.map fun v => ‖v‖ ^ 2).shape ∧ (t.map fun v => ‖v‖ ^ 2).get i + T ^ 2 * (w : ℝ) ^ 2 = 0 := by
      rintro ⟨i, -, h0⟩
      have h1 : 0 ≤ (t.map fun v => ‖v‖ ^ 2).get i := by show 0 ≤ ‖_‖ ^ 2; positivity
      have h2 : 0 < T ^ 2 * (w : ℝ) ^ 2 := by positivity
      linarith
    simp only [hw, if_false, hmax, bind, Except.bind]
    rw [if_neg hn]
    show Except.ok _ = _
    congr 3
    unfold Arr.map
    congr 1
    funext i
    simp only [wienerGain_pos hwR]

/-- C83: the Wiener filter on every grid.  There is a real image `h` whose spectrum is exactly the gain; the code returns `h` on even grids
- and on odd axes `h` displaced by one pixel and multiplied by a cosine. -/
theorem C83_wiener (w : ℚ) (b : List ℕ → ℝ) (t : Arr ℂ) (Z A B : ℕ) (hs : t.shape = [Z, A, B]) (hZ : 0 < Z) (hA : 0 < A) (hB : 0 < B)
    (sp : SpectrumOf b t.get Z A B) (T : ℝ) (hT : T = ∑ z ∈ Finset.range Z, ∑ y ∈ Finset.range A, ∑ x ∈ Finset.range B, b [z, y, x])
    (hpos : 0 < T) : ∃ f h : Arr ℝ, wienerPsf w t = .ok f ∧ f.shape = [Z, A, B] ∧ h.shape = [Z, A, B] ∧
    (∀ a < Z, ∀ p < A, ∀ q < B, (easyFft none (h.map fun (v : ℝ) => (v : ℂ))).get [a, p, q] =
      (wienerGain w T (‖t.get [a, p, q]‖ ^ 2) : ℝ)) ∧
    ∀ z < Z, ∀ y < A, ∀ x < B, f.get [z, y, x] = h.get [cameFrom Z z, cameFrom A y, cameFrom B x] *
      Real.cos (2 * Real.pi * (phaseRamp Z z + phaseRamp A y + phaseRamp B x)) := by
  let G : Arr ℂ := t.map fun v => ((wienerGain w T (‖v‖ ^ 2) : ℝ) : ℂ)
  have hG : G.shape = [Z, A, B] := hs
  have him : ∀ z y x, ((cinv G).get [z, y, x]).im = 0 := cinv_real G Z A B hG (fun a _ p _ q _ => Complex.ofReal_im _) (by
    intro a ha p hp q hq
    have := sp.hermitian a ha (opp Z a) (opp_lt ha) p hp (opp A p) (opp_lt hp) q hq (opp B q) (opp_lt hq) (opp_dvd ha) (opp_dvd hp) (opp_dvd hq)
    show ((wienerGain w T (‖t.get [opp Z a, opp A p, opp B q]‖ ^ 2) : ℝ) : ℂ) = ((wienerGain w T (‖t.get [a, p, q]‖ ^ 2) : ℝ) : ℂ)
    rw [this, RCLike.norm_conj])
  let h : Arr ℝ := (cinv G).map Complex.re
  have hsh : h.shape = [Z, A, B] := (cinv_shape G).trans hG
  have in3 : ∀ {a p q}, a < Z → p < A → q < B → InShape [a, p, q] [Z, A, B] := fun ha hp hq => .cons ha (.cons hp (.cons hq .nil))
  have inv3 : ∀ {i}, InShape i [Z, A, B] → ∃ a p q, i = [a, p, q] ∧ a < Z ∧ p < A ∧ q < B := fun {i} hj => by
    cases hj with
    | cons ha hj => cases hj with
      | cons hp hj => cases hj with
        | cons hq hj => cases hj; exact ⟨_, _, _, rfl, ha, hp, hq⟩
  have hsame : (h.map fun (v : ℝ) => (v : ℂ)).Same (cinv G) := by
    refine ⟨rfl, fun i hi => ?_⟩
    have hi : InShape i h.shape := hi
    rw [hsh] at hi
    obtain ⟨a, p, q, rfl, -, -, -⟩ := inv3 hi
    show (((cinv G).get [a, p, q]).re : ℂ) = _
    apply Complex.ext <;> simp [him a p q]
  have hsp : (easyFft none (h.map fun (v : ℝ) => (v : ℂ))).Same G := by
    have ha := goodAxes_all h.shape
    have hx : axesOf none h.shape = axesOf none (cinv G).shape := by rw [cinv_shape, hsh, hG]
    refine (easyFft_same none (h.map fun (v : ℝ) => (v : ℂ)) ha).trans ?_
    refine (alongAxes_same (a := h.map fun (v : ℝ) => (v : ℂ)) isKern_easy1 ha.2 hsame).trans ?_
    show (Arr.alongAxes easy1 (axesOf none h.shape) (cinv G)).Same G
    rw [hx]
    exact (easyFft_same none (cinv G) (goodAxes_all _)).symm.trans (easyFft_cinv G)
  refine ⟨_, h, wienerPsf_run w b t Z A B hs hZ hA hB sp T hT hpos, ?_, hsh, ?_, ?_⟩
  · show (easyIfft none G).shape = _
    rw [easyIfft_shape]; exact hG
  · intro a ha p hp q hq
    exact hsp.2 _ (by rw [easyFft_shape]; show InShape _ h.shape; rw [hsh]; exact in3 ha hp hq)
  · intro z hz y hy x hx
    show ((easyIfft none G).get [z, y, x]).re = _
    have e1 : (easyIfft none (easyFft none (h.map fun (v : ℝ) => (v : ℂ)))).Same (easyIfft none G) := by
      have hsG := hsp.1
      have g1 := easyIfft_same none (easyFft none (h.map fun (v : ℝ) => (v : ℂ))) (goodAxes_all _)
      have g2 := easyIfft_same none G (goodAxes_all _)
      rw [hsG] at g1
      exact g1.trans ((alongAxes_same isKern_ieasy1 (by rw [hsG]; exact (goodAxes_all _).2) hsp).trans g2.symm)
    have e2 := C07_round_trip_general none (h.map fun (v : ℝ) => (v : ℂ)) (goodAxes_all _)
    have hin : InShape [z, y, x] (easyIfft none G).shape := by rw [easyIfft_shape, hG]; exact in3 hz hy hx
    rw [(e1.symm.trans e2).2 _ hin]
    have hsh' : (h.map fun (v : ℝ) => (v : ℂ)).shape = [Z, A, B] := hsh
    simp only [axesOf, hsh', Option.getD_none, List.length_cons, List.length_nil, zero_add, List.range_succ, List.range_zero,
      List.nil_append, List.cons_append, Arr.alongAxes, List.foldr_cons, List.foldr_nil, Arr.alongAxis, List.getD_cons_zero,
      List.getD_cons_succ, List.set_cons_zero, List.set_cons_succ, roundTrip_eq]
    rw [mul_assoc, mul_assoc, ← exp_add, ← exp_add]
    show (((h.get [cameFrom Z z, cameFrom A y, cameFrom B x] : ℝ) : ℂ) * _).re = _
    rw [Complex.re_ofReal_mul]
    congr 1
    rw [show -(2 * Real.pi * I * (phaseRamp B x : ℝ)) + (-(2 * Real.pi * I * (phaseRamp A y : ℝ)) + -(2 * Real.pi * I * (phaseRamp Z z : ℝ))) =
      ((-(2 * Real.pi * (phaseRamp Z z + phaseRamp A y + phaseRamp B x)) : ℝ) : ℂ) * I by push_cast; ring, Complex.exp_ofReal_mul_I_re, Real.cos_neg]

/-- C83: on even grids the spectrum of the filtered PSF is the gain, and its total is the gain at zero frequency. -/
theorem C83_even (w : ℚ) (b : List ℕ → ℝ) (t : Arr ℂ) (Z A B : ℕ) (hs : t.shape = [Z, A, B]) (hZ : 0 < Z) (hA : 0 < A) (hB : 0 < B)
    (eZ : Z % 2 = 0) (eA : A % 2 = 0) (eB : B % 2 = 0)
    (sp : SpectrumOf b t.get Z A B) (T : ℝ) (hT : T = ∑ z ∈ Finset.range Z, ∑ y ∈ Finset.range A, ∑ x ∈ Finset.range B, b [z, y, x])
    (hpos : 0 < T) : ∃ f : Arr ℝ, wienerPsf w t = .ok f ∧ f.shape = [Z, A, B] ∧
    (∀ a < Z, ∀ p < A, ∀ q < B, (easyFft none (f.map fun (v : ℝ) => (v : ℂ))).get [a, p, q] =
      (wienerGain w T (‖t.get [a, p, q]‖ ^ 2) : ℝ)) ∧
    ∑ z ∈ Finset.range Z, ∑ y ∈ Finset.range A, ∑ x ∈ Finset.range B, f.get [z, y, x] = wienerGain w T (T ^ 2) := by
  obtain ⟨f, h, h1, h2, h3, h4, h5⟩ := C83_wiener w b t Z A B hs hZ hA hB sp T hT hpos
  have e : ∀ z < Z, ∀ y < A, ∀ x < B, f.get [z, y, x] = h.get [z, y, x] := fun z hz y hy x hx => by
    rw [h5 z hz y hy x hx]
    simp [cameFrom, phaseRamp, eZ, eA, eB]
  have hsp : ∀ a < Z, ∀ p < A, ∀ q < B, (easyFft none (f.map fun (v : ℝ) => (v : ℂ))).get [a, p, q] =
      (wienerGain w T (‖t.get [a, p, q]‖ ^ 2) : ℝ) := fun a ha p hp q hq => by
    rw [← h4 a ha p hp q hq, easyFft3_get _ Z A B h2 a p q ha hp hq, easyFft3_get _ Z A B h3 a p q ha hp hq]
    refine Finset.sum_congr rfl fun z hz => Finset.sum_congr rfl fun y hy => Finset.sum_congr rfl fun x hx => ?_
    show ((f.get [z, y, x] : ℝ) : ℂ) * _ = ((h.get [z, y, x] : ℝ) : ℂ) * _
    rw [e z (Finset.mem_range.mp hz) y (Finset.mem_range.mp hy) x (Finset.mem_range.mp hx)]
  refine ⟨f, h1, h2, hsp, ?_⟩
  have := hsp (Z / 2) (by omega) (A / 2) (by omega) (B / 2) (by omega)
  rw [easyFft3_get _ Z A B h2 _ _ _ (by omega) (by omega) (by omega), sp.dc, ← hT] at this
  simp only [sub_self, mul_zero, neg_zero, W_zero, mul_one] at this
  rw [Complex.norm_real, Real.norm_eq_abs, abs_of_pos hpos] at this
  have h' : ((∑ z ∈ Finset.range Z, ∑ y ∈ Finset.range A, ∑ x ∈ Finset.range B, f.get [z, y, x] : ℝ) : ℂ) = (wienerGain w T (T ^ 2) : ℝ) := by
    rw [← this]; push_cast; rfl
  exact_mod_cast h'

/-- C83: the gain lies between 0 and 1, grows with the power, and is `1 / (1 + w^2)` at zero frequency. -/
theorem C83_gain (w T : ℝ) (hw : 0 < w) (hT : 0 < T) : wienerGain w T (T ^ 2) = 1 / (1 + w ^ 2) ∧
    (∀ v, 0 ≤ v → 0 ≤ wienerGain w T v ∧ wienerGain w T v < 1) ∧
    ∀ u v, 0 ≤ u → u < v → wienerGain w T u < wienerGain w T v := by
  have hp : 0 < T ^ 2 * w ^ 2 := by positivity
  simp only [wienerGain_pos hw.ne']
  refine ⟨?_, fun v hv => ⟨by positivity, ?_⟩, fun u v hu huv => ?_⟩
  · field_simp
  · rw [div_lt_one (by linarith)]; linarith
  · rw [div_lt_div_iff₀ (by linarith) (by linarith)]
    nlinarith

/-- C83: this is the PSF the SIM microscopes multiply with their patterns. -/
theorem C83_used (m : Micro) (wiener : PyVal) (w : ℚ) (hw : Denotes wiener w) (h0 : 0 ≤ w) (t : Arr ℂ)
    (ht : (Inner.getOTFi m.model).1 = .ok t) : (Micro.simFiltered wiener m).1 = wienerPsf w t := by
  have h1 : wiener ≠ .none := by rintro rfl; cases hw
  have h2 : pyNum wiener = .ok (.fin w) := by unfold Denotes at hw; simp [pyNum, hw]
  have h3 : PyFloat.ge (.fin w) (.fin 0) = true := by
    simp only [PyFloat.ge, PyFloat.lt, PyFloat.eq, Bool.or_eq_true, decide_eq_true_eq]
    exact h0.lt_or_eq.imp id Eq.symm
  unfold Micro.simFiltered
  rw [if_neg h1]
  simp only [PyM.bind_apply, h2, PyM.lift_apply, h3, if_true, Micro.onModel]
  rcases hm : Inner.getOTFi m.model with ⟨e | a, i⟩
  · rw [hm] at ht; cases ht
  · rw [hm] at ht; cases ht; rfl

/-- Non-vacuity of C83: the demo model (64 planes of 64 x 64 pixels) meets the hypotheses, for every parameter of the filter. -/
theorem demo_wiener (w : ℚ) : ∃ (s : HSpec) (b : Arr ℝ) (t : Arr ℂ) (f : Arr ℝ), s.PSFi = .ok b ∧ s.OTFi = .ok t ∧
    0 < b.sum ∧ SpectrumOf b.get t.get 64 64 64 ∧ wienerPsf w t = .ok f ∧ f.sum = wienerGain w b.sum (b.sum ^ 2) := by
  obtain ⟨o, a, ho, hf, h3, ha⟩ := demo_optics
  obtain ⟨b, hb, hs, hpos⟩ := hanser_total_pos ⟨o.params, none⟩ rfl h3 (by norm_num) (by norm_num) (by norm_num) (by norm_num)
    (by norm_num) (by simp) (by simp)
  obtain ⟨t, ht⟩ := (C44_computable _ _ hb).mpr (by rw [hs]; simp)
  obtain ⟨b', Z, A, B, hb', hs', hts, -, -, -, sp⟩ := C44_otfi _ t ht
  rw [hb] at hb'; cases hb'
  rw [hs] at hs'
  simp only [List.length_map, List.length_range, List.cons.injEq, and_true] at hs'
  obtain ⟨rfl, rfl, rfl⟩ := hs'
  have e : ∀ c : Arr ℝ, c.shape = [64, 64, 64] → c.sum = ∑ z ∈ Finset.range 64, ∑ y ∈ Finset.range 64, ∑ x ∈ Finset.range 64, c.get [z, y, x] := by
    intro c hc; rw [Arr.sum, hc]; rfl
  obtain ⟨f, k1, k2, -, k4⟩ := C83_even w b.get t 64 64 64 hts (by norm_num) (by norm_num) (by norm_num) rfl rfl rfl sp b.sum
    (e b (by rw [hs]; simp)) hpos
  exact ⟨_, b, t, f, hb, ht, hpos, sp, k1, by rw [e f k2]; exact k4⟩

end PyOTF
