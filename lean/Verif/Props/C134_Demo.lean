import Verif.Props.C134_SheppardLimit

/-!
# C134: constructed models
-/

open MeasureTheory Filter Topology

namespace PyOTF

open Physics

/-- Arguments of models with `N` planes of `N` by `N` pixels, voxels of `10 / t` nm. -/
def demoArgsCap (v c : String) (N t : ℕ) : InitArgs :=
  { wl := .int 520, na := .float (.fin (17/20)), ni := .float (.fin 1), res := .float (.fin (10 / (t : ℚ))), zres := .float (.fin (10 / (t : ℚ))), size := .int N, zsize := .int N,
    vecCorr := .str v, condition := .str c }

theorem demo_cap_grow (v : VecCorr) (cd : Condition) (v' c' : String) (hv : VecCorr.ofString v' = some v) (hc : Condition.ofString c' = some cd) (N t : ℕ) (hN : 3 ≤ N) (ht : 0 < t) :
    ∃ o b, SObj.new (demoArgsCap v' c' N t) (.bool false) = .ok o ∧ SOptics o.params 520 (17/20) 1 (10 / t) (10 / t) N N v cd false ∧ SSpec.PSFi o.params = .ok b := by
  have htq : (1 : ℚ) ≤ t := by exact_mod_cast ht
  have hle : (10 : ℚ) / t ≤ 10 := div_le_self (by norm_num) htq
  have hpos : (0 : ℚ) < 10 / t := by positivity
  have hg : GoodArgs (demoArgsCap v' c' N t) 520 (17/20) 1 (10 / t) (10 / t) N N := by
    constructor
    · exact ⟨rfl, by norm_num⟩
    · exact ⟨rfl, by norm_num⟩
    · exact ⟨rfl, by norm_num⟩
    · exact ⟨rfl, lt_of_le_of_lt hle (by norm_num)⟩
    · simp [demoArgsCap, DenotesNat]
    · exact ⟨by simp [demoArgsCap, Denotes, PyVal.num?], hpos⟩
    · simp [demoArgsCap, DenotesNat]
    · unfold VecCorr.ofString at hv
      split at hv <;> simp_all [demoArgsCap]
    · unfold Condition.ofString at hc
      split at hc <;> simp_all [demoArgsCap]
  have hs : NoSpecialArgs (demoArgsCap v' c' N t) := by constructor <;> simp [demoArgsCap, NotSpecial]
  obtain ⟨o, ho⟩ := (C34_sheppard_accepts (demoArgsCap v' c' N t) hs (.bool false)).mpr
    ⟨⟨_, _, _, _, _, _, _, hg, by norm_num, lt_of_le_of_lt hle (by norm_num)⟩, _, rfl⟩
  obtain ⟨v2, cd2, k1, k2, h⟩ := sheppard_soptics _ false o ho hg
  obtain ⟨v3, cd3, -, -, h3⟩ := sheppard_constructed _ false o ho hg (by omega) (by omega) hpos.ne' (by norm_num)
  simp only [keyword, demoArgsCap, hv, hc] at k1 k2
  cases k1; cases k2
  have ht' := sheppardGenOtf_of h3
  obtain ⟨C, Z, N', -, -, -, -, -, hb, -⟩ := sheppard_psfa ht'
  exact ⟨o, _, ho, h, hb⟩

/-- Non-vacuity of C134: constructed Sheppard models with 392, 450, ... planes and pixels, voxels of 10/14, 10/15, ... nm (any polarisation and condition), and constructed Hanser models
with `condition = "herschel"`; the point 130 nm beside the axis in both directions in a plane 100 nm or more from the focus. -/
theorem demo_growing_cap (v : VecCorr) (cd : Condition) (v' c' : String) (hv : VecCorr.ofString v' = some v) (hc : Condition.ofString c' = some cd) :
    ∃ (o : ℕ → SObj) (b : ℕ → Arr (Option ℝ)), (∀ j, SObj.new (demoArgsCap v' c' (2 * (j + 14) ^ 2) (j + 14)) (.bool false) = .ok (o j)) ∧
    GrowingCap (fun j => (o j).params) 520 (17/20) 1 (fun j => 10 / ((j + 14 : ℕ) : ℚ)) (fun j => 10 / ((j + 14 : ℕ) : ℚ)) (fun j => 2 * (j + 14) ^ 2) (fun j => 2 * (j + 14) ^ 2)
      1 v cd ∧ (∀ j, SSpec.PSFi (o j).params = .ok (b j)) ∧
    (∀ q : ℕ, q ≤ 13 → (∀ j, (j + 14) ^ 2 + q * (j + 14) < 2 * (j + 14) ^ 2) ∧
      AtPosition (fun j => 2 * (j + 14) ^ 2) (fun j => 10 / ((j + 14 : ℕ) : ℚ)) (fun j => cameFrom (2 * (j + 14) ^ 2) ((j + 14) ^ 2 + q * (j + 14))) (10 * q) ∧
      AtPosition (fun j => 2 * (j + 14) ^ 2) (fun j => 10 / ((j + 14 : ℕ) : ℚ)) (fun j => cameFrom (2 * (j + 14) ^ 2) ((j + 14) ^ 2 - q * (j + 14))) (-(10 * q))) := by
  have three : ∀ j : ℕ, 3 ≤ 2 * (j + 14) ^ 2 := fun j => by
    have : 14 ^ 2 ≤ (j + 14) ^ 2 := Nat.pow_le_pow_left (by omega) 2
    omega
  choose o b h1 h2 h3 using fun j : ℕ => demo_cap_grow v cd v' c' hv hc (2 * (j + 14) ^ 2) (j + 14) (three j) (by positivity)
  have hpos : ∀ j : ℕ, (0 : ℚ) < 10 / ((j + 14 : ℕ) : ℚ) := fun j => by positivity
  have hle : ∀ j : ℕ, (10 : ℚ) / ((j + 14 : ℕ) : ℚ) ≤ 10 := fun j => div_le_self (by norm_num) (by push_cast; linarith [Nat.cast_nonneg (α := ℚ) j])
  refine ⟨o, b, h1, ⟨h2, by norm_num, by norm_num, by norm_num, hpos, hpos, three, three, ⟨10, by norm_num, hle⟩, ⟨10, by norm_num, hle⟩,
    fun j => by rw [one_mul], ?_⟩, h3, fun q hq => ⟨fun j => by
      have : q * (j + 14) < (j + 14) * (j + 14) := Nat.mul_lt_mul_of_pos_right (by omega) (by omega)
      rw [pow_two]; omega, fun j => ?_, fun j => ?_⟩⟩
  · have e : (fun j : ℕ => ((2 * (j + 14) ^ 2 : ℕ) : ℝ) * ((10 / ((j + 14 : ℕ) : ℚ) : ℚ) : ℝ)) = fun j : ℕ => 20 * ((j : ℝ) + 14) := by
      funext j
      push_cast
      have : (j : ℝ) + 14 ≠ 0 := by positivity
      field_simp; ring
    rw [e]
    exact (tendsto_natCast_atTop_atTop.atTop_add tendsto_const_nhds).const_mul_atTop (by norm_num)
  · simp only
    rw [show cameFrom (2 * (j + 14) ^ 2) ((j + 14) ^ 2 + q * (j + 14)) = (j + 14) ^ 2 + q * (j + 14) from if_pos (by omega),
      show 2 * (j + 14) ^ 2 / 2 = (j + 14) ^ 2 by omega]
    push_cast
    have : (j : ℝ) + 14 ≠ 0 := by positivity
    field_simp; ring
  · simp only
    have hle' : q * (j + 14) ≤ (j + 14) ^ 2 := by
      rw [pow_two]; exact Nat.mul_le_mul_right _ (by omega)
    rw [show cameFrom (2 * (j + 14) ^ 2) ((j + 14) ^ 2 - q * (j + 14)) = (j + 14) ^ 2 - q * (j + 14) from if_pos (by omega),
      show 2 * (j + 14) ^ 2 / 2 = (j + 14) ^ 2 by omega, Nat.cast_sub hle']
    push_cast
    have : (j : ℝ) + 14 ≠ 0 := by positivity
    field_simp; ring

/-- Non-vacuity of `C134_models_agree`: the point 100 nm below the focus and 130 nm beside the axis. -/
example : ∃ (b : ℕ → Arr (Option ℝ)) (b' : ℕ → Arr ℝ) (I I0 : ℕ → ℝ), (∀ j, (b j).get [(j + 14) ^ 2 - 10 * (j + 14), (j + 14) ^ 2 + 13 * (j + 14), (j + 14) ^ 2] = some (I j)) ∧
    (∀ j, (b j).get [(j + 14) ^ 2, (j + 14) ^ 2, (j + 14) ^ 2] = some (I0 j)) ∧
    Tendsto (fun j => I j / I0 j - (b' j).get [1, (j + 1) ^ 2 + (j + 1), (j + 1) ^ 2] / (b' j).get [2, (j + 1) ^ 2, (j + 1) ^ 2]) atTop (𝓝 0) := by
  obtain ⟨o, b, -, g, hb, hq⟩ := demo_growing_cap .none .sine "none" "sine" rfl rfl
  obtain ⟨o', b', -, g', hb', hz, hp, -⟩ := demo_growing "herschel" .herschel (by simp)
  have e : ∀ j : ℕ, 2 * (j + 1) ^ 2 / 2 = (j + 1) ^ 2 := fun j => by omega
  have ec : ∀ j : ℕ, centrePixel (2 * (j + 14) ^ 2) = (j + 14) ^ 2 := fun j => by
    rw [show centrePixel (2 * (j + 14) ^ 2) = 2 * (j + 14) ^ 2 / 2 from if_pos (by omega)]; omega
  have c1 : AtPosition (fun j => 2 * (j + 1) ^ 2) (fun j => 130 / ((j + 1 : ℕ) : ℚ)) (fun j => (j + 1) ^ 2) 0 := fun j => by simp only; rw [e]; simp
  have hzp : (((List.range 3).map (plane 3 100)).getD 1 0 : ℚ) = -100 := by simp [plane]; norm_num
  have q10 := (hq 10 (by norm_num)).2.2
  have q13 := (hq 13 (by norm_num)).2.1
  have q0 := (hq 0 (by norm_num)).2.1
  norm_num at q10 q13 q0
  obtain ⟨I, I0, h1, h2, h3⟩ := C134_models_agree g b hb (fun j => (j + 14) ^ 2 - 10 * (j + 14)) (fun j => (j + 14) ^ 2 + 13 * (j + 14)) (fun j => (j + 14) ^ 2)
    (fun j => by have : 0 < (j + 14) ^ 2 := by positivity
                 omega) (hq 13 (by norm_num)).1 (fun j => by have : 0 < (j + 14) ^ 2 := by positivity
                                                             omega) _ g' (fun _ => rfl) b' hb' 1 2 hz _ _ hp c1
    (by rw [hzp]; push_cast; exact q10) (by push_cast; exact q13) (by push_cast; exact q0)
  refine ⟨b, b', I, I0, fun j => h1 j, fun j => ?_, ?_⟩
  · have := h2 j
    rwa [ec] at this
  · simp only [e] at h3
    exact h3

end PyOTF
