import Verif.Props.C32_C33_Sheppard
import Verif.Props.C39_C43_Hanser
import Verif.Props.C64_C67_Phase

/-!
# C31-C33 and C64: concrete cases of the hypotheses
-/

namespace PyOTF

open Physics

open Classical in
/-- Non-vacuity of `C64_fixed_point`: the demo dictionary, three planes of 8 x 8 pixels, and a pupil with two phases. -/
example : ∃ (o o₁ o₂ o₃ : HObj) (zs : List ℚ) (P : Arr ℂ) (data : Arr ℝ) (psfa : Arr ℂ) (c : PrConf) (Q : Arr ℂ),
    Optics o.params 500 1 (3/2) 100 8 zs .none .none ∧ HObj.applyPupil P o = (.ok (), o₁) ∧ HObj.getPSFi o₁ = (.ok data, o₂) ∧
    HObj.getPSFa o₁ = (.ok psfa, o₃) ∧ c.data = data ∧ c.phaseOnly = true ∧ P.get [0, 0] = 1 ∧ P.get [1, 0] = -1 ∧
    nextPupil c psfa = .ok Q ∧ ∀ a < 8, ∀ b < 8, Q.get [a, b] = P.get [a, b] := by
  obtain ⟨o, e1, e2, hopt, -⟩ := setup_model (N := 8) (demoDict_setup 3)
  have hnum := hopt.numbersOf (by norm_num) (by norm_num) (by norm_num) (by simp)
  have hgc := optics_genCoords hopt (by norm_num) (by norm_num) (by norm_num) (by simp)
  set h : HanserNum := _ with hh
  have hgc' : genCoords o.params = .ok h := hgc
  have hs : Scalar o.params h := ⟨hnum, rfl, rfl⟩
  let P : Arr ℂ := ⟨[8, 8], fun i => if radial 8 ((100 : ℚ) : ℝ) (i.getD 0 0) (i.getD 1 0) < ((1 / 500 : ℚ) : ℝ) then
    (if i.getD 1 0 < i.getD 0 0 then -1 else 1) else 0⟩
  obtain ⟨a, ha, hash, -⟩ := psf_form hs 0 ⟨[], fun _ => 0⟩ P rfl
  have h1 : HObj.applyPupil P o = (.ok (), { params := o.params, psfa := some a }) := by rw [applyPupil_run, ha]
  let c : PrConf := { data := psfiOf a, mag := (psfiOf a).map psqrt, h := h, mask := h.idealPupil.map Complex.re, pupilTol := 0, mseTol := 0, phaseOnly := true }
  obtain ⟨-, Q, q1, q2, q3⟩ := C64_fixed_point o _ _ _ 500 1 (3/2) 100 8 _ hopt (by norm_num) (by norm_num) (by norm_num) (by simp)
    P rfl (fun a _ b _ hn => if_neg hn) (psfiOf a) a h1 rfl rfl true
    (fun _ a _ b _ hin => by
      show ‖(if radial 8 ((100 : ℚ) : ℝ) a b < _ then (if b < a then (-1 : ℂ) else 1) else 0)‖ = 1
      rw [if_pos hin]; split_ifs <;> simp) c rfl rfl hgc' rfl rfl
  have r0 : radial 8 ((100 : ℚ) : ℝ) 0 0 < ((1 / 500 : ℚ) : ℝ) := by
    rw [radial, Real.sqrt_lt' (by norm_num)]; norm_num [freq]
  have r1 : radial 8 ((100 : ℚ) : ℝ) 1 0 < ((1 / 500 : ℚ) : ℝ) := by
    rw [radial, Real.sqrt_lt' (by norm_num)]; norm_num [freq]
  refine ⟨o, _, _, _, _, P, psfiOf a, a, c, Q, hopt, h1, rfl, rfl, rfl, rfl, ?_, ?_, q1, q3⟩
  · show (if radial 8 ((100 : ℚ) : ℝ) 0 0 < _ then (if 0 < 0 then (-1 : ℂ) else 1) else 0) = 1
    rw [if_pos r0]; simp
  · show (if radial 8 ((100 : ℚ) : ℝ) 1 0 < _ then (if 0 < 1 then (-1 : ℂ) else 1) else 0) = -1
    rw [if_pos r1]; simp

/-- Non-vacuity of C31: the demo model computes, takes a pupil, is read, gets another `ni` and is read again. -/
example (P : Arr ℂ) : ∃ o, HObj.new demoArgs none = .ok o ∧
    (runHistory HObj.step o [.readPSFi, .applyPupil P, .readOTFa, .set .ni (.float (.fin (3/2))), .readPSFa]).1 =
    (runHistory HSpec.step ⟨o.params, none⟩ [.readPSFi, .applyPupil P, .readOTFa, .set .ni (.float (.fin (3/2))), .readPSFa]).1 ∧
    ∃ a, (runHistory HObj.step o [.readPSFi, .applyPupil P]).1[0]? = some (.ok (.real a)) := by
  obtain ⟨o, a, ho, -, -, ha⟩ := demo_optics
  refine ⟨o, ho, (C31_hanser_coherent _ _ o ho _).1, psfiOf a, ?_⟩
  rw [(C31_hanser_coherent _ _ o ho _).1]
  simp only [runHistory, HSpec.step, HSpec.PSFi, ha]
  rfl

/-- Non-vacuity of C32 and C33: a Sheppard model in use, and an assignment that is rejected. -/
example : ∃ o, SObj.new demoArgs (.bool false) = .ok o ∧ ∃ o', o' = (runHistory SObj.step o [.readPSFi, .set .ni (.int 2), .readOTFa]).2 ∧
    ∃ o'', setAttr .sheppard .na (.str "high") o' = (.error .typeError, o'') ∧ o'' = o' := by
  obtain ⟨o, ho⟩ := demoSheppard
  refine ⟨o, ho, _, rfl, _, rfl, ?_⟩
  exact C33_sheppard_rejected _ _ o ho _ _ _ rfl .na (.str "high") .typeError rfl

/-- Non-vacuity of `C33_hanser_rejected`. -/
example (P : Arr ℂ) : ∃ o, HObj.new demoArgs none = .ok o ∧ ∃ o', o' = (runHistory HObj.step o [.readPSFi, .applyPupil P]).2 ∧
    ∃ o'', setAttr .hanser .size (.float (.fin 3)) o' = (.error .typeError, o'') ∧ o'' = o' := by
  obtain ⟨o, ho⟩ := demoObj
  refine ⟨o, ho, _, rfl, _, rfl, ?_⟩
  exact C33_hanser_rejected _ _ o ho _ _ _ rfl .size (.float (.fin 3)) .typeError rfl

end PyOTF
