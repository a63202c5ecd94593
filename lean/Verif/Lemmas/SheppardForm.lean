import Verif.Model.Sheppard
import Verif.Lemmas.HanserPhys

/-!
# Closed form of the Sheppard amplitude OTF
-/

namespace PyOTF

/-- The numbers behind the parameters of a `SheppardPSF`. -/
structure SNumbersOf (p : Params) (h : SheppardNum) : Prop where
  size : ∃ v, p.size = some v ∧ h.size = pyNat v ∧ 2 ≤ h.size
  zsize : ∃ v, p.zsize = some v ∧ h.zsize = pyNat v ∧ 2 ≤ h.zsize
  res : ∃ v q, p.res = some v ∧ v.num? = some (.fin q) ∧ h.res = (q : ℝ) ∧ q ≠ 0
  zres : ∃ v q, p.zres = some v ∧ v.num? = some (.fin q) ∧ h.zres = (q : ℝ) ∧ q ≠ 0
  kmag : ∃ ni wl x y q, p.ni = some ni ∧ p.wl = some wl ∧ ni.num? = some x ∧ wl.num? = some y ∧
    PyFloat.div x y = .ok (.fin q) ∧ h.kmag = (q : ℝ)
  limit : ∃ na wl x y q, p.na = some na ∧ p.wl = some wl ∧ na.num? = some x ∧ wl.num? = some y ∧
    PyFloat.div x y = .ok (.fin q) ∧ h.limit = (q : ℝ)
  le : h.limit ^ 2 ≤ h.kmag ^ 2
  vecCorr : p.vecCorr = some h.vecCorr
  condition : p.condition = some h.condition
  dual : p.dual = some h.dual

theorem sheppardGenOtf_ok {p : Params} {t : Arr (Option ℂ)} (ht : sheppardGenOtf p = .ok t) :
    ∃ h, SNumbersOf p h ∧ t = fftshift (some [1, 2, 3]) h.otf := by
  unfold sheppardGenOtf at ht
  obtain ⟨sv, hs, ht⟩ := py_bind_ok ht
  obtain ⟨rv, hr, ht⟩ := py_bind_ok ht
  obtain ⟨r, hr', ht⟩ := py_bind_ok ht
  obtain ⟨d, hd, ht⟩ := py_bind_ok ht
  obtain ⟨zsv, hzs, ht⟩ := py_bind_ok ht
  obtain ⟨zrv, hzr, ht⟩ := py_bind_ok ht
  obtain ⟨zr, hzr', ht⟩ := py_bind_ok ht
  obtain ⟨dz, hdz, ht⟩ := py_bind_ok ht
  obtain ⟨niv, hni, ht⟩ := py_bind_ok ht
  obtain ⟨ni, hni', ht⟩ := py_bind_ok ht
  obtain ⟨wlv, hwl, ht⟩ := py_bind_ok ht
  obtain ⟨wl, hwl', ht⟩ := py_bind_ok ht
  obtain ⟨km, hkm, ht⟩ := py_bind_ok ht
  by_cases h1 : pyNat sv < 2
  · simp only [h1, if_true] at ht
    obtain ⟨_, h, _⟩ := py_bind_ok ht; cases h
  by_cases h2 : pyNat zsv < 2
  · simp only [h1, h2, if_true, if_false] at ht
    obtain ⟨_, h, _⟩ := py_bind_ok ht; cases h
  simp only [h1, h2, if_false] at ht
  obtain ⟨nav, hna, ht⟩ := py_bind_ok ht
  obtain ⟨na, hna', ht⟩ := py_bind_ok ht
  obtain ⟨lm, hlm, ht⟩ := py_bind_ok ht
  obtain ⟨f, hf, ht⟩ := py_bind_ok ht
  obtain ⟨vc, hvc, ht⟩ := py_bind_ok ht
  obtain ⟨cd, hcd, ht⟩ := py_bind_ok ht
  obtain ⟨du, hdu, ht⟩ := py_bind_ok ht
  obtain ⟨qs, hq1, hq2⟩ := finReals_ok hf
  match qs, hq1, hq2 with
  | [], hq1, _ => simp at hq1
  | [_], hq1, _ => simp at hq1
  | [_, _], hq1, _ => simp at hq1
  | [_, _, _], hq1, _ => simp at hq1
  | _ :: _ :: _ :: _ :: _ :: _, hq1, _ => simp at hq1
  | [q1, q2, q3, q4], hq1, hq2 =>
    simp only [List.map_cons, List.map_nil, List.cons.injEq, and_true] at hq1
    obtain ⟨rfl, rfl, rfl, rfl⟩ := hq1
    subst hq2
    split_ifs at ht with h3
    · obtain ⟨_, h, _⟩ := py_bind_ok ht; cases h
    have ht := py_pure_ok ht
    simp only [List.map_cons, List.map_nil, List.getD_cons_zero, List.getD_cons_succ] at ht
    refine ⟨⟨pyNat sv, pyNat zsv, q1, q2, q3, q4, vc, cd, du⟩,
      ⟨⟨sv, attr_ok hs, rfl, not_lt.mp h1⟩, ⟨zsv, attr_ok hzs, rfl, not_lt.mp h2⟩,
      ⟨rv, q1, attr_ok hr, pyNum_ok hr', rfl, ?_⟩, ⟨zrv, q2, attr_ok hzr, pyNum_ok hzr', rfl, ?_⟩,
      ⟨niv, wlv, ni, wl, q3, attr_ok hni, attr_ok hwl, pyNum_ok hni', pyNum_ok hwl', hkm, rfl⟩,
      ⟨nav, wlv, na, wl, q4, attr_ok hna, attr_ok hwl, pyNum_ok hna', pyNum_ok hwl', hlm, rfl⟩, ?_,
      attr_ok hvc, attr_ok hcd, attr_ok hdu⟩, ht.symm⟩
    · rintro rfl; simp [PyFloat.mul, PyFloat.div] at hd
    · rintro rfl; simp [PyFloat.mul, PyFloat.div] at hdz
    · simpa using h3

/-- Conversely. -/
theorem sheppardGenOtf_of {p : Params} {h : SheppardNum} (hN : SNumbersOf p h) :
    sheppardGenOtf p = .ok (fftshift (some [1, 2, 3]) h.otf) := by
  obtain ⟨sv, hs1, hs2, hs3⟩ := hN.size
  obtain ⟨zsv, hzs1, hzs2, hzs3⟩ := hN.zsize
  obtain ⟨rv, r, hr1, hr2, hr3, hr4⟩ := hN.res
  obtain ⟨zrv, zr, hzr1, hzr2, hzr3, hzr4⟩ := hN.zres
  obtain ⟨niv, wlv, ni, wl, k, h1, h2, h3, h4, h5, h6⟩ := hN.kmag
  obtain ⟨nav, wlv', na, wl', l, g1, g2, g3, g4, g5, g6⟩ := hN.limit
  rw [h2] at g2; cases g2
  rw [h4] at g4; cases g4
  have hd : ∀ (m : ℕ) (q : ℚ), 2 ≤ m → q ≠ 0 →
      PyFloat.div (.fin 1) (PyFloat.mul (.fin (m : ℚ)) (.fin q)) = .ok (.fin (1 / (m * q))) := by
    intro m q hm hq
    have : (m : ℚ) ≠ 0 := by
      have : m ≠ 0 := by omega
      exact_mod_cast this
    simp only [PyFloat.mul, PyFloat.div]
    rw [if_neg (mul_ne_zero this hq)]
  have hf : finReals [PyFloat.fin r, PyFloat.fin zr, PyFloat.fin k, PyFloat.fin l] = .ok [(r : ℝ), (zr : ℝ), (k : ℝ), (l : ℝ)] :=
    finReals_fin [r, zr, k, l]
  have hlt : ¬ ((k : ℝ) ^ 2 < (l : ℝ) ^ 2) := by rw [← h6, ← g6]; exact not_lt.mpr hN.le
  have e : (⟨pyNat sv, pyNat zsv, r, zr, k, l, h.vecCorr, h.condition, h.dual⟩ : SheppardNum) = h := by
    rw [← hs2, ← hzs2, ← hr3, ← hzr3, ← h6, ← g6]
  rw [hs2] at hs3
  rw [hzs2] at hzs3
  simp only [sheppardGenOtf, hs1, hr1, hzs1, hzr1, h1, h2, g1, attr, pyNum, hr2, hzr2, h3, h4, g3, bind, Except.bind,
    hd _ _ hs3 hr4, hd _ _ hzs3 hzr4, h5, g5, hf, hN.vecCorr, hN.condition, hN.dual, not_lt.mpr hs3, not_lt.mpr hzs3,
    if_false, hlt, List.getD_cons_zero, List.getD_cons_succ, e, pure, Except.pure]

theorem sheppard_shape (h : SheppardNum) : h.otf.shape = [h.ncomp, h.zsize, h.size, h.size] := rfl

theorem sheppard_otf_get (h : SheppardNum) (c z y x : ℕ) :
    (fftshift (some [1, 2, 3]) h.otf).get [c, z, y, x] =
      h.otf.get [c, rollIdx h.zsize (h.zsize / 2 : ℕ) z, rollIdx h.size (h.size / 2 : ℕ) y, rollIdx h.size (h.size / 2 : ℕ) x] := by
  simp [fftshift, Arr.alongAxes, Arr.alongAxis, axesOf, fftshift1, roll1, sheppard_shape]

theorem sheppard_otf_shape (h : SheppardNum) :
    (fftshift (some [1, 2, 3]) h.otf).shape = [h.ncomp, h.zsize, h.size, h.size] := by
  simp [fftshift, alongAxes_shape, sheppard_shape]

end PyOTF
