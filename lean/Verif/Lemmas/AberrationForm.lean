import Verif.Props.C38_Aberration
import Verif.Props.C22_C24_Noll
import Verif.Props.C25_C27_Zernike
import Verif.Lemmas.HanserPhys

/-!
# The aberrated pupil in closed form
-/

open Complex PyOTF.Physics

namespace PyOTF

theorem ravel_range (L : ℕ) : (⟨[L], fun i => (i.getD 0 0 : ℤ) + 1⟩ : Arr ℤ).ravel =
    ((List.range L).map (· + 1)).map fun (j : ℕ) => (j : ℤ) := by
  simp only [Arr.ravel, indices, List.map_cons, List.map_nil, List.map_map]
  induction List.range L with
  | nil => rfl
  | cons a l ih => simp_all [Function.comp_def]

/-- The first `L` modes in Noll's order. -/
theorem noll_modes (L : ℕ) (hL : L ≤ 120) : ∃ D : List (ℤ × ℤ), D.length = L ∧
    zernikeDegrees [⟨[L], fun i => (i.getD 0 0 : ℤ) + 1⟩] = .ok D ∧ (∀ p ∈ D, Admissible p.1 p.2) ∧
    ∀ k < L, nollStd (D.getD k (0, 0)).1 (D.getD k (0, 0)).2 = (k : ℤ) + 1 := by
  obtain ⟨D, h1, h2, h3⟩ := C22_noll_degrees_noll ((List.range L).map (· + 1)) (by
    intro j hj
    simp only [List.mem_map, List.mem_range] at hj
    obtain ⟨a, ha, rfl⟩ := hj
    omega)
  obtain ⟨L', h4, h5⟩ := C23_standard_numbering D h2
  rw [h3] at h4
  cases h4
  have hlen : D.length = L := by
    have := congrArg List.length h5
    simpa using this.symm
  refine ⟨D, hlen, ?_, fun p hp => (h2 p hp).1, fun k hk => ?_⟩
  · simp only [zernikeDegrees]
    rw [ravel_range, h1]
  · have h6 := congrArg (fun l => l.getD k 0) h5
    simp only [List.getD_eq_getElem?_getD, List.getElem?_map] at h6
    rw [List.getElem?_range hk, List.getElem?_eq_getElem (by omega)] at h6
    simp only [Option.map_some, Option.getD_some] at h6
    rw [List.getD_eq_getElem?_getD, List.getElem?_eq_getElem (by omega), Option.getD_some, ← h6]
    push_cast; ring

theorem bdim_one (a : ℕ) : bdim a 1 = .ok a ∧ bdim 1 a = .ok a ∧ bdim a a = .ok a := by
  unfold bdim
  refine ⟨?_, ?_, ?_⟩ <;> split_ifs <;> simp_all

/-- Weighted sum of the stack of modes. -/
theorem weighted_sum (z : Arr ℝ) (c : List ℝ) (L N : ℕ) (hc : c.length = L) (hN : 2 ≤ N)
    (hz : (L = 1 ∧ z.shape = [N, N]) ∨ (2 ≤ L ∧ z.shape = [L, N, N])) :
    ∃ a, z.mulB (column c) = .ok a ∧ (a.sumAxis 0).shape = [N, N] ∧ ∀ i j, (a.sumAxis 0).get [i, j] =
      ∑ k ∈ Finset.range L, (if L = 1 then z.get [i, j] else z.get [k, i, j]) * c.getD k 0 := by
  have hN1 : N ≠ 1 := by omega
  rcases hz with ⟨rfl, hs⟩ | ⟨hL, hs⟩
  · simp only [Arr.mulB, bshape, column, hs, hc, List.reverse_cons, List.reverse_nil, List.nil_append, List.cons_append,
      bshapeRev, bdim_one, bind, Except.bind, pure, Except.pure, broadcastTo, List.length_cons, List.length_nil]
    simp [hN1, Arr.sumAxis]
  · have hL1 : L ≠ 1 := by omega
    simp only [Arr.mulB, bshape, column, hs, hc, List.reverse_cons, List.reverse_nil, List.nil_append, List.cons_append,
      bshapeRev, bdim_one, bind, Except.bind, pure, Except.pure, broadcastTo, List.length_cons, List.length_nil]
    simp [hN1, hL1, Arr.sumAxis]

theorem zernike_stack (r t : Arr ℝ) (L N : ℕ) (hr : r.shape = [N, N]) (ht : t.shape = [N, N])
    (hnn : ∀ i, InShape i r.shape → 0 ≤ r.get i) (hL0 : 1 ≤ L) (hL : L ≤ 120) (hN : 2 ≤ N) :
    ∃ (D : List (ℤ × ℤ)) (z : Arr ℝ), zernike r t [⟨[L], fun i => (i.getD 0 0 : ℤ) + 1⟩] = .ok z ∧ D.length = L ∧
      (∀ p ∈ D, Admissible p.1 p.2) ∧
      (∀ k < L, nollStd (D.getD k (0, 0)).1 (D.getD k (0, 0)).2 = (k : ℤ) + 1) ∧
      ((L = 1 ∧ z.shape = [N, N]) ∨ (2 ≤ L ∧ z.shape = [L, N, N])) ∧
      ∀ k < L, ∀ i j, (if L = 1 then z.get [i, j] else z.get [k, i, j]) =
        zernike1 (r.get [i, j]) (t.get [i, j]) (D.getD k (0, 0)).1 (D.getD k (0, 0)).2 true := by
  obtain ⟨D, h1, h2, h3, h4⟩ := noll_modes L hL
  have hN1 : N ≠ 1 := by omega
  have hD : D ≠ [] := by rintro rfl; simp at h1; omega
  have hadm : ¬ (D.any (fun p => decide (¬ |p.2| ≤ p.1)) = true) := by
    simp only [List.any_eq_true, not_exists, not_and, decide_eq_true_eq, not_not]
    exact fun p hp => (h3 p hp).1
  have hb : ∃ t', broadcastTo r.shape t = .ok t' ∧ ∀ i j, t'.get [i, j] = t.get [i, j] := by
    unfold broadcastTo
    simp [hr, ht, hN1]
  obtain ⟨t', ht', htg⟩ := hb
  have hany : D.any (fun p => decide ((p.1 - |p.2|) % 2 = 0)) = true := by
    obtain ⟨p, hp⟩ := List.exists_mem_of_ne_nil D hD
    refine List.any_eq_true.mpr ⟨p, hp, ?_⟩
    have := (h3 p hp).2
    rcases abs_choice p.2 with h | h <;> rw [h] <;> simp <;> omega
  unfold zernike
  simp only [h2, bind, Except.bind, if_neg (not_not.mpr hnn), hany, if_true, ht', if_neg hadm, if_neg hD, pure, Except.pure]
  simp only [hr, List.length_cons, List.length_nil, if_neg (show ¬ (0 + 1 + 1 > 2) by omega), h1]
  refine ⟨D, _, rfl, h1, h3, h4, ?_, ?_⟩
  · rcases Nat.lt_or_ge 1 L with h | h
    · right; refine ⟨h, ?_⟩
      have : L ≠ 1 := by omega
      simp [Arr.squeeze, hN1, this]
    · left
      have : L = 1 := by omega
      subst this
      exact ⟨rfl, by simp [Arr.squeeze, hN1]⟩
  · intro k hk i j
    by_cases h : L = 1
    · subst h
      have : k = 0 := by omega
      subst this
      simp [Arr.squeeze, hN1, unsqueezeIdx, htg]
    · simp [Arr.squeeze, hN1, unsqueezeIdx, h, htg]

/-- Normalised Zernike polynomial of degrees `n`, `m` with the library's sign `(-1)^m`, 0 outside the unit disk. -/
noncomputable def Physics.zernikeMode (d : ℤ × ℤ) (ρ φ : ℝ) : ℝ :=
  if ρ ≤ 1 then
    (if d.2 = 0 then Real.sqrt (d.1 + 1) else Real.sqrt (2 * (d.1 + 1))) *
      ((-1) ^ d.2.natAbs * radialTextbook d.1.toNat d.2.natAbs ρ) *
      (if d.2 < 0 then Real.sin (d.2.natAbs * φ) else Real.cos (d.2.natAbs * φ))
  else 0

theorem zernike1_mode (d : ℤ × ℤ) (h : Admissible d.1 d.2) (ρ φ : ℝ) : zernike1 ρ φ d.1 d.2 true = zernikeMode d ρ φ := by
  unfold zernikeMode
  by_cases hr : ρ ≤ 1
  · rw [if_pos hr, C27_closed_form d.1 d.2 h ρ φ hr]
  · rw [if_neg hr]
    exact C27_support _ _ _ _ _ (not_le.mp hr)

/-- Azimuth of the frequency in row `i` (y) and column `j` (x). -/
noncomputable def Physics.azimuth (N : ℕ) (r : ℝ) (i j : ℕ) : ℝ := Complex.arg ⟨freq N r j, freq N r i⟩

/-- `D` lists the degrees of the first `L` modes in Noll's order. -/
structure NollModes (D : List (ℤ × ℤ)) (L : ℕ) : Prop where
  length : D.length = L
  admissible : ∀ k < L, Admissible (D.getD k (0, 0)).1 (D.getD k (0, 0)).2
  noll : ∀ k < L, nollStd (D.getD k (0, 0)).1 (D.getD k (0, 0)).2 = (k : ℤ) + 1

/-- `Σ c_k Z_k` at frequency `(i, j)` of a grid whose aperture has radius `l`. -/
noncomputable def Physics.zernikeSum (D : List (ℤ × ℤ)) (c : List ℝ) (N : ℕ) (r l : ℝ) (i j : ℕ) : ℝ :=
  ∑ k ∈ Finset.range c.length, c.getD k 0 * zernikeMode (D.getD k (0, 0)) (radial N r i j / l) (azimuth N r i j)

theorem aberratedPupil_form {p : Params} {w n i r : ℚ} {N : ℕ} {zs : List ℚ} {v : VecCorr} {cd : Condition}
    (ho : Optics p w n i r N zs v cd) (hw : 0 < w) (hn : 0 < n) (hr : r ≠ 0) (hN : 2 ≤ N) (m ph : List ℝ)
    (hlen : m.length = ph.length) (hL0 : 1 ≤ m.length) (hL : m.length ≤ 120) :
    ∃ P D, aberratedPupil p m ph = .ok P ∧ P.shape = [N, N] ∧ NollModes D m.length ∧
      ∀ a b, P.get [a, b] = (aperture N r ((n / w : ℚ) : ℝ) a b + (zernikeSum D m N r ((n / w : ℚ) : ℝ) a b : ℝ)) *
        exp (I * (zernikeSum D ph N r ((n / w : ℚ) : ℝ) a b : ℝ)) := by
  obtain ⟨u1, a1, b1⟩ := ho.wl
  obtain ⟨u2, a2, b2⟩ := ho.na
  obtain ⟨u3, a3, b3⟩ := ho.ni
  obtain ⟨u4, a4, b4⟩ := ho.res
  obtain ⟨u5, a5, b5⟩ := ho.size
  have hgen : hanserGenKr p = .ok (N, .fin r, .fin (i / w), .fin (n / w)) := by
    have hNr : (N : ℚ) * r ≠ 0 := mul_ne_zero (by exact_mod_cast (by omega : N ≠ 0)) hr
    simp only [hanserGenKr, a1, a2, a3, a4, a5, b5, attr, pyNum, b1, b2, b3, b4, bind, Except.bind, PyFloat.mul,
      PyFloat.div, hNr, hw.ne', if_false, pure, Except.pure]
  have hfin : finReals [PyFloat.fin r, .fin (i / w), .fin w, .fin n] = .ok [(r : ℝ), ((i / w : ℚ) : ℝ), (w : ℝ), (n : ℝ)] :=
    finReals_fin [r, i / w, w, n]
  have hwR : (0 : ℝ) < w := by exact_mod_cast hw
  have hnR : (0 : ℝ) < n := by exact_mod_cast hn
  unfold aberratedPupil
  rw [if_neg (by simpa using hlen)]
  simp only [hgen, bind, Except.bind, a1, a2, attr, pyNum, b1, b2, hfin, pure, Except.pure]
  rw [if_neg (by intro h; injection h with h; exact hn.ne' h)]
  simp only [List.getD_cons_zero, List.getD_cons_succ]
  obtain ⟨h, hh⟩ : ∃ h : HanserNum, h = ⟨N, (r : ℝ), ((i / w : ℚ) : ℝ), .fin (n / w), [], .none, .none⟩ := ⟨_, rfl⟩
  obtain ⟨ra, hra⟩ : ∃ ra : Arr ℝ, ra = ⟨[N, N], fun i => h.kr (i.getD 0 0) (i.getD 1 0) * w / n⟩ := ⟨_, rfl⟩
  obtain ⟨ta, hta⟩ : ∃ ta : Arr ℝ, ta = ⟨[N, N], fun i => h.phi (i.getD 0 0) (i.getD 1 0)⟩ := ⟨_, rfl⟩
  obtain ⟨D, z, hz, hD1, hD2, hD3, hzs, hzg⟩ := zernike_stack ra ta m.length N (by rw [hra]) (by rw [hta])
    (by
      intro i' _
      rw [hra]
      simp only [kr_eq]
      have := radial_nonneg h.size h.res (i'.getD 0 0) (i'.getD 1 0)
      positivity) hL0 hL hN
  rw [← hh, ← hra, ← hta, hz]
  simp only
  obtain ⟨f, hf, hfs, hfg⟩ := weighted_sum z ph m.length N hlen.symm hN hzs
  obtain ⟨g, hg, hgs, hgg⟩ := weighted_sum z m m.length N rfl hN hzs
  rw [hf, hg]
  have hN1 : N ≠ 1 := by omega
  have hshape : (h.idealPupil.map fun v => ‖v‖).shape = [N, N] := by rw [hh]; rfl
  have hiadd : ∃ b, (g.sumAxis 0).iadd (h.idealPupil.map fun v => ‖v‖) = .ok b ∧ b.shape = [N, N] ∧
      ∀ i j, b.get [i, j] = (g.sumAxis 0).get [i, j] + ‖h.idealPupil.get [i, j]‖ := by
    unfold Arr.iadd broadcastTo
    rw [hgs, hshape]
    simp [hN1, bind, Except.bind, pure, Except.pure, Arr.map]
  obtain ⟨b, hb, hbs, hbg⟩ := hiadd
  simp only [hb]
  have hadm : ∀ k < m.length, Admissible (D.getD k (0, 0)).1 (D.getD k (0, 0)).2 := by
    intro k hk
    rw [List.getD_eq_getElem?_getD, List.getElem?_eq_getElem (by omega), Option.getD_some]
    exact hD2 _ (List.getElem_mem _)
  refine ⟨_, D, rfl, hbs, ⟨hD1, hadm, hD3⟩, fun x y => ?_⟩
  have hsum : ∀ c : List ℝ, c.length = m.length →
      (∑ k ∈ Finset.range m.length, (if m.length = 1 then z.get [x, y] else z.get [k, x, y]) * c.getD k 0) =
      zernikeSum D c N r ((n / w : ℚ) : ℝ) x y := by
    intro c hc
    rw [zernikeSum, hc]
    refine Finset.sum_congr rfl fun k hk => ?_
    have hk' := Finset.mem_range.mp hk
    rw [hzg k hk', zernike1_mode _ (hadm k hk'), mul_comm]
    congr 2
    · rw [hra, hh]
      simp only [kr_eq, List.getD_cons_zero, List.getD_cons_succ]
      push_cast
      field_simp
    · rw [hta, hh]
      simp only [HanserNum.phi, cart2pol, HanserNum.k, freq_eq, List.getD_cons_zero, List.getD_cons_succ, azimuth]
  simp only [hbg, hgg, hfg, hsum ph hlen.symm, hsum m rfl]
  have hid : ((‖h.idealPupil.get [x, y]‖ : ℝ) : ℂ) = aperture N r ((n / w : ℚ) : ℝ) x y := by
    rw [idealPupil_eq h (l := n / w) (by rw [hh]), hh]
    simp only [aperture]
    split_ifs <;> simp
  rw [ofReal_add, hid, add_comm]

end PyOTF
