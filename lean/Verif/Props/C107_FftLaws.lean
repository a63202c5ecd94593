import Verif.Props.C07_C09_EasyFft
import Verif.Lemmas.Pair
import Verif.Lemmas.Dc
import Verif.Lemmas.CentredInv

/-!
# C107: the laws of `easy_fft` in any number of dimensions
-/

namespace PyOTF

open Complex

/-! ## Specification -/

/-- Phase (in turns) of frequency `k` at pixel `j`, both counted from the centres `n // 2` of the axes. -/
noncomputable def phaseTurns : List ℕ → List ℕ → List ℕ → ℝ
  | n :: s, j :: js, k :: ks => turns n j k + phaseTurns s js ks
  | _, _, _ => 0

/-- The pixel that a cyclic displacement by `d` brings to `j`. -/
def movedFrom : List ℕ → List ℤ → List ℕ → List ℕ
  | n :: s, d :: ds, j :: js => (((j : ℤ) - d) % (n : ℤ)).toNat :: movedFrom s ds js
  | _, _, _ => []

/-- Phase (in turns) that a displacement by `d` adds at frequency `k`. -/
noncomputable def displacementTurns : List ℕ → List ℤ → List ℕ → ℝ
  | n :: s, d :: ds, k :: ks => (d : ℝ) * ((k : ℝ) - (n / 2 : ℕ)) / n + displacementTurns s ds ks
  | _, _, _ => 0

/-- The opposite frequency: mirror image in the centres of the axes. -/
def oppositeIdx : List ℕ → List ℕ → List ℕ
  | n :: s, k :: ks => ((2 * (n / 2) + n - k) % n) :: oppositeIdx s ks
  | _, _ => []

/-- The displacement from pixel `j` to pixel `i` as a pixel: it is at the centre if `i = j`. -/
def relativeTo : List ℕ → List ℕ → List ℕ → List ℕ
  | n :: s, i :: is, j :: js => (((i : ℤ) - j + (n / 2 : ℕ)) % (n : ℤ)).toNat :: relativeTo s is js
  | _, _, _ => []

/-- Circular convolution with a kernel whose origin is at the centre pixel. -/
noncomputable def circularConvolution (a b : Arr ℂ) : Arr ℂ := ⟨a.shape, fun i => sumIdx a.shape fun j => a.get j * b.get (relativeTo a.shape i j)⟩

/-! ## Proofs -/

/-- The product of the waves of the axes. -/
noncomputable def waveW : List ℕ → List ℕ → List ℕ → ℂ
  | n :: s, j :: js, k :: ks => W n (-(((j : ℤ) - (n / 2 : ℕ)) * ((k : ℤ) - (n / 2 : ℕ)))) * waveW s js ks
  | _, _, _ => 1

theorem waveW_eq : ∀ s j k : List ℕ, waveW s j k = exp (-(2 * Real.pi * I * (phaseTurns s j k : ℝ)))
  | [], _, _ => by simp [waveW, phaseTurns]
  | _ :: _, [], _ => by simp [waveW, phaseTurns]
  | _ :: _, _ :: _, [] => by simp [waveW, phaseTurns]
  | n :: s, j :: js, k :: ks => by
    rw [waveW, waveW_eq s js ks, W_neg_turns, ← exp_add, phaseTurns]
    congr 1
    push_cast
    ring

theorem alongAxes_easy1_range' (a : Arr ℂ) (m : ℕ) : ∀ (k : ℕ) (idx : List ℕ), k + m = a.shape.length → InShape idx a.shape →
    (a.alongAxes easy1 (List.range' k m)).get idx = sumIdx (a.shape.drop k) fun t => a.get (idx.take k ++ t) * waveW (a.shape.drop k) t (idx.drop k) := by
  induction m with
  | zero =>
    intro k idx hk hl
    have h1 : a.shape.drop k = [] := List.drop_of_length_le (by omega)
    have h2 : idx.take k = idx := List.take_of_length_le (by rw [hl.length]; omega)
    simp [h1, h2, sumIdx, waveW, Arr.alongAxes]
  | succ m ih =>
    intro k idx hk hl
    have hkl : k < a.shape.length := by omega
    have hki : k < idx.length := by rw [hl.length]; exact hkl
    rw [List.range'_succ, alongAxes_cons]
    simp only [Arr.alongAxis, alongAxes_shape]
    rw [easy1_eq _ (hl.lt hkl), List.drop_eq_getElem_cons hkl, sumIdx, List.getD_eq_getElem _ _ hkl]
    refine Finset.sum_congr rfl fun j hj => ?_
    have hj' : j < a.shape.getD k 0 := by rw [List.getD_eq_getElem _ _ hkl]; exact Finset.mem_range.mp hj
    rw [ih (k + 1) (idx.set k j) (by omega) (InShape.set hl hj'), mul_comm, ← sumIdx_mul_left]
    refine sumIdx_congr fun t _ => ?_
    rw [List.drop_eq_getElem_cons hki, waveW]
    have e1 : (idx.set k j).take (k + 1) ++ t = idx.take k ++ j :: t := by
      rw [List.take_set, List.take_succ_eq_append_getElem hki, List.set_append_right _ _ (by simp)]
      simp [Nat.min_eq_left hki.le]
    have e2 : (idx.set k j).drop (k + 1) = idx.drop (k + 1) := by
      rw [List.drop_set_of_lt (by omega)]
    rw [e1, e2, List.getD_eq_getElem _ _ hki]
    ring

theorem easyFft_waveW (a : Arr ℂ) (k : List ℕ) (hk : InShape k a.shape) :
    (easyFft none a).get k = sumIdx a.shape fun j => a.get j * waveW a.shape j k := by
  rw [(easyFft_same none a (goodAxes_all _)).2 k (by rw [easyFft_shape]; exact hk)]
  have := alongAxes_easy1_range' a a.shape.length 0 k (by omega) hk
  rw [← List.range_eq_range'] at this
  simpa [axesOf] using this

/-- C107: `easy_fft` is the Fourier sum with pixels and frequencies counted from the centres, in any number of dimensions. -/
theorem C107_fourier_sum (a : Arr ℂ) (k : List ℕ) (hk : InShape k a.shape) :
    (easyFft none a).get k = sumIdx a.shape fun j => a.get j * exp (-(2 * Real.pi * I * (phaseTurns a.shape j k : ℝ))) := by
  rw [easyFft_waveW a k hk]
  simp only [waveW_eq]

/-- C107: it is linear. -/
theorem C107_linear (a b : Arr ℂ) (hs : b.shape = a.shape) (c d : ℂ) (k : List ℕ) (hk : InShape k a.shape) :
    (easyFft none ⟨a.shape, fun i => c * a.get i + d * b.get i⟩).get k = c * (easyFft none a).get k + d * (easyFft none b).get k := by
  have e0 := easyFft_waveW ⟨a.shape, fun i => c * a.get i + d * b.get i⟩ k hk
  rw [e0, easyFft_waveW a k hk, easyFft_waveW b k (hs ▸ hk), hs, ← sumIdx_mul_left, ← sumIdx_mul_left, ← sumIdx_add]
  exact sumIdx_congr fun j _ => by ring

theorem movedFrom_inShape : ∀ {s : List ℕ} {d : List ℤ} {j : List ℕ}, d.length = s.length → InShape j s → InShape (movedFrom s d j) s
  | [], _, _, _, h => by cases h; exact .nil
  | n :: s, [], _, hl, _ => by simp at hl
  | n :: s, d :: ds, j :: _, hl, .cons hj h => .cons (by
      have h1 := Int.emod_nonneg ((j : ℤ) - d) (by omega : (n : ℤ) ≠ 0)
      have h2 := Int.emod_lt_of_pos ((j : ℤ) - d) (by omega : (0 : ℤ) < n)
      omega) (movedFrom_inShape (by simpa using hl) h)

theorem emod_sub_inj {n : ℕ} {i j : ℕ} {d : ℤ} (hi : i < n) (hj : j < n) (h : (((i : ℤ) - d) % (n : ℤ)).toNat = (((j : ℤ) - d) % (n : ℤ)).toNat) : i = j :=
  rollIdx_inj hi hj h

theorem movedFrom_inj : ∀ {s : List ℕ} {d : List ℤ} {i j : List ℕ}, d.length = s.length → InShape i s → InShape j s →
    movedFrom s d i = movedFrom s d j → i = j
  | [], _, _, _, _, h, h', _ => by cases h; cases h'; rfl
  | n :: s, [], _, _, hl, _, _, _ => by simp at hl
  | n :: s, d :: ds, _, _, hl, .cons hi h, .cons hj h', he => by
    simp only [movedFrom, List.cons.injEq] at he
    rw [emod_sub_inj hi hj he.1, movedFrom_inj (by simpa using hl) h h' he.2]

/-- The wave of the displacement. -/
theorem waveW_moved : ∀ {s : List ℕ} {d : List ℤ} {j k : List ℕ}, d.length = s.length → InShape j s → InShape k s →
    waveW s j k = exp (-(2 * Real.pi * I * (displacementTurns s d k : ℝ))) * waveW s (movedFrom s d j) k
  | [], _, _, _, _, h, h' => by cases h; cases h'; simp [waveW, displacementTurns]
  | n :: s, [], _, _, hl, _, _ => by simp at hl
  | n :: s, d :: ds, j :: js, k :: ks, hl, .cons hj h, .cons hk h' => by
    have hn : 0 < n := by omega
    have hc : ((rollIdx n d j : ℕ) : ℤ) = ((j : ℤ) - d) % n := rollIdx_cast d j hn
    have e : W n (-(((j : ℤ) - (n / 2 : ℕ)) * ((k : ℤ) - (n / 2 : ℕ)))) =
        W n (-(d * ((k : ℤ) - (n / 2 : ℕ)))) * W n (-(((rollIdx n d j : ℕ) - (n / 2 : ℕ) : ℤ) * ((k : ℤ) - (n / 2 : ℕ)))) := by
      rw [← W_add]
      apply W_modEq hn
      have hd : (n : ℤ) ∣ ((j : ℤ) - d) - (rollIdx n d j : ℕ) := by rw [hc]; exact Int.dvd_self_sub_emod
      obtain ⟨q, hq⟩ := hd
      exact ⟨-(q * ((k : ℤ) - (n / 2 : ℕ))), by linear_combination -((k : ℤ) - (n / 2 : ℕ)) * hq⟩
    have e2 : W n (-(d * ((k : ℤ) - (n / 2 : ℕ)))) = exp (-(2 * Real.pi * I * ((d : ℝ) * ((k : ℝ) - (n / 2 : ℕ)) / n : ℝ))) := by
      rw [W]; generalize n / 2 = h; congr 1; push_cast; ring
    rw [waveW, waveW_moved (d := ds) (by simpa using hl) h h', movedFrom, waveW, e, e2, displacementTurns]
    rw [show (((j : ℤ) - d) % (n : ℤ)).toNat = rollIdx n d j from rfl]
    rw [show exp (-(2 * Real.pi * I * (((d : ℝ) * ((k : ℝ) - (n / 2 : ℕ)) / n + displacementTurns s ds ks : ℝ) : ℂ))) =
      exp (-(2 * Real.pi * I * ((d : ℝ) * ((k : ℝ) - (n / 2 : ℕ)) / n : ℝ))) * exp (-(2 * Real.pi * I * (displacementTurns s ds ks : ℝ))) by
        rw [← exp_add]; congr 1; push_cast; ring]
    ring

/-- C107: displacing the image cyclically multiplies its transform by a phase ramp (and leaves its magnitude alone). -/
theorem C107_shift (a : Arr ℂ) (d : List ℤ) (hd : d.length = a.shape.length) (k : List ℕ) (hk : InShape k a.shape) :
    (easyFft none ⟨a.shape, fun j => a.get (movedFrom a.shape d j)⟩).get k =
      exp (-(2 * Real.pi * I * (displacementTurns a.shape d k : ℝ))) * (easyFft none a).get k ∧
    ‖(easyFft none ⟨a.shape, fun j => a.get (movedFrom a.shape d j)⟩).get k‖ = ‖(easyFft none a).get k‖ := by
  have e : (easyFft none ⟨a.shape, fun j => a.get (movedFrom a.shape d j)⟩).get k =
      exp (-(2 * Real.pi * I * (displacementTurns a.shape d k : ℝ))) * (easyFft none a).get k := by
    have e0 := easyFft_waveW ⟨a.shape, fun j => a.get (movedFrom a.shape d j)⟩ k hk
    rw [e0, easyFft_waveW a k hk, ← sumIdx_mul_left]
    rw [← sumIdx_perm (s := a.shape) (σ := movedFrom a.shape d) (fun i hi => movedFrom_inShape hd hi)
      (fun i j hi hj he => movedFrom_inj hd hi hj he) fun j => exp (-(2 * Real.pi * I * (displacementTurns a.shape d k : ℝ))) * (a.get j * waveW a.shape j k)]
    refine sumIdx_congr fun j hj => ?_
    rw [waveW_moved hd hj hk]
    ring
  refine ⟨e, ?_⟩
  rw [e, norm_mul, show (-(2 * Real.pi * I * (displacementTurns a.shape d k : ℝ)) : ℂ) =
    ((-(2 * Real.pi * displacementTurns a.shape d k) : ℝ) : ℂ) * I by push_cast; ring, norm_exp_ofReal_mul_I, one_mul]

theorem oppositeIdx_inShape : ∀ {s k : List ℕ}, InShape k s → InShape (oppositeIdx s k) s
  | [], _, h => by cases h; exact .nil
  | n :: s, _, .cons hk h => .cons (opp_lt hk) (oppositeIdx_inShape h)

theorem waveW_opposite : ∀ {s j k : List ℕ}, InShape j s → InShape k s → waveW s j (oppositeIdx s k) = (starRingEnd ℂ) (waveW s j k)
  | [], _, _, h, h' => by cases h; cases h'; simp [waveW]
  | n :: s, j :: js, k :: ks, .cons hj h, .cons hk h' => by
    rw [oppositeIdx, waveW, waveW, waveW_opposite h h', map_mul, W_conj]
    congr 1
    apply W_modEq (by omega)
    obtain ⟨q, hq⟩ := opp_dvd hk
    rw [show (2 * (n / 2) + n - k) % n = opp n k from rfl]
    exact ⟨-(q * ((j : ℤ) - (n / 2 : ℕ))), by linear_combination -((j : ℤ) - (n / 2 : ℕ)) * hq⟩

theorem sumIdx_conj (s : List ℕ) (f : List ℕ → ℂ) : (starRingEnd ℂ) (sumIdx s f) = sumIdx s fun i => (starRingEnd ℂ) (f i) := by
  induction s generalizing f with
  | nil => rfl
  | cons n s ih => simp only [sumIdx, map_sum, ih]

/-- C107: conjugating the data conjugates the transform and reverses the frequencies; so the transform of real data is Hermitian. -/
theorem C107_hermitian (a : Arr ℂ) (k : List ℕ) (hk : InShape k a.shape) :
    (easyFft none (a.map (starRingEnd ℂ))).get k = (starRingEnd ℂ) ((easyFft none a).get (oppositeIdx a.shape k)) ∧
    ((∀ i, InShape i a.shape → (a.get i).im = 0) → (easyFft none a).get (oppositeIdx a.shape k) = (starRingEnd ℂ) ((easyFft none a).get k)) := by
  have ho := oppositeIdx_inShape hk
  constructor
  · rw [easyFft_waveW (a.map (starRingEnd ℂ)) k hk, easyFft_waveW a _ ho, sumIdx_conj]
    refine sumIdx_congr fun j hj => ?_
    have hj' : InShape j a.shape := hj
    rw [waveW_opposite hj' hk]
    simp [Arr.map]
  · intro hr
    rw [easyFft_waveW a k hk, easyFft_waveW a _ ho, sumIdx_conj]
    refine sumIdx_congr fun j hj => ?_
    rw [waveW_opposite hj hk, map_mul, Complex.conj_eq_iff_im.mpr (hr j hj)]

theorem relativeTo_inShape : ∀ {s i j : List ℕ}, InShape i s → InShape j s → InShape (relativeTo s i j) s
  | [], _, _, h, h' => by cases h; cases h'; exact .nil
  | n :: s, i :: _, j :: _, .cons hi h, .cons hj h' => .cons (by
      have h1 := Int.emod_nonneg ((i : ℤ) - (j : ℤ) + (n / 2 : ℕ)) (by omega : (n : ℤ) ≠ 0)
      have h2 := Int.emod_lt_of_pos ((i : ℤ) - (j : ℤ) + (n / 2 : ℕ)) (by omega : (0 : ℤ) < n)
      omega) (relativeTo_inShape h h')

theorem relativeTo_inj : ∀ {s i i' j : List ℕ}, InShape i s → InShape i' s → InShape j s → relativeTo s i j = relativeTo s i' j → i = i'
  | [], _, _, _, h, h', _, _ => by cases h; cases h'; rfl
  | n :: s, i :: is, i' :: is', j :: js, .cons hi h, .cons hi' h', .cons hj h'', he => by
    simp only [relativeTo, List.cons.injEq] at he
    have e : ∀ x : ℤ, x - j + (n / 2 : ℕ) = x - (j - (n / 2 : ℕ)) := fun x => by ring
    rw [e, e] at he
    rw [emod_sub_inj hi hi' he.1, relativeTo_inj h h' h'' he.2]

theorem waveW_relative : ∀ {s i j k : List ℕ}, InShape i s → InShape j s → InShape k s →
    waveW s i k = waveW s j k * waveW s (relativeTo s i j) k
  | [], _, _, _, h, h', h'' => by cases h; cases h'; cases h''; simp [waveW]
  | n :: s, i :: is, j :: js, k :: ks, .cons hi h, .cons hj h', .cons hk h'' => by
    have hn : 0 < n := by omega
    rw [relativeTo, waveW, waveW, waveW, waveW_relative h h' h'']
    set r := (((i : ℤ) - j + (n / 2 : ℕ)) % (n : ℤ)).toNat with hr
    have hrc : (r : ℤ) = ((i : ℤ) - j + (n / 2 : ℕ)) % (n : ℤ) := Int.toNat_of_nonneg (Int.emod_nonneg _ (by omega))
    have e : W n (-(((i : ℤ) - (n / 2 : ℕ)) * ((k : ℤ) - (n / 2 : ℕ)))) =
        W n (-(((j : ℤ) - (n / 2 : ℕ)) * ((k : ℤ) - (n / 2 : ℕ)))) * W n (-(((r : ℤ) - (n / 2 : ℕ)) * ((k : ℤ) - (n / 2 : ℕ)))) := by
      rw [← W_add]
      apply W_modEq hn
      have hd : (n : ℤ) ∣ ((i : ℤ) - j + (n / 2 : ℕ)) - r := by rw [hrc]; exact Int.dvd_self_sub_emod
      obtain ⟨q, hq⟩ := hd
      exact ⟨-(q * ((k : ℤ) - (n / 2 : ℕ))), by linear_combination -((k : ℤ) - (n / 2 : ℕ)) * hq⟩
    rw [e]
    ring

theorem sumIdx_comm (s t : List ℕ) (f : List ℕ → List ℕ → ℂ) : sumIdx s (fun i => sumIdx t (f i)) = sumIdx t fun j => sumIdx s fun i => f i j := by
  induction s generalizing f with
  | nil => rfl
  | cons n s ih => simp only [sumIdx, ih, sumIdx_finset_sum]

/-- C107: the transform of a circular convolution is the product of the transforms. -/
theorem C107_convolution (a b : Arr ℂ) (hs : b.shape = a.shape) (k : List ℕ) (hk : InShape k a.shape) :
    (easyFft none (circularConvolution a b)).get k = (easyFft none a).get k * (easyFft none b).get k := by
  rw [easyFft_waveW (circularConvolution a b) k hk, easyFft_waveW a k hk, easyFft_waveW b k (hs ▸ hk), hs, mul_comm, ← sumIdx_mul_left]
  have e : ∀ j, InShape j a.shape → (sumIdx a.shape fun i => b.get i * waveW a.shape i k) * (a.get j * waveW a.shape j k) =
      sumIdx a.shape fun i => a.get j * b.get (relativeTo a.shape i j) * waveW a.shape i k := by
    intro j hj
    rw [← sumIdx_perm (s := a.shape) (σ := fun i => relativeTo a.shape i j) (fun i hi => relativeTo_inShape hi hj)
      (fun i i' hi hi' he => relativeTo_inj hi hi' hj he) fun i => b.get i * waveW a.shape i k, mul_comm, ← sumIdx_mul_left]
    refine sumIdx_congr fun i hi => ?_
    rw [waveW_relative hi hj hk]
    ring
  rw [sumIdx_congr e, sumIdx_comm]
  refine sumIdx_congr fun i _ => ?_
  simp only [circularConvolution]
  rw [mul_comm, ← sumIdx_mul_left]
  exact sumIdx_congr fun j _ => by ring

/-- C107: on even sizes multiplying the transforms and transforming back is the circular convolution. -/
theorem C107_filtering (a b : Arr ℂ) (hs : b.shape = a.shape) (heven : ∀ n ∈ a.shape, n % 2 = 0) :
    (easyIfft none ⟨a.shape, fun k => (easyFft none a).get k * (easyFft none b).get k⟩).Same (circularConvolution a b) := by
  have h1 : (⟨a.shape, fun k => (easyFft none a).get k * (easyFft none b).get k⟩ : Arr ℂ).Same (easyFft none (circularConvolution a b)) :=
    ⟨by rw [easyFft_shape]; rfl, fun k hk => (C107_convolution a b hs k hk).symm⟩
  have g := goodAxes_all a.shape
  have h2 := C07_easy_ifft_easy_fft none (circularConvolution a b) g (by
    intro ax hax
    left
    have hl : ax < a.shape.length := g.2 ax hax
    have : (circularConvolution a b).shape = a.shape := rfl
    rw [this, List.getD_eq_getElem _ _ hl]
    exact heven _ (List.getElem_mem hl))
  refine Arr.Same.trans ?_ h2
  refine (easyIfft_same none ⟨a.shape, fun k => (easyFft none a).get k * (easyFft none b).get k⟩ g).trans (Arr.Same.trans ?_ (easyIfft_same none (easyFft none (circularConvolution a b)) (by
    rw [easyFft_shape]; exact g)).symm)
  have e : axesOf none (easyFft none (circularConvolution a b)).shape = axesOf none a.shape := by rw [easyFft_shape]; rfl
  rw [e]
  exact alongAxes_same isKern_ieasy1 g.2 h1

/-- Non-vacuity: a 4×6 image and a kernel. -/
example (f g : List ℕ → ℂ) : (easyIfft none ⟨[4, 6], fun k => (easyFft none ⟨[4, 6], f⟩).get k * (easyFft none ⟨[4, 6], g⟩).get k⟩).Same
    (circularConvolution ⟨[4, 6], f⟩ ⟨[4, 6], g⟩) := C107_filtering ⟨[4, 6], f⟩ ⟨[4, 6], g⟩ rfl (by simp)

end PyOTF
