import Verif.Lemmas.Roll
import Mathlib.RingTheory.RootsOfUnity.Complex
import Mathlib.Analysis.SpecialFunctions.Complex.Circle
import Mathlib.Tactic.FieldSimp
import Mathlib.Algebra.BigOperators.Field

/-! # One-dimensional DFT facts and their lifting to several axes -/

namespace PyOTF

open Complex

/-- `exp(2πi m / n)`. -/
noncomputable def W (n : ℕ) (m : ℤ) : ℂ := exp (2 * Real.pi * I * m / n)

theorem W_add (n : ℕ) (a b : ℤ) : W n (a + b) = W n a * W n b := by
  simp only [W, ← exp_add]; congr 1; push_cast; ring

theorem W_zero (n : ℕ) : W n 0 = 1 := by simp [W]

theorem W_neg_mul (n : ℕ) (a : ℤ) : W n (-a) * W n a = 1 := by
  rw [← W_add]; simp [W_zero]

theorem W_ne_zero (n : ℕ) (a : ℤ) : W n a ≠ 0 := exp_ne_zero _

theorem W_period {n : ℕ} (hn : 0 < n) (a c : ℤ) : W n (a + n * c) = W n a := by
  rw [W_add]
  have : W n (n * c) = 1 := by
    have hn' : (n : ℂ) ≠ 0 := by exact_mod_cast hn.ne'
    rw [W, exp_eq_one_iff]
    refine ⟨c, ?_⟩
    push_cast; field_simp
  rw [this, mul_one]

theorem W_dvd {n : ℕ} (hn : 0 < n) {a : ℤ} (h : (n : ℤ) ∣ a) : W n a = 1 := by
  obtain ⟨c, rfl⟩ := h
  have := W_period hn 0 c
  rwa [zero_add, W_zero] at this

theorem W_modEq {n : ℕ} (hn : 0 < n) {a b : ℤ} (h : (n : ℤ) ∣ a - b) : W n a = W n b := by
  have : a = b + (a - b) := by ring
  rw [this, W_add, W_dvd hn h, mul_one]

theorem W_mul_nat (n : ℕ) (a : ℤ) (k : ℕ) : W n (a * k) = W n a ^ k := by
  induction k with
  | zero => simp [W_zero]
  | succ k ih => rw [pow_succ, ← ih, ← W_add]; congr 1; push_cast; ring

theorem W_eq_one_iff {n : ℕ} (hn : 0 < n) (a : ℤ) : W n a = 1 ↔ (n : ℤ) ∣ a := by
  refine ⟨fun h => ?_, W_dvd hn⟩
  have hn' : (n : ℂ) ≠ 0 := by exact_mod_cast hn.ne'
  rw [W, exp_eq_one_iff] at h
  obtain ⟨c, hc⟩ := h
  refine ⟨c, ?_⟩
  have hpi : (2 * Real.pi * I : ℂ) ≠ 0 := by simp [Real.pi_ne_zero]
  have : (a : ℂ) / n = c := by
    apply mul_left_cancel₀ hpi
    rw [← mul_div_assoc, hc]; ring
  rw [div_eq_iff hn'] at this
  have h2 : (a : ℂ) = ((n * c : ℤ) : ℂ) := by push_cast; rw [this]; ring
  exact_mod_cast h2

theorem W_conj (n : ℕ) (a : ℤ) : (starRingEnd ℂ) (W n a) = W n (-a) := by
  rw [W, W, ← exp_conj]
  congr 1
  have h2 : (starRingEnd ℂ) 2 = 2 := Complex.conj_ofNat 2
  simp [Complex.conj_ofReal, h2]

theorem norm_W (n : ℕ) (a : ℤ) : ‖W n a‖ = 1 := by
  have : (2 * Real.pi * I * a / n : ℂ) = ((2 * Real.pi * a / n : ℝ) : ℂ) * I := by push_cast; ring
  rw [W, this, norm_exp_ofReal_mul_I]

/-- Orthogonality of the characters. -/
theorem W_sum {n : ℕ} (hn : 0 < n) (a : ℤ) :
    ∑ k ∈ Finset.range n, W n (a * k) = if (n : ℤ) ∣ a then (n : ℂ) else 0 := by
  simp only [W_mul_nat]
  split_ifs with h
  · simp [W_dvd hn h]
  · have h1 : W n a ≠ 1 := fun e => h ((W_eq_one_iff hn a).mp e)
    rw [geom_sum_eq h1]
    have : W n a ^ n = 1 := by rw [← W_mul_nat]; exact W_dvd hn ⟨a, by ring⟩
    rw [this]; simp

theorem fft1_eq (n : ℕ) (x : ℕ → ℂ) (k : ℕ) :
    fft1 n x k = ∑ j ∈ Finset.range n, x j * W n (-(j * k)) := by
  simp only [fft1, W]
  refine Finset.sum_congr rfl fun j _ => ?_
  congr 2; push_cast; ring

theorem ifft1_eq (n : ℕ) (x : ℕ → ℂ) (k : ℕ) :
    ifft1 n x k = (∑ j ∈ Finset.range n, x j * W n (k * j)) / n := by
  simp only [ifft1, W]
  congr 1
  refine Finset.sum_congr rfl fun j _ => ?_
  congr 2; push_cast; rfl

/-- Reindexing a full period by a roll. -/
theorem sum_rollIdx {β : Type} [AddCommMonoid β] (n : ℕ) (s : ℤ) (f : ℕ → β) :
    ∑ j ∈ Finset.range n, f (rollIdx n s j) = ∑ j ∈ Finset.range n, f j := by
  apply Finset.sum_nbij (rollIdx n s)
  · intro j hj
    exact Finset.mem_range.mpr (rollIdx_lt _ _ (by have := Finset.mem_range.mp hj; omega))
  · intro i hi j hj h
    exact rollIdx_inj (Finset.mem_range.mp hi) (Finset.mem_range.mp hj) h
  · intro j hj
    have hj' := Finset.mem_range.mp hj
    refine ⟨rollIdx n (-s) j, Finset.mem_coe.mpr (Finset.mem_range.mpr (rollIdx_lt _ _ (by omega))), ?_⟩
    rw [rollIdx_comp _ _ _ (by omega)]
    exact rollIdx_of_dvd hj' (by simp)
  · intro j _; rfl

theorem W_rollIdx {n : ℕ} (hn : 0 < n) (s : ℤ) (j : ℕ) (c : ℤ) :
    W n (c * (rollIdx n s j : ℕ)) = W n (c * (j - s)) := by
  apply W_modEq hn
  rw [rollIdx_cast _ _ hn, ← mul_sub]
  exact Dvd.dvd.mul_left ((dvd_sub_comm).mp (Int.dvd_self_sub_emod)) _

/-- A 1-d linear transform given by a kernel. -/
def IsKern (F : ℕ → (ℕ → ℂ) → ℕ → ℂ) : Prop :=
  ∃ K : ℕ → ℕ → ℕ → ℂ, ∀ n x i, i < n → F n x i = ∑ j ∈ Finset.range n, K n i j * x j

theorem isKern_fft1 : IsKern fft1 :=
  ⟨fun n i j => W n (-(j * i)), fun n x i _ => by
    rw [fft1_eq]; exact Finset.sum_congr rfl fun j _ => mul_comm _ _⟩

theorem isKern_ifft1 : IsKern ifft1 :=
  ⟨fun n i j => W n (i * j) / n, fun n x i _ => by
    rw [ifft1_eq, Finset.sum_div]; exact Finset.sum_congr rfl fun j _ => by ring⟩

theorem isKern_roll1 (s : ℕ → ℤ) : IsKern (roll1 s) :=
  ⟨fun n i j => if j = rollIdx n (s n) i then 1 else 0, fun n x i hi => by
    simp only [roll1, ite_mul, one_mul, zero_mul]
    rw [Finset.sum_ite_eq' (Finset.range n) (rollIdx n (s n) i) x,
      if_pos (Finset.mem_range.mpr (rollIdx_lt _ _ (by omega)))]⟩

theorem IsKern.comp {F G : ℕ → (ℕ → ℂ) → ℕ → ℂ} (hF : IsKern F) (hG : IsKern G) :
    IsKern (fun n x => F n (G n x)) := by
  obtain ⟨K, hK⟩ := hF
  obtain ⟨L, hL⟩ := hG
  refine ⟨fun n i j => ∑ m ∈ Finset.range n, K n i m * L n m j, fun n x i hi => ?_⟩
  show F n (G n x) i = _
  rw [hK n _ i hi]
  simp only [Finset.sum_mul]
  rw [Finset.sum_comm]
  refine Finset.sum_congr rfl fun m hm => ?_
  rw [hL n x m (Finset.mem_range.mp hm), Finset.mul_sum]
  exact Finset.sum_congr rfl fun j _ => by ring

theorem IsKern.congr {F : ℕ → (ℕ → ℂ) → ℕ → ℂ} (hF : IsKern F) {n : ℕ} {x y : ℕ → ℂ}
    (h : ∀ j < n, x j = y j) {i : ℕ} (hi : i < n) : F n x i = F n y i := by
  obtain ⟨K, hK⟩ := hF
  rw [hK n x i hi, hK n y i hi]
  exact Finset.sum_congr rfl fun j hj => by rw [h j (Finset.mem_range.mp hj)]

theorem IsKern.of_eq {F G : ℕ → (ℕ → ℂ) → ℕ → ℂ} (hF : IsKern F)
    (h : ∀ n x i, i < n → F n x i = G n x i) : IsKern G := by
  obtain ⟨K, hK⟩ := hF
  exact ⟨K, fun n x i hi => by rw [← h n x i hi, hK n x i hi]⟩

/-! ## Along one axis -/

theorem alongAxis_same {F : ℕ → (ℕ → ℂ) → ℕ → ℂ} (hF : IsKern F) {ax : ℕ} {a b : Arr ℂ}
    (hax : ax < a.shape.length) (h : a.Same b) : (a.alongAxis F ax).Same (b.alongAxis F ax) := by
  refine ⟨h.1, fun i hi => ?_⟩
  simp only [Arr.alongAxis, ← h.1]
  exact hF.congr (fun j hj => h.2 _ (InShape.set hi hj)) (InShape.lt hi hax)

theorem alongAxis_of_eq {F G : ℕ → (ℕ → ℂ) → ℕ → ℂ} {ax : ℕ} {a : Arr ℂ}
    (hax : ax < a.shape.length) (h : ∀ n x i, i < n → F n x i = G n x i) :
    (a.alongAxis F ax).Same (a.alongAxis G ax) :=
  ⟨rfl, fun _ hi => h _ _ _ (InShape.lt hi hax)⟩

theorem alongAxis_comm {F G : ℕ → (ℕ → ℂ) → ℕ → ℂ} (hF : IsKern F) (hG : IsKern G) {p q : ℕ}
    (hpq : p ≠ q) {a : Arr ℂ} (hp : p < a.shape.length) (hq : q < a.shape.length) :
    ((a.alongAxis G q).alongAxis F p).Same ((a.alongAxis F p).alongAxis G q) := by
  refine ⟨rfl, fun i hi => ?_⟩
  obtain ⟨K, hK⟩ := hF
  obtain ⟨L, hL⟩ := hG
  have hi : InShape i a.shape := hi
  have lp := InShape.lt hi hp
  have lq := InShape.lt hi hq
  simp only [Arr.alongAxis]
  rw [hK _ _ _ lp, hL _ _ _ lq]
  have e1 : ∀ j ∈ Finset.range (a.shape.getD p 0),
      K (a.shape.getD p 0) (i.getD p 0) j * G (a.shape.getD q 0)
        (fun k => a.get ((i.set p j).set q k)) ((i.set p j).getD q 0)
      = ∑ k ∈ Finset.range (a.shape.getD q 0), K (a.shape.getD p 0) (i.getD p 0) j *
        (L (a.shape.getD q 0) (i.getD q 0) k * a.get ((i.set p j).set q k)) := by
    intro j _
    rw [getD_set_ne hpq, hL _ _ _ lq, Finset.mul_sum]
  have e2 : ∀ k ∈ Finset.range (a.shape.getD q 0),
      L (a.shape.getD q 0) (i.getD q 0) k * F (a.shape.getD p 0)
        (fun j => a.get ((i.set q k).set p j)) ((i.set q k).getD p 0)
      = ∑ j ∈ Finset.range (a.shape.getD p 0), L (a.shape.getD q 0) (i.getD q 0) k *
        (K (a.shape.getD p 0) (i.getD p 0) j * a.get ((i.set q k).set p j)) := by
    intro k _
    rw [getD_set_ne hpq.symm, hK _ _ _ lp, Finset.mul_sum]
  rw [Finset.sum_congr rfl e1, Finset.sum_congr rfl e2, Finset.sum_comm]
  refine Finset.sum_congr rfl fun k _ => Finset.sum_congr rfl fun j _ => ?_
  rw [List.set_comm _ _ hpq]; ring

theorem alongAxis_comp {F G : ℕ → (ℕ → ℂ) → ℕ → ℂ} (hF : IsKern F) {p : ℕ} {a : Arr ℂ}
    (hp : p < a.shape.length) :
    ((a.alongAxis G p).alongAxis F p).Same (a.alongAxis (fun n x => F n (G n x)) p) := by
  refine ⟨rfl, fun i hi => ?_⟩
  have hi : InShape i a.shape := hi
  simp only [Arr.alongAxis]
  refine hF.congr (fun j _ => ?_) (InShape.lt hi hp)
  rw [getD_set_self (by rw [hi.length]; exact hp)]
  congr 1
  funext k
  rw [List.set_set]

/-! ## Along several axes -/

/-- Legal list of distinct axes for a shape. -/
def GoodAxes (axes shape : List ℕ) : Prop := axes.Nodup ∧ ∀ ax ∈ axes, ax < shape.length

theorem GoodAxes.tail {ax : ℕ} {axes shape : List ℕ} (h : GoodAxes (ax :: axes) shape) :
    GoodAxes axes shape := ⟨(List.nodup_cons.mp h.1).2, fun a ha => h.2 a (by simp [ha])⟩

theorem goodAxes_all (shape : List ℕ) : GoodAxes (axesOf none shape) shape :=
  ⟨List.nodup_range, fun ax h => by simpa [axesOf] using h⟩

theorem alongAxes_cons {α : Type} (F : ℕ → (ℕ → α) → ℕ → α) (ax : ℕ) (axes : List ℕ) (a : Arr α) :
    a.alongAxes F (ax :: axes) = (a.alongAxes F axes).alongAxis F ax := rfl

theorem alongAxes_same {F : ℕ → (ℕ → ℂ) → ℕ → ℂ} (hF : IsKern F) {axes : List ℕ} {a b : Arr ℂ}
    (hax : ∀ ax ∈ axes, ax < a.shape.length) (h : a.Same b) :
    (a.alongAxes F axes).Same (b.alongAxes F axes) := by
  induction axes with
  | nil => exact h
  | cons ax axes ih =>
    rw [alongAxes_cons, alongAxes_cons]
    exact alongAxis_same hF (by rw [alongAxes_shape]; exact hax ax (by simp))
      (ih fun x hx => hax x (by simp [hx]))

theorem alongAxis_alongAxes_comm {F G : ℕ → (ℕ → ℂ) → ℕ → ℂ} (hF : IsKern F) (hG : IsKern G) {p : ℕ}
    {axes : List ℕ} (hp : p ∉ axes) {a : Arr ℂ} (hpl : p < a.shape.length)
    (hax : ∀ ax ∈ axes, ax < a.shape.length) :
    ((a.alongAxis G p).alongAxes F axes).Same ((a.alongAxes F axes).alongAxis G p) := by
  induction axes with
  | nil => exact .refl _
  | cons q axes ih =>
    simp only [List.mem_cons, not_or] at hp
    rw [alongAxes_cons, alongAxes_cons]
    refine (alongAxis_same hF (by rw [alongAxes_shape]; exact hax q (by simp))
      (ih hp.2 fun x hx => hax x (by simp [hx]))).trans ?_
    exact (alongAxis_comm hG hF hp.1 (by rw [alongAxes_shape]; exact hpl)
      (by rw [alongAxes_shape]; exact hax q (by simp))).symm

/-- Two transforms over the same axes compose axis by axis. -/
theorem alongAxes_comp {F G : ℕ → (ℕ → ℂ) → ℕ → ℂ} (hF : IsKern F) (hG : IsKern G) {axes : List ℕ}
    {a : Arr ℂ} (hax : GoodAxes axes a.shape) :
    ((a.alongAxes G axes).alongAxes F axes).Same (a.alongAxes (fun n x => F n (G n x)) axes) := by
  induction axes with
  | nil => exact .refl _
  | cons p axes ih =>
    have hp : p < a.shape.length := hax.2 p (by simp)
    rw [alongAxes_cons, alongAxes_cons, alongAxes_cons]
    have s1 : (((a.alongAxes G axes).alongAxis G p).alongAxes F axes).Same
        (((a.alongAxes G axes).alongAxes F axes).alongAxis G p) :=
      alongAxis_alongAxes_comm hF hG (List.nodup_cons.mp hax.1).1 (by rw [alongAxes_shape]; exact hp)
        (by rw [alongAxes_shape]; exact hax.tail.2)
    have s2 := s1.trans (alongAxis_same hG (by rw [alongAxes_shape, alongAxes_shape]; exact hp)
      (ih hax.tail))
    refine (alongAxis_same hF (by rw [alongAxes_shape, alongAxis_shape, alongAxes_shape]; exact hp)
      s2).trans ?_
    exact alongAxis_comp hF (by rw [alongAxes_shape]; exact hp)

theorem alongAxes_of_eq {F G : ℕ → (ℕ → ℂ) → ℕ → ℂ} (hF : IsKern F) {axes : List ℕ}
    {a : Arr ℂ} (hax : ∀ ax ∈ axes, ax < a.shape.length)
    (h : ∀ ax ∈ axes, ∀ x i, i < a.shape.getD ax 0 → F (a.shape.getD ax 0) x i = G (a.shape.getD ax 0) x i) :
    (a.alongAxes F axes).Same (a.alongAxes G axes) := by
  induction axes with
  | nil => exact .refl _
  | cons p axes ih =>
    rw [alongAxes_cons, alongAxes_cons]
    refine (alongAxis_same hF (by rw [alongAxes_shape]; exact hax p (by simp))
      (ih (fun x hx => hax x (by simp [hx])) (fun x hx => h x (by simp [hx])))).trans ?_
    refine ⟨by simp [alongAxis_shape, alongAxes_shape], fun i hi => ?_⟩
    rw [alongAxis_shape, alongAxes_shape] at hi
    simp only [Arr.alongAxis, alongAxes_shape]
    exact h p (by simp) _ _ (InShape.lt hi (hax p (by simp)))

theorem alongAxes_id {F : ℕ → (ℕ → ℂ) → ℕ → ℂ} {axes : List ℕ}
    {a : Arr ℂ} (hax : ∀ ax ∈ axes, ax < a.shape.length)
    (h : ∀ ax ∈ axes, ∀ x i, i < a.shape.getD ax 0 → F (a.shape.getD ax 0) x i = x i) :
    (a.alongAxes F axes).Same a := by
  induction axes with
  | nil => exact .refl _
  | cons p axes ih =>
    rw [alongAxes_cons]
    have ih' := ih (fun x hx => hax x (by simp [hx])) (fun x hx => h x (by simp [hx]))
    refine ⟨by rw [alongAxis_shape, alongAxes_shape], fun i hi => ?_⟩
    rw [alongAxis_shape, alongAxes_shape] at hi
    simp only [Arr.alongAxis, alongAxes_shape]
    rw [h p (by simp) _ _ (InShape.lt hi (hax p (by simp))),
      set_getD_self (by rw [hi.length]; exact hax p (by simp))]
    exact ih'.2 i (by rw [alongAxes_shape]; exact hi)

/-! ## Parseval -/

theorem sumIdx_alongAxis (F : ℕ → (ℕ → ℂ) → ℕ → ℂ) (c : ℕ → ℝ)
    (h : ∀ n x, ∑ i ∈ Finset.range n, ‖F n x i‖ ^ 2 = c n * ∑ i ∈ Finset.range n, ‖x i‖ ^ 2) :
    ∀ (ax : ℕ) (a : Arr ℂ), ax < a.shape.length →
      sumIdx a.shape (fun i => ‖(a.alongAxis F ax).get i‖ ^ 2)
        = c (a.shape.getD ax 0) * sumIdx a.shape (fun i => ‖a.get i‖ ^ 2) := by
  intro ax
  induction ax with
  | zero =>
    rintro ⟨shape, g⟩ hax
    cases shape with
    | nil => simp at hax
    | cons n s =>
      simp only [sumIdx, Arr.alongAxis, List.getD_cons_zero, List.set_cons_zero]
      rw [← sumIdx_finset_sum, ← sumIdx_finset_sum, ← sumIdx_mul_left]
      exact sumIdx_congr fun t _ => h n fun j => g (j :: t)
  | succ ax ih =>
    rintro ⟨shape, g⟩ hax
    cases shape with
    | nil => simp at hax
    | cons n s =>
      simp only [sumIdx, Arr.alongAxis, List.getD_cons_succ, List.set_cons_succ]
      rw [Finset.mul_sum]
      exact Finset.sum_congr rfl fun i _ => ih ⟨s, fun t => g (i :: t)⟩ (by simpa using hax)

theorem sumIdx_alongAxes (F : ℕ → (ℕ → ℂ) → ℕ → ℂ) (c : ℕ → ℝ)
    (h : ∀ n x, ∑ i ∈ Finset.range n, ‖F n x i‖ ^ 2 = c n * ∑ i ∈ Finset.range n, ‖x i‖ ^ 2)
    (axes : List ℕ) (a : Arr ℂ) (hax : ∀ ax ∈ axes, ax < a.shape.length) :
    sumIdx a.shape (fun i => ‖(a.alongAxes F axes).get i‖ ^ 2)
      = (axes.map fun ax => c (a.shape.getD ax 0)).prod * sumIdx a.shape (fun i => ‖a.get i‖ ^ 2) := by
  induction axes with
  | nil => simp [Arr.alongAxes]
  | cons ax axes ih =>
    have := sumIdx_alongAxis F c h ax (a.alongAxes F axes) (by rw [alongAxes_shape]; exact hax ax (by simp))
    rw [alongAxes_shape] at this
    rw [alongAxes_cons, this, ih fun x hx => hax x (by simp [hx])]
    simp [mul_assoc]

/-- 1-d Parseval. -/
theorem fft1_parseval (n : ℕ) (x : ℕ → ℂ) :
    ∑ k ∈ Finset.range n, ‖fft1 n x k‖ ^ 2 = n * ∑ j ∈ Finset.range n, ‖x j‖ ^ 2 := by
  rcases Nat.eq_zero_or_pos n with rfl | hn
  · simp
  have key : ∀ z : ℂ, ((‖z‖ ^ 2 : ℝ) : ℂ) = z * (starRingEnd ℂ) z := fun z => by
    rw [Complex.mul_conj, Complex.normSq_eq_norm_sq]
  apply Complex.ofReal_injective
  rw [Complex.ofReal_sum, Complex.ofReal_mul, Complex.ofReal_sum]
  simp only [key, fft1_eq, map_sum, map_mul, W_conj]
  simp only [Finset.sum_mul_sum]
  rw [Finset.sum_comm, Finset.mul_sum]
  refine Finset.sum_congr rfl fun j hj => ?_
  rw [Finset.sum_comm]
  have e : ∀ m ∈ Finset.range n, ∑ k ∈ Finset.range n,
      x j * W n (-(j * k)) * ((starRingEnd ℂ) (x m) * W n (- -(m * k)))
      = if m = j then (n : ℂ) * (x j * (starRingEnd ℂ) (x j)) else 0 := by
    intro m hm
    have e1 : ∀ k ∈ Finset.range n, x j * W n (-(j * k)) * ((starRingEnd ℂ) (x m) * W n (- -(m * k)))
        = x j * (starRingEnd ℂ) (x m) * W n (((m : ℤ) - j) * k) := by
      intro k _
      rw [show ((m : ℤ) - j) * k = -(j * k) + - -(m * k) by ring, W_add]; ring
    rw [Finset.sum_congr rfl e1, ← Finset.mul_sum, W_sum hn]
    have hm' := Finset.mem_range.mp hm
    have hj' := Finset.mem_range.mp hj
    split_ifs with h1 h2 h2
    · subst h2; ring
    · exfalso
      obtain ⟨c, hc⟩ := h1
      have : c = 0 := by
        rcases lt_trichotomy c 0 with hneg | h0 | hpos
        · nlinarith
        · exact h0
        · nlinarith
      subst this; omega
    · exact absurd (by simp [h2]) h1
    · simp
  rw [Finset.sum_congr rfl e, Finset.sum_ite_eq' (Finset.range n) j, if_pos hj]
  simp

theorem roll1_parseval (s : ℕ → ℤ) (n : ℕ) (x : ℕ → ℂ) :
    ∑ i ∈ Finset.range n, ‖roll1 s n x i‖ ^ 2 = 1 * ∑ i ∈ Finset.range n, ‖x i‖ ^ 2 := by
  rw [one_mul]
  exact sum_rollIdx n (s n) fun j => ‖x j‖ ^ 2

/-- 1-d inversion. -/
theorem ifft1_fft1 (n : ℕ) (x : ℕ → ℂ) (i : ℕ) (hi : i < n) : ifft1 n (fft1 n x) i = x i := by
  have hn : 0 < n := by omega
  have hn' : (n : ℂ) ≠ 0 := by exact_mod_cast hn.ne'
  rw [ifft1_eq, div_eq_iff hn']
  simp only [fft1_eq, Finset.sum_mul]
  rw [Finset.sum_comm]
  have e : ∀ j ∈ Finset.range n, ∑ k ∈ Finset.range n, x j * W n (-(j * k)) * W n (i * k)
      = if j = i then x i * n else 0 := by
    intro j hj
    have e1 : ∀ k ∈ Finset.range n, x j * W n (-(j * k)) * W n (i * k) = x j * W n (((i : ℤ) - j) * k) := by
      intro k _
      rw [show ((i : ℤ) - j) * k = -(j * k) + i * k by ring, W_add]; ring
    rw [Finset.sum_congr rfl e1, ← Finset.mul_sum, W_sum hn]
    have hj' := Finset.mem_range.mp hj
    split_ifs with h1 h2 h2
    · subst h2; ring
    · exfalso
      obtain ⟨c, hc⟩ := h1
      have : c = 0 := by
        rcases lt_trichotomy c 0 with hneg | h0 | hpos
        · nlinarith
        · exact h0
        · nlinarith
      subst this; omega
    · exact absurd (by simp [h2]) h1
    · simp
  rw [Finset.sum_congr rfl e, Finset.sum_ite_eq' (Finset.range n) i, if_pos (Finset.mem_range.mpr hi)]

theorem fft1_ifft1 (n : ℕ) (x : ℕ → ℂ) (i : ℕ) (hi : i < n) : fft1 n (ifft1 n x) i = x i := by
  have hn : 0 < n := by omega
  have hn' : (n : ℂ) ≠ 0 := by exact_mod_cast hn.ne'
  rw [fft1_eq]
  simp only [ifft1_eq]
  have e0 : ∀ j ∈ Finset.range n, (∑ k ∈ Finset.range n, x k * W n (j * k)) / n * W n (-(j * i))
      = (∑ k ∈ Finset.range n, x k * (W n (j * k) * W n (-(j * i)))) / n := by
    intro j _
    rw [div_mul_eq_mul_div, Finset.sum_mul]
    congr 1
    exact Finset.sum_congr rfl fun k _ => by ring
  rw [Finset.sum_congr rfl e0, ← Finset.sum_div, div_eq_iff hn', Finset.sum_comm]
  have e : ∀ k ∈ Finset.range n, ∑ j ∈ Finset.range n, x k * (W n (j * k) * W n (-(j * i)))
      = if k = i then x i * n else 0 := by
    intro k hk
    have e1 : ∀ j ∈ Finset.range n, x k * (W n (j * k) * W n (-(j * i))) = x k * W n (((k : ℤ) - i) * j) := by
      intro j _
      rw [show ((k : ℤ) - i) * j = j * k + -(j * i) by ring, W_add]
    rw [Finset.sum_congr rfl e1, ← Finset.mul_sum, W_sum hn]
    have hk' := Finset.mem_range.mp hk
    split_ifs with h1 h2 h2
    · subst h2; ring
    · exfalso
      obtain ⟨c, hc⟩ := h1
      have : c = 0 := by
        rcases lt_trichotomy c 0 with hneg | h0 | hpos
        · nlinarith
        · exact h0
        · nlinarith
      subst this; omega
    · exact absurd (by simp [h2]) h1
    · simp
  rw [Finset.sum_congr rfl e, Finset.sum_ite_eq' (Finset.range n) i, if_pos (Finset.mem_range.mpr hi)]

end PyOTF
