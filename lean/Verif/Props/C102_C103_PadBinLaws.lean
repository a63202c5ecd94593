import Verif.Props.C01_C04_Pad
import Verif.Props.C16_C18_Bin

/-!
# C102: `fft_pad` in two steps; C103: `bin_ndarray` in two steps
-/

namespace PyOTF

/-! ## C102 -/

/-- The intermediate shape is on no axis smaller than both the old and the final shape. -/
def KeepsAll (old mid new : List ℕ) : Prop := List.Forall₂ (fun (p : ℕ × ℕ) m => min p.1 p.2 ≤ m) (old.zip new) mid

theorem Aligned.trans : ∀ {o m n i l j : List ℕ}, Aligned o m l j → Aligned m n i l → Aligned o n i j
  | [], [], [], [], [], [], _, _ => trivial
  | o :: os, m :: ms, n :: ns, i :: is, l :: ls, j :: js, h1, h2 => by
    simp only [Aligned] at h1 h2 ⊢
    exact ⟨h2.1.trans h1.1, Aligned.trans h1.2 h2.2⟩
  | [], _ :: _, _, _, _, _, h1, _ => by simp [Aligned] at h1
  | _ :: _, [], _, _, _, _, h1, _ => by simp [Aligned] at h1
  | [], [], _, _, _ :: _, _, h1, _ => by simp [Aligned] at h1
  | [], [], _, _, _, _ :: _, h1, _ => by simp [Aligned] at h1
  | _ :: _, _ :: _, _, _, [], _, h1, _ => by simp [Aligned] at h1
  | _ :: _, _ :: _, _, _, _ :: _, [], h1, _ => by simp [Aligned] at h1
  | [], [], _ :: _, _, [], _, _, h2 => by simp [Aligned] at h2
  | [], [], [], _ :: _, [], _, _, h2 => by simp [Aligned] at h2
  | _ :: _, _ :: _, [], _, _ :: _, _, _, h2 => by simp [Aligned] at h2
  | _ :: _, _ :: _, _ :: _, [], _ :: _, _, _, h2 => by simp [Aligned] at h2

theorem aligned_mid : ∀ {o m n i j : List ℕ}, Aligned o n i j → InShape i n → InShape j o → KeepsAll o m n →
    ∃ l, InShape l m ∧ Aligned o m l j ∧ Aligned m n i l
  | [], [], [], [], [], _, _, _, _ => ⟨[], .nil, trivial, trivial⟩
  | o :: os, m :: ms, n :: ns, i :: is, j :: js, h, hi, hj, hk => by
    simp only [Aligned] at h
    cases hi with
    | cons hi hi' =>
    cases hj with
    | cons hj hj' =>
    simp only [KeepsAll, List.zip_cons_cons] at hk
    cases hk with
    | cons hk hk' =>
    obtain ⟨l, h1, h2, h3⟩ := aligned_mid h.2 hi' hj' hk'
    refine ⟨((j : ℤ) - ((o + 1) / 2 : ℕ) + ((m + 1) / 2 : ℕ)).toNat :: l, .cons ?_ h1, ?_, ?_⟩
    · omega
    · refine ⟨?_, h2⟩; omega
    · refine ⟨?_, h3⟩; omega
  | [], _, _ :: _, _, _, h, _, _, _ => by simp [Aligned] at h
  | [], _, [], _ :: _, _, h, _, _, _ => by simp [Aligned] at h
  | [], _, [], [], _ :: _, h, _, _, _ => by simp [Aligned] at h
  | _ :: _, _, [], _, _, h, _, _, _ => by simp [Aligned] at h
  | _ :: _, _, _ :: _, [], _, h, _, _, _ => by simp [Aligned] at h
  | _ :: _, _, _ :: _, _ :: _, [], h, _, _, _ => by simp [Aligned] at h
  | [], _ :: _, [], [], [], _, _, _, hk => by cases hk
  | _ :: _, [], _ :: _, _, _, _, _, _, hk => by cases hk

theorem aligned_lost : ∀ {o m n : List ℕ}, o.length = n.length → m.length = n.length → 0 ∉ o → 0 ∉ n → ¬ KeepsAll o m n →
    ∃ i j, InShape i n ∧ InShape j o ∧ Aligned o n i j ∧ ∀ l, InShape l m → ¬ Aligned m n i l
  | [], [], [], _, _, _, _, h => absurd .nil h
  | o :: os, m :: ms, n :: ns, ho, hm, h0, h0', h => by
    simp only [List.mem_cons, not_or] at h0 h0'
    have base : ∀ {o n : List ℕ}, o.length = n.length → 0 ∉ o → 0 ∉ n → ∃ i j, InShape i n ∧ InShape j o ∧ Aligned o n i j := by
      intro o
      induction o with
      | nil => intro n h _ _; cases n with
        | nil => exact ⟨[], [], .nil, .nil, trivial⟩
        | cons _ _ => simp at h
      | cons o os ih =>
        intro n h a b
        cases n with
        | nil => simp at h
        | cons n ns =>
          simp only [List.mem_cons, not_or] at a b
          obtain ⟨i, j, h1, h2, h3⟩ := ih (by simpa using h) a.2 b.2
          exact ⟨((n + 1) / 2 - 1) :: i, ((o + 1) / 2 - 1) :: j, .cons (by omega) h1, .cons (by omega) h2, by omega, h3⟩
    by_cases hk : min o n ≤ m
    · have : ¬ KeepsAll os ms ns := fun hc => h (.cons hk hc)
      obtain ⟨i, j, h1, h2, h3, h4⟩ := aligned_lost (by simpa using ho) (by simpa using hm) h0.2 h0'.2 this
      refine ⟨((n + 1) / 2 - 1) :: i, ((o + 1) / 2 - 1) :: j, .cons (by omega) h1, .cons (by omega) h2, ⟨by omega, h3⟩, ?_⟩
      intro l hl hal
      cases hl with
      | cons hl hl' => exact h4 _ hl' hal.2
    · obtain ⟨i, j, h1, h2, h3⟩ := base (by simpa using ho) h0.2 h0'.2
      by_cases he : m % 2 = 0
      · refine ⟨((n + 1) / 2 - (m + 1) / 2 - 1) :: i, ((o + 1) / 2 - (m + 1) / 2 - 1) :: j, .cons (by omega) h1, .cons (by omega) h2,
          ⟨by omega, h3⟩, ?_⟩
        intro l hl hal
        cases hl with
        | cons hl hl' => have := hal.1; omega
      · refine ⟨((n + 1) / 2 + m / 2) :: i, ((o + 1) / 2 + m / 2) :: j, .cons (by omega) h1, .cons (by omega) h2,
          ⟨by omega, h3⟩, ?_⟩
        intro l hl hal
        cases hl with
        | cons hl hl' => have := hal.1; omega
  | [], _ :: _, [], _, hm, _, _, _ => by simp at hm
  | _ :: _, [], _ :: _, _, hm, _, _, _ => by simp at hm
  | [], _, _ :: _, ho, _, _, _, _ => by simp at ho
  | _ :: _, _, [], ho, _, _, _, _ => by simp at ho

/-- C102: padding or cropping (with zeros) through an intermediate shape gives the same array as doing it at once, provided the intermediate shape is
on no axis smaller than both the old and the final one. -/
theorem C102_two_steps {α : Type} [Zero α] (nf : ℕ → ℕ) (a : Arr α) (mid new : List ℕ) (hrank : a.shape ≠ []) (hm : mid.length = a.shape.length)
    (hn : new.length = a.shape.length) (hk : KeepsAll a.shape mid new) :
    ∃ b c d, fftPad nf a (.seq (mid.map some)) .constant = .ok b ∧ fftPad nf b (.seq (new.map some)) .constant = .ok c ∧
      fftPad nf a (.seq (new.map some)) .constant = .ok d ∧ c.Same d := by
  have hm' : (mid.map some).length = a.shape.length := by simpa using hm
  have hn' : (new.map some).length = a.shape.length := by simpa using hn
  obtain ⟨b, hb, hbs⟩ := C01_fft_pad_shape nf a (mid.map some) .constant hrank hm' (Or.inl rfl)
  have rq : ∀ (s new : List ℕ), new.length = s.length → requested s (new.map some) = new := by
    intro s
    induction s with
    | nil => intro new h; cases new <;> simp_all [requested]
    | cons x s ih => intro new h; cases new with
      | nil => simp at h
      | cons y new => simpa [requested] using ih new (by simpa using h)
  rw [rq _ _ hm] at hbs
  have hbr : b.shape ≠ [] := by
    rw [hbs]; intro h; rw [h] at hm; exact hrank (List.length_eq_zero_iff.mp hm.symm)
  have hbl : (new.map some).length = b.shape.length := by rw [hbs, hm]; exact hn'
  obtain ⟨c, hc, hcs⟩ := C01_fft_pad_shape nf b (new.map some) .constant hbr hbl (Or.inl rfl)
  obtain ⟨d, hd, hds⟩ := C01_fft_pad_shape nf a (new.map some) .constant hrank hn' (Or.inl rfl)
  rw [rq _ _ (by rw [hbs, hm, hn])] at hcs
  rw [rq _ _ hn] at hds
  refine ⟨b, c, d, hb, hc, hd, by rw [hcs, hds], fun i hi => ?_⟩
  have hid : InShape i d.shape := by rw [hds, ← hcs]; exact hi
  by_cases hj : ∃ j, InShape j a.shape ∧ Aligned a.shape d.shape i j
  · obtain ⟨j, hj, hal⟩ := hj
    rw [hds] at hal
    obtain ⟨l, h1, h2, h3⟩ := aligned_mid hal (hds ▸ hid) hj hk
    rw [C02_fft_pad_aligned nf b c _ .constant hbr hbl (Or.inl rfl) hc i l hi (hbs ▸ h1) (by rw [hcs, hbs]; exact h3),
      C02_fft_pad_aligned nf a b _ .constant hrank hm' (Or.inl rfl) hb l j (hbs ▸ h1) hj (by rw [hbs]; exact h2),
      C02_fft_pad_aligned nf a d _ .constant hrank hn' (Or.inl rfl) hd i j hid hj (by rw [hds]; exact hal)]
  · rw [C02_fft_pad_zero_elsewhere nf a d _ hrank hn' hd i hid fun j h1 h2 => hj ⟨j, h1, h2⟩]
    by_cases hl : ∃ l, InShape l b.shape ∧ Aligned b.shape c.shape i l
    · obtain ⟨l, hl, hal⟩ := hl
      rw [C02_fft_pad_aligned nf b c _ .constant hbr hbl (Or.inl rfl) hc i l hi hl hal]
      refine C02_fft_pad_zero_elsewhere nf a b _ hrank hm' hb l hl fun j h1 h2 => hj ⟨j, h1, ?_⟩
      have := h2.trans hal
      rw [hcs] at this
      rw [hds]; exact this
    · exact C02_fft_pad_zero_elsewhere nf b c _ hbr hbl hc i hi fun l h1 h2 => hl ⟨l, h1, h2⟩

/-- C102: the condition is exact: if the intermediate shape is somewhere smaller than both, data are lost for some input. -/
theorem C102_two_steps_iff (nf : ℕ → ℕ) (old mid new : List ℕ) (hrank : old ≠ []) (hm : mid.length = old.length)
    (hn : new.length = old.length) (h0 : 0 ∉ old) (h0' : 0 ∉ new) :
    (∀ a b c d : Arr ℤ, a.shape = old → fftPad nf a (.seq (mid.map some)) .constant = .ok b → fftPad nf b (.seq (new.map some)) .constant = .ok c →
      fftPad nf a (.seq (new.map some)) .constant = .ok d → c.Same d) ↔ KeepsAll old mid new := by
  constructor
  · intro h
    by_contra hk
    obtain ⟨i, j, h1, h2, h3, h4⟩ := aligned_lost hn.symm (by rw [hm, hn]) h0 h0' hk
    let a : Arr ℤ := ⟨old, fun _ => 1⟩
    have hm' : (mid.map some).length = a.shape.length := by simpa using hm
    have hn' : (new.map some).length = a.shape.length := by simpa using hn
    have rq : ∀ (s new : List ℕ), new.length = s.length → requested s (new.map some) = new := by
      intro s
      induction s with
      | nil => intro new h; cases new <;> simp_all [requested]
      | cons x s ih => intro new h; cases new with
        | nil => simp at h
        | cons y new => simpa [requested] using ih new (by simpa using h)
    obtain ⟨b, hb, hbs⟩ := C01_fft_pad_shape nf a (mid.map some) .constant hrank hm' (Or.inl rfl)
    rw [rq _ _ (by simpa using hm')] at hbs
    have hbr : b.shape ≠ [] := by
      rw [hbs]; intro h; rw [h] at hm; exact hrank (List.length_eq_zero_iff.mp hm.symm)
    have hbl : (new.map some).length = b.shape.length := by rw [hbs, hm]; exact hn'
    obtain ⟨c, hc, hcs⟩ := C01_fft_pad_shape nf b (new.map some) .constant hbr hbl (Or.inl rfl)
    obtain ⟨d, hd, hds⟩ := C01_fft_pad_shape nf a (new.map some) .constant hrank hn' (Or.inl rfl)
    rw [rq _ _ (by simpa using hbl)] at hcs
    rw [rq _ _ (by simpa using hn')] at hds
    have hs := (h a b c d rfl hb hc hd).2 i (by rw [hcs]; exact h1)
    rw [C02_fft_pad_zero_elsewhere nf b c _ hbr hbl hc i (by rw [hcs]; exact h1) (by rw [hbs, hcs]; exact h4),
      C02_fft_pad_aligned nf a d _ .constant hrank hn' (Or.inl rfl) hd i j (by rw [hds]; exact h1) h2 (by rw [hds]; exact h3)] at hs
    exact absurd hs zero_ne_one
  · rintro hk a b c d rfl hb hc hd
    obtain ⟨b', c', d', h1, h2, h3, h4⟩ := C102_two_steps nf a mid new hrank hm hn hk
    rw [hb] at h1; cases h1
    rw [hc] at h2; cases h2
    rw [hd] at h3; cases h3
    exact h4

/-- Non-vacuity: 5 -> 9 -> 6 loses nothing, 5 -> 3 -> 6 does. -/
example : KeepsAll [5] [9] [6] ∧ ¬ KeepsAll [5] [3] [6] := by
  refine ⟨.cons (by decide) .nil, ?_⟩
  intro h
  cases h with
  | cons h _ => exact absurd h (by decide)

/-! ## C103 -/

theorem blockIdx_blockIdx : ∀ (bs cs q u t : List ℕ), blockIdx bs (blockIdx cs q u) t = blockIdx (List.zipWith (· * ·) cs bs) q (blockIdx bs u t)
  | b :: bs, c :: cs, q :: qs, u :: us, t :: ts => by
    simp only [blockIdx, List.zipWith_cons_cons, blockIdx_blockIdx bs cs qs us ts]
    congr 1
    ring
  | [], _, _, _, _ => by simp [blockIdx]
  | _ :: _, [], _, _, _ => by simp [blockIdx]
  | _ :: _, _ :: _, [], _, _ => by simp [blockIdx]
  | _ :: _, _ :: _, _ :: _, [], _ => by simp [blockIdx]
  | _ :: _, _ :: _, _ :: _, _ :: _, [] => by simp [blockIdx]

theorem sumIdx_div (s : List ℕ) (f : List ℕ → ℝ) (w : ℝ) : sumIdx s (fun i => f i / w) = sumIdx s f / w := by
  have := sumIdx_mul_left s w⁻¹ f
  simp only [div_eq_inv_mul, this]

/-- C103: binning by `bs` and then by `cs` is binning by the products at once, for sums and for means, also when sizes are not divisible. -/
theorem C103_bin_two_steps (a : Arr ℝ) (bs cs : List ℕ) (hb : bs.length = a.shape.length) (hc : cs.length = a.shape.length) (h0 : 0 ∉ bs) (h0' : 0 ∉ cs)
    (op : String) (mean : Bool) (hop : OpIs op mean) :
    ∃ r1 r2 r, binNdarray a none (some (.seq bs)) op = .ok r1 ∧ binNdarray r1 none (some (.seq cs)) op = .ok r2 ∧
      binNdarray a none (some (.seq (List.zipWith (· * ·) cs bs))) op = .ok r ∧ r2.Same r := by
  have hl : (List.zipWith (· * ·) cs bs).length = a.shape.length := by simp [hb, hc]
  have h0p : 0 ∉ List.zipWith (· * ·) cs bs := by
    intro h
    rw [List.zipWith_eq_zipWith_take_min] at h
    obtain ⟨i, hi, he⟩ := List.mem_iff_getElem.mp h
    simp only [List.getElem_zipWith, List.getElem_take] at he
    rcases Nat.mul_eq_zero.mp he with h | h
    · exact h0' (h ▸ List.getElem_mem _)
    · exact h0 (h ▸ List.getElem_mem _)
  obtain ⟨r1, e1, s1, g1⟩ := C16_bin_blocks a (.seq bs) bs (C16_bin_broadcast _ 0 bs hb).2 h0 op mean hop
  have hc1 : cs.length = r1.shape.length := by rw [s1]; simp [hb, hc]
  obtain ⟨r2, e2, s2, g2⟩ := C16_bin_blocks r1 (.seq cs) cs (C16_bin_broadcast _ 0 cs hc1).2 h0' op mean hop
  obtain ⟨r, e, s, g⟩ := C16_bin_blocks a (.seq _) _ (C16_bin_broadcast _ 0 _ hl).2 h0p op mean hop
  have hs : r2.shape = r.shape := by
    rw [s2, s, s1]
    clear * - hb hc
    generalize a.shape = n at hb hc
    induction n generalizing bs cs with
    | nil => simp
    | cons n ns ih =>
      cases bs with
      | nil => simp at hb
      | cons b bs =>
        cases cs with
        | nil => simp at hc
        | cons c cs =>
          simp only [List.zipWith_cons_cons, ih bs cs (by simpa using hb) (by simpa using hc), Nat.div_div_eq_div_mul, Nat.mul_comm c b]
  refine ⟨r1, r2, r, e1, e2, e, hs, fun q hq => ?_⟩
  rw [g2 q hq, g q (hs ▸ hq)]
  have inner : ∀ u, InShape u cs → r1.get (blockIdx cs q u) = sumIdx bs (fun t => a.get (blockIdx (List.zipWith (· * ·) cs bs) q (blockIdx bs u t))) /
      blockWeight mean bs := by
    intro u hu
    rw [g1]
    · simp only [blockIdx_blockIdx]
    · have hq' : InShape q (List.zipWith (· / ·) r1.shape cs) := s2 ▸ hq
      have hlen : cs.length = (List.zipWith (· / ·) r1.shape cs).length := by simp [hc1]
      have := blockIdx_inShape hq' hu hlen
      refine ?_
      rw [inShape_iff] at this ⊢
      refine ⟨by rw [this.1]; simp [hc1], fun k hk => lt_of_lt_of_le (this.2 k (by simpa [hc1] using hk)) ?_⟩
      simp only [List.getD_eq_getElem?_getD, List.getElem?_zipWith]
      have k1 : k < cs.length := by omega
      simp only [List.getElem?_eq_getElem hk, List.getElem?_eq_getElem k1, Option.getD_some]
      exact Nat.div_mul_le_self _ _
  rw [sumIdx_congr inner, sumIdx_div, ← sumIdx_blocks cs bs (by rw [hb, hc]) (fun t => a.get (blockIdx (List.zipWith (· * ·) cs bs) q t)), div_div]
  congr 1
  cases mean with
  | false => simp [blockWeight]
  | true =>
    simp only [blockWeight, if_true]
    have : ∀ bs cs : List ℕ, bs.length = cs.length → (List.zipWith (· * ·) cs bs).prod = cs.prod * bs.prod := by
      intro bs
      induction bs with
      | nil => intro cs h; cases cs <;> simp_all
      | cons b bs ih => intro cs h; cases cs with
        | nil => simp at h
        | cons c cs => simp only [List.zipWith_cons_cons, List.prod_cons, ih cs (by simpa using h)]; ring
    rw [this bs cs (by rw [hb, hc])]
    push_cast
    ring

/-- Non-vacuity: a 7×9 image binned 2×1 and then 1×3 is the image binned 2×3. -/
example (g : List ℕ → ℝ) : ∃ r1 r2 r, binNdarray ⟨[7, 9], g⟩ none (some (.seq [2, 1])) "sum" = .ok r1 ∧
    binNdarray r1 none (some (.seq [1, 3])) "sum" = .ok r2 ∧ binNdarray ⟨[7, 9], g⟩ none (some (.seq [2, 3])) "sum" = .ok r ∧ r2.Same r :=
  C103_bin_two_steps ⟨[7, 9], g⟩ [2, 1] [1, 3] rfl rfl (by decide) (by decide) "sum" false (by unfold OpIs; decide +kernel)

end PyOTF
