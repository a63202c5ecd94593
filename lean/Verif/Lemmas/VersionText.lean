import Verif.Model.Version
import Mathlib.Data.Nat.Digits.Lemmas
import Mathlib.Data.List.TakeWhile

/-! # Lemmas about the text functions of `_version.py` -/

namespace PyOTF.Version

/-! ## strip -/

theorem head_dropWhile (p : Char → Bool) (s : Str) (c : Char) (h : (s.dropWhile p).head? = some c) : p c = false := by
  induction s with
  | nil => simp at h
  | cons a l ih =>
    rw [List.dropWhile_cons] at h
    split_ifs at h with hp
    · exact ih h
    · simp only [List.head?_cons, Option.some.injEq] at h
      subst h; simpa using hp

theorem dropWhile_eq_self {p : Char → Bool} {s : Str} (h : ∀ c, s.head? = some c → p c = false) : s.dropWhile p = s := by
  cases s with
  | nil => rfl
  | cons a l => rw [List.dropWhile_cons, if_neg (by simp [h a rfl])]

/-- Text without strippable characters at its ends. -/
def Clean (p : Char → Bool) (s : Str) : Prop := (∀ c, s.head? = some c → p c = false) ∧ ∀ c, s.getLast? = some c → p c = false

theorem stripP_eq_self {p : Char → Bool} {s : Str} (h : Clean p s) : stripP p s = s := by
  unfold stripP
  rw [dropWhile_eq_self h.1, dropWhile_eq_self (by rw [List.head?_reverse]; exact h.2), List.reverse_reverse]

/-- Only a part in the middle is kept. -/
theorem stripP_split (p : Char → Bool) (s : Str) : ∃ a b, s = a ++ stripP p s ++ b ∧ (∀ c ∈ a, p c = true) ∧ ∀ c ∈ b, p c = true := by
  refine ⟨s.takeWhile p, ((s.dropWhile p).reverse.takeWhile p).reverse, ?_, ?_, ?_⟩
  · unfold stripP
    rw [List.append_assoc, ← List.reverse_append, List.takeWhile_append_dropWhile, List.reverse_reverse, List.takeWhile_append_dropWhile]
  · intro c hc; exact List.mem_takeWhile_imp hc
  · intro c hc; rw [List.mem_reverse] at hc; exact List.mem_takeWhile_imp hc

theorem stripP_clean (p : Char → Bool) (s : Str) : Clean p (stripP p s) := by
  constructor
  · intro c hc
    have e : s.dropWhile p = stripP p s ++ ((s.dropWhile p).reverse.takeWhile p).reverse := by
      unfold stripP
      rw [← List.reverse_append, List.takeWhile_append_dropWhile, List.reverse_reverse]
    refine head_dropWhile p s c ?_
    rw [e]
    cases hs : stripP p s with
    | nil => rw [hs] at hc; cases hc
    | cons x l => rw [hs] at hc; simpa using hc
  · intro c hc
    unfold stripP at hc
    rw [List.getLast?_reverse] at hc
    exact head_dropWhile p _ c hc

theorem strip_strip (s : Str) : strip (strip s) = strip s := stripP_eq_self (stripP_clean _ _)

theorem strip_pad {p : Char → Bool} {s : Str} (h : Clean p s) (hs : s ≠ []) {a b : Str} (ha : ∀ c ∈ a, p c = true)
    (hb : ∀ c ∈ b, p c = true) : stripP p (a ++ s ++ b) = s := by
  obtain ⟨x, l, rfl⟩ := List.exists_cons_of_ne_nil hs
  have hx := h.1 x rfl
  unfold stripP
  rw [List.append_assoc, List.dropWhile_append_of_pos (by simpa using ha), List.cons_append,
    List.dropWhile_cons, if_neg (by simp [hx]), ← List.cons_append, List.reverse_append,
    List.dropWhile_append_of_pos (by intro c hc; rw [List.mem_reverse] at hc; exact hb c hc),
    dropWhile_eq_self (by rw [List.head?_reverse]; exact h.2), List.reverse_reverse]

/-! ## Prefixes and suffixes -/

theorem startsWith_iff (p s : Str) : startsWith p s = true ↔ ∃ t, s = p ++ t := by
  unfold startsWith
  rw [List.isPrefixOf_iff_prefix]
  exact ⟨fun ⟨t, h⟩ => ⟨t, h.symm⟩, fun ⟨t, h⟩ => ⟨t, h.symm⟩⟩

theorem endsWith_iff (p s : Str) : endsWith p s = true ↔ ∃ t, s = t ++ p := by
  unfold endsWith
  rw [List.isSuffixOf_iff_suffix]
  exact ⟨fun ⟨t, h⟩ => ⟨t, h.symm⟩, fun ⟨t, h⟩ => ⟨t, h.symm⟩⟩

/-! ## Numbers -/

theorem digitChar_isDigit {d : ℕ} (h : d < 10) : isDigit (Nat.digitChar d) = true := by
  interval_cases d <;> decide

theorem digitChar_value {d : ℕ} (h : d < 10) : (Nat.digitChar d).toNat - '0'.toNat = d := by
  interval_cases d <;> decide

theorem decimal_ne_nil (n : ℕ) : decimal n ≠ [] := by
  unfold decimal
  split_ifs with h
  · simp
  · simp [Nat.digits_ne_nil_iff_ne_zero.mpr h]

theorem decimal_digits (n : ℕ) : ∀ c ∈ decimal n, isDigit c = true := by
  unfold decimal
  split_ifs with h
  · intro c hc; rw [List.mem_singleton] at hc; subst hc; decide
  · intro c hc
    rw [List.mem_map] at hc
    obtain ⟨d, hd, rfl⟩ := hc
    rw [List.mem_reverse] at hd
    exact digitChar_isDigit (Nat.digits_lt_base (by norm_num) hd)

theorem foldl_digits (l : List ℕ) (h : ∀ d ∈ l, d < 10) (a : ℕ) :
    (l.map Nat.digitChar).foldl (fun a c => 10 * a + (c.toNat - '0'.toNat)) a = 10 ^ l.length * a + Nat.ofDigits 10 l.reverse := by
  induction l generalizing a with
  | nil => simp
  | cons d l ih =>
    rw [List.map_cons, List.foldl_cons, ih (fun x hx => h x (List.mem_cons_of_mem _ hx)), digitChar_value (h d (List.mem_cons_self ..)),
      List.reverse_cons, Nat.ofDigits_append]
    simp only [List.length_cons, List.length_reverse, Nat.ofDigits_singleton]
    ring

theorem decimalValue_decimal (n : ℕ) : decimalValue (decimal n) = n := by
  unfold decimalValue decimal
  split_ifs with h
  · subst h; decide
  · rw [foldl_digits _ (by intro d hd; rw [List.mem_reverse] at hd; exact Nat.digits_lt_base (by norm_num) hd), List.reverse_reverse,
      Nat.ofDigits_digits, mul_zero, zero_add]

theorem decimal_inj {m n : ℕ} (h : decimal m = decimal n) : m = n := by
  rw [← decimalValue_decimal m, h, decimalValue_decimal]

theorem digit_hex {c : Char} (h : isDigit c = true) : isHex c = true := by simp [isHex, h]

/-! ## The pattern of `git describe` -/

/-- `TAG-NUM-gHEX`. -/
def describeText (tag num hex : Str) : Str := tag ++ str "-" ++ num ++ str "-g" ++ hex

/-- The groups are ordinary: a nonempty tag on one line, decimal digits, hexadecimal digits. -/
structure DescribeParts (tag num hex : Str) : Prop where
  tagNe : tag ≠ []
  oneLine : '\n' ∉ tag
  numNe : num ≠ []
  digits : ∀ c ∈ num, isDigit c = true
  hexNe : hex ≠ []
  hexDigits : ∀ c ∈ hex, isHex c = true

theorem span_append {p : Char → Bool} {a : Str} {x : Char} {b : Str} (ha : ∀ c ∈ a, p c = true) (hx : p x = false) :
    (a ++ x :: b).takeWhile p = a ∧ (a ++ x :: b).dropWhile p = x :: b := by
  rw [List.takeWhile_append_of_pos ha, List.dropWhile_append_of_pos ha, List.takeWhile_cons, List.dropWhile_cons]
  simp [hx]

theorem hex_last {tag num hex : Str} (h : DescribeParts tag num hex) :
    ∃ c, isHex c = true ∧ (describeText tag num hex).getLast? = some c := by
  obtain ⟨l, c, rfl⟩ := List.eq_nil_or_concat hex |>.resolve_left h.hexNe
  refine ⟨c, h.hexDigits c (by simp), ?_⟩
  simp [describeText]

theorem matchDescribe_text {tag num hex : Str} (h : DescribeParts tag num hex) :
    matchDescribe (describeText tag num hex) = some (tag, num, hex) := by
  have e : (describeText tag num hex).reverse = hex.reverse ++ 'g' :: ('-' :: (num.reverse ++ '-' :: tag.reverse)) := by
    simp [describeText, str]
  have hnl : chomp (describeText tag num hex) = describeText tag num hex := by
    obtain ⟨c, hc, hl⟩ := hex_last h
    unfold chomp
    rw [if_neg]
    rw [hl]
    rintro ⟨⟩
    exact absurd hc (by decide)
  unfold matchDescribe
  rw [hnl, e]
  have s1 := span_append (p := isHex) (a := hex.reverse) (x := 'g') (b := '-' :: (num.reverse ++ '-' :: tag.reverse))
    (by intro c hc; rw [List.mem_reverse] at hc; exact h.hexDigits c hc) (by decide)
  have s2 := span_append (p := isDigit) (a := num.reverse) (x := '-') (b := tag.reverse)
    (by intro c hc; rw [List.mem_reverse] at hc; exact h.digits c hc) (by decide)
  simp only [s1.1, s1.2, s2.1, s2.2]
  rw [if_pos (by simpa using ⟨h.hexNe, h.numNe, h.tagNe, h.oneLine⟩)]
  simp

theorem matchDescribe_some {s tag num hex : Str} (h : matchDescribe s = some (tag, num, hex)) :
    DescribeParts tag num hex ∧ (s = describeText tag num hex ∨ s = describeText tag num hex ++ ['\n']) := by
  unfold matchDescribe at h
  set r := (chomp s).reverse with hr
  have hs : s = r.reverse ∨ s = r.reverse ++ ['\n'] := by
    rw [hr, List.reverse_reverse]
    unfold chomp
    split_ifs with hl
    · right; exact (List.dropLast_append_getLast? _ hl).symm
    · left; rfl
  have t1 := List.takeWhile_append_dropWhile (p := isHex) (l := r)
  simp only at h
  split at h
  · rename_i r2 heq
    rw [heq] at t1
    have t2 := List.takeWhile_append_dropWhile (p := isDigit) (l := r2)
    split at h
    · rename_i tg heq2
      rw [heq2] at t2
      split_ifs at h with hc
      cases h
      refine ⟨⟨by simpa using hc.2.2.1, by simpa using hc.2.2.2, by simpa using hc.2.1, ?_, by simpa using hc.1, ?_⟩, ?_⟩
      · intro c hc; rw [List.mem_reverse] at hc; exact List.mem_takeWhile_imp hc
      · intro c hc; rw [List.mem_reverse] at hc; exact List.mem_takeWhile_imp hc
      · have : r.reverse = describeText tg.reverse (r2.takeWhile isDigit).reverse (r.takeWhile isHex).reverse := by
          conv_lhs => rw [← t1, ← t2]
          simp [describeText, str]
        rwa [this] at hs
    · cases h
  · cases h

end PyOTF.Version
