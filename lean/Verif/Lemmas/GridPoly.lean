import Mathlib.Algebra.Polynomial.Bivariate
import Mathlib.Algebra.Polynomial.Roots
import Mathlib.Data.Real.Basic
import Mathlib.Data.Complex.Basic
import Mathlib.Data.Int.Interval

/-!
# Polynomials in two variables that vanish on the columns of a grid
-/

namespace PyOTF

open Polynomial Polynomial.Bivariate

/-- Total degree at most `d`. -/
def TD (d : ℕ) (F : ℝ[X][Y]) : Prop := ∀ i j, d < i + j → (F.coeff i).coeff j = 0

theorem TD.add {d : ℕ} {F G : ℝ[X][Y]} (hF : TD d F) (hG : TD d G) : TD d (F + G) := fun i j h => by
  rw [coeff_add, coeff_add, hF i j h, hG i j h, add_zero]

theorem TD.mono {d e : ℕ} (h : d ≤ e) {F : ℝ[X][Y]} (hF : TD d F) : TD e F := fun i j hij => hF i j (by omega)

theorem TD.mul {d e : ℕ} {F G : ℝ[X][Y]} (hF : TD d F) (hG : TD e G) : TD (d + e) (F * G) := fun i j h => by
  rw [coeff_mul, finsetSum_coeff]
  refine Finset.sum_eq_zero fun a ha => ?_
  rw [coeff_mul]
  refine Finset.sum_eq_zero fun b hb => ?_
  have h1 := Finset.mem_antidiagonal.mp ha
  have h2 := Finset.mem_antidiagonal.mp hb
  by_cases hd : d < a.1 + b.1
  · rw [hF _ _ hd, zero_mul]
  · rw [hG _ _ (by omega), mul_zero]

theorem TD.const (a : ℝ) : TD 0 (C (C a)) := fun i j h => by
  rw [coeff_C]
  split_ifs with hi
  · rw [coeff_C, if_neg (by omega)]
  · exact coeff_zero j

theorem TD.x : TD 1 (C X) := fun i j h => by
  rw [coeff_C]
  split_ifs with hi
  · rw [coeff_X, if_neg (by omega)]
  · exact coeff_zero j

theorem TD.y : TD 1 (X : ℝ[X][Y]) := fun i j h => by
  rw [coeff_X]
  split_ifs with hi
  · rw [coeff_one, if_neg (by omega)]
  · exact coeff_zero j

/-- `f` is a polynomial of total degree at most `d` on the plane. -/
def PolyFn (d : ℕ) (f : ℝ × ℝ → ℝ) : Prop := ∃ F : ℝ[X][Y], TD d F ∧ ∀ p : ℝ × ℝ, f p = evalEval p.1 p.2 F

theorem PolyFn.add {d : ℕ} {f g : ℝ × ℝ → ℝ} (hf : PolyFn d f) (hg : PolyFn d g) : PolyFn d fun p => f p + g p := by
  obtain ⟨F, h1, h2⟩ := hf
  obtain ⟨G, h3, h4⟩ := hg
  exact ⟨F + G, h1.add h3, fun p => by beta_reduce; rw [h2, h4, evalEval_add]⟩

theorem PolyFn.mul {d e : ℕ} {f g : ℝ × ℝ → ℝ} (hf : PolyFn d f) (hg : PolyFn e g) : PolyFn (d + e) fun p => f p * g p := by
  obtain ⟨F, h1, h2⟩ := hf
  obtain ⟨G, h3, h4⟩ := hg
  exact ⟨F * G, h1.mul h3, fun p => by beta_reduce; rw [h2, h4, evalEval_mul]⟩

theorem PolyFn.mono {d e : ℕ} (h : d ≤ e) {f : ℝ × ℝ → ℝ} (hf : PolyFn d f) : PolyFn e f := by
  obtain ⟨F, h1, h2⟩ := hf
  exact ⟨F, h1.mono h, h2⟩

theorem PolyFn.const (a : ℝ) : PolyFn 0 fun _ => a := ⟨C (C a), TD.const a, fun p => by simp⟩

theorem PolyFn.x : PolyFn 1 fun p => p.1 := ⟨C X, TD.x, fun p => by simp [evalEval]⟩

theorem PolyFn.y : PolyFn 1 fun p => p.2 := ⟨X, TD.y, fun p => by simp [evalEval]⟩

theorem PolyFn.smul {d : ℕ} (a : ℝ) {f : ℝ × ℝ → ℝ} (hf : PolyFn d f) : PolyFn d fun p => a * f p := by
  have := (PolyFn.const a).mul hf
  rwa [zero_add] at this

theorem PolyFn.sum {d : ℕ} {ι : Type} (S : Finset ι) (f : ι → ℝ × ℝ → ℝ) (hf : ∀ i ∈ S, PolyFn d (f i)) : PolyFn d fun p => ∑ i ∈ S, f i p := by
  classical
  induction S using Finset.induction_on with
  | empty => simpa using (PolyFn.const 0).mono (Nat.zero_le d)
  | insert a S ha ih =>
    have := (hf a (Finset.mem_insert_self a S)).add (ih fun i hi => hf i (Finset.mem_insert_of_mem hi))
    simpa only [Finset.sum_insert ha] using this

theorem PolyFn.pow {d : ℕ} {f : ℝ × ℝ → ℝ} (hf : PolyFn d f) (k : ℕ) : PolyFn (d * k) fun p => f p ^ k := by
  induction k with
  | zero => simpa using PolyFn.const 1
  | succ k ih =>
    have := ih.mul hf
    simpa only [pow_succ, Nat.mul_succ] using this

theorem PolyFn.zpow (m : ℕ) : PolyFn m (fun p => ((⟨p.1, p.2⟩ : ℂ) ^ m).re) ∧ PolyFn m (fun p => ((⟨p.1, p.2⟩ : ℂ) ^ m).im) := by
  induction m with
  | zero => exact ⟨by simpa using PolyFn.const 1, by simpa using PolyFn.const 0⟩
  | succ m ih =>
    constructor
    · have := (ih.1.mul PolyFn.x).add ((ih.2.mul PolyFn.y).smul (-1))
      have e : (fun p : ℝ × ℝ => ((⟨p.1, p.2⟩ : ℂ) ^ (m + 1)).re) = fun p =>
          ((⟨p.1, p.2⟩ : ℂ) ^ m).re * p.1 + -1 * (((⟨p.1, p.2⟩ : ℂ) ^ m).im * p.2) := by
        funext p; rw [pow_succ, Complex.mul_re]; ring
      rw [e]; exact this
    · have := (ih.1.mul PolyFn.y).add (ih.2.mul PolyFn.x)
      have e : (fun p : ℝ × ℝ => ((⟨p.1, p.2⟩ : ℂ) ^ (m + 1)).im) = fun p =>
          ((⟨p.1, p.2⟩ : ℂ) ^ m).re * p.2 + ((⟨p.1, p.2⟩ : ℂ) ^ m).im * p.1 := by
        funext p; rw [pow_succ, Complex.mul_im]
      rw [e]; exact this

/-- A polynomial of total degree at most `d` that has more than `d - k` zeros on row `k`, for `d + 1` rows, vanishes. -/
theorem rows_vanish : ∀ (d : ℕ) (F : ℝ[X][Y]), TD d F → ∀ ys : ℕ → ℝ, (∀ k ≤ d, ∀ l ≤ d, ys k = ys l → k = l) →
    (∀ k ≤ d, ∃ S : Finset ℝ, d - k < S.card ∧ ∀ x ∈ S, evalEval x (ys k) F = 0) → F = 0 := by
  intro d
  induction d with
  | zero =>
    intro F hF ys _ hz
    obtain ⟨S, h1, h2⟩ := hz 0 le_rfl
    obtain ⟨x, hx⟩ := Finset.card_pos.mp (by omega : 0 < S.card)
    have h3 := h2 x hx
    have hFc : F = C (C ((F.coeff 0).coeff 0)) := by
      ext i j
      rw [coeff_C]
      split_ifs with hi
      · rw [coeff_C]
        split_ifs with hj
        · rw [hi, hj]
        · exact hF i j (by omega)
      · rw [coeff_zero]; exact hF i j (by omega)
    rw [hFc] at h3 ⊢
    simp at h3
    rw [h3]; simp
  | succ d ih =>
    intro F hF ys hinj hz
    -- the row ys 0
    have hrow : F.eval (C (ys 0)) = 0 := by
      obtain ⟨S, h1, h2⟩ := hz 0 (by omega)
      refine eq_zero_of_natDegree_lt_card_of_eval_eq_zero' _ S (fun x hx => h2 x hx) (lt_of_le_of_lt ?_ h1)
      rw [Nat.sub_zero, natDegree_le_iff_coeff_eq_zero]
      intro j hj
      rw [eval_eq_sum_range, finsetSum_coeff]
      refine Finset.sum_eq_zero fun i _ => ?_
      rw [← C_pow, coeff_mul_C, hF i j (by omega), zero_mul]
    obtain ⟨G, hG⟩ := dvd_iff_isRoot.mpr hrow
    -- the quotient has smaller degree
    have hstep : ∀ i, G.coeff i = F.coeff (i + 1) + C (ys 0) * G.coeff (i + 1) := by
      intro i
      rw [hG, sub_mul, coeff_sub, coeff_X_mul, coeff_C_mul]; ring
    have hTD : TD d G := by
      have : ∀ n i, G.natDegree < i + n → ∀ j, d < i + j → (G.coeff i).coeff j = 0 := by
        intro n
        induction n with
        | zero => intro i hi j _; rw [coeff_eq_zero_of_natDegree_lt (p := G) (by omega), coeff_zero]
        | succ n ihn =>
          intro i hi j hij
          rw [hstep, coeff_add, coeff_C_mul, hF (i + 1) j (by omega), ihn (i + 1) (by omega) j (by omega), mul_zero, add_zero]
      exact fun i j hij => this (G.natDegree + 1) i (by omega) j hij
    have hG0 : G = 0 := by
      refine ih G hTD (fun k => ys (k + 1)) (fun k hk l hl h => by have := hinj (k + 1) (by omega) (l + 1) (by omega) h; omega) fun k hk => ?_
      obtain ⟨S, h1, h2⟩ := hz (k + 1) (by omega)
      refine ⟨S, by omega, fun x hx => ?_⟩
      have h3 := h2 x hx
      rw [hG, evalEval_mul] at h3
      refine (mul_eq_zero.mp h3).resolve_left ?_
      rw [evalEval_sub]
      simp only [evalEval, eval_X, eval_C]
      intro h
      have := hinj (k + 1) (by omega) 0 (by omega) (by linarith)
      omega
    rw [hG, hG0, mul_zero]

/-- A polynomial of total degree at most `2 h - 1` that vanishes on the points `(p, q) / ρ` with integers `|p| + |q| ≤ h` vanishes everywhere. -/
theorem diamond_vanish (h : ℕ) (hh : 0 < h) (ρ : ℝ) (hρ : ρ ≠ 0) (f : ℝ × ℝ → ℝ) (hf : PolyFn (2 * h - 1) f)
    (hz : ∀ p q : ℤ, |p| + |q| ≤ h → f (p / ρ, q / ρ) = 0) : ∀ p, f p = 0 := by
  obtain ⟨F, hF, hfF⟩ := hf
  have : F = 0 := by
    refine rows_vanish (2 * h - 1) F hF (fun k => (if k % 2 = 1 then ((((k + 1) / 2 : ℕ) : ℤ) : ℝ) else ((-((k + 1) / 2 : ℕ) : ℤ) : ℝ)) / ρ) ?_ ?_
    · intro k _ l _ hkl
      beta_reduce at hkl
      rw [div_left_inj' hρ] at hkl
      split_ifs at hkl with h1 h2 h2 <;> have h3 := Int.cast_injective hkl <;> omega
    · intro k hk
      refine ⟨(Finset.Icc (-((h : ℤ) - ((k + 1) / 2 : ℕ))) ((h : ℤ) - ((k + 1) / 2 : ℕ))).image fun q : ℤ => (q : ℝ) / ρ, ?_, ?_⟩
      · rw [Finset.card_image_of_injective _ fun a b hab => Int.cast_injective ((div_left_inj' hρ).mp hab), Int.card_Icc]
        omega
      · intro x hx
        obtain ⟨q, hq, rfl⟩ := Finset.mem_image.mp hx
        rw [Finset.mem_Icc] at hq
        have hq' : |q| ≤ (h : ℤ) - ((k + 1) / 2 : ℕ) := abs_le.mpr hq
        split_ifs with h1
        · have := hz q (((k + 1) / 2 : ℕ) : ℤ) (by rw [abs_of_nonneg (by omega : (0 : ℤ) ≤ (((k + 1) / 2 : ℕ) : ℤ))]; omega)
          rwa [hfF] at this
        · have := hz q (-((k + 1) / 2 : ℕ) : ℤ) (by rw [abs_neg, abs_of_nonneg (by omega : (0 : ℤ) ≤ (((k + 1) / 2 : ℕ) : ℤ))]; omega)
          rwa [hfF] at this
  intro p
  rw [hfF, this]
  simp [evalEval]

end PyOTF
