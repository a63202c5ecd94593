import Verif.Props.C58_Confocal
import Verif.Props.C44_C45_Otfi

/-!
# C82: the OTF of a microscope
-/

namespace PyOTF

/-- The operations of C58 among those of C53. -/
noncomputable def UOp.toM : UOp → MOp
  | .p (.set a v) => .set a v
  | .p .readPSF => .readPSF
  | .p .readOTF => .readOTF
  | .p .readModelPsf => .readModelPsf
  | .wiener w => .wiener w
  | .orientations o => .orientations o
  | .model op => .model fun i => i.after op
  | .excModel op => .excModel fun i => i.after op

theorem step_toM (m : Micro) (op : UOp) : (m.step op.toM).2 = (m.ustep op).2 := by
  rcases op with (⟨⟩ | _ | _ | _) | _ | _ | _ | op
  all_goals try rfl
  rcases m with ⟨a, b, c, d, k, e, f⟩
  cases k <;> rfl

theorem run_toM (m : Micro) (ops : List UOp) :
    (runHistory Micro.step m (ops.map UOp.toM)).2 = (runHistory Micro.ustep m ops).2 := by
  induction ops generalizing m with
  | nil => rfl
  | cons op ops ih =>
    have : runHistory Micro.step m ((op :: ops).map UOp.toM) = ((m.step op.toM).1 :: (runHistory Micro.step (m.step op.toM).2 (ops.map UOp.toM)).1,
      (runHistory Micro.step (m.step op.toM).2 (ops.map UOp.toM)).2) := rfl
    rw [this, step_toM]
    exact ih _

/-- The sum of a three-dimensional array. -/
theorem sum3 (a : Arr ℝ) (Z A B : ℕ) (hs : a.shape = [Z, A, B]) :
    a.sum = ∑ z ∈ Finset.range Z, ∑ y ∈ Finset.range A, ∑ x ∈ Finset.range B, a.get [z, y, x] := by
  rw [Arr.sum, hs]
  simp [sumIdx]

/-- C82: after any history - reads, assignments, changes of the PSF models - the OTF of a widefield, confocal or Apotome microscope is 1 at
zero frequency, nowhere larger in modulus, and conjugate at opposite frequencies; the elements of the PSF lie between 0 and 1. -/
theorem C82_spectrum (m₀ : Micro) (h₀ : Constructed m₀) (hk : NotSIM m₀.kind) (ops : List UOp) (m : Micro)
    (hm : m = (runHistory Micro.ustep m₀ ops).2) (t : Arr ℂ) (ht : (Micro.getOTF m).1 = .ok t) (Z A B : ℕ) (hs : t.shape = [Z, A, B]) :
    0 < Z ∧ 0 < A ∧ 0 < B ∧ t.get [Z / 2, A / 2, B / 2] = 1 ∧ (∀ a < Z, ∀ p < A, ∀ q < B, ‖t.get [a, p, q]‖ ≤ 1) ∧
    (∀ a < Z, ∀ a' < Z, ∀ p < A, ∀ p' < A, ∀ q < B, ∀ q' < B,
      (Z : ℤ) ∣ ((a : ℤ) - (Z / 2 : ℕ)) + ((a' : ℤ) - (Z / 2 : ℕ)) →
      (A : ℤ) ∣ ((p : ℤ) - (A / 2 : ℕ)) + ((p' : ℤ) - (A / 2 : ℕ)) →
      (B : ℤ) ∣ ((q : ℤ) - (B / 2 : ℕ)) + ((q' : ℤ) - (B / 2 : ℕ)) → t.get [a', p', q'] = (starRingEnd ℂ) (t.get [a, p, q])) ∧
    ∃ b, (Micro.getPSF m).1 = .ok b ∧ b.shape = [Z, A, B] ∧ ∀ z < Z, ∀ y < A, ∀ x < B, 0 ≤ b.get [z, y, x] ∧ b.get [z, y, x] ≤ 1 := by
  obtain ⟨h1, h2⟩ := C53_normalised m₀ h₀ (ops.map UOp.toM) m (by rw [hm, run_toM])
  obtain ⟨-, b, hb, rfl⟩ := h2 t ht
  have hn := C58_nonneg m₀ h₀ hk ops b (hm ▸ hb)
  have hsb : b.shape = [Z, A, B] := by rw [easyFft_shape] at hs; exact hs
  have h1 := h1 b hb
  rw [sum3 b Z A B hsb] at h1
  have hZ : 0 < Z := by by_contra h; simp [Nat.eq_zero_of_not_pos h] at h1
  have hA : 0 < A := by by_contra h; simp [Nat.eq_zero_of_not_pos h] at h1
  have hB : 0 < B := by by_contra h; simp [Nat.eq_zero_of_not_pos h] at h1
  have sp := spectrum_easyFft b Z A B hsb hZ hA hB fun z y x => hn _
  refine ⟨hZ, hA, hB, by rw [sp.dc, h1]; simp, fun a ha p hp q hq => h1 ▸ sp.le a ha p hp q hq, sp.hermitian, b, hb, hsb, ?_⟩
  intro z hz y hy x hx
  refine ⟨hn _, ?_⟩
  rw [← h1]
  have s1 := Finset.single_le_sum (f := fun x => b.get [z, y, x]) (fun i _ => hn _) (Finset.mem_range.mpr hx)
  have s2 := Finset.single_le_sum (f := fun y => ∑ x ∈ Finset.range B, b.get [z, y, x]) (fun i _ => Finset.sum_nonneg fun j _ => hn _)
    (Finset.mem_range.mpr hy)
  have s3 := Finset.single_le_sum (f := fun z => ∑ y ∈ Finset.range A, ∑ x ∈ Finset.range B, b.get [z, y, x])
    (fun i _ => Finset.sum_nonneg fun j _ => Finset.sum_nonneg fun k _ => hn _) (Finset.mem_range.mpr hz)
  exact s1.trans (s2.trans s3)

/-- C82: the PSF of every microscope, SIM included, is real, so opposite frequencies of its OTF are conjugate. -/
theorem C82_hermitian (m₀ : Micro) (h₀ : Constructed m₀) (ops : List UOp) (m : Micro)
    (hm : m = (runHistory Micro.ustep m₀ ops).2) (t : Arr ℂ) (ht : (Micro.getOTF m).1 = .ok t) (Z A B : ℕ) (hs : t.shape = [Z, A, B])
    (a a' p p' q q' : ℕ) (ha : a < Z) (ha' : a' < Z) (hp : p < A) (hp' : p' < A) (hq : q < B) (hq' : q' < B)
    (d1 : (Z : ℤ) ∣ ((a : ℤ) - (Z / 2 : ℕ)) + ((a' : ℤ) - (Z / 2 : ℕ)))
    (d2 : (A : ℤ) ∣ ((p : ℤ) - (A / 2 : ℕ)) + ((p' : ℤ) - (A / 2 : ℕ)))
    (d3 : (B : ℤ) ∣ ((q : ℤ) - (B / 2 : ℕ)) + ((q' : ℤ) - (B / 2 : ℕ))) :
    t.get [a', p', q'] = (starRingEnd ℂ) (t.get [a, p, q]) := by
  obtain ⟨-, h2⟩ := C53_normalised m₀ h₀ (ops.map UOp.toM) m (by rw [hm, run_toM])
  obtain ⟨-, b, hb, rfl⟩ := h2 t ht
  exact hermitian_easyFft b Z A B (by rw [easyFft_shape] at hs; exact hs) (by omega) (by omega) (by omega) a ha a' ha' p hp p' hp' q hq q' hq' d1 d2 d3

/-- Non-vacuity of C82: `WidefieldMicroscope(...)` with the demo parameters has an OTF of 64 x 64 x 64. -/
example : ∃ m t, Micro.newWidefield demoMicroArgs = .ok m ∧ NotSIM m.kind ∧ (Micro.getOTF m).1 = .ok t ∧ t.shape = [64, 64, 64] := by
  obtain ⟨m, h, b, p, h1, h2, h3, h4, h5, h6⟩ := demoMicro
  have hc := (constructed_fresh (Or.inl ⟨_, h1⟩)).2
  have hk : m.kind = .widefield := by
    unfold Micro.newWidefield at h1
    obtain ⟨_, -, h1⟩ := py_bind_ok h1
    obtain ⟨⟨_, _⟩, -, h1⟩ := py_bind_ok h1
    obtain ⟨_, -, h1⟩ := py_bind_ok h1
    cases h1; rfl
  refine ⟨m, spectrum p, h1, by rw [hk]; trivial, ?_, by rw [spectrum, easyFft_shape]; exact h6⟩
  rw [getOTF_run, hc]
  rcases hp : Micro.getPSF m with ⟨e | a, m'⟩
  · rw [hp] at h5; cases h5
  · rw [hp] at h5; cases h5; rfl

end PyOTF
