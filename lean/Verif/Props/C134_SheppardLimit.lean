import Verif.Lemmas.StripField
import Verif.Props.C85_C86_Sheppard
import Verif.Props.C127_Continuum

/-!
# C134: Sheppard's model on large fields of view
-/

open MeasureTheory Filter Topology

namespace PyOTF

open Physics

open Classical in
/-- Field component `c` at `(z, Y, X)` of the waves of the continuous aperture of radius `l`, each weighted with the mean number of samples of the cap (`2 * capThickness`). -/
noncomputable def Physics.capDebyeField (τ K l : ℝ) (v : VecCorr) (cd : Condition) (c : ℕ) (z Y X : ℝ) : ℂ :=
  ∫ p : ℝ × ℝ, if radialAt p.1 p.2 < l then 2 * (capThickness τ K p.1 p.2 : ℂ) * ((capAmplitude v cd c (axialAt K p.1 p.2) p.1 p.2 : ℂ) *
    Complex.exp (2 * Real.pi * Complex.I * ((axialAt K p.1 p.2 * z + p.1 * Y + p.2 * X : ℝ) : ℂ))) else 0

/-- Intensity: the sum over the components. -/
noncomputable def Physics.capDebyeIntensity (τ K l : ℝ) (v : VecCorr) (cd : Condition) (z Y X : ℝ) : ℝ :=
  ∑ c ∈ Finset.range (components v), ‖capDebyeField τ K l v cd c z Y X‖ ^ 2

/-- A sequence of models (one objective) with the same optics on ever larger fields of view: voxels `z j`, `r j` (below the limits by a margin), the ratio `τ` of the lateral
to the axial extent of the field of view being the same. -/
structure GrowingCap (p : ℕ → Params) (w n i : ℚ) (r z : ℕ → ℚ) (N nz : ℕ → ℕ) (τ : ℝ) (v : VecCorr) (cd : Condition) : Prop where
  optics : ∀ j, SOptics (p j) w n i (r j) (z j) (N j) (nz j) v cd false
  wl : 0 < w
  na : 0 < n
  index : n < i
  res : ∀ j, 0 < r j
  zres : ∀ j, 0 < z j
  size : ∀ j, 3 ≤ N j
  zsize : ∀ j, 3 ≤ nz j
  abbe : ∃ R < w / (2 * n), ∀ j, r j ≤ R
  axial : ∃ Z < w / (2 * i), ∀ j, z j ≤ Z
  ratio : ∀ j, (N j : ℝ) * (r j : ℝ) = τ * ((nz j : ℝ) * (z j : ℝ))
  grows : Tendsto (fun j => (N j : ℝ) * (r j : ℝ)) atTop atTop

theorem capPolarization_bound (v : VecCorr) (c : ℕ) {m n s : ℝ} (h : m ^ 2 + n ^ 2 + s ^ 2 = 1) (hs : 0 ≤ s) :
    |(capPolarization v m n s).getD c 0| ≤ 2 := by
  have hm : m ^ 2 ≤ 1 := by nlinarith [sq_nonneg n, sq_nonneg s]
  have hn : n ^ 2 ≤ 1 := by nlinarith [sq_nonneg m, sq_nonneg s]
  have am : |m| ≤ 2 := by rw [abs_le]; constructor <;> nlinarith
  have an : |n| ≤ 2 := by rw [abs_le]; constructor <;> nlinarith
  have h1 : 0 < 1 + s := by linarith
  have b1 : ∀ x : ℝ, x ^ 2 ≤ 1 → |1 - x ^ 2 / (1 + s)| ≤ 2 := by
    intro x hx
    have e0 : 0 ≤ x ^ 2 / (1 + s) := by positivity
    have e1 : x ^ 2 / (1 + s) ≤ 1 := by rw [div_le_one h1]; linarith
    rw [abs_le]; constructor <;> linarith
  have b2 : |m * n / (1 + s)| ≤ 2 := by
    rw [abs_div, abs_of_pos h1, div_le_iff₀ h1]
    have : |m * n| ≤ 1 := by rw [abs_le]; constructor <;> nlinarith [sq_nonneg (m - n), sq_nonneg (m + n), sq_nonneg s]
    linarith
  have b3 : |n * m / (1 + s)| ≤ 2 := by rw [mul_comm n m]; exact b2
  rcases c with _ | _ | _ | _ | _ | _ | c <;> cases v <;>
    simp only [capPolarization, List.getD_cons_zero, List.getD_cons_succ, List.getD_nil, abs_zero, abs_one, abs_neg, neg_div] <;>
    first | exact b2 | exact b3 | exact b1 _ hm | exact b1 _ hn | exact am | exact an | norm_num

theorem cosines_sq {kz ky kx : ℝ} (h : 0 < kz) : cosine kx kz ky kx ^ 2 + cosine ky kz ky kx ^ 2 + cosine kz kz ky kx ^ 2 = 1 := by
  have hl := length3_pos (b := ky) (c := kx) h.ne'
  have h2 := length3_radial_sq kz ky kx
  rw [radialAt_sq] at h2
  unfold cosine
  field_simp
  linarith

theorem cosine_z_le {kz ky kx : ℝ} (h : 0 < kz) : cosine kz kz ky kx ≤ 1 := by
  have h1 := cosines_sq (ky := ky) (kx := kx) h
  nlinarith [sq_nonneg (cosine kx kz ky kx), sq_nonneg (cosine ky kz ky kx)]

theorem capAmplitude_bound (v : VecCorr) (cd : Condition) (c : ℕ) {m M : ℝ} (hm : 0 < m) (hM : 0 < M) {kz ky kx : ℝ} (h1 : m < kz) (h2 : length3 kz ky kx < M) :
    |capAmplitude v cd c kz ky kx| ≤ 2 * (1 + M / m) := by
  have hk : 0 < kz := by linarith
  have hl := length3_pos (b := ky) (c := kx) hk.ne'
  have hs : 0 < cosine kz kz ky kx := div_pos hk hl
  have hp := capPolarization_bound v c (cosines_sq (ky := ky) (kx := kx) hk) hs.le
  unfold capAmplitude
  rw [abs_mul]
  refine mul_le_mul hp ?_ (abs_nonneg _) (by norm_num)
  split_ifs
  · rw [abs_one]
    have : 0 < M / m := by positivity
    linarith
  · have hlow : m / M ≤ cosine kz kz ky kx := by
      unfold cosine
      exact div_le_div₀ hk.le h1.le hl h2.le
    have := apodization_bound cd (div_pos hm hM) hlow (cosine_z_le hk)
    rw [one_div_div] at this
    linarith

theorem capAmplitude_continuousAt (v : VecCorr) (cd : Condition) (c : ℕ) {x : ℝ × ℝ × ℝ} (hx : 0 < x.1) :
    ContinuousAt (fun x : ℝ × ℝ × ℝ => capAmplitude v cd c x.1 x.2.1 x.2.2) x := by
  have c2 : Continuous fun x : ℝ × ℝ × ℝ => length3 x.1 x.2.1 x.2.2 := by unfold length3; fun_prop
  have hl := length3_pos (b := x.2.1) (c := x.2.2) hx.ne'
  have a1 : ContinuousAt (fun x : ℝ × ℝ × ℝ => cosine x.1 x.1 x.2.1 x.2.2) x := continuous_fst.continuousAt.div c2.continuousAt hl.ne'
  have a2 : ContinuousAt (fun x : ℝ × ℝ × ℝ => cosine x.2.1 x.1 x.2.1 x.2.2) x := (continuous_fst.comp continuous_snd).continuousAt.div c2.continuousAt hl.ne'
  have a3 : ContinuousAt (fun x : ℝ × ℝ × ℝ => cosine x.2.2 x.1 x.2.1 x.2.2) x := (continuous_snd.comp continuous_snd).continuousAt.div c2.continuousAt hl.ne'
  have hs : 0 < cosine x.1 x.1 x.2.1 x.2.2 := div_pos hx hl
  have h1 : 1 + cosine x.1 x.1 x.2.1 x.2.2 ≠ 0 := by positivity
  have a4 : ContinuousAt (fun x : ℝ × ℝ × ℝ => 1 + cosine x.1 x.1 x.2.1 x.2.2) x := continuousAt_const.add a1
  unfold capAmplitude
  refine ContinuousAt.mul ?_ ?_
  · have q : ∀ f : ℝ × ℝ × ℝ → ℝ, ContinuousAt f x → ContinuousAt (fun x : ℝ × ℝ × ℝ => f x / (1 + cosine x.1 x.1 x.2.1 x.2.2)) x := fun f hf => hf.div a4 h1
    have m2 := q _ (a3.pow 2)
    have n2 := q _ (a2.pow 2)
    have mn := q _ (a3.mul a2).neg
    have nm := q _ (a2.mul a3).neg
    rcases c with _ | _ | _ | _ | _ | _ | c <;> cases v <;> simp only [capPolarization, List.getD_cons_zero, List.getD_cons_succ, List.getD_nil] <;>
      first | exact continuousAt_const | exact continuousAt_const.sub m2 | exact continuousAt_const.sub n2 | exact mn | exact nm | exact a3.neg | exact a2.neg
  · split_ifs
    · exact continuousAt_const
    · exact ContinuousAt.comp (f := fun x : ℝ × ℝ × ℝ => cosine x.1 x.1 x.2.1 x.2.2) (apodization_continuousAt cd hs) a1

/-- The integer frequencies of a centred axis. -/
def centredFreqs (N : ℕ) : Finset ℤ := (Finset.range N).image fun a : ℕ => (a : ℤ) - (N / 2 : ℕ)

theorem sum_centredFreqs {β : Type} [AddCommMonoid β] (N : ℕ) (f : ℤ → β) : ∑ c ∈ centredFreqs N, f c = ∑ a ∈ Finset.range N, f ((a : ℤ) - (N / 2 : ℕ)) := by
  rw [centredFreqs, Finset.sum_image]
  intro a _ b _ h
  simpa using h

theorem mem_centredFreqs {N : ℕ} {c : ℤ} (h : 2 * |c| < N) : c ∈ centredFreqs N := by
  rw [centredFreqs, Finset.mem_image]
  have := abs_le.mp (show |c| ≤ |c| from le_rfl)
  refine ⟨(c + (N / 2 : ℕ)).toNat, Finset.mem_range.mpr ?_, ?_⟩ <;> omega

/-- A sum over all samples, over integer frequencies. -/
theorem sum_axes {N nz : ℕ} {r z τ : ℝ} (hN : 0 < N) (hnz : 0 < nz) (hr : 0 < r) (hz : 0 < z) (hτ : N * r = τ * (nz * z)) (g : ℝ → ℝ → ℝ → ℂ) :
    ∑ p ∈ centredFreqs N ×ˢ centredFreqs N, ∑ a ∈ centredFreqs nz, g (a * τ / (N * r)) (p.1 / (N * r)) (p.2 / (N * r)) =
    ∑ a ∈ Finset.range nz, ∑ p ∈ Finset.range N, ∑ q ∈ Finset.range N, g (centred nz z a) (centred N r p) (centred N r q) := by
  have hN' : (0 : ℝ) < N := by exact_mod_cast hN
  have hnz' : (0 : ℝ) < nz := by exact_mod_cast hnz
  have hL : (0 : ℝ) < N * r := by positivity
  have ez : ∀ a : ℕ, (((a : ℤ) - (nz / 2 : ℕ) : ℤ) : ℝ) * τ / (N * r) = centred nz z a := by
    intro a
    have hdz : τ / (N * r) = 1 / (nz * z) := by
      rw [div_eq_div_iff hL.ne' (by positivity), hτ]; ring
    rw [mul_div_assoc, hdz, centred, Int.cast_sub, Int.cast_natCast, Int.cast_natCast]; ring
  have er : ∀ a : ℕ, (((a : ℤ) - (N / 2 : ℕ) : ℤ) : ℝ) / (N * r) = centred N r a := by
    intro a
    rw [centred, Int.cast_sub, Int.cast_natCast, Int.cast_natCast]
  rw [Finset.sum_product, sum_centredFreqs]
  simp only [sum_centredFreqs, er, ez]
  rw [Finset.sum_comm' (t' := Finset.range N) (s' := fun _ => Finset.range N) (by intros; tauto)]
  rw [Finset.sum_congr rfl fun q _ => Finset.sum_comm]
  rw [Finset.sum_comm]
  refine Finset.sum_congr rfl fun a _ => ?_
  exact Finset.sum_comm

open Classical in
/-- The centred Fourier sum of the samples of a cap, over integer frequencies. -/
theorem centredInverse_cap {N nz : ℕ} {r z K l τ : ℝ} (hN : 0 < N) (hnz : 0 < nz) (hr : 0 < r) (hz : 0 < z) (hτ : N * r = τ * (nz * z)) (v : VecCorr) (cd : Condition)
    (c iz iy ix : ℕ) {Z Y X : ℝ} (hZ : ((iz : ℝ) - (nz / 2 : ℕ)) * z = Z) (hY : ((iy : ℝ) - (N / 2 : ℕ)) * r = Y) (hX : ((ix : ℝ) - (N / 2 : ℕ)) * r = X)
    (V : ℝ × ℝ × ℝ → ℂ) (hV : ∀ x, V x = (capAmplitude v cd c x.1 x.2.1 x.2.2 : ℂ) *
      Complex.exp (2 * Real.pi * Complex.I * ((x.1 * Z + x.2.1 * Y + x.2.2 * X : ℝ) : ℂ))) :
    centredInverse (fun a p q => (capField N nz r z K l v cd false c a p q : ℂ)) nz N N iz iy ix * ((nz / r ^ 2 : ℝ) : ℂ) =
    (∑ p ∈ centredFreqs N ×ˢ centredFreqs N, ∑ a ∈ centredFreqs nz, if OnCap K l (τ / (N * r)) (1 / (N * r)) false (a * τ / (N * r)) (p.1 / (N * r)) (p.2 / (N * r)) then
      V (a * τ / (N * r), p.1 / (N * r), p.2 / (N * r)) else 0) / ((N * r : ℝ) : ℂ) ^ 2 := by
  have hN' : (0 : ℝ) < N := by exact_mod_cast hN
  have hnz' : (0 : ℝ) < nz := by exact_mod_cast hnz
  have hL : (0 : ℝ) < N * r := by positivity
  have hdz : τ / (N * r) = 1 / (nz * z) := by
    rw [div_eq_div_iff hL.ne' (by positivity), hτ]; ring
  rw [sum_axes hN hnz hr hz hτ (fun kz ky kx => if OnCap K l (τ / (N * r)) (1 / (N * r)) false kz ky kx then V (kz, ky, kx) else 0), centredInverse]
  have e : ∀ a ∈ Finset.range nz, ∀ p ∈ Finset.range N, ∀ q ∈ Finset.range N,
      (capField N nz r z K l v cd false c a p q : ℂ) * Complex.exp (2 * Real.pi * Complex.I * ((turns nz iz a + turns N iy p + turns N ix q : ℝ) : ℂ)) =
      if OnCap K l (τ / (N * r)) (1 / (N * r)) false (centred nz z a) (centred N r p) (centred N r q) then V (centred nz z a, centred N r p, centred N r q) else 0 := by
    intro a _ p _ q _
    unfold capField at3
    rw [hdz]
    split_ifs with h
    · rw [hV]
      have e1 : turns nz iz a + turns N iy p + turns N ix q = centred nz z a * Z + centred N r p * Y + centred N r q * X := by
        simp only [turns, centred, ← hZ, ← hY, ← hX]
        field_simp
      rw [e1]
    · rw [Complex.ofReal_zero, zero_mul]
  rw [Finset.sum_congr rfl fun a ha => Finset.sum_congr rfl fun p hp => Finset.sum_congr rfl fun q hq => e a ha p hp q hq]
  have c1 : (N : ℂ) ≠ 0 := by exact_mod_cast hN.ne'
  have c2 : (nz : ℂ) ≠ 0 := by exact_mod_cast hnz.ne'
  have c3 : (r : ℂ) ≠ 0 := by exact_mod_cast hr.ne'
  push_cast
  field_simp

theorem GrowingCap.numbers {p : ℕ → Params} {w n i : ℚ} {r z : ℕ → ℚ} {N nz : ℕ → ℕ} {τ : ℝ} {v : VecCorr} {cd : Condition}
    (h : GrowingCap p w n i r z N nz τ v cd) : (0 : ℝ) < ((n / w : ℚ) : ℝ) ∧ ((n / w : ℚ) : ℝ) < ((i / w : ℚ) : ℝ) ∧ 0 < τ ∧
    (∃ m : ℝ, ((n / w : ℚ) : ℝ) < m ∧ ∀ j, 2 * (m * (r j : ℝ)) < 1) ∧ (∃ m : ℝ, ((i / w : ℚ) : ℝ) < m ∧ ∀ j, 2 * (m * (z j : ℝ)) < 1) := by
  have hw := h.wl
  have hn := h.na
  have hi : 0 < i := hn.trans h.index
  have key : ∀ (a : ℚ) (f : ℕ → ℚ), 0 < a → (∀ j, 0 < f j) → (∃ R < w / (2 * a), ∀ j, f j ≤ R) → ∃ m : ℝ, ((a / w : ℚ) : ℝ) < m ∧ ∀ j, 2 * (m * (f j : ℝ)) < 1 := by
    rintro a f ha hf ⟨R, hR, hfR⟩
    have hR0 : 0 < R := (hf 0).trans_le (hfR 0)
    have h1 : a / w < 1 / (2 * R) := by
      rw [lt_div_iff₀ (by positivity)] at hR
      rw [div_lt_div_iff₀ hw (by positivity)]; linarith
    obtain ⟨m, hm1, hm2⟩ := exists_between h1
    refine ⟨m, by exact_mod_cast hm1, fun j => ?_⟩
    have hm0 : 0 < m := (by positivity : 0 < a / w).trans hm1
    have h2 : 2 * (m * f j) < 1 := by
      rw [lt_div_iff₀ (by positivity)] at hm2
      have := mul_le_mul_of_nonneg_left (hfR j) hm0.le
      linarith
    exact_mod_cast h2
  refine ⟨by exact_mod_cast div_pos hn hw, by exact_mod_cast div_lt_div_of_pos_right h.index hw, ?_, key n r hn h.res h.abbe, key i z hi h.zres h.axial⟩
  have h0 := h.ratio 0
  have a1 : (0 : ℝ) < r 0 := by exact_mod_cast h.res 0
  have a2 : (0 : ℝ) < z 0 := by exact_mod_cast h.zres 0
  have a3 : (0 : ℝ) < N 0 := by exact_mod_cast (by have := h.size 0; omega : 0 < N 0)
  have a4 : (0 : ℝ) < nz 0 := by exact_mod_cast (by have := h.zsize 0; omega : 0 < nz 0)
  have a5 : 0 < τ * (nz 0 * z 0) := by rw [← h0]; positivity
  exact pos_of_mul_pos_left a5 (by positivity)

theorem tendsto_capField {p : ℕ → Params} {w n i : ℚ} {r z : ℕ → ℚ} {N nz : ℕ → ℕ} {τ : ℝ} {v : VecCorr} {cd : Condition}
    (h : GrowingCap p w n i r z N nz τ v cd) (c : ℕ) (iz iy ix : ℕ → ℕ) {Z Y X : ℝ} (hZ : AtPosition nz z iz Z) (hY : AtPosition N r iy Y) (hX : AtPosition N r ix X) :
    Tendsto (fun j => centredInverse (fun a p q => (capField (N j) (nz j) (r j) (z j) ((i / w : ℚ) : ℝ) ((n / w : ℚ) : ℝ) v cd false c a p q : ℂ))
      (nz j) (N j) (N j) (iz j) (iy j) (ix j) * ((nz j / (r j : ℝ) ^ 2 : ℝ) : ℂ)) atTop
      (𝓝 (capDebyeField τ ((i / w : ℚ) : ℝ) ((n / w : ℚ) : ℝ) v cd c Z Y X)) := by
  classical
  obtain ⟨hl, hlK, hτ, ⟨m, hm, hmr⟩, ⟨mz, hmz, hmzz⟩⟩ := h.numbers
  set K := ((i / w : ℚ) : ℝ)
  set l := ((n / w : ℚ) : ℝ)
  have hr : ∀ j, (0 : ℝ) < r j := fun j => by exact_mod_cast h.res j
  have hz : ∀ j, (0 : ℝ) < z j := fun j => by exact_mod_cast h.zres j
  have hN : ∀ j, 0 < N j := fun j => by have := h.size j; omega
  have hnz : ∀ j, 0 < nz j := fun j => by have := h.zsize j; omega
  set V : ℝ × ℝ × ℝ → ℂ := fun x => (capAmplitude v cd c x.1 x.2.1 x.2.2 : ℂ) *
      Complex.exp (2 * Real.pi * Complex.I * ((x.1 * Z + x.2.1 * Y + x.2.2 * X : ℝ) : ℂ)) with hV
  have hkm : 0 < √(K ^ 2 - l ^ 2) := Real.sqrt_pos.mpr (by nlinarith)
  have hK : 0 < K := by linarith
  have hVc : ∀ x : ℝ × ℝ × ℝ, 0 < x.1 → ContinuousAt V x := by
    intro x hx
    have a1 : ContinuousAt (fun x : ℝ × ℝ × ℝ => ((capAmplitude v cd c x.1 x.2.1 x.2.2 : ℝ) : ℂ)) x :=
      Complex.continuous_ofReal.continuousAt.comp (capAmplitude_continuousAt v cd c hx)
    have a2 : Continuous fun x : ℝ × ℝ × ℝ => Complex.exp (2 * Real.pi * Complex.I * ((x.1 * Z + x.2.1 * Y + x.2.2 * X : ℝ) : ℂ)) := by fun_prop
    exact a1.mul a2.continuousAt
  have hVb : ∀ x : ℝ × ℝ × ℝ, √(K ^ 2 - l ^ 2) < x.1 → length3 x.1 x.2.1 x.2.2 < K + (τ + 1) → ‖V x‖ ≤ 2 * (1 + (K + (τ + 1)) / √(K ^ 2 - l ^ 2)) := by
    intro x h1 h2
    simp only [hV]
    rw [norm_mul, show (2 * Real.pi * Complex.I * ((x.1 * Z + x.2.1 * Y + x.2.2 * X : ℝ) : ℂ) : ℂ) =
        ((2 * Real.pi * (x.1 * Z + x.2.1 * Y + x.2.2 * X) : ℝ) : ℂ) * Complex.I by push_cast; ring,
        Complex.norm_exp_ofReal_mul_I, mul_one, Complex.norm_real, Real.norm_eq_abs]
    exact capAmplitude_bound v cd c hkm (by linarith) h1 h2
  have small : ∀ (a : ℝ) (M : ℕ) (f : ℝ) (t : ℤ), 0 < M → 0 < f → 2 * (a * f) < 1 → |(t : ℝ) / (M * f)| ≤ a → t ∈ centredFreqs M := by
    intro a M f t hM hf h1 h2
    have hM' : (0 : ℝ) < M := by exact_mod_cast hM
    refine mem_centredFreqs ?_
    rw [abs_div, abs_of_pos (show (0 : ℝ) < M * f by positivity), div_le_iff₀ (by positivity)] at h2
    have : 2 * |(t : ℝ)| < M := by nlinarith
    exact_mod_cast this
  have main := tendsto_cap_sum hτ hl hlK (fun j => (N j : ℝ) * (r j : ℝ)) h.grows V hVc (by positivity) hVb (fun j => centredFreqs (nz j))
    (fun j => centredFreqs (N j) ×ˢ centredFreqs (N j)) hm hmz (Eventually.of_forall fun j t ht => ?_) (Eventually.of_forall fun j t h1 h2 => ?_)
  · have e : capDebyeField τ K l v cd c Z Y X = ∫ u : ℝ × ℝ, if radialAt u.1 u.2 < l then 2 * (capThickness τ K u.1 u.2 : ℂ) * V (axialAt K u.1 u.2, u) else 0 := by
      unfold capDebyeField
      rfl
    rw [e]
    refine main.congr fun j => ?_
    rw [centredInverse_cap (hN j) (hnz j) (hr j) (hz j) (h.ratio j) v cd c (iz j) (iy j) (ix j) (hZ j) (hY j) (hX j) V fun x => rfl]
  · refine small mz (nz j) (z j) t (hnz j) (hz j) (hmzz j) ?_
    have hN' : (0 : ℝ) < N j := by exact_mod_cast hN j
    have hn' : (0 : ℝ) < nz j := by exact_mod_cast hnz j
    have : (t : ℝ) * τ / (N j * r j) = t / (nz j * z j) := by
      rw [h.ratio j]
      have := hz j
      field_simp
    rwa [this] at ht
  · exact Finset.mem_product.mpr ⟨small m _ _ _ (hN j) (hr j) (hmr j) h1, small m _ _ _ (hN j) (hr j) (hmr j) h2⟩

/-- C134: the intensity PSF of Sheppard's model at a fixed position: times `nz^2 / r^4` it tends, as the field of view grows, to the intensity of the waves of the continuous
aperture, each weighted with the mean number of samples of the cap. -/
theorem C134_limit {p : ℕ → Params} {w n i : ℚ} {r z : ℕ → ℚ} {N nz : ℕ → ℕ} {τ : ℝ} {v : VecCorr} {cd : Condition}
    (h : GrowingCap p w n i r z N nz τ v cd) (b : ℕ → Arr (Option ℝ)) (hb : ∀ j, SSpec.PSFi (p j) = .ok (b j)) (iz y x : ℕ → ℕ)
    (hiz : ∀ j, iz j < nz j) (hy : ∀ j, y j < N j) (hx : ∀ j, x j < N j) {Z Y X : ℝ}
    (hZ : AtPosition nz z (fun j => cameFrom (nz j) (iz j)) Z) (hY : AtPosition N r (fun j => cameFrom (N j) (y j)) Y) (hX : AtPosition N r (fun j => cameFrom (N j) (x j)) X) :
    ∃ I : ℕ → ℝ, (∀ j, (b j).get [iz j, y j, x j] = some (I j)) ∧
      Tendsto (fun j => I j * ((nz j : ℝ) ^ 2 / (r j : ℝ) ^ 4)) atTop (𝓝 (capDebyeIntensity τ ((i / w : ℚ) : ℝ) ((n / w : ℚ) : ℝ) v cd Z Y X)) := by
  refine ⟨_, fun j => (C85_psfi (h.optics j) (Or.inl rfl) (h.size j) (h.zsize j) (h.res j) (b j) (hb j)).2 _ (hiz j) _ (hy j) _ (hx j), ?_⟩
  unfold capDebyeIntensity
  have := tendsto_finsetSum (Finset.range (components v)) fun c _ => ((tendsto_capField h c _ _ _ hZ hY hX).norm).pow 2
  refine this.congr fun j => ?_
  rw [capIntensity, Finset.sum_mul]
  refine Finset.sum_congr rfl fun c _ => ?_
  have hr : (0 : ℝ) < r j := by exact_mod_cast h.res j
  rw [norm_mul, Complex.norm_real, Real.norm_eq_abs, abs_of_nonneg (by positivity), mul_pow]
  congr 1
  rw [div_pow, ← pow_mul]

/-! ## Comparison with Hanser's model -/

/-- Sign conventions of the two models: the axial components are opposite. -/
def axialSign (v : VecCorr) (c : ℕ) : ℝ :=
  match v with
  | .z => -1
  | .total => if c < 2 then -1 else 1
  | _ => 1

theorem axialSign_sq (v : VecCorr) (c : ℕ) : |axialSign v c| = 1 := by
  unfold axialSign
  split
  · norm_num
  · split_ifs <;> norm_num
  · norm_num

theorem cap_direction {K fy fx : ℝ} (h : radialAt fy fx < K) : length3 (axialAt K fy fx) fy fx = K ∧ sinThetaAt K fy fx = radialAt fy fx / K ∧
    cosThetaAt K fy fx = axialAt K fy fx / K ∧ sinThetaAt K fy fx * cosPhiAt fy fx = fx / K ∧ sinThetaAt K fy fx * sinPhiAt fy fx = fy / K := by
  have h0 : 0 ≤ radialAt fy fx := Real.sqrt_nonneg _
  have hK : 0 < K := lt_of_le_of_lt h0 h
  have hw := axialAt_pos h
  have hw2 := axialAt_sq' h.le
  have hs : sinThetaAt K fy fx = radialAt fy fx / K := by rw [sinThetaAt, if_pos h]
  refine ⟨?_, hs, ?_, ?_, ?_⟩
  · have h1 := length3_radial_sq (axialAt K fy fx) fy fx
    have h2 := length3_nonneg (axialAt K fy fx) fy fx
    rw [hw2] at h1
    have : (length3 (axialAt K fy fx) fy fx - K) * (length3 (axialAt K fy fx) fy fx + K) = 0 := by nlinarith
    rcases mul_eq_zero.mp this with h | h <;> linarith
  · rw [cosThetaAt, hs, Real.sqrt_eq_iff_mul_self_eq_of_pos (by positivity)]
    field_simp
    linarith
  · rw [hs, cosPhiAt]
    split_ifs with hz
    · have : fx = 0 := by
        have := radialAt_sq fy fx
        rw [hz] at this
        nlinarith [sq_nonneg fy, sq_nonneg fx]
      rw [hz, this]; simp
    · field_simp
  · rw [hs, sinPhiAt]
    split_ifs with hz
    · have : fy = 0 := by
        have := radialAt_sq fy fx
        rw [hz] at this
        nlinarith [sq_nonneg fy, sq_nonneg fx]
      rw [hz, this]; simp
    · field_simp

/-- The two models use the same polarisation factors, except for the sign of the axial components. -/
theorem capPolarization_eq {K fy fx : ℝ} (h : radialAt fy fx < K) (v : VecCorr) (c : ℕ) :
    (capPolarization v (cosine fx (axialAt K fy fx) fy fx) (cosine fy (axialAt K fy fx) fy fx) (cosine (axialAt K fy fx) (axialAt K fy fx) fy fx)).getD c 0 =
    axialSign v c * (polarization v (sinThetaAt K fy fx) (cosThetaAt K fy fx) (sinPhiAt fy fx) (cosPhiAt fy fx)).getD c 0 := by
  obtain ⟨h1, h2, h3, h4, h5⟩ := cap_direction h
  have hw := axialAt_pos h
  have hK : 0 < K := lt_of_le_of_lt (Real.sqrt_nonneg _) h
  have hphi := phiAt_sq fy fx
  unfold cosine
  rw [h1, ← h3, ← h4, ← h5]
  have hc : 0 < cosThetaAt K fy fx := by rw [h3]; positivity
  have hsc : sinThetaAt K fy fx ^ 2 = (1 - cosThetaAt K fy fx) * (1 + cosThetaAt K fy fx) := by
    rw [h2, h3]
    have := axialAt_sq' h.le
    field_simp
    linarith
  set s := sinThetaAt K fy fx
  set t := cosThetaAt K fy fx
  set f := cosPhiAt fy fx
  set g := sinPhiAt fy fx
  have ht : 1 + t ≠ 0 := by positivity
  have x1 : 1 - (s * f) ^ 2 / (1 + t) = t * f ^ 2 + g ^ 2 := by
    rw [mul_pow, hsc]; field_simp; linear_combination -hphi
  have x2 : 1 - (s * g) ^ 2 / (1 + t) = t * g ^ 2 + f ^ 2 := by
    rw [mul_pow, hsc]; field_simp; linear_combination -hphi
  have x3 : -(s * f * (s * g)) / (1 + t) = (t - 1) * g * f := by
    rw [show s * f * (s * g) = s ^ 2 * (f * g) by ring, hsc]; field_simp; ring
  have x4 : -(s * g * (s * f)) / (1 + t) = (t - 1) * g * f := by
    rw [show s * g * (s * f) = s ^ 2 * (f * g) by ring, hsc]; field_simp; ring
  rcases c with _ | _ | _ | _ | _ | _ | c <;> cases v <;>
    simp only [capPolarization, polarization, axialSign, List.getD_cons_zero, List.getD_cons_succ, List.getD_nil, x1, x2, x3, x4] <;> norm_num

/-- C134: equal lateral and axial extent of the field of view, scalar theory or `condition = "none"`: the limit is (up to the factor 4) the diffraction integral of Hanser's
model with `condition = "herschel"`. -/
theorem C134_herschel {K l : ℝ} (hlK : l < K) (v : VecCorr) (cd : Condition) (hc : v = .none ∨ cd = .none) (z Y X : ℝ) :
    capDebyeIntensity 1 K l v cd z Y X = 4 * debyeIntensity K v .herschel (diskPupil l) z Y X := by
  unfold capDebyeIntensity debyeIntensity
  rw [Finset.mul_sum]
  refine Finset.sum_congr rfl fun c _ => ?_
  have e : capDebyeField 1 K l v cd c z Y X = (2 * axialSign v c : ℝ) * debyeField K v .herschel (diskPupil l) c z Y X := by
    unfold capDebyeField debyeField
    rw [← integral_const_mul]
    refine integral_congr_ae (Eventually.of_forall fun p => ?_)
    simp only
    unfold diskPupil
    split_ifs with hp
    · have hpK : radialAt p.1 p.2 < K := by linarith
      obtain ⟨h1, -, h3, -, -⟩ := cap_direction hpK
      have hw := axialAt_pos hpK
      have hK : 0 < K := lt_of_le_of_lt (Real.sqrt_nonneg _) hpK
      have hth : capThickness 1 K p.1 p.2 = 1 / cosThetaAt K p.1 p.2 := by
        rw [capThickness, one_mul, h1, h3, one_div_div]
      have ham : capAmplitude v cd c (axialAt K p.1 p.2) p.1 p.2 =
          axialSign v c * (polarization v (sinThetaAt K p.1 p.2) (cosThetaAt K p.1 p.2) (sinPhiAt p.1 p.2) (cosPhiAt p.1 p.2)).getD c 0 := by
        rw [capAmplitude, capPolarization_eq hpK]
        rcases hc with rfl | rfl
        · simp
        · simp [apodization]
      have hwt : weightAt K p.1 p.2 v .herschel c = 1 / cosThetaAt K p.1 p.2 *
          (polarization v (sinThetaAt K p.1 p.2) (cosThetaAt K p.1 p.2) (sinPhiAt p.1 p.2) (cosPhiAt p.1 p.2)).getD c 0 := rfl
      rw [hth, ham, hwt]
      push_cast
      ring
    · simp
  rw [e, norm_mul, Complex.norm_real, Real.norm_eq_abs, abs_mul, axialSign_sq, mul_pow]
  norm_num

/-- C134: the two models agree in the limit of large fields of view: scalar theory, each PSF divided by its value at the focus, Sheppard's with as many planes times plane distance
as pixels times pixel size, Hanser's with `condition = "herschel"`; any voxel sizes. -/
theorem C134_models_agree {p : ℕ → Params} {w n i : ℚ} {r z : ℕ → ℚ} {N nz : ℕ → ℕ} {cd : Condition}
    (h : GrowingCap p w n i r z N nz 1 .none cd) (b : ℕ → Arr (Option ℝ)) (hb : ∀ j, SSpec.PSFi (p j) = .ok (b j)) (iz y x : ℕ → ℕ)
    (hiz : ∀ j, iz j < nz j) (hy : ∀ j, y j < N j) (hx : ∀ j, x j < N j) {Y X : ℝ}
    (s : ℕ → HSpec) {r' : ℕ → ℚ} {N' : ℕ → ℕ} {zs : List ℚ} (h' : GrowingFov s w n i r' N' zs .none .herschel) (hs : ∀ j, (s j).pupil = none)
    (b' : ℕ → Arr ℝ) (hb' : ∀ j, (s j).PSFi = .ok (b' j)) (k k0 : ℕ) (hk0 : zs.getD k0 0 = 0) (y' x' : ℕ → ℕ)
    (hY' : AtPosition N' r' y' Y) (hX' : AtPosition N' r' x' X)
    (hZ : AtPosition nz z (fun j => cameFrom (nz j) (iz j)) ((zs.getD k 0 : ℚ) : ℝ)) (hY : AtPosition N r (fun j => cameFrom (N j) (y j)) Y)
    (hX : AtPosition N r (fun j => cameFrom (N j) (x j)) X) :
    ∃ I I0 : ℕ → ℝ, (∀ j, (b j).get [iz j, y j, x j] = some (I j)) ∧ (∀ j, (b j).get [centrePixel (nz j), centrePixel (N j), centrePixel (N j)] = some (I0 j)) ∧
      Tendsto (fun j => I j / I0 j - (b' j).get [k, y' j, x' j] / (b' j).get [k0, N' j / 2, N' j / 2]) atTop (𝓝 0) := by
  obtain ⟨hl, hlK, -, -, -⟩ := h.numbers
  have hN : ∀ j, 0 < N j := fun j => by have := h.size j; omega
  have hnz : ∀ j, 0 < nz j := fun j => by have := h.zsize j; omega
  obtain ⟨I, hI, lim⟩ := C134_limit h b hb iz y x hiz hy hx hZ hY hX
  have c0 : AtPosition nz z (fun j => cameFrom (nz j) (centrePixel (nz j))) 0 := fun j => by simp [cameFrom_centrePixel (hnz j)]
  have c1 : AtPosition N r (fun j => cameFrom (N j) (centrePixel (N j))) 0 := fun j => by simp [cameFrom_centrePixel (hN j)]
  obtain ⟨I0, hI0, lim0⟩ := C134_limit h b hb _ _ _ (fun j => centrePixel_lt (hnz j)) (fun j => centrePixel_lt (hN j)) (fun j => centrePixel_lt (hN j)) c0 c1 c1
  rw [C134_herschel hlK .none cd (Or.inl rfl)] at lim lim0
  have hpos := debye_focus_pos hl hlK .herschel
  have hrel := C127_relative s h' hs b' hb' k k0 hk0 y' x' Y X hY' hX'
  refine ⟨I, I0, hI, hI0, ?_⟩
  have q := (lim.div lim0 (by positivity)).sub hrel
  rw [mul_div_mul_left _ _ (by norm_num : (4 : ℝ) ≠ 0), sub_self] at q
  refine q.congr fun j => ?_
  have hr : (0 : ℝ) < r j := by exact_mod_cast h.res j
  have hn' : (0 : ℝ) < nz j := by exact_mod_cast hnz j
  simp only [Pi.div_apply]
  rw [mul_div_mul_right _ _ (by positivity)]

end PyOTF
