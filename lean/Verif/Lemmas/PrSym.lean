import Verif.Props.C64_C67_Phase
import Verif.Lemmas.FieldSym

/-!
# Symmetries of phase retrieval problems
-/

namespace PyOTF.Physics

open Complex

/-- A symmetry that takes the problem `S` to the problem `S'`: pupil samples are rearranged by `τ`, pixels by `σ`, planes by
`ζ`, and numbers replaced by `c` (themselves or their conjugates). -/
structure Symmetry (S S' : Problem) (c : ℂ →+* ℂ) (τ σ : ℕ × ℕ → ℕ × ℕ) (ζ : ℕ → ℕ) : Prop where
  N : S'.N = S.N
  Z : S'.Z = S.Z
  inside : ∀ i < S.N, ∀ j < S.N, S'.Inside i j ↔ S.Inside (τ (i, j)).1 (τ (i, j)).2
  norm : ∀ v, ‖c v‖ = ‖v‖
  real : ∀ t : ℝ, c t = t
  dir : ∀ v, exp (I * (arg (c v) : ℝ)) = c (exp (I * (arg v : ℝ)))
  pupilMaps : ∀ p, p.1 < S.N → p.2 < S.N → (τ p).1 < S.N ∧ (τ p).2 < S.N ∧ τ (τ p) = p
  imageMaps : ∀ p, p.1 < S.N → p.2 < S.N → (σ p).1 < S.N ∧ (σ p).2 < S.N ∧ σ (σ p) = p
  planeMaps : Set.BijOn ζ (Set.Iio S.Z) (Set.Iio S.Z)
  field : ∀ (P : ℕ → ℕ → ℂ), ∀ y < S.N, ∀ x < S.N, field S.N S.N (fun i j => c (P (τ (i, j)).1 (τ (i, j)).2)) y x =
    c (field S.N S.N P (σ (y, x)).1 (σ (y, x)).2)
  defocus : ∀ z < S.Z, ∀ i < S.N, ∀ j < S.N, S'.defocus z i j = c (S.defocus (ζ z) (τ (i, j)).1 (τ (i, j)).2)
  data : ∀ z < S.Z, ∀ y < S.N, ∀ x < S.N, S'.data z y x = S.data (ζ z) (σ (y, x)).1 (σ (y, x)).2

namespace Symmetry

variable {S S' : Problem} {c : ℂ →+* ℂ} {τ σ : ℕ × ℕ → ℕ × ℕ} {ζ : ℕ → ℕ} (h : Symmetry S S' c τ σ ζ)
include h

/-- The image of a pupil. -/
def image (_ : Symmetry S S' c τ σ ζ) (P : ℕ → ℕ → ℂ) (i j : ℕ) : ℂ := c (P (τ (i, j)).1 (τ (i, j)).2)

omit h in
theorem sum_inv {β : Type} [AddCommMonoid β] {n : ℕ} {τ : ℕ × ℕ → ℕ × ℕ}
    (hτ : ∀ p, p.1 < n → p.2 < n → (τ p).1 < n ∧ (τ p).2 < n ∧ τ (τ p) = p) (f : ℕ → ℕ → β) :
    ∑ i ∈ Finset.range n, ∑ j ∈ Finset.range n, f (τ (i, j)).1 (τ (i, j)).2 =
      ∑ i ∈ Finset.range n, ∑ j ∈ Finset.range n, f i j := by
  rw [← Finset.sum_product', ← Finset.sum_product']
  refine Finset.sum_nbij' τ τ ?_ ?_ ?_ ?_ ?_
  · intro p hp
    simp only [Finset.mem_product, Finset.mem_range] at hp ⊢
    have := hτ p hp.1 hp.2
    exact ⟨this.1, this.2.1⟩
  · intro p hp
    simp only [Finset.mem_product, Finset.mem_range] at hp ⊢
    have := hτ p hp.1 hp.2
    exact ⟨this.1, this.2.1⟩
  · intro p hp
    simp only [Finset.mem_product, Finset.mem_range] at hp
    exact (hτ p hp.1 hp.2).2.2
  · intro p hp
    simp only [Finset.mem_product, Finset.mem_range] at hp
    exact (hτ p hp.1 hp.2).2.2
  · intro p _; rfl

theorem sum_planes {β : Type} [AddCommMonoid β] (f : ℕ → β) : ∑ z ∈ Finset.range S.Z, f (ζ z) = ∑ z ∈ Finset.range S.Z, f z := by
  refine Finset.sum_nbij ζ ?_ ?_ ?_ ?_
  · intro z hz
    have := h.planeMaps.1 (Set.mem_Iio.mpr (Finset.mem_range.mp hz))
    exact Finset.mem_range.mpr this
  · intro a ha b hb e
    exact h.planeMaps.2.1 (by simpa using ha) (by simpa using hb) e
  · intro z hz
    obtain ⟨a, ha, e⟩ := h.planeMaps.2.2 (show z ∈ Set.Iio S.Z by simpa using hz)
    exact ⟨a, by simpa using ha, e⟩
  · intro z _; rfl

theorem amplitude (P P' : ℕ → ℕ → ℂ) (hP : S.SamePupil P' (h.image P)) {z y x : ℕ} (hz : z < S.Z) (hy : y < S.N) (hx : x < S.N) :
    S'.amplitude P' z y x = c (S.amplitude P (ζ z) (σ (y, x)).1 (σ (y, x)).2) := by
  unfold Problem.amplitude
  rw [h.N, ← h.field _ y hy x hx]
  refine field_congr (fun i hi j hj => ?_) y x
  rw [hP i hi j hj, h.defocus z hz i hi j hj, image, map_mul]

theorem corrected (P P' : ℕ → ℕ → ℂ) (hP : S.SamePupil P' (h.image P)) {z y x : ℕ} (hz : z < S.Z) (hy : y < S.N) (hx : x < S.N) :
    S'.corrected P' z y x = c (S.corrected P (ζ z) (σ (y, x)).1 (σ (y, x)).2) := by
  unfold Problem.corrected
  rw [h.amplitude P P' hP hz hy hx, h.data z hz y hy x hx, map_mul, h.real, h.dir]

theorem analysis (f f' : ℕ → ℕ → ℂ) (hf : ∀ y < S.N, ∀ x < S.N, f' y x = c (f (σ (y, x)).1 (σ (y, x)).2)) {i j : ℕ} (hi : i < S.N)
    (hj : j < S.N) : analysis S.N f' i j = c (analysis S.N f (τ (i, j)).1 (τ (i, j)).2) := by
  have e : Physics.analysis S.N f' i j = Physics.analysis S.N (PyOTF.field S.N S.N (fun i j => c (Physics.analysis S.N f (τ (i, j)).1 (τ (i, j)).2))) i j := by
    unfold Physics.analysis
    refine Finset.sum_congr rfl fun y hy => Finset.sum_congr rfl fun x hx => ?_
    congr 1
    have hy := Finset.mem_range.mp hy
    have hx := Finset.mem_range.mp hx
    have hm := h.imageMaps (y, x) hy hx
    have := h.field (Physics.analysis S.N f) y hy x hx
    unfold Physics.analysis at this
    rw [this]
    have := field_analysis S.N f (σ (y, x)).1 (σ (y, x)).2 hm.1 hm.2.1
    unfold Physics.analysis at this
    rw [this, hf y hy x hx]
  rw [e, analysis_field S.N _ i j hi hj]

theorem update (P P' : ℕ → ℕ → ℂ) (hP : S.SamePupil P' (h.image P)) : S.SamePupil (S'.update P') (h.image (S.update P)) := by
  intro i hi j hj
  simp only [Problem.update, image]
  by_cases hin : S.Inside (τ (i, j)).1 (τ (i, j)).2
  · rw [if_pos hin, if_pos ((h.inside i hi j hj).mpr hin), h.Z, map_div₀, map_sum, map_natCast]
    congr 1
    rw [← h.sum_planes fun z => c (Physics.analysis S.N (S.corrected P z) (τ (i, j)).1 (τ (i, j)).2 / S.defocus z (τ (i, j)).1 (τ (i, j)).2)]
    refine Finset.sum_congr rfl fun z hz => ?_
    have hz := Finset.mem_range.mp hz
    rw [h.N, h.analysis (S.corrected P (ζ z)) _ (fun y hy x hx => h.corrected P P' hP hz hy hx) hi hj, h.defocus z hz i hi j hj, map_div₀]
  · rw [if_neg hin, if_neg (fun h' => hin ((h.inside i hi j hj).mp h')), map_zero]

theorem updatePhase (P P' : ℕ → ℕ → ℂ) (hP : S.SamePupil P' (h.image P)) :
    S.SamePupil (S'.updatePhase P') (h.image (S.updatePhase P)) := by
  intro i hi j hj
  have hu := h.update P P' hP i hi j hj
  simp only [Problem.updatePhase, image]
  by_cases hin : S.Inside (τ (i, j)).1 (τ (i, j)).2
  · rw [if_pos hin, if_pos ((h.inside i hi j hj).mpr hin), hu, image, h.dir]
  · rw [if_neg hin, if_neg (fun h' => hin ((h.inside i hi j hj).mp h')), map_zero]

theorem iterate (b : Bool) (k : ℕ) : S.SamePupil (S'.iterate b k) (h.image (S.iterate b k)) := by
  induction k with
  | zero =>
    intro i hi j hj
    simp only [Problem.iterate, image, aperture]
    have := h.inside i hi j hj
    unfold Problem.Inside at this
    by_cases hin : radial S.N S.pixel (τ (i, j)).1 (τ (i, j)).2 < S.limit
    · rw [if_pos hin, if_pos (this.mpr hin), map_one]
    · rw [if_neg hin, if_neg (fun h' => hin (this.mp h')), map_zero]
  | succ k ih =>
    cases b
    · exact h.update _ _ ih
    · exact h.updatePhase _ _ ih

theorem mse (P P' : ℕ → ℕ → ℂ) (hP : S.SamePupil P' (h.image P)) : S'.mse P' = S.mse P := by
  unfold Problem.mse Problem.mean
  rw [h.N, h.Z]
  congr 1
  rw [← h.sum_planes fun z => ∑ y ∈ Finset.range S.N, ∑ x ∈ Finset.range S.N, (S.data z y x - ‖S.amplitude P z y x‖ ^ 2) ^ 2]
  refine Finset.sum_congr rfl fun z hz => ?_
  rw [← sum_inv h.imageMaps fun y x => (S.data (ζ z) y x - ‖S.amplitude P (ζ z) y x‖ ^ 2) ^ 2]
  refine Finset.sum_congr rfl fun y hy => Finset.sum_congr rfl fun x hx => ?_
  beta_reduce
  rw [h.amplitude P P' hP (Finset.mem_range.mp hz) (Finset.mem_range.mp hy) (Finset.mem_range.mp hx), h.norm,
    h.data z (Finset.mem_range.mp hz) y (Finset.mem_range.mp hy) x (Finset.mem_range.mp hx)]

theorem energy (P P' : ℕ → ℕ → ℂ) (hP : S.SamePupil P' (h.image P)) : S'.energy P' = S.energy P := by
  unfold Problem.energy
  rw [h.N, ← sum_inv h.pupilMaps fun i j => ‖P i j‖ ^ 2]
  congr 1
  refine Finset.sum_congr rfl fun i hi => Finset.sum_congr rfl fun j hj => ?_
  rw [hP i (Finset.mem_range.mp hi) j (Finset.mem_range.mp hj), image, h.norm]

theorem distance (P P' Q Q' : ℕ → ℕ → ℂ) (hP : S.SamePupil P' (h.image P)) (hQ : S.SamePupil Q' (h.image Q)) :
    S'.distance P' Q' = S.distance P Q := by
  unfold Problem.distance
  rw [h.N, ← sum_inv h.pupilMaps fun i j => ‖P i j - Q i j‖ ^ 2]
  congr 1
  refine Finset.sum_congr rfl fun i hi => Finset.sum_congr rfl fun j hj => ?_
  rw [hP i (Finset.mem_range.mp hi) j (Finset.mem_range.mp hj), hQ i (Finset.mem_range.mp hi) j (Finset.mem_range.mp hj), image, image,
    ← map_sub, h.norm]

theorem errorAt (b : Bool) (k : ℕ) : S'.errorAt b k = S.errorAt b k := h.mse _ _ (h.iterate b k)

theorem errorChange (b : Bool) (k : ℕ) : S'.errorChange b k = S.errorChange b k := by
  cases k with
  | zero => rfl
  | succ k => simp only [Problem.errorChange, h.errorAt]

theorem pupilChange (b : Bool) (k : ℕ) : S'.pupilChange b k = S.pupilChange b k := by
  cases k with
  | zero => rfl
  | succ k => simp only [Problem.pupilChange, h.energy _ _ (h.iterate b k), h.distance _ _ _ _ (h.iterate b k) (h.iterate b (k + 1))]

theorem stops (b : Bool) (pt mt : ℝ) (k : ℕ) : S'.Stops b pt mt k ↔ S.Stops b pt mt k := by
  rw [← Problem.stops_iff, ← Problem.stops_iff, h.pupilChange, h.errorChange, h.errorAt]

end Symmetry

end PyOTF.Physics

namespace PyOTF

open Physics

/-- Runs on problems that differ by a symmetry. -/
theorem symmetry_run {S S' : Problem} {c : ℂ →+* ℂ} {τ σ : ℕ × ℕ → ℕ × ℕ} {ζ : ℕ → ℕ} (h : Symmetry S S' c τ σ ζ) {p p' : Params}
    {b : Bool} {pt mt : ℝ} {M : ℕ} {unwrap unwrap' : Arr ℝ → Arr ℝ} {res res' : PRResult} {m m' : ℕ} {F F' : ℕ → ℕ → ℂ}
    (hun : Unwraps unwrap) (hun' : Unwraps unwrap')
    (hr : Run S p b pt mt M unwrap res m F) (hr' : Run S' p' b pt mt M unwrap' res' m' F') :
    res'.mse = res.mse ∧ res'.mseDiff = res.mseDiff ∧ res'.pupilDiff = res.pupilDiff ∧
      ∀ i < S.N, ∀ j < S.N, retrieved S.N res' i j = c (retrieved S.N res (τ (i, j)).1 (τ (i, j)).2) := by
  have hst := h.stops b pt mt
  have hm : m' = m := by
    have a1 := hr.le
    have a2 := hr'.le
    have b1 := hr.pos
    have b2 := hr'.pos
    rcases lt_trichotomy m m' with h | h | h
    · exact absurd ((hst _).mpr (hr.early (by omega))) (hr'.before (m - 1) (by omega))
    · exact h.symm
    · exact absurd ((hst _).mp (hr'.early (by omega))) (hr.before (m' - 1) (by omega))
  subst hm
  have f : S.SamePupil F' (h.image F) := by
    rw [hr.last, hr'.last]
    by_cases hs : S.Stops b pt mt (m' - 1)
    · rw [if_pos hs, if_pos ((hst _).mpr hs)]; exact h.iterate b _
    · rw [if_neg hs, if_neg fun h' => hs ((hst _).mp h')]; exact h.iterate b _
  refine ⟨?_, ?_, ?_, fun i hi j hj => ?_⟩
  · rw [hr.mse, hr'.mse]; exact List.map_congr_left fun k _ => h.errorAt b k
  · rw [hr.mseDiff, hr'.mseDiff]; exact List.map_congr_left fun k _ => h.errorChange b k
  · rw [hr.pupilDiff, hr'.pupilDiff]; exact List.map_congr_left fun k _ => h.pupilChange b k
  · have hm := h.pupilMaps (i, j) hi hj
    have h1 := run_retrieved hr hun _ hm.1 _ hm.2.1
    have h2 := run_retrieved hr' hun' i (h.N ▸ hi) j (h.N ▸ hj)
    rw [h.N] at h2
    rw [h1, h2, f i hi j hj, Symmetry.image]

end PyOTF
