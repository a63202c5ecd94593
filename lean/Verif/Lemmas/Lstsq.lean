import Verif.Model.PhaseRetrieval
import Mathlib.Analysis.InnerProductSpace.Projection.Minimal
import Mathlib.Analysis.InnerProductSpace.PiL2

/-!
# Least squares: the contract of `numpy.linalg.lstsq` and that it can be met
-/

namespace PyOTF

/-- Sum of the squared residuals of `A c = b`; `A` is a list of rows. -/
def residual (A : List (List ℝ)) (b c : List ℝ) : ℝ :=
  ((A.zip b).map fun p => (p.2 - (List.zipWith (fun a v => a * v) p.1 c).sum) ^ 2).sum

/-- What is assumed of `lstsq`: for a matrix with `m` columns it returns `m` coefficients with the least residual. -/
def LeastSquares (lstsq : ℕ → List (List ℝ) → List ℝ → Py (List ℝ)) : Prop :=
  ∀ m A b, A.length = b.length → (∀ row ∈ A, row.length = m) →
    ∃ c, lstsq m A b = .ok c ∧ c.length = m ∧ ∀ c' : List ℝ, c'.length = m → residual A b c ≤ residual A b c'

theorem zipWith_mul_sum (a c : List ℝ) (m : ℕ) (ha : a.length = m) (hc : c.length = m) :
    (List.zipWith (fun a v => a * v) a c).sum = ∑ k ∈ Finset.range m, a.getD k 0 * c.getD k 0 := by
  induction m generalizing a c with
  | zero =>
    rw [List.length_eq_zero_iff.mp ha]; simp
  | succ m ih =>
    obtain ⟨x, a, rfl⟩ := List.exists_cons_of_length_eq_add_one ha
    obtain ⟨y, c, rfl⟩ := List.exists_cons_of_length_eq_add_one hc
    rw [List.zipWith_cons_cons, List.sum_cons, ih a c (by simpa using ha) (by simpa using hc), Finset.sum_range_succ']
    simp only [List.getD_cons_succ, List.getD_cons_zero]
    rw [add_comm]

theorem residual_eq (A : List (List ℝ)) (b c : List ℝ) (m : ℕ) (hb : A.length = b.length) (hA : ∀ row ∈ A, row.length = m)
    (hc : c.length = m) :
    residual A b c = ∑ i ∈ Finset.range A.length, (b.getD i 0 - ∑ k ∈ Finset.range m, (A.getD i []).getD k 0 * c.getD k 0) ^ 2 := by
  unfold residual
  induction A generalizing b with
  | nil => simp
  | cons row A ih =>
    cases b with
    | nil => simp at hb
    | cons v b =>
      rw [List.zip_cons_cons, List.map_cons, List.sum_cons, ih b (by simpa using hb) (fun r hr => hA r (List.mem_cons_of_mem _ hr)),
        List.length_cons, Finset.sum_range_succ', add_comm]
      simp only [List.getD_cons_succ, List.getD_cons_zero]
      rw [zipWith_mul_sum row c m (hA row List.mem_cons_self) hc]

theorem exists_minimiser (A : List (List ℝ)) (b : List ℝ) (m : ℕ) (hb : A.length = b.length) (hA : ∀ row ∈ A, row.length = m) :
    ∃ c : List ℝ, c.length = m ∧ ∀ c' : List ℝ, c'.length = m → residual A b c ≤ residual A b c' := by
  let n := A.length
  let T : (Fin m → ℝ) →ₗ[ℝ] EuclideanSpace ℝ (Fin n) :=
    { toFun := fun c => WithLp.toLp 2 fun i => ∑ k : Fin m, (A.getD i []).getD k 0 * c k
      map_add' := by intro c d; ext i; simp [mul_add, Finset.sum_add_distrib]
      map_smul' := by intro t c; ext i; simp [Finset.mul_sum, mul_left_comm] }
  let u : EuclideanSpace ℝ (Fin n) := WithLp.toLp 2 fun i => b.getD i 0
  have hres : ∀ c : Fin m → ℝ, ∀ l : List ℝ, l.length = m → (∀ k : Fin m, l.getD k 0 = c k) → residual A b l = ‖u - T c‖ ^ 2 := by
    intro c l hl hlc
    rw [residual_eq A b l m hb hA hl, EuclideanSpace.real_norm_sq_eq, Finset.sum_range]
    refine Finset.sum_congr rfl fun i _ => ?_
    show _ = (b.getD i 0 - ∑ k : Fin m, (A.getD i []).getD k 0 * c k) ^ 2
    congr 2
    rw [Finset.sum_range]
    exact Finset.sum_congr rfl fun k _ => by rw [hlc k]
  obtain ⟨v, hv, hmin⟩ := Submodule.exists_norm_eq_iInf_of_complete_subspace (LinearMap.range T)
    (Submodule.complete_of_finiteDimensional _) u
  obtain ⟨c, rfl⟩ := hv
  have hofn : ∀ c : Fin m → ℝ, ∀ k : Fin m, (List.ofFn c).getD k 0 = c k := by
    intro c k
    rw [List.getD_eq_getElem?_getD, List.getElem?_ofFn]
    simp
  refine ⟨List.ofFn c, by simp, fun c' hc' => ?_⟩
  let d : Fin m → ℝ := fun k => c'.getD k 0
  rw [hres c (List.ofFn c) (by simp) (hofn c), hres d c' hc' (fun _ => rfl)]
  refine pow_le_pow_left₀ (norm_nonneg _) ?_ 2
  rw [hmin]
  refine ciInf_le (f := fun w : LinearMap.range T => ‖u - (w : EuclideanSpace ℝ (Fin n))‖) ⟨0, ?_⟩ ⟨T d, LinearMap.mem_range_self T d⟩
  rintro _ ⟨w, rfl⟩
  exact norm_nonneg _

/-- The contract can be met. -/
theorem leastSquares_exists : ∃ lstsq, LeastSquares lstsq := by
  classical
  refine ⟨fun m A b => if h : A.length = b.length ∧ ∀ row ∈ A, row.length = m then
    .ok (exists_minimiser A b m h.1 h.2).choose else .error .valueError, ?_⟩
  intro m A b hb hA
  refine ⟨(exists_minimiser A b m hb hA).choose, ?_, (exists_minimiser A b m hb hA).choose_spec⟩
  simp only [hb]
  rw [dif_pos]
  exact ⟨trivial, by simpa using hA⟩

end PyOTF
