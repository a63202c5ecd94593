import Verif.Props.C64_C67_Phase
import Verif.Props.C14_C15_Prep
import Verif.Model.Labview

/-!
# C75: the LabVIEW wrapper
-/

namespace PyOTF

open Physics

/-- C75: `labview(data, wl, na, ni, res, zres, ...)` for a non-empty `nz x ny x nx` stack of non-negative integers (`N = max(ny, nx) >= 2`)
and ordinary parameters returns `N` rows of `N` numbers.  The data it works on are the given ones minus 1.5 times their mode, clipped at
zero, padded with zeros to `N x N` around the centre; the rows are the phase of `retrieve_phase` for these data and planes
`zres` apart. -/
theorem C75_labview (unwrap : Arr ℝ → Arr ℝ) (hun : Unwraps unwrap) (data : Arr ℤ) (nz ny nx : ℕ) (hs : data.shape = [nz, ny, nx])
    (hz : 0 < nz) (hy : 0 < ny) (hx : 0 < nx) (hnn : ∀ i, InShape i data.shape → 0 ≤ data.get i) (hN : 2 ≤ max ny nx)
    (wl na ni res zres : PyVal) (w n i r dz : ℚ) (hw : Denotes wl w) (hn : Denotes na n) (hi : Denotes ni i) (hr : Denotes res r)
    (hdz : Denotes zres dz) (w0 : 0 < w) (n0 : 0 < n) (i0 : 0 ≤ i) (r0 : r ≠ 0) (rlim : r < w / (2 * n)) (dz0 : 0 < dz)
    (M : ℤ) (hM : 0 < M) (pt mt : ℝ) (b : Bool) :
    ∃ rows prepped mode result d', labview unwrap data wl na ni res zres M pt mt b = .ok rows ∧
      rows.length = max ny nx ∧ (∀ row ∈ rows, row.length = max ny nx) ∧
      IsMode data.ravel mode ∧ prepped.shape = [nz, max ny nx, max ny nx] ∧
      (∀ i j, InShape i prepped.shape → InShape j data.shape → Aligned data.shape prepped.shape i j →
        prepped.get i = max 0 ((data.get j : ℝ) - 3 / 2 * (mode : ℝ))) ∧
      (∀ i, InShape i prepped.shape → (∀ j, InShape j data.shape → ¬ Aligned data.shape prepped.shape i j) → prepped.get i = 0) ∧
      retrievePhase unwrap prepped M pt mt b [("wl", .val wl), ("na", .val na), ("ni", .val ni), ("res", .val res), ("zres", .val zres)] =
        (.ok result, d') ∧
      (∀ y < max ny nx, ∀ x < max ny nx, (rows.getD y []).getD x 0 = result.phase.get [y, x]) ∧
      ∃ k : ℕ, (k : ℤ) ≤ M ∧ ∀ a < max ny nx, ∀ c < max ny nx, retrieved (max ny nx) result a c =
        (prProblem prepped w n i r nz (max ny nx) ((List.range nz).map fun (k : ℕ) => ((k : ℚ) - ((nz + 1) / 2 : ℕ)) * dz)).iterate b k a c := by
  set N := max ny nx with hNdef
  obtain ⟨p, m, e1, e2, e3, -, e5, e6⟩ := C14_prep_pad data none (3 / 2) nz ny nx hs (by rw [hs]; simp; omega) hnn (by simp)
  simp only [Option.getD_none, ← hNdef] at e3
  have hset : Setup [("wl", .val wl), ("na", .val na), ("ni", .val ni), ("res", .val res), ("zres", .val zres)] w n i r nz
      ((List.range nz).map fun (k : ℕ) => ((k : ℚ) - ((nz + 1) / 2 : ℕ)) * dz) :=
    { keys := by
        intro q hq
        simp only [List.mem_cons, List.not_mem_nil, or_false] at hq
        rcases hq with rfl | rfl | rfl | rfl | rfl <;> simp
      wl := ⟨⟨_, rfl, hw⟩, w0⟩
      na := ⟨⟨_, rfl, hn⟩, n0⟩
      ni := ⟨⟨_, rfl, hi⟩, i0⟩
      res := ⟨⟨_, rfl, hr⟩, rlim, r0⟩
      planes := ⟨by simp, dz, dz0, Or.inr ⟨_, rfl, hdz⟩, Or.inl ⟨Or.inl rfl, rfl⟩⟩ }
  obtain ⟨result, m1, F1, p1, h1, run, -⟩ := retrieve_form unwrap hun.shape p _ hset e3 hN hz M hM pt mt b
  have hsh : result.phase.shape = [N, N] := run.phaseShape
  obtain ⟨k, k1, -, -, k4⟩ := C63_pupils unwrap hun p _ w n i r nz N _ hset e3 hN hz M hM pt mt b result _ h1
  refine ⟨result.phase.tolist2, p, m, result, _, ?_, ?_, ?_, e2, e3, e5, e6, h1, ?_, k, k1, k4⟩
  · unfold labview
    simp only [e1, h1, bind, Except.bind, pure, Except.pure]
  · simp [Arr.tolist2, hsh]
  · intro row hrow
    simp only [Arr.tolist2, List.mem_map] at hrow
    obtain ⟨y, -, rfl⟩ := hrow
    simp [hsh]
  · intro y hy x hx
    simp only [Arr.tolist2, hsh, List.getD_cons_zero, List.getD_cons_succ]
    simp only [List.getD_eq_getElem?_getD, List.getElem?_map, List.getElem?_range hy, List.getElem?_range hx, Option.map_some, Option.getD_some]

/-- C75: data that are not a stack are a `ValueError`, a non-positive number of iterations an `AssertionError`. -/
theorem C75_rejects (unwrap : Arr ℝ → Arr ℝ) (data : Arr ℤ) (wl na ni res zres : PyVal) (M : ℤ) (pt mt : ℝ) (b : Bool) :
    (data.shape.length ≠ 3 → labview unwrap data wl na ni res zres M pt mt b = .error .valueError) ∧
    ∀ nz ny nx, data.shape = [nz, ny, nx] → 0 ∉ data.shape → (∀ i, InShape i data.shape → 0 ≤ data.get i) → M ≤ 0 →
      labview unwrap data wl na ni res zres M pt mt b = .error .assertionError := by
  constructor
  · intro h
    have : prepDataForPR data none (3 / 2) = .error .valueError := by
      unfold prepDataForPR
      split
      · rename_i e; rw [e] at h; simp at h
      · rfl
    unfold labview
    simp only [this, bind, Except.bind]
  · intro nz ny nx hs h0 hnn hM
    obtain ⟨p, m, e1, -⟩ := C14_prep_pad data none (3 / 2) nz ny nx hs h0 hnn (by simp)
    have hck : prChecks p M = .error .assertionError := by
      unfold prChecks
      rw [if_pos (by omega)]
    unfold labview
    simp only [e1, bind, Except.bind]
    unfold retrievePhase
    simp only [PyM.bind_apply, PyM.lift_apply, hck]

/-- Non-vacuity: a 3 x 5 x 8 stack. -/
example : ∃ rows, labview id ⟨[3, 5, 8], fun i => (i.getD 0 0 + i.getD 1 0 : ℕ)⟩ (.int 500) (.int 1) (.int 1) (.int 100) (.int 300) 20 0 0 =
    .ok rows ∧ rows.length = 8 := by
  have hun : Unwraps (id : Arr ℝ → Arr ℝ) := ⟨fun _ => rfl, fun a idx => ⟨0, by simp⟩⟩
  obtain ⟨rows, -, -, -, -, h1, h2, -⟩ := C75_labview id hun ⟨[3, 5, 8], fun i => (i.getD 0 0 + i.getD 1 0 : ℕ)⟩ 3 5 8 rfl (by norm_num)
    (by norm_num) (by norm_num) (fun i _ => Int.natCast_nonneg _) (by norm_num) (.int 500) (.int 1) (.int 1) (.int 100) (.int 300) 500 1 1 100 300
    (by simp [Denotes, PyVal.num?]) (by simp [Denotes, PyVal.num?]) (by simp [Denotes, PyVal.num?]) (by simp [Denotes, PyVal.num?])
    (by simp [Denotes, PyVal.num?]) (by norm_num) (by norm_num) (by norm_num) (by norm_num) (by norm_num) (by norm_num) 20 (by norm_num) 0 0 false
  exact ⟨rows, h1, by simpa using h2⟩

end PyOTF
