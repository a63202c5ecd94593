import Verif.Lemmas.PrForm
import Verif.Props.C34_C37_Params

/-!
# From the parameter dictionary to the problem
-/

namespace PyOTF

open Physics

theorem find_insert (d : PyDict) (k k' : String) (v : DVal) :
    (d.insert k v).find k' = if k' = k then some v else d.find k' := by
  unfold PyDict.insert PyDict.find
  by_cases hany : d.any (fun p => p.1 == k) = true
  · rw [if_pos hany]
    induction d with
    | nil => simp at hany
    | cons p d ih =>
      by_cases hp : p.1 = k
      · subst hp
        by_cases hk : k' = p.1
        · subst hk; simp
        · have hk2 : p.1 ≠ k' := fun h => hk h.symm
          simp only [List.map_cons, beq_self_eq_true, if_true, hk, if_false]
          have e1 : (p.1 == k') = false := by simpa using hk2
          rw [List.find?_cons, List.find?_cons, e1]
          simp only
          by_cases hd : d.any (fun q => q.1 == p.1) = true
          · have := ih hd; rw [if_neg hk] at this; exact this
          · have hmap : d.map (fun q => if q.1 == p.1 then (p.1, v) else q) = d := by
              conv_rhs => rw [← List.map_id d]
              refine List.map_congr_left fun q hq => ?_
              have : (q.1 == p.1) = false := by
                simp only [List.any_eq_true, not_exists, not_and, Bool.not_eq_true] at hd
                exact hd q hq
              simp [this]
            rw [hmap]
      · have hp' : (p.1 == k) = false := by simpa using hp
        have hd : d.any (fun q => q.1 == k) = true := by simpa [hp'] using hany
        have := ih hd
        simp only [List.map_cons, hp', List.find?_cons]
        by_cases hq : p.1 = k'
        · subst hq
          simp [hp]
        · have : (p.1 == k') = false := by simpa using hq
          simp only [Bool.false_eq_true, if_false, this]
          exact ih hd
  · rw [if_neg hany, List.find?_append]
    by_cases hk : k' = k
    · subst hk
      rw [if_pos rfl]
      have : d.find? (fun p => p.1 == k') = none := by
        rw [List.find?_eq_none]
        intro q hq
        simp only [List.any_eq_true, not_exists, not_and] at hany
        exact hany q hq
      rw [this]; simp
    · rw [if_neg hk]
      have hk2 : (k == k') = false := by simpa using fun h : k = k' => hk h.symm
      rw [List.find?_cons, List.find?_nil]
      simp only [hk2]
      simp

theorem mem_insert_keys {d : PyDict} {k : String} {v : DVal} {p : String × DVal} (h : p ∈ d.insert k v) :
    p.1 = k ∨ ∃ q ∈ d, q.1 = p.1 := by
  unfold PyDict.insert at h
  split_ifs at h
  · rw [List.mem_map] at h
    obtain ⟨q, hq, rfl⟩ := h
    split_ifs with hk
    · left; rfl
    · right; exact ⟨q, hq, rfl⟩
  · rw [List.mem_append] at h
    rcases h with h | h
    · right; exact ⟨p, h, rfl⟩
    · left; simp at h; rw [h]

theorem find_override (d : PyDict) (Z N : ℕ) (k : String) : (d.update (prOverride Z N)).find k =
    if k = "size" then some (.val (.int N)) else if k = "zsize" then some (.val (.int Z))
    else if k = "condition" then some (.val (.str "none")) else if k = "vec_corr" then some (.val (.str "none"))
    else d.find k := by
  simp only [PyDict.update, prOverride, List.foldl_cons, List.foldl_nil, find_insert]

theorem keys_override {d : PyDict} {Z N : ℕ} {p : String × DVal} (h : p ∈ d.update (prOverride Z N)) :
    p.1 ∈ ["vec_corr", "condition", "zsize", "size"] ∨ ∃ q ∈ d, q.1 = p.1 := by
  simp only [PyDict.update, prOverride, List.foldl_cons, List.foldl_nil] at h
  rcases mem_insert_keys h with h | ⟨q, h, e⟩
  · left; simp [h]
  rcases mem_insert_keys h with h | ⟨q2, h, e2⟩
  · left; simp [← e, h]
  rcases mem_insert_keys h with h | ⟨q3, h, e3⟩
  · left; simp [← e, ← e2, h]
  rcases mem_insert_keys h with h | ⟨q4, h, e4⟩
  · left; simp [← e, ← e2, ← e3, h]
  · right; exact ⟨q4, h, by rw [e4, e3, e2, e]⟩

/-- What the dictionary of the caller has to contain for the data of `Z` planes: wavelength `w`, numerical aperture
`n`, refractive index `i`, pixel size `r` below the Abbe limit; the planes are `zs`, either listed under `zrange` or
by default (no entry, or `None`) centred on index `(Z + 1) // 2` with distance `zres` (`res` if absent or `None`); a single number under
`zrange` is one plane.  Other entries with known keys do
not matter. -/
structure Setup (d : PyDict) (w n i r : ℚ) (Z : ℕ) (zs : List ℚ) : Prop where
  keys : ∀ p ∈ d, p.1 ∈ ["wl", "na", "ni", "res", "size", "zres", "zsize", "vec_corr", "condition", "zrange"]
  wl : (∃ v, d.find "wl" = some (.val v) ∧ Denotes v w) ∧ 0 < w
  na : (∃ v, d.find "na" = some (.val v) ∧ Denotes v n) ∧ 0 < n
  ni : (∃ v, d.find "ni" = some (.val v) ∧ Denotes v i) ∧ 0 ≤ i
  res : (∃ v, d.find "res" = some (.val v) ∧ Denotes v r) ∧ r < w / (2 * n) ∧ r ≠ 0
  planes : zs.length = Z ∧ ∃ dz : ℚ, 0 < dz ∧
    (((d.find "zres" = none ∨ d.find "zres" = some (.val .none)) ∧ dz = r) ∨ ∃ v, d.find "zres" = some (.val v) ∧ Denotes v dz) ∧
    (((d.find "zrange" = none ∨ d.find "zrange" = some (.val .none)) ∧ zs = (List.range Z).map fun (k : ℕ) => ((k : ℚ) - ((Z + 1) / 2 : ℕ)) * dz) ∨
      d.find "zrange" = some (.seq (zs.map PyFloat.fin)) ∨
      ∃ v q, d.find "zrange" = some (.val v) ∧ Denotes v q ∧ zs = [q])

theorem denotes_accepts {v : PyVal} {q : ℚ} (h : Denotes v q) (h0 : 0 ≤ q) : Accepts PyVal.isFloatOrInt v := by
  refine (accepts_float_iff ?_).mpr ⟨q, h, h0⟩
  unfold Denotes at h
  refine ⟨?_, ?_, ?_⟩ <;> rintro rfl <;> simp [PyVal.num?] at h

theorem defaultZrange_rat (Z : ℕ) (dz : ℚ) : defaultZrange Z (.fin dz) =
    ((List.range Z).map fun (k : ℕ) => ((k : ℚ) - ((Z + 1) / 2 : ℕ)) * dz).map PyFloat.fin := by
  simp only [defaultZrange, List.map_map]
  rfl

theorem zrange_scalar {v : PyVal} {q : ℚ} (h : Denotes v q) : (DVal.val v).zrange = .ok (some (.scalar (.fin q))) := by
  unfold Denotes at h
  have hv : v ≠ .none := by rintro rfl; simp [PyVal.num?] at h
  cases v <;> first | exact absurd rfl hv | (simp only [DVal.zrange]; rw [h])

/-- The same for data of `Z` planes and a model of any number of planes `zs` (those of `zrange`, if the dictionary has such an entry). -/
structure Entries (d : PyDict) (w n i r : ℚ) (Z : ℕ) (zs : List ℚ) : Prop where
  keys : ∀ p ∈ d, p.1 ∈ ["wl", "na", "ni", "res", "size", "zres", "zsize", "vec_corr", "condition", "zrange"]
  wl : (∃ v, d.find "wl" = some (.val v) ∧ Denotes v w) ∧ 0 < w
  na : (∃ v, d.find "na" = some (.val v) ∧ Denotes v n) ∧ 0 < n
  ni : (∃ v, d.find "ni" = some (.val v) ∧ Denotes v i) ∧ 0 ≤ i
  res : (∃ v, d.find "res" = some (.val v) ∧ Denotes v r) ∧ r < w / (2 * n) ∧ r ≠ 0
  planes : ∃ dz : ℚ, 0 < dz ∧
    (((d.find "zres" = none ∨ d.find "zres" = some (.val .none)) ∧ dz = r) ∨ ∃ v, d.find "zres" = some (.val v) ∧ Denotes v dz) ∧
    (((d.find "zrange" = none ∨ d.find "zrange" = some (.val .none)) ∧ zs = (List.range Z).map fun (k : ℕ) => ((k : ℚ) - ((Z + 1) / 2 : ℕ)) * dz) ∨
      d.find "zrange" = some (.seq (zs.map PyFloat.fin)) ∨
      ∃ v q, d.find "zrange" = some (.val v) ∧ Denotes v q ∧ zs = [q])

theorem Setup.entries {d : PyDict} {w n i r : ℚ} {Z : ℕ} {zs : List ℚ} (h : Setup d w n i r Z zs) : Entries d w n i r Z zs :=
  ⟨h.keys, h.wl, h.na, h.ni, h.res, h.planes.2⟩

theorem entries_model {d : PyDict} {w n i r : ℚ} {Z N : ℕ} {zs : List ℚ} (h : Entries d w n i r Z zs) :
    ∃ o, hanserOfDict (d.update (prOverride Z N)) = .ok o ∧ o = { params := o.params } ∧
      Optics o.params w n i r N zs .none .none ∧ o.params.zsize = some (.int Z) ∧
      ∀ dz : ℚ, (((d.find "zres" = none ∨ d.find "zres" = some (.val .none)) ∧ dz = r) ∨ ∃ v, d.find "zres" = some (.val v) ∧ Denotes v dz) →
        ∃ u, o.params.zres = some u ∧ u.num? = some (.fin dz) := by
  obtain ⟨⟨wv, w1, w2⟩, w3⟩ := h.wl
  obtain ⟨⟨nv, n1, n2⟩, n3⟩ := h.na
  obtain ⟨⟨iv, i1, i2⟩, i3⟩ := h.ni
  obtain ⟨⟨rv, r1, r2⟩, r3, r4⟩ := h.res
  obtain ⟨dz, z1, z2, z3⟩ := h.planes
  have hkeys : (d.update (prOverride Z N)).all (fun p => decide (p.1 ∈ hanserKeywords)) = true := by
    rw [List.all_eq_true]
    intro p hp
    rcases keys_override hp with h1 | ⟨q, hq, e⟩
    · have : p.1 ∈ hanserKeywords := by
        unfold hanserKeywords
        simp only [List.mem_cons, List.not_mem_nil, or_false] at h1 ⊢
        clear z2 z3
        tauto
      simpa using this
    · rw [← e]; simpa [hanserKeywords] using h.keys q hq
  have f : ∀ k, k ≠ "size" → k ≠ "zsize" → k ≠ "condition" → k ≠ "vec_corr" →
      (d.update (prOverride Z N)).find k = d.find k := by
    intro k h1 h2 h3 h4
    rw [find_override, if_neg h1, if_neg h2, if_neg h3, if_neg h4]
  have e1 := (f "wl" (by decide) (by decide) (by decide) (by decide)).trans w1
  have e2 := (f "na" (by decide) (by decide) (by decide) (by decide)).trans n1
  have e3 := (f "ni" (by decide) (by decide) (by decide) (by decide)).trans i1
  have e4 := (f "res" (by decide) (by decide) (by decide) (by decide)).trans r1
  have e5 := f "zres" (by decide) (by decide) (by decide) (by decide)
  have e6 := f "zrange" (by decide) (by decide) (by decide) (by decide)
  have e7 : (d.update (prOverride Z N)).find "size" = some (.val (.int N)) := by rw [find_override]; rfl
  have e8 : (d.update (prOverride Z N)).find "zsize" = some (.val (.int Z)) := by rw [find_override]; rfl
  have e9 : (d.update (prOverride Z N)).find "condition" = some (.val (.str "none")) := by rw [find_override]; rfl
  have e10 : (d.update (prOverride Z N)).find "vec_corr" = some (.val (.str "none")) := by rw [find_override]; rfl
  obtain ⟨zr, hzr, hzl⟩ : ∃ zr, (match (d.update (prOverride Z N)).find "zrange" with
      | none => (.ok none : Py (Option ZArg))
      | some v => v.zrange) = .ok zr ∧ (zr.map ZArg.toList).getD (defaultZrange Z (.fin dz)) = zs.map PyFloat.fin := by
    rcases z3 with ⟨h1, h2⟩ | h1 | ⟨v, q, h1, h2, h3⟩
    · refine ⟨none, by rw [e6]; rcases h1 with h1 | h1 <;> rw [h1]; rfl, ?_⟩
      simp only [Option.map_none, Option.getD_none, defaultZrange_rat, h2]
    rotate_left
    · exact ⟨some (.scalar (.fin q)), by rw [e6, h1]; exact zrange_scalar h2, by rw [h3]; rfl⟩
    · refine ⟨some (.seq (zs.map PyFloat.fin)), by rw [e6, h1]; rfl, rfl⟩
  let a : InitArgs := InitArgs.mk wv nv iv rv (.int N)
    ((((d.update (prOverride Z N)).find "zres").map DVal.scalar).getD .none) (.int Z) (.str "none") (.str "none")
  have ha : hanserOfDict (d.update (prOverride Z N)) = HObj.new a zr := by
    unfold hanserOfDict
    simp only [hkeys, not_true, if_false, required, e1, e2, e3, e4, e7, e8, e9, e10, bind, Except.bind]
    rcases hf : (d.update (prOverride Z N)).find "zrange" with _ | v
    · rw [hf] at hzr; cases hzr; rfl
    · rw [hf] at hzr
      simp only at hzr
      simp only [hzr]
      rfl
  have hz : a.zresEff.num? = some (.fin dz) := by
    unfold InitArgs.zresEff
    rcases z2 with ⟨h1, h2⟩ | ⟨v, h1, h2⟩
    · have : a.zres = .none := by rcases h1 with h1 | h1 <;> simp only [a, e5, h1] <;> rfl
      rw [if_pos this, h2]; exact r2
    · have : a.zres = v := by simp only [a, e5, h1]; rfl
      have hv : v ≠ .none := by rintro rfl; simp [Denotes, PyVal.num?] at h2
      rw [this, if_neg hv]; exact h2
  have hzs : a.zsizeEff = .int Z := rfl
  have hnew := (hanser_new_iff a zr { params :=
        { wl := some a.wl, na := some a.na, ni := some a.ni, res := some a.res, size := some a.size,
          zres := some a.zresEff, zsize := some a.zsizeEff, vecCorr := some .none, condition := some .none,
          zrange := some ((zr.map ZArg.toList).getD (defaultZrange (pyNat a.zsizeEff) (.fin dz))) } }).mpr
    ⟨.fin (w / (2 * n)), .fin r, .fin dz, .none, .none, denotes_accepts w2 w3.le, denotes_accepts n2 n3.le,
      denotes_accepts i2 i3, (isAbbe_iff w2 n2 _).mpr ⟨w3.ne', n3.ne', rfl⟩, r2, (ge_fin _ _).mpr r3,
      accepts_int_iff.mpr ⟨N, Or.inl rfl⟩, hz, (lt_fin _ _).mpr z1, accepts_int_iff.mpr ⟨Z, Or.inl rfl⟩, rfl, rfl, rfl⟩
  refine ⟨_, ha.trans hnew, rfl, ⟨⟨wv, rfl, w2⟩, ⟨nv, rfl, n2⟩, ⟨iv, rfl, i2⟩, ⟨rv, rfl, r2⟩, ⟨.int N, rfl, by simp [pyNat]⟩, ?_, rfl, rfl⟩,
    rfl, ?_⟩
  · rw [hzs]
    exact congrArg some hzl
  · intro dz' hdz
    refine ⟨a.zresEff, rfl, ?_⟩
    have : dz' = dz := by
      rcases z2 with ⟨h1, h2⟩ | ⟨v, h1, h2⟩ <;> rcases hdz with ⟨h3, h4⟩ | ⟨u, h3, h4⟩
      · rw [h2, h4]
      · rcases h1 with h1 | h1 <;> rw [h1] at h3 <;> cases h3
        simp [Denotes, PyVal.num?] at h4
      · rcases h3 with h3 | h3 <;> rw [h1] at h3 <;> cases h3
        simp [Denotes, PyVal.num?] at h2
      · rw [h1] at h3
        simp only [Option.some.injEq, DVal.val.injEq] at h3
        subst h3
        rw [Denotes] at h2 h4
        rw [h2] at h4
        simpa using h4.symm
    rw [this]; exact hz

theorem setup_model {d : PyDict} {w n i r : ℚ} {Z N : ℕ} {zs : List ℚ} (h : Setup d w n i r Z zs) :
    ∃ o, hanserOfDict (d.update (prOverride Z N)) = .ok o ∧ o = { params := o.params } ∧
      Optics o.params w n i r N zs .none .none ∧ o.params.zsize = some (.int Z) ∧
      ∀ dz : ℚ, (((d.find "zres" = none ∨ d.find "zres" = some (.val .none)) ∧ dz = r) ∨ ∃ v, d.find "zres" = some (.val v) ∧ Denotes v dz) →
        ∃ u, o.params.zres = some u ∧ u.num? = some (.fin dz) :=
  entries_model h.entries

/-- The problem posed by the data and the parameters. -/
noncomputable def prProblem (data : Arr ℝ) (w n i r : ℚ) (Z N : ℕ) (zs : List ℚ) : Problem where
  N := N
  Z := Z
  pixel := r
  shell := ((i / w : ℚ) : ℝ)
  limit := ((n / w : ℚ) : ℝ)
  height z := (zs.getD z 0 : ℚ)
  data z y x := data.get [z, y, x]


/-! ### The whole call -/

theorem rollIdx_sampleAt (N y : ℕ) : rollIdx N (N / 2 : ℕ) y = sampleAt N y := by
  unfold rollIdx sampleAt
  have h1 : ((y : ℤ) - (N / 2 : ℕ)) % N = ((y + (N - N / 2) : ℕ) : ℤ) % N := by
    have : ((y + (N - N / 2) : ℕ) : ℤ) = (y : ℤ) - (N / 2 : ℕ) + N := by
      rw [Nat.cast_add, Nat.cast_sub (Nat.div_le_self N 2)]; ring
    rw [this, Int.add_emod_right]
  rw [h1, ← Int.natCast_mod]
  exact Int.toNat_natCast _

theorem fftshift2_get {α : Type} (a : Arr α) (N : ℕ) (hs : a.shape = [N, N]) (y x : ℕ) (_ : y < N) (_ : x < N) :
    (fftshift none a).get [y, x] = a.get [sampleAt N y, sampleAt N x] := by
  rw [← rollIdx_sampleAt N y, ← rollIdx_sampleAt N x]
  simp [fftshift, Arr.alongAxes, Arr.alongAxis, axesOf, fftshift1, roll1, hs, List.range_succ]

theorem fftshift_shape {α : Type} (ax : Option (List ℕ)) (a : Arr α) : (fftshift ax a).shape = a.shape := by
  simp [fftshift, alongAxes_shape]

open Classical in
/-- What the result of `m` passes with last pupil `F` reports. -/
structure Report (S : Problem) (b : Bool) (pt mt : ℝ) (M : ℕ) (unwrap : Arr ℝ → Arr ℝ) (res : PRResult) (m : ℕ)
    (F : ℕ → ℕ → ℂ) : Prop where
  pos : 1 ≤ m
  le : m ≤ M
  mse : res.mse = (List.range m).map (S.errorAt b)
  mseDiff : res.mseDiff = (List.range m).map (S.errorChange b)
  pupilDiff : res.pupilDiff = (List.range m).map (S.pupilChange b)
  before : ∀ j, j + 1 < m → ¬ S.Stops b pt mt j
  early : m < M → S.Stops b pt mt (m - 1)
  last : F = if S.Stops b pt mt (m - 1) then S.iterate b (m - 1) else S.iterate b m
  magShape : res.mag.shape = [S.N, S.N]
  mag : ∀ y < S.N, ∀ x < S.N, res.mag.get [y, x] =
    ‖F (sampleAt S.N y) (sampleAt S.N x)‖ * (if S.Inside (sampleAt S.N y) (sampleAt S.N x) then 1 else 0)
  phaseShape : res.phase.shape = [S.N, S.N]
  phase : ∃ A : Arr ℝ, A.shape = [S.N, S.N] ∧
    (∀ y < S.N, ∀ x < S.N, A.get [y, x] = Complex.arg (F (sampleAt S.N y) (sampleAt S.N x))) ∧
    ∀ y < S.N, ∀ x < S.N, res.phase.get [y, x] =
      (unwrap A).get [y, x] * (if S.Inside (sampleAt S.N y) (sampleAt S.N x) then 1 else 0)
  rShape : res.r.shape = [S.N, S.N]
  r : ∀ y < S.N, ∀ x < S.N, res.r.get [y, x] = radial S.N S.pixel (sampleAt S.N y) (sampleAt S.N x)
  thetaShape : res.theta.shape = [S.N, S.N]

/-- A completed run: `m` passes, last pupil `F`. -/
structure Run (S : Problem) (p : Params) (b : Bool) (pt mt : ℝ) (M : ℕ) (unwrap : Arr ℝ → Arr ℝ) (res : PRResult) (m : ℕ)
    (F : ℕ → ℕ → ℂ) : Prop extends Report S b pt mt M unwrap res m F where
  model : HoldsPsf S p res.model (S.iterate b (m - 1))

theorem sampleAt_lt {N y : ℕ} (hN : 0 < N) : sampleAt N y < N := Nat.mod_lt _ hN

theorem optics_genCoords {p : Params} {w n i r : ℚ} {N : ℕ} {zs : List ℚ} {v : VecCorr} {cd : Condition}
    (ho : Optics p w n i r N zs v cd) (hw : w ≠ 0) (hr : r ≠ 0) (hN : 0 < N) (hi : (v ≠ .none ∨ cd ≠ .none) → i ≠ 0) :
    genCoords p = .ok ⟨N, r, ((i / w : ℚ) : ℝ), .fin (n / w), zs.map fun (q : ℚ) => (q : ℝ), v, cd⟩ := by
  have hnum := ho.numbersOf hw hr hN hi
  obtain ⟨r', k', hr', hk', hg⟩ := hanserGenKr_of hnum
  unfold genCoords
  simp only [hg, bind, Except.bind]
  exact hanserNum_of hnum hr' hk'

open Classical in
/-- What is left to do after the loop. -/
theorem report_of_loop (unwrap : Arr ℝ → Arr ℝ) (hun : ∀ a, (unwrap a).shape = a.shape) (data : Arr ℝ) (D : PyDict) {o : HObj}
    {w n i r : ℚ} {Z N : ℕ} {zs zs' : List ℚ} (ho : hanserOfDict D = .ok o) (hopt : Optics o.params w n i r N zs .none .none)
    (hw : w ≠ 0) (hr : r ≠ 0) (hN : 2 ≤ N) (M : ℕ) (pt mt : ℝ) (b : Bool) {s : PrState} {m : ℕ} {S : Problem}
    (hS : S = prProblem data w n i r Z N zs')
    (l1 : ∀ h : HanserNum, h = ⟨N, r, ((i / w : ℚ) : ℝ), .fin (n / w), zs.map fun (q : ℚ) => (q : ℝ), .none, .none⟩ →
      prLoop ⟨data, data.map psqrt, h.idealPupil.map Complex.re, h, pt, mt, b⟩ M ⟨o, h.idealPupil, none, [], [], []⟩ = .ok s)
    (hmp : s.model.params = o.params) (hm : 1 ≤ m) (hm2 : m ≤ M)
    (c1 : s.mse = (List.range m).map (S.errorAt b)) (c2 : s.mseDiff = (List.range m).map (S.errorChange b))
    (c3 : s.pupilDiff = (List.range m).map (S.pupilChange b))
    (c4 : S.Stops b pt mt (m - 1) → HoldsPupil S s.pupil (S.iterate b (m - 1)))
    (c5 : ¬ S.Stops b pt mt (m - 1) → HoldsPupil S s.pupil (S.iterate b m))
    (l5 : ∀ j, j + 1 < m → ¬ S.Stops b pt mt j) (l6 : m < M → S.Stops b pt mt (m - 1)) :
    ∃ res F, prRun unwrap data D M pt mt b = .ok res ∧ res.model = s.model ∧ Report S b pt mt M unwrap res m F := by
  subst hS
  have hgc := optics_genCoords hopt hw hr (by omega) (by simp)
  set h : HanserNum := ⟨N, r, ((i / w : ℚ) : ℝ), .fin (n / w), zs.map fun (q : ℚ) => (q : ℝ), .none, .none⟩ with hh
  have l1 := l1 h rfl
  have hmask : (fftshift none (h.idealPupil.map Complex.re)).shape = [N, N] := by rw [fftshift_shape]; rfl
  have hF : HoldsPupil (prProblem data w n i r Z N zs') s.pupil
      (if (prProblem data w n i r Z N zs').Stops b pt mt (m - 1) then (prProblem data w n i r Z N zs').iterate b (m - 1)
        else (prProblem data w n i r Z N zs').iterate b m) := by
    by_cases hst : (prProblem data w n i r Z N zs').Stops b pt mt (m - 1)
    · rw [if_pos hst]; exact c4 hst
    · rw [if_neg hst]; exact c5 hst
  have hps : s.pupil.shape = [N, N] := hF.1
  obtain ⟨ph, p1, p2, p3⟩ := zipB_same (fun a b : ℝ => a * b) (unwrap (fftshift none (s.pupil.map Complex.arg)))
    (fftshift none (h.idealPupil.map Complex.re)) (by rw [hmask, hun, fftshift_shape]; exact hps.symm)
  obtain ⟨mg, m1, m2, m3⟩ := zipB_same (fun a b : ℝ => a * b) (fftshift none (s.pupil.map fun v => ‖v‖))
    (fftshift none (h.idealPupil.map Complex.re)) (by rw [hmask, fftshift_shape]; exact hps.symm)
  have hps' : (unwrap (fftshift none (s.pupil.map Complex.arg))).shape = [N, N] := by rw [hun, fftshift_shape]; exact hps
  have hpm' : (fftshift none (s.pupil.map fun v => ‖v‖)).shape = [N, N] := by rw [fftshift_shape]; exact hps
  rw [hps'] at p2 p3
  rw [hpm'] at m2 m3
  have hmg : ∀ y < N, ∀ x < N, (fftshift none (h.idealPupil.map Complex.re)).get [y, x] =
      if (prProblem data w n i r Z N zs').Inside (sampleAt N y) (sampleAt N x) then 1 else 0 := by
    intro y hy x hx
    rw [fftshift2_get _ N rfl y x hy hx]
    simp only [Arr.map, idealPupil_eq h (l := n / w) rfl, aperture]
    have e : (prProblem data w n i r Z N zs').Inside (sampleAt N y) (sampleAt N x) ↔
      radial h.size h.res (sampleAt N y) (sampleAt N x) < ((n / w : ℚ) : ℝ) := Iff.rfl
    by_cases hin : (prProblem data w n i r Z N zs').Inside (sampleAt N y) (sampleAt N x)
    · rw [if_pos hin, if_pos (e.mp hin)]; simp
    · rw [if_neg hin, if_neg (fun h => hin (e.mpr h))]; simp
  obtain ⟨u1, a1, b1⟩ := hopt.wl
  obtain ⟨u2, a2, b2⟩ := hopt.na
  have hrun : ∃ res, prRun unwrap data D M pt mt b = .ok res ∧ res.mag = mg ∧ res.phase = ph ∧
      res.mse = s.mse ∧ res.pupilDiff = s.pupilDiff ∧ res.mseDiff = s.mseDiff ∧ res.model = s.model ∧
      res.r = fftshift none ⟨[h.size, h.size], fun i => h.kr (i.getD 0 0) (i.getD 1 0)⟩ ∧
      res.theta = fftshift none ⟨[h.size, h.size], fun i => h.phi (i.getD 0 0) (i.getD 1 0)⟩ := by
    refine ⟨⟨mg, ph, s.mse, s.pupilDiff, s.mseDiff, s.model,
      fftshift none ⟨[h.size, h.size], fun i => h.kr (i.getD 0 0) (i.getD 1 0)⟩,
      fftshift none ⟨[h.size, h.size], fun i => h.phi (i.getD 0 0) (i.getD 1 0)⟩, u2, u1⟩, ?_, rfl, rfl, rfl, rfl, rfl, rfl, rfl, rfl⟩
    unfold prRun
    simp only [ho, bind, Except.bind, hgc]
    simp only [l1, p1, m1, PRResult.new, hmp, hgc, a1, a2, attr, bind, Except.bind, pure, Except.pure]
  obtain ⟨res, hrun, r1, r2, r3, r4, r5, r6, r7, r8⟩ := hrun
  refine ⟨res, _, hrun, r6, ⟨hm, hm2, ?_, ?_, ?_, l5, l6, rfl, ?_, ?_, ?_, ⟨fftshift none (s.pupil.map Complex.arg), ?_, ?_, ?_⟩, ?_, ?_, ?_⟩⟩
  · rw [r3, c1]
  · rw [r5, c2]
  · rw [r4, c3]
  · rw [r1, m2]; rfl
  · intro y hy x hx
    rw [r1, m3 _ (inShape2.mpr ⟨hy, hx⟩), hmg y hy x hx, fftshift2_get (s.pupil.map fun v => ‖v‖) N hps y x hy hx]
    congr 1
    exact congrArg norm (hF.2 _ (sampleAt_lt (show 0 < N by omega)) _ (sampleAt_lt (show 0 < N by omega)))
  · rw [r2, p2]; rfl
  · rw [fftshift_shape]; exact hps
  · intro y hy x hx
    rw [fftshift2_get (s.pupil.map Complex.arg) N hps y x hy hx]
    exact congrArg Complex.arg (hF.2 _ (sampleAt_lt (show 0 < N by omega)) _ (sampleAt_lt (show 0 < N by omega)))
  · intro y hy x hx
    rw [r2, p3 _ (inShape2.mpr ⟨hy, hx⟩), hmg y hy x hx]; rfl
  · rw [r7, fftshift_shape]; rfl
  · intro y hy x hx
    rw [r7, fftshift2_get _ N rfl y x hy hx]
    exact kr_eq h _ _
  · rw [r8, fftshift_shape]; rfl

open Classical in
/-- From the dictionary as it is read on. -/
theorem run_form (unwrap : Arr ℝ → Arr ℝ) (hun : ∀ a, (unwrap a).shape = a.shape) (data : Arr ℝ) (D : PyDict)
    {o : HObj} {w n i r : ℚ} {Z N : ℕ} {zs : List ℚ} (ho : hanserOfDict D = .ok o) (hopt : Optics o.params w n i r N zs .none .none) (hw : w ≠ 0)
    (hr : r ≠ 0) (hlen : zs.length = Z) (hdata : data.shape = [Z, N, N]) (hN : 2 ≤ N)
    (hZ : 0 < Z) (M : ℕ) (hM : 0 < M) (pt mt : ℝ) (b : Bool) :
    ∃ res m F, prRun unwrap data D M pt mt b = .ok res ∧ Run (prProblem data w n i r Z N zs) o.params b pt mt M unwrap res m F := by
  have hnum := hopt.numbersOf hw hr (by omega) (by simp)
  set h : HanserNum := ⟨N, r, ((i / w : ℚ) : ℝ), .fin (n / w), zs.map fun (q : ℚ) => (q : ℝ), .none, .none⟩ with hh
  let c : PrConf := ⟨data, data.map psqrt, h.idealPupil.map Complex.re, h, pt, mt, b⟩
  have hzl : h.z.length = Z := by simp [hh, hlen]
  have hc : ConfOk c (n / w) := ⟨rfl, rfl, by show data.shape = [h.z.length, N, N]; rw [hzl, hdata], rfl, hN, by show 0 < h.z.length; omega⟩
  have hs : Scalar o.params c.h := ⟨hnum, rfl, rfl⟩
  have hS : c.problem (n / w) = prProblem data w n i r Z N zs := by
    have hz : ∀ z, (zs.map fun (q : ℚ) => (q : ℝ)).getD z 0 = ((zs.getD z 0 : ℚ) : ℝ) := by
      intro z
      rw [List.getD_eq_getElem?_getD, List.getD_eq_getElem?_getD, List.getElem?_map]
      cases zs[z]? <;> simp
    simp only [PrConf.problem, problemOf, prProblem, c, hzl]
    simp only [hh, hz]
  have inv0 : Inv c (n / w) o.params 0 ⟨o, h.idealPupil, none, [], [], []⟩ := by
    refine ⟨rfl, ⟨rfl, ?_⟩, Or.inl ⟨rfl, rfl⟩, rfl, rfl, rfl⟩
    intro a _ b' _
    exact idealPupil_eq h rfl a b'
  obtain ⟨s, m, l1, l2, l3, l4, l5, l6⟩ := prLoop_form hc hs M 0 _ inv0 (by omega)
  have hmp : s.model.params = o.params := by
    obtain ⟨a, ha, -⟩ := l4.model
    rw [ha]
  rw [Nat.zero_add] at l3 l6
  obtain ⟨res, F, e1, e2, e3⟩ := report_of_loop unwrap hun data D (Z := Z) (zs' := zs) (S := c.problem (n / w)) (m := m) ho hopt hw hr hN M pt mt b hS
    (fun h' e => by rw [e]; exact l1) hmp (by omega) l3 l4.mse l4.mseDiff l4.pupilDiff l4.stopped l4.exhausted
    (fun j hj => l5 j (Nat.zero_le _) hj) l6
  rw [hS] at e3
  exact ⟨res, m, F, e1, ⟨e3, by rw [e2, ← hS]; exact l4.model⟩⟩

theorem retrieve_form (unwrap : Arr ℝ → Arr ℝ) (hun : ∀ a, (unwrap a).shape = a.shape) (data : Arr ℝ) (d : PyDict)
    {w n i r : ℚ} {Z N : ℕ} {zs : List ℚ} (hset : Setup d w n i r Z zs) (hdata : data.shape = [Z, N, N]) (hN : 2 ≤ N)
    (hZ : 0 < Z) (M : ℤ) (hM : 0 < M) (pt mt : ℝ) (b : Bool) :
    ∃ res m F p, retrievePhase unwrap data M pt mt b d = (.ok res, d.update (prOverride Z N)) ∧
      Run (prProblem data w n i r Z N zs) p b pt mt M.toNat unwrap res m F ∧ Optics p w n i r N zs .none .none ∧
      hanserOfDict (d.update (prOverride Z N)) = .ok { params := p } := by
  obtain ⟨o, ho, ho2, hopt, -⟩ := setup_model (N := N) hset
  have hchk : prChecks data M = .ok (Z, N) := by simp [prChecks, hM, hdata]
  obtain ⟨res, m, F, e1, e2⟩ := run_form unwrap hun data _ ho hopt hset.wl.2.ne' hset.res.2.2 hset.planes.1 hdata hN hZ M.toNat (by omega) pt mt b
  refine ⟨res, m, F, o.params, ?_, e2, hopt, ?_⟩
  · simp only [retrievePhase, PyM.bind_apply, PyM.lift_apply, hchk, PyM.modify_apply, PyM.get_apply, e1]
  · rw [← ho2]; exact ho

end PyOTF
