import Verif.Props.C34_C37_Params
import Verif.Model.Aberration

/-!
# C38: aberrating a copy
-/

namespace PyOTF

/-- What `apply_aberration` computes from parameters and coefficients alone. -/
noncomputable def aberratedPSFa (p : Params) (m ph : List ℝ) : Py (Arr ℂ) := do
  hanserGenPsf p (some (← aberratedPupil p m ph))

/-- Complete description of `apply_aberration` on any heap. -/
theorem applyAberration_run (heap : Heap) (i : ℕ) (o : HObj) (hi : heap[i]? = some o)
    (mcoefs pcoefs : Option (List ℝ)) :
    applyAberration i mcoefs pcoefs heap =
      match fillCoefs mcoefs pcoefs with
      | none => (.ok heap.length, heap ++ [o])
      | some (m, ph) => match aberratedPupil o.params m ph with
        | .error e => (.error e, heap ++ [o])
        | .ok P => match hanserGenPsf o.params (some P) with
          | .error e => (.error e, heap ++ [{ params := o.params }])
          | .ok a => (.ok heap.length, heap ++ [{ params := o.params, psfa := some a }]) := by
  have hnew : ∀ x : HObj, (heap ++ [x])[heap.length]? = some x := by intro x; simp
  have hset : ∀ x y : HObj, (heap ++ [x]).set heap.length y = heap ++ [y] := by intro x y; simp
  have hcopy : copyRef i heap = (.ok heap.length, heap ++ [o]) := by simp only [copyRef, hi]
  simp only [applyAberration, PyM.bind_apply, hcopy]
  rcases fillCoefs mcoefs pcoefs with _ | ⟨m, ph⟩
  · rfl
  · simp only [PyM.bind_apply, onRef, hnew, PyM.get_apply, PyM.lift_apply, hset]
    rcases aberratedPupil o.params m ph with e | P
    · rfl
    · simp only [hnew, HObj.applyPupil, PyM.bind_apply, attributeChanged, PyM.modify_apply, HObj.genPsf,
        PyM.get_apply, PyM.lift_apply]
      rcases hanserGenPsf o.params (some P) with e | a
      · simp only [hset]
      · simp only [hset, PyM.pure_apply]

/-- C38: every object that existed before - the model passed in included - is unchanged, whether the call
succeeds or raises, and a successful call returns a new object. -/
theorem C38_original_unchanged (heap : Heap) (i : ℕ) (hi : i < heap.length) (mcoefs pcoefs : Option (List ℝ)) :
    (∀ j < heap.length, (applyAberration i mcoefs pcoefs heap).2[j]? = heap[j]?) ∧
    ∀ r, (applyAberration i mcoefs pcoefs heap).1 = .ok r → heap.length ≤ r := by
  rw [applyAberration_run heap i heap[i] (by simp [hi])]
  have hk : ∀ (x : HObj), ∀ j < heap.length, (heap ++ [x])[j]? = heap[j]? := by
    intro x j hj; rw [List.getElem?_append_left hj]
  split
  · exact ⟨hk _, fun r h => by cases h; exact le_rfl⟩
  · split
    · exact ⟨hk _, fun r h => by cases h⟩
    · split
      · exact ⟨hk _, fun r h => by cases h⟩
      · exact ⟨hk _, fun r h => by cases h; exact le_rfl⟩

/-- C38: the same for `apply_named_aberration` and `apply_named_aberrations`. -/
theorem C38_named_original_unchanged (heap : Heap) (i : ℕ) (hi : i < heap.length) (name : String) (mag : ℝ)
    (abs : List (String × ℝ)) :
    (∀ j < heap.length, (applyNamedAberration i name mag heap).2[j]? = heap[j]?) ∧
    (∀ j < heap.length, (applyNamedAberrations i abs heap).2[j]? = heap[j]?) := by
  constructor
  · simp only [applyNamedAberration, PyM.bind_apply, PyM.lift_apply]
    rcases namedAberrationToPcoefs name mag with e | c
    · intro j _; rfl
    · exact (C38_original_unchanged heap i hi none (some c)).1
  · simp only [applyNamedAberrations, PyM.bind_apply, PyM.lift_apply]
    rcases namedAberrationsPcoefs abs with e | c
    · intro j _; rfl
    · exact (C38_original_unchanged heap i hi none (some c)).1

/-- C38: with at least one coefficient vector the outcome depends only on the parameters of the model: it is the
exception of, or a model with these parameters and the amplitude PSF of, the aberrated ideal pupil - a pupil
applied before, or anything cached, plays no role. -/
theorem C38_depends_on_params_only (heap : Heap) (i : ℕ) (o : HObj) (hi : heap[i]? = some o)
    (mcoefs pcoefs : Option (List ℝ)) (m ph : List ℝ) (hc : fillCoefs mcoefs pcoefs = some (m, ph)) :
    match aberratedPSFa o.params m ph with
    | .error e => (applyAberration i mcoefs pcoefs heap).1 = .error e
    | .ok a => ∃ r o', (applyAberration i mcoefs pcoefs heap).1 = .ok r ∧
        (applyAberration i mcoefs pcoefs heap).2[r]? = some o' ∧ o'.params = o.params ∧
        HObj.getPSFa o' = (.ok a, o') ∧ (HObj.getPSFi o').1 = .ok (psfiOf a) := by
  rw [applyAberration_run heap i o hi, hc]
  simp only [aberratedPSFa]
  rcases aberratedPupil o.params m ph with e | P
  · rfl
  · simp only [bind, Except.bind]
    rcases hanserGenPsf o.params (some P) with e | a
    · rfl
    · exact ⟨_, { params := o.params, psfa := some a }, rfl, by simp, rfl, rfl, rfl⟩

/-- Non-vacuity: a heap holding the demo model. -/
theorem demo_aberration_heap : ∃ (heap : Heap) (o : HObj), heap[0]? = some o ∧ HObj.new demoArgs none = .ok o ∧
    fillCoefs none (some [0, 0, 0, 1]) = some ([0, 0, 0, 0], [0, 0, 0, 1]) := by
  obtain ⟨o, ho⟩ := demoObj
  exact ⟨[o], o, rfl, ho, by simp [fillCoefs]⟩

/-- C38: coefficient vectors: a missing one counts as zeros of the same length. -/
theorem C38_missing_coefficients (c : List ℝ) :
    fillCoefs none (some c) = some (List.replicate c.length 0, c) ∧
    fillCoefs (some c) none = some (c, List.replicate c.length 0) := by
  constructor <;> simp [fillCoefs]

/-- C38: with both vectors `None` the result is a plain copy: same parameters, same applied pupil, same caches. -/
theorem C38_no_coefficients (heap : Heap) (i : ℕ) (o : HObj) (hi : heap[i]? = some o) :
    applyAberration i none none heap = (.ok heap.length, heap ++ [o]) := by
  rw [applyAberration_run heap i o hi]; rfl

/-- C38: coefficient vectors of different lengths fail an assertion. -/
theorem C38_length_mismatch (heap : Heap) (i : ℕ) (o : HObj) (hi : heap[i]? = some o) (m ph : List ℝ)
    (h : m.length ≠ ph.length) : (applyAberration i (some m) (some ph) heap).1 = .error .assertionError := by
  rw [applyAberration_run heap i o hi]
  have : aberratedPupil o.params m ph = .error .assertionError := by
    rw [aberratedPupil, if_pos h]; rfl
  simp only [fillCoefs, this]

end PyOTF
