import Verif.Model.PyVal

/-!
# C21: numeric properties

`wl`, `na`, `ni` accept `float`/`int`, `size` and `zsize` accept `int` (`otf.py:46-50`), the microscope
classes use the same property (`microscope.py`).  An object is its backing attribute and the number of
times `_attribute_changed` ran; `assign` is the assignment statement seen from outside.
-/

namespace PyOTF

/-- A numeric attribute seen from outside: its value and how often the owner was told to invalidate. -/
structure NumAttr where
  value : Option PyVal
  invalidations : ℕ

/-- `obj.attr = v` (an exception leaves the object as it is). -/
def NumAttr.assign (isVartype : PyVal → Bool) (a : NumAttr) (v : PyVal) : NumAttr × Py Unit :=
  match numericSet isVartype a.value v with
  | .error e => (a, .error e)
  | .ok none => (a, .ok ())
  | .ok (some w) => (⟨some w, a.invalidations + 1⟩, .ok ())

/-- The allowed types: subsets of the numbers. -/
def NumericType (t : PyVal → Bool) : Prop := ∀ v, t v = true → v.num?.isSome = true

theorem numericType_int : NumericType PyVal.isInt := by rintro (_ | _ | _ | _ | _ | _) <;> simp [PyVal.isInt, PyVal.num?]
theorem numericType_float : NumericType PyVal.isFloatOrInt := by
  rintro (_ | _ | _ | _ | _ | _) <;> simp [PyVal.isFloatOrInt, PyVal.num?]

/-- The number denoted by a value is negative (`-inf` included, NaN not). -/
def IsNegative (v : PyVal) : Prop := v.num? = some (.inf true) ∨ ∃ q, v.num? = some (.fin q) ∧ q < 0

/-- Two values denote the same number (NaN equals nothing). -/
def SameNumber (v w : PyVal) : Prop :=
  (∃ q, v.num? = some (.fin q) ∧ w.num? = some (.fin q)) ∨
  (∃ n, v.num? = some (.inf n) ∧ w.num? = some (.inf n))

theorem ltZero_iff {v : PyVal} (h : v.num?.isSome = true) :
    (v.ltZero = .ok true ∧ IsNegative v) ∨ (v.ltZero = .ok false ∧ ¬ IsNegative v) := by
  obtain ⟨x, hx⟩ := Option.isSome_iff_exists.mp h
  simp only [PyVal.ltZero, IsNegative, hx]
  rcases x with q | _ | n
  · by_cases hq : q < 0
    · left; simp [PyFloat.lt, hq]
    · right; simp [PyFloat.lt, hq]
  · right; simp [PyFloat.lt]
  · cases n <;> simp [PyFloat.lt]

theorem ne_false_iff {v w : PyVal} (hw : w.num?.isSome = true) :
    v.ne w = false ↔ SameNumber v w := by
  obtain ⟨y, hy⟩ := Option.isSome_iff_exists.mp hw
  cases hx : v.num? with
  | none =>
    simp only [PyVal.ne, hx, SameNumber]
    have : v ≠ w := by rintro rfl; rw [hx] at hy; cases hy
    simp [this]
  | some x =>
    simp only [PyVal.ne, hx, hy, SameNumber]
    rcases x with q | _ | n <;> rcases y with r | _ | m <;> simp [PyFloat.eq] <;> tauto

/-- C21: complete description of an assignment, for every previous value, every Python value assigned
and every admissible set of types.  `TypeError` for a wrong type, `ValueError` for a negative number
(both leave the attribute and the caches alone); a value equal to the stored one changes nothing;
everything else — zero and NaN included — is stored and invalidates exactly once. -/
theorem C21_numeric_property (t : PyVal → Bool) (ht : NumericType t) (a : NumAttr) (v : PyVal) :
    (t v = false → a.assign t v = (a, .error .typeError)) ∧
    (t v = true → IsNegative v → a.assign t v = (a, .error .valueError)) ∧
    (t v = true → ¬ IsNegative v → (∃ w, a.value = some w ∧ SameNumber w v) → a.assign t v = (a, .ok ())) ∧
    (t v = true → ¬ IsNegative v → (¬ ∃ w, a.value = some w ∧ SameNumber w v) →
      a.assign t v = (⟨some v, a.invalidations + 1⟩, .ok ())) := by
  refine ⟨fun h => ?_, fun h hn => ?_, fun h hn he => ?_, fun h hn he => ?_⟩
  · simp [NumAttr.assign, numericSet, h, bind, Except.bind, throw, throwThe, MonadExceptOf.throw]
  · rcases ltZero_iff (ht v h) with ⟨h1, _⟩ | ⟨_, h2⟩
    · simp [NumAttr.assign, numericSet, h, h1, bind, Except.bind, throw, throwThe, MonadExceptOf.throw]
    · exact absurd hn h2
  · rcases ltZero_iff (ht v h) with ⟨_, h2⟩ | ⟨h1, _⟩
    · exact absurd h2 hn
    · obtain ⟨w, hw, hs⟩ := he
      have := (ne_false_iff (ht v h)).mpr hs
      simp [NumAttr.assign, numericSet, h, h1, bind, Except.bind, hw, this, pure, Except.pure]
  · rcases ltZero_iff (ht v h) with ⟨_, h2⟩ | ⟨h1, _⟩
    · exact absurd h2 hn
    · have hne : (a.value.getD .none).ne v = true := by
        by_contra hc
        have hs := (ne_false_iff (ht v h)).mp (by simpa using hc)
        cases hv : a.value with
        | none => rw [hv] at hs; rcases hs with ⟨q, hq, _⟩ | ⟨q, hq, _⟩ <;> simp [PyVal.num?] at hq
        | some w => rw [hv] at hs; exact he ⟨w, hv, hs⟩
      simp [NumAttr.assign, numericSet, h, h1, bind, Except.bind, hne, pure, Except.pure]

/-- C21: zero and NaN are accepted although the message says "must be larger than 0". -/
theorem C21_zero_and_nan_accepted (t : PyVal → Bool) (ht : NumericType t) (a : NumAttr) :
    (t (.int 0) = true → (a.assign t (.int 0)).2 = .ok ()) ∧
    (t (.float .nan) = true → a.assign t (.float .nan) = (⟨some (.float .nan), a.invalidations + 1⟩, .ok ())) := by
  constructor
  · intro h
    have hn : ¬ IsNegative (.int 0) := by simp [IsNegative, PyVal.num?]
    by_cases he : ∃ w, a.value = some w ∧ SameNumber w (.int 0)
    · rw [(C21_numeric_property t ht a _).2.2.1 h hn he]
    · rw [(C21_numeric_property t ht a _).2.2.2 h hn he]
  · intro h
    refine (C21_numeric_property t ht a _).2.2.2 h (by simp [IsNegative, PyVal.num?]) ?_
    rintro ⟨w, _, ⟨q, _, h⟩ | ⟨q, _, h⟩⟩ <;> simp [PyVal.num?] at h

/-- Non-vacuity of C21, and Python's type quirks: `True` is an `int`, `1.0` equals the stored `1`. -/
example : (NumAttr.assign PyVal.isInt ⟨some (.int 3), 0⟩ (.bool true)) = (⟨some (.bool true), 1⟩, .ok ()) ∧
    (NumAttr.assign PyVal.isInt ⟨some (.int 3), 0⟩ (.float (.fin 4))) = (⟨some (.int 3), 0⟩, .error .typeError) ∧
    (NumAttr.assign PyVal.isFloatOrInt ⟨some (.int 1), 0⟩ (.float (.fin 1))) = (⟨some (.int 1), 0⟩, .ok ()) ∧
    (NumAttr.assign PyVal.isFloatOrInt ⟨some (.int 1), 0⟩ (.int (-2))) = (⟨some (.int 1), 0⟩, .error .valueError) := by
  refine ⟨rfl, rfl, rfl, rfl⟩

end PyOTF
