import Verif.Model.NumPy

/-!
# Statements that mutate an object and may raise

`PyM σ α` is a Python statement/expression acting on an object with state `σ`: it returns a value or
raises, and in both cases leaves a (possibly changed) state behind - effects made before an exception
persist.  Nothing here models a line of `/repo`.
-/

namespace PyOTF

/-- A Python computation over mutable state. -/
def PyM (σ α : Type) : Type := σ → Py α × σ

namespace PyM

variable {σ α β : Type}

instance : Monad (PyM σ) where
  pure a := fun s => (.ok a, s)
  bind m f := fun s =>
    match m s with
    | (.ok a, s') => f a s'
    | (.error e, s') => (.error e, s')

/-- `raise`. -/
def raise (e : Err) : PyM σ α := fun s => (.error e, s)

/-- The current state. -/
def get : PyM σ σ := fun s => (.ok s, s)

/-- Mutate the state. -/
def modify (f : σ → σ) : PyM σ Unit := fun s => (.ok (), f s)

/-- A pure expression that may raise. -/
def lift (x : Py α) : PyM σ α := fun s => (x, s)

/-- `try: m  except <e>: pass`. -/
def ignore (e : Err) (m : PyM σ Unit) : PyM σ Unit := fun s =>
  match m s with
  | (.error e', s') => if e' = e then (.ok (), s') else (.error e', s')
  | r => r

@[simp] theorem pure_apply (a : α) (s : σ) : (pure a : PyM σ α) s = (.ok a, s) := rfl
theorem bind_apply (m : PyM σ α) (f : α → PyM σ β) (s : σ) : (m >>= f) s =
    match m s with
    | (.ok a, s') => f a s'
    | (.error e, s') => (.error e, s') := rfl
@[simp] theorem raise_apply (e : Err) (s : σ) : (raise e : PyM σ α) s = (.error e, s) := rfl
@[simp] theorem get_apply (s : σ) : (get : PyM σ σ) s = (.ok s, s) := rfl
@[simp] theorem modify_apply (f : σ → σ) (s : σ) : modify f s = (.ok (), f s) := rfl
@[simp] theorem lift_apply (x : Py α) (s : σ) : (lift x : PyM σ α) s = (x, s) := rfl

end PyM

end PyOTF
