import Verif.Model.Arr

/-!
# Python computations with visible side effects

A state transformer in which an exception does not undo the assignments made before it was raised.
-/

namespace Verif

/-- A computation on a mutable state `σ`: a value or an exception, and the state afterwards in both cases. -/
def PyM (σ α : Type) : Type := σ → Py α × σ

namespace PyM

variable {σ α β : Type}

instance : Monad (PyM σ) where
  pure a := fun s => (.ok a, s)
  bind x f := fun s =>
    match x s with
    | (.ok a, s') => f a s'
    | (.error e, s') => (.error e, s')

/-- Run on a state. -/
def run (x : PyM σ α) (s : σ) : Py α × σ := x s

/-- Read the state. -/
def get : PyM σ σ := fun s => (.ok s, s)

/-- Change the state. -/
def modify (f : σ → σ) : PyM σ Unit := fun s => (.ok (), f s)

/-- `raise e`. -/
def raise (e : Err) : PyM σ α := fun s => (.error e, s)

/-- A computation without side effects. -/
def lift (x : Py α) : PyM σ α := fun s => (x, s)

/-- `try: x  except e: handler` for one exception class. -/
def tryExcept (x : PyM σ α) (e : Err) (handler : PyM σ α) : PyM σ α := fun s =>
  match x s with
  | (.ok a, s') => (.ok a, s')
  | (.error e', s') => if e' = e then handler s' else (.error e', s')

/-- `for a in l: body(a)`. -/
def forEach : List α → (α → PyM σ Unit) → PyM σ Unit
  | [], _ => pure ()
  | a :: l, body => do body a; forEach l body

end PyM

end Verif
