import Mathlib.Data.Int.Notation
import Mathlib.Data.Nat.Notation
import Mathlib.Data.List.Basic
/-!
# Python-level vocabulary shared by the models

Nothing here models a particular line of the repository: these are the Python notions (exceptions,
slices) that the modelled functions use.
-/

namespace Verif

/-- The Python exceptions that modelled functions can raise. -/
inductive PyErr
  | assertion
  | value
  | type
  | index
  | key
  | attribute
  | notImplemented
  | zeroDivision
  | import_
  | runtime
  | linalg
  | stopIteration
  | unboundLocal
  | os
  deriving DecidableEq, Repr

/-- `l[start:stop]` for a Python list/array with `0 ≤ start`, `0 ≤ stop`
(Python clips both ends to the length, as `drop`/`take` do). -/
def pySlice {α : Type*} (l : List α) (start stop : ℕ) : List α :=
  (l.drop start).take (stop - start)

/-- `l[start::step]` for a Python list with `0 ≤ start`, `0 < step`. -/
def pyStride {α : Type*} (l : List α) (start step : ℕ) : List α :=
  ((l.zipIdx).filter fun p => start ≤ p.2 ∧ (p.2 - start) % step = 0).map Prod.fst

end Verif
