import Verif.Model.Containers

/-!
# Model of arithmetic with containers (/repo/src/qtm/containers/buffer.py:273-341, /repo/src/qtm/mpi/containers.py:49-89)

What numpy does with the result of `__array_ufunc__` (dispatch, broadcasting, `out`) is part of the model; casting between dtypes is not:
all values are of one type. Ufuncs have one result.
-/

namespace Verif.Ufunc

open Verif.Containers (Arr isBuffer reduceAx fold1 val)

variable {α : Type*}

/-- A container class: `get_FieldG(gspc)`, `get_DistFieldR(gspc)`, … are cached, one class per space and kind — field.py:121-149,
mpi/containers.py:143-210; none is a subclass of another. `basis` is `basis_size`. -/
structure Cls where
  id : ℕ
  basis : ℕ
  deriving DecidableEq

/-- An operand: a `numbers.Number`, a numpy array, a container, or any other object without `__array_ufunc__` (a list, a string, `None`, a numpy
boolean). -/
inductive Opd (α : Type*)
  | num (x : α)
  | arr (a : Arr α)
  | buf (c : Cls) (a : Arr α)
  | other

/-- What a ufunc call returns; a scalar is an array without axes. -/
inductive Out (α : Type*)
  | buf (c : Cls) (a : Arr α)
  | arr (a : Arr α)
  | notImplemented

/-! ## numpy: broadcasting -/

/-- numpy's broadcasting of two shapes, last axis first. -/
def bcast2 : List ℕ → List ℕ → Except PyErr (List ℕ)
  | [], t => .ok t
  | s, [] => .ok s
  | a :: s, b :: t =>
    if a = b ∨ b = 1 then (bcast2 s t).map (a :: ·)
    else if a = 1 then (bcast2 s t).map (b :: ·)
    else .error .value

/-- Broadcasting of several shapes, last axis first. -/
def bcastRev : List ℕ → List (List ℕ) → Except PyErr (List ℕ)
  | u, [] => .ok u
  | u, s :: l => (bcast2 u s).bind fun u' => bcastRev u' l

/-- `np.broadcast_shapes`: `ValueError` if the shapes do not fit. -/
def bcast (shapes : List (List ℕ)) : Except PyErr (List ℕ) :=
  (bcastRev [] (shapes.map List.reverse)).map List.reverse

/-- The element of an operand used for the element `idx` of the result. -/
def bsel (shape idx : List ℕ) : List ℕ :=
  List.zipWith (fun n i => if n = 1 then 0 else i) shape (idx.drop (idx.length - shape.length))

/-- `ufunc(*arrays)` of a scalar ufunc without `out`. -/
def call (op : List α → α) (l : List (Arr α)) : Except PyErr (Arr α) :=
  (bcast (l.map Arr.shape)).map fun u => { shape := u, get := fun i => op (l.map fun a => a.get (bsel a.shape i)) }

/-- `ufunc(*arrays, out=o)`: the shapes of operands and `out` must broadcast to the shape of `out`; the new contents of `out`. numpy reads
overlapping operands before it writes. -/
def callOut (op : List α → α) (l : List (Arr α)) (o : Arr α) : Except PyErr (Arr α) :=
  (bcast (l.map Arr.shape ++ [o.shape])).bind fun u =>
    if u = o.shape then .ok { shape := u, get := fun i => op (l.map fun a => a.get (bsel a.shape i)) } else .error .value

/-! ## `BufferType.__array_ufunc__` -/

/-- Casting of one operand — buffer.py:291-298: numbers and arrays as they are, containers of this very class by their data; anything else makes
`__array_ufunc__` return `NotImplemented`. -/
def cast1 (c : Cls) : Opd α → Option (Arr α)
  | .num x => some { shape := [], get := fun _ => x }
  | .arr a => some a
  | .buf c' a => if c' = c then some a else none
  | .other => none

/-- All operands — buffer.py:290-298. -/
def castAll (c : Cls) (l : List (Opd α)) : Option (List (Arr α)) := l.mapM (cast1 c)

/-- Wrapping of a result — buffer.py:336-339. -/
def wrap (c : Cls) (r : Arr α) : Out α := if isBuffer c.basis r.shape then .buf c r else .arr r

/-- `BufferType.__array_ufunc__` for `ufunc(*inputs)` with a scalar ufunc — buffer.py:273-341. -/
def arrayUfunc (c : Cls) (op : List α → α) (l : List (Opd α)) : Except PyErr (Out α) :=
  match castAll c l with
  | none => .ok .notImplemented
  | some as => (call op as).map (wrap c)

/-- The same with `out=o` — buffer.py:300-312, 325-326: `out` itself is returned, with its new contents. A `Number` given as `out` is refused
by numpy, `TypeError`. -/
def arrayUfuncOut (c : Cls) (op : List α → α) (l : List (Opd α)) (o : Opd α) : Except PyErr (Out α) :=
  match castAll c l, o with
  | none, _ => .ok .notImplemented
  | some as, .arr b => (callOut op as b).map .arr
  | some as, .buf c' b => if c' = c then (callOut op as b).map (.buf c') else .ok .notImplemented
  | some _, .num _ => .error .type
  | some _, .other => .ok .notImplemented

/-! ## numpy: dispatch -/

/-- The classes with `__array_ufunc__` among the operands, in order. -/
def overrides : List (Opd α) → List Cls
  | [] => []
  | .buf c _ :: l => c :: overrides l
  | _ :: l => overrides l

/-- numpy calls the overrides in order until one does not return `NotImplemented`; `TypeError` if all do. (It calls each class once; calling it
again would return `NotImplemented` again.) -/
def dispatch (f : Cls → Except PyErr (Out α)) : List Cls → Except PyErr (Out α)
  | [] => .error .type
  | c :: l =>
    match f c with
    | .ok .notImplemented => dispatch f l
    | r => r

/-- `ufunc(*inputs)` with at least one container — buffer.py:273-341. -/
def ufunc (op : List α → α) (l : List (Opd α)) : Except PyErr (Out α) :=
  dispatch (fun c => arrayUfunc c op l) (overrides l)

/-- `ufunc(*inputs, out=o)`, also `a += b` (`NDArrayOperatorsMixin.__iadd__` is `np.add(a, b, out=(a,))`). -/
def ufuncOut (op : List α → α) (l : List (Opd α)) (o : Opd α) : Except PyErr (Out α) :=
  dispatch (fun c => arrayUfuncOut c op l o) (overrides (l ++ [o]))

/-! ## `DistBufferType.__array_ufunc__` -/

/-- What one process does next — mpi/containers.py:62-89: return, raise, or call `Allreduce` with its result. `NotImplemented` is not a container,
so the method goes on and fails with `AttributeError` at `out.shape` (81). -/
inductive Local (α : Type*)
  | done (r : Except PyErr (Out α))
  | allreduce (a : Arr α)

/-- mpi/containers.py:62-66, 78-86. -/
def afterwards : Except PyErr (Out α) → Local α
  | .error e => .done (.error e)
  | .ok (.buf c a) => .done (.ok (.buf c a))
  | .ok .notImplemented => .done (.error .attribute)
  | .ok (.arr a) => .allreduce a

/-- The process' part up to the collective: the override of the first container decides, since it never returns `NotImplemented`. -/
def distLocal (op : List α → α) (l : List (Opd α)) (o : Option (Opd α)) : Local α :=
  match o with
  | none =>
    match overrides l with
    | [] => .done (.error .type)
    | c :: _ => afterwards (arrayUfunc c op l)
  | some b =>
    match overrides (l ++ [b]) with
    | [] => .done (.error .type)
    | c :: _ => afterwards (arrayUfuncOut c op l b)

/-- Does the process call `Allreduce`? -/
def Local.waits : Local α → Bool
  | .done _ => false
  | .allreduce _ => true

/-- The array given to `Allreduce`. -/
def Local.buffer [Inhabited α] : Local α → Arr α
  | .done _ => { shape := [], get := fun _ => default }
  | .allreduce a => a

/-- The outcome without the collective. -/
def Local.result : Local α → Except PyErr (Out α)
  | .done r => r
  | .allreduce a => .ok (.arr a)

/-- `ufunc(*inputs, out=…)` on all `P` processes — mpi/containers.py:62-89. `mop` is the MPI operation (of the ufunc, 52-61, 69-76), combined in
rank order, in place. If only some processes call the collective they wait for ever: `none`. -/
def distUfunc [Inhabited α] (mop : α → α → α) (op : List α → α) (P : ℕ) (l : ℕ → List (Opd α)) (o : ℕ → Option (Opd α)) :
    Option (ℕ → Except PyErr (Out α)) :=
  let loc := fun p => distLocal op (l p) (o p)
  if (List.range P).all fun p => !(loc p).waits then some fun p => (loc p).result
  else if (List.range P).all fun p => (loc p).waits then
    some fun p => .ok (.arr
      { shape := (loc p).buffer.shape
        get := fun i => val (fold1 mop ((List.range P).map fun q => (loc q).buffer.get i)) })
  else none

end Verif.Ufunc
