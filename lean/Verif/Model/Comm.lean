import Verif.Model.Py

/-!
# Model of the communicator wrapper `QTMComm`: `with` blocks, null and serial communicators
-/

namespace Verif.Mpi

/-- The state of a `QTMComm` instance that decides its behaviour as a context manager
(`__init__`, /repo/src/qtm/mpi/comm.py:72-144). `id` names the MPI communicator it wraps, `mpi` is
`mpi4py_installed`, `syncParent = some p` means `sync_with_parent` is true and `parent_comm` wraps
`p` (comm.py:141-144 forces `False` without a parent). -/
structure Comm where
  id : ℕ
  isNull : Bool
  mpi : Bool
  syncParent : Option ℕ
  deriving DecidableEq, Repr

/-- Observable events of one process: a barrier on a communicator, or any other action of a body. -/
inductive Event
  | barrier (comm : ℕ)
  | act (tag : ℕ)
  deriving DecidableEq, Repr

/-- How a block of Python code ends: normally, with a pending `SkipWithBlock`
(comm.py:167-171), with another `Exception`, or with a `BaseException` that is not an `Exception`
(`KeyboardInterrupt`, `SystemExit`). -/
inductive Outcome
  | normal
  | skipped
  | error
  | baseError
  deriving DecidableEq, Repr

/-- Programs that use communicators as context managers. `skip` is a call of `skip_with_block()` on
*any* communicator: `SkipWithBlock` is one class shared by all instances (comm.py:167). -/
inductive Prog
  | nop
  | act (tag : ℕ)
  | skip
  | fail
  | failBase
  | seq (p q : Prog)
  | withBlock (c : Comm) (body : Prog)
  deriving DecidableEq, Repr

/-- `Barrier` — /repo/src/qtm/mpi/comm.py:195-197: a no-op without mpi4py. -/
def barrier (c : Comm) : List Event := if c.mpi then [.barrier c.id] else []

/-- `__enter__` — /repo/src/qtm/mpi/comm.py:160-165. -/
def enter (c : Comm) : List Event := if c.isNull then [] else barrier c

/-- The synchronisation part of `__exit__` — /repo/src/qtm/mpi/comm.py:184-189. -/
def exitSync (c : Comm) : List Event :=
  (if c.isNull then [] else barrier c) ++
  (match c.syncParent with
   | some p => if c.mpi then [.barrier p] else []
   | none => [])

/-- `__exit__` — /repo/src/qtm/mpi/comm.py:173-193, for each way the body can end: an `Exception`
other than `SkipWithBlock` is re-raised (wrapped) before any synchronisation; otherwise the barriers
are issued, and the exception is suppressed iff it is `SkipWithBlock`. -/
def exit (c : Comm) : Outcome → List Event × Outcome
  | .error => ([], .error)
  | .skipped => (exitSync c, .normal)
  | .normal => (exitSync c, .normal)
  | .baseError => (exitSync c, .baseError)

/-- Execution of a program by one process: the events it produces and how it ends. The `with`
statement calls `__enter__`, the body, then `__exit__` with the pending exception. -/
def run : Prog → List Event × Outcome
  | .nop => ([], .normal)
  | .act t => ([.act t], .normal)
  | .skip => ([], .skipped)
  | .fail => ([], .error)
  | .failBase => ([], .baseError)
  | .seq p q =>
    match run p with
    | (t, .normal) => (t ++ (run q).1, (run q).2)
    | r => r
  | .withBlock c body =>
    (enter c ++ (run body).1 ++ (exit c (run body).2).1, (exit c (run body).2).2)

/-! ## Null and serial communicators -/

/-- The methods of `QTMComm` (comm.py:160-353) reachable by attribute access. -/
inductive Method
  | barrierU | barrierL | incl | root | split | bcast | scatter | allgather | allreduce
  | bcastBuf | scatterBuf | scattervBuf | gatherBuf | gathervBuf | allgatherBuf | allgathervBuf
  | allreduceBuf | skipWithBlock
  deriving DecidableEq, Repr

/-- `__getattribute__` — /repo/src/qtm/mpi/comm.py:146-158: looking up a method of a null communicator
raises `AttributeError`, except `skip_with_block`. -/
def lookup (isNull : Bool) (m : Method) : Except PyErr Method :=
  if m = .skipWithBlock then .ok m
  else if isNull then .error .attribute
  else .ok m

/-- A buffer argument: `IN_PLACE` or an array. -/
inductive Buf (α : Type)
  | inPlace
  | arr (data : List α)
  deriving DecidableEq, Repr

/-- A Python value handled by the lower-case (pickling) operations: a plain object or a sequence. -/
inductive Obj (α : Type)
  | one (a : α)
  | seq (l : List (Obj α))

/-- `bcast` without mpi4py — comm.py:264-268 -/
def serialBcast {α : Type} (x : Obj α) : Obj α := x

/-- `scatter` without mpi4py — comm.py:270-273: returns the send object itself. -/
def serialScatter {α : Type} (x : Obj α) : Obj α := x

/-- `allgather` without mpi4py — comm.py:275-281 -/
def serialAllgather {α : Type} (x : Obj α) : Obj α := .seq [x]

/-- `allreduce` without mpi4py — comm.py:283-287 -/
def serialAllreduce {α : Type} (x : Obj α) : Obj α := x

/-- Buffer operations. -/
inductive BufOp | bcast | scatter | scatterv | gather | gatherv | allgather | allgatherv | allreduce
  deriving DecidableEq, Repr

/-- The receive buffer after a buffer operation without mpi4py — comm.py:289-353.
`Bcast` leaves its buffer alone; `Scatter(v)`/`Gather(v)`/`Allgather(v)` copy the send buffer unless
`IN_PLACE` is passed (as the receive buffer for scatters, as the send buffer for gathers; the model
has the two buffers of the same length — numpy raises otherwise); `Allreduce` (comm.py:348-353) has no
serial branch, so it never writes. -/
def serialBufOp {α : Type} (op : BufOp) (send recv : Buf α) : Buf α :=
  match op with
  | .bcast | .allreduce => recv
  | .scatter | .scatterv | .gather | .gatherv | .allgather | .allgatherv =>
    match send, recv with
    | .arr s, .arr _ => .arr s
    | _, r => r

/-- `Incl` — /repo/src/qtm/mpi/comm.py:203-230: on a one-process communicator the ranks must be
exactly `[0]` and the communicator itself is returned (`none`); otherwise the subgroup is created with
the given ranks. -/
def incl (size : ℕ) (ranks : List ℕ) : Except PyErr (Option (List ℕ)) :=
  if size = 1 then
    if ranks ≠ [0] then .error .value else .ok none
  else .ok (some ranks)

/-- Is the result of `Split` a null communicator? — /repo/src/qtm/mpi/comm.py:259-262: without mpi4py
it always is. -/
def splitIsNull (mpi : Bool) : Bool := !mpi

end Verif.Mpi
