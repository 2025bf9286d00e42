import Mathlib.Tactic.Ring
import Mathlib.Data.List.Count
import Verif.Model.Comm

/-!
# Properties C08–C09: communicator blocks, null and serial communicators
-/

namespace Verif.Mpi

/-! ## C08 -/

/-- `skip_with_block()` is only called inside a `with` block (at any depth). -/
def SkipGuarded : Prog → Prop
  | .skip => False
  | .seq p q => SkipGuarded p ∧ SkipGuarded q
  | .withBlock _ _ => True
  | _ => True

/-- **C08 (skips stay inside).** Whatever the nesting, a skip request made inside a `with comm:` block
never escapes the block: a program that only skips inside blocks never ends with a pending skip. -/
theorem C08_skip_never_escapes (p : Prog) (h : SkipGuarded p) : (run p).2 ≠ .skipped := by
  induction p with
  | nop => simp [run]
  | act t => simp [run]
  | skip => exact h.elim
  | fail => simp [run]
  | failBase => simp [run]
  | seq p q ihp ihq =>
    have h1 := ihp h.1
    have h2 := ihq h.2
    unfold run
    split
    · exact h2
    · exact h1
  | withBlock c body _ =>
    simp only [run]
    cases (run body).2 <;> simp [exit]

/-- **C08 (errors propagate).** A `with` block ends with an error exactly when its body does — an
`Exception` or a `BaseException` is never swallowed and never invented; otherwise it ends normally. -/
theorem C08_errors_propagate (c : Comm) (body : Prog) :
    ((run (.withBlock c body)).2 = .error ↔ (run body).2 = .error) ∧
    ((run (.withBlock c body)).2 = .baseError ↔ (run body).2 = .baseError) ∧
    ((run (.withBlock c body)).2 = .normal ↔ (run body).2 = .normal ∨ (run body).2 = .skipped) := by
  simp only [run]
  cases (run body).2 <;> simp [exit]

/-- An error anywhere in a sequence of blocks is final: nothing after it runs. -/
theorem C08_error_stops (p q : Prog) (h : (run p).2 ≠ .normal) : run (.seq p q) = run p := by
  rw [run]
  split
  · rename_i heq; rw [heq] at h; exact (h rfl).elim
  · rfl

/-- The number of barriers a trace contains on communicator `k`. -/
def barriersOn (k : ℕ) (t : List Event) : ℕ := t.count (.barrier k)

/-- **C08 (synchronisation).** Under MPI, a block whose body does not raise an error issues exactly one
barrier on its communicator before the body and one after it — whether the body ran to its end or was
skipped — and then exactly one barrier on the parent if it synchronises with it. A process outside the
group (null communicator) issues only the parent barrier. -/
theorem C08_block_trace (c : Comm) (hm : c.mpi = true) (body : Prog)
    (h : (run body).2 = .normal ∨ (run body).2 = .skipped) :
    (run (.withBlock c body)).1 =
      (if c.isNull then [] else [.barrier c.id]) ++ (run body).1 ++
      (if c.isNull then [] else [.barrier c.id]) ++
      (match c.syncParent with | some p => [.barrier p] | none => []) := by
  simp only [run]
  rcases h with h | h <;> rw [h] <;>
    cases hn : c.isNull <;> cases hp : c.syncParent <;>
    simp [exit, exitSync, enter, barrier, hm, hn, hp]

/-- **C08 (all processes of the parent stay in step).** Take any family of processes executing the
idiom `with comm: if comm.is_null: comm.skip_with_block(); <body>` for a subgroup of `parent` (some of
them members, some not, each with its own body). If no body raises an error or itself touches the
parent, then every process — member or not — issues exactly one barrier on the parent, and it is the
last thing it does. -/
theorem C08_parent_in_step (parent : ℕ) (c : ℕ → Comm) (body : ℕ → Prog)
    (hm : ∀ r, (c r).mpi = true) (hs : ∀ r, (c r).syncParent = some parent)
    (hid : ∀ r, (c r).id ≠ parent)
    (hb : ∀ r, (run (body r)).2 = .normal ∨ (run (body r)).2 = .skipped)
    (hq : ∀ r, barriersOn parent (run (body r)).1 = 0) (r : ℕ) :
    let t := (run (.withBlock (c r) (if (c r).isNull then .skip else body r))).1
    barriersOn parent t = 1 ∧ t.getLast? = some (.barrier parent) ∧
      (run (.withBlock (c r) (if (c r).isNull then .skip else body r))).2 = .normal := by
  have hb' : (run (if (c r).isNull then .skip else body r)).2 = .normal ∨
      (run (if (c r).isNull then .skip else body r)).2 = .skipped := by
    split
    · right; rfl
    · exact hb r
  refine ⟨?_, ?_, (C08_errors_propagate _ _).2.2.2 hb'⟩
  · rw [C08_block_trace _ (hm r) _ hb', hs r]
    have h1 : barriersOn parent (run (if (c r).isNull then .skip else body r)).1 = 0 := by
      split
      · simp [run, barriersOn]
      · exact hq r
    unfold barriersOn at h1 ⊢
    have hne : Event.barrier (c r).id ≠ Event.barrier parent := by
      intro h; exact hid r (Event.barrier.inj h)
    simp only [List.count_append, h1]
    split <;> simp [List.count_cons, hid r]
  · rw [C08_block_trace _ (hm r) _ hb', hs r]
    simp

/-- Without mpi4py no block synchronises: the trace of a block is that of its body. -/
theorem C08_serial_block (c : Comm) (hm : c.mpi = false) (body : Prog) :
    (run (.withBlock c body)).1 = (run body).1 := by
  simp only [run, enter, barrier, hm]
  cases (run body).2 <;> cases hn : c.isNull <;> cases hp : c.syncParent <;>
    simp [exit, exitSync, barrier, hm, hp]

/-- A member (rank 0) and a non-member of the same subgroup 5 of parent 1. -/
example :
    run (.withBlock ⟨5, false, true, some 1⟩ (.act 7))
      = ([.barrier 5, .act 7, .barrier 5, .barrier 1], .normal) ∧
    run (.withBlock ⟨5, true, true, some 1⟩ .skip) = ([.barrier 1], .normal) ∧
    run (.withBlock ⟨5, false, true, some 1⟩ (.seq (.act 7) .fail))
      = ([.barrier 5, .act 7], .error) := by decide

/-! ## C09 -/

/-- **C09 (null).** On a null communicator every operation except `skip_with_block` is refused with
`AttributeError`; on any other communicator none is refused. -/
theorem C09_null_refuses (m : Method) :
    (lookup true m = .error .attribute ↔ m ≠ .skipWithBlock) ∧ lookup false m = .ok m := by
  cases m <;> simp [lookup]

/-- One-process MPI semantics of the pickling operations (the specification): a broadcast returns the
object, a scatter of a one-element sequence returns its element, an allgather returns the one-element
list, a reduction of one value is the value. -/
def OneProcScatter {α : Type} : Obj α → Option (Obj α)
  | .seq [x] => some x
  | _ => none

/-- One-process MPI semantics of the buffer operations: the receive buffer ends up holding the send
buffer; with `IN_PLACE` (or for a broadcast) the buffer keeps its content. -/
def OneProcBuf {α : Type} (op : BufOp) (send recv : Buf α) : Buf α :=
  match op with
  | .bcast => recv
  | _ => match send, recv with
    | .arr s, .arr _ => .arr s
    | _, r => r

/-- **C09, partial.** Without MPI the operations `bcast`, `allgather`, `allreduce`, `Bcast`,
`Scatter(v)`, `Gather(v)` and `Allgather(v)` behave as MPI with one process. What is missing:
`Allreduce` with a separate send buffer and `scatter` (next two theorems). -/
theorem C09_serial_neutral_partial {α : Type} (x : Obj α) (op : BufOp) (send recv : Buf α)
    (h : op ≠ .allreduce ∨ send = .inPlace ∨ recv = .inPlace) :
    serialBcast x = x ∧ serialAllgather x = .seq [x] ∧ serialAllreduce x = x ∧
    serialBufOp op send recv = OneProcBuf op send recv := by
  refine ⟨rfl, rfl, rfl, ?_⟩
  cases op <;> cases send <;> cases recv <;> simp_all [serialBufOp, OneProcBuf]

/-- **C09 fails for `Allreduce`** with separate buffers: the serial fallback leaves the receive buffer
as it was, so it is right only if the buffer already held the result. -/
theorem C09_allreduce_buffer_fails {α : Type} (s r : List α) :
    serialBufOp .allreduce (.arr s) (.arr r) = OneProcBuf .allreduce (.arr s) (.arr r) ↔ r = s := by
  simp [serialBufOp, OneProcBuf]

theorem obj_ne_singleton {α : Type} (x : Obj α) : Obj.seq [x] ≠ x := by
  intro h
  have := congrArg sizeOf h
  simp at this
  omega

/-- **C09 fails for `scatter`**: the serial fallback returns the sequence, never its element. -/
theorem C09_scatter_fails {α : Type} (x : Obj α) :
    OneProcScatter (.seq [x]) = some x ∧ serialScatter (.seq [x]) ≠ x :=
  ⟨rfl, obj_ne_singleton x⟩

/-- `Incl` on a single-process communicator accepts exactly the rank list `[0]` and returns the
communicator unchanged. -/
theorem C09_incl_single (ranks : List ℕ) :
    (incl 1 ranks = .ok none ↔ ranks = [0]) ∧ (incl 1 ranks = .error .value ↔ ranks ≠ [0]) := by
  by_cases h : ranks = [0] <;> simp [incl, h]

example : serialBufOp .gather (.arr [1, 2]) (.arr [0, 0]) = .arr [1, 2] := by decide
example : serialBufOp .allreduce (.arr [1, 2]) (.arr [0, 0]) = .arr [0, 0] := by decide

end Verif.Mpi
