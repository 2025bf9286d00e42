import Verif.Model.Dist
import Verif.Model.ScfArgs
import Verif.Model.Symm

/-!
# Model of `gather`, `allgather`, `scatter` of distributed containers and of the symmetrisation of distributed fields

/repo/src/qtm/mpi/containers.py:91-140, /repo/src/qtm/symm/symmetrize_field.py:118-147. The processes are taken to have containers of the same shape (the `ValueError` of gspace.py:236-241, 303-308 for
other shapes is not modelled). An exception that leaves a `with comm` block becomes a plain `Exception` (comm.py:173-182), `runtime` here.
-/

namespace Verif.DistBuf

open Verif.Dist

variable {K : Type*}

/-- The container classes: fields (no `numspin` attribute), and wavefunctions with `numspin` components. -/
inductive Kind
  | field
  | wave (numspin : ℕ)

/-- Number of components of one basis vector. -/
def Kind.comps : Kind → ℕ
  | .field => 1
  | .wave ns => ns

/-- Which basis: plane waves or grid points. -/
inductive Basis
  | g
  | r

/-- A container: `data` has shape `(*shape, basis_size)`; one list per basis vector, in row-major order. -/
structure Buf (K : Type*) where
  shape : List ℕ
  rows : List (List K)

/-- `_scatter_g_bufspec`, `_scatter_r_bufspec` — gspace.py:127-135 -/
def Basis.counts (S : Setup) : Basis → List ℕ
  | .g => S.gSpec
  | .r => S.rSpec

/-- `gspc_glob.size_g`, `gspc_glob.size_r` -/
def Basis.total (S : Setup) : Basis → ℕ
  | .g => S.idx.length
  | .r => S.d.size

/-- `data.reshape((*shape, numspin, -1))` in the `try` block, `size` the resulting length of the last axis — containers.py:98-101, 125-132. For a container without elements the reshape raises
`ValueError` and for a field the missing attribute an `AttributeError`; both are caught and the array is left as it is. -/
def split (kind : Kind) (size : ℕ) (b : Buf K) : List ℕ × List (List K) :=
  match kind with
  | .field => (b.shape, b.rows)
  | .wave ns =>
    if b.shape.prod = 0 then (b.shape, b.rows)
    else (b.shape ++ [ns], (List.range (b.shape.prod * ns)).map fun j => pySlice (b.rows.getD (j / ns) []) (j % ns * size) ((j % ns + 1) * size))

/-- Length of the last axis after `split`. -/
def lastAxis (kind : Kind) (size : ℕ) (shape : List ℕ) : ℕ := if shape.prod = 0 then kind.comps * size else size

/-- `buftype(data.reshape((*shape, -1)))` — containers.py:110, 138: a `ValueError` for an array without elements. -/
def join (kind : Kind) (shape : List ℕ) (rows : List (List K)) : Except PyErr (Buf K) :=
  if shape.prod = 0 then .error .value
  else .ok ⟨shape, (List.range shape.prod).map fun i => (List.range kind.comps).flatMap fun s => rows.getD (i * kind.comps + s) []⟩

/-- What a call does on one process. -/
inductive Out (K : Type*)
  /-- an error inside MPI -/
  | mpi
  | err (e : PyErr)
  /-- it returns `None` -/
  | none
  | buf (b : Buf K)

/-- How a call ends that has the rows of the result. -/
def finish (kind : Kind) (shape : List ℕ) : Except PyErr (Option (List (List K))) → Out K
  | .error _ => .err .runtime
  | .ok .none => .mpi
  | .ok (some rows) => match join kind shape rows with
    | .error e => .err e
    | .ok b => .buf b

/-- The rows of all processes' arrays: for row `i` the list over the ranks. -/
def partsOf (S : Setup) (kind : Kind) (bs : Basis) (bufs : ℕ → Buf K) : List (List (List K)) :=
  (List.range (split kind ((bs.counts S).getD 0 0) (bufs 0)).2.length).map fun i =>
    (List.range S.P).map fun p => (split kind ((bs.counts S).getD p 0) (bufs p)).2.getD i []

/-- One row of `gather_g(data, allgather=True)`, `gather_r(data, allgather=True)`. -/
def allgatherRow (S : Setup) (bs : Basis) (garbage : ℕ → List K) (parts : List (List K)) : List K :=
  match bs with
  | .g => allgatherG S garbage parts
  | .r => allgatherR S garbage parts

/-- `gather_g(data, allgather=True)`, `gather_r(data, allgather=True)` row by row — gspace.py:227-267, 295-331. `garbage i r` is row `i` of the array rank `r` has allocated. -/
def allgatherRows (S : Setup) (bs : Basis) (garbage : ℕ → ℕ → List K) (shape : List ℕ) (parts : List (List (List K))) : Except PyErr (Option (List (List K))) :=
  (rowCount shape).map fun n => some ((List.range n).map fun i => allgatherRow S bs (garbage i) (parts.getD i []))

/-- `gather(allgather)` on rank `p` — containers.py:91-113 -/
def gather (S : Setup) (kind : Kind) (bs : Basis) (all : Bool) (garbage : ℕ → ℕ → List K) (bufs : ℕ → Buf K) (p : ℕ) : Out K :=
  let shape := (bufs 0).shape
  let lead := (split kind ((bs.counts S).getD 0 0) (bufs 0)).1
  -- check_array_g, check_array_r: gspace.py:229, 297
  if lastAxis kind ((bs.counts S).getD p 0) shape ≠ (bs.counts S).getD p 0 then .err .runtime
  else if all then finish kind shape (allgatherRows S bs garbage lead (partsOf S kind bs bufs))
  else if p = 0 then finish kind shape (gatherRows (bs.counts S) lead (partsOf S kind bs bufs))
  else match rowCount lead with
    | .error _ => .err .runtime
    | .ok _ => .none

/-- `scatter(buf_glob)` on rank `p`, for an argument of the right type — containers.py:118-138 -/
def scatter (S : Setup) (kind : Kind) (bs : Basis) (glob : Buf K) (p : ℕ) : Out K :=
  let sp := split kind (bs.total S) glob
  if lastAxis kind (bs.total S) glob.shape ≠ bs.total S then .err .runtime
  else finish kind glob.shape ((scatterRows (bs.counts S) sp.1 sp.2).map fun o => o.map fun rows => rows.map fun parts => parts.getD p [])

/-- The beginning of `scatter` on one process — containers.py:119-127: barrier, the checks on process 0 (`ok`), the broadcasts of the shape and of the basis type. -/
def scatterStart (isRoot ok : Bool) (shape basis : ScfArgs.Val) : ScfArgs.Prog Unit :=
  .sync 0 (if isRoot && !ok then .err .runtime else .bcast (if isRoot then shape else .none) fun _ => .bcast (if isRoot then basis else .none) fun _ => .ret ())

/-! ## Symmetrisation of fields -/

/-- `symmetrize(field_g)` on a field of the symmetriser's own G-space — symmetrize_field.py:131-143: one basis vector after the other; `sym` stands for `_symmetrize` (`Symm.symmetrize`). -/
def symmSerial (sym : List K → List K) (b : Buf K) : Buf K := { b with rows := b.rows.map sym }

/-- `symmetrize(field_g)` on rank `p` of a distributed field — symmetrize_field.py:128-147 -/
def symmDist (S : Setup) (sym : List K → List K) (garbage : ℕ → ℕ → List K) (bufs : ℕ → Buf K) (p : ℕ) : Out K :=
  match gather S .field .g true garbage bufs p with
  | .buf b => .buf { b with rows := (symmSerial sym b).rows.map (S.cutG p) }
  | o => o

/-- `SymmFieldMod.symmetrize`, the checks — symmetrize_field.py:119-139: a non-field is a `TypeError`, a field of another G-space a `ValueError`. -/
def symmetrize (isField sameG : Bool) (sym : List K → List K) (b : Buf K) : Except PyErr (Buf K) :=
  if !isField then .error .type else if !sameG then .error .value else .ok (symmSerial sym b)

/-- `_symmetrize` of one basis vector as a list. -/
noncomputable def symRow {n : ℕ} (ops : Fin (n + 1) → Symm.SymOp) (sh : GSpace.Shape) (key : GSpace.GVec → ℤ) (gs : List GSpace.GVec) (garbage : ℕ → ℂ) (row : List ℂ) : List ℂ :=
  (List.range gs.length).map (Symm.symmetrize ops sh key gs garbage fun i => row.getD i 0)

end Verif.DistBuf
