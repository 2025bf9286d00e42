import Mathlib.Algebra.Star.Basic
import Verif.Model.Py

/-!
# Model of the array containers (/repo/src/qtm/containers/buffer.py, /repo/src/qtm/mpi/containers.py)

Arrays are a shape and a total function on index lists; only values at indices inside the shape matter.
-/

namespace Verif.Containers

/-- An n-dimensional array. -/
structure Arr (α : Type*) where
  shape : List ℕ
  get : List ℕ → α

/-- `idx` is a valid index of an array of the given shape. -/
def InShape (shape idx : List ℕ) : Prop := List.Forall₂ (fun i n => i < n) idx shape

/-! ## numpy indexing -/

/-- One entry of an index expression. `fancy` is a one-dimensional integer array; at most one of them is
modelled per key (numpy's broadcasting of several index arrays is not modelled). -/
inductive Item
  | int (i : ℤ)
  | slice (start stop step : Option ℤ)
  | newaxis
  | ellipsis
  | fancy (l : List ℤ)
  deriving DecidableEq, Repr

/-- `slice(None)` -/
def Item.all : Item := .slice none none none

/-- Python's wrap-around of a negative index, with the bounds check (`IndexError`). -/
def normIdx (n : ℕ) (i : ℤ) : Except PyErr ℕ :=
  let j := if i < 0 then i + n else i
  if 0 ≤ j ∧ j < n then .ok j.toNat else .error .index

/-- `slice(start, stop, step).indices(n)` followed by enumerating the positions
(CPython's `PySlice_AdjustIndices`). -/
def slicePos (n : ℕ) (start stop step : Option ℤ) : Except PyErr (List ℕ) :=
  let st := step.getD 1
  if st = 0 then .error .value
  else if 0 < st then
    let clip (i : ℤ) : ℤ := if i < 0 then max (i + n) 0 else min i n
    let a := clip (start.getD 0)
    let b := clip (stop.getD n)
    let len := if a < b then (b - a - 1) / st + 1 else 0
    .ok ((List.range len.toNat).map fun k : ℕ => (a + k * st).toNat)
  else
    let clip (i : ℤ) : ℤ := if i < 0 then max (i + n) (-1) else min i (n - 1)
    let a := match start with | some i => clip i | none => (n : ℤ) - 1
    let b := match stop with | some i => clip i | none => -1
    let len := if b < a then (a - b - 1) / (-st) + 1 else 0
    .ok ((List.range len.toNat).map fun k : ℕ => (a + k * st).toNat)

/-- How a result axis (or none) and a source axis (or none) are related. -/
inductive Sel
  | fixed (k : ℕ)
  | axis (pos : List ℕ)
  | new
  deriving DecidableEq, Repr

/-- Does the entry consume an axis of the array? -/
def Item.consumes : Item → ℕ
  | .newaxis => 0
  | .ellipsis => 0
  | _ => 1

def Item.isEllipsis : Item → Bool
  | .ellipsis => true
  | _ => false

def Item.isFancy : Item → Bool
  | .fancy _ => true
  | _ => false

/-- Number of axes consumed by a key. -/
def consumed (items : List Item) : ℕ := (items.map Item.consumes).sum

/-- Replace the (first) ellipsis by `k` full slices; append them if there is none. -/
def expand (k : ℕ) : List Item → List Item
  | [] => List.replicate k Item.all
  | .ellipsis :: t => List.replicate k Item.all ++ t
  | it :: t => it :: expand k t

/-- Turn the expanded key into selectors, axis by axis. -/
def selectors : List Item → List ℕ → Except PyErr (List Sel)
  | [], [] => .ok []
  | .newaxis :: t, s => (selectors t s).map (Sel.new :: ·)
  | .int i :: t, n :: s => do
      let k ← normIdx n i
      let r ← selectors t s
      pure (Sel.fixed k :: r)
  | .slice a b c :: t, n :: s => do
      let p ← slicePos n a b c
      let r ← selectors t s
      pure (Sel.axis p :: r)
  | .fancy l :: t, n :: s => do
      let p ← l.mapM (normIdx n)
      let r ← selectors t s
      pure (Sel.axis p :: r)
  | _, _ => .error .index

/-- Shape of the result. -/
def outShape : List Sel → List ℕ
  | [] => []
  | .fixed _ :: t => outShape t
  | .axis p :: t => p.length :: outShape t
  | .new :: t => 1 :: outShape t

/-- Source index of a result index. -/
def source : List Sel → List ℕ → List ℕ
  | [], _ => []
  | .fixed k :: t, i => k :: source t i
  | .axis p :: t, i :: r => p.getD i 0 :: source t r
  | .new :: t, _ :: r => source t r
  | .axis _ :: _, [] => []
  | .new :: _, [] => []

/-- The selectors of `arr[key]` for an array of the given shape: numpy's indexing rules. -/
def keySel (shape : List ℕ) (key : List Item) : Except PyErr (List Sel) :=
  if 1 < (key.filter Item.isEllipsis).length then .error .index
  else if 1 < (key.filter Item.isFancy).length then .error .notImplemented
  else if shape.length < consumed key then .error .index
  else selectors (expand (shape.length - consumed key) key) shape

/-- `arr[key]`. -/
def index {α : Type*} (a : Arr α) (key : List Item) : Except PyErr (Arr α) :=
  (keySel a.shape key).map fun s => { shape := outShape s, get := fun i => a.get (source s i) }

/-- `arr[key] = value` for a value of the shape of `arr[key]`: positions reached by the key take the
value of (the last) result index that reaches them. Positions are compared through `source`; a result
index is looked up among all the indices of the result. -/
def allIdx : List ℕ → List (List ℕ)
  | [] => [[]]
  | n :: s => (List.range n).flatMap fun i => (allIdx s).map (i :: ·)

/-- see `allIdx` -/
def assign {α : Type*} (a : Arr α) (key : List Item) (v : Arr α) : Except PyErr (Arr α) :=
  (keySel a.shape key).map fun s =>
    { a with get := fun i =>
        match (allIdx (outShape s)).reverse.find? (fun j => source s j == i) with
        | some j => v.get j
        | none => a.get i }

/-! ## `BufferType` -/

/-- `BufferType.__getitem__` — /repo/src/qtm/containers/buffer.py:242-253: `(*item, Ellipsis,
slice(None))`; any exception is re-raised as `Exception`. -/
def getitem {α : Type*} (a : Arr α) (item : List Item) : Except PyErr (Arr α) :=
  match index a (item ++ [.ellipsis, Item.all]) with
  | .ok r => .ok r
  | .error _ => .error .runtime

/-- `BufferType.__setitem__` — buffer.py:255-265: the key is applied as it is, the only check is that the
selected view's last dimension has `basis_size` entries. -/
def setitem {α : Type*} (basis : ℕ) (a : Arr α) (key : List Item) (v : Arr α) : Except PyErr (Arr α) :=
  match index a key with
  | .error _ => .error .runtime
  | .ok view =>
    if view.shape.getLast? = some basis then assign a key v else .error .runtime

/-! ## Reductions -/

/-- Left fold of a non-empty list (`ufunc.reduce` along one axis); empty: `ValueError`, which ufuncs
without an identity raise. (`np.add.reduce` of an empty axis gives 0; local bases are never empty.) -/
def fold1 {α : Type*} (op : α → α → α) : List α → Except PyErr α
  | [] => .error .value
  | x :: t => .ok (t.foldl op x)

/-- The value of a reduction that cannot fail (non-empty axis). -/
def val {α : Type*} [Inhabited α] : Except PyErr α → α
  | .ok v => v
  | .error _ => default

/-- `ufunc.reduce(arr, axis=ax)` — called at buffer.py:322. `none` values cannot occur for non-empty
axes; the value at each remaining index is the fold along the axis. -/
def reduceAx {α : Type*} [Inhabited α] (op : α → α → α) (a : Arr α) (ax : ℕ) : Arr α where
  shape := a.shape.eraseIdx ax
  get i := val (fold1 op ((List.range (a.shape.getD ax 0)).map fun j => a.get (i.insertIdx ax j)))

/-- The test deciding whether a result is wrapped as a container again — buffer.py:336. -/
def isBuffer (basis : ℕ) (shape : List ℕ) : Bool := shape.getLast? = some basis

/-- `DistBufferType.__array_ufunc__` with method `reduce` on all processes of a group —
/repo/src/qtm/mpi/containers.py:62-89. `loc p` and `basis p` are the array and basis size of rank `p`.
Ranks whose result looks like a container return it without communicating; the others call
`Allreduce(op)`, which combines in rank order. If some ranks communicate and others do not, the
collective never completes: `none`. -/
def distReduce {α : Type*} [Inhabited α] (op : α → α → α) (P : ℕ) (basis : ℕ → ℕ) (loc : ℕ → Arr α)
    (ax : ℕ) : Option (ℕ → Arr α) :=
  let r := fun p => reduceAx op (loc p) ax
  let buf := fun p => isBuffer (basis p) (r p).shape
  if (List.range P).all buf then some r
  else if (List.range P).any buf then none
  else some fun p =>
    { shape := (r p).shape
      get := fun i => val (fold1 op ((List.range P).map fun q => (r q).get i)) }

/-! ## Wavefunction products -/

/-- `WavefunGType.vdot` of one bra and one ket: `zgemm` of the conjugated bra with the ket —
/repo/src/qtm/containers/wavefun.py:135-145; `norm2` is the same with bra = ket — wavefun.py:91-95. The
arrays have `len = numspin * size_g` entries. -/
def vdot {K : Type*} [Semiring K] [Star K] (len : ℕ) (bra ket : ℕ → K) : K :=
  ((List.range len).map fun i => star (bra i) * ket i).sum

/-- `DistWavefunG.vdot` / `norm2` on every process: local product, then `Allreduce(SUM)` —
/repo/src/qtm/mpi/containers.py:182-186, wavefun.py:97-99. -/
def distVdot {K : Type*} [Semiring K] [Star K] (P : ℕ) (len : ℕ → ℕ) (bra ket : ℕ → ℕ → K) : K :=
  ((List.range P).map fun p => vdot (len p) (bra p) (ket p)).sum

end Verif.Containers
