import Mathlib.Data.List.GetD
import Mathlib.Algebra.BigOperators.Group.List.Basic
import Verif.Model.FFT
import Verif.Model.Py

/-!
# Model of `GSpaceBase.r2g` / `g2r` on NumPy arrays

/repo/src/qtm/gspace/base.py:221-296. An array is a view of the memory of the process: an offset and, for every axis, a length and a stride. Strides are counted in elements and are not negative
(reversed views are not modelled). `ndarray.reshape` gives a view if the strides allow it and otherwise a copy, as NumPy does. The type check (a `TypeError` for what is not an array) is not modelled.
-/

namespace Verif.GArr

variable {K : Type*}

/-- An array with at least one axis: the leading axes as (length, stride), the last axis apart. -/
structure View where
  off : ℕ
  lead : List (ℕ × ℕ)
  last : ℕ
  ls : ℕ

/-- Number of index tuples of some axes. -/
def count (l : List (ℕ × ℕ)) : ℕ := (l.map Prod.fst).prod

/-- Where the `k`-th index tuple (in row-major order) of some axes is. -/
def rowOff : List (ℕ × ℕ) → ℕ → ℕ
  | [], _ => 0
  | (_, s) :: l, k => k / count l * s + rowOff l (k % count l)

/-- Number of rows: of index tuples of the leading axes. -/
def View.rows (v : View) : ℕ := count v.lead

/-- Where element `f` of row `k` is. -/
def View.addr (v : View) (k f : ℕ) : ℕ := v.off + rowOff v.lead k + f * v.ls

/-- Row `k`. -/
def View.row (v : View) (mem : ℕ → K) (k : ℕ) : List K := (List.range v.last).map fun f => mem (v.addr k f)

/-- The stride of the axis that some axes, all longer than one, can be merged to. -/
def merge : List (ℕ × ℕ) → Option ℕ
  | [] => some 0
  | [(_, s)] => some s
  | (_, s) :: (d', s') :: l => if s = d' * s' then merge ((d', s') :: l) else none

/-- `arr.reshape(-1, n)` and `arr.reshape(-1, n1, n2, n3)` with `n = n1 n2 n3` the length of the last axis — base.py:268-270, 283-285: the rows as a view, or `none` if NumPy has to copy the array.
Axes of length one do not matter. Splitting the last axis is always possible. -/
def View.reshape (v : View) : Option View := (merge (v.lead.filter fun p => p.1 ≠ 1)).map fun s => { v with lead := [(v.rows, s)] }

/-- `out[...] = vals`, element by element. -/
def writeRow (mem : ℕ → K) (addr : ℕ → ℕ) (vals : List K) : ℕ → K := FFT.put mem ((List.range vals.length).map addr) vals

/-- `_r2g` / `_g2r` — base.py:267-271, 282-286: `zip` over the rows of the two reshaped arrays, as many as both have. `T` is what `self._fft.r2g` / `g2r` does to a row (by C20 it does not depend on
what the driver was used for before). A row is read as a whole before the output row is written. What is written to a copy is lost. -/
def transform (T : List K → List K) (inp out : View) (mem : ℕ → K) : ℕ → K :=
  (List.range (min inp.rows out.rows)).foldl (fun m k =>
    let x := match inp.reshape with
      | some v => v.row m k
      | none => inp.row mem k
    match out.reshape with
    | some v => writeRow m (v.addr k) (T x)
    | none => m) mem

/-- The memory of the process; addresses from `next` on are free. -/
structure Heap (K : Type*) where
  mem : ℕ → K
  next : ℕ

/-- The axes of a C-contiguous array. -/
def contiguous : List ℕ → ℕ → List (ℕ × ℕ)
  | [], _ => []
  | d :: ds, n => (d, ds.prod * n) :: contiguous ds n

/-- `allocate_array((*lead, n))` — base.py:187-202 -/
def fresh (s : Heap K) (dims : List ℕ) (n : ℕ) : View × Heap K :=
  (⟨s.next, contiguous dims n, n, 1⟩, { s with next := s.next + dims.prod * n })

/-- `r2g(inp, out)` / `g2r(inp, out)` — base.py:273-281, 288-296; `nIn` and `nOut` are `size_r` and `size_g` or the other way round. -/
def call (nIn nOut : ℕ) (T : List K → List K) (inp : View) (out : Option View) (s : Heap K) : Except PyErr (View × Heap K) :=
  if inp.last ≠ nIn then .error .value
  else match out with
    | some o => if o.last ≠ nOut then .error .value else .ok (o, { s with mem := transform T inp o s.mem })
    | none =>
      let (o, s) := fresh s (inp.lead.map Prod.fst) nOut
      .ok (o, { s with mem := transform T inp o s.mem })

/-! ## `FFT3DFull.g2r` without an output array -/

/-- Array objects by number. Object 0 is the work array for output of the driver's `pyfftw` worker (pyfftw_.py:24); with the other backends it does not exist. -/
structure Objs (K : Type*) where
  content : ℕ → ℕ → K
  next : ℕ

/-- The FFT libraries for processors — /repo/src/qtm/fft/backend/. (CuPy is not modelled: whether `overwrite_x=True`, cupy_.py:35-40, returns the input array is up to the library.) -/
inductive Backend
  | numpy
  | scipy
  | mkl
  | pyfftw
  deriving DecidableEq

/-- `worker.fft()`, `worker.ifft()` with result `x`: `numpy_.py:24-33`, `scipy_.py:26-46`, `mklfft_.py:24-36` return a new array, `pyfftw_.py:59-70` returns its work array. -/
def Backend.give (b : Backend) (x : ℕ → K) (s : Objs K) : ℕ × Objs K :=
  match b with
  | .pyfftw => (0, { s with content := Function.update s.content 0 x })
  | _ => (s.next, ⟨Function.update s.content s.next x, s.next + 1⟩)

/-- A call on the driver `FFT3DFull` — full.py:34-45: `F` and `B` are the transforms. Output arrays are given by number. -/
inductive FullOp (K : Type*)
  | r2g (arr : ℕ → K) (out : ℕ)
  | g2r (arr : ℕ → K) (out : Option ℕ)

/-- One call and the number of the array it returns. -/
def FullOp.run (b : Backend) (F B : (ℕ → K) → ℕ → K) : FullOp K → Objs K → Option ℕ × Objs K
  | .r2g a o, s =>
    let (i, s) := b.give (F a) s
    (none, { s with content := Function.update s.content o (s.content i) })
  | .g2r a (some o), s =>
    let (i, s) := b.give (B a) s
    (none, { s with content := Function.update s.content o (s.content i) })
  | .g2r a none, s =>
    let (i, s) := b.give (B a) s
    (some i, s)

/-- A history of calls. -/
def runFull (b : Backend) (F B : (ℕ → K) → ℕ → K) (ops : List (FullOp K)) (s : Objs K) : Objs K := ops.foldl (fun s o => (o.run b F B s).2) s

end Verif.GArr
