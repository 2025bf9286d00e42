import Mathlib.Data.List.InsertIdx
import Mathlib.Data.List.GetD
import Verif.Model.Lattice
import Verif.Model.KPts
import Verif.Model.Wavefun

/-!
# Model of the coordinate conversions on numpy arrays (/repo/src/qtm/lattice.py) and of k-point lists (/repo/src/qtm/kpts.py:26-123)

Numbers are real, arithmetic is exact. An array is a shape and a function on index lists; only index lists within the shape have a meaning.
-/

namespace Verif.LatArr

open Verif.Lattice

/-- A numpy array. -/
structure Arr where
  shape : List ℕ
  get : List ℕ → ℝ

/-- `idx` is an index of an array of this shape. -/
abbrev InShape (shape idx : List ℕ) : Prop := Containers.InShape shape idx

/-- `np.expand_dims(arr, axis)` for `0 ≤ axis ≤ arr.ndim` -/
def expandDims (a : Arr) (axis : ℕ) : Arr := ⟨a.shape.insertIdx axis 1, fun idx => a.get (idx.eraseIdx axis)⟩

/-- One dimension of numpy's broadcasting rule. -/
def bdim (a b : ℕ) : Option ℕ := if a = b then some a else if a = 1 then some b else if b = 1 then some a else none

/-- Shapes of the same length, dimension by dimension. -/
def bzip : List ℕ → List ℕ → Option (List ℕ)
  | a :: s, b :: t => (bdim a b).bind fun d => (bzip s t).map (d :: ·)
  | _, _ => some []

/-- numpy's broadcasting of two shapes: the shorter one is padded with ones on the left. -/
def bshape (s t : List ℕ) : Option (List ℕ) :=
  bzip (List.replicate (t.length - s.length) 1 ++ s) (List.replicate (s.length - t.length) 1 ++ t)

/-- The element of an operand that takes part at index `idx` of the broadcast array. -/
def bget (a : Arr) (idx : List ℕ) : ℝ :=
  a.get (List.zipWith (fun d i => if d = 1 then 0 else i) a.shape (idx.drop (idx.length - a.shape.length)))

/-- `a * b` -/
def mul (a b : Arr) : Except PyErr Arr :=
  match bshape a.shape b.shape with
  | none => .error .value
  | some s => .ok ⟨s, fun idx => bget a idx * bget b idx⟩

/-- `np.sum(a, axis=axis)` -/
def sumAxis (a : Arr) (axis : ℕ) : Arr :=
  ⟨a.shape.eraseIdx axis, fun idx => ∑ j ∈ Finset.range (a.shape.getD axis 0), a.get (idx.insertIdx axis j)⟩

/-- Element `(i, j)` of a 3 by 3 matrix. -/
def entry (M : Mat) (i j : ℕ) : ℝ := if h : i < 3 ∧ j < 3 then M ⟨i, h.1⟩ ⟨j, h.2⟩ else 0

/-- `mat.reshape((3, 3) + (1,) * n)` -/
def matArr (M : Mat) (n : ℕ) : Arr := ⟨3 :: 3 :: List.replicate n 1, fun idx => entry M (idx.getD 0 0) (idx.getD 1 0)⟩

/-- The three lines common to `cart2cryst` and `cryst2cart` — lattice.py:92-94, 115-121. -/
def transform (M : Mat) (arr : Arr) (axis : ℕ) : Except PyErr Arr :=
  let vec := expandDims arr axis
  match mul (matArr M (vec.shape.length - axis - 2)) vec with
  | .error e => .error e
  | .ok r => .ok (sumAxis r (axis + 1))

/-- `cart2cryst` — lattice.py:74-94: the length of the axis is not checked. -/
def cart2cryst (L : Lat) (arr : Arr) (axis : ℕ) : Except PyErr Arr := transform L.primvecInv arr axis

/-- `cryst2cart` — lattice.py:96-121. An axis beyond the dimensions is an `IndexError`. -/
def cryst2cart (L : Lat) (arr : Arr) (axis : ℕ) : Except PyErr Arr :=
  match arr.shape[axis]? with
  | none => .error .index
  | some d => if d = 3 then transform L.primvec arr axis else .error .assertion

/-- `arr / x` -/
noncomputable def Arr.divBy (a : Arr) (x : ℝ) : Arr := ⟨a.shape, fun idx => a.get idx / x⟩

/-- `arr * x` -/
def Arr.mulBy (a : Arr) (x : ℝ) : Arr := ⟨a.shape, fun idx => a.get idx * x⟩

/-- `cryst2alat`, `cryst2tpiba` — lattice.py:426, 749 -/
noncomputable def cryst2unit (L : Lat) (arr : Arr) (axis : ℕ) : Except PyErr Arr := (cryst2cart L arr axis).map (·.divBy L.unit)

/-- `alat2cryst`, `tpiba2cryst` — lattice.py:446, 754 -/
noncomputable def unit2cryst (L : Lat) (arr : Arr) (axis : ℕ) : Except PyErr Arr := (cart2cryst L arr axis).map (·.mulBy L.unit)

/-- `Lattice.norm2(l_vec)` in crystal coordinates — lattice.py:193-200: `l_vec` is flattened before its shape is taken. Row-major flattening of the trailing axes. -/
noncomputable def norm2 (L : Lat) (a : Arr) : Except PyErr Arr :=
  match a.shape with
  | 3 :: rest =>
    .ok ⟨[rest.prod], fun idx => L.norm2Cryst fun i : Fin 3 => a.get (i.val :: Wavefun.unravel rest (idx.getD 0 0))⟩
  | _ :: _ => .error .value
  | [] => .error .index

/-- `"cryst"`, `"cart"`, `"tpiba"` -/
inductive Coords
  | cryst | cart | tpiba
  deriving DecidableEq

/-- A `KList` — kpts.py:26-81: the array `(3, numkpts)` and the weights. -/
structure KL where
  kcryst : Arr
  weights : List ℝ

/-- `KList.__init__` — kpts.py:27-81 for an array and a list of weights. -/
noncomputable def mkKL (L : Lat) (coords : Arr) (w : List ℝ) (typ : Coords) : Except PyErr KL :=
  match coords.shape with
  | [d, n] =>
    if d = 3 then
      match (match typ with
        | .cryst => Except.ok coords
        | .cart => cart2cryst L coords 0
        | .tpiba => unit2cryst L coords 0) with
      | .error e => .error e
      | .ok k => if w.length = n then .ok ⟨k, w⟩ else .error .value
    else .error .value
  | _ => .error .value

/-- `numkpts` — kpts.py:83-85 -/
def KL.numk (k : KL) : ℕ := k.kcryst.shape.getD 1 0

/-- `k_cart` — kpts.py:94-96 -/
noncomputable def KL.kcart (L : Lat) (k : KL) : Except PyErr Arr := cryst2cart L k.kcryst 0

/-- `k_tpiba` — kpts.py:98-100: with `axis=1` -/
noncomputable def KL.ktpiba (L : Lat) (k : KL) : Except PyErr Arr := cryst2unit L k.kcryst 1

end Verif.LatArr
