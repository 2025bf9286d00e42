import Mathlib.Analysis.Complex.Basic
import Verif.Model.Py

/-!
# Model of the charge-density readers

/repo/src/qtm/interfaces/bgw/inp.py:40-104 (`read_rho`, the `RHO` file of BerkeleyGW) and /repo/src/qtm/interfaces/qe/h5_io.py. An unformatted Fortran file is a list of records, a record
a list of typed items. `scipy.io.FortranFile` compares the number of bytes of a record with what is asked for.
-/

namespace Verif.RhoFile

/-- Items of a record; sizes 1, 4 and 8 bytes. -/
inductive Item
  | i1 (z : ℤ)
  | i4 (z : ℤ)
  | f8 (x : ℝ)

def Item.size : Item → ℕ
  | .i1 _ => 1
  | .i4 _ => 4
  | .f8 _ => 8

abbrev Rec := List Item

/-- Number of bytes of a record. -/
def bytes (r : Rec) : ℕ := (r.map Item.size).sum

/-- The bytes of items of another type, reinterpreted: arbitrary. -/
structure Raw where
  ints : Rec → List ℤ
  reals : Rec → List ℝ

def allInts : Rec → Option (List ℤ)
  | [] => some []
  | .i4 z :: r => (allInts r).map (z :: ·)
  | _ :: _ => none

def allReals : Rec → Option (List ℝ)
  | [] => some []
  | .f8 x :: r => (allReals r).map (x :: ·)
  | _ :: _ => none

/-- `f.read_ints("int32")` (scipy): the size must be a multiple of 4. -/
def readInts (R : Raw) (r : Rec) : Except PyErr (List ℤ) := if bytes r % 4 = 0 then .ok ((allInts r).getD (R.ints r)) else .error .value

/-- `f.read_reals("double")` (scipy): the size must be a multiple of 8. -/
def readReals (R : Raw) (r : Rec) : Except PyErr (List ℝ) := if bytes r % 8 = 0 then .ok ((allReals r).getD (R.reals r)) else .error .value

/-- `f.read_record(t1, t2, …)` with several types of `n` bytes together (scipy): the size must be `n`. -/
def readMixed (n : ℕ) (r : Rec) : Except PyErr Unit := if bytes r = n then .ok () else .error .value

/-- Rows of three: `.reshape(-1, 3)`. -/
def rows3 : List ℤ → Except PyErr (List (ℤ × ℤ × ℤ))
  | [] => .ok []
  | a :: b :: c :: l => (rows3 l).map ((a, b, c) :: ·)
  | _ => .error .value

/-- `.reshape(-1, 2) @ [1, 1j]` -/
noncomputable def pairs : List ℝ → Except PyErr (List ℂ)
  | [] => .ok []
  | a :: b :: l => (pairs l).map (((a : ℂ) + Complex.I * (b : ℂ)) :: ·)
  | _ => .error .value

/-- The reads of `read_rho` before the G-vectors, in order: the title with `read_ints("int8")` (any size), a record of 28 bytes, then integers and doubles; the atoms are read as exactly
two positions and two numbers, 56 bytes — inp.py:59-86. -/
inductive Rd
  | title | mixed (n : ℕ) | ints | reals

def Rd.run (R : Raw) (d : Rd) (r : Rec) : Except PyErr Unit :=
  match d with
  | .title => .ok ()
  | .mixed n => readMixed n r
  | .ints => (readInts R r).map fun _ => ()
  | .reals => (readReals R r).map fun _ => ()

def skipAll (R : Raw) : List Rd → List Rec → Except PyErr (List Rec)
  | [], rs => .ok rs
  | _ :: _, [] => .error .type
  | d :: ds, r :: rs => match d.run R r with
    | .error e => .error e
    | .ok _ => skipAll R ds rs

/-- inp.py:59-86 -/
def prefixReads : List Rd := [.title, .mixed 28, .ints, .reals, .reals, .ints, .reals, .mixed 56, .ints, .ints]

/-- `read_rho` — inp.py:40-104; the end of the file is a `FortranEOFError`, a `TypeError`. -/
noncomputable def readRho (R : Raw) (file : List Rec) : Except PyErr (List ℂ × List (ℤ × ℤ × ℤ)) :=
  match skipAll R prefixReads file with
  | .error e => .error e
  | .ok [] => .error .type
  | .ok (g :: rest) => match readInts R g with
    | .error e => .error e
    | .ok gi => match rows3 gi with
      | .error e => .error e
      | .ok gv => match skipAll R [.ints, .ints] rest with
        | .error e => .error e
        | .ok [] => .error .type
        | .ok (d :: _) => match readReals R d with
          | .error e => .error e
          | .ok x => match pairs x with
            | .error e => .error e
            | .ok rho => .ok (rho, gv)

/-- What a caller's object or an open file offers: the names of attributes and keys. -/
abbrev Names := List String

/-- Public attributes of a `FieldGType` — containers/buffer.py:19-274, containers/field.py:43-71. -/
def fieldAttrs : Names := ["gspc", "basis_type", "basis_size", "ndarray", "data", "shape", "rank", "real", "imag", "empty", "zeros", "from_array", "copy", "conj", "to_r", "to_g", "reshape", "data_g0"]

/-- Public attributes of a `GSpace` — gspace/base.py:114-295, gspace/gspc.py:90-151. -/
def gspaceAttrs : Names := ["recilat", "grid_shape", "g_cryst", "idxgrid", "idxsort", "size_r", "size_g", "has_g0", "reallat_cellvol", "reallat_dv", "FFT3D", "_fft", "_normalise_idft", "ecut",
  "g_cart", "g_tpiba", "g_norm2", "g_norm", "allocate_array", "check_array_type", "check_array_r", "check_array_g", "r2g", "g2r", "_r2g", "_g2r"]

/-- Public attributes of a `KSWfn` — dft/kswfn.py:42-245. -/
def kswfnAttrs : Names := ["gkspc", "k_cryst", "k_weight", "numbnd", "is_noncolin", "evc_gk", "evl", "occ", "init_random", "compute_rho", "overlap", "indices_occupied", "indices_empty", "gcryst2int", "init_from_hdf5"]

/-- `obj.name` -/
def attr (obj : Names) (name : String) : Except PyErr Unit := if name ∈ obj then .ok () else .error .attribute

/-- `d[name]` -/
def key (d : Names) (name : String) : Except PyErr Unit := if name ∈ d then .ok () else .error .key

/-- An HDF5 file: its data sets and groups, its attributes and the attributes of `MillerIndices`. -/
structure H5 where
  items : Names
  attrs : Names
  miller : Names

/-- `read_chargeden` up to the first comparison — qe/h5_io.py:8-15 (`i = 0`): `rho.gspc`, `f["MillerIndices"].attrs["bg0"]`, `grho.recispc`. The rest of the function is not reached, see
`C147_read_fails`; `tail` stands for it. -/
def readChargeden (f : H5) (tail : Except PyErr Unit) : Except PyErr Unit := do
  attr fieldAttrs "gspc"
  key f.items "MillerIndices"
  key f.miller "bg0"
  attr gspaceAttrs "recispc"
  tail

/-- `write_chargeden` — qe/h5_io.py:53-54: `rho.grho`. -/
def writeChargeden (tail : Except PyErr Unit) : Except PyErr Unit := do
  attr fieldAttrs "grho"
  tail

/-- `read_wfc` — qe/h5_io.py:90-91: `wfc.gspc`. -/
def readWfc (tail : Except PyErr Unit) : Except PyErr Unit := do
  attr kswfnAttrs "gspc"
  tail

end Verif.RhoFile
