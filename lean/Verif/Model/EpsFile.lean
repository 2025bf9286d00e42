import Verif.Model.BGWMat

/-!
# Model of the files of dielectric matrices over a history of calls

/repo/src/qtm/gw/epsilon.py:426-450, /repo/src/qtm/interfaces/bgw/epsmat_read_write.py:122-187, h5_utils.py:44-62. A directory maps names to files; what was done to an open file counts as being in the
file even if the program is stopped (the most favourable case for the code). No auxiliary file (see `Verif.H5` for copying its header). File names are any type with equality.
-/

namespace Verif.EpsFile

open Verif.BGW (Mat Stored writeMats readMats)

/-- A file of matrices as far as it has been written: header groups, group `mats` with its two datasets. -/
structure Content where
  header : Bool := false
  mats : Bool := false
  matrix : Option Stored := none
  diag : Bool := false

variable {N : Type} [DecidableEq N]

/-- The directory. -/
abbrev FS (N : Type) := N → Option Content

/-- Change of the open file (nothing happens to a name without a file). -/
def upd (fs : FS N) (name : N) (f : Content → Content) : FS N := fun x => if x = name then (fs x).map f else fs x

/-- The effects of `write_mats`, one after the other — epsmat_read_write.py:126-171: `h5py.File(filename, "w")` (makes an empty file in place of any other), `create_empty_h5`, the computation of the padded
matrices (which may raise), `create_group("mats")`, the two datasets, `close`. -/
def steps (name : N) (ms : List Mat) : List (FS N → Except PyErr (FS N)) :=
  [fun fs => .ok fun x => if x = name then some {} else fs x,
   fun fs => .ok (upd fs name fun c => { c with header := true }),
   fun fs => match writeMats ms with
    | .error e => .error e
    | .ok _ => .ok fs,
   fun fs => .ok (upd fs name fun c => { c with mats := true }),
   fun fs => match writeMats ms with
    | .error e => .error e
    | .ok s => .ok (upd fs name fun c => { c with matrix := some s }),
   fun fs => .ok (upd fs name fun c => { c with diag := true }),
   fun fs => .ok fs]

/-- Effects carried out in order until one raises: the directory then, and the exception. -/
def exec : List (FS N → Except PyErr (FS N)) → FS N → FS N × Option PyErr
  | [], fs => (fs, none)
  | a :: as, fs => match a fs with
    | .error e => (fs, some e)
    | .ok fs' => exec as fs'

/-- `write_mats` stopped after `k` effects; `k = 7` (or more) is the complete call. -/
def writeTo (k : ℕ) (name : N) (ms : List Mat) (fs : FS N) : FS N × Option PyErr := exec ((steps name ms).take k) fs

/-- `Epsilon.write_epsmat` stopped after `k` effects — epsilon.py:426-436: `if len(epsinvmats) > 0: write_mats(...)`. -/
def writeEpsmat (k : ℕ) (name : N) (ms : List Mat) (fs : FS N) : FS N × Option PyErr := if 0 < ms.length then writeTo k name ms fs else (fs, none)

/-- `Epsilon.read_epsmat` — epsilon.py:438-450, epsmat_read_write.py:174-187: `OSError` without a file, `KeyError` without the dataset. -/
noncomputable def readEpsmat (name : N) (fs : FS N) : Except PyErr (List Mat) :=
  match fs name with
  | none => .error .os
  | some c => if c.mats then match c.matrix with
    | some s => .ok (readMats s)
    | none => .error .key
  else .error .key

/-- A sequence of complete `write_epsmat` calls; exceptions are caught by the caller. -/
def history (calls : List (N × List Mat)) (fs : FS N) : FS N := calls.foldl (fun fs c => (writeEpsmat 7 c.1 c.2 fs).1) fs

/-! ## Single arrays -/

/-- An array by its shape and its entries. -/
structure Arr (α : Type) where
  shape : List ℕ
  get : List ℕ → α

/-- `cplx_to_real` of an array — h5_utils.py:27-31: a new last axis of length 2. -/
def toReal (a : Arr ℂ) : Arr ℝ := ⟨a.shape ++ [2], fun i => if i.getLast? = some 0 then (a.get i.dropLast).re else (a.get i.dropLast).im⟩

/-- `real_to_cplx` of an array — h5_utils.py:34-38: `arr[..., 0] + 1j * arr[..., 1]` (`IndexError` unless the last axis has both entries). -/
noncomputable def toCplx (a : Arr ℝ) : Except PyErr (Arr ℂ) :=
  match a.shape.getLast? with
  | none => .error .index
  | some m => if 2 ≤ m then .ok ⟨a.shape.dropLast, fun i => (a.get (i ++ [0]) : ℂ) + Complex.I * (a.get (i ++ [1]) : ℂ)⟩ else .error .index

/-- What `h5_to_arr` returns: real or complex. -/
inductive Out
  | real (a : Arr ℝ)
  | cplx (a : Arr ℂ)

/-- `arr_to_h5(arr, filename, name, cplx=True)` — h5_utils.py:55-62: a file with one dataset. -/
def arrToH5 (a : Arr ℂ) (name : String) : List (String × Arr ℝ) := [(name, toReal a)]

/-- `arr_to_h5(arr, filename, name, cplx=False)` of a real array. -/
def arrToH5Real (a : Arr ℝ) (name : String) : List (String × Arr ℝ) := [(name, a)]

/-- `h5_to_arr(filename, cplx, addr)` — h5_utils.py:44-52; the datasets come in the order of `f.keys()`. An empty `addr` counts as none. -/
noncomputable def h5ToArr (f : List (String × Arr ℝ)) (cplx : Bool) (addr : Option String) : Except PyErr Out :=
  match addr with
  | none => first f
  | some s => if s = "" then first f else match f.find? fun p => p.1 = s with
    | none => .error .key
    | some p => .ok (.real p.2)
where
  /-- The first dataset of the file. -/
  first (f : List (String × Arr ℝ)) : Except PyErr Out := match f with
    | [] => .error .index
    | p :: _ => if cplx then (toCplx p.2).map .cplx else .ok (.real p.2)

end Verif.EpsFile
