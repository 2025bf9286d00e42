import Mathlib.Data.List.Basic
import Mathlib.Data.String.Basic
import Mathlib.Order.Basic
import Verif.Model.Py

/-!
# Model of the HDF5 dictionary functions (/repo/src/qtm/interfaces/bgw/h5_utils.py, h5_to_np_dict.py)

A nested dictionary, an HDF5 group and an HDF5 file are trees with named branches. Keys are plain names (no `/`, not empty), data sets hold the array they were created from.
-/

namespace Verif.H5

/-- Entries of a dictionary or group, in order. -/
inductive T (α : Type*)
  | nil
  | leaf (key : String) (a : α) (rest : T α)
  | grp (key : String) (sub : T α) (rest : T α)

variable {α : Type*}

/-- `d[key]` -/
def T.find : T α → String → Option (α ⊕ T α)
  | .nil, _ => none
  | .leaf k a r, key => if k = key then some (.inl a) else r.find key
  | .grp k s r, key => if k = key then some (.inr s) else r.find key

/-- What is found at a path of keys: `none` nothing, `some none` a group, `some (some a)` an array. -/
def T.at : T α → List String → Option (Option α)
  | _, [] => some none
  | t, k :: ks =>
    match t.find k with
    | none => none
    | some (.inl a) => if ks = [] then some (some a) else none
    | some (.inr s) => s.at ks

/-- A new entry of an HDF5 group; the names of a group are kept in alphabetical order (h5py's default). -/
def T.insA (key : String) (v : α ⊕ T α) : T α → T α
  | .nil => match v with | .inl a => .leaf key a .nil | .inr s => .grp key s .nil
  | .leaf k a r => if key < k then (match v with | .inl b => .leaf key b (.leaf k a r) | .inr s => .grp key s (.leaf k a r)) else .leaf k a (T.insA key v r)
  | .grp k s r => if key < k then (match v with | .inl b => .leaf key b (.grp k s r) | .inr s' => .grp key s' (.grp k s r)) else .grp k s (T.insA key v r)

/-- Whether groups of the source are `dict`s or `h5py.Group`s. -/
inductive Kind
  | dict | group
  deriving DecidableEq

/-- `write_recursive_h5(h, d, sourcetype)` — h5_utils.py:75-83. The recursive call of line 80 does not pass `sourcetype` on. An existing name is a `ValueError`, something that is not an array
as data of a data set a `TypeError`. -/
def writeRec (kind : Kind) : Kind → T α → T α → Except PyErr (T α)
  | _, .nil, h => .ok h
  | st, .leaf k a r, h => if (h.find k).isSome then .error .value else writeRec kind st r (h.insA k (.inl a))
  | st, .grp k s r, h =>
    if st = kind then
      if (h.find k).isSome then .error .value
      else
        match writeRec kind .dict s .nil with
        | .error e => .error e
        | .ok s' => writeRec kind st r (h.insA k (.inr s'))
    else .error .type

/-- `dict_to_h5(d, filename)` — h5_utils.py:68-72 -/
def dictToH5 (d : T α) : Except PyErr (T α) := writeRec .dict .dict d .nil

/-- `retrieve_dict` — h5_utils.py:111-120, h5_to_np_dict.py:16-29. The names of a group are distinct, so every assignment adds an entry. -/
def retrieve : T α → T α
  | .nil => .nil
  | .leaf k a r => .leaf k a (retrieve r)
  | .grp k s r => .grp k (retrieve s) (retrieve r)

/-- Copying the group `mf_header` of another file — epsmat_read_write.py:131-136. -/
def copyHeader (aux : T α) : Except PyErr (T α) := writeRec .group .group aux .nil

end Verif.H5
