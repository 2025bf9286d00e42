import Verif.Model.BGWInp

/-!
# Model of the reader of `sigma_hp.log` (/repo/src/qtm/interfaces/bgw/sigma_hp_reader.py)

A file is the list of its lines; `int` and `float` are arbitrary partial functions (`Nums`), integers are stored as reals.
-/

namespace Verif.SigmaHP

open Verif.QEInp (Str Nums words strip dictSet dictGet)
open Verif.BGW (word)

/-- Where the reader is: in the `for` loop (14), or at one of the `next(f)` calls — lines 31, 33, 43/52. -/
inductive Mode
  | top
  | skip (ik : ℤ)
  | hdr (ik : ℤ)
  | rows (ik : ℤ)

/-- `data_dict`: the entries of k-points, `"header"`, and the other lines. -/
structure St where
  mode : Mode := .top
  data : List (ℤ × List (Str × List ℝ)) := []
  header : Option (List Str) := none
  other : List (Str × List Str) := []

/-- `line.strip().startswith("k =")` — line 19. -/
def isK (line : Str) : Bool := (chars! "k =").isPrefixOf (strip line)

/-- `line.startswith("=====")` — line 54. -/
def isEnd (line : Str) : Bool := (chars! "=====").isPrefixOf line

/-- `data_dict[ik][h].append(x)`, `KeyError` for a missing entry. -/
def append (data : List (ℤ × List (Str × List ℝ))) (ik : ℤ) (h : Str) (x : Option ℝ) : Except PyErr (List (ℤ × List (Str × List ℝ))) :=
  match dictGet data ik with
  | none => .error .key
  | some cols => match dictGet cols h with
    | none => .error .key
    | some l => match x with
      | none => .error .value
      | some x => .ok (dictSet data ik (dictSet cols h (l ++ [x])))

/-- The loop over the columns of a row — sigma_hp_reader.py:48-51; `i` is the number of the first word. -/
def rowLoop (N : Nums) (hdr : List Str) (ik : ℤ) : ℕ → List Str → List (ℤ × List (Str × List ℝ)) → Except PyErr (List (ℤ × List (Str × List ℝ)))
  | _, [], d => .ok d
  | i, w :: ws, d => match hdr[i]? with
    | none => .error .index
    | some h => match append d ik h (N.float w) with
      | .error e => .error e
      | .ok d => rowLoop N hdr ik (i + 1) ws d

/-- One line — sigma_hp_reader.py:14-64. -/
def step (N : Nums) (s : St) (line : Str) : Except PyErr St :=
  match s.mode with
  | .top =>
    if isK line then
      match word N.int (words line) 7 with
      | .error e => .error e
      | .ok ik => match word N.float (words line) 2 with
        | .error e => .error e
        | .ok x => match word N.float (words line) 3 with
          | .error e => .error e
          | .ok y => match word N.float (words line) 4 with
            | .error e => .error e
            | .ok z => .ok { s with mode := .skip ik, data := dictSet s.data ik [(chars! "kvec", [x, y, z])] }
    else match words line with
      | [] => .ok s
      | w :: ws =>
        let v := ws.filter fun u => decide (u ≠ chars! "=")
        if w = chars! "header" then .ok { s with header := some v } else .ok { s with other := dictSet s.other w v }
  | .skip ik => .ok { s with mode := .hdr ik }
  | .hdr ik =>
    let h := s.header.getD (words line)
    let cols := h.foldl (fun c k => dictSet c k []) ((dictGet s.data ik).getD [])
    .ok { s with mode := .rows ik, header := some h, data := dictSet s.data ik cols }
  | .rows ik =>
    match words line with
    | [] => .ok { s with mode := .top }
    | w :: ws => match append s.data ik (chars! "n") (Option.map (fun z : ℤ => (z : ℝ)) (N.int w)) with
      | .error e => .error e
      | .ok d => match rowLoop N (s.header.getD []) ik 1 ws d with
        | .error e => .error e
        | .ok d => .ok { s with data := d }

/-- The whole file: `=====` at the beginning of a line ends it (54-55), the end of the file inside a block is `StopIteration`. -/
def run (N : Nums) : List Str → St → Except PyErr St
  | [], s => match s.mode with
    | .top => .ok s
    | _ => .error .stopIteration
  | l :: ls, s =>
    match s.mode, isK l, isEnd l with
    | .top, false, true => .ok s
    | _, _, _ => match step N s l with
      | .error e => .error e
      | .ok s => run N ls s

/-- `read_sigma_hp` — sigma_hp_reader.py:6-66 -/
def readSigmaHP (N : Nums) (lines : List Str) : Except PyErr St := run N lines {}

end Verif.SigmaHP
