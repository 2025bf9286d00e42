import Mathlib.Data.Real.Basic
import Mathlib.Data.List.Basic
import Verif.Model.Py

/-!
# Model of the PWscf input reader

/repo/src/qtm/interfaces/qe/read_inp.py. A file is the list of its lines, a string is a list of characters. Simplifications:
`str.lower` acts on ASCII letters only; the white space of `str.strip`/`str.split` is space, tab, newline, carriage return, vertical tab and form
feed; Python's `int(s)` and `float(s)` are arbitrary partial functions `Nums` (all theorems hold for every choice); a missing file
(lines 100-104) is not modelled.
-/

namespace Verif.QEInp

abbrev Str := List Char

open Lean in
/-- `chars! "abc"` is the list literal `['a', 'b', 'c']`. -/
macro "chars!" s:str : term => do
  let cs := s.getString.toList.map fun c => (Syntax.mkCharLit c : TSyntax `term)
  `(([$(cs.toArray),*] : List Char))

def isWs (c : Char) : Bool := c == ' ' || c == '\t' || c == '\n' || c == '\r' || c == '\x0b' || c == '\x0c'

/-- `s.lstrip(chars)` -/
def lstripBy (p : Char → Bool) (s : Str) : Str := s.dropWhile p

/-- `s.rstrip(chars)` -/
def rstripBy (p : Char → Bool) (s : Str) : Str := (s.reverse.dropWhile p).reverse

/-- `s.strip(chars)` -/
def stripBy (p : Char → Bool) (s : Str) : Str := rstripBy p (lstripBy p s)

/-- `s.strip()` -/
def strip (s : Str) : Str := stripBy isWs s

/-- `s.lower()` -/
def lower (s : Str) : Str := s.map Char.toLower

/-- `s.split(c)` for a one-character separator: always at least one piece. -/
def split (c : Char) : Str → List Str
  | [] => [[]]
  | x :: xs =>
    if x = c then [] :: split c xs
    else match split c xs with
      | [] => [[x]]
      | h :: t => (x :: h) :: t

/-- `s.split()` -/
def words (s : Str) : List Str :=
  ((s.foldr (fun ch acc => if isWs ch then [] :: acc else match acc with
    | [] => [[ch]]
    | h :: t => (ch :: h) :: t) [[]]).filter fun w => !w.isEmpty)

/-- Insertion-ordered Python dictionary: `d[k] = v` keeps the position of an existing key. -/
def dictSet {α β : Type} [DecidableEq α] : List (α × β) → α → β → List (α × β)
  | [], k, v => [(k, v)]
  | (k', v') :: t, k, v => if k' = k then (k', v) :: t else (k', v') :: dictSet t k v

/-- `d.get(k)` -/
def dictGet {α β : Type} [DecidableEq α] : List (α × β) → α → Option β
  | [], _ => none
  | (k', v') :: t, k => if k' = k then some v' else dictGet t k

/-- Declared types of the namelist fields (`Optional[T]` is read as `T`, read_inp.py:169-170). -/
inductive Ty
  | str
  | int
  | float
  | bool
  | dict
  deriving DecidableEq

inductive Val
  | str (s : Str)
  | int (z : ℤ)
  | float (x : ℝ)
  | bool (b : Bool)
  | dict (d : List (ℤ × ℝ))

/-- Python's `int(s)` and `float(s)`; `none` is `ValueError`. -/
structure Nums where
  int : Str → Option ℤ
  float : Str → Option ℝ

/-- Fields of `Control` — read_inp.py:4-14; the flag says that there is no default. -/
def controlFields : List (Str × Ty × Bool) :=
  [(chars! "calculation", .str, false), (chars! "title", .str, false), (chars! "verbosity", .str, false), (chars! "restart_mode", .str, false),
   (chars! "iprint", .int, false), (chars! "outdir", .str, false), (chars! "prefix", .str, false), (chars! "max_seconds", .float, false),
   (chars! "disk_io", .str, false), (chars! "pseudo_dir", .str, false)]

/-- Fields of `System` — read_inp.py:17-48 -/
def systemFields : List (Str × Ty × Bool) :=
  [(chars! "ibrav", .int, true), (chars! "nat", .int, true), (chars! "ntyp", .int, true), (chars! "ecutwfc", .float, true),
   (chars! "celldm", .dict, false), (chars! "a", .float, false), (chars! "b", .float, false), (chars! "c", .float, false),
   (chars! "cosab", .float, false), (chars! "cosac", .float, false), (chars! "cosbc", .float, false), (chars! "ecutrho", .float, false),
   (chars! "nr1", .int, false), (chars! "nr2", .int, false), (chars! "nr3", .int, false), (chars! "nspin", .int, false),
   (chars! "noncolin", .bool, false), (chars! "nbnd", .int, false), (chars! "starting_magnetization", .dict, false),
   (chars! "occupations", .str, false), (chars! "degauss", .float, false), (chars! "smearing", .str, false), (chars! "nosym", .bool, false),
   (chars! "nosym_evc", .bool, false), (chars! "noinv", .bool, false), (chars! "input_dft", .str, false)]

/-- Fields of `Electrons` — read_inp.py:51-62 -/
def electronsFields : List (Str × Ty × Bool) :=
  [(chars! "electron_maxstep", .int, false), (chars! "conv_thr", .float, false), (chars! "mixing_mode", .str, false),
   (chars! "mixing_beta", .float, false), (chars! "mixing_ndim", .int, false), (chars! "diagonalization", .str, false),
   (chars! "diago_thr_init", .float, false), (chars! "diago_david_ndim", .int, false), (chars! "diago_full_acc", .bool, false),
   (chars! "startingpot", .str, false), (chars! "startingwfc", .str, false)]

/-- The namelists of `PWscfIn` — read_inp.py:81-94 (`ions`, `cell`, `fcp`, `rism` have no fields) -/
def namelistFields (name : Str) : Option (List (Str × Ty × Bool)) :=
  if name = chars! "control" then some controlFields
  else if name = chars! "system" then some systemFields
  else if name = chars! "electrons" then some electronsFields
  else if name = chars! "ions" ∨ name = chars! "cell" ∨ name = chars! "fcp" ∨ name = chars! "rism" then some []
  else none

/-- The cards of `PWscfIn` — read_inp.py:86-89 -/
def isCard (name : Str) : Bool :=
  name = chars! "atomic_species" || name = chars! "atomic_positions" || name = chars! "k_points" || name = chars! "cell_parameters"

def fieldType (fields : List (Str × Ty × Bool)) (par : Str) : Option Ty :=
  (fields.find? fun f => f.1 = par).map fun f => f.2.1

/-- `parse_typ` — read_inp.py:167-188 (`dict` is not passed to it) -/
def parseTyp (N : Nums) (t : Ty) (val : Str) : Except PyErr Val :=
  match t with
  | .bool => if val = chars! ".true" then .ok (.bool true) else if val = chars! ".false" then .ok (.bool false) else .error .value
  | .float =>
    match N.float (val.map fun c => if c = 'd' then 'e' else c) with
    | some x => .ok (.float x)
    | none => .error .value
  | .int =>
    match N.int val with
    | some z => .ok (.int z)
    | none => .error .value
  | .str => .ok (.str val)
  | .dict => .error .type

abbrev Data := List (Str × Val)

/-- `data[par][idx] = x` with `data[par] = {}` first if absent — read_inp.py:195-199 -/
def setEntry (data : Data) (par : Str) (i : ℤ) (x : ℝ) : Data :=
  match dictGet data par with
  | some (.dict d) => dictSet data par (.dict (dictSet d i x))
  | _ => dictSet data par (.dict [(i, x)])

/-- One `key = value` piece — read_inp.py:150-203. `idx` is `None` (`TypeError` in `int(None)`) when there is no parenthesis. -/
def assign (N : Nums) (fields : List (Str × Ty × Bool)) (data : Data) (parval : Str) : Except PyErr Data :=
  match split '=' parval with
  | [par, val] =>
    let par := strip par
    let val := stripBy (· == '\'') (strip val)
    let pi : Except PyErr (Str × Option Str) :=
      if '(' ∈ par then
        (match split '(' par with
          | [p, i] => .ok (p, some (rstripBy (· == ')') i))
          | _ => .error .value)
      else .ok (par, none)
    match pi with
    | .error e => .error e
    | .ok (par, idx) =>
      match fieldType fields par with
      | none => .error .value
      | some .dict =>
        match idx with
        | none => .error .type
        | some i =>
          (match N.int i with
            | none => .error .value
            | some i =>
              match N.float (val.map fun c => if c = 'd' then 'e' else c) with
              | none => .error .value
              | some x => .ok (setEntry data par i x))
      | some t =>
        match parseTyp N t val with
        | .error e => .error e
        | .ok v => .ok (dictSet data par v)
  | _ => .error .value

def assignAll (N : Nums) (fields : List (Str × Ty × Bool)) : Data → List Str → Except PyErr Data
  | data, [] => .ok data
  | data, p :: ps =>
    match assign N fields data p with
    | .error e => .error e
    | .ok d => assignAll N fields d ps

/-- The body of a namelist up to the line starting with `/` — read_inp.py:139-203; result: the data and the remaining lines. At the end of the
file `read_line` returns `""` (line 113), and `""[0]` is an `IndexError`, as for a blank line. -/
def nlBody (N : Nums) (fields : List (Str × Ty × Bool)) : List Str → Data → Except PyErr (Data × List Str)
  | [], _ => .error .index
  | l :: rest, data =>
    let line := rstripBy (· == ',') (strip (lower l))
    match lstripBy isWs line with
    | [] => .error .index
    | ch :: _ =>
      if ch = '!' ∨ ch = '#' then nlBody N fields rest data
      else if ch = '/' then .ok (data, rest)
      else
        match assignAll N fields data (split ',' line) with
        | .error e => .error e
        | .ok d => nlBody N fields rest d

/-- A converted token of a card line — read_inp.py:266-269 -/
inductive Tok
  | str (s : Str)
  | float (x : ℝ)

/-- A line of a card: `K_POINTS` lines are kept as text (`data_typ is str`), the others are split and converted. -/
inductive CardLine
  | raw (s : Str)
  | toks (l : List Tok)

structure Out where
  namelists : List (Str × Data)
  cards : List (Str × Str × List CardLine)

/-- The element types of the card lines — read_inp.py:86-89: `true` for `float`, `false` for `str`; `none` for raw text. -/
def cardTypes (card : Str) : Option (List Bool) :=
  if card = chars! "atomic_species" then some [false, true, false]
  else if card = chars! "atomic_positions" then some [false, true, true, true]
  else if card = chars! "cell_parameters" then some [true, true, true]
  else none

/-- `for i, typ in enumerate(...): line[i] = typ(line[i])` — read_inp.py:266-269 -/
def convToks (N : Nums) : List Bool → List Str → Except PyErr (List Tok)
  | [], ws => .ok (ws.map .str)
  | _ :: _, [] => .error .index
  | true :: ts, w :: ws =>
    match N.float w with
    | none => .error .value
    | some x =>
      match convToks N ts ws with
      | .error e => .error e
      | .ok r => .ok (.float x :: r)
  | false :: ts, w :: ws =>
    match convToks N ts ws with
    | .error e => .error e
    | .ok r => .ok (.str w :: r)

def convLine (N : Nums) (card : Str) (line : Str) : Except PyErr CardLine :=
  match cardTypes card with
  | none => .ok (.raw line)
  | some ts =>
    match convToks N ts (words line) with
    | .error e => .error e
    | .ok r => .ok (.toks r)

/-- The lines of a card — read_inp.py:259-270; `cs` is `case_sensitive`. -/
def cardLines (N : Nums) (card : Str) (cs : Bool) : ℕ → List Str → Except PyErr (List CardLine × List Str)
  | 0, rest => .ok ([], rest)
  | _ + 1, [] => .error .value
  | k + 1, l :: rest =>
    let line := if cs then strip l else strip (lower l)
    if line = [] then .error .value
    else
      match convLine N card line with
      | .error e => .error e
      | .ok r =>
        match cardLines N card cs k rest with
        | .error e => .error e
        | .ok (rs, rest) => .ok (r :: rs, rest)

/-- The header of a card — read_inp.py:214-226: name and option (`str(None)` is `"None"`; the option of `ATOMIC_SPECIES` is not used). -/
def cardHeader (line : Str) : Except PyErr (Str × Str) :=
  match (if '{' ∈ line then split '{' line else words line) with
  | [c] => .ok (lower (strip c), chars! "None")
  | [c, o] => .ok (lower (strip c), lower (strip (rstripBy (· == '}') o)))
  | _ => .error .value

/-- `data_all["system"].<key>` for the integer fields `ntyp`, `nat` -/
def sysInt (o : Out) (key : Str) : Except PyErr ℤ :=
  match dictGet o.namelists (chars! "system") with
  | none => .error .key
  | some d =>
    match dictGet d key with
    | some (.int z) => .ok z
    | _ => .error .attribute

/-- Number of lines and case sensitivity of a card, and the lines after a `K_POINTS` count — read_inp.py:230-257 -/
def cardCount (N : Nums) (o : Out) (card option : Str) (rest : List Str) : Except PyErr (ℕ × Bool × List Str) :=
  if card = chars! "atomic_species" then
    (match sysInt o (chars! "ntyp") with
      | .error e => .error e
      | .ok z => if z ≤ 0 then .error .value else .ok (z.toNat, true, rest))
  else if card = chars! "atomic_positions" then
    (match sysInt o (chars! "nat") with
      | .error e => .error e
      | .ok z => if z ≤ 0 then .error .value else .ok (z.toNat, true, rest))
  else if card = chars! "k_points" then
    (if option = chars! "automatic" then .ok (1, false, rest)
    else match N.int (strip (lower (rest.headD []))) with
      | none => .error .value
      | some z => if z ≤ 0 then .error .value else .ok (z.toNat, false, rest.tail))
  else .ok (3, false, rest)

/-- `namelist_typ(**data)` — a required field without value is a `TypeError` (only `ValueError` is caught, read_inp.py:205-210) -/
def requiredGiven (fields : List (Str × Ty × Bool)) (d : Data) : Bool :=
  fields.all fun f => !f.2.2 || (dictGet d f.1).isSome

/-- One round of the main loop — read_inp.py:122-271: a blank line, a namelist or a card. `name` not a card: `KeyError` for an unknown name
(line 223), `AttributeError` for a namelist name used as a card. -/
def item (N : Nums) (o : Out) (l : Str) (rest : List Str) : Except PyErr (Out × List Str) :=
  match strip (lower l) with
  | [] => .ok (o, rest)
  | '&' :: name =>
    (match namelistFields name with
      | none => if isCard name then .error .attribute else .error .value
      | some fields =>
        match nlBody N fields rest [] with
        | .error e => .error e
        | .ok (d, rest) =>
          if requiredGiven fields d then .ok ({ o with namelists := dictSet o.namelists name d }, rest) else .error .type)
  | line =>
    match cardHeader line with
    | .error e => .error e
    | .ok (card, option) =>
      if isCard card then
        (match cardCount N o card option rest with
          | .error e => .error e
          | .ok (k, cs, rest) =>
            match cardLines N card cs k rest with
            | .error e => .error e
            | .ok (ls, rest) => .ok ({ o with cards := dictSet o.cards card (option, ls) }, rest))
      else if (namelistFields card).isSome then .error .attribute
      else .error .key

/-- `while iline < numlines` — read_inp.py:122; each round consumes at least one line, so `fuel = numlines` suffices (proved). -/
def mainLoop (N : Nums) : ℕ → List Str → Out → Except PyErr Out
  | _, [], o => .ok o
  | 0, _ :: _, _ => .error .runtime
  | fuel + 1, l :: rest, o =>
    match item N o l rest with
    | .error e => .error e
    | .ok (o, rest) => mainLoop N fuel rest o

/-- `PWscfIn.from_file` — read_inp.py:96-273; `cls(**data_all)` needs the three namelists and three cards (`TypeError`). -/
def fromLines (N : Nums) (text : List Str) : Except PyErr Out :=
  match mainLoop N text.length text ⟨[], []⟩ with
  | .error e => .error e
  | .ok o =>
    if (dictGet o.namelists (chars! "control")).isSome ∧ (dictGet o.namelists (chars! "system")).isSome ∧
        (dictGet o.namelists (chars! "electrons")).isSome ∧ (dictGet o.cards (chars! "atomic_species")).isSome ∧
        (dictGet o.cards (chars! "atomic_positions")).isSome ∧ (dictGet o.cards (chars! "k_points")).isSome then .ok o
    else .error .type

end Verif.QEInp
