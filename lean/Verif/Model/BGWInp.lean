import Verif.Model.QEInp

/-!
# Model of the BerkeleyGW text readers

/repo/src/qtm/interfaces/bgw/inp.py (`read_epsilon_inp`, `read_sigma_inp`, `read_vxc`), epsinp.py, sigmainp.py. A file is the
list of its lines. Simplifications: `int`, `float` are arbitrary partial functions (`Nums`); the JSON text assembled from the parameters
is decoded parameter by parameter, by an arbitrary partial function on the value's word (`none` is `JSONDecodeError`, a `ValueError`) — words with
unbalanced quotes, which would merge with their neighbours, are outside the model.
-/

namespace Verif.BGW

open Verif.QEInp (Str Nums words strip dictSet dictGet)

/-- What the scan of a file collects — inp.py:146-149, 217-219: the words of the parameters (in order of appearance), q/k-points, `is_q0`
flags, scale factors and options. -/
structure Acc where
  pars : List (Str × Str) := []
  pts : List (List ℝ) := []
  isq0 : List Bool := []
  scale : List ℝ := []
  opts : List Str := []

/-- `list(map(float, ws))`. -/
def floats (N : Nums) : List Str → Except PyErr (List ℝ)
  | [] => .ok []
  | w :: ws => match N.float w with
    | none => .error .value
    | some x => match floats N ws with
      | .error e => .error e
      | .ok xs => .ok (x :: xs)

/-- `f(ws[i])` with `IndexError` for a missing word and `ValueError` for one that cannot be converted. -/
def word {β : Type} (f : Str → Option β) (ws : List Str) (i : ℕ) : Except PyErr β :=
  match ws[i]? with
  | none => .error .index
  | some w => match f w with
    | none => .error .value
    | some x => .ok x

/-- One row of the q-point block — inp.py:163-165. -/
def epsRow (N : Nums) (a : Acc) (ws : List Str) : Except PyErr Acc :=
  match floats N (ws.take 3) with
  | .error e => .error e
  | .ok q => match word N.int ws 4 with
    | .error e => .error e
    | .ok f => match word N.float ws 3 with
      | .error e => .error e
      | .ok s => .ok { a with pts := a.pts ++ [q], isq0 := a.isq0 ++ [decide (f ≠ 0)], scale := a.scale ++ [s] }

/-- One row of the k-point block — inp.py:233-235. -/
def sigRow (N : Nums) (a : Acc) (ws : List Str) : Except PyErr Acc :=
  match floats N (ws.take 3) with
  | .error e => .error e
  | .ok q => match word N.float ws 3 with
    | .error e => .error e
    | .ok s => .ok { a with pts := a.pts ++ [q], scale := a.scale ++ [s] }

/-- The loop over the lines (given by their words) — inp.py:151-177, 221-246; `inb` says that a block has been begun; `hdr` is `qpoints` or
`kpoints`. The block's lines are taken with `next(file)` (`StopIteration` at the end of the file), a blank one has no word `0`. -/
def scan (hdr : Str) (row : Acc → List Str → Except PyErr Acc) : Bool → List (List Str) → Acc → Except PyErr Acc
  | false, [], a => .ok a
  | true, [], _ => .error .stopIteration
  | true, [] :: _, _ => .error .index
  | true, (w :: ws) :: rest, a =>
    if w = chars! "end" then scan hdr row false rest a
    else match row a (w :: ws) with
      | .error e => .error e
      | .ok a' => scan hdr row true rest a'
  | false, [] :: rest, a => scan hdr row false rest a
  | false, [w] :: rest, a =>
    if w = chars! "begin" then .error .index
    else scan hdr row false rest { a with opts := a.opts ++ [w] }
  | false, (w :: v :: _) :: rest, a =>
    if w = chars! "begin" ∧ v = hdr then scan hdr row true rest a
    else scan hdr row false rest { a with pars := a.pars ++ [(w, v)] }

/-- Values of the tuple's fields (and of the input object's attributes). -/
inductive Field (V : Type)
  | json (v : V)
  | points (l : List (List ℝ))
  | flags (l : List Bool)
  | options (l : List Str)
  | true_

/-- `json.loads` of the collected parameters — inp.py:179-183, 247-250: a later value replaces an earlier one with the same name. -/
def jsonDict {V : Type} (json : Str → Option V) : List (Str × Str) → List (Str × Field V) → Except PyErr (List (Str × Field V))
  | [], d => .ok d
  | (k, w) :: t, d => match json w with
    | none => .error .value
    | some v => jsonDict json t (dictSet d k (.json v))

/-- `dict_to_namedtuple` — inp.py:20-28: every key must be a legal field name. -/
def toTuple {V : Type} (legal : Str → Bool) (d : List (Str × Field V)) : Except PyErr (List (Str × Field V)) :=
  if (d.map Prod.fst).all legal then .ok d else .error .value

/-- `read_epsilon_inp` — inp.py:130-191. -/
def readEps {V : Type} (N : Nums) (json : Str → Option V) (legal : Str → Bool) (text : List Str) : Except PyErr (List (Str × Field V)) :=
  match scan (chars! "qpoints") (epsRow N) false (text.map words) {} with
  | .error e => .error e
  | .ok a => match jsonDict json a.pars [] with
    | .error e => .error e
    | .ok d => toTuple legal (dictSet (dictSet (dictSet d (chars! "qpts") (.points a.pts)) (chars! "is_q0") (.flags a.isq0))
        (chars! "options") (.options a.opts))

/-- `read_sigma_inp` — inp.py:194-257. -/
def readSig {V : Type} (N : Nums) (json : Str → Option V) (legal : Str → Bool) (text : List Str) : Except PyErr (List (Str × Field V)) :=
  match scan (chars! "kpoints") (sigRow N) false (text.map words) {} with
  | .error e => .error e
  | .ok a => match jsonDict json a.pars [] with
    | .error e => .error e
    | .ok d => toTuple legal (dictSet (dictSet d (chars! "kpts") (.points a.pts)) (chars! "options") (.options a.opts))

/-- `eps_nt.options` — what the last `dictSet` stored. -/
def optionsOf {V : Type} (nt : List (Str × Field V)) : List Str :=
  match dictGet nt (chars! "options") with
  | some (.options l) => l
  | _ => []

/-- `for field in nt._fields: if field in obj.__dir__(): obj.field = nt.field` — epsinp.py:264-267, sigmainp.py:349-352. `known` are the names in
the object's `__dir__()`; an object is the dictionary of the attributes set on it. -/
def setFields {V : Type} (known : Str → Bool) : List (Str × Field V) → List (Str × Field V) → List (Str × Field V)
  | [], o => o
  | (k, v) :: t, o => setFields known t (if known k then dictSet o k v else o)

/-- `for option in options: if cond(option): obj.option = True` — epsinp.py:269-272, sigmainp.py:354-357. -/
def setOptions {V : Type} (cond : Str → Bool) : List Str → List (Str × Field V) → List (Str × Field V)
  | [], o => o
  | k :: t, o => setOptions cond t (if cond k then dictSet o k .true_ else o)

/-- `Epsinp.from_epsilon_inp` — epsinp.py:252-274. `dunder` are the names every tuple's `__dir__()` holds; the options are looked up in the tuple
(`eps_nt.__dir__()`), not in the object. -/
def fromEps {V : Type} (N : Nums) (json : Str → Option V) (legal known dunder : Str → Bool) (text : List Str) :
    Except PyErr (List (Str × Field V)) :=
  match readEps N json legal text with
  | .error e => .error e
  | .ok nt => .ok (setOptions (fun o => dunder o || decide (o ∈ nt.map Prod.fst)) (optionsOf nt) (setFields known nt []))

/-- `Sigmainp.validate` — sigmainp.py:331-335; `isNone` tells the JSON value `null`. -/
def validate {V : Type} (isNone : V → Bool) (o : List (Str × Field V)) : Bool :=
  let given (k : Str) : Bool := match dictGet o k with
    | none => false
    | some (.json v) => !isNone v
    | some _ => true
  given (chars! "band_index_max") && given (chars! "band_index_min")
    && (match dictGet o (chars! "kpts") with
      | some (.points l) => decide (0 < l.length)
      | _ => false)

/-- `Sigmainp.from_sigma_inp` — sigmainp.py:337-361. -/
def fromSig {V : Type} (N : Nums) (json : Str → Option V) (legal known : Str → Bool) (isNone : V → Bool) (text : List Str) :
    Except PyErr (List (Str × Field V)) :=
  match readSig N json legal text with
  | .error e => .error e
  | .ok nt =>
    let o := setOptions known (optionsOf nt) (setFields known nt [])
    if validate isNone o then .ok o else .error .assertion

/-! ## vxc.dat -/

/-- The `kpt[3]` lines of one k-point — inp.py:122-124: the third word of every line (at the end of the file `readline` returns an empty line). -/
def vxcBands (N : Nums) : ℕ → List (List Str) → Except PyErr (List ℝ × List (List Str))
  | 0, ls => .ok ([], ls)
  | n + 1, ls =>
    match word N.float (ls.headD []) 2 with
    | .error e => .error e
    | .ok x => match vxcBands N n ls.tail with
      | .error e => .error e
      | .ok (xs, rest) => .ok (x :: xs, rest)

/-- `read_vxc` — inp.py:106-127: k-points (three numbers, number of bands) with their values; the first blank line ends the reading. `fuel` bounds
the number of k-points (every k-point consumes a line). -/
def readVxc (N : Nums) : ℕ → List (List Str) → Except PyErr (List (List ℝ × ℤ × List ℝ))
  | 0, _ => .ok []
  | _ + 1, [] => .ok []
  | _ + 1, [] :: _ => .ok []
  | fuel + 1, (w :: ws) :: rest =>
    match floats N ((w :: ws).take 3) with
    | .error e => .error e
    | .ok k => match word N.int (w :: ws) 3 with
      | .error e => .error e
      | .ok n => match vxcBands N n.toNat rest with
        | .error e => .error e
        | .ok (xs, rest') => match readVxc N fuel rest' with
          | .error e => .error e
          | .ok t => .ok ((k, n, xs) :: t)

end Verif.BGW
