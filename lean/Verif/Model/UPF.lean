import Verif.Model.Py
import Verif.Model.QEInp
import Verif.Model.Nonloc

/-!
# Model of the UPF pseudopotential reader

/repo/src/qtm/pseudo/upf.py. The XML parser is not modelled: a file is the list of the children of its root element, each with tag, attributes (distinct
names), text and children of its own (two levels, as the code looks no deeper). Python's `int(s)`/`float(s)` (and numpy's conversion of the words of a text)
are arbitrary partial functions `Nums`; numbers are exact. Header attributes that carry the name of one of the data arrays (`r`, `vloc`, …) are not modelled.
The check sum of the file (basis_atoms.py:53-60) is not modelled.
-/

namespace Verif.UPF

open Verif.QEInp (Str Nums Ty Val dictSet dictGet words lower)

/-- A child of a section. -/
structure Leaf where
  tag : Str
  attrs : List (Str × Str)
  text : Option Str

/-- A child of the root. -/
structure Sec where
  tag : Str
  attrs : List (Str × Str)
  text : Option Str
  kids : List Leaf

/-- Header fields with their annotated types — upf.py:36-61. -/
def headerFields : List (Str × Ty) :=
  [(chars! "generated", .str), (chars! "author", .str), (chars! "date", .str), (chars! "comment", .str), (chars! "element", .str),
   (chars! "pseudo_type", .str), (chars! "relativistic", .str), (chars! "is_ultrasoft", .bool), (chars! "is_paw", .bool),
   (chars! "is_coulomb", .bool), (chars! "has_so", .bool), (chars! "has_wfc", .bool), (chars! "core_correction", .bool),
   (chars! "functional", .str), (chars! "z_valence", .float), (chars! "total_psenergy", .float), (chars! "wfc_cutoff", .float),
   (chars! "rho_cutoff", .float), (chars! "l_max", .int), (chars! "l_local", .int), (chars! "mesh_size", .int),
   (chars! "number_of_wfc", .int), (chars! "number_of_proj", .int)]

/-- Entry of `data`: still the annotated type (upf.py:92), or a value. -/
inductive Cell
  | ty (t : Ty)
  | val (v : Val)

abbrev Header := List (Str × Cell)

/-- `copy.deepcopy(cls.__annotations__)` restricted to the header — upf.py:92. -/
def header0 : Header := headerFields.map fun p => (p.1, .ty p.2)

/-- One attribute of the header — upf.py:100-108. A field that has a value already is "called" (`TypeError`). -/
def setAttr (N : Nums) (d : Header) (k v : Str) : Except PyErr Header :=
  match dictGet d k with
  | none => .ok d
  | some (.val _) => .error .type
  | some (.ty .bool) => .ok (dictSet d k (.val (.bool (decide (lower v = chars! "t")))))
  | some (.ty .str) => .ok (dictSet d k (.val (.str v)))
  | some (.ty .int) => match N.int v with
    | none => .error .value
    | some z => .ok (dictSet d k (.val (.int z)))
  | some (.ty .float) => match N.float v with
    | none => .error .value
    | some x => .ok (dictSet d k (.val (.float x)))
  | some (.ty .dict) => .error .type

/-- All attributes of a header, in file order — upf.py:100. -/
def setAttrs (N : Nums) : Header → List (Str × Str) → Except PyErr Header
  | d, [] => .ok d
  | d, (k, v) :: t => match setAttr N d k v with
    | .error e => .error e
    | .ok d' => setAttrs N d' t

/-- `np.array(text.split(), dtype=np.float64)` — upf.py:113, 115, 118, 121, 129, 148, 152; an element without text has `text = None`. -/
def floats (N : Nums) : Option Str → Except PyErr (List ℝ)
  | none => .error .attribute
  | some s => match (words s).mapM N.float with
    | none => .error .value
    | some l => .ok l

/-- The part of `data` filled by the first loop; `none`: the annotation `np.ndarray` itself is still there. -/
structure Data where
  hdr : Header := header0
  r : Option (List ℝ) := none
  rab : Option (List ℝ) := none
  vloc : Option (List ℝ) := none
  rhoatom : Option (List ℝ) := none

/-- Children of `PP_MESH` — upf.py:111-115. -/
def mesh (N : Nums) : Data → List Leaf → Except PyErr Data
  | d, [] => .ok d
  | d, g :: t =>
    if g.tag = chars! "PP_R" then match floats N g.text with
      | .error e => .error e
      | .ok l => mesh N { d with r := some l } t
    else if g.tag = chars! "PP_RAB" then match floats N g.text with
      | .error e => .error e
      | .ok l => mesh N { d with rab := some l } t
    else mesh N d t

/-- One child of the root — upf.py:98-123 (`RYDBERG` is `1/2`). -/
noncomputable def section' (N : Nums) (d : Data) (c : Sec) : Except PyErr Data :=
  if c.tag = chars! "PP_HEADER" then match setAttrs N d.hdr c.attrs with
    | .error e => .error e
    | .ok h => .ok { d with hdr := h }
  else if c.tag = chars! "PP_MESH" then mesh N d c.kids
  else if c.tag = chars! "PP_LOCAL" then match floats N c.text with
    | .error e => .error e
    | .ok l => .ok { d with vloc := some (l.map (· * (1 / 2))) }
  else if c.tag = chars! "PP_RHOATOM" then match floats N c.text with
    | .error e => .error e
    | .ok l => .ok { d with rhoatom := some l }
  else .ok d

/-- The first loop — upf.py:98-123. -/
noncomputable def sections (N : Nums) : Data → List Sec → Except PyErr Data
  | d, [] => .ok d
  | d, c :: t => match section' N d c with
    | .error e => .error e
    | .ok d' => sections N d' t

/-- Projectors read so far: angular momenta with the radial functions, and the last `PP_DIJ`. -/
structure NL where
  beta : List (ℤ × List ℝ) := []
  dij : Option (List ℝ) := none

/-- `tag.startswith("PP_BETA.")` — upf.py:149. -/
def isBeta (tag : Str) : Bool := (chars! "PP_BETA.").isPrefixOf tag

/-- Loop over the children of `PP_NONLOCAL` — upf.py:146-155. -/
noncomputable def nonlocal (N : Nums) : NL → List Leaf → Except PyErr NL
  | s, [] => .ok s
  | s, g :: t =>
    if g.tag = chars! "PP_DIJ" then match floats N g.text with
      | .error e => .error e
      | .ok l => nonlocal N { s with dij := some (l.map (· * (1 / 2))) } t
    else if isBeta g.tag then match dictGet g.attrs (chars! "angular_momentum") with
      | none => .error .key
      | some a => match N.int a with
        | none => .error .value
        | some l => match floats N g.text with
          | .error e => .error e
          | .ok b => nonlocal N { s with beta := s.beta ++ [(l, b)] } t
    else nonlocal N s t

/-- The object returned. -/
structure UPF where
  hdr : Header
  r : Option (List ℝ)
  rab : Option (List ℝ)
  vloc : Option (List ℝ)
  rhoatom : Option (List ℝ)
  rhoAtc : Option (List ℝ)
  beta : List (ℤ × List ℝ)
  dij : ℕ → ℕ → ℝ
  libxc : Option (Str × Str)
  valence : ℤ

/-- `data["core_correction"] is True`, then the first `PP_NLCC` — upf.py:126-132. -/
def nlcc (N : Nums) (h : Header) (root : List Sec) : Except PyErr (Option (List ℝ)) :=
  match dictGet h (chars! "core_correction") with
  | some (.val (.bool true)) => match root.filter fun c => decide (c.tag = chars! "PP_NLCC") with
    | [] => .error .index
    | c :: _ => match floats N c.text with
      | .error e => .error e
      | .ok l => .ok (some l)
  | _ => .ok none

/-- `_LIBXC_MAP` lookup — upf.py:14, 164-167; `str.lower()` of the class itself is a `TypeError`. -/
def functional (h : Header) : Except PyErr (Option (Str × Str)) :=
  match dictGet h (chars! "functional") with
  | some (.val (.str s)) => .ok (if lower s = chars! "pbe" then some (chars! "gga_x_pbe", chars! "gga_c_pbe") else none)
  | _ => .error .type

/-- `int(np.rint(data["z_valence"]))` — upf.py:169. -/
noncomputable def valence (h : Header) : Except PyErr ℤ :=
  match dictGet h (chars! "z_valence") with
  | some (.val (.float x)) => .ok (Nonloc.rint x)
  | _ => .error .type

/-- `PP_NONLOCAL` — upf.py:135-159: the projectors and `dij.reshape(n_beta, n_beta)`; the flag says that the number of projectors is not `0`. -/
noncomputable def projectors (N : Nums) (root : List Sec) : Except PyErr (List (ℤ × List ℝ) × (ℕ → ℕ → ℝ)) :=
  match root.filter fun c => decide (c.tag = chars! "PP_NONLOCAL") with
  | [] => .error .index
  | c :: _ => match nonlocal N {} c.kids with
    | .error e => .error e
    | .ok s => match s.dij with
      | none => .error .attribute
      | some l => if l.length ≠ s.beta.length * s.beta.length then .error .value
        else .ok (s.beta, fun i j => l.getD (i * s.beta.length + j) 0)

/-- `UPFv2Data.from_file` — upf.py:82-170. Without projectors the constructor is called with the unknown keyword `l_beta_times_r` (`TypeError`). -/
noncomputable def fromFile (N : Nums) (root : List Sec) : Except PyErr UPF :=
  match sections N {} root with
  | .error e => .error e
  | .ok d => match nlcc N d.hdr root with
    | .error e => .error e
    | .ok core =>
      let rest := fun (nl : Option (List (ℤ × List ℝ) × (ℕ → ℕ → ℝ))) => match functional d.hdr with
        | .error e => .error e
        | .ok fn => match valence d.hdr with
          | .error e => .error e
          | .ok v => match nl with
            | none => .error PyErr.type
            | some (beta, dij) => .ok
              { hdr := d.hdr, r := d.r, rab := d.rab, vloc := d.vloc, rhoatom := d.rhoatom, rhoAtc := core, beta := beta, dij := dij, libxc := fn,
                valence := v }
      match dictGet d.hdr (chars! "number_of_proj") with
      | some (.val (.int 0)) => rest none
      | _ => match projectors N root with
        | .error e => .error e
        | .ok p => rest (some p)

end Verif.UPF
