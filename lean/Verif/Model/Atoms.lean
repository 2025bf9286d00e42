import Verif.Model.LatArr
import Verif.Model.Printer

/-!
# Constructors and text form of lattices, groups of atoms and crystals

/repo/src/qtm/lattice.py:260-366, 613-640, 656-736, /repo/src/qtm/crystal/basis_atoms.py:63-278, /repo/src/qtm/crystal/crystal.py:53-56, 102-125. Numbers are real, arithmetic is exact.
-/

namespace Verif.Atoms

open Verif Lattice LatArr QEInp Fmt

/-- `ANGSTROM` in Bohr — /repo/src/qtm/constants.py:29, 46-47, 51 -/
noncomputable def angstrom : ℝ := (1 / 10 ^ 10) / (529177210903 / 10 ^ 22)

/-! ## Lattices -/

/-- A number or a sequence of numbers as the caller writes it: numpy makes integers (dtype `i8`) of it when all of it is integers. -/
structure Seq where
  v : List ℝ
  int : Bool

/-- `np.stack((a1, a2, a3), axis=1)`, `np.array([b1, b2, b3]).T` for vectors of three components: the vectors are the columns. -/
def columns (a1 a2 a3 : List ℝ) : Mat := Matrix.of fun i j => ((![a1, a2, a3] : Fin 3 → List ℝ) j).getD i.val 0

/-- The checks of `Lattice.__init__` — lattice.py:33-39: shape `(3, 3)` and dtype `f8`, before `mkLat`. Vectors of unequal lengths already stop `np.stack`/`np.array` with the same exception. -/
noncomputable def checked (unit : ℝ) (a1 a2 a3 : Seq) (int : Bool) (scale : ℝ) : Except PyErr Lat :=
  if a1.v.length = 3 ∧ a2.v.length = 3 ∧ a3.v.length = 3 ∧ int = false then mkLat unit (scale • columns a1.v a2.v a3.v) else .error .value

/-- `RealLattice.from_bohr`, `ReciLattice.from_cart` — lattice.py:280-299, 671-690 -/
noncomputable def fromBohr (unit : ℝ) (a1 a2 a3 : Seq) : Except PyErr Lat := checked unit a1 a2 a3 (a1.int && a2.int && a3.int) 1

/-- `RealLattice.from_angstrom` — lattice.py:301-321: `ANGSTROM` is a float, so is the product. -/
noncomputable def fromAngstrom (alat : ℝ) (a1 a2 a3 : Seq) : Except PyErr Lat := checked (alat * angstrom) a1 a2 a3 false angstrom

/-- `RealLattice.from_alat`, `ReciLattice.from_tpiba` — lattice.py:323-343, 692-711. `unitInt`: the lattice parameter is an integer. -/
noncomputable def fromUnit (unit : ℝ) (unitInt : Bool) (a1 a2 a3 : Seq) : Except PyErr Lat := checked unit a1 a2 a3 (unitInt && a1.int && a2.int && a3.int) unit

/-- `axes_cart` — lattice.py:69-72 -/
def axesCart (L : Lat) : List (List ℝ) := (List.finRange 3).map fun j => (List.finRange 3).map fun i => L.primvec i j

/-- `axes_alat`, `axes_tpiba` — lattice.py:363-366, 731-736 -/
noncomputable def axesUnit (L : Lat) : List (List ℝ) := (List.finRange 3).map fun j => (List.finRange 3).map fun i => L.primvec i j / L.unit

/-! ## Groups of atoms -/

/-- The argument `ppdata` — basis_atoms.py:99-107: a file (valence, name, checksum), a number of electrons, `None`, or something else. -/
inductive PP
  | file (valence : ℤ) (name md5 : Str)
  | int (valence : ℤ)
  | none
  | other

/-- The argument `mass` — basis_atoms.py:113-115: `None`, a float, or something else (an integer, say). -/
inductive Mass
  | none
  | float (x : ℝ)
  | other

/-- A `BasisAtoms` — basis_atoms.py:91-132 -/
structure Basis where
  label : Str
  valence : ℤ
  file : Option (ℤ × Str × Str)
  mass : Option ℝ
  lat : Lat
  r : Arr

open Classical in
/-- `BasisAtoms.__init__` — basis_atoms.py:83-132 for a `RealLattice` and an array of numbers. -/
noncomputable def mkBasis (label : Str) (pp : PP) (mass : Mass) (L : Lat) (r : Arr) : Except PyErr Basis :=
  let p : Except PyErr (ℤ × Option (ℤ × Str × Str)) :=
    match pp with
    | .int z => .ok (z, .none)
    | .file z n m => .ok (z, some (z, n, m))
    | .none => .ok (-1, .none)
    | .other => .error .type
  match p with
  | .error e => .error e
  | .ok (z, f) =>
    let m : Except PyErr (Option ℝ) :=
      match mass with
      | .none => .ok .none
      | .float x => if x < 0 then .error .type else .ok (some x)
      | .other => .error .type
    match m with
    | .error e => .error e
    | .ok m =>
      if r.shape.length ≠ 2 then .error .value
      else if r.shape.getD 0 0 ≠ 3 then .error .value
      else .ok ⟨label, z, f, m, L, r⟩

/-- `numatoms` — basis_atoms.py:134-137 -/
def Basis.numatoms (b : Basis) : ℕ := b.r.shape.getD 1 0

/-- `r_cart` — basis_atoms.py:139-143 -/
noncomputable def Basis.rCart (b : Basis) : Except PyErr Arr := LatArr.cryst2cart b.lat b.r 0

/-- `r_alat` — basis_atoms.py:145-149 -/
noncomputable def Basis.rAlat (b : Basis) : Except PyErr Arr := LatArr.cryst2unit b.lat b.r 0

/-- `np.array(args, dtype="f8")` of a tuple of arrays: a new first axis; arrays of unequal shapes are a `ValueError`. -/
def stack : List Arr → Except PyErr Arr
  | [] => .ok ⟨[0], fun _ => 0⟩
  | a :: as =>
    if as.all fun b => b.shape == a.shape then .ok ⟨(as.length + 1) :: a.shape, fun idx => (((a :: as)[idx.headD 0]?).getD a).get idx.tail⟩
    else .error .value

/-- `arr.T` -/
def transpose (a : Arr) : Arr := ⟨a.shape.reverse, fun idx => a.get idx.reverse⟩

/-- `BasisAtoms.from_cryst` — basis_atoms.py:184-199; `args` are the positional arguments after the lattice. -/
noncomputable def fromCryst (label : Str) (pp : PP) (mass : Mass) (L : Lat) (args : List Arr) : Except PyErr Basis :=
  match stack args with
  | .error e => .error e
  | .ok a => mkBasis label pp mass L (transpose a)

/-- `BasisAtoms.from_cart` and `from_bohr` — basis_atoms.py:151-182, 237-247 -/
noncomputable def fromCart (label : Str) (pp : PP) (mass : Mass) (L : Lat) (args : List Arr) : Except PyErr Basis :=
  match stack args with
  | .error e => .error e
  | .ok a =>
    match LatArr.cart2cryst L (transpose a) 0 with
    | .error e => .error e
    | .ok r => mkBasis label pp mass L r

/-- `BasisAtoms.from_angstrom` — basis_atoms.py:219-235 -/
noncomputable def fromAng (label : Str) (pp : PP) (mass : Mass) (L : Lat) (args : List Arr) : Except PyErr Basis :=
  match stack args with
  | .error e => .error e
  | .ok a =>
    match LatArr.cart2cryst L ((transpose a).mulBy angstrom) 0 with
    | .error e => .error e
    | .ok r => mkBasis label pp mass L r

/-- `BasisAtoms.from_alat` — basis_atoms.py:201-217: exactly one argument after the lattice, or `TypeError`. -/
noncomputable def fromAlat (label : Str) (pp : PP) (mass : Mass) (L : Lat) (args : List Arr) : Except PyErr Basis :=
  match args with
  | [a] =>
    match LatArr.unit2cryst L (transpose a) 0 with
    | .error e => .error e
    | .ok r => mkBasis label pp mass L r
  | _ => .error .type

/-! ## Text -/

/-- `f"({x:8.5f}, {y:8.5f}, {z:8.5f})"` -/
noncomputable def triple (x y z : ℝ) : Str :=
  '(' :: padLeft 8 (fixed 5 x) ++ [',', ' '] ++ padLeft 8 (fixed 5 y) ++ [',', ' '] ++ padLeft 8 (fixed 5 z) ++ [')']

/-- A line of `RealLattice.__str__` — lattice.py:621-624, 628-631; `name` is `a` or `b`. -/
noncomputable def axisLine (name : Char) (i : Fin 3) (L : Lat) : Str :=
  "    ".toList ++ [name, '('] ++ natStr (i.val + 1) ++ ") = ".toList ++ triple (L.primvec 0 i / L.unit) (L.primvec 1 i / L.unit) (L.primvec 2 i / L.unit)

/-- `RealLattice.__str__` — lattice.py:617-638, as lines. -/
noncomputable def latticeLines (L : Lat) : Except PyErr (List Str) :=
  match fromReallat L with
  | .error e => .error e
  | .ok R => .ok (("Crystal Axes: coordinates in units of 'alat' (".toList ++ fixed 5 L.unit ++ " a.u.)".toList) ::
      (List.finRange 3).map (fun i => axisLine 'a' i L) ++ [[]] ++
      ("Reciprocal Axes: coordinates in units of 'tpiba' (".toList ++ fixed 5 R.unit ++ " (a.u.)^-1)".toList) :: (List.finRange 3).map (fun i => axisLine 'b' i R))

/-- A line of coordinates — basis_atoms.py:275-276. -/
noncomputable def atomLine (b : Basis) (i : ℕ) : Str :=
  "          ".toList ++ natStr (i + 1) ++ " - ".toList ++ triple (b.r.get [0, i]) (b.r.get [1, i]) (b.r.get [2, i])

/-- `BasisAtoms.__str__` — basis_atoms.py:267-278, as lines: `None` cannot be formatted with `.2f` and has no `valence`. -/
noncomputable def basisLines (b : Basis) : Except PyErr (List Str) :=
  match b.mass with
  | .none => .error .type
  | some m =>
    match b.file with
    | .none => .error .attribute
    | some (z, name, md5) => .ok (["    Label   : ".toList ++ b.label, "    Mass    : ".toList ++ fixed 2 m, "    Valence : ".toList ++ fixed 2 z,
        "    Pseudpot: ".toList ++ name, "              MD5: ".toList ++ md5, "    Coordinates (in units of alat)".toList] ++ (List.range b.numatoms).map (atomLine b))

/-- The sum over species of `valence * numatoms` — crystal.py:53-56 -/
def numel (atoms : List Basis) : ℤ := (atoms.map fun b => b.valence * (b.numatoms : ℤ)).sum

/-- The groups of atoms at the end of `Crystal.__str__` — crystal.py:111-113: an empty line, the heading, the group. -/
noncomputable def groupLines : ℕ → List Basis → Except PyErr (List Str)
  | _, [] => .ok []
  | i, b :: bs =>
    match basisLines b with
    | .error e => .error e
    | .ok l =>
      match groupLines (i + 1) bs with
      | .error e => .error e
      | .ok r => .ok ([] :: ("Atom Species #".toList ++ natStr i) :: l ++ r)

/-- `Crystal.__str__` — crystal.py:102-123, as lines. -/
noncomputable def crystalLines (L : Lat) (atoms : List Basis) : Except PyErr (List Str) :=
  match latticeLines L with
  | .error e => .error e
  | .ok ll =>
    match groupLines 1 atoms with
    | .error e => .error e
    | .ok g => .ok (["Lattice parameter 'alat' :   ".toList ++ fixed 5 L.unit ++ "  a.u.".toList,
        "Unit cell volume         :  ".toList ++ fixed 5 L.cellvol ++ "  (a.u.)^3".toList,
        "Number of atoms/cell     : ".toList ++ natStr (atoms.map Basis.numatoms).sum,
        "Number of atomic types   : ".toList ++ natStr atoms.length,
        "Number of electrons      : ".toList ++ intStr (numel atoms), []] ++ ll ++ [[]] ++ g)

end Verif.Atoms
