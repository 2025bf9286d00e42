import Mathlib.Data.Matrix.Mul
import Verif.Model.Lattice

/-!
# Model of the cell part of the QE interface

/repo/src/qtm/interfaces/qe/ibrav2latvec.py, and the part of
/repo/src/qtm/interfaces/qe/parse_inp.py that resolves the cell and the FFT grid.

Floating-point numbers are real numbers. `np.sqrt` of a negative number (NaN in numpy) and division by zero (inf) are outside the model: every
theorem about the affected entries assumes the argument is in the domain.
-/

namespace Verif.QECell

open Matrix Lattice

/-- `celldm: dict[int, float]` — a Python dictionary; the values may be `None` (parse_inp.py:105 and ibrav2latvec.py:36 test for it). -/
abbrev Celldm := ℕ → Option (Option ℝ)

/-- `celldm[k]` — `KeyError` when absent -/
def Celldm.get (d : Celldm) (k : ℕ) : Except PyErr (Option ℝ) :=
  match d k with
  | none => .error .key
  | some v => .ok v

/-- `celldm[k]` used as an operand: arithmetic on `None` is a `TypeError` -/
def Celldm.num (d : Celldm) (k : ℕ) : Except PyErr ℝ :=
  match d k with
  | none => .error .key
  | some none => .error .type
  | some (some x) => .ok x

/-- `celldm[k] = x` -/
def Celldm.set (d : Celldm) (k : ℕ) (x : ℝ) : Celldm := fun j => if j = k then some (some x) else d j

/-- `ANGSTROM` — /repo/src/qtm/constants.py:46-51 (`1e-10 / BOHR_SI`, kept as an arbitrary positive number in the theorems). -/
noncomputable def angstrom : ℝ := 1e-10 / 5.2917721090380e-11

abbrev Rows := Fin 3 → Vec

/-- `basis_cubic_p` — ibrav2latvec.py:93-98 -/
def cubicP (d : Celldm) : Except PyErr Rows := do
  let a ← d.num 1
  pure ![![a, 0, 0], ![0, a, 0], ![0, 0, a]]

/-- `basis_cubic_f` — ibrav2latvec.py:101-106 -/
noncomputable def cubicF (d : Celldm) : Except PyErr Rows := do
  let a ← d.num 1
  pure ![![-(a / 2), 0, a / 2], ![0, a / 2, a / 2], ![-(a / 2), a / 2, 0]]

/-- `basis_cubic_i` — ibrav2latvec.py:109-114 -/
noncomputable def cubicI (d : Celldm) : Except PyErr Rows := do
  let a ← d.num 1
  pure ![![a / 2, a / 2, a / 2], ![-(a / 2), a / 2, a / 2], ![-(a / 2), -(a / 2), a / 2]]

/-- `basis_cubic_i_symm` — ibrav2latvec.py:117-122 -/
noncomputable def cubicISymm (d : Celldm) : Except PyErr Rows := do
  let a ← d.num 1
  pure ![![-(a / 2), a / 2, a / 2], ![a / 2, -(a / 2), a / 2], ![a / 2, a / 2, -(a / 2)]]

/-- `basis_hexagonal` — ibrav2latvec.py:125-131 -/
noncomputable def hexagonal (d : Celldm) : Except PyErr Rows := do
  let a ← d.num 1
  let c3 ← d.num 3
  let c := a * c3
  pure ![![a, 0, 0], ![-a / 2, a * Real.sqrt 3 / 2, 0], ![0, 0, c]]

/-- `basis_trigonal_r_c` — ibrav2latvec.py:134-145 -/
noncomputable def trigonalC (d : Celldm) : Except PyErr Rows := do
  let a ← d.num 1
  let cosg ← d.num 4
  let tx := Real.sqrt ((1 - cosg) / 2)
  let ty := Real.sqrt ((1 - cosg) / 6)
  let tz := Real.sqrt ((1 + 2 * cosg) / 3)
  pure ![![a * tx, -a * ty, a * tz], ![0, 2 * a * ty, a * tz], ![-a * tx, -a * ty, a * tz]]

/-- `basis_trigonal_r_111` — ibrav2latvec.py:148-162 -/
noncomputable def trigonal111 (d : Celldm) : Except PyErr Rows := do
  let a ← d.num 1
  let cosg ← d.num 4
  let ty := Real.sqrt ((1 - cosg) / 6)
  let tz := Real.sqrt ((1 + 2 * cosg) / 3)
  let aa := a / Real.sqrt 3
  let u := tz - 2 * Real.sqrt 2 * ty
  let v := tz + Real.sqrt 2 * ty
  pure ![![aa * u, aa * v, aa * v], ![aa * v, aa * u, aa * v], ![aa * v, aa * v, aa * u]]

/-- `basis_tetragonal_p` — ibrav2latvec.py:165-171 -/
def tetragonalP (d : Celldm) : Except PyErr Rows := do
  let a ← d.num 1
  let c3 ← d.num 3
  let c := c3 * a
  pure ![![a, 0, 0], ![0, a, 0], ![0, 0, c]]

/-- `basis_tetragonal_i` — ibrav2latvec.py:174-180 -/
noncomputable def tetragonalI (d : Celldm) : Except PyErr Rows := do
  let a ← d.num 1
  let c3 ← d.num 3
  let c := c3 * a
  pure ![![a / 2, -a / 2, c / 2], ![a / 2, a / 2, c / 2], ![-a / 2, -a / 2, c / 2]]

/-- `basis_orthorhombic_p` — ibrav2latvec.py:183-190 -/
def orthoP (d : Celldm) : Except PyErr Rows := do
  let a ← d.num 1
  let c2 ← d.num 2
  let b := c2 * a
  let c3 ← d.num 3
  let c := c3 * a
  pure ![![a, 0, 0], ![0, b, 0], ![0, 0, c]]

/-- `basis_orthorhombic_bco` — ibrav2latvec.py:193-200 -/
noncomputable def orthoBco (d : Celldm) : Except PyErr Rows := do
  let a ← d.num 1
  let c2 ← d.num 2
  let b := c2 * a
  let c3 ← d.num 3
  let c := c3 * a
  pure ![![a / 2, b / 2, 0], ![-a / 2, b / 2, 0], ![0, 0, c]]

/-- `basis_orthorhombic_bco_alt` — ibrav2latvec.py:203-210 -/
noncomputable def orthoBcoAlt (d : Celldm) : Except PyErr Rows := do
  let a ← d.num 1
  let c2 ← d.num 2
  let b := c2 * a
  let c3 ← d.num 3
  let c := c3 * a
  pure ![![a / 2, -b / 2, 0], ![a / 2, b / 2, 0], ![0, 0, c]]

/-- `basis_orthorhombic_bca` — ibrav2latvec.py:213-220 -/
noncomputable def orthoBca (d : Celldm) : Except PyErr Rows := do
  let a ← d.num 1
  let c2 ← d.num 2
  let b := c2 * a
  let c3 ← d.num 3
  let c := c3 * a
  pure ![![a, 0, 0], ![0, b / 2, -c / 2], ![0, b / 2, c / 2]]

/-- `basis_orthorhombic_face` — ibrav2latvec.py:223-230 -/
noncomputable def orthoFace (d : Celldm) : Except PyErr Rows := do
  let a ← d.num 1
  let c2 ← d.num 2
  let b := c2 * a
  let c3 ← d.num 3
  let c := c3 * a
  pure ![![a / 2, 0, c / 2], ![a / 2, b / 2, 0], ![0, b / 2, c / 2]]

/-- `basis_orthorhombic_body` — ibrav2latvec.py:233-240 -/
noncomputable def orthoBody (d : Celldm) : Except PyErr Rows := do
  let a ← d.num 1
  let c2 ← d.num 2
  let b := c2 * a
  let c3 ← d.num 3
  let c := c3 * a
  pure ![![a / 2, b / 2, c / 2], ![-a / 2, b / 2, c / 2], ![-a / 2, -b / 2, c / 2]]

/-- `basis_monoclinic_p_c` — ibrav2latvec.py:243-252 -/
noncomputable def monoPC (d : Celldm) : Except PyErr Rows := do
  let a ← d.num 1
  let c2 ← d.num 2
  let b := c2 * a
  let c3 ← d.num 3
  let c := c3 * a
  let cosAB ← d.num 4
  let sinAB := Real.sqrt (1 - cosAB ^ 2)
  pure ![![a, 0, 0], ![b * cosAB, b * sinAB, 0], ![0, 0, c]]

/-- `basis_moniclinic_p_b` — ibrav2latvec.py:255-264 -/
noncomputable def monoPB (d : Celldm) : Except PyErr Rows := do
  let a ← d.num 1
  let c2 ← d.num 2
  let b := c2 * a
  let c3 ← d.num 3
  let c := c3 * a
  let cosAC ← d.num 5
  let sinAC := Real.sqrt (1 - cosAC ^ 2)
  pure ![![a, 0, 0], ![0, b, 0], ![c * cosAC, 0, c * sinAC]]

/-- `basis_monoclinic_base_c` — ibrav2latvec.py:267-276 -/
noncomputable def monoBaseC (d : Celldm) : Except PyErr Rows := do
  let a ← d.num 1
  let c2 ← d.num 2
  let b := c2 * a
  let c3 ← d.num 3
  let c := c3 * a
  let cosg ← d.num 4
  let sing := Real.sqrt (1 - cosg ^ 2)
  pure ![![a / 2, 0, -c / 2], ![b * cosg, b * sing, 0], ![a / 2, 0, c / 2]]

/-- `basis_monoclinic_base_b` — ibrav2latvec.py:279-288 -/
noncomputable def monoBaseB (d : Celldm) : Except PyErr Rows := do
  let a ← d.num 1
  let c2 ← d.num 2
  let b := c2 * a
  let c3 ← d.num 3
  let c := c3 * a
  let cosb ← d.num 5
  let sinb := Real.sqrt (1 - cosb ^ 2)
  pure ![![a / 2, b / 2, 0], ![-a / 2, b / 2, 0], ![c * cosb, 0, c * sinb]]

/-- `basis_triclinic` — ibrav2latvec.py:291-308 -/
noncomputable def triclinic (d : Celldm) : Except PyErr Rows := do
  let a ← d.num 1
  let c2 ← d.num 2
  let b := c2 * a
  let c3 ← d.num 3
  let c := c3 * a
  let cosBC ← d.num 4
  let cosAC ← d.num 5
  let cosAB ← d.num 6
  let sinAB := Real.sqrt (1 - cosAB ^ 2)
  pure ![![a, 0, 0], ![b * cosAB, b * sinAB, 0],
    ![c * cosAC, c * (cosBC - cosAC * cosAB) / sinAB,
      c * Real.sqrt (1 + 2 * cosBC * cosAC * cosAB - cosAB ^ 2 - cosAC ^ 2 - cosAB ^ 2) / sinAB]]

/-- `ibrav_list` — ibrav2latvec.py:311-332 -/
noncomputable def ibravFn (ibrav : ℤ) : Option (Celldm → Except PyErr Rows) :=
  if ibrav = 1 then some cubicP
  else if ibrav = 2 then some cubicF
  else if ibrav = 3 then some cubicI
  else if ibrav = -3 then some cubicISymm
  else if ibrav = 4 then some hexagonal
  else if ibrav = 5 then some trigonalC
  else if ibrav = -5 then some trigonal111
  else if ibrav = 6 then some tetragonalP
  else if ibrav = 7 then some tetragonalI
  else if ibrav = 8 then some orthoP
  else if ibrav = 9 then some orthoBco
  else if ibrav = -9 then some orthoBcoAlt
  else if ibrav = 91 then some orthoBca
  else if ibrav = 10 then some orthoFace
  else if ibrav = 11 then some orthoBody
  else if ibrav = 12 then some monoPC
  else if ibrav = -12 then some monoPB
  else if ibrav = 13 then some monoBaseC
  else if ibrav = -13 then some monoBaseB
  else if ibrav = 14 then some triclinic
  else none

/-- The error message of ibrav2latvec.py:342-346 reads `celldm[1] … celldm[6]`: a missing entry raises `KeyError` while the message is built. -/
def badCell (d : Celldm) : PyErr :=
  match d 1, d 2, d 3, d 4, d 5, d 6 with
  | some _, some _, some _, some _, some _, some _ => .value
  | _, _, _, _, _, _ => .key

/-- `ibrav2latvec` — ibrav2latvec.py:335-349. `none` is the Python `None` returned for an unknown `ibrav`. The matrix has the lattice vectors as
columns (`transpose`, line 348). -/
noncomputable def ibrav2latvec (ibrav : ℤ) (d : Celldm) : Except PyErr (Option (Option ℝ × Mat)) :=
  match d.get 1 with
  | .error e => .error e
  | .ok alat =>
    match ibravFn ibrav with
    | none => .ok none
    | some f =>
      match f d with
      | .error _ => .error (badCell d)
      | .ok v => .ok (some (alat, (Matrix.of v)ᵀ))

/-- `trad2celldm` — ibrav2latvec.py:56-90 (`a` is `None`: `None * ANGSTROM` is a `TypeError`; line 59) -/
noncomputable def trad2celldm (ibrav : ℤ) (a b c cosab cosbc cosac : Option ℝ) : Except PyErr Celldm := do
  let a ← match a with
    | none => .error .type
    | some a => .ok a
  let d : Celldm := Celldm.set (fun _ => none) 1 (a * angstrom)
  let d ← if ibrav ∈ [8, 9, -9, 91, 10, 11, 12, -12, 13, -13, 14] then
      (match b with
        | none => .error .value
        | some b => .ok (d.set 2 (b / a)))
    else .ok d
  let d ← if ibrav ∈ [4, 6, 7, 8, 9, -9, 91, 10, 11, 12, -12, 13, -13, 14] then
      (match c with
        | none => .error .value
        | some c => .ok (d.set 3 (c / a)))
    else .ok d
  let d ← if ibrav ∈ [5, -5, 12, 13] then
      (match cosab with
        | none => .error .value
        | some x => .ok (d.set 4 x))
    else if ibrav ∈ [14] then
      (match cosbc with
        | none => .error .value
        | some x => .ok (d.set 4 x))
    else .ok d
  let d ← if ibrav ∈ [-12, -13, 14] then
      (match cosac with
        | none => .error .value
        | some x => .ok (d.set 5 x))
    else .ok d
  if ibrav ∈ [14] then
    (match cosab with
      | none => .error .value
      | some x => .ok (d.set 6 x))
  else .ok d

/-- `cellparam2latvec` — ibrav2latvec.py:8-53. `cellparam i` is the `i`-th line of the `CELL_PARAMETERS` card. -/
noncomputable def cellparam2latvec (option : String) (cellparam : Rows) (celldm : Celldm) (a : Option ℝ) : Except PyErr (ℝ × Mat) :=
  if option = "alat" then
    match celldm.get 1 with
    | .error e => .error e
    | .ok none =>
      (match a with
        | none => .error .value
        | some a => .ok (a * angstrom, (a * angstrom) • (Matrix.of cellparam)ᵀ))
    | .ok (some x) => .ok (x, x • (Matrix.of cellparam)ᵀ)
  else
    let cp : Rows := if option = "angstrom" then fun i => angstrom • cellparam i else cellparam
    .ok (Lattice.norm (cp 0), (Matrix.of cp)ᵀ)

/-- The cell-related fields of the `System` namelist and the `CELL_PARAMETERS` card — read_inp.py:17-31, 79. `celldm = none` when the input file
has no `celldm(i)` line. -/
structure CellIn where
  ibrav : ℤ
  celldm : Option Celldm
  a : Option ℝ
  b : Option ℝ
  c : Option ℝ
  cosab : Option ℝ
  cosac : Option ℝ
  cosbc : Option ℝ
  option : String
  cellparam : Rows

/-- `for i in range(6): if i + 1 not in celldm: celldm[i + 1] = 0.0` — parse_inp.py:117-119 -/
def fillZeros (d : Celldm) : Celldm := fun k =>
  if 1 ≤ k ∧ k ≤ 6 then (match d k with | none => some (some 0) | some v => some v) else d k

/-- `parse_inp`, lines 91-121 of /repo/src/qtm/interfaces/qe/parse_inp.py: the cell. The first component of the result is the value of the
dictionary object that is the *default* of the field `System.celldm` (read_inp.py:24: `celldm: dict[int, float] = {}`), which all `System`
objects created without `celldm` share and which lines 98 and 119 update in place. On an error before line 98/119 the object is unchanged.
`RealLattice(alat, latvec)` is `Lattice.mkLat`. -/
noncomputable def resolveCell (dflt : Celldm) (s : CellIn) : Celldm × Except PyErr Lat :=
  let cell : Celldm := s.celldm.getD dflt
  let upd (d : Celldm) : Celldm := if s.celldm.isNone then d else dflt
  if s.ibrav = 0 then
    match cellparam2latvec s.option s.cellparam cell s.a with
    | .error e => (dflt, .error e)
    | .ok (alat, latvec) => (upd (fillZeros (cell.set 1 alat)), mkLat alat latvec)
  else
    match ibravFn s.ibrav with
    | none => (dflt, .error .value)
    | some _ =>
      match cell.get 1 with
      | .error e => (dflt, .error e)
      | .ok none =>
        (match trad2celldm s.ibrav s.a s.b s.c s.cosab s.cosbc s.cosac with
          | .error e => (dflt, .error e)
          | .ok d =>
            match ibrav2latvec s.ibrav d with
            | .ok (some (some alat, latvec)) => (dflt, mkLat alat latvec)
            | .ok _ => (dflt, .error .type)
            | .error e => (dflt, .error e))
      | .ok (some _) =>
        match ibrav2latvec s.ibrav cell with
        | .ok (some (some alat, latvec)) => (upd (fillZeros cell), mkLat alat latvec)
        | .ok _ => (dflt, .error .type)
        | .error e => (dflt, .error e)

/-- A process parsing one file after another. -/
noncomputable def parseAll (dflt : Celldm) : List CellIn → List (Except PyErr Lat)
  | [] => []
  | s :: rest => (resolveCell dflt s).2 :: parseAll (resolveCell dflt s).1 rest

/-- `while n % prime == 0: n = n / prime` — parse_inp.py:49-50, for `n > 0` (for `n = 0` the Python loop does not terminate; the model returns 0). -/
def strip (p n : ℕ) : ℕ :=
  if h : 1 < p ∧ 0 < n ∧ n % p = 0 then strip p (n / p) else n
termination_by n
decreasing_by exact Nat.div_lt_self h.2.1 h.1

/-- The test `n == 1` after dividing out 2, 3 and 5 — parse_inp.py:47-51 -/
def isGood (n : ℕ) : Bool := strip 5 (strip 3 (strip 2 n)) == 1

/-- The outer loop `while not is_good: … ni += 1` — parse_inp.py:44-55; `none` if `fuel` rounds do not suffice. -/
def search : ℕ → ℕ → Option ℕ
  | 0, _ => none
  | fuel + 1, n => if isGood n then some n else search fuel (n + 1)

/-- `int(np.ceil(2 * np.sqrt(2 * ecutwfc) / np.pi * norm(latvec[:, i])))` — parse_inp.py:35-37 -/
noncomputable def gridMin (latvec : Mat) (ecut : ℝ) (i : Fin 3) : ℕ :=
  ⌈2 * Real.sqrt (2 * ecut) / Real.pi * Lattice.norm (latvecᵀ i)⌉.toNat

/-- `gen_grid_shape` — parse_inp.py:34-58; the fuel is proved sufficient. -/
noncomputable def genGridShape (latvec : Mat) (ecut : ℝ) (i : Fin 3) : Option ℕ :=
  search (gridMin latvec ecut i + 1) (gridMin latvec ecut i)

end Verif.QECell
