import Mathlib.Data.Int.Log
import Mathlib.Data.Real.Basic
import Verif.Model.Nonloc
import Verif.Model.QEInp

/-!
# Number formatting and what is printed and read with it

Python's `format(x, '.8f')`, `format(x, '.7E')`, `format(n, '>6')` and `float(s)` on plain decimal numerals; formatting rounds the exact value to the nearest decimal, ties to even. Numbers are real, `float` reads a
numeral exactly. Used by /repo/src/qtm/gw/vcoul.py:568-606 and /repo/src/qtm/io_utils/dft_printers.py.
-/

namespace Verif.Fmt

open Verif QEInp

/-- A decimal digit. -/
def digit (n : ℕ) : Char := Char.ofNat (48 + n % 10)

/-- `str(n)` for a natural number. -/
def natStr (n : ℕ) : Str := if n < 10 then [digit n] else natStr (n / 10) ++ [digit n]
decreasing_by omega

/-- The last `d` digits, with leading zeros. -/
def digitsPad : ℕ → ℕ → Str
  | 0, _ => []
  | d + 1, n => digitsPad d (n / 10) ++ [digit n]

/-- `str(z)` for an integer. -/
def intStr (z : ℤ) : Str := (if z < 0 then ['-'] else []) ++ natStr z.natAbs

/-- `format(s, '>w')` -/
def padLeft (w : ℕ) (s : Str) : Str := List.replicate (w - s.length) ' ' ++ s

/-- `format(x, '.df')` -/
noncomputable def fixed (d : ℕ) (x : ℝ) : Str :=
  let m := (Nonloc.rint (|x| * 10 ^ d)).toNat
  (if x < 0 then ['-'] else []) ++ natStr (m / 10 ^ d) ++ '.' :: digitsPad d (m % 10 ^ d)

/-- Exponent of `format(x, 'E')`: a sign and at least two digits. -/
def expStr (e : ℤ) : Str := 'E' :: (if e < 0 then '-' else '+') :: (if e.natAbs < 10 then '0' :: natStr e.natAbs else natStr e.natAbs)

/-- Mantissa (with `d` decimals, as an integer) and exponent of `format(x, '.dE')` for a positive number: the exponent is one more when the mantissa is rounded up to ten. -/
noncomputable def sciParts (d : ℕ) (x : ℝ) : ℕ × ℤ :=
  let e := Int.log 10 x
  let m := (Nonloc.rint (x / (10 : ℝ) ^ e * 10 ^ d)).toNat
  if m = 10 ^ (d + 1) then (10 ^ d, e + 1) else (m, e)

/-- `format(x, '.dE')` -/
noncomputable def sci (d : ℕ) (x : ℝ) : Str :=
  let p := if x = 0 then (0, 0) else sciParts d |x|
  (if x < 0 then ['-'] else []) ++ natStr (p.1 / 10 ^ d) ++ '.' :: digitsPad d (p.1 % 10 ^ d) ++ expStr p.2

/-- Value of a string of digits. -/
def natVal (s : Str) : ℕ := s.foldl (fun a c => 10 * a + (c.toNat - 48)) 0

/-- A decimal digit? -/
def isDigit (c : Char) : Bool := decide (48 ≤ c.toNat ∧ c.toNat ≤ 57)

/-- The exponent part of a numeral: nothing, or `E`, an optional sign, and digits. -/
def readExp : Str → Option ℤ
  | [] => some 0
  | c :: s =>
    if c = 'E' ∨ c = 'e' then
      match s with
      | '-' :: ds => if ds ≠ [] ∧ ds.all isDigit then some (-(natVal ds : ℤ)) else none
      | '+' :: ds => if ds ≠ [] ∧ ds.all isDigit then some (natVal ds) else none
      | ds => if ds ≠ [] ∧ ds.all isDigit then some (natVal ds) else none
    else none

/-- An unsigned numeral: digits, an optional point and digits, an optional exponent. -/
noncomputable def readUnsigned (s : Str) : Option ℝ :=
  let ip := s.takeWhile isDigit
  match s.dropWhile isDigit with
  | '.' :: r =>
    let fp := r.takeWhile isDigit
    if ip = [] ∧ fp = [] then none
    else (readExp (r.dropWhile isDigit)).map fun e => (natVal (ip ++ fp) : ℝ) / 10 ^ fp.length * (10 : ℝ) ^ e
  | r => if ip = [] then none else (readExp r).map fun e => (natVal ip : ℝ) * (10 : ℝ) ^ e

/-- `float(s)` for a decimal numeral without white space. -/
noncomputable def pyFloat : Str → Option ℝ
  | '-' :: s => (readUnsigned s).map fun x => -x
  | '+' :: s => readUnsigned s
  | s => readUnsigned s

/-! ## vcoul.py -/

/-- One line of the file: q-point, G-vector, Coulomb value. -/
structure VRow where
  q : Fin 3 → ℝ
  g : Fin 3 → ℤ
  v : ℝ

/-- The formatted line without its end — vcoul.py:604. -/
noncomputable def vcoulLine (r : VRow) : Str :=
  padLeft 11 (fixed 8 (r.q 0)) ++ ' ' :: padLeft 11 (fixed 8 (r.q 1)) ++ ' ' :: padLeft 11 (fixed 8 (r.q 2)) ++ ' ' :: ' ' ::
    padLeft 6 (intStr (r.g 0)) ++ ' ' :: padLeft 6 (intStr (r.g 1)) ++ ' ' :: padLeft 6 (intStr (r.g 2)) ++ List.replicate 7 ' ' ++ sci 7 r.v

/-- The rows that `write_vcoul(i_q_list)` goes through — vcoul.py:594-604: `qpts` and `q0vec` are the q-points, `gs i` the G-vectors, `v i` the values of q-point `i`. -/
def vcoulRows (q0 : Option ℕ) (q0vec : Fin 3 → ℝ) (qpts : ℕ → Fin 3 → ℝ) (gs : ℕ → List (Fin 3 → ℤ)) (v : ℕ → ℕ → ℝ) (iqs : List ℕ) : List VRow :=
  iqs.flatMap fun i => (List.range (gs i).length).map fun k => ⟨if q0 = some i then q0vec else qpts i, (gs i).getD k 0, v i k⟩

/-- `write_vcoul` — vcoul.py:581-606 -/
noncomputable def writeVcoul (rows : List VRow) : Str := rows.flatMap fun r => vcoulLine r ++ ['\n']

/-- `np.genfromtxt(filename)`: one list of numbers per non-blank line; lines of different lengths are a `ValueError`. A word that is not a number gives `nan` (`none`). -/
noncomputable def genfromtxt (s : Str) : Except PyErr (List (List (Option ℝ))) :=
  let rows := ((split '\n' s).map words).filter fun w => !w.isEmpty
  if rows.all fun r => decide (r.length = (rows.headD []).length) then .ok (rows.map fun r => r.map pyFloat) else .error .value

/-- `load_vcoul` — vcoul.py:568-579: the array of a file with fewer than two lines has one dimension only, and `[:, :3]` is an `IndexError`; so is column 6 of a file with fewer columns. -/
noncomputable def loadVcoul (s : Str) : Except PyErr (List (List (Option ℝ)) × List (List (Option ℝ)) × List (Option ℝ)) :=
  match genfromtxt s with
  | .error e => .error e
  | .ok rows =>
    if rows.length < 2 ∨ (rows.headD []).length < 7 then .error .index
    else .ok (rows.map fun r => r.take 3, rows.map fun r => (r.drop 3).take 3, rows.map fun r => r.getD 6 none)

end Verif.Fmt
