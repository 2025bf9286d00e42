import Verif.Model.Fmt
import Verif.Model.SCF

/-!
# The printers of an SCF run

/repo/src/qtm/io_utils/dft_printers.py:11-63. A call prints a list of lines; when it raises, the lines before are printed already.
-/

namespace Verif.Printer

open Verif QEInp Fmt

/-- `RYDBERG` in Hartree — /repo/src/qtm/constants.py:43, 55 -/
noncomputable def rydberg : ℝ := 1 / 2

/-- `ELECTRONVOLT` in Hartree — constants.py:28, 31, 35, 39-41, 52 -/
noncomputable def electronvolt : ℝ := (1602176634 / 10 ^ 28) / (43597447222071 / 10 ^ 31)

/-- The arguments of `print_scf_status`; the levels of `EnergyData` (/repo/src/qtm/dft/scf.py:48-53) are fields of their own. -/
structure Args where
  idx : ℕ
  runtime : ℝ
  converged : Bool
  err : ℝ
  thr : ℝ
  avgIter : ℝ
  en : SCF.Energy
  fermi : Option ℝ := none
  ho : Option ℝ := none
  lu : Option ℝ := none

/-- `f"{label}{x:17.8f} {unit}"` -/
noncomputable def valueLine (label : Str) (x : ℝ) (unit : Str) : Str := label ++ padLeft 17 (fixed 8 x) ++ ' ' :: unit

/-- `format(x, '.de')` -/
noncomputable def sciLow (d : ℕ) (x : ℝ) : Str := (sci d x).map Char.toLower

/-- The lines before the levels — dft_printers.py:37-54. -/
noncomputable def headLines (a : Args) : List Str :=
  ["Iteration # ".toList ++ natStr (a.idx + 1) ++ ", Run Time: ".toList ++ padLeft 5 (fixed 1 a.runtime) ++ " sec".toList,
    "Convergence Status   : ".toList ++ (if a.converged then [] else "NOT".toList) ++ " Converged".toList,
    "SCF Error           : ".toList ++ sciLow 4 (a.err / rydberg) ++ " Ry".toList,
    "Avg Diago Iterations: ".toList ++ padLeft 3 (fixed 1 a.avgIter),
    "Diago Threshold     : ".toList ++ sciLow 2 (a.thr / rydberg) ++ " Ry".toList,
    [],
    valueLine "Total Energy:     ".toList (a.en.total / rydberg) "Ry".toList] ++
  (a.en.internal.map fun x => valueLine "    Internal:     ".toList (x / rydberg) "Ry".toList).toList ++
  [[],
    valueLine "      one-el:     ".toList (a.en.oneEl / rydberg) "Ry".toList,
    valueLine "     Hartree:     ".toList (a.en.hartree / rydberg) "Ry".toList,
    valueLine "          XC:     ".toList (a.en.xc / rydberg) "Ry".toList,
    valueLine "       Ewald:     ".toList (a.en.ewald / rydberg) "Ry".toList] ++
  (a.en.smear.map fun x => valueLine "       Smear:     ".toList (x / rydberg) "Ry".toList).toList ++ [[]]

/-- `print_scf_status` — dft_printers.py:27-63: the Fermi level if there is one, else the highest occupied level (`None` cannot be divided) and the lowest unoccupied one if there is one. -/
noncomputable def status (a : Args) : List Str × Option PyErr :=
  let tail := [List.replicate 40 '-', []]
  match a.fermi with
  | some f => (headLines a ++ [valueLine " Fermi Level:     ".toList (f / electronvolt) "eV".toList] ++ tail, none)
  | none =>
    match a.ho with
    | none => (headLines a, some .type)
    | some h =>
      (headLines a ++ [valueLine "    HO Level:     ".toList (h / electronvolt) "eV".toList] ++
        (a.lu.map fun x => valueLine "    LU Level:     ".toList (x / electronvolt) "eV".toList).toList ++ tail, none)

/-- What `print_eigenvalues` uses of a `KSWfn`; `k_cryst` and `k_weight` as the text `str` makes of them. -/
structure KOut where
  kStr : Str
  wStr : Str
  size : ℕ
  numbnd : ℕ
  evl : ℕ → ℝ
  occ : ℕ → ℝ

/-- The line of band `i` — dft_printers.py:21-23. -/
noncomputable def bandLine (k : KOut) (i : ℕ) : Str :=
  ' ' :: ' ' :: padLeft 4 (natStr (i + 1)) ++ ' ' :: ' ' :: padLeft 14 (fixed 8 (k.evl i / electronvolt)) ++ ' ' :: ' ' :: padLeft 10 (fixed 6 (k.occ i))

/-- The lines of one wavefunction — dft_printers.py:15-23. -/
noncomputable def kLines (k : KOut) : List Str :=
  [[], "k-point:    ".toList ++ k.kStr, "weight:     ".toList ++ k.wStr, "Basis size: ".toList ++ natStr k.size, "  Band  Eigenvalue (eV)  Occupation".toList] ++
    (List.range k.numbnd).map (bandLine k)

/-- `print_eigenvalues` — dft_printers.py:11-24. -/
noncomputable def eigenvalues (ks : List (List KOut)) : List Str := "Printing eigenvalues:".toList :: ks.flatMap fun g => g.flatMap kLines

end Verif.Printer
