import Mathlib.Analysis.SpecialFunctions.Trigonometric.Basic
import Mathlib.Analysis.SpecialFunctions.Sqrt
import Mathlib.Algebra.Order.Floor.Ring
import Verif.Model.Occup
import Verif.Model.Lattice

/-!
# Model of the Ewald energy (/repo/src/qtm/pot/ewald.py)

Exact real arithmetic. Coincident atoms (distance 0) make NumPy return `inf`; Lean's `x / 0 = 0` differs there.
-/

namespace Verif.Ewald

open Verif.Lattice (Vec Mat Lat)

/-- A species: valence and crystal coordinates of its atoms. -/
structure Species where
  valence : ℝ
  r : List Vec

/-- `l_charges` — ewald.py:18-29. -/
def charges (sp : List Species) : List ℝ := sp.flatMap fun s => List.replicate s.r.length s.valence

/-- `r_cryst_all` — ewald.py:31. -/
def positions (sp : List Species) : List Vec := sp.flatMap fun s => s.r

/-- `struct_fac` at one G-vector, accumulated atom by atom — ewald.py:48-54. -/
noncomputable def structFac (q : List ℝ) (r : List Vec) (G : Fin 3 → ℤ) : ℂ :=
  (List.range r.length).foldl
    (fun acc i => acc + (q.getD i 0 : ℂ) * Complex.exp (-(2 * Real.pi * Complex.I) * ((∑ c, r.getD i 0 c * G c : ℝ) : ℂ))) 0

/-- `EWALD_ERR_THR` — ewald.py:10. -/
noncomputable def errThr : ℝ := 1 / 10 ^ 7

/-- `err_bounds` — ewald.py:56-61. -/
noncomputable def errBound (q : List ℝ) (ecut alpha : ℝ) : ℝ :=
  q.sum ^ 2 * Real.sqrt (alpha / Real.pi) * Occup.erfc (Real.sqrt (ecut / 2 / alpha))

/-- The loop choosing `alpha` — ewald.py:63-69. First argument bounds the number of passes (`none`: still running). The test
`alpha < 0` is modelled as `alpha ≤ 0`: after 28 subtractions of `0.1` from `2.8` the floating-point value is `-1.5e-15`. -/
noncomputable def chooseAlpha (err : ℝ → ℝ) : ℕ → ℝ → Option (Except PyErr ℝ)
  | 0, _ => none
  | fuel + 1, alpha =>
    open Classical in
    if errThr < err alpha then
      if alpha - 1 / 10 ≤ 0 then some (.error .value) else chooseAlpha err fuel (alpha - 1 / 10)
    else some (.ok alpha)

/-- One entry of `ni` — ewald.py:76: the norm is taken along axis 1 of `primvec`, i.e. of its *rows*. -/
noncomputable def ni (primvec : Mat) (beta : ℝ) (i : Fin 3) : ℕ := (⌊4 / beta / Lattice.norm (primvec i)⌋ + 1).toNat

/-- `np.arange(-n, n + 1)` — ewald.py:78. -/
def axis (n : ℕ) : List ℤ := (List.range (2 * n + 1)).map fun k : ℕ => (k : ℤ) - n

/-- `N`, the image vectors in C order — ewald.py:78-79. -/
def images (n0 n1 n2 : ℕ) : List (Fin 3 → ℤ) :=
  (axis n0).flatMap fun a => (axis n1).flatMap fun b => (axis n2).map fun c => ![a, b, c]

/-- `i_N0` — ewald.py:85. -/
def iN0 (n0 n1 n2 : ℕ) : ℕ := n0 * (2 * n1 + 1) * (2 * n2 + 1) + n1 * (2 * n2 + 1) + n2

/-- Distance of atom `i` and image `N` of atom `j` — ewald.py:74, 80-82. -/
noncomputable def dist (primvec : Mat) (N : Fin 3 → ℤ) (ri rj : Vec) : ℝ :=
  Lattice.norm (primvec.mulVec fun c => (N c : ℝ) + (ri c - rj c))

/-- `E_S` — ewald.py:74-92: position `m` of the image list, atoms `i`, `j`; entries `[i_N0, i, i]` are set to `inf`, so their
term is `q/inf * erfc(inf) = 0`. -/
noncomputable def shortRange (primvec : Mat) (beta : ℝ) (n0 n1 n2 : ℕ) (q : List ℝ) (r : List Vec) : ℝ :=
  1 / 2 * ∑ m ∈ Finset.range (images n0 n1 n2).length, ∑ i ∈ Finset.range r.length, ∑ j ∈ Finset.range r.length,
    if m = iN0 n0 n1 n2 ∧ i = j then 0
    else q.getD i 0 * q.getD j 0 / dist primvec ((images n0 n1 n2).getD m 0) (r.getD i 0) (r.getD j 0)
      * Occup.erfc (beta * dist primvec ((images n0 n1 n2).getD m 0) (r.getD i 0) (r.getD j 0))

/-- `E_L` — ewald.py:94-95: all G-vectors but the first. -/
noncomputable def longRange (cellvol alpha : ℝ) (q : List ℝ) (r : List Vec) (G : List (Fin 3 → ℤ)) (norm2 : (Fin 3 → ℤ) → ℝ) : ℝ :=
  2 * Real.pi / cellvol *
    (((G.drop 1).map fun g => Real.exp (-norm2 g / (4 * alpha)) / norm2 g * ‖structFac q r g‖ ^ 2).sum
      - (∑ i ∈ Finset.range q.length, ∑ j ∈ Finset.range q.length, q.getD i 0 * q.getD j 0) / (4 * alpha))

/-- `E_self` — ewald.py:72. -/
noncomputable def selfEn (beta : ℝ) (q : List ℝ) : ℝ := beta / Real.sqrt Real.pi * (q.map fun x => x ^ 2).sum

/-- The energy for a chosen `alpha` — ewald.py:70-97. -/
noncomputable def energyAt (primvec : Mat) (cellvol alpha : ℝ) (q : List ℝ) (r : List Vec) (G : List (Fin 3 → ℤ))
    (norm2 : (Fin 3 → ℤ) → ℝ) : ℝ :=
  let beta := Real.sqrt alpha
  shortRange primvec beta (ni primvec beta 0) (ni primvec beta 1) (ni primvec beta 2) q r
    + longRange cellvol alpha q r G norm2 - selfEn beta q

/-- `ewald.compute` — ewald.py:13-97 (the loop needs at most 28 passes, see `C84_alpha`). -/
noncomputable def compute (primvec : Mat) (cellvol ecut : ℝ) (sp : List Species) (G : List (Fin 3 → ℤ))
    (norm2 : (Fin 3 → ℤ) → ℝ) : Option (Except PyErr ℝ) :=
  let q := charges sp
  let r := positions sp
  match chooseAlpha (errBound q ecut) 28 (28 / 10) with
  | none => none
  | some (.error e) => some (.error e)
  | some (.ok alpha) => some (.ok (energyAt primvec cellvol alpha q r G norm2))

end Verif.Ewald
