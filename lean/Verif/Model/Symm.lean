import Mathlib.LinearAlgebra.Matrix.NonsingularInverse
import Mathlib.Analysis.SpecialFunctions.Trigonometric.Basic
import Mathlib.Data.Finset.Lattice.Fold
import Verif.Model.GSpace

/-!
# Model of crystal symmetries and of the symmetrisation of fields
(/repo/src/qtm/crystal/crystal.py, class CrystalSymm; /repo/src/qtm/symm/symmetrize_field.py)
-/

namespace Verif.Symm

open Verif.GSpace Matrix

/-- One space-group operation `x ↦ W x + t` in crystal coordinates: an entry of `CrystalSymm.symm`
— /repo/src/qtm/crystal/crystal.py:172-186. -/
structure SymOp where
  W : Matrix (Fin 3) (Fin 3) ℤ
  t : Fin 3 → ℝ

/-- `recilat_rot`: the inverse of the transposed rotation — crystal.py:167-169. (The code inverts in floating point and
casts to integers; the model inverts exactly.) -/
noncomputable def SymOp.R (o : SymOp) : Matrix (Fin 3) (Fin 3) ℤ := (o.Wᵀ)⁻¹

/-- A G-vector as a column of three integers, and back. -/
def toV (g : GVec) : Fin 3 → ℤ := ![g.1, g.2.1, g.2.2]
def ofV (v : Fin 3 → ℤ) : GVec := (v 0, v 1, v 2)

/-- `np.tensordot(recilat_rot, g_cryst)` for one operation and one vector
— /repo/src/qtm/symm/symmetrize_field.py:64. -/
noncomputable def rotG (o : SymOp) (g : GVec) : GVec := ofV (o.R *ᵥ toV g)

/-- `exp(2πi t · g)` — symmetrize_field.py:90-96. -/
noncomputable def phase (o : SymOp) (g : GVec) : ℂ :=
  Complex.exp (2 * Real.pi * Complex.I * (∑ i, o.t i * (toV g i : ℝ) : ℝ))

/-- Comparison of `np.lexsort((i3, i2, i1, g_norm2))` (wrapped components; last key is primary)
— symmetrize_field.py:45-52. `key` is the squared length rounded to `ROUND_PREC` decimals, in units of the last
decimal — symmetrize_field.py:36. -/
def sortLe (s : Shape) (key : GVec → ℤ) (g h : GVec) : Bool :=
  decide (key g < key h) || (decide (key g = key h) &&
    (decide (wrap s.n1 g.1 < wrap s.n1 h.1) || (decide (wrap s.n1 g.1 = wrap s.n1 h.1) &&
      (decide (wrap s.n2 g.2.1 < wrap s.n2 h.2.1) || (decide (wrap s.n2 g.2.1 = wrap s.n2 h.2.1) &&
        decide (wrap s.n3 g.2.2 ≤ wrap s.n3 h.2.2))))))

/-- `idxsort` — symmetrize_field.py:48-52. -/
def idxsort (s : Shape) (key : GVec → ℤ) (gs : List GVec) : List ℕ :=
  (List.range gs.length).mergeSort fun a b => sortLe s key (at' gs a) (at' gs b)

/-- The groups of equal rounded length — symmetrize_field.py:55-61. (`np.unique` and `np.split` cut the sorted index
array where the key changes; the model filters the sorted array by each key value, which on a sorted array is the
same.) -/
def shells (s : Shape) (key : GVec → ℤ) (gs : List GVec) : List (List ℕ) :=
  ((gs.map key).dedup).map fun k => (idxsort s key gs).filter fun j => decide (key (at' gs j) = k)

/-- `np.unique(vals, return_index=True)[1]` — symmetrize_field.py:84: for each distinct value in increasing order, the
first position where it occurs. -/
def uniqueIdx (vals : List ℤ) : List ℕ := (vals.dedup.mergeSort (· ≤ ·)).map fun v => vals.idxOf v

/-- `np.searchsorted(l, v)` (side "left") — symmetrize_field.py:87: for sorted `l`, the number of leading elements
smaller than `v`. -/
def searchsorted (l : List ℤ) (v : ℤ) : ℕ := (l.takeWhile (· < v)).length

/-- The columns that one shell adds to `shells_ig` and `shells_phase`: for each representative vector, and for each
operation, the position of the rotated vector and its phase — symmetrize_field.py:61-97. -/
noncomputable def shellCols {n : ℕ} (ops : Fin (n + 1) → SymOp) (sh : Shape) (gs : List GVec) (ig : List ℕ) :
    List (Fin (n + 1) → ℕ × ℂ) :=
  let rot := fun (s : Fin (n + 1)) (j : ℕ) => rotG (ops s) (at' gs (at' ig j))
  let idxrot0 := (List.range ig.length).map fun j => flatIdx sh (rot 0 j)
  let mins := (List.range ig.length).map fun j =>
    Finset.univ.inf' Finset.univ_nonempty fun s => flatIdx sh (rot s j)
  (uniqueIdx mins).map fun j s => (at' ig (searchsorted idxrot0 (flatIdx sh (rot s j))), phase (ops s) (rot s j))

/-- `shells_ig` and `shells_phase`, column by column — symmetrize_field.py:57-101. -/
noncomputable def cols {n : ℕ} (ops : Fin (n + 1) → SymOp) (sh : Shape) (key : GVec → ℤ) (gs : List GVec) :
    List (Fin (n + 1) → ℕ × ℂ) :=
  (shells sh key gs).flatMap (shellCols ops sh gs)

/-- `a[idx] += vals` with an index array (NumPy reads all old values first) — symmetrize_field.py:106-107. -/
def fancyAdd {K : Type*} [Add K] (a : ℕ → K) (row : List (ℕ × K)) : ℕ → K :=
  row.foldl (fun acc p => Function.update acc p.1 (a p.1 + p.2)) a

/-- `g_phase` — symmetrize_field.py:103-107. -/
noncomputable def gPhase {n : ℕ} (c : List (Fin (n + 1) → ℕ × ℂ)) : ℕ → ℂ :=
  (List.finRange (n + 1)).foldl (fun a s => fancyAdd a (c.map fun x => x s)) fun _ => 0

/-- `g_count` — symmetrize_field.py:104-107. -/
def gCount {n : ℕ} (c : List (Fin (n + 1) → ℕ × ℂ)) : ℕ → ℕ :=
  (List.finRange (n + 1)).foldl (fun a s => fancyAdd a (c.map fun x => ((x s).1, 1))) fun _ => 0

/-- `SymmFieldMod._symmetrize` — symmetrize_field.py:110-116. `garbage` is the uninitialised content of
`np.empty_like`; the index assignment writes row by row. -/
noncomputable def symmetrize {n : ℕ} (ops : Fin (n + 1) → SymOp) (sh : Shape) (key : GVec → ℤ) (gs : List GVec)
    (garbage f : ℕ → ℂ) : ℕ → ℂ :=
  let c := cols ops sh key gs
  let mean := fun x : Fin (n + 1) → ℕ × ℂ => (∑ s, f (x s).1 * (x s).2) / ((n + 1 : ℕ) : ℂ)
  let out := (List.finRange (n + 1)).foldl
    (fun o s => c.foldl (fun o x => Function.update o (x s).1 (mean x)) o) garbage
  fun j => out j * ((starRingEnd ℂ) (gPhase c j) / (gCount c j : ℂ))

/-! ## CrystalSymm -/

/-- `CrystalSymm.__init__`, supercell check — crystal.py:156-165: if the list does not contain exactly one operation
with identity rotation, keep only the operations without translation. (`<= symprec` is modelled as equality; the list
is the one returned by spglib.) -/
noncomputable def supercellFilter (l : List SymOp) : List SymOp :=
  open Classical in
  if (l.filter fun o => decide (o.W = 1)).length ≠ 1 then l.filter fun o => decide (o.t = 0) else l

/-- `CrystalSymm.filter_frac_trans` with `use_all_frac = False` — crystal.py:206-214: keep the operations whose
translation is a whole number of grid steps along each axis. (The tolerance `symprec` is modelled as zero.) -/
noncomputable def filterFracTrans (l : List SymOp) (sh : Shape) : List SymOp :=
  open Classical in
  l.filter fun o => decide (∀ i, ∃ m : ℤ, o.t i * (![(sh.n1 : ℝ), sh.n2, sh.n3] i) = m)

end Verif.Symm
