import Mathlib.Algebra.Order.Field.Basic
import Mathlib.Data.Rat.Cast.Order
import Verif.Model.Py

/-!
# Model of k-point lists and Monkhorst–Pack meshes (/repo/src/qtm/kpts.py, /repo/src/qtm/klist.py)

Coordinates and weights are exact numbers; floating-point rounding is not modelled.
-/

namespace Verif.KPts

/-- A k-point in crystal coordinates. -/
abbrev KVec := ℚ × ℚ × ℚ

/-- `_sanitize_weights` — /repo/src/qtm/kpts.py:18-23, /repo/src/qtm/klist.py:13-18. `none`: the sum is zero, all
entries become `nan` (numpy divides without raising). -/
def sanitizeWeights (w : List ℚ) : Except PyErr (Option (List ℚ)) :=
  if w.any (· < 0) then .error .value
  else if w.sum = 0 then .ok none
  else .ok (some (w.map (· / w.sum)))

/-- What a `KList` stores. -/
structure KList where
  k : List KVec
  w : List ℚ
  deriving DecidableEq

/-- `KList.__init__` with crystal coordinates — /repo/src/qtm/kpts.py:27-81: the weights are only checked for
their number, and stored as given. -/
def mkKList (k : List KVec) (w : List ℚ) : Except PyErr KList :=
  if w.length = k.length then .ok ⟨k, w⟩ else .error .value

/-- `KList.from_cryst` — /repo/src/qtm/klist.py:87-97 (`none`: `nan` weights). -/
def fromCryst (l : List (KVec × ℚ)) : Except PyErr (Option KList) :=
  match sanitizeWeights (l.map Prod.snd) with
  | .error e => .error e
  | .ok none => .ok none
  | .ok (some w) => (mkKList (l.map Prod.fst) w).map some

/-- `np.arange(a, b)` for integers. -/
def arange (a b : ℤ) : List ℤ := (List.range (b - a).toNat).map fun j : ℕ => a + j

/-- `0.5 * si` for a boolean shift. -/
def half (s : Bool) : ℚ := if s then 1 / 2 else 0

/-- One axis of the full mesh: `(np.arange(-ni // 2 + 1, ni // 2 + 1) + 0.5 * si) / ni` — kpts.py:168-171
(`-ni // 2` is `floor(-ni / 2)`). -/
def axisFull (n : ℕ) (s : Bool) : List ℚ :=
  (arange ((-(n : ℤ)).fdiv 2 + 1) (((n / 2 : ℕ) : ℤ) + 1)).map fun i : ℤ => ((i : ℚ) + half s) / n

/-- One axis with time reversal: `(np.arange(ni // 2 + 1) + 0.5 * si) / ni` — kpts.py:163-166. -/
def axisTR (n : ℕ) (s : Bool) : List ℚ :=
  (arange 0 (((n / 2 : ℕ) : ℤ) + 1)).map fun i : ℤ => ((i : ℚ) + half s) / n

/-- `np.meshgrid(..., indexing="ij")` and `np.ravel` of each — kpts.py:172-173. -/
def prod3 (x y z : List ℚ) : List KVec :=
  x.flatMap fun a => y.flatMap fun b => z.map fun c => (a, b, c)

/-- The branch without symmetry of `gen_monkhorst_pack_grid` — kpts.py:161-178. -/
def mpGrid (n1 n2 n3 : ℕ) (s1 s2 s3 : Bool) (tr : Bool) : Except PyErr (Option KList) :=
  if n1 = 0 ∨ n2 = 0 ∨ n3 = 0 then .error .type
  else
    let ax := fun n s => if tr then axisTR n s else axisFull n s
    let k := prod3 (ax n1 s1) (ax n2 s2) (ax n3 s3)
    let numk := k.length
    match sanitizeWeights (List.replicate numk (1 / (numk : ℚ))) with
    | .error e => .error e
    | .ok none => .ok none
    | .ok (some w) => (mkKList k w).map some

/-- `np.unique(mapping, return_counts=True)` — kpts.py:157: sorted distinct values, with counts. -/
def uniqueCounts (mapping : List ℕ) : List (ℕ × ℕ) :=
  ((mapping.mergeSort (· ≤ ·)).dedup).map fun v => (v, mapping.count v)

/-- The branch with symmetry — kpts.py:149-160, 177-178: `mapping` and `grid` come from spglib. -/
def mpSymm (mapping : List ℕ) (grid : List KVec) : Except PyErr (Option KList) :=
  let u := uniqueCounts mapping
  match sanitizeWeights (u.map fun p => (p.2 : ℚ)) with
  | .error e => .error e
  | .ok none => .ok none
  | .ok (some w) => (mkKList (u.map fun p => grid.getD p.1 (0, 0, 0)) w).map some

/-- One axis of the full mesh of the older class: `np.arange(-ni // 2 + 1, ni // 2 + 1) + 0.5 * si / ni` —
/repo/src/qtm/klist.py:146-149: only the shift is divided by `ni`. -/
def oldAxisFull (n : ℕ) (s : Bool) : List ℚ :=
  (arange ((-(n : ℤ)).fdiv 2 + 1) (((n / 2 : ℕ) : ℤ) + 1)).map fun i : ℤ => (i : ℚ) + half s / n

end Verif.KPts
