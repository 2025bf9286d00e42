import Verif.Model.Py

/-!
# Model of G-vector bookkeeping: index maps, canonical order, cutoff selection, FFT grid sizes
-/

namespace Verif.GSpace

/-- A G-vector in crystal coordinates (a column of `g_cryst`). -/
abbrev GVec := ℤ × ℤ × ℤ

/-- FFT grid shape `(n1, n2, n3)`. -/
structure Shape where
  n1 : ℕ
  n2 : ℕ
  n3 : ℕ
  deriving DecidableEq, Repr

/-- number of grid points, `np.prod(grid_shape)` — /repo/src/qtm/gspace/base.py:144 -/
def Shape.size (s : Shape) : ℕ := s.n1 * s.n2 * s.n3

/-- All dimensions positive — the assertion of /repo/src/qtm/gspace/base.py:44. -/
def Shape.Pos (s : Shape) : Prop := 0 < s.n1 ∧ 0 < s.n2 ∧ 0 < s.n3

instance (s : Shape) : Decidable s.Pos := by unfold Shape.Pos; infer_instance

/-- One coordinate inside the FFT grid: `-(n // 2) <= g < (n + 1) // 2`
— /repo/src/qtm/gspace/base.py:57-60. -/
def inRange (n : ℕ) (i : ℤ) : Bool := decide (-((n / 2 : ℕ) : ℤ) ≤ i) && decide (i < ((n + 1) / 2 : ℕ))

/-- All three coordinates inside the FFT grid — /repo/src/qtm/gspace/base.py:57-60. -/
def inBounds (s : Shape) (g : GVec) : Bool :=
  inRange s.n1 g.1 && inRange s.n2 g.2.1 && inRange s.n3 g.2.2

/-- `check_g_cryst` — /repo/src/qtm/gspace/base.py:25-60 (shape positivity and bounds; the dtype and
rank checks are vacuous for well-typed model values). -/
def checkG (s : Shape) (gs : List GVec) : Except PyErr Unit :=
  if ¬ s.Pos then .error .assertion
  else if gs.all (inBounds s) then .ok () else .error .assertion

/-- `i + n * (i < 0)` — /repo/src/qtm/gspace/base.py:86-88. -/
def wrap (n : ℕ) (i : ℤ) : ℤ := i + n * (if i < 0 then 1 else 0)

/-- The flat grid index of one G-vector — /repo/src/qtm/gspace/base.py:85-89. -/
def flatIdx (s : Shape) (g : GVec) : ℤ :=
  s.n2 * s.n3 * wrap s.n1 g.1 + s.n3 * wrap s.n2 g.2.1 + wrap s.n3 g.2.2

/-- `cryst2idxgrid` — /repo/src/qtm/gspace/base.py:63-90. -/
def cryst2idxgrid (s : Shape) (gs : List GVec) : Except PyErr (List ℤ) :=
  match checkG s gs with
  | .error e => .error e
  | .ok () => .ok (gs.map (flatIdx s))

/-- `np.unravel_index(idx, shape, order="C")` — used at /repo/src/qtm/gspace/base.py:108. -/
def unravel (s : Shape) (idx : ℤ) : ℕ × ℕ × ℕ :=
  let i := idx.toNat
  (i / (s.n2 * s.n3), i / s.n3 % s.n2, i % s.n3)

/-- Comparison of `np.lexsort(np.stack((ix, iz, iy)))` — /repo/src/qtm/gspace/base.py:111: the last
key is the primary one, so the order is by `iy`, then `iz`, then `ix`. -/
def lexLe (a b : ℕ × ℕ × ℕ) : Bool :=
  decide (a.2.1 < b.2.1 ∨ (a.2.1 = b.2.1 ∧ (a.2.2 < b.2.2 ∨ (a.2.2 = b.2.2 ∧ a.1 ≤ b.1))))

/-- Position `i` of a list, as numpy indexing inside the bounds. -/
def at' {α : Type*} [Inhabited α] (l : List α) (i : ℕ) : α := l.getD i default

/-- numpy fancy indexing `l[idx]`. -/
def gather {α : Type*} [Inhabited α] (l : List α) (idx : List ℕ) : List α := idx.map (at' l)

/-- `_sort_g` — /repo/src/qtm/gspace/base.py:93-111 (numpy's lexsort is a stable merge sort). -/
def sortG (s : Shape) (idxgrid : List ℤ) : List ℕ :=
  (List.range idxgrid.length).mergeSort
    fun i j => lexLe (unravel s (at' idxgrid i)) (unravel s (at' idxgrid j))

/-- `np.argsort` of a list of distinct numbers — used at /repo/src/qtm/gspace/base.py:140 on a
permutation, where the choice of algorithm does not matter. -/
def argsort (p : List ℕ) : List ℕ :=
  (List.range p.length).mergeSort fun i j => decide (at' p i ≤ at' p j)

/-- What `GSpaceBase.__init__` stores — /repo/src/qtm/gspace/base.py:124-150. -/
structure Base where
  shape : Shape
  gCryst : List GVec
  idxgrid : List ℤ
  idxsort : List ℕ
  hasG0 : Bool
  deriving DecidableEq, Repr

/-- `GSpaceBase.__init__` — /repo/src/qtm/gspace/base.py:117-150. An empty list makes
`self.g_cryst[:, 0]` (base.py:148) raise `IndexError`. -/
def mkBase (s : Shape) (gs : List GVec) : Except PyErr Base :=
  match cryst2idxgrid s gs with
  | .error e => .error e
  | .ok idxgrid =>
    let idxsort := sortG s idxgrid
    let gCryst := gather gs idxsort
    match gCryst with
    | [] => .error .index
    | g0 :: _ => .ok {
        shape := s
        gCryst := gCryst
        idxgrid := gather idxgrid idxsort
        idxsort := argsort idxsort
        hasG0 := decide (g0 = (0, 0, 0)) }

/-! ## Default grid sizes -/

/-- `while x % prime == 0: x = x / prime` — /repo/src/qtm/gspace/gspc.py:30-31 (and
/repo/src/qtm/interfaces/qe/parse_inp.py). The first argument bounds the number of iterations;
`none` means the loop is still running then. Python divides as floats, which is exact for these
integers. -/
def strip : ℕ → ℕ → ℕ → Option ℕ
  | 0, _, _ => none
  | fuel + 1, p, x => if x % p = 0 then strip fuel p (x / p) else some x

/-- One test of `optimal_grid_shape`: divide out 2, 3, 5 and compare with 1
— /repo/src/qtm/gspace/gspc.py:28-33. -/
def isGood (fuel n : ℕ) : Option Bool :=
  (strip fuel 2 n).bind fun x => (strip fuel 3 x).bind fun y => (strip fuel 5 y).map fun z => z == 1

/-- The search loop of `optimal_grid_shape` for one axis — /repo/src/qtm/gspace/gspc.py:25-36. -/
def optimalLen : ℕ → ℕ → Option ℕ
  | 0, _ => none
  | fuel + 1, n => (isGood (n + 1) n).bind fun good =>
      if good then some n else optimalLen fuel (n + 1)

/-- `check_grid_shape` — /repo/src/qtm/gspace/gspc.py:75-87. The loop runs over `min_grid_shape` and
compares each entry `ni` with `min_grid_shape[idim]`, i.e. with itself. -/
def checkGridShape (minShape grid : Shape) : Except PyErr Unit :=
  if ¬ grid.Pos then .error .assertion
  else if minShape.n1 < minShape.n1 ∨ minShape.n2 < minShape.n2 ∨ minShape.n3 < minShape.n3 then
    .error .value
  else .ok ()

/-! ## Cutoff selection -/

/-- `np.arange(-(n // 2), (n + 1) // 2)` — /repo/src/qtm/gspace/gspc.py:121. -/
def axisPoints (n : ℕ) : List ℤ :=
  (List.range ((n + 1) / 2 + n / 2)).map fun (i : ℕ) => (i : ℤ) - (n / 2 : ℕ)

/-- All points of the FFT grid, `np.meshgrid(..., indexing="ij").reshape(3, -1)`
— /repo/src/qtm/gspace/gspc.py:121-124. -/
def gridPoints (s : Shape) : List GVec :=
  (axisPoints s.n1).flatMap fun a => (axisPoints s.n2).flatMap fun b =>
    (axisPoints s.n3).map fun c => (a, b, c)

/-- `GSpace.__init__` after the grid shape is fixed — /repo/src/qtm/gspace/gspc.py:120-151.
`norm2` is `recilat.norm2`, `lenKey` the rounded length used to order the vectors
(gspc.py:146-148, a stable sort). `twoEcut` is `2 * ecut`; "ke_max <= ecut" (gspc.py:128-129) is
"no point of the grid lies outside the cutoff". -/
def mkGSpace {K : Type*} [LE K] [DecidableLE K] (norm2 : GVec → K) (lenKey : GVec → ℤ)
    (twoEcut : K) (s : Shape) : Except PyErr Base :=
  let pts := gridPoints s
  if pts.all fun g => decide (norm2 g ≤ twoEcut) then .error .value
  else
    let cut := pts.filter fun g => decide (norm2 g ≤ twoEcut)
    if cut.length < 2 then .error .value
    else mkBase s (cut.mergeSort fun a b => decide (lenKey a ≤ lenKey b))

/-- What `GkSpace.__init__` adds — /repo/src/qtm/gspace/gkspc.py:33-49. -/
structure GkData where
  base : Base
  idxgk : List ℕ

/-- `GkSpace.__init__` — /repo/src/qtm/gspace/gkspc.py:19-45. `normk2 g` stands for
`recilat.norm2(g + k)`; the parent's vectors are first put back into its caller's order
(gkspc.py:34), then filtered (gkspc.py:39). -/
def mkGk {K : Type*} [LE K] [DecidableLE K] (parent : Base) (normk2 : GVec → K) (twoEcut : K) :
    Except PyErr GkData :=
  let g := gather parent.gCryst parent.idxsort
  let idxgk := (List.range g.length).filter fun i => decide (normk2 (at' g i) ≤ twoEcut)
  match mkBase parent.shape (gather g idxgk) with
  | .error e => .error e
  | .ok b => .ok { base := b, idxgk := idxgk }

end Verif.GSpace
