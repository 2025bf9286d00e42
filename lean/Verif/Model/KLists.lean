import Verif.Model.LatArr
import Verif.Model.Containers
import Verif.Model.Sigma

/-!
# Model of k-point lists as sequences, of the k-point lists of /repo/src/qtm/klist.py, and of `QPoints`

`qtm.kpts.KList` (used by the SCF) keeps the points in the columns of an array, `qtm.klist.KList` (used by GW) in the rows. As sequences they are lists of points with weights. Arithmetic is exact.
-/

namespace Verif.KLists

open Verif.Lattice Verif.LatArr Verif.Containers

variable {α : Type*}

/-- An index expression `kl[key]`. -/
inductive Key
  | int (i : ℤ)
  /-- an integer that is not a Python `int`: `np.int64(3)`, an entry of `np.arange(n)` -/
  | npint (i : ℤ)
  | slice (start stop step : Option ℤ)
  /-- a list or array of indices -/
  | fancy (l : List ℤ)
  /-- a list or array of booleans -/
  | mask (l : List Bool)

/-- What `kl[key]` is: a point with its weight, or a list. -/
inductive Got (α : Type*)
  | one (p : α)
  | many (l : List α)
  deriving DecidableEq

/-- The elements at some positions. -/
def at_ (l : List α) (pos : List ℕ) : List α := pos.filterMap fun i => l[i]?

/-- numpy's `arr[key]` along the axis of the points. -/
def npGet (l : List α) : Key → Except PyErr (Got α)
  | .int i | .npint i =>
    match normIdx l.length i with
    | .error e => .error e
    | .ok k => match l[k]? with
      | some p => .ok (.one p)
      | none => .error .index
  | .slice a b c =>
    match slicePos l.length a b c with
    | .error e => .error e
    | .ok pos => .ok (.many (at_ l pos))
  | .fancy is =>
    match is.mapM (normIdx l.length) with
    | .error e => .error e
    | .ok pos => .ok (.many (at_ l pos))
  | .mask m => if m.length = l.length then .ok (.many ((l.zip m).filterMap fun p => if p.2 then some p.1 else none)) else .error .index

/-- `kpts.KList.__getitem__` — /repo/src/qtm/kpts.py:105-110 -/
def getNew (l : List α) (key : Key) : Except PyErr (Got α) := npGet l key

/-- `klist.KList.__getitem__` — /repo/src/qtm/klist.py:62-73 -/
def getOld (l : List α) : Key → Except PyErr (Got α)
  | .slice a b c => npGet l (.slice a b c)
  | .int i => npGet l (.int i)
  | _ => .error .type

/-- `for x in kl:` of a class with `__getitem__` and without `__iter__`: indices from `i` on until an `IndexError`; other errors leave the loop. `Yields get i l` says the loop ends normally having seen
`l`. -/
inductive Yields {β : Type*} (get : ℕ → Except PyErr β) : ℕ → List β → Prop
  | stop (i : ℕ) : get i = .error .index → Yields get i []
  | step (i : ℕ) (x : β) (l : List β) : get i = .ok x → Yields get (i + 1) l → Yields get i (x :: l)

/-- `klist_distribute` — /repo/src/qtm/klist.py:159-185: `qtm.config` has no attribute `pwcomm`. -/
def klistDistribute (_kpts : List α) (_roundRobin _returnIndices : Bool) : Except PyErr (List α) := .error .attribute

/-! ## Coordinates of `klist.KList` -/

/-- A `klist.KList`: the array `(numk, 3)` and the weights. -/
structure OldKL where
  cryst : Arr
  weights : List ℝ

/-- `KList.__init__` — /repo/src/qtm/klist.py:23-43: the first dimension is compared with the weights first. -/
noncomputable def mkOld (cryst : Arr) (w : List ℝ) : Except PyErr OldKL :=
  match cryst.shape with
  | [n, 3] => if n = w.length then .ok ⟨cryst, w⟩ else .error .value
  | [] => .error .index
  | _ => .error .value

/-- `_sanitize_weights` — klist.py:13-18; weights that are all zero make NaN, `none`. -/
noncomputable def sanitize (w : List ℝ) : Except PyErr (Option (List ℝ)) := by
  classical
  exact if ∃ x ∈ w, x < 0 then .error .value else if w.sum = 0 then .ok none else .ok (some (w.map (· / w.sum)))

/-- `from_cart`, `from_cryst`, `from_tpiba` — klist.py:75-115: the points as rows. `none` if the weights are NaN. -/
noncomputable def fromPts (L : Lat) (typ : Coords) (pts : Arr) (w : List ℝ) : Except PyErr (Option OldKL) :=
  match (match typ with
    | .cryst => Except.ok pts
    | .cart => LatArr.cart2cryst L pts 1
    | .tpiba => LatArr.unit2cryst L pts 1) with
  | .error e => .error e
  | .ok k =>
    match sanitize w with
    | .error e => .error e
    | .ok none => .ok none
    | .ok (some w) => (mkOld k w).map some

/-- `cart` — klist.py:48-50 -/
noncomputable def OldKL.cart (L : Lat) (k : OldKL) : Except PyErr Arr := LatArr.cryst2cart L k.cryst 1

/-- `tpiba` — klist.py:52-54 -/
noncomputable def OldKL.tpiba (L : Lat) (k : OldKL) : Except PyErr Arr := LatArr.cryst2unit L k.cryst 1

/-! ## q-points -/

/-- `QPoints`: the points in crystal coordinates, the index and the vector of the one that stands for Γ. -/
structure QP where
  q : List Vec
  index : ℕ
  q0vec : Vec

/-- `QPoints(recilat, is_q0, cryst)` and `QPoints.from_cryst` — /repo/src/qtm/gw/core.py:31-74. -/
noncomputable def qpoints (L : Lat) (isQ0 : Option (List Bool)) (q : List Vec) : Except PyErr QP :=
  match isQ0 with
  | some f =>
    -- core.py:53: np.where(is_q0)[0][0]
    if true ∈ f then
      match q[f.idxOf true]? with
      | some v => .ok ⟨q, f.idxOf true, v⟩
      | none => .error .index
    else .error .index
  | none =>
    -- core.py:55: np.argmin of no numbers is a ValueError
    if q = [] then .error .value
    else .ok ⟨q, GW.argmin (q.map L.norm2Cryst), q.getD (GW.argmin (q.map L.norm2Cryst)) 0⟩

/-- The q-points that the self-energy uses: `l_q = deepcopy(qpts.cryst); l_q[qpts.index_q0] *= 0` — /repo/src/qtm/gw/sigma.py:768-769, 860-861, 970-971, 1275-1278. -/
noncomputable def QP.used (p : QP) : List Vec := p.q.set p.index 0

/-- The q-points in `Sigma.from_qtm_scf` — sigma.py:248 -/
noncomputable def qScf (L : Lat) (isQ0 : List Bool) (q : List Vec) : Except PyErr QP := qpoints L (some isQ0) q

/-- The q-points in `Sigma.from_data` — sigma.py:275-277: the first point is set to zero. -/
noncomputable def qData (L : Lat) (_isQ0 : List Bool) (q : List Vec) : Except PyErr QP :=
  if q = [] then .error .index else qpoints L none (q.set 0 0)

end Verif.KLists
