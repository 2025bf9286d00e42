import Verif.Model.LatArr

/-!
# Model of dot products and lengths of arrays of vectors in every unit system (/repo/src/qtm/lattice.py:123-229, 448-555, 756-807)

Numbers are real, arithmetic is exact. Reshaping to `(3, -1)` and back is row-major.
-/

namespace Verif.LatNorm

open Verif.Lattice Verif.LatArr

/-- The two classes of lattices: `RealLattice` knows the unit `"alat"`, `ReciLattice` the unit `"tpiba"`. -/
inductive Cls
  | real | reci
  deriving DecidableEq

/-- The argument `coords`. -/
inductive Name
  | cryst | cart | alat | tpiba | other
  deriving DecidableEq

/-- The vector at `idx` of an array `(3, …)`. -/
def vec (a : Arr) (idx : List ℕ) : Vec := fun i => a.get (i.val :: idx)

/-- `Lattice.dot(l_vec1, l_vec2, coords)` — lattice.py:150-166: the leading axes must have length 3 (`IndexError` for arrays without axes); `"cryst"` uses the metric, `"cart"` does not. -/
noncomputable def baseDot (L : Lat) (a b : Arr) (c : Name) : Except PyErr Arr :=
  match a.shape, b.shape with
  | [], _ => .error .index
  | n :: s, t' => if n ≠ 3 then .error .value else match t' with
    | [] => .error .index
    | m :: t => if m ≠ 3 then .error .value else match c with
      | .cryst => .ok ⟨s ++ t, fun idx => vec a (idx.take s.length) ⬝ᵥ (L.metric.mulVec (vec b (idx.drop s.length)))⟩
      | .cart => .ok ⟨s ++ t, fun idx => vec a (idx.take s.length) ⬝ᵥ vec b (idx.drop s.length)⟩
      | _ => .error .value

/-- `RealLattice.dot` — lattice.py:477-485 — and `ReciLattice.dot` — lattice.py:776-784. -/
noncomputable def dot (k : Cls) (L : Lat) (a b : Arr) (c : Name) : Except PyErr Arr :=
  if c = .cryst ∨ c = .cart then baseDot L a b c
  else if (k = .real ∧ c = .alat) ∨ (k = .reci ∧ c = .tpiba) then (baseDot L a b .cart).map (·.mulBy (L.unit ^ 2))
  else .error .value

/-- `Lattice.norm2(l_vec, coords)` — lattice.py:191-205: flattened before its shape is taken. -/
noncomputable def baseNorm2 (L : Lat) (a : Arr) (c : Name) : Except PyErr Arr :=
  match a.shape with
  | [] => .error .index
  | n :: rest => if n ≠ 3 then .error .value else match c with
    | .cryst => .ok ⟨[rest.prod], fun idx => L.norm2Cryst (vec a (Wavefun.unravel rest (idx.getD 0 0)))⟩
    | .cart => .ok ⟨[rest.prod], fun idx => ∑ i, vec a (Wavefun.unravel rest (idx.getD 0 0)) i * vec a (Wavefun.unravel rest (idx.getD 0 0)) i⟩
    | _ => .error .value

/-- `RealLattice.norm2` — lattice.py:512-519 — and `ReciLattice.norm2` — lattice.py:800-807. -/
noncomputable def norm2 (k : Cls) (L : Lat) (a : Arr) (c : Name) : Except PyErr Arr :=
  if c = .cryst ∨ c = .cart then baseNorm2 L a c
  else if (k = .real ∧ c = .alat) ∨ (k = .reci ∧ c = .tpiba) then (baseNorm2 L a .cart).map (·.mulBy (L.unit ^ 2))
  else .error .value

/-- `np.sqrt` of an array. -/
noncomputable def sqrtArr (a : Arr) : Arr := ⟨a.shape, fun idx => Real.sqrt (a.get idx)⟩

/-- `norm`: `ReciLattice` inherits `Lattice.norm` — lattice.py:207-229, which calls the `norm2` of the class; `RealLattice.norm` — lattice.py:544-552 multiplies by `alat` after the root. -/
noncomputable def norm (k : Cls) (L : Lat) (a : Arr) (c : Name) : Except PyErr Arr :=
  match k with
  | .reci => (norm2 .reci L a c).map sqrtArr
  | .real =>
    if c = .cryst ∨ c = .cart then (norm2 .real L a c).map sqrtArr
    else if c = .alat then ((norm2 .real L a .cart).map sqrtArr).map (·.mulBy L.unit)
    else .error .value

end Verif.LatNorm
