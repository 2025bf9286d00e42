import Verif.Model.Lattice

/-!
# Model of crystals and supercells (/repo/src/qtm/crystal/crystal.py, basis_atoms.py)
-/

namespace Verif.Crystal

open Verif.Lattice Matrix

/-- The `ppdata` argument of `BasisAtoms`: a pseudopotential (with its valence), a plain number of valence
electrons, or nothing — /repo/src/qtm/crystal/basis_atoms.py:86. -/
inductive PPArg
  | file (valence : ℤ)
  | int (valence : ℤ)
  | none

/-- What a `BasisAtoms` stores — basis_atoms.py:91-132. `pp` is the stored pseudopotential (its valence). -/
structure Species where
  label : String
  pp : Option ℤ
  valence : ℤ
  r : List Vec

/-- `BasisAtoms.__init__` — basis_atoms.py:91-132: an integer is stored as the valence, but *not* kept as
`ppdata`; no `ppdata` gives valence -1. (Shape and mass checks are vacuous for well-typed values.) -/
def mkSpecies (label : String) (pp : PPArg) (r : List Vec) : Species :=
  match pp with
  | .int v => ⟨label, none, v, r⟩
  | .file v => ⟨label, some v, v, r⟩
  | .none => ⟨label, none, -1, r⟩

/-- Passing a stored `ppdata` attribute as argument again — crystal.py:89. -/
def Species.ppArg (s : Species) : PPArg :=
  match s.pp with
  | some v => .file v
  | none => .none

structure Cryst where
  lat : Lat
  atoms : List Species

/-- `Crystal.numel` — crystal.py:52-55. -/
def Cryst.numel (c : Cryst) : ℤ := (c.atoms.map fun s => s.valence * (s.r.length : ℤ)).sum

/-- `np.meshgrid(np.arange(n1), np.arange(n2), np.arange(n3), indexing="ij")` flattened — crystal.py:74-77. -/
def gridPts (n1 n2 n3 : ℕ) : List Vec :=
  (List.range n1).flatMap fun i : ℕ => (List.range n2).flatMap fun j : ℕ => (List.range n3).map fun k : ℕ =>
    ![(i : ℝ), (j : ℝ), (k : ℝ)]

/-- `Crystal.gen_supercell` — crystal.py:57-92. Zero repeats pass the check of crystal.py:62; the lattice
constructor then raises `ValueError` for the singular matrix. -/
noncomputable def genSupercell (c : Cryst) (n1 n2 n3 : ℕ) : Except PyErr Cryst :=
  match mkLat (n1 * c.lat.unit) (c.lat.primvec * Matrix.diagonal ![(n1 : ℝ), n2, n3]) with
  | .error e => .error e
  | .ok sup => .ok
    { lat := sup
      atoms := c.atoms.map fun s => mkSpecies s.label s.ppArg
        ((gridPts n1 n2 n3).flatMap fun t => s.r.map fun r => sup.cart2cryst (c.lat.cryst2cart (t + r))) }

end Verif.Crystal
