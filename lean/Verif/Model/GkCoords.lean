import Verif.Model.Lattice
import Verif.Model.GSpace
import Verif.Model.Dist

/-!
# Model of the coordinates and lengths of the plane waves of a k-point

/repo/src/qtm/gspace/gkspc.py, /repo/src/qtm/mpi/gspace.py:345-369. Arithmetic is exact.
-/

namespace Verif.GkCoords

open Verif.Lattice Verif.GSpace

/-- `G + k` in crystal coordinates — gkspc.py:36-38 -/
def plus (k : Vec) (g : GVec) : Vec := fun i => toVec g i + k i

/-- `ecutwfn`: the default is a quarter of the cutoff of `gwfn` — gkspc.py:28-31 -/
noncomputable def cutoff (ecut : ℝ) (ecutwfn : Option ℝ) : ℝ :=
  match ecutwfn with
  | none => ecut / 4
  | some e => e

open Classical in
/-- `GkSpace(gwfn, k_cryst, ecutwfn)` — gkspc.py:19-45 -/
noncomputable def gkSpace (L : Lat) (gwfn : Base) (ecut : ℝ) (k : Vec) (ecutwfn : Option ℝ) : Except PyErr GkData :=
  mkGk gwfn (fun g => L.norm2Cryst (plus k g)) (2 * cutoff ecut ecutwfn)

/-- `gk_cryst` — gkspc.py:47-49 -/
def gkCryst (r : GkData) (k : Vec) : List Vec := r.base.gCryst.map (plus k)

/-- `gk_cart` — gkspc.py:51-53 -/
noncomputable def gkCart (L : Lat) (r : GkData) (k : Vec) : List Vec := (gkCryst r k).map L.cryst2cart

/-- `gk_tpiba` — gkspc.py:55-59 -/
noncomputable def gkTpiba (L : Lat) (r : GkData) (k : Vec) : List Vec := (gkCryst r k).map L.cryst2unit

/-- `gk_norm2` — gkspc.py:61-64: from the Cartesian coordinates -/
noncomputable def gkNorm2 (L : Lat) (r : GkData) (k : Vec) : List ℝ := (gkCart L r k).map fun v => dotCart v v

/-- `gk_norm` — gkspc.py:66-69 -/
noncomputable def gkNorm (L : Lat) (r : GkData) (k : Vec) : List ℝ := (gkNorm2 L r k).map Real.sqrt

/-- `cryst_to_norm2` — gkspc.py:71-83 -/
noncomputable def crystToNorm2 (L : Lat) (l : List Vec) : List ℝ := l.map L.norm2Cryst

/-- `DistGkSpace.gk_cryst` on process `p` — mpi/gspace.py:345-369: `g_cryst` of the process is the slice `ig_loc` of the one of the whole basis (gspace.py:105). -/
def distGkCryst (S : Dist.Setup) (p : ℕ) (r : GkData) (k : Vec) : List Vec := (S.cutG p r.base.gCryst).map (plus k)

/-- `DistGkSpace.gk_norm2` on process `p`: the property is inherited. -/
noncomputable def distGkNorm2 (L : Lat) (S : Dist.Setup) (p : ℕ) (r : GkData) (k : Vec) : List ℝ :=
  ((distGkCryst S p r k).map L.cryst2cart).map fun v => dotCart v v

end Verif.GkCoords
