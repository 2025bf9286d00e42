import Mathlib.Data.Complex.Basic
import Mathlib.Analysis.SpecialFunctions.Sqrt
import Verif.Model.Py
import Verif.Model.GSpace
import Verif.Model.FFT
import Verif.Model.QEInp

/-!
# Model of the container of Kohn-Sham states

/repo/src/qtm/dft/kswfn.py, with the parts of /repo/src/qtm/containers/wavefun.py it uses (serial case). Numbers are exact; the type checks of the
constructor are not modelled.
-/

namespace Verif.KSWfn

open Verif.GSpace (GVec Shape)
open Verif.FFT (Dims Driver DrvState)
open Verif.QEInp (dictSet dictGet)
open scoped ComplexConjugate

/-- `KSWfn` — kswfn.py:43-107: `nb` bands; row `b` of `evc` holds `nspin * numg` coefficients (spin components one after the other). -/
structure KS where
  nb : ℕ
  nspin : ℕ
  numg : ℕ
  evc : ℕ → ℕ → ℂ
  occ : ℕ → ℝ
  evl : ℕ → ℝ

/-- `basis_size` — wavefun.py:36. -/
def KS.basis (K : KS) : ℕ := K.nspin * K.numg

/-- `np.vdot(wfn, wfn)` — wavefun.py:93-97. -/
noncomputable def KS.norm2 (K : KS) (b : ℕ) : ℝ := ∑ i ∈ Finset.range K.basis, Complex.normSq (K.evc b i)

/-- `normalize()` of the rows with `sel b` — wavefun.py:108-110. -/
noncomputable def KS.normalize (K : KS) (sel : ℕ → Bool) : KS :=
  { K with evc := fun b i => if sel b then K.evc b i / (Real.sqrt (K.norm2 b) : ℂ) else K.evc b i }

/-- Selection of bands: a slice `a:b` (a view) or a list of indices (numpy makes a copy). -/
inductive Sel
  | slice (a b : ℕ)
  | index (l : List ℕ)

/-- `range(numbnd)[ibnd]`. -/
def Sel.bands (nb : ℕ) : Sel → List ℕ
  | .slice a b => pySlice (List.range nb) a b
  | .index l => l

/-- `wfn.to_r().get_density(normalize=False)` — wavefun.py:76-79, 213-219: spin component `s` at grid point `r`; the transform is not
normalised for Bloch states (gkspc.py:17). -/
noncomputable def density (drv : Driver) (d : Dims) (idx : List ℕ) (st : DrvState ℂ) (K : KS) (b s r : ℕ) : ℂ :=
  let psi := (drv.g2r d (FFT.dftKern false d) false idx st ((List.range K.numg).map fun i => K.evc b (s * K.numg + i))).2
  conj (psi r) * psi r

/-- `KSWfn.compute_rho(ibnd, ret_raw=True)` — kswfn.py:144-154: the state afterwards and the density (spin component, grid point).
`self.evc_gk[ibnd].normalize()` acts on a view for a slice and on a copy for a list; with no bands `sum()` is the number 0 (`AttributeError`). -/
noncomputable def computeRho (drv : Driver) (d : Dims) (idx : List ℕ) (st : DrvState ℂ) (vol : ℝ) (K : KS) (sel : Sel) :
    Except PyErr (KS × (ℕ → ℕ → ℂ)) :=
  let bands := sel.bands K.nb
  if bands.all (fun b => decide (b < K.nb)) = false then .error .index else
  let K' := match sel with
    | .slice _ _ => K.normalize fun b => decide (b ∈ bands)
    | .index _ => K
  if bands = [] then .error .attribute
  else .ok (K', fun s r => (bands.map fun b => (K.occ b : ℂ) * density drv d idx st K' b s r).sum / (vol : ℂ))

/-- `indices_occupied` — kswfn.py:192-195. -/
noncomputable def occupied (K : KS) : List ℕ := by
  classical
  exact (List.range K.nb).filter fun b => decide (K.occ b ≥ 1 / 2)

/-- `indices_empty` — kswfn.py:197-199. -/
noncomputable def empty (K : KS) : List ℕ := by
  classical
  exact (List.range K.nb).filter fun b => decide (K.occ b < 1 / 2)

/-! ## Overlaps -/

/-- `gcryst2int` of one vector — kswfn.py:201-210. -/
def hash (S : Shape) (u g : GVec) : ℤ :=
  (g.1 + u.1) % S.n1 + (g.2.1 + u.2.1) % S.n2 * S.n1 + (g.2.2 + u.2.2) % S.n3 * S.n1 * S.n2

/-- `idxgrid_to_dict` — kswfn.py:173-180: hash of every plane wave with its position (the coefficients are looked up there). -/
def idxDict (S : Shape) (u : GVec) (gs : List GVec) : List (ℤ × ℕ) :=
  (List.range gs.length).foldl (fun d i => dictSet d (hash S u (gs.getD i (0, 0, 0))) i) []

/-- A band argument: one band or a list. -/
inductive Bands
  | one (b : ℕ)
  | many (l : List ℕ)

/-- `data[bands, i]` is defined (`IndexError` otherwise). -/
def Bands.ok (nb : ℕ) : Bands → Bool
  | .one b => decide (b < nb)
  | .many l => l.all fun b => decide (b < nb)

/-- `KSWfn.overlap` — kswfn.py:159-190, for states with at least one plane wave: row = bra band, column = ket band; `len(bra_bands)` of a
number is a `TypeError`. Both states have the grid `S`. -/
noncomputable def overlap (S : Shape) (bra ket : KS) (gb gk : List GVec) (bb kb : Bands) (u : GVec) : Except PyErr (ℕ → ℕ → ℂ) :=
  if bb.ok bra.nb = false ∨ kb.ok ket.nb = false then .error .index else
  match bb, kb with
  | .many lb, .many lk =>
    let dk := idxDict S u gk
    .ok fun a b => ((idxDict S (0, 0, 0) gb).map fun p => match dictGet dk p.1 with
      | none => 0
      | some j => conj (bra.evc (lb.getD a 0) p.2) * ket.evc (lk.getD b 0) j).sum
  | _, _ => .error .type

/-! ## Reading a Quantum ESPRESSO file -/

/-- `f8_to_c16_interleaved` of one row — kswfn.py:36-40 (an odd number of values cannot be added: `ValueError`). -/
def interleaved : List ℝ → Except PyErr (List ℂ)
  | [] => .ok []
  | [_] => .error .value
  | a :: b :: t => match interleaved t with
    | .error e => .error e
    | .ok l => .ok (⟨a, b⟩ :: l)

/-- The loop over the Miller indices — kswfn.py:234-243: `idx = np.where(...)` is a tuple of one array, so `len(idx) > 0` always holds and a vector
that is not found fails at `idx[0][0]` (`IndexError`). `rows` are the file's states; `n` counts the columns. -/
def place (gs : List GVec) (col : ℕ → ℕ → ℂ) : List GVec → ℕ → (ℕ → ℕ → ℂ) → Except PyErr (ℕ → ℕ → ℂ)
  | [], _, data => .ok data
  | g :: t, i, data =>
    match (List.range gs.length).find? fun p => decide (gs.getD p (0, 0, 0) = g) with
    | none => .error .index
    | some p => place gs col t (i + 1) fun b q => if q = p then col b i else data b q

/-- `init_from_hdf5` — kswfn.py:212-245. `rows` are the rows of the data set `evc` (one row is broadcast to all bands), `evl` the attribute's first
row (one value is broadcast). `gs` are the plane waves of the basis (`numg` of them), `N` the number of grid points. -/
noncomputable def initHdf5 (N : ℕ) (gs : List GVec) (K : KS) (miller : List GVec) (rows : List (List ℝ)) (evl : Option (List ℝ)) :
    Except PyErr KS :=
  let setEvl : Except PyErr (ℕ → ℝ) := match evl with
    | none => .ok K.evl
    | some [x] => .ok fun _ => x
    | some l => if l.length = K.nb then .ok fun b => l.getD b 0 else .error .value
  match setEvl with
  | .error e => .error e
  | .ok evl' =>
    match rows.mapM interleaved with
    | .error e => .error e
    | .ok cs =>
      if K.numg ≠ miller.length then .error .value
      else if miller ≠ [] ∧ cs.length ≠ K.nb ∧ cs.length ≠ 1 then .error .value
      else if (cs.map List.length).any fun n => decide (n < miller.length) then .error .index
      else
        let col := fun b i => (N : ℂ) * (cs.getD (if cs.length = 1 then 0 else b) []).getD i 0
        match place gs col miller 0 K.evc with
        | .error e => .error e
        | .ok data => .ok ({ K with evc := data, evl := evl' }.normalize fun _ => true)

end Verif.KSWfn
