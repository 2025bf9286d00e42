import Mathlib.LinearAlgebra.Matrix.NonsingularInverse
import Mathlib.Data.Complex.BigOperators
import Verif.Model.GSpace
import Verif.Model.Lattice
import Verif.Model.FFT
import Verif.Model.Nonloc

/-!
# Model of the GW dielectric matrix: /repo/src/qtm/gw/core.py, epsilon.py, vcoul.py

Floating-point numbers are modelled by `ℝ`/`ℂ`; `np.nan` by `none`. The FFT drivers are those of `Verif.Model.FFT`.
-/

namespace Verif.GW

open Verif.Lattice (Vec)
open Verif.GSpace (GVec Shape cryst2idxgrid flatIdx at' gather argsort)
open Verif.FFT (Driver DrvState Dims dftKern)
open Verif.Nonloc (rint wfR)
open scoped ComplexConjugate

/-! ## core.py -/

/-- `np.around(x, nd)` — used at core.py:104, epsilon.py:209/213: scale, round half to even, scale back. -/
noncomputable def around (nd : ℕ) (x : ℝ) : ℝ := (rint (x * 10 ^ nd) : ℝ) / 10 ^ nd

/-- Sort key of one G-vector in `sort_cryst_like_BGW` — core.py:99-105. `np.lexsort` takes its keys from least to most
important: here most important first. -/
noncomputable def bgwKey (v : Vec) (key : ℝ) : ℝ × Vec := (around 10 key, v)

/-- Comparison of `np.lexsort((z, y, x, around(key, 10)))` — core.py:99-105. -/
noncomputable def bgwLe (a b : ℝ × Vec) : Bool := by
  classical
  exact decide (a.1 < b.1 ∨ (a.1 = b.1 ∧ (a.2 0 < b.2 0 ∨ (a.2 0 = b.2 0 ∧ (a.2 1 < b.2 1 ∨ (a.2 1 = b.2 1 ∧ a.2 2 ≤ b.2 2))))))

/-- `sort_cryst_like_BGW(cryst, key_array)` — core.py:77-107 (`np.lexsort` is stable). The keys are the columns' `gk_norm2`. -/
noncomputable def sortBGW (l : List (Vec × ℝ)) : List ℕ :=
  (List.range l.length).mergeSort fun i j =>
    bgwLe (bgwKey (l.getD i (0, 0)).1 (l.getD i (0, 0)).2) (bgwKey (l.getD j (0, 0)).1 (l.getD j (0, 0)).2)

/-- `np.take_along_axis(mat, tiled_indices, 1)` with `tiled_indices = np.tile(indices, (n, 1))` — core.py:130-132. -/
def takeCols {α : Type*} (mat : ℕ → ℕ → α) (idx : List ℕ) : ℕ → ℕ → α := fun i j => mat i (at' idx j)

/-- `np.take_along_axis(mat, tiled_indices.T, 0)` — core.py:131-133. -/
def takeRows {α : Type*} (mat : ℕ → ℕ → α) (idx : List ℕ) : ℕ → ℕ → α := fun i j => mat (at' idx i) j

/-- `reorder_2d_matrix_sorted_gvecs` — core.py:116-133. -/
def reorder {α : Type*} (mat : ℕ → ℕ → α) (idx : List ℕ) : ℕ → ℕ → α := takeRows (takeCols mat idx) idx

/-! ## epsilon.py: matrix elements -/

/-- What is used of a `KSWfn`: its G-sphere, plane-wave coefficients (`evc_gk._data[band, :]`), eigenvalues and occupations. -/
structure Wfn where
  gs : List GVec
  evc : ℕ → ℕ → ℂ
  evl : ℕ → ℝ
  occ : ℕ → ℝ

instance : Inhabited Wfn := ⟨⟨[], fun _ _ => 0, fun _ => 0, fun _ => 0⟩⟩

/-- The grid of a shape. -/
def dims (s : Shape) : Dims := ⟨s.n1, s.n2, s.n3⟩

/-- Flat grid positions of a list of G-vectors — `GSpaceBase.idxgrid`, gspace/base.py:85-89. -/
def idxOf (s : Shape) (gs : List GVec) : List ℕ := gs.map fun g => (flatIdx s g).toNat

/-- `gkspc._fft.g2r(wfn.evc_gk._data[b, :], arr_out=...)` — epsilon.py:230-243, 255-260: one wavefunction on the grid
(`GkSpace` FFTs do not normalise the inverse transform). -/
noncomputable def phi (drv : Driver) (s : Shape) (st : DrvState ℂ) (w : Wfn) (b : ℕ) : Fin (dims s).size → ℂ :=
  wfR drv (dims s) (idxOf s w.gs) st fun j => w.evc b j

/-- `umklapped_fft_driver.r2g(prod, fft_prod)` with `prod = np.conj(phi_c) * phi_v` — epsilon.py:295-298. -/
noncomputable def fftProd (drv : Driver) (s : Shape) (st : DrvState ℂ) (idx : List ℕ) (pc pv : Fin (dims s).size → ℂ) : List ℂ :=
  (drv.r2g (dims s) (dftKern true (dims s)) idx st
    fun k => if h : k < (dims s).size then conj (pc ⟨k, h⟩) * pv ⟨k, h⟩ else 0).2

/-- Umklapp vector of one k-point — epsilon.py:208-214: `-np.floor(np.around(k + q, 5))`, with `q = 0` for the q0 point. -/
noncomputable def umklapp (k q : Vec) : Fin 3 → ℤ := fun c => -⌊around 5 (k c + q c)⌋

/-- `l_kplusq` — epsilon.py:210, 214. -/
noncomputable def kPlusQ (k q : Vec) : Vec := fun c => k c + q c + umklapp k q c

/-- `np.all(np.isclose(a, b, atol=1e-5), axis=1)` (default `rtol=1e-5`) — epsilon.py:280-284, with `a = k_v`, `b = k_c + q`. -/
def IsClose (a b : Vec) : Prop := ∀ c, |a c - b c| ≤ 1 / 100000 + 1 / 100000 * |b c|

/-- The `Epsilon` object — epsilon.py:50-107 — and the q-point: `qadd` is `qpts.cryst[i_q]`, or zero when `is_q0[i_q]`
(epsilon.py:208-214); `val` holds `l_wfnq` at the q0 point and `l_wfn` otherwise (epsilon.py:211, 215, 231-236). -/
structure EpsIn where
  shape : Shape
  ks : List Vec
  wfn : List Wfn
  val : List Wfn
  nbands : ℕ
  vol : ℝ
  qadd : Vec
  gq : List GVec

/-- `np.where(occ == x)` of the array `occ[i_k, 0:number_bands]`, in row-major order — epsilon.py:176-181. -/
noncomputable def whereOcc (E : EpsIn) (x : ℝ) : List (ℕ × ℕ) := by
  classical
  exact (List.range E.ks.length).flatMap fun k =>
    ((List.range E.nbands).filter fun b => decide ((E.wfn.getD k default).occ b = x)).map fun b => (k, b)

/-- `l_g_umklapp = l_gq[i_q].g_cryst - umklapp[i_k_c]` — epsilon.py:265. -/
noncomputable def gUmk (E : EpsIn) (kc : ℕ) : List GVec :=
  let u := umklapp (E.ks.getD kc 0) E.qadd
  E.gq.map fun g => (g.1 - u 0, g.2.1 - u 1, g.2.2 - u 2)

/-- Valence states whose k-point matches `k_c + q` — epsilon.py:277-285. -/
noncomputable def matchV (E : EpsIn) (kc : ℕ) : List (ℕ × ℕ) := by
  classical
  exact (whereOcc E 1).filter fun v => decide (IsClose (E.ks.getD v.1 0) (kPlusQ (E.ks.getD kc 0) E.qadd))

/-- One plane-wave matrix element vector, `fft_prod * np.reciprocal(sqrt_Ec_Ev * prod_grid_shape)` — epsilon.py:299-308.
`np.sqrt` of a negative number is NaN in numpy and 0 here: theorems assume `E_v < E_c`. -/
noncomputable def mel (drv : Driver) (E : EpsIn) (st : DrvState ℂ) (kc bc kv bv : ℕ) : List ℂ :=
  let wc := E.wfn.getD kc default
  let wv := E.val.getD kv default
  (fftProd drv E.shape st (idxOf E.shape (gUmk E kc)) (phi drv E.shape st wc bc) (phi drv E.shape st wv bv)).map fun x =>
    x * (((Real.sqrt (wc.evl bc - wv.evl bv) * E.shape.size)⁻¹ : ℝ) : ℂ)

/-- Index of a stored matrix element: `(i_k_c, i_b_c, i_b_v)`. -/
abbrev Key := ℕ × ℕ × ℕ

/-- `Epsilon.matrix_elements` — epsilon.py:114-315: the sequence of (position, value) computed, in order. `max`/`min` of an
empty array raise `ValueError` (epsilon.py:184-186); G-vectors shifted off the FFT grid fail the assertion of
`cryst2idxgrid` (epsilon.py:267). -/
noncomputable def matrixElements (drv : Driver) (E : EpsIn) (st : DrvState ℂ) : Except PyErr (List (Key × List ℂ)) :=
  if whereOcc E 1 = [] ∨ whereOcc E 0 = [] then .error .value
  else
    (do
      let rows ← (whereOcc E 0).mapM fun c => do
        let _ ← cryst2idxgrid E.shape (gUmk E c.1)
        pure ((matchV E c.1).map fun v => ((c.1, c.2, v.2), mel drv E st c.1 c.2 v.1 v.2))
      pure rows.flatten)

/-- `n_c_beg = min(l_i_c[1])` — epsilon.py:185. -/
noncomputable def nCBeg (E : EpsIn) : ℕ := ((whereOcc E 0).map Prod.snd).foldl min E.nbands

/-- `n_v_max = max(l_i_v[1]) + 1` — epsilon.py:184. -/
noncomputable def nVMax (E : EpsIn) : ℕ := ((whereOcc E 1).map Prod.snd).foldl max 0 + 1

/-- The array `M` after the loop with `yielding=False` — epsilon.py:246-249, 306-308: zeros, then assignments in order. -/
def batchM (n : ℕ) (beg : ℕ) (evs : List (Key × List ℂ)) : ℕ → ℕ → ℕ → List ℂ := fun k c v =>
  evs.foldl (fun cur e => if e.1.1 = k ∧ e.1.2.1 - beg = c ∧ e.1.2.2 = v then e.2 else cur) (List.replicate n 0)

/-- `-np.einsum("l,m->lm", np.conj(M), M)` — epsilon.py:376. -/
def outer (M : List ℂ) (l m : ℕ) : ℂ := -(conj (M.getD l 0) * M.getD m 0)

/-- `Epsilon.polarizability(M)` — epsilon.py:346-358. -/
noncomputable def polarizability (vol : ℝ) (nk nc nv : ℕ) (M : ℕ → ℕ → ℕ → List ℂ) (l m : ℕ) : ℂ :=
  4 * (∑ k ∈ Finset.range nk, ∑ c ∈ Finset.range nc, ∑ v ∈ Finset.range nv, outer (M k c v) l m) / ((vol * nk : ℝ) : ℂ)

/-- `Epsilon.polarizability_active(i_q)` — epsilon.py:360-383: running sum over the yielded vectors. -/
noncomputable def polActive (vol : ℝ) (nk : ℕ) (evs : List (Key × List ℂ)) (l m : ℕ) : ℂ :=
  4 * evs.foldl (fun acc e => acc + outer e.2 l m) 0 / ((vol * nk : ℝ) : ℂ)

/-- `epsilon.polarizability(next(epsilon.matrix_elements(i_q)))` — the way epsilon_script.py:131-140 calls it. -/
noncomputable def chiBatch (drv : Driver) (E : EpsIn) (st : DrvState ℂ) : Except PyErr (ℕ → ℕ → ℂ) := do
  let evs ← matrixElements drv E st
  pure (polarizability E.vol E.ks.length (E.nbands - nCBeg E) (nVMax E) (batchM E.gq.length (nCBeg E) evs))

/-- `epsilon.polarizability_active(i_q)`. -/
noncomputable def chiActive (drv : Driver) (E : EpsIn) (st : DrvState ℂ) : Except PyErr (ℕ → ℕ → ℂ) := do
  let evs ← matrixElements drv E st
  pure (polActive E.vol E.ks.length evs)

/-! ## Coulomb interaction and the inverse dielectric matrix -/

/-- `Vcoul.v_bare` — vcoul.py:263-274: `8π/|q+G|²`, NaN where `q+G = 0`. -/
noncomputable def vBare (gqq : ℝ) : Option ℝ := by
  classical
  exact if gqq ≠ 0 then some (8 * Real.pi * gqq⁻¹) else none

/-- `Epsilon.epsilon_inverse` — epsilon.py:387-412: `eps_ij = δ_ij - v_j/2 χ_ij`, then `np.linalg.inv`, which raises
`LinAlgError` for a singular matrix. Some `v_j = NaN` makes the column and so the whole inverse NaN: `.ok none`. -/
noncomputable def epsMat {n : ℕ} (v : Fin n → ℝ) (chi : Fin n → Fin n → ℂ) : Matrix (Fin n) (Fin n) ℂ :=
  fun i j => (if i = j then 1 else 0) - ((v j / 2 : ℝ) : ℂ) * chi i j

/-- See `epsMat`. -/
noncomputable def epsInverse {n : ℕ} (v : Fin n → Option ℝ) (chi : Fin n → Fin n → ℂ) :
    Except PyErr (Option (Matrix (Fin n) (Fin n) ℂ)) := by
  classical
  exact if ∃ j, v j = none then .ok none
    else if (epsMat (fun j => (v j).getD 0) chi).det = 0 then .error .linalg
    else .ok (some (epsMat (fun j => (v j).getD 0) chi)⁻¹)

/-! ## vcoul.py: fixing head and wings -/

/-- The inner `fixwing` — vcoul.py:189-210. -/
inductive Wing
  | head | wing | wingprime

/-- `fixwing(arr, i_q, q0len, wingtype, oneoverq, vcoul)` applied to one element — vcoul.py:189-210. -/
noncomputable def fixElem (q0flag : Bool) (wcoul0 : ℂ) (oneoverq vcoul q0len : ℝ) : Wing → ℂ → ℂ
  | .wing, x => if q0flag then x * 0 else x * oneoverq / ((vcoul * q0len : ℝ) : ℂ)
  | .wingprime, x => if q0flag then x * 0 else x * oneoverq * q0len / ((8 * Real.pi : ℝ) : ℂ)
  | .head, x => if q0flag then wcoul0 / (vcoul : ℂ) else x

/-- `Vcoul.fixwings` — vcoul.py:145-250, with `g0 = index_G0`: the head, then column `g0` ("wingprime"), then row `g0`
("wing"), then the saved head is put back; the input is deep-copied. -/
noncomputable def fixwings (q0flag : Bool) (wcoul0 : ℂ) (oneoverq vcoul q0len : ℝ) (g0 : ℕ) (eps : ℕ → ℕ → ℂ) : ℕ → ℕ → ℂ :=
  let f := fixElem q0flag wcoul0 oneoverq vcoul q0len
  let a1 := fun i j => if i = g0 ∧ j = g0 then f .head (eps g0 g0) else eps i j
  let head := a1 g0 g0
  let a2 := fun i j => if j = g0 then f .wingprime (a1 i g0) else a1 i j
  let a3 := fun i j => if i = g0 then f .wing (a2 g0 j) else a2 i j
  fun i j => if i = g0 ∧ j = g0 then head else a3 i j

/-- `np.array_split(np.arange(n), size)[rank]` — vcoul.py:676-677, sigma.py: the first `n % size` parts have one element more. -/
def arraySplit (n size rank : ℕ) : List ℕ :=
  List.range' (rank * (n / size) + min rank (n % size)) (n / size + if rank < n % size then 1 else 0)

/-- `Vcoul.calculate_vcoul` serially — vcoul.py:661-667. -/
def vcoulSerial {α : Type*} (numq : ℕ) (single : ℕ → α) : List α := (List.range numq).map single

/-- `Vcoul.calculate_vcoul` on `size` processes — vcoul.py:668-698: every process computes its part and all of them get
`chain.from_iterable(allgather(part))`. -/
def vcoulParallel {α : Type*} (numq size : ℕ) (single : ℕ → α) : List α :=
  ((List.range size).map fun rank => (arraySplit numq size rank).map single).flatten

/-- `index_G0` — vcoul.py:213-224: the first of the shortest G-vectors (crystal coordinates) of the list, in sorted order. -/
def argminG (gs : List GVec) : ℕ :=
  let n2 := fun g : GVec => g.1 * g.1 + g.2.1 * g.2.1 + g.2.2 * g.2.2
  ((List.range gs.length).find? fun i => decide (∀ j < gs.length, n2 (gs.getD i (0, 0, 0)) ≤ n2 (gs.getD j (0, 0, 0)))).getD 0

/-- `Vcoul.calculate_fixedeps` — vcoul.py:719-749. `sphere` are the G-vectors of the q-point with `|q+G|²`, `v` the Coulomb values (both in the order of the G-space), `qlen` the length of the q-point
(of `q0vec` at q0). The value passed on is the one of the first G-vector in BerkeleyGW's order. -/
noncomputable def fixedeps (isq0 fixNonq0 : Bool) (wcoul0 : Option ℂ) (sphere : List (GVec × ℝ)) (vec : GVec → Vec) (v : List ℝ) (oneoverq qlen : ℝ) (eps : ℕ → ℕ → ℂ) : ℕ → ℕ → ℂ :=
  let order := sortBGW (sphere.map fun s => (vec s.1, s.2))
  let vcoul := v.getD (at' order 0) 0
  let w0 := wcoul0.getD (eps 0 0 * vcoul)
  let g0 := argminG (order.map fun i => (sphere.getD i ((0, 0, 0), 0)).1)
  if isq0 then fixwings true w0 oneoverq vcoul qlen g0 eps
  else if fixNonq0 then fixwings false w0 oneoverq vcoul qlen g0 eps
  else eps

end Verif.GW
