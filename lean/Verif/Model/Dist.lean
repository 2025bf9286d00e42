import Verif.Model.FFT
import Verif.Model.Scatter

/-!
# Model of the distributed G-space (/repo/src/qtm/mpi/gspace.py)

All processes of a plane-wave group are modelled together: rank-indexed families of local states. Local
code of one rank touches only that rank's state, and the only communication is the collective
`Alltoallv` (resp. `Scatterv`/`Gatherv`/`Allgatherv`), so running the local phases of all ranks, then the
collective, then the next local phases covers every interleaving of the processes.
-/

namespace Verif.Dist

open Verif.FFT Verif.Scatter

variable {K : Type*} [Field K]

/-- What every process of the group is constructed from: the serial G-space (grid, flat indices of its
G-vectors) and the number of processes — /repo/src/qtm/mpi/gspace.py:26-59. -/
structure Setup where
  d : Dims
  idx : List ℕ
  P : ℕ

/-- `iyz` — /repo/src/qtm/mpi/gspace.py:49-52. -/
def Setup.iyz (S : Setup) : List ℕ := S.idx.map (stickOf S.d)

/-- `iyz_sticks` — gspace.py:53. -/
def Setup.stk (S : Setup) : List ℕ := sticks S.d S.idx

/-- `numsticks` — gspace.py:54. -/
def Setup.ns (S : Setup) : ℕ := S.stk.length

/-- `iyz_sticks_loc` — gspace.py:62-63. -/
def Setup.stkLoc (S : Setup) (p : ℕ) : List ℕ := block S.stk S.P p

/-- `numsticks_loc` — gspace.py:64. -/
def Setup.nst (S : Setup) (p : ℕ) : ℕ := (S.stkLoc p).length

/-- `np.searchsorted(l, v, "right")` on a sorted array: the number of elements not above `v`. -/
def searchsortedRight (l : List ℕ) (v : ℕ) : ℕ := (l.filter fun a => a ≤ v).length

/-- `ig_loc.start` — gspace.py:68-70 (`iyz_sticks_loc[0]`). -/
def Setup.igStart (S : Setup) (p : ℕ) : ℕ := searchsorted S.iyz ((S.stkLoc p).headD 0)

/-- `ig_loc.stop` — gspace.py:68-71 (`iyz_sticks_loc[-1]`, right). -/
def Setup.igStop (S : Setup) (p : ℕ) : ℕ := searchsortedRight S.iyz ((S.stkLoc p).getLastD 0)

/-- An array over the G-vectors cut to the process: `arr[ig_loc]`. -/
def Setup.cutG {α : Type*} (S : Setup) (p : ℕ) (l : List α) : List α :=
  pySlice l (S.igStart p) (S.igStop p)

/-- `nx_loc` — gspace.py:73. -/
def Setup.nxl (S : Setup) (p : ℕ) : ℕ := scatterLen S.d.nx S.P p

/-- `ix_loc.start` — gspace.py:74. -/
def Setup.x0 (S : Setup) (p : ℕ) : ℕ := sliceStart S.d.nx S.P p

/-- `_g2sticks_loc` — gspace.py:83-85. -/
def Setup.g2sLoc (S : Setup) (p : ℕ) : List ℕ :=
  (S.cutG p S.idx).map fun f => S.d.ix f * S.nst p + searchsorted (S.stkLoc p) (stickOf S.d f)

/-- `_trans2full` — gspace.py:100. -/
def Setup.trans2full (S : Setup) : List ℕ := S.stk.map fun s => s / S.d.nz * S.d.nz + s % S.d.nz

/-- `_sticks_bufspecv` of rank `p`, entry `q` — gspace.py:95. -/
def Setup.sticksSpec (S : Setup) (p q : ℕ) : ℕ := scatterLen S.d.nx S.P q * S.nst p

/-- `_trans_bufspecv` of rank `p`, entry `q` — gspace.py:96. -/
def Setup.transSpec (S : Setup) (p q : ℕ) : ℕ := scatterLen S.ns S.P q * S.nxl p

/-- Whether the constructor gets through on rank `p` — gspace.py:69-70 index the local sticks with
`[0]`, `[-1]` (`IndexError` if there are none); gspace.py:78, 101 need positive array dimensions
(assertion in /repo/src/qtm/fft/backend/base.py:47). -/
def Setup.init (S : Setup) (p : ℕ) : Except PyErr Unit :=
  if S.nst p = 0 then .error .index
  else if S.d.nx = 0 ∨ S.nxl p = 0 ∨ S.d.ny = 0 ∨ S.d.nz = 0 then .error .assertion
  else .ok ()

/-- Work arrays of one process — gspace.py:78, 90, 101. -/
structure St (K : Type*) where
  xFwd : ℕ → K
  xBwd : ℕ → K
  trans : ℕ → K
  yzFwd : ℕ → K
  yzBwd : ℕ → K

/-- After construction: allocated (arbitrary contents) with the two `inp_bwd` arrays zeroed
— gspace.py:79, 102. -/
def St.fresh (garbage : St K) : St K := { garbage with xBwd := fun _ => 0, yzBwd := fun _ => 0 }

/-- running sum of counts: the displacements MPI derives from `(buf, counts)` -/
def cum (c : ℕ → ℕ) (q : ℕ) : ℕ := ((List.range q).map c).sum

/-- Overwriting the segment `[off, off + cnt)`. -/
def writeSeg {α : Type*} (buf : ℕ → α) (off cnt : ℕ) (src : ℕ → α) : ℕ → α :=
  fun t => if off ≤ t ∧ t < off + cnt then src (t - off) else buf t

/-- `Alltoallv` over `P` processes — gspace.py:148-150, 175-177. Rank `p` sends `sc p q` elements to rank
`q`; rank `q` expects `rc q p`. `none`: the counts do not match (an MPI error). -/
def alltoallv {α : Type*} (P : ℕ) (snd : ℕ → ℕ → α) (sc : ℕ → ℕ → ℕ) (rcv : ℕ → ℕ → α)
    (rc : ℕ → ℕ → ℕ) : Option (ℕ → ℕ → α) :=
  if ∀ p < P, ∀ q < P, sc p q = rc q p then
    some fun q => (List.range P).foldl
      (fun b p => writeSeg b (cum (rc q) p) (rc q p) fun i => snd p (cum (sc p) q + i)) (rcv q)
  else none

/-- One chunk of the in-place `np.concatenate(..., out=buf)`: the chunk at `off`, seen as an `(a, b)` array,
is replaced by its transpose `(b, a)` — gspace.py:151-160, 178-187. Input and output chunk occupy the same
memory; NumPy copies an overlapping source before assigning. -/
def chunkT {α : Type*} (buf : ℕ → α) (off a b : ℕ) : ℕ → α :=
  fun t => if off ≤ t ∧ t < off + a * b
    then buf (off + (t - off) % a * b + (t - off) / a) else buf t

/-- A transform over axis 0 of an array of shape `(nx, m)` — `FFTBackend((nx, numsticks_loc), (0,))`,
gspace.py:78. -/
def xform0 (d : Dims) (m : ℕ) (w : Kern K) (buf : ℕ → K) : ℕ → K := fun j =>
  ∑ x ∈ Finset.range d.nx, w.wx (j / m) x * buf (x * m + j % m)

/-- First local phase of `_r2g` on rank `p` — gspace.py:142-145. -/
def r2gA (S : Setup) (fwd : Kern K) (p : ℕ) (st : St K) (inp : ℕ → K) : St K :=
  let st := { st with yzFwd := inp }
  let full := xformYZ S.d fwd st.yzFwd
  let tr := fun j => if j < S.ns * S.nxl p
    then full (j % S.nxl p * S.d.plane + S.trans2full.getD (j / S.nxl p) 0) else st.trans j
  { st with trans := tr }

/-- Second local phase of `_r2g` on rank `q` — gspace.py:151-163; `buf` is `work_sticks` as received. -/
def r2gB (S : Setup) (fwd : Kern K) (q : ℕ) (st : St K) (buf : ℕ → K) : St K × List K :=
  let ws := (List.range S.P).foldl
    (fun b p => chunkT b (cum (S.sticksSpec q) p) (S.nst q) (S.sticksSpec q p / S.nst q)) buf
  let st := { st with xFwd := ws }
  (st, take (xform0 S.d (S.nst q) fwd st.xFwd) (S.g2sLoc q))

/-- `_r2g` on all processes — gspace.py:137-163. `arr p` is the local slab of rank `p`. -/
def r2g (S : Setup) (fwd : Kern K) (st : ℕ → St K) (arr : ℕ → ℕ → K) :
    Option ((ℕ → St K) × (ℕ → List K)) :=
  let stA := fun p => r2gA S fwd p (st p) (arr p)
  match alltoallv S.P (fun p => (stA p).trans) S.transSpec (fun q => (stA q).xFwd) S.sticksSpec with
  | none => none
  | some bufs =>
    some (fun q => (r2gB S fwd q (stA q) (bufs q)).1, fun q => (r2gB S fwd q (stA q) (bufs q)).2)

/-- First local phase of `_g2r` on rank `p` — gspace.py:170-172. Returns the state and `work_sticks`. -/
noncomputable def g2rA (S : Setup) (bwd : Kern K) (norm : Bool) (p : ℕ) (st : St K) (inp : List K) :
    St K × (ℕ → K) :=
  let st := { st with xBwd := put st.xBwd (S.g2sLoc p) inp }
  (st, fun j => scale norm S.d.nx * xform0 S.d (S.nst p) bwd st.xBwd j)

/-- Second local phase of `_g2r` on rank `q` — gspace.py:178-192; `buf` is `work_trans` as received. -/
noncomputable def g2rB (S : Setup) (bwd : Kern K) (norm : Bool) (q : ℕ) (st : St K) (buf : ℕ → K) :
    St K × (ℕ → K) :=
  let wt := (List.range S.P).foldl
    (fun b p => chunkT b (cum (S.transSpec q) p) (S.nxl q) (S.transSpec q p / S.nxl q)) buf
  let full := (List.range S.trans2full.length).foldl (fun b s => fun f =>
    if f % S.d.plane = S.trans2full.getD s 0 ∧ f / S.d.plane < S.nxl q
    then wt (s * S.nxl q + f / S.d.plane) else b f) st.yzBwd
  let st := { st with trans := wt, yzBwd := full }
  (st, fun f => scale norm S.d.plane * xformYZ S.d bwd st.yzBwd f)

/-- `_g2r` on all processes — gspace.py:165-192. `arr p` holds the coefficients of rank `p`'s G-vectors. -/
noncomputable def g2r (S : Setup) (bwd : Kern K) (norm : Bool) (st : ℕ → St K) (arr : ℕ → List K) :
    Option ((ℕ → St K) × (ℕ → ℕ → K)) :=
  let A := fun p => g2rA S bwd norm p (st p) (arr p)
  match alltoallv S.P (fun p => (A p).2) S.sticksSpec (fun q => (A q).1.trans) S.transSpec with
  | none => none
  | some bufs =>
    some (fun q => (g2rB S bwd norm q (A q).1 (bufs q)).1,
          fun q => (g2rB S bwd norm q (A q).1 (bufs q)).2)

/-! ## Scatter and gather of one vector -/

/-- `_scatter_g_bufspec` — gspace.py:125-131: computed by every rank for all ranks. -/
def Setup.gSpec (S : Setup) : List ℕ :=
  (List.range S.P).map fun r => S.igStop r - S.igStart r

/-- `_scatter_r_bufspec` — gspace.py:135. -/
def Setup.rSpec (S : Setup) : List ℕ :=
  (List.range S.P).map fun r => scatterLen S.d.nx S.P r * S.d.ny * S.d.nz

/-- `Scatterv((buf, counts), recv)`: rank `r` receives `counts[r]` elements starting at the sum of the
previous counts. `none`: the send buffer is shorter than the counts say — gspace.py:216-223, 283-290. -/
def scatterv {α : Type*} (counts : List ℕ) (l : List α) : Option (List (List α)) :=
  if counts.sum ≤ l.length then
    some ((List.range counts.length).map fun r => pySlice l (displ counts r) (displ counts r + counts.getD r 0))
  else none

/-- `Gatherv(send, (buf, counts))` / `Allgatherv` with distinct send buffers — gspace.py:255-262, 322-329:
every rank contributes exactly its count; the received pieces are placed one after another. `none`: a
contribution of the wrong length. -/
def gatherv {α : Type*} (counts : List ℕ) (parts : List (List α)) : Option (List α) :=
  if parts.map List.length = counts then some parts.flatten else none

/-- `Allgatherv(IN_PLACE, (buf, counts))` — gspace.py:246-253, 313-320: rank `r`'s contribution is the
segment of its own receive buffer at the displacement of `r`; every rank ends with all segments. -/
def allgatherInPlace {α : Type*} (counts : List ℕ) (bufs : List (List α)) : List α :=
  ((List.range counts.length).map fun r =>
    pySlice (bufs.getD r []) (displ counts r) (displ counts r + counts.getD r 0)).flatten

/-- Assigning a slice: `recvbuf[..., start:stop] = send` — gspace.py:247, 314. -/
def assignSlice {α : Type*} (buf : List α) (start stop : ℕ) (v : List α) : List α :=
  buf.take start ++ v ++ buf.drop stop

/-- `gather_g(arr_loc, allgather=True)` on all ranks — gspace.py:293-320. `garbage r` is the freshly
allocated receive array of rank `r`. -/
def allgatherG {α : Type*} (S : Setup) (garbage : ℕ → List α) (parts : List (List α)) : List α :=
  allgatherInPlace S.gSpec ((List.range S.P).map fun r =>
    assignSlice (garbage r) (S.igStart r) (S.igStop r) (parts.getD r []))

/-- `gather_r(arr_loc, allgather=True)` on all ranks, with `ir_loc = slice(ix_loc.start*ny*nz,
ix_loc.stop*ny*nz)` — gspace.py:75, 226-253. -/
def allgatherR {α : Type*} (S : Setup) (garbage : ℕ → List α) (parts : List (List α)) : List α :=
  allgatherInPlace S.rSpec ((List.range S.P).map fun r =>
    assignSlice (garbage r) (S.x0 r * S.d.ny * S.d.nz)
      (sliceStop S.d.nx S.P r * S.d.ny * S.d.nz) (parts.getD r []))

/-- `range(np.prod(shape))` — gspace.py:217, 253, 287 (and the G-space gather): `np.prod(())` is the *float*
`1.0`, which `range` refuses. -/
def rowCount (shape : List ℕ) : Except PyErr ℕ := if shape = [] then .error .type else .ok shape.prod

/-- `scatter_r` / `scatter_g` of an array with leading axes `shape`: one `Scatterv` per row — gspace.py:203-225,
271-293. Result: for every row the parts of all ranks (`none`: an MPI error). -/
def scatterRows {α : Type*} (counts shape : List ℕ) (rows : List (List α)) :
    Except PyErr (Option (List (List (List α)))) :=
  (rowCount shape).map fun n => (List.range n).mapM fun i => scatterv counts (rows.getD i [])

/-- `gather_r` / `gather_g`: one `Gatherv` per row — gspace.py:227-267. -/
def gatherRows {α : Type*} (counts shape : List ℕ) (parts : List (List (List α))) :
    Except PyErr (Option (List (List α))) :=
  (rowCount shape).map fun n => (List.range n).mapM fun i => gatherv counts (parts.getD i [])

end Verif.Dist
