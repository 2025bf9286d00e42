import Verif.Model.Py

/-!
# Model of block distribution over processes

Python integers that the code asserts to be non-negative are `ℕ` in the cores and `ℤ` (with the
assertions) in the public entry points.
-/

namespace Verif.Scatter

/-- `len_ // grp_size + (grp_rank < (len_ % grp_size))`
— /repo/src/qtm/mpi/utils.py:24 (the return value of `scatter_len` for one rank). -/
def scatterLen (len size rank : ℕ) : ℕ :=
  len / size + (if rank < len % size then 1 else 0)

/-- `start` of /repo/src/qtm/mpi/utils.py:45. -/
def sliceStart (len size rank : ℕ) : ℕ :=
  (len / size) * rank + min rank (len % size)

/-- `stop` of /repo/src/qtm/mpi/utils.py:46. -/
def sliceStop (len size rank : ℕ) : ℕ :=
  sliceStart len size rank + (len / size + (if rank < len % size then 1 else 0))

/-- The three shapes of value `scatter_slice` could return: the slice of one rank (utils.py:49), a
`slice` object whose ends are arrays (what utils.py:49 builds when `grp_rank` is an array), or the
documented tuple of slices (utils.py:50). -/
inductive SliceResult
  | one (start stop : ℕ)
  | arrays (start stop : List ℕ)
  | all (slices : List (ℕ × ℕ))
  deriving DecidableEq, Repr

/-- `scatter_len` — /repo/src/qtm/mpi/utils.py:11-24, for a given rank, with its assertions. -/
def scatterLenPy (len size rank : ℤ) : Except PyErr ℕ :=
  if 0 ≤ len ∧ 0 < size ∧ 0 ≤ rank ∧ rank < size then
    .ok (scatterLen len.toNat size.toNat rank.toNat)
  else .error .assertion

/-- `scatter_len(len_, grp_size)` without a rank — /repo/src/qtm/mpi/utils.py:21-24: `grp_rank` is
the array of all ranks and the comparison is element-wise. -/
def scatterLenAllPy (len size : ℤ) : Except PyErr (List ℕ) :=
  if 0 ≤ len ∧ 0 < size then
    .ok ((List.range size.toNat).map fun r => scatterLen len.toNat size.toNat r)
  else .error .assertion

/-- `scatter_slice` — /repo/src/qtm/mpi/utils.py:27-50.

When `grp_rank is None`, line 38 rebinds `grp_rank` to the array of all ranks *before* the test of
line 41, so `all_ranks` stays `False`. Line 45 then calls Python's `min(array, int)`, which evaluates
the truth value of an element-wise comparison: it raises `ValueError` when the array has more than one
element, and returns the array when it has exactly one (`0 < array([0])` is falsy). -/
def scatterSlicePy (len size : ℤ) (rank : Option ℤ) : Except PyErr SliceResult :=
  match rank with
  | some r =>
    if 0 ≤ len ∧ 0 < size ∧ 0 ≤ r ∧ r < size then
      .ok (.one (sliceStart len.toNat size.toNat r.toNat) (sliceStop len.toNat size.toNat r.toNat))
    else .error .assertion
  | none =>
    if 0 ≤ len ∧ 0 < size then
      if size.toNat = 1 then
        .ok (.arrays [sliceStart len.toNat 1 0] [sliceStop len.toNat 1 0])
      else .error .value
    else .error .assertion

/-- The slice of rank `rank` out of a list: `l[scatter_slice(len(l), size, rank)]`, as used throughout
(e.g. /repo/src/qtm/kpts.py:122-123, /repo/src/qtm/dft/scf.py band slices). -/
def block {α : Type*} (l : List α) (size rank : ℕ) : List α :=
  pySlice l (sliceStart l.length size rank) (sliceStop l.length size rank)

/-- Start/stop of the block of one band group inside `psi[istart:istop]`: the eigen-solver's own
`scatter_slice` — /repo/src/qtm/dft/eigsolve/davidson.py:97-107. -/
def davSlice (start stop size rank : ℕ) : ℕ × ℕ :=
  if start ≥ stop then (start, stop)
  else
    let len := stop - start
    let s := start + rank * (len / size) + min rank (len % size)
    (s, s + len / size + (if rank < len % size then 1 else 0))

/-- `gen_bufspec` — /repo/src/qtm/dft/eigsolve/davidson.py:109-114: the receive counts handed to
`Allgatherv`. -/
def genBufspec (len size : ℕ) : List ℕ :=
  (List.range size).map fun r => len / size + (if r < len % size then 1 else 0)

/-- Receive displacements that MPI derives from the counts when none are given: running sums
(`Allgatherv` called with `(buf, counts)` — /repo/src/qtm/dft/eigsolve/davidson.py:126-127). -/
def displ (counts : List ℕ) (r : ℕ) : ℕ := (counts.take r).sum

/-- Block start of `klist_distribute` — /repo/src/qtm/klist.py:176. -/
def klistStart (numk numgrp i : ℕ) : ℕ :=
  (numk / numgrp) * i + min i (numk % numgrp)

/-- Block stop of `klist_distribute` — /repo/src/qtm/klist.py:177-179. -/
def klistStop (numk numgrp i : ℕ) : ℕ :=
  (numk / numgrp) * (i + 1) + min (i + 1) (numk % numgrp)

/-- `klist_distribute` — /repo/src/qtm/klist.py:159-185, the k-points handed to k-group `i`
(`pwcomm.numkgrp`, `pwcomm.idxkgrp` are parameters). -/
def klistDistribute {κ : Type*} (kpts : List κ) (numgrp i : ℕ) (roundRobin : Bool) :
    Except PyErr (List κ) :=
  if kpts.length < numgrp then .error .value
  else if roundRobin then .ok (pyStride kpts i numgrp)
  else .ok (pySlice kpts (klistStart kpts.length numgrp i) (klistStop kpts.length numgrp i))

/-- `KList.scatter` — /repo/src/qtm/kpts.py:112-123: the (k-point, weight) pairs of one k-group. `self[slice]`
(/repo/src/qtm/kpts.py:104-109) takes the same positions of the coordinates and of the weights and the
constructor stores them unchanged. The type checks raise `TypeError`. -/
def klistScatter {κ : Type*} (kpts : List κ) (nKgrp iKgrp : ℤ) : Except PyErr (List κ) :=
  if nKgrp ≤ 0 then .error .type
  else if ¬ (0 ≤ iKgrp ∧ iKgrp < nKgrp) then .error .type
  else .ok (block kpts nKgrp.toNat iKgrp.toNat)

end Verif.Scatter
