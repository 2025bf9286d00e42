import Mathlib.Data.List.Range
import Mathlib.Algebra.BigOperators.Group.Finset.Basic
import Verif.Model.Scatter

/-!
# Model of the process layout of a DFT calculation
-/

namespace Verif.DFTComm

open Verif.Scatter

/-- Semantics of `MPI_Comm_split` (wrapped by `QTMComm.Split`, /repo/src/qtm/mpi/comm.py:239-261):
the processes of the new communicator of process `r` are those with the same colour, … -/
def splitMembers (n : ℕ) (color : ℕ → ℕ) (r : ℕ) : List ℕ :=
  (List.range n).filter fun s => color s = color r

/-- … and its rank there is the number of members that precede it in the order (key, old rank). -/
def splitRank (n : ℕ) (color key : ℕ → ℕ) (r : ℕ) : ℕ :=
  ((splitMembers n color r).filter fun s => key s < key r ∨ (key s = key r ∧ s < r)).length

/-- Everything `DFTCommMod.__init__` stores for one process. -/
structure Layout where
  nPwgrp : ℕ
  nKgrp : ℕ
  nBgrp : ℕ
  iKgrp : ℕ
  iBgrp : ℕ
  /-- rank inside the plane-wave group (`pwgrp_intra.rank`) -/
  pwRank : ℕ
  /-- rank among the plane-wave groups (`pwgrp_inter_image.rank`) -/
  interRank : ℕ
  /-- rank inside the k-group (`kgrp_intra.rank`) -/
  kgrpRank : ℕ
  /-- is the process a member of `kroot_intra` -/
  isKroot : Bool
  deriving DecidableEq, Repr

/-- colour of `split_comm_pwgrp` — /repo/src/qtm/mpi/comm.py:387 -/
def pwColor (pwSize rank : ℕ) : ℕ := rank / pwSize

/-- key of `split_comm_pwgrp` — /repo/src/qtm/mpi/comm.py:388 -/
def pwKey (pwSize rank : ℕ) : ℕ := rank % pwSize

/-- `split_comm_pwgrp` (/repo/src/qtm/mpi/comm.py:356-395) followed by `DFTCommMod.__init__`
(/repo/src/qtm/dft/config.py:16-72, the branch with mpi4py), evaluated at process `rank` of a
communicator with `size` processes. `nKgrp? = none` is the default argument. Non-positive `pwgrp_size`
and divisibility failures raise `ValueError` (comm.py:374-385, config.py:47-53); `n_kgrp = 0` raises
`ZeroDivisionError` at config.py:47. -/
def dftComm (size : ℕ) (nKgrp? : Option ℕ) (pwSize : ℕ) (rank : ℕ) : Except PyErr Layout :=
  if pwSize = 0 then .error .value
  else if size % pwSize ≠ 0 then .error .value
  else
    -- config.py:38-39: `pwgrp_inter = comm.Split(key, color)`, `n_pwgrp = pwgrp_inter.size`
    let nPwgrp := (splitMembers size (pwKey pwSize) rank).length
    let interRank := splitRank size (pwKey pwSize) (pwColor pwSize) rank
    -- comm.py:391-392: `pwgrp_comm = comm.Split(color, key)`, or `None` (a single process)
    let pwRank := if pwSize ≠ 1 then splitRank size (pwColor pwSize) (pwKey pwSize) rank else 0
    let nKgrp := nKgrp?.getD nPwgrp
    if nKgrp = 0 then .error .zeroDivision
    else if nPwgrp % nKgrp ≠ 0 then .error .value
    else
      let nBgrp := nPwgrp / nKgrp            -- config.py:55
      let kgrpSize := nBgrp * pwSize         -- config.py:57
      let iKgrp := rank / kgrpSize           -- config.py:58
      .ok {
        nPwgrp := nPwgrp, nKgrp := nKgrp, nBgrp := nBgrp,
        iKgrp := iKgrp,
        iBgrp := interRank % nBgrp           -- config.py:65
        pwRank := pwRank,
        interRank := interRank,
        -- config.py:59-60: `Split(i_kgrp, rank % kgrp_size)`
        kgrpRank := splitRank size (fun s => s / kgrpSize) (fun s => s % kgrpSize) rank,
        -- config.py:61-63: `Incl(ikgrp * kgrp_size for ikgrp in range(n_kgrp))`
        isKroot := decide (rank ∈ (List.range nKgrp).map (· * kgrpSize)) }

/-- The contribution of one process to the density, as accumulated in `update_rho_out`
(/repo/src/qtm/dft/scf.py:397-407): the k-points of its k-group (`scatter_slice(numkpts, n_kgrp,
i_kgrp)`, scf.py:253) and the bands `scatter_slice(numbnd, n_bgrp, i_bgrp)` (scf.py:398).
`f k b` stands for `k_weight * occ * |psi_kb|²` (the spin loop is inside `f`). -/
def localRho {M : Type*} [AddCommMonoid M] (L : Layout) (numk numbnd : ℕ) (f : ℕ → ℕ → M) : M :=
  ((block (List.range numk) L.nKgrp L.iKgrp).map fun k =>
    ((block (List.range numbnd) L.nBgrp L.iBgrp).map fun b => f k b).sum).sum

/-- What one process contributes to a reduction; a process whose constructor raised contributes
nothing. -/
def contribution {M : Type*} [Zero M] (r : Except PyErr Layout) (h : Layout → M) : M :=
  match r with
  | .ok L => h L
  | .error _ => 0

/-- `Allreduce` of the local densities over `pwgrp_inter_image` (/repo/src/qtm/dft/scf.py:408-409):
the sum over all processes holding the same plane waves, i.e. with the same `pwKey`. Processes whose
layout failed contribute nothing (they have raised). -/
def reducedRho {M : Type*} [AddCommMonoid M] (size : ℕ) (nKgrp? : Option ℕ) (pwSize rank : ℕ)
    (numk numbnd : ℕ) (f : ℕ → ℕ → M) : M :=
  ((splitMembers size (pwKey pwSize) rank).map fun s =>
    contribution (dftComm size nKgrp? pwSize s) fun L => localRho L numk numbnd f).sum

/-- The band-energy sum of `compute_en` (/repo/src/qtm/dft/scf.py:428-437): every k-group root sums
the band energies `g k` of its k-points (all bands), the roots `allreduce`, and rank 0 broadcasts. -/
def reducedEigen {M : Type*} [AddCommMonoid M] (size : ℕ) (nKgrp? : Option ℕ) (pwSize : ℕ)
    (numk : ℕ) (g : ℕ → M) : M :=
  ((List.range size).map fun s =>
    contribution (dftComm size nKgrp? pwSize s) fun L =>
      if L.isKroot then ((block (List.range numk) L.nKgrp L.iKgrp).map g).sum else 0).sum

/-- MPI calls on `pwgrp_inter_image` that can be observed by its members. -/
inductive Coll | barrier | allreduce
  deriving DecidableEq, Repr

/-- The collective calls one band group issues in `update_rho_out`
(/repo/src/qtm/dft/scf.py:398-409): the whole `with … Allreduce` block (entry barrier, reduction, exit
barrier) sits inside `if sl_bnd.start < sl_bnd.stop`. -/
def rhoTrace (numbnd nBgrp iBgrp : ℕ) : List Coll :=
  if sliceStart numbnd nBgrp iBgrp < sliceStop numbnd nBgrp iBgrp then
    [.barrier, .allreduce, .barrier]
  else []

end Verif.DFTComm
