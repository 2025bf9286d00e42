import Mathlib.Algebra.BigOperators.Fin
import Verif.Model.Davidson

/-!
# Model of the band-parallel Davidson solver

/repo/src/qtm/dft/eigsolve/davidson.py executed by the `m + 1` processes of a k-group, one per band group (`pwgrp_inter_kgrp`; the plane waves are not distributed here).
Every process has its own arrays. The collective calls are those of the MPI standard; all processes execute the same sequence of calls (errors at the root would leave
the others waiting, see C135; here they end the whole run).
-/

namespace Verif.Davidson

variable {E : Type*} [NormedAddCommGroup E] [InnerProductSpace ℂ E] {m : ℕ}

/-- Rows of process `r`, relative to the start of the slice: `sca_start - sl_start` — davidson.py:101-105. -/
def blkStart (len P r : ℕ) : ℕ := r * (len / P) + min r (len % P)

/-- `sca_stop` in the same way — davidson.py:106. -/
def blkStop (len P r : ℕ) : ℕ := blkStart len P r + len / P + if r < len % P then 1 else 0

/-- `gen_bufspec` — davidson.py:109-114 (in rows; the code multiplies by the length of a row). -/
def bufspec (len P r : ℕ) : ℕ := len / P + if r < len % P then 1 else 0

/-- mpi4py's displacements for a list of counts: the partial sums. -/
def displ (len P r : ℕ) : ℕ := ∑ q ∈ Finset.range r, bufspec len P q

/-- Does row `i` belong to `scatter_slice(slice(start, start + len), P, r)`? — davidson.py:97-107 (an empty slice stays empty). -/
def own (start len P r i : ℕ) : Prop := start + blkStart len P r ≤ i ∧ i < start + blkStop len P r

instance (start len P r i : ℕ) : Decidable (own start len P r i) := by unfold own; infer_instance

/-- `comm.Allgatherv(IN_PLACE, (buf[start:start+len], bufspec))`: afterwards block `r` of every process holds what process `r` had there. -/
def gather {α : Type*} (start len : ℕ) (bufs : Fin (m + 1) → ℕ → α) (q : Fin (m + 1)) (i : ℕ) : α :=
  match (List.finRange (m + 1)).find? fun r : Fin (m + 1) => decide (start + displ len (m + 1) r.val ≤ i ∧ i < start + displ len (m + 1) r.val + bufspec len (m + 1) r.val) with
  | some r => bufs r i
  | none => bufs q i

/-- `compute_hpsi(start, start + len)` — davidson.py:116-127. -/
noncomputable def parHpsi (c : Cfg E) (start len : ℕ) (S : Fin (m + 1) → St E) : Fin (m + 1) → St E := fun q =>
  { S q with hpsi := gather start len (fun r i => if own start len (m + 1) r i then c.H ((S r).psi i) else (S r).hpsi i) q }

/-- `expand_psi` — davidson.py:157-212, in the stages of the code: rotated vectors (own rows, gathered), residual, preconditioner and normalisation (own rows, gathered), `compute_hpsi`. -/
noncomputable def parExpand (c : Cfg E) (S : Fin (m + 1) → St E) : Except PyErr (Fin (m + 1) → St E) :=
  if ∃ r, c.numwork * c.numeig < (S r).ndim + (S r).nun then .error .value
  else
    let S1 : Fin (m + 1) → St E := fun q =>
      { S q with
        psi := gather (S q).ndim (S q).nun (fun r i => if own (S r).ndim (S r).nun (m + 1) r i then comb (S r).ndim (S r).evcR (S r).psi (i - (S r).ndim) else (S r).psi i) q
        hpsi := gather (S q).ndim (S q).nun (fun r i => if own (S r).ndim (S r).nun (m + 1) r i then comb (S r).ndim (S r).evcR (S r).hpsi (i - (S r).ndim) else (S r).hpsi i) q }
    let S2 : Fin (m + 1) → St E := fun q =>
      { S1 q with
        psi := gather (S1 q).ndim (S1 q).nun (fun r i => if own (S1 r).ndim (S1 r).nun (m + 1) r i then
          c.norm (c.precond ((S1 r).hpsi i - ((S1 r).evlR (i - (S1 r).ndim) : ℂ) • (S1 r).psi i) ((S1 r).evlR (i - (S1 r).ndim))) else (S1 r).psi i) q }
    let S3 : Fin (m + 1) → St E := fun q => parHpsi c (S2 q).ndim (S2 q).nun S2 q
    .ok fun q => { S3 q with ndim := (S3 q).ndim + (S3 q).nun }

/-- `update_red` — davidson.py:217-236: rows of the new vectors, own rows gathered. -/
noncomputable def parUpdateRed (S : Fin (m + 1) → St E) : Fin (m + 1) → St E := fun q =>
  { S q with
    ham := gather ((S q).ndim - (S q).nun) (S q).nun (fun r i => if own ((S r).ndim - (S r).nun) (S r).nun (m + 1) r i then
      (fun j => if j < (S r).ndim then inner ℂ ((S r).psi i) ((S r).hpsi j) else (S r).ham i j) else (S r).ham i) q
    ovl := gather ((S q).ndim - (S q).nun) (S q).nun (fun r i => if own ((S r).ndim - (S r).nun) (S r).nun (m + 1) r i then
      (fun j => if j < (S r).ndim then inner ℂ ((S r).psi i) ((S r).psi j) else (S r).ovl i j) else (S r).ovl i) q }

/-- `solve_red` — davidson.py:245-263: the root solves, the results are broadcast. -/
noncomputable def parSolveRed (c : Cfg E) (S : Fin (m + 1) → St E) : Except PyErr (Fin (m + 1) → St E) :=
  match solveRed c (S 0) with
  | .error x => .error x
  | .ok s0 => .ok fun q => { S q with evcR := s0.evcR, evlR := s0.evlR }

/-- Convergence check — davidson.py:311-318: the flags of the root are broadcast. -/
noncomputable def parCheckConv (c : Cfg E) (S : Fin (m + 1) → St E) : Fin (m + 1) → St E := fun q =>
  { S q with flag := (checkConv c (S 0)).flag, nun := (unconvRows c.numeig (checkConv c (S 0)).flag).length, evl := (S q).evlR }

/-- davidson.py:322-332. -/
noncomputable def parRotate (c : Cfg E) (S : Fin (m + 1) → St E) : Fin (m + 1) → St E := fun q =>
  { S q with evc := gather 0 c.numeig (fun r i => if own 0 c.numeig (m + 1) r i then comb (S r).ndim (S r).evcR (S r).psi i else (S r).evc i) q }

/-- davidson.py:336-346, 364-368: the rotated `hpsi` are gathered in `psi` and copied. -/
noncomputable def parRestart (c : Cfg E) (S : Fin (m + 1) → St E) : Fin (m + 1) → St E := fun q =>
  let tmp := gather 0 c.numeig (fun r i => if own 0 c.numeig (m + 1) r i then comb (S r).ndim (S r).evcR (S r).hpsi i else (S r).psi i) q
  { S q with
    hpsi := fun i => if i < c.numeig then tmp i else (S q).hpsi i
    psi := fun i => if i < c.numeig then (S q).evc i else tmp i
    ndim := c.numeig
    ham := fun i j => if i = j ∧ i < c.numeig then ((S q).evl i : ℂ) else 0
    ovl := fun i j => if i = j ∧ i < c.numeig then 1 else 0
    evcR := fun i j => if i = j ∧ i < c.numeig then 1 else 0 }

/-- davidson.py:306-318. -/
noncomputable def parBody (c : Cfg E) (S : Fin (m + 1) → St E) : Except PyErr (Fin (m + 1) → St E) :=
  match parExpand c fun q => moveUnconv c (S q) with
  | .error x => .error x
  | .ok S1 =>
    match parSolveRed c (parUpdateRed S1) with
    | .error x => .error x
    | .ok S2 => .ok (parCheckConv c S2)

/-- What one process has at the end. -/
structure POut (E : Type*) where
  evc : ℕ → E
  evl : ℕ → ℝ
  iters : ℕ
  converged : Bool

/-- `while idxiter < maxiter` — davidson.py:303-374; every process looks at its own variables. If they decided differently the collective calls would not match; that is
modelled as an error (`.runtime`). -/
noncomputable def parLoop (c : Cfg E) : ℕ → ℕ → (Fin (m + 1) → St E) → Except PyErr (Fin (m + 1) → POut E)
  | 0, k, S => .ok fun q => ⟨(S q).evc, (S q).evl, k, false⟩
  | fuel + 1, k, S =>
    match parBody c S with
    | .error x => .error x
    | .ok S =>
      if ∀ q, (S q).nun = 0 then let S := parRotate c S; .ok fun q => ⟨(S q).evc, (S q).evl, k + 1, true⟩
      else if ∃ q, (S q).nun = 0 then .error .runtime
      else if ∀ q, c.numwork * c.numeig < (S q).ndim + (S q).nun then parLoop c fuel (k + 1) (parRestart c (parRotate c S))
      else if ∃ q, c.numwork * c.numeig < (S q).ndim + (S q).nun then .error .runtime
      else parLoop c fuel (k + 1) S

/-- The state before the first `solve_red` — davidson.py:57-60, 79-94, 298-299: the root's wave functions are broadcast; `psi0 q`, `hpsi0 q`: what the uninitialised buffers of process `q` hold. -/
noncomputable def parInit (c : Cfg E) (evc psi0 hpsi0 : Fin (m + 1) → ℕ → E) : Fin (m + 1) → St E :=
  parUpdateRed (parHpsi c 0 c.numeig fun q =>
    { ndim := c.numeig, nun := c.numeig, flag := fun _ => true, psi := fun i => if i < c.numeig then c.norm (evc 0 i) else psi0 q i
      hpsi := hpsi0 q, ham := fun _ _ => 0, ovl := fun _ _ => 0, evcR := fun _ _ => 0, evlR := fun _ => 0, evl := fun _ => 0, evc := evc 0 })

/-- `solve` — davidson.py:21-374. -/
noncomputable def parSolve (c : Cfg E) (evc psi0 hpsi0 : Fin (m + 1) → ℕ → E) : Except PyErr (Fin (m + 1) → POut E) :=
  open Classical in
  if ¬ 0 < c.thr ∨ ¬ 1 < c.numwork ∨ ¬ 1 < c.maxiter then .error .assertion
  else
    match parSolveRed c (parInit c evc psi0 hpsi0) with
    | .error x => .error x
    | .ok S => parLoop c c.maxiter 0 fun q => { S q with evl := (S q).evlR }

end Verif.Davidson
