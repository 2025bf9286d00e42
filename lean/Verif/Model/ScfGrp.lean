import Verif.Model.ScfDist
import Verif.Model.DavidsonPar
import Verif.Model.Scatter
import Verif.Model.Occup

/-!
# Model: the SCF driver on any process layout

`/repo/src/qtm/dft/scf.py` on `κ + 1` k-point groups of `m + 1` band groups of `S.P` processes each, which share the plane waves. A k-point `i` is held by the group whose block of `scatter_slice` contains it
(scf.py:251, C04), by all its band groups; `w i s b p` is the `KSWfn` of k-point `i` and spin `s` on process `p` of band group `b` of that group. `st`, `kst` are the states of the FFT buffers (one for all groups:
C22, what they hold has no influence). What a run does on one band group is that of `ScfDist.distOps`. If several processes raise, the exception is that of the lowest k-point; `comm.skip_with_block` and the
communicators themselves are modelled in `Verif.DFTComm` and `Verif.Comm`.
-/

namespace Verif.ScfGrp

open Verif.Dist (Setup)
open Verif.HamDist (ln lm DWf davCfg)
open Verif.PotDist (distSpace)
open Verif.Scatter (block sliceStart sliceStop)
open Verif.ScfDist

variable {ns : ℕ}

/-- The k-point group of k-point `i` — scf.py:251: the one whose slice contains it. -/
def owner (nk κ i : ℕ) : Fin (κ + 1) :=
  ((List.finRange (κ + 1)).find? fun g : Fin (κ + 1) => decide (sliceStart nk (κ + 1) g ≤ i ∧ i < sliceStop nk (κ + 1) g)).getD 0

/-- States on all processes. -/
abbrev GW (S : Setup) (nk ns m : ℕ) := Fin nk → Fin ns → Fin (m + 1) → Fin S.P → KSWfn.KS

/-- Eigenvalues of all k-points in the order of the processes, for the occupation routines — occup/smear.py:90-93: `wfn.evl for wfn_k in l_wfn for wfn in wfn_k` of every group. -/
def groups {nk : ℕ} (κ nb : ℕ) (weight : Fin nk → ℝ) (evl : Fin nk → Fin ns → ℕ → ℝ) : List (List Occup.Wfn) :=
  (List.range (κ + 1)).map fun g => (block (List.finRange nk) (κ + 1) g).flatMap fun i => (List.finRange ns).map fun s => ⟨weight i, (List.range nb).map (evl i s)⟩

/-- `occup.smear.compute_occ` — occup/smear.py:68-134 (`Occup.smear`) on `κ + 1` groups: occupations of every k-point and spin and `-TS`. If the search has not ended after `fuel` steps (C36), that is shown as an error. -/
noncomputable def smearOcc {nk : ℕ} (κ : ℕ) (t : Occup.Typ) (deg numel : ℝ) (fuel nb : ℕ) (weight : Fin nk → ℝ) (evl : Fin nk → Fin ns → ℕ → ℝ) : Except PyErr ((Fin nk → Fin ns → ℕ → ℝ) × ℝ) :=
  match Occup.smear t deg (groups κ nb weight evl) numel fuel with
  | .error e => .error e
  | .ok none => .error .runtime
  | .ok (some o) => .ok (fun i s b => (o.occ.flatten.getD (i * ns + s) []).getD b 0, o.smear)

open Classical in
/-- `solve_kswfn` for one k-point and spin — scf.py:370-392, davidson.py:21-374 (`Davidson.parSolve`) by the band groups of the group holding the k-point. `v` are the potentials of the band groups; were they not all the same,
the model would not apply, shown as an error. -/
noncomputable def solveG (S : Setup) (C : Calc S.d S.idx ns) (m : ℕ) (k : KPt) (kst : ℕ → Dist.St ℂ) (junk : Fin (m + 1) → ℕ → DWf (kS S k.idx)) (v : Fin (m + 1) → DPots S ns) (s : Fin ns) (thr : ℝ)
    (w : Fin (m + 1) → Fin S.P → KSWfn.KS) : Except PyErr (Fin (m + 1) → Fin S.P → KSWfn.KS) :=
  if ¬ ∀ b, v b = v 0 then .error .runtime
  else
    Davidson.parSolve (davCfg C.dev (kS S k.idx) kst (PotDist.part (kS S k.idx) k.gk2) ((v 0).vloc s) (k.nl.map (HamDist.projPart (kS S k.idx)))
      (PotDist.part (kS S k.idx) fun j => 1 / 2 * k.gk2 j + k.vnl j + (v 0).g0) C.nb C.numwork C.maxiter thr C.eigh) (fun b i => DWf.mk fun p j => (w b p).evc i j) junk junk >>= fun o =>
    .ok fun b p => { w b p with evc := fun i j => if h : i < C.nb ∧ j < ln (kS S k.idx) p then ((o b).evc i).parts p ⟨j, h.2⟩ else 0, evl := (o b).evl }

/-- `update_rho_out` up to the normalisation — scf.py:395-411: every process adds up the k-points of its group for its slice of the bands; the `Allreduce` goes over the corresponding processes of all groups. A band group without bands would
skip the `Allreduce` the others wait in (C07, C70), shown as an error. -/
noncomputable def rhoG (S : Setup) (C : Calc S.d S.idx ns) (κ m : ℕ) (st : ℕ → Dist.St ℂ) (kst : Fin C.nk → ℕ → Dist.St ℂ) (w : GW S C.nk ns m) : Except PyErr (GW S C.nk ns m × DDens S ns) :=
  if ∃ b : Fin (m + 1), sliceStop C.nb (m + 1) b ≤ sliceStart C.nb (m + 1) b then .error .runtime
  else
    (seqF C.nk fun i => seqF ns fun s => seqF (m + 1) fun b => MixDist.collect (α := fun p => KSWfn.KS × (ℕ → Fin (lm S p) → ℂ))
      (fun p : Fin S.P => HamDist.computeRho (kS S (C.kp i).idx) (kst i) C.vol (w i s b) (.slice (sliceStart C.nb (m + 1) b) (sliceStop C.nb (m + 1) b)) p)) >>= fun r =>
    .ok (fun i s b p => (r i s b p).1,
      fun p s j => ∑ g : Fin (κ + 1), ∑ b : Fin (m + 1), ((block (List.finRange C.nk) (κ + 1) g).map fun i =>
        ((C.kp i).weight : ℂ) * (distSpace S st (fun p c => PotDist.part S (C.g c) p) C.dv).toG (fun p x => (r i s b p).2 0 x) p j).sum)

/-- All that `scf` calls — scf.py:314-523. Potentials on every process; the mixer works on the first group only and its result is broadcast (dft/mixing/base.py:60-67); errors and energies are those of the first process, broadcast
(scf.py:437, 491); occupations are computed by the group roots and broadcast in the groups (smear.py:126-132). `occ` is the occupation routine on `κ + 1` groups. Of the arrays the caller passed only that of the first group is followed. -/
noncomputable def grpOps (S : Setup) (C : Calc S.d S.idx ns) (h0 : 0 < ns) (κ m : ℕ) (st : ℕ → Dist.St ℂ) (kst : Fin C.nk → ℕ → Dist.St ℂ) (junk : ∀ i, Fin (m + 1) → ℕ → DWf (kS S (C.kp i).idx)) (garbage : ℕ → List ℂ)
    (occ : (Fin C.nk → Fin ns → ℕ → ℝ) → Except PyErr ((Fin C.nk → Fin ns → ℕ → ℝ) × ℝ)) :
    Ops (Fin (κ + 1) → Fin (m + 1) → DDens S ns) (GW S C.nk ns m) (Fin (κ + 1) → Fin (m + 1) → DPots S ns) (∀ p : Fin S.P, Mixing.St ns (ln S p)) :=
  let o := distOps S C h0 st kst (fun i => junk i 0) garbage
  { symmRho := C.symmRho
    numel := C.numel
    convThr := C.convThr
    diagoInit := C.diagoInit
    isSmear := C.isSmear
    ewald := C.ewald
    normalize := fun rho g b => o.normalize (rho g b)
    symm := fun rho g b => o.symm (rho g b)
    pot := fun rho => (seqF (κ + 1) fun g => seqF (m + 1) fun b => o.pot (rho g b)) >>= fun v => .ok (fun g b => (v g b).1, (v 0 0).2)
    pair := fun v rho => o.pair (v 0 0) (rho 0 0)
    solve := fun w v thr => seqF C.nk fun i => seqF ns fun s => solveG S C m (C.kp i) (kst i) (junk i) (v (owner C.nk κ i)) s thr (w i s)
    occ := fun w => if h : 0 < S.P then (occ fun i s => (w i s 0 ⟨0, h⟩).evl) >>= fun x => .ok (fun i s b p => { w i s b p with occ := x.1 i s }, x.2) else .error .runtime
    eig := fun w => if h : 0 < S.P then ∑ g : Fin (κ + 1), ((block (List.finRange C.nk) (κ + 1) g).map fun i =>
      ∑ s, (C.kp i).weight * ∑ b ∈ Finset.range C.nb, (w i s 0 ⟨0, h⟩).evl b * (w i s 0 ⟨0, h⟩).occ b).sum else 0
    rhoWfn := fun w => rhoG S C κ m st kst w >>= fun r => .ok (r.1, fun _ _ => r.2)
    err := fun a b => o.err (a 0 0) (b 0 0)
    mix := fun mx a b => o.mix mx (a 0 0) (b 0 0) >>= fun x => .ok ⟨x.mx, fun _ _ => x.rho, fun _ _ => x.arg, x.same⟩ }

end Verif.ScfGrp
