import Mathlib.Data.Complex.Basic
import Mathlib.Data.Fintype.Basic
import Mathlib.Data.Finset.Filter
import Verif.Model.DFTComm

/-!
# Model of the collective calls of a whole self-consistent run

Every process executes its own program; the only points where processes meet are blocking collective
calls. Local arithmetic is left completely open: what a process computes between two calls is an
arbitrary function of its own memory, different on every process (roundoff included). What is modelled
exactly is *which* collective is called on *which* communicator, and how the control flow depends on the
values received.
-/

namespace Verif.Coll

open Verif.Scatter

/-! ## Blocking collectives -/

/-- The values exchanged: Python objects of the lower-case calls, buffers of the upper-case ones. -/
inductive Val
  | none
  | num (x : ℝ)
  | int (n : ℕ)
  | flag (b : Bool)
  | mask (l : List Bool)
  | arr (l : List ℂ)

/-- reading a received integer -/
def Val.toNat : Val → ℕ
  | .int n => n
  | _ => 0

/-- reading a received number -/
def Val.toReal : Val → ℝ
  | .num x => x
  | .int n => n
  | _ => 0

/-- reading a received truth value -/
def Val.toBool : Val → Bool
  | .flag b => b
  | _ => false

/-- `int(np.sum(unconv_flag))` of a received mask -/
def Val.count : Val → ℕ
  | .mask l => l.count true
  | _ => 0

/-- Kinds of collective calls (/repo/src/qtm/mpi/comm.py:195-201, 264-353): barriers, `bcast`/`Bcast`
from rank 0, `allreduce`/`Allreduce`, `Allgatherv`, and `inner` for the calls of distributed arrays on
their plane-wave group (`Alltoallv`, `Allreduce`, … in /repo/src/qtm/mpi/gspace.py:148-330,
/repo/src/qtm/mpi/containers.py:88-190). -/
inductive Op
  | barrier | bcast | reduce | gather | inner
  deriving DecidableEq, Repr

/-- The communicators of `DFTCommMod` (/repo/src/qtm/dft/config.py:36-72): `image_comm`, `kgrp_intra` of
k-group `k`, `pwgrp_inter_kgrp` of k-group `k` and plane-wave rank `p`, `pwgrp_intra` number `c`,
`pwgrp_inter_image` of plane-wave rank `p`, and `kroot_intra`. -/
inductive Cm
  | image
  | kgrp (k : ℕ)
  | band (k p : ℕ)
  | pwgrp (c : ℕ)
  | inter (p : ℕ)
  | kroot
  deriving DecidableEq, Repr

/-- The program of one process: it has returned, it has died with an exception, or it calls a
collective, contributing a value and going on with what it receives. -/
inductive Prog (α : Type)
  | ret (a : α)
  | abort
  | call (c : Cm) (o : Op) (v : Val) (next : Val → Prog α)

/-- sequencing: an exception stops the process -/
def Prog.bind {α β : Type} : Prog α → (α → Prog β) → Prog β
  | .ret a, f => f a
  | .abort, _ => .abort
  | .call c o v k, f => .call c o v fun x => (k x).bind f

instance : Monad Prog where
  pure := .ret
  bind := Prog.bind

/-- the call a process is waiting in -/
def head {α : Type} : Prog α → Option (Cm × Op)
  | .call c o _ _ => some (c, o)
  | _ => none

/-- the value it contributes -/
def sent {α : Type} : Prog α → Val
  | .call _ _ v _ => v
  | _ => .none

/-- the process after it received `x` -/
def recv {α : Type} : Prog α → Val → Prog α
  | .call _ _ _ k, x => k x
  | p, _ => p

section
variable {R α : Type} [DecidableEq R] (mem : Cm → Finset R) (res : Cm → Op → (R → Val) → R → Val)

/-- A collective can complete when every member of its communicator waits in that very call. -/
def Enabled (s : R → Prog α) (c : Cm) (o : Op) : Prop :=
  (mem c).Nonempty ∧ ∀ r ∈ mem c, head (s r) = some (c, o)

/-- Completion of a collective: every member receives its result — a function of what the members
contributed, which may differ between members — and goes on; the others do not move. -/
def fire (s : R → Prog α) (c : Cm) (o : Op) : R → Prog α := fun r =>
  if r ∈ mem c then recv (s r) (res c o (fun q => if q ∈ mem c then sent (s q) else .none) r)
  else s r

/-- One scheduling step: some collective completes. -/
def Step (s t : R → Prog α) : Prop := ∃ c o, Enabled mem s c o ∧ t = fire mem res s c o

/-- A schedule of `n` steps. -/
inductive Steps : ℕ → (R → Prog α) → (R → Prog α) → Prop
  | refl (s) : Steps 0 s s
  | cons {n s t u} : Step mem res s t → Steps n t u → Steps (n + 1) s u

end

/-! ## The process layout -/

/-- Numbers of k-groups, of band groups per k-group and of processes per plane-wave group. -/
structure Lay where
  nK : ℕ
  nB : ℕ
  P : ℕ

/-- `image_comm.size` -/
def Lay.size (L : Lay) : ℕ := L.nK * L.nB * L.P

/-- `i_kgrp` — /repo/src/qtm/dft/config.py:57-58 -/
def Lay.iK (L : Lay) (r : ℕ) : ℕ := r / (L.nB * L.P)

/-- `i_bgrp` — /repo/src/qtm/dft/config.py:65 (`pwgrp_inter_image.rank % n_bgrp`; that rank is
`r // pwgrp_size`) -/
def Lay.iB (L : Lay) (r : ℕ) : ℕ := r / L.P % L.nB

/-- rank inside the plane-wave group — /repo/src/qtm/mpi/comm.py:388 -/
def Lay.iP (L : Lay) (r : ℕ) : ℕ := r % L.P

/-- membership of `kroot_intra` — /repo/src/qtm/dft/config.py:61-63 -/
def Lay.isKroot (L : Lay) (r : ℕ) : Bool :=
  decide (r ∈ (List.range L.nK).map (· * (L.nB * L.P)))

/-- The members of the communicators — /repo/src/qtm/mpi/comm.py:387-393 and
/repo/src/qtm/dft/config.py:36-69: `Split` by colour, and `Incl` for the k-group roots. -/
def Lay.mem (L : Lay) : Cm → Finset (Fin L.size)
  | .image => Finset.univ
  | .kgrp k => Finset.univ.filter fun r => L.iK r = k
  | .band k p => Finset.univ.filter fun r => L.iK r = k ∧ L.iP r = p
  | .pwgrp c => Finset.univ.filter fun r => r.1 / L.P = c
  | .inter p => Finset.univ.filter fun r => L.iP r = p
  | .kroot => Finset.univ.filter fun r => L.isKroot r = true

/-! ## The programs -/

/-- Everything a process does between two collectives, by call site: whether the Python code before the
call raises, what the process contributes, and its memory after the call. `pw site n` is the number of
calls a distributed array issues on its plane-wave group in that piece of code when it works on `n` bands
(all zero when the plane waves are not distributed). -/
structure Env (σ : Type) where
  raises : String → ℕ → σ → Bool
  out : String → ℕ → σ → Val
  inp : String → ℕ → Val → σ → σ
  pw : String → ℕ → ℕ

/-- Arguments that are the same objects or values on all processes (`check_system` compares them,
/repo/src/qtm/mpi/check_args.py:142-160): for every atom type whether its mass is given, the number of
k-points, the number of electrons, and `ret_vxc`; `fuel` bounds the number of bisection steps that are
modelled. -/
structure Inp where
  types : List Bool
  numk : ℕ
  numel : ℝ
  retVxc : Bool
  fuel : ℕ

section
variable {σ : Type} (E : Env σ) (L : Lay) (r : ℕ)

/-- a collective call that contributes `v` -/
def send (c : Cm) (o : Op) (site : String) (v : Val) (m : σ) : Prog (Val × σ) :=
  if E.raises site r m then .abort
  else .call c o v fun x => .ret (x, E.inp site r x m)

/-- a collective call that contributes a locally computed value -/
def op (c : Cm) (o : Op) (site : String) (m : σ) : Prog (Val × σ) :=
  send E r c o site (E.out site r m) m

/-- a collective call whose result does not steer the control flow -/
def act (c : Cm) (o : Op) (site : String) (m : σ) : Prog σ := do
  let x ← op E r c o site m
  pure x.2

/-- `Barrier` — /repo/src/qtm/mpi/comm.py:195-201; also what entering or leaving a `with comm:` block
does (comm.py:160-165, 184-186) for communicators made by `Split`, which do not synchronise with their
parent (comm.py:239, 261). -/
def bar (c : Cm) (m : σ) : Prog σ := .call c .barrier .none fun _ => .ret m

/-- a `for` loop of `n` passes -/
def rep : ℕ → (σ → Prog σ) → σ → Prog σ
  | 0, _, m => pure m
  | n + 1, f, m => f m >>= rep n f

/-- a block under a condition -/
def whenP (b : Prop) [Decidable b] (f : σ → Prog σ) (m : σ) : Prog σ := if b then f m else pure m

/-- several broadcasts in a row -/
def bcasts (c : Cm) : List String → σ → Prog σ
  | [], m => pure m
  | x :: l, m => act E r c .bcast x m >>= bcasts c l

/-- the calls a distributed array issues on its plane-wave group in one piece of code -/
def pwSec (site : String) (n : ℕ) (m : σ) : Prog σ :=
  rep (E.pw site n) (act E r (.pwgrp (r / L.P)) .inner site) m

/-- `with kroot_intra: if is_null: skip_with_block(); body` — /repo/src/qtm/mpi/comm.py:160-193 with
`sync_with_parent = True` (`Incl`, comm.py:203-204, /repo/src/qtm/dft/config.py:61): the k-group roots
synchronise, run the body and synchronise, then everybody meets on `image_comm`. (With one process only,
`Incl` returns `image_comm` itself, comm.py:221-226, and the last barrier is not issued; it is one with
itself.) -/
def krootBlock (body : σ → Prog σ) (m : σ) : Prog σ :=
  if L.isKroot r then
    bar .kroot m >>= fun m => body m >>= fun m => bar .kroot m >>= fun m => bar .image m
  else bar .image m

/-- number of items of `scatter_slice(n, size, i)` — /repo/src/qtm/mpi/utils.py via
`Scatter.sliceStart/sliceStop`; the copy in /repo/src/qtm/dft/eigsolve/davidson.py:99-109 is the same. -/
def share (n size i : ℕ) : ℕ := sliceStop n size i - sliceStart n size i

/-! ### Davidson — /repo/src/qtm/dft/eigsolve/davidson.py -/

/-- `kgrp_intra` of this process -/
def kg : Cm := .kgrp (L.iK r)

/-- `pwgrp_inter_kgrp` of this process -/
def bg : Cm := .band (L.iK r) (L.iP r)

/-- `compute_hpsi` on `n` vectors — davidson.py:118-129: inside `with bgrp_inter` the own share of the
vectors is processed (if there is any), then `Barrier`, `Allgatherv`. -/
def computeHpsi (n : ℕ) (m : σ) : Prog σ := do
  let m ← bar (bg L r) m
  let m ← whenP (0 < share n L.nB (L.iB r)) (pwSec E L r "h_psi" (share n L.nB (L.iB r))) m
  let m ← bar (bg L r) m
  let m ← act E r (bg L r) .gather "hpsi" m
  bar (bg L r) m

/-- `expand_psi` with `n` unconverged vectors — davidson.py:161-225 -/
def expandPsi (n : ℕ) (m : σ) : Prog σ := do
  let m ← bar (bg L r) m
  let m ← act E r (bg L r) .gather "expand:psi" m
  let m ← act E r (bg L r) .gather "expand:hpsi" m
  let m ← bar (bg L r) m
  let m ← bar (bg L r) m
  let m ← pwSec E L r "normalize" (share n L.nB (L.iB r)) m
  let m ← act E r (bg L r) .gather "expand:res" m
  let m ← bar (bg L r) m
  computeHpsi E L r n m

/-- `update_red` — davidson.py:227-246 -/
def updateRed (n : ℕ) (m : σ) : Prog σ := do
  let m ← bar (bg L r) m
  let m ← whenP (0 < n) (pwSec E L r "vdot" (share n L.nB (L.iB r))) m
  let m ← bar (bg L r) m
  let m ← act E r (bg L r) .gather "ham_red" m
  let m ← act E r (bg L r) .gather "ovl_red" m
  bar (bg L r) m

/-- `solve_red` — davidson.py:254-270 (CPU branch): the root of the k-group diagonalises (`eigh` may
raise there: site `"eigh"`), the others wait in the broadcast. -/
def solveRed (m : σ) : Prog σ := do
  let m ← bar (kg L r) m
  let m ← act E r (kg L r) .bcast "eigh" m
  let m ← act E r (kg L r) .bcast "evl_red" m
  bar (kg L r) m

/-- the iterations — davidson.py:311-369; `left` is `maxiter - idxiter`, `nu` is `n_unconv`. The number of
unconverged vectors is read off the mask broadcast by the root of the k-group. Leaving the loop by `break`
inside `with bgrp_inter` issues the exit barrier as well. -/
def davLoop (numeig ndimMax : ℕ) : ℕ → ℕ → ℕ → σ → Prog σ
  | 0, _, _, m => pure m
  | left + 1, ndim, nu, m => do
    let m ← expandPsi E L r nu m
    let m ← updateRed E L r nu m
    let m ← solveRed E L r m
    let m ← bar (kg L r) m
    let x ← op E r (kg L r) .bcast "unconv_flag" m
    let m ← bar (kg L r) x.2
    let nu' := x.1.count
    if nu' = 0 then do
      let m ← bar (bg L r) m
      let m ← act E r (bg L r) .gather "evc" m
      bar (bg L r) m
    else if ndim + nu + nu' > ndimMax then do
      let m ← bar (bg L r) m
      let m ← act E r (bg L r) .gather "evc" m
      let m ← act E r (bg L r) .gather "restart:hpsi" m
      let m ← bar (bg L r) m
      davLoop numeig ndimMax left numeig nu' m
    else davLoop numeig ndimMax left (ndim + nu) nu' m

/-- `davidson.solve` — davidson.py:22-376 -/
def davidson (numeig : ℕ) (m : σ) : Prog σ := do
  let m ← bar (kg L r) m
  let m ← act E r (kg L r) .bcast "dav:diago_thr" m
  let m ← act E r (kg L r) .bcast "dav:vloc_g0" m
  let nw ← op E r (kg L r) .bcast "dav:numwork" m
  let mx ← op E r (kg L r) .bcast "dav:maxiter" nw.2
  let m ← bar (kg L r) mx.2
  let m ← bar (kg L r) m
  let m ← act E r (kg L r) .bcast "dav:evl" m
  let m ← bar (kg L r) m
  let m ← bar (bg L r) m
  let m ← act E r (bg L r) .bcast "dav:evc" m
  let m ← bar (bg L r) m
  let m ← pwSec E L r "normalize" numeig m
  let m ← computeHpsi E L r numeig m
  let m ← updateRed E L r numeig m
  let m ← solveRed E L r m
  davLoop E L r numeig (nw.1.toNat * numeig) mx.1.toNat numeig numeig m

/-! ### Occupations -/

open Classical in
/-- the bisection of `smear.compute_occ` — /repo/src/qtm/dft/occup/smear.py:101-120; `numel` is the value
broadcast before. Simplification: cut after `fuel` steps (an endless bisection is the subject of C36). -/
noncomputable def bisect (numel : ℝ) : ℕ → σ → Prog σ
  | 0, m => pure m
  | fuel + 1, m => do
    let m ← act E r .kroot .reduce "numel_" m
    let x ← op E r .kroot .bcast "numel_bcast" m
    if abs (numel - x.1.toReal) > 1 / 10 ^ 10 then do
      let m ← act E r .kroot .bcast "mu_min" x.2
      let m ← act E r .kroot .bcast "mu_max" m
      bisect numel fuel m
    else pure x.2

/-- `smear.compute_occ` — /repo/src/qtm/dft/occup/smear.py:66-134, for `nw` wavefunction sets on this
k-group -/
noncomputable def smearOcc (I : Inp) (nw : ℕ) (m : σ) : Prog σ := do
  let m ← bar .image m
  let m ← bcasts E r .image ["is_spin", "smear_typ", "degauss"] m
  let m ← bar .image m
  let m ← krootBlock L r (fun m => do
    let m ← act E r .kroot .reduce "mu_min0" m
    let m ← act E r .kroot .reduce "mu_max0" m
    let x ← op E r .kroot .bcast "numel" m
    let m ← bisect E r x.1.toReal I.fuel x.2
    act E r .kroot .reduce "e_smear" m) m
  let m ← bar (kg L r) m
  let m ← rep nw (act E r (kg L r) .bcast "occ") m
  let m ← bcasts E r (kg L r) ["e_fermi", "e_smear_bcast"] m
  bar (kg L r) m

/-- `fixed.compute_occ` — /repo/src/qtm/dft/occup/fixed.py:11-42 -/
def fixedOcc (numbnd : ℕ) (m : σ) : Prog σ := do
  let m ← bar .image m
  let m ← act E r .image .bcast "fixed:numel" m
  let m ← bar .image m
  let m ← bar .image m
  let x ← op E r .image .bcast "fixed:numel2" m
  let m ← krootBlock L r (fun m => do
    let m ← act E r .kroot .reduce "max_filled" m
    let m ← whenP (x.1.toNat / 2 < numbnd) (act E r .kroot .reduce "min_empty") m
    bcasts E r .kroot ["max_filled_bcast", "min_empty_bcast"] m) x.2
  bar .image m

/-! ### The self-consistent loop — /repo/src/qtm/dft/scf.py -/

/-- The broadcast arguments that steer the run. -/
structure Args where
  numbnd : ℕ
  spin : Bool
  symm : Bool
  smear : Bool
  convThr : ℝ
  maxiter : ℕ
  thr0 : ℝ

/-- wavefunction sets per k-point — scf.py:278-296, 376 -/
def nspin (A : Args) : ℕ := if A.spin then 2 else 1

/-- `check_system` — /repo/src/qtm/mpi/check_args.py:34-160, called at scf.py:115 -/
def checkSystem (I : Inp) (m : σ) : Prog σ := do
  let m ← bar .image m
  let m ← bcasts E r .image (["primvec", "alat"] ++
    (I.types.flatMap fun mass => ["check_reallat", "label", "valence", "filename", "md5"] ++
      (if mass then ["mass"] else []) ++ ["r_cryst"]) ++
    ["grho:recvec", "grho:ecut", "grho:n1", "grho:n2", "grho:n3", "grho:is_dist"] ++
    ["gwfn:recvec", "gwfn:ecut", "gwfn:n1", "gwfn:n2", "gwfn:n3", "gwfn:is_dist"] ++
    ["check_recilat", "k_cryst", "k_weights"]) m
  bar .image m

/-- the argument block — scf.py:114-213 -/
def readArgs (I : Inp) (m : σ) : Prog (Args × σ) := do
  let m ← bar .image m
  let m ← checkSystem E r I m
  let nb ← op E r .image .bcast "numbnd" m
  let sp ← op E r .image .bcast "scf:is_spin" nb.2
  let m ← act E r .image .bcast "is_noncolin" sp.2
  let sy ← op E r .image .bcast "symm_rho" m
  let m ← pwSec E L r "rho_start" 0 sy.2
  let m ← act E r .image .bcast "libxc_func" m
  let oc ← op E r .image .bcast "occ_typ" m
  let m ← bcasts E r .image ["scf:smear_typ", "e_temp"] oc.2
  let ct ← op E r .image .bcast "conv_thr" m
  let mx ← op E r .image .bcast "maxiter" ct.2
  let th ← op E r .image .bcast "diago_thr_init" mx.2
  let m ← bcasts E r .image ["mix_beta", "mix_dim", "dftconfig"] th.2
  let m ← bar .image m
  pure ({ numbnd := nb.1.toNat, spin := sp.1.toBool, symm := sy.1.toBool, smear := oc.1.toBool,
          convThr := ct.1.toReal, maxiter := mx.1.toNat, thr0 := th.1.toReal }, m)

/-- the preparation — scf.py:251-330, 418-424, 453-462: entering `with image_comm`, building wavefunctions
and potentials, the Ewald energy, the mixer, `comm.barrier()` -/
def setup (A : Args) (m : σ) : Prog σ := do
  let m ← bar .image m
  let m ← pwSec E L r "setup" A.numbnd m
  let m ← act E r .image .bcast "ewald" m
  let m ← whenP (A.symm = true) (pwSec E L r "symmetrize" 0) m
  bar .image m

/-- `update_rho_out` — scf.py:395-416: the whole reduction sits inside the test whether this band group has
any band. -/
def updateRho (A : Args) (nw : ℕ) (m : σ) : Prog σ := do
  let m ← whenP (sliceStart A.numbnd L.nB (L.iB r) < sliceStop A.numbnd L.nB (L.iB r)) (fun m => do
    let m ← rep nw (pwSec E L r "compute_rho" (share A.numbnd L.nB (L.iB r))) m
    let m ← bar (.inter (L.iP r)) m
    let m ← act E r (.inter (L.iP r)) .reduce "rho_wfn" m
    bar (.inter (L.iP r)) m) m
  let m ← pwSec E L r "normalize_rho" 0 m
  whenP (A.symm = true) (pwSec E L r "symmetrize" 0) m

/-- `compute_en` — scf.py:426-450 -/
def computeEn (m : σ) : Prog σ := do
  let m ← krootBlock L r (act E r .kroot .reduce "e_eigen") m
  let m ← act E r .image .bcast "e_eigen_bcast" m
  pwSec E L r "compute_en" 0 m

/-- `mixmod.mix` — /repo/src/qtm/dft/mixing/base.py:58-67: only the first plane-wave group mixes -/
def mix (m : σ) : Prog σ := do
  let m ← whenP (r / L.P = 0) (pwSec E L r "_mix" 0) m
  act E r (.inter (L.iP r)) .bcast "rho_next" m

/-- the first part of an iteration, up to the occupations — scf.py:468-491 -/
noncomputable def iterHead (I : Inp) (A : Args) (m : σ) : Prog σ := do
  let m ← whenP (A.symm = true) (pwSec E L r "symmetrize" 0) m
  let m ← pwSec E L r "normalize_rho" 0 m
  let m ← pwSec E L r "compute_vloc" 0 m
  let m ← act E r (bg L r) .bcast "vloc" m
  let m ← act E r .image .bcast "vloc_image" m
  let m ← pwSec E L r "vloc_g0" 0 m
  let m ← rep (share I.numk L.nK (L.iK r)) (rep (nspin A) (davidson E L r A.numbnd)) m
  if A.smear then smearOcc E L r I (share I.numk L.nK (L.iK r) * nspin A) m else fixedOcc E L r A.numbnd m

open Classical in
/-- the decision of an iteration — scf.py:497-511: contributes the new values of `scf_converged` and
`diago_thr` -/
noncomputable def decision (I : Inp) (A : Args) (idx : ℕ) (thr e : ℝ) (m : σ) :
    Prog ((Bool × ℝ) × σ) :=
  if e < A.convThr then do
    let m ← computeEn E L r m
    pure ((true, thr), m)
  else if idx = 0 ∧ e < thr * I.numel then pure ((false, 1 / 10 * e / I.numel), m)
  else do
    let m ← mix E L r m
    let m ← whenP (A.symm = true) (pwSec E L r "symmetrize" 0) m
    pure ((false, max (min thr (1 / 10 * e / I.numel)) (1 / 2 / 10 ^ 13)), m)

/-- the magnetisation report of a converged spin-polarised run — scf.py:523-538: executed by rank 0 of
`image_comm` alone; `to_r` and `integrate_unitcell` of a distributed field are collective on its
plane-wave group. -/
def report (A : Args) (m : σ) : Prog σ :=
  whenP (r = 0 ∧ A.spin = true) (pwSec E L r "magnetization" 0) m

/-- the iterations — scf.py:464-541; `left` is `maxiter - idxiter`. Returns whether the run converged and
how many iterations were made. -/
noncomputable def scfLoop (I : Inp) (A : Args) : ℕ → ℕ → ℝ → σ → Prog ((Bool × ℕ) × σ)
  | 0, idx, _, m => pure ((false, idx), m)
  | left + 1, idx, thr, m => do
    let m ← iterHead E L r I A m
    let m ← updateRho E L r A (share I.numk L.nK (L.iK r) * nspin A) m
    let m ← computeEn E L r m
    let m ← pwSec E L r "compute_error" 0 m
    let e ← op E r .image .bcast "e_error" m
    let d ← decision E L r I A idx thr e.1.toReal e.2
    let c ← send E r .image .bcast "scf_converged" (.flag d.1.1) d.2
    let t ← send E r .image .bcast "diago_thr" (.num d.1.2) c.2
    let m ← bar .image t.2
    if c.1.toBool then do
      let m ← report E L r A m
      pure ((true, idx), m)
    else scfLoop I A left (idx + 1) t.1.toReal m

/-- `scf` as seen by process `r` — scf.py:83-562 -/
noncomputable def scf (I : Inp) (m : σ) : Prog ((Bool × ℕ) × σ) := do
  let a ← readArgs E L r I m
  let m ← setup E L r a.1 a.2
  let x ← scfLoop E L r I a.1 a.1.maxiter 0 a.1.thr0 m
  let m ← whenP (I.retVxc = true) (pwSec E L r "vxc" a.1.numbnd) x.2
  let m ← bar .image m
  pure (x.1, m)

end

end Verif.Coll
