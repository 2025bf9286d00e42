import Verif.Model.GW
import Verif.Model.Sigma

/-!
# Model of a whole self-energy calculation on several MPI processes

`Sigma` uses a single communicator, `COMM_WORLD`. Every process runs the program below; the processes
meet in barriers and in `allgather`, both of which block until every process of the communicator has
made the call. The arithmetic per q-point is a parameter; where it may raise an exception it does so in
the model as well.
-/

namespace Verif.GwRun

open Verif.GW

/-! ## Processes of one communicator -/

/-- The program of one process: finished with a result, ended by an exception, waiting in a barrier, or
waiting in `allgather` with its own contribution. -/
inductive Prog (V α : Type)
  | ret (a : α)
  | abort (e : PyErr)
  | bar (next : Prog V α)
  | gather (v : V) (next : List V → Prog V α)

/-- sequencing: an exception ends the process -/
def Prog.bind {V α β : Type} : Prog V α → (α → Prog V β) → Prog V β
  | .ret a, f => f a
  | .abort e, _ => .abort e
  | .bar k, f => .bar (k.bind f)
  | .gather v k, f => .gather v fun l => (k l).bind f

instance {V : Type} : Monad (Prog V) where
  pure := .ret
  bind := Prog.bind

/-- local computation: may raise -/
def lift {V α : Type} : Except PyErr α → Prog V α
  | .ok a => .ret a
  | .error e => .abort e

/-- A collective call completes when *every* process waits in it: a barrier, or an `allgather`, which
hands everybody the list of all contributions in rank order. -/
inductive Step {V α : Type} {n : ℕ} (s t : Fin n → Prog V α) : Prop
  | bar (hn : 0 < n) (h : ∀ r, s r = .bar (t r))
  | gather (hn : 0 < n) (v : Fin n → V) (next : Fin n → List V → Prog V α)
      (h : ∀ r, s r = .gather (v r) (next r)) (ht : ∀ r, t r = next r (List.ofFn v))

/-- any number of completed calls -/
inductive Reach {V α : Type} {n : ℕ} : (Fin n → Prog V α) → (Fin n → Prog V α) → Prop
  | refl (s : Fin n → Prog V α) : Reach s s
  | cons {s t u : Fin n → Prog V α} : Step s t → Reach t u → Reach s u

/-! ## The self-energy calculation -/

/-- What is exchanged: per-q Coulomb tables, per-q averages of `1/q`, arrays over k-points and bands. -/
inductive Val (T ι : Type)
  | tabs (l : List T)
  | nums (l : List ℝ)
  | mat (m : ι → ℂ)

/-- reading gathered lists -/
def Val.toTabs {T ι : Type} : Val T ι → List T
  | .tabs l => l
  | _ => []

/-- reading gathered lists -/
def Val.toNums {T ι : Type} : Val T ι → List ℝ
  | .nums l => l
  | _ => []

/-- reading gathered arrays -/
def Val.toMat {T ι : Type} : Val T ι → ι → ℂ
  | .mat m => m
  | _ => fun _ => 0

/-- Everything that is computed without communication: the Coulomb table of one q-point (with the
`bare` switch), the corrected and reordered inverse dielectric matrices from the gathered tables, and
the contributions of one q-point to each self-energy (the last two with the `dE` switch). -/
structure Inp (T D ι : Type) where
  numq : ℕ
  nk : ℕ
  factor : ℝ
  emf : ι → ℝ
  vxc : ι → ℂ
  autosave : Bool
  vq : Bool → ℕ → Except PyErr (T × ℝ)
  eps : List T → List ℝ → Except PyErr D
  x : List T → D → ℕ → Except PyErr (ι → ℂ)
  sx : List T → D → ℕ → Except PyErr (ι → ℂ)
  ch : List T → D → ℕ → Except PyErr (ι → ℂ)
  chx : List T → D → ℕ → Except PyErr (ι → ℂ)
  sxg : Bool → List T → D → ℕ → Except PyErr (ι → ℂ)
  chg : Bool → List T → D → ℕ → Except PyErr ((ι → ℂ) × (ι → ℂ))

section
variable {T D ι : Type}

/-- the q-points of process `r` of `n` — /repo/src/qtm/gw/sigma.py:811-819, 866-872 (and the other
self-energies), /repo/src/qtm/gw/vcoul.py:688-702: all of them when not in parallel -/
def procQ (numq n r : ℕ) : List ℕ := if n ≤ 1 then List.range numq else arraySplit numq n r

/-- `comm.Barrier()` where guarded by `in_parallel` — /repo/src/qtm/gw/sigma.py:1725, 1822-1873 -/
def barrier (n : ℕ) : Prog (Val T ι) Unit := if n ≤ 1 then .ret () else .bar (.ret ())

/-- `Vcoul.calculate_vcoul` — /repo/src/qtm/gw/vcoul.py:675-717 -/
def calcVcoul (I : Inp T D ι) (bare : Bool) (n r : ℕ) : Prog (Val T ι) (List T × List ℝ) :=
  (lift ((procQ I.numq n r).mapM (I.vq bare)) : Prog (Val T ι) (List (T × ℝ))).bind fun own =>
    if n ≤ 1 then .ret (own.map Prod.fst, own.map Prod.snd)
    else
      .bar (.gather (.nums (own.map Prod.snd)) fun go =>
        .gather (.tabs (own.map Prod.fst)) fun gv =>
          .bar (.ret ((gv.map Val.toTabs).flatten, (go.map Val.toNums).flatten)))

/-- the loop over the q-points of a process, `sigma += sigma_q` — /repo/src/qtm/gw/sigma.py:813-826,
878-940, 990-1044, 1079-1113, 1381-1446 -/
noncomputable def accumulate (f : ℕ → Except PyErr (ι → ℂ)) : List ℕ → (ι → ℂ) → Except PyErr (ι → ℂ)
  | [], acc => .ok acc
  | q :: l, acc =>
    match f q with
    | .ok s => accumulate f l fun i => acc i + s i
    | .error e => .error e

/-- `sum(comm.allgather(sigma))` — /repo/src/qtm/gw/sigma.py:827-829, 941-942, 1045-1046, 1114-1115,
1448-1449, 1648-1650: Python's `sum` starts from zero and adds in rank order -/
noncomputable def sumAll (n : ℕ) (s : ι → ℂ) : Prog (Val T ι) (ι → ℂ) :=
  if n ≤ 1 then .ret s
  else .gather (.mat s) fun l => .ret ((l.map Val.toMat).foldl (fun a b i => a i + b i) fun _ => 0)

/-- `proc_q_indices[0]` in the file name of an automatic save — /repo/src/qtm/gw/sigma.py:833-838, 946-951:
an `IndexError` on a process without q-points -/
def savePoint (I : Inp T D ι) (n r : ℕ) : Prog (Val T ι) Unit :=
  if I.autosave = true ∧ procQ I.numq n r = [] then .abort .index else .ret ()

/-- one self-energy without automatic save: loop, sum over processes, factor
— /repo/src/qtm/gw/sigma.py:956-1050, 1052-1119, 1371-1458 -/
noncomputable def selfEnergy (I : Inp T D ι) (f : ℕ → Except PyErr (ι → ℂ)) (c : ℂ) (n r : ℕ) :
    Prog (Val T ι) (ι → ℂ) :=
  (lift (accumulate f (procQ I.numq n r) fun _ => 0) : Prog (Val T ι) (ι → ℂ)).bind fun own =>
    (sumAll n own).bind fun tot => .ret fun i => tot i * c

/-- `Sigma.sigma_x` — /repo/src/qtm/gw/sigma.py:811-840: contributions are subtracted -/
noncomputable def sigmaX (I : Inp T D ι) (v : List T) (d : D) (n r : ℕ) : Prog (Val T ι) (ι → ℂ) :=
  (selfEnergy I (fun q => (I.x v d q).map fun s i => -s i) I.factor n r).bind fun s =>
    (savePoint I n r).bind fun _ => .ret s

/-- `Sigma.sigma_sx_static` — /repo/src/qtm/gw/sigma.py:843-953 -/
noncomputable def sigmaSx (I : Inp T D ι) (v : List T) (d : D) (n r : ℕ) : Prog (Val T ι) (ι → ℂ) :=
  (selfEnergy I (I.sx v d) (-1 * I.factor) n r).bind fun s =>
    (savePoint I n r).bind fun _ => .ret s

/-- `Sigma.sigma_ch_static` — /repo/src/qtm/gw/sigma.py:956-1050 -/
noncomputable def sigmaCh (I : Inp T D ι) (v : List T) (d : D) (n r : ℕ) : Prog (Val T ι) (ι → ℂ) :=
  selfEnergy I (I.ch v d) (1 / 2 * I.factor) n r

/-- `Sigma.sigma_ch_static_exact` — /repo/src/qtm/gw/sigma.py:1052-1119 -/
noncomputable def sigmaChx (I : Inp T D ι) (v : List T) (d : D) (n r : ℕ) : Prog (Val T ι) (ι → ℂ) :=
  selfEnergy I (I.chx v d) (1 / 2 * I.factor) n r

/-- `Sigma.sigma_sx_gpp` — /repo/src/qtm/gw/sigma.py:1371-1460 -/
noncomputable def sigmaSxg (I : Inp T D ι) (dE : Bool) (v : List T) (d : D) (n r : ℕ) : Prog (Val T ι) (ι → ℂ) :=
  selfEnergy I (I.sxg dE v d) (-1 * I.factor) n r

/-- the two accumulators of `Sigma.sigma_ch_gpp` — /repo/src/qtm/gw/sigma.py:1480-1481, 1560-1646 -/
noncomputable def accumulate2 (f : ℕ → Except PyErr ((ι → ℂ) × (ι → ℂ))) :
    List ℕ → (ι → ℂ) → (ι → ℂ) → Except PyErr ((ι → ℂ) × (ι → ℂ))
  | [], a, b => .ok (a, b)
  | q :: l, a, b =>
    match f q with
    | .ok s => accumulate2 f l (fun i => a i + s.1 i) fun i => b i + s.2 i
    | .error e => .error e

/-- `Sigma.sigma_ch_gpp` — /repo/src/qtm/gw/sigma.py:1462-1662 -/
noncomputable def sigmaChg (I : Inp T D ι) (dE : Bool) (v : List T) (d : D) (n r : ℕ) :
    Prog (Val T ι) ((ι → ℂ) × (ι → ℂ)) :=
  (lift (accumulate2 (I.chg dE v d) (procQ I.numq n r) (fun _ => 0) fun _ => 0) :
      Prog (Val T ι) ((ι → ℂ) × (ι → ℂ))).bind fun own =>
    (sumAll n own.1).bind fun g => (sumAll n own.2).bind fun s =>
      .ret (fun i => g i * (1 / 2 * I.factor), fun i => s i * (1 / 2 * I.factor))

/-- `Sigma.__init__` — /repo/src/qtm/gw/sigma.py:175-208 with /repo/src/qtm/gw/vcoul.py:110-120: the
Coulomb table is computed twice, first bare and then averaged; the dielectric matrices are fixed and
reordered by every process for itself -/
def create (I : Inp T D ι) (n r : ℕ) : Prog (Val T ι) (List T × D) :=
  (calcVcoul I true n r).bind fun _ => (calcVcoul I false n r).bind fun v =>
    (lift (I.eps v.1 v.2) : Prog (Val T ι) D).bind fun d => .ret (v.1, d)

/-- `Sigma.calculate_static_cohsex` on a new `Sigma` — /repo/src/qtm/gw/sigma.py:1668-1785 -/
noncomputable def cohsex (I : Inp T D ι) (n r : ℕ) : Prog (Val T ι) (ι → Row) :=
  (create I n r).bind fun w =>
  (sigmaX I w.1 w.2 n r).bind fun x =>
  (sigmaSx I w.1 w.2 n r).bind fun sx =>
  (sigmaCh I w.1 w.2 n r).bind fun ch =>
  (sigmaChx I w.1 w.2 n r).bind fun chx =>
  (barrier n).bind fun _ =>
  .ret fun i => cohsexRow ⟨I.emf i, I.vxc i, x i, sx i, ch i, chx i⟩

/-- the result dictionary of `calculate_gpp` — /repo/src/qtm/gw/sigma.py:1947-2003: it is created inside
the block that only rank 0 executes -/
def result (I : Inp T D ι) (r : ℕ) (rows : ι → Row) : Prog (Val T ι) (ι → Row) :=
  if r = 0 ∧ I.nk ≠ 0 then .ret rows else .abort .unboundLocal

/-- `Sigma.calculate_gpp` on a new `Sigma` — /repo/src/qtm/gw/sigma.py:1788-2003 -/
noncomputable def gpp (I : Inp T D ι) (n r : ℕ) : Prog (Val T ι) (ι → Row) :=
  (create I n r).bind fun w =>
  (sigmaX I w.1 w.2 n r).bind fun x => (barrier n).bind fun _ =>
  (sigmaCh I w.1 w.2 n r).bind fun chs => (barrier n).bind fun _ =>
  (sigmaChx I w.1 w.2 n r).bind fun chx => (barrier n).bind fun _ =>
  (sigmaSxg I false w.1 w.2 n r).bind fun sx => (barrier n).bind fun _ =>
  (sigmaChg I false w.1 w.2 n r).bind fun ch => (barrier n).bind fun _ =>
  (barrier n).bind fun _ =>
  (sigmaChg I true w.1 w.2 n r).bind fun ch2 =>
  (sigmaSxg I true w.1 w.2 n r).bind fun sx2 =>
  result I r fun i =>
    gppRow ⟨I.emf i, I.vxc i, x i, sx i, ch.1 i, chx i⟩ (chs i) (sx2 i) (ch2.1 i)

end

end Verif.GwRun
