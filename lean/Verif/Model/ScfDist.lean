import Verif.Model.SCF
import Verif.Model.HamDist
import Verif.Model.MixDist
import Verif.Props.PotXC
import Verif.Props.MixDist
import Verif.Props.HamDist

/-!
# Model: the SCF driver with all its parts, serial and on distributed plane waves

`/repo/src/qtm/dft/scf.py` with the functions it calls (potentials, eigen-solver, occupations, density, mixing), once on one process and once on the processes of a plane-wave group (one k-point group, one band
group). The loop is written once, for any type of densities and states.
-/

namespace Verif.ScfDist

open Verif.Dist (Setup)
open Verif.HamDist (ln lm DWf davCfg serCfg)
open Verif.FFT (Driver Dims DrvState)
open Verif.PotDist (PointFunc distSpace)
open Verif.Pot (fftSpace)
open Verif.Mixing (Dens)

/-! ## The loop -/

/-- What the driver calls — scf.py:314-523, as `SCF.Env`, with the functions that can raise. `pot` gives the potential, the Hartree and the exchange-correlation energy; `occ` the states with occupations and `-TS`;
`rhoWfn` the states (normalised in place by `compute_rho`) and the density before normalisation. -/
structure Ops (D W V M : Type) where
  symmRho : Bool
  numel : ℝ
  convThr : ℝ
  diagoInit : ℝ
  isSmear : Bool
  ewald : ℝ
  normalize : D → D
  symm : D → D
  pot : D → Except PyErr (V × ℝ × ℝ)
  pair : V → D → ℝ
  solve : W → V → ℝ → Except PyErr W
  occ : W → Except PyErr (W × ℝ)
  eig : W → ℝ
  rhoWfn : W → Except PyErr (W × D)
  err : D → D → ℝ
  mix : M → D → D → Except PyErr (SCF.MixOut D M)

variable {D W V M : Type}

/-- `if symm_rho: rho = symm_mod.symmetrize(rho)` — scf.py:414-415, 470-471, 508-509. -/
def Ops.sym (e : Ops D W V M) (rho : D) : D := if e.symmRho then e.symm rho else rho

/-- The first half of an iteration: states, output density, potential and energies. -/
structure Half (D W V : Type) where
  w : W
  rout : D
  v : V
  eh : ℝ
  exc : ℝ
  smear : ℝ

/-- `compute_vloc`, `solve_kswfn`, `compute_occ`, `update_rho_out` — scf.py:338-349, 395-415, 473-489. -/
def Ops.half (e : Ops D W V M) (w : W) (rin : D) (thr : ℝ) : Except PyErr (Half D W V) :=
  e.pot rin >>= fun v => e.solve w v.1 thr >>= fun w1 => e.occ w1 >>= fun w2 => e.rhoWfn w2.1 >>= fun w3 => .ok ⟨w3.1, e.sym (e.normalize w3.2), v.1, v.2.1, v.2.2, w2.2⟩

/-- `compute_en` — scf.py:426-453 (the levels are left out); `rout` is the variable `rho_out`. -/
noncomputable def Ops.energy (e : Ops D W V M) (h : Half D W V) (rin rout : D) : SCF.Energy :=
  let oneEl := e.eig h.w - e.pair h.v rout
  let total := oneEl + e.ewald + h.eh + h.exc
  let hwf := e.eig h.w - e.pair h.v rin + e.ewald + h.eh + h.exc
  if e.isSmear then
    { total := total + h.smear, hwf := hwf + h.smear, oneEl := oneEl, ewald := e.ewald, hartree := h.eh, xc := h.exc, smear := some h.smear, internal := some (total + h.smear - h.smear) }
  else { total := total, hwf := hwf, oneEl := oneEl, ewald := e.ewald, hartree := h.eh, xc := h.exc }

/-- The variables of the loop, as `SCF.St`. -/
structure St (D W M : Type) where
  rho : D
  caller : D
  own : Bool
  w : W
  mx : M
  thr : ℝ
  en : SCF.Energy

open Classical in
/-- The second half of an iteration — scf.py:490-523. -/
noncomputable def Ops.finish (e : Ops D W V M) (idx : ℕ) (st : St D W M) (rin : D) (h : Half D W V) : Except PyErr (St D W M × SCF.Report) :=
  let own := st.own && !e.symmRho
  let caller := if own then rin else st.caller
  let er := e.err rin h.rout
  if er < e.convThr then .ok (⟨rin, caller, own, h.w, st.mx, st.thr, e.energy h rin rin⟩, ⟨idx, true, er, st.thr, e.energy h rin rin⟩)
  else if idx = 0 ∧ er < st.thr * e.numel then
    .ok (⟨rin, caller, own, h.w, st.mx, 0.1 * er / e.numel, e.energy h rin h.rout⟩, ⟨idx, false, er, 0.1 * er / e.numel, e.energy h rin h.rout⟩)
  else
    let thr := max (min st.thr (0.1 * er / e.numel)) 0.5e-13
    e.mix st.mx rin h.rout >>= fun o =>
      .ok (⟨e.sym o.rho, if own then o.arg else caller, own && o.same && !e.symmRho, h.w, o.mx, thr, e.energy h rin h.rout⟩, ⟨idx, false, er, thr, e.energy h rin h.rout⟩)

/-- One iteration — scf.py:469-523. -/
noncomputable def Ops.step (e : Ops D W V M) (idx : ℕ) (st : St D W M) : Except PyErr (St D W M × SCF.Report) :=
  let rin := e.normalize (e.sym st.rho)
  e.half st.w rin st.thr >>= e.finish idx st rin

/-- What `scf` returns, with the reports made. -/
structure Res (D W M : Type) where
  converged : Bool
  st : St D W M
  trace : List SCF.Report

/-- `while idxiter < maxiter` — scf.py:467-541. -/
noncomputable def Ops.loop (e : Ops D W V M) : ℕ → ℕ → St D W M → Except PyErr (Res D W M)
  | 0, _, st => .ok ⟨false, st, []⟩
  | fuel + 1, idx, st => e.step idx st >>= fun x =>
    if x.2.converged then .ok ⟨true, x.1, [x.2]⟩ else Ops.loop e fuel (idx + 1) x.1 >>= fun res => .ok ⟨res.converged, res.st, x.2 :: res.trace⟩

/-- The energies before the first iteration — scf.py:314-318, 418-424. -/
def Ops.en0 (e : Ops D W V M) : SCF.Energy :=
  { ewald := e.ewald, smear := if e.isSmear then some 0 else none, internal := if e.isSmear then some 0 else none }

open Classical in
/-- `scf` called with a density as `rho_start` — scf.py:139-152, 189-207, 326, 464-561. -/
noncomputable def Ops.scf (e : Ops D W V M) (maxiter : ℕ) (rho : D) (w : W) (mx : M) : Except PyErr (Res D W M) :=
  if ¬ 0 < e.convThr then .error .assertion
  else if ¬ 0 < e.diagoInit then .error .assertion
  else e.loop maxiter 0 ⟨rho, rho, true, w, mx, e.diagoInit, e.en0⟩

/-- The calls of `SCF.Env`, none of which raises. -/
noncomputable def ofEnv {s n : ℕ} (e : SCF.Env s n W V M) : Ops (SCF.Dens s (n + 1)) W V M where
  symmRho := e.symmRho
  numel := e.numel
  convThr := e.convThr
  diagoInit := e.diagoInit
  isSmear := e.isSmear
  ewald := e.ewald
  normalize := SCF.normalize e.numel e.dv
  symm := e.symm
  pot rho := .ok (e.pot rho, e.hartree rho, e.xc rho)
  pair := e.pair
  solve w v thr := .ok (e.solve w v thr)
  occ w := .ok (w, e.smear w)
  eig := e.eig
  rhoWfn w := .ok (w, SCF.Env.rhoWfn e w)
  err := e.err
  mix := e.mix

/-! ## A calculation -/

/-- A loop over `n` items, each of which can raise: the first error ends it. -/
def seqF {α : Type} : (n : ℕ) → (Fin n → Except PyErr α) → Except PyErr (Fin n → α)
  | 0, _ => .ok Fin.elim0
  | n + 1, f => f 0 >>= fun a => seqF n (fun i => f i.succ) >>= fun t => .ok (Fin.cons (α := fun _ => α) a t)

/-- A k-point — scf.py:268-299: plane waves (places on the grid), `|k+G|²`, projectors of all species and their diagonal (ksham.py:60-64), weight (twice `k_weight` without spin). -/
structure KPt where
  idx : List ℕ
  gk2 : Fin idx.length → ℝ
  nl : List (Nonloc.Proj idx.length)
  vnl : Fin idx.length → ℝ
  weight : ℝ

/-- The input of a calculation on the grid `d` with the G-vectors at the places `idx`, with `ns` spin components. `gs` are the crystal coordinates of the G-vectors, `norm2` their squared lengths, `g` their Cartesian coordinates;
`occ` computes occupations and `-TS` from all eigenvalues (occup/fixed.py, occup/smear.py), `eigh` solves the reduced problem of the eigen-solver. -/
structure Calc (d : Dims) (idx : List ℕ) (ns : ℕ) where
  gs : List (Fin 3 → ℤ)
  norm2 : List ℝ
  g : Fin 3 → Fin idx.length → ℝ
  dv : ℝ
  vol : ℝ
  numel : ℝ
  nan : ℂ
  exch : PointFunc ns
  corr : PointFunc ns
  core : Fin idx.length → ℂ
  vion : Fin idx.length → ℂ
  ewald : ℝ
  isSmear : Bool
  symmRho : Bool
  symm : Dens ns idx.length → Dens ns idx.length
  convThr : ℝ
  diagoInit : ℝ
  nk : ℕ
  kp : Fin nk → KPt
  nb : ℕ
  numwork : ℕ
  maxiter : ℕ
  eigh : ℕ → (ℕ → ℕ → ℂ) → (ℕ → ℕ → ℂ) → Except PyErr ((ℕ → ℕ → ℂ) × (ℕ → ℝ))
  occ : (Fin nk → Fin ns → ℕ → ℝ) → Except PyErr ((Fin nk → Fin ns → ℕ → ℝ) × ℝ)
  method : Mixing.Method
  mix : Mixing.Cfg idx.length
  dev : Nonloc.Device

variable {d : Dims} {idx : List ℕ} {ns : ℕ}

/-- `v_hart + v_xc`, `vloc`, `vloc_g0[0]` — scf.py:340-346, 473: `vloc` is divided by the number of grid points, the sum again. -/
structure Pots (ns m : ℕ) where
  hxc : Fin ns → Fin m → ℂ
  vloc : Fin ns → Fin m → ℂ
  g0 : ℝ

/-! ## One process -/

/-- `normalize_rho` — scf.py:335-336 (with no G-vectors `data_g0` would raise). -/
noncomputable def normS {n : ℕ} (numel dv : ℝ) (rho : Dens ns n) : Dens ns n :=
  fun k i => rho k i * ((numel : ℂ) / ((∑ s, if h : 0 < n then rho s ⟨0, h⟩ else 0) * (dv : ℂ)))

/-- `compute_vloc` — scf.py:338-349, 473. -/
noncomputable def potS (C : Calc d idx ns) (h0 : 0 < ns) (X : Pot.XCSpace d.size idx.length) (rho : Dens ns idx.length) : Except PyErr (Pots ns d.size × ℝ × ℝ) :=
  Pot.hartree C.nan C.norm2 (decide (C.gs.head? = some 0)) C.dv d.size (List.ofFn fun s => List.ofFn (rho s)) >>= fun a =>
  Pot.xcCompute X h0 (C.exch.on d.size) (C.corr.on d.size) rho C.core >>= fun b =>
  let vh := X.toR fun j => a.1.getD j 0
  let vl := fun s r => (X.toR C.vion r + vh r + b.1 s r) / (d.size : ℂ)
  .ok (⟨fun s r => vh r + b.1 s r, vl, ((∑ r, vl ⟨0, h0⟩ r) / (d.size : ℂ)).re⟩, a.2, b.2)

/-- `solve_kswfn` for one k-point and spin — scf.py:370-392, davidson.py:66-69: `junk` is what the work arrays hold; the imaginary part of the averaged potential is left out. -/
noncomputable def solveS (C : Calc d idx ns) (drv : Driver) (k : KPt) (kst : DrvState ℂ) (junk : ℕ → EuclideanSpace ℂ (Fin k.idx.length)) (v : Fin d.size → ℂ) (g0 thr : ℝ) (K : KSWfn.KS) : Except PyErr KSWfn.KS :=
  Davidson.solve (serCfg C.dev drv d k.idx kst k.gk2 v k.nl (fun j => 1 / 2 * k.gk2 j + k.vnl j + g0) C.nb C.numwork C.maxiter thr C.eigh) (fun b => WithLp.toLp 2 fun j => K.evc b j) junk junk >>= fun o =>
  .ok { K with evc := fun b i => if h : i < k.idx.length then o.evc b ⟨i, h⟩ else 0, evl := o.evl }

/-- All that `scf` calls, on one process — scf.py:314-523. `sst`, `kst` are the states of the FFT buffers. -/
noncomputable def serOps (C : Calc d idx ns) (h0 : 0 < ns) (drv : Driver) (sst : DrvState ℂ) (kst : Fin C.nk → DrvState ℂ) (junk : ∀ i, ℕ → EuclideanSpace ℂ (Fin (C.kp i).idx.length)) :
    Ops (Dens ns idx.length) (Fin C.nk → Fin ns → KSWfn.KS) (Pots ns d.size) (Mixing.St ns idx.length) where
  symmRho := C.symmRho
  numel := C.numel
  convThr := C.convThr
  diagoInit := C.diagoInit
  isSmear := C.isSmear
  ewald := C.ewald
  normalize := normS C.numel C.dv
  symm := C.symm
  pot := potS C h0 (fftSpace drv d idx sst C.g C.dv)
  pair v rho := ((∑ r, ∑ s, v.hxc s r * (fftSpace drv d idx sst C.g C.dv).toR (rho s) r) * (C.dv : ℂ)).re
  solve w v thr := seqF C.nk fun i => seqF ns fun s => solveS C drv (C.kp i) (kst i) (junk i) (v.vloc s) v.g0 thr (w i s)
  occ w := C.occ (fun i s => (w i s).evl) >>= fun o => .ok (fun i s => { w i s with occ := o.1 i s }, o.2)
  eig w := ∑ i, ∑ s, (C.kp i).weight * ∑ b ∈ Finset.range C.nb, (w i s).evl b * (w i s).occ b
  rhoWfn w := (seqF C.nk fun i => seqF ns fun s => KSWfn.computeRho drv d (C.kp i).idx (kst i) C.vol (w i s) (.slice 0 C.nb)) >>= fun r =>
    .ok (fun i s => (r i s).1, fun s j => ∑ i, ((C.kp i).weight : ℂ) * (fftSpace drv d idx sst C.g C.dv).toG (fun x => (r i s).2 0 x) j)
  err := Mixing.computeError C.mix
  mix mx a b := Mixing.mix1 C.method C.mix mx a b >>= fun o => .ok ⟨o.st, o.rho, o.caller, decide (C.method = .gen ∨ mx.idx = 0)⟩

/-! ## The processes of a plane-wave group -/

/-- The distribution of the plane waves of a k-point — mpi/gspace.py: `DistGkSpace(gwfn.pwgrp_comm, gkspc, gwfn)`: same grid, same processes. -/
abbrev kS (S : Setup) (l : List ℕ) : Setup := ⟨S.d, l, S.P⟩

/-- Densities, every process with its part. -/
abbrev DDens (S : Setup) (ns : ℕ) := ∀ p : Fin S.P, Dens ns (ln S p)

/-- `data_g0` — mpi/containers.py:153-155: the first entry of process 0, broadcast. -/
noncomputable def g0D (S : Setup) (rho : DDens S ns) (s : Fin ns) : ℂ :=
  if h : 0 < S.P then (if h' : 0 < ln S ⟨0, h⟩ then rho ⟨0, h⟩ s ⟨0, h'⟩ else 0) else 0

/-- `normalize_rho` — scf.py:335-336. -/
noncomputable def normD (S : Setup) (numel dv : ℝ) (rho : DDens S ns) : DDens S ns :=
  fun p k j => rho p k j * ((numel : ℂ) / ((∑ s, g0D S rho s) * (dv : ℂ)))

/-- `symmetrize` of a distributed field — symmetrize_field.py:119-148: `allgather`, the symmetriser on the whole array, and the rows of the process. -/
noncomputable def symmD (S : Setup) (garbage : ℕ → List ℂ) (symm : Dens ns S.idx.length → Dens ns S.idx.length) (rho : DDens S ns) : DDens S ns :=
  MixDist.densPart S (symm fun s i => (Dist.allgatherG S garbage (List.ofFn fun p => List.ofFn (rho p s))).getD i 0)

/-- `np.sum(vloc, axis=-1)` and the local potentials, every process with its planes. -/
structure DPots (S : Setup) (ns : ℕ) where
  hxc : Fin ns → ∀ p, Fin (lm S p) → ℂ
  vloc : Fin ns → ∀ p, Fin (lm S p) → ℂ
  g0 : ℝ

/-- `compute_vloc` on all processes — scf.py:338-349, 473. -/
noncomputable def potD (S : Setup) (C : Calc S.d S.idx ns) (h0 : 0 < ns) (X : PotDist.DSpace S.P (fun p => lm S p) (fun p => ln S p)) (rho : DDens S ns) : Except PyErr (DPots S ns × ℝ × ℝ) :=
  PotDist.hartree S.P C.nan (fun p => S.cutG p C.norm2) (PotDist.hasG0 S C.gs) C.dv S.d.size (fun p => if h : p < S.P then List.ofFn fun s => List.ofFn (rho ⟨p, h⟩ s) else []) >>= fun a =>
  PotDist.xcCompute X h0 C.exch C.corr (fun s p => rho p s) (PotDist.part S C.core) >>= fun b =>
  let vh := X.toR fun p j => (a.1 p).getD j 0
  let vl := fun s p r => (X.toR (PotDist.part S C.vion) p r + vh p r + b.1 s p r) / (S.d.size : ℂ)
  .ok (⟨fun s p r => vh p r + b.1 s p r, vl, ((∑ p, ∑ r, vl ⟨0, h0⟩ p r) / (S.d.size : ℂ)).re⟩, a.2, b.2)

/-- `solve_kswfn` for one k-point and spin on all processes. -/
noncomputable def solveD (S : Setup) (C : Calc S.d S.idx ns) (k : KPt) (kst : ℕ → Dist.St ℂ) (junk : ℕ → DWf (kS S k.idx)) (v : ∀ p : Fin S.P, Fin (lm S p) → ℂ) (g0 thr : ℝ) (K : Fin S.P → KSWfn.KS) :
    Except PyErr (Fin S.P → KSWfn.KS) :=
  Davidson.solve (davCfg C.dev (kS S k.idx) kst (PotDist.part (kS S k.idx) k.gk2) v (k.nl.map (HamDist.projPart (kS S k.idx))) (PotDist.part (kS S k.idx) fun j => 1 / 2 * k.gk2 j + k.vnl j + g0) C.nb C.numwork
    C.maxiter thr C.eigh) (fun b => DWf.mk fun p j => (K p).evc b j) junk junk >>= fun o =>
  .ok fun p => { K p with evc := fun b i => if h : i < ln (kS S k.idx) p then (o.evc b).parts p ⟨i, h⟩ else 0, evl := o.evl }

/-- All that `scf` calls, on the processes of a plane-wave group — scf.py:314-523. `st`, `kst` are the states of the FFT buffers of the processes, `garbage` what a new array holds. Energies are those of process 0. -/
noncomputable def distOps (S : Setup) (C : Calc S.d S.idx ns) (h0 : 0 < ns) (st : ℕ → Dist.St ℂ) (kst : Fin C.nk → ℕ → Dist.St ℂ) (junk : ∀ i, ℕ → DWf (kS S (C.kp i).idx)) (garbage : ℕ → List ℂ) :
    Ops (DDens S ns) (Fin C.nk → Fin ns → Fin S.P → KSWfn.KS) (DPots S ns) (∀ p : Fin S.P, Mixing.St ns (ln S p)) where
  symmRho := C.symmRho
  numel := C.numel
  convThr := C.convThr
  diagoInit := C.diagoInit
  isSmear := C.isSmear
  ewald := C.ewald
  normalize := normD S C.numel C.dv
  symm := symmD S garbage C.symm
  pot := potD S C h0 (distSpace S st (fun p c => PotDist.part S (C.g c) p) C.dv)
  pair v rho := ((∑ p, ∑ r, ∑ s, v.hxc s p r * (distSpace S st (fun p c => PotDist.part S (C.g c) p) C.dv).toR (fun p => rho p s) p r) * (C.dv : ℂ)).re
  solve w v thr := seqF C.nk fun i => seqF ns fun s => solveD S C (C.kp i) (kst i) (junk i) (v.vloc s) v.g0 thr (w i s)
  occ w := MixDist.collect (fun p : Fin S.P => C.occ fun i s => (w i s p).evl) >>= fun o =>
    .ok (fun i s p => { w i s p with occ := (o p).1 i s }, if h : 0 < S.P then (o ⟨0, h⟩).2 else 0)
  eig w := if h : 0 < S.P then ∑ i, ∑ s, (C.kp i).weight * ∑ b ∈ Finset.range C.nb, (w i s ⟨0, h⟩).evl b * (w i s ⟨0, h⟩).occ b else 0
  rhoWfn w := (seqF C.nk fun i => seqF ns fun s => MixDist.collect (α := fun p => KSWfn.KS × (ℕ → Fin (lm S p) → ℂ)) (fun p : Fin S.P => HamDist.computeRho (kS S (C.kp i).idx) (kst i) C.vol (w i s) (.slice 0 C.nb) p)) >>= fun r =>
    .ok (fun i s p => (r i s p).1, fun p s j => ∑ i, ((C.kp i).weight : ℂ) * (distSpace S st (fun p c => PotDist.part S (C.g c) p) C.dv).toG (fun p x => (r i s p).2 0 x) p j)
  err := MixDist.computeError (MixDist.cfgPart S C.gs C.mix)
  mix mx a b := MixDist.collect (MixDist.mix1 C.method (MixDist.cfgPart S C.gs C.mix) mx a b) >>= fun o =>
    .ok ⟨fun p => (o p).st, fun p => (o p).rho, fun p => (o p).caller, decide (C.method = .gen ∨ ∀ p, (mx p).idx = 0)⟩

end Verif.ScfDist
