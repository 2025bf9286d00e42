import Verif.Model.PotDist

/-!
# Model: charge mixing on distributed plane waves

`/repo/src/qtm/dft/mixing` run by all processes of the root plane-wave group on `DistFieldG` containers (`/repo/src/qtm/mpi/containers.py`): every process keeps the history of its own part of
the density and its own overlap table; `_dot` is collective (its sums are `Allreduce`d), everything else is local. A process waits in `_dot` for all others; the model gives process `p` the value
of the `_dot` its own index asks for (the indices of all processes agree: part of the theorem).
-/

namespace Verif.MixDist

open Verif.Mixing

variable {P : ℕ} {ln : Fin P → ℕ}

/-- What the mixers of all processes read: `g_norm2` and `has_g0` of the part of each process; `reallat_dv`, the whole grid, `tpiba`, `beta` and `mixdim` are the same everywhere —
mixing/base.py:16-29, 37-53. -/
structure DCfg (P : ℕ) (ln : Fin P → ℕ) where
  g2 : ∀ p, Fin (ln p) → ℝ
  hasG0 : Fin P → Bool
  dv : ℝ
  npts : ℝ
  tpiba : ℝ
  beta : ℝ
  mixdim : ℕ

/-- `_dot` on all processes — mixing/base.py:37-53 (`fac` of line 40). -/
noncomputable def DCfg.dot {s : ℕ} (C : DCfg P ln) (a b : ∀ p, Dens s (ln p)) : ℝ :=
  PotDist.dot (0.5 * (4 * Real.pi) * C.dv / C.npts) C.tpiba C.hasG0 C.g2 (fun k p => a p k) (fun k p => b p k)

/-- `compute_error` on all processes — base.py:55-58. -/
noncomputable def computeError {s : ℕ} (C : DCfg P ln) (rin rout : ∀ p, Dens s (ln p)) : ℝ := C.dot (fun p => rin p - rout p) (fun p => rin p - rout p)

/-- `ModBroyden._mix` on process `p` — /repo/src/qtm/dft/mixing/modbro.py:29-73. -/
noncomputable def modMix {s : ℕ} (C : DCfg P ln) (st : ∀ p, St s (ln p)) (rin rout : ∀ p, Dens s (ln p)) (p : Fin P) : Except PyErr (Out s (ln p)) :=
  let res := fun q => rout q - rin q
  let numdim := min (st p).idx C.mixdim
  if numdim = 0 then
    let r := rin p + (C.beta : ℂ) • res p
    .ok ⟨{ st p with idx := (st p).idx + 1, rhoOld := rin p, resOld := res p }, r, r⟩
  else
    let isave := ((st p).idx - 1) % C.mixdim
    let dRho := upd (st p).dRho isave ((st p).rhoOld - rin p)
    let dRes := fun q => upd (st q).dRes isave ((st q).resOld - res q)
    let ov := fillOv isave numdim (fun i => (C.dot (fun q => dRes q i) (fun q => dRes q isave) : ℂ)) (st p).ov
    match inv numdim ov with
    | none => .error .runtime
    | some oi =>
      let ldot : Fin numdim → ℂ := fun i => (C.dot (fun q => dRes q i) res : ℂ)
      let comp := (mirror oi).transpose.mulVec ldot
      let x := (List.finRange numdim).foldl
        (fun (x : Dens s (ln p) × Dens s (ln p)) i => (x.1 - comp i • dRho i, x.2 - comp i • dRes p i)) (rin p, res p)
      .ok ⟨⟨(st p).idx + 1, rin p, res p, dRho, dRes p, ov⟩, x.1 + (C.beta : ℂ) • x.2, rin p⟩

/-- `GenBroyden._mix` on process `p` — /repo/src/qtm/dft/mixing/genbro.py:33-72. -/
noncomputable def genMix {s : ℕ} (C : DCfg P ln) (st : ∀ p, St s (ln p)) (rin rout : ∀ p, Dens s (ln p)) (p : Fin P) : Except PyErr (Out s (ln p)) :=
  let res := fun q => rout q - rin q
  let numdim := min (st p).idx C.mixdim
  if numdim = 0 then
    let r := rin p + (C.beta : ℂ) • res p
    .ok ⟨{ st p with idx := (st p).idx + 1, rhoOld := rin p, resOld := res p }, r, r⟩
  else
    let isave := ((st p).idx - 1) % C.mixdim
    let dRho := upd (st p).dRho isave (rin p - (st p).rhoOld)
    let dRes := fun q => upd (st q).dRes isave (res q - (st q).resOld)
    let ov := fillOv isave numdim (fun i => (C.dot (fun q => dRes q isave) (fun q => dRes q i) : ℂ)) (st p).ov
    match inv numdim ov with
    | none => .error .linalg
    | some oi =>
      let G1 : ℂ := -(C.beta : ℂ)
      let ldot : Fin numdim → ℂ := fun i => (C.dot (fun q => dRes q i) (fun q => -res q) : ℂ)
      let comp := oi.mulVec ldot
      let del := (List.finRange numdim).foldl
        (fun (x : Dens s (ln p)) i => x + comp i • (dRho i - G1 • dRes p i)) (-G1 • res p)
      let r := rin p + del
      .ok ⟨⟨(st p).idx + 1, rin p, res p, dRho, dRes p, ov⟩, r, r⟩

/-- `_mix` of either method. -/
noncomputable def mix1 {s : ℕ} (m : Method) (C : DCfg P ln) (st : ∀ p, St s (ln p)) (rin rout : ∀ p, Dens s (ln p)) (p : Fin P) : Except PyErr (Out s (ln p)) :=
  match m with
  | .mod => modMix C st rin rout p
  | .gen => genMix C st rin rout p

open Classical in
/-- The run goes on when no process raises; otherwise it ends with the exception of one of them. -/
noncomputable def collect {α : Fin P → Type} (o : ∀ p, Except PyErr (α p)) : Except PyErr (∀ p, α p) :=
  if h : ∃ (p : Fin P) (e : PyErr), o p = .error e then .error h.choose_spec.choose
  else .ok fun p => match ho : o p with
    | .ok a => a
    | .error e => absurd ⟨p, e, ho⟩ h

/-- A history of `k` calls of `mix` on all processes of the root group. -/
noncomputable def run {s : ℕ} (m : Method) (C : DCfg P ln) (st : ∀ p, St s (ln p)) (ins outs : ℕ → ∀ p, Dens s (ln p)) : ℕ → Except PyErr ((∀ p, St s (ln p)) × List (∀ p, Dens s (ln p)))
  | 0 => .ok (st, [])
  | k + 1 =>
    match run m C st ins outs k with
    | .error e => .error e
    | .ok (st', l) =>
      match collect (mix1 m C st' (ins k) (outs k)) with
      | .error e => .error e
      | .ok r => .ok (fun p => (r p).st, l ++ [fun p => (r p).rho])

end Verif.MixDist
