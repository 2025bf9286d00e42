import Mathlib.LinearAlgebra.Matrix.NonsingularInverse
import Mathlib.Data.Complex.BigOperators
import Mathlib.Analysis.Complex.Basic
import Mathlib.Analysis.SpecialFunctions.Trigonometric.Basic
import Verif.Model.Py

/-!
# Model of the charge mixing (/repo/src/qtm/dft/mixing)

Densities in G-space are arrays of shape `(numspin, size_g)`. Floats are real (complex) numbers. Arrays created with
`empty` hold arbitrary values: the initial state of a mixer is arbitrary except for its iteration counter.
-/

namespace Verif.Mixing

open scoped ComplexConjugate

/-- A density: the data of a `FieldG` of shape `(numspin,)`. -/
abbrev Dens (s n : ℕ) := Fin s → Fin n → ℂ

/-- What a mixer reads of its arguments and of the G-space — /repo/src/qtm/dft/mixing/base.py:16-29, 37-53. -/
structure Cfg (n : ℕ) where
  /-- `g_norm2` -/
  g2 : Fin n → ℝ
  /-- `has_g0`: the first G-vector is zero -/
  hasG0 : Bool
  /-- `reallat_dv` -/
  dv : ℝ
  /-- `np.prod(grid_shape)` -/
  npts : ℝ
  /-- `recilat.tpiba` -/
  tpiba : ℝ
  beta : ℝ
  mixdim : ℕ

/-- The constructor's checks — base.py:26-29 (`beta` a float in `(0, 1]`, `mixdim` an int above 1). -/
noncomputable def initCheck (beta : ℝ) (mixdim : ℕ) : Except PyErr Unit :=
  open Classical in
  if ¬ (0 < beta ∧ beta ≤ 1) then .error .assertion
  else if ¬ 1 < mixdim then .error .assertion
  else .ok ()

/-- `fac` — base.py:40. -/
noncomputable def Cfg.fac {n : ℕ} (c : Cfg n) : ℝ := 0.5 * (4 * Real.pi) * c.dv / c.npts

/-- `MixModBase._dot` — base.py:37-53. -/
noncomputable def dot {s n : ℕ} (c : Cfg n) (a b : Dens s n) : ℝ :=
  let ch1 : Fin n → ℂ := fun i => ∑ k, a k i
  let ch2 : Fin n → ℂ := fun i => ∑ k, b k i
  let dv : Fin n → ℂ := fun i => if c.hasG0 ∧ i.val = 0 then 0 else conj (ch1 i) * ch2 i / (c.g2 i : ℂ)
  let d := c.fac * (∑ i, dv i).re
  if h : s = 2 then
    let up : Fin s := ⟨0, by omega⟩
    let dn : Fin s := ⟨1, by omega⟩
    d + c.fac * (∑ i, conj (a up i - a dn i) * (b up i - b dn i)).re / c.tpiba ^ 2
  else d

/-- `compute_error` — base.py:55-58. -/
noncomputable def computeError {s n : ℕ} (c : Cfg n) (rin rout : Dens s n) : ℝ := dot c (rin - rout) (rin - rout)

/-- The attributes of a mixer on the root plane-wave group — modbro.py:12-25, genbro.py:13-28. -/
structure St (s n : ℕ) where
  idx : ℕ
  rhoOld : Dens s n
  resOld : Dens s n
  dRho : ℕ → Dens s n
  dRes : ℕ → Dens s n
  ov : ℕ → ℕ → ℂ

/-- `a[k] = v` -/
def upd {α : Type*} (f : ℕ → α) (k : ℕ) (v : α) : ℕ → α := fun i => if i = k then v else f i

/-- `overlap[a, b] = v` -/
def upd2 (f : ℕ → ℕ → ℂ) (a b : ℕ) (v : ℂ) : ℕ → ℕ → ℂ := fun i j => if i = a ∧ j = b then v else f i j

/-- The loop filling row and column `isave` of the overlap table — modbro.py:43-47, genbro.py:43-47. -/
def fillOv (isave numdim : ℕ) (D : ℕ → ℂ) (ov : ℕ → ℕ → ℂ) : ℕ → ℕ → ℂ :=
  (List.range numdim).foldl (fun ov i => let ov := upd2 ov isave i (D i); upd2 ov i isave (ov isave i)) ov

/-- `np.linalg.inv(overlap[:numdim, :numdim])`: fails exactly on singular matrices (exact arithmetic). -/
noncomputable def inv (d : ℕ) (ov : ℕ → ℕ → ℂ) : Option (Matrix (Fin d) (Fin d) ℂ) :=
  let M : Matrix (Fin d) (Fin d) ℂ := .of fun i j => ov i j
  open Classical in if M.det = 0 then none else some M⁻¹

/-- `for i in range(numdim): overlap_inv[:i, i] = overlap_inv[i, :i]` — modbro.py:57-58 (lower triangle copied up). -/
def mirror {d : ℕ} (M : Matrix (Fin d) (Fin d) ℂ) : Matrix (Fin d) (Fin d) ℂ :=
  .of fun i j => if i < j then M j i else M i j

/-- What `_mix` yields on the root group: new state, returned density, and the value left in the caller's `rho_in`. -/
structure Out (s n : ℕ) where
  st : St s n
  rho : Dens s n
  caller : Dens s n

/-- `ModBroyden._mix` — /repo/src/qtm/dft/mixing/modbro.py:29-73. In the first call `rho_in` is updated in place and
returned, later a copy is. -/
noncomputable def modMix {s n : ℕ} (c : Cfg n) (st : St s n) (rin rout : Dens s n) : Except PyErr (Out s n) :=
  let res := rout - rin
  let numdim := min st.idx c.mixdim
  if numdim = 0 then
    let r := rin + (c.beta : ℂ) • res
    .ok ⟨{ st with idx := st.idx + 1, rhoOld := rin, resOld := res }, r, r⟩
  else
    let isave := (st.idx - 1) % c.mixdim
    let dRho := upd st.dRho isave (st.rhoOld - rin)
    let dRes := upd st.dRes isave (st.resOld - res)
    let ov := fillOv isave numdim (fun i => (dot c (dRes i) (dRes isave) : ℂ)) st.ov
    match inv numdim ov with
    | none => .error .runtime
    | some oi =>
      let ldot : Fin numdim → ℂ := fun i => (dot c (dRes i) res : ℂ)
      let comp := (mirror oi).transpose.mulVec ldot
      let p := (List.finRange numdim).foldl
        (fun (p : Dens s n × Dens s n) i => (p.1 - comp i • dRho i, p.2 - comp i • dRes i)) (rin, res)
      .ok ⟨⟨st.idx + 1, rin, res, dRho, dRes, ov⟩, p.1 + (c.beta : ℂ) • p.2, rin⟩

/-- `GenBroyden._mix` — /repo/src/qtm/dft/mixing/genbro.py:33-72. `rho_in` is always updated in place. `G_1` is the
constant `-beta`. -/
noncomputable def genMix {s n : ℕ} (c : Cfg n) (st : St s n) (rin rout : Dens s n) : Except PyErr (Out s n) :=
  let res := rout - rin
  let numdim := min st.idx c.mixdim
  if numdim = 0 then
    let r := rin + (c.beta : ℂ) • res
    .ok ⟨{ st with idx := st.idx + 1, rhoOld := rin, resOld := res }, r, r⟩
  else
    let isave := (st.idx - 1) % c.mixdim
    let dRho := upd st.dRho isave (rin - st.rhoOld)
    let dRes := upd st.dRes isave (res - st.resOld)
    let ov := fillOv isave numdim (fun i => (dot c (dRes isave) (dRes i) : ℂ)) st.ov
    match inv numdim ov with
    | none => .error .linalg
    | some oi =>
      let G1 : ℂ := -(c.beta : ℂ)
      let ldot : Fin numdim → ℂ := fun i => (dot c (dRes i) (-res) : ℂ)
      let comp := oi.mulVec ldot
      let del := (List.finRange numdim).foldl
        (fun (p : Dens s n) i => p + comp i • (dRho i - G1 • dRes i)) (-G1 • res)
      let r := rin + del
      .ok ⟨⟨st.idx + 1, rin, res, dRho, dRes, ov⟩, r, r⟩

/-- The two mixing methods. -/
inductive Method
  | mod
  | gen
  deriving DecidableEq, Repr

/-- `_mix` of either method. -/
noncomputable def mix1 {s n : ℕ} : Method → Cfg n → St s n → Dens s n → Dens s n → Except PyErr (Out s n)
  | .mod => modMix
  | .gen => genMix

/-- A history of `k` calls `mix(ins j, outs j)` on one mixer; returns the final state and the mixed densities. -/
noncomputable def run {s n : ℕ} (m : Method) (c : Cfg n) (st : St s n) (ins outs : ℕ → Dens s n) :
    ℕ → Except PyErr (St s n × List (Dens s n))
  | 0 => .ok (st, [])
  | k + 1 => do
    let (st', l) ← run m c st ins outs k
    let r ← mix1 m c st' (ins k) (outs k)
    pure (r.st, l ++ [r.rho])

/-- `MixModBase.mix` on all plane-wave groups — base.py:60-67: the root group computes, the others receive its result by
`Bcast`. `ins` holds each group's `rho_in` (`ins[0]` the root's). -/
noncomputable def mixAll {s n : ℕ} (m : Method) (c : Cfg n) (st : St s n) (ins outs : List (Dens s n)) :
    Except PyErr (St s n × List (Dens s n)) :=
  match ins, outs with
  | i :: it, o :: _ => do
    let r ← mix1 m c st i o
    pure (r.st, r.rho :: it.map fun _ => r.rho)
  | _, _ => .error .assertion

end Verif.Mixing
