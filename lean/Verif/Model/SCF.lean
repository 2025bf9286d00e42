import Mathlib.Data.Complex.BigOperators
import Mathlib.Analysis.Complex.Basic
import Verif.Model.Py
import Verif.Model.Scatter

/-!
# Model of the self-consistent-field driver (/repo/src/qtm/dft/scf.py)

Densities are arrays of shape `(numspin, size_g)` over the complex numbers, floats are real numbers, arithmetic is
exact. The physics behind the loop (potential, eigen-solver, occupations, symmetriser, mixer) is a set of arbitrary
functions, so that every theorem holds whatever they compute. Object identity is modelled where the code lets it be
seen: the driver works in place on the array the caller passed as `rho_start`.
-/

namespace Verif.SCF

/-- The data of a `FieldG` of shape `(numspin,)`. -/
abbrev Dens (s n : ℕ) := Fin s → Fin n → ℂ

/-- The first entry of every spin component, `rho.data_g0` (/repo/src/qtm/containers/field.py) — `n` is the number of
G-vectors less one, so that a first entry exists. -/
def g0 {s n : ℕ} (rho : Dens s (n + 1)) (k : Fin s) : ℂ := rho k 0

/-- `normalize_rho` — /repo/src/qtm/dft/scf.py:335-336:
`rho *= crystal.numel / (sum(rho.data_g0) * rho.gspc.reallat_dv)`. In place; the model returns the new value. -/
noncomputable def normalize {s n : ℕ} (numel dv : ℝ) (rho : Dens s (n + 1)) : Dens s (n + 1) :=
  fun k i => rho k i * ((numel : ℂ) / ((∑ j, g0 rho j) * (dv : ℂ)))

/-- `EnergyData` — scf.py:39-53. The levels (`fermi`, `HO_level`, `LU_level`) are left out. -/
structure Energy where
  total : ℝ := 0
  hwf : ℝ := 0
  oneEl : ℝ := 0
  ewald : ℝ := 0
  hartree : ℝ := 0
  xc : ℝ := 0
  smear : Option ℝ := none
  internal : Option ℝ := none

/-- What a mixer's `mix` yields (see `Verif.Mixing`): its new state, the returned density, the value left in the array
passed as `rho_in`, and whether the returned array is that very array. -/
structure MixOut (D M : Type) where
  mx : M
  rho : D
  arg : D
  same : Bool

/-- The arguments of `scf` and the functions it calls — scf.py:82-105, 314-461. `V` stands for the pair
`(v_hart + v_xc, vloc)`, `W` for the lists of wavefunctions with eigenvalues and occupations, `M` for the mixer. -/
structure Env (s n : ℕ) (W V M : Type) where
  symmRho : Bool
  numel : ℝ
  dv : ℝ
  convThr : ℝ
  diagoInit : ℝ
  isSmear : Bool
  ewald : ℝ
  /-- `symm_mod.symmetrize`; returns a new array (`Verif.Symm`) -/
  symm : Dens s (n + 1) → Dens s (n + 1)
  /-- `hartree.compute`, `xc.compute` and the sum with the ionic potential (338-349) -/
  pot : Dens s (n + 1) → V
  hartree : Dens s (n + 1) → ℝ
  xc : Dens s (n + 1) → ℝ
  /-- `sum(v_hxc * rho.to_r()).integrate_unitcell()` (439-440, 445), real part -/
  pair : V → Dens s (n + 1) → ℝ
  /-- eigen-solver and occupations (476-488): wavefunctions, potential, threshold -/
  solve : W → V → ℝ → W
  /-- sum over bands, spins and k-points of `k_weight * evl * occ` (428-438) -/
  eig : W → ℝ
  /-- `-TS`, returned by `occup.smear.compute_occ` (486) -/
  smear : W → ℝ
  /-- the accumulated density before normalisation (397-409, 412) -/
  rhoWfn : W → Dens s (n + 1)
  /-- `mixmod.compute_error` (492) -/
  err : Dens s (n + 1) → Dens s (n + 1) → ℝ
  /-- `mixmod.mix` (507) -/
  mix : M → Dens s (n + 1) → Dens s (n + 1) → Except PyErr (MixOut (Dens s (n + 1)) M)

variable {s n : ℕ} {W V M : Type}

/-- `rho = symm_mod.symmetrize(rho)` guarded by `if symm_rho` — scf.py:414-415, 470-471, 508-509. -/
def Env.sym (e : Env s n W V M) (rho : Dens s (n + 1)) : Dens s (n + 1) := if e.symmRho then e.symm rho else rho

/-- The input density of an iteration — scf.py:470-472. -/
noncomputable def Env.prep (e : Env s n W V M) (rho : Dens s (n + 1)) : Dens s (n + 1) :=
  normalize e.numel e.dv (e.sym rho)

/-- `update_rho_out` — scf.py:395-415 (after the collective sum). -/
noncomputable def Env.rhoOut (e : Env s n W V M) (w : W) : Dens s (n + 1) :=
  e.sym (normalize e.numel e.dv (e.rhoWfn w))

/-- `compute_en` together with the energies set by `compute_vloc` and by the occupations — scf.py:340-341, 426-453,
481-488. `rin` is the density of which the potential was made. -/
noncomputable def Env.energy (e : Env s n W V M) (w : W) (rin rout : Dens s (n + 1)) : Energy :=
  let v := e.pot rin
  let oneEl := e.eig w - e.pair v rout
  let total := oneEl + e.ewald + e.hartree rin + e.xc rin
  let hwf := e.eig w - e.pair v rin + e.ewald + e.hartree rin + e.xc rin
  if e.isSmear then
    { total := total + e.smear w, hwf := hwf + e.smear w, oneEl := oneEl, ewald := e.ewald, hartree := e.hartree rin
      xc := e.xc rin, smear := some (e.smear w), internal := some (total + e.smear w - e.smear w) }
  else
    { total := total, hwf := hwf, oneEl := oneEl, ewald := e.ewald, hartree := e.hartree rin, xc := e.xc rin }

/-- The variables of the loop. `caller` is the array passed as `rho_start`, `own` says that `rho_in` is that array. -/
structure St (s n : ℕ) (W M : Type) where
  rho : Dens s (n + 1)
  caller : Dens s (n + 1)
  own : Bool
  w : W
  mx : M
  thr : ℝ
  en : Energy

/-- One call of `iter_printer` — scf.py:514-523 (run times and iteration counts left out; the energies are those at
the time of the call). -/
structure Report where
  idx : ℕ
  converged : Bool
  err : ℝ
  thr : ℝ
  en : Energy

/-- One iteration of the loop — scf.py:469-523. -/
noncomputable def step (e : Env s n W V M) (idx : ℕ) (st : St s n W M) : Except PyErr (St s n W M × Report) :=
  let rin := e.prep st.rho
  let own := st.own && !e.symmRho
  let caller := if own then rin else st.caller
  let w := e.solve st.w (e.pot rin) st.thr
  let rout := e.rhoOut w
  let er := e.err rin rout
  open Classical in
  if er < e.convThr then
    let en := e.energy w rin rin
    .ok (⟨rin, caller, own, w, st.mx, st.thr, en⟩, ⟨idx, true, er, st.thr, en⟩)
  else if idx = 0 ∧ er < st.thr * e.numel then
    let thr := 0.1 * er / e.numel
    let en := e.energy w rin rout
    .ok (⟨rin, caller, own, w, st.mx, thr, en⟩, ⟨idx, false, er, thr, en⟩)
  else
    let thr := max (min st.thr (0.1 * er / e.numel)) 0.5e-13
    let en := e.energy w rin rout
    match e.mix st.mx rin rout with
    | .error x => .error x
    | .ok o =>
      .ok (⟨e.sym o.rho, if own then o.arg else caller, own && o.same && !e.symmRho, w, o.mx, thr, en⟩,
        ⟨idx, false, er, thr, en⟩)

/-- What `scf` returns, with the reports made and the array of the caller. -/
structure Res (s n : ℕ) (W M : Type) where
  converged : Bool
  st : St s n W M
  trace : List Report

/-- `while idxiter < maxiter` — scf.py:467-541, with `fuel = maxiter - idxiter`. -/
noncomputable def loop (e : Env s n W V M) : ℕ → ℕ → St s n W M → Except PyErr (Res s n W M)
  | 0, _, st => .ok ⟨false, st, []⟩
  | fuel + 1, idx, st =>
    match step e idx st with
    | .error x => .error x
    | .ok (st', r) =>
      if r.converged then .ok ⟨true, st', [r]⟩
      else
        match loop e fuel (idx + 1) st' with
        | .error x => .error x
        | .ok res => .ok ⟨res.converged, res.st, r :: res.trace⟩

/-- The energies before the first iteration — scf.py:314-318, 418-424. -/
def Env.en0 (e : Env s n W V M) : Energy :=
  { ewald := e.ewald, smear := if e.isSmear then some 0 else none, internal := if e.isSmear then some 0 else none }

/-- `scf` called with a `FieldG` as `rho_start` — scf.py:139-152, 189-207 (the checks of the numbers), 326, 464-561. -/
noncomputable def scf (e : Env s n W V M) (maxiter : ℕ) (rhoStart : Dens s (n + 1)) (w : W) (mx : M) :
    Except PyErr (Res s n W M) :=
  open Classical in
  if ¬ (0 < e.convThr) then .error .assertion
  else if ¬ (0 < e.diagoInit) then .error .assertion
  else loop e maxiter 0 ⟨rhoStart, rhoStart, true, w, mx, e.diagoInit, e.en0⟩

/-! ## Starting density of a spin-polarised run -/

/-- `max(min(mag, 1), -1)` — scf.py:168. -/
noncomputable def clampMag (mag : ℝ) : ℝ := max (min mag 1) (-1)

/-- `for sp, mag in zip(crystal.l_atoms, starting_mag): ...` — scf.py:164-170. `atomic` lists the superposed atomic
charges of the species; `zip` stops at the shorter list. Result: (up, down). -/
noncomputable def startSpin {n : ℕ} (atomic : List (Fin n → ℂ)) (mags : List ℝ) : (Fin n → ℂ) × (Fin n → ℂ) :=
  (atomic.zip mags).foldl
    (fun p am =>
      let m := clampMag am.2
      (p.1 + (((1 + m) / 2 : ℝ) : ℂ) • am.1, p.2 + (((1 - m) / 2 : ℝ) : ℂ) • am.1)) (0, 0)

/-- `rho_start = sum(loc_generate_rhoatomic(sp, grho) for sp in crystal.l_atoms)` — scf.py:171-174. -/
def startUnpol {n : ℕ} (atomic : List (Fin n → ℂ)) : Fin n → ℂ := atomic.foldl (· + ·) 0

/-! ## The collective sum of the densities -/

/-- Does the band group `i` of `nb` reach the `Allreduce` of `update_rho_out`? — scf.py:398-409: the call sits inside
`if sl_bnd.start < sl_bnd.stop`, with `sl_bnd = scatter_slice(numbnd, n_bgrp, i_bgrp)`. -/
def entersAllreduce (numbnd nb i : ℕ) : Bool :=
  decide (Verif.Scatter.sliceStart numbnd nb i < Verif.Scatter.sliceStop numbnd nb i)

end Verif.SCF
