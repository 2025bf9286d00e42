import Verif.Model.GW
import Verif.Model.Vcoul

/-!
# Model: the table of Coulomb values (`Vcoul.calculate_vcoul`, gw/vcoul.py)

Arithmetic is exact. Not modelled: progress bars and printing.
-/

namespace Verif.Vcoul

open Verif
open Verif.GSpace (GVec)

/-- A floating-point number of the table. -/
inductive Val
  | num (x : ℝ)
  | nan
  | inf

/-- Not a number, or a number. -/
def Val.ofOption : Option ℝ → Val
  | some x => .num x
  | none => .nan

/-- The attributes that a user may set: `N_SAMPLES`, `N_SAMPLES_COARSE`, `SEED` (class attributes, vcoul.py:61-64) and `avgcut` (vcoul.py:72, 93). -/
structure Cfg where
  seed : ℕ
  nSamples : ℕ
  nCoarse : ℕ
  avgcut : ℝ

/-- The default value of the parameter `nsamples` of `mt19937_samples`: `N_SAMPLES` when the class is created — vcoul.py:61, 253. -/
def drawnSamples : ℕ := 2500000

/-- The random integers that `mt19937_samples` computes — vcoul.py:252-260: `3 * N_SAMPLES` numbers of the generator `stream seed` are skipped. -/
def rawOf (stream : ℕ → ℕ → ℕ) (c : Cfg) : ℕ → ℕ := fun i => stream c.seed (3 * c.nSamples + i)

/-- A call of `mt19937_samples()` — vcoul.py:252-260: `@lru_cache()` keeps the result of the first call with these arguments (`self`); returns the numbers and the cache. -/
def samplesCall (stream : ℕ → ℕ → ℕ) (c : Cfg) : Option (ℕ → ℕ) → (ℕ → ℕ) × Option (ℕ → ℕ)
  | some r => (r, some r)
  | none => (rawOf stream c, some (rawOf stream c))

/-- Number of points in `mt19937_samples()[: 3 * nsamples].reshape(-1, 3)` — vcoul.py:483-485: there are `drawnSamples` at most. -/
def taken (ns : ℕ) : ℕ := min ns drawnSamples

open Classical in
/-- As `combineZero`, for `cnt` points and a division by `ns` — vcoul.py:456-464, 490-514. -/
noncomputable def meanZero (cellvol : ℝ) (nq : ℕ) (Q : ℝ) (cnt ns : ℕ) (pts : ℕ → E3) : ℝ × ℝ :=
  (32 * Real.pi ^ 2 * Q / (8 * Real.pi ^ 3 / (cellvol * nq)) * 1 +
      8 * Real.pi * (((List.range cnt).filter fun i => Q < ‖pts i‖).map fun i => (1 / ‖pts i‖) ^ 2).sum / ns,
    8 * Real.pi * ((List.range cnt).map fun i => 1 / ‖pts i‖).sum / ns)

open Classical in
/-- As `combineShift`, for `cnt` points and a division by `ns` — vcoul.py:465-479, 490-514. -/
noncomputable def meanShift (vsph : Val) (s : E3) (cnt ns : ℕ) (pts : ℕ → E3) : Val :=
  let sel := (List.range cnt).filter fun i => 0 < ‖pts i‖
  match vsph with
  | .num v => .num (v * (1 - (sel.length : ℝ) / ns) + 8 * Real.pi * (sel.map fun i => (1 / ‖pts i + s‖) ^ 2).sum / ns)
  | x => x

/-- `nsamples` for a shift of length `len > 0` — vcoul.py:473-480, 536-541. -/
noncomputable def nShift (c : Cfg) (Q len : ℝ) : ℕ := (max 1 (min (c.nSamples : ℤ) (Nonloc.rint (c.nCoarse * 4 * Q ^ 2 / len ^ 2)))).toNat

open Classical in
/-- `v_minibz_sphere_shifted` — vcoul.py:286-318, with its value for a centre at zero. -/
noncomputable def sphereAt (R d : ℝ) : Val := if d = 0 then .inf else .ofOption (vSphereShifted R d)

open Classical in
/-- First component of `v_minibz_montecarlo_hybrid` — vcoul.py:434-519. -/
noncomputable def hybridV (I : Inp) (c : Cfg) (raw : ℕ → ℕ) (near : List E3 → E3 → E3) (shift : Fin 3 → ℝ) : Except PyErr Val :=
  match gammaNbhd I with
  | .error e => .error e
  | .ok (Q, nb) =>
    let pts := fun i => fold (near nb) (sample I raw i)
    if ‖cart I shift‖ < 1 / 100000 then .ok (.num (meanZero I.cellvol I.qs.length Q (taken c.nSamples) c.nSamples pts).1)
    else .ok (meanShift (sphereAt Q ‖cart I shift‖) (cart I shift) (taken (nShift c Q ‖cart I shift‖)) (nShift c Q ‖cart I shift‖) pts)

open Classical in
/-- `oneoverq_minibz_montecarlo` — vcoul.py:521-563; for a zero shift `min(N_SAMPLES, nan)` is `N_SAMPLES`. -/
noncomputable def oneoverqMC (I : Inp) (c : Cfg) (raw : ℕ → ℕ) (near : List E3 → E3 → E3) (shift : Fin 3 → ℝ) : Except PyErr ℝ :=
  match gammaNbhd I with
  | .error e => .error e
  | .ok (Q, nb) =>
    let pts := fun i => fold (near nb) (sample I raw i)
    let ns := if 0 < ‖cart I shift‖ then nShift c Q ‖cart I shift‖ else max 1 c.nSamples
    .ok (8 * Real.pi * ((List.range (taken ns)).map fun i => 1 / ‖pts i + cart I shift‖).sum / ns)

/-- What a `Vcoul` object holds besides: the volume of the reciprocal cell and the G-vectors of every q-point. -/
structure TabIn extends Inp where
  recvol : ℝ
  gqs : List (List GVec)

/-- `qvec` — vcoul.py:627-630: zero for the q0 point. -/
noncomputable def TabIn.qvec (T : TabIn) (iq : ℕ) : Fin 3 → ℝ := if iq = T.q0 then 0 else T.qs.getD iq 0

/-- A G-vector as crystal coordinates. -/
def crystG (g : GVec) : Fin 3 → ℝ := ![(g.1 : ℝ), (g.2.1 : ℝ), (g.2.2 : ℝ)]

/-- The options of `calculate_vcoul` — vcoul.py:676-678. -/
structure Opts where
  averagingFunc : Option (ℝ → ℝ)
  bare : Bool
  randomAvg : Bool

open Classical in
/-- `calculate_vcoul_single_qpt` — vcoul.py:623-673. `gk_norm2` of `v_bare` is made with `qpts.cryst[i_q]`, also for the q0 point (vcoul.py:96-103, 285). `averaging_func` and `avgcut` are not used. -/
noncomputable def single (T : TabIn) (c : Cfg) (raw : ℕ → ℕ) (near : List E3 → E3 → E3) (o : Opts) (iq : ℕ) : Except PyErr (List Val × Val) :=
  if o.bare then
    .ok ((T.gqs.getD iq []).map fun g => .ofOption (GW.vBare (‖cart T.toInp (T.qs.getD iq 0 + crystG g)‖ ^ 2)),
      if 0 < ‖cart T.toInp (T.qvec iq)‖ then .num (8 * Real.pi / ‖cart T.toInp (T.qvec iq)‖) else .nan)
  else do
    let v ← (T.gqs.getD iq []).mapM fun g =>
      if o.randomAvg then hybridV T.toInp c raw near (T.qvec iq + crystG g)
      else .ok (sphereAt (qCutoff T.recvol T.qs.length) ‖cart T.toInp (T.qvec iq + crystG g)‖)
    let r ← oneoverqMC T.toInp c raw near (T.qvec iq)
    pure (v, .num r)

/-- `calculate_vcoul` — vcoul.py:676-721: serially, or by `size` processes. (An exception of one process: the others wait in `Barrier`; the model gives the exception.) -/
noncomputable def table (T : TabIn) (c : Cfg) (raw : ℕ → ℕ) (near : List E3 → E3 → E3) (o : Opts) : Option ℕ → Except PyErr (List (List Val × Val))
  | none => (GW.vcoulSerial T.qs.length (single T c raw near o)).mapM id
  | some size => (GW.vcoulParallel T.qs.length size (single T c raw near o)).mapM id

end Verif.Vcoul
