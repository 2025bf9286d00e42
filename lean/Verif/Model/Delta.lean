import Mathlib.Analysis.SpecialFunctions.Pow.Real
import Mathlib.Analysis.SpecialFunctions.Sqrt
import Mathlib.Analysis.Complex.Basic
import Mathlib.Algebra.BigOperators.Group.Finset.Basic
import Mathlib.Data.Finset.Card
import Verif.Model.Py

/-!
# Model of the accuracy benchmark (/repo/benchmarks/accuracy/DFT_Delta_benchmark/): `calcDelta.py` and `eosfit.py`

Numbers are real, arithmetic is exact.
-/

namespace Verif.Delta

open Verif

/-- One line of a data file: element, `V0` (Å³/atom), `B0` (GPa), `BP` — calcDelta.py:122-127. -/
structure Row where
  el : String
  v0 : ℝ
  b0 : ℝ
  bp : ℝ

/-- `list(data['element']).index(el)` and the row found; an unknown element is a `ValueError` — calcDelta.py:171-183. -/
def lookup (data : List Row) (el : String) : Except PyErr Row :=
  match data.find? fun r => decide (r.el = el) with
  | none => .error .value
  | some r => .ok r

/-- `B0 * 10.**9. / 1.602176565e-19 / 10.**30.` — calcDelta.py:177, 182, 186 -/
noncomputable def toEv (b : ℝ) : ℝ := b * 10 ^ 9 / (1602176565 / 10 ^ 28) / 10 ^ 30

/-- `a3`, `a2`, `a1`, `a0` of one file — calcDelta.py:195-203: coefficient `n`. -/
noncomputable def coef (v0 b0 b1 : ℝ) : ℕ → ℝ
  | 0 => 9 * v0 * b0 / 16 * (6 - b1)
  | 1 => 9 * v0 ^ (5 / 3 : ℝ) * b0 / 16 * (3 * b1 - 16)
  | 2 => 9 * v0 ^ (7 / 3 : ℝ) * b0 / 16 * (14 - 3 * b1)
  | _ => 9 * v0 ^ (3 : ℝ) * b0 / 16 * (b1 - 4)

/-- `x[n]` — calcDelta.py:205-213, with `d n = anf - anw`. -/
noncomputable def xs (d : ℕ → ℝ) : ℕ → ℝ
  | 0 => d 0 ^ 2
  | 1 => 6 * d 1 * d 0
  | 2 => -3 * (2 * d 2 * d 0 + d 1 ^ 2)
  | 3 => -2 * d 3 * d 0 - 2 * d 2 * d 1
  | 4 => -3 / 5 * (2 * d 3 * d 1 + d 2 ^ 2)
  | 5 => -6 / 7 * d 3 * d 2
  | _ => -1 / 3 * d 3 ^ 2

/-- `y[n]` — calcDelta.py:215-223, with `s n = anf + anw`. -/
noncomputable def ys (s : ℕ → ℝ) : ℕ → ℝ
  | 0 => s 0 ^ 2 / 4
  | 1 => 3 * s 1 * s 0 / 2
  | 2 => -3 * (2 * s 2 * s 0 + s 1 ^ 2) / 4
  | 3 => -s 3 * s 0 / 2 - s 2 * s 1 / 2
  | 4 => -3 / 20 * (2 * s 3 * s 1 + s 2 ^ 2)
  | 5 => -3 / 14 * s 3 * s 2
  | _ => -1 / 12 * s 3 ^ 2

/-- `F = F + x[n] * V**(-(2.*n-3.)/3.)` for `n` in `range(7)` — calcDelta.py:225-236. -/
noncomputable def prim (x : ℕ → ℝ) (V : ℝ) : ℝ := ∑ n ∈ Finset.range 7, x n * V ^ (-(2 * (n : ℝ) - 3) / 3)

/-- `Vi`, `Vf` — calcDelta.py:188-193. -/
noncomputable def window (asymm : Bool) (v0w v0f : ℝ) : ℝ × ℝ :=
  if asymm then (94 / 100 * v0w, 106 / 100 * v0w) else (94 / 100 * (v0w + v0f) / 2, 106 / 100 * (v0w + v0f) / 2)

/-- `Delta`, `Deltarel`, `Delta1` of one element — calcDelta.py:185-245. -/
noncomputable def delta (asymm : Bool) (f w : Row) : ℝ × ℝ × ℝ :=
  let bf := toEv f.b0
  let bw := toEv w.b0
  let df := fun n => coef f.v0 bf f.bp n - coef w.v0 bw w.bp n
  let sf := fun n => coef f.v0 bf f.bp n + coef w.v0 bw w.bp n
  let Vi := (window asymm w.v0 f.v0).1
  let Vf := (window asymm w.v0 f.v0).2
  let F := prim (xs df) Vf - prim (xs df) Vi
  let G := prim (ys sf) Vf - prim (ys sf) Vi
  let D := 1000 * Real.sqrt (F / (Vf - Vi))
  (D, 100 * Real.sqrt (F / G),
    if asymm then D / w.v0 / bw * 30 * toEv 100 else D / (w.v0 + f.v0) / (bw + bf) * 4 * 30 * toEv 100)

/-- `calcDelta` — calcDelta.py:158-247: `els` is `eloverlap`. -/
noncomputable def calcDelta (f w : List Row) (els : List String) (asymm : Bool) : Except PyErr (List (ℝ × ℝ × ℝ)) :=
  els.mapM fun el => do
    let rw ← lookup w el
    let rf ← lookup f el
    return delta asymm rf rw

/-! ## eosfit.py -/

/-- A cubic polynomial, coefficients of `1`, `x`, `x²`, `x³`. -/
structure Cubic where
  c0 : ℝ
  c1 : ℝ
  c2 : ℝ
  c3 : ℝ

/-- `deriv0(x)` — eosfit.py:34 -/
def Cubic.eval (p : Cubic) (x : ℝ) : ℝ := p.c0 + p.c1 * x + p.c2 * x ^ 2 + p.c3 * x ^ 3

/-- `deriv1(x)` — eosfit.py:35 -/
def Cubic.d1 (p : Cubic) (x : ℝ) : ℝ := p.c1 + 2 * p.c2 * x + 3 * p.c3 * x ^ 2

/-- `deriv2(x)` — eosfit.py:36 -/
def Cubic.d2 (p : Cubic) (x : ℝ) : ℝ := 2 * p.c2 + 6 * p.c3 * x

/-- `deriv3(x)` — eosfit.py:37 -/
def Cubic.d3 (p : Cubic) (_x : ℝ) : ℝ := 6 * p.c3

/-- The loop over `np.roots(deriv1)` — eosfit.py:39-44: the first root that is positive with a positive second derivative. Only real roots are considered here. -/
noncomputable def findMin (p : Cubic) (roots : List ℝ) : Option ℝ := roots.find? fun x => decide (0 < x ∧ 0 < p.d2 x)

/-- `volume0`, `bulk_modulus0`, `bulk_deriv0` from the root — eosfit.py:42, 50-54. -/
noncomputable def eos (p : Cubic) (x : ℝ) : ℝ × ℝ × ℝ :=
  let dV2 := 4 / 9 * x ^ (5 : ℝ) * p.d2 x
  let dV3 := -20 / 9 * x ^ (13 / 2 : ℝ) * p.d2 x - 8 / 27 * x ^ (15 / 2 : ℝ) * p.d3 x
  (x ^ (-3 / 2 : ℝ), dV2 / x ^ (3 / 2 : ℝ), -1 - x ^ (-3 / 2 : ℝ) * dV3 / dV2)

/-- Sum of squared residuals of a polynomial on the data `(V, E)`, fitted in `V^(-2/3)` — eosfit.py:30. -/
noncomputable def ssr (data : List (ℝ × ℝ)) (p : Cubic) : ℝ := (data.map fun d => (p.eval (d.1 ^ (-2 / 3 : ℝ)) - d.2) ^ 2).sum

/-- `BM(energies)` — eosfit.py:29-56: `fit` is the polynomial of `np.polyfit`, `roots` what `np.roots(deriv1)` returns; `none`: "No minimum could be found". -/
noncomputable def bm (fit : Cubic) (roots : List ℝ) : Option (ℝ × ℝ × ℝ) := (findMin fit roots).map (eos fit)

open Classical in
/-- The script — eosfit.py:72-93, without the formatting of the numbers: `1-R^2` is printed from `residuals[0]`, and `np.polyfit` returns an empty array of residuals for at most four
data points or fewer than four different volumes. The bulk modulus is converted from eV/Å³ to GPa with `echarge = 1.60217733e-19`. -/
noncomputable def eosfit (data : List (ℝ × ℝ)) (fit : Cubic) (roots : List ℝ) : Except PyErr (Option (ℝ × ℝ × ℝ)) :=
  match bm fit roots with
  | none => .ok none
  | some r =>
    if data.length ≤ 4 ∨ (data.map Prod.fst).toFinset.card < 4 then .error .index
    else .ok (some (r.1, r.2.1 * (160217733 / 10 ^ 27) * 10 ^ 21, r.2.2))

end Verif.Delta
