import Mathlib.Data.Complex.Basic
import Mathlib.Analysis.SpecialFunctions.Trigonometric.Basic
import Verif.Model.Py

/-!
# Model: random starting wavefunctions

`KSWfn.init_random`, /repo/src/qtm/dft/kswfn.py:110-142. The generator `default_rng([bits of k, rng_seed])` is a stream of numbers in `[0, 1)` determined by its seed: `u n` is the `n`-th number drawn.
-/

namespace Verif.RandInit

/-- `default_rng([seed_k, qtmconfig.rng_seed])` — kswfn.py:115-117: `seed_k` are the bits of the three coordinates of the k-point. -/
abbrev Rng := List ℕ → ℕ → ℕ → ℝ

/-- First row of the chunk of row `b` — kswfn.py:121-124: chunks of 10 rows. -/
def chunk (b : ℕ) : ℕ := b / 10 * 10

/-- Rows in that chunk: `data[chunk]` ends at the last row. -/
def rows (nb b : ℕ) : ℕ := min 10 (nb - chunk b)

/-- Which number `random_real[b - chunk, j]` is — kswfn.py:127; all chunks before have drawn `2 * w` numbers per row. -/
def posR (w b j : ℕ) : ℕ := 2 * (chunk b * w) + (b - chunk b) * w + j

/-- Which number `random_imag[b - chunk, j]` is — kswfn.py:128: drawn after `random_real` of the chunk. -/
def posI (nb w b j : ℕ) : ℕ := 2 * (chunk b * w) + rows nb b * w + (b - chunk b) * w + j

/-- `init_random` of `nb` bands with `w` coefficients each, `n` plane waves (`w = numspin * n`) of squared lengths `gk2` — kswfn.py:110-142. The last line divides an array of shape `(nb, w)` by one of shape `(n,)`:
a `ValueError` unless `w = n` or `n = 1`. -/
noncomputable def initRandom (u : ℕ → ℝ) (nb w n : ℕ) (gk2 : ℕ → ℝ) : Except PyErr (ℕ → ℕ → ℂ) :=
  if w ≠ n ∧ n ≠ 1 then .error .value
  else .ok fun b j => (u (posR w b j) : ℂ) * Complex.exp (2 * Real.pi * Complex.I * (u (posI nb w b j) : ℂ)) / ((1 + gk2 (if n = 1 then 0 else j) : ℝ) : ℂ)

/-- `init_random()` of a `KSWfn` with k-point `k` (as bits) — kswfn.py:110-142. -/
noncomputable def start (rng : Rng) (seed : ℕ) (k : List ℕ) (nb numspin n : ℕ) (gk2 : ℕ → ℝ) : Except PyErr (ℕ → ℕ → ℂ) :=
  initRandom (rng k seed) nb (numspin * n) n gk2

end Verif.RandInit
