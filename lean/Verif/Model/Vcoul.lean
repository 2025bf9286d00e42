import Mathlib.Analysis.InnerProductSpace.PiL2
import Mathlib.Analysis.SpecialFunctions.Artanh
import Mathlib.Analysis.SpecialFunctions.Pow.Real
import Mathlib.Analysis.SpecialFunctions.Trigonometric.Basic
import Verif.Model.Nonloc
import Verif.Model.Py

/-!
# Model: averages of the Coulomb interaction over the cell of a q-point (`gw/vcoul.py`)

Arithmetic is exact. A floating-point NaN is `none`.
-/

namespace Verif.Vcoul

open Verif

abbrev E3 := EuclideanSpace ℝ (Fin 3)

/-- `q_cutoff = (recvol / len(qpts.cryst) * 3 / (4 pi)) ** (1 / 3)` — vcoul.py:282, 306, 573. -/
noncomputable def qCutoff (recvol : ℝ) (nq : ℕ) : ℝ := (recvol / nq * 3 / (4 * Real.pi)) ^ (1 / 3 : ℝ)

/-- `v_minibz_sphere` — vcoul.py:276-284. -/
noncomputable def vSphere (recvol : ℝ) (nq : ℕ) : ℝ := 3 * 8 * Real.pi / qCutoff recvol nq ^ 2

/-- `oneoverq_minibz_sphere` — vcoul.py:565-579, with the optional radius. -/
noncomputable def oneoverqSphere (recvol : ℝ) (nq : ℕ) (qlen : Option ℝ) : ℝ := 12 * Real.pi / qlen.getD (qCutoff recvol nq)

open Classical in
/-- `v_minibz_sphere_shifted` — vcoul.py:286-318, for a centre at distance `d` (`d = 0` returns `np.Inf`, kept apart by the caller); `np.arctanh` gives NaN above 1 and infinity at 1, where the factor in front of it is zero: NaN for `R ≥ d`. -/
noncomputable def vSphereShifted (R d : ℝ) : Option ℝ :=
  if R < d then some (8 * Real.pi * (2 * Real.pi * ((R ^ 2 / d - d) * Real.artanh (R / d) + R)) / (4 * Real.pi * R ^ 3 / 3)) else none

/-- The lattice and the q-points. `b i` are the reciprocal vectors, `cellvol` the volume of the real-space cell. -/
structure Inp where
  b : Fin 3 → E3
  cellvol : ℝ
  qs : List (Fin 3 → ℝ)
  q0 : ℕ

/-- `recilat.cryst2cart` — lattice.py:205-231 (see `Verif.LatArr`). -/
noncomputable def cart (I : Inp) (c : Fin 3 → ℝ) : E3 := ∑ i, c i • I.b i

/-- `l_signs` — vcoul.py:398-405. -/
def signs : List (Fin 3 → ℝ) :=
  [1, -1].flatMap fun i => [1, -1].flatMap fun j => [1, -1].map fun k => ![i, j, k]

/-- `full_qpts` — vcoul.py:411-415: all sign images, the entry of q0 replaced by zero. (`np.unique` only removes repetitions and sorts.) -/
noncomputable def fullQ (I : Inp) : List (Fin 3 → ℝ) :=
  signs.flatMap fun s => (I.qs.set I.q0 0).map fun q => fun i => s i * q i

open Classical in
/-- `get_gamma_nbhd_qpts` — vcoul.py:394-432: half the length of the shortest image of squared length above 1e-5 (`np.min` of an empty array raises `ValueError`) and the images of length at most eight times that. -/
noncomputable def gammaNbhd (I : Inp) : Except PyErr (ℝ × List E3) :=
  let n2 := (fullQ I).map fun q => ‖cart I q‖ ^ 2
  match (n2.filter fun x => 1 / 100000 < x).min? with
  | none => .error .value
  | some m => .ok (Real.sqrt m / 2, ((fullQ I).map (cart I)).filter fun p => ‖p‖ ^ 2 ≤ (8 * (Real.sqrt m / 2)) ^ 2)

/-- Sample `i` before folding — vcoul.py:482-486: three 32-bit integers times `1 / (2**32 * numq ** (1/3))`, as crystal coordinates. -/
noncomputable def sample (I : Inp) (raw : ℕ → ℕ) (i : ℕ) : E3 :=
  cart I fun c => (raw (3 * i + c) : ℝ) * (1 / (2 ^ 32 * (I.qs.length : ℝ) ^ (1 / 3 : ℝ)))

/-- Folding — vcoul.py:488-490: subtract the point of the neighbourhood that the search tree returns. -/
def fold (near : E3 → E3) (p : E3) : E3 := p - near p

open Classical in
/-- The last part for a zero shift — vcoul.py:456-464, 490-514, as a function of the folded samples: the ball analytically, the rest sampled. (`1 / 0` is 0 here and infinity in numpy: it concerns samples exactly on a lattice point.) -/
noncomputable def combineZero (cellvol : ℝ) (nq : ℕ) (Q : ℝ) (ns : ℕ) (pts : ℕ → E3) : ℝ × ℝ :=
  (32 * Real.pi ^ 2 * Q / (8 * Real.pi ^ 3 / (cellvol * nq)) * 1 +
      8 * Real.pi * (((List.range ns).filter fun i => Q < ‖pts i‖).map fun i => (1 / ‖pts i‖) ^ 2).sum / ns,
    8 * Real.pi * ((List.range ns).map fun i => 1 / ‖pts i‖).sum / ns)

open Classical in
/-- The last part for another shift — vcoul.py:465-479, 490-514: `q_cutoff = 0`, so that samples that are not exactly zero count; the value of the sphere is multiplied by the fraction of the samples that do not. -/
noncomputable def combineShift (vsph : Option ℝ) (s : E3) (ns : ℕ) (pts : ℕ → E3) : Option ℝ × ℝ :=
  let sel := (List.range ns).filter fun i => 0 < ‖pts i‖
  (vsph.map fun v => v * (1 - (sel.length : ℝ) / ns) + 8 * Real.pi * (sel.map fun i => (1 / ‖pts i + s‖) ^ 2).sum / ns,
    8 * Real.pi * ((List.range ns).map fun i => 1 / ‖pts i + s‖).sum / ns)

/-- `nsamples` — vcoul.py:473-477, 536-541: `max(1, min(N_SAMPLES, round(N_SAMPLES_COARSE * 4 * q_cutoff**2 / shift_length**2)))`. -/
noncomputable def nSamples (Q len : ℝ) : ℕ := (max 1 (min 2500000 (Nonloc.rint (250000 * 4 * Q ^ 2 / len ^ 2)))).toNat

open Classical in
/-- `v_minibz_montecarlo_hybrid` — vcoul.py:434-519. -/
noncomputable def hybrid (I : Inp) (raw : ℕ → ℕ) (near : List E3 → E3 → E3) (shift : Fin 3 → ℝ) : Except PyErr (Option ℝ × ℝ) :=
  match gammaNbhd I with
  | .error e => .error e
  | .ok (Q, nb) =>
    let pts := fun i => fold (near nb) (sample I raw i)
    if ‖cart I shift‖ < 1 / 100000 then
      let r := combineZero I.cellvol I.qs.length Q 2500000 pts
      .ok (some r.1, r.2)
    else .ok (combineShift (vSphereShifted Q ‖cart I shift‖) (cart I shift) (nSamples Q ‖cart I shift‖) pts)

end Verif.Vcoul
