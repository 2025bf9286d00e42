import Mathlib.Analysis.SpecialFunctions.Trigonometric.Sinc
import Verif.Model.Nonloc

/-!
# Model of the local pseudopotential and atomic density generators (/repo/src/qtm/pseudo/loc.py)

Exact real arithmetic; `scipy.special.erf` is an abstract function; the argument checks (`_check_args`, loc.py:69-77) are not
modelled. Arrays of the radial mesh are functions on `0 … n-1`, `n ≥ 1`.
-/

namespace Verif.Loc

open scoped ComplexConjugate

/-- Factor on `r_ab[i]` after loc.py:51-53, for `n` mesh points. -/
noncomputable def meshWeight (n i : ℕ) : ℝ :=
  1 / 3 * (if i % 2 = 1 ∧ 1 ≤ i ∧ i < n - 1 then 4 else 1) * (if i % 2 = 0 ∧ 2 ≤ i ∧ i < n - 1 then 2 else 1)

/-- `_sph2pw` for one function and one `|G|` — loc.py:45-66: initialised with the contribution of the first sample (line 54), then
all samples including the first are accumulated (lines 58-62). -/
noncomputable def sph2pw (n : ℕ) (r r_ab f_times_r2 : ℕ → ℝ) (g : ℝ) : ℝ :=
  (List.range n).foldl (fun acc i => acc + Real.sinc (g * r i) * f_times_r2 i * (r_ab i * meshWeight n i))
    (Real.sinc (g * r 0) * f_times_r2 0 * (r_ab 0 * meshWeight n 0))

/-- `_simpson_old` — loc.py:34-42; the slices `[0:n-2:2]`, `[1:n-1:2]`, `[2:n:2]`. -/
noncomputable def simpsonOld (n : ℕ) (f rab : ℕ → ℝ) : ℝ :=
  1 / 3 * ∑ i ∈ Finset.range ((n - 2 + 1) / 2),
    (f (2 * i) * rab (2 * i) + 4 * (f (2 * i + 1) * rab (2 * i + 1)) + f (2 * i + 2) * rab (2 * i + 2))

/-- `exp(-2πi τ·G)` — loc.py:113, 183. -/
noncomputable def phase (tau : Fin 3 → ℝ) (G : Fin 3 → ℤ) : ℂ :=
  Complex.exp (-(2 * Real.pi * Complex.I) * ((∑ c, tau c * G c : ℝ) : ℂ))

/-- The loop accumulating `struct_fac` over the atoms of the species — loc.py:111-113, 181-183. -/
noncomputable def structFac (tau : List (Fin 3 → ℝ)) (G : Fin 3 → ℤ) : ℂ :=
  tau.foldl (fun acc t => acc + phase t G) 0

/-- Pseudopotential data read from the UPF file, as used by loc.py. -/
structure RadialData where
  n : ℕ
  r : ℕ → ℝ
  r_ab : ℕ → ℝ
  rhoatom : ℕ → ℝ
  vloc : ℕ → ℝ
  valence : ℝ
  rho_atc : Option (ℕ → ℝ)

/-- `loc_generate_rhoatomic` at the `j`-th G-vector — loc.py:80-129. `hasG0` is `grho.has_g0`. -/
noncomputable def rhoAtomic (D : RadialData) (hasG0 : Bool) (dv : ℝ) (tau : List (Fin 3 → ℝ)) (G : ℕ → Fin 3 → ℤ) (gnorm : ℕ → ℝ)
    (j : ℕ) : ℂ :=
  ((if hasG0 = true ∧ j = 0 then simpsonOld D.n D.rhoatom D.r_ab else sph2pw D.n D.r D.r_ab D.rhoatom (gnorm j) : ℝ) : ℂ)
    * (structFac tau (G j) / dv)

/-- `loc_generate_pot_rhocore`, local potential at the `j`-th G-vector — loc.py:153-218. -/
noncomputable def vIon (erf : ℝ → ℝ) (D : RadialData) (hasG0 : Bool) (cellvol : ℝ) (N : ℕ) (tau : List (Fin 3 → ℝ))
    (G : ℕ → Fin 3 → ℤ) (gnorm : ℕ → ℝ) (j : ℕ) : ℂ :=
  ((if hasG0 = true ∧ j = 0 then simpsonOld D.n (fun i => D.r i * (D.r i * D.vloc i + D.valence)) D.r_ab
    else sph2pw D.n D.r D.r_ab (fun i => (D.vloc i * D.r i + D.valence * erf (D.r i)) * D.r i) (gnorm j)
      - D.valence * Real.exp (-(gnorm j) ^ 2 / 4) / gnorm j ^ 2 : ℝ) : ℂ)
    * (((4 * Real.pi / cellvol * N : ℝ) : ℂ) * structFac tau (G j))

/-- `loc_generate_pot_rhocore`, core density at the `j`-th G-vector — loc.py:197-217. -/
noncomputable def rhoCore (D : RadialData) (hasG0 : Bool) (cellvol : ℝ) (N : ℕ) (tau : List (Fin 3 → ℝ))
    (G : ℕ → Fin 3 → ℤ) (gnorm : ℕ → ℝ) (j : ℕ) : ℂ :=
  ((match D.rho_atc with
    | some c => (if hasG0 = true ∧ j = 0 then simpsonOld D.n (fun i => c i * D.r i ^ 2) D.r_ab
        else sph2pw D.n D.r D.r_ab (fun i => c i * D.r i ^ 2) (gnorm j))
    | none => 0 : ℝ) : ℂ)
    * (((4 * Real.pi / cellvol * N : ℝ) : ℂ) * structFac tau (G j))

end Verif.Loc
