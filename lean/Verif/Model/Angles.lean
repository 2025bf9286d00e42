import Mathlib.Analysis.SpecialFunctions.Complex.Arg
import Mathlib.Analysis.SpecialFunctions.Trigonometric.Inverse
import Verif.Model.Nonloc

/-!
# Model of the angles and lengths handed to the spherical harmonics (/repo/src/qtm/pseudo/nloc.py:239-309)
-/

namespace Verif.Nonloc

/-- `gk_norm` of one vector in Cartesian coordinates — nloc.py:244, gspace/gkspc.py:92-95 -/
noncomputable def vlen (q : Fin 3 → ℝ) : ℝ := Real.sqrt (q 0 ^ 2 + q 1 ^ 2 + q 2 ^ 2)

/-- `theta` of one vector — nloc.py:247-251: zero for vectors not longer than `1e-7`. -/
noncomputable def theta (q : Fin 3 → ℝ) : ℝ := if 1 / 10 ^ 7 < vlen q then Real.arccos (q 2 / vlen q) else 0

/-- `phi` of one vector: `np.arctan2(gk_y, gk_x)` — nloc.py:252 -/
noncomputable def phi (q : Fin 3 → ℝ) : ℝ := Complex.arg ⟨q 0, q 1⟩

/-- `sph_harm_y(l, abs_m, theta, phi)` of one vector — nloc.py:298 -/
noncomputable def harmAt (Y : ℕ → ℕ → ℝ → ℝ → ℂ) (q : Fin 3 → ℝ) : ℕ → ℕ → ℂ := fun l m => Y l m (theta q) (phi q)

/-- `gen_vkb_dij` with angular and radial parts computed from the Cartesian vectors — nloc.py:239-349; `f ibeta x` is the interpolated radial part at length `x`. -/
noncomputable def vectorProj {n : ℕ} (beta_l : List ℕ) (nat : ℕ) (tau : ℕ → Fin 3 → ℝ) (gk cart : Fin n → Fin 3 → ℝ) (Y : ℕ → ℕ → ℝ → ℝ → ℂ) (f : ℕ → ℝ → ℝ) (dij : ℕ → ℕ → ℝ) : Proj n :=
  speciesProj beta_l nat tau gk (fun j => harmAt Y (cart j)) (fun b j => f b (vlen (cart j))) dij

end Verif.Nonloc
