import Mathlib.Analysis.SpecialFunctions.Trigonometric.Basic
import Mathlib.Analysis.Complex.Basic
import Verif.Model.Py
import Verif.Model.Containers

/-!
# Model of the potentials (/repo/src/qtm/pot)
-/

namespace Verif.Pot

open Verif.Containers

/-! ## Hartree -/

/-- `check_rho` — /repo/src/qtm/pot/utils.py:11-18: one or two components. -/
def checkRho {α : Type*} (rho : List α) : Except PyErr Unit :=
  if rho.length = 1 ∨ rho.length = 2 then .ok () else .error .value

/-- `sum(rho)`: the components added — /repo/src/qtm/pot/hartree.py:28. -/
def total (rho : List (List ℂ)) (j : ℕ) : ℂ := (rho.map fun c => c.getD j 0).sum

/-- The Hartree potential in G-space — hartree.py:28-33. `nan` stands for what dividing by zero produces; the entry at
G = 0 is then overwritten. -/
noncomputable def hartreeV (nan : ℂ) (norm2 : List ℝ) (hasG0 : Bool) (rho : List (List ℂ)) : List ℂ :=
  (List.range norm2.length).map fun j =>
    if hasG0 = true ∧ j = 0 then 0
    else if norm2.getD j 0 = 0 then nan
    else 4 * Real.pi * total rho j / (norm2.getD j 0 : ℂ)

/-- The Hartree energy — hartree.py:35-38; `dv` is `reallat_dv`, `npts` the number of grid points. -/
noncomputable def hartreeEn (norm2 : List ℝ) (rho : List (List ℂ)) (v : List ℂ) (dv : ℝ) (npts : ℕ) : ℝ :=
  ((1 / 2 : ℂ) * (∑ j ∈ Finset.range norm2.length, (starRingEnd ℂ) (total rho j) * v.getD j 0)
    * (dv / npts : ℝ)).re

/-- `hartree.compute` up to the final transform to the grid — hartree.py:11-38. -/
noncomputable def hartree (nan : ℂ) (norm2 : List ℝ) (hasG0 : Bool) (dv : ℝ) (npts : ℕ) (rho : List (List ℂ)) :
    Except PyErr (List ℂ × ℝ) :=
  match checkRho rho with
  | .error e => .error e
  | .ok () =>
    let v := hartreeV nan norm2 hasG0 rho
    .ok (v, hartreeEn norm2 rho v dv npts)

/-! ## Gradient and divergence -/

/-- `fieldg_grad` — /repo/src/qtm/pot/utils.py:21-26: a new axis of length 3 before the basis axis.
`g c j` is Cartesian component `c` of G-vector `j`. -/
noncomputable def grad (g : ℕ → ℕ → ℝ) (a : Arr ℂ) : Arr ℂ where
  shape := a.shape.dropLast ++ [3, a.shape.getLastD 0]
  get i :=
    let j := i.getLastD 0
    let c := i.dropLast.getLastD 0
    a.get (i.dropLast.dropLast ++ [j]) * Complex.I * (g c j : ℂ)

/-- `fieldg_div(field, axis)` — utils.py:29-42. `field.shape` excludes the basis axis; the array is multiplied with the
(3, basis) array of G-vectors, which NumPy aligns with the last two axes (a `ValueError` unless the second last axis
has length 3 or 1; the broadcasting case 1 is not modelled), then summed over array axis `axis - 1`; the container's
constructor finally requires the basis size as the last dimension (/repo/src/qtm/containers/buffer.py:90-103). -/
noncomputable def div (g : ℕ → ℕ → ℝ) (a : Arr ℂ) (axis : ℤ) : Except PyErr (Arr ℂ) :=
  let lead := a.shape.dropLast
  let basis := a.shape.getLastD 0
  match normIdx lead.length axis with
  | .error e => .error e
  | .ok k =>
    if lead.getD k 0 ≠ 3 then .error .value
    else if lead.getLastD 0 ≠ 3 then .error .value
    else
      let prod : Arr ℂ := ⟨a.shape, fun i => a.get i * (Complex.I * (g (i.dropLast.getLastD 0) (i.getLastD 0) : ℂ))⟩
      match normIdx a.shape.length (axis - 1) with
      | .error _ => .error .value
      | .ok ax =>
        let r := reduceAx (· + ·) prod ax
        if r.shape.getLast? = some basis then .ok r else .error .value

/-! ## Choice of the functional -/

/-- What `get_libxc_func` looks at for one species: no pseudopotential object (`ppdata is None`), or one with an
optional functional — /repo/src/qtm/pot/xc.py:35-37. -/
inductive PPInfo (F : Type*)
  | noPP
  | pp (libxc : Option F)

/-- The loop of `get_libxc_func` — xc.py:33-52. Reading an attribute of `None` raises `AttributeError`. -/
def getLibxc {F : Type*} [DecidableEq F] : Option F → List (PPInfo F) → Except PyErr (Option F)
  | acc, [] => .ok acc
  | _, .noPP :: _ => .error .attribute
  | acc, .pp none :: t => getLibxc acc t
  | none, .pp (some f) :: t => getLibxc (some f) t
  | some f', .pp (some f) :: t => if f ≠ f' then .error .value else getLibxc (some f') t

/-! ## Exchange and correlation -/

/-- Functional families — xc.py:138-143. -/
inductive Family
  | lda
  | gga
  deriving DecidableEq, Repr

/-- What libxc returns on the grid: energy per particle, its derivative with respect to each spin density, and for
gradient functionals with respect to each contracted gradient (`vsigma` is absent for LDA functionals). -/
structure XCOut (ns m : ℕ) where
  zk : Fin m → ℝ
  vrho : Fin ns → Fin m → ℝ
  vsigma : Option (ℕ → Fin m → ℝ)

/-- A libxc functional: its family and its action on the densities and contracted gradients on the grid. -/
structure XCFunc (ns m : ℕ) where
  family : Family
  run : (Fin m → Fin ns → ℝ) → Option (ℕ → Fin m → ℝ) → XCOut ns m
  vsigma_iff : ∀ r s, (run r s).vsigma.isSome = true ↔ family = .gga

/-- The G-space and its transforms used by `xc.compute`: `toR` and `toG` are the transforms of one component, `g c j`
the Cartesian components of the G-vectors. -/
structure XCSpace (m n : ℕ) where
  toR : (Fin n → ℂ) → (Fin m → ℂ)
  toG : (Fin m → ℂ) → (Fin n → ℂ)
  g : Fin 3 → Fin n → ℝ
  dv : ℝ

/-- `fieldg_grad(f).to_r()` of one component. -/
noncomputable def XCSpace.gradR {m n : ℕ} (S : XCSpace m n) (f : Fin n → ℂ) (c : Fin 3) : Fin m → ℂ :=
  S.toR fun j => f j * Complex.I * (S.g c j : ℂ)

/-- `fieldg_div(h.to_g()).to_r()` of one component. -/
noncomputable def XCSpace.divR {m n : ℕ} (S : XCSpace m n) (h : Fin 3 → Fin m → ℂ) : Fin m → ℂ :=
  S.toR fun j => ∑ c, S.toG (h c) j * (Complex.I * (S.g c j : ℂ))

/-- `rhoaux = rho + (1 / numspin) * rhocore` — xc.py:129. -/
noncomputable def rhoaux {ns n : ℕ} (rho : Fin ns → Fin n → ℂ) (core : Fin n → ℂ) : Fin ns → Fin n → ℂ :=
  fun s j => rho s j + (1 / (ns : ℂ)) * core j

/-- `_get_sigma` — xc.py:61-92: |∇ρ0|² and, with two spins, ∇ρ0·∇ρ1 and |∇ρ1|². -/
noncomputable def sigma {ns m n : ℕ} (S : XCSpace m n) (rho : Fin ns → Fin n → ℂ) (h0 : 0 < ns) : ℕ → Fin m → ℝ :=
  fun k r =>
    let gr := fun (s : ℕ) (c : Fin 3) => if hs : s < ns then S.gradR (rho ⟨s, hs⟩) c r else S.gradR (rho ⟨0, h0⟩) c r
    match k with
    | 0 => (∑ c, gr 0 c * gr 0 c).re
    | 1 => (∑ c, gr 0 c * gr 1 c).re
    | _ => (∑ c, gr 1 c * gr 1 c).re

/-- The array passed to libxc: `np.abs(rho_r.data).T` — xc.py:146-147 — the transform of `rho`, *not* of `rhoaux`. -/
noncomputable def xcRho {ns m n : ℕ} (S : XCSpace m n) (rho : Fin ns → Fin n → ℂ) : Fin m → Fin ns → ℝ :=
  fun r s => ‖S.toR (rho s) r‖

/-- The vector field `h_r` — xc.py:178-183. -/
noncomputable def xcH {ns m n : ℕ} (S : XCSpace m n) (rho : Fin ns → Fin n → ℂ) (vs : ℕ → Fin m → ℝ) :
    Fin ns → Fin 3 → Fin m → ℂ :=
  fun s c r =>
    if ns = 1 then 2 * (vs 0 r : ℂ) * S.gradR (rho s) c r
    else
      2 * (vs (if s.1 = 0 then 0 else 2) r : ℂ) * S.gradR (rho s) c r
        + (vs 1 r : ℂ) * S.gradR (rho (if h : (1 - s.1) < ns then ⟨1 - s.1, h⟩ else s)) c r

/-- One functional added to the running potential and energy — xc.py:164-186. Asking an LDA result for `vsigma` raises
`KeyError`. -/
noncomputable def xcAdd {ns m n : ℕ} (S : XCSpace m n) (rho : Fin ns → Fin n → ℂ) (needGrad : Bool) (out : XCOut ns m)
    (acc : (Fin ns → Fin m → ℂ) × ℂ) : Except PyErr ((Fin ns → Fin m → ℂ) × ℂ) :=
  let v := fun s r => acc.1 s r + (out.vrho s r : ℂ)
  let en := acc.2 + (∑ r, ∑ s, S.toR (rho s) r * (out.zk r : ℂ)) * (S.dv : ℂ)
  if needGrad = true then
    match out.vsigma with
    | none => .error .key
    | some vs => .ok (fun s r => v s r - S.divR (xcH S rho vs s) r, en)
  else .ok (v, en)

/-- `xc.compute` — xc.py:96-188 (thresholds inside libxc belong to the abstract functionals). -/
noncomputable def xcCompute {ns m n : ℕ} (S : XCSpace m n) (h0 : 0 < ns) (exch corr : XCFunc ns m)
    (rho : Fin ns → Fin n → ℂ) (core : Fin n → ℂ) : Except PyErr ((Fin ns → Fin m → ℂ) × ℝ) := do
  let needGrad : Bool := decide (exch.family = .gga ∨ corr.family = .gga)
  let inp := xcRho S rho
  let sig := if needGrad then some (sigma S (rhoaux rho core) h0) else none
  let a1 ← xcAdd S rho needGrad (exch.run inp sig) (fun _ _ => 0, 0)
  let a2 ← xcAdd S rho needGrad (corr.run inp sig) a1
  pure (a2.1, a2.2.re)

end Verif.Pot
