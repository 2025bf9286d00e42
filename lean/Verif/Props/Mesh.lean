import Verif.Model.Mesh
import Verif.Props.LatNorm
import Verif.Props.TDNorm

/-!
# C193: the mesh of a unit cell; C194: the kick and the dipole
-/

namespace Verif.Mesh

open Verif.Lattice
open Verif.FFT (Driver Dims DrvState ValidIdx)
open Verif.Nonloc (wfR wfG)

/-- Specification: the Cartesian vector in atomic units that three numbers stand for. -/
noncomputable def meaning (L : Lat) : Coords → Vec → Vec
  | .cryst, v => LatNorm.meaning L .cryst v
  | .alat, v => LatNorm.meaning L .alat v
  | _, v => v

/-- The numbers of an origin. -/
def Origin.val : Origin → Vec
  | .tuple v => v
  | .array v => v

theorem checkNum_ok (n : ℕ) (h : 1 ≤ n) : checkNum (.int n) = .ok n := by
  show (if (n : ℤ) < 1 then _ else _) = _
  rw [if_neg (by omega)]
  simp

theorem rint_near (x : ℝ) : |x - (Nonloc.rint x : ℝ)| ≤ 1 / 2 := by
  rw [abs_sub_comm]
  exact Nonloc.rint_err x

/-- What the mesh holds, for every way of calling that works. -/
theorem mesh_spec (u : ℝ) (hu : u ≠ 0) (A : Mat) (L : Lat) (hL : mkLat u A = .ok L) (n : Fin 3 → ℕ) (hn : ∀ a, 1 ≤ n a) (c : Coords) (hc : c ≠ .other) (o : Origin) (ho : c = .cryst → ∃ v, o = .array v) :
    ∃ p, getMesh L (.int (n 0)) (.int (n 1)) (.int (n 2)) c o = .ok (.mesh n p) ∧ ∀ i, meaning L c (p i) = L.cryst2cart (crystPoint n (L.cart2cryst (meaning L c o.val)) i) := by
  obtain ⟨hd, hun, hp, hi, -, -⟩ := mkLat_ok hL
  have hdet : IsUnit A.det := isUnit_iff_ne_zero.2 hd
  have inv : ∀ v, L.cart2cryst (L.cryst2cart v) = v := by
    intro v
    simp only [Lat.cart2cryst, Lat.cryst2cart, hp, hi, Matrix.mulVec_mulVec, Matrix.nonsing_inv_mul _ hdet, Matrix.one_mulVec]
  have e3 : ![n 0, n 1, n 2] = n := by funext a; fin_cases a <;> rfl
  have hz : L.unit ≠ 0 := by rw [hun]; exact hu
  unfold getMesh
  simp only [checkNum_ok _ (hn _), e3]
  cases c with
  | other => exact absurd rfl hc
  | cryst =>
    obtain ⟨v, rfl⟩ := ho rfl
    refine ⟨_, rfl, fun i => ?_⟩
    simp only [meaning, LatNorm.meaning_cryst, Origin.val, inv]
    rfl
  | cart =>
    have e : (originCryst L .cart o) = (L.cart2cryst o.val, true) := by cases o <;> rfl
    rw [e]
    refine ⟨_, rfl, fun i => ?_⟩
    rfl
  | alat =>
    have e : (originCryst L .alat o) = (L.unit2cryst o.val, true) := by cases o <;> rfl
    rw [e]
    refine ⟨_, rfl, fun i => ?_⟩
    have e2 : L.cart2cryst (meaning L .alat o.val) = L.unit2cryst o.val := by
      have : meaning L .alat o.val = L.unit • o.val := rfl
      funext a
      rw [this]
      simp only [Lat.cart2cryst, Lat.unit2cryst, Matrix.mulVec_smul, Pi.smul_apply, smul_eq_mul]
      ring
    rw [e2]
    funext j
    show L.unit * (L.cryst2cart _ j / L.unit) = _
    rw [mul_div_cancel₀ _ hz]

/-- **C193a.** With Python integers of at least 1, a documented unit name, and the origin as an array if it is given in crystal coordinates, the mesh has `n1 × n2 × n3` points; the point `(i1, i2, i3)` added to the origin
is the point `Σ (i_a / n_a) a_a` of the cell up to a lattice vector, and lies within half a lattice vector of the origin in each direction. -/
theorem C193_mesh_partial (u : ℝ) (hu : u ≠ 0) (A : Mat) (L : Lat) (hL : mkLat u A = .ok L) (n : Fin 3 → ℕ) (hn : ∀ a, 1 ≤ n a) (c : Coords) (hc : c ≠ .other) (o : Origin) (ho : c = .cryst → ∃ v, o = .array v) :
    ∃ p, getMesh L (.int (n 0)) (.int (n 1)) (.int (n 2)) c o = .ok (.mesh n p) ∧
      (∀ i, ∃ t : Fin 3 → ℤ, ∀ j, meaning L c (p i) j + meaning L c o.val j = ∑ a, ((i a : ℝ) / n a - t a) * L.axis a j) ∧
      (∀ i, ∃ y : Vec, (∀ j, meaning L c (p i) j = ∑ a, y a * L.axis a j) ∧ ∀ a, |y a| ≤ 1 / 2) := by
  obtain ⟨hd, hun, hp, hi, -, -⟩ := mkLat_ok hL
  have hdet : IsUnit A.det := isUnit_iff_ne_zero.2 hd
  obtain ⟨p, h1, h2⟩ := mesh_spec u hu A L hL n hn c hc o ho
  have hax : ∀ (v : Vec) j, L.cryst2cart v j = ∑ a, v a * L.axis a j := fun v j => by rw [← LatNorm.meaning_cryst]; rfl
  refine ⟨p, h1, fun i => ?_, fun i => ⟨crystPoint n (L.cart2cryst (meaning L c o.val)) i, fun j => by rw [h2 i, hax], fun a => rint_near _⟩⟩
  refine ⟨fun a => Nonloc.rint ((i a : ℝ) / n a - L.cart2cryst (meaning L c o.val) a), fun j => ?_⟩
  have inv : meaning L c o.val = L.cryst2cart (L.cart2cryst (meaning L c o.val)) := by
    simp only [Lat.cart2cryst, Lat.cryst2cart, hp, hi, Matrix.mulVec_mulVec, Matrix.mul_nonsing_inv _ hdet, Matrix.one_mulVec]
  have inv' := congrFun inv j
  rw [hax] at inv'
  rw [h2 i, hax, inv', ← Finset.sum_add_distrib]
  refine Finset.sum_congr rfl fun a _ => ?_
  simp only [crystPoint]
  ring

/-- **C193b.** No two points of the mesh are the same, not even up to a lattice vector. -/
theorem C193_distinct (u : ℝ) (hu : u ≠ 0) (A : Mat) (L : Lat) (hL : mkLat u A = .ok L) (n : Fin 3 → ℕ) (hn : ∀ a, 1 ≤ n a) (c : Coords) (hc : c ≠ .other) (o : Origin) (ho : c = .cryst → ∃ v, o = .array v)
    (p : (Fin 3 → ℕ) → Vec) (hp : getMesh L (.int (n 0)) (.int (n 1)) (.int (n 2)) c o = .ok (.mesh n p)) (i i' : Fin 3 → ℕ) (hi : ∀ a, i a < n a) (hi' : ∀ a, i' a < n a) (t : Fin 3 → ℤ)
    (h : ∀ j, meaning L c (p i) j = meaning L c (p i') j + ∑ a, (t a : ℝ) * L.axis a j) : i = i' := by
  obtain ⟨q, h1, h2⟩ := mesh_spec u hu A L hL n hn c hc o ho
  rw [hp] at h1
  injection h1 with h1
  injection h1 with _ h1
  subst h1
  obtain ⟨hd, hun, hpv, hinv, -, -⟩ := mkLat_ok hL
  have hdet : IsUnit A.det := isUnit_iff_ne_zero.2 hd
  have inv : ∀ v, L.cart2cryst (L.cryst2cart v) = v := by
    intro v
    simp only [Lat.cart2cryst, Lat.cryst2cart, hpv, hinv, Matrix.mulVec_mulVec, Matrix.nonsing_inv_mul _ hdet, Matrix.one_mulVec]
  have hax : ∀ (v : Vec) j, ∑ a, v a * L.axis a j = L.cryst2cart v j := fun v j => by rw [← LatNorm.meaning_cryst]; rfl
  set oc := L.cart2cryst (meaning L c o.val)
  have e : L.cryst2cart (crystPoint n oc i) = L.cryst2cart (crystPoint n oc i' + fun a => (t a : ℝ)) := by
    funext j
    have := h j
    rw [h2, h2, hax (fun a => (t a : ℝ))] at this
    rw [this]
    simp only [Lat.cryst2cart, Matrix.mulVec_add, Pi.add_apply]
  have e' := congrArg L.cart2cryst e
  rw [inv, inv] at e'
  funext a
  have ea := congrFun e' a
  simp only [crystPoint, Pi.add_apply] at ea
  have hna : (0 : ℝ) < n a := by exact_mod_cast hn a
  have ez : ((i a : ℝ) - i' a) / n a = ((Nonloc.rint ((i a : ℝ) / n a - oc a) - Nonloc.rint ((i' a : ℝ) / n a - oc a) + t a : ℤ) : ℝ) := by
    push_cast
    rw [sub_div]
    linarith
  rw [div_eq_iff hna.ne'] at ez
  have ez' : (i a : ℤ) - i' a = (Nonloc.rint ((i a : ℝ) / n a - oc a) - Nonloc.rint ((i' a : ℝ) / n a - oc a) + t a) * n a := by exact_mod_cast ez
  generalize Nonloc.rint ((i a : ℝ) / n a - oc a) - Nonloc.rint ((i' a : ℝ) / n a - oc a) + t a = z at ez'
  have g1 := hi a
  have g2 := hi' a
  have hz : z = 0 := by
    by_contra hz
    rcases lt_or_gt_of_ne hz with hz | hz
    · have : z * (n a : ℤ) ≤ -1 * n a := mul_le_mul_of_nonneg_right (by omega) (by omega)
      omega
    · have : 1 * (n a : ℤ) ≤ z * n a := mul_le_mul_of_nonneg_right (by omega) (by omega)
      omega
  rw [hz, zero_mul] at ez'
  omega

/-- **C193c (violation).** Called as documented — with the default unit and origin, or with any tuple as origin in crystal coordinates — the function raises `AttributeError` instead of returning a mesh. -/
theorem C193_default_violated (L : Lat) (n : Fin 3 → ℕ) (hn : ∀ a, 1 ≤ n a) (v : Vec) : getMesh L (.int (n 0)) (.int (n 1)) (.int (n 2)) .cryst (.tuple v) = .error .attribute := by
  unfold getMesh
  simp only [checkNum_ok _ (hn _)]
  rfl

/-- **C193d.** Numbers of points that are not Python integers of at least 1 raise `ValueError`, whatever the other arguments are. -/
theorem C193_checks (L : Lat) (n1 n2 n3 : Num) (c : Coords) (o : Origin) (h : ¬ ∃ m1 m2 m3 : ℕ, 1 ≤ m1 ∧ 1 ≤ m2 ∧ 1 ≤ m3 ∧ n1 = .int m1 ∧ n2 = .int m2 ∧ n3 = .int m3) : getMesh L n1 n2 n3 c o = .error .value := by
  have key : ∀ k : Num, (∃ m : ℕ, 1 ≤ m ∧ k = .int m ∧ checkNum k = .ok m) ∨ checkNum k = .error .value := by
    intro k
    cases k with
    | other => exact Or.inr rfl
    | int z =>
      by_cases hz : z < 1
      · right
        show (if z < 1 then _ else _) = _
        rw [if_pos hz]
      · left
        refine ⟨z.toNat, by omega, by congr 1; omega, ?_⟩
        show (if z < 1 then _ else _) = _
        rw [if_neg hz]
  unfold getMesh
  rcases key n1 with ⟨m1, a1, b1, c1⟩ | c1
  · rcases key n2 with ⟨m2, a2, b2, c2⟩ | c2
    · rcases key n3 with ⟨m3, a3, b3, c3⟩ | c3
      · exact absurd ⟨m1, m2, m3, a1, a2, a3, b1, b2, b3⟩ h
      · simp only [c1, c2, c3]
    · simp only [c1, c2]
  · simp only [c1]

/-- **C193e (violation).** A unit name that is not documented is not refused: with an array as origin the result is `None`. -/
theorem C193_unknown_violated (L : Lat) (n : Fin 3 → ℕ) (hn : ∀ a, 1 ≤ n a) (v : Vec) : getMesh L (.int (n 0)) (.int (n 1)) (.int (n 2)) .other (.array v) = .ok .none := by
  unfold getMesh
  simp only [checkNum_ok _ (hn _)]
  rfl

/-- A skewed cell, a 2 × 3 × 1 mesh, Cartesian coordinates around a point off the corner: the hypotheses of C193a and C193b. -/
example : (1 : ℝ) ≠ 0 ∧ mkLat 1 !![1, 1, 0; 0, 1, 0; 0, 0, 1] = .ok LatArr.exLat ∧ (∀ a, 1 ≤ (![2, 3, 1] : Fin 3 → ℕ) a) ∧ Coords.cart ≠ .other ∧ (Coords.cart = .cryst → ∃ v, Origin.tuple ![0.3, 0, 1] = .array v) :=
  ⟨one_ne_zero, LatArr.exLat_ok, by decide, by decide, fun h => by cases h⟩

/-! ## C194 -/

theorem phase_norm (kap y : ℝ) : ‖Complex.exp (-Complex.I * kap * y)‖ = 1 := by
  have e : (-Complex.I * kap * y : ℂ) = ((-(kap * y) : ℝ) : ℂ) * Complex.I := by push_cast; ring
  rw [e, Complex.norm_exp_ofReal_mul_I]

theorem phase_conj (kap y : ℝ) : (starRingEnd ℂ) (Complex.exp (-Complex.I * kap * y)) * Complex.exp (-Complex.I * kap * y) = 1 := by
  rw [← Complex.normSq_eq_conj_mul_self, Complex.normSq_eq_norm_sq, phase_norm]
  simp

open Matrix in
/-- Overlaps are multiplied by the square of the number of grid points if the basis is as large as the grid. -/
theorem kick_dot (drv : Driver) (d : Dims) (idx : List ℕ) (hv : ValidIdx d idx) (hfull : idx.length = d.size) (st : DrvState ℂ) (kap : ℝ) (x : Fin d.size → ℝ) (f g : Fin idx.length → ℂ) :
    star (kick drv d idx st kap x f) ⬝ᵥ kick drv d idx st kap x g = (d.size : ℂ) ^ 2 * (star f ⬝ᵥ g) := by
  unfold kick
  rw [TDDFT.adj drv d idx hv st]
  have : ∀ w : Fin d.size → ℂ, wfR drv d idx st (wfG drv d idx st w) = (d.size : ℂ) • w := by
    intro w
    funext r
    rw [TDDFT.wfR_wfG_full drv d idx hv hfull, Pi.smul_apply, smul_eq_mul]
  rw [this, dotProduct_smul, smul_eq_mul, pow_two, mul_assoc (d.size : ℂ) (d.size : ℂ), ← TDDFT.dot_wfR drv d idx hv st f g]
  congr 1
  unfold dotProduct
  refine Finset.sum_congr rfl fun r _ => ?_
  rw [Pi.star_apply, Pi.star_apply, Complex.star_def, map_mul]
  linear_combination (starRingEnd ℂ) (wfR drv d idx st f r) * wfR drv d idx st g r * phase_conj kap (x r)

theorem kick_norm_full (drv : Driver) (d : Dims) (idx : List ℕ) (hv : ValidIdx d idx) (hfull : idx.length = d.size) (st : DrvState ℂ) (kap : ℝ) (x : Fin d.size → ℝ) (f : Fin idx.length → ℂ) :
    TDDFT.norm2 (kick drv d idx st kap x f) = d.size ^ 2 * TDDFT.norm2 f := by
  have := kick_dot drv d idx hv hfull st kap x f f
  rw [TDDFT.norm2_dot, TDDFT.norm2_dot] at this
  exact_mod_cast this

theorem wfR_smul (drv : Driver) (d : Dims) (idx : List ℕ) (hv : ValidIdx d idx) (st : DrvState ℂ) (c : ℂ) (f : Fin idx.length → ℂ) (r : Fin d.size) : wfR drv d idx st (fun j => c * f j) r = c * wfR drv d idx st f r := by
  rw [Nonloc.wfR_eq drv d idx hv, Nonloc.wfR_eq drv d idx hv, Finset.mul_sum]
  exact Finset.sum_congr rfl fun j _ => by ring

theorem wfG_smul (drv : Driver) (d : Dims) (idx : List ℕ) (hv : ValidIdx d idx) (st : DrvState ℂ) (c : ℂ) (w : Fin d.size → ℂ) (j : Fin idx.length) : wfG drv d idx st (fun r => c * w r) j = c * wfG drv d idx st w j := by
  rw [Nonloc.wfG_eq drv d idx hv, Nonloc.wfG_eq drv d idx hv, Finset.mul_sum]
  exact Finset.sum_congr rfl fun r _ => by ring

/-- A kicked and normalised orbital in real space: the normalised orbital times the phases. -/
theorem kick_real (drv : Driver) (d : Dims) (idx : List ℕ) (hv : ValidIdx d idx) (hfull : idx.length = d.size) (st : DrvState ℂ) (kap : ℝ) (x : Fin d.size → ℝ) (f : Fin idx.length → ℂ) (r : Fin d.size) :
    wfR drv d idx st (normalise (kick drv d idx st kap x f)) r = Complex.exp (-Complex.I * kap * x r) * wfR drv d idx st (normalise f) r := by
  have hN : (d.size : ℂ) ≠ 0 := by have := r.2; exact_mod_cast (by omega : d.size ≠ 0)
  have hn : ∀ g : Fin idx.length → ℂ, normalise g = fun j => (1 / (Real.sqrt (TDDFT.norm2 g) : ℂ)) * g j := by
    intro g
    funext j
    unfold normalise TDDFT.norm2
    ring
  rw [hn, hn, wfR_smul drv d idx hv, wfR_smul drv d idx hv, kick_norm_full drv d idx hv hfull, Real.sqrt_mul (sq_nonneg _), Real.sqrt_sq (Nat.cast_nonneg _)]
  have : wfR drv d idx st (kick drv d idx st kap x f) r = d.size * (wfR drv d idx st f r * Complex.exp (-Complex.I * kap * x r)) := by
    unfold kick
    rw [TDDFT.wfR_wfG_full drv d idx hv hfull]
  rw [this]
  push_cast
  by_cases h0 : (Real.sqrt (TDDFT.norm2 f) : ℂ) = 0
  · rw [h0]; simp
  · field_simp

/-- **C194a.** On a basis as large as the grid the kick changes no density: the density computed from the kicked orbitals is that of the orbitals before the kick, at every grid point, for every strength. Overlaps of
orbitals are kept up to the constant that normalisation removes. -/
theorem C194_kick_density_partial (drv : Driver) (d : Dims) (idx : List ℕ) (hv : ValidIdx d idx) (hfull : idx.length = d.size) (st : DrvState ℂ) {nb : ℕ} (kw vol : ℝ) (occ : Fin nb → ℝ) (evc : Fin nb → Fin idx.length → ℂ)
    (kap : ℝ) (x : Fin d.size → ℝ) :
    (∀ r, density drv d idx st kw vol occ (fun b => kick drv d idx st kap x (evc b)) r = density drv d idx st kw vol occ evc r) ∧
    ∀ b b', ∑ j, (starRingEnd ℂ) (kick drv d idx st kap x (evc b) j) * kick drv d idx st kap x (evc b') j = (d.size : ℂ) ^ 2 * ∑ j, (starRingEnd ℂ) (evc b j) * evc b' j := by
  refine ⟨fun r => ?_, fun b b' => kick_dot drv d idx hv hfull st kap x (evc b) (evc b')⟩
  unfold density
  have : ∀ b, Complex.normSq (wfR drv d idx st (normalise (kick drv d idx st kap x (evc b))) r) = Complex.normSq (wfR drv d idx st (normalise (evc b)) r) := by
    intro b
    rw [kick_real drv d idx hv hfull, Complex.normSq_mul, Complex.normSq_eq_norm_sq (Complex.exp _), phase_norm]
    simp
  simp only [this]

/-- **C194b.** A kick of strength zero changes nothing on any basis, and on a basis as large as the grid two kicks in a row are one of the sum of their strengths (as states in real space, after normalisation). -/
theorem C194_kick_group (drv : Driver) (d : Dims) (idx : List ℕ) (hv : ValidIdx d idx) (st : DrvState ℂ) (x : Fin d.size → ℝ) (f : Fin idx.length → ℂ) :
    (∀ j, kick drv d idx st 0 x f j = d.size * f j) ∧
    (idx.length = d.size → ∀ k1 k2 r, wfR drv d idx st (normalise (kick drv d idx st k1 x (kick drv d idx st k2 x f))) r = wfR drv d idx st (normalise (kick drv d idx st (k1 + k2) x f)) r) := by
  constructor
  · intro j
    unfold kick
    have : (fun r => wfR drv d idx st f r * Complex.exp (-Complex.I * ((0 : ℝ) : ℂ) * x r)) = wfR drv d idx st f := by
      funext r
      simp
    rw [this, TDDFT.wfG_wfR drv d idx hv]
  · intro hfull k1 k2 r
    rw [kick_real drv d idx hv hfull, kick_real drv d idx hv hfull, kick_real drv d idx hv hfull, ← mul_assoc, ← Complex.exp_add]
    congr 2
    push_cast
    ring

/-- **C194c.** On every basis the kick multiplies no squared norm by more than the square of the number of grid points: what a truncated basis cannot hold is lost (and normalisation then scales up the rest). -/
theorem C194_kick_contracts (drv : Driver) (d : Dims) (idx : List ℕ) (hv : ValidIdx d idx) (st : DrvState ℂ) (kap : ℝ) (x : Fin d.size → ℝ) (f : Fin idx.length → ℂ) :
    ∑ j, Complex.normSq (kick drv d idx st kap x f j) ≤ (d.size : ℝ) ^ 2 * ∑ j, Complex.normSq (f j) := by
  show TDDFT.norm2 (wfG drv d idx st _) ≤ (d.size : ℝ) ^ 2 * TDDFT.norm2 f
  refine (TDDFT.wfG_bessel drv d idx hv st _).trans (le_of_eq ?_)
  have e : TDDFT.norm2 (fun r => wfR drv d idx st f r * Complex.exp (-Complex.I * kap * x r)) = TDDFT.norm2 (wfR drv d idx st f) := by
    unfold TDDFT.norm2
    refine Finset.sum_congr rfl fun r _ => ?_
    rw [Complex.normSq_mul, Complex.normSq_eq_norm_sq (Complex.exp _), phase_norm]
    simp
  have e2 : TDDFT.norm2 (wfR drv d idx st f) = d.size * TDDFT.norm2 f := by
    have := TDDFT.dot_wfR drv d idx hv st f f
    rw [TDDFT.norm2_dot, TDDFT.norm2_dot] at this
    exact_mod_cast this
  rw [e, e2]
  ring

/-- **C194f (violation).** On a basis smaller than the grid, as it is used in practice, the kick need not keep anything of an orbital: the constant function on a grid of two points, kicked so that the phases are 1 and -1,
becomes the zero vector (which cannot be normalised). -/
theorem C194_truncated_violated (drv : Driver) (st : DrvState ℂ) : ValidIdx ⟨2, 1, 1⟩ [0] ∧ ∀ j, kick drv ⟨2, 1, 1⟩ [0] st Real.pi (fun r => (r.1 : ℝ)) (fun _ => 1) j = 0 := by
  have hv : ValidIdx ⟨2, 1, 1⟩ [0] := by unfold ValidIdx; decide
  refine ⟨hv, fun j => ?_⟩
  have hj : j = ⟨0, by decide⟩ := Fin.ext (Nat.lt_one_iff.1 j.2)
  subst hj
  unfold kick
  rw [Nonloc.wfG_eq drv _ _ hv]
  have h1 : ∀ r : Fin (⟨2, 1, 1⟩ : Dims).size, wfR drv ⟨2, 1, 1⟩ [0] st (fun _ => 1) r = 1 := by
    intro r
    rw [Nonloc.wfR_eq drv _ _ hv]
    refine (Fin.sum_univ_one (fun i : Fin 1 => _)).trans ?_
    rw [FFT.dft_ker3_bwd]
    simp [FFT.Dims.ix, FFT.Dims.iy, FFT.Dims.iz]
  simp only [h1]
  refine (Fin.sum_univ_two (fun r : Fin 2 => _)).trans ?_
  rw [FFT.dft_ker3_fwd, FFT.dft_ker3_fwd]
  have e : Complex.exp (-(Complex.I * Real.pi)) = -1 := by
    have : (-(Complex.I * Real.pi) : ℂ) = -(Real.pi * Complex.I) := by ring
    rw [this, Complex.exp_neg, Complex.exp_pi_mul_I]
    norm_num
  simp [FFT.Dims.ix, FFT.Dims.iy, FFT.Dims.iz, e]

/-- **C194d.** The dipole is the sum over spins and grid points of the change of the density times the position; it is zero for the density it is measured against (the first recorded row), additive in the density, and
independent of the origin of the coordinates if no charge was gained or lost. -/
theorem C194_dipole {ns N : ℕ} (dv : ℝ) (x : Fin N → Vec) (rho rho' rho0 : Fin ns → Fin N → ℝ) (a : Fin 3) :
    dipole dv x rho rho0 a = ∑ s, ∑ r, (rho s r - rho0 s r) * x r a * dv ∧
    dipole dv x rho0 rho0 a = 0 ∧
    dipole dv x (fun s r => rho s r + (rho' s r - rho0 s r)) rho0 a = dipole dv x rho rho0 a + dipole dv x rho' rho0 a ∧
    (∑ s, ∑ r, rho s r = ∑ s, ∑ r, rho0 s r → ∀ c : Vec, dipole dv (fun r => x r + c) rho rho0 a = dipole dv x rho rho0 a) := by
  refine ⟨?_, ?_, ?_, ?_⟩
  · unfold dipole
    rw [Finset.sum_mul]
    exact Finset.sum_congr rfl fun s _ => Finset.sum_mul _ _ _
  · unfold dipole
    simp
  · unfold dipole
    rw [← add_mul, ← Finset.sum_add_distrib]
    congr 1
    refine Finset.sum_congr rfl fun s _ => ?_
    rw [← Finset.sum_add_distrib]
    exact Finset.sum_congr rfl fun r _ => by ring
  · intro h c
    unfold dipole
    congr 1
    have e : ∑ s, ∑ r, (rho s r - rho0 s r) * (x r + c) a = ∑ s, ∑ r, (rho s r - rho0 s r) * x r a + (∑ s, ∑ r, rho s r - ∑ s, ∑ r, rho0 s r) * c a := by
      rw [← Finset.sum_sub_distrib, Finset.sum_mul, ← Finset.sum_add_distrib]
      refine Finset.sum_congr rfl fun s _ => ?_
      rw [← Finset.sum_sub_distrib, Finset.sum_mul, ← Finset.sum_add_distrib]
      exact Finset.sum_congr rfl fun r _ => by rw [Pi.add_apply]; ring
    rw [e, h, sub_self, zero_mul, add_zero]

/-- **C194e.** Directions other than `"x"`, `"y"`, `"z"` are refused with `ValueError`; each of the three kicks along its own axis. -/
theorem C194_direction (s : String) : (s = "x" ∧ direction s = .ok 0) ∨ (s = "y" ∧ direction s = .ok 1) ∨ (s = "z" ∧ direction s = .ok 2) ∨ (s ≠ "x" ∧ s ≠ "y" ∧ s ≠ "z" ∧ direction s = .error .value) := by
  unfold direction
  by_cases h1 : s = "x"
  · left; exact ⟨h1, by rw [if_pos h1]⟩
  by_cases h2 : s = "y"
  · right; left; exact ⟨h2, by rw [if_neg h1, if_pos h2]⟩
  by_cases h3 : s = "z"
  · right; right; left; exact ⟨h3, by rw [if_neg h1, if_neg h2, if_pos h3]⟩
  · right; right; right; exact ⟨h1, h2, h3, by rw [if_neg h1, if_neg h2, if_neg h3]⟩

/-- A basis as large as the grid. -/
example : ValidIdx ⟨2, 2, 1⟩ [0, 1, 2, 3] ∧ [0, 1, 2, 3].length = (⟨2, 2, 1⟩ : Dims).size := by
  constructor
  · unfold ValidIdx; decide
  · rfl

end Verif.Mesh
