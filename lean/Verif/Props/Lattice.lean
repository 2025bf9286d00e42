import Mathlib.Tactic.Ring
import Mathlib.Tactic.Linarith
import Mathlib.Tactic.Positivity
import Mathlib.Tactic.FieldSimp
import Mathlib.Data.Real.Basic
import Mathlib.Algebra.Order.Chebyshev
import Mathlib.Algebra.Order.BigOperators.Ring.Finset
import Verif.Model.Lattice
import Verif.Props.GSpace

/-!
# Properties C13, C26, C27: lattices and the cutoff sphere
-/

namespace Verif.Lattice

open Matrix

theorem mkLat_ok {u : ℝ} {A : Mat} {L : Lat} (h : mkLat u A = .ok L) :
    A.det ≠ 0 ∧ L.unit = u ∧ L.primvec = A ∧ L.primvecInv = A⁻¹ ∧ L.metric = Aᵀ * A ∧
      L.cellvol = |A.det| := by
  unfold mkLat at h
  split_ifs at h with hd
  simp only [Except.ok.injEq] at h
  subst h
  exact ⟨hd, rfl, rfl, rfl, rfl, rfl⟩

/-! ## C26 -/

theorem dot_self_nonneg (v : Vec) : 0 ≤ v ⬝ᵥ v := by
  unfold dotProduct; exact Finset.sum_nonneg fun i _ => mul_self_nonneg (v i)

theorem dot_self_eq_zero (v : Vec) : v ⬝ᵥ v = 0 ↔ v = 0 := by
  unfold dotProduct
  rw [Finset.sum_eq_zero_iff_of_nonneg fun i _ => mul_self_nonneg (v i)]
  simp [funext_iff]

/-- **C26.** For every lattice that the constructor accepts (it accepts exactly the non-singular ones)
with non-zero length unit, every pair of coordinate conversions is mutually inverse. -/
theorem C26_conversions_inverse (u : ℝ) (A : Mat) :
    ((∃ L, mkLat u A = .ok L) ↔ A.det ≠ 0) ∧
    ∀ L, mkLat u A = .ok L → u ≠ 0 → ∀ v : Vec,
      L.cart2cryst (L.cryst2cart v) = v ∧ L.cryst2cart (L.cart2cryst v) = v ∧
      L.unit2cart (L.cart2unit v) = v ∧ L.cart2unit (L.unit2cart v) = v ∧
      L.unit2cryst (L.cryst2unit v) = v ∧ L.cryst2unit (L.unit2cryst v) = v := by
  constructor
  · constructor
    · rintro ⟨L, h⟩; exact (mkLat_ok h).1
    · intro h; exact ⟨_, by unfold mkLat; rw [if_neg h]⟩
  · intro L h hu v
    obtain ⟨hd, e1, e2, e3, _, _⟩ := mkLat_ok h
    have hdet : IsUnit A.det := isUnit_iff_ne_zero.2 hd
    have a1 : ∀ w : Vec, L.cart2cryst (L.cryst2cart w) = w := by
      intro w
      simp only [Lat.cart2cryst, Lat.cryst2cart, e2, e3, Matrix.mulVec_mulVec,
        Matrix.nonsing_inv_mul _ hdet, Matrix.one_mulVec]
    have a2 : ∀ w : Vec, L.cryst2cart (L.cart2cryst w) = w := by
      intro w
      simp only [Lat.cart2cryst, Lat.cryst2cart, e2, e3, Matrix.mulVec_mulVec,
        Matrix.mul_nonsing_inv _ hdet, Matrix.one_mulVec]
    have hu' : L.unit ≠ 0 := by rw [e1]; exact hu
    refine ⟨a1 v, a2 v, ?_, ?_, ?_, ?_⟩
    · funext i; simp [Lat.unit2cart, Lat.cart2unit, hu']
    · funext i; simp [Lat.unit2cart, Lat.cart2unit, hu']
    · funext i
      have : L.cryst2unit v = (L.unit)⁻¹ • L.cryst2cart v := by
        funext j; simp [Lat.cryst2unit, div_eq_inv_mul]
      simp only [Lat.unit2cryst, this]
      have h2 : L.cart2cryst ((L.unit)⁻¹ • L.cryst2cart v) = (L.unit)⁻¹ • v := by
        have := a1 v
        simp only [Lat.cart2cryst, Matrix.mulVec_smul] at this ⊢
        rw [this]
      rw [h2]; simp [hu', mul_comm]
    · funext i
      have : L.unit2cryst v = L.unit • L.cart2cryst v := by
        funext j; simp [Lat.unit2cryst, mul_comm]
      simp only [Lat.cryst2unit, this]
      have h2 : L.cryst2cart (L.unit • L.cart2cryst v) = L.unit • v := by
        have := a2 v
        simp only [Lat.cryst2cart, Matrix.mulVec_smul] at this ⊢
        rw [this]
      rw [h2]; simp [hu']

/-- **C26 (metric).** Dot products and squared lengths computed in crystal coordinates with the metric,
or in 'alat'/'tpiba' units, equal those of the Cartesian vectors; squared lengths are non-negative and
vanish only for the zero vector. -/
theorem C26_metric (u : ℝ) (A : Mat) (L : Lat) (h : mkLat u A = .ok L) (v w : Vec) :
    L.dotCryst v w = dotCart (L.cryst2cart v) (L.cryst2cart w) ∧
    L.norm2Cryst v = dotCart (L.cryst2cart v) (L.cryst2cart v) ∧
    L.dotUnit v w = dotCart (L.unit2cart v) (L.unit2cart w) ∧
    0 ≤ L.norm2Cryst v ∧ (L.norm2Cryst v = 0 ↔ v = 0) := by
  obtain ⟨hd, e1, e2, e3, e4, _⟩ := mkLat_ok h
  have hdet : IsUnit A.det := isUnit_iff_ne_zero.2 hd
  have key : ∀ v w : Vec, L.dotCryst v w = dotCart (L.cryst2cart v) (L.cryst2cart w) := by
    intro v w
    simp only [Lat.dotCryst, dotCart, Lat.cryst2cart, e2, e4]
    rw [← Matrix.mulVec_mulVec, Matrix.dotProduct_mulVec, Matrix.vecMul_transpose]
  have hn : L.norm2Cryst v = dotCart (L.cryst2cart v) (L.cryst2cart v) := by
    rw [← key]; rfl
  refine ⟨key v w, hn, ?_, ?_, ?_⟩
  · simp only [Lat.dotUnit, dotCart, Lat.unit2cart, dotProduct, Finset.sum_mul]
    exact Finset.sum_congr rfl fun i _ => by ring
  · rw [hn]; exact dot_self_nonneg _
  · rw [hn]
    unfold dotCart
    rw [dot_self_eq_zero]
    constructor
    · intro h0
      have : L.cart2cryst (L.cryst2cart v) = v := by
        simp only [Lat.cart2cryst, Lat.cryst2cart, e2, e3, Matrix.mulVec_mulVec,
          Matrix.nonsing_inv_mul _ hdet, Matrix.one_mulVec]
      rw [← this, h0, Lat.cart2cryst, Matrix.mulVec_zero]
    · intro h0; rw [h0, Lat.cryst2cart, Matrix.mulVec_zero]

/-! ## C27 -/

theorem TPI_ne : TPI ≠ 0 := by unfold TPI; positivity

/-- **C27.** Every real lattice has a reciprocal lattice; their primitive vectors satisfy
`a_i · b_j = 2π δ_ij`; going back gives the original vectors and length unit; and the cell volumes
multiply to `(2π)³`. -/
theorem C27_duality (a : ℝ) (A : Mat) (L : Lat) (h : mkLat a A = .ok L) :
    ∃ R, fromReallat L = .ok R ∧
      (∀ i j, L.axis i ⬝ᵥ R.axis j = if i = j then TPI else 0) ∧
      L.cellvol * R.cellvol = TPI ^ 3 ∧
      (∃ L', fromRecilat R = .ok L' ∧ L'.primvec = L.primvec ∧ L'.unit = L.unit) := by
  obtain ⟨hd, e1, e2, e3, e4, e5⟩ := mkLat_ok h
  have hdet : IsUnit A.det := isUnit_iff_ne_zero.2 hd
  have hdB : (TPI • (A⁻¹)ᵀ : Mat).det ≠ 0 := by
    rw [Matrix.det_smul, Matrix.det_transpose, Matrix.det_nonsing_inv]
    simp only [Fintype.card_fin, Ring.inverse_eq_inv']
    exact mul_ne_zero (pow_ne_zero _ TPI_ne) (inv_ne_zero hd)
  have hR : fromReallat L = .ok
      { unit := TPI / a, primvec := TPI • (A⁻¹)ᵀ, primvecInv := (TPI • (A⁻¹)ᵀ)⁻¹,
        metric := (TPI • (A⁻¹)ᵀ)ᵀ * (TPI • (A⁻¹)ᵀ), cellvol := |(TPI • (A⁻¹)ᵀ : Mat).det| } := by
    unfold fromReallat
    rw [e1, e3]
    unfold mkLat
    rw [if_neg hdB]
  have hinv : (TPI • (A⁻¹)ᵀ : Mat)⁻¹ = TPI⁻¹ • Aᵀ := by
    apply Matrix.inv_eq_right_inv
    rw [Matrix.smul_mul, Matrix.mul_smul, smul_smul, mul_inv_cancel₀ TPI_ne, one_smul,
      ← Matrix.transpose_mul, Matrix.mul_nonsing_inv _ hdet, Matrix.transpose_one]
  refine ⟨_, hR, ?_, ?_, ?_⟩
  · intro i j
    simp only [Lat.axis, e2, dotProduct, Matrix.smul_apply, Matrix.transpose_apply, smul_eq_mul]
    have hm : (A⁻¹ * A) j i = (1 : Mat) j i := by rw [Matrix.nonsing_inv_mul _ hdet]
    rw [Matrix.mul_apply] at hm
    calc ∑ k, A k i * (TPI * A⁻¹ j k) = TPI * ∑ k, A⁻¹ j k * A k i := by
          rw [Finset.mul_sum]; exact Finset.sum_congr rfl fun k _ => by ring
      _ = TPI * (1 : Mat) j i := by rw [hm]
      _ = _ := by
          rw [Matrix.one_apply]
          by_cases hij : i = j
          · simp [hij]
          · simp [hij, Ne.symm hij]
  · simp only [e5]
    rw [← abs_mul, Matrix.det_smul, Matrix.det_transpose, Matrix.det_nonsing_inv]
    simp only [Fintype.card_fin, Ring.inverse_eq_inv']
    rw [show A.det * (TPI ^ 3 * A.det⁻¹) = TPI ^ 3 by field_simp]
    exact abs_of_nonneg (by unfold TPI; positivity)
  · unfold fromRecilat
    simp only [hinv]
    have hback : TPI • (TPI⁻¹ • Aᵀ)ᵀ = A := by
      rw [Matrix.transpose_smul, Matrix.transpose_transpose, smul_smul, mul_inv_cancel₀ TPI_ne,
        one_smul]
    rw [hback]
    refine ⟨_, by unfold mkLat; rw [if_neg hd], e2.symm, ?_⟩
    show TPI / (TPI / a) = L.unit
    rw [e1, div_div_eq_mul_div, mul_div_assoc, mul_comm, div_mul_cancel₀ _ TPI_ne]

/-- A concrete non-orthogonal lattice (fcc primitive vectors) that the constructor accepts. -/
example : ∃ L, mkLat 10 !![0, 5, 5; 5, 0, 5; 5, 5, 0] = .ok L := by
  rw [(C26_conversions_inverse _ _).1]
  simp [Matrix.det_fin_three]

/-! ## C13 -/

theorem cauchy (u v : Vec) : (u ⬝ᵥ v) ^ 2 ≤ (u ⬝ᵥ u) * (v ⬝ᵥ v) := by
  have h := Finset.sum_mul_sq_le_sq_mul_sq Finset.univ u v
  simpa [dotProduct, sq] using h

/-- component of a lattice vector along the normal of the other two axes -/
theorem component_bound (G c : Vec) (m d E : ℝ) (h : G ⬝ᵥ c = m * d ∨ G ⬝ᵥ c = -(m * d)) (hd : d ≠ 0)
    (hG : G ⬝ᵥ G ≤ E) : |m| ≤ Real.sqrt E / (|d| / norm c) := by
  have hsq : (m * d) ^ 2 ≤ E * (c ⬝ᵥ c) := by
    have h1 := cauchy G c
    have h2 : (G ⬝ᵥ c) ^ 2 = (m * d) ^ 2 := by rcases h with h | h <;> simp [h]
    have h3 : 0 ≤ c ⬝ᵥ c := dot_self_nonneg _
    rw [h2] at h1
    exact h1.trans (mul_le_mul_of_nonneg_right hG h3)
  have hE : 0 ≤ E := le_trans (dot_self_nonneg _) hG
  have h4 : |m * d| ≤ Real.sqrt E * norm c := by
    unfold norm
    rw [← Real.sqrt_mul hE, ← Real.sqrt_sq_eq_abs]
    exact Real.sqrt_le_sqrt hsq
  have hd' : 0 < |d| := abs_pos.2 hd
  rw [div_div_eq_mul_div, le_div_iff₀ hd', ← abs_mul]
  exact h4

/-- Every integer vector inside the sphere has coordinates bounded by the minimal grid. -/
theorem coord_bound (u : ℝ) (B : Mat) (L : Lat) (h : mkLat u B = .ok L) (ecut : ℝ)
    (m : Fin 3 → ℤ) (hm : L.norm2Cryst (fun i => (m i : ℝ)) ≤ 2 * ecut) (i : Fin 3) :
    |m i| ≤ ⌊Real.sqrt (2 * ecut) / L.spacing i⌋ := by
  obtain ⟨hd, e1, e2, e3, e4, e5⟩ := mkLat_ok h
  rw [(C26_metric u B L h _ 0).2.1] at hm
  rw [Int.le_floor, Int.cast_abs]
  unfold dotCart at hm
  have hG : ∀ j, L.cryst2cart (fun i => (m i : ℝ)) j
      = B j 0 * m 0 + B j 1 * m 1 + B j 2 * m 2 := by
    intro j
    simp [Lat.cryst2cart, e2, Matrix.mulVec, dotProduct, Fin.sum_univ_three]
  have hdet := Matrix.det_fin_three B
  unfold Lat.spacing
  rw [e5]
  fin_cases i
  · refine component_bound _ _ _ _ _ (Or.inl ?_) hd hm
    show _ = (m 0 : ℝ) * det B
    simp only [dotProduct, Fin.sum_univ_three, hG, cross, Lat.axis, e2, hdet,
      Matrix.cons_val_zero, Matrix.cons_val_one, Matrix.cons_val]
    ring
  · refine component_bound _ _ _ _ _ (Or.inr ?_) hd hm
    show _ = -((m 1 : ℝ) * det B)
    simp only [dotProduct, Fin.sum_univ_three, hG, cross, Lat.axis, e2, hdet,
      Matrix.cons_val_zero, Matrix.cons_val_one, Matrix.cons_val]
    ring
  · refine component_bound _ _ _ _ _ (Or.inl ?_) hd hm
    show _ = (m 2 : ℝ) * det B
    simp only [dotProduct, Fin.sum_univ_three, hG, cross, Lat.axis, e2, hdet,
      Matrix.cons_val_zero, Matrix.cons_val_one, Matrix.cons_val]
    ring

theorem inRange_of_min (F : ℤ) (n : ℕ) (m : ℤ) (hF : |m| ≤ F) (hn : (2 * F + 1).toNat ≤ n) :
    GSpace.inRange n m = true := by
  rw [GSpace.inRange_iff]
  have := abs_le.1 hF
  omega

/-- **C13.** For every reciprocal lattice and every positive cutoff: every integer vector with
`|G|² ≤ 2·ecut` lies inside the minimal grid, and inside every grid at least that large. -/
theorem C13_sphere_fits (u : ℝ) (B : Mat) (L : Lat) (h : mkLat u B = .ok L) (ecut : ℝ)
    (s : GSpace.Shape) (h1 : minGridLen L ecut 0 ≤ s.n1) (h2 : minGridLen L ecut 1 ≤ s.n2)
    (h3 : minGridLen L ecut 2 ≤ s.n3) (g : GSpace.GVec)
    (hg : L.norm2Cryst (toVec g) ≤ 2 * ecut) : GSpace.inBounds s g = true := by
  have hv : toVec g = fun i => ((![g.1, g.2.1, g.2.2] i : ℤ) : ℝ) := by
    funext i; fin_cases i <;> simp [toVec]
  rw [hv] at hg
  have b := coord_bound u B L h ecut _ hg
  rw [GSpace.inBounds_iff]
  exact ⟨inRange_of_min _ _ _ (b 0) h1, inRange_of_min _ _ _ (b 1) h2, inRange_of_min _ _ _ (b 2) h3⟩

theorem minGridLen_pos (u : ℝ) (B : Mat) (L : Lat) (h : mkLat u B = .ok L) (ecut : ℝ) (he : 0 < ecut)
    (i : Fin 3) : 0 < minGridLen L ecut i := by
  have h0 : L.norm2Cryst (fun i => (((fun _ => 0) i : ℤ) : ℝ)) ≤ 2 * ecut := by
    have : (fun i : Fin 3 => (((fun _ => 0) i : ℤ) : ℝ)) = 0 := by funext i; simp
    rw [this, ((C26_metric u B L h 0 0).2.2.2.2).2 rfl]; linarith
  have := coord_bound u B L h ecut (fun _ => 0) h0 i
  simp only [abs_zero] at this
  unfold minGridLen; omega

/-- **C13 (whole construction).** For every reciprocal lattice and cutoff, building a G-space with the
default grid terminates, and if it returns a G-space this holds exactly the reciprocal-lattice vectors
with `|G|² ≤ 2·ecut`, each once — no plane wave inside the cutoff is lost. -/
theorem C13_default_gspace (u : ℝ) (B : Mat) (L : Lat) (h : mkLat u B = .ok L)
    (lenKey : GSpace.GVec → ℤ) (ecut : ℝ) (he : 0 < ecut) :
    (∃ fuel r, defaultGSpace L lenKey ecut fuel = some r) ∧
    ∀ fuel b, defaultGSpace L lenKey ecut fuel = some (.ok b) →
      (∀ g, g ∈ b.gCryst ↔ L.norm2Cryst (toVec g) ≤ 2 * ecut) ∧ b.gCryst.Nodup := by
  have mono : ∀ f n m, GSpace.optimalLen f n = some m → ∀ k, GSpace.optimalLen (f + k) n = some m := by
    intro f
    induction f with
    | zero => intro n m hm; simp [GSpace.optimalLen] at hm
    | succ f ih =>
      intro n m hm k
      rw [show f + 1 + k = (f + k) + 1 by omega]
      unfold GSpace.optimalLen at hm ⊢
      cases hG : GSpace.isGood (n + 1) n with
      | none => rw [hG] at hm; simp at hm
      | some r =>
        rw [hG] at hm
        simp only [Option.bind_some] at hm ⊢
        cases r with
        | true => simpa using hm
        | false => simp only [Bool.false_eq_true, if_false] at hm ⊢; exact ih _ _ hm k
  have low : ∀ f n m, 0 < n → GSpace.optimalLen f n = some m → n ≤ m := by
    intro f
    induction f with
    | zero => intro n m _ hm; simp [GSpace.optimalLen] at hm
    | succ f ih =>
      intro n m hn hm
      unfold GSpace.optimalLen at hm
      cases hG : GSpace.isGood (n + 1) n with
      | none => rw [hG] at hm; simp at hm
      | some r =>
        rw [hG] at hm
        simp only [Option.bind_some] at hm
        cases r with
        | true => simp at hm; omega
        | false =>
          simp only [Bool.false_eq_true, if_false] at hm
          have := ih _ _ (by omega) hm; omega
  have pos := minGridLen_pos u B L h ecut he
  constructor
  · obtain ⟨f0, m0, a0, _⟩ := GSpace.C14_optimal_grid _ (pos 0)
    obtain ⟨f1, m1, a1, _⟩ := GSpace.C14_optimal_grid _ (pos 1)
    obtain ⟨f2, m2, a2, _⟩ := GSpace.C14_optimal_grid _ (pos 2)
    have b0 := mono _ _ _ a0 (f1 + f2)
    have b1 := mono _ _ _ a1 (f0 + f2)
    have b2 := mono _ _ _ a2 (f0 + f1)
    rw [show f1 + (f0 + f2) = f0 + (f1 + f2) by omega] at b1
    rw [show f2 + (f0 + f1) = f0 + (f1 + f2) by omega] at b2
    refine ⟨f0 + (f1 + f2), GSpace.mkGSpace (fun g => L.norm2Cryst (toVec g)) lenKey (2 * ecut)
      ⟨m0, m1, m2⟩, ?_⟩
    unfold defaultGSpace
    rw [if_neg (by linarith), b0, b1, b2]
    rfl
  · intro fuel b hb
    unfold defaultGSpace at hb
    rw [if_neg (by linarith)] at hb
    cases c0 : GSpace.optimalLen fuel (minGridLen L ecut 0) with
    | none => rw [c0] at hb; simp at hb
    | some n1 =>
    cases c1 : GSpace.optimalLen fuel (minGridLen L ecut 1) with
    | none => rw [c0, c1] at hb; simp at hb
    | some n2 =>
    cases c2 : GSpace.optimalLen fuel (minGridLen L ecut 2) with
    | none => rw [c0, c1, c2] at hb; simp at hb
    | some n3 =>
    rw [c0, c1, c2] at hb
    simp only [Option.bind_some, Option.map_some, Option.some.injEq] at hb
    have l0 := low _ _ _ (pos 0) c0
    have l1 := low _ _ _ (pos 1) c1
    have l2 := low _ _ _ (pos 2) c2
    have hs : (⟨n1, n2, n3⟩ : GSpace.Shape).Pos :=
      ⟨lt_of_lt_of_le (pos 0) l0, lt_of_lt_of_le (pos 1) l1, lt_of_lt_of_le (pos 2) l2⟩
    obtain ⟨s1, s2, _, _⟩ := GSpace.C13_selects_sphere _ _ _ _ hs _ hb
    refine ⟨?_, s2⟩
    intro g
    rw [s1 g]
    exact ⟨fun hh => hh.2, fun hh => ⟨C13_sphere_fits u B L h ecut _ l0 l1 l2 g hh, hh⟩⟩

/-! ## Mesh coordinates -/

/-- Mesh points are returned in the cell centred at the origin: within half a lattice vector, and equal
to the requested point up to a whole lattice translation. -/
theorem C26_mesh_centred (n i : ℕ) (origin : ℝ) :
    |meshCoord n i origin| ≤ 1 / 2 ∧
    ∃ t : ℤ, meshCoord n i origin = (i : ℝ) / n - origin - t :=
  ⟨abs_sub_round _, ⟨_, rfl⟩⟩

end Verif.Lattice
