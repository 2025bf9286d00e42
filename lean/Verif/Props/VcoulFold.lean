import Mathlib.Algebra.Module.ZLattice.Basic
import Mathlib.Geometry.Euclidean.PerpBisector
import Mathlib.MeasureTheory.Function.Floor
import Verif.Props.VcoulMC

/-!
# C151: folded samples are uniform on the cell
-/

namespace Verif.Vcoul

open Verif MeasureTheory Metric Set Module

/-- The points strictly closer to the origin than to any other point of the lattice. -/
def Inner (L : AddSubgroup E3) : Set E3 := {x | ∀ p ∈ L, p ≠ 0 → ‖x‖ < ‖x - p‖}

theorem inner_sub_cell (L : AddSubgroup E3) : Inner L ⊆ Cell L := by
  intro x hx p hp
  by_cases h0 : p = 0
  · simp [h0]
  · exact (hx p hp h0).le

theorem tie_null (p : E3) (hp : p ≠ 0) : volume {x : E3 | ‖x‖ = ‖x - p‖} = 0 := by
  have h : {x : E3 | ‖x‖ = ‖x - p‖} ⊆ (AffineSubspace.perpBisector (0 : E3) p : Set E3) := by
    intro x hx
    rw [SetLike.mem_coe, AffineSubspace.mem_perpBisector_iff_dist_eq, dist_zero_right, dist_eq_norm]
    exact hx
  refine measure_mono_null h (Measure.addHaar_affineSubspace _ _ ?_)
  rw [Ne, AffineSubspace.perpBisector_eq_top]
  exact fun h => hp h.symm

theorem ties_null (L : AddSubgroup E3) [Countable L] : volume (Cell L \ Inner L) = 0 := by
  have h : Cell L \ Inner L ⊆ ⋃ p : {p : L // p ≠ 0}, {x : E3 | ‖x‖ = ‖x - (p : L)‖} := by
    rintro x ⟨hc, hi⟩
    simp only [Inner, mem_setOf_eq, not_forall, not_lt] at hi
    obtain ⟨p, hp, h0, hle⟩ := hi
    exact mem_iUnion.2 ⟨⟨⟨p, hp⟩, fun e => h0 (congrArg Subtype.val e)⟩, le_antisymm (hc p hp) hle⟩
  refine measure_mono_null h (measure_iUnion_null fun p => tie_null _ fun e => p.2 (Subtype.ext e))

theorem inner_meas (L : AddSubgroup E3) [Countable L] : MeasurableSet (Inner L) := by
  have h : Inner L = ⋂ p : L, {x : E3 | (p : E3) ≠ 0 → ‖x‖ < ‖x - p‖} := by
    ext x; simp [Inner]
  rw [h]
  refine MeasurableSet.iInter fun p => ?_
  by_cases h0 : (p : E3) = 0
  · simp [h0]
  · simp only [ne_eq, h0, not_false_eq_true, forall_true_left]
    exact measurableSet_lt (by fun_prop) (by fun_prop)

/-- Two points of the strict cell that differ by a lattice vector are equal. -/
theorem inner_unique {L : AddSubgroup E3} {x y : E3} (hx : x ∈ Inner L) (hy : y ∈ Inner L) (h : x - y ∈ L) : x = y := by
  by_contra hne
  have h1 := hx (x - y) h (sub_ne_zero.2 hne)
  have h2 := hy (y - x) (by rw [← neg_sub]; exact L.neg_mem h) (sub_ne_zero.2 (Ne.symm hne))
  rw [sub_sub_cancel] at h1 h2
  exact lt_asymm h1 h2

/-- `near` returns a point of the lattice nearest to its argument. -/
structure Nearest (L : AddSubgroup E3) (near : E3 → E3) : Prop where
  mem : ∀ p, near p ∈ L
  le : ∀ p, ∀ a ∈ L, ‖p - near p‖ ≤ ‖p - a‖

theorem folded_ae (L : AddSubgroup E3) [Countable L] (near : E3 → E3) (hn : Nearest L near) : volume {p : E3 | p - near p ∉ Inner L} = 0 := by
  have h : {p : E3 | p - near p ∉ Inner L} ⊆ ⋃ l : L, (fun p => p - (l : E3)) ⁻¹' (Cell L \ Inner L) := by
    intro p hp
    exact mem_iUnion.2 ⟨⟨near p, hn.mem p⟩, (C151_fold_in_cell L near p (hn.mem p) (hn.le p)).1, hp⟩
  refine measure_mono_null h (measure_iUnion_null fun l => ?_)
  exact ((measurePreserving_sub_right volume (l : E3)).quasiMeasurePreserving).preimage_null (ties_null L)

theorem inner_fundamental (L : AddSubgroup E3) [Countable L] (near : E3 → E3) (hn : Nearest L near) : IsAddFundamentalDomain L (Inner L) (volume : Measure E3) := by
  refine ⟨(inner_meas L).nullMeasurableSet, ?_, ?_⟩
  · have h := folded_ae L near hn
    rw [← ae_iff] at h
    filter_upwards [h] with p hp
    refine ⟨⟨-near p, L.neg_mem (hn.mem p)⟩, ?_⟩
    rw [AddSubgroup.vadd_def, vadd_eq_add, neg_add_eq_sub]
    exact hp
  · intro g g' hne
    refine Disjoint.aedisjoint ?_
    rw [Set.disjoint_left]
    rintro x ⟨a, ha, rfl⟩ ⟨b, hb, hab⟩
    simp only [AddSubgroup.vadd_def, vadd_eq_add] at hab
    have hd : b - a = (g : E3) - g' := by rw [sub_eq_sub_iff_add_eq_add, add_comm, hab, add_comm]
    have := inner_unique hb ha (by rw [hd]; exact L.sub_mem g.2 g'.2)
    rw [this, add_left_inj] at hab
    exact hne (Subtype.ext hab.symm)

/-- Folding maps every fundamental domain of the lattice onto the cell, preserving volumes. -/
theorem fold_measure (L : AddSubgroup E3) [Countable L] (F : Set E3) (hF : IsAddFundamentalDomain L F (volume : Measure E3)) (near : E3 → E3) (hn : Nearest L near) (A : Set E3)
    (hA : MeasurableSet A) : volume (fold near ⁻¹' A ∩ F) = volume (A ∩ Cell L) := by
  obtain ⟨A', hA'⟩ : ∃ A' : Set E3, A' = ⋃ l : L, (fun p => p - (l : E3)) ⁻¹' (A ∩ Inner L) := ⟨_, rfl⟩
  have hm : MeasurableSet A' := by
    rw [hA']
    exact MeasurableSet.iUnion fun l => (by fun_prop : Measurable fun p : E3 => p - (l : E3)) (hA.inter (inner_meas L))
  have hinv : ∀ g : L, (fun x => g +ᵥ x) ⁻¹' A' = A' := by
    intro g
    ext x
    simp only [hA', mem_preimage, mem_iUnion, AddSubgroup.vadd_def, vadd_eq_add]
    constructor
    · rintro ⟨l, hl⟩
      refine ⟨l - g, ?_⟩
      rwa [AddSubgroup.coe_sub, sub_sub_eq_add_sub, add_comm x]
    · rintro ⟨l, hl⟩
      refine ⟨l + g, ?_⟩
      rwa [AddSubgroup.coe_add, add_comm (l : E3), add_sub_add_left_eq_sub]
  have h1 : volume (A' ∩ F) = volume (A' ∩ Inner L) := hF.measure_set_eq (inner_fundamental L near hn) hm hinv
  have h2 : A' ∩ Inner L = A ∩ Inner L := by
    ext x
    simp only [hA', mem_inter_iff, mem_iUnion, mem_preimage]
    constructor
    · rintro ⟨⟨l, hl1, hl2⟩, hx⟩
      have e := inner_unique hx hl2 (by rw [sub_sub_cancel]; exact l.2)
      rw [← e] at hl1
      exact ⟨hl1, hx⟩
    · rintro ⟨hx1, hx2⟩
      exact ⟨⟨0, by simpa using hx1, by simpa using hx2⟩, hx2⟩
  have h3 : volume (A ∩ Cell L) = volume (A ∩ Inner L) := by
    refine measure_congr ?_
    refine Filter.EventuallyEq.inter (Filter.EventuallyEq.refl _ _) ?_
    exact (ae_eq_set.2 ⟨ties_null L, by rw [diff_eq_empty.2 (inner_sub_cell L)]; exact measure_empty⟩)
  have h4 : volume (fold near ⁻¹' A ∩ F) = volume (A' ∩ F) := by
    refine measure_congr (Filter.EventuallyEq.inter ?_ (Filter.EventuallyEq.refl _ _))
    have h := folded_ae L near hn
    rw [← ae_iff] at h
    filter_upwards [h] with p hp
    simp only [eq_iff_iff]
    show p ∈ fold near ⁻¹' A ↔ p ∈ A'
    simp only [hA', mem_preimage, mem_iUnion, fold]
    constructor
    · intro hpa
      exact ⟨⟨near p, hn.mem p⟩, hpa, hp⟩
    · rintro ⟨l, hl1, hl2⟩
      have e := inner_unique hp hl2 (by rw [sub_sub_sub_cancel_left]; exact L.sub_mem l.2 (hn.mem p))
      rwa [← e] at hl1
  rw [h4, h1, h2, h3]

/-- C151: samples uniform on any fundamental domain of the lattice are, after folding, uniform on the cell of the origin. -/
theorem C151_fold_uniform {Ω : Type*} [MeasurableSpace Ω] (P : Measure Ω) (L : AddSubgroup E3) [Countable L] (F : Set E3) (hF : IsAddFundamentalDomain L F (volume : Measure E3))
    (near : E3 → E3) (hm : Measurable near) (hn : Nearest L near) (X : Ω → E3) (hX : Uniform P X F) : Uniform P (fun ω => fold near (X ω)) (Cell L) := by
  have hf : Measurable (fold near) := by unfold fold; fun_prop
  refine ⟨hf.comp hX.1, ?_⟩
  have hv : volume (Cell L) = volume F := by
    have := fold_measure L F hF near hn univ MeasurableSet.univ
    simpa using this.symm
  ext A hA
  have e : P.map (fun ω => fold near (X ω)) A = P.map X (fold near ⁻¹' A) := by
    show P.map (fold near ∘ X) A = _
    rw [Measure.map_apply (hf.comp hX.1) hA, Measure.map_apply hX.1 (hf hA)]
    rfl
  rw [e, hX.2, Measure.smul_apply, Measure.smul_apply, Measure.restrict_apply (hf hA), Measure.restrict_apply hA, fold_measure L F hF near hn A hA, hv]

/-- The lattice of the points of an n × n × n mesh, spanned by the reciprocal basis divided by n. -/
noncomputable abbrev meshLattice (c : Basis (Fin 3) ℝ E3) : AddSubgroup E3 := (Submodule.span ℤ (range c)).toAddSubgroup

instance (c : Basis (Fin 3) ℝ E3) : Countable (meshLattice c) := inferInstanceAs (Countable (Submodule.span ℤ (range c)))

/-- C151: on an n × n × n mesh the samples before folding lie in the parallelepiped of the mesh. -/
theorem C151_samples_in_mesh (I : Inp) (n : ℕ) (hn : 0 < n) (hq : I.qs.length = n ^ 3) (c : Basis (Fin 3) ℝ E3) (hc : ∀ i, c i = (1 / (n : ℝ)) • I.b i) (raw : ℕ → ℕ)
    (hraw : ∀ j, raw j < 2 ^ 32) (i : ℕ) : sample I raw i ∈ ZSpan.fundamentalDomain c := by
  have hn' : (n : ℝ) ≠ 0 := by exact_mod_cast hn.ne'
  have hroot : ((I.qs.length : ℕ) : ℝ) ^ (1 / 3 : ℝ) = n := by
    rw [hq]
    push_cast
    rw [← Real.rpow_natCast, ← Real.rpow_mul (by positivity)]
    norm_num
  have e : sample I raw i = ∑ j : Fin 3, ((raw (3 * i + j) : ℝ) / 2 ^ 32) • c j := by
    unfold sample cart
    refine Finset.sum_congr rfl fun j _ => ?_
    rw [hc, smul_smul, hroot]
    congr 1
    field_simp
  rw [e, ZSpan.mem_fundamentalDomain]
  intro j
  rw [map_sum, Finsupp.finset_sum_apply]
  simp only [map_smul, Finsupp.smul_apply, Basis.repr_self, Finsupp.single_apply, smul_eq_mul, mul_ite, mul_one, mul_zero, Finset.sum_ite_eq', Finset.mem_univ, if_true]
  refine ⟨by positivity, ?_⟩
  rw [div_lt_one (by positivity)]
  exact_mod_cast hraw _

open Classical in
/-- C151: on an n × n × n mesh, with samples uniform on the parallelepiped of the mesh and a search that returns a nearest point of the mesh, the value at q = 0 has as expectation the average of 8π/|q|² over
the cell of the origin, and the second value that of 8π/|q|. -/
theorem C151_mesh {Ω : Type*} [MeasurableSpace Ω] (P : Measure Ω) [IsProbabilityMeasure P] (c : Basis (Fin 3) ℝ E3) (near : E3 → E3) (hm : Measurable near) (hnear : Nearest (meshLattice c) near)
    (X : ℕ → Ω → E3) (hX : ∀ i, Uniform P (X i) (ZSpan.fundamentalDomain c)) (cellvol : ℝ) (nq : ℕ) (Q : ℝ) (ns : ℕ)
    (hv : volume.real (ZSpan.fundamentalDomain c) = (2 * Real.pi) ^ 3 / (cellvol * nq)) (hpos : 0 < cellvol * nq) (hQ : 0 < Q) (hQB : closedBall 0 Q ⊆ Cell (meshLattice c)) (hns : 0 < ns) :
    ∫ ω, (combineZero cellvol nq Q ns fun i => fold near (X i ω)).1 ∂P = ⨍ q in Cell (meshLattice c), 8 * Real.pi / ‖q‖ ^ 2 ∧
    ∫ ω, (combineZero cellvol nq Q ns fun i => fold near (X i ω)).2 ∂P = ⨍ q in Cell (meshLattice c), 8 * Real.pi / ‖q‖ := by
  have hF : IsAddFundamentalDomain (meshLattice c) (ZSpan.fundamentalDomain c) (volume : Measure E3) := ZSpan.isAddFundamentalDomain' c volume
  refine C151_unbiased P (fun i ω => fold near (X i ω)) (Cell (meshLattice c)) (fun i => C151_fold_uniform P _ _ hF near hm hnear (X i) (hX i)) cellvol nq Q ns ?_ hpos hQ hQB hns
  rw [← hv]
  have := fold_measure (meshLattice c) _ hF near hnear univ MeasurableSet.univ
  simp only [preimage_univ, univ_inter] at this
  rw [measureReal_def, measureReal_def, this]

open Classical in
/-- C151: the same for another shift, if the value is a number. -/
theorem C151_mesh_shift {Ω : Type*} [MeasurableSpace Ω] (P : Measure Ω) (c : Basis (Fin 3) ℝ E3) (near : E3 → E3) (hm : Measurable near) (hnear : Nearest (meshLattice c) near)
    (X : ℕ → Ω → E3) (hX : ∀ i, Uniform P (X i) (ZSpan.fundamentalDomain c)) (s : E3) (v : ℝ) (ns : ℕ) (hns : 0 < ns) :
    (∃ f : Ω → ℝ, (∀ ω, (combineShift (some v) s ns fun i => fold near (X i ω)).1 = some (f ω)) ∧ ∫ ω, f ω ∂P = ⨍ q in Cell (meshLattice c), 8 * Real.pi / ‖q + s‖ ^ 2) ∧
    ∫ ω, (combineShift (some v) s ns fun i => fold near (X i ω)).2 ∂P = ⨍ q in Cell (meshLattice c), 8 * Real.pi / ‖q + s‖ := by
  have hF : IsAddFundamentalDomain (meshLattice c) (ZSpan.fundamentalDomain c) (volume : Measure E3) := ZSpan.isAddFundamentalDomain' c volume
  have hv := fold_measure (meshLattice c) _ hF near hnear univ MeasurableSet.univ
  simp only [preimage_univ, univ_inter] at hv
  refine C151_unbiased_shift P (fun i ω => fold near (X i ω)) (Cell (meshLattice c)) (fun i => C151_fold_uniform P _ _ hF near hm hnear (X i) (hX i)) s v ns ?_ ?_ hns
  · rw [← hv]; exact ZSpan.measure_fundamentalDomain_ne_zero c
  · rw [← hv]; exact (ZSpan.fundamentalDomain_isBounded c).measure_lt_top.ne

/-- The cubic mesh with unit spacing, and rounding of the coordinates: the search the theorems ask for exists. -/
noncomputable def cubicMesh : Basis (Fin 3) ℝ E3 := (EuclideanSpace.basisFun (Fin 3) ℝ).toBasis

noncomputable def roundOff (p : E3) : E3 := WithLp.toLp 2 fun i => (round (p i) : ℝ)

theorem mem_cubicMesh (x : E3) : x ∈ meshLattice cubicMesh ↔ ∀ i, ∃ z : ℤ, x i = z := by
  show x ∈ Submodule.span ℤ (range cubicMesh) ↔ _
  rw [Basis.mem_span_iff_repr_mem]
  refine forall_congr' fun i => ?_
  simp [cubicMesh, eq_comm]

example : Nearest (meshLattice cubicMesh) roundOff where
  mem p := by rw [mem_cubicMesh]; exact fun i => ⟨round (p i), rfl⟩
  le p a ha := by
    rw [mem_cubicMesh] at ha
    rw [EuclideanSpace.norm_eq, EuclideanSpace.norm_eq]
    refine Real.sqrt_le_sqrt (Finset.sum_le_sum fun i _ => ?_)
    obtain ⟨z, hz⟩ := ha i
    have h := round_le (p i) z
    rw [← hz] at h
    simp only [PiLp.sub_apply, Real.norm_eq_abs]
    exact pow_le_pow_left₀ (abs_nonneg _) h 2

example : Measurable roundOff := by
  have h : Measurable fun x : ℝ => (round x : ℝ) := by
    simp only [round_eq]
    exact (Measurable.of_discrete (f := fun z : ℤ => (z : ℝ))).comp (Int.measurable_floor.comp (measurable_add_const _))
  have h2 : Measurable fun p : E3 => fun i : Fin 3 => (round (p i) : ℝ) := measurable_pi_iff.2 fun i => h.comp (by fun_prop)
  exact (PiLp.continuous_toLp 2 _).measurable.comp h2

end Verif.Vcoul
