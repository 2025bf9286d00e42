import Verif.Model.GkCoords
import Verif.Props.Lattice
import Verif.Props.GSpace
import Verif.Props.Dist

/-!
# C177, C178: completeness of the plane-wave basis of a k-point, coordinates and lengths of its vectors

`L.norm2Cryst v` is the squared length of the vector with crystal coordinates `v` (C26).
-/

namespace Verif.GkCoords

open Verif.Lattice Verif.GSpace

theorem norm2_parallelogram (u : ℝ) (B : Mat) (L : Lat) (h : mkLat u B = .ok L) (v w : Vec) :
    L.norm2Cryst (fun i => v i - w i) + L.norm2Cryst (fun i => v i + w i) = 2 * L.norm2Cryst v + 2 * L.norm2Cryst w := by
  simp only [(C26_metric u B L h _ 0).2.1, dotCart, Lat.cryst2cart]
  have e1 : (fun i => v i - w i) = v - w := rfl
  have e2 : (fun i => v i + w i) = v + w := rfl
  rw [e1, e2, Matrix.mulVec_sub, Matrix.mulVec_add]
  simp only [sub_dotProduct, dotProduct_sub, add_dotProduct, dotProduct_add]
  ring

/-- The difference of two vectors of a sphere is in the sphere of twice the radius. -/
theorem norm2_sub_le (u : ℝ) (B : Mat) (L : Lat) (h : mkLat u B = .ok L) (v w : Vec) (s : ℝ) (hv : L.norm2Cryst v ≤ s) (hw : L.norm2Cryst w ≤ s) : L.norm2Cryst (fun i => v i - w i) ≤ 4 * s := by
  have h1 := norm2_parallelogram u B L h v w
  have h2 := (C26_metric u B L h (fun i => v i + w i) 0).2.2.2.1
  linarith

/-- The cutoff of the wavefunctions: what the caller gives, or a quarter of the cutoff of the G-space. -/
noncomputable def limit (ecut : ℝ) (e : Option ℝ) : ℝ := e.getD (ecut / 4)

theorem cutoff_eq (ecut : ℝ) (e : Option ℝ) : cutoff ecut e = limit ecut e := by cases e <;> rfl

/-- What the basis of a k-point is if the parent is a base. -/
theorem gkSpace_spec (L : Lat) (s : Shape) (gs : List GVec) (parent : Base) (hp : mkBase s gs = .ok parent) (hs : s.Pos) (hg : ∀ g ∈ gs, inBounds s g = true) (hne : gs ≠ []) (ecut : ℝ) (k : Vec)
    (e : Option ℝ) :
    (∀ r, gkSpace L parent ecut k e = .ok r → ∀ g, g ∈ r.base.gCryst ↔ g ∈ parent.gCryst ∧ L.norm2Cryst (plus k g) ≤ 2 * limit ecut e) ∧
      ((∃ g ∈ parent.gCryst, L.norm2Cryst (plus k g) ≤ 2 * limit ecut e) → ∃ r, gkSpace L parent ecut k e = .ok r) ∧
      ((∀ g ∈ parent.gCryst, ¬ L.norm2Cryst (plus k g) ≤ 2 * limit ecut e) → gkSpace L parent ecut k e = .error .index) := by
  classical
  rw [← cutoff_eq]
  refine ⟨fun r hr g => ?_, ?_, ?_⟩
  · unfold gkSpace at hr
    exact (C16_k_basis s hs gs hg hne _ _ parent hp r hr).1 g
  all_goals
    obtain ⟨b, hb, pp, _, _, _, hun⟩ := C11_canonical_order s hs gs hg hne
    obtain ⟨b2, hb2, hsh, _⟩ := mkBase_ok s hs gs hg hne
    have q : b = parent := by rw [hp] at hb; injection hb with hh; exact hh.symm
    have q2 : b2 = parent := by rw [hp] at hb2; injection hb2 with hh; exact hh.symm
    subst q; subst q2
    intro hex
    unfold gkSpace mkGk
    simp only [hun, hsh]
    generalize hidx : ((List.range gs.length).filter fun i => decide (L.norm2Cryst (plus k (at' gs i)) ≤ 2 * cutoff ecut e)) = idx
  · obtain ⟨g, hgm, hgn⟩ := hex
    have hg1 : g ∈ gs := pp.mem_iff.1 hgm
    obtain ⟨i, hi, rfl⟩ := List.getElem_of_mem hg1
    have hin : gather gs idx ≠ [] := by
      have : i ∈ idx := by
        rw [← hidx, List.mem_filter]
        refine ⟨by simpa using hi, ?_⟩
        rw [decide_eq_true_eq, show at' gs i = gs[i] from List.getD_eq_getElem _ _ hi]
        exact hgn
      intro hc
      unfold gather at hc
      rw [List.map_eq_nil_iff] at hc
      rw [hc] at this
      cases this
    have hall : ∀ g ∈ gather gs idx, inBounds s g = true := by
      intro g hg'
      unfold gather at hg'
      obtain ⟨j, hj, rfl⟩ := List.mem_map.1 hg'
      rw [← hidx, List.mem_filter, List.mem_range] at hj
      unfold at'
      rw [List.getD_eq_getElem (hn := hj.1)]
      exact hg _ (List.getElem_mem _)
    obtain ⟨b', hb', _⟩ := mkBase_ok s hs _ hall hin
    rw [hb']
    exact ⟨_, rfl⟩
  · have hidx0 : idx = [] := by
      rw [← hidx, List.filter_eq_nil_iff]
      intro i hi
      rw [List.mem_range] at hi
      rw [decide_eq_true_eq, show at' gs i = gs[i] from List.getD_eq_getElem _ _ hi]
      exact hex _ (pp.mem_iff.2 (List.getElem_mem _))
    subst hidx0
    have : mkBase s (gather gs []) = .error .index := by
      unfold mkBase
      rw [show gather gs [] = [] from rfl, (C10_index_bijection s hs).1 [] (by simp)]
      simp [sortG, gather]
    rw [this]

/-- The G-space built with the default grid, as `gkSpace_spec` needs it. -/
theorem default_ok (u : ℝ) (B : Mat) (L : Lat) (h : mkLat u B = .ok L) (lenKey : GVec → ℤ) (ecut : ℝ) (he : 0 < ecut) (fuel : ℕ) (b : Base) (hb : defaultGSpace L lenKey ecut fuel = some (.ok b)) :
    ∃ s : Shape, ∃ gs, mkBase s gs = .ok b ∧ s.Pos ∧ (∀ g ∈ gs, inBounds s g = true) ∧ gs ≠ [] := by
  unfold defaultGSpace at hb
  rw [if_neg (by linarith)] at hb
  rw [Option.bind_eq_some_iff] at hb
  obtain ⟨n1, h1, hb⟩ := hb
  rw [Option.bind_eq_some_iff] at hb
  obtain ⟨n2, h2, hb⟩ := hb
  rw [Option.map_eq_some_iff] at hb
  obtain ⟨n3, h3, hb⟩ := hb
  have pos : ∀ i n, optimalLen fuel (minGridLen L ecut i) = some n → 0 < n := by
    intro i n hn
    have h0 := minGridLen_pos u B L h ecut he i
    have : ∀ f m n, optimalLen f m = some n → m ≤ n := by
      intro f
      induction f with
      | zero => intro m n hm; simp [optimalLen] at hm
      | succ f ih =>
        intro m n hm
        unfold optimalLen at hm
        rw [Option.bind_eq_some_iff] at hm
        obtain ⟨g, _, hm⟩ := hm
        split at hm
        · injection hm with hm; omega
        · have := ih _ _ hm; omega
    exact lt_of_lt_of_le h0 (this _ _ _ hn)
  have hs : (Shape.mk n1 n2 n3).Pos := ⟨pos 0 n1 h1, pos 1 n2 h2, pos 2 n3 h3⟩
  unfold mkGSpace at hb
  simp only at hb
  split at hb
  · cases hb
  · split at hb
    · cases hb
    · rename_i hlen
      refine ⟨_, _, hb, hs, ?_, ?_⟩
      · intro g hg
        have := (List.mergeSort_perm _ _).mem_iff.1 hg
        rw [List.mem_filter, mem_gridPoints] at this
        exact this.1
      · intro he
        have := congrArg List.length he
        rw [List.length_mergeSort] at this
        simp only [List.length_nil] at this
        omega

/-- **C177.** For every lattice and cutoff, with the G-space on its default grid: if the cutoff of the wavefunctions is at most a quarter of that of the G-space (the default is exactly that) and the
k-point itself is inside the cutoff (`|k|² ≤ 2 ecutwfn`), the basis is constructed and holds *every* integer vector with `|k + G|² ≤ 2 ecutwfn`: no plane wave is lost. -/
theorem C177_complete_partial (u : ℝ) (B : Mat) (L : Lat) (h : mkLat u B = .ok L) (lenKey : GVec → ℤ) (ecut : ℝ) (he : 0 < ecut) (fuel : ℕ) (gwfn : Base)
    (hb : defaultGSpace L lenKey ecut fuel = some (.ok gwfn)) (k : Vec) (e : Option ℝ) (hle : limit ecut e ≤ ecut / 4) (hk : L.norm2Cryst k ≤ 2 * limit ecut e) :
    ∃ r, gkSpace L gwfn ecut k e = .ok r ∧ ∀ g : GVec, g ∈ r.base.gCryst ↔ L.norm2Cryst (plus k g) ≤ 2 * limit ecut e := by
  obtain ⟨s, gs, hp, hs, hg, hne⟩ := default_ok u B L h lenKey ecut he fuel gwfn hb
  obtain ⟨h1, h2, _⟩ := gkSpace_spec L s gs gwfn hp hs hg hne ecut k e
  have hpar := ((C13_default_gspace u B L h lenKey ecut he).2 fuel gwfn hb).1
  have hin : ∀ g, L.norm2Cryst (plus k g) ≤ 2 * limit ecut e → g ∈ gwfn.gCryst := by
    intro g hgn
    rw [hpar]
    have := norm2_sub_le u B L h (plus k g) k _ hgn hk
    have e1 : (fun i => plus k g i - k i) = toVec g := by funext i; simp [plus]
    rw [e1] at this
    linarith
  have hz : L.norm2Cryst (plus k (0, 0, 0)) ≤ 2 * limit ecut e := by
    have : plus k (0, 0, 0) = k := by funext i; fin_cases i <;> simp [plus, toVec]
    rw [this]; exact hk
  obtain ⟨r, hr⟩ := h2 ⟨_, hin _ hz, hz⟩
  exact ⟨r, hr, fun g => ⟨fun hgm => ((h1 r hr g).1 hgm).2, fun hgn => (h1 r hr g).2 ⟨hin g hgn, hgn⟩⟩⟩

/-- **C177 (densities).** With the same cutoffs, for any k-point: the difference of any two plane waves of the basis is a vector of the G-space, so all Fourier components of products of wavefunctions of
one k-point are represented there. -/
theorem C177_density (u : ℝ) (B : Mat) (L : Lat) (h : mkLat u B = .ok L) (lenKey : GVec → ℤ) (ecut : ℝ) (he : 0 < ecut) (fuel : ℕ) (gwfn : Base)
    (hb : defaultGSpace L lenKey ecut fuel = some (.ok gwfn)) (k : Vec) (e : Option ℝ) (hle : limit ecut e ≤ ecut / 4) (r : GkData) (hr : gkSpace L gwfn ecut k e = .ok r) (a b : GVec)
    (ha : a ∈ r.base.gCryst) (hb' : b ∈ r.base.gCryst) : (a.1 - b.1, a.2.1 - b.2.1, a.2.2 - b.2.2) ∈ gwfn.gCryst := by
  obtain ⟨s, gs, hp, hs, hg, hne⟩ := default_ok u B L h lenKey ecut he fuel gwfn hb
  obtain ⟨h1, _, _⟩ := gkSpace_spec L s gs gwfn hp hs hg hne ecut k e
  rw [((C13_default_gspace u B L h lenKey ecut he).2 fuel gwfn hb).1]
  have := norm2_sub_le u B L h _ _ _ ((h1 r hr a).1 ha).2 ((h1 r hr b).1 hb').2
  have e1 : (fun i => plus k a i - plus k b i) = toVec (a.1 - b.1, a.2.1 - b.2.1, a.2.2 - b.2.2) := by
    funext i; fin_cases i <;> simp [plus, toVec]
  rw [e1] at this
  linarith

/-- **C177 (violated).** For every lattice and all cutoffs there is a k-point equivalent to Γ (an integer vector) for which the basis cannot be constructed, although infinitely many k-points equivalent
to it are, with the same plane waves: the basis of a k-point depends on which of the equivalent k-points is given. -/
theorem C177_far_violated (u : ℝ) (B : Mat) (L : Lat) (h : mkLat u B = .ok L) (lenKey : GVec → ℤ) (ecut : ℝ) (he : 0 < ecut) (fuel : ℕ) (gwfn : Base)
    (hb : defaultGSpace L lenKey ecut fuel = some (.ok gwfn)) (e : Option ℝ) :
    ∃ m : GVec, gkSpace L gwfn ecut (toVec m) e = .error .index ∧ (0 ≤ limit ecut e → ∃ g : GVec, L.norm2Cryst (plus (toVec m) g) ≤ 2 * limit ecut e) := by
  obtain ⟨s, gs, hp, hs, hg, hne⟩ := default_ok u B L h lenKey ecut he fuel gwfn hb
  have hpar := ((C13_default_gspace u B L h lenKey ecut he).2 fuel gwfn hb).1
  have hb1 : 0 < L.norm2Cryst (toVec (1, 0, 0)) := by
    obtain ⟨_, _, _, hnn, hz⟩ := C26_metric u B L h (toVec (1, 0, 0)) 0
    refine lt_of_le_of_ne hnn fun h0 => ?_
    have := congrFun (hz.1 h0.symm) 0
    simp [toVec] at this
  obtain ⟨N, hN⟩ := exists_nat_gt ((2 * (2 * limit ecut e) + 2 * (2 * ecut) + 1) / L.norm2Cryst (toVec (1, 0, 0)))
  have hsc : L.norm2Cryst (toVec (((N + 1 : ℕ) : ℤ), 0, 0)) = ((N + 1 : ℕ) : ℝ) ^ 2 * L.norm2Cryst (toVec (1, 0, 0)) := by
    have : toVec (((N + 1 : ℕ) : ℤ), 0, 0) = ((N + 1 : ℕ) : ℝ) • toVec (1, 0, 0) := by funext i; fin_cases i <;> simp [toVec]
    rw [this, (C26_metric u B L h _ 0).2.1, (C26_metric u B L h _ 0).2.1]
    simp only [dotCart, Lat.cryst2cart, Matrix.mulVec_smul, smul_dotProduct, dotProduct_smul, smul_eq_mul]
    ring
  refine ⟨(((N + 1 : ℕ) : ℤ), 0, 0), ?_, fun hc => ⟨(-((N + 1 : ℕ) : ℤ), 0, 0), ?_⟩⟩
  · refine (gkSpace_spec L s gs gwfn hp hs hg hne ecut _ e).2.2 fun g hgm hgn => ?_
    rw [hpar] at hgm
    have h1 := norm2_parallelogram u B L h (plus (toVec (((N + 1 : ℕ) : ℤ), 0, 0)) g) (toVec g)
    have h2 := (C26_metric u B L h (fun i => plus (toVec (((N + 1 : ℕ) : ℤ), 0, 0)) g i + toVec g i) 0).2.2.2.1
    have e1 : (fun i => plus (toVec (((N + 1 : ℕ) : ℤ), 0, 0)) g i - toVec g i) = toVec (((N + 1 : ℕ) : ℤ), 0, 0) := by funext i; simp [plus]
    rw [e1, hsc] at h1
    rw [div_lt_iff₀ hb1] at hN
    have h3 : ((N : ℕ) : ℝ) * L.norm2Cryst (toVec (1, 0, 0)) ≤ ((N + 1 : ℕ) : ℝ) ^ 2 * L.norm2Cryst (toVec (1, 0, 0)) := by
      apply mul_le_mul_of_nonneg_right _ hb1.le
      push_cast
      have : (0 : ℝ) ≤ N := Nat.cast_nonneg N
      nlinarith
    linarith
  · have : plus (toVec (((N + 1 : ℕ) : ℤ), 0, 0)) (-((N + 1 : ℕ) : ℤ), 0, 0) = 0 := by funext i; fin_cases i <;> simp [plus, toVec]
    rw [this, ((C26_metric u B L h 0 0).2.2.2.2).2 rfl]
    linarith

/-- **C178.** Position by position, the Cartesian coordinates, the coordinates in units of 'tpiba' and the lengths of the plane waves are those of `G + k`: the Cartesian vector is 'tpiba' times the one
in units of 'tpiba', converts back to `G + k`, its squared length is the one from the metric (which selected the vector, so at most twice the cutoff), and the length is its non-negative root. -/
theorem C178_lengths (u : ℝ) (B : Mat) (L : Lat) (h : mkLat u B = .ok L) (hu : u ≠ 0) (s : Shape) (gs : List GVec) (parent : Base) (hp : mkBase s gs = .ok parent) (hs : s.Pos)
    (hg : ∀ g ∈ gs, inBounds s g = true) (hne : gs ≠ []) (ecut : ℝ) (k : Vec) (e : Option ℝ) (r : GkData) (hr : gkSpace L parent ecut k e = .ok r) (i : ℕ) (g : GVec) (hi : r.base.gCryst[i]? = some g) :
    ∃ v w n2 n, (gkCryst r k)[i]? = some (fun j => toVec g j + k j) ∧ (gkCart L r k)[i]? = some v ∧ (gkTpiba L r k)[i]? = some w ∧ (gkNorm2 L r k)[i]? = some n2 ∧ (gkNorm L r k)[i]? = some n ∧
      (crystToNorm2 L (gkCryst r k))[i]? = some n2 ∧ (∀ j, v j = L.unit * w j) ∧ L.cart2cryst v = (fun j => toVec g j + k j) ∧ n2 = ∑ j, v j ^ 2 ∧ n2 ≤ 2 * limit ecut e ∧ 0 ≤ n ∧ n ^ 2 = n2 := by
  have hm : g ∈ r.base.gCryst := List.mem_of_getElem? hi
  obtain ⟨hg1, hg2⟩ := ((gkSpace_spec L s gs parent hp hs hg hne ecut k e).1 r hr g).1 hm
  have hmet := (C26_metric u B L h (plus k g) 0).2.1
  have hnn := (C26_metric u B L h (plus k g) 0).2.2.2.1
  have hunit : L.unit = u := (mkLat_ok h).2.1
  refine ⟨L.cryst2cart (plus k g), L.cryst2unit (plus k g), dotCart (L.cryst2cart (plus k g)) (L.cryst2cart (plus k g)), Real.sqrt (dotCart (L.cryst2cart (plus k g)) (L.cryst2cart (plus k g))),
    ?_, ?_, ?_, ?_, ?_, ?_, ?_, ?_, ?_, ?_, Real.sqrt_nonneg _, ?_⟩
  · simp [gkCryst, hi]; rfl
  · simp [gkCart, gkCryst, hi]
  · simp [gkTpiba, gkCryst, hi]
  · simp [gkNorm2, gkCart, gkCryst, hi]
  · simp [gkNorm, gkNorm2, gkCart, gkCryst, hi]
  · simp [crystToNorm2, gkCryst, hi, hmet]
  · intro j
    unfold Lat.cryst2unit
    rw [hunit]
    field_simp
  · exact ((C26_conversions_inverse u B).2 L h hu (plus k g)).1
  · simp only [dotCart, dotProduct, sq]
  · rw [← hmet]; exact hg2
  · rw [Real.sq_sqrt]
    rw [← hmet]; exact hnn

/-- **C178 (distributed).** The vectors and lengths of the processes, put one after the other, are those of the whole basis. -/
theorem C178_distributed (L : Lat) (S : Dist.Setup) (hS : S.Ok) (r : GkData) (k : Vec) (hl : r.base.gCryst.length = S.idx.length) :
    ((List.range S.P).map fun p => distGkCryst S p r k).flatten = gkCryst r k ∧ ((List.range S.P).map fun p => distGkNorm2 L S p r k).flatten = gkNorm2 L r k := by
  have hf := Dist.cutG_flatten S hS r.base.gCryst hl
  have key : ∀ {β : Type} (f : GVec → β), ((List.range S.P).map fun p => (S.cutG p r.base.gCryst).map f).flatten = r.base.gCryst.map f := by
    intro β f
    rw [← hf, List.map_flatten, List.map_map, hf]
    rfl
  refine ⟨key _, ?_⟩
  have := key fun g => dotCart (L.cryst2cart (plus k g)) (L.cryst2cart (plus k g))
  simp only [distGkNorm2, distGkCryst, gkNorm2, gkCart, gkCryst, List.map_map] at this ⊢
  exact this

/-! ## Cases -/

/-- The default cutoff satisfies the hypothesis, and Γ is inside every cutoff. -/
example (u : ℝ) (B : Mat) (L : Lat) (h : mkLat u B = .ok L) (ecut : ℝ) (he : 0 < ecut) : limit ecut none ≤ ecut / 4 ∧ L.norm2Cryst 0 ≤ 2 * limit ecut none := by
  refine ⟨le_refl _, ?_⟩
  rw [((C26_metric u B L h 0 0).2.2.2.2).2 rfl]
  unfold limit
  simp only [Option.getD]
  linarith

end Verif.GkCoords
