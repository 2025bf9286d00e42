import Verif.Props.GWEps

/-!
# C158: the fix of head and wings away from Γ
-/

namespace Verif.GW

open Verif.Lattice (Vec)
open Verif.GSpace (GVec at')

theorem around_mono {x y : ℝ} (h : around 10 x < around 10 y) : x < y := by
  by_contra hxy
  push Not at hxy
  have h1 : Nonloc.rint (y * 10 ^ 10) ≤ Nonloc.rint (x * 10 ^ 10) := by
    have key : ∀ a b : ℝ, a ≤ b → Nonloc.rint a ≤ Nonloc.rint b := by
      intro a b hab
      have hf := Int.floor_le_floor hab
      unfold Nonloc.rint
      rcases eq_or_lt_of_le hf with he | hlt
      · have hfr : Int.fract a ≤ Int.fract b := by unfold Int.fract; rw [he]; linarith
        rw [he]
        split_ifs <;> first | omega | (exfalso; linarith)
      · split_ifs <;> omega
    exact key _ _ (by linarith)
  unfold around at h
  rw [div_lt_div_iff_of_pos_right (by norm_num)] at h
  exact absurd (by exact_mod_cast h : Nonloc.rint (x * 10 ^ 10) < Nonloc.rint (y * 10 ^ 10)) (not_lt.2 h1)

/-- The first G-vector in BerkeleyGW's order. -/
theorem first_spec (sphere : List (GVec × ℝ)) (vec : GVec → Vec) (hne : sphere ≠ []) :
    ∃ h : at' (sortBGW (sphere.map fun s => (vec s.1, s.2))) 0 < sphere.length,
      ∀ s ∈ sphere, around 10 (sphere[at' (sortBGW (sphere.map fun s => (vec s.1, s.2))) 0]).2 ≤ around 10 s.2 := by
  obtain ⟨l, hl⟩ : ∃ l : List (Vec × ℝ), l = sphere.map fun s => (vec s.1, s.2) := ⟨_, rfl⟩
  rw [← hl]
  obtain ⟨h1, h2, h3⟩ := C56_sorts l
  have hll : l.length = sphere.length := by rw [hl, List.length_map]
  have hpos : 0 < sphere.length := List.length_pos_iff.2 hne
  unfold sorted at h2 h3
  cases ho : sortBGW l with
  | nil =>
    rw [ho] at h1
    have := h1.length_eq
    simp at this
    omega
  | cons i t =>
    rw [ho] at h1 h2 h3
    have hi : i < sphere.length := by rw [← hll]; exact List.mem_range.1 (h1.mem_iff.1 (by simp))
    have hat : at' (i :: t) 0 = i := rfl
    refine ⟨by rw [hat]; exact hi, fun s hs => ?_⟩
    simp only [hat]
    have hli : l.getD i (0, 0) = (vec sphere[i].1, sphere[i].2) := by
      rw [hl, List.getD_eq_getElem (hn := by simpa using hi), List.getElem_map]
    have hmem : (vec s.1, s.2) ∈ (i :: t).map fun i => l.getD i (0, 0) := by
      rw [h2.mem_iff, hl]; exact List.mem_map.2 ⟨s, hs, rfl⟩
    rw [List.map_cons, List.mem_cons] at hmem
    rw [List.map_cons, List.pairwise_cons] at h3
    rcases hmem with h | h
    · rw [hli] at h
      have : s.2 = sphere[i].2 := (Prod.ext_iff.1 h).2
      rw [this]
    · have := h3.1 _ h
      rw [hli] at this
      rcases this with h | h
      · exact h.le
      · exact h.1.le

theorem argminG_zero (gs : List GVec) (h : (0, 0, 0) ∈ gs) : ∃ h : argminG gs < gs.length, gs[argminG gs] = (0, 0, 0) := by
  obtain ⟨k, hk, hkg⟩ := List.mem_iff_getElem.1 h
  obtain ⟨n2, hn2⟩ : ∃ n2 : GVec → ℤ, n2 = fun g => g.1 * g.1 + g.2.1 * g.2.1 + g.2.2 * g.2.2 := ⟨_, rfl⟩
  have hz : n2 (0, 0, 0) = 0 := by rw [hn2]; simp
  have hnn : ∀ g, 0 ≤ n2 g := by
    intro g; rw [hn2]
    have h1 := mul_self_nonneg g.1
    have h2 := mul_self_nonneg g.2.1
    have h3 := mul_self_nonneg g.2.2
    simp only
    omega
  have hz' : ∀ g, n2 g = 0 → g = (0, 0, 0) := by
    intro g hg
    rw [hn2] at hg
    simp only at hg
    have h1 := mul_self_nonneg g.1
    have h2 := mul_self_nonneg g.2.1
    have h3 := mul_self_nonneg g.2.2
    have e1 : g.1 * g.1 = 0 := by omega
    have e2 : g.2.1 * g.2.1 = 0 := by omega
    have e3 : g.2.2 * g.2.2 = 0 := by omega
    exact Prod.ext (mul_self_eq_zero.1 e1) (Prod.ext (mul_self_eq_zero.1 e2) (mul_self_eq_zero.1 e3))
  have hd : argminG gs = ((List.range gs.length).find? fun i => decide (∀ j < gs.length, n2 (gs.getD i (0, 0, 0)) ≤ n2 (gs.getD j (0, 0, 0)))).getD 0 := by rw [hn2]; rfl
  cases hf : (List.range gs.length).find? fun i => decide (∀ j < gs.length, n2 (gs.getD i (0, 0, 0)) ≤ n2 (gs.getD j (0, 0, 0))) with
  | none =>
    rw [List.find?_eq_none] at hf
    have := hf k (List.mem_range.2 hk)
    rw [List.getD_eq_getElem (hn := hk), hkg, hz] at this
    exact absurd (by simpa using fun j _ => hnn _) this
  | some i =>
    have hi := List.mem_range.1 (List.mem_of_find?_eq_some hf)
    have hp := List.find?_some hf
    simp only [decide_eq_true_eq] at hp
    have h1 := hp k hk
    rw [List.getD_eq_getElem (hn := hk), hkg, hz, List.getD_eq_getElem (hn := hi)] at h1
    have h2 := hz' _ (le_antisymm h1 (hnn _))
    rw [hf] at hd
    have he : argminG gs = i := hd
    exact ⟨by rw [he]; exact hi, by simp only [he]; exact h2⟩

/-- Un-averaged Coulomb values of a sphere. -/
noncomputable def bareV (sphere : List (GVec × ℝ)) : List ℝ := sphere.map fun s => 8 * Real.pi / s.2

theorem bareV_first (sphere : List (GVec × ℝ)) (i : ℕ) (hi : i < sphere.length) : (bareV sphere).getD i 0 = 8 * Real.pi / sphere[i].2 := by
  unfold bareV
  rw [List.getD_eq_getElem (hn := by simpa using hi), List.getElem_map]

/-- C158, proved part: if no G-vector brings the q-point closer to the origin (q in the first Brillouin zone, boundary included) then with un-averaged Coulomb values the correction of a q-point
other than q0 leaves the dielectric matrix as it is. -/
theorem C158_first_zone_partial (fixNonq0 : Bool) (wcoul0 : Option ℂ) (sphere : List (GVec × ℝ)) (vec : GVec → Vec) (q : ℝ) (hq : 0 < q) (hne : sphere ≠ [])
    (hz : ∀ s ∈ sphere, s.2 = q ^ 2 ∨ around 10 (q ^ 2) < around 10 s.2) (h0 : ∃ s ∈ sphere, s.2 = q ^ 2) (eps : ℕ → ℕ → ℂ) :
    fixedeps false fixNonq0 wcoul0 sphere vec (bareV sphere) (8 * Real.pi / q) q eps = eps := by
  obtain ⟨hi, hmin⟩ := first_spec sphere vec hne
  have hfirst : (sphere[at' (sortBGW (sphere.map fun s => (vec s.1, s.2))) 0]).2 = q ^ 2 := by
    rcases hz _ (List.getElem_mem hi) with h | h
    · exact h
    · obtain ⟨s, hs, hsq⟩ := h0
      have := hmin s hs
      rw [hsq] at this
      exact absurd h (not_lt.2 this)
  funext i j
  unfold fixedeps
  simp only [Bool.false_eq_true, if_false]
  split
  · rw [bareV_first sphere _ hi, hfirst]
    exact C114_bare_identity _ q hq _ eps i j
  · rfl

/-- C158, violated: if some G-vector brings the q-point closer to the origin, the default correction multiplies the elements of the G=0 row by a factor below one although the Coulomb values are
un-averaged: the Coulomb value of that G-vector takes the place of the one of G=0. -/
theorem C158_outside (wcoul0 : Option ℂ) (sphere : List (GVec × ℝ)) (vec : GVec → Vec) (q : ℝ) (hq : 0 < q) (hpos : ∀ s ∈ sphere, 0 < s.2)
    (h0 : ((0, 0, 0), q ^ 2) ∈ sphere) (hcl : ∃ s ∈ sphere, around 10 s.2 < around 10 (q ^ 2)) :
    ∃ (g0 : ℕ) (c : ℝ), 0 < c ∧ c < 1 ∧ (((sortBGW (sphere.map fun s => (vec s.1, s.2))).map fun i => (sphere.getD i ((0, 0, 0), 0)).1)[g0]? = some (0, 0, 0)) ∧
      ∀ eps j, j ≠ g0 → fixedeps false true wcoul0 sphere vec (bareV sphere) (8 * Real.pi / q) q eps g0 j = eps g0 j * (c : ℂ) := by
  obtain ⟨hi, hmin⟩ := first_spec sphere vec (List.ne_nil_of_mem h0)
  obtain ⟨order, ho⟩ : ∃ order, order = sortBGW (sphere.map fun s => (vec s.1, s.2)) := ⟨_, rfl⟩
  obtain ⟨m, hm⟩ : ∃ m, m = (sphere[at' (sortBGW (sphere.map fun s => (vec s.1, s.2))) 0]).2 := ⟨_, rfl⟩
  have hm0 : 0 < m := by rw [hm]; exact hpos _ (List.getElem_mem hi)
  have hmq : m < q ^ 2 := by
    obtain ⟨s, hs, hlt⟩ := hcl
    refine around_mono (lt_of_le_of_lt ?_ hlt)
    rw [hm]
    exact hmin s hs
  have hz : (0, 0, 0) ∈ order.map fun i => (sphere.getD i ((0, 0, 0), 0)).1 := by
    obtain ⟨k, hk, hkg⟩ := List.mem_iff_getElem.1 h0
    refine List.mem_map.2 ⟨k, ?_, by rw [List.getD_eq_getElem (hn := hk), hkg]⟩
    rw [ho, (C56_sorts _).1.mem_iff]
    simpa using hk
  obtain ⟨hg, hgz⟩ := argminG_zero _ hz
  refine ⟨argminG (order.map fun i => (sphere.getD i ((0, 0, 0), 0)).1), m / q ^ 2, by positivity, ?_, ?_, ?_⟩
  · rw [div_lt_one (by positivity)]; exact hmq
  · rw [← ho, List.getElem?_eq_getElem hg, hgz]
  · intro eps j hj
    unfold fixedeps
    simp only [Bool.false_eq_true, if_false, if_true]
    rw [bareV_first sphere _ hi, ← hm, C114_fixwings, ← ho]
    rw [if_neg (by rintro ⟨_, h⟩; exact hj h), if_pos rfl]
    simp only [Bool.false_eq_true, if_false]
    congr 2
    have := Real.pi_pos
    field_simp

/-- A simple cubic lattice, q = (3/4, 0, 0) in units of 2π/a: the vector (-1, 0, 0) is closer (1/16 instead of 9/16). -/
example : ((0, 0, 0), (3 / 4 : ℝ) ^ 2) ∈ [(((0, 0, 0) : GVec), (9 / 16 : ℝ)), ((-1, 0, 0), 1 / 16)] ∧
    ∃ s ∈ [(((0, 0, 0) : GVec), (9 / 16 : ℝ)), ((-1, 0, 0), 1 / 16)], around 10 s.2 < around 10 ((3 / 4) ^ 2) := by
  refine ⟨by norm_num, ((-1, 0, 0), 1 / 16), by simp, ?_⟩
  have e : ∀ n : ℤ, ∀ x : ℝ, x = n → Nonloc.rint x = n := by
    intro n x hx; subst hx; simp [Nonloc.rint]
  unfold around
  rw [e 625000000 _ (by norm_num), e 5625000000 _ (by norm_num)]
  norm_num

/-- C158: with the correction switched off the matrix is copied, at q0 it is always corrected. -/
theorem C158_switch (wcoul0 : Option ℂ) (sphere : List (GVec × ℝ)) (vec : GVec → Vec) (v : List ℝ) (oneoverq q : ℝ) (eps : ℕ → ℕ → ℂ) :
    fixedeps false false wcoul0 sphere vec v oneoverq q eps = eps ∧
      ∀ f, (0, 0, 0) ∈ (sphere.map Prod.fst) → ∃ g0 : ℕ, (((sortBGW (sphere.map fun s => (vec s.1, s.2))).map fun i => (sphere.getD i ((0, 0, 0), 0)).1)[g0]? = some (0, 0, 0)) ∧
        ∀ j, j ≠ g0 → fixedeps true f wcoul0 sphere vec v oneoverq q eps g0 j = 0 ∧ fixedeps true f wcoul0 sphere vec v oneoverq q eps j g0 = 0 := by
  refine ⟨rfl, fun f h => ?_⟩
  obtain ⟨s, hs, hs0⟩ := List.mem_map.1 h
  obtain ⟨order, ho⟩ : ∃ order, order = sortBGW (sphere.map fun s => (vec s.1, s.2)) := ⟨_, rfl⟩
  have hz : (0, 0, 0) ∈ order.map fun i => (sphere.getD i ((0, 0, 0), 0)).1 := by
    obtain ⟨k, hk, hkg⟩ := List.mem_iff_getElem.1 hs
    refine List.mem_map.2 ⟨k, ?_, by rw [List.getD_eq_getElem (hn := hk), hkg, hs0]⟩
    rw [ho, (C56_sorts _).1.mem_iff]
    simpa using hk
  obtain ⟨hg, hgz⟩ := argminG_zero _ hz
  refine ⟨_, by rw [← ho, List.getElem?_eq_getElem hg, hgz], fun j hj => ?_⟩
  unfold fixedeps
  simp only [if_true]
  rw [C114_fixwings, C114_fixwings, ← ho]
  generalize argminG (order.map fun i => (sphere.getD i ((0, 0, 0), 0)).1) = g at *
  constructor
  · rw [if_neg (fun h => hj h.2), if_pos rfl]; simp only [if_true]
  · rw [if_neg (fun h => hj h.1), if_neg hj, if_pos rfl]; simp only [if_true]

/-- C158: the corrected matrix at q0, element by element: the head becomes `wcoul0` over the Coulomb value of the first G-vector in BerkeleyGW's order, by default that is the first element of the
given matrix; the wings vanish; the body is kept. -/
theorem C158_q0 (f : Bool) (wcoul0 : Option ℂ) (sphere : List (GVec × ℝ)) (vec : GVec → Vec) (v : List ℝ) (oneoverq q : ℝ) (eps : ℕ → ℕ → ℂ)
    (h : (0, 0, 0) ∈ (sphere.map Prod.fst)) (hv : v.getD (at' (sortBGW (sphere.map fun s => (vec s.1, s.2))) 0) 0 ≠ 0) :
    ∃ g0 : ℕ, (((sortBGW (sphere.map fun s => (vec s.1, s.2))).map fun i => (sphere.getD i ((0, 0, 0), 0)).1)[g0]? = some (0, 0, 0)) ∧
      ∀ i j, fixedeps true f wcoul0 sphere vec v oneoverq q eps i j =
        if i = g0 ∧ j = g0 then
          (match wcoul0 with
            | none => eps 0 0
            | some w => w / ((v.getD (at' (sortBGW (sphere.map fun s => (vec s.1, s.2))) 0) 0 : ℝ) : ℂ))
        else if i = g0 ∨ j = g0 then 0 else eps i j := by
  obtain ⟨s, hs, hs0⟩ := List.mem_map.1 h
  obtain ⟨order, ho⟩ : ∃ order, order = sortBGW (sphere.map fun s => (vec s.1, s.2)) := ⟨_, rfl⟩
  have hz : (0, 0, 0) ∈ order.map fun i => (sphere.getD i ((0, 0, 0), 0)).1 := by
    obtain ⟨k, hk, hkg⟩ := List.mem_iff_getElem.1 hs
    refine List.mem_map.2 ⟨k, ?_, by rw [List.getD_eq_getElem (hn := hk), hkg, hs0]⟩
    rw [ho, (C56_sorts _).1.mem_iff]
    simpa using hk
  obtain ⟨hg, hgz⟩ := argminG_zero _ hz
  refine ⟨_, by rw [← ho, List.getElem?_eq_getElem hg, hgz], fun i j => ?_⟩
  unfold fixedeps
  simp only [if_true]
  rw [C114_fixwings, ← ho]
  rw [← ho] at hv
  generalize argminG (order.map fun i => (sphere.getD i ((0, 0, 0), 0)).1) = g at *
  generalize v.getD (at' order 0) 0 = x at *
  by_cases hi : i = g
  · by_cases hj : j = g
    · simp only [hi, hj, and_self, if_true]
      cases wcoul0 with
      | none =>
        show eps 0 0 * (x : ℂ) / (x : ℂ) = eps 0 0
        rw [mul_div_assoc, div_self (by exact_mod_cast hv), mul_one]
      | some w => rfl
    · simp [hi, hj]
  · by_cases hj : j = g
    · simp [hi, hj]
    · simp [hi, hj]

end Verif.GW
