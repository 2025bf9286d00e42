import Mathlib.LinearAlgebra.Lagrange
import Mathlib.Algebra.Order.BigOperators.Group.List
import Verif.Props.Delta

/-!
# C157: fits of equations of state
-/

namespace Verif.Delta

open Verif

/-- The fitted energy as a function of the volume. -/
noncomputable def fitted (p : Cubic) (V : ℝ) : ℝ := p.eval (V ^ (-2 / 3 : ℝ))

/-- Specification: `(V0, B0, B1)` are the equilibrium volume, bulk modulus `V E''` and its pressure derivative of the energy `E`. -/
def IsEos (E : ℝ → ℝ) (V0 B0 B1 : ℝ) : Prop :=
  0 < V0 ∧ IsLocalMin E V0 ∧ ∃ E1 E2 : ℝ → ℝ, (∀ V, 0 < V → HasDerivAt E (E1 V) V ∧ HasDerivAt E1 (E2 V) V) ∧ E1 V0 = 0 ∧ 0 < E2 V0 ∧
    B0 = V0 * E2 V0 ∧ ∃ b, HasDerivAt (fun V => V * E2 V) b V0 ∧ B1 = b / -(E2 V0)

/-- First derivative of the fitted energy. -/
noncomputable def f1 (p : Cubic) (V : ℝ) : ℝ := p.d1 (V ^ (-2 / 3 : ℝ)) * (-2 / 3 * V ^ (-5 / 3 : ℝ))

/-- Second derivative of the fitted energy. -/
noncomputable def f2 (p : Cubic) (V : ℝ) : ℝ :=
  p.d2 (V ^ (-2 / 3 : ℝ)) * (-2 / 3 * V ^ (-5 / 3 : ℝ)) ^ 2 + p.d1 (V ^ (-2 / 3 : ℝ)) * (10 / 9 * V ^ (-8 / 3 : ℝ))

theorem u_deriv (V : ℝ) (hV : 0 < V) : HasDerivAt (fun V : ℝ => V ^ (-2 / 3 : ℝ)) (-2 / 3 * V ^ (-5 / 3 : ℝ)) V := by
  refine (Real.hasDerivAt_rpow_const (p := -2 / 3) (.inl hV.ne')).congr_deriv ?_
  norm_num

theorem u_deriv2 (V : ℝ) (hV : 0 < V) : HasDerivAt (fun V : ℝ => -2 / 3 * V ^ (-5 / 3 : ℝ)) (10 / 9 * V ^ (-8 / 3 : ℝ)) V := by
  refine ((Real.hasDerivAt_rpow_const (p := -5 / 3) (.inl hV.ne')).const_mul (-2 / 3)).congr_deriv ?_
  norm_num
  ring

theorem u_deriv3 (V : ℝ) (hV : 0 < V) : HasDerivAt (fun V : ℝ => 10 / 9 * V ^ (-8 / 3 : ℝ)) (-80 / 27 * V ^ (-11 / 3 : ℝ)) V := by
  refine ((Real.hasDerivAt_rpow_const (p := -8 / 3) (.inl hV.ne')).const_mul (10 / 9)).congr_deriv ?_
  norm_num
  ring

theorem eval_deriv (p : Cubic) (x : ℝ) : HasDerivAt p.eval (p.d1 x) x := by
  have h1 := (hasDerivAt_id x).const_mul p.c1
  have h2 := (hasDerivAt_pow 2 x).const_mul p.c2
  have h3 := (hasDerivAt_pow 3 x).const_mul p.c3
  have h := ((h1.const_add p.c0).add h2).add h3
  refine HasDerivAt.congr_deriv (f := p.eval) h ?_
  simp only [Cubic.d1]
  push_cast
  ring

theorem d1_deriv (p : Cubic) (x : ℝ) : HasDerivAt p.d1 (p.d2 x) x := by
  have h1 := (hasDerivAt_id x).const_mul (2 * p.c2)
  have h2 := (hasDerivAt_pow 2 x).const_mul (3 * p.c3)
  have h := (h1.const_add p.c1).add h2
  refine HasDerivAt.congr_deriv (f := p.d1) h ?_
  simp only [Cubic.d2]
  push_cast
  ring

theorem d2_deriv (p : Cubic) (x : ℝ) : HasDerivAt p.d2 (p.d3 x) x := by
  have h1 := (hasDerivAt_id x).const_mul (6 * p.c3)
  have h := h1.const_add (2 * p.c2)
  refine HasDerivAt.congr_deriv (f := p.d2) h ?_
  simp only [Cubic.d3]
  ring

theorem fitted_deriv (p : Cubic) (V : ℝ) (hV : 0 < V) : HasDerivAt (fitted p) (f1 p V) V :=
  (eval_deriv p _).comp V (u_deriv V hV)

theorem f1_deriv (p : Cubic) (V : ℝ) (hV : 0 < V) : HasDerivAt (f1 p) (f2 p V) V := by
  have h := ((d1_deriv p _).comp V (u_deriv V hV)).mul (u_deriv2 V hV)
  refine HasDerivAt.congr_deriv (f := f1 p) h ?_
  simp only [f2, Function.comp]
  ring

theorem f2_deriv (p : Cubic) (V : ℝ) (hV : 0 < V) :
    HasDerivAt (f2 p) (p.d3 (V ^ (-2 / 3 : ℝ)) * (-2 / 3 * V ^ (-5 / 3 : ℝ)) ^ 3 + 3 * p.d2 (V ^ (-2 / 3 : ℝ)) * (-2 / 3 * V ^ (-5 / 3 : ℝ)) * (10 / 9 * V ^ (-8 / 3 : ℝ))
      + p.d1 (V ^ (-2 / 3 : ℝ)) * (-80 / 27 * V ^ (-11 / 3 : ℝ))) V := by
  have h1 := ((d2_deriv p _).comp V (u_deriv V hV)).mul ((u_deriv2 V hV).pow 2)
  have h2 := ((d1_deriv p _).comp V (u_deriv V hV)).mul (u_deriv3 V hV)
  refine HasDerivAt.congr_deriv (f := f2 p) (h1.add h2) ?_
  simp only [Function.comp, Pi.pow_apply]
  push_cast
  ring

/-- C157: whatever polynomial was fitted, the numbers returned are the equilibrium volume, the bulk modulus and its pressure derivative of the fitted curve. -/
theorem C157_physical (p : Cubic) (roots : List ℝ) (hr : ∀ x ∈ roots, p.d1 x = 0) (V0 B0 B1 : ℝ) (h : bm p roots = some (V0, B0, B1)) :
    IsEos (fitted p) V0 B0 B1 := by
  obtain ⟨x, hx, he⟩ := Option.map_eq_some_iff.1 h
  have hmem := List.mem_of_find?_eq_some hx
  have hpos := List.find?_some hx
  simp only [decide_eq_true_eq] at hpos
  obtain ⟨hx0, h2⟩ := hpos
  have h1 := hr x hmem
  simp only [eos, Prod.mk.injEq] at he
  obtain ⟨e1, e2, e3⟩ := he
  have hV : 0 < V0 := by rw [← e1]; positivity
  have hxV : V0 ^ (-2 / 3 : ℝ) = x := by
    rw [← e1, ← Real.rpow_mul hx0.le]; norm_num
  -- all powers in terms of the square root of x
  obtain ⟨s, hs⟩ : ∃ s, s = x ^ (1 / 2 : ℝ) := ⟨_, rfl⟩
  have hs0 : 0 < s := by rw [hs]; positivity
  have hxs : x = s ^ 2 := by rw [hs, ← Real.rpow_natCast, ← Real.rpow_mul hx0.le]; norm_num
  have hpw : ∀ n : ℕ, x ^ ((n : ℝ) / 2) = s ^ n := by
    intro n; rw [hs, ← Real.rpow_natCast, ← Real.rpow_mul hx0.le]; congr 1; ring
  have p3 : x ^ (3 / 2 : ℝ) = s ^ 3 := by simpa using hpw 3
  have p5 : x ^ (5 : ℝ) = s ^ 10 := by have := hpw 10; norm_num at this ⊢; exact this
  have p13 : x ^ (13 / 2 : ℝ) = s ^ 13 := by simpa using hpw 13
  have p15 : x ^ (15 / 2 : ℝ) = s ^ 15 := by simpa using hpw 15
  have pm3 : x ^ (-3 / 2 : ℝ) = (s ^ 3)⁻¹ := by
    rw [show (-3 / 2 : ℝ) = -(3 / 2) by norm_num, Real.rpow_neg hx0.le, p3]
  have hVs : V0 = (s ^ 3)⁻¹ := by rw [← e1, pm3]
  have hVn : ∀ n : ℕ, V0 ^ (-(n : ℝ) / 3) = s ^ n := by
    intro n
    rw [← e1, ← Real.rpow_mul hx0.le, ← hpw n]
    congr 1; ring
  have v5 : V0 ^ (-5 / 3 : ℝ) = s ^ 5 := by simpa using hVn 5
  have v8 : V0 ^ (-8 / 3 : ℝ) = s ^ 8 := by simpa using hVn 8
  have hf1 : f1 p V0 = 0 := by simp [f1, hxV, h1]
  have hf2 : f2 p V0 = p.d2 x * (4 / 9 * s ^ 10) := by
    simp only [f2, hxV, h1, v5]; ring
  have hf2pos : 0 < f2 p V0 := by rw [hf2]; positivity
  have hder := f2_deriv p V0 hV
  rw [hxV, h1, v5, v8] at hder
  have hdd : deriv (deriv (fitted p)) V0 = f2 p V0 := by
    have : deriv (fitted p) =ᶠ[nhds V0] f1 p := by
      filter_upwards [lt_mem_nhds hV] with V hV'
      exact (fitted_deriv p V hV').deriv
    rw [this.deriv_eq, (f1_deriv p V0 hV).deriv]
  refine ⟨hV, ?_, f1 p, f2 p, fun V hV' => ⟨fitted_deriv p V hV', f1_deriv p V hV'⟩, hf1, hf2pos, ?_, _, (hasDerivAt_id V0).mul hder, ?_⟩
  · refine isLocalMin_of_deriv_deriv_pos (by rw [hdd]; exact hf2pos) ?_ (fitted_deriv p V0 hV).continuousAt
    rw [(fitted_deriv p V0 hV).deriv, hf1]
  · rw [hf2, ← e2, p5, p3, hVs]
    field_simp
  · rw [← e3, pm3, p5, p13, p15, hf2]
    simp only [id]
    rw [hVs]
    have : p.d2 x ≠ 0 := h2.ne'
    have := hs0.ne'
    field_simp
    ring

/-- At most one stationary point is a minimum. -/
theorem min_unique (p : Cubic) (x y : ℝ) (hx : p.d1 x = 0) (hy : p.d1 y = 0) (hx2 : 0 < p.d2 x) (hy2 : 0 < p.d2 y) : x = y := by
  by_contra hne
  have h : (x - y) * (2 * p.c2 + 3 * p.c3 * (x + y)) = 0 := by simp only [Cubic.d1] at hx hy; linear_combination hx - hy
  rcases mul_eq_zero.1 h with h | h
  · exact hne (sub_eq_zero.1 h)
  · simp only [Cubic.d2] at hx2 hy2; linarith

/-- C157: a minimum at a positive volume is found whenever the curve has one, whatever the order in which the roots are listed, and it is the only one. -/
theorem C157_found (p : Cubic) (roots : List ℝ) (hr : ∀ x ∈ roots, p.d1 x = 0) (x : ℝ) (hx : x ∈ roots) (h0 : 0 < x) (h2 : 0 < p.d2 x) :
    bm p roots = some (eos p x) := by
  have hf : findMin p roots = some x := by
    unfold findMin
    cases h : roots.find? fun x => decide (0 < x ∧ 0 < p.d2 x) with
    | none => rw [List.find?_eq_none] at h; exact absurd h2 (not_lt.2 ((by simpa using h x hx : 0 < x → p.d2 x ≤ 0) h0))
    | some y =>
      have hy := List.find?_some h
      simp only [decide_eq_true_eq] at hy
      rw [min_unique p y x (hr y (List.mem_of_find?_eq_some h)) (hr x hx) hy.2 h2]
  rw [bm, hf]; rfl

/-- C157: "No minimum could be found" exactly if no stationary point at a positive volume is a minimum. -/
theorem C157_none (p : Cubic) (roots : List ℝ) : bm p roots = none ↔ ∀ x ∈ roots, 0 < x → p.d2 x ≤ 0 := by
  simp only [bm, Option.map_eq_none_iff, findMin, List.find?_eq_none, decide_eq_true_eq, not_and, not_lt]

/-- The polynomial of a Birch-Murnaghan curve with energy `E0` at the minimum. -/
noncomputable def bmCubic (E0 V0 B0 B1 : ℝ) : Cubic := ⟨E0 + coef V0 B0 B1 0, coef V0 B0 B1 1, coef V0 B0 B1 2, coef V0 B0 B1 3⟩

theorem bmCubic_eval (E0 V0 B0 B1 V : ℝ) (h0 : 0 < V0) (hV : 0 < V) : (bmCubic E0 V0 B0 B1).eval (V ^ (-2 / 3 : ℝ)) = E0 + bmEnergy V0 B0 B1 V := by
  rw [bm_cubic _ _ _ _ h0 hV]
  simp only [bmCubic, Cubic.eval]
  ring

open Polynomial in
/-- Two cubics that agree at four points are the same. -/
theorem cubic_ext (p q : Cubic) (S : Finset ℝ) (hS : 4 ≤ S.card) (h : ∀ x ∈ S, p.eval x = q.eval x) : p = q := by
  let P : Cubic → ℝ[X] := fun p => C p.c0 + C p.c1 * X + C p.c2 * X ^ 2 + C p.c3 * X ^ 3
  have hd : ∀ p, (P p).degree < S.card := by
    intro p
    have h3 : (P p).degree ≤ 3 := by simp only [P]; compute_degree
    refine lt_of_le_of_lt h3 ?_
    exact_mod_cast (by omega : 3 < S.card)
  have he : ∀ p x, (P p).eval x = Cubic.eval p x := by intro p x; simp [P, Cubic.eval]
  have hP : P p = P q := Polynomial.eq_of_degrees_lt_of_eval_finset_eq S (hd p) (hd q) fun x hx => by rw [he, he]; exact h x hx
  have hc : ∀ p, (P p).coeff 0 = p.c0 ∧ (P p).coeff 1 = p.c1 ∧ (P p).coeff 2 = p.c2 ∧ (P p).coeff 3 = p.c3 := by
    intro p
    refine ⟨?_, ?_, ?_, ?_⟩ <;> simp [P, coeff_X, coeff_X_pow, coeff_C]
  obtain ⟨a0, a1, a2, a3⟩ := hc p
  obtain ⟨b0, b1, b2, b3⟩ := hc q
  rw [hP] at a0 a1 a2 a3
  cases p; cases q
  simp only at *
  subst a0 a1 a2 a3
  simp only [Cubic.mk.injEq]
  exact ⟨b0, b1, b2, b3⟩

/-- The minimum of a Birch-Murnaghan curve, in terms of `V^(-2/3)`. -/
theorem bmCubic_min (E0 V0 B0 B1 : ℝ) (h0 : 0 < V0) (hB : 0 < B0) :
    (bmCubic E0 V0 B0 B1).d1 (V0 ^ (-2 / 3 : ℝ)) = 0 ∧ 0 < (bmCubic E0 V0 B0 B1).d2 (V0 ^ (-2 / 3 : ℝ)) ∧ eos (bmCubic E0 V0 B0 B1) (V0 ^ (-2 / 3 : ℝ)) = (V0, B0, B1) := by
  obtain ⟨s, hs⟩ : ∃ s, s = V0 ^ (1 / 3 : ℝ) := ⟨_, rfl⟩
  have hs0 : 0 < s := by rw [hs]; positivity
  have hpw : ∀ n : ℕ, V0 ^ ((n : ℝ) / 3) = s ^ n := by
    intro n; rw [hs, ← Real.rpow_natCast, ← Real.rpow_mul h0.le]; congr 1; ring
  have hmw : ∀ n : ℕ, V0 ^ (-((n : ℝ) / 3)) = (s ^ n)⁻¹ := by
    intro n; rw [Real.rpow_neg h0.le, hpw]
  have q5 : V0 ^ (5 / 3 : ℝ) = s ^ 5 := by simpa using hpw 5
  have q7 : V0 ^ (7 / 3 : ℝ) = s ^ 7 := by simpa using hpw 7
  have q9 : V0 ^ (3 : ℝ) = s ^ 9 := by have := hpw 9; norm_num at this ⊢; exact this
  have q1 : V0 = s ^ 3 := by have := hpw 3; norm_num at this; exact this
  have m2 : V0 ^ (-2 / 3 : ℝ) = (s ^ 2)⁻¹ := by rw [← hmw 2]; congr 1; norm_num
  have hx : ∀ (a : ℝ) (n : ℕ), a = n / 2 → (V0 ^ (-2 / 3 : ℝ)) ^ a = (s ^ n)⁻¹ := by
    intro a n ha; rw [← Real.rpow_mul h0.le, ← hmw n, ha]; congr 1; ring
  have x1 : (V0 ^ (-2 / 3 : ℝ)) ^ (-3 / 2 : ℝ) = V0 := by rw [← Real.rpow_mul h0.le]; norm_num
  have x3 := hx (3 / 2) 3 (by norm_num)
  have x5 := hx 5 10 (by norm_num)
  have x13 := hx (13 / 2) 13 (by norm_num)
  have x15 := hx (15 / 2) 15 (by norm_num)
  have hd2 : (bmCubic E0 V0 B0 B1).d2 (V0 ^ (-2 / 3 : ℝ)) = 9 / 4 * B0 * s ^ 7 := by
    simp only [bmCubic, Cubic.d2, coef, q7, q9, m2]
    field_simp
    ring
  refine ⟨?_, ?_, ?_⟩
  · simp only [bmCubic, Cubic.d1, coef, q5, q7, q9, m2]
    field_simp
    ring
  · rw [hd2]; positivity
  · simp only [eos, x1, x3, x5, x13, x15, hd2]
    simp only [bmCubic, Cubic.d3, coef, q9]
    have hB' := hB.ne'
    have hs' := hs0.ne'
    refine Prod.ext rfl (Prod.ext ?_ ?_)
    · field_simp
    · simp only
      rw [q1]
      field_simp
      ring

/-- Specification: the energies lie on a Birch-Murnaghan curve. -/
def OnCurve (data : List (ℝ × ℝ)) (E0 V0 B0 B1 : ℝ) : Prop := ∀ d ∈ data, 0 < d.1 ∧ d.2 = E0 + bmEnergy V0 B0 B1 d.1

theorem fit_exact (data : List (ℝ × ℝ)) (E0 V0 B0 B1 : ℝ) (h0 : 0 < V0) (hd : OnCurve data E0 V0 B0 B1) (hc : 4 ≤ (data.map Prod.fst).toFinset.card)
    (fit : Cubic) (hfit : ∀ q, ssr data fit ≤ ssr data q) : fit = bmCubic E0 V0 B0 B1 := by
  have hz : ssr data (bmCubic E0 V0 B0 B1) = 0 := by
    unfold ssr
    rw [List.sum_eq_zero]
    intro y hy
    obtain ⟨d, hdm, rfl⟩ := List.mem_map.1 hy
    rw [bmCubic_eval _ _ _ _ _ h0 (hd d hdm).1, ← (hd d hdm).2]
    ring
  have hz' : ∀ d ∈ data, fit.eval (d.1 ^ (-2 / 3 : ℝ)) = d.2 := by
    have hle := hz ▸ hfit (bmCubic E0 V0 B0 B1)
    have h1 : ∀ y ∈ data.map (fun d => (fit.eval (d.1 ^ (-2 / 3 : ℝ)) - d.2) ^ 2), 0 ≤ y := by
      intro y hy; obtain ⟨d, _, rfl⟩ := List.mem_map.1 hy; positivity
    intro d hdm
    have h2 := List.single_le_sum h1 _ (List.mem_map_of_mem (f := fun d : ℝ × ℝ => (fit.eval (d.1 ^ (-2 / 3 : ℝ)) - d.2) ^ 2) hdm)
    have h3 : (fit.eval (d.1 ^ (-2 / 3 : ℝ)) - d.2) ^ 2 = 0 := le_antisymm (h2.trans hle) (sq_nonneg _)
    exact sub_eq_zero.1 (pow_eq_zero_iff (by norm_num) |>.1 h3)
  have hinj : Set.InjOn (fun V : ℝ => V ^ (-2 / 3 : ℝ)) ((data.map Prod.fst).toFinset : Set ℝ) := by
    intro a ha b hb hab
    have pos : ∀ a ∈ ((data.map Prod.fst).toFinset : Set ℝ), 0 < a := by
      intro a ha
      rw [List.coe_toFinset] at ha
      obtain ⟨d, hdm, rfl⟩ := List.mem_map.1 ha
      exact (hd d hdm).1
    have h1 := congrArg (fun y : ℝ => y ^ (-3 / 2 : ℝ)) hab
    simp only at h1
    rw [← Real.rpow_mul (pos a ha).le, ← Real.rpow_mul (pos b hb).le] at h1
    norm_num at h1
    exact h1
  refine cubic_ext _ _ ((data.map Prod.fst).toFinset.image fun V : ℝ => V ^ (-2 / 3 : ℝ)) ?_ ?_
  · rw [Finset.card_image_of_injOn hinj]; exact hc
  · intro x hx
    obtain ⟨V, hV, rfl⟩ := Finset.mem_image.1 hx
    rw [List.mem_toFinset] at hV
    obtain ⟨d, hdm, rfl⟩ := List.mem_map.1 hV
    rw [hz' d hdm, bmCubic_eval _ _ _ _ _ h0 (hd d hdm).1, ← (hd d hdm).2]

/-- C157: for energies on a Birch-Murnaghan curve at four or more different volumes, the fit returns the parameters of the curve: `fit` is any least-squares cubic,
`roots` lists the stationary points in any order. -/
theorem C157_recovers (data : List (ℝ × ℝ)) (E0 V0 B0 B1 : ℝ) (h0 : 0 < V0) (hB : 0 < B0) (hd : OnCurve data E0 V0 B0 B1) (hc : 4 ≤ (data.map Prod.fst).toFinset.card)
    (fit : Cubic) (hfit : ∀ q, ssr data fit ≤ ssr data q) (roots : List ℝ) (hr : ∀ x, x ∈ roots ↔ fit.d1 x = 0) : bm fit roots = some (V0, B0, B1) := by
  have hf := fit_exact data E0 V0 B0 B1 h0 hd hc fit hfit
  subst hf
  obtain ⟨h1, h2, h3⟩ := bmCubic_min E0 V0 B0 B1 h0 hB
  rw [C157_found _ roots (fun x hx => (hr x).1 hx) _ ((hr _).2 h1) (by positivity) h2, h3]

/-- C157, violated: with four data points or fewer the script fails with `IndexError` although the fit has a minimum. -/
theorem C157_four_points (data : List (ℝ × ℝ)) (fit : Cubic) (roots : List ℝ) (h : bm fit roots ≠ none) (hl : data.length ≤ 4) : eosfit data fit roots = .error .index := by
  unfold eosfit
  cases hb : bm fit roots with
  | none => exact absurd hb h
  | some r => simp only [hl, true_or, if_true]

/-- C157, proved part: with five or more points on a curve at four or more different volumes the script reports the parameters, the bulk modulus in GPa with the
script's value of the electron charge. -/
theorem C157_report_partial (data : List (ℝ × ℝ)) (E0 V0 B0 B1 : ℝ) (h0 : 0 < V0) (hB : 0 < B0) (hd : OnCurve data E0 V0 B0 B1) (hc : 4 ≤ (data.map Prod.fst).toFinset.card)
    (hl : 5 ≤ data.length) (fit : Cubic) (hfit : ∀ q, ssr data fit ≤ ssr data q) (roots : List ℝ) (hr : ∀ x, x ∈ roots ↔ fit.d1 x = 0) :
    ∃ B, eosfit data fit roots = .ok (some (V0, B, B1)) ∧ |toEv B - B0| ≤ B0 * (5 / 10 ^ 7) ∧ B0 < toEv B := by
  have h1 := C157_recovers data E0 V0 B0 B1 h0 hB hd hc fit hfit roots hr
  refine ⟨B0 * (160217733 / 10 ^ 27) * 10 ^ 21, ?_, ?_⟩
  · unfold eosfit
    rw [h1]
    simp only
    rw [if_neg]
    rintro (h | h)
    · omega
    · have := @hc
      have e : (data.map Prod.fst).toFinset.card < 4 := by convert h
      omega
  · have e : toEv (B0 * (160217733 / 10 ^ 27) * 10 ^ 21) - B0 = B0 * (160217733 / (1602176565 / 10) - 1) := by
      unfold toEv; norm_num; ring
    refine ⟨?_, ?_⟩
    · rw [e, abs_of_nonneg (by norm_num; exact hB.le)]
      have : (160217733 / (1602176565 / 10) - 1 : ℝ) ≤ 5 / 10 ^ 7 := by norm_num
      exact mul_le_mul_of_nonneg_left this hB.le
    · have : 0 < toEv (B0 * (160217733 / 10 ^ 27) * 10 ^ 21) - B0 := by rw [e]; norm_num; exact hB
      linarith

/-- Data on a curve: the curve itself at seven volumes, and a least-squares fit of it. -/
example : OnCurve ([94, 96, 98, 100, 102, 104, 106].map fun V : ℝ => (V, 1 + bmEnergy 100 1 4 V)) 1 100 1 4 ∧
    ∀ q, ssr ([94, 96, 98, 100, 102, 104, 106].map fun V : ℝ => (V, 1 + bmEnergy 100 1 4 V)) (bmCubic 1 100 1 4)
      ≤ ssr ([94, 96, 98, 100, 102, 104, 106].map fun V : ℝ => (V, 1 + bmEnergy 100 1 4 V)) q := by
  have h : OnCurve ([94, 96, 98, 100, 102, 104, 106].map fun V : ℝ => (V, 1 + bmEnergy 100 1 4 V)) 1 100 1 4 := by
    intro d hd
    obtain ⟨V, hV, rfl⟩ := List.mem_map.1 hd
    refine ⟨?_, rfl⟩
    simp only [List.mem_cons, List.not_mem_nil, or_false] at hV
    rcases hV with rfl | rfl | rfl | rfl | rfl | rfl | rfl <;> norm_num
  refine ⟨h, fun q => ?_⟩
  have hz : ssr ([94, 96, 98, 100, 102, 104, 106].map fun V : ℝ => (V, 1 + bmEnergy 100 1 4 V)) (bmCubic 1 100 1 4) = 0 := by
    unfold ssr
    rw [List.sum_eq_zero]
    intro y hy
    obtain ⟨d, hdm, rfl⟩ := List.mem_map.1 hy
    rw [bmCubic_eval _ _ _ _ _ (by norm_num) (h d hdm).1, ← (h d hdm).2]
    ring
  rw [hz]
  refine List.sum_nonneg fun y hy => ?_
  obtain ⟨d, _, rfl⟩ := List.mem_map.1 hy
  positivity

end Verif.Delta
