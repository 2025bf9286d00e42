import Mathlib.Analysis.SpecialFunctions.Pow.Deriv
import Mathlib.Analysis.SpecialFunctions.Pow.Continuity
import Mathlib.MeasureTheory.Integral.IntervalIntegral.FundThmCalculus
import Mathlib.Analysis.Calculus.DerivativeTest
import Mathlib.Tactic.Linarith
import Mathlib.Tactic.FieldSimp
import Verif.Model.Delta

/-!
# C156: Delta values; C157: fits of equations of state
-/

namespace Verif.Delta

open Verif

/-- Specification: the Birch-Murnaghan energy as a function of the volume, relative to the minimum. -/
noncomputable def bmEnergy (V0 B0 B1 V : ℝ) : ℝ :=
  9 * V0 * B0 / 16 * (((V0 / V) ^ (2 / 3 : ℝ) - 1) ^ 3 * B1 + ((V0 / V) ^ (2 / 3 : ℝ) - 1) ^ 2 * (6 - 4 * (V0 / V) ^ (2 / 3 : ℝ)))

/-- Specification: GPa in eV/Å³. -/
noncomputable def gpa (b : ℝ) : ℝ := b / (1602176565 / 10 ^ 7)

theorem toEv_eq (b : ℝ) : toEv b = gpa b := by
  unfold toEv gpa
  norm_num
  ring

/-- The energy is a cubic polynomial in `V^(-2/3)`. -/
theorem bm_cubic (V0 B0 B1 V : ℝ) (h0 : 0 < V0) (hV : 0 < V) :
    bmEnergy V0 B0 B1 V = coef V0 B0 B1 0 + coef V0 B0 B1 1 * V ^ (-2 / 3 : ℝ) + coef V0 B0 B1 2 * (V ^ (-2 / 3 : ℝ)) ^ 2 + coef V0 B0 B1 3 * (V ^ (-2 / 3 : ℝ)) ^ 3 := by
  have e1 : (V0 / V) ^ (2 / 3 : ℝ) = V0 ^ (2 / 3 : ℝ) * V ^ (-2 / 3 : ℝ) := by
    rw [Real.div_rpow h0.le hV.le, div_eq_mul_inv, ← Real.rpow_neg hV.le]
    norm_num
  have e2 : V0 ^ (5 / 3 : ℝ) = V0 * V0 ^ (2 / 3 : ℝ) := by
    rw [show (5 / 3 : ℝ) = 1 + 2 / 3 by norm_num, Real.rpow_add h0, Real.rpow_one]
  have e3 : V0 ^ (7 / 3 : ℝ) = V0 * (V0 ^ (2 / 3 : ℝ)) ^ 2 := by
    rw [show (7 / 3 : ℝ) = 1 + (2 / 3 + 2 / 3) by norm_num, Real.rpow_add h0, Real.rpow_one, Real.rpow_add h0]
    ring
  have e4 : V0 ^ (3 : ℝ) = V0 * (V0 ^ (2 / 3 : ℝ)) ^ 3 := by
    have : V0 ^ (3 : ℝ) = V0 ^ (1 + (2 / 3 + (2 / 3 + 2 / 3)) : ℝ) := by norm_num
    rw [this, Real.rpow_add h0, Real.rpow_one, Real.rpow_add h0, Real.rpow_add h0]
    ring
  simp only [bmEnergy, coef]
  rw [e1, e2, e3, e4]
  ring

theorem pow_deriv (n : ℕ) (V : ℝ) (hV : 0 < V) :
    HasDerivAt (fun V : ℝ => V ^ (-(2 * (n : ℝ) - 3) / 3)) ((1 - 2 * n / 3) * (V ^ (-2 / 3 : ℝ)) ^ n) V := by
  refine (Real.hasDerivAt_rpow_const (p := -(2 * (n : ℝ) - 3) / 3) (.inl hV.ne')).congr_deriv ?_
  rw [← Real.rpow_natCast, ← Real.rpow_mul hV.le]
  congr 1
  · ring
  · congr 1; ring

theorem prim_xs_deriv (d : ℕ → ℝ) (V : ℝ) (hV : 0 < V) :
    HasDerivAt (prim (xs d)) ((d 0 + d 1 * V ^ (-2 / 3 : ℝ) + d 2 * (V ^ (-2 / 3 : ℝ)) ^ 2 + d 3 * (V ^ (-2 / 3 : ℝ)) ^ 3) ^ 2) V := by
  have h := HasDerivAt.fun_sum (u := Finset.range 7) (A := fun n V => xs d n * V ^ (-(2 * (n : ℝ) - 3) / 3)) (fun n _ => (pow_deriv n V hV).const_mul (xs d n))
  refine h.congr_deriv ?_
  simp only [Finset.sum_range_succ, Finset.sum_range_zero, xs]
  push_cast
  ring

theorem prim_ys_deriv (d : ℕ → ℝ) (V : ℝ) (hV : 0 < V) :
    HasDerivAt (prim (ys d)) (((d 0 + d 1 * V ^ (-2 / 3 : ℝ) + d 2 * (V ^ (-2 / 3 : ℝ)) ^ 2 + d 3 * (V ^ (-2 / 3 : ℝ)) ^ 3) / 2) ^ 2) V := by
  have h := HasDerivAt.fun_sum (u := Finset.range 7) (A := fun n V => ys d n * V ^ (-(2 * (n : ℝ) - 3) / 3)) (fun n _ => (pow_deriv n V hV).const_mul (ys d n))
  refine h.congr_deriv ?_
  simp only [Finset.sum_range_succ, Finset.sum_range_zero, ys]
  push_cast
  ring

theorem poly_cont (d : ℕ → ℝ) (a b : ℝ) (ha : 0 < a) :
    ContinuousOn (fun V : ℝ => d 0 + d 1 * V ^ (-2 / 3 : ℝ) + d 2 * (V ^ (-2 / 3 : ℝ)) ^ 2 + d 3 * (V ^ (-2 / 3 : ℝ)) ^ 3) (Set.Icc a b) := by
  have h : ContinuousOn (fun V : ℝ => V ^ (-2 / 3 : ℝ)) (Set.Icc a b) :=
    continuousOn_id.rpow_const fun V hV => .inl (by have := hV.1; simp only [id]; linarith)
  fun_prop

theorem prim_xs_int (d : ℕ → ℝ) (a b : ℝ) (ha : 0 < a) (hab : a ≤ b) :
    prim (xs d) b - prim (xs d) a = ∫ V in a..b, (d 0 + d 1 * V ^ (-2 / 3 : ℝ) + d 2 * (V ^ (-2 / 3 : ℝ)) ^ 2 + d 3 * (V ^ (-2 / 3 : ℝ)) ^ 3) ^ 2 := by
  symm
  refine intervalIntegral.integral_eq_sub_of_hasDerivAt (fun V hV => prim_xs_deriv d V ?_) ?_
  · rw [Set.uIcc_of_le hab] at hV; linarith [hV.1]
  · exact ContinuousOn.intervalIntegrable (by rw [Set.uIcc_of_le hab]; exact (poly_cont d a b ha).pow 2)

theorem prim_ys_int (d : ℕ → ℝ) (a b : ℝ) (ha : 0 < a) (hab : a ≤ b) :
    prim (ys d) b - prim (ys d) a = ∫ V in a..b, ((d 0 + d 1 * V ^ (-2 / 3 : ℝ) + d 2 * (V ^ (-2 / 3 : ℝ)) ^ 2 + d 3 * (V ^ (-2 / 3 : ℝ)) ^ 3) / 2) ^ 2 := by
  symm
  refine intervalIntegral.integral_eq_sub_of_hasDerivAt (fun V hV => prim_ys_deriv d V ?_) ?_
  · rw [Set.uIcc_of_le hab] at hV; linarith [hV.1]
  · exact ContinuousOn.intervalIntegrable (by rw [Set.uIcc_of_le hab]; exact ((poly_cont d a b ha).div_const 2).pow 2)

/-- The energy of a row of a data file, in eV per atom. -/
noncomputable def Row.energy (r : Row) (V : ℝ) : ℝ := bmEnergy r.v0 (gpa r.b0) r.bp V

/-- The middle of the volumes compared: the mean of the two equilibrium volumes, or the reference's one. -/
noncomputable def centre (asymm : Bool) (f w : Row) : ℝ := if asymm then w.v0 else (w.v0 + f.v0) / 2

/-- C156: Delta is 1000 times (meV) the root mean square of the difference of the two equations of state over the volumes within 6 % of the middle; the relative Delta is in per cent
of the root mean square of their mean over the same volumes; Delta1 is Delta scaled to a material of 30 Å³ and 100 GPa. -/
theorem C156_delta (asymm : Bool) (f w : Row) (hf : 0 < f.v0) (hw : 0 < w.v0) :
    ∃ Vi Vf : ℝ, Vi = (1 - 6 / 100) * centre asymm f w ∧ Vf = (1 + 6 / 100) * centre asymm f w ∧
      (delta asymm f w).1 = 1000 * Real.sqrt ((∫ V in Vi..Vf, (f.energy V - w.energy V) ^ 2) / (Vf - Vi)) ∧
      (delta asymm f w).2.1 = 100 * Real.sqrt ((∫ V in Vi..Vf, (f.energy V - w.energy V) ^ 2) / ∫ V in Vi..Vf, ((f.energy V + w.energy V) / 2) ^ 2) ∧
      (delta asymm f w).2.2 = (delta asymm f w).1 * (30 * gpa 100) / (centre asymm f w * if asymm then gpa w.b0 else (gpa w.b0 + gpa f.b0) / 2) := by
  have hc : 0 < centre asymm f w := by unfold centre; split <;> linarith
  have e1 : (window asymm w.v0 f.v0).1 = (1 - 6 / 100) * centre asymm f w := by
    unfold window centre; cases asymm <;> simp only [Bool.false_eq_true, if_false, if_true] <;> ring
  have e2 : (window asymm w.v0 f.v0).2 = (1 + 6 / 100) * centre asymm f w := by
    unfold window centre; cases asymm <;> simp only [Bool.false_eq_true, if_false, if_true] <;> ring
  refine ⟨_, _, rfl, rfl, ?_⟩
  rw [← e1, ← e2]
  have ha : 0 < (window asymm w.v0 f.v0).1 := by rw [e1]; linarith
  have hab : (window asymm w.v0 f.v0).1 ≤ (window asymm w.v0 f.v0).2 := by rw [e1, e2]; linarith
  have hF := prim_xs_int (fun n => coef f.v0 (toEv f.b0) f.bp n - coef w.v0 (toEv w.b0) w.bp n) _ _ ha hab
  have hG := prim_ys_int (fun n => coef f.v0 (toEv f.b0) f.bp n + coef w.v0 (toEv w.b0) w.bp n) _ _ ha hab
  have hI : ∀ V ∈ Set.uIcc (window asymm w.v0 f.v0).1 (window asymm w.v0 f.v0).2, 0 < V := by
    intro V hV; rw [Set.uIcc_of_le hab] at hV; linarith [hV.1]
  have hF' : prim (xs fun n => coef f.v0 (toEv f.b0) f.bp n - coef w.v0 (toEv w.b0) w.bp n) (window asymm w.v0 f.v0).2
      - prim (xs fun n => coef f.v0 (toEv f.b0) f.bp n - coef w.v0 (toEv w.b0) w.bp n) (window asymm w.v0 f.v0).1
      = ∫ V in (window asymm w.v0 f.v0).1..(window asymm w.v0 f.v0).2, (f.energy V - w.energy V) ^ 2 := by
    rw [hF]
    refine intervalIntegral.integral_congr fun V hV => ?_
    simp only [Row.energy]
    rw [bm_cubic _ _ _ V hf (hI V hV), bm_cubic _ _ _ V hw (hI V hV), toEv_eq, toEv_eq]
    ring
  have hG' : prim (ys fun n => coef f.v0 (toEv f.b0) f.bp n + coef w.v0 (toEv w.b0) w.bp n) (window asymm w.v0 f.v0).2
      - prim (ys fun n => coef f.v0 (toEv f.b0) f.bp n + coef w.v0 (toEv w.b0) w.bp n) (window asymm w.v0 f.v0).1
      = ∫ V in (window asymm w.v0 f.v0).1..(window asymm w.v0 f.v0).2, ((f.energy V + w.energy V) / 2) ^ 2 := by
    rw [hG]
    refine intervalIntegral.integral_congr fun V hV => ?_
    simp only [Row.energy]
    rw [bm_cubic _ _ _ V hf (hI V hV), bm_cubic _ _ _ V hw (hI V hV), toEv_eq, toEv_eq]
    ring
  refine ⟨?_, ?_, ?_⟩
  · show 1000 * Real.sqrt (_ / _) = _
    rw [hF']
  · show 100 * Real.sqrt (_ / _) = _
    rw [hF', hG']
  · have hD : (delta asymm f w).2.2 = if asymm then (delta asymm f w).1 / w.v0 / toEv w.b0 * 30 * toEv 100
        else (delta asymm f w).1 / (w.v0 + f.v0) / (toEv w.b0 + toEv f.b0) * 4 * 30 * toEv 100 := rfl
    rw [hD]
    generalize (delta asymm f w).1 = D
    simp only [toEv_eq, centre]
    cases asymm
    · simp only [Bool.false_eq_true, if_false]
      rw [show (w.v0 + f.v0) / 2 * ((gpa w.b0 + gpa f.b0) / 2) = (w.v0 + f.v0) * (gpa w.b0 + gpa f.b0) / 4 by ring, div_div, div_div_eq_mul_div]
      ring
    · simp only [if_true]
      rw [div_div]
      ring

/-- C156: exchanging the two files changes nothing in the symmetric mode. -/
theorem C156_symmetric (f w : Row) (hf : 0 < f.v0) (hw : 0 < w.v0) : delta false f w = delta false w f := by
  obtain ⟨a, b, ha, hb, h1, h2, h3⟩ := C156_delta false f w hf hw
  obtain ⟨a', b', ha', hb', h1', h2', h3'⟩ := C156_delta false w f hw hf
  have hc : centre false w f = centre false f w := by simp [centre, add_comm]
  rw [hc, ← ha] at ha'
  rw [hc, ← hb] at hb'
  subst ha' hb'
  have e1 : ∀ V, (w.energy V - f.energy V) ^ 2 = (f.energy V - w.energy V) ^ 2 := fun V => by ring
  have e2 : ∀ V, ((w.energy V + f.energy V) / 2) ^ 2 = ((f.energy V + w.energy V) / 2) ^ 2 := fun V => by ring
  simp only [e1, e2] at h1' h2'
  refine Prod.ext (h1.trans h1'.symm) (Prod.ext (h2.trans h2'.symm) ?_)
  rw [h3, h3', h1, h1', hc]
  simp only [Bool.false_eq_true, if_false, add_comm]

/-- C156: Delta is zero exactly if the two equations of state agree at all the volumes compared. -/
theorem C156_zero_iff (asymm : Bool) (f w : Row) (hf : 0 < f.v0) (hw : 0 < w.v0) :
    (delta asymm f w).1 = 0 ↔ ∀ V, (1 - 6 / 100) * centre asymm f w ≤ V → V ≤ (1 + 6 / 100) * centre asymm f w → f.energy V = w.energy V := by
  have hc : 0 < centre asymm f w := by unfold centre; split <;> linarith
  obtain ⟨a, b, ha, hb, h1, _, _⟩ := C156_delta asymm f w hf hw
  rw [h1, ← ha, ← hb]
  have hab : a < b := by rw [ha, hb]; linarith
  have ha0 : 0 < a := by rw [ha]; linarith
  have hcont : ContinuousOn (fun V => (f.energy V - w.energy V) ^ 2) (Set.Icc a b) := by
    have h := (poly_cont (fun n => coef f.v0 (gpa f.b0) f.bp n - coef w.v0 (gpa w.b0) w.bp n) a b ha0).pow 2
    refine h.congr fun V hV => ?_
    have hV0 : 0 < V := lt_of_lt_of_le ha0 hV.1
    simp only [Row.energy, Pi.pow_apply]
    rw [bm_cubic _ _ _ V hf hV0, bm_cubic _ _ _ V hw hV0]
    ring
  constructor
  · intro h V h2 h3
    by_contra hne
    have hpos : 0 < ∫ V in a..b, (f.energy V - w.energy V) ^ 2 := by
      refine intervalIntegral.integral_pos hab hcont (fun x _ => sq_nonneg _) ⟨V, ⟨h2, h3⟩, ?_⟩
      have : f.energy V - w.energy V ≠ 0 := sub_ne_zero.2 hne
      positivity
    have : 0 < Real.sqrt ((∫ V in a..b, (f.energy V - w.energy V) ^ 2) / (b - a)) := Real.sqrt_pos.2 (div_pos hpos (by linarith))
    linarith
  · intro h
    have : ∫ V in a..b, (f.energy V - w.energy V) ^ 2 = 0 := by
      rw [intervalIntegral.integral_congr (g := fun _ => 0), intervalIntegral.integral_zero]
      intro V hV
      rw [Set.uIcc_of_le hab.le] at hV
      simp only [h V hV.1 hV.2, sub_self]
      norm_num
    rw [this]
    simp

/-- The row of an element: the first one of the file. -/
def IsRow (data : List Row) (el : String) (r : Row) : Prop := ∃ pre post, data = pre ++ r :: post ∧ r.el = el ∧ ∀ q ∈ pre, q.el ≠ el

theorem lookup_spec (data : List Row) (el : String) (r : Row) : lookup data el = .ok r ↔ IsRow data el r := by
  unfold lookup IsRow
  cases h : data.find? fun r => decide (r.el = el) with
  | none =>
    rw [List.find?_eq_none] at h
    simp only [reduceCtorEq, false_iff]
    rintro ⟨pre, post, rfl, h1, _⟩
    exact h r (by simp) (by simpa using h1)
  | some r' =>
    rw [List.find?_eq_some_iff_append] at h
    obtain ⟨h1, as, bs, rfl, h2⟩ := h
    simp only [Except.ok.injEq]
    constructor
    · rintro rfl
      exact ⟨as, bs, rfl, by simpa using h1, fun q hq => by simpa using h2 q hq⟩
    · rintro ⟨pre, post, he, h3, h4⟩
      have h5 : (as ++ r' :: bs).find? (fun r => decide (r.el = el)) = some r' := List.find?_eq_some_iff_append.2 ⟨h1, as, bs, rfl, h2⟩
      have h6 : (pre ++ r :: post).find? (fun r => decide (r.el = el)) = some r :=
        List.find?_eq_some_iff_append.2 ⟨by simpa using h3, pre, post, rfl, fun q hq => by simpa using h4 q hq⟩
      rw [he, h6] at h5
      exact (Option.some.inj h5).symm

/-- C156: the values listed for the elements are those of the first row of each element in the two files, in the order of the elements. -/
theorem C156_rows (f w : List Row) (els : List String) (asymm : Bool) (rf rw : String → Row) (hf : ∀ e ∈ els, IsRow f e (rf e)) (hw : ∀ e ∈ els, IsRow w e (rw e)) :
    calcDelta f w els asymm = .ok (els.map fun e => delta asymm (rf e) (rw e)) := by
  unfold calcDelta
  induction els with
  | nil => rfl
  | cons e t ih =>
    have h1 := (lookup_spec f e _).2 (hf e (by simp))
    have h2 := (lookup_spec w e _).2 (hw e (by simp))
    have h3 := ih (fun e he => hf e (by simp [he])) (fun e he => hw e (by simp [he]))
    simp only [bind, Except.bind, pure, Except.pure] at h3
    simp only [List.mapM_cons, bind, Except.bind, pure, Except.pure, h1, h2, h3, List.map_cons]

/-- C156: an element that a file does not have is a `ValueError`. -/
theorem C156_missing (f w : List Row) (e : String) (t : List String) (asymm : Bool) (h : (∀ r ∈ w, r.el ≠ e) ∨ (∀ r ∈ f, r.el ≠ e) ∧ ∃ r, IsRow w e r) :
    calcDelta f w (e :: t) asymm = .error .value := by
  have hnone : ∀ d : List Row, (∀ r ∈ d, r.el ≠ e) → lookup d e = .error .value := by
    intro d hd
    unfold lookup
    rw [List.find?_eq_none.2 (by simpa using hd)]
  unfold calcDelta
  rcases h with h | ⟨h, r, hr⟩
  · simp only [List.mapM_cons, bind, Except.bind, hnone w h]
  · simp only [List.mapM_cons, bind, Except.bind, hnone f h, (lookup_spec w e r).2 hr]

/-- Two different equations of state: the Delta value is positive. -/
example : 0 < (delta false ⟨"Si", 20, 90, 4⟩ ⟨"Si", 21, 90, 4⟩).1 := by
  have h0 : 0 ≤ (delta false ⟨"Si", 20, 90, 4⟩ ⟨"Si", 21, 90, 4⟩).1 := mul_nonneg (by norm_num) (Real.sqrt_nonneg _)
  refine lt_of_le_of_ne h0 fun h => ?_
  have h1 := (C156_zero_iff false ⟨"Si", 20, 90, 4⟩ ⟨"Si", 21, 90, 4⟩ (by norm_num) (by norm_num)).1 h.symm 20 (by norm_num [centre]) (by norm_num [centre])
  simp only [Row.energy, bmEnergy] at h1
  rw [div_self (by norm_num : (20 : ℝ) ≠ 0), Real.one_rpow] at h1
  have h2 : (1 : ℝ) < (21 / 20 : ℝ) ^ (2 / 3 : ℝ) := Real.one_lt_rpow (by norm_num) (by norm_num)
  generalize (21 / 20 : ℝ) ^ (2 / 3 : ℝ) = y at *
  have h3 : 0 < gpa 90 := by unfold gpa; norm_num
  have h4 : 0 < (y - 1) ^ 2 := by have : y - 1 ≠ 0 := by linarith
                                  positivity
  have h5 : (y - 1) ^ 3 * 4 + (y - 1) ^ 2 * (6 - 4 * y) = (y - 1) ^ 2 * 2 := by ring
  rw [h5] at h1
  have : 0 < 9 * 21 * gpa 90 / 16 * ((y - 1) ^ 2 * 2) := by positivity
  linarith

end Verif.Delta
