import Mathlib.Algebra.Order.BigOperators.Group.List
import Mathlib.Analysis.Complex.Norm
import Mathlib.Analysis.Complex.Basic
import Mathlib.Data.List.GetD
import Mathlib.Tactic.Linarith
import Verif.Model.EigPrec

/-!
# C148: preconditioner of the eigensolvers; C149: wrappers of external eigensolvers
-/

namespace Verif.EigPrec

open Verif

/-- The diagonal the preconditioner is given: kinetic energy plus diagonal of the non-local operator plus the mean local potential, of the first spin component for the first `n`
plane waves and of the second one for the `n` after them in a non-collinear calculation. -/
theorem C148_diagonal (n : ℕ) (ke vnl : ℕ → ℝ) (v0 v1 : ℝ) :
    (∀ nc, ∀ g < n, hamDiag n nc ke vnl v0 v1 g = ke g + vnl g + v0) ∧ ∀ g, n ≤ g → hamDiag n true ke vnl v0 v1 g = ke g + vnl g + v1 := by
  refine ⟨fun nc g hg => ?_, fun g hg => ?_⟩
  · simp only [hamDiag, if_pos hg]
  · simp only [hamDiag, if_neg (not_lt.2 hg), if_true]

/-- The factor a component is divided by lies above both 1 and `2 (h - e)`, by at most 1/2: never zero, never negative, close to twice the difference where that is large. -/
theorem C148_denominator (h e : ℝ) : 1 < denom h e * 2 ∧ 2 * (h - e) < denom h e * 2 ∧ denom h e * 2 ≤ max 1 (2 * (h - e)) + 1 / 2 := by
  set x := 2 * (h - e) with hx
  have hd : denom h e * 2 = (1 + x + Real.sqrt (1 + (x - 1) ^ 2)) / 2 := by simp only [denom, ← hx]; ring
  rw [hd]
  have h1 : |x - 1| < Real.sqrt (1 + (x - 1) ^ 2) := by
    rw [← Real.sqrt_sq_eq_abs]; exact Real.sqrt_lt_sqrt (sq_nonneg _) (by linarith)
  have h2 : Real.sqrt (1 + (x - 1) ^ 2) ≤ |x - 1| + 1 := by
    rw [Real.sqrt_le_left (by positivity)]
    have := abs_nonneg (x - 1)
    have h3 : |x - 1| ^ 2 = (x - 1) ^ 2 := sq_abs _
    nlinarith
  have h4 := neg_abs_le (x - 1)
  have h5 := le_abs_self (x - 1)
  refine ⟨by linarith, by linarith, ?_⟩
  rcases le_total x 1 with hle | hle
  · rw [max_eq_left hle]; rw [abs_of_nonpos (by linarith)] at h2; linarith
  · rw [max_eq_right hle]; rw [abs_of_nonneg (by linarith)] at h2; linarith

/-- Components with a higher diagonal are damped at least as much: the factor never decreases. -/
theorem C148_monotone (h h' e : ℝ) (hh : h ≤ h') : denom h e ≤ denom h' e := by
  simp only [denom]
  set x := 2 * (h - e)
  set y := 2 * (h' - e)
  have hxy : x ≤ y := by simp only [x, y]; linarith
  have key : Real.sqrt (1 + (x - 1) ^ 2) ≤ (y - x) + Real.sqrt (1 + (y - 1) ^ 2) := by
    rw [Real.sqrt_le_left (by positivity)]
    have hs := Real.sq_sqrt (show 0 ≤ 1 + (y - 1) ^ 2 by positivity)
    have hy : |y - 1| ≤ Real.sqrt (1 + (y - 1) ^ 2) := by
      rw [← Real.sqrt_sq_eq_abs]; exact Real.sqrt_le_sqrt (by linarith)
    have h5 := neg_abs_le (y - 1)
    have h6 : 0 ≤ Real.sqrt (1 + (y - 1) ^ 2) + (y - 1) := by linarith
    nlinarith [mul_nonneg (sub_nonneg.2 hxy) h6]
  linarith

theorem applyBand_get (ham : ℕ → ℝ) (e : ℝ) (psi : List ℂ) (g : ℕ) (hg : g < psi.length) :
    (applyBand ham e psi).getD g 0 = psi.getD g 0 / ((denom (ham g) e * 2 : ℝ) : ℂ) := by
  simp only [applyBand]
  rw [List.getD_eq_getElem (hn := by simpa using hg)]
  simp only [List.getElem_map, List.getElem_range]

/-- Specification: band `out` is band `psi` with component `g` divided by a real number that is more than 1, more than `2 (h_g - e)` and at most 1/2 above the larger of the two. -/
def Preconditioned (ham : ℕ → ℝ) (e : ℝ) (psi out : List ℂ) : Prop :=
  out.length = psi.length ∧ ∀ g < psi.length, ∃ d : ℝ, 1 < d ∧ 2 * (ham g - e) < d ∧ d ≤ max 1 (2 * (ham g - e)) + 1 / 2 ∧ (d : ℂ) * out.getD g 0 = psi.getD g 0

/-- C148: `apply_g_psi` preconditions every band with its own eigenvalue. -/
theorem C148_apply (ham : ℕ → ℝ) (ps : List (List ℂ)) (es : List ℝ) (hl : ps.length = es.length) :
    (applyGPsi ham ps es).length = ps.length ∧ ∀ b < ps.length, Preconditioned ham (es.getD b 0) (ps.getD b []) ((applyGPsi ham ps es).getD b []) := by
  induction ps generalizing es with
  | nil => cases es <;> exact ⟨rfl, by simp⟩
  | cons psi ps ih =>
    match es, hl with
    | e :: es, hl =>
      obtain ⟨i1, i2⟩ := ih es (by simpa using hl)
      refine ⟨by simp only [applyGPsi, List.length_cons, i1], fun b hb => ?_⟩
      match b with
      | 0 =>
        simp only [applyGPsi, List.getD_cons_zero]
        refine ⟨by simp [applyBand], fun g hg => ?_⟩
        obtain ⟨d1, d2, d3⟩ := C148_denominator (ham g) e
        refine ⟨_, d1, d2, d3, ?_⟩
        rw [applyBand_get ham e psi g hg]
        exact mul_div_cancel₀ _ (by exact_mod_cast (ne_of_gt (lt_trans zero_lt_one d1)))
      | b + 1 =>
        simp only [applyGPsi, List.getD_cons_succ]
        exact i2 b (by simpa using hb)

/-- A preconditioned band is nowhere larger than the original, and is zero exactly where the original is: a residual that is not zero never becomes a zero search direction. -/
theorem C148_nonzero (ham : ℕ → ℝ) (e : ℝ) (psi out : List ℂ) (h : Preconditioned ham e psi out) (g : ℕ) :
    (out.getD g 0 = 0 ↔ psi.getD g 0 = 0) ∧ ‖out.getD g 0‖ ≤ ‖psi.getD g 0‖ := by
  by_cases hg : g < psi.length
  · obtain ⟨d, d1, _, _, d4⟩ := h.2 g hg
    rw [← d4]
    refine ⟨⟨fun h => by rw [h, mul_zero], fun h => (mul_eq_zero.1 h).resolve_left (by exact_mod_cast (by linarith : d ≠ 0))⟩, ?_⟩
    rw [norm_mul, Complex.norm_real, Real.norm_eq_abs, abs_of_pos (by linarith)]
    exact le_mul_of_one_le_left (norm_nonneg _) d1.le
  · rw [List.getD_eq_default _ _ (by rw [h.1]; omega), List.getD_eq_default _ _ (by omega)]
    simp

/-- The hypotheses are met by two bands of two components. -/
example : (applyGPsi (fun g => g) [[1, Complex.I], [0, 2]] [0, 3]).length = 2 := (C148_apply _ [[1, Complex.I], [0, 2]] [0, 3] rfl).1

/-! ## External solvers -/

/-- Specification of the external solver: whatever it returns are eigenvalues of the operator it was given, in increasing order, with eigenvectors in the columns of the matrix. -/
def Ext.Correct (x : Ext) : Prop :=
  ∀ (n : ℕ) (op : (Fin n → ℂ) → Except PyErr (Fin n → ℂ)) (k : ℕ) r, x.run n op k = .ok r →
    (∀ i : Fin k, op (fun g => r.2.1 g i) = .ok fun g => (r.1 i : ℂ) * r.2.1 g i) ∧ (∀ i j : Fin k, i ≤ j → r.1 i ≤ r.1 j) ∧ (∀ i : Fin k, ∃ g, r.2.1 g i ≠ 0)

/-- What the caller expects: every stored band is an eigenvector of the Hamiltonian for the stored value. -/
def Solved {w k : ℕ} (hpsi : (Fin w → ℂ) → Fin w → ℂ) (s : State w k) : Prop :=
  (∀ b, hpsi (s.evc b) = fun g => (s.evl b : ℂ) * s.evc b g) ∧ (∀ i j, i ≤ j → s.evl i ≤ s.evl j) ∧ ∀ b, ∃ g, s.evc b g ≠ 0

theorem core {w k : ℕ} (x : Ext) (hx : x.Correct) (hpsi : (Fin w → ℂ) → Fin w → ℂ) (r : (Fin k → ℝ) × (Fin w → Fin k → ℂ) × ℕ)
    (h : x.run w (matvec hpsi) k = .ok r) : Solved hpsi (⟨r.1, fun b g => r.2.1 g b⟩ : State w k) := by
  obtain ⟨h1, h2, h3⟩ := hx _ _ _ _ h
  refine ⟨fun b => ?_, h2, h3⟩
  have := h1 b
  simp only [matvec, dite_true, Except.ok.injEq] at this
  exact this

/-- C149: with a correct external solver, whatever the two wrappers return is solved. -/
theorem C149_solved {w k : ℕ} (ranks n : ℕ) (hpsi : (Fin w → ℂ) → Fin w → ℂ) (thr : ℝ) (s : State w k) (m : ℕ) :
    (∀ x : Ext, x.Correct → scipySolve x ranks n hpsi thr = .ok (s, m) → Solved hpsi s) ∧
    (∀ (x : ℝ → Ext) (inst : Bool), (∀ t, (x t).Correct) → primmeSolve inst x ranks n hpsi thr = .ok (s, m) → Solved hpsi s) := by
  constructor
  · intro x hx h
    simp only [scipySolve, bind, Except.bind, pure, Except.pure, throw, throwThe, MonadExceptOf.throw] at h
    by_cases hw : w = n
    · subst hw
      repeat' split at h
      all_goals first | (cases h; done) | skip
      rename_i r hr _
      cases h
      exact core x hx hpsi r hr
    · simp only [hw, dite_false] at h
      repeat' split at h
      all_goals cases h
  · intro x inst hx h
    simp only [primmeSolve, bind, Except.bind, pure, Except.pure, throw, throwThe, MonadExceptOf.throw] at h
    by_cases hw : w = n
    · subst hw
      repeat' split at h
      all_goals first | (cases h; done) | skip
      rename_i r hr _
      cases h
      exact core (x thr) (hx thr) hpsi r hr
    · simp only [hw, dite_false] at h
      repeat' split at h
      all_goals cases h

/-- C149, violated: non-collinear wavefunctions are never solved, whatever the external solver. -/
theorem C149_noncollinear {k : ℕ} (n : ℕ) (hn : 0 < n) (ranks : ℕ) (hpsi : (Fin (2 * n) → ℂ) → Fin (2 * n) → ℂ) (thr : ℝ) (x : Ext) :
    ∃ e, scipySolve (k := k) x ranks n hpsi thr = .error e := by
  have hw : ¬ 2 * n = n := by omega
  simp only [scipySolve, bind, Except.bind, pure, Except.pure, throw, throwThe, MonadExceptOf.throw, hw, dite_false]
  by_cases h1 : ranks ≠ 1
  · exact ⟨_, by rw [if_pos h1]⟩
  · by_cases h2 : ¬ 0 < thr
    · exact ⟨_, by rw [if_neg h1]; simp only [h2, not_false_eq_true, if_true]; rfl⟩
    · cases hr : x.run n (matvec hpsi) k with
      | error e => exact ⟨e, by simp [h1, h2]⟩
      | ok r => exact ⟨.value, by simp [h1, h2]⟩

/-- C149, violated for scipy: the requested accuracy has no influence. -/
theorem C149_threshold_ignored {w k : ℕ} (ranks n : ℕ) (hpsi : (Fin w → ℂ) → Fin w → ℂ) (t t' : ℝ) (ht : 0 < t) (ht' : 0 < t') (x : Ext) :
    scipySolve (k := k) x ranks n hpsi t = scipySolve x ranks n hpsi t' := by
  simp only [scipySolve, ht, ht']

/-- C149: on more than one process both wrappers refuse. -/
theorem C149_serial_only {w k : ℕ} (ranks n : ℕ) (hr : ranks ≠ 1) (hpsi : (Fin w → ℂ) → Fin w → ℂ) (t : ℝ) (x : Ext) (y : ℝ → Ext) :
    scipySolve (k := k) x ranks n hpsi t = .error .assertion ∧ primmeSolve (k := k) true y ranks n hpsi t = .error .assertion := by
  constructor
  · simp [scipySolve, hr, bind, Except.bind, throw, throwThe, MonadExceptOf.throw]
  · simp [primmeSolve, hr, bind, Except.bind, throw, throwThe, MonadExceptOf.throw]

/-- A correct solver and a run that succeeds: one plane wave, Hamiltonian `3`. -/
example : ∃ x : Ext, x.run 1 (matvec (w := 1) fun v g => 3 * v g) 1 = .ok (fun _ => 3, fun _ _ => 1, 1) ∧
    scipySolve (w := 1) (k := 1) x 1 1 (fun v g => 3 * v g) 1 = .ok (⟨fun _ => 3, fun _ _ => 1⟩, 1) := by
  refine ⟨⟨fun n op k => .ok (fun _ => 3, fun _ _ => 1, 1)⟩, rfl, ?_⟩
  simp [scipySolve, bind, Except.bind, pure, Except.pure]

end Verif.EigPrec
