import Verif.Model.Davidson
import Verif.Model.EZero
import Verif.Props.Occup
import Verif.Props.TransScf
import Verif.Props.EigPrec
import Verif.Props.Nonloc
import Mathlib.Tactic.Ring
import Mathlib.Tactic.Linarith
import Mathlib.Tactic.Module

/-!
# C224: the zero of energy

A constant added to the local ionic potential: what changes, and what does not, in the Hamiltonian, the eigensolver, the occupations and the self-consistent run.
-/

namespace Verif.EZero

open Verif

/-! ## Davidson -/

section
open Davidson
variable {E : Type*} [NormedAddCommGroup E] [InnerProductSpace ℂ E]

/-- The calls of the solver for a Hamiltonian and for the same Hamiltonian with the energy `γ` added; the preconditioner depends on the difference of energies only, and so does the solver of the reduced problem. -/
structure Raised (γ : ℝ) (c c' : Cfg E) : Prop where
  set : c'.numeig = c.numeig ∧ c'.numwork = c.numwork ∧ c'.maxiter = c.maxiter ∧ c'.thr = c.thr
  H : ∀ x, c'.H x = c.H x + (γ : ℂ) • x
  norm : c'.norm = c.norm
  precond : ∀ x e, c'.precond x (e + γ) = c.precond x e
  eigh : ∀ n A S, c'.eigh n (fun i j => A i j + γ * S i j) S = (c.eigh n A S).map fun p => (p.1, fun m => p.2 m + γ)

/-- Corresponding states of the two runs. -/
structure Rel (γ : ℝ) (s s' : St E) : Prop where
  same : s'.ndim = s.ndim ∧ s'.nun = s.nun ∧ s'.flag = s.flag ∧ s'.psi = s.psi ∧ s'.ovl = s.ovl ∧ s'.evcR = s.evcR ∧ s'.evc = s.evc
  hpsi : ∀ i < s.ndim, s'.hpsi i = s.hpsi i + (γ : ℂ) • s.psi i
  ham : s'.ham = fun i j => s.ham i j + γ * s.ovl i j
  evlR : s'.evlR = fun m => s.evlR m + γ
  evl : s'.evl = fun m => s.evl m + γ

theorem comb_add (γ : ℝ) (n : ℕ) (C : ℕ → ℕ → ℂ) (psi h h' : ℕ → E) (hh : ∀ i < n, h' i = h i + (γ : ℂ) • psi i) (m : ℕ) :
    comb n C h' m = comb n C h m + (γ : ℂ) • comb n C psi m := by
  unfold comb
  rw [Finset.smul_sum, ← Finset.sum_add_distrib]
  refine Finset.sum_congr rfl fun j hj => ?_
  rw [hh j (Finset.mem_range.1 hj)]
  module

variable {γ : ℝ} {c c' : Cfg E}

theorem move_rel (t : Raised γ c c') {s s' : St E} (h : Rel γ s s') : Rel γ (moveUnconv c s) (moveUnconv c' s') := by
  obtain ⟨a1, a2, a3, a4, a5, a6, a7⟩ := h.same
  refine ⟨⟨a1, a2, a3, a4, a5, ?_, a7⟩, h.hpsi, h.ham, ?_, h.evl⟩
  · unfold moveUnconv
    simp only [t.set.1, a2, a3, a6]
  · unfold moveUnconv
    simp only [t.set.1, a2, a3, h.evlR]
    funext m
    split_ifs <;> rfl

theorem expand_rel (t : Raised γ c c') {s s' : St E} (h : Rel γ s s') (hev : s'.evlR = fun m => s.evlR m + γ) :
    match expandPsi c s, expandPsi c' s' with
    | .ok q, .ok q' => Rel γ q q'
    | .error x, .error x' => x' = x
    | _, _ => False := by
  obtain ⟨a1, a2, a3, a4, a5, a6, a7⟩ := h.same
  unfold expandPsi
  rw [t.set.1, t.set.2.1, a1, a2]
  by_cases hb : c.numwork * c.numeig < s.ndim + s.nun
  · rw [if_pos hb, if_pos hb]
  · rw [if_neg hb, if_neg hb]
    have hnew : ∀ m, c'.norm (c'.precond (comb s.ndim s'.evcR s'.hpsi m - (s'.evlR m : ℂ) • comb s.ndim s'.evcR s'.psi m) (s'.evlR m))
        = c.norm (c.precond (comb s.ndim s.evcR s.hpsi m - (s.evlR m : ℂ) • comb s.ndim s.evcR s.psi m) (s.evlR m)) := by
      intro m
      rw [a6, a4, comb_add γ s.ndim s.evcR s.psi s.hpsi s'.hpsi h.hpsi m, hev, t.norm]
      show c.norm (c'.precond _ (s.evlR m + γ)) = _
      rw [t.precond]
      congr 2
      push_cast
      module
    simp only [hnew]
    refine ⟨⟨rfl, rfl, a3, ?_, a5, a6, a7⟩, ?_, h.ham, h.evlR, h.evl⟩
    · simp only [a4]
    · intro i hi
      simp only [a4]
      by_cases hc : s.ndim ≤ i ∧ i < s.ndim + s.nun
      · simp only [if_pos hc, t.H]
      · simp only [if_neg hc]
        have hi' : i < s.ndim + s.nun := hi
        exact h.hpsi i (by omega)

theorem update_rel {s s' : St E} (h : Rel γ s s') : Rel γ (updateRed s) (updateRed s') := by
  obtain ⟨a1, a2, a3, a4, a5, a6, a7⟩ := h.same
  refine ⟨⟨a1, a2, a3, a4, ?_, a6, a7⟩, h.hpsi, ?_, h.evlR, h.evl⟩
  · unfold updateRed
    simp only [a1, a2, a4, a5]
  · unfold updateRed
    simp only [a1, a2, a4, h.ham]
    funext i j
    by_cases hc : s.ndim - s.nun ≤ i ∧ i < s.ndim ∧ j < s.ndim
    · rw [if_pos hc, if_pos hc, if_pos hc, h.hpsi j hc.2.2, inner_add_right, inner_smul_right]
    · rw [if_neg hc, if_neg hc, if_neg hc]

theorem solveRed_rel (t : Raised γ c c') {s s' : St E}
    (a : s'.ndim = s.ndim ∧ s'.nun = s.nun ∧ s'.flag = s.flag ∧ s'.psi = s.psi ∧ s'.ovl = s.ovl ∧ s'.evcR = s.evcR ∧ s'.evc = s.evc)
    (h1 : ∀ i < s.ndim, s'.hpsi i = s.hpsi i + (γ : ℂ) • s.psi i) (h2 : s'.ham = fun i j => s.ham i j + γ * s.ovl i j) (h3 : s'.evl = fun m => s.evl m + γ) :
    match solveRed c s, solveRed c' s' with
    | .ok q, .ok q' => Rel γ q q'
    | .error x, .error x' => x' = x
    | _, _ => False := by
  obtain ⟨a1, a2, a3, a4, a5, a6, a7⟩ := a
  unfold solveRed
  rw [a1, a5, h2, t.eigh]
  cases he : c.eigh s.ndim s.ham s.ovl with
  | error x => rfl
  | ok p =>
    obtain ⟨C, lam⟩ := p
    refine ⟨⟨rfl, a2, a3, a4, rfl, ?_, a7⟩, h1, rfl, rfl, h3⟩
    simp only [a6]

theorem check_rel (t : Raised γ c c') {s s' : St E} (h : Rel γ s s') : Rel γ (checkConv c s) (checkConv c' s') := by
  obtain ⟨a1, a2, a3, a4, a5, a6, a7⟩ := h.same
  have hf : (fun m => decide (c'.thr < |s'.evlR m - s'.evl m|)) = fun m => decide (c.thr < |s.evlR m - s.evl m|) := by
    funext m
    rw [h.evlR, h.evl, t.set.2.2.2]
    simp only [add_sub_add_right_eq_sub]
  refine ⟨⟨a1, ?_, hf, a4, a5, a6, a7⟩, h.hpsi, h.ham, h.evlR, h.evlR⟩
  show (unconvRows c'.numeig _).length = (unconvRows c.numeig _).length
  rw [hf, t.set.1]

theorem rotate_rel {s s' : St E} (h : Rel γ s s') : Rel γ (rotate s) (rotate s') := by
  obtain ⟨a1, a2, a3, a4, a5, a6, a7⟩ := h.same
  refine ⟨⟨a1, a2, a3, a4, a5, a6, ?_⟩, h.hpsi, h.ham, h.evlR, h.evl⟩
  show comb s'.ndim s'.evcR s'.psi = comb s.ndim s.evcR s.psi
  rw [a1, a4, a6]

theorem restart_rel (t : Raised γ c c') {s s' : St E} (h : Rel γ s s') (hr : s.evc = comb s.ndim s.evcR s.psi) : Rel γ (restart c s) (restart c' s') := by
  obtain ⟨a1, a2, a3, a4, a5, a6, a7⟩ := h.same
  have hk := t.set.1
  refine ⟨⟨hk, a2, a3, ?_, ?_, ?_, a7⟩, ?_, ?_, h.evlR, h.evl⟩
  · unfold restart
    simp only [hk, a7, a4]
  · unfold restart
    simp only [hk]
  · unfold restart
    simp only [hk]
  · intro i hi
    have hi' : i < c.numeig := hi
    show (if i < c'.numeig then comb s'.ndim s'.evcR s'.hpsi i else _) = (if i < c.numeig then comb s.ndim s.evcR s.hpsi i else _) + (γ : ℂ) • (if i < c.numeig then s.evc i else _)
    rw [hk, if_pos hi', if_pos hi', if_pos hi', a1, a6, hr]
    exact comb_add γ s.ndim s.evcR s.psi s.hpsi s'.hpsi h.hpsi i
  · unfold restart
    simp only [hk, h.evl]
    funext i j
    by_cases hc : i = j ∧ i < c.numeig
    · rw [if_pos hc, if_pos hc, if_pos hc]; push_cast; ring
    · rw [if_neg hc, if_neg hc, if_neg hc]; ring

theorem body_rel (t : Raised γ c c') {s s' : St E} (h : Rel γ s s') :
    match body c s, body c' s' with
    | .ok q, .ok q' => Rel γ q q'
    | .error x, .error x' => x' = x
    | _, _ => False := by
  have hm := move_rel t h
  have he := expand_rel t hm hm.evlR
  unfold body
  revert he
  generalize expandPsi c (moveUnconv c s) = q
  generalize expandPsi c' (moveUnconv c' s') = q'
  intro he
  cases q with
  | error x => cases q' with
    | error x' => exact he
    | ok _ => exact he.elim
  | ok q => cases q' with
    | error _ => exact he.elim
    | ok q' =>
      have hu := update_rel (show Rel γ q q' from he)
      have hs := solveRed_rel t hu.same hu.hpsi hu.ham hu.evl
      dsimp only
      revert hs
      generalize solveRed c (updateRed q) = p
      generalize solveRed c' (updateRed q') = p'
      intro hs
      cases p with
      | error x => cases p' with
        | error x' => exact hs
        | ok _ => exact hs.elim
      | ok p => cases p' with
        | error _ => exact hs.elim
        | ok p' => exact check_rel t (show Rel γ p p' from hs)

/-- Corresponding results: the same vectors, number of iterations and verdict, eigenvalues raised. -/
def OutRel (γ : ℝ) : Except PyErr (Out E) → Except PyErr (Out E) → Prop
  | .ok o, .ok o' => o'.evc = o.evc ∧ (∀ m, o'.evl m = o.evl m + γ) ∧ o'.iters = o.iters ∧ o'.converged = o.converged
  | .error x, .error x' => x' = x
  | _, _ => False

theorem loop_rel (t : Raised γ c c') (fuel : ℕ) : ∀ (k : ℕ) (s s' : St E), Rel γ s s' → OutRel γ (loop c fuel k s) (loop c' fuel k s') := by
  induction fuel with
  | zero =>
    intro k s s' h
    exact ⟨h.same.2.2.2.2.2.2, fun m => congrFun h.evl m, rfl, rfl⟩
  | succ fuel ih =>
    intro k s s' h
    have hb := body_rel t h
    unfold loop
    revert hb
    generalize body c s = q
    generalize body c' s' = q'
    intro hb
    cases q with
    | error x => cases q' with
      | error x' => exact hb
      | ok _ => exact hb.elim
    | ok q => cases q' with
      | error _ => exact hb.elim
      | ok q' =>
        have hr : Rel γ q q' := hb
        dsimp only
        rw [hr.same.2.1, hr.same.1, t.set.1, t.set.2.1]
        by_cases h0 : q.nun = 0
        · rw [if_pos h0, if_pos h0]
          have := rotate_rel hr
          exact ⟨this.same.2.2.2.2.2.2, fun m => congrFun this.evl m, rfl, rfl⟩
        · rw [if_neg h0, if_neg h0]
          by_cases h1 : c.numwork * c.numeig < q.ndim + q.nun
          · rw [if_pos h1, if_pos h1]
            exact ih _ _ _ (restart_rel t (rotate_rel hr) rfl)
          · rw [if_neg h1, if_neg h1]
            exact ih _ _ _ hr

/-- **C224 (Davidson), partial.** With the Hamiltonian raised by `γ`, a preconditioner that sees only differences of energies and a solver of the reduced problem whose values go up by `γ` (as those of the generalised eigenproblem do), the
run goes the same way: the same vectors, number of iterations and verdict, every eigenvalue raised by `γ`, or the same error. Missing: the preconditioner of the code sees more than differences (`C224_preconditioner_depends`). -/
theorem C224_davidson_partial (t : Raised γ c c') (evc psi0 hpsi0 hpsi0' : ℕ → E) : OutRel γ (solve c evc psi0 hpsi0) (solve c' evc psi0 hpsi0') := by
  unfold solve
  rw [t.set.2.2.2, t.set.2.1, t.set.2.2.1]
  by_cases h0 : ¬ 0 < c.thr ∨ ¬ 1 < c.numwork ∨ ¬ 1 < c.maxiter
  · rw [if_pos h0, if_pos h0]; rfl
  rw [if_neg h0, if_neg h0]
  have hs : match solveRed c (initSt c evc psi0 hpsi0), solveRed c' (initSt c' evc psi0 hpsi0') with
      | .ok q, .ok q' => Rel γ { q with evl := q.evlR } { q' with evl := q'.evlR }
      | .error x, .error x' => x' = x
      | _, _ => False := by
    have hp : (initSt c' evc psi0 hpsi0').psi = (initSt c evc psi0 hpsi0).psi := by
      unfold initSt
      simp only [t.set.1, t.norm]
      rfl
    have hn : (initSt c' evc psi0 hpsi0').ndim = (initSt c evc psi0 hpsi0).ndim := t.set.1
    have hu : (initSt c' evc psi0 hpsi0').nun = (initSt c evc psi0 hpsi0).nun := t.set.1
    have hh : ∀ i < (initSt c evc psi0 hpsi0).ndim, (initSt c' evc psi0 hpsi0').hpsi i = (initSt c evc psi0 hpsi0).hpsi i + (γ : ℂ) • (initSt c evc psi0 hpsi0).psi i := by
      intro i hi
      have hi' : i < c.numeig := hi
      show (if i < c'.numeig then c'.H (if i < c'.numeig then c'.norm (evc i) else psi0 i) else hpsi0' i) = (if i < c.numeig then c.H (if i < c.numeig then c.norm (evc i) else psi0 i) else hpsi0 i)
        + (γ : ℂ) • (if i < c.numeig then c.norm (evc i) else psi0 i)
      rw [t.set.1]
      simp only [if_pos hi', t.H, t.norm]
    have hov : (initSt c' evc psi0 hpsi0').ovl = (initSt c evc psi0 hpsi0).ovl := by
      unfold initSt updateRed
      simp only [t.set.1, t.norm]
    have hham : (initSt c' evc psi0 hpsi0').ham = fun i j => (initSt c evc psi0 hpsi0).ham i j + γ * (initSt c evc psi0 hpsi0).ovl i j := by
      funext i j
      show (if c'.numeig - c'.numeig ≤ i ∧ i < c'.numeig ∧ j < c'.numeig then inner ℂ ((initSt c' evc psi0 hpsi0').psi i) ((initSt c' evc psi0 hpsi0').hpsi j) else 0)
        = (if c.numeig - c.numeig ≤ i ∧ i < c.numeig ∧ j < c.numeig then inner ℂ ((initSt c evc psi0 hpsi0).psi i) ((initSt c evc psi0 hpsi0).hpsi j) else 0)
          + γ * (if c.numeig - c.numeig ≤ i ∧ i < c.numeig ∧ j < c.numeig then inner ℂ ((initSt c evc psi0 hpsi0).psi i) ((initSt c evc psi0 hpsi0).psi j) else 0)
      rw [t.set.1, hp]
      by_cases hc : c.numeig - c.numeig ≤ i ∧ i < c.numeig ∧ j < c.numeig
      · rw [if_pos hc, if_pos hc, if_pos hc, hh j hc.2.2, inner_add_right, inner_smul_right]
      · rw [if_neg hc, if_neg hc, if_neg hc]; ring
    unfold solveRed
    rw [hn, hov, hham, t.eigh]
    cases he : c.eigh (initSt c evc psi0 hpsi0).ndim (initSt c evc psi0 hpsi0).ham (initSt c evc psi0 hpsi0).ovl with
    | error x => rfl
    | ok p =>
      obtain ⟨C, lam⟩ := p
      exact ⟨⟨rfl, hu, rfl, hp, rfl, rfl, rfl⟩, hh, rfl, rfl, rfl⟩
  revert hs
  generalize solveRed c (initSt c evc psi0 hpsi0) = q
  generalize solveRed c' (initSt c' evc psi0 hpsi0') = q'
  intro hs
  cases q with
  | error x => cases q' with
    | error x' => exact hs
    | ok _ => exact hs.elim
  | ok q => cases q' with
    | error _ => exact hs.elim
    | ok q' => exact loop_rel t c.maxiter 0 _ _ hs

end

/-! ## Occupations -/

section
open Occup

/-- The wavefunction with all its eigenvalues raised by `c`. -/
def raiseW (c : ℝ) (w : Wfn) : Wfn := { w with evl := w.evl.map (· + c) }

theorem foldl_min_add (c : ℝ) (l : List ℝ) (x : ℝ) : (l.map (· + c)).foldl min (x + c) = l.foldl min x + c := by
  induction l generalizing x with
  | nil => rfl
  | cons y t ih => rw [List.map_cons, List.foldl_cons, List.foldl_cons, show min (x + c) (y + c) = min x y + c from min_add_add_right x y c, ih]

theorem foldl_max_add (c : ℝ) (l : List ℝ) (x : ℝ) : (l.map (· + c)).foldl max (x + c) = l.foldl max x + c := by
  induction l generalizing x with
  | nil => rfl
  | cons y t ih => rw [List.map_cons, List.foldl_cons, List.foldl_cons, show max (x + c) (y + c) = max x y + c from max_add_add_right x y c, ih]

theorem amin_add (c : ℝ) (l : List ℝ) : amin (l.map (· + c)) = (amin l).map (· + c) := by
  cases l with
  | nil => rfl
  | cons x t => exact congrArg Except.ok (foldl_min_add c t x)

theorem amax_add (c : ℝ) (l : List ℝ) : amax (l.map (· + c)) = (amax l).map (· + c) := by
  cases l with
  | nil => rfl
  | cons x t => exact congrArg Except.ok (foldl_max_add c t x)

theorem mapM_add {α : Type*} (c : ℝ) (r : α → α) (f : α → Except PyErr ℝ) (l : List α) (h : ∀ a, f (r a) = (f a).map (· + c)) :
    (l.map r).mapM f = (l.mapM f).map (List.map (· + c)) := by
  induction l with
  | nil => rfl
  | cons a t ih =>
    rw [List.map_cons, List.mapM_cons, List.mapM_cons, h, ih]
    cases f a with
    | error x => rfl
    | ok y =>
      cases t.mapM f with
      | error x => rfl
      | ok z => rfl

theorem levelOcc_add (t : Typ) (deg mu e c : ℝ) : levelOcc t deg (mu + c) (e + c) = levelOcc t deg mu e := by
  unfold levelOcc
  rw [add_sub_add_right_eq_sub]

theorem count_add (t : Typ) (deg c : ℝ) (gs : List (List Wfn)) (mu : ℝ) : count t deg (gs.map fun g => g.map (raiseW c)) (mu + c) = count t deg gs mu := by
  unfold count raiseW
  simp only [List.map_map, Function.comp_def, levelOcc_add]

theorem wfnEn_add (t : Typ) (deg mu c : ℝ) (l : List ℝ) : wfnEn t deg (mu + c) (l.map (· + c)) = wfnEn t deg mu l := by
  unfold wfnEn
  simp only [List.map_map, Function.comp_def, add_sub_add_right_eq_sub]

theorem bisect_add (c : ℝ) (N N' : ℝ → ℝ) (h : ∀ x, N' (x + c) = N x) (numel : ℝ) (fuel : ℕ) (lo hi : ℝ) :
    bisect N' numel fuel (lo + c) (hi + c) = (bisect N numel fuel lo hi).map (· + c) := by
  have hm : ∀ lo hi : ℝ, (lo + c + (hi + c)) / 2 = (lo + hi) / 2 + c := fun lo hi => by ring
  induction fuel generalizing lo hi with
  | zero =>
    simp only [bisect, hm, h]
    split_ifs <;> rfl
  | succ fuel ih =>
    simp only [bisect, hm, h]
    split_ifs
    · exact ih _ _
    · exact ih _ _
    · rfl

/-- **C224 (smearing).** All levels raised by `c`: the occupations and the smearing energy are the same, the Fermi level is raised by `c`; the search takes as many steps, and fails when it failed. -/
theorem C224_smear (t : Typ) (deg c : ℝ) (gs : List (List Wfn)) (numel : ℝ) (fuel : ℕ) :
    smear t deg (gs.map fun g => g.map (raiseW c)) numel fuel = (smear t deg gs numel fuel).map (Option.map fun o => { o with fermi := o.fermi + c }) := by
  have hf : ∀ g : List Wfn, (g.map (raiseW c)).flatMap (·.evl) = (g.flatMap (·.evl)).map (· + c) := by
    intro g
    rw [List.map_flatMap, List.flatMap_map]
    rfl
  unfold smear
  rw [mapM_add c (fun g => g.map (raiseW c)) (fun g => amin (g.flatMap (·.evl))) gs (fun g => by rw [hf, amin_add]),
    mapM_add c (fun g => g.map (raiseW c)) (fun g => amax (g.flatMap (·.evl))) gs (fun g => by rw [hf, amax_add])]
  cases gs.mapM fun g => amin (g.flatMap (·.evl)) with
  | error x => rfl
  | ok mins =>
    cases gs.mapM fun g => amax (g.flatMap (·.evl)) with
    | error x => rfl
    | ok maxs =>
      simp only [Except.map, bind, Except.bind, amin_add, amax_add]
      cases amin mins with
      | error x => rfl
      | ok lo =>
        cases amax maxs with
        | error x => rfl
        | ok hi =>
          dsimp only
          rw [bisect_add c (count t deg gs) _ (count_add t deg c gs)]
          cases bisect (count t deg gs) numel fuel lo hi with
          | none => rfl
          | some mu =>
            simp only [Option.map, pure, Except.pure, List.map_map, Function.comp_def, raiseW, wfnEn_add, levelOcc_add]

theorem levels_add (c : ℝ) (nf : ℕ) (gs : List (List (List ℝ))) :
    fixedLevels nf (gs.map fun g => g.map fun l => l.map (· + c)) = (fixedLevels nf gs).map fun p => (p.1 + c, p.2.map (· + c)) := by
  have h1 : ∀ g : List (List ℝ), ((g.map fun l => l.map (· + c)).mapM fun evl : List ℝ => amax (evl.take nf)) = (g.mapM fun evl : List ℝ => amax (evl.take nf)).map (List.map (· + c)) := fun g =>
    mapM_add c (fun l => l.map (· + c)) (fun evl : List ℝ => amax (evl.take nf)) g fun l => by rw [← List.map_take, amax_add]
  have h2 : ∀ g : List (List ℝ), ((g.map fun l => l.map (· + c)).mapM fun evl : List ℝ => amin (evl.drop nf)) = (g.mapM fun evl : List ℝ => amin (evl.drop nf)).map (List.map (· + c)) := fun g =>
    mapM_add c (fun l => l.map (· + c)) (fun evl : List ℝ => amin (evl.drop nf)) g fun l => by rw [← List.map_drop, amin_add]
  have hn : (((gs.map fun g => g.map fun l => l.map (· + c)).headD []).headD []).length = ((gs.headD []).headD []).length := by
    cases gs with
    | nil => rfl
    | cons g t => cases g with
      | nil => rfl
      | cons l u => exact List.length_map _
  unfold fixedLevels
  rw [hn]
  rw [mapM_add c (fun g : List (List ℝ) => g.map fun l => l.map (· + c)) (fun g : List (List ℝ) => do let l ← g.mapM fun evl : List ℝ => amax (evl.take nf); amax l) gs (fun g : List (List ℝ) => by
      simp only [h1]
      cases g.mapM fun evl : List ℝ => amax (evl.take nf) with
      | error x => rfl
      | ok l => exact amax_add c l),
    mapM_add c (fun g : List (List ℝ) => g.map fun l => l.map (· + c)) (fun g : List (List ℝ) => do let l ← g.mapM fun evl : List ℝ => amin (evl.drop nf); amin l) gs (fun g : List (List ℝ) => by
      simp only [h2]
      cases g.mapM fun evl : List ℝ => amin (evl.drop nf) with
      | error x => rfl
      | ok l => exact amin_add c l)]
  generalize (gs.mapM fun g : List (List ℝ) => (do let l ← g.mapM fun evl : List ℝ => amax (evl.take nf); amax l)) = p
  generalize (gs.mapM fun g : List (List ℝ) => (do let l ← g.mapM fun evl : List ℝ => amin (evl.drop nf); amin l)) = q
  cases p with
  | error x => rfl
  | ok maxs =>
    simp only [Except.map, bind, Except.bind, amax_add]
    cases amax maxs with
    | error x => rfl
    | ok hi =>
      dsimp only
      by_cases hb : nf < ((gs.headD []).headD []).length
      · rw [if_pos hb, if_pos hb]
        cases q with
        | error x => rfl
        | ok mins =>
          dsimp only
          rw [amin_add]
          cases amin mins with
          | error x => rfl
          | ok lo => rfl
      · rw [if_neg hb, if_neg hb]
        rfl

/-- **C224 (fixed occupations).** All levels raised by `c`: the same occupations, the highest occupied and lowest empty level raised by `c`, and the same errors. -/
theorem C224_fixed (c : ℝ) (gs : List (List (List Wfn))) (numel : NumEl) :
    fixed (gs.map fun g => g.map fun k => k.map (raiseW c)) numel = (fixed gs numel).map fun p => (p.1, p.2.1 + c, p.2.2.map (· + c)) := by
  have hh : ∀ k : List Wfn, ((k.map (raiseW c)).headD ⟨0, []⟩).evl = ((k.headD ⟨0, []⟩).evl).map (· + c) := by
    intro k
    cases k <;> rfl
  have hl : (∀ g ∈ gs.map fun g => g.map fun k => k.map (raiseW c), ∀ k ∈ g, k.length = 1) ↔ ∀ g ∈ gs, ∀ k ∈ g, k.length = 1 := by
    simp only [List.mem_map, forall_exists_index, and_imp, forall_apply_eq_imp_iff₂, List.length_map]
  unfold fixed
  cases numel with
  | float x => rfl
  | int n =>
    dsimp only
    by_cases h0 : n % 2 ≠ 0
    · rw [if_pos h0, if_pos h0]; rfl
    rw [if_neg h0, if_neg h0]
    by_cases h1 : ∀ g ∈ gs, ∀ k ∈ g, k.length = 1
    · rw [if_neg (not_not.2 h1), if_neg (not_not.2 (hl.2 h1))]
      have := levels_add c (n / 2) (gs.map fun g => g.map fun k => (k.headD ⟨0, []⟩).evl)
      simp only [List.map_map, Function.comp_def] at this
      simp only [List.map_map, Function.comp_def, hh, List.length_map, this]
      cases fixedLevels (n / 2) (gs.map fun g => g.map fun k => (k.headD ⟨0, []⟩).evl) with
      | error x => rfl
      | ok p => rfl
    · rw [if_pos h1, if_pos (fun h => h1 (hl.1 h))]; rfl

/-- The sum of the eigenvalues (`e_eigen`) grows by `c` for every electron. -/
theorem C224_band_energy (c : ℝ) (l : List (Wfn × List ℝ)) (h : ∀ p ∈ l, p.2.length = p.1.evl.length) :
    (l.map fun p => (raiseW c p.1).weight * (List.zipWith (· * ·) (raiseW c p.1).evl p.2).sum).sum
      = (l.map fun p => p.1.weight * (List.zipWith (· * ·) p.1.evl p.2).sum).sum + c * (l.map fun p => p.1.weight * p.2.sum).sum := by
  have hz : ∀ (a b : List ℝ), b.length = a.length → (List.zipWith (· * ·) (a.map (· + c)) b).sum = (List.zipWith (· * ·) a b).sum + c * b.sum := by
    intro a
    induction a with
    | nil => intro b hb; rw [List.length_eq_zero_iff.1 hb]; simp
    | cons x t ih =>
      intro b hb
      cases b with
      | nil => simp at hb
      | cons y u =>
        simp only [List.map_cons, List.zipWith_cons_cons, List.sum_cons]
        rw [ih u (by simpa using hb)]
        ring
  induction l with
  | nil => simp
  | cons p t ih =>
    simp only [List.map_cons, List.sum_cons]
    rw [ih fun q hq => h q (List.mem_cons_of_mem _ hq)]
    show p.1.weight * (List.zipWith (· * ·) (p.1.evl.map (· + c)) p.2).sum + _ = _
    rw [hz _ _ (h p (List.mem_cons_self ..))]
    ring

end


/-! ## Hamiltonian -/

section
open FFT Nonloc

theorem hamMatrix_add (d : Dims) (idx : List ℕ) (hv : ValidIdx d idx) (gk2 : Fin idx.length → ℝ) (V : Fin d.size → ℝ) (c : ℝ) (nl : List (Proj idx.length)) (j k : Fin idx.length) :
    hamMatrix d idx gk2 (fun r => V r + c) nl j k = hamMatrix d idx gk2 V nl j k + (if j = k then (c : ℂ) else 0) := by
  have hj : idx[j] < d.size := hv.2 _ (List.getElem_mem j.2)
  have hk : idx[k] < d.size := hv.2 _ (List.getElem_mem k.2)
  have hN : (d.size : ℂ) ≠ 0 := by
    have : d.size ≠ 0 := by omega
    exact_mod_cast this
  have ho := FFT.ker3_orth d (FFT.dftKern true d) (FFT.dftKern false d) (FFT.dft_orth d.nx) (FFT.dft_orth d.ny) (FFT.dft_orth d.nz) _ _ hj hk
  rw [Finset.sum_range] at ho
  simp only [ker3_pair] at ho
  have hi : idx[j] = idx[k] ↔ j = k := by
    constructor
    · intro h
      exact Fin.ext ((List.Nodup.getElem_inj_iff hv.1).1 h)
    · rintro rfl; rfl
  unfold hamMatrix
  simp only [Complex.ofReal_add, add_mul, Finset.sum_add_distrib, ← Finset.mul_sum, ho, mul_add]
  by_cases h : j = k
  · rw [if_pos (hi.2 h), if_pos h, if_pos h]
    field_simp
    ring
  · rw [if_neg (fun q => h (hi.1 q)), if_neg h, if_neg h]
    ring

/-- **C224 (Hamiltonian).** With a constant added to the local potential, `h_psi` adds the constant times the wavefunction. -/
theorem C224_h_psi (drv : Driver) (d : Dims) (idx : List ℕ) (hv : ValidIdx d idx) (st st' : DrvState ℂ) (gk2 : Fin idx.length → ℝ) (V : Fin d.size → ℝ) (c : ℝ) (nl : List (Proj idx.length))
    (psi : Fin idx.length → ℂ) (j : Fin idx.length) :
    hPsi .gpu drv d idx st' gk2 (fun r => ((V r + c : ℝ) : ℂ) / d.size) nl psi j = hPsi .gpu drv d idx st gk2 (fun r => (V r : ℂ) / d.size) nl psi j + c * psi j := by
  rw [C72_h_psi_is_hamiltonian drv d idx hv, C72_h_psi_is_hamiltonian drv d idx hv]
  simp only [hamMatrix_add d idx hv, add_mul, Finset.sum_add_distrib, ite_mul, zero_mul, Finset.sum_ite_eq, Finset.mem_univ, if_true]

/-- The diagonal of the Hamiltonian: kinetic energy, mean of the local potential, nonlocal part. -/
theorem ham_diagonal (d : Dims) (idx : List ℕ) (gk2 : Fin idx.length → ℝ) (V : Fin d.size → ℝ) (nl : List (Proj idx.length)) (j : Fin idx.length) :
    hamMatrix d idx gk2 V nl j j = ((gk2 j / 2 + (∑ r, V r) / d.size : ℝ) : ℂ) + (nl.map fun P => nlMatrix P j j).sum := by
  unfold hamMatrix
  simp
  ring

end

/-! ## Self-consistent loop -/

section
open Verif.SCF (Env Energy Report Res MixOut Dens)
variable {s n : ℕ} {W W' V V' M : Type}

/-- Two calculations of the same system, the local ionic potential of the second raised by the constant `c`: `RV` relates potentials, `RS` starting wavefunctions, `RW` the wavefunctions with eigenvalues and occupations found by the solver.
`elec w` is the number of electrons in the occupations, within `η` of the number wanted. Everything that does not see the ionic potential is the same function. -/
structure Lifted (c η : ℝ) (elec : W → ℝ) (RS RW : W → W' → Prop) (RV : V → V' → Prop) (e : Env s n W V M) (e' : Env s n W' V' M) : Prop where
  set : e'.symmRho = e.symmRho ∧ e'.numel = e.numel ∧ e'.dv = e.dv ∧ e'.convThr = e.convThr ∧ e'.diagoInit = e.diagoInit ∧ e'.isSmear = e.isSmear
  same : e'.ewald = e.ewald ∧ e'.symm = e.symm ∧ e'.hartree = e.hartree ∧ e'.xc = e.xc ∧ e'.err = e.err ∧ e'.mix = e.mix
  pot : ∀ rho, RV (e.pot rho) (e'.pot rho)
  pair : ∀ v v' rho, RV v v' → e'.pair v' rho = e.pair v rho
  solve : ∀ w w' v v' thr, RS w w' → RV v v' → RW (e.solve w v thr) (e'.solve w' v' thr)
  start : ∀ w w', RW w w' → RS w w'
  eig : ∀ w w', RW w w' → e'.eig w' = e.eig w + c * elec w
  elec : ∀ w w', RW w w' → |elec w - e.numel| ≤ η
  smear : ∀ w w', RW w w' → e'.smear w' = e.smear w
  rhoWfn : ∀ w w', RW w w' → e'.rhoWfn w' = e.rhoWfn w

/-- The energies of the second calculation: those with the band energy in them are raised by `c` for every one of `N` electrons, the others are equal. -/
def EnRaised (c N : ℝ) (a a' : Energy) : Prop :=
  a' = { a with total := a.total + c * N, hwf := a.hwf + c * N, oneEl := a.oneEl + c * N, internal := a.internal.map (· + c * N) }

/-- Corresponding reports. -/
def RepRaised (c η numel : ℝ) (r r' : Report) : Prop :=
  r'.idx = r.idx ∧ r'.converged = r.converged ∧ r'.err = r.err ∧ r'.thr = r.thr ∧ ∃ N, |N - numel| ≤ η ∧ EnRaised c N r.en r'.en

variable {c η : ℝ} {elec : W → ℝ} {RS RW : W → W' → Prop} {RV : V → V' → Prop} {e : Env s n W V M} {e' : Env s n W' V' M}

theorem energy_lift (t : Lifted c η elec RS RW RV e e') (w : W) (w' : W') (hw : RW w w') (a b : Dens s (n + 1)) : EnRaised c (elec w) (e.energy w a b) (e'.energy w' a b) := by
  obtain ⟨-, -, -, -, -, s6⟩ := t.set
  obtain ⟨q1, -, q3, q4, -, -⟩ := t.same
  unfold EnRaised Env.energy
  simp only [s6, q1, q3, q4, t.pair _ _ _ (t.pot a), t.eig _ _ hw, t.smear _ _ hw]
  by_cases h : e.isSmear = true
  · simp only [h, if_true, Option.map_some, Energy.mk.injEq, and_true, true_and, Option.some.injEq]
    refine ⟨by ring, by ring, by ring, by ring⟩
  · simp only [h, Bool.false_eq_true, if_false, Option.map_none, Energy.mk.injEq, and_true, true_and]
    refine ⟨by ring, by ring, by ring⟩

/-- Corresponding states of the loop. -/
structure StRel (RS : W → W' → Prop) (a : SCF.St s n W M) (a' : SCF.St s n W' M) : Prop where
  rho : a'.rho = a.rho
  caller : a'.caller = a.caller
  own : a'.own = a.own
  w : RS a.w a'.w
  mx : a'.mx = a.mx
  thr : a'.thr = a.thr

theorem step_lift (t : Lifted c η elec RS RW RV e e') (idx : ℕ) (a : SCF.St s n W M) (a' : SCF.St s n W' M) (h : StRel RS a a') :
    match SCF.step e idx a, SCF.step e' idx a' with
    | .ok r, .ok r' => StRel RS r.1 r'.1 ∧ RepRaised c η e.numel r.2 r'.2
    | .error x, .error x' => x' = x
    | _, _ => False := by
  obtain ⟨s1, s2, s3, s4, s5, s6⟩ := t.set
  obtain ⟨q1, q2, q3, q4, q5, q6⟩ := t.same
  obtain ⟨rho, caller, own, w, mx, thr, en⟩ := a
  obtain ⟨rho', caller', own', w', mx', thr', en'⟩ := a'
  obtain ⟨h1, h2, h3, h4, h5, h6⟩ := h
  simp only at h1 h2 h3 h4 h5 h6
  subst h1 h2 h3 h5 h6
  have hsym : ∀ r, e'.sym r = e.sym r := fun r => by unfold Env.sym; rw [s1, q2]
  have hprep : ∀ r, e'.prep r = e.prep r := fun r => by unfold Env.prep; rw [hsym, s2, s3]
  have hw := t.solve w w' (e.pot (e.prep rho')) (e'.pot (e.prep rho')) thr' h4 (t.pot _)
  have hout : e'.rhoOut (e'.solve w' (e'.pot (e.prep rho')) thr') = e.rhoOut (e.solve w (e.pot (e.prep rho')) thr') := by
    unfold Env.rhoOut
    rw [t.rhoWfn _ _ hw, s2, s3, hsym]
  have hN := t.elec _ _ hw
  unfold SCF.step
  simp only [hprep, hout, q5, s4, s2, s1, hsym, q6]
  have hen := energy_lift t _ _ hw (e.prep rho')
  by_cases hc : e.err (e.prep rho') (e.rhoOut (e.solve w (e.pot (e.prep rho')) thr')) < e.convThr
  · simp only [hc, if_true]
    exact ⟨⟨rfl, rfl, rfl, t.start _ _ hw, rfl, rfl⟩, rfl, rfl, rfl, rfl, _, hN, hen _⟩
  · simp only [hc, if_false]
    by_cases hi : idx = 0 ∧ e.err (e.prep rho') (e.rhoOut (e.solve w (e.pot (e.prep rho')) thr')) < thr' * e.numel
    · rw [if_pos hi, if_pos hi]
      exact ⟨⟨rfl, rfl, rfl, t.start _ _ hw, rfl, rfl⟩, rfl, rfl, rfl, rfl, _, hN, hen _⟩
    · rw [if_neg hi, if_neg hi]
      cases e.mix mx' (e.prep rho') (e.rhoOut (e.solve w (e.pot (e.prep rho')) thr')) with
      | error x => rfl
      | ok o => exact ⟨⟨rfl, rfl, rfl, t.start _ _ hw, rfl, rfl⟩, rfl, rfl, rfl, rfl, _, hN, hen _⟩

theorem loop_lift (t : Lifted c η elec RS RW RV e e') : ∀ (fuel idx : ℕ) (a : SCF.St s n W M) (a' : SCF.St s n W' M), StRel RS a a' →
    match SCF.loop e fuel idx a, SCF.loop e' fuel idx a' with
    | .ok r, .ok r' => r'.converged = r.converged ∧ List.Forall₂ (RepRaised c η e.numel) r.trace r'.trace ∧ StRel RS r.st r'.st
    | .error x, .error x' => x' = x
    | _, _ => False
  | 0, _, _, _, h => ⟨rfl, .nil, h⟩
  | fuel + 1, idx, a, a', h => by
    have hs := step_lift t idx a a' h
    unfold SCF.loop
    revert hs
    generalize SCF.step e idx a = r
    generalize SCF.step e' idx a' = r'
    intro hs
    cases r with
    | error x =>
      cases r' with
      | error x' => exact hs
      | ok _ => exact hs.elim
    | ok r =>
      cases r' with
      | error x' => exact hs.elim
      | ok r' =>
        obtain ⟨st, rep⟩ := r
        obtain ⟨st', rep'⟩ := r'
        have hr : StRel RS st st' := hs.1
        have he : RepRaised c η e.numel rep rep' := hs.2
        dsimp only
        rw [he.2.1]
        by_cases hc : rep.converged = true
        · rw [if_pos hc, if_pos hc]
          exact ⟨rfl, .cons he .nil, hr⟩
        · rw [if_neg hc, if_neg hc]
          have ih := loop_lift t fuel (idx + 1) st st' hr
          revert ih
          generalize SCF.loop e fuel (idx + 1) st = q
          generalize SCF.loop e' fuel (idx + 1) st' = q'
          intro ih
          cases q with
          | error x =>
            cases q' with
            | error x' => exact ih
            | ok _ => exact ih.elim
          | ok q =>
            cases q' with
            | error x' => exact ih.elim
            | ok q' => exact ⟨ih.1, .cons he ih.2.1, ih.2.2⟩

/-- **C224 (run).** With eigenvalues that go up by the constant and occupations that stay, the run goes the same way: the same errors, thresholds and densities in every iteration, convergence in the same iteration or the same failure;
the reported total, Harris–Weinert–Foulkes, one-electron and internal energies are raised by `c` for every electron, the others are equal. -/
theorem C224_scf (t : Lifted c η elec RS RW RV e e') (maxiter : ℕ) (rho : Dens s (n + 1)) (w : W) (w' : W') (hw : RS w w') (mx : M) :
    match SCF.scf e maxiter rho w mx, SCF.scf e' maxiter rho w' mx with
    | .ok r, .ok r' => r'.converged = r.converged ∧ r'.st.rho = r.st.rho ∧ r'.st.caller = r.st.caller ∧ List.Forall₂ (RepRaised c η e.numel) r.trace r'.trace
    | .error x, .error x' => x' = x
    | _, _ => False := by
  unfold SCF.scf
  rw [t.set.2.2.2.1, t.set.2.2.2.2.1]
  by_cases h1 : 0 < e.convThr
  · by_cases h2 : 0 < e.diagoInit
    · simp only [h1, h2, not_true, if_false]
      have hl := loop_lift t maxiter 0 ⟨rho, rho, true, w, mx, e.diagoInit, e.en0⟩ ⟨rho, rho, true, w', mx, e.diagoInit, e'.en0⟩ ⟨rfl, rfl, rfl, hw, rfl, rfl⟩
      revert hl
      generalize SCF.loop e maxiter 0 _ = q
      generalize SCF.loop e' maxiter 0 _ = q'
      intro hl
      cases q with
      | error x =>
        cases q' with
        | error x' => exact hl
        | ok _ => exact hl.elim
      | ok q =>
        cases q' with
        | error x' => exact hl.elim
        | ok q' => exact ⟨hl.1, hl.2.2.rho, hl.2.2.caller, hl.2.1⟩
    · simp only [h1, h2, not_true, not_false_iff, if_false, if_true]
  · simp only [h1, not_false_iff, if_true]

end

/-! ## Preconditioner -/

section
open EigPrec

theorem vlocG0_add (V : List ℝ) (c : ℝ) (w r : ℕ) : vlocG0 (V.map (· + c)) w r = vlocG0 V w r + V.length * c / (w * r) := by
  unfold vlocG0
  have : ((V.map (· + c)).map (· / (w : ℝ))).sum = (V.map (· / (w : ℝ))).sum + V.length * (c / w) := by
    induction V with
    | nil => simp
    | cons x t ih =>
      simp only [List.map_cons, List.sum_cons, ih, List.length_cons]
      push_cast
      ring
  rw [this]
  by_cases hw : (w : ℝ) = 0
  · simp [hw]
  by_cases hr : (r : ℝ) = 0
  · simp [hr]
  field_simp

theorem C224_denominator (h e c : ℝ) : denom (h + c) (e + c) = denom h e := by
  unfold denom
  rw [add_sub_add_right_eq_sub]

theorem denom_strict (x y e : ℝ) (h : x < y) : denom x e < denom y e := by
  unfold denom
  have h1 : |2 * (x - e) - 1 - (2 * (y - e) - 1)| = 2 * (y - x) := by rw [show 2 * (x - e) - 1 - (2 * (y - e) - 1) = -(2 * (y - x)) by ring, abs_neg, abs_of_pos (by linarith)]
  set a := 2 * (x - e) - 1
  set b := 2 * (y - e) - 1
  have hab : a < b := by simp only [a, b]; linarith
  have e1 : 2 * (x - e) = a + 1 := by simp only [a]; ring
  have e2 : 2 * (y - e) = b + 1 := by simp only [b]; ring
  rw [e1, e2]
  have sa : |a| < Real.sqrt (1 + a ^ 2) := by rw [← Real.sqrt_sq_eq_abs]; exact Real.sqrt_lt_sqrt (sq_nonneg _) (by linarith)
  have sb : |b| < Real.sqrt (1 + b ^ 2) := by rw [← Real.sqrt_sq_eq_abs]; exact Real.sqrt_lt_sqrt (sq_nonneg _) (by linarith)
  have qa := Real.sq_sqrt (show 0 ≤ 1 + a ^ 2 by positivity)
  have qb := Real.sq_sqrt (show 0 ≤ 1 + b ^ 2 by positivity)
  have ha := abs_lt.1 sa
  have hb := abs_lt.1 sb
  set p := Real.sqrt (1 + a ^ 2)
  set q := Real.sqrt (1 + b ^ 2)
  nlinarith [mul_pos (sub_pos.2 hab) (show 0 < p + q + a + b by linarith), Real.sqrt_nonneg (1 + a ^ 2), Real.sqrt_nonneg (1 + b ^ 2)]

/-- **C224 (preconditioner).** Were the mean of the local potential raised by `c` with the potential, the denominators would not notice. -/
theorem C224_denominator_mean (n : ℕ) (nc : Bool) (ke vnl : ℕ → ℝ) (v0 v1 e c : ℝ) (g : ℕ) (hg : g < n ∨ nc = true) :
    denom (hamDiag n nc ke vnl (v0 + c) (v1 + c) g) (e + c) = denom (hamDiag n nc ke vnl v0 v1 g) e := by
  have : hamDiag n nc ke vnl (v0 + c) (v1 + c) g = hamDiag n nc ke vnl v0 v1 g + c := by
    unfold hamDiag
    by_cases h : g < n
    · rw [if_pos h, if_pos h]; ring
    · rw [if_neg h, if_neg h, if_pos (hg.resolve_left h), if_pos (hg.resolve_left h)]; ring
  rw [this, C224_denominator]

/-- The code divides by the number of points twice: the potential raised by `c` raises the mean it uses by `c / N`. -/
theorem C224_mean_raised (V : List ℝ) (c : ℝ) (hV : V ≠ []) : vlocG0 (V.map (· + c)) V.length V.length = vlocG0 V V.length V.length + c / V.length := by
  rw [vlocG0_add]
  have : (V.length : ℝ) ≠ 0 := by
    have := List.length_pos_of_ne_nil hV
    exact_mod_cast this.ne'
  congr 1
  field_simp

/-- **C224, violated by the code.** On any grid of more than one point, a constant added to the local potential (and to the eigenvalues with it) changes every denominator of the preconditioner: the vectors by which Davidson's subspace
is enlarged depend on the zero of energy. -/
theorem C224_preconditioner_depends (n : ℕ) (nc : Bool) (ke vnl : ℕ → ℝ) (V : List ℝ) (hV : 1 < V.length) (v1 e c : ℝ) (hc : c ≠ 0) (g : ℕ) (hg : g < n) :
    denom (hamDiag n nc ke vnl (vlocG0 (V.map (· + c)) V.length V.length) v1 g) (e + c) ≠ denom (hamDiag n nc ke vnl (vlocG0 V V.length V.length) v1 g) e := by
  rw [C224_mean_raised V c (by rintro rfl; simp at hV)]
  have hd : hamDiag n nc ke vnl (vlocG0 V V.length V.length + c / V.length) v1 g = (hamDiag n nc ke vnl (vlocG0 V V.length V.length) v1 g + (c / V.length - c)) + c := by
    unfold hamDiag
    rw [if_pos hg, if_pos hg]
    ring
  rw [hd, C224_denominator]
  have hN : (1 : ℝ) < V.length := by exact_mod_cast hV
  have hne : c / V.length - c ≠ 0 := by
    have : c / V.length - c = c * (1 / V.length - 1) := by ring
    rw [this]
    refine mul_ne_zero hc ?_
    have : 1 / (V.length : ℝ) < 1 := by rw [div_lt_one (by linarith)]; exact hN
    linarith
  rcases lt_or_gt_of_ne hne with h | h
  · exact (denom_strict _ _ e (by linarith)).ne
  · exact (denom_strict _ _ e (by linarith)).ne'

/-- **C224, violated by the code.** The diagonal the solver uses is not that of the Hamiltonian unless the potential averages to zero: in place of the mean of the potential it has the mean over the number of points. -/
theorem C224_not_the_diagonal (d : FFT.Dims) (hd : 1 < d.size) (idx : List ℕ) (gk2 : Fin idx.length → ℝ) (V : Fin d.size → ℝ) (hV : ∑ r, V r ≠ 0) (j : Fin idx.length) (nc : Bool) (v1 : ℝ) :
    ((hamDiag idx.length nc (fun g => if h : g < idx.length then gk2 ⟨g, h⟩ / 2 else 0) (fun _ => 0) (vlocG0 (List.ofFn V) d.size d.size) v1 j : ℝ) : ℂ) ≠ Nonloc.hamMatrix d idx gk2 V [] j j := by
  rw [ham_diagonal]
  have hv : vlocG0 (List.ofFn V) d.size d.size = (∑ r, V r) / d.size / d.size := by
    unfold vlocG0
    rw [List.map_ofFn, List.sum_ofFn]
    simp only [Function.comp_def]
    rw [← Finset.sum_div]
  unfold hamDiag
  rw [if_pos j.2, hv]
  simp only [dif_pos j.2]
  simp only [List.map_nil, List.sum_nil, add_zero]
  intro h
  have h := Complex.ofReal_injective h
  have hN : (1 : ℝ) < d.size := by exact_mod_cast hd
  have h2 : (∑ r, V r) / d.size / d.size = (∑ r, V r) / d.size := by
    linarith
  have h3 : (∑ r, V r) / d.size ≠ 0 := div_ne_zero hV (by linarith)
  rw [div_eq_iff (by linarith)] at h2
  exact absurd (mul_left_cancel₀ h3 (show (∑ r, V r) / d.size * 1 = (∑ r, V r) / d.size * d.size by rw [mul_one]; exact h2)) (by linarith)

end

/-! ## Examples -/

section

/-- Davidson on one band: the hypotheses of `C224_davidson_partial`, with the preconditioner of the code on a diagonal raised with the Hamiltonian. -/
noncomputable def demoCfg (γ : ℝ) : Davidson.Cfg ℂ where
  numeig := 1
  numwork := 3
  maxiter := 5
  thr := 1
  H x := ((2 + γ : ℝ) : ℂ) • x
  precond x e := ((EigPrec.denom (2 + γ) e : ℝ) : ℂ)⁻¹ • x
  norm x := ((‖x‖ : ℝ) : ℂ)⁻¹ • x
  eigh _ A S := if S 0 0 = 1 then .ok (fun i j => if i = j then 1 else 0, fun _ => (A 0 0).re) else .error .value

example (γ : ℝ) : Raised γ (demoCfg 0) (demoCfg γ) where
  set := ⟨rfl, rfl, rfl, rfl⟩
  H x := by
    show ((2 + γ : ℝ) : ℂ) • x = ((2 + 0 : ℝ) : ℂ) • x + (γ : ℂ) • x
    push_cast
    module
  norm := rfl
  precond x e := by
    show ((EigPrec.denom (2 + γ) (e + γ) : ℝ) : ℂ)⁻¹ • x = ((EigPrec.denom (2 + 0) e : ℝ) : ℂ)⁻¹ • x
    rw [C224_denominator, add_zero]
  eigh n A S := by
    show (if S 0 0 = 1 then _ else _) = Except.map _ (if S 0 0 = 1 then _ else _)
    by_cases h : S 0 0 = 1
    · rw [if_pos h, if_pos h]
      show Except.ok _ = Except.ok _
      congr 2
      funext m
      show (A 0 0 + γ * S 0 0).re = (A 0 0).re + γ
      rw [h]
      simp
    · rw [if_neg h, if_neg h]
      rfl

example (d : FFT.Dims) (hd : 1 < d.size) (idx : List ℕ) (gk2 : Fin idx.length → ℝ) (j : Fin idx.length) :
    ((EigPrec.hamDiag idx.length false (fun g => if h : g < idx.length then gk2 ⟨g, h⟩ / 2 else 0) (fun _ => 0) (vlocG0 (List.ofFn fun _ : Fin d.size => (3 : ℝ)) d.size d.size) 0 j : ℝ) : ℂ)
      ≠ Nonloc.hamMatrix d idx gk2 (fun _ => 3) [] j j :=
  C224_not_the_diagonal d hd idx gk2 _ (by
    simp only [Finset.sum_const, Finset.card_univ, Fintype.card_fin, nsmul_eq_mul]
    have : (d.size : ℝ) ≠ 0 := by
      have : d.size ≠ 0 := by omega
      exact_mod_cast this
    positivity) j false 0

/-- One level at the potential `v`, two electrons. -/
noncomputable def demoEnv (c : ℝ) : SCF.Env 1 0 ℝ ℝ Unit where
  symmRho := false
  numel := 2
  dv := 1
  convThr := 1
  diagoInit := 1
  isSmear := true
  ewald := -1
  symm r := r
  pot rho := ‖rho 0 0‖ + c
  hartree rho := ‖rho 0 0‖
  xc rho := -‖rho 0 0‖ ^ 2
  pair _ rho := ‖rho 0 0‖
  solve _ v _ := v
  eig w := 2 * w
  smear _ := -1 / 8
  rhoWfn _ := fun _ _ => 2
  err a b := ‖a 0 0 - b 0 0‖
  mix _ _ b := .ok ⟨(), b, b, true⟩

example (c : ℝ) : Lifted c 0 (fun _ => 2) (fun _ _ => True) (fun w w' => w' = w + c) (fun v v' => v' = v + c) (demoEnv 0) (demoEnv c) where
  set := ⟨rfl, rfl, rfl, rfl, rfl, rfl⟩
  same := ⟨rfl, rfl, rfl, rfl, rfl, rfl⟩
  pot rho := by show ‖rho 0 0‖ + c = ‖rho 0 0‖ + 0 + c; ring
  pair _ _ _ _ := rfl
  solve _ _ _ _ _ _ h := h
  start _ _ _ := trivial
  eig w w' h := by
    show 2 * w' = 2 * w + c * 2
    have h : w' = w + c := h
    rw [h]; ring
  elec _ _ _ := by show |(2 : ℝ) - 2| ≤ 0; simp
  smear _ _ _ := rfl
  rhoWfn _ _ _ := rfl

end

end Verif.EZero
