import Mathlib.Data.Fintype.Basic
import Mathlib.Data.Fintype.BigOperators
import Mathlib.Algebra.BigOperators.Fin
import Mathlib.Algebra.Order.BigOperators.Group.Finset
import Mathlib.Data.Finset.Max
import Mathlib.Order.WellFounded
import Mathlib.Tactic.Ring
import Mathlib.Tactic.Linarith
import Mathlib.Tactic.NormNum
import Verif.Model.CheckArgs

/-!
# C134, C135: the collective argument check
-/

namespace Verif.CheckArgs

variable {n : ℕ}

/-! ## Specification -/

/-- Two species are the same (up to the tolerance of `np.allclose` in the positions). -/
structure SameSpecies (a b : Species) : Prop where
  label : a.label = b.label
  valence : a.valence = b.valence
  pp : a.pp = b.pp
  mass : a.mass = b.mass
  pos : Allclose a.pos b.pos

structure SameGSp (a b : GSp) : Prop where
  recvec : Allclose a.recvec b.recvec
  ecut : |a.ecut - b.ecut| ≤ 1 / 10 ^ 8
  grid : a.grid = b.grid
  dist : a.dist = b.dist

/-- Two processes have been given the same system. -/
structure SameSystem (s s0 : Sys) : Prop where
  primvec : Allclose s.lat.primvec s0.lat.primvec
  alat : |s.lat.alat - s0.lat.alat| ≤ 1 / 10 ^ 8
  species : List.Forall₂ SameSpecies s.species s0.species
  grho : SameGSp s.grho s0.grho
  gwfn : SameGSp s.gwfn s0.gwfn
  kcryst : Allclose s.kpts.cryst s0.kpts.cryst
  kweights : Allclose s.kpts.weights s0.kpts.weights

/-- The arguments of one process fit together. -/
structure WellFormed (s : Sys) : Prop where
  pp : ∀ a ∈ s.species, a.pp.isSome
  grho : LatEq s.grho.recvec s.recvec
  gwfn : s.gwfn.latId = s.grho.latId
  kpts : s.kpts.latId = s.recId

/-! ## Programs as lists of calls -/

def asks : List Item → List Msg
  | [] => []
  | .ask m _ :: t => m :: asks t
  | .need _ :: t => asks t

/-- The program passes when the root's calls are `R`. -/
def Passes : List Msg → List Item → Prop
  | _, [] => True
  | R, .need p :: t => p ∧ Passes R t
  | m0 :: R, .ask m test :: t => Compat m m0 ∧ test m0 ∧ Passes R t
  | [], .ask _ _ :: _ => False

/-- The item raises an exception when the next call of the root is the first of `R`. -/
def Fails : List Msg → Item → Prop
  | _, .need p => ¬ p
  | m0 :: _, .ask _ test => ¬ test m0
  | [], .ask _ _ => False

theorem asks_append (a b : List Item) : asks (a ++ b) = asks a ++ asks b := by
  induction a with
  | nil => rfl
  | cons x t ih => cases x <;> simp [asks, ih]

theorem passes_append (a b : List Item) (R : List Msg) : Passes R (a ++ b) ↔ Passes R a ∧ Passes (R.drop (asks a).length) b := by
  induction a generalizing R with
  | nil => simp [Passes, asks]
  | cons x t ih =>
    cases x with
    | need p => simp [Passes, asks, ih, and_assoc]
    | ask m test =>
      cases R with
      | nil => simp [Passes]
      | cons m0 R => simp [Passes, asks, ih, and_assoc]

theorem passes_not_fails (pre rest : List Item) (x : Item) (R : List Msg) (h : Passes R (pre ++ x :: rest)) : ¬ Fails (R.drop (asks pre).length) x := by
  rw [passes_append] at h
  have h2 := h.2
  revert h2
  generalize R.drop (asks pre).length = R'
  cases x with
  | need p => intro h2; simp only [Passes, Fails, not_not] at *; exact h2.1
  | ask m test =>
    cases R' with
    | nil => simp [Passes]
    | cons m0 R' => intro h2; simp only [Passes, Fails, not_not] at *; exact h2.2.1

theorem passes_need (l : List Item) (R : List Msg) (h : Passes R l) (p : Prop) (hp : Item.need p ∈ l) : p := by
  induction l generalizing R with
  | nil => cases hp
  | cons x t ih =>
    cases x with
    | need p' =>
      rcases List.mem_cons.1 hp with h1 | h1
      · cases h1; exact h.1
      · exact ih R h.2 h1
    | ask m test =>
      cases R with
      | nil => exact h.elim
      | cons m0 R =>
        rcases List.mem_cons.1 hp with h1 | h1
        · cases h1
        · exact ih R h.2.2 h1

/-! ## Invariant -/

/-- What is known of one process running the program `I` while the root's calls are `R`. -/
def PInv (R : List Msg) (I : List Item) (p : Proc) : Prop :=
  ∃ pre, Passes R pre ∧
    ((p.failed = false ∧ I = pre ++ p.todo ∧ p.hist = asks pre) ∨
     (p.failed = true ∧ ∃ x rest, I = pre ++ x :: rest ∧ Fails (R.drop (asks pre).length) x ∧ (p.hist = asks pre ∨ p.hist = asks (pre ++ [x]))))

theorem PInv.hist_prefix {R : List Msg} {I : List Item} {p : Proc} (h : PInv R I p) : ∃ t, asks I = p.hist ++ t := by
  obtain ⟨pre, _, h | ⟨_, x, rest, h1, _, h2 | h2⟩⟩ := h
  · exact ⟨asks p.todo, by rw [h.2.1, asks_append, h.2.2]⟩
  · exact ⟨asks (x :: rest), by rw [h1, asks_append, h2]⟩
  · exact ⟨asks rest, by rw [h1, show pre ++ x :: rest = (pre ++ [x]) ++ rest by simp, asks_append, h2]⟩

theorem PInv.offer {R : List Msg} {I : List Item} {p : Proc} (h : PInv R I p) {i : ℕ} {m : Msg} (ho : p.offer i = some m) : (asks I)[i]? = some m := by
  unfold Proc.offer at ho
  split at ho
  · rename_i hi
    obtain ⟨t, ht⟩ := h.hist_prefix
    rw [ht, List.getElem?_append_left hi]; exact ho
  · split at ho
    · rename_i hi
      obtain ⟨hi, hf⟩ := hi
      obtain ⟨pre, _, h | ⟨h, _⟩⟩ := h
      · rw [h.2.1, asks_append]
        split at ho
        · rename_i m' t' test ht
          cases ho
          rw [ht, hi, h.2.2]; simp [asks]
        · cases ho
      · rw [hf] at h; cases h
    · cases ho

/-- Invariant of all processes. -/
structure Inv (I : Fin (n + 1) → List Item) (s : State n) : Prop where
  proc : ∀ q, PInv (asks (I 0)) (I q) (s q)
  bar : ∀ (q : Fin (n + 1)) (i : ℕ), (s q).hist[i]? = some .barrier → ∀ q', ∃ m', (s q').offer i = some m' ∧ Compat .barrier m'

theorem pass_inv {R : List Msg} {I : List Item} {p : Proc} (h : PInv R I p) (hf : p.failed = false) {x : Item} {t : List Item} (ht : p.todo = x :: t)
    (hx : Passes (R.drop p.hist.length) [x]) : PInv R I { p with todo := t, hist := p.hist ++ asks [x] } := by
  obtain ⟨pre, h1, h | ⟨h, _⟩⟩ := h
  · refine ⟨pre ++ [x], (passes_append _ _ _).2 ⟨h1, by rw [← h.2.2]; exact hx⟩, Or.inl ⟨hf, ?_, ?_⟩⟩
    · rw [h.2.1, ht]; simp
    · rw [asks_append, h.2.2]
  · rw [hf] at h; cases h

theorem fail_inv {R : List Msg} {I : List Item} {p : Proc} (h : PInv R I p) (hf : p.failed = false) {x : Item} {t : List Item} (ht : p.todo = x :: t)
    (hx : Fails (R.drop p.hist.length) x) (todo' : List Item) (hist' : List Msg) (hh : hist' = p.hist ∨ hist' = p.hist ++ asks [x]) :
    PInv R I { todo := todo', hist := hist', failed := true } := by
  obtain ⟨pre, h1, h | ⟨h, _⟩⟩ := h
  · refine ⟨pre, h1, Or.inr ⟨rfl, x, t, by rw [h.2.1, ht], by rw [← h.2.2]; exact hx, ?_⟩⟩
    rcases hh with hh | hh
    · left; rw [← h.2.2]; exact hh
    · right; rw [asks_append, ← h.2.2]; exact hh
  · rw [hf] at h; cases h

theorem offer_head {p : Proc} (hf : p.failed = false) {m : Msg} {test : Msg → Prop} {t : List Item} (ht : p.todo = .ask m test :: t) :
    p.offer p.hist.length = some m := by
  unfold Proc.offer
  rw [if_neg (lt_irrefl _), if_pos ⟨rfl, hf⟩, ht]

theorem offer_pass {p : Proc} {P : Prop} {t : List Item} (ht : p.todo = .need P :: t) {i : ℕ} {m : Msg} (ho : p.offer i = some m) (t' : List Item) (f : Bool) :
    Proc.offer { p with todo := t', failed := f } i = some m := by
  unfold Proc.offer at ho ⊢
  split at ho
  · rename_i hi
    rw [if_pos hi]; exact ho
  · rw [ht] at ho
    split at ho <;> simp at ho

theorem offer_comm {p : Proc} {m0 : Msg} {test : Msg → Prop} {t : List Item} (ht : p.todo = .ask m0 test :: t) {i : ℕ} {m : Msg} (ho : p.offer i = some m)
    (t' : List Item) (f : Bool) : Proc.offer { todo := t', hist := p.hist ++ [m0], failed := f } i = some m := by
  unfold Proc.offer at ho ⊢
  split at ho
  · rename_i hi
    rw [if_pos (by simp; omega)]
    show (p.hist ++ [m0])[i]? = _
    rw [List.getElem?_append_left hi]; exact ho
  · split at ho
    · rename_i hi
      rw [ht] at ho
      rw [if_pos (by simp; omega)]
      show (p.hist ++ [m0])[i]? = _
      rw [hi.1, List.getElem?_append_right (le_refl _)]
      simpa using ho
    · cases ho

theorem update_forall {s : State n} {r : Fin (n + 1)} {p : Proc} {P : Fin (n + 1) → Proc → Prop} (h : ∀ q, P q (s q)) (hr : P r p) :
    ∀ q, P q (Function.update s r p q) := by
  intro q
  by_cases hq : q = r
  · subst hq; rw [Function.update_self]; exact hr
  · rw [Function.update_of_ne hq]; exact h q

theorem update_bar {s : State n} {r : Fin (n + 1)} {p : Proc} {Q : ℕ → Prop} (h : ∀ (q : Fin (n + 1)) (i : ℕ), (s q).hist[i]? = some .barrier → Q i)
    (hr : ∀ i : ℕ, p.hist[i]? = some .barrier → Q i) :
    ∀ (q : Fin (n + 1)) (i : ℕ), (Function.update s r p q).hist[i]? = some .barrier → Q i := by
  intro q
  by_cases hq : q = r
  · subst hq; rw [Function.update_self]; exact hr
  · rw [Function.update_of_ne hq]; exact h q

/-- Calls that have been offered stay offered. -/
theorem Step.offer {sync : Bool} {s s' : State n} (h : Step sync s s') (q : Fin (n + 1)) (i : ℕ) (m : Msg) (ho : (s q).offer i = some m) :
    (s' q).offer i = some m := by
  cases h with
  | pass r p t hf ht hp =>
    by_cases hq : q = r
    · subst hq; rw [Function.update_self]; exact offer_pass ht ho t (s q).failed
    · rw [Function.update_of_ne hq]; exact ho
  | fail r p t hf ht hp =>
    by_cases hq : q = r
    · subst hq; rw [Function.update_self]; exact offer_pass ht ho (s q).todo true
    · rw [Function.update_of_ne hq]; exact ho
  | comm r m1 test t m0 hf ht h0 hc hs hp =>
    by_cases hq : q = r
    · subst hq; rw [Function.update_self]; exact offer_comm ht ho t (s q).failed
    · rw [Function.update_of_ne hq]; exact ho
  | commFail r m1 test t m0 hf ht h0 hc hs hp =>
    by_cases hq : q = r
    · subst hq; rw [Function.update_self]; exact offer_comm ht ho t true
    · rw [Function.update_of_ne hq]; exact ho

theorem drop_eq_cons {R : List Msg} {k : ℕ} {m : Msg} (h : R[k]? = some m) : R.drop k = m :: R.drop (k + 1) := by
  obtain ⟨hk, h⟩ := List.getElem?_eq_some_iff.1 h
  rw [← h]; exact List.drop_eq_getElem_cons hk

theorem Inv.step {I : Fin (n + 1) → List Item} {sync : Bool} {s s' : State n} (h : Inv I s) (hs : Step sync s s') : Inv I s' := by
  have hoff := fun q i m => hs.offer q i m
  have hbar : ∀ (q : Fin (n + 1)) (i : ℕ), (s q).hist[i]? = some .barrier → ∀ q', ∃ m', (s' q').offer i = some m' ∧ Compat .barrier m' := by
    intro q i hq q'
    obtain ⟨m', h1, h2⟩ := h.bar q i hq q'
    exact ⟨m', hoff _ _ _ h1, h2⟩
  cases hs with
  | pass r p t hf ht hp =>
    refine ⟨update_forall h.proc ?_, ?_⟩
    · have := pass_inv (h.proc r) hf ht (x := .need p) (by simp [Passes, hp])
      simpa [asks] using this
    · refine update_bar hbar ?_
      exact hbar r
  | fail r p t hf ht hp =>
    refine ⟨update_forall h.proc ?_, ?_⟩
    · exact fail_inv (h.proc r) hf ht (x := .need p) hp _ _ (Or.inl rfl)
    · refine update_bar hbar ?_
      exact hbar r
  | comm r m test t m0 hf ht h0 hc hs hp =>
    have hR := drop_eq_cons ((h.proc 0).offer h0)
    refine ⟨update_forall h.proc ?_, ?_⟩
    · have := pass_inv (h.proc r) hf ht (x := .ask m test) (by rw [hR]; simp [Passes, hp, hc])
      simpa [asks] using this
    · refine update_bar hbar ?_
      intro i hi q'
      rcases lt_trichotomy i (s r).hist.length with hlt | heq | hgt
      · exact hbar r i (by rwa [List.getElem?_append_left hlt] at hi) q'
      · subst heq
        have hm : m = .barrier := by simpa using hi
        subst hm
        obtain ⟨m', h1, h2⟩ := hs (Or.inl rfl) q'
        exact ⟨m', hoff _ _ _ h1, h2⟩
      · rw [List.getElem?_eq_none (by simp; omega)] at hi; cases hi
  | commFail r m test t m0 hf ht h0 hc hs hp =>
    have hR := drop_eq_cons ((h.proc 0).offer h0)
    refine ⟨update_forall h.proc ?_, ?_⟩
    · exact fail_inv (h.proc r) hf ht (x := .ask m test) (by rw [hR]; exact hp) _ _ (Or.inr rfl)
    · refine update_bar hbar ?_
      intro i hi q'
      rcases lt_trichotomy i (s r).hist.length with hlt | heq | hgt
      · exact hbar r i (by rwa [List.getElem?_append_left hlt] at hi) q'
      · subst heq
        have hm : m = .barrier := by simpa using hi
        subst hm
        obtain ⟨m', h1, h2⟩ := hs (Or.inl rfl) q'
        exact ⟨m', hoff _ _ _ h1, h2⟩
      · rw [List.getElem?_eq_none (by simp; omega)] at hi; cases hi

theorem inv_reachable {sync : Bool} {sys : Fin (n + 1) → Sys} {s : State n} (h : Reachable sync sys s) : Inv (fun q => checkSystem (sys q)) s := by
  induction h with
  | refl =>
    refine ⟨fun q => ⟨[], trivial, Or.inl ⟨rfl, rfl, rfl⟩⟩, fun q i h => ?_⟩
    simp [init] at h
  | tail _ hs ih => exact ih.step hs

/-! ## The program of `check_system` -/

theorem asks_flatMap (l : List Species) (f : Species → List Item) : asks (l.flatMap f) = l.flatMap fun a => asks (f a) := by
  induction l with
  | nil => rfl
  | cons a t ih => rw [List.flatMap_cons, List.flatMap_cons, asks_append, ih]

theorem allclose_len {a b : List ℝ} (h : Allclose a b) : a.length = b.length := h.length_eq

theorem close_iff (a b : List ℝ) (P : Prop) : (a.length = b.length ∧ Allclose a b ∧ P) ↔ (Allclose a b ∧ P) :=
  ⟨fun h => h.2, fun h => ⟨allclose_len h.1, h⟩⟩

theorem passes_species (a a0 : Species) (h : a.pp.isSome) (h0 : a0.pp.isSome) (R : List Msg) (T : List Item) :
    Passes (asks (checkAtoms a0) ++ R) (checkAtoms a ++ T) ↔ SameSpecies a a0 ∧ Passes R T := by
  obtain ⟨label, valence, pp, mass, pos⟩ := a
  obtain ⟨label0, valence0, pp0, mass0, pos0⟩ := a0
  obtain ⟨⟨f, c⟩, rfl⟩ := Option.isSome_iff_exists.1 h
  obtain ⟨⟨f0, c0⟩, rfl⟩ := Option.isSome_iff_exists.1 h0
  have key : SameSpecies ⟨label, valence, some (f, c), mass, pos⟩ ⟨label0, valence0, some (f0, c0), mass0, pos0⟩ ↔
      label = label0 ∧ valence = valence0 ∧ f = f0 ∧ c = c0 ∧ mass = mass0 ∧ Allclose pos pos0 := by
    constructor
    · rintro ⟨h1, h2, h3, h4, h5⟩
      simp only [Option.some.injEq, Prod.mk.injEq] at h3
      exact ⟨h1, h2, h3.1, h3.2, h4, h5⟩
    · rintro ⟨h1, h2, h3, h4, h5, h6⟩
      exact ⟨h1, h2, by simp [h3, h4], h5, h6⟩
  rw [key]
  cases mass with
  | none =>
    cases mass0 with
    | none =>
      simp only [checkAtoms, boolEq, strEq, intEq, bufClose, asks, List.cons_append, List.nil_append, Passes, Compat, true_and, close_iff]
      tauto
    | some x0 =>
      simp [checkAtoms, boolEq, strEq, intEq, bufClose, numEq, asks, Passes, Compat]
  | some x =>
    cases mass0 with
    | none =>
      simp [checkAtoms, boolEq, strEq, intEq, bufClose, numEq, asks, Passes, Compat]
    | some x0 =>
      simp only [checkAtoms, boolEq, strEq, intEq, bufClose, numEq, asks, List.cons_append, List.nil_append, Passes, Compat, true_and, close_iff, Option.some.injEq]
      tauto

theorem passes_gspace (g g0 : GSp) (R : List Msg) (T : List Item) :
    Passes (asks (checkGSpace g0) ++ R) (checkGSpace g ++ T) ↔ SameGSp g g0 ∧ Passes R T := by
  have key : SameGSp g g0 ↔ Allclose g.recvec g0.recvec ∧ |g.ecut - g0.ecut| ≤ 1 / 10 ^ 8 ∧ g.grid.1 = g0.grid.1 ∧ g.grid.2.1 = g0.grid.2.1 ∧
      g.grid.2.2 = g0.grid.2.2 ∧ g.dist = g0.dist := by
    constructor
    · rintro ⟨h1, h2, h3, h4⟩
      rw [h3]; exact ⟨h1, h2, rfl, rfl, rfl, h4⟩
    · rintro ⟨h1, h2, h3, h4, h5, h6⟩
      exact ⟨h1, h2, Prod.ext h3 (Prod.ext h4 h5), h6⟩
  rw [key]
  simp only [checkGSpace, arrClose, numClose, intEq, boolEq, asks, List.cons_append, List.nil_append, Passes, Compat, true_and]
  tauto

theorem passes_speciesList (l l0 : List Species) (h : ∀ a ∈ l, a.pp.isSome) (h0 : ∀ a ∈ l0, a.pp.isSome) (g g0 : GSp) (R : List Msg) (T : List Item) :
    Passes (asks (l0.flatMap checkAtoms) ++ (asks (checkGSpace g0) ++ R)) (l.flatMap checkAtoms ++ (checkGSpace g ++ T)) ↔
      List.Forall₂ SameSpecies l l0 ∧ Passes (asks (checkGSpace g0) ++ R) (checkGSpace g ++ T) := by
  induction l generalizing l0 with
  | nil =>
    cases l0 with
    | nil => simp [asks]
    | cons a0 t0 =>
      simp [List.flatMap_cons, checkAtoms, boolEq, checkGSpace, arrClose, asks, Passes]
  | cons a t ih =>
    cases l0 with
    | nil => simp [List.flatMap_cons, checkAtoms, boolEq, checkGSpace, arrClose, asks, Passes]
    | cons a0 t0 =>
      rw [List.flatMap_cons, List.flatMap_cons, asks_append, List.append_assoc, List.append_assoc,
        passes_species a a0 (h a (by simp)) (h0 a0 (by simp)), ih t0 (fun x hx => h x (by simp [hx])) (fun x hx => h0 x (by simp [hx])),
        List.forall₂_cons, and_assoc]

theorem passes_body (s s0 : Sys) (h : ∀ a ∈ s.species, a.pp.isSome) (h0 : ∀ a ∈ s0.species, a.pp.isSome) (R : List Msg) (T : List Item) :
    Passes (asks (body s0) ++ R) (body s ++ T) ↔ (SameSystem s s0 ∧ WellFormed s) ∧ Passes R T := by
  have e : ∀ s : Sys, body s = checkLattice s.lat ++ (s.species.flatMap checkAtoms ++ (checkGSpace s.grho ++ (.need (LatEq s.grho.recvec s.recvec) ::
      (checkGSpace s.gwfn ++ (.need (s.gwfn.latId = s.grho.latId) :: (checkKpts s.kpts ++ [.need (s.kpts.latId = s.recId)])))))) := by
    intro s; simp [body, checkCrystal]
  have key : SameSystem s s0 ↔ Allclose s.lat.primvec s0.lat.primvec ∧ |s.lat.alat - s0.lat.alat| ≤ 1 / 10 ^ 8 ∧ List.Forall₂ SameSpecies s.species s0.species ∧
      SameGSp s.grho s0.grho ∧ SameGSp s.gwfn s0.gwfn ∧ Allclose s.kpts.cryst s0.kpts.cryst ∧ Allclose s.kpts.weights s0.kpts.weights :=
    ⟨fun ⟨a, b, c, d, e, f, g⟩ => ⟨a, b, c, d, e, f, g⟩, fun ⟨a, b, c, d, e, f, g⟩ => ⟨a, b, c, d, e, f, g⟩⟩
  have key2 : WellFormed s ↔ LatEq s.grho.recvec s.recvec ∧ s.gwfn.latId = s.grho.latId ∧ s.kpts.latId = s.recId :=
    ⟨fun ⟨_, b, c, d⟩ => ⟨b, c, d⟩, fun ⟨b, c, d⟩ => ⟨h, b, c, d⟩⟩
  rw [e s, e s0, key, key2]
  simp only [asks_append, asks, List.append_assoc, List.cons_append]
  simp only [checkLattice, bufClose, numClose, asks, List.cons_append, List.nil_append, Passes, Compat, true_and, close_iff]
  rw [passes_speciesList _ _ h h0, passes_gspace]
  simp only [Passes]
  rw [passes_gspace]
  simp only [checkKpts, boolEq, bufClose, asks, List.cons_append, List.nil_append, Passes, Compat, true_and, close_iff]
  tauto

theorem pp_of_passes (s : Sys) (R : List Msg) (h : Passes R (body s)) : ∀ a ∈ s.species, a.pp.isSome := by
  intro a ha
  by_contra hn
  have hn : a.pp = none := by simpa using hn
  refine passes_need _ _ h False ?_
  simp only [body, checkCrystal, List.mem_append]
  refine Or.inl (Or.inl (Or.inl (Or.inl (Or.inl (Or.inl (Or.inr ?_))))))
  refine List.mem_flatMap.2 ⟨a, ha, ?_⟩
  simp [checkAtoms, hn]

theorem barrier_body (s : Sys) (i : ℕ) : (asks (body s))[i]? ≠ some .barrier := by
  intro h
  have hm := List.mem_of_getElem? h
  have hg : ∀ g, Msg.barrier ∉ asks (checkGSpace g) := by
    intro g; simp [checkGSpace, asks, arrClose, numClose, intEq, boolEq]
  have ha : ∀ a, Msg.barrier ∉ asks (checkAtoms a) := by
    intro a
    obtain ⟨label, valence, pp, mass, pos⟩ := a
    cases pp <;> cases mass <;> simp [checkAtoms, asks, strEq, intEq, boolEq, bufClose, numEq]
  simp only [body, checkCrystal, asks_append, asks_flatMap, List.mem_append, List.mem_flatMap] at hm
  rcases hm with (((((((hm | ⟨a, _, hm⟩) | hm) | hm) | hm) | hm) | hm) | hm)
  · simp [checkLattice, asks, bufClose, numClose] at hm
  · exact ha a hm
  · exact hg _ hm
  · simp [asks] at hm
  · exact hg _ hm
  · simp [asks] at hm
  · simp [checkKpts, asks, bufClose, boolEq] at hm
  · simp [asks] at hm

theorem asks_checkSystem (s : Sys) : asks (checkSystem s) = .barrier :: (asks (body s) ++ [.barrier]) := by
  simp [checkSystem, asks_append, barrierItem, asks]

/-- The closing barrier is the only one after the opening one. -/
theorem barrier_last (s : Sys) (i : ℕ) (hi : 0 < i) (h : (asks (checkSystem s))[i]? = some .barrier) : i = (asks (body s)).length + 1 := by
  rw [asks_checkSystem] at h
  obtain ⟨j, rfl⟩ : ∃ j, i = j + 1 := ⟨i - 1, by omega⟩
  rw [List.getElem?_cons_succ] at h
  by_cases hj : j < (asks (body s)).length
  · rw [List.getElem?_append_left hj] at h
    exact absurd h (barrier_body s j)
  · by_cases h2 : j = (asks (body s)).length
    · omega
    · rw [List.getElem?_eq_none (by simp; omega)] at h; cases h

theorem compat_barrier {m : Msg} (h : Compat .barrier m) : m = .barrier := by
  cases m with
  | barrier => rfl
  | obj _ => exact h.elim
  | buf _ => exact h.elim

theorem asks_len_pos {rest' : List Item} : 0 < (asks (rest' ++ [barrierItem])).length := by
  rw [asks_append]; simp [barrierItem, asks]

/-- A process that has reached its closing barrier has passed all checks. -/
theorem reached_end {R : List Msg} {sq : Sys} {p : Proc} (h : PInv R (checkSystem sq) p) {m : Msg} (ho : p.offer ((asks (body sq)).length + 1) = some m) :
    Passes R ([barrierItem] ++ body sq) := by
  obtain ⟨pre, hpre, h | ⟨hf, x, rest, h1, h2, h3⟩⟩ := h
  · obtain ⟨hf, hI, hh⟩ := h
    rcases List.eq_nil_or_concat p.todo with ht | ⟨t', y, ht⟩
    · rw [ht, List.append_nil] at hI
      rw [← hI] at hpre
      exact ((passes_append _ _ _).1 hpre).1
    · rw [List.concat_eq_append] at ht
      have e : [barrierItem] ++ body sq = pre ++ t' ∧ barrierItem = y := by
        rw [checkSystem, ht, ← List.append_assoc] at hI
        have := List.append_inj' hI rfl
        exact ⟨this.1, by simpa using this.2⟩
      obtain ⟨e1, e2⟩ := e
      subst e2
      cases t' with
      | nil => rw [e1, List.append_nil]; exact hpre
      | cons z t' =>
        exfalso
        have hlen : (asks ([barrierItem] ++ body sq)).length = (asks pre).length + (asks (z :: t')).length := by
          rw [e1, asks_append, List.length_append]
        have hl2 : (asks ([barrierItem] ++ body sq)).length = (asks (body sq)).length + 1 := by
          simp [barrierItem, asks]
        unfold Proc.offer at ho
        rw [hh] at ho
        cases z with
        | need P =>
          rw [ht] at ho
          split at ho
          · omega
          · split at ho
            · simp at ho
            · cases ho
        | ask m test =>
          simp only [asks, List.length_cons] at hlen
          split at ho
          · omega
          · split at ho
            · omega
            · cases ho
  · exfalso
    have hlen : (asks (body sq)).length + 1 < p.hist.length := by
      unfold Proc.offer at ho
      split at ho
      · assumption
      · rw [hf] at ho; simp at ho
    rcases List.eq_nil_or_concat rest with ht | ⟨t', y, ht⟩
    · subst ht
      rw [checkSystem] at h1
      have := List.append_inj' h1 rfl
      have hx : barrierItem = x := by simpa using this.2
      subst hx
      revert h2
      generalize R.drop (asks pre).length = R'
      cases R' <;> simp [Fails, barrierItem]
    · rw [List.concat_eq_append] at ht
      subst ht
      have hl : (asks (checkSystem sq)).length = (asks (body sq)).length + 2 := by rw [asks_checkSystem]; simp
      rw [h1, show pre ++ x :: (t' ++ [y]) = (pre ++ [x]) ++ (t' ++ [y]) by simp, asks_append, List.length_append] at hl
      have hy : barrierItem = y := by
        rw [checkSystem, show pre ++ x :: (t' ++ [y]) = (pre ++ x :: t') ++ [y] by simp] at h1
        have := List.append_inj' h1 rfl
        simpa using this.2
      subst hy
      have := asks_len_pos (rest' := t')
      rcases h3 with h3 | h3
      · rw [asks_append, List.length_append] at hl
        rw [h3] at hlen; omega
      · rw [h3] at hlen; omega

theorem passes_checkSystem (s s0 : Sys) (h0 : ∀ a ∈ s0.species, a.pp.isSome) (h : ∀ a ∈ s.species, a.pp.isSome) :
    Passes (asks (checkSystem s0)) (checkSystem s) ↔ SameSystem s s0 ∧ WellFormed s := by
  rw [asks_checkSystem]
  have e : checkSystem s = barrierItem :: (body s ++ [barrierItem]) := by simp [checkSystem]
  rw [e]
  simp only [barrierItem, Passes, Compat, true_and]
  rw [passes_body s s0 h h0]
  simp [Passes, Compat]

/-! ## Theorems -/

/-- **C134** (soundness): in every execution, whatever the schedule and whether or not broadcasts synchronise, as soon as one process has returned from the check,
every process' system agrees with the root's and fits together. -/
theorem C134_safe (sync : Bool) (sys : Fin (n + 1) → Sys) (s : State n) (h : Reachable sync sys s) (q : Fin (n + 1)) (hq : (s q).Returned) :
    ∀ q', SameSystem (sys q') (sys 0) ∧ WellFormed (sys q') := by
  have hi := inv_reachable h
  obtain ⟨pre, _, ⟨hf, hI, hh⟩ | ⟨hf, _⟩⟩ := hi.proc q
  swap
  · rw [hq.2] at hf; cases hf
  rw [hq.1, List.append_nil] at hI
  have hh : (s q).hist = asks (checkSystem (sys q)) := by rw [hh, ← hI]
  have hlast : (s q).hist[(asks (body (sys q))).length + 1]? = some .barrier := by
    rw [hh, asks_checkSystem, List.getElem?_cons_succ, List.getElem?_append_right (le_refl _)]; simp
  have hall : ∀ q', Passes (asks (checkSystem (sys 0))) ([barrierItem] ++ body (sys q')) := by
    intro q'
    obtain ⟨m', ho, hc⟩ := hi.bar q _ hlast q'
    obtain rfl := compat_barrier hc
    have hb := barrier_last (sys q') _ (by omega) ((hi.proc q').offer ho)
    rw [hb] at ho
    exact reached_end (hi.proc q') ho
  have hall2 : ∀ q', Passes (asks (body (sys 0)) ++ [.barrier]) (body (sys q')) := by
    intro q'
    have := hall q'
    rw [asks_checkSystem] at this
    simp only [List.cons_append, List.nil_append, barrierItem, Passes] at this
    exact this.2.2
  intro q'
  have := (passes_body (sys q') (sys 0) (pp_of_passes _ _ (hall2 q')) (pp_of_passes _ _ (hall2 0)) [.barrier] []).1 (by rw [List.append_nil]; exact hall2 q')
  exact this.1

/-! ### Completeness -/

/-- Work that is left. -/
def work (p : Proc) : ℕ := p.todo.length + if p.failed then 0 else 1

theorem sum_update (s : State n) (r : Fin (n + 1)) (p : Proc) (h : work p < work (s r)) :
    ∑ q, work (Function.update s r p q) < ∑ q, work (s q) := by
  refine Finset.sum_lt_sum (fun q _ => ?_) ⟨r, Finset.mem_univ _, by rw [Function.update_self]; exact h⟩
  by_cases hq : q = r
  · subst hq; rw [Function.update_self]; exact h.le
  · rw [Function.update_of_ne hq]

theorem step_work {sync : Bool} {s s' : State n} (h : Step sync s s') : ∑ q, work (s' q) < ∑ q, work (s q) := by
  cases h with
  | pass r p t hf ht hp => refine sum_update s r _ ?_; simp [work, ht, hf]
  | fail r p t hf ht hp => refine sum_update s r _ ?_; simp [work, hf]
  | comm r m1 test t m0 hf ht h0 hc hs hp => refine sum_update s r _ ?_; simp [work, ht, hf]
  | commFail r m1 test t m0 hf ht h0 hc hs hp => refine sum_update s r _ ?_; simp [work, ht, hf]; omega

/-- No execution goes on for ever: the number of steps is bounded by the work left. -/
theorem C134_terminates (sync : Bool) (sys : Fin (n + 1) → Sys) : ¬ ∃ f : ℕ → State n, f 0 = init sys ∧ ∀ i, Step sync (f i) (f (i + 1)) := by
  rintro ⟨f, _, hf⟩
  have : ∀ i, ∑ q, work (f i q) + i ≤ ∑ q, work (f 0 q) := by
    intro i
    induction i with
    | zero => simp
    | succ i ih => have := step_work (hf i); omega
  have := this (∑ q, work (f 0 q) + 1)
  omega

theorem Compat.symm {a b : Msg} (h : Compat a b) : Compat b a := by
  cases a <;> cases b <;> simp_all [Compat]

theorem Compat.trans {a b c : Msg} (h : Compat a b) (h2 : Compat b c) : Compat a c := by
  cases a <;> cases b <;> cases c <;> simp_all [Compat]

theorem passes_len {R : List Msg} {l : List Item} (h : Passes R l) : (asks l).length ≤ R.length := by
  induction l generalizing R with
  | nil => simp [asks]
  | cons x t ih =>
    cases x with
    | need p => exact ih h.2
    | ask m test =>
      cases R with
      | nil => exact h.elim
      | cons m0 R => simpa [asks] using ih h.2.2

theorem passes_compat {R : List Msg} {l : List Item} (h : Passes R l) (i : ℕ) (m m0 : Msg) (hm : (asks l)[i]? = some m) (h0 : R[i]? = some m0) : Compat m m0 := by
  induction l generalizing R i with
  | nil => simp [asks] at hm
  | cons x t ih =>
    cases x with
    | need p => exact ih h.2 i hm h0
    | ask m' test =>
      cases R with
      | nil => exact h.elim
      | cons m0' R =>
        cases i with
        | zero =>
          simp only [asks, List.getElem?_cons_zero, Option.some.injEq] at hm h0
          subst hm; subst h0; exact h.1
        | succ i =>
          simp only [asks, List.getElem?_cons_succ] at hm h0
          exact ih h.2.2 i hm h0

theorem asks_len_species {a b : Species} (h : SameSpecies a b) : (asks (checkAtoms a)).length = (asks (checkAtoms b)).length := by
  obtain ⟨label, valence, pp, mass, pos⟩ := a
  obtain ⟨label0, valence0, pp0, mass0, pos0⟩ := b
  obtain ⟨h1, h2, h3, h4, h5⟩ := h
  simp only at h3 h4
  subst h3; subst h4
  cases pp <;> cases mass <;> rfl

theorem asks_len_body {s s0 : Sys} (h : SameSystem s s0) : (asks (body s)).length = (asks (body s0)).length := by
  have : (asks (s.species.flatMap checkAtoms)).length = (asks (s0.species.flatMap checkAtoms)).length := by
    have := h.species
    generalize s.species = l, s0.species = l0 at this
    induction this with
    | nil => rfl
    | cons h1 _ ih => rw [List.flatMap_cons, List.flatMap_cons, asks_append, asks_append, List.length_append, List.length_append, ih, asks_len_species h1]
  simp only [body, checkCrystal, asks_append, List.length_append, this]
  rfl

theorem not_failed {sync : Bool} {sys : Fin (n + 1) → Sys} {s : State n} (h : Reachable sync sys s) (q : Fin (n + 1))
    (hq : Passes (asks (checkSystem (sys 0))) (checkSystem (sys q))) : (s q).failed = false := by
  obtain ⟨pre, _, ⟨hf, _⟩ | ⟨_, x, rest, hI, hx, _⟩⟩ := (inv_reachable h).proc q
  · exact hf
  · have hI : checkSystem (sys q) = pre ++ x :: rest := hI
    rw [hI] at hq
    exact absurd hx (passes_not_fails pre rest x _ hq)

/-- **C134** (completeness): if all processes have the same system and it fits together, then in every execution no process raises an exception, and an execution can only
end when all processes have returned; with `C134_terminates`, every execution does end so. -/
theorem C134_complete (sync : Bool) (sys : Fin (n + 1) → Sys) (hsame : ∀ q, SameSystem (sys q) (sys 0) ∧ WellFormed (sys q)) (s : State n)
    (h : Reachable sync sys s) : (∀ q, (s q).failed = false) ∧ ((∀ q, (s q).Returned) ∨ ∃ s', Step sync s s') := by
  have hpass : ∀ q, Passes (asks (checkSystem (sys 0))) (checkSystem (sys q)) :=
    fun q => (passes_checkSystem _ _ (hsame 0).2.pp (hsame q).2.pp).2 (hsame q)
  have hnf : ∀ q, (s q).failed = false := fun q => not_failed h q (hpass q)
  refine ⟨hnf, ?_⟩
  have hi := inv_reachable h
  have hsplit : ∀ q, ∃ pre, Passes (asks (checkSystem (sys 0))) pre ∧ checkSystem (sys q) = pre ++ (s q).todo ∧ (s q).hist = asks pre := by
    intro q
    obtain ⟨pre, h1, ⟨_, h2, h3⟩ | ⟨hf, _⟩⟩ := hi.proc q
    · exact ⟨pre, h1, h2, h3⟩
    · rw [hnf q] at hf; cases hf
  have hlen : ∀ q, (asks (checkSystem (sys q))).length = (asks (checkSystem (sys 0))).length := by
    intro q
    rw [asks_checkSystem, asks_checkSystem]
    simp [asks_len_body (hsame q).1]
  have hcount : ∀ q, (s q).hist.length + (asks (s q).todo).length = (asks (checkSystem (sys 0))).length := by
    intro q
    obtain ⟨pre, _, h2, h3⟩ := hsplit q
    rw [← hlen q, h2, asks_append, List.length_append, h3]
  by_cases hneed : ∃ q P t, (s q).todo = .need P :: t
  · obtain ⟨q, P, t, ht⟩ := hneed
    right
    obtain ⟨pre, h1, h2, h3⟩ := hsplit q
    have hP : P := passes_need _ _ (hpass q) P (by rw [h2, ht]; simp)
    exact ⟨_, .pass s q P t (hnf q) ht hP⟩
  · have hcase : ∀ q, (s q).todo = [] ∨ ∃ m test t, (s q).todo = .ask m test :: t := by
      intro q
      cases ht : (s q).todo with
      | nil => exact Or.inl rfl
      | cons x t =>
        cases x with
        | need P => exact absurd ⟨q, P, t, ht⟩ hneed
        | ask m test => exact Or.inr ⟨m, test, t, rfl⟩
    obtain ⟨q, _, hmin⟩ := Finset.exists_min_image (Finset.univ : Finset (Fin (n + 1))) (fun q => (s q).hist.length) ⟨0, Finset.mem_univ _⟩
    rcases hcase q with hq | ⟨m, test, t, ht⟩
    · left
      intro q'
      refine ⟨?_, hnf q'⟩
      rcases hcase q' with hq' | ⟨m, test, t, ht⟩
      · exact hq'
      · exfalso
        have h1 := hcount q
        have h2 := hcount q'
        have h3 := hmin q' (Finset.mem_univ _)
        rw [hq] at h1
        rw [ht] at h2
        simp only [asks, List.length_nil, List.length_cons] at h1 h2 h3
        omega
    · right
      have hoff : ∀ q', ∃ m', (s q').offer (s q).hist.length = some m' := by
        intro q'
        have h3 := hmin q' (Finset.mem_univ _)
        rcases Nat.lt_or_ge (s q).hist.length (s q').hist.length with hlt | hge
        · unfold Proc.offer
          rw [if_pos hlt]
          exact ⟨_, List.getElem?_eq_getElem hlt⟩
        · have heq : (s q).hist.length = (s q').hist.length := le_antisymm h3 hge
          rcases hcase q' with hq' | ⟨m', test', t', ht'⟩
          · exfalso
            have h1 := hcount q
            have h2 := hcount q'
            rw [ht] at h1
            rw [hq'] at h2
            simp only [asks, List.length_nil, List.length_cons] at h1 h2
            omega
          · exact ⟨m', by rw [heq]; exact offer_head (hnf q') ht'⟩
      have hcomp : ∀ q' m', (s q').offer (s q).hist.length = some m' → ∀ m0, (s 0).offer (s q).hist.length = some m0 → Compat m' m0 := by
        intro q' m' h1 m0 h2
        exact passes_compat (hpass q') _ _ _ ((hi.proc q').offer h1) ((hi.proc 0).offer h2)
      obtain ⟨m0, h0⟩ := hoff 0
      have hown := offer_head (hnf q) ht
      have hc := hcomp q m hown m0 h0
      refine ⟨_, .comm s q m test t m0 (hnf q) ht h0 hc (fun _ q' => ?_) ?_⟩
      · obtain ⟨m', h1⟩ := hoff q'
        exact ⟨m', h1, hc.trans (hcomp q' m' h1 m0 h0).symm⟩
      · obtain ⟨pre, h1, h2, h3⟩ := hsplit q
        have := hpass q
        rw [h2, ht, passes_append, ← h3, drop_eq_cons ((hi.proc 0).offer h0)] at this
        exact this.2.2.1

/-! ### Inconsistent arguments -/

theorem allclose_refl (l : List ℝ) : Allclose l l := by
  unfold Allclose
  induction l with
  | nil => exact .nil
  | cons x t ih =>
    refine .cons ?_ ih
    rw [sub_self, abs_zero]; positivity

theorem sameSystem_refl (s : Sys) : SameSystem s s := by
  have hg : ∀ g, SameGSp g g := fun g => ⟨allclose_refl _, by rw [sub_self, abs_zero]; positivity, rfl, rfl⟩
  refine ⟨allclose_refl _, by rw [sub_self, abs_zero]; positivity, ?_, hg _, hg _, allclose_refl _, allclose_refl _⟩
  exact List.forall₂_same.2 fun a _ => ⟨rfl, rfl, rfl, rfl, allclose_refl _⟩

/-- The root compares its data with itself: it never raises an exception if its own arguments fit together, whatever the others were given. -/
theorem C135_root_never_raises (sync : Bool) (sys : Fin (n + 1) → Sys) (h0 : WellFormed (sys 0)) (s : State n) (h : Reachable sync sys s) :
    (s 0).failed = false :=
  not_failed h 0 ((passes_checkSystem _ _ h0.pp h0.pp).2 ⟨sameSystem_refl _, h0⟩)

/-- **C135** (violated): if the arguments of some process differ from the root's, the inconsistency is not reported everywhere. Every execution ends in a state
where the root has neither returned nor raised an exception: it waits in a collective call for ever, and no other process returns either. -/
theorem C135_hang (sync : Bool) (sys : Fin (n + 1) → Sys) (h0 : WellFormed (sys 0)) (q : Fin (n + 1)) (hq : ¬ SameSystem (sys q) (sys 0)) (s : State n)
    (h : Reachable sync sys s) : (s 0).failed = false ∧ ∃ x t, (s 0).todo = x :: t ∧ ((¬ ∃ s', Step sync s s') → ∃ m test, x = .ask m test) ∧
      ∀ q', ¬ (s q').Returned := by
  have hf := C135_root_never_raises sync sys h0 s h
  have hr : ∀ q', ¬ (s q').Returned := fun q' hq' => hq ((C134_safe sync sys s h q' hq' q).1)
  refine ⟨hf, ?_⟩
  cases ht : (s 0).todo with
  | nil => exact absurd ⟨ht, hf⟩ (hr 0)
  | cons x t =>
    refine ⟨x, t, rfl, fun hno => ?_, hr⟩
    cases x with
    | ask m test => exact ⟨m, test, rfl⟩
    | need P =>
      exfalso
      by_cases hP : P
      · exact hno ⟨_, .pass s 0 P t hf ht hP⟩
      · exact hno ⟨_, .fail s 0 P t hf ht hP⟩

/-! ### Examples -/

/-- Silicon-like system of one species with two atoms. -/
noncomputable def exSys (charge : ℤ) : Sys :=
  { lat := ⟨[0, 5, 5, 5, 0, 5, 5, 5, 0], 10⟩
    species := [⟨['S', 'i'], charge, some (['S', 'i', '.', 'u', 'p', 'f'], ['a', '1']), some 28, [0, 0, 0, 1 / 4, 1 / 4, 1 / 4]⟩]
    recId := 1, recvec := [-1, 1, 1, 1, -1, 1, 1, 1, -1]
    grho := ⟨1, [-1, 1, 1, 1, -1, 1, 1, 1, -1], 80, (36, 36, 36), false⟩
    gwfn := ⟨1, [-1, 1, 1, 1, -1, 1, 1, 1, -1], 80, (36, 36, 36), false⟩
    kpts := ⟨1, [0, 0, 0], [1]⟩ }

theorem exSys_wf (c : ℤ) : WellFormed (exSys c) :=
  ⟨by simp [exSys], by norm_num [exSys, LatEq], rfl, rfl⟩

/-- The completeness theorem applies to three processes with equal systems … -/
example (sync : Bool) (s : State 2) (h : Reachable sync (fun _ => exSys 4) s) : (∀ q, (s q).failed = false) ∧ ((∀ q, (s q).Returned) ∨ ∃ s', Step sync s s') :=
  C134_complete sync _ (fun _ => ⟨sameSystem_refl _, exSys_wf 4⟩) s h

/-- … and the negative one when rank 2 has been given another valence. -/
example (sync : Bool) (s : State 2) (h : Reachable sync (fun q => if q = 2 then exSys 5 else exSys 4) s) : ¬ (s 0).Returned ∧ (s 0).failed = false := by
  have h0 : WellFormed ((fun q : Fin 3 => if q = 2 then exSys 5 else exSys 4) 0) := exSys_wf 4
  have := C135_hang sync (fun q : Fin 3 => if q = 2 then exSys 5 else exSys 4) h0 2 (by
    intro hs
    have := hs.species
    simp only [if_true, show ((0 : Fin 3) = 2) = False by simp, if_false] at this
    simp only [exSys, List.forall₂_cons] at this
    have := this.1.valence
    norm_num at this) s h
  obtain ⟨h1, x, t, h2, _, h3⟩ := this
  exact ⟨h3 0, h1⟩

/-- Some execution with all processes returned exists: the hypothesis of `C134_safe` is met. -/
example (sync : Bool) : ∃ s : State 2, Reachable sync (fun _ => exSys 4) s ∧ ∀ q, (s q).Returned := by
  have hw : ∀ k : ℕ, ∀ s : State 2, ∑ q, work (s q) ≤ k → Reachable sync (fun _ => exSys 4) s → ∃ s' : State 2, Reachable sync (fun _ => exSys 4) s' ∧ ∀ q, (s' q).Returned := by
    intro k
    induction k with
    | zero =>
      intro s hk h
      rcases (C134_complete sync _ (fun _ => ⟨sameSystem_refl _, exSys_wf 4⟩) s h).2 with hr | ⟨s', hs⟩
      · exact ⟨s, h, hr⟩
      · have := step_work hs; omega
    | succ k ih =>
      intro s hk h
      rcases (C134_complete sync _ (fun _ => ⟨sameSystem_refl _, exSys_wf 4⟩) s h).2 with hr | ⟨s', hs⟩
      · exact ⟨s, h, hr⟩
      · exact ih s' (by have := step_work hs; omega) (h.tail hs)
  exact hw _ _ le_rfl Relation.ReflTransGen.refl

end Verif.CheckArgs
