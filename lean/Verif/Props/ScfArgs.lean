import Mathlib.Data.Fintype.Basic
import Mathlib.Data.Fintype.BigOperators
import Mathlib.Algebra.BigOperators.Fin
import Mathlib.Algebra.Order.BigOperators.Group.Finset
import Mathlib.Data.Finset.Max
import Mathlib.Tactic.NormNum
import Mathlib.Tactic.Linarith
import Verif.Model.ScfArgs

/-!
# C152-C155: the argument phase and the report of `scf` on several processes
-/

namespace Verif.ScfArgs

variable {α β : Type} {n : ℕ}

/-! ## Programs that run in step with the root -/

/-- The calls of the root's program. -/
def calls : Prog α → List Msg
  | .ret _ => []
  | .err _ => []
  | .bcast v k => .val v :: calls (k v)
  | .sync l k => .sync l :: calls k

/-- The root's result. -/
def solo : Prog α → Except PyErr α
  | .ret a => .ok a
  | .err e => .error e
  | .bcast v k => solo (k v)
  | .sync _ k => solo k

/-- The root's program after one call, two calls, … -/
def after : ℕ → Prog α → Prog α
  | 0, p => p
  | _ + 1, .ret a => .ret a
  | _ + 1, .err e => .err e
  | i + 1, .bcast v k => after i (k v)
  | i + 1, .sync _ k => after i k

/-- The second program makes the same calls as the root's, and ends in the same way with a related result. -/
inductive InStep (R : α → β → Prop) : Prog α → Prog β → Prop
  | ret (a : α) (b : β) (h : R a b) : InStep R (.ret a) (.ret b)
  | err (e : PyErr) : InStep R (.err e) (.err e)
  | bcast (v w : Val) (k : Val → Prog α) (k' : Val → Prog β) (h : InStep R (k v) (k' v)) : InStep R (.bcast v k) (.bcast w k')
  | sync (l : ℕ) (k : Prog α) (k' : Prog β) (h : InStep R k k') : InStep R (.sync l k) (.sync l k')

/-- The second program makes the root's calls and then wants to synchronise, where the root has ended. -/
inductive Waits : Prog α → Prog β → Prop
  | stuckRet (a : α) (l : ℕ) (k' : Prog β) : Waits (.ret a) (.sync l k')
  | stuckErr (e : PyErr) (l : ℕ) (k' : Prog β) : Waits (.err e) (.sync l k')
  | bcast (v w : Val) (k : Val → Prog α) (k' : Val → Prog β) (h : Waits (k v) (k' v)) : Waits (.bcast v k) (.bcast w k')
  | sync (l : ℕ) (k : Prog α) (k' : Prog β) (h : Waits k k') : Waits (.sync l k) (.sync l k')

/-- The process has finished. -/
def Proc.Done (p : Proc α) : Prop := (∃ a, p.prog = .ret a) ∨ ∃ e, p.prog = .err e

theorem InStep.rfl' {R : α → α → Prop} (h : ∀ a, R a a) (p : Prog α) : InStep R p p := by
  induction p with
  | ret a => exact .ret a a (h a)
  | err e => exact .err e
  | bcast v k ih => exact .bcast v v k k (ih v)
  | sync l k ih => exact .sync l k k ih

theorem InStep.bind' {γ δ : Type} {R : α → β → Prop} {S : γ → δ → Prop} {p : Prog α} {q : Prog β} (h : InStep R p q) (f : α → Prog γ) (g : β → Prog δ)
    (hf : ∀ a b, R a b → InStep S (f a) (g b)) : InStep S (p >>= f) (q >>= g) := by
  show InStep S (p.bind f) (q.bind g)
  induction h with
  | ret a b h => exact hf a b h
  | err e => exact .err e
  | bcast v w k k' h ih => exact .bcast v w _ _ ih
  | sync l k k' h ih => exact .sync l _ _ ih

theorem Waits.bind' {γ δ : Type} {R : α → β → Prop} {p : Prog α} {q : Prog β} (h : InStep R p q) (hok : ∃ a, solo p = .ok a) (f : α → Prog γ) (g : β → Prog δ)
    (hf : ∀ a b, R a b → solo p = .ok a → Waits (f a) (g b)) : Waits (p >>= f) (q >>= g) := by
  show Waits (p.bind f) (q.bind g)
  induction h with
  | ret a b h => exact hf a b h rfl
  | err e => obtain ⟨a, ha⟩ := hok; cases ha
  | bcast v w k k' h ih => exact .bcast v w _ _ (ih hok hf)
  | sync l k k' h ih => exact .sync l _ _ (ih hok hf)

theorem calls_after (i : ℕ) (p : Prog α) : calls (after i p) = (calls p).drop i := by
  induction i generalizing p with
  | zero => rfl
  | succ i ih => cases p <;> simp [after, calls, ih]

theorem solo_after (i : ℕ) (p : Prog α) : solo (after i p) = solo p := by
  induction i generalizing p with
  | zero => rfl
  | succ i ih => cases p <;> simp [after, solo, ih]

theorem after_succ (i : ℕ) (p : Prog α) : after (i + 1) p = after 1 (after i p) := by
  induction i generalizing p with
  | zero => rfl
  | succ i ih =>
    cases p with
    | ret a => rfl
    | err e => rfl
    | bcast v k => exact ih (k v)
    | sync l k => exact ih k

/-- What is known of the execution, for any relation between the rest of the root's program and the rest of a process' program. -/
structure Inv (T : Fin (n + 1) → Prog α → Prog α → Prop) (P : Fin (n + 1) → Prog α) (s : State n α) : Prop where
  root : (s 0).prog = after (s 0).hist.length (P 0) ∧ (s 0).hist = (calls (P 0)).take (s 0).hist.length
  len : ∀ r, (s r).hist.length ≤ (calls (P 0)).length
  kinds : ∀ r i, (h : i < (s r).hist.length) → ((s r).hist[i]'h).compat ((calls (P 0))[i]'(lt_of_lt_of_le h (len r)))
  rel : ∀ r, r ≠ 0 → T r (after (s r).hist.length (P 0)) (s r).prog

theorem compat_symm {a b : Msg} (h : a.compat b) : b.compat a := by
  cases a <;> cases b <;> simp_all [Msg.compat]

theorem compat_trans {a b c : Msg} (h : a.compat b) (h' : b.compat c) : a.compat c := by
  cases a <;> cases b <;> cases c <;> simp_all [Msg.compat]

/-- Conditions on the relation that make it an invariant. -/
structure Follows (T : Prog α → Prog α → Prop) : Prop where
  bcast : ∀ v w k k', T (.bcast v k) (.bcast w k') → T (k v) (k' v)
  sync : ∀ l l' k k', T (.sync l k) (.sync l' k') → T k k'
  mixed : ∀ v l k k', ¬ T (.bcast v k) (.sync l k')
  mixed' : ∀ v l k k', ¬ T (.sync l k) (.bcast v k')
  label : ∀ l l' k k', T (.sync l k) (.sync l' k') → l = l'

theorem InStep.follows (R : α → α → Prop) : Follows (InStep R) := by
  refine ⟨?_, ?_, ?_, ?_, ?_⟩ <;> intros <;> (try intro h) <;> (try rename_i h) <;> cases h <;> first | assumption | rfl

theorem Waits.follows : Follows (Waits : Prog α → Prog α → Prop) := by
  refine ⟨?_, ?_, ?_, ?_, ?_⟩ <;> intros <;> (try intro h) <;> (try rename_i h) <;> cases h <;> first | assumption | rfl

theorem root_offer {T : Fin (n + 1) → Prog α → Prog α → Prop} {P : Fin (n + 1) → Prog α} {s : State n α} (I : Inv T P s) {i : ℕ} {m : Msg} (h : (s 0).offer i = some m) :
    (calls (P 0))[i]? = some m := by
  unfold Proc.offer at h
  split at h
  · rename_i hi
    rw [I.root.2, List.getElem?_take_of_lt hi] at h
    exact h
  · split at h
    · rename_i hi
      subst hi
      have hc : calls (s 0).prog = (calls (P 0)).drop (s 0).hist.length := by
        conv_lhs => rw [I.root.1]
        exact calls_after _ _
      have h0 : (calls (s 0).prog)[0]? = some m := by
        revert h
        cases (s 0).prog <;> simp [calls]
      rw [hc, List.getElem?_drop] at h0
      simpa using h0
    · cases h

theorem offer_kind {T : Fin (n + 1) → Prog α → Prog α → Prop} {P : Fin (n + 1) → Prog α} (hT : ∀ r, Follows (T r)) {s : State n α} (I : Inv T P s) (r : Fin (n + 1)) (m : Msg)
    (h : (s r).offer (s r).hist.length = some m) (m0 : Msg) (h0 : (calls (P 0))[(s r).hist.length]? = some m0) : m.compat m0 := by
  by_cases hr : r = 0
  · subst hr
    have := root_offer I h
    rw [this] at h0
    cases h0
    cases m <;> simp [Msg.compat]
  · have hrel := I.rel r hr
    have hc : (calls (after (s r).hist.length (P 0)))[0]? = some m0 := by rw [calls_after, List.getElem?_drop]; simpa using h0
    unfold Proc.offer at h
    rw [if_neg (lt_irrefl _), if_pos rfl] at h
    revert hrel hc h
    cases hp : (s r).prog <;> cases ha : after (s r).hist.length (P 0) <;> simp only [calls] <;> intro h hrel hc
    all_goals first | (simp at h; done) | (simp at hc; done) | skip
    · simp only [Option.some.injEq] at h; simp at hc; subst h hc; trivial
    · exact ((hT r).mixed' _ _ _ _ hrel).elim
    · exact ((hT r).mixed _ _ _ _ hrel).elim
    · simp only [Option.some.injEq] at h; simp at hc; subst h hc; exact ((hT r).label _ _ _ _ hrel).symm

theorem Inv.step {T : Fin (n + 1) → Prog α → Prog α → Prop} {P : Fin (n + 1) → Prog α} (hT : ∀ r, Follows (T r)) {snc : Bool} {s t : State n α} (I : Inv T P s) (h : Step snc s t) : Inv T P t := by
  have key : ∀ (r : Fin (n + 1)) (m m0 : Msg) (p' : Prog α), (s r).offer (s r).hist.length = some m → (calls (P 0))[(s r).hist.length]? = some m0 →
      (r = 0 → p' = after ((s 0).hist.length + 1) (P 0) ∧ m = m0) → (r ≠ 0 → T r (after ((s r).hist.length + 1) (P 0)) p') →
      Inv T P (Function.update s r ⟨(s r).hist ++ [m], p'⟩) := by
    intro r m m0 p' ho h0 hroot hrel
    have hlt : (s r).hist.length < (calls (P 0)).length := (List.getElem?_eq_some_iff.1 h0).1
    have hl : ∀ q, ((Function.update s r ⟨(s r).hist ++ [m], p'⟩ : State n α) q).hist.length ≤ (calls (P 0)).length := by
      intro q
      by_cases hq : q = r
      · subst hq; rw [Function.update_self]; simp only [List.length_append, List.length_singleton]; omega
      · rw [Function.update_of_ne hq]; exact I.len q
    refine ⟨?_, hl, ?_, ?_⟩
    · by_cases hr : r = 0
      · subst hr
        rw [Function.update_self]
        obtain ⟨e1, e2⟩ := hroot rfl
        refine ⟨by simpa using e1, ?_⟩
        simp only [List.length_append, List.length_singleton]
        rw [List.take_add_one, ← I.root.2, h0, e2]
        rfl
      · rw [Function.update_of_ne (Ne.symm hr)]; exact I.root
    · intro q i hi
      by_cases hq : q = r
      · subst hq
        have hcomp : ∀ (x : Proc α), x = ⟨(s q).hist ++ [m], p'⟩ → ∀ (hx : i < x.hist.length) (hy : i < (calls (P 0)).length), (x.hist[i]'hx).compat ((calls (P 0))[i]'hy) := by
          intro x ex hx hy
          subst ex
          simp only [List.length_append, List.length_singleton] at hx
          by_cases hi' : i < (s q).hist.length
          · simp only [List.getElem_append_left hi']
            exact I.kinds q i hi'
          · have : i = (s q).hist.length := by omega
            subst this
            simp only [List.getElem_concat_length]
            have hm0 : (calls (P 0))[(s q).hist.length]'hy = m0 := by
              have := List.getElem?_eq_getElem hy
              rw [h0] at this
              exact (Option.some.inj this).symm
            rw [hm0]
            exact offer_kind hT I q m ho m0 h0
        exact hcomp _ (by rw [Function.update_self]) hi _
      · have hcomp : ∀ (x : Proc α), x = s q → ∀ (hx : i < x.hist.length) (hy : i < (calls (P 0)).length), (x.hist[i]'hx).compat ((calls (P 0))[i]'hy) := by
          intro x ex hx hy
          subst ex
          exact I.kinds q i hx
        exact hcomp _ (by rw [Function.update_of_ne hq]) hi _
    · intro q hq0
      by_cases hq : q = r
      · subst hq
        rw [Function.update_self]
        simpa using hrel hq0
      · rw [Function.update_of_ne hq]; exact I.rel q hq0
  cases h with
  | bcast r v k w hp h0 hs =>
    have ho : (s r).offer (s r).hist.length = some (.val v) := by
      unfold Proc.offer
      rw [if_neg (lt_irrefl _), if_pos rfl, hp]
    have hc := root_offer I h0
    refine key r _ (.val w) _ ho hc ?_ ?_
    · intro hr
      subst hr
      have e : (s 0).offer (s 0).hist.length = some (.val v) := ho
      rw [h0] at e
      cases e
      refine ⟨?_, rfl⟩
      rw [after_succ, ← I.root.1, hp]
      rfl
    · intro hr
      have hrel := I.rel r hr
      have hc' : (calls (after (s r).hist.length (P 0)))[0]? = some (.val w) := by rw [calls_after, List.getElem?_drop]; simpa using hc
      rw [after_succ]
      rw [hp] at hrel
      revert hrel hc'
      cases after (s r).hist.length (P 0) <;> simp only [calls] <;> intro hrel hc'
      · simp at hc'
      · simp at hc'
      · simp at hc'
        subst hc'
        exact (hT r).bcast _ _ _ _ hrel
      · exact ((hT r).mixed' _ _ _ _ hrel).elim
  | sync r l k hp hs =>
    have ho : (s r).offer (s r).hist.length = some (.sync l) := by
      unfold Proc.offer
      rw [if_neg (lt_irrefl _), if_pos rfl, hp]
    obtain ⟨m0, h0, hm⟩ := hs 0
    have hc := root_offer I h0
    refine key r _ m0 _ ho hc ?_ ?_
    · intro hr
      subst hr
      rw [h0] at ho
      cases ho
      refine ⟨?_, rfl⟩
      rw [after_succ, ← I.root.1, hp]
      rfl
    · intro hr
      have hrel := I.rel r hr
      have hc' : (calls (after (s r).hist.length (P 0)))[0]? = some m0 := by rw [calls_after, List.getElem?_drop]; simpa using hc
      rw [after_succ]
      rw [hp] at hrel
      revert hrel hc'
      cases after (s r).hist.length (P 0) <;> simp only [calls] <;> intro hrel hc'
      · simp at hc'
      · simp at hc'
      · exact ((hT r).mixed _ _ _ _ hrel).elim
      · exact (hT r).sync _ _ _ _ hrel

theorem Inv.reach {T : Fin (n + 1) → Prog α → Prog α → Prop} {P : Fin (n + 1) → Prog α} (hT : ∀ r, Follows (T r)) (hP : ∀ r, r ≠ 0 → T r (P 0) (P r)) {snc : Bool} {s : State n α}
    (h : Reachable snc P s) : Inv T P s := by
  induction h with
  | refl =>
    refine ⟨⟨rfl, rfl⟩, fun r => Nat.zero_le _, ?_, fun r hr => hP r hr⟩
    intro r i hi
    exact absurd hi (Nat.not_lt_zero _)
  | tail _ h ih => exact ih.step hT h

/-! ## Consequences -/

theorem instep_solo {R : α → α → Prop} {p q : Prog α} (h : InStep R p q) : (∀ b, q = .ret b → ∃ a, solo p = .ok a ∧ R a b) ∧ (∀ e, q = .err e → solo p = .error e) := by
  cases h with
  | ret a b h => exact ⟨fun b' e => by cases e; exact ⟨a, rfl, h⟩, fun e h => by cases h⟩
  | err e => exact ⟨(fun b' e => by cases e), fun e' h => by cases h; rfl⟩
  | bcast => exact ⟨(fun b' e => by cases e), (fun e' h => by cases h)⟩
  | sync => exact ⟨(fun b' e => by cases e), (fun e' h => by cases h)⟩

/-- Programs in step with the root: in every execution the processes end with the root's result. -/
theorem instep_results {P : Fin (n + 1) → Prog α} {R : Fin (n + 1) → α → α → Prop} (h0 : ∀ a, R 0 a a) (hP : ∀ r, r ≠ 0 → InStep (R r) (P 0) (P r)) {snc : Bool} {s : State n α} (h : Reachable snc P s)
    (r : Fin (n + 1)) : (∀ b, (s r).prog = .ret b → ∃ a, solo (P 0) = .ok a ∧ R r a b) ∧ (∀ e, (s r).prog = .err e → solo (P 0) = .error e) := by
  have I := Inv.reach (fun r => InStep.follows (R r)) hP h
  by_cases hr : r = 0
  · subst hr
    have hs := solo_after (s 0).hist.length (P 0)
    rw [← I.root.1] at hs
    refine ⟨fun b hb => ⟨b, ?_, h0 b⟩, fun e he => ?_⟩
    · rw [← hs, hb]; rfl
    · rw [← hs, he]; rfl
  · have := instep_solo (I.rel r hr)
    rw [solo_after] at this
    exact this

theorem offer_past (p : Proc α) (i : ℕ) (h : i < p.hist.length) : p.offer i = some (p.hist[i]'h) := by
  unfold Proc.offer
  rw [if_pos h, List.getElem?_eq_getElem h]

/-- Programs in step with the root never wait for ever: as long as a process has not finished, some process can go on. -/
theorem instep_progress {P : Fin (n + 1) → Prog α} {R : Fin (n + 1) → α → α → Prop} (hP : ∀ r, r ≠ 0 → InStep (R r) (P 0) (P r)) {snc : Bool} {s : State n α} (h : Reachable snc P s)
    (hn : ∃ r, ¬ (s r).Done) : ∃ t, Step snc s t := by
  have I := Inv.reach (fun r => InStep.follows (R r)) hP h
  classical
  obtain ⟨r, hr, hmin⟩ := Finset.exists_min_image (Finset.univ.filter fun r => ¬ (s r).Done) (fun r => (s r).hist.length) (by
    obtain ⟨r, hr⟩ := hn
    exact ⟨r, by simpa using hr⟩)
  simp only [Finset.mem_filter, Finset.mem_univ, true_and] at hr hmin
  -- finished processes have made all calls
  have fin : ∀ q, (s q).Done → (s q).hist.length = (calls (P 0)).length := by
    intro q hq
    have hc : calls (after (s q).hist.length (P 0)) = [] := by
      by_cases hq0 : q = 0
      · subst hq0
        rw [← I.root.1]
        rcases hq with ⟨a, ha⟩ | ⟨e, he⟩
        · rw [ha]; rfl
        · rw [he]; rfl
      · have hrel := I.rel q hq0
        revert hrel
        generalize after (s q).hist.length (P 0) = p0
        intro hrel
        rcases hq with ⟨a, ha⟩ | ⟨e, he⟩
        · rw [ha] at hrel; cases hrel; rfl
        · rw [he] at hrel; cases hrel; rfl
    rw [calls_after] at hc
    have := List.drop_eq_nil_iff.1 hc
    exact le_antisymm (I.len q) this
  have hown : ∃ m, (s r).offer (s r).hist.length = some m := by
    unfold Proc.offer
    rw [if_neg (lt_irrefl _), if_pos rfl]
    cases hp : (s r).prog with
    | ret a => exact absurd (Or.inl ⟨a, hp⟩) hr
    | err e => exact absurd (Or.inr ⟨e, hp⟩) hr
    | bcast v k => exact ⟨_, rfl⟩
    | sync l k => exact ⟨_, rfl⟩
  have hlt : (s r).hist.length < (calls (P 0)).length := by
    rcases lt_or_eq_of_le (I.len r) with h1 | h1
    · exact h1
    · exfalso
      have hc : calls (after (s r).hist.length (P 0)) = [] := by rw [calls_after, h1]; exact List.drop_length
      by_cases hr0 : r = 0
      · subst hr0
        rw [← I.root.1] at hc
        cases hp : (s 0).prog with
        | ret a => exact hr (Or.inl ⟨a, hp⟩)
        | err e => exact hr (Or.inr ⟨e, hp⟩)
        | bcast v k => rw [hp] at hc; cases hc
        | sync l k => rw [hp] at hc; cases hc
      · have hrel := I.rel r hr0
        revert hrel hc
        generalize after (s r).hist.length (P 0) = p0
        intro hc hrel
        cases hp : (s r).prog with
        | ret a => exact hr (Or.inl ⟨a, hp⟩)
        | err e => exact hr (Or.inr ⟨e, hp⟩)
        | bcast v k => rw [hp] at hrel; cases hrel; cases hc
        | sync l k => rw [hp] at hrel; cases hrel; cases hc
  obtain ⟨m0, hm0⟩ : ∃ m0, (calls (P 0))[(s r).hist.length]? = some m0 := ⟨_, List.getElem?_eq_getElem hlt⟩
  -- all processes have reached this call
  have all : ∀ q, ∃ m, (s q).offer (s r).hist.length = some m ∧ m.compat m0 := by
    intro q
    have hq : (s r).hist.length < (s q).hist.length ∨ ((s r).hist.length = (s q).hist.length ∧ ¬ (s q).Done) := by
      by_cases hd : (s q).Done
      · left; rw [fin q hd]; exact hlt
      · rcases lt_or_eq_of_le (hmin q hd) with h1 | h1
        · exact Or.inl h1
        · exact Or.inr ⟨h1, hd⟩
    rcases hq with hq | ⟨hq, hd⟩
    · refine ⟨_, offer_past (s q) _ hq, ?_⟩
      have := I.kinds q _ hq
      have e : (calls (P 0))[(s r).hist.length]'hlt = m0 := by
        have := List.getElem?_eq_getElem hlt
        rw [hm0] at this
        exact (Option.some.inj this).symm
      rw [e] at this
      exact this
    · have ho : ∃ m, (s q).offer (s q).hist.length = some m := by
        unfold Proc.offer
        rw [if_neg (lt_irrefl _), if_pos rfl]
        cases hp : (s q).prog with
        | ret a => exact absurd (Or.inl ⟨a, hp⟩) hd
        | err e => exact absurd (Or.inr ⟨e, hp⟩) hd
        | bcast v k => exact ⟨_, rfl⟩
        | sync l k => exact ⟨_, rfl⟩
      obtain ⟨m, hm⟩ := ho
      refine ⟨m, by rw [hq]; exact hm, ?_⟩
      exact offer_kind (fun r => InStep.follows (R r)) I q m hm m0 (by rw [← hq]; exact hm0)
  obtain ⟨m, hm⟩ := hown
  have hmk := offer_kind (fun r => InStep.follows (R r)) I r m hm m0 hm0
  unfold Proc.offer at hm
  rw [if_neg (lt_irrefl _), if_pos rfl] at hm
  cases hp : (s r).prog with
  | ret a => exact absurd (Or.inl ⟨a, hp⟩) hr
  | err e => exact absurd (Or.inr ⟨e, hp⟩) hr
  | bcast v k =>
    rw [hp] at hm
    simp only [Option.some.injEq] at hm
    obtain ⟨m', h1, h2⟩ := all 0
    cases m0 with
    | sync l => rw [← hm] at hmk; exact hmk.elim
    | val w0 =>
      cases m' with
      | sync l => exact h2.elim
      | val w =>
        exact ⟨_, Step.bcast s r v k w hp h1 fun _ q => by
          obtain ⟨m'', h3, h4⟩ := all q
          exact ⟨m'', h3, compat_trans (b := .val w0) trivial (compat_symm h4)⟩⟩
  | sync l k =>
    rw [hp] at hm
    simp only [Option.some.injEq] at hm
    exact ⟨_, Step.sync s r l k hp fun q => by
      obtain ⟨m'', h3, h4⟩ := all q
      exact ⟨m'', h3, compat_trans (hm ▸ hmk) (compat_symm h4)⟩⟩

/-- Executions are finite: with every step one process makes one of at most as many calls as the root's program has. -/
theorem instep_finite {P : Fin (n + 1) → Prog α} {T : Fin (n + 1) → Prog α → Prog α → Prop} (hT : ∀ r, Follows (T r)) (hP : ∀ r, r ≠ 0 → T r (P 0) (P r)) {snc : Bool} {s t : State n α}
    (h : Reachable snc P s) (hst : Step snc s t) :
    (∑ r, ((calls (P 0)).length - (t r).hist.length)) < ∑ r, ((calls (P 0)).length - (s r).hist.length) := by
  have It := (Inv.reach hT hP h).step hT hst
  have key : ∀ (r : Fin (n + 1)) (p : Proc α), t = Function.update s r p → p.hist.length = (s r).hist.length + 1 →
      (∑ r, ((calls (P 0)).length - (t r).hist.length)) < ∑ r, ((calls (P 0)).length - (s r).hist.length) := by
    intro r p ht hp
    refine Finset.sum_lt_sum (fun q _ => ?_) ⟨r, Finset.mem_univ _, ?_⟩
    · by_cases hq : q = r
      · subst hq; rw [ht, Function.update_self]; omega
      · rw [ht, Function.update_of_ne hq]
    · have := It.len r
      rw [ht, Function.update_self] at this ⊢
      omega
  cases hst with
  | bcast r v k w hp h0 hs => exact key r _ rfl (by simp)
  | sync r l k hp hs => exact key r _ rfl (by simp)

/-- Where the root ends while the others want to synchronise, no other process ever finishes. -/
theorem waits_never {P : Fin (n + 1) → Prog α} (hP : ∀ r, r ≠ 0 → Waits (P 0) (P r)) {snc : Bool} {s : State n α} (h : Reachable snc P s) (r : Fin (n + 1)) (hr : r ≠ 0) : ¬ (s r).Done := by
  have I := Inv.reach (fun _ => Waits.follows) hP h
  have hrel := I.rel r hr
  revert hrel
  generalize after (s r).hist.length (P 0) = q
  rintro hrel (⟨a, ha⟩ | ⟨e, he⟩)
  · rw [ha] at hrel; cases hrel
  · rw [he] at hrel; cases hrel

/-! ## The argument phase: specification -/

/-- The values of the parameters that `scf` accepts (`True`/`False` count as integers). -/
def IsInt (v : Val) (z : ℤ) : Prop := v = .int z ∨ ∃ b, v = .bool b ∧ z = if b then 1 else 0

/-- The root's parameters are acceptable, and these are their values. -/
structure Valid (a : Args) (e : Eff) : Prop where
  numbnd : IsInt a.numbnd e.numbnd ∧ 0 < e.numbnd
  spin : a.isSpin = .bool e.isSpin
  noncolin : a.isNoncolin = .bool false
  symm : a.symmRho = .bool e.symmRho
  libxc : e.libxc = a.libxc
  occ : a.occ = .str e.occ ∧ (e.occ = "fixed" ∨ e.occ = "smear")
  smear : e.smear = a.smear ∧ (e.occ = "smear" → a.smear = .str "gauss" ∨ a.smear = .str "fd" ∨ a.smear = .str "mv")
  eTemp : a.eTemp = .float e.eTemp ∧ 0 ≤ e.eTemp
  convThr : a.convThr = .float e.convThr ∧ 0 < e.convThr
  maxiter : IsInt a.maxiter e.maxiter ∧ 0 ≤ e.maxiter
  diagoThr : a.diagoThr = .float e.diagoThr ∧ 0 < e.diagoThr
  mixBeta : a.mixBeta = .float e.mixBeta ∧ 0 < e.mixBeta ∧ e.mixBeta ≤ 1
  mixDim : IsInt a.mixDim e.mixDim ∧ 0 < e.mixDim

/-- The starting density of a process fits the root's choice of spin polarisation. -/
def RhoOk (spin : Bool) : Rho → Prop
  | .field own shape => own = true ∧ shape = [if spin then 2 else 1]
  | .none => spin = false
  | .mags ok => spin = true → ok = true
  | .bad => spin = false

/-- The arguments a process has for itself: one G-space, starting density, configuration (or none), enough k-points. -/
structure OwnOk (spin : Bool) (fresh : ℕ) (a : Args) (c : ℕ) : Prop where
  same : a.sameG = true
  rho : RhoOk spin a.rho
  config : a.config = .cfg c ∨ (a.config = .none ∧ c = fresh)
  nk : a.nkgrp ≤ a.nk

/-- The parameters that are broadcast agree. -/
structure SameParams (e e' : Eff) : Prop where
  numbnd : e'.numbnd = e.numbnd
  isSpin : e'.isSpin = e.isSpin
  symmRho : e'.symmRho = e.symmRho
  libxc : e'.libxc = e.libxc
  occ : e'.occ = e.occ
  smear : e'.smear = e.smear
  eTemp : e'.eTemp = e.eTemp
  convThr : e'.convThr = e.convThr
  maxiter : e'.maxiter = e.maxiter
  diagoThr : e'.diagoThr = e.diagoThr
  mixBeta : e'.mixBeta = e.mixBeta
  mixDim : e'.mixDim = e.mixDim

/-! ## Proofs -/

theorem bc_step (v w : Val) : InStep (fun x y => x = v ∧ y = v) (bc v) (bc w) := .bcast v w _ _ (.ret v v ⟨rfl, rfl⟩)

theorem eq_step (p : Prog α) : InStep (fun x y => x = y) p p := InStep.rfl' (fun _ => rfl) p

theorem asBool_step (v : Val) : InStep (fun x y => x = y ∧ v = .bool x) (asBool v) (asBool v) := by
  cases v <;> first | exact .err _ | exact .ret _ _ ⟨rfl, rfl⟩

theorem checkRho_ok {spin : Bool} {rho : Rho} (h : RhoOk spin rho) : checkRho spin rho = .ret () := by
  cases rho with
  | field own shape => obtain ⟨h1, h2⟩ := h; subst h1 h2; simp [checkRho, need]
  | none => simp only [RhoOk] at h; subst h; rfl
  | mags ok => cases spin <;> cases ok <;> simp_all [checkRho, RhoOk]
  | bad => simp only [RhoOk] at h; subst h; rfl

theorem ownConfig_step {f f' : ℕ} {v w : Val} {c c' : ℕ} (h : v = .cfg c ∨ (v = .none ∧ c = f)) (h' : w = .cfg c' ∨ (w = .none ∧ c' = f')) :
    InStep (fun x y => x = c ∧ y = c') (ownConfig f v) (ownConfig f' w) := by
  rcases h with h | ⟨h, hc⟩ <;> rcases h' with h' | ⟨h', hc'⟩ <;> subst h h' <;> (try subst hc) <;> (try subst hc') <;> exact .bcast _ _ _ _ (.ret _ _ ⟨rfl, rfl⟩)

theorem instep_phase' (f f' : ℕ) (a0 a : Args) (c0 c : ℕ) (hs0 : a0.sameG = true) (hs : a.sameG = true) (hrho : ∀ b, a0.isSpin = .bool b → checkRho b a0.rho = checkRho b a.rho)
    (h0 : ∀ b, a0.isSpin = .bool b → a0.config = .cfg c0 ∨ (a0.config = .none ∧ c0 = f)) (h : ∀ b, a0.isSpin = .bool b → a.config = .cfg c ∨ (a.config = .none ∧ c = f')) :
    InStep (fun e e' => SameParams e e' ∧ e.config = c0 ∧ e'.config = c ∧ e.retVxc = a0.retVxc ∧ e'.retVxc = a.retVxc) (scfPhase f a0) (scfPhase f' a) := by
  unfold scfPhase
  simp only [hs0, hs]
  refine InStep.bind' (eq_step _) _ _ ?_; rintro _ _ rfl
  refine InStep.bind' (bc_step _ _) _ _ ?_; rintro _ _ ⟨rfl, rfl⟩
  refine InStep.bind' (eq_step _) _ _ ?_; rintro numbnd _ rfl
  refine InStep.bind' (eq_step _) _ _ ?_; rintro _ _ rfl
  refine InStep.bind' (bc_step _ _) _ _ ?_; rintro _ _ ⟨rfl, rfl⟩
  refine InStep.bind' (asBool_step _) _ _ ?_; rintro spin _ ⟨rfl, hspin⟩
  have o0 := h0 _ hspin
  have o := h _ hspin
  refine InStep.bind' (bc_step _ _) _ _ ?_; rintro _ _ ⟨rfl, rfl⟩
  refine InStep.bind' (eq_step _) _ _ ?_; rintro _ _ rfl
  refine InStep.bind' (eq_step _) _ _ ?_; rintro _ _ rfl
  refine InStep.bind' (bc_step _ _) _ _ ?_; rintro _ _ ⟨rfl, rfl⟩
  refine InStep.bind' (eq_step _) _ _ ?_; rintro symm _ rfl
  rw [hrho _ hspin]
  refine InStep.bind' (eq_step _) _ _ ?_; rintro _ _ rfl
  refine InStep.bind' (bc_step _ _) _ _ ?_; rintro _ _ ⟨rfl, rfl⟩
  refine InStep.bind' (bc_step _ _) _ _ ?_; rintro _ _ ⟨rfl, rfl⟩
  refine InStep.bind' (eq_step _) _ _ ?_; rintro occ _ rfl
  refine InStep.bind' (bc_step _ _) _ _ ?_; rintro _ _ ⟨rfl, rfl⟩
  refine InStep.bind' (eq_step _) _ _ ?_; rintro _ _ rfl
  refine InStep.bind' (bc_step _ _) _ _ ?_; rintro _ _ ⟨rfl, rfl⟩
  refine InStep.bind' (eq_step _) _ _ ?_; rintro eTemp _ rfl
  refine InStep.bind' (eq_step _) _ _ ?_; rintro _ _ rfl
  refine InStep.bind' (bc_step _ _) _ _ ?_; rintro _ _ ⟨rfl, rfl⟩
  refine InStep.bind' (eq_step _) _ _ ?_; rintro conv _ rfl
  refine InStep.bind' (eq_step _) _ _ ?_; rintro _ _ rfl
  refine InStep.bind' (bc_step _ _) _ _ ?_; rintro _ _ ⟨rfl, rfl⟩
  refine InStep.bind' (eq_step _) _ _ ?_; rintro maxiter _ rfl
  refine InStep.bind' (eq_step _) _ _ ?_; rintro _ _ rfl
  refine InStep.bind' (bc_step _ _) _ _ ?_; rintro _ _ ⟨rfl, rfl⟩
  refine InStep.bind' (eq_step _) _ _ ?_; rintro diago _ rfl
  refine InStep.bind' (eq_step _) _ _ ?_; rintro _ _ rfl
  refine InStep.bind' (bc_step _ _) _ _ ?_; rintro _ _ ⟨rfl, rfl⟩
  refine InStep.bind' (eq_step _) _ _ ?_; rintro beta _ rfl
  refine InStep.bind' (eq_step _) _ _ ?_; rintro _ _ rfl
  refine InStep.bind' (bc_step _ _) _ _ ?_; rintro _ _ ⟨rfl, rfl⟩
  refine InStep.bind' (eq_step _) _ _ ?_; rintro dim _ rfl
  refine InStep.bind' (eq_step _) _ _ ?_; rintro _ _ rfl
  refine InStep.bind' (ownConfig_step o0 o) _ _ ?_; rintro _ _ ⟨rfl, rfl⟩
  refine InStep.bind' (eq_step _) _ _ ?_; rintro _ _ rfl
  exact .ret _ _ ⟨⟨rfl, rfl, rfl, rfl, rfl, rfl, rfl, rfl, rfl, rfl, rfl, rfl⟩, rfl, rfl, rfl, rfl⟩

theorem instep_phase (f f' : ℕ) (a0 a : Args) (c0 c : ℕ) (hs0 : a0.sameG = true) (hs : a.sameG = true)
    (h0 : ∀ b, a0.isSpin = .bool b → OwnOk b f a0 c0) (h : ∀ b, a0.isSpin = .bool b → OwnOk b f' a c) :
    InStep (fun e e' => SameParams e e' ∧ e.config = c0 ∧ e'.config = c ∧ e.retVxc = a0.retVxc ∧ e'.retVxc = a.retVxc) (scfPhase f a0) (scfPhase f' a) :=
  instep_phase' f f' a0 a c0 c hs0 hs (fun b hb => by rw [checkRho_ok (h0 b hb).rho, checkRho_ok (h b hb).rho]) (fun b hb => (h0 b hb).config) (fun b hb => (h b hb).config)

/-- A phase that fails on the root: what would follow does not matter. -/
theorem instep_bind_fail {R : α → α → Prop} {p q : Prog α} (h : InStep R p q) (hn : ∀ e, solo p ≠ .ok e) (k k' : α → Prog α) (S : α → α → Prop) : InStep S (p >>= k) (q >>= k') := by
  induction h with
  | ret a b _ => exact absurd rfl (hn a)
  | err e => exact .err e
  | bcast v w k k' h ih => exact .bcast v w _ _ (ih hn)
  | sync l k k' h ih => exact .sync l _ _ (ih hn)

theorem solo_bind (p : Prog α) (g : α → Prog β) (b : β) : solo (p >>= g) = .ok b ↔ ∃ a, solo p = .ok a ∧ solo (g a) = .ok b := by
  show solo (p.bind g) = .ok b ↔ _
  induction p with
  | ret a => exact ⟨fun h => ⟨a, rfl, h⟩, fun ⟨a', h, h'⟩ => by cases h; exact h'⟩
  | err e => exact ⟨(fun h => by cases h), fun ⟨a', h, h'⟩ => by cases h⟩
  | bcast v k ih => exact ih v
  | sync l k ih => exact ih

theorem solo_bc (v x : Val) : solo (bc v) = .ok x ↔ x = v := ⟨(fun h => by cases h; rfl), fun h => by rw [h]; rfl⟩

theorem solo_need (p : Prop) [Decidable p] (e : PyErr) (u : Unit) : solo (need p e) = .ok u ↔ p := by
  unfold need
  by_cases h : p
  · rw [if_pos h]; exact ⟨fun _ => h, fun _ => rfl⟩
  · rw [if_neg h]; exact ⟨(fun h => by cases h), fun h' => absurd h' h⟩

theorem solo_asInt (v : Val) (z : ℤ) : solo (asInt v) = .ok z ↔ IsInt v z := by
  cases v <;> simp [asInt, solo, IsInt, eq_comm]

theorem solo_asBool (v : Val) (z : Bool) : solo (asBool v) = .ok z ↔ v = .bool z := by
  cases v <;> simp [asBool, solo]

theorem solo_asFloat (v : Val) (z : ℝ) : solo (asFloat v) = .ok z ↔ v = .float z := by
  cases v <;> simp [asFloat, solo]

theorem solo_asOcc (v : Val) (z : String) : solo (asOcc v) = .ok z ↔ v = .str z ∧ (z = "fixed" ∨ z = "smear") := by
  cases v with
  | str s =>
    simp only [asOcc]
    split
    · rename_i h
      exact ⟨fun e => by cases e; exact ⟨rfl, h⟩, fun ⟨e, _⟩ => by cases e; rfl⟩
    · rename_i h
      exact ⟨(fun e => by cases e), fun ⟨e, h'⟩ => by cases e; exact absurd h' h⟩
  | _ => simp [asOcc, solo]

theorem solo_checkSmear (o : String) (v : Val) (u : Unit) : solo (checkSmear o v) = .ok u ↔ (o = "smear" → v = .str "gauss" ∨ v = .str "fd" ∨ v = .str "mv") := by
  unfold checkSmear
  split
  · rename_i h
    cases v <;> simp [solo_need, solo, h]
  · rename_i h
    exact ⟨fun _ h' => absurd h' h, fun _ => rfl⟩

theorem solo_config {f : ℕ} {v : Val} {c : ℕ} (h : v = .cfg c ∨ (v = .none ∧ c = f)) (x : ℕ) : solo (ownConfig f v) = .ok x ↔ x = c := by
  rcases h with rfl | ⟨rfl, rfl⟩ <;> exact ⟨(fun h => by cases h; rfl), fun h => by rw [h]; rfl⟩

/-- The root gets through the phase exactly with acceptable parameters. -/
theorem solo_phase (f : ℕ) (a : Args) (c : ℕ) (hs : a.sameG = true) (h : ∀ b, a.isSpin = .bool b → OwnOk b f a c) (e : Eff) :
    solo (scfPhase f a) = .ok e ↔ Valid a e ∧ e.config = c ∧ e.retVxc = a.retVxc := by
  unfold scfPhase
  simp only [solo_bind, solo_bc, solo_need, solo_asInt, solo_asBool, solo_asFloat, solo_asOcc, solo_checkSmear, exists_eq_left]
  constructor
  · rintro ⟨_, _, nb, h1, _, h2, sp, h3, nc, h4, _, rfl, sy, h5, _, _, occ, h6, _, h7, et, h8, _, h9, ct, h10, _, h11, mi, h12, _, h13, dt, h14, _, h15, mb, h16, _, h17, md, h18, _, h19, cf, h20, _, _, h21⟩
    have o := h _ h3
    rw [solo_config o.config] at h20
    cases h21
    exact ⟨⟨⟨h1, h2⟩, h3, h4, h5, rfl, h6, ⟨rfl, h7⟩, ⟨h8, h9⟩, ⟨h10, h11⟩, ⟨h12, h13⟩, ⟨h14, h15⟩, ⟨h16, h17⟩, ⟨h18, h19⟩⟩, h20, rfl⟩
  · rintro ⟨v, hc, hr⟩
    have o := h _ v.spin
    refine ⟨(), hs, e.numbnd, v.numbnd.1, (), v.numbnd.2, e.isSpin, v.spin, false, v.noncolin, (), rfl, e.symmRho, v.symm, (), by rw [checkRho_ok o.rho]; rfl, e.occ, v.occ, (), v.smear.2, e.eTemp, v.eTemp.1, (), v.eTemp.2,
      e.convThr, v.convThr.1, (), v.convThr.2, e.maxiter, v.maxiter.1, (), v.maxiter.2, e.diagoThr, v.diagoThr.1, (), v.diagoThr.2, e.mixBeta, v.mixBeta.1, (), v.mixBeta.2, e.mixDim, v.mixDim.1, (), v.mixDim.2, c,
      (solo_config o.config c).2 rfl, (), rfl, ?_⟩
    show Except.ok _ = Except.ok e
    rw [← v.libxc, ← v.smear.1, ← hc, ← hr]

/-- What the root prints does not fail. -/
def CanPrint (git : Git) (a : Args) : Prop := (git = .fails ∨ git = .prints) ∧ a.printer = some true

theorem rootPrints_ok {git : Git} {a : Args} (h : CanPrint git a) : rootPrints true git a.printer = .ret () := by
  obtain ⟨h1, h2⟩ := h
  rw [h2]
  rcases h1 with rfl | rfl <;> rfl

theorem rootPrints_fails {git : Git} {a : Args} (h : ¬ CanPrint git a) : ∃ e, rootPrints true git a.printer = .err e := by
  unfold rootPrints printParameters
  rw [if_pos rfl]
  cases git with
  | missing => exact ⟨_, rfl⟩
  | odd => exact ⟨_, rfl⟩
  | fails =>
    cases hp : a.printer with
    | none => exact ⟨_, rfl⟩
    | some b => cases b with
      | false => exact ⟨_, rfl⟩
      | true => exact absurd ⟨Or.inl rfl, hp⟩ h
  | prints =>
    cases hp : a.printer with
    | none => exact ⟨_, rfl⟩
    | some b => cases b with
      | false => exact ⟨_, rfl⟩
      | true => exact absurd ⟨Or.inr rfl, hp⟩ h

/-- All processes are about to execute the argument phase. -/
noncomputable def phases (git : Git) (fresh : Fin (n + 1) → ℕ) (args : Fin (n + 1) → Args) (r : Fin (n + 1)) : Prog Eff := scfArgs git (fresh r) (decide (r = 0)) (args r)

/-- The processes' own arguments are in order; `c r` is the configuration process `r` uses. -/
def OwnAll (fresh : Fin (n + 1) → ℕ) (args : Fin (n + 1) → Args) (c : Fin (n + 1) → ℕ) : Prop :=
  ∀ r, (args r).sameG = true ∧ ∀ b, (args 0).isSpin = .bool b → OwnOk b (fresh r) (args r) (c r)

theorem instep_args (git : Git) (fresh : Fin (n + 1) → ℕ) (args : Fin (n + 1) → Args) (c : Fin (n + 1) → ℕ) (ho : OwnAll fresh args c) (hp : CanPrint git (args 0)) (r : Fin (n + 1)) (hr : r ≠ 0) :
    InStep (fun e e' => SameParams e e' ∧ e.config = c 0 ∧ e'.config = c r ∧ e.retVxc = (args 0).retVxc ∧ e'.retVxc = (args r).retVxc) (phases git fresh args 0) (phases git fresh args r) := by
  unfold phases scfArgs
  rw [decide_eq_false hr, show decide ((0 : Fin (n + 1)) = 0) = true by simp, rootPrints_ok hp]
  by_cases hb : ∃ b, (args 0).isSpin = .bool b
  · obtain ⟨b, hb⟩ := hb
    refine InStep.bind' (instep_phase (fresh 0) (fresh r) (args 0) (args r) (c 0) (c r) (ho 0).1 (ho r).1 (ho 0).2 (ho r).2) _ _ ?_
    intro e e' he
    have h0 := ((ho 0).2 b hb).nk
    have h1 := ((ho r).2 b hb).nk
    simp only [need, h0, h1, if_true]
    exact .sync 0 _ _ (.ret _ _ he)
  · have h2 := instep_phase (fresh 0) (fresh r) (args 0) (args r) (c 0) (c r) (ho 0).1 (ho r).1 (ho 0).2 (ho r).2
    have h3 : ∀ e, solo (scfPhase (fresh 0) (args 0)) ≠ .ok e := by
      intro e he
      exact hb ⟨_, ((solo_phase (fresh 0) (args 0) (c 0) (ho 0).1 (ho 0).2 e).1 he).1.spin⟩
    exact instep_bind_fail h2 h3 _ _ _

theorem solo_phases (git : Git) (fresh : Fin (n + 1) → ℕ) (args : Fin (n + 1) → Args) (c : Fin (n + 1) → ℕ) (ho : OwnAll fresh args c) (hp : CanPrint git (args 0)) (e : Eff) :
    solo (phases git fresh args 0) = .ok e ↔ Valid (args 0) e ∧ e.config = c 0 ∧ e.retVxc = (args 0).retVxc := by
  unfold phases scfArgs
  rw [show decide ((0 : Fin (n + 1)) = 0) = true by simp, rootPrints_ok hp]
  simp only [solo_bind, solo_need]
  constructor
  · rintro ⟨e', h1, _, h2, _, _, h3⟩
    cases h3
    exact (solo_phase _ _ (c 0) (ho 0).1 (ho 0).2 _).1 h1
  · intro h
    exact ⟨e, (solo_phase _ _ (c 0) (ho 0).1 (ho 0).2 _).2 h, (), ((ho 0).2 _ h.1.spin).nk, (), rfl, rfl⟩

theorem InStep.mono {R : α → β → Prop} {S : α → β → Prop} {p : Prog α} {q : Prog β} (h : InStep R p q) (hRS : ∀ a b, R a b → S a b) : InStep S p q := by
  induction h with
  | ret a b h => exact .ret a b (hRS _ _ h)
  | err e => exact .err e
  | bcast v w k k' h ih => exact .bcast v w k k' ih
  | sync l k k' h ih => exact .sync l k k' ih

/-- Programs in step with the root: every execution can be continued to one in which all processes have finished. -/
theorem instep_terminates {P : Fin (n + 1) → Prog α} {R : Fin (n + 1) → α → α → Prop} (hP : ∀ r, r ≠ 0 → InStep (R r) (P 0) (P r)) {snc : Bool} {s : State n α} (h : Reachable snc P s) :
    ∃ t, Relation.ReflTransGen (Step snc) s t ∧ ∀ r, (t r).Done := by
  obtain ⟨m, hm⟩ : ∃ m, m = ∑ r, ((calls (P 0)).length - (s r).hist.length) := ⟨_, rfl⟩
  induction m using Nat.strong_induction_on generalizing s with
  | _ m ih =>
    by_cases hn : ∃ r, ¬ (s r).Done
    · obtain ⟨t, ht⟩ := instep_progress hP h hn
      have hlt := instep_finite (fun r => InStep.follows (R r)) hP h ht
      obtain ⟨u, hu, hd⟩ := ih _ (hm ▸ hlt) (Relation.ReflTransGen.tail h ht) rfl
      exact ⟨u, Relation.ReflTransGen.head ht hu, hd⟩
    · exact ⟨s, .refl, fun r => by by_contra hr; exact hn ⟨r, hr⟩⟩

/-- What the theorems say about the executions of `P`: no execution is infinite (`bound` decreases with every step), and as long as a process has not finished, some process can go on. So
every execution that is not cut off ends with all processes finished. -/
structure Completes (snc : Bool) (P : Fin (n + 1) → Prog α) : Prop where
  finite : ∃ bound : State n α → ℕ, ∀ s t, Reachable snc P s → Step snc s t → bound t < bound s
  progress : ∀ s, Reachable snc P s → (∃ r, ¬ (s r).Done) → ∃ t, Step snc s t

theorem instep_completes {P : Fin (n + 1) → Prog α} {R : Fin (n + 1) → α → α → Prop} (hP : ∀ r, r ≠ 0 → InStep (R r) (P 0) (P r)) (snc : Bool) : Completes snc P :=
  ⟨⟨fun s => ∑ r, ((calls (P 0)).length - (s r).hist.length), fun _ _ h hst => instep_finite (fun r => InStep.follows (R r)) hP h hst⟩, fun _ h hn => instep_progress hP h hn⟩

/-! ## C152: all processes use the root's parameters -/

theorem args_results (snc : Bool) (git : Git) (fresh : Fin (n + 1) → ℕ) (args : Fin (n + 1) → Args) (c : Fin (n + 1) → ℕ) (ho : OwnAll fresh args c) (hp : CanPrint git (args 0)) (s : State n Eff)
    (h : Reachable snc (phases git fresh args) s) (r : Fin (n + 1)) :
    (∀ e, (s r).prog = .ret e → ∃ e0, Valid (args 0) e0 ∧ SameParams e0 e ∧ e.config = c r ∧ e.retVxc = (args r).retVxc) ∧
    (∀ x, (s r).prog = .err x → solo (phases git fresh args 0) = .error x) := by
  have hI := instep_results (R := fun r e e' => SameParams e e' ∧ (r ≠ 0 → e'.config = c r ∧ e'.retVxc = (args r).retVxc) ∧ (r = 0 → e' = e))
    (fun a => ⟨⟨rfl, rfl, rfl, rfl, rfl, rfl, rfl, rfl, rfl, rfl, rfl, rfl⟩, fun h => absurd rfl h, fun _ => rfl⟩)
    (fun r hr => (instep_args git fresh args c ho hp r hr).mono fun a b h => ⟨h.1, fun _ => ⟨h.2.2.1, h.2.2.2.2⟩, fun h => absurd h hr⟩) h r
  refine ⟨fun e he => ?_, hI.2⟩
  obtain ⟨a, h1, h2, h3, h4⟩ := hI.1 e he
  have hv := (solo_phases git fresh args c ho hp a).1 h1
  refine ⟨a, hv.1, h2, ?_⟩
  by_cases hr : r = 0
  · subst hr
    rw [h4 rfl]
    exact hv.2
  · exact h3 hr

/-- **C152.** Whatever the processes were called with: in every execution (any order of events, any number of processes), every process that gets past the argument phase continues with the root's parameters
(number of bands, spin, symmetrisation, functional, occupations, smearing, thresholds, iterations, mixing). -/
theorem C152_root_values (snc : Bool) (git : Git) (fresh : Fin (n + 1) → ℕ) (args : Fin (n + 1) → Args) (c : Fin (n + 1) → ℕ) (ho : OwnAll fresh args c) (hp : CanPrint git (args 0)) (s : State n Eff)
    (h : Reachable snc (phases git fresh args) s) (r : Fin (n + 1)) (e : Eff) (he : (s r).prog = .ret e) : ∃ e0, Valid (args 0) e0 ∧ SameParams e0 e := by
  obtain ⟨e0, h1, h2, _⟩ := (args_results snc git fresh args c ho hp s h r).1 e he
  exact ⟨e0, h1, h2⟩

/-- **C152 (violation).** The configuration (eigensolver, its limits, mixing method) and `ret_vxc` are not the root's: in every execution each process continues with its own, although the configuration is broadcast. -/
theorem C152_own_config (snc : Bool) (git : Git) (fresh : Fin (n + 1) → ℕ) (args : Fin (n + 1) → Args) (c : Fin (n + 1) → ℕ) (ho : OwnAll fresh args c) (hp : CanPrint git (args 0)) (e0 : Eff) (hv : Valid (args 0) e0) :
    (∀ s, Reachable snc (phases git fresh args) s → ∀ r e, (s r).prog = .ret e → e.config = c r ∧ e.retVxc = (args r).retVxc) ∧
    ∃ s, Reachable snc (phases git fresh args) s ∧ ∀ r, ∃ e, (s r).prog = .ret e := by
  refine ⟨fun s h r e he => ?_, ?_⟩
  · obtain ⟨_, _, _, h3⟩ := (args_results snc git fresh args c ho hp s h r).1 e he
    exact h3
  · obtain ⟨t, ht, hd⟩ := instep_terminates (R := fun r e e' => SameParams e e' ∧ e.config = c 0 ∧ e'.config = c r ∧ e.retVxc = (args 0).retVxc ∧ e'.retVxc = (args r).retVxc)
      (instep_args git fresh args c ho hp) (snc := snc) (s := fun r => { prog := phases git fresh args r }) .refl
    refine ⟨t, ht, fun r => ?_⟩
    rcases hd r with h | ⟨x, hx⟩
    · exact h
    · have h1 := (args_results snc git fresh args c ho hp t ht r).2 x hx
      have h2 := (solo_phases git fresh args c ho hp { e0 with config := c 0, retVxc := (args 0).retVxc }).2
        ⟨⟨hv.numbnd, hv.spin, hv.noncolin, hv.symm, hv.libxc, hv.occ, hv.smear, hv.eTemp, hv.convThr, hv.maxiter, hv.diagoThr, hv.mixBeta, hv.mixDim⟩, rfl, rfl⟩
      rw [h1] at h2
      cases h2

/-! ## C153: parameters are judged alike on all processes -/

/-- **C153.** Acceptable parameters on the root: no process raises an exception, in any execution, and the phase completes. -/
theorem C153_accepted (snc : Bool) (git : Git) (fresh : Fin (n + 1) → ℕ) (args : Fin (n + 1) → Args) (c : Fin (n + 1) → ℕ) (ho : OwnAll fresh args c) (hp : CanPrint git (args 0)) (e0 : Eff) (hv : Valid (args 0) e0) :
    (∀ s, Reachable snc (phases git fresh args) s → ∀ r x, (s r).prog ≠ .err x) ∧ Completes snc (phases git fresh args) := by
  refine ⟨fun s h r x hx => ?_, instep_completes (instep_args git fresh args c ho hp) snc⟩
  have h1 := (args_results snc git fresh args c ho hp s h r).2 x hx
  have h2 := (solo_phases git fresh args c ho hp { e0 with config := c 0, retVxc := (args 0).retVxc }).2
    ⟨⟨hv.numbnd, hv.spin, hv.noncolin, hv.symm, hv.libxc, hv.occ, hv.smear, hv.eTemp, hv.convThr, hv.maxiter, hv.diagoThr, hv.mixBeta, hv.mixDim⟩, rfl, rfl⟩
  rw [h1] at h2
  cases h2

/-- **C153.** Unacceptable parameters on the root: no process gets past the phase, in any execution, no process waits for ever, and all processes raise the same exception. -/
theorem C153_rejected (snc : Bool) (git : Git) (fresh : Fin (n + 1) → ℕ) (args : Fin (n + 1) → Args) (c : Fin (n + 1) → ℕ) (ho : OwnAll fresh args c) (hp : CanPrint git (args 0)) (hv : ∀ e, ¬ Valid (args 0) e) :
    ∃ x, (∀ s, Reachable snc (phases git fresh args) s → ∀ r, (s r).Done → (s r).prog = .err x) ∧ Completes snc (phases git fresh args) := by
  have hno : ∀ e, solo (phases git fresh args 0) ≠ .ok e := fun e he => hv e ((solo_phases git fresh args c ho hp e).1 he).1
  cases hs : solo (phases git fresh args 0) with
  | ok e => exact absurd hs (hno e)
  | error x =>
    refine ⟨x, fun s h r hd => ?_, instep_completes (instep_args git fresh args c ho hp) snc⟩
    rcases hd with ⟨e, he⟩ | ⟨y, hy⟩
    · obtain ⟨e0, h1, _⟩ := (args_results snc git fresh args c ho hp s h r).1 e he
      exact absurd h1 (hv e0)
    · have := (args_results snc git fresh args c ho hp s h r).2 y hy
      rw [hs] at this
      cases this
      exact hy

theorem solo_checkRho (b : Bool) (rho : Rho) (u : Unit) : solo (checkRho b rho) = .ok u ↔ RhoOk b rho := by
  refine ⟨fun h => ?_, fun h => by rw [checkRho_ok h]; rfl⟩
  cases rho with
  | field own shape =>
    cases own with
    | false => simp [checkRho, solo] at h
    | true => simp only [checkRho, Bool.not_true, Bool.false_eq_true, if_false, solo_need] at h; exact ⟨rfl, h⟩
  | none => cases b <;> simp_all [checkRho, RhoOk, solo]
  | mags ok => cases b <;> cases ok <;> simp_all [checkRho, RhoOk, solo]
  | bad => cases b <;> simp_all [checkRho, RhoOk, solo]

/-- **C153.** A starting density that does not fit the choice of spin polarisation, or belongs to another G-space: all processes raise the same exception, in every execution. -/
theorem C153_bad_density (snc : Bool) (git : Git) (fresh : Fin (n + 1) → ℕ) (args : Fin (n + 1) → Args) (c : Fin (n + 1) → ℕ) (hs : ∀ r, (args r).sameG = true)
    (hc : ∀ r, (args r).config = .cfg (c r) ∨ ((args r).config = .none ∧ c r = fresh r)) (hsame : ∀ r, (args r).rho = (args 0).rho)
    (hbad : ∀ b, (args 0).isSpin = .bool b → ¬ RhoOk b (args 0).rho) :
    ∃ x, (∀ s, Reachable snc (phases git fresh args) s → ∀ r, (s r).Done → (s r).prog = .err x) ∧ Completes snc (phases git fresh args) := by
  have hph : ∀ e, solo (scfPhase (fresh 0) (args 0)) ≠ .ok e := by
    intro e he
    unfold scfPhase at he
    simp only [solo_bind, solo_bc, solo_need, solo_asInt, solo_asBool, solo_asFloat, solo_asOcc, solo_checkSmear, solo_checkRho, exists_eq_left] at he
    obtain ⟨_, _, nb, h1, _, h2, sp, h3, nc, h4, _, _, sy, h5, _, h6, _⟩ := he
    exact hbad _ h3 h6
  have hstep : ∀ r, r ≠ 0 → InStep (fun _ _ => True) (phases git fresh args 0) (phases git fresh args r) := by
    intro r hr
    unfold phases scfArgs
    exact instep_bind_fail (instep_phase' (fresh 0) (fresh r) (args 0) (args r) (c 0) (c r) (hs 0) (hs r) (fun b _ => by rw [hsame r]) (fun _ _ => hc 0) (fun _ _ => hc r)) hph _ _ _
  have hno : ∀ e, solo (phases git fresh args 0) ≠ .ok e := by
    intro e he
    unfold phases scfArgs at he
    rw [solo_bind] at he
    obtain ⟨a, ha, _⟩ := he
    exact hph a ha
  cases hso : solo (phases git fresh args 0) with
  | ok e => exact absurd hso (hno e)
  | error x =>
    refine ⟨x, fun s h r hd => ?_, instep_completes hstep snc⟩
    have hI := instep_results (R := fun _ _ _ => True) (fun _ => True.intro) hstep h r
    rcases hd with ⟨e, he⟩ | ⟨y, hy⟩
    · obtain ⟨a, h1, _⟩ := hI.1 e he
      exact absurd h1 (hno a)
    · have := hI.2 y hy
      rw [hso] at this
      cases this
      exact hy

/-- No starting density for a spin-polarised run. -/
example : ¬ RhoOk true .none ∧ ¬ RhoOk true (.field true [1]) ∧ ¬ RhoOk false (.field false [1]) := by simp [RhoOk]

/-! ## C154: a run needs no progress printer -/

/-- What happens when the root cannot print. -/
theorem cannot_print (snc : Bool) (git : Git) (fresh : Fin (n + 1) → ℕ) (args : Fin (n + 1) → Args) (c : Fin (n + 1) → ℕ) (ho : OwnAll fresh args c) (e0 : Eff) (hv : Valid (args 0) e0) (hp : ¬ CanPrint git (args 0))
    (s : State n Eff) (h : Reachable snc (phases git fresh args) s) : (∀ r, r ≠ 0 → ¬ (s r).Done) ∧ ∀ e, (s 0).prog ≠ .ret e := by
  obtain ⟨x, hx⟩ := rootPrints_fails hp
  have hso : solo (scfPhase (fresh 0) (args 0)) = .ok { e0 with config := c 0, retVxc := (args 0).retVxc } := (solo_phase _ _ (c 0) (ho 0).1 (ho 0).2 _).2
    ⟨⟨hv.numbnd, hv.spin, hv.noncolin, hv.symm, hv.libxc, hv.occ, hv.smear, hv.eTemp, hv.convThr, hv.maxiter, hv.diagoThr, hv.mixBeta, hv.mixDim⟩, rfl, rfl⟩
  have hw : ∀ r, r ≠ 0 → Waits (phases git fresh args 0) (phases git fresh args r) := by
    intro r hr
    unfold phases scfArgs
    rw [decide_eq_false hr, show decide ((0 : Fin (n + 1)) = 0) = true by simp, hx]
    refine Waits.bind' (instep_phase (fresh 0) (fresh r) (args 0) (args r) (c 0) (c r) (ho 0).1 (ho r).1 (ho 0).2 (ho r).2) ⟨_, hso⟩ _ _ ?_
    intro e e' _ _
    have h0 := ((ho 0).2 _ hv.spin).nk
    have h1 := ((ho r).2 _ hv.spin).nk
    simp only [need, h0, h1, if_true]
    exact .stuckErr x 0 _
  refine ⟨fun r hr => waits_never hw h r hr, fun e he => ?_⟩
  have I := Inv.reach (fun _ => Waits.follows) hw h
  have hs := solo_after (s 0).hist.length (phases git fresh args 0)
  rw [← I.root.1, he] at hs
  have hs' : solo (phases git fresh args 0) = .ok e := hs.symm
  unfold phases scfArgs at hs'
  rw [show decide ((0 : Fin (n + 1)) = 0) = true by simp, hx] at hs'
  simp only [solo_bind, solo_need] at hs'
  obtain ⟨_, _, _, _, _, h1, _⟩ := hs'
  cases h1

/-- **C154 (violation).** Called without `iter_printer` (the documented default `None`) and otherwise acceptable arguments, no process ever begins the calculation: the root can only raise an exception, the others never leave the
phase. -/
theorem C154_default_violated (snc : Bool) (git : Git) (fresh : Fin (n + 1) → ℕ) (args : Fin (n + 1) → Args) (c : Fin (n + 1) → ℕ) (ho : OwnAll fresh args c) (e0 : Eff) (hv : Valid (args 0) e0) (hp : (args 0).printer = none)
    (s : State n Eff) (h : Reachable snc (phases git fresh args) s) : (∀ r, r ≠ 0 → ¬ (s r).Done) ∧ ∀ e, (s 0).prog ≠ .ret e :=
  cannot_print snc git fresh args c ho e0 hv (fun hc => by rw [hc.2] at hp; cases hp) s h

/-- **C154 (violation).** The same on a machine without the program `git`, whatever printer is given. -/
theorem C154_git_violated (snc : Bool) (fresh : Fin (n + 1) → ℕ) (args : Fin (n + 1) → Args) (c : Fin (n + 1) → ℕ) (ho : OwnAll fresh args c) (e0 : Eff) (hv : Valid (args 0) e0)
    (s : State n Eff) (h : Reachable snc (phases .missing fresh args) s) : (∀ r, r ≠ 0 → ¬ (s r).Done) ∧ ∀ e, (s 0).prog ≠ .ret e :=
  cannot_print snc .missing fresh args c ho e0 hv (fun hc => by rcases hc.1 with h | h <;> cases h) s h

/-- **C154 (partial).** With a printer that has a name and a `git` that runs (even unsuccessfully), every process begins the calculation. Missing: the default `None`, printers without a name, machines without `git`. -/
theorem C154_partial (snc : Bool) (git : Git) (hg : git ≠ .missing ∧ git ≠ .odd) (fresh : Fin (n + 1) → ℕ) (args : Fin (n + 1) → Args) (c : Fin (n + 1) → ℕ) (ho : OwnAll fresh args c) (e0 : Eff) (hv : Valid (args 0) e0)
    (hp : (args 0).printer = some true) :
    (∀ s, Reachable snc (phases git fresh args) s → ∀ r, (s r).Done → ∃ e, (s r).prog = .ret e) ∧ Completes snc (phases git fresh args) := by
  have hc : CanPrint git (args 0) := ⟨by cases git <;> simp_all, hp⟩
  obtain ⟨h1, h2⟩ := C153_accepted snc git fresh args c ho hc e0 hv
  refine ⟨fun s h r hd => ?_, h2⟩
  rcases hd with hd | ⟨x, hx⟩
  · exact hd
  · exact absurd hx (h1 s h r x)

/-- The default arguments with a number of bands are acceptable (the hypotheses of the theorems above can be met). -/
example : Valid { numbnd := .int 8, isSpin := .bool false } ⟨8, false, true, .none, "smear", .str "gauss", 1 / 1000, 1 / 2000000, 100, 1 / 200000, 7 / 10, 8, 0, false⟩ ∧
    OwnAll (n := 2) (fun r => r.val) (fun _ => { numbnd := .int 8, isSpin := .bool false }) (fun r => r.val) := by
  refine ⟨⟨⟨Or.inl rfl, by norm_num⟩, rfl, rfl, rfl, rfl, ⟨rfl, Or.inr rfl⟩, ⟨rfl, fun _ => Or.inl rfl⟩, ⟨rfl, by norm_num⟩, ⟨rfl, by norm_num⟩, ⟨Or.inl rfl, by norm_num⟩, ⟨rfl, by norm_num⟩, ⟨rfl, by norm_num⟩, ⟨Or.inl rfl, by norm_num⟩⟩, ?_⟩
  intro r
  refine ⟨rfl, fun b hb => ?_⟩
  cases hb
  exact ⟨rfl, rfl, Or.inr ⟨rfl, rfl⟩, le_refl _⟩

/-- A whole number for a real parameter is not acceptable. -/
example : ∀ e, ¬ Valid { numbnd := .int 8, isSpin := .bool false, mixBeta := .int 1 } e := fun e h => by have := h.mixBeta.1; cases this

/-! ## C155: the report of a converged run -/

/-- **C155 (violation).** At the end of a converged spin-polarised run with plane waves distributed over several processes, no process ever returns: the root alone computes the magnetisation with calls that need all processes. -/
theorem C155_distributed_spin_violated (hn : 0 < n) (snc : Bool) (s : State n Unit) (h : Reachable snc (fun r : Fin (n + 1) => report true true (decide (r = 0))) s) (r : Fin (n + 1)) : ¬ (s r).Done := by
  have hinit : ∀ s : State n Unit, Reachable snc (fun r : Fin (n + 1) => report true true (decide (r = 0))) s → s = fun r => { prog := report true true (decide (r = 0)) } := by
    intro s h
    induction h with
    | refl => rfl
    | tail _ hst ih =>
      rename_i b c _
      exfalso
      have h1 : (b 0).offer 0 = some (.sync 1) := by rw [ih]; rfl
      have h2 : (b ⟨1, by omega⟩).offer 0 = some (.sync 0) := by
        rw [ih]
        rfl
      have hl : ∀ q, (b q).hist.length = 0 := fun q => by rw [ih]; rfl
      cases hst with
      | bcast r v k w hp h0 hs => rw [hl, h1] at h0; cases h0
      | sync r l k hp hs =>
        obtain ⟨m, h3, h4⟩ := hs 0
        obtain ⟨m', h5, h6⟩ := hs ⟨1, by omega⟩
        rw [hl, h1] at h3
        rw [hl, h2] at h5
        cases h3
        cases h5
        have e1 : l = 1 := h4
        have e0 : l = 0 := h6
        omega
  have hsync : ∃ l k, (s r).prog = .sync l k := by
    rw [hinit s h]
    show ∃ l k, report true true (decide (r = 0)) = .sync l k
    unfold report
    split
    · exact ⟨_, _, rfl⟩
    · exact ⟨_, _, rfl⟩
  obtain ⟨l, k, hk⟩ := hsync
  rintro (⟨a, ha⟩ | ⟨e, he⟩)
  · rw [hk] at ha; cases ha
  · rw [hk] at he; cases he

/-- **C155 (partial).** Otherwise (no spin polarisation, or plane waves not distributed) every process returns. Missing: distributed spin-polarised runs. -/
theorem C155_partial (snc distributed spin : Bool) (h : ¬ (distributed = true ∧ spin = true)) :
    (∀ s : State n Unit, Reachable snc (fun r : Fin (n + 1) => report distributed spin (decide (r = 0))) s → ∀ r e, (s r).prog ≠ .err e) ∧ Completes snc (fun r : Fin (n + 1) => report distributed spin (decide (r = 0))) := by
  have hr : ∀ root, report distributed spin root = .sync 0 (.ret ()) := by
    intro root
    unfold report
    rw [if_neg]
    rintro ⟨_, h1, h2⟩
    exact h ⟨h2, h1⟩
  have hP : ∀ r : Fin (n + 1), r ≠ 0 → InStep (fun _ _ => True) (report distributed spin (decide ((0 : Fin (n + 1)) = 0))) (report distributed spin (decide (r = 0))) := by
    intro r _
    rw [hr, hr]
    exact .sync 0 _ _ (.ret _ _ trivial)
  refine ⟨fun s hs r e he => ?_, instep_completes (R := fun _ _ _ => True) hP snc⟩
  have := (instep_results (R := fun _ _ _ => True) (fun _ => trivial) hP hs r).2 e he
  simp only [hr] at this
  cases this

example : (0 : ℕ) < 1 ∧ ¬ (true = true ∧ false = true) := by decide

end Verif.ScfArgs
