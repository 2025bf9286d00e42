import Mathlib.Data.List.Nodup
import Mathlib.Algebra.BigOperators.Fin
import Mathlib.Algebra.Order.BigOperators.Group.Finset
import Verif.Model.LogFile

/-!
# C163, C164: log files
-/

namespace Verif.LogFile

/-! ## Specification -/

/-- The line is in a file that can be found in the directory. -/
def Kept (s : St) (m : Msg) : Prop :=
  ∃ a, (s.log = some a ∨ ∃ t, s.pre t = some a) ∧ m ∈ s.content a

/-- The ids of the messages logged by a history. -/
def logged : List Op → List ℕ
  | [] => []
  | .log id :: ops => id :: logged ops
  | _ :: ops => logged ops

/-- The times at which a history sets up the log file. -/
def times : List Op → List ℕ
  | [] => []
  | .setFile t _ _ _ :: ops => t :: times ops
  | _ :: ops => times ops

/-! ## Lemmas -/

/-- Lines are only added, and the added ones satisfy `p`. -/
def Grows (p : Msg → Prop) (f g : ℕ → List Msg) (n : ℕ) : Prop := ∀ a < n, ∃ x, g a = f a ++ x ∧ ∀ m ∈ x, p m

theorem append_grows (p : Msg → Prop) (s : St) (h : ℕ) (m : Msg) (hm : p m) (n : ℕ) : Grows p s.content (s.append h m).content n := by
  intro a _
  by_cases e : a = h
  · subst e
    exact ⟨[m], by simp [St.append], by simpa using hm⟩
  · exact ⟨[], by simp [St.append, Function.update_of_ne e], by simp⟩

theorem Grows.trans {p : Msg → Prop} {f g k : ℕ → List Msg} {n : ℕ} (h1 : Grows p f g n) (h2 : Grows p g k n) : Grows p f k n := by
  intro a ha
  obtain ⟨x, hx, hx'⟩ := h1 a ha
  obtain ⟨y, hy, hy'⟩ := h2 a ha
  refine ⟨x ++ y, by rw [hy, hx, List.append_assoc], fun m hm => ?_⟩
  rcases List.mem_append.1 hm with hm | hm
  · exact hx' m hm
  · exact hy' m hm

theorem Grows.refl (p : Msg → Prop) (f : ℕ → List Msg) (n : ℕ) : Grows p f f n := fun a _ => ⟨[], by simp, by simp⟩

theorem Grows.mono {p q : Msg → Prop} (hpq : ∀ m, p m → q m) {f g : ℕ → List Msg} {n : ℕ} (h : Grows p f g n) : Grows q f g n := by
  intro a ha
  obtain ⟨x, hx, hx'⟩ := h a ha
  exact ⟨x, hx, fun m hm => hpq m (hx' m hm)⟩

/-- What a warning leaves alone. -/
theorem warn_spec (id : ℕ) (s : St) : (warn id s).log = s.log ∧ (warn id s).pre = s.pre ∧ (warn id s).next = s.next ∧ (warn id s).handler = s.handler ∧
    (warn id s).warnH = s.warnH ∧ (warn id s).cap = s.cap ∧ ∀ n, Grows (fun m => m.isQtm = false) s.content (warn id s).content n := by
  unfold warn
  split
  · have gen : ∀ (l : List ℕ) (s : St),
        (l.foldl (fun s h => s.append h (.warning id)) s).log = s.log ∧ (l.foldl (fun s h => s.append h (.warning id)) s).pre = s.pre ∧
        (l.foldl (fun s h => s.append h (.warning id)) s).next = s.next ∧ (l.foldl (fun s h => s.append h (.warning id)) s).handler = s.handler ∧
        (l.foldl (fun s h => s.append h (.warning id)) s).warnH = s.warnH ∧ (l.foldl (fun s h => s.append h (.warning id)) s).cap = s.cap ∧
        ∀ n, Grows (fun m => m.isQtm = false) s.content (l.foldl (fun s h => s.append h (.warning id)) s).content n := by
      intro l
      induction l with
      | nil => intro s; exact ⟨rfl, rfl, rfl, rfl, rfl, rfl, fun n => Grows.refl _ _ n⟩
      | cons h l ih =>
        intro s
        obtain ⟨h1, h2, h3, h4, h5, h6, h7⟩ := ih (s.append h (.warning id))
        exact ⟨h1, h2, h3, h4, h5, h6, fun n => (append_grows (fun m => m.isQtm = false) s h (.warning id) rfl n).trans (h7 n)⟩
    exact gen _ _
  · exact ⟨rfl, rfl, rfl, rfl, rfl, rfl, fun n => Grows.refl _ _ n⟩

/-- What holds between operations: names point to files in use; the handler is the log file. -/
structure Inv (s : St) : Prop where
  log : ∀ a, s.log = some a → a < s.next
  pre : ∀ t a, s.pre t = some a → a < s.next
  handler : ∀ a, s.handler = some a → s.log = some a

/-- The effect of setting up the log file. -/
theorem setFile_spec (t : ℕ) (a b c : Bool) (s : St) (hi : Inv s) :
    (setFile t a b c s).log = some s.next ∧ (setFile t a b c s).handler = some s.next ∧ (setFile t a b c s).next = s.next + 1 ∧
    (setFile t a b c s).content s.next = [] ∧
    (setFile t a b c s).pre = (if s.log.isSome then Function.update s.pre t s.log else s.pre) ∧
    Grows (fun m => m.isQtm = false) s.content (setFile t a b c s).content s.next := by
  set s1 : St := if s.handler.isSome then { (if a then warn 0 s else s) with handler := none } else s with hs1
  have h1 : s1.log = s.log ∧ s1.pre = s.pre ∧ s1.next = s.next ∧ Grows (fun m => m.isQtm = false) s.content s1.content s.next := by
    have w := warn_spec 0 s
    rw [hs1]
    split
    · split
      · exact ⟨w.1, w.2.1, w.2.2.1, w.2.2.2.2.2.2 _⟩
      · exact ⟨rfl, rfl, rfl, Grows.refl _ _ _⟩
    · exact ⟨rfl, rfl, rfl, Grows.refl _ _ _⟩
  set s2 := moveAway t b s1 with hs2
  have h2 : s2.log = none ∧ s2.pre = (if s.log.isSome then Function.update s.pre t s.log else s.pre) ∧ s2.next = s.next ∧
      Grows (fun m => m.isQtm = false) s.content s2.content s.next := by
    rw [hs2]
    unfold moveAway
    cases hl : s1.log with
    | none =>
      have : s.log = none := by rw [← h1.1, hl]
      exact ⟨hl, by rw [this]; exact h1.2.1, h1.2.2.1, h1.2.2.2⟩
    | some x =>
      have hx : s.log = some x := by rw [← h1.1, hl]
      have w := warn_spec 1 s1
      rw [hx]
      cases b with
      | true =>
        refine ⟨rfl, ?_, w.2.2.1.trans h1.2.2.1, h1.2.2.2.trans (w.2.2.2.2.2.2 _)⟩
        show Function.update (warn 1 s1).pre t (some x) = _
        rw [w.2.1, h1.2.1]; rfl
      | false =>
        refine ⟨rfl, ?_, h1.2.2.1, h1.2.2.2⟩
        show Function.update s1.pre t (some x) = _
        rw [h1.2.1]; rfl
  have e : setFile t a b c s = { (openLog s2).1 with
      handler := some (openLog s2).2, cap := c, warnH := if c then (openLog s2).1.warnH ++ [(openLog s2).2] else (openLog s2).1.warnH } := rfl
  have o : openLog s2 = ({ s2 with log := some s2.next, content := Function.update s2.content s2.next [], next := s2.next + 1 }, s2.next) := by
    unfold openLog; rw [h2.1]
  rw [e, o]
  refine ⟨by rw [← h2.2.2.1], by rw [← h2.2.2.1], by show s2.next + 1 = _; rw [h2.2.2.1], ?_, h2.2.1, ?_⟩
  · show Function.update s2.content s2.next [] s.next = []
    rw [h2.2.2.1]; simp
  · refine h2.2.2.2.trans ?_
    intro x hx
    refine ⟨[], ?_, by simp⟩
    show Function.update s2.content s2.next [] x = _
    rw [Function.update_of_ne (by rw [h2.2.2.1]; omega)]
    simp

/-- One operation: invariant kept, lines never lost, files only renamed. -/
theorem run_spec (o : Op) (s : St) (hi : Inv s) : Inv (o.run s) ∧ s.next ≤ (o.run s).next ∧ Grows (fun _ => True) s.content (o.run s).content s.next := by
  cases o with
  | setFile t a b c =>
    obtain ⟨h1, h2, h3, -, h5, h6⟩ := setFile_spec t a b c s hi
    show Inv (setFile t a b c s) ∧ s.next ≤ (setFile t a b c s).next ∧ Grows (fun _ => True) s.content (setFile t a b c s).content s.next
    refine ⟨⟨fun x hx => ?_, fun u x hx => ?_, fun x hx => ?_⟩, by omega, h6.mono fun _ _ => True.intro⟩
    · rw [h1] at hx; injection hx with hx; omega
    · rw [h5] at hx
      rw [h3]
      by_cases hl : s.log.isSome = true
      · rw [if_pos hl] at hx
        by_cases hu : u = t
        · subst hu
          rw [Function.update_self] at hx
          have := hi.log x hx; omega
        · rw [Function.update_of_ne hu] at hx
          have := hi.pre u x hx; omega
      · rw [if_neg hl] at hx
        have := hi.pre u x hx; omega
    · rw [h2] at hx; rw [h1, hx]
  | log id =>
    show Inv (logMsg id s) ∧ s.next ≤ (logMsg id s).next ∧ Grows (fun _ => True) s.content (logMsg id s).content s.next
    unfold logMsg
    cases hh : s.handler with
    | none => exact ⟨hi, le_refl _, Grows.refl _ _ _⟩
    | some h => exact ⟨⟨hi.log, hi.pre, hi.handler⟩, le_refl _, append_grows _ s h _ True.intro _⟩
  | warn id =>
    obtain ⟨h1, h2, h3, h4, -, -, h7⟩ := warn_spec id s
    show Inv (warn id s) ∧ s.next ≤ (warn id s).next ∧ Grows (fun _ => True) s.content (warn id s).content s.next
    refine ⟨⟨?_, ?_, ?_⟩, by omega, (h7 _).mono fun _ _ => True.intro⟩
    · rw [h1, h3]; exact hi.log
    · rw [h2, h3]; exact hi.pre
    · rw [h1, h4]; exact hi.handler

theorem runAll_inv (ops : List Op) (s : St) (hi : Inv s) : Inv (runAll ops s) := by
  induction ops generalizing s with
  | nil => exact hi
  | cons o ops ih => exact ih _ (run_spec o s hi).1

/-- A kept line is kept by an operation that does not reuse a time stamp. -/
theorem kept_run (o : Op) (s : St) (hi : Inv s) (m : Msg) (hk : Kept s m) (hf : ∀ t a b c, o = .setFile t a b c → s.pre t = none) : Kept (o.run s) m := by
  obtain ⟨x, hx, hm⟩ := hk
  have hlt : x < s.next := by
    rcases hx with hx | ⟨t, hx⟩
    · exact hi.log x hx
    · exact hi.pre t x hx
  obtain ⟨y, hy, -⟩ := (run_spec o s hi).2.2 x hlt
  refine ⟨x, ?_, by rw [hy]; exact List.mem_append_left _ hm⟩
  cases o with
  | setFile t a b c =>
    obtain ⟨-, -, -, -, h5, -⟩ := setFile_spec t a b c s hi
    right
    show ∃ u, (setFile t a b c s).pre u = some x
    rw [h5]
    have hn := hf t a b c rfl
    rcases hx with hx | ⟨u, hx⟩
    · exact ⟨t, by rw [hx]; simp⟩
    · refine ⟨u, ?_⟩
      have hu : u ≠ t := by rintro rfl; rw [hn] at hx; cases hx
      split
      · rw [Function.update_of_ne hu, hx]
      · exact hx
  | log id =>
    show (logMsg id s).log = some x ∨ ∃ t, (logMsg id s).pre t = some x
    unfold logMsg
    cases s.handler <;> exact hx
  | warn id =>
    obtain ⟨h1, h2, -⟩ := warn_spec id s
    show (warn id s).log = some x ∨ ∃ t, (warn id s).pre t = some x
    rw [h1, h2]; exact hx

/-- The time stamps in use after an operation. -/
theorem pre_run (o : Op) (s : St) (hi : Inv s) (u : ℕ) (hu : s.pre u = none) (hf : ∀ t a b c, o = .setFile t a b c → t ≠ u) : (o.run s).pre u = none := by
  cases o with
  | setFile t a b c =>
    obtain ⟨-, -, -, -, h5, -⟩ := setFile_spec t a b c s hi
    show (setFile t a b c s).pre u = none
    rw [h5]
    have := hf t a b c rfl
    split
    · rw [Function.update_of_ne (Ne.symm this), hu]
    · exact hu
  | log id =>
    show (logMsg id s).pre u = none
    unfold logMsg
    cases s.handler <;> exact hu
  | warn id =>
    show (warn id s).pre u = none
    rw [(warn_spec id s).2.1]; exact hu

theorem times_cons (o : Op) (ops : List Op) : times (o :: ops) = (match o with | .setFile t _ _ _ => [t] | _ => []) ++ times ops := by
  cases o <;> rfl

theorem times_append (a b : List Op) : times (a ++ b) = times a ++ times b := by
  induction a with
  | nil => rfl
  | cons o a ih => rw [List.cons_append, times_cons, times_cons, ih, List.append_assoc]

theorem fresh_tail (o : Op) (ops : List Op) (s : St) (hi : Inv s) (hnd : (times (o :: ops)).Nodup) (hf : ∀ t ∈ times (o :: ops), s.pre t = none) :
    (times ops).Nodup ∧ (∀ t ∈ times ops, (o.run s).pre t = none) ∧ ∀ t a b c, o = .setFile t a b c → s.pre t = none := by
  rw [times_cons] at hnd hf
  refine ⟨hnd.of_append_right, fun t ht => ?_, fun t a b c ho => ?_⟩
  · refine pre_run o s hi t (hf t (List.mem_append_right _ ht)) ?_
    rintro u a b c rfl rfl
    exact List.disjoint_of_nodup_append hnd (List.mem_singleton.2 rfl) ht
  · subst ho
    exact hf t (List.mem_append_left _ (List.mem_singleton.2 rfl))

theorem kept_all (ops : List Op) (s : St) (hi : Inv s) (m : Msg) (hk : Kept s m) (hnd : (times ops).Nodup) (hf : ∀ t ∈ times ops, s.pre t = none) :
    Kept (runAll ops s) m := by
  induction ops generalizing s with
  | nil => exact hk
  | cons o ops ih =>
    obtain ⟨h1, h2, h3⟩ := fresh_tail o ops s hi hnd hf
    exact ih _ (run_spec o s hi).1 (kept_run o s hi m hk h3) h1 h2

theorem fresh_all (pre post : List Op) (s : St) (hi : Inv s) (hnd : (times (pre ++ post)).Nodup) (hf : ∀ t ∈ times (pre ++ post), s.pre t = none) :
    (times post).Nodup ∧ ∀ t ∈ times post, (runAll pre s).pre t = none := by
  induction pre generalizing s with
  | nil => exact ⟨hnd, hf⟩
  | cons o pre ih =>
    obtain ⟨h1, h2, -⟩ := fresh_tail o (pre ++ post) s hi hnd hf
    exact ih _ (run_spec o s hi).1 h1 h2

theorem runAll_append (a b : List Op) (s : St) : runAll (a ++ b) s = runAll b (runAll a s) := by
  unfold runAll; rw [List.foldl_append]

/-! ## C163: one process -/

/-- **C163a.** Whatever was there before and whatever was done before: from the moment the log file is set up, the file of that name contains the messages logged since, all of them, in order and
(apart from captured warnings) nothing else. -/
theorem C163_current (before after : List Op) (t : ℕ) (a b c : Bool) (s : St) (hi : Inv s) (hn : times after = []) :
    ∃ x, (runAll (before ++ .setFile t a b c :: after) s).log = some x ∧
      ((runAll (before ++ .setFile t a b c :: after) s).content x).filter Msg.isQtm = (logged after).map .qtm := by
  rw [runAll_append]
  have hi1 := runAll_inv before s hi
  generalize runAll before s = s1 at hi1
  obtain ⟨h1, h2, h3, h4, -, -⟩ := setFile_spec t a b c s1 hi1
  have gen : ∀ (ops : List Op) (s : St) (x : ℕ) (l : List Msg), times ops = [] → s.log = some x → s.handler = some x → (s.content x).filter Msg.isQtm = l →
      (runAll ops s).log = some x ∧ ((runAll ops s).content x).filter Msg.isQtm = l ++ (logged ops).map .qtm := by
    intro ops
    induction ops with
    | nil => intro s x l _ h1 _ h3; exact ⟨h1, by simpa [runAll, logged] using h3⟩
    | cons o ops ih =>
      intro s x l ht h1 h2 h3
      cases o with
      | setFile t a b c => simp [times] at ht
      | log id =>
        have e : logMsg id s = s.append x (.qtm id) := by unfold logMsg; rw [h2]
        have := ih (logMsg id s) x (l ++ [.qtm id]) ht (by rw [e]; exact h1) (by rw [e]; exact h2)
          (by rw [e]; simp [St.append, List.filter_append, h3, Msg.isQtm])
        rw [show logged (.log id :: ops) = id :: logged ops from rfl, List.map_cons]
        rw [List.append_assoc] at this
        exact this
      | warn id =>
        obtain ⟨w1, -, -, w4, -, -, w7⟩ := warn_spec id s
        obtain ⟨y, hy, hy'⟩ := w7 (x + 1) x (by omega)
        have := ih (warn id s) x l ht (by rw [w1]; exact h1) (by rw [w4]; exact h2)
          (by rw [hy, List.filter_append, h3, List.filter_eq_nil_iff.2 (fun m hm => by simp [hy' m hm]), List.append_nil])
        exact this
  have := gen after (setFile t a b c s1) s1.next [] hn h1 h2 (by rw [h4]; rfl)
  rw [List.nil_append] at this
  exact ⟨s1.next, this.1, this.2⟩

/-- The handlers of captured warnings are open files. -/
def WarnOpen (s : St) : Prop := ∀ h ∈ s.warnH, h < s.next

theorem setFile_warn (t : ℕ) (a b c : Bool) (s : St) (hi : Inv s) :
    (setFile t a b c s).warnH = s.warnH ++ (if c then [s.next] else []) ∧ (setFile t a b c s).cap = c := by
  set s1 : St := if s.handler.isSome then { (if a then warn 0 s else s) with handler := none } else s with hs1
  have h1 : s1.log = s.log ∧ s1.next = s.next ∧ s1.warnH = s.warnH := by
    have w := warn_spec 0 s
    rw [hs1]
    split
    · split
      · exact ⟨w.1, w.2.2.1, w.2.2.2.2.1⟩
      · exact ⟨rfl, rfl, rfl⟩
    · exact ⟨rfl, rfl, rfl⟩
  set s2 := moveAway t b s1 with hs2
  have h2 : s2.log = none ∧ s2.next = s.next ∧ s2.warnH = s.warnH := by
    rw [hs2]
    unfold moveAway
    cases hl : s1.log with
    | none => exact ⟨hl, h1.2.1, h1.2.2⟩
    | some x =>
      have w := warn_spec 1 s1
      cases b with
      | true => exact ⟨rfl, w.2.2.1.trans h1.2.1, w.2.2.2.2.1.trans h1.2.2⟩
      | false => exact ⟨rfl, h1.2.1, h1.2.2⟩
  have e : setFile t a b c s = { (openLog s2).1 with
      handler := some (openLog s2).2, cap := c, warnH := if c then (openLog s2).1.warnH ++ [(openLog s2).2] else (openLog s2).1.warnH } := rfl
  have o : openLog s2 = ({ s2 with log := some s2.next, content := Function.update s2.content s2.next [], next := s2.next + 1 }, s2.next) := by
    unfold openLog; rw [h2.1]
  rw [e, o]
  refine ⟨?_, rfl⟩
  cases c with
  | true => show s2.warnH ++ [s2.next] = s.warnH ++ [s.next]; rw [h2.2.2, h2.2.1]
  | false => show s2.warnH = s.warnH ++ []; rw [h2.2.2, List.append_nil]

theorem warnOpen_run (o : Op) (s : St) (hi : Inv s) (hw : WarnOpen s) : WarnOpen (o.run s) := by
  cases o with
  | setFile t a b c =>
    obtain ⟨-, -, h3, -⟩ := setFile_spec t a b c s hi
    obtain ⟨h4, -⟩ := setFile_warn t a b c s hi
    intro h hh
    change h ∈ (setFile t a b c s).warnH at hh
    show h < (setFile t a b c s).next
    rw [h4] at hh
    rw [h3]
    rcases List.mem_append.1 hh with hh | hh
    · have := hw h hh; omega
    · cases c with
      | true => have := List.mem_singleton.1 hh; omega
      | false => cases hh
  | log id =>
    show WarnOpen (logMsg id s)
    unfold logMsg
    cases s.handler with
    | none => exact hw
    | some h => exact hw
  | warn id =>
    obtain ⟨-, -, h3, -, h5, -⟩ := warn_spec id s
    show WarnOpen (warn id s)
    unfold WarnOpen
    rw [h3, h5]
    exact hw

theorem warnOpen_all (ops : List Op) (s : St) (hi : Inv s) (hw : WarnOpen s) : WarnOpen (runAll ops s) := by
  induction ops generalizing s with
  | nil => exact hw
  | cons o ops ih => exact ih _ (run_spec o s hi).1 (warnOpen_run o s hi hw)

theorem warn_content (id : ℕ) (s : St) (x : ℕ) :
    (warn id s).content x = s.content x ++ (if s.cap then List.replicate (s.warnH.count x) (.warning id) else []) := by
  unfold warn
  cases s.cap with
  | false => simp
  | true =>
    simp only [if_true]
    generalize s.warnH = l
    induction l generalizing s with
    | nil => simp
    | cons h l ih =>
      rw [List.foldl_cons, ih, List.count_cons]
      by_cases e : h = x
      · subst e
        simp [St.append, List.replicate_succ]
      · have e' : ¬ x = h := fun k => e k.symm
        simp [St.append, e, Function.update_of_ne e']

/-- The lines a history should leave in the log file: its messages and, if warnings are captured, its warnings, once each and in order. -/
def lines (cap : Bool) : List Op → List Msg
  | [] => []
  | .log id :: ops => .qtm id :: lines cap ops
  | .warn id :: ops => (if cap then [.warning id] else []) ++ lines cap ops
  | .setFile .. :: ops => lines cap ops

/-- **C163e.** The log file contains exactly the messages since it was set up and, if and only if `capture_warnings` was given with it, the warnings since, once each, all in order: also after the log
file has been set up many times, with or without `capture_warnings`. -/
theorem C163_exact (before after : List Op) (t : ℕ) (a b c : Bool) (s : St) (hi : Inv s) (hw : WarnOpen s) (hn : times after = []) :
    ∃ x, (runAll (before ++ .setFile t a b c :: after) s).log = some x ∧
      (runAll (before ++ .setFile t a b c :: after) s).content x = lines c after := by
  rw [runAll_append]
  have hi1 := runAll_inv before s hi
  have hw1 := warnOpen_all before s hi hw
  generalize runAll before s = s1 at hi1 hw1
  obtain ⟨h1, h2, h3, h4, -, -⟩ := setFile_spec t a b c s1 hi1
  obtain ⟨h5, h6⟩ := setFile_warn t a b c s1 hi1
  have hc : (if c then (setFile t a b c s1).warnH.count s1.next else 1) = 1 := by
    have h0 : s1.warnH.count s1.next = 0 := List.count_eq_zero.2 fun h => lt_irrefl _ (hw1 _ h)
    cases c with
    | false => rfl
    | true => rw [h5, List.count_append, h0]; simp
  have gen : ∀ (ops : List Op) (s : St) (x : ℕ) (l : List Msg), times ops = [] → s.log = some x → s.handler = some x → s.cap = c →
      (if c then s.warnH.count x else 1) = 1 → s.content x = l →
      (runAll ops s).log = some x ∧ (runAll ops s).content x = l ++ lines c ops := by
    intro ops
    induction ops with
    | nil => intro s x l _ h1 _ _ _ h3; exact ⟨h1, by simpa [runAll, lines] using h3⟩
    | cons o ops ih =>
      intro s x l ht h1 h2 hcap hcnt h3
      cases o with
      | setFile t a b c => simp [times] at ht
      | log id =>
        have e : logMsg id s = s.append x (.qtm id) := by unfold logMsg; rw [h2]
        have := ih (logMsg id s) x (l ++ [.qtm id]) ht (by rw [e]; exact h1) (by rw [e]; exact h2) (by rw [e]; exact hcap) (by rw [e]; exact hcnt)
          (by rw [e]; simp [St.append, h3])
        rw [show lines c (.log id :: ops) = .qtm id :: lines c ops from rfl]
        rw [List.append_assoc] at this
        exact this
      | warn id =>
        obtain ⟨w1, -, -, w4, w5, w6, -⟩ := warn_spec id s
        have w7 := warn_content id s x
        have := ih (warn id s) x (l ++ if c then [.warning id] else []) ht (by rw [w1]; exact h1) (by rw [w4]; exact h2) (by rw [w6]; exact hcap)
          (by rw [w5]; exact hcnt) (by
            rw [w7, h3, hcap]
            cases c with
            | false => rfl
            | true => simp only [if_true] at hcnt ⊢; rw [hcnt]; rfl)
        rw [show lines c (.warn id :: ops) = (if c then [.warning id] else []) ++ lines c ops from rfl, ← List.append_assoc]
        exact this
  have := gen after (setFile t a b c s1) s1.next [] hn h1 h2 h6 hc h4
  rw [List.nil_append] at this
  exact ⟨s1.next, this.1, this.2⟩

/-- **C163b.** An existing log file is kept under a new name with everything that was in it; at most warnings are added. -/
theorem C163_backup (t : ℕ) (a b c : Bool) (s : St) (hi : Inv s) (x : ℕ) (hx : s.log = some x) :
    (setFile t a b c s).pre t = some x ∧ ∃ l, (setFile t a b c s).content x = s.content x ++ l ∧ ∀ m ∈ l, m.isQtm = false := by
  obtain ⟨-, -, -, -, h5, h6⟩ := setFile_spec t a b c s hi
  exact ⟨by rw [h5, hx]; simp, h6 x (hi.log x hx)⟩

/-- **C163c.** If the log file is never set up twice with the same time stamp, no message that was ever written is lost, however often the log file is set up again. -/
theorem C163_kept_partial (before after : List Op) (id : ℕ) (s : St) (hi : Inv s) (hnd : (times (before ++ .log id :: after)).Nodup)
    (hf : ∀ t ∈ times (before ++ .log id :: after), s.pre t = none) (hh : (runAll before s).handler ≠ none) :
    Kept (runAll (before ++ .log id :: after) s) (.qtm id) := by
  rw [runAll_append]
  obtain ⟨h1, h2⟩ := fresh_all before (.log id :: after) s hi hnd hf
  have hi1 := runAll_inv before s hi
  obtain ⟨h3, h4, -⟩ := fresh_tail (.log id) after (runAll before s) hi1 h1 h2
  generalize runAll before s = s1 at *
  show Kept (runAll after (logMsg id s1)) (.qtm id)
  refine kept_all after _ (run_spec (.log id) s1 hi1).1 _ ?_ h3 h4
  cases hhd : s1.handler with
  | none => exact absurd hhd hh
  | some x =>
    have e : logMsg id s1 = s1.append x (.qtm id) := by unfold logMsg; rw [hhd]
    show Kept (logMsg id s1) (.qtm id)
    rw [e]
    exact ⟨x, .inl (hi1.handler x hhd), by simp [St.append]⟩

/-- **C163c (violation).** Time stamps have whole seconds and an existing file of the new name is replaced: setting the log file up three times within a second destroys the first log. -/
theorem C163_same_second_violated (t : ℕ) (c : Bool) :
    ¬ Kept (runAll [.setFile t true true c, .log 7, .setFile t true true c, .setFile t true true c] {}) (.qtm 7) := by
  rintro ⟨a, h, hm⟩
  have i0 : Inv {} := ⟨fun a h => by simp at h, fun t a h => by simp at h, fun a h => by simp at h⟩
  have i1 := (run_spec (.setFile t true true c) {} i0).1
  have i2 := (run_spec (.log 7) _ i1).1
  have i3 := (run_spec (.setFile t true true c) _ i2).1
  obtain ⟨a1, a2, a3, a4, a5, a6⟩ := setFile_spec t true true c {} i0
  set s1 := setFile t true true c {} with hs1
  set s2 := logMsg 7 s1 with hs2
  have e2 : s2 = s1.append 0 (.qtm 7) := by rw [hs2]; unfold logMsg; rw [a2]
  obtain ⟨b1, b2, b3, b4, b5, b6⟩ := setFile_spec t true true c s2 i2
  set s3 := setFile t true true c s2 with hs3
  obtain ⟨c1, c2, c3, c4, c5, c6⟩ := setFile_spec t true true c s3 i3
  set s4 := setFile t true true c s3 with hs4
  have hrun : runAll [.setFile t true true c, .log 7, .setFile t true true c, .setFile t true true c] {} = s4 := rfl
  rw [hrun] at h hm
  have n1 : s2.next = 1 := by rw [e2]; exact a3
  have n2 : s3.next = 2 := by rw [b3, n1]
  have p1 : s2.pre = fun _ => none := by rw [e2]; show s1.pre = _; rw [a5]; rfl
  have l1 : s2.log = some 0 := by rw [e2]; exact a1
  have p3 : s3.pre = Function.update (fun _ => none) t (some 0) := by rw [b5, l1, p1]; rfl
  have l3 : s3.log = some 1 := by rw [b1, n1]
  have p4 : s4.pre = Function.update (fun _ => none) t (some 1) := by
    rw [c5, l3, p3]
    show Function.update (Function.update (fun _ => none) t (some 0)) t (some 1) = _
    rw [Function.update_idem]
  have k1 : ∀ m ∈ s4.content 1, m.isQtm = false := by
    obtain ⟨x, hx, hx'⟩ := c6 1 (by rw [n2]; omega)
    rw [hx]
    have : s3.content 1 = [] := by rw [← n1]; exact b4
    rw [this]
    exact hx'
  have k2 : s4.content 2 = [] := by rw [← n2]; exact c4
  rcases h with h | ⟨u, h⟩
  · rw [c1, n2] at h
    injection h with h; subst h
    rw [k2] at hm; cases hm
  · rw [p4] at h
    by_cases hu : u = t
    · subst hu
      rw [Function.update_self] at h
      injection h with h; subst h
      have := k1 _ hm
      cases this
    · rw [Function.update_of_ne hu] at h; cases h

/-- The hypotheses of C163c are met by a history with three log files. -/
example : Kept (runAll ([.setFile 1 true true true] ++ .log 7 :: [.setFile 2 true true true, .warn 3, .setFile 3 true false true]) {}) (.qtm 7) := by
  have i0 : Inv {} := ⟨fun a h => by simp at h, fun t a h => by simp at h, fun a h => by simp at h⟩
  refine C163_kept_partial _ _ 7 {} i0 (by decide) (fun _ _ => rfl) ?_
  have := setFile_spec 1 true true true {} i0
  show (setFile 1 true true true {}).handler ≠ none
  rw [this.2.1]; simp

/-! ## C164: many processes -/

/-- Every step of the schedule is taken, none is blocked. -/
def Effective {n : ℕ} : Sys n → List (Fin n) → Prop
  | _, [] => True
  | s, i :: l => ∃ s', step s i = some s' ∧ Effective s' l

/-- Steps a process still has to make, at most. -/
def Phase.left : Phase → ℕ
  | .start => 4
  | .wait => 3
  | .past => 2
  | .ready => 1
  | .done _ => 0

theorem step_left {n : ℕ} (s s' : Sys n) (i : Fin n) (h : step s i = some s') :
    (∀ j, j ≠ i → s'.phase j = s.phase j) ∧ (s'.phase i).left < (s.phase i).left := by
  unfold step at h
  cases hp : s.phase i with
  | start =>
    simp only [hp] at h
    split at h <;> (injection h with h; subst h; exact ⟨fun j hj => Function.update_of_ne hj _ _, by simp [Phase.left]⟩)
  | wait =>
    simp only [hp] at h
    split at h
    · injection h with h; subst h; exact ⟨fun j hj => Function.update_of_ne hj _ _, by simp [Phase.left]⟩
    · cases h
  | past =>
    simp only [hp] at h
    split at h <;> (injection h with h; subst h; exact ⟨fun j hj => Function.update_of_ne hj _ _, by simp [Phase.left]⟩)
  | ready =>
    simp only [hp] at h
    split at h <;> (injection h with h; subst h; exact ⟨fun j hj => Function.update_of_ne hj _ _, by simp [Phase.left]⟩)
  | done x => simp only [hp] at h; cases h

/-- No schedule runs forever. -/
theorem C164_finite {n : ℕ} (log : Option ℕ) (sched : List (Fin n)) (h : Effective (init n log) sched) : sched.length ≤ 4 * n := by
  have gen : ∀ (l : List (Fin n)) (s : Sys n), Effective s l → l.length ≤ ∑ j, (s.phase j).left := by
    intro l
    induction l with
    | nil => intro s _; exact Nat.zero_le _
    | cons i l ih =>
      rintro s ⟨s', h1, h2⟩
      have := ih s' h2
      obtain ⟨h3, h4⟩ := step_left s s' i h1
      have hlt : ∑ j, (s'.phase j).left < ∑ j, (s.phase j).left := by
        refine Finset.sum_lt_sum (fun j _ => ?_) ⟨i, Finset.mem_univ _, h4⟩
        by_cases hj : j = i
        · subst hj; exact h4.le
        · rw [h3 j hj]
      rw [List.length_cons]
      omega
  have := gen sched _ h
  simpa [init, Phase.left, mul_comm] using this

/-- What holds at all times when there is a log file `a` at the start. -/
structure PInv {n : ℕ} (a : ℕ) (s : Sys (n + 1)) : Prop where
  ent : ∀ i, s.entered i = true ↔ s.phase i ≠ .start
  bar : ∀ i, s.phase i ≠ .start → s.phase i ≠ .wait → ∀ j, s.entered j = true
  lt : a < s.next
  before : 1 < (s.phase 0).left → s.log = some a ∧ s.pre = none ∧ ∀ i h, s.phase i = .done h → h = a
  after : (s.phase 0).left ≤ 1 → s.pre = some a ∧ (∀ b, s.log = some b → b ≠ a) ∧ (∀ i h, s.phase i = .done h → h = a ∨ s.log = some h) ∧
    ∀ h, s.phase 0 = .done h → s.log = some h

theorem pinv_step {n : ℕ} (a : ℕ) (s s' : Sys (n + 1)) (i : Fin (n + 1)) (hi : PInv a s) (h : step s i = some s') : PInv a s' := by
  have hleft : ∀ p : Phase, 1 < p.left ↔ p = .start ∨ p = .wait ∨ p = .past := by
    intro p; cases p <;> simp [Phase.left]
  unfold step at h
  cases hp : s.phase i with
  | start =>
    have h0 : 1 < (s.phase 0).left := by
      by_contra hc
      have h1 : s.phase 0 ≠ .start := by intro e; rw [e] at hc; simp [Phase.left] at hc
      have h2 : s.phase 0 ≠ .wait := by intro e; rw [e] at hc; simp [Phase.left] at hc
      exact ((hi.ent i).1 (hi.bar 0 h1 h2 i)) hp
    obtain ⟨b1, b2, b3⟩ := hi.before h0
    simp only [hp, b1, Option.isSome_some, if_true] at h
    injection h with h; subst h
    refine ⟨fun j => ?_, fun j h1 h2 k => ?_, hi.lt, fun _ => ⟨rfl, b2, fun j x hx => ?_⟩, fun hc => ?_⟩
    · by_cases hj : j = i
      · subst hj; simp
      · simp only [Function.update_of_ne hj]; exact hi.ent j
    · by_cases hj : j = i
      · subst hj; simp at h2
      · simp only [Function.update_of_ne hj] at h1 h2
        have := hi.bar j h1 h2 i
        exact absurd hp ((hi.ent i).1 this)
    · by_cases hj : j = i
      · subst hj; simp at hx
      · simp only [Function.update_of_ne hj] at hx; exact b3 j x hx
    · exfalso
      by_cases hj : (0 : Fin (n + 1)) = i
      · simp only [← hj, Function.update_self, Phase.left] at hc; omega
      · simp only [Function.update_of_ne hj] at hc; omega
  | wait =>
    simp only [hp] at h
    split at h
    · next hall =>
      injection h with h; subst h
      refine ⟨fun j => ?_, fun j h1 h2 k => hall k, hi.lt, fun hc => ?_, fun hc => ?_⟩
      · by_cases hj : j = i
        · subst hj; simp [hall j]
        · simp only [Function.update_of_ne hj]; exact hi.ent j
      · have h0 : 1 < (s.phase 0).left := by
          by_cases hj : (0 : Fin (n + 1)) = i
          · rw [hj, hp]; simp [Phase.left]
          · simpa only [Function.update_of_ne hj] using hc
        obtain ⟨b1, b2, b3⟩ := hi.before h0
        refine ⟨b1, b2, fun j x hx => ?_⟩
        by_cases hj : j = i
        · subst hj; simp at hx
        · simp only [Function.update_of_ne hj] at hx; exact b3 j x hx
      · by_cases hj : (0 : Fin (n + 1)) = i
        · simp only [← hj, Function.update_self, Phase.left] at hc; omega
        · simp only [Function.update_of_ne hj] at hc ⊢
          obtain ⟨c1, c2, c3, c4⟩ := hi.after hc
          refine ⟨c1, c2, fun j x hx => ?_, c4⟩
          by_cases hj : j = i
          · subst hj; simp at hx
          · simp only [Function.update_of_ne hj] at hx; exact c3 j x hx
    · cases h
  | past =>
    have hall : ∀ k, s.entered k = true := hi.bar i (by rw [hp]; simp) (by rw [hp]; simp)
    simp only [hp] at h
    split at h
    · next h0 =>
      have hi0 : i = 0 := Fin.ext h0
      injection h with h; subst h
      subst hi0
      obtain ⟨b1, b2, b3⟩ := hi.before (by rw [hp]; simp [Phase.left])
      refine ⟨fun j => ?_, fun _ _ _ k => hall k, hi.lt, fun hc => ?_, fun _ => ⟨b1, by simp, fun j x hx => ?_, fun x hx => ?_⟩⟩
      · by_cases hj : j = 0
        · subst hj; simp [hall 0]
        · simp only [Function.update_of_ne hj]; exact hi.ent j
      · simp [Phase.left] at hc
      · left
        by_cases hj : j = 0
        · subst hj; simp at hx
        · simp only [Function.update_of_ne hj] at hx; exact b3 j x hx
      · simp at hx
    · next h0 =>
      have hj0 : (0 : Fin (n + 1)) ≠ i := by rintro rfl; exact h0 rfl
      injection h with h; subst h
      refine ⟨fun j => ?_, fun _ _ _ k => hall k, hi.lt, fun hc => ?_, fun hc => ?_⟩
      · by_cases hj : j = i
        · subst hj; simp [hall j]
        · simp only [Function.update_of_ne hj]; exact hi.ent j
      · simp only [Function.update_of_ne hj0] at hc
        obtain ⟨b1, b2, b3⟩ := hi.before hc
        refine ⟨b1, b2, fun j x hx => ?_⟩
        by_cases hj : j = i
        · subst hj; simp at hx
        · simp only [Function.update_of_ne hj] at hx; exact b3 j x hx
      · simp only [Function.update_of_ne hj0] at hc ⊢
        obtain ⟨c1, c2, c3, c4⟩ := hi.after hc
        refine ⟨c1, c2, fun j x hx => ?_, c4⟩
        by_cases hj : j = i
        · subst hj; simp at hx
        · simp only [Function.update_of_ne hj] at hx; exact c3 j x hx
  | ready =>
    have hall : ∀ k, s.entered k = true := hi.bar i (by rw [hp]; simp) (by rw [hp]; simp)
    simp only [hp] at h
    split at h
    · next b hb =>
      injection h with h; subst h
      refine ⟨fun j => ?_, fun _ _ _ k => hall k, hi.lt, fun hc => ?_, fun hc => ?_⟩
      · by_cases hj : j = i
        · subst hj; simp [hall j]
        · simp only [Function.update_of_ne hj]; exact hi.ent j
      · by_cases hj0 : (0 : Fin (n + 1)) = i
        · simp only [← hj0, Function.update_self, Phase.left] at hc; omega
        · simp only [Function.update_of_ne hj0] at hc
          obtain ⟨b1, b2, b3⟩ := hi.before hc
          refine ⟨b1, b2, fun j x hx => ?_⟩
          by_cases hj : j = i
          · subst hj
            simp only [Function.update_self] at hx
            injection hx with hx
            rw [b1] at hb; injection hb with hb
            omega
          · simp only [Function.update_of_ne hj] at hx; exact b3 j x hx
      · have hc' : (s.phase 0).left ≤ 1 := by
          by_cases hj0 : (0 : Fin (n + 1)) = i
          · rw [hj0, hp]; simp [Phase.left]
          · simpa only [Function.update_of_ne hj0] using hc
        obtain ⟨c1, c2, c3, c4⟩ := hi.after hc'
        refine ⟨c1, c2, fun j x hx => ?_, fun x hx => ?_⟩
        · by_cases hj : j = i
          · subst hj
            simp only [Function.update_self] at hx
            injection hx with hx; subst hx
            exact .inr hb
          · simp only [Function.update_of_ne hj] at hx; exact c3 j x hx
        · by_cases hj0 : (0 : Fin (n + 1)) = i
          · simp only [← hj0, Function.update_self] at hx
            injection hx with hx; subst hx
            exact hb
          · simp only [Function.update_of_ne hj0] at hx; exact c4 x hx
    · next hb =>
      injection h with h; subst h
      have hc' : (s.phase 0).left ≤ 1 := by
        by_contra hc
        have := (hi.before (by omega)).1
        rw [hb] at this; cases this
      obtain ⟨c1, c2, c3, c4⟩ := hi.after hc'
      have hlt := hi.lt
      refine ⟨fun j => ?_, fun _ _ _ k => hall k, by show a < s.next + 1; omega, fun hc => ?_, fun hc => ⟨c1, fun b hb' => ?_, fun j x hx => ?_, fun x hx => ?_⟩⟩
      · by_cases hj : j = i
        · subst hj; simp [hall j]
        · simp only [Function.update_of_ne hj]; exact hi.ent j
      · exfalso
        by_cases hj0 : (0 : Fin (n + 1)) = i
        · simp only [← hj0, Function.update_self, Phase.left] at hc; omega
        · simp only [Function.update_of_ne hj0] at hc; omega
      · injection hb' with hb'; omega
      · by_cases hj : j = i
        · subst hj
          simp only [Function.update_self] at hx
          injection hx with hx; subst hx
          exact .inr rfl
        · simp only [Function.update_of_ne hj] at hx
          rcases c3 j x hx with h | h
          · exact .inl h
          · rw [hb] at h; cases h
      · by_cases hj0 : (0 : Fin (n + 1)) = i
        · simp only [← hj0, Function.update_self] at hx
          injection hx with hx; subst hx
          rfl
        · simp only [Function.update_of_ne hj0] at hx
          have := c4 x hx
          rw [hb] at this; cases this
  | done x => simp only [hp] at h; cases h

theorem exec_inv {n : ℕ} (P : Sys n → Prop) (hs : ∀ s s' i, P s → step s i = some s' → P s') (sched : List (Fin n)) (s : Sys n) (h : P s) : P (exec s sched) := by
  induction sched generalizing s with
  | nil => exact h
  | cons i l ih =>
    apply ih
    show P ((step s i).getD s)
    cases hst : step s i with
    | none => exact h
    | some s' => exact hs s s' i h hst

theorem pinv_exec {n : ℕ} (a : ℕ) (sched : List (Fin (n + 1))) : PInv a (exec (init (n + 1) (some a)) sched) := by
  refine exec_inv (PInv a) (fun s s' i => pinv_step a s s' i) sched _ ⟨?_, ?_, ?_, ?_, ?_⟩
  · intro i; simp [init]
  · intro i h; simp [init] at h
  · simp [init]
  · intro _; exact ⟨rfl, rfl, fun i h hx => by simp [init] at hx⟩
  · intro h; simp [init, Phase.left] at h

/-- **C164a.** If a log file exists when the processes set up logging, no process waits forever: in every reachable state in which not all have returned some process can go on. -/
theorem C164_no_hang_partial {n : ℕ} (a : ℕ) (sched : List (Fin (n + 1))) :
    (∀ i, ∃ h, (exec (init (n + 1) (some a)) sched).phase i = .done h) ∨ ∃ i, (step (exec (init (n + 1) (some a)) sched) i).isSome = true := by
  have hi := pinv_exec a sched
  generalize exec (init (n + 1) (some a)) sched = s at hi
  by_cases hex : ∃ i, (step s i).isSome = true
  · exact .inr hex
  · left
    intro i
    have key : ∀ j, s.phase j ≠ .start := by
      intro j hj
      apply hex
      refine ⟨j, ?_⟩
      unfold step
      simp only [hj]
      split <;> rfl
    have hent : ∀ j, s.entered j = true := fun j => (hi.ent j).2 (key j)
    cases hp : s.phase i with
    | done h => exact ⟨h, rfl⟩
    | start => exact absurd hp (key i)
    | wait =>
      exfalso; apply hex; refine ⟨i, ?_⟩
      unfold step
      simp only [hp, hent, implies_true, if_true, Option.isSome_some]
    | past =>
      exfalso; apply hex; refine ⟨i, ?_⟩
      unfold step
      simp only [hp]
      split <;> rfl
    | ready =>
      exfalso; apply hex; refine ⟨i, ?_⟩
      unfold step
      simp only [hp]
      split <;> rfl

/-- **C164b.** ... and when all have returned, the old log file has its new name, there is a new file of the old name, rank 0 writes to it, and every other process writes to it or to the old file. -/
theorem C164_result {n : ℕ} (a : ℕ) (sched : List (Fin (n + 1))) (hd : ∀ i, ∃ h, (exec (init (n + 1) (some a)) sched).phase i = .done h) :
    ∃ b, b ≠ a ∧ (exec (init (n + 1) (some a)) sched).log = some b ∧ (exec (init (n + 1) (some a)) sched).pre = some a ∧
      (exec (init (n + 1) (some a)) sched).phase 0 = .done b ∧
      ∀ i, (exec (init (n + 1) (some a)) sched).phase i = .done a ∨ (exec (init (n + 1) (some a)) sched).phase i = .done b := by
  have hi := pinv_exec a sched
  generalize exec (init (n + 1) (some a)) sched = s at hi hd
  obtain ⟨b, hb⟩ := hd 0
  obtain ⟨c1, c2, c3, c4⟩ := hi.after (by rw [hb]; simp [Phase.left])
  have hl := c4 b hb
  refine ⟨b, c2 b hl, hl, c1, hb, fun i => ?_⟩
  obtain ⟨h, hh⟩ := hd i
  rcases c3 i h hh with e | e
  · left; rw [hh, e]
  · right
    rw [hl] at e; injection e with e
    rw [hh, e]

/-- **C164c.** If there is no log file and every process looks before any of them opens the file, none waits and all write to the same new file. -/
theorem C164_absent_partial {n : ℕ} (first rest : List (Fin n)) (hnd : first.Nodup) (hall : ∀ i, i ∈ first) :
    (∀ i, (exec (init n none) (first ++ rest)).phase i = .ready ∨ (exec (init n none) (first ++ rest)).phase i = .done 0) ∧
    ∀ i, (exec (init n none) (first ++ rest)).phase i = .done 0 → (exec (init n none) (first ++ rest)).log = some 0 := by
  have h1 : ∀ (l : List (Fin n)) (s : Sys n), l.Nodup → s.log = none → s.next = 0 → (∀ i ∈ l, s.phase i = .start) → (∀ i, i ∉ l → s.phase i = .ready) →
      (exec s l).log = none ∧ (exec s l).next = 0 ∧ ∀ i, (exec s l).phase i = .ready := by
    intro l
    induction l with
    | nil => intro s _ h1 h2 _ h4; exact ⟨h1, h2, fun i => h4 i (by simp)⟩
    | cons i l ih =>
      intro s hn h1 h2 h3 h4
      have hst : step s i = some { s with phase := Function.update s.phase i .ready } := by
        unfold step
        simp only [h3 i (by simp), h1, Option.isSome_none, Bool.false_eq_true, if_false]
      have e : exec s (i :: l) = exec { s with phase := Function.update s.phase i .ready } l := by
        unfold exec; rw [List.foldl_cons, hst]; rfl
      have hn' := List.nodup_cons.1 hn
      have := ih { s with phase := Function.update s.phase i .ready } hn'.2 h1 h2
        (fun j hj => by
          have hji : j ≠ i := by rintro rfl; exact hn'.1 hj
          simp only [Function.update_of_ne hji]; exact h3 j (List.mem_cons_of_mem _ hj))
        (fun j hj => by
          by_cases hji : j = i
          · subst hji; simp
          · simp only [Function.update_of_ne hji]; exact h4 j (by simp [hji, hj]))
      rw [e]
      exact this
  obtain ⟨a1, a2, a3⟩ := h1 first (init n none) hnd rfl rfl (fun _ _ => rfl) (fun i hi => absurd (hall i) hi)
  have e : exec (init n none) (first ++ rest) = exec (exec (init n none) first) rest := by unfold exec; rw [List.foldl_append]
  rw [e]
  generalize exec (init n none) first = s at a1 a2 a3
  have := exec_inv (fun s : Sys n => (∀ i, s.phase i = .ready ∨ s.phase i = .done 0) ∧ (s.log = some 0 ∨ s.log = none ∧ s.next = 0 ∧ ∀ i, s.phase i = .ready))
    (by
      rintro s s' i ⟨h1, h2⟩ hst
      have hr : s.phase i = .ready := by
        rcases h1 i with h | h
        · exact h
        · unfold step at hst; simp only [h] at hst; cases hst
      unfold step at hst
      simp only [hr] at hst
      rcases h2 with h2 | ⟨h2, h3, -⟩
      · simp only [h2] at hst
        injection hst with hst; subst hst
        refine ⟨fun j => ?_, .inl rfl⟩
        by_cases hj : j = i
        · subst hj; simp
        · simp only [Function.update_of_ne hj]; exact h1 j
      · simp only [h2, h3] at hst
        injection hst with hst; subst hst
        refine ⟨fun j => ?_, .inl rfl⟩
        by_cases hj : j = i
        · subst hj; simp
        · simp only [Function.update_of_ne hj]; exact h1 j) rest s ⟨fun i => .inl (a3 i), .inr ⟨a1, a2, a3⟩⟩
  refine ⟨this.1, fun i hd => ?_⟩
  rcases this.2 with h | ⟨-, -, h⟩
  · exact h
  · rw [h i] at hd; cases hd

/-- **C164 (violation): hanging.** With two or more processes and no log file, a process that looks after another one has created the file waits in the barrier forever, whatever the others do. -/
theorem C164_hang_violated (n : ℕ) : ∃ sched : List (Fin (n + 2)), ∀ more, (exec (init (n + 2) none) (sched ++ more)).phase 1 = .wait := by
  refine ⟨[0, 0, 1], fun more => ?_⟩
  have e : exec (init (n + 2) none) ([0, 0, 1] ++ more) = exec (exec (init (n + 2) none) [0, 0, 1]) more := by unfold exec; rw [List.foldl_append]
  rw [e]
  have h01 : (1 : Fin (n + 2)) ≠ 0 := by simp
  have base : (exec (init (n + 2) none) [0, 0, 1]).phase 1 = .wait ∧ (exec (init (n + 2) none) [0, 0, 1]).phase 0 = .done 0 ∧
      (exec (init (n + 2) none) [0, 0, 1]).entered 0 = false := by
    simp [exec, step, init, h01, Function.update_of_ne]
  refine (exec_inv (fun s : Sys (n + 2) => s.phase 1 = .wait ∧ s.phase 0 = .done 0 ∧ s.entered 0 = false) ?_ more _ base).1
  rintro s s' i ⟨h1, h2, h3⟩ hst
  have hi0 : i ≠ 0 := by rintro rfl; unfold step at hst; simp only [h2] at hst; cases hst
  have hi1 : i ≠ 1 := by
    rintro rfl
    unfold step at hst
    simp only [h1] at hst
    rw [if_neg (fun h => by rw [h 0] at h3; cases h3)] at hst
    cases hst
  have hk := (step_left s s' i hst).1
  refine ⟨by rw [hk 1 (Ne.symm hi1), h1], by rw [hk 0 (Ne.symm hi0), h2], ?_⟩
  unfold step at hst
  simp only at hst
  repeat' split at hst
  all_goals first
    | (cases hst; done)
    | (injection hst with hst; subst hst; first | exact h3 | (simp only [Function.update_of_ne (Ne.symm hi0)]; exact h3))

/-- **C164 (violation): split log.** With a log file from before, a process may open it before rank 0 renames it: its messages go to the file of the earlier run. -/
theorem C164_split_violated : ∃ sched : List (Fin 2), (exec (init 2 (some 0)) sched).phase 0 = .done 1 ∧ (exec (init 2 (some 0)) sched).phase 1 = .done 0 ∧
    (exec (init 2 (some 0)) sched).log = some 1 ∧ (exec (init 2 (some 0)) sched).pre = some 0 :=
  ⟨[0, 1, 1, 1, 1, 0, 0, 0], by decide⟩

/-- A run of two processes in which all goes well. -/
example : ∀ i, (exec (init 2 (some 5)) [0, 1, 0, 0, 0, 1, 1, 1]).phase i = .done 6 := by decide

end Verif.LogFile
