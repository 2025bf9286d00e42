import Verif.Model.TimerReport
import Verif.Props.Logger
import Verif.Props.Fmt

/-!
# Property C215: the printed tables of timers and counters say what was recorded
-/

namespace Verif.TimerReport

open Verif QEInp Fmt Logger

/-! ## Reading a table -/

/-- the cells of a line `|a|b|…|`, without surrounding blanks -/
def cells (l : Str) : Option (List Str) :=
  match split '|' l with
  | [] :: rest => if rest.getLast? = some [] then some (rest.dropLast.map strip) else none
  | _ => none

/-- the rows of a table below its heading: the lines with cells, but the first -/
def rowsOf (s : Str) : List (List Str) := ((split '\n' s).filterMap cells).drop 1

/-- what a reader takes from a row of the timer table: label, calls, seconds, status -/
noncomputable def timerOf : List Str → Option (Str × Option ℝ × Option ℝ × Str)
  | [l, c, t, s] => some (l, pyFloat c, pyFloat t, s)
  | _ => none

/-- what a reader takes from a row of the counter table: label and count -/
noncomputable def counterOf : List Str → Option (Str × Option ℝ)
  | [l, c] => some (l, pyFloat c)
  | _ => none

/-- Labels that can be told apart from the frame: no bar, no newline, no blanks at the ends. -/
structure Fine (l : Label) : Prop where
  bar : '|' ∉ l
  nl : '\n' ∉ l
  trim : Trimmed isWs l

theorem strip_center (w : ℕ) (s : Str) (h : Trimmed isWs s) : strip (center w s) = s := by
  refine stripBy_core ?_ ?_ h <;>
  · intro c hc
    rw [List.eq_of_mem_replicate hc]
    rfl

theorem strip_pad (w : ℕ) (s : Str) (h0 : s ≠ []) (h : ∀ c ∈ s, isWs c = false) : strip (padLeft w s) = s := by
  have ht : Trimmed isWs s := ⟨fun c hc => h c (List.mem_of_mem_head? hc), fun c hc => h c (List.mem_of_mem_getLast? hc)⟩
  have := stripBy_core (p := isWs) (u := List.replicate (w - s.length) ' ') (m := s) (v := [])
    (fun c hc => by rw [List.eq_of_mem_replicate hc]; rfl) (by simp) ht
  rw [List.append_nil] at this
  exact this

theorem mem_center {c : Char} {w : ℕ} {s : Str} (hc : c ≠ ' ') (h : c ∉ s) : c ∉ center w s := by
  simp only [center, List.mem_append, List.mem_replicate, not_or, not_and]
  exact ⟨⟨fun _ => hc, h⟩, fun _ => hc⟩

theorem mem_pad {c : Char} {w : ℕ} {s : Str} (hc : c ≠ ' ') (h : c ∉ s) : c ∉ padLeft w s := by
  simp only [padLeft, List.mem_append, List.mem_replicate, not_or, not_and]
  exact ⟨fun _ => hc, h⟩

theorem digit_ne_bar {s : Str} (h : ∀ c ∈ s, isDigit c = true) : '|' ∉ s := fun hm => by
  have := h _ hm
  revert this
  decide

theorem bar_int (z : ℤ) : '|' ∉ intStr z := by
  have := digit_ne_bar (natStr_spec z.natAbs).2.2
  unfold intStr
  split <;> simp [this]

theorem bar_fixed (d : ℕ) (x : ℝ) : '|' ∉ fixed d x := by
  unfold fixed
  simp only [List.mem_append, List.mem_cons, not_or]
  refine ⟨⟨?_, digit_ne_bar (natStr_spec _).2.2⟩, by decide, digit_ne_bar (digitsPad_spec _ _).2.2⟩
  split <;> decide

theorem status_fine (b : Bool) : Fine (statusStr b) := by
  cases b
  · refine ⟨by decide, by decide, ?_, ?_⟩ <;>
    · intro c hc
      obtain rfl := Option.some.inj hc
      rfl
  · refine ⟨by decide, by decide, ?_, ?_⟩ <;>
    · intro c hc
      obtain rfl := Option.some.inj hc
      rfl

theorem cells_timer (e : Label × TVal) (h : Fine e.1) :
    cells (timerRow e) = some [e.1, intStr e.2.call, fixed 2 (e.2.time : ℝ), statusStr e.2.status] := by
  have hb : '|' ≠ ' ' := by decide
  unfold cells timerRow
  rw [split, if_pos rfl, split_append (mem_center hb h.bar), split_append (mem_pad hb (bar_int _)),
    split_append (mem_pad hb (bar_fixed _ _)), split_append (mem_center hb (status_fine _).bar), split_nomem (by simp)]
  show some [strip _, strip _, strip _, strip _] = _
  rw [strip_center _ _ h.trim, strip_pad _ _ (intStr_tok _).1 (intStr_tok _).2, strip_pad _ _ (fixed_tok _ _).1 (fixed_tok _ _).2,
    strip_center _ _ (status_fine _).trim]

theorem cells_counter (e : Label × ℤ) (h : Fine e.1) : cells (counterRow e) = some [e.1, intStr e.2] := by
  have hb : '|' ≠ ' ' := by decide
  unfold cells counterRow
  rw [split, if_pos rfl, split_append (mem_center hb h.bar), split_append (mem_pad hb (bar_int _)), split_nomem (by simp)]
  show some [strip _, strip _] = _
  rw [strip_center _ _ h.trim, strip_pad _ _ (intStr_tok _).1 (intStr_tok _).2]

theorem split_unlines : ∀ ls : List Str, (∀ l ∈ ls, '\n' ∉ l) → split '\n' (unlines ls) = ls ++ [[]]
  | [], _ => rfl
  | l :: ls, h => by
    have e : unlines (l :: ls) = l ++ '\n' :: unlines ls := by simp [unlines]
    rw [e, split_append (h l List.mem_cons_self), split_unlines ls fun m hm => h m (List.mem_cons_of_mem _ hm)]
    rfl

theorem nl_timer (e : Label × TVal) (h : Fine e.1) : '\n' ∉ timerRow e := by
  have hb : '\n' ≠ ' ' := by decide
  have hi := mem_pad (w := 8) hb (nl_of_ws (intStr_tok e.2.call).2)
  have hf := mem_pad (w := 8) hb (nl_of_ws (fixed_tok 2 (e.2.time : ℝ)).2)
  have hs := mem_center (w := 9) hb (status_fine e.2.status).nl
  have hl := mem_center (w := 30) hb h.nl
  simp only [timerRow, List.mem_append, List.mem_cons, hi, hf, hs, hl, not_or, or_false, false_or]
  decide

theorem nl_counter (e : Label × ℤ) (h : Fine e.1) : '\n' ∉ counterRow e := by
  have hb : '\n' ≠ ' ' := by decide
  have hi := mem_pad (w := 7) hb (nl_of_ws (intStr_tok e.2).2)
  have hl := mem_center (w := 30) hb h.nl
  simp only [counterRow, List.mem_append, List.mem_cons, hi, hl, not_or, or_false, false_or]
  decide

theorem cells_plain (l : Str) (h : '|' ∉ l) : cells l = none ∨ l = [] := by
  unfold cells
  rw [split_nomem h]
  cases l with
  | nil => exact .inr rfl
  | cons c l => exact .inl rfl

theorem cells_nil : cells [] = none := rfl

theorem rows_timer (t : Table TVal) (h : ∀ e ∈ t, Fine e.1) :
    rowsOf (timerReport t) = t.map fun e => [e.1, intStr e.2.call, fixed 2 (e.2.time : ℝ), statusStr e.2.status] := by
  unfold rowsOf timerReport
  rw [split_unlines]
  · have h1 : cells (center 59 "TIMERS".toList) = none := by rfl
    have h2 : cells (ruler 59) = none := by rfl
    have h3 : (cells timerHead).isSome = true := by rfl
    obtain ⟨x, hx⟩ := Option.isSome_iff_exists.1 h3
    have h4 : (t.map timerRow).filterMap cells
        = t.map fun e => [e.1, intStr e.2.call, fixed 2 (e.2.time : ℝ), statusStr e.2.status] := by
      clear hx h3 h2 h1
      induction t with
      | nil => rfl
      | cons e t ih =>
        rw [List.map_cons, List.filterMap_cons_some (cells_timer e (h e List.mem_cons_self)),
          ih fun e he => h e (List.mem_cons_of_mem _ he), List.map_cons]
    simp only [List.filterMap_append, List.filterMap_cons, List.filterMap_nil, h1, h2, hx, h4, cells_nil,
      List.cons_append, List.nil_append, List.append_nil, List.drop_succ_cons, List.drop_zero]
  · intro l hl
    simp only [List.mem_append, List.mem_cons, List.mem_map, List.not_mem_nil, or_false] at hl
    rcases hl with (((rfl | rfl | rfl | rfl) | ⟨e, he, rfl⟩) | rfl)
    · decide
    · decide
    · decide
    · decide
    · exact nl_timer e (h e he)
    · decide

theorem rows_counter (t : Table ℤ) (h : ∀ e ∈ t, Fine e.1) :
    rowsOf (counterReport t) = t.map fun e => [e.1, intStr e.2] := by
  unfold rowsOf counterReport
  rw [split_unlines]
  · have h1 : cells (center 41 "COUNTERS".toList) = none := by rfl
    have h2 : cells (ruler 41) = none := by rfl
    have h3 : (cells counterHead).isSome = true := by rfl
    obtain ⟨x, hx⟩ := Option.isSome_iff_exists.1 h3
    have h4 : (t.map counterRow).filterMap cells = t.map fun e => [e.1, intStr e.2] := by
      clear hx h3 h2 h1
      induction t with
      | nil => rfl
      | cons e t ih =>
        rw [List.map_cons, List.filterMap_cons_some (cells_counter e (h e List.mem_cons_self)),
          ih fun e he => h e (List.mem_cons_of_mem _ he), List.map_cons]
    simp only [List.filterMap_append, List.filterMap_cons, List.filterMap_nil, h1, h2, hx, h4, cells_nil,
      List.cons_append, List.nil_append, List.append_nil, List.drop_succ_cons, List.drop_zero]
  · intro l hl
    simp only [List.mem_append, List.mem_cons, List.mem_map, List.not_mem_nil, or_false] at hl
    rcases hl with (((rfl | rfl | rfl | rfl) | ⟨e, he, rfl⟩) | rfl)
    · decide
    · decide
    · decide
    · decide
    · exact nl_counter e (h e he)
    · decide

/-- **C215 (timers).** From the printed table a reader gets back every timer, once and in the order of the
records: its label, its number of calls, its time to the hundredth of a second, and whether it runs. -/
theorem C215_timers_partial (t : Table TVal) (h : ∀ e ∈ t, Fine e.1) :
    (rowsOf (timerReport t)).map timerOf = t.map (fun e =>
      some (e.1, some (e.2.call : ℝ), some (roundTo 2 (e.2.time : ℝ)), if e.2.status then "RUNNING".toList else "STOPPED".toList))
    ∧ ∀ e ∈ t, |roundTo 2 (e.2.time : ℝ) - e.2.time| ≤ 1 / 200 := by
  refine ⟨?_, fun e _ => ?_⟩
  · rw [rows_timer t h, List.map_map]
    refine List.map_congr_left fun e _ => ?_
    simp only [Function.comp, timerOf, pyFloat_intStr, pyFloat_fixed, statusStr]
    cases e.2.status <;> rfl
  · have := roundTo_err 2 (e.2.time : ℝ)
    norm_num at this ⊢
    exact this

/-- **C215 (counters).** The table of a `QTMCounter` gives back every counter and its value. -/
theorem C215_counters (t : Table ℤ) (h : ∀ e ∈ t, Fine e.1) :
    (rowsOf (counterReport t)).map counterOf = t.map fun e => some (e.1, some (e.2 : ℝ)) := by
  rw [rows_counter t h, List.map_map]
  refine List.map_congr_left fun e _ => ?_
  simp only [Function.comp, counterOf, pyFloat_intStr]

/-- **C215 (violated).** Printing the logger, documented to show timers and counters, shows no counter. -/
theorem C215_no_counters (t : Table TVal) (c c' : Table ℤ) : loggerReport t c = loggerReport t c' := rfl

/-- **C215 (limit).** Different timers can print the same row: a trailing blank of a label does not show. -/
theorem C215_blanks (v : TVal) : timerRow ("a".toList, v) = timerRow ("a ".toList, v) := by
  have h : center 30 "a".toList = center 30 "a ".toList := by decide
  unfold timerRow
  rw [h]

/-! ## After any history -/

theorem history_fst : ∀ (os : List Op) (s : TState), (history os s).1.map Prod.fst = os
  | [], _ => rfl
  | o :: os, s => by
    show o :: (history os (step o s).2).1.map Prod.fst = _
    rw [history_fst os]

/-- the label an operation names -/
def opLabel : Op → Option Label
  | .tick _ => none
  | .start l | .stop l | .reset l | .delete l => some l

theorem book_exists (l : Label) : ∀ (ps : List (Op × Bool)) (a : Ledger), (ps.foldl (Ledger.book l) a).exists = true →
    a.exists = true ∨ ∃ p ∈ ps, opLabel p.1 = some l
  | [], a, h => .inl h
  | p :: ps, a, h => by
    rcases book_exists l ps _ h with h' | ⟨q, hq, hl⟩
    · by_cases hl : opLabel p.1 = some l
      · exact .inr ⟨p, List.mem_cons_self, hl⟩
      · refine .inl ?_
        obtain ⟨o, ok⟩ := p
        cases o <;> simp_all [Ledger.book, opLabel] <;> (split at h' <;> simp_all)
    · exact .inr ⟨q, List.mem_cons_of_mem _ hq, hl⟩

/-- **C215 (history).** After any history of direct calls on a fresh logger, the printed table has one row
per timer in existence, and the row of timer `l` states what the history says: the successful starts since
creation or reset, the status the last start or stop left, and — up to half a hundredth — the time that
passed while it was running, less the interval that is still open. -/
theorem C215_history (os : List Op) (ho : ∀ o ∈ os, o.Plain) (hf : ∀ o ∈ os, ∀ l, opLabel o = some l → Fine l) (now : ℚ)
    (l : Label) :
    let a := (history os (fresh now)).1.foldl (Ledger.book l) {}
    let rows := (rowsOf (timerReport (history os (fresh now)).2.tbl)).filterMap timerOf
    (rows.map fun r => r.1).Nodup ∧ ((∃ r ∈ rows, r.1 = l) ↔ a.exists = true)
    ∧ ∀ r ∈ rows, r.1 = l → r.2.1 = some (a.starts : ℝ)
      ∧ (r.2.2.2 = "RUNNING".toList ↔ a.running = true) ∧ (r.2.2.2 = "STOPPED".toList ↔ a.running = false)
      ∧ ∃ t, r.2.2.1 = some t ∧ ∃ opened : ℚ, (a.running = false → opened = 0) ∧ |t - ((a.busy - opened : ℚ) : ℝ)| ≤ 1 / 200 := by
  intro a rows
  set t := (history os (fresh now)).2.tbl with ht
  have hw : Wf t := (history_agrees (l := l) os (fresh now) {} ho (fresh_wf now) ⟨by simp, by simp, by simp [Logger.read, fresh]⟩).2
  have hfine : ∀ e ∈ t, Fine e.1 := by
    intro e he
    have h := (C45_history os ho now e.1).2
    have hr : Logger.read t e.1 = some e.2 := (read_eq_some hw.1).2 he
    rw [← ht, hr] at h
    rcases book_exists _ _ _ h.1 with h' | ⟨p, hp, hl⟩
    · exact absurd h' (by simp)
    · exact hf p.1 (by rw [← history_fst os (fresh now)]; exact List.mem_map_of_mem hp) _ hl
  have hrows : rows = t.map fun e => (e.1, some (e.2.call : ℝ), some (roundTo 2 (e.2.time : ℝ)),
      if e.2.status then "RUNNING".toList else "STOPPED".toList) := by
    have h := (C215_timers_partial t hfine).1
    show (rowsOf (timerReport t)).filterMap timerOf = _
    have e1 : (rowsOf (timerReport t)).filterMap timerOf = ((rowsOf (timerReport t)).map timerOf).filterMap id := by
      rw [List.filterMap_map]; rfl
    rw [e1, h, List.filterMap_map]
    exact congrFun List.filterMap_eq_map' t
  rw [hrows]
  refine ⟨?_, ?_, ?_⟩
  · rw [List.map_map]
    exact hw.1
  · have h := (C45_history os ho now l).2
    rw [← ht] at h
    cases hx : Logger.read t l with
    | none =>
      rw [hx] at h
      have hn := read_eq_none.1 hx
      constructor
      · rintro ⟨r, hr, hl⟩
        obtain ⟨e, he, rfl⟩ := List.mem_map.1 hr
        exact absurd (hl ▸ List.mem_map_of_mem he) hn
      · intro ha
        exact absurd (ha.symm.trans h) (by simp)
    | some v =>
      rw [hx] at h
      exact ⟨fun _ => h.1, fun _ => ⟨_, List.mem_map_of_mem ((read_eq_some hw.1).1 hx), rfl⟩⟩
  · intro r hr hl
    obtain ⟨e, he, rfl⟩ := List.mem_map.1 hr
    obtain ⟨k, v⟩ := e
    obtain rfl : k = l := hl
    have h := (C45_history os ho now k).2
    rw [← ht, (read_eq_some hw.1).2 he] at h
    obtain ⟨-, h1, h2, h3⟩ := h
    have e1 : "RUNNING".toList ≠ "STOPPED".toList := by decide
    refine ⟨congrArg (fun z : ℤ => some (z : ℝ)) h1, ?_, ?_, _, rfl, if v.status then (history os (fresh now)).2.now - v.start_time else 0, ?_, ?_⟩
    · rw [← h2]
      cases v.status
      · exact ⟨fun h => absurd h.symm e1, fun h => absurd h (by simp)⟩
      · exact ⟨fun _ => rfl, fun _ => rfl⟩
    · rw [← h2]
      cases v.status
      · exact ⟨fun _ => rfl, fun _ => rfl⟩
      · exact ⟨fun h => absurd h e1, fun h => absurd h (by simp)⟩
    · intro hr
      rw [h2, if_neg]
      exact fun h => absurd (h.symm.trans hr) (by simp)
    · rw [← h3, add_sub_cancel_right]
      exact (C215_timers_partial t hfine).2 _ he

/-! ## Examples -/

/-- a history with a timer that has stopped and one that runs -/
def exOps : List Op :=
  [.start "a".toList, .tick 2, .stop "a".toList, .start "scf:run".toList, .tick 3]

example : (∀ o ∈ exOps, o.Plain) ∧ ∀ o ∈ exOps, ∀ l, opLabel o = some l → Fine l := by
  constructor
  · intro o ho
    simp only [exOps, List.mem_cons, List.not_mem_nil, or_false] at ho
    rcases ho with rfl | rfl | rfl | rfl | rfl
    · exact (by decide : Logger.Plain "a".toList)
    · trivial
    · exact (by decide : Logger.Plain "a".toList)
    · exact (by decide : Logger.Plain "scf:run".toList)
    · trivial
  · have h1 : Fine "a".toList := ⟨by decide, by decide, fun c hc => by obtain rfl := Option.some.inj hc; rfl,
      fun c hc => by obtain rfl := Option.some.inj hc; rfl⟩
    have h2 : Fine "scf:run".toList := ⟨by decide, by decide, fun c hc => by obtain rfl := Option.some.inj hc; rfl,
      fun c hc => by obtain rfl := Option.some.inj hc; rfl⟩
    intro o ho l hl
    simp only [exOps, List.mem_cons, List.not_mem_nil, or_false] at ho
    rcases ho with rfl | rfl | rfl | rfl | rfl <;> simp only [opLabel, Option.some.injEq, reduceCtorEq] at hl
    · exact hl ▸ h1
    · exact hl ▸ h1
    · exact hl ▸ h2

end Verif.TimerReport
