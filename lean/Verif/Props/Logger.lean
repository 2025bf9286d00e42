import Mathlib.Data.List.Nodup
import Mathlib.Data.List.GetD
import Mathlib.Data.Finset.Card
import Mathlib.Data.Finset.Union
import Mathlib.Data.List.Induction
import Mathlib.Tactic.Ring
import Mathlib.Tactic.Linarith
import Verif.Model.Logger

/-!
# Timers and counters (C45, C46, C47)
-/

namespace Verif.Logger

/-! ## Specification vocabulary -/

/-- Labels that fit the label field: at most 30 characters, none of them NUL. -/
def Plain (l : Label) : Prop := l.length ≤ 30 ∧ '\x00' ∉ l

instance (l : Label) : Decidable (Plain l) := by unfold Plain; infer_instance

/-- The record a user sees under label `l` when the table is printed. -/
def read {V : Type} (t : Table V) (l : Label) : Option V := (t.find? fun e => e.1 == l).map Prod.snd

/-- A table as left behind by earlier operations: one row per label. -/
def Wf {V : Type} (t : Table V) : Prop := (t.map Prod.fst).Nodup ∧ t.length ≤ maxEntries

/-! ## Tables -/

section table
variable {V : Type}

theorem rstrip0_plain {l : Label} (h : Plain l) : rstrip0 l = l := by
  unfold rstrip0
  have hd : l.reverse.dropWhile (· == '\x00') = l.reverse := by
    cases hr : l.reverse with
    | nil => rfl
    | cons a t =>
      have ha : a ∈ l := by rw [← List.mem_reverse, hr]; simp
      have : a ≠ '\x00' := fun e => h.2 (e ▸ ha)
      rw [List.dropWhile_cons_of_neg (by simpa using this)]
  rw [hd, List.reverse_reverse]

theorem u30_plain {l : Label} (h : Plain l) : u30 l = l := by
  unfold u30
  rw [List.take_of_length_le h.1, rstrip0_plain h]

theorem read_eq_some {t : Table V} (hn : (t.map Prod.fst).Nodup) {l : Label} {v : V} :
    read t l = some v ↔ (l, v) ∈ t := by
  induction t with
  | nil => simp [read]
  | cons e t ih =>
    simp only [List.map_cons, List.nodup_cons] at hn
    unfold read at *
    rw [List.find?_cons]
    by_cases he : e.1 = l
    · simp only [he, beq_self_eq_true, Option.map_some, Option.some.injEq, List.mem_cons]
      constructor
      · intro h; left; rw [← he, ← h]
      · rintro (h | h)
        · rw [← h]
        · exact absurd (List.mem_map_of_mem (f := Prod.fst) h) (he ▸ hn.1)
    · have : (e.1 == l) = false := by simpa using he
      simp only [this, List.mem_cons]
      rw [ih hn.2]
      constructor
      · exact Or.inr
      · rintro (h | h)
        · exact absurd (by rw [← h]) he
        · exact h

theorem read_eq_none {t : Table V} {l : Label} : read t l = none ↔ l ∉ t.map Prod.fst := by
  unfold read
  rw [Option.map_eq_none_iff, List.find?_eq_none]
  simp only [beq_iff_eq, List.mem_map, not_exists, not_and]

theorem findAll_mem {t : Table V} {l : Label} (hl : Plain l) {i : ℕ} :
    i ∈ findAll t l ↔ ∃ v, t[i]? = some (l, v) := by
  unfold findAll
  rw [List.mem_filter, List.mem_range, rstrip0_plain hl]
  constructor
  · rintro ⟨hi, h⟩
    rw [List.getElem?_eq_getElem hi] at h ⊢
    simp only [Option.any_some, beq_iff_eq] at h
    exact ⟨t[i].2, by rw [← h]⟩
  · rintro ⟨v, h⟩
    refine ⟨(List.getElem?_eq_some_iff.mp h).1, ?_⟩
    rw [h]; simp

theorem findAll_nodup (t : Table V) (l : Label) : (findAll t l).Nodup := List.nodup_range.filter _

theorem key_index_unique {t : Table V} (hn : (t.map Prod.fst).Nodup) {i j : ℕ} {l : Label} {v w : V}
    (hi : t[i]? = some (l, v)) (hj : t[j]? = some (l, w)) : i = j := by
  have hi' : (t.map Prod.fst)[i]? = some l := by rw [List.getElem?_map, hi]; rfl
  have hj' : (t.map Prod.fst)[j]? = some l := by rw [List.getElem?_map, hj]; rfl
  obtain ⟨h1, e1⟩ := List.getElem?_eq_some_iff.mp hi'
  obtain ⟨h2, e2⟩ := List.getElem?_eq_some_iff.mp hj'
  exact (List.Nodup.getElem_inj_iff hn).mp (e1.trans e2.symm)

theorem find_none {t : Table V} {l : Label} (hl : Plain l) (h : read t l = none) : find t l = .ok none := by
  have : findAll t l = [] := by
    rw [List.eq_nil_iff_forall_not_mem]
    intro i hi
    obtain ⟨v, hv⟩ := (findAll_mem hl).mp hi
    exact read_eq_none.mp h (List.mem_map.mpr ⟨(l, v), List.mem_of_getElem? hv, rfl⟩)
  unfold find; rw [this]

theorem find_some {t : Table V} (hn : (t.map Prod.fst).Nodup) {l : Label} (hl : Plain l) {v : V}
    (h : read t l = some v) : ∃ i, find t l = .ok (some i) ∧ t[i]? = some (l, v) := by
  obtain ⟨i, hi⟩ := List.mem_iff_getElem?.mp ((read_eq_some hn).mp h)
  refine ⟨i, ?_, hi⟩
  have hall : ∀ j ∈ findAll t l, j = i := fun j hj => by
    obtain ⟨w, hw⟩ := (findAll_mem hl).mp hj
    exact key_index_unique hn hw hi
  have hmem : i ∈ findAll t l := (findAll_mem hl).mpr ⟨v, hi⟩
  have : findAll t l = [i] := by
    have hnd := findAll_nodup t l
    cases hf : findAll t l with
    | nil => rw [hf] at hmem; simp at hmem
    | cons a r =>
      rw [hf] at hall hnd
      have ha := hall a (by simp)
      cases r with
      | nil => rw [ha]
      | cons b r =>
        have hb := hall b (by simp)
        subst ha; subst hb
        simp at hnd
  unfold find; rw [this]

theorem keys_set {t : Table V} {i : ℕ} {k : Label} {v w : V} (h : t[i]? = some (k, v)) :
    (t.set i (k, w)).map Prod.fst = t.map Prod.fst := by
  rw [List.map_set]
  apply List.ext_getElem?
  intro j
  rw [List.getElem?_set]
  split_ifs with h1 h2
  · subst h1; rw [List.getElem?_map, h]; rfl
  · subst h1
    rw [List.getElem?_eq_none (by simpa using h2)]
  · rfl

theorem read_set {t : Table V} (hn : (t.map Prod.fst).Nodup) {i : ℕ} {k : Label} {v w : V}
    (h : t[i]? = some (k, v)) (l : Label) :
    read (t.set i (k, w)) l = if l = k then some w else read t l := by
  have hn' : ((t.set i (k, w)).map Prod.fst).Nodup := by rw [keys_set h]; exact hn
  have hi := (List.getElem?_eq_some_iff.mp h).1
  split_ifs with hl
  · subst hl
    rw [read_eq_some hn']
    exact List.mem_iff_getElem?.mpr ⟨i, by rw [List.getElem?_set_self hi]⟩
  · apply Option.ext
    intro x
    rw [read_eq_some hn', read_eq_some hn, List.mem_iff_getElem?, List.mem_iff_getElem?]
    constructor
    · rintro ⟨j, hj⟩
      by_cases hij : i = j
      · subst hij
        rw [List.getElem?_set_self hi] at hj
        simp only [Option.some.injEq, Prod.mk.injEq] at hj
        exact absurd hj.1.symm hl
      · rw [List.getElem?_set_ne hij] at hj
        exact ⟨j, hj⟩
    · rintro ⟨j, hj⟩
      by_cases hij : i = j
      · subst hij
        rw [h] at hj
        simp only [Option.some.injEq, Prod.mk.injEq] at hj
        exact absurd hj.1.symm hl
      · exact ⟨j, by rw [List.getElem?_set_ne hij]; exact hj⟩

theorem read_append {t : Table V} {k : Label} {v : V} (h : read t k = none) (l : Label) :
    read (t ++ [(k, v)]) l = if l = k then some v else read t l := by
  unfold read at *
  rw [List.find?_append]
  split_ifs with hl
  · subst hl
    rw [Option.map_eq_none_iff] at h
    rw [h]; simp
  · have : ((k == l) : Bool) = false := by simpa using fun e : k = l => hl e.symm
    simp [this]

theorem nodup_append {t : Table V} (hn : (t.map Prod.fst).Nodup) {k : Label} {v : V} (h : read t k = none) :
    ((t ++ [(k, v)]).map Prod.fst).Nodup := by
  rw [List.map_append, List.map_singleton, ← List.concat_eq_append, List.nodup_concat]
  exact ⟨read_eq_none.mp h, hn⟩

theorem removeAt_perm {t : Table V} {i : ℕ} (hi : i < t.length) : (removeAt t i).Perm (t.eraseIdx i) := by
  obtain ⟨xs, x, rfl⟩ : ∃ xs x, t = xs ++ [x] :=
    ⟨t.dropLast, t.getLast (by rintro rfl; simp at hi),
      (List.dropLast_append_getLast (by rintro rfl; simp at hi)).symm⟩
  unfold removeAt
  rw [List.getLast?_concat]
  simp only
  rw [List.length_append, List.length_singleton] at hi
  by_cases h : i < xs.length
  · rw [List.set_append_left _ _ h, List.dropLast_concat, List.eraseIdx_append_of_lt_length h,
      List.set_eq_take_append_cons_drop, if_pos h, List.eraseIdx_eq_take_drop_succ, List.append_assoc]
    exact List.Perm.append_left _ (List.perm_append_singleton _ _).symm
  · have : i = xs.length := by omega
    subst this
    rw [List.set_append_right _ _ le_rfl, List.eraseIdx_append_of_length_le le_rfl]
    simp

theorem keys_eraseIdx_nodup {t : Table V} (hn : (t.map Prod.fst).Nodup) (i : ℕ) :
    ((t.eraseIdx i).map Prod.fst).Nodup :=
  hn.sublist ((List.eraseIdx_sublist t i).map _)

theorem removeAt_nodup {t : Table V} (hn : (t.map Prod.fst).Nodup) {i : ℕ} (hi : i < t.length) :
    ((removeAt t i).map Prod.fst).Nodup :=
  (((removeAt_perm hi).map Prod.fst).nodup_iff).mpr (keys_eraseIdx_nodup hn i)

theorem read_removeAt {t : Table V} (hn : (t.map Prod.fst).Nodup) {i : ℕ} {k : Label} {v : V}
    (h : t[i]? = some (k, v)) (l : Label) :
    read (removeAt t i) l = if l = k then none else read t l := by
  have hi := (List.getElem?_eq_some_iff.mp h).1
  have hmem : ∀ x, x ∈ removeAt t i ↔ ∃ j, j ≠ i ∧ t[j]? = some x := fun x => by
    rw [(removeAt_perm hi).mem_iff, List.mem_eraseIdx_iff_getElem?]
  apply Option.ext
  intro x
  rw [read_eq_some (removeAt_nodup hn hi), hmem]
  constructor
  · rintro ⟨j, hj, hx⟩
    rw [if_neg, read_eq_some hn]
    · exact List.mem_of_getElem? hx
    · rintro rfl
      exact hj (key_index_unique hn hx h)
  · intro hx
    split_ifs at hx with hl
    obtain ⟨j, hj⟩ := List.mem_iff_getElem?.mp ((read_eq_some hn).mp hx)
    refine ⟨j, ?_, hj⟩
    rintro rfl
    rw [h] at hj
    simp only [Option.some.injEq, Prod.mk.injEq] at hj
    exact hl hj.1.symm

theorem removeAt_length {t : Table V} {i : ℕ} (hi : i < t.length) : (removeAt t i).length = t.length - 1 := by
  rw [(removeAt_perm hi).length_eq, List.length_eraseIdx_of_lt hi]

end table

/-! ## Single operations -/

/-- The timer labelled `l` is running. -/
def Running (s : TState) (l : Label) : Prop := ∃ v, read s.tbl l = some v ∧ v.status = true

theorem startTimer_spec {s : TState} (hw : Wf s.tbl) {l : Label} (hl : Plain l) :
    ((startTimer l s).1 = match read s.tbl l with
      | some v => if v.status then .error .value else .ok ()
      | none => if s.tbl.length < maxEntries then .ok () else .error .index)
    ∧ (∀ l', read (startTimer l s).2.tbl l' =
        if l' = l ∧ (startTimer l s).1 = .ok () then
          match read s.tbl l with
          | some v => some { v with call := v.call + 1, status := true, start_time := s.now }
          | none => some ⟨1, 0, true, s.now⟩
        else read s.tbl l')
    ∧ Wf (startTimer l s).2.tbl ∧ (startTimer l s).2.now = s.now ∧ (startTimer l s).2.enabled = s.enabled := by
  cases hr : read s.tbl l with
  | none =>
    have hs : startTimer l s = if s.tbl.length < maxEntries then
        startAt { s with tbl := s.tbl ++ [(u30 l, ⟨0, 0, false, 0⟩)] } s.tbl.length
      else (.error .index, s) := by
      unfold startTimer; rw [find_none hl hr]
    rw [u30_plain hl] at hs
    by_cases hlen : s.tbl.length < maxEntries
    · have hget : (s.tbl ++ [(l, (⟨0, 0, false, 0⟩ : TVal))])[s.tbl.length]? = some (l, ⟨0, 0, false, 0⟩) := by
        simp
      have hs' : startTimer l s = (.ok (), { s with tbl :=
          (s.tbl ++ [(l, (⟨0, 0, false, 0⟩ : TVal))]).set s.tbl.length (l, ⟨0 + 1, 0, true, s.now⟩) }) := by
        rw [hs, if_pos hlen]
        unfold startAt
        simp only [hget]
        rfl
      have hnd := nodup_append hw.1 (v := (⟨0, 0, false, 0⟩ : TVal)) hr
      rw [hs']
      refine ⟨by simp [hlen], ?_, ⟨?_, ?_⟩, rfl, rfl⟩
      · intro l'
        simp only
        rw [read_set hnd hget, read_append hr]
        by_cases h : l' = l <;> simp [h]
      · simp only; rw [keys_set hget]; exact hnd
      · simp only [List.length_set, List.length_append, List.length_singleton]; exact hlen
    · rw [hs, if_neg hlen]
      refine ⟨by simp [hlen], ?_, hw, rfl, rfl⟩
      intro l'; simp
  | some v =>
    obtain ⟨i, hf, hi⟩ := find_some hw.1 hl hr
    have hs : startTimer l s = startAt s i := by unfold startTimer; rw [hf]
    by_cases hv : v.status = true
    · have hs' : startTimer l s = (.error .value, s) := by
        rw [hs]; unfold startAt; simp only [hi]; rw [if_pos hv]
      rw [hs']
      refine ⟨by simp [hv], ?_, hw, rfl, rfl⟩
      intro l'; simp
    · have hs' : startTimer l s = (.ok (), { s with tbl :=
          (s.tbl.set i (l, { v with status := true, call := v.call + 1, start_time := s.now })) }) := by
        rw [hs]; unfold startAt; simp only [hi]; rw [if_neg hv]
      rw [hs']
      refine ⟨by simp [hv], ?_, ⟨?_, ?_⟩, rfl, rfl⟩
      · intro l'
        simp only
        rw [read_set hw.1 hi]
        by_cases h : l' = l <;> simp [h]
      · simp only; rw [keys_set hi]; exact hw.1
      · simp only [List.length_set]; exact hw.2

theorem stopTimer_spec {s : TState} (hw : Wf s.tbl) {l : Label} (hl : Plain l) :
    ((stopTimer l s).1 = match read s.tbl l with
      | some v => if v.status then .ok () else .error .value
      | none => .error .value)
    ∧ (∀ l', read (stopTimer l s).2.tbl l' =
        if l' = l ∧ (stopTimer l s).1 = .ok () then
          (read s.tbl l).map fun v => ⟨v.call, v.time + (s.now - v.start_time), false, 0⟩
        else read s.tbl l')
    ∧ Wf (stopTimer l s).2.tbl ∧ (stopTimer l s).2.now = s.now ∧ (stopTimer l s).2.enabled = s.enabled := by
  cases hr : read s.tbl l with
  | none =>
    have hs : stopTimer l s = (.error .value, s) := by unfold stopTimer; rw [find_none hl hr]
    rw [hs]
    exact ⟨rfl, fun l' => by simp, hw, rfl, rfl⟩
  | some v =>
    obtain ⟨i, hf, hi⟩ := find_some hw.1 hl hr
    by_cases hv : v.status = true
    · have hs : stopTimer l s = (.ok (), { s with tbl :=
          (s.tbl.set i (l, ⟨v.call, v.time + (s.now - v.start_time), false, 0⟩)) }) := by
        unfold stopTimer; simp only [hf, hi]; rw [if_pos hv]
      rw [hs]
      refine ⟨by simp [hv], ?_, ⟨?_, ?_⟩, rfl, rfl⟩
      · intro l'
        simp only
        rw [read_set hw.1 hi]
        by_cases h : l' = l <;> simp [h]
      · simp only; rw [keys_set hi]; exact hw.1
      · simp only [List.length_set]; exact hw.2
    · have hs : stopTimer l s = (.error .value, s) := by
        unfold stopTimer; simp only [hf, hi]; rw [if_neg hv]
      rw [hs]
      exact ⟨by simp [hv], fun l' => by simp, hw, rfl, rfl⟩

theorem resetTimer_spec {s : TState} (hw : Wf s.tbl) {l : Label} (hl : Plain l) :
    ((resetTimer l s).1 = match read s.tbl l with
      | some _ => .ok ()
      | none => .error .value)
    ∧ (∀ l', read (resetTimer l s).2.tbl l' =
        if l' = l then (read s.tbl l).map fun v => ⟨0, 0, false, v.start_time⟩ else read s.tbl l')
    ∧ Wf (resetTimer l s).2.tbl ∧ (resetTimer l s).2.now = s.now ∧ (resetTimer l s).2.enabled = s.enabled := by
  cases hr : read s.tbl l with
  | none =>
    have hs : resetTimer l s = (.error .value, s) := by unfold resetTimer; rw [find_none hl hr]
    rw [hs]
    refine ⟨rfl, fun l' => ?_, hw, rfl, rfl⟩
    by_cases h : l' = l
    · subst h; simp [hr]
    · simp [h]
  | some v =>
    obtain ⟨i, hf, hi⟩ := find_some hw.1 hl hr
    have hs : resetTimer l s = (.ok (), { s with tbl := s.tbl.set i (l, ⟨0, 0, false, v.start_time⟩) }) := by
      unfold resetTimer; simp only [hf, hi]
    rw [hs]
    refine ⟨rfl, ?_, ⟨?_, ?_⟩, rfl, rfl⟩
    · intro l'
      simp only
      rw [read_set hw.1 hi]
      rfl
    · simp only; rw [keys_set hi]; exact hw.1
    · simp only [List.length_set]; exact hw.2

theorem deleteTimer_spec {s : TState} (hw : Wf s.tbl) {l : Label} (hl : Plain l) :
    ((deleteTimer l s).1 = match read s.tbl l with
      | some _ => .ok ()
      | none => .error .value)
    ∧ (∀ l', read (deleteTimer l s).2.tbl l' = if l' = l then none else read s.tbl l')
    ∧ Wf (deleteTimer l s).2.tbl ∧ (deleteTimer l s).2.now = s.now ∧ (deleteTimer l s).2.enabled = s.enabled := by
  cases hr : read s.tbl l with
  | none =>
    have hs : deleteTimer l s = (.error .value, s) := by unfold deleteTimer; rw [find_none hl hr]
    rw [hs]
    refine ⟨rfl, fun l' => ?_, hw, rfl, rfl⟩
    by_cases h : l' = l
    · subst h; simp [hr]
    · simp [h]
  | some v =>
    obtain ⟨i, hf, hi⟩ := find_some hw.1 hl hr
    have hlt := (List.getElem?_eq_some_iff.mp hi).1
    have hs : deleteTimer l s = (.ok (), { s with tbl := removeAt s.tbl i }) := by
      unfold deleteTimer; simp only [hf]
    rw [hs]
    refine ⟨rfl, fun l' => read_removeAt hw.1 hi l', ⟨removeAt_nodup hw.1 hlt, ?_⟩, rfl, rfl⟩
    simp only [removeAt_length hlt]
    have := hw.2
    omega

/-! ## Histories of direct timer calls (C45) -/

/-- One thing that happens to the timers. -/
inductive Op
  | tick (d : ℚ)
  | start (l : Label)
  | stop (l : Label)
  | reset (l : Label)
  | delete (l : Label)

/-- The label an operation uses fits. -/
def Op.Plain : Op → Prop
  | .tick _ => True
  | .start l | .stop l | .reset l | .delete l => Logger.Plain l

/-- Perform one operation (exceptions are caught by the caller). -/
def step : Op → TState → Out
  | .tick d => run (.work d)
  | .start l => run (.start l)
  | .stop l => run (.stop l)
  | .reset l => run (.reset l)
  | .delete l => run (.delete l)

/-- The operations with a flag telling whether each raised nothing, and the final state. -/
def history : List Op → TState → List (Op × Bool) × TState
  | [], s => ([], s)
  | o :: os, s =>
    let r := step o s
    let t := history os r.2
    ((o, match r.1 with | .ok _ => true | .error _ => false) :: t.1, t.2)

/-- What a user can say about timer `l` from the history alone. -/
structure Ledger where
  «exists» : Bool := false
  /-- successful starts since creation or reset -/
  starts : ℤ := 0
  /-- successful stops since creation or reset -/
  stops : ℤ := 0
  running : Bool := false
  /-- time that passed while running -/
  busy : ℚ := 0

/-- Book one event. -/
def Ledger.book (l : Label) (a : Ledger) : Op × Bool → Ledger
  | (.tick d, _) => if a.running then { a with busy := a.busy + d } else a
  | (.start l', ok) => if ok ∧ l' = l then { a with «exists» := true, starts := a.starts + 1, running := true } else a
  | (.stop l', ok) => if ok ∧ l' = l then { a with stops := a.stops + 1, running := false } else a
  | (.reset l', ok) => if ok ∧ l' = l then { «exists» := true } else a
  | (.delete l', ok) => if ok ∧ l' = l then {} else a

/-- The ledger agrees with the record of the timer. -/
def Agrees (a : Ledger) (s : TState) (l : Label) : Prop :=
  a.starts = a.stops + (if a.running then 1 else 0) ∧ (a.running = true → a.exists = true) ∧
  match read s.tbl l with
  | none => a.exists = false ∧ a.starts = 0 ∧ a.busy = 0
  | some v => a.exists = true ∧ v.call = a.starts ∧ v.status = a.running ∧
      v.time + (if v.status then s.now - v.start_time else 0) = a.busy

/-- Outcome of an operation as a flag. -/
def isOk : Except PyErr Unit → Bool
  | .ok _ => true
  | .error _ => false

theorem isOk_iff {r : Except PyErr Unit} : isOk r = true ↔ r = .ok () := by
  cases r <;> simp [isOk]

theorem step_wf {s : TState} (hw : Wf s.tbl) {o : Op} (ho : o.Plain) : Wf (step o s).2.tbl := by
  cases o with
  | tick d => exact hw
  | start l => exact (startTimer_spec hw ho).2.2.1
  | stop l => exact (stopTimer_spec hw ho).2.2.1
  | reset l => exact (resetTimer_spec hw ho).2.2.1
  | delete l => exact (deleteTimer_spec hw ho).2.2.1

theorem step_agrees {s : TState} (hw : Wf s.tbl) {o : Op} (ho : o.Plain) {l : Label} {a : Ledger} (ha : Agrees a s l) :
    Agrees (a.book l (o, isOk (step o s).1)) (step o s).2 l := by
  obtain ⟨ex, sts, sps, rn, bz⟩ := a
  obtain ⟨h1, h2, h3⟩ := ha
  simp only at h1 h2
  cases o with
  | tick d =>
    simp only [step, run, Ledger.book]
    cases hr : read s.tbl l with
    | none =>
      rw [hr] at h3
      obtain ⟨e, e', e''⟩ := h3
      simp only at e e' e''
      have : rn = false := by cases rn <;> simp_all
      subst this
      refine ⟨by simpa using h1, by simp, ?_⟩
      simp only [hr]; exact ⟨e, e', e''⟩
    | some v =>
      rw [hr] at h3
      obtain ⟨e, c, st, t⟩ := h3
      simp only at e c st t
      obtain ⟨cl, tm, stt, stm⟩ := v
      simp only at st t c
      subst st
      cases stt
      · refine ⟨by simpa using h1, by simp, ?_⟩
        simp only [hr]
        exact ⟨e, c, rfl, by simpa using t⟩
      · refine ⟨by simpa using h1, fun _ => e, ?_⟩
        simp only [hr]
        refine ⟨e, c, rfl, ?_⟩
        simp only [if_true] at t ⊢
        rw [← t]; ring
  | start l' =>
    obtain ⟨e1, e2, -, e4, -⟩ := startTimer_spec hw ho
    have hst : step (.start l') s = startTimer l' s := rfl
    rw [hst]
    by_cases hok : (startTimer l' s).1 = .ok ()
    · by_cases hl : l' = l
      · subst hl
        have hb : Ledger.book l' ⟨ex, sts, sps, rn, bz⟩ (.start l', isOk (startTimer l' s).1) =
            ⟨true, sts + 1, sps, true, bz⟩ := by
          rw [hok]; simp [Ledger.book, isOk]
        rw [hb]
        have hr' := e2 l'
        simp only [hok, and_self, if_true] at hr'
        cases hr : read s.tbl l' with
        | none =>
          rw [hr] at h3 hr'
          obtain ⟨e, c, z⟩ := h3
          simp only at e c z
          have hrn : rn = false := by cases rn <;> simp_all
          subst hrn
          refine ⟨by simpa using h1, fun _ => rfl, ?_⟩
          simp only at hr'
          rw [hr']
          simp only [e4, if_true]
          refine ⟨trivial, by rw [c]; rfl, trivial, by rw [z]; ring⟩
        | some v =>
          rw [hr] at h3 hr'
          obtain ⟨e, c, st, t⟩ := h3
          simp only at e c st t
          have hv : v.status = false := by
            rw [hr, hok] at e1
            by_contra hc
            simp [hc] at e1
          rw [hv] at st t
          subst st
          refine ⟨by simpa using h1, fun _ => rfl, ?_⟩
          simp only at hr'
          rw [hr']
          simp only [e4, if_true]
          refine ⟨trivial, by rw [c], trivial, ?_⟩
          simp at t
          rw [← t]; ring
      · have hb : Ledger.book l ⟨ex, sts, sps, rn, bz⟩ (.start l', isOk (startTimer l' s).1) =
            ⟨ex, sts, sps, rn, bz⟩ := by simp [Ledger.book, hl]
        rw [hb]
        refine ⟨h1, h2, ?_⟩
        rw [e2 l, if_neg (fun h => hl h.1.symm), e4]
        exact h3
    · have hb : Ledger.book l ⟨ex, sts, sps, rn, bz⟩ (.start l', isOk (startTimer l' s).1) =
            ⟨ex, sts, sps, rn, bz⟩ := by
        have : isOk (startTimer l' s).1 = false := by
          rw [← Bool.not_eq_true, isOk_iff]; exact hok
        simp [Ledger.book, this]
      rw [hb]
      refine ⟨h1, h2, ?_⟩
      rw [e2 l, if_neg (fun h => hok h.2), e4]
      exact h3
  | stop l' =>
    obtain ⟨e1, e2, -, e4, -⟩ := stopTimer_spec hw ho
    have hst : step (.stop l') s = stopTimer l' s := rfl
    rw [hst]
    by_cases hok : (stopTimer l' s).1 = .ok ()
    · by_cases hl : l' = l
      · subst hl
        have hb : Ledger.book l' ⟨ex, sts, sps, rn, bz⟩ (.stop l', isOk (stopTimer l' s).1) =
            ⟨ex, sts, sps + 1, false, bz⟩ := by
          rw [hok]; simp [Ledger.book, isOk]
        rw [hb]
        have hr' := e2 l'
        simp only [hok, and_self, if_true] at hr'
        cases hr : read s.tbl l' with
        | none => rw [hr, hok] at e1; simp at e1
        | some v =>
          rw [hr] at h3 hr'
          obtain ⟨e, c, st, t⟩ := h3
          simp only at e c st t
          have hv : v.status = true := by
            rw [hr, hok] at e1
            by_contra hc
            simp [hc] at e1
          rw [hv] at st t
          subst st
          refine ⟨by simpa using h1, by simp, ?_⟩
          simp only [Option.map_some] at hr'
          rw [hr']
          refine ⟨e, c, rfl, ?_⟩
          simpa using t
      · have hb : Ledger.book l ⟨ex, sts, sps, rn, bz⟩ (.stop l', isOk (stopTimer l' s).1) =
            ⟨ex, sts, sps, rn, bz⟩ := by simp [Ledger.book, hl]
        rw [hb]
        refine ⟨h1, h2, ?_⟩
        rw [e2 l, if_neg (fun h => hl h.1.symm), e4]
        exact h3
    · have hb : Ledger.book l ⟨ex, sts, sps, rn, bz⟩ (.stop l', isOk (stopTimer l' s).1) =
            ⟨ex, sts, sps, rn, bz⟩ := by
        have : isOk (stopTimer l' s).1 = false := by
          rw [← Bool.not_eq_true, isOk_iff]; exact hok
        simp [Ledger.book, this]
      rw [hb]
      refine ⟨h1, h2, ?_⟩
      rw [e2 l, if_neg (fun h => hok h.2), e4]
      exact h3
  | reset l' =>
    obtain ⟨e1, e2, -, e4, -⟩ := resetTimer_spec hw ho
    have hst : step (.reset l') s = resetTimer l' s := rfl
    rw [hst]
    by_cases hl : l' = l
    · subst hl
      have hr' := e2 l'
      simp only [if_true] at hr'
      cases hr : read s.tbl l' with
      | none =>
        rw [hr] at e1 hr' h3
        simp only at e1
        have hb : Ledger.book l' ⟨ex, sts, sps, rn, bz⟩ (.reset l', isOk (resetTimer l' s).1) =
            ⟨ex, sts, sps, rn, bz⟩ := by rw [e1]; simp [Ledger.book, isOk]
        rw [hb]
        refine ⟨h1, h2, ?_⟩
        rw [hr']
        exact h3
      | some v =>
        rw [hr] at e1 hr' h3
        simp only at e1
        have hb : Ledger.book l' ⟨ex, sts, sps, rn, bz⟩ (.reset l', isOk (resetTimer l' s).1) =
            ⟨true, 0, 0, false, 0⟩ := by rw [e1]; simp [Ledger.book, isOk]
        rw [hb]
        refine ⟨by simp, by simp, ?_⟩
        rw [hr']
        simp
    · have hb : Ledger.book l ⟨ex, sts, sps, rn, bz⟩ (.reset l', isOk (resetTimer l' s).1) =
            ⟨ex, sts, sps, rn, bz⟩ := by simp [Ledger.book, hl]
      rw [hb]
      refine ⟨h1, h2, ?_⟩
      rw [e2 l, if_neg (fun h => hl h.symm), e4]
      exact h3
  | delete l' =>
    obtain ⟨e1, e2, -, e4, -⟩ := deleteTimer_spec hw ho
    have hst : step (.delete l') s = deleteTimer l' s := rfl
    rw [hst]
    by_cases hl : l' = l
    · subst hl
      have hr' := e2 l'
      simp only [if_true] at hr'
      cases hr : read s.tbl l' with
      | none =>
        rw [hr] at e1 h3
        simp only at e1
        have hb : Ledger.book l' ⟨ex, sts, sps, rn, bz⟩ (.delete l', isOk (deleteTimer l' s).1) =
            ⟨ex, sts, sps, rn, bz⟩ := by rw [e1]; simp [Ledger.book, isOk]
        rw [hb]
        refine ⟨h1, h2, ?_⟩
        rw [hr']
        exact h3
      | some v =>
        rw [hr] at e1
        simp only at e1
        have hb : Ledger.book l' ⟨ex, sts, sps, rn, bz⟩ (.delete l', isOk (deleteTimer l' s).1) = {} := by
          rw [e1]; simp [Ledger.book, isOk]
        rw [hb]
        refine ⟨by simp, by simp, ?_⟩
        rw [hr']
        simp
    · have hb : Ledger.book l ⟨ex, sts, sps, rn, bz⟩ (.delete l', isOk (deleteTimer l' s).1) =
            ⟨ex, sts, sps, rn, bz⟩ := by simp [Ledger.book, hl]
      rw [hb]
      refine ⟨h1, h2, ?_⟩
      rw [e2 l, if_neg (fun h => hl h.symm), e4]
      exact h3

theorem history_agrees {l : Label} : ∀ (os : List Op) (s : TState) (a : Ledger), (∀ o ∈ os, o.Plain) → Wf s.tbl →
    Agrees a s l →
    Agrees ((history os s).1.foldl (Ledger.book l) a) (history os s).2 l ∧ Wf (history os s).2.tbl
  | [], s, a, _, hw, ha => ⟨ha, hw⟩
  | o :: os, s, a, ho, hw, ha => by
    have h := step_agrees hw (ho o (by simp)) ha
    have := history_agrees os (step o s).2 _ (fun o' h' => ho o' (by simp [h'])) (step_wf hw (ho o (by simp))) h
    exact this

/-- A fresh `QTMTimer`. -/
def fresh (now : ℚ) : TState := ⟨[], now, true⟩

theorem fresh_wf (now : ℚ) : Wf (fresh now).tbl := ⟨by simp [fresh], by simp [fresh]⟩

/-- **C45.** After any history of direct calls and elapsed time on a fresh logger, each timer's record is what the history says:
its call count is the number of successful starts (since creation or reset), which is the number of completed intervals plus
one if the timer is running; its status is what the last successful start/stop left; and its recorded time, plus the current
interval if running, is the time that passed while it was running. -/
theorem C45_history (os : List Op) (ho : ∀ o ∈ os, o.Plain) (now : ℚ) (l : Label) :
    let a := (history os (fresh now)).1.foldl (Ledger.book l) {}
    a.starts = a.stops + (if a.running then 1 else 0) ∧
    match read (history os (fresh now)).2.tbl l with
    | none => a.exists = false
    | some v => a.exists = true ∧ v.call = a.starts ∧ v.status = a.running ∧
        v.time + (if v.status then (history os (fresh now)).2.now - v.start_time else 0) = a.busy := by
  have h0 : Agrees {} (fresh now) l := ⟨by simp, by simp, by simp [read, fresh]⟩
  obtain ⟨⟨h1, -, h3⟩, -⟩ := history_agrees os (fresh now) {} ho (fresh_wf now) h0
  refine ⟨h1, ?_⟩
  split at h3
  · exact h3.1
  · exact h3

/-- **C45.** In every state reached from a fresh logger: starting a running timer raises `ValueError`; starting any other
succeeds (as long as at most 500 labels are in use); stopping succeeds exactly for running timers; resetting and deleting
succeed exactly for existing ones; and an operation that raises leaves every record as it was. -/
theorem C45_outcomes (os : List Op) (ho : ∀ o ∈ os, o.Plain) (now : ℚ) (l : Label) (hl : Plain l) :
    let s := (history os (fresh now)).2
    (Running s l → (startTimer l s).1 = .error .value)
    ∧ (¬ Running s l → (read s.tbl l ≠ none ∨ s.tbl.length < 500) → (startTimer l s).1 = .ok ())
    ∧ (Running s l → (stopTimer l s).1 = .ok ()) ∧ (¬ Running s l → (stopTimer l s).1 = .error .value)
    ∧ ((resetTimer l s).1 = if (read s.tbl l).isSome then .ok () else .error .value)
    ∧ ((deleteTimer l s).1 = if (read s.tbl l).isSome then .ok () else .error .value)
    ∧ ∀ o, o.Plain → (step o s).1 ≠ .ok () → ∀ l', read (step o s).2.tbl l' = read s.tbl l' := by
  intro s
  have h0 : Agrees {} (fresh now) l := ⟨by simp, by simp, by simp [read, fresh]⟩
  have hw : Wf s.tbl := (history_agrees os (fresh now) {} ho (fresh_wf now) h0).2
  refine ⟨?_, ?_, ?_, ?_, ?_, ?_, ?_⟩
  · rintro ⟨v, hv, hs⟩
    rw [(startTimer_spec hw hl).1, hv]; simp [hs]
  · intro hn hroom
    rw [(startTimer_spec hw hl).1]
    cases hr : read s.tbl l with
    | none =>
      rcases hroom with h | h
      · exact absurd hr h
      · simp [maxEntries, h]
    | some v =>
      have : v.status = false := by
        by_contra hc
        exact hn ⟨v, hr, by simpa using hc⟩
      simp [this]
  · rintro ⟨v, hv, hs⟩
    rw [(stopTimer_spec hw hl).1, hv]; simp [hs]
  · intro hn
    rw [(stopTimer_spec hw hl).1]
    cases hr : read s.tbl l with
    | none => rfl
    | some v =>
      have : v.status = false := by
        by_contra hc
        exact hn ⟨v, hr, by simpa using hc⟩
      simp [this]
  · rw [(resetTimer_spec hw hl).1]; cases read s.tbl l <;> rfl
  · rw [(deleteTimer_spec hw hl).1]; cases read s.tbl l <;> rfl
  · intro o hop hne l'
    cases o with
    | tick d => rfl
    | start k =>
      have e := (startTimer_spec hw (l := k) hop).2.1 l'
      rw [if_neg (fun h => hne h.2)] at e
      exact e
    | stop k =>
      have e := (stopTimer_spec hw (l := k) hop).2.1 l'
      rw [if_neg (fun h => hne h.2)] at e
      exact e
    | reset k =>
      obtain ⟨e1, e2, -⟩ := resetTimer_spec hw (l := k) hop
      have e2 := e2 l'
      change (resetTimer k s).1 ≠ _ at hne
      change read (resetTimer k s).2.tbl l' = _
      rw [e2]
      split_ifs with h
      · subst h
        cases hr : read s.tbl l' with
        | none => rfl
        | some v => rw [hr] at e1; exact absurd e1 hne
      · rfl
    | delete k =>
      obtain ⟨e1, e2, -⟩ := deleteTimer_spec hw (l := k) hop
      have e2 := e2 l'
      change (deleteTimer k s).1 ≠ _ at hne
      change read (deleteTimer k s).2.tbl l' = _
      rw [e2]
      split_ifs with h
      · subst h
        cases hr : read s.tbl l' with
        | none => rfl
        | some v => rw [hr] at e1; exact absurd e1 hne
      · rfl

example : (∀ o ∈ [Op.start "scf".toList, .tick 2, .stop "scf".toList, .start "scf".toList], o.Plain) ∧
    read (history [Op.start "scf".toList, .tick 2, .stop "scf".toList, .start "scf".toList] (fresh 0)).2.tbl "scf".toList
      = some ⟨2, 2, true, 2⟩ := by
  constructor
  · intro o ho
    simp only [List.mem_cons, List.not_mem_nil, or_false] at ho
    rcases ho with rfl | rfl | rfl | rfl <;> simp [Op.Plain] <;> decide
  · decide +kernel

/-! ## Decorated functions (C45) -/

/-- Code that uses the timers only through the decorator, with labels that fit. -/
def Deco : Prog → Prop
  | .work _ | .raise _ => True
  | .seq p q | .tryExcept p q => Deco p ∧ Deco q
  | .timed l p => Plain l ∧ Deco p
  | _ => False

/-- The same code without the decorators: how it ends, how long it takes; and how often each decorated function is entered and
how long it runs. -/
structure Cost where
  res : Except PyErr Unit
  dur : ℚ
  entries : Label → ℤ
  spent : Label → ℚ

/-- Running `p` with the decorators removed. -/
def cost : Prog → Cost
  | .work d => ⟨.ok (), d, fun _ => 0, fun _ => 0⟩
  | .raise e => ⟨.error e, 0, fun _ => 0, fun _ => 0⟩
  | .seq p q =>
    match (cost p).res with
    | .error e => ⟨.error e, (cost p).dur, (cost p).entries, (cost p).spent⟩
    | .ok () => ⟨(cost q).res, (cost p).dur + (cost q).dur, fun l => (cost p).entries l + (cost q).entries l,
        fun l => (cost p).spent l + (cost q).spent l⟩
  | .tryExcept p q =>
    match (cost p).res with
    | .ok () => ⟨.ok (), (cost p).dur, (cost p).entries, (cost p).spent⟩
    | .error _ => ⟨(cost q).res, (cost p).dur + (cost q).dur, fun l => (cost p).entries l + (cost q).entries l,
        fun l => (cost p).spent l + (cost q).spent l⟩
  | .timed l p => ⟨(cost p).res, (cost p).dur, fun k => (cost p).entries k + if k = l then 1 else 0,
      fun k => if k = l then (cost p).dur else (cost p).spent k⟩
  | _ => ⟨.ok (), 0, fun _ => 0, fun _ => 0⟩

/-- No decorated function is entered while a function with the same label is active (`active` are the labels already
active). -/
def NoReentry : List Label → Prog → Prop
  | _, .work _ | _, .raise _ => True
  | a, .seq p q | a, .tryExcept p q => NoReentry a p ∧ NoReentry a q
  | a, .timed l p => l ∉ a ∧ NoReentry (l :: a) p
  | _, _ => True

/-- The labels occurring in a program. -/
def labels : Prog → List Label
  | .seq p q | .tryExcept p q => labels p ++ labels q
  | .timed l p => l :: labels p
  | _ => []

/-- Recorded number of calls of a timer (0 if it does not exist). -/
def callOf (s : TState) (l : Label) : ℤ := (read s.tbl l).elim 0 TVal.call

/-- Recorded time of a timer (0 if it does not exist). -/
def timeOf (s : TState) (l : Label) : ℚ := (read s.tbl l).elim 0 TVal.time

theorem running_congr {s s' : TState} {l : Label} (h : read s'.tbl l = read s.tbl l) : Running s' l ↔ Running s l := by
  unfold Running; rw [h]

theorem start_ok_running {s : TState} (hw : Wf s.tbl) {l : Label} (hl : Plain l) (h : (startTimer l s).1 = .ok ()) :
    ¬ Running s l ∧ ∃ v, read (startTimer l s).2.tbl l = some v ∧ v.status = true ∧ v.start_time = s.now
      ∧ v.call = callOf s l + 1 ∧ v.time = timeOf s l := by
  obtain ⟨e1, e2, -⟩ := startTimer_spec hw hl
  have e2 := e2 l
  simp only [h, and_self, if_true] at e2
  rw [h] at e1
  unfold callOf timeOf
  cases hr : read s.tbl l with
  | none =>
    rw [hr] at e2
    exact ⟨by rintro ⟨v, hv, -⟩; rw [hr] at hv; simp at hv, _, e2, rfl, rfl, rfl, rfl⟩
  | some v =>
    rw [hr] at e1 e2
    refine ⟨?_, _, e2, rfl, rfl, rfl, rfl⟩
    rintro ⟨w, hw, hs⟩
    rw [hr] at hw
    simp only [Option.some.injEq] at hw
    subst hw
    simp [hs] at e1

/-- **C45.** Code that uses the timers only through the decorator leaves them balanced: whatever happens inside (exceptions,
recursion, a full table), exactly the timers that were running before are running afterwards, with unchanged records. -/
theorem C45_balanced : ∀ (p : Prog) (_ : Deco p) (s : TState) (_ : Wf s.tbl),
    Wf (run p s).2.tbl ∧ (run p s).2.enabled = s.enabled
    ∧ (∀ l, Running s l → read (run p s).2.tbl l = read s.tbl l)
    ∧ ∀ l, Running (run p s).2 l → Running s l
  | .work d, _, s, hw => ⟨hw, rfl, fun _ _ => rfl, fun _ h => h⟩
  | .raise e, _, s, hw => ⟨hw, rfl, fun _ _ => rfl, fun _ h => h⟩
  | .seq p q, hd, s, hw => by
    obtain ⟨a1, a2, a3, a4⟩ := C45_balanced p hd.1 s hw
    cases hr : run p s with
    | mk r s' =>
      rw [hr] at a1 a2 a3 a4
      cases r with
      | error e =>
        have : run (.seq p q) s = (.error e, s') := by simp only [run, hr]
        rw [this]; exact ⟨a1, a2, a3, a4⟩
      | ok u =>
        have : run (.seq p q) s = run q s' := by simp only [run, hr]
        rw [this]
        obtain ⟨b1, b2, b3, b4⟩ := C45_balanced q hd.2 s' a1
        refine ⟨b1, b2.trans a2, fun l hl => ?_, fun l hl => a4 l (b4 l hl)⟩
        rw [b3 l ((running_congr (a3 l hl)).mpr hl), a3 l hl]
  | .tryExcept p q, hd, s, hw => by
    obtain ⟨a1, a2, a3, a4⟩ := C45_balanced p hd.1 s hw
    cases hr : run p s with
    | mk r s' =>
      rw [hr] at a1 a2 a3 a4
      cases r with
      | ok u =>
        have : run (.tryExcept p q) s = (.ok (), s') := by simp only [run, hr]
        rw [this]; exact ⟨a1, a2, a3, a4⟩
      | error e =>
        have : run (.tryExcept p q) s = run q s' := by simp only [run, hr]
        rw [this]
        obtain ⟨b1, b2, b3, b4⟩ := C45_balanced q hd.2 s' a1
        refine ⟨b1, b2.trans a2, fun l hl => ?_, fun l hl => a4 l (b4 l hl)⟩
        rw [b3 l ((running_congr (a3 l hl)).mpr hl), a3 l hl]
  | .timed l p, hd, s, hw => by
    by_cases hen : s.enabled = true
    swap
    · have : run (.timed l p) s = run p s := by simp only [run]; rw [if_neg hen]
      rw [this]; exact C45_balanced p hd.2 s hw
    obtain ⟨e1, e2, e3, e4, e5⟩ := startTimer_spec hw hd.1
    cases hs : startTimer l s with
    | mk r s1 =>
      cases r with
      | error e =>
        have : run (.timed l p) s = (.error e, s1) := by simp only [run]; rw [if_pos hen]; simp only [hs]
        rw [this]
        rw [hs] at e2 e3 e5
        have hread : ∀ l', read s1.tbl l' = read s.tbl l' := fun l' => by simpa using e2 l'
        exact ⟨e3, e5, fun l' _ => hread l', fun l' h => (running_congr (hread l')).mp h⟩
      | ok u =>
        have hok : (startTimer l s).1 = .ok () := by rw [hs]
        obtain ⟨hnr, v, hv, hvs, -⟩ := start_ok_running hw hd.1 hok
        rw [hs] at e2 e3 e5 hv
        have hread : ∀ l', l' ≠ l → read s1.tbl l' = read s.tbl l' := fun l' h => by
          rw [e2 l', if_neg (fun h' => h h'.1)]
        obtain ⟨a1, a2, a3, a4⟩ := C45_balanced p hd.2 s1 e3
        cases hr : run p s1 with
        | mk r2 s2 =>
          rw [hr] at a1 a2 a3 a4
          have hrun1 : Running s1 l := ⟨v, hv, hvs⟩
          obtain ⟨f1, f2, f3, f4, f5⟩ := stopTimer_spec a1 hd.1
          have hen2 : s2.enabled = true := by rw [a2, e5, hen]
          have hok2 : (stopTimer l s2).1 = .ok () := by
            rw [f1, a3 l hrun1, hv]; simp [hvs]
          have : run (.timed l p) s = (r2, (stopTimer l s2).2) := by
            simp only [run]
            rw [if_pos hen]
            simp only [hs, hr]
            rw [if_pos hen2]
            cases ht : stopTimer l s2 with
            | mk r3 s3 =>
              rw [ht] at hok2
              simp only at hok2
              subst hok2
              rfl
          rw [this]
          have hread' : ∀ l', l' ≠ l → read (stopTimer l s2).2.tbl l' = read s2.tbl l' := fun l' h => by
            rw [f2 l', if_neg (fun h' => h h'.1)]
          refine ⟨f3, f5.trans (a2.trans e5), ?_, ?_⟩
          · intro l' hl'
            have hne : l' ≠ l := by rintro rfl; exact hnr hl'
            show read (stopTimer l s2).2.tbl l' = _
            rw [hread' l' hne, a3 l' ((running_congr (hread l' hne)).mpr hl'), hread l' hne]
          · intro l' hl'
            by_cases hne : l' = l
            · subst hne
              obtain ⟨w, hw', hws⟩ := hl'
              have := f2 l'
              simp only [hok2, and_self, if_true] at this
              rw [show read (stopTimer l' s2).2.tbl l' = _ from this, a3 l' hrun1, hv] at hw'
              simp only [Option.map_some, Option.some.injEq] at hw'
              subst hw'
              simp at hws
            · have h2 : Running s2 l' := (running_congr (hread' l' hne)).mp hl'
              exact (running_congr (hread l' hne)).mp (a4 l' h2)
  | .start l, hd, _, _ => absurd hd (by simp [Deco])
  | .stop l, hd, _, _ => absurd hd (by simp [Deco])
  | .reset l, hd, _, _ => absurd hd (by simp [Deco])
  | .delete l, hd, _, _ => absurd hd (by simp [Deco])

/-- The labels in use. -/
def keys (s : TState) : Finset Label := (s.tbl.map Prod.fst).toFinset

theorem keys_card {s : TState} (hw : Wf s.tbl) : (keys s).card = s.tbl.length := by
  unfold keys; rw [List.toFinset_card_of_nodup hw.1, List.length_map]

theorem mem_keys {s : TState} {l : Label} : l ∈ keys s ↔ read s.tbl l ≠ none := by
  unfold keys
  rw [List.mem_toFinset, Ne, read_eq_none, not_not]

/-- What the decorators do to the timers while `p` runs. -/
def Timed (p : Prog) (a : List Label) (s : TState) (o : Out) : Prop :=
  o.1 = (cost p).res ∧ o.2.now = s.now + (cost p).dur ∧ Wf o.2.tbl ∧ o.2.enabled = true
  ∧ keys o.2 ⊆ keys s ∪ (labels p).toFinset
  ∧ (∀ l ∈ a, read o.2.tbl l = read s.tbl l)
  ∧ ∀ l ∉ a, callOf o.2 l = callOf s l + (cost p).entries l ∧ timeOf o.2 l = timeOf s l + (cost p).spent l
      ∧ ¬ Running o.2 l

theorem timed_aux : ∀ (p : Prog) (a : List Label) (s : TState), Deco p → NoReentry a p → Wf s.tbl → s.enabled = true →
    (∀ l, Running s l → l ∈ a) → (keys s ∪ (labels p).toFinset).card ≤ 500 → Timed p a s (run p s)
  | .work d, a, s, _, _, hw, he, hr, _ =>
    ⟨rfl, rfl, hw, he, by simp [run, keys], fun _ _ => rfl,
      fun l hl => ⟨by simp [run, callOf, cost], by simp [run, timeOf, cost], fun h => hl (hr l h)⟩⟩
  | .raise e, a, s, _, _, hw, he, hr, _ =>
    ⟨rfl, by simp [run, cost], hw, he, by simp [run, keys], fun _ _ => rfl,
      fun l hl => ⟨by simp [run, callOf, cost], by simp [run, timeOf, cost], fun h => hl (hr l h)⟩⟩
  | .seq p q, a, s, hd, hn, hw, he, hr, hc => by
    have hsub : keys s ∪ (labels p).toFinset ⊆ keys s ∪ (labels (.seq p q)).toFinset := by
      simp only [labels, List.toFinset_append]
      exact Finset.union_subset_union_right Finset.subset_union_left
    obtain ⟨a1, a2, a3, a4, a5, a6, a7⟩ := timed_aux p a s hd.1 hn.1 hw he hr ((Finset.card_le_card hsub).trans hc)
    cases hp : run p s with
    | mk r s' =>
      rw [hp] at a1 a2 a3 a4 a5 a6 a7
      simp only at a1 a2 a3 a4 a5 a6 a7
      cases r with
      | error e =>
        have e1 : run (.seq p q) s = (.error e, s') := by simp only [run, hp]
        have e2 : cost (.seq p q) = ⟨.error e, (cost p).dur, (cost p).entries, (cost p).spent⟩ := by
          simp only [cost, ← a1]
        unfold Timed
        rw [e1, e2]
        exact ⟨rfl, a2, a3, a4, a5.trans hsub, a6, a7⟩
      | ok u =>
        have e1 : run (.seq p q) s = run q s' := by simp only [run, hp]
        have e2 : cost (.seq p q) = ⟨(cost q).res, (cost p).dur + (cost q).dur,
            fun l => (cost p).entries l + (cost q).entries l, fun l => (cost p).spent l + (cost q).spent l⟩ := by
          simp only [cost, ← a1]
        have hsub2 : keys s' ∪ (labels q).toFinset ⊆ keys s ∪ (labels (.seq p q)).toFinset := by
          simp only [labels, List.toFinset_append]
          rw [← Finset.union_assoc]
          exact Finset.union_subset_union_left a5
        have hr' : ∀ l, Running s' l → l ∈ a := fun l h => by
          by_contra hc'
          exact (a7 l hc').2.2 h
        obtain ⟨b1, b2, b3, b4, b5, b6, b7⟩ := timed_aux q a s' hd.2 hn.2 a3 a4 hr' ((Finset.card_le_card hsub2).trans hc)
        unfold Timed
        rw [e1, e2]
        refine ⟨b1, by rw [b2, a2]; simp only; ring, b3, b4, ?_, fun l hl => (b6 l hl).trans (a6 l hl), fun l hl => ?_⟩
        · refine b5.trans ?_
          simpa [labels, List.toFinset_append] using hsub2
        · obtain ⟨x1, x2, -⟩ := a7 l hl
          obtain ⟨y1, y2, y3⟩ := b7 l hl
          exact ⟨by rw [y1, x1]; simp only; ring, by rw [y2, x2]; simp only; ring, y3⟩
  | .tryExcept p q, a, s, hd, hn, hw, he, hr, hc => by
    have hsub : keys s ∪ (labels p).toFinset ⊆ keys s ∪ (labels (.tryExcept p q)).toFinset := by
      simp only [labels, List.toFinset_append]
      exact Finset.union_subset_union_right Finset.subset_union_left
    obtain ⟨a1, a2, a3, a4, a5, a6, a7⟩ := timed_aux p a s hd.1 hn.1 hw he hr ((Finset.card_le_card hsub).trans hc)
    cases hp : run p s with
    | mk r s' =>
      rw [hp] at a1 a2 a3 a4 a5 a6 a7
      simp only at a1 a2 a3 a4 a5 a6 a7
      cases r with
      | ok u =>
        have e1 : run (.tryExcept p q) s = (.ok (), s') := by simp only [run, hp]
        have e2 : cost (.tryExcept p q) = ⟨.ok (), (cost p).dur, (cost p).entries, (cost p).spent⟩ := by
          simp only [cost, ← a1]
        unfold Timed
        rw [e1, e2]
        exact ⟨rfl, a2, a3, a4, a5.trans hsub, a6, a7⟩
      | error e =>
        have e1 : run (.tryExcept p q) s = run q s' := by simp only [run, hp]
        have e2 : cost (.tryExcept p q) = ⟨(cost q).res, (cost p).dur + (cost q).dur,
            fun l => (cost p).entries l + (cost q).entries l, fun l => (cost p).spent l + (cost q).spent l⟩ := by
          simp only [cost, ← a1]
        have hsub2 : keys s' ∪ (labels q).toFinset ⊆ keys s ∪ (labels (.tryExcept p q)).toFinset := by
          simp only [labels, List.toFinset_append]
          rw [← Finset.union_assoc]
          exact Finset.union_subset_union_left a5
        have hr' : ∀ l, Running s' l → l ∈ a := fun l h => by
          by_contra hc'
          exact (a7 l hc').2.2 h
        obtain ⟨b1, b2, b3, b4, b5, b6, b7⟩ := timed_aux q a s' hd.2 hn.2 a3 a4 hr' ((Finset.card_le_card hsub2).trans hc)
        unfold Timed
        rw [e1, e2]
        refine ⟨b1, by rw [b2, a2]; simp only; ring, b3, b4, ?_, fun l hl => (b6 l hl).trans (a6 l hl), fun l hl => ?_⟩
        · refine b5.trans ?_
          simpa [labels, List.toFinset_append] using hsub2
        · obtain ⟨x1, x2, -⟩ := a7 l hl
          obtain ⟨y1, y2, y3⟩ := b7 l hl
          exact ⟨by rw [y1, x1]; simp only; ring, by rw [y2, x2]; simp only; ring, y3⟩
  | .timed l p, a, s, hd, hn, hw, he, hr, hc => by
    obtain ⟨e1, e2, e3, e4, e5⟩ := startTimer_spec hw hd.1
    have hnr : ¬ Running s l := fun h => hn.1 (hr l h)
    have hok : (startTimer l s).1 = .ok () := by
      rw [e1]
      cases hrd : read s.tbl l with
      | none =>
        have hlk : l ∉ keys s := by rw [mem_keys, hrd]; simp
        have : (insert l (keys s)).card ≤ 500 := by
          refine (Finset.card_le_card ?_).trans hc
          intro x hx
          simp only [labels, List.toFinset_cons, Finset.mem_union, Finset.mem_insert] at hx ⊢
          tauto
        rw [Finset.card_insert_of_notMem hlk, keys_card hw] at this
        have hlt : s.tbl.length < maxEntries := by simp only [maxEntries]; omega
        simp only
        rw [if_pos hlt]
      | some v =>
        have : v.status = false := by
          by_contra hc'
          exact hnr ⟨v, hrd, by simpa using hc'⟩
        simp [this]
    obtain ⟨-, v, hv, hvs, hvt, hvc, hvtm⟩ := start_ok_running hw hd.1 hok
    cases hs : startTimer l s with
    | mk r s1 =>
      rw [hs] at e2 e3 e4 e5 hok hv
      simp only at e2 e3 e4 e5 hok hv
      subst hok
      have hread : ∀ l', l' ≠ l → read s1.tbl l' = read s.tbl l' := fun l' h => by
        rw [e2 l', if_neg (fun h' => h h'.1)]
      have hkeys : keys s1 ⊆ insert l (keys s) := by
        intro x hx
        rw [Finset.mem_insert]
        by_cases hx' : x = l
        · exact Or.inl hx'
        · right; rw [mem_keys] at hx ⊢; rwa [← hread x hx']
      have hsub : keys s1 ∪ (labels p).toFinset ⊆ keys s ∪ (labels (.timed l p)).toFinset := by
        intro x hx
        simp only [labels, List.toFinset_cons, Finset.mem_union, Finset.mem_insert] at hx ⊢
        rcases hx with hx | hx
        · have := hkeys hx
          rw [Finset.mem_insert] at this
          tauto
        · tauto
      have hr1 : ∀ l', Running s1 l' → l' ∈ l :: a := fun l' h => by
        by_cases hl' : l' = l
        · simp [hl']
        · exact List.mem_cons_of_mem _ (hr l' ((running_congr (hread l' hl')).mp h))
      obtain ⟨a1, a2, a3, a4, a5, a6, a7⟩ :=
        timed_aux p (l :: a) s1 hd.2 hn.2 e3 (e5.trans he) hr1 ((Finset.card_le_card hsub).trans hc)
      cases hp : run p s1 with
      | mk r2 s2 =>
        rw [hp] at a1 a2 a3 a4 a5 a6 a7
        simp only at a1 a2 a3 a4 a5 a6 a7
        obtain ⟨f1, f2, f3, f4, f5⟩ := stopTimer_spec a3 hd.1
        have hrl : read s2.tbl l = some v := by rw [a6 l (by simp), hv]
        have hok2 : (stopTimer l s2).1 = .ok () := by rw [f1, hrl]; simp [hvs]
        have hrun : run (.timed l p) s = (r2, (stopTimer l s2).2) := by
          simp only [run]
          rw [if_pos he]
          simp only [hs, hp]
          rw [if_pos a4]
          cases ht : stopTimer l s2 with
          | mk r3 s3 =>
            rw [ht] at hok2
            simp only at hok2
            subst hok2
            rfl
        have hread' : ∀ l', l' ≠ l → read (stopTimer l s2).2.tbl l' = read s2.tbl l' := fun l' h => by
          rw [f2 l', if_neg (fun h' => h h'.1)]
        have hreadl := f2 l
        simp only [hok2, and_self, if_true, hrl, Option.map_some] at hreadl
        have hcost : cost (.timed l p) = ⟨(cost p).res, (cost p).dur,
          fun k => (cost p).entries k + if k = l then 1 else 0,
          fun k => if k = l then (cost p).dur else (cost p).spent k⟩ := rfl
        have hent : (cost p).entries l = 0 := entries_zero p (l :: a) hn.2 l (by simp)
        unfold Timed
        rw [hrun, hcost]
        refine ⟨a1, by simp only; rw [f4, a2, e4], f3, f5.trans a4, ?_, ?_, ?_⟩
        · intro x hx
          by_cases hx' : x = l
          · subst hx'; simp [labels]
          · have : x ∈ keys s2 := by rw [mem_keys] at hx ⊢; rwa [← hread' x hx']
            exact hsub (a5 this)
        · intro l' hl'
          have hne : l' ≠ l := by rintro rfl; exact hn.1 hl'
          simp only
          rw [hread' l' hne, a6 l' (by simp [hl']), hread l' hne]
        · intro l' hl'
          by_cases hne : l' = l
          · subst hne
            simp only
            refine ⟨?_, ?_, ?_⟩
            · conv_lhs => unfold callOf
              rw [hreadl]
              simp only [Option.elim_some, if_true, hent]
              rw [hvc]; ring
            · conv_lhs => unfold timeOf
              rw [hreadl]
              simp only [Option.elim_some, if_true]
              rw [hvtm, hvt, a2, e4]; ring
            · rintro ⟨w, hw', hws⟩
              rw [hreadl] at hw'
              simp only [Option.some.injEq] at hw'
              subst hw'
              simp at hws
          · obtain ⟨x1, x2, x3⟩ := a7 l' (by simp [hne, hl'])
            have hc1 : callOf s1 l' = callOf s l' := by unfold callOf; rw [hread l' hne]
            have hc2 : callOf (stopTimer l s2).2 l' = callOf s2 l' := by unfold callOf; rw [hread' l' hne]
            have ht1 : timeOf s1 l' = timeOf s l' := by unfold timeOf; rw [hread l' hne]
            have ht2 : timeOf (stopTimer l s2).2 l' = timeOf s2 l' := by unfold timeOf; rw [hread' l' hne]
            refine ⟨?_, ?_, fun h => x3 ((running_congr (hread' l' hne)).mp h)⟩
            · simp only [hne, if_false]; rw [hc2, x1, hc1]; ring
            · simp only [hne, if_false]; rw [ht2, x2, ht1]
  | .start l, _, _, hd, _, _, _, _, _ => absurd hd (by simp [Deco])
  | .stop l, _, _, hd, _, _, _, _, _ => absurd hd (by simp [Deco])
  | .reset l, _, _, hd, _, _, _, _, _ => absurd hd (by simp [Deco])
  | .delete l, _, _, hd, _, _, _, _, _ => absurd hd (by simp [Deco])
where
  entries_zero : ∀ (p : Prog) (a : List Label), NoReentry a p → ∀ l ∈ a, (cost p).entries l = 0
  | .work _, _, _, _, _ => rfl
  | .raise _, _, _, _, _ => rfl
  | .seq p q, a, h, l, hl => by
    have h1 := entries_zero p a h.1 l hl
    have h2 := entries_zero q a h.2 l hl
    simp only [cost]
    split
    · exact h1
    · simp [h1, h2]
  | .tryExcept p q, a, h, l, hl => by
    have h1 := entries_zero p a h.1 l hl
    have h2 := entries_zero q a h.2 l hl
    simp only [cost]
    split
    · exact h1
    · simp [h1, h2]
  | .timed k p, a, h, l, hl => by
    have h1 := entries_zero p (k :: a) h.2 l (by simp [hl])
    have : l ≠ k := by rintro rfl; exact h.1 hl
    simp [cost, h1, this]
  | .start _, _, _, _, _ => rfl
  | .stop _, _, _, _, _ => rfl
  | .reset _, _, _, _, _ => rfl
  | .delete _, _, _, _, _ => rfl

/-- **C45.** Decorated functions behave as undecorated ones, and the timers record them: if no function is re-entered while
active and the labels fit the table, the code ends exactly as it would without decorators (same result or same exception, same
duration), every timer's call count grows by the number of times its function was entered and its time by the time spent
there, and nothing is left running. -/
theorem C45_transparent (p : Prog) (s : TState) (hd : Deco p) (hn : NoReentry [] p) (hw : Wf s.tbl)
    (he : s.enabled = true) (hr : ∀ l, ¬ Running s l) (hc : (keys s ∪ (labels p).toFinset).card ≤ 500) :
    (run p s).1 = (cost p).res ∧ (run p s).2.now = s.now + (cost p).dur
    ∧ ∀ l, callOf (run p s).2 l = callOf s l + (cost p).entries l
        ∧ timeOf (run p s).2 l = timeOf s l + (cost p).spent l ∧ ¬ Running (run p s).2 l := by
  obtain ⟨a1, a2, -, -, -, -, a7⟩ := timed_aux p [] s hd hn hw he (fun l h => absurd h (hr l)) hc
  exact ⟨a1, a2, fun l => a7 l (by simp)⟩

example : let p : Prog := .tryExcept (.timed "scf".toList (.seq (.timed "xc".toList (.work 2)) (.raise .value))) (.work 1)
    Deco p ∧ NoReentry [] p ∧ (cost p).res = .ok () ∧ (cost p).entries "xc".toList = 1
      ∧ (labels p).toFinset.card ≤ 500 := by
  refine ⟨⟨⟨by decide, ⟨by decide, trivial⟩, trivial⟩, trivial⟩, ⟨⟨by simp, ⟨by decide, trivial⟩, trivial⟩, trivial⟩,
    rfl, by decide, ?_⟩
  refine (List.toFinset_card_le _).trans ?_
  simp [labels]

/-- **C45.** Timers switched off: the decorator has no effect at all. -/
theorem C45_disabled : ∀ (p : Prog) (s : TState), Deco p → s.enabled = false →
    run p s = ((cost p).res, { s with now := s.now + (cost p).dur })
  | .work d, s, _, _ => rfl
  | .raise e, s, _, _ => by simp [run, cost]
  | .seq p q, s, hd, he => by
    have h1 := C45_disabled p s hd.1 he
    simp only [run, cost, h1]
    cases hp : (cost p).res with
    | error e => rfl
    | ok u =>
      simp only
      rw [C45_disabled q { s with now := s.now + (cost p).dur } hd.2 he]
      simp only [add_assoc]
  | .tryExcept p q, s, hd, he => by
    have h1 := C45_disabled p s hd.1 he
    simp only [run, cost, h1]
    cases hp : (cost p).res with
    | ok u => rfl
    | error e =>
      simp only
      rw [C45_disabled q { s with now := s.now + (cost p).dur } hd.2 he]
      simp only [add_assoc]
  | .timed l p, s, hd, he => by
    simp only [run]
    rw [if_neg (by simp [he]), C45_disabled p s hd.2 he]
    rfl
  | .start l, _, hd, _ => absurd hd (by simp [Deco])
  | .stop l, _, hd, _ => absurd hd (by simp [Deco])
  | .reset l, _, hd, _ => absurd hd (by simp [Deco])
  | .delete l, _, hd, _ => absurd hd (by simp [Deco])

/-- **C45.** A decorated function cannot be re-entered: calling it while a function with the same label is active raises
`ValueError` without running it, and without disturbing the timers. -/
theorem C45_reentry {s : TState} (hw : Wf s.tbl) (he : s.enabled = true) {l : Label} (hl : Plain l) (h : Running s l)
    (p : Prog) : run (.timed l p) s = (.error .value, (startTimer l s).2)
      ∧ ∀ l', read (startTimer l s).2.tbl l' = read s.tbl l' := by
  obtain ⟨v, hv, hvs⟩ := h
  obtain ⟨e1, e2, -⟩ := startTimer_spec hw hl
  rw [hv] at e1
  simp only [hvs, if_true] at e1
  constructor
  · simp only [run]
    rw [if_pos he]
    cases hs : startTimer l s with
    | mk r s1 => rw [hs] at e1; simp only at e1; subst e1; rfl
  · intro l'
    rw [e2 l', if_neg]
    rw [e1]; simp

/-! ## Long labels (C47) -/

/-- **C47.** A timer started under a label of at most 30 characters can be stopped under the same label. -/
theorem C47_short {s : TState} (hw : Wf s.tbl) {l : Label} (hl : Plain l) (h : (startTimer l s).1 = .ok ()) :
    (stopTimer l (startTimer l s).2).1 = .ok () := by
  obtain ⟨-, v, hv, hvs, -⟩ := start_ok_running hw hl h
  rw [(stopTimer_spec (startTimer_spec hw hl).2.2.1 hl).1, hv]
  simp [hvs]

theorem rstrip0_long {l : Label} (h0 : '\x00' ∉ l) : rstrip0 l = l := by
  unfold rstrip0
  have hd : l.reverse.dropWhile (· == '\x00') = l.reverse := by
    cases hr : l.reverse with
    | nil => rfl
    | cons a t =>
      have ha : a ∈ l := by rw [← List.mem_reverse, hr]; simp
      have : a ≠ '\x00' := fun e => h0 (e ▸ ha)
      rw [List.dropWhile_cons_of_neg (by simpa using this)]
  rw [hd, List.reverse_reverse]

/-- All stored labels have at most 30 characters. -/
def Stored {V : Type} (t : Table V) : Prop := ∀ e ∈ t, e.1.length ≤ 30

theorem u30_length (l : Label) : (u30 l).length ≤ 30 := by
  unfold u30 rstrip0
  rw [List.length_reverse]
  refine (List.dropWhile_sublist _).length_le.trans ?_
  rw [List.length_reverse, List.length_take]
  omega

theorem find_long {V : Type} {t : Table V} (ht : Stored t) {l : Label} (h : 30 < l.length) (h0 : '\x00' ∉ l) :
    find t l = .ok none := by
  have : findAll t l = [] := by
    rw [List.eq_nil_iff_forall_not_mem]
    intro i hi
    unfold findAll at hi
    rw [List.mem_filter, List.mem_range, rstrip0_long h0] at hi
    obtain ⟨hi, he⟩ := hi
    rw [List.getElem?_eq_getElem hi] at he
    simp only [Option.any_some, beq_iff_eq] at he
    have := ht t[i] (List.getElem_mem hi)
    rw [he] at this
    omega
  unfold find; rw [this]

theorem startTimer_long {s : TState} (ht : Stored s.tbl) {l : Label} (h : 30 < l.length) (h0 : '\x00' ∉ l)
    (hroom : s.tbl.length < 500) :
    startTimer l s = (.ok (), { s with tbl := s.tbl ++ [(l.take 30, ⟨1, 0, true, s.now⟩)] }) := by
  unfold startTimer
  rw [find_long ht h h0]
  simp only
  rw [if_pos (show s.tbl.length < maxEntries from hroom)]
  unfold startAt
  simp only [List.getElem?_append_right le_rfl, Nat.sub_self, List.getElem?_cons_zero]
  have : u30 l = l.take 30 := by
    unfold u30; exact rstrip0_long fun hc => h0 (List.mem_of_mem_take hc)
  rw [this]
  simp

theorem step_stored {s : TState} (ht : Stored s.tbl) (o : Op) : Stored (step o s).2.tbl := by
  have hset : ∀ (t : Table TVal) (i : ℕ) (k : Label) (v w : TVal), Stored t → t[i]? = some (k, v) →
      Stored (t.set i (k, w)) := by
    intro t i k v w h hi e he
    rcases List.mem_or_eq_of_mem_set he with h' | h'
    · exact h e h'
    · subst h'; exact h (k, v) (List.mem_of_getElem? hi)
  have happ : ∀ (t : Table TVal) (l : Label) (v : TVal), Stored t → Stored (t ++ [(u30 l, v)]) := by
    intro t l v h e he
    rw [List.mem_append] at he
    rcases he with he | he
    · exact h e he
    · simp only [List.mem_singleton] at he; subst he; exact u30_length l
  have hsa : ∀ (s : TState) (i : ℕ), Stored s.tbl → Stored (startAt s i).2.tbl := by
    intro s i h
    unfold startAt
    cases hi : s.tbl[i]? with
    | none => exact h
    | some kv =>
      obtain ⟨k, v⟩ := kv
      simp only
      split_ifs
      · exact h
      · exact hset _ _ _ _ _ h hi
  cases o with
  | tick d => exact ht
  | start l =>
    change Stored (startTimer l s).2.tbl
    unfold startTimer
    cases find s.tbl l with
    | error e => exact ht
    | ok o =>
      cases o with
      | some i => exact hsa s i ht
      | none =>
        simp only
        split_ifs
        · exact hsa _ _ (happ _ _ _ ht)
        · exact ht
  | stop l =>
    change Stored (stopTimer l s).2.tbl
    unfold stopTimer
    cases find s.tbl l with
    | error e => exact ht
    | ok o =>
      cases o with
      | none => exact ht
      | some i =>
        simp only
        cases hi : s.tbl[i]? with
        | none => exact ht
        | some kv =>
          obtain ⟨k, v⟩ := kv
          simp only
          split_ifs
          · exact hset _ _ _ _ _ ht hi
          · exact ht
  | reset l =>
    change Stored (resetTimer l s).2.tbl
    unfold resetTimer
    cases find s.tbl l with
    | error e => exact ht
    | ok o =>
      cases o with
      | none => exact ht
      | some i =>
        simp only
        cases hi : s.tbl[i]? with
        | none => exact ht
        | some kv =>
          obtain ⟨k, v⟩ := kv
          exact hset _ _ _ _ _ ht hi
  | delete l =>
    change Stored (deleteTimer l s).2.tbl
    unfold deleteTimer
    cases find s.tbl l with
    | error e => exact ht
    | ok o =>
      cases o with
      | none => exact ht
      | some i =>
        simp only
        unfold removeAt
        cases hl : s.tbl.getLast? with
        | none => exact ht
        | some e =>
          intro x hx
          simp only at hx
          rcases List.mem_or_eq_of_mem_set (List.mem_of_mem_dropLast hx) with h' | h'
          · exact ht x h'
          · subst h'; exact ht x (List.mem_of_getLast? hl)

theorem history_stored (os : List Op) : ∀ s : TState, Stored s.tbl → Stored (history os s).2.tbl := by
  induction os with
  | nil => exact fun s h => h
  | cons o os ih => exact fun s h => ih _ (step_stored h o)

/-- **C47 (violated).** For every label of more than 30 characters and every history whatsoever, starting the timer succeeds
(while rows are free) but it can never be stopped: `_stop_timer` raises `ValueError`. -/
theorem C47_long_violated (os : List Op) (now : ℚ) (l : Label) (h : 30 < l.length) (h0 : '\x00' ∉ l) :
    let s := (history os (fresh now)).2
    (s.tbl.length < 500 → (startTimer l s).1 = .ok ()) ∧ (stopTimer l s).1 = .error .value := by
  intro s
  have ht : Stored s.tbl := history_stored os (fresh now) (by simp [Stored, fresh])
  refine ⟨fun hr => by rw [startTimer_long ht h h0 hr], ?_⟩
  unfold stopTimer
  rw [find_long ht h h0]

/-- **C47 (violated).** Hence a function decorated with such a label always raises `ValueError` although its body returns
normally, and leaves a timer running forever. -/
theorem C47_decorated_violated (l : Label) (h : 30 < l.length) (h0 : '\x00' ∉ l) (now d : ℚ) :
    run (.timed l (.work d)) (fresh now)
      = (.error .value, ⟨[(l.take 30, ⟨1, 0, true, now⟩)], now + d, true⟩) := by
  have hs := startTimer_long (s := fresh now) (by simp [Stored, fresh]) h h0 (by simp [fresh])
  have hf : ∀ t : Table TVal, t = [(l.take 30, ⟨1, 0, true, now⟩)] → find t l = .ok none := by
    rintro t rfl
    exact find_long (by intro e he; simp at he; subst he; simp) h h0
  simp only [run, hs]
  simp only [fresh, List.nil_append, if_true]
  unfold stopTimer
  simp only [hf _ rfl]

/-- **C47 (violated).** Two such calls with labels sharing their first 30 characters leave two rows with the same label, and
every later use of that 30-character label raises. -/
theorem C47_duplicate_violated (l : Label) (h : 30 < l.length) (h0 : '\x00' ∉ l) (now : ℚ) (o : Label → Op)
    (ho : o = Op.start ∨ o = Op.stop ∨ o = Op.reset ∨ o = Op.delete) :
    (step (o (l.take 30)) (history [.start l, .start l] (fresh now)).2).1 = .error .runtime := by
  have hs := startTimer_long (s := fresh now) (by simp [Stored, fresh]) h h0 (by simp [fresh])
  have hst : Stored ((fresh now).tbl ++ [(l.take 30, (⟨1, 0, true, now⟩ : TVal))]) := by
    intro e he; simp [fresh] at he; subst he; simp
  have hs2 := startTimer_long (s := { fresh now with tbl := (fresh now).tbl ++ [(l.take 30, ⟨1, 0, true, now⟩)] })
    hst h h0 (by simp [fresh])
  have hfin : (history [.start l, .start l] (fresh now)).2 =
      ⟨[(l.take 30, ⟨1, 0, true, now⟩), (l.take 30, ⟨1, 0, true, now⟩)], now, true⟩ := by
    simp only [history, step, run]
    rw [hs]
    simp only [fresh] at hs2 ⊢
    rw [hs2]
    rfl
  rw [hfin]
  have h0' : '\x00' ∉ l.take 30 := fun hc => h0 (List.mem_of_mem_take hc)
  have hf : find [(l.take 30, (⟨1, 0, true, now⟩ : TVal)), (l.take 30, ⟨1, 0, true, now⟩)] (l.take 30)
      = .error .runtime := by
    unfold find findAll
    rw [rstrip0_long h0']
    have : List.range 2 = [0, 1] := rfl
    simp [this]
  rcases ho with rfl | rfl | rfl | rfl <;>
    simp only [step, run, startTimer, stopTimer, resetTimer, deleteTimer, hf]

example : 30 < "davidson:a_rather_long_timer_label".toList.length ∧ '\x00' ∉ "davidson:a_rather_long_timer_label".toList := by
  decide

/-! ## Counters (C46) -/

/-- One operation on the counters. -/
inductive COp
  | add (l : Label) (v : ℤ)
  | clear (l : Label)
  | delete (l : Label)

/-- The label of a counter operation. -/
def COp.label : COp → Label
  | .add l _ | .clear l | .delete l => l

/-- Perform one operation (exceptions are caught by the caller). -/
def cstep : COp → Table ℤ → Except PyErr Unit × Table ℤ
  | .add l v => addToCounter l v
  | .clear l => clearCounter l
  | .delete l => deleteCounter l

/-- Final table after a list of operations. -/
def cruns (os : List COp) (t : Table ℤ) : Table ℤ := os.foldl (fun t o => (cstep o t).2) t

/-- What a label's count should be, from the operations alone: the sum of the additions since it was last cleared or
deleted. `none`: no such counter. -/
def tally (l : Label) : List COp → Option ℤ := List.foldl (fun c o =>
  match o with
  | .add k v => if k = l then some (c.getD 0 + v) else c
  | .clear k => if k = l then c.map fun _ => 0 else c
  | .delete k => if k = l then none else c) none

/-- Adding never fails; clearing and deleting fail with `ValueError` when there is no such counter. -/
def expected : COp → Option ℤ → Except PyErr Unit
  | .add _ _, _ => .ok ()
  | .clear _, some _ | .delete _, some _ => .ok ()
  | .clear _, none | .delete _, none => .error .value

theorem cstep_spec {t : Table ℤ} (hw : Wf t) {o : COp} (hl : Plain o.label)
    (hroom : read t o.label ≠ none ∨ t.length < 500) :
    Wf (cstep o t).2 ∧
    (cstep o t).1 = expected o (read t o.label) ∧
    ∀ l, read (cstep o t).2 l = match o with
      | .add k v => if k = l then some ((read t l).getD 0 + v) else read t l
      | .clear k => if k = l then (read t l).map fun _ => 0 else read t l
      | .delete k => if k = l then none else read t l := by
  cases o with
  | add k v =>
    simp only [COp.label] at hl hroom
    simp only [cstep]
    cases hr : read t k with
    | none =>
      have hlen : t.length < maxEntries := by
        rcases hroom with h | h
        · exact absurd hr h
        · exact h
      have hget : (t ++ [(k, (0 : ℤ))])[t.length]? = some (k, 0) := by simp
      have hs : addToCounter k v t = (.ok (), (t ++ [(k, 0)]).set t.length (k, 0 + v)) := by
        unfold addToCounter; rw [find_none hl hr]; simp only; rw [if_pos hlen, u30_plain hl]
      have hnd := nodup_append hw.1 (v := (0 : ℤ)) hr
      rw [hs]
      refine ⟨⟨?_, ?_⟩, rfl, fun l => ?_⟩
      · simp only; rw [keys_set hget]; exact hnd
      · simp only [List.length_set, List.length_append, List.length_singleton]; exact hlen
      · simp only
        rw [read_set hnd hget, read_append hr]
        by_cases h : k = l
        · subst h; simp [hr]
        · have h' : l ≠ k := fun e => h e.symm
          simp [h, h']
    | some w =>
      obtain ⟨i, hf, hi⟩ := find_some hw.1 hl hr
      have hs : addToCounter k v t = (.ok (), t.set i (k, w + v)) := by
        unfold addToCounter; simp only [hf, hi]
      rw [hs]
      refine ⟨⟨?_, ?_⟩, rfl, fun l => ?_⟩
      · simp only; rw [keys_set hi]; exact hw.1
      · simp only [List.length_set]; exact hw.2
      · simp only
        rw [read_set hw.1 hi]
        by_cases h : k = l
        · subst h; simp [hr]
        · have h' : l ≠ k := fun e => h e.symm
          simp [h, h']
  | clear k =>
    simp only [COp.label] at hl hroom
    simp only [cstep, COp.label]
    cases hr : read t k with
    | none =>
      have hs : clearCounter k t = (.error .value, t) := by unfold clearCounter; rw [find_none hl hr]
      rw [hs]
      refine ⟨hw, rfl, fun l => ?_⟩
      by_cases h : k = l
      · subst h; simp [hr]
      · simp [h]
    | some w =>
      obtain ⟨i, hf, hi⟩ := find_some hw.1 hl hr
      have hs : clearCounter k t = (.ok (), t.set i (k, 0)) := by
        unfold clearCounter; simp only [hf, hi]
      rw [hs]
      refine ⟨⟨?_, ?_⟩, rfl, fun l => ?_⟩
      · simp only; rw [keys_set hi]; exact hw.1
      · simp only [List.length_set]; exact hw.2
      · simp only
        rw [read_set hw.1 hi]
        by_cases h : k = l
        · subst h; simp [hr]
        · have h' : l ≠ k := fun e => h e.symm
          simp [h, h']
  | delete k =>
    simp only [COp.label] at hl hroom
    simp only [cstep, COp.label]
    cases hr : read t k with
    | none =>
      have hs : deleteCounter k t = (.error .value, t) := by unfold deleteCounter; rw [find_none hl hr]
      rw [hs]
      refine ⟨hw, rfl, fun l => ?_⟩
      by_cases h : k = l
      · subst h; simp [hr]
      · simp [h]
    | some w =>
      obtain ⟨i, hf, hi⟩ := find_some hw.1 hl hr
      have hlt := (List.getElem?_eq_some_iff.mp hi).1
      have hs : deleteCounter k t = (.ok (), removeAt t i) := by
        unfold deleteCounter; simp only [hf]
      rw [hs]
      refine ⟨⟨removeAt_nodup hw.1 hlt, ?_⟩, rfl, fun l => ?_⟩
      · simp only [removeAt_length hlt]; have := hw.2; omega
      · simp only
        rw [read_removeAt hw.1 hi]
        by_cases h : k = l
        · subst h; simp
        · have h' : l ≠ k := fun e => h e.symm
          simp [h, h']

/-- The distinct labels used by the operations fit into the table. -/
def Fit (os : List COp) : Prop := (os.map COp.label).toFinset.card ≤ 500

theorem cruns_inv (os : List COp) (hp : ∀ o ∈ os, Plain o.label) (hf : Fit os) :
    Wf (cruns os []) ∧ (cruns os []).map Prod.fst ⊆ os.map COp.label ∧ ∀ l, read (cruns os []) l = tally l os := by
  induction os using List.reverseRecOn with
  | nil => exact ⟨⟨by simp [cruns], by simp [cruns]⟩, by simp [cruns], fun l => rfl⟩
  | append_singleton os o ih =>
    have hsub : (os.map COp.label).toFinset ⊆ ((os ++ [o]).map COp.label).toFinset := by
      intro x hx; simp only [List.map_append, List.toFinset_append, Finset.mem_union]; exact Or.inl hx
    obtain ⟨hw, hk, hr⟩ := ih (fun o' h => hp o' (by simp [h])) ((Finset.card_le_card hsub).trans hf)
    have hroom : read (cruns os []) o.label ≠ none ∨ (cruns os []).length < 500 := by
      by_contra hc
      push Not at hc
      have hno := read_eq_none.mp hc.1
      have h1 : (insert o.label ((cruns os []).map Prod.fst).toFinset).card ≤ 500 := by
        refine (Finset.card_le_card ?_).trans hf
        intro x hx
        rw [Finset.mem_insert, List.mem_toFinset] at hx
        rw [List.mem_toFinset, List.map_append, List.mem_append]
        rcases hx with rfl | hx
        · right; simp
        · exact Or.inl (hk hx)
      rw [Finset.card_insert_of_notMem (by simpa using hno), List.toFinset_card_of_nodup hw.1, List.length_map] at h1
      omega
    have hstep : cruns (os ++ [o]) [] = (cstep o (cruns os [])).2 := by
      unfold cruns; rw [List.foldl_append]; rfl
    obtain ⟨c1, -, c3⟩ := cstep_spec hw (hp o (by simp)) hroom
    rw [hstep]
    refine ⟨c1, ?_, ?_⟩
    · intro x hx
      rw [List.map_append, List.mem_append]
      by_cases hx' : x = o.label
      · right; simp [hx']
      · left
        apply hk
        by_contra hc
        have h2 := read_eq_none.mpr hc
        have h3 := c3 x
        have : read (cstep o (cruns os [])).2 x = none := by
          rw [h3]
          cases o with
          | add k v => simp only; rw [if_neg (fun e => hx' e.symm)]; exact h2
          | clear k => simp only; rw [if_neg (fun e => hx' e.symm)]; exact h2
          | delete k => simp only; rw [if_neg (fun e => hx' e.symm)]; exact h2
        exact read_eq_none.mp this hx
    · intro l
      rw [c3 l, hr l]
      unfold tally
      rw [List.foldl_append]
      cases o <;> rfl

/-- **C46.** After any sequence of operations with fitting labels (at most 500 distinct ones), the count under each label is
the sum of what was added to it since it was last cleared or deleted, independently of the other labels. -/
theorem C46_counts (os : List COp) (hp : ∀ o ∈ os, Plain o.label) (hf : Fit os) (l : Label) :
    read (cruns os []) l = tally l os := (cruns_inv os hp hf).2.2 l

/-- **C46.** Adding never fails; clearing and deleting fail with `ValueError` exactly for labels without a counter. -/
theorem C46_outcomes (os : List COp) (o : COp) (hp : ∀ o' ∈ os ++ [o], Plain o'.label) (hf : Fit (os ++ [o])) :
    (cstep o (cruns os [])).1 = expected o (tally o.label os) := by
  have hsub : (os.map COp.label).toFinset ⊆ ((os ++ [o]).map COp.label).toFinset := by
    intro x hx; simp only [List.map_append, List.toFinset_append, Finset.mem_union]; exact Or.inl hx
  obtain ⟨hw, hk, hr⟩ := cruns_inv os (fun o' h => hp o' (by simp [h])) ((Finset.card_le_card hsub).trans hf)
  have hroom : read (cruns os []) o.label ≠ none ∨ (cruns os []).length < 500 := by
    by_contra hc
    push Not at hc
    have hno := read_eq_none.mp hc.1
    have h1 : (insert o.label ((cruns os []).map Prod.fst).toFinset).card ≤ 500 := by
      refine (Finset.card_le_card ?_).trans hf
      intro x hx
      rw [Finset.mem_insert, List.mem_toFinset] at hx
      rw [List.mem_toFinset, List.map_append, List.mem_append]
      rcases hx with rfl | hx
      · right; simp
      · exact Or.inl (hk hx)
    rw [Finset.card_insert_of_notMem (by simpa using hno), List.toFinset_card_of_nodup hw.1, List.length_map] at h1
    omega
  obtain ⟨-, c2, -⟩ := cstep_spec hw (hp o (by simp)) hroom
  rw [c2, hr]

example : (∀ o ∈ [COp.add "fft".toList 3, .add "mat".toList 1, .add "fft".toList 2, .delete "mat".toList], Plain o.label)
    ∧ tally "fft".toList [COp.add "fft".toList 3, .add "mat".toList 1, .add "fft".toList 2, .delete "mat".toList] = some 5 := by
  decide

/-- **C46.** A 501st label does not fit: adding to a new counter then raises `IndexError`. -/
theorem C46_full {t : Table ℤ} (h : t.length = 500) {l : Label} (hl : Plain l) (hr : read t l = none)
    (v : ℤ) : addToCounter l v t = (.error .index, t) := by
  unfold addToCounter
  rw [find_none hl hr]
  simp [maxEntries, h]

end Verif.Logger
