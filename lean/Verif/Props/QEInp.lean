import Mathlib.Data.List.Basic
import Mathlib.Data.List.TakeDrop
import Mathlib.Data.List.Induction
import Mathlib.Tactic.Tauto
import Batteries.Data.Char.AsciiCasing
import Verif.Model.QEInp

/-!
# PWscf input files: namelists and cards
-/

namespace Verif.QEInp

/-! ## Specification: what an assignment in a namelist means

A namelist is a sequence of assignments `key = value` or `key(i) = value`, laid out in any way the format allows. -/

/-- An assignment with its layout: blanks around the key and the value, value in apostrophes or not. -/
structure Asg where
  key : Str
  idx : Option Str
  val : Str
  quoted : Bool
  w1 : Str
  w2 : Str
  w3 : Str
  w4 : Str

def Asg.lhs (a : Asg) : Str :=
  match a.idx with
  | none => a.key
  | some i => a.key ++ '(' :: i ++ [')']

def Asg.rhs (a : Asg) : Str := if a.quoted then '\'' :: a.val ++ ['\''] else a.val

/-- The text of an assignment. -/
def Asg.text (a : Asg) : Str := a.w1 ++ a.lhs ++ a.w2 ++ '=' :: (a.w3 ++ a.rhs ++ a.w4)

/-- Neither end of `s` satisfies `p`. -/
def Trimmed (p : Char → Bool) (s : Str) : Prop := (∀ c ∈ s.head?, p c = false) ∧ (∀ c ∈ s.getLast?, p c = false)

/-- Well-formed layout: keys are names, indices are without parentheses, values contain no separators, blanks are blanks. -/
structure Asg.WF (a : Asg) : Prop where
  key_ne : a.key ≠ []
  key_name : ∀ c ∈ a.key, isWs c = false ∧ c ≠ ',' ∧ c ≠ '=' ∧ c ≠ '(' ∧ c ≠ '!' ∧ c ≠ '#' ∧ c ≠ '/'
  idx_ok : ∀ i, a.idx = some i → ∀ c ∈ i, c ≠ ',' ∧ c ≠ '=' ∧ c ≠ '(' ∧ c ≠ ')'
  val_ok : ∀ c ∈ a.val, c ≠ ',' ∧ c ≠ '='
  val_quote : Trimmed (· == '\'') a.val
  val_ws : a.quoted = false → a.val ≠ [] ∧ Trimmed isWs a.val
  ws : ∀ w ∈ [a.w1, a.w2, a.w3, a.w4], ∀ c ∈ w, isWs c = true

/-- A line of a namelist: a comment, or assignments separated by commas, with any number of commas at the end. -/
inductive NLine
  | comment (w : Str) (ch : Char) (text : Str)
  | asgs (first : Asg) (more : List Asg) (commas : ℕ) (w : Str)

def joinComma : List Str → Str
  | [] => []
  | [s] => s
  | s :: t => s ++ ',' :: joinComma t

def NLine.text : NLine → Str
  | .comment w ch t => w ++ ch :: t
  | .asgs a more k w => joinComma ((a :: more).map Asg.text) ++ List.replicate k ',' ++ w

def NLine.WF : NLine → Prop
  | .comment w ch _ => (∀ c ∈ w, isWs c = true) ∧ (ch = '!' ∨ ch = '#')
  | .asgs a more _ w => (∀ b ∈ a :: more, b.WF) ∧ ∀ c ∈ w, isWs c = true

def NLine.assignments : NLine → List Asg
  | .comment _ _ _ => []
  | .asgs a more _ _ => a :: more

/-- A Fortran real: the exponent letter may be `d`. -/
def fortranReal (v : Str) : Str := v.map fun c => if c = 'd' then 'e' else c

/-- The value a scalar assignment denotes (logicals excluded, see C92). -/
def denotes (N : Nums) (t : Ty) (v : Str) : Option Val :=
  match t with
  | .str => some (.str v)
  | .int => (N.int v).map .int
  | .float => (N.float (fortranReal v)).map .float
  | .bool => none
  | .dict => none

/-- The assignment is legal: a known parameter with a readable value. -/
def Asg.Legal (N : Nums) (fields : List (Str × Ty × Bool)) (a : Asg) : Prop :=
  (a.idx = none ∧ ∃ t, fieldType fields a.key = some t ∧ (denotes N t a.val).isSome) ∨
    (fieldType fields a.key = some .dict ∧ ∃ i z x, a.idx = some i ∧ N.int i = some z ∧ N.float (fortranReal a.val) = some x)

/-! ## Lemmas: strings -/

theorem dropWhile_all {p : Char → Bool} {u m : Str} (hu : ∀ c ∈ u, p c = true) : (u ++ m).dropWhile p = m.dropWhile p := by
  induction u with
  | nil => rfl
  | cons c u ih =>
    rw [List.cons_append, List.dropWhile_cons, if_pos (hu c (by simp))]
    exact ih fun d hd => hu d (by simp [hd])

theorem dropWhile_head {p : Char → Bool} {m : Str} (hm : ∀ c ∈ m.head?, p c = false) : m.dropWhile p = m := by
  cases m with
  | nil => rfl
  | cons c m => rw [List.dropWhile_cons, if_neg (by simp [hm c (by simp)])]

theorem rstripBy_core {p : Char → Bool} {m v : Str} (hv : ∀ c ∈ v, p c = true) (hm : ∀ c ∈ m.getLast?, p c = false) :
    rstripBy p (m ++ v) = m := by
  unfold rstripBy
  rw [List.reverse_append, dropWhile_all (by simpa using hv), dropWhile_head (by simpa using hm), List.reverse_reverse]

theorem rstripBy_id {p : Char → Bool} {m : Str} (hm : ∀ c ∈ m.getLast?, p c = false) : rstripBy p m = m := by
  have := rstripBy_core (p := p) (v := []) (by simp) hm
  simpa using this

theorem stripBy_core {p : Char → Bool} {u m v : Str} (hu : ∀ c ∈ u, p c = true) (hv : ∀ c ∈ v, p c = true) (hm : Trimmed p m) :
    stripBy p (u ++ m ++ v) = m := by
  unfold stripBy lstripBy
  rw [List.append_assoc, dropWhile_all hu]
  cases m with
  | nil =>
    have h : (([] : Str) ++ v).dropWhile p = [] := by
      have := dropWhile_all (p := p) (u := v) (m := []) hv
      simpa using this
    rw [h]; rfl
  | cons c m =>
    rw [dropWhile_head (by simpa using hm.1)]
    exact rstripBy_core hv hm.2

theorem split_nomem {c : Char} {s : Str} (h : c ∉ s) : split c s = [s] := by
  induction s with
  | nil => rfl
  | cons x xs ih =>
    have h1 : ¬ x = c := fun e => h (by simp [e])
    simp only [split, if_neg h1, ih fun e => h (by simp [e])]

theorem split_append {c : Char} {a b : Str} (h : c ∉ a) : split c (a ++ c :: b) = a :: split c b := by
  induction a with
  | nil => simp [split]
  | cons x xs ih =>
    have h1 : ¬ x = c := fun e => h (by simp [e])
    simp only [List.cons_append, split, if_neg h1, ih fun e => h (by simp [e])]

theorem split_join {ps : List Str} (hne : ps ≠ []) (h : ∀ p ∈ ps, ',' ∉ p) : split ',' (joinComma ps) = ps := by
  induction ps with
  | nil => exact absurd rfl hne
  | cons p ps ih =>
    cases ps with
    | nil => exact split_nomem (h p (by simp))
    | cons q qs =>
      show split ',' (p ++ ',' :: joinComma (q :: qs)) = _
      rw [split_append (h p (by simp)), ih (by simp) fun r hr => h r (by simp [hr])]

theorem dictGet_set {α β : Type} [DecidableEq α] (d : List (α × β)) (k k' : α) (v : β) :
    dictGet (dictSet d k v) k' = if k = k' then some v else dictGet d k' := by
  induction d with
  | nil => simp [dictSet, dictGet]
  | cons a t ih =>
    obtain ⟨x, y⟩ := a
    by_cases hx : x = k
    · subst hx
      by_cases hk : x = k' <;> simp [dictSet, dictGet, hk]
    · by_cases hk : x = k'
      · subst hk
        simp [dictSet, dictGet, hx, Ne.symm hx]
      · simp [dictSet, dictGet, hx, hk, ih]

/-! ## Lemmas: one assignment -/

theorem ws_not {c d : Char} (h : isWs c = true) (hd : isWs d = false) : c ≠ d := by
  rintro rfl
  rw [h] at hd; cases hd

theorem Asg.WF.w {a : Asg} (h : a.WF) : (∀ c ∈ a.w1, isWs c = true) ∧ (∀ c ∈ a.w2, isWs c = true) ∧ (∀ c ∈ a.w3, isWs c = true) ∧
    (∀ c ∈ a.w4, isWs c = true) :=
  ⟨h.ws a.w1 (by simp), h.ws a.w2 (by simp), h.ws a.w3 (by simp), h.ws a.w4 (by simp)⟩

theorem Asg.WF.lhs_mem {a : Asg} (h : a.WF) : ∀ c ∈ a.lhs, c ≠ ',' ∧ c ≠ '=' := by
  intro c hc
  unfold Asg.lhs at hc
  cases hi : a.idx with
  | none =>
    rw [hi] at hc
    have := h.key_name c hc
    exact ⟨this.2.1, this.2.2.1⟩
  | some i =>
    rw [hi] at hc
    simp only [List.mem_append, List.mem_cons, List.not_mem_nil, or_false] at hc
    rcases hc with (hc | hc | hc) | hc
    · have := h.key_name c hc
      exact ⟨this.2.1, this.2.2.1⟩
    · subst hc; decide
    · have := h.idx_ok i hi c hc
      exact ⟨this.1, this.2.1⟩
    · subst hc; decide

theorem Asg.WF.lhs_trim {a : Asg} (h : a.WF) : Trimmed isWs a.lhs := by
  have hk : ∀ c ∈ a.key.head?, isWs c = false := fun c hc => (h.key_name c (List.mem_of_mem_head? hc)).1
  have hl : ∀ c ∈ a.key.getLast?, isWs c = false := fun c hc => (h.key_name c (List.mem_of_mem_getLast? hc)).1
  unfold Asg.lhs
  cases hi : a.idx with
  | none => exact ⟨hk, hl⟩
  | some i =>
    constructor
    · intro c hc
      apply hk
      cases hkey : a.key with
      | nil => exact absurd hkey h.key_ne
      | cons x xs => rw [hkey] at hc; simpa using hc
    · intro c hc
      change c ∈ ((a.key ++ '(' :: i) ++ [')']).getLast? at hc
      rw [List.getLast?_append] at hc
      simp at hc
      subst hc; decide

theorem Asg.WF.rhs_mem {a : Asg} (h : a.WF) : ∀ c ∈ a.rhs, c ≠ ',' ∧ c ≠ '=' := by
  intro c hc
  unfold Asg.rhs at hc
  by_cases hq : a.quoted = true
  · rw [if_pos hq] at hc
    simp only [List.cons_append, List.mem_cons, List.mem_append, List.not_mem_nil, or_false] at hc
    rcases hc with hc | hc | hc
    · subst hc; decide
    · exact h.val_ok c hc
    · subst hc; decide
  · rw [if_neg hq] at hc
    exact h.val_ok c hc

theorem Asg.WF.rhs_trim {a : Asg} (h : a.WF) : Trimmed isWs a.rhs := by
  unfold Asg.rhs
  by_cases hq : a.quoted = true
  · rw [if_pos hq]
    constructor
    · intro c hc; simp at hc; subst hc; decide
    · intro c hc
      rw [show ('\'' :: a.val ++ ['\'']) = ('\'' :: a.val) ++ ['\''] from rfl, List.getLast?_append] at hc
      simp at hc; subst hc; decide
  · rw [if_neg hq]
    exact (h.val_ws (by simpa using hq)).2

theorem Asg.WF.rhs_ne {a : Asg} (h : a.WF) : a.rhs ≠ [] := by
  unfold Asg.rhs
  by_cases hq : a.quoted = true
  · rw [if_pos hq]; simp
  · rw [if_neg hq]; exact (h.val_ws (by simpa using hq)).1

theorem Asg.WF.lhs_ne {a : Asg} (h : a.WF) : a.lhs ≠ [] := by
  unfold Asg.lhs
  cases a.idx with
  | none => exact h.key_ne
  | some i => simp

theorem Asg.WF.rhs_strip {a : Asg} (h : a.WF) : stripBy (· == '\'') a.rhs = a.val := by
  unfold Asg.rhs
  by_cases hq : a.quoted = true
  · rw [if_pos hq]
    exact stripBy_core (p := (· == '\'')) (u := ['\'']) (v := ['\'']) (by simp) (by simp) h.val_quote
  · rw [if_neg hq]
    have := stripBy_core (p := (· == '\'')) (u := []) (v := []) (m := a.val) (by simp) (by simp) h.val_quote
    simpa using this

/-- What one assignment does to the data. -/
def effect (N : Nums) (fields : List (Str × Ty × Bool)) (data : Data) (a : Asg) : Except PyErr Data :=
  match fieldType fields a.key with
  | none => .error .value
  | some .dict =>
    (match a.idx with
      | none => .error .type
      | some i =>
        match N.int i with
        | none => .error .value
        | some z =>
          match N.float (fortranReal a.val) with
          | none => .error .value
          | some x => .ok (setEntry data a.key z x))
  | some t =>
    match parseTyp N t a.val with
    | .error e => .error e
    | .ok v => .ok (dictSet data a.key v)

theorem assign_text {a : Asg} (h : a.WF) (N : Nums) (fields : List (Str × Ty × Bool)) (data : Data) :
    assign N fields data a.text = effect N fields data a := by
  obtain ⟨h1, h2, h3, h4⟩ := h.w
  have heq : ∀ w : Str, (∀ c ∈ w, isWs c = true) → '=' ∉ w := fun w hw hm => absurd (hw _ hm) (by decide)
  have hs : split '=' a.text = [a.w1 ++ a.lhs ++ a.w2, a.w3 ++ a.rhs ++ a.w4] := by
    unfold Asg.text
    rw [split_append, split_nomem]
    · simp only [List.mem_append, not_or]
      exact ⟨⟨heq _ h3, fun hm => (h.rhs_mem _ hm).2 rfl⟩, heq _ h4⟩
    · simp only [List.mem_append, not_or]
      exact ⟨⟨heq _ h1, fun hm => (h.lhs_mem _ hm).2 rfl⟩, heq _ h2⟩
  have hpar : strip (a.w1 ++ a.lhs ++ a.w2) = a.lhs := stripBy_core h1 h2 h.lhs_trim
  have hval : strip (a.w3 ++ a.rhs ++ a.w4) = a.rhs := stripBy_core h3 h4 h.rhs_trim
  unfold assign
  rw [hs]
  simp only [hpar, hval, h.rhs_strip]
  unfold effect
  cases hi : a.idx with
  | none =>
    have hl : a.lhs = a.key := by unfold Asg.lhs; rw [hi]
    have hn : ¬ '(' ∈ a.key := fun hm => (h.key_name _ hm).2.2.2.1 rfl
    simp only [hl, if_neg hn]
    cases hf : fieldType fields a.key with
    | none => rfl
    | some t => cases t <;> rfl
  | some i =>
    have hl : a.lhs = a.key ++ '(' :: (i ++ [')']) := by unfold Asg.lhs; rw [hi]; simp
    have hn : '(' ∉ a.key := fun hm => (h.key_name _ hm).2.2.2.1 rfl
    have hy : '(' ∈ a.lhs := by rw [hl]; simp
    have hsp : split '(' a.lhs = [a.key, i ++ [')']] := by
      rw [hl, split_append hn, split_nomem]
      simp only [List.mem_append, not_or]
      exact ⟨fun hm => (h.idx_ok i hi _ hm).2.2.1 rfl, by decide⟩
    have hrs : rstripBy (· == ')') (i ++ [')']) = i :=
      rstripBy_core (by simp) fun c hc => by
        have := (h.idx_ok i hi c (List.mem_of_mem_getLast? hc)).2.2.2
        simpa using this
    simp only [if_pos hy, hsp, hrs]
    cases hf : fieldType fields a.key with
    | none => rfl
    | some t => cases t <;> rfl

/-! ## Lemmas: one line -/

theorem Asg.WF.no_comma {a : Asg} (h : a.WF) : ',' ∉ a.text := by
  obtain ⟨h1, h2, h3, h4⟩ := h.w
  have heq : ∀ w : Str, (∀ c ∈ w, isWs c = true) → ',' ∉ w := fun w hw hm => absurd (hw _ hm) (by decide)
  unfold Asg.text
  simp only [List.mem_append, List.mem_cons, not_or]
  exact ⟨⟨⟨heq _ h1, fun hm => (h.lhs_mem _ hm).1 rfl⟩, heq _ h2⟩, by decide, ⟨heq _ h3, fun hm => (h.rhs_mem _ hm).1 rfl⟩, heq _ h4⟩

def Asg.noW1 (a : Asg) : Asg := { a with w1 := [] }
def Asg.noW4 (a : Asg) : Asg := { a with w4 := [] }

theorem Asg.WF.noW1 {a : Asg} (h : a.WF) : a.noW1.WF :=
  ⟨h.key_ne, h.key_name, h.idx_ok, h.val_ok, h.val_quote, h.val_ws, by
    intro w hw; simp only [Asg.noW1, List.mem_cons, List.not_mem_nil, or_false] at hw
    rcases hw with rfl | hw | hw | hw
    · simp
    all_goals subst hw
    · exact h.w.2.1
    · exact h.w.2.2.1
    · exact h.w.2.2.2⟩

theorem Asg.WF.noW4 {a : Asg} (h : a.WF) : a.noW4.WF :=
  ⟨h.key_ne, h.key_name, h.idx_ok, h.val_ok, h.val_quote, h.val_ws, by
    intro w hw; simp only [Asg.noW4, List.mem_cons, List.not_mem_nil, or_false] at hw
    rcases hw with hw | hw | hw | rfl
    rotate_left 3
    · simp
    all_goals subst hw
    · exact h.w.1
    · exact h.w.2.1
    · exact h.w.2.2.1⟩

theorem Asg.text_w1 (a : Asg) : a.text = a.w1 ++ a.noW1.text := by
  show _ = a.w1 ++ (([] ++ a.lhs ++ a.w2) ++ '=' :: (a.w3 ++ a.rhs ++ a.w4))
  unfold Asg.text
  simp

theorem Asg.text_w4 (a : Asg) : a.text = a.noW4.text ++ a.w4 := by
  show _ = (a.w1 ++ a.lhs ++ a.w2 ++ '=' :: (a.w3 ++ a.rhs ++ [])) ++ a.w4
  unfold Asg.text
  simp

/-- Head of an assignment without leading blanks: a character of the key. -/
theorem Asg.WF.head {a : Asg} (h : a.WF) : ∃ c t, a.noW1.text = c :: t ∧ c ∈ a.key := by
  cases hk : a.key with
  | nil => exact absurd hk h.key_ne
  | cons x xs =>
    refine ⟨x, xs ++ (match a.idx with | none => [] | some i => '(' :: i ++ [')']) ++ a.w2 ++ '=' :: (a.w3 ++ a.rhs ++ a.w4), ?_, by simp⟩
    show ([] ++ a.lhs ++ a.w2) ++ '=' :: (a.w3 ++ a.rhs ++ a.w4) = _
    unfold Asg.lhs
    rw [hk]
    cases a.idx <;> simp

theorem Asg.WF.last {a : Asg} (h : a.WF) : ∀ c ∈ a.noW4.text.getLast?, isWs c = false ∧ c ≠ ',' := by
  intro c hc
  have : a.noW4.text = (a.w1 ++ a.lhs ++ a.w2 ++ '=' :: a.w3) ++ a.rhs := by
    show (a.w1 ++ a.lhs ++ a.w2 ++ '=' :: (a.w3 ++ a.rhs ++ [])) = _
    simp
  rw [this, List.getLast?_append] at hc
  have hc' : c ∈ a.rhs.getLast? := by
    cases hr : a.rhs.getLast? with
    | none => exact absurd (List.getLast?_eq_none_iff.mp hr) h.rhs_ne
    | some d => rw [hr] at hc; simpa using hc
  exact ⟨h.rhs_trim.2 c hc', (h.rhs_mem c (List.mem_of_mem_getLast? hc')).1⟩

theorem joinComma_cons (s : Str) (t : List Str) : joinComma (s :: t) = s ++ (match t with | [] => [] | _ :: _ => ',' :: joinComma t) := by
  cases t <;> simp [joinComma]

theorem joinComma_snoc (t : List Str) (s : Str) : joinComma (t ++ [s]) = (match t with | [] => [] | _ :: _ => joinComma t ++ [',']) ++ s := by
  induction t with
  | nil => simp [joinComma]
  | cons x t ih =>
    cases t with
    | nil => simp [joinComma]
    | cons y t =>
      show x ++ ',' :: joinComma ((y :: t) ++ [s]) = (x ++ ',' :: joinComma (y :: t) ++ [',']) ++ s
      rw [ih]; simp

/-- Stripping a line of assignments leaves a line of the same assignments. -/
theorem strip_line (a : Asg) (more : List Asg) (k : ℕ) (w : Str) (h : ∀ b ∈ a :: more, b.WF) (hw : ∀ c ∈ w, isWs c = true) :
    ∃ as : List Asg, (∀ b ∈ as, b.WF) ∧ as.length = (a :: more).length ∧ (∃ (x : Asg) (t : List Asg), as = x.noW1 :: t ∧ x.WF) ∧
      rstripBy (· == ',') (strip (NLine.asgs a more k w).text) = joinComma (as.map Asg.text) ∧
      ∀ N fields data, assignAll N fields data (as.map Asg.text) = assignAll N fields data ((a :: more).map Asg.text) := by
  -- first remove the leading blanks
  have ha := h a (by simp)
  set as0 : List Asg := a.noW1 :: more with has0
  have h0 : ∀ b ∈ as0, b.WF := by
    intro b hb; rcases List.mem_cons.mp hb with rfl | hb
    · exact ha.noW1
    · exact h b (by simp [hb])
  have htext : (NLine.asgs a more k w).text = a.w1 ++ (joinComma (as0.map Asg.text) ++ List.replicate k ',' ++ w) := by
    show joinComma ((a :: more).map Asg.text) ++ List.replicate k ',' ++ w = _
    rw [List.map_cons, joinComma_cons, has0, List.map_cons, joinComma_cons, a.text_w1]
    simp
  have hassign0 : ∀ N fields data, assignAll N fields data (as0.map Asg.text) = assignAll N fields data ((a :: more).map Asg.text) := by
    intro N fields data
    rw [has0, List.map_cons, List.map_cons, assignAll, assignAll, assign_text ha, assign_text ha.noW1]
    rfl
  obtain ⟨ch, tl, hhead, hkey⟩ := ha.head
  have hhd : ∃ t, joinComma (as0.map Asg.text) = ch :: t := by
    rw [has0, List.map_cons, joinComma_cons, hhead]; exact ⟨_, rfl⟩
  obtain ⟨t0, ht0⟩ := hhd
  have hws0 : isWs ch = false := (ha.key_name ch hkey).1
  have hl : lstripBy isWs (NLine.asgs a more k w).text = joinComma (as0.map Asg.text) ++ List.replicate k ',' ++ w := by
    rw [htext]
    unfold lstripBy
    rw [dropWhile_all ha.w.1, dropWhile_head]
    intro c hc
    rw [ht0] at hc
    simp at hc
    rw [← hc]; exact hws0
  -- last assignment
  obtain ⟨init, lst, hsnoc⟩ : ∃ init lst, as0 = init ++ [lst] := ⟨as0.dropLast, as0.getLast (by simp [has0]), (List.dropLast_append_getLast _).symm⟩
  have hlst : lst.WF := h0 lst (by rw [hsnoc]; simp)
  cases k with
  | zero =>
    -- no comma: the trailing blanks of the last assignment go too
    set as1 : List Asg := init ++ [lst.noW4] with has1
    have hj : joinComma (as0.map Asg.text) = joinComma (as1.map Asg.text) ++ lst.w4 := by
      rw [hsnoc, has1, List.map_append, List.map_append, List.map_cons, List.map_cons, List.map_nil, joinComma_snoc, joinComma_snoc,
        Asg.text_w4 lst]
      simp
    have hlast : ∀ c ∈ (joinComma (as1.map Asg.text)).getLast?, isWs c = false ∧ c ≠ ',' := by
      intro c hc
      rw [has1, List.map_append, List.map_cons, List.map_nil, joinComma_snoc, List.getLast?_append] at hc
      have hne : lst.noW4.text ≠ [] := by
        show (lst.w1 ++ lst.lhs ++ lst.w2 ++ '=' :: (lst.w3 ++ lst.rhs ++ [])) ≠ []
        simp
      cases hr : lst.noW4.text.getLast? with
      | none => exact absurd (List.getLast?_eq_none_iff.mp hr) hne
      | some d => rw [hr] at hc; exact hlst.last c (by rw [hr]; simpa using hc)
    refine ⟨as1, ?_, ?_, ?_, ?_, ?_⟩
    · intro b hb
      rw [has1] at hb
      rcases List.mem_append.mp hb with hb | hb
      · exact h0 b (by rw [hsnoc]; simp [hb])
      · rw [List.mem_singleton.mp hb]; exact hlst.noW4
    · have : as0.length = (a :: more).length := by simp [has0]
      rw [← this, hsnoc, has1]; simp
    · cases init with
      | nil =>
        have : lst = a.noW1 := by
          have := hsnoc; rw [has0] at this
          simp at this; exact this.1.symm
        refine ⟨a.noW4, [], ?_, ha.noW4⟩
        rw [has1, this]; rfl
      | cons y ys =>
        have : y = a.noW1 := by
          have := hsnoc; rw [has0] at this
          simp at this; exact this.1.symm
        refine ⟨a, ys ++ [lst.noW4], ?_, ha⟩
        rw [has1, this]; rfl
    · unfold strip stripBy
      rw [hl, hj]
      simp only [List.replicate_zero, List.append_nil, List.append_assoc]
      rw [rstripBy_core (p := isWs), rstripBy_id]
      · intro c hc
        simpa using (hlast c hc).2
      · intro c hc
        rcases List.mem_append.mp hc with hc | hc
        · exact hlst.w.2.2.2 c hc
        · exact hw c hc
      · exact fun c hc => (hlast c hc).1
    · intro N fields data
      rw [← hassign0]
      rw [hsnoc, has1]
      clear hsnoc has1 hassign0 hlast hj hl ht0
      induction init generalizing data with
      | nil =>
        simp only [List.nil_append, List.map_cons, List.map_nil, assignAll]
        rw [assign_text hlst, assign_text hlst.noW4]; rfl
      | cons y ys ih =>
        simp only [List.cons_append, List.map_cons, assignAll]
        cases assign N fields data y.text with
        | error e => rfl
        | ok d => exact ih d
  | succ k =>
    refine ⟨as0, h0, by simp [has0], ⟨a, more, has0, ha⟩, ?_, hassign0⟩
    unfold strip stripBy
    rw [hl, rstripBy_core (p := isWs) hw]
    · rw [rstripBy_core]
      · intro c hc
        rw [List.eq_of_mem_replicate hc]; rfl
      · intro c hc
        rw [hsnoc, List.map_append, List.map_cons, List.map_nil, joinComma_snoc, List.getLast?_append] at hc
        have hne : lst.text ≠ [] := by unfold Asg.text; simp
        have hcm : c ∈ lst.text.getLast? := by
          cases hr : lst.text.getLast? with
          | none => exact absurd (List.getLast?_eq_none_iff.mp hr) hne
          | some d => rw [hr] at hc; simpa using hc
        have : c ≠ ',' := fun e => hlst.no_comma (e ▸ List.mem_of_mem_getLast? hcm)
        simpa using this
    · intro c hc
      rw [List.getLast?_append] at hc
      rw [show List.replicate (k + 1) ',' = List.replicate k ',' ++ [','] from List.replicate_succ'] at hc
      simp at hc
      rw [← hc]; decide

theorem rstripBy_head {p : Char → Bool} {ch : Char} (u : Str) (hp : p ch = false) : ∃ t, rstripBy p (ch :: u) = ch :: t := by
  unfold rstripBy
  rw [List.reverse_cons]
  have : ∀ v : Str, ∃ v', (v ++ [ch]).dropWhile p = v' ++ [ch] := by
    intro v
    induction v with
    | nil => exact ⟨[], by simp [hp]⟩
    | cons x v ih =>
      rw [List.cons_append, List.dropWhile_cons]
      split
      · exact ih
      · exact ⟨x :: v, rfl⟩
  obtain ⟨v', hv'⟩ := this u.reverse
  exact ⟨v'.reverse, by rw [hv']; simp⟩

theorem strip_head {w t : Str} {ch : Char} (hw : ∀ c ∈ w, isWs c = true) (h1 : isWs ch = false) (h2 : (ch == ',') = false) :
    ∃ t', lstripBy isWs (rstripBy (· == ',') (strip (w ++ ch :: t))) = ch :: t' := by
  have hd : (w ++ ch :: t).dropWhile isWs = ch :: t := by
    rw [dropWhile_all hw]
    exact dropWhile_head (by intro c hc; simp at hc; subst hc; exact h1)
  obtain ⟨t1, e1⟩ := rstripBy_head (p := isWs) t h1
  obtain ⟨t2, e2⟩ := rstripBy_head (p := (· == ',')) t1 h2
  refine ⟨t2, ?_⟩
  unfold strip stripBy lstripBy
  rw [hd, e1, e2]
  exact dropWhile_head (by intro c hc; simp at hc; subst hc; exact h1)

theorem assignAll_append (N : Nums) (fields : List (Str × Ty × Bool)) (xs ys : List Str) (d : Data) :
    assignAll N fields d (xs ++ ys) =
      (match assignAll N fields d xs with | .error e => .error e | .ok d => assignAll N fields d ys) := by
  induction xs generalizing d with
  | nil => rfl
  | cons p xs ihx =>
    simp only [List.cons_append, assignAll]
    cases assign N fields d p with
    | error e => rfl
    | ok d => exact ihx d

/-- Reading the lines of a namelist = performing its assignments in order. -/
theorem nlBody_text (N : Nums) (fields : List (Str × Ty × Bool)) (ls : List NLine) (h : ∀ l ∈ ls, l.WF) (text : List Str)
    (ht : text.map lower = ls.map NLine.text) (stop : Str) (w tl : Str) (hw : ∀ c ∈ w, isWs c = true) (hs : lower stop = w ++ '/' :: tl)
    (rest : List Str) (data : Data) :
    nlBody N fields (text ++ stop :: rest) data =
      (match assignAll N fields data ((ls.flatMap NLine.assignments).map Asg.text) with
        | .error e => .error e
        | .ok d => .ok (d, rest)) := by
  induction ls generalizing text data with
  | nil =>
    have : text = [] := by simpa using ht
    subst this
    have hline : ∃ t, lstripBy isWs (rstripBy (· == ',') (strip (lower stop))) = '/' :: t := by
      rw [hs]; exact strip_head hw (by decide) (by decide)
    obtain ⟨t, ht⟩ := hline
    simp only [List.nil_append, nlBody, ht, List.flatMap_nil, List.map_nil, assignAll]
    rw [if_neg (by decide), if_pos trivial]
  | cons l ls ih =>
    cases text with
    | nil => simp at ht
    | cons x text =>
      simp only [List.map_cons, List.cons.injEq] at ht
      obtain ⟨hx, ht⟩ := ht
      have hls := fun m hm => h m (List.mem_cons_of_mem _ hm)
      have hl := h l (by simp)
      cases l with
      | comment cw ch t =>
        obtain ⟨hcw, hch⟩ := hl
        have hch' : isWs ch = false ∧ (ch == ',') = false := by rcases hch with rfl | rfl <;> decide
        have hline : ∃ t', lstripBy isWs (rstripBy (· == ',') (strip (lower x))) = ch :: t' := by
          rw [hx]; exact strip_head hcw hch'.1 hch'.2
        obtain ⟨t', ht'⟩ := hline
        simp only [List.cons_append, nlBody, ht']
        rw [if_pos hch, ih hls text ht]
        rfl
      | asgs a more k cw =>
        obtain ⟨hwf, hcw⟩ := hl
        obtain ⟨as, has, hlen, ⟨y, t, hy, hyw⟩, hstrip, hall⟩ := strip_line a more k cw hwf hcw
        obtain ⟨ch, tl', hhead, hkey⟩ := hyw.head
        have hj : ∃ u, joinComma (as.map Asg.text) = ch :: u := by
          rw [hy, List.map_cons, joinComma_cons, hhead]; exact ⟨_, rfl⟩
        obtain ⟨u, hu⟩ := hj
        have hkc := hyw.key_name ch hkey
        have hline : rstripBy (· == ',') (strip (lower x)) = joinComma (as.map Asg.text) := by rw [hx]; exact hstrip
        have hl2 : lstripBy isWs (rstripBy (· == ',') (strip (lower x))) = ch :: u := by
          rw [hline, hu]
          exact dropWhile_head (by intro c hc; simp at hc; subst hc; exact hkc.1)
        have hsp : split ',' (rstripBy (· == ',') (strip (lower x))) = as.map Asg.text := by
          rw [hline]
          refine split_join ?_ ?_
          · rw [hy]; simp
          · intro p hp
            obtain ⟨b, hb, rfl⟩ := List.mem_map.mp hp
            exact (has b hb).no_comma
        simp only [List.cons_append, nlBody, hl2, hsp, hall]
        rw [if_neg (by tauto), if_neg (by tauto)]
        rw [List.flatMap_cons, List.map_append, assignAll_append]
        simp only [NLine.assignments]
        cases assignAll N fields data ((a :: more).map Asg.text) with
        | error e => rfl
        | ok d => exact ih hls text ht d

/-! ## C91: a namelist means its last assignments, whatever the layout -/

/-- `d[key][i]` of a stored array parameter. -/
def entry (d : Data) (k : Str) (z : ℤ) : Option ℝ :=
  match dictGet d k with
  | some (.dict e) => dictGet e z
  | _ => none

theorem entry_setEntry (d : Data) (k k' : Str) (z z' : ℤ) (x : ℝ) :
    entry (setEntry d k z x) k' z' = if k = k' ∧ z = z' then some x else entry d k' z' := by
  by_cases hk : k = k'
  · subst hk
    unfold setEntry entry
    cases hd : dictGet d k with
    | none =>
      simp only [dictGet_set, if_true, dictGet, true_and]
    | some v =>
      cases v with
      | dict e => simp only [dictGet_set, if_true, true_and]
      | _ => simp only [dictGet_set, if_true, dictGet, true_and]
  · have : dictGet (setEntry d k z x) k' = dictGet d k' := by
      unfold setEntry
      split <;> rw [dictGet_set, if_neg hk]
    unfold entry
    rw [this, if_neg (fun h => hk h.1)]

theorem getLast?_filter_snoc {α : Type} (p : α → Bool) (l : List α) (a : α) :
    ((l ++ [a]).filter p).getLast? = if p a then some a else (l.filter p).getLast? := by
  rw [List.filter_append]
  by_cases h : p a
  · simp [List.filter_cons, h]
  · simp [List.filter_cons, h]

theorem parseTyp_denotes {N : Nums} {t : Ty} {v : Str} {w : Val} (h : denotes N t v = some w) : parseTyp N t v = .ok w := by
  cases t with
  | str => simp only [denotes, Option.some.injEq] at h; subst h; rfl
  | int =>
    simp only [denotes, Option.map_eq_some_iff] at h
    obtain ⟨z, hz, rfl⟩ := h
    simp only [parseTyp, hz]
  | float =>
    simp only [denotes, Option.map_eq_some_iff] at h
    obtain ⟨z, hz, rfl⟩ := h
    have hz' : N.float (v.map fun c => if c = 'd' then 'e' else c) = some z := hz
    simp only [parseTyp, hz']
  | bool => cases h
  | dict => cases h

theorem effect_scalar {N : Nums} {fields : List (Str × Ty × Bool)} {a : Asg} {t : Ty} {w : Val} (d : Data) (hf : fieldType fields a.key = some t)
    (h : denotes N t a.val = some w) : effect N fields d a = .ok (dictSet d a.key w) := by
  have := parseTyp_denotes h
  unfold effect
  cases t with
  | dict => cases h
  | _ => simp only [hf, this]

theorem effect_entry {N : Nums} {fields : List (Str × Ty × Bool)} {a : Asg} {i : Str} {z : ℤ} {x : ℝ} (d : Data)
    (hf : fieldType fields a.key = some .dict) (hi : a.idx = some i) (hz : N.int i = some z) (hx : N.float (fortranReal a.val) = some x) :
    effect N fields d a = .ok (setEntry d a.key z x) := by
  unfold effect
  simp only [hf, hi, hz, hx]

/-- **C91.** A namelist of legal assignments, in any layout (blanks, comments, several assignments per line, trailing commas, apostrophes, any
letter case), is read up to its closing `/`; every scalar parameter has the value of its last assignment and is absent without one; every entry
of an array parameter has the value of the last assignment with that index; unknown names do not appear. -/
theorem C91_namelist (N : Nums) (fields : List (Str × Ty × Bool)) (ls : List NLine) (hwf : ∀ l ∈ ls, l.WF) (text : List Str)
    (ht : text.map lower = ls.map NLine.text) (stop w tl : Str) (hw : ∀ c ∈ w, isWs c = true) (hs : lower stop = w ++ '/' :: tl)
    (rest : List Str) (hlegal : ∀ a ∈ ls.flatMap NLine.assignments, a.Legal N fields) :
    ∃ d, nlBody N fields (text ++ stop :: rest) [] = .ok (d, rest) ∧
      (∀ k t, fieldType fields k = some t → t ≠ .dict →
        dictGet d k = (((ls.flatMap NLine.assignments).filter fun a => a.key = k).getLast?).bind fun a => denotes N t a.val) ∧
      (∀ k, fieldType fields k = some .dict → ∀ z,
        entry d k z = (((ls.flatMap NLine.assignments).filter fun a => a.key = k ∧ a.idx.bind N.int = some z).getLast?).bind
          fun a => N.float (fortranReal a.val)) ∧
      (∀ k, fieldType fields k = none → dictGet d k = none) := by
  have hawf : ∀ a ∈ ls.flatMap NLine.assignments, a.WF := by
    intro a ha
    obtain ⟨l, hl, hal⟩ := List.mem_flatMap.mp ha
    have := hwf l hl
    cases l with
    | comment => cases hal
    | asgs b more k w => exact this.1 a hal
  rw [nlBody_text N fields ls hwf text ht stop w tl hw hs rest []]
  generalize ls.flatMap NLine.assignments = as at hlegal hawf
  suffices h : ∃ d, assignAll N fields [] (as.map Asg.text) = .ok d ∧
      (∀ k t, fieldType fields k = some t → t ≠ .dict → dictGet d k = ((as.filter fun a => a.key = k).getLast?).bind fun a => denotes N t a.val) ∧
      (∀ k, fieldType fields k = some .dict → ∀ z,
        entry d k z = ((as.filter fun a => a.key = k ∧ a.idx.bind N.int = some z).getLast?).bind fun a => N.float (fortranReal a.val)) ∧
      (∀ k, fieldType fields k = none → dictGet d k = none) by
    obtain ⟨d, h1, h2⟩ := h
    exact ⟨d, by rw [h1], h2⟩
  induction as using List.reverseRecOn with
  | nil => exact ⟨[], rfl, fun _ _ _ _ => rfl, fun _ _ _ => rfl, fun _ _ => rfl⟩
  | append_singleton as a ih =>
    obtain ⟨d, h1, h2, h3, h4⟩ := ih (fun b hb => hlegal b (by simp [hb])) (fun b hb => hawf b (by simp [hb]))
    have hrun : assignAll N fields [] ((as ++ [a]).map Asg.text) = effect N fields d a := by
      rw [List.map_append, assignAll_append, h1]
      simp only [List.map_cons, List.map_nil, assignAll, assign_text (hawf a (by simp))]
      cases effect N fields d a <;> rfl
    rcases hlegal a (by simp) with ⟨hidx, t, hf, hv⟩ | ⟨hf, i, z, x, hi, hz, hx⟩
    · obtain ⟨v, hv⟩ := Option.isSome_iff_exists.mp hv
      have htd : t ≠ .dict := by rintro rfl; cases hv
      refine ⟨dictSet d a.key v, hrun.trans (effect_scalar d hf hv), ?_, ?_, ?_⟩
      · intro k t' hk ht'
        rw [dictGet_set, getLast?_filter_snoc]
        by_cases hka : a.key = k
        · subst hka
          rw [hf] at hk
          obtain rfl := Option.some.inj hk
          simp [hv]
        · simp only [hka, if_false, decide_false, Bool.false_eq_true]
          exact h2 k t' hk ht'
      · intro k hk z
        have hka : a.key ≠ k := by rintro rfl; rw [hf] at hk; exact htd (Option.some.inj hk)
        rw [getLast?_filter_snoc]
        simp only [hka, false_and, decide_false, Bool.false_eq_true, if_false]
        rw [← h3 k hk z]
        unfold entry
        rw [dictGet_set, if_neg hka]
      · intro k hk
        have hka : a.key ≠ k := by rintro rfl; rw [hf] at hk; cases hk
        rw [dictGet_set, if_neg hka]
        exact h4 k hk
    · refine ⟨setEntry d a.key z x, hrun.trans (effect_entry d hf hi hz hx), ?_, ?_, ?_⟩
      · intro k t' hk ht'
        have hka : a.key ≠ k := by rintro rfl; rw [hf] at hk; exact ht' (Option.some.inj hk).symm
        rw [getLast?_filter_snoc]
        simp only [hka, decide_false, Bool.false_eq_true, if_false]
        rw [← h2 k t' hk ht']
        unfold setEntry
        split <;> rw [dictGet_set, if_neg hka]
      · intro k hk z'
        rw [entry_setEntry, getLast?_filter_snoc, hi]
        simp only [Option.bind_some, hz, Option.some.injEq]
        by_cases h : a.key = k ∧ z = z'
        · rw [if_pos h]
          simp [h.1, h.2, hx]
        · rw [if_neg h]
          simp only [h, decide_false, Bool.false_eq_true, if_false]
          exact h3 k hk z'
      · intro k hk
        have hka : a.key ≠ k := by rintro rfl; rw [hf] at hk; cases hk
        have : dictGet (setEntry d a.key z x) k = dictGet d k := by
          unfold setEntry
          split <;> rw [dictGet_set, if_neg hka]
        rw [this]
        exact h4 k hk

/-- An assignment that cannot be honoured: unknown parameter, unreadable number, or array entry without a readable index. -/
def Asg.Illegal (N : Nums) (fields : List (Str × Ty × Bool)) (a : Asg) : Prop :=
  fieldType fields a.key = none ∨ (fieldType fields a.key = some .int ∧ N.int a.val = none) ∨
    (fieldType fields a.key = some .float ∧ N.float (fortranReal a.val) = none) ∨
    (fieldType fields a.key = some .dict ∧ (a.idx.bind N.int = none ∨ N.float (fortranReal a.val) = none))

/-- **C91** (rejection). An assignment that cannot be honoured is never skipped: the file is rejected, with `ValueError`, or `TypeError` for an
array parameter without index. -/
theorem C91_rejects (N : Nums) (fields : List (Str × Ty × Bool)) (ls : List NLine) (hwf : ∀ l ∈ ls, l.WF) (text : List Str)
    (ht : text.map lower = ls.map NLine.text) (stop w tl : Str) (hw : ∀ c ∈ w, isWs c = true) (hs : lower stop = w ++ '/' :: tl)
    (rest : List Str) (a : Asg) (ha : a ∈ ls.flatMap NLine.assignments) (hbad : a.Illegal N fields) (data : Data) :
    nlBody N fields (text ++ stop :: rest) data = .error .value ∨ nlBody N fields (text ++ stop :: rest) data = .error .type := by
  have hawf : ∀ a ∈ ls.flatMap NLine.assignments, a.WF := by
    intro a ha
    obtain ⟨l, hl, hal⟩ := List.mem_flatMap.mp ha
    have := hwf l hl
    cases l with
    | comment => cases hal
    | asgs b more k w => exact this.1 a hal
  rw [nlBody_text N fields ls hwf text ht stop w tl hw hs rest data]
  generalize ls.flatMap NLine.assignments = as at ha hawf
  suffices h : assignAll N fields data (as.map Asg.text) = .error .value ∨ assignAll N fields data (as.map Asg.text) = .error .type by
    rcases h with h | h <;> rw [h] <;> simp
  have heff : ∀ d b, effect N fields d b = .error .value ∨ effect N fields d b = .error .type ∨ ∃ d', effect N fields d b = .ok d' := by
    intro d b
    unfold effect
    cases fieldType fields b.key with
    | none => simp
    | some t =>
      cases t with
      | dict =>
        dsimp only
        cases b.idx with
        | none => simp
        | some i =>
          dsimp only
          cases N.int i with
          | none => simp
          | some z =>
            dsimp only
            cases N.float (fortranReal b.val) <;> simp
      | str => simp [parseTyp]
      | int =>
        simp only [parseTyp]
        cases N.int b.val <;> simp
      | float =>
        simp only [parseTyp]
        cases N.float (b.val.map fun c => if c = 'd' then 'e' else c) <;> simp
      | bool =>
        simp only [parseTyp]
        split_ifs <;> simp
  have hbad' : ∀ d, effect N fields d a = .error .value ∨ effect N fields d a = .error .type := by
    intro d
    rcases hbad with h | ⟨h, h'⟩ | ⟨h, h'⟩ | ⟨h, h'⟩
    · left; simp only [effect, h]
    · left; simp only [effect, h, parseTyp, h']
    · left
      have h'' : N.float (a.val.map fun c => if c = 'd' then 'e' else c) = none := h'
      simp only [effect, h, parseTyp, h'']
    · rcases h' with h' | h'
      · cases hi : a.idx with
        | none => right; simp only [effect, h, hi]
        | some i =>
          rw [hi] at h'
          have h'' : N.int i = none := h'
          left; simp only [effect, h, hi, h'']
      · cases hi : a.idx with
        | none => right; simp only [effect, h, hi]
        | some i =>
          left
          cases hz : N.int i with
          | none => simp only [effect, h, hi, hz]
          | some z => simp only [effect, h, hi, hz, h']
  induction as generalizing data with
  | nil => cases ha
  | cons b as ih =>
    simp only [List.map_cons, assignAll, assign_text (hawf b (by simp))]
    rcases List.mem_cons.mp ha with rfl | ha
    · rcases hbad' data with h | h <;> rw [h] <;> simp
    · rcases heff data b with h | h | ⟨d', h⟩
      · rw [h]; simp
      · rw [h]; simp
      · rw [h]
        exact ih d' ha fun c hc => hawf c (by simp [hc])

/-! ## C92: logicals -/

/-- **C92 is violated.** A Fortran logical `.true.` or `.false.` given to a logical parameter is always rejected. -/
theorem C92_logical_violated (N : Nums) (fields : List (Str × Ty × Bool)) (data : Data) (a : Asg) (h : a.WF)
    (hf : fieldType fields a.key = some .bool) (hv : a.val = chars! ".true." ∨ a.val = chars! ".false.") :
    assign N fields data a.text = .error .value := by
  rw [assign_text h]
  unfold effect
  simp only [hf]
  rcases hv with hv | hv <;> rw [hv] <;> rfl

/-- What is accepted: the tokens without the final point, with the intended meaning; every other value is rejected. -/
theorem C92_logical_partial (N : Nums) (fields : List (Str × Ty × Bool)) (data : Data) (a : Asg) (h : a.WF)
    (hf : fieldType fields a.key = some .bool) :
    assign N fields data a.text =
      if a.val = chars! ".true" then .ok (dictSet data a.key (.bool true))
      else if a.val = chars! ".false" then .ok (dictSet data a.key (.bool false)) else .error .value := by
  rw [assign_text h]
  unfold effect
  simp only [hf, parseTyp]
  split_ifs <;> rfl

/-! ## C93: the case of text values -/

theorem lower_lower (s : Str) : lower (lower s) = lower s := by
  unfold lower
  rw [List.map_map]
  exact List.map_congr_left fun c _ => Char.toLower_toLower_eq_toLower c

/-- **C93 is violated.** Nothing the reader stores for a namelist depends on the letter case of the file, so two files that name different
directories or prefixes (on a case-sensitive file system) are read alike. -/
theorem C93_case_violated (N : Nums) (fields : List (Str × Ty × Bool)) (text text' : List Str) (h : text.map lower = text'.map lower) (data : Data) :
    (nlBody N fields text data).map Prod.fst = (nlBody N fields text' data).map Prod.fst := by
  induction text generalizing text' data with
  | nil =>
    have : text' = [] := by simpa using h.symm
    subst this; rfl
  | cons l ls ih =>
    cases text' with
    | nil => simp at h
    | cons l' ls' =>
      simp only [List.map_cons, List.cons.injEq] at h
      obtain ⟨hl, hls⟩ := h
      simp only [nlBody, hl]
      cases lstripBy isWs (rstripBy (· == ',') (strip (lower l'))) with
      | nil => rfl
      | cons ch t =>
        dsimp only
        by_cases h1 : ch = '!' ∨ ch = '#'
        · rw [if_pos h1, if_pos h1]; exact ih ls' hls data
        · rw [if_neg h1, if_neg h1]
          by_cases h2 : ch = '/'
          · rw [if_pos h2, if_pos h2]; rfl
          · rw [if_neg h2, if_neg h2]
            cases assignAll N fields data (split ',' (rstripBy (· == ',') (strip (lower l')))) with
            | error e => rfl
            | ok d => exact ih ls' hls d

/-- Reading a text parameter given in lower case returns it unchanged. -/
theorem C93_case_partial (N : Nums) (fields : List (Str × Ty × Bool)) (data : Data) (a : Asg) (h : a.WF)
    (hf : fieldType fields a.key = some .str) :
    assign N fields data a.text = .ok (dictSet data a.key (.str a.val)) := by
  rw [assign_text h]
  exact effect_scalar data hf rfl

/-! ## C94: blank lines and unterminated namelists -/

/-- **C94 is violated.** A blank line inside a namelist, wherever it is reached, raises `IndexError`. -/
theorem C94_blank_line_violated (N : Nums) (fields : List (Str × Ty × Bool)) (blank : Str) (hb : ∀ c ∈ blank, isWs c = true) (rest : List Str)
    (data : Data) : nlBody N fields (blank :: rest) data = .error .index := by
  have h1 : strip (lower blank) = [] := by
    have hl : ∀ c ∈ lower blank, isWs c = true := by
      intro c hc
      obtain ⟨x, hx, rfl⟩ := List.mem_map.mp hc
      have hx := hb x hx
      unfold isWs at hx
      simp only [Bool.or_eq_true, beq_iff_eq] at hx
      rcases hx with ((((h | h) | h) | h) | h) | h <;> subst h <;> decide
    have := stripBy_core (p := isWs) (u := lower blank) (m := []) (v := []) hl (by simp) ⟨by simp, by simp⟩
    simpa [strip] using this
  have h2 : lstripBy isWs (rstripBy (· == ',') (strip (lower blank))) = [] := by rw [h1]; rfl
  simp only [nlBody, h2]

/-- A namelist that is not closed before the end of the file never yields a result. -/
theorem C94_unterminated (N : Nums) (fields : List (Str × Ty × Bool)) (text : List Str)
    (h : ∀ l ∈ text, ∀ c ∈ (lstripBy isWs (rstripBy (· == ',') (strip (lower l)))).head?, c ≠ '/') (data : Data) :
    ∃ e, nlBody N fields text data = .error e := by
  induction text generalizing data with
  | nil => exact ⟨_, rfl⟩
  | cons l ls ih =>
    have hl := h l (by simp)
    have ih := ih fun m hm => h m (by simp [hm])
    simp only [nlBody]
    cases hs : lstripBy isWs (rstripBy (· == ',') (strip (lower l))) with
    | nil => exact ⟨_, rfl⟩
    | cons ch t =>
      rw [hs] at hl
      dsimp only
      by_cases h1 : ch = '!' ∨ ch = '#'
      · rw [if_pos h1]; exact ih data
      · rw [if_neg h1, if_neg (hl ch (by simp))]
        cases assignAll N fields data (split ',' (rstripBy (· == ',') (strip (lower l)))) with
        | error e => exact ⟨e, rfl⟩
        | ok d => exact ih d

/-! ## C95: cards -/

/-- **C95.** A card of `k` lines is read from exactly the next `k` lines, in order, each converted on its own; the reader continues behind them. -/
theorem C95_card_lines (N : Nums) (card : Str) (cs : Bool) (k : ℕ) (text : List Str) (rs : List CardLine) (rest : List Str) :
    cardLines N card cs k text = .ok (rs, rest) ↔
      k ≤ text.length ∧ rest = text.drop k ∧ List.Forall₂ (fun l r => strip (if cs then l else lower l) ≠ [] ∧
        convLine N card (strip (if cs then l else lower l)) = .ok r) (text.take k) rs := by
  induction k generalizing text rs with
  | zero =>
    constructor
    · intro h
      simp only [cardLines, Except.ok.injEq, Prod.mk.injEq] at h
      obtain ⟨rfl, rfl⟩ := h
      exact ⟨Nat.zero_le _, rfl, .nil⟩
    · rintro ⟨-, h1, h2⟩
      rw [List.take_zero] at h2
      cases h2
      rw [h1]; rfl
  | succ k ih =>
    cases text with
    | nil => simp [cardLines]
    | cons l text =>
      have hline : (if cs then strip l else strip (lower l)) = strip (if cs then l else lower l) := by cases cs <;> rfl
      simp only [cardLines, hline]
      by_cases hb : strip (if cs then l else lower l) = []
      · rw [if_pos hb]
        constructor
        · intro h; cases h
        · rintro ⟨-, -, h⟩
          rw [List.take_succ_cons] at h
          cases h with
          | cons h _ => exact absurd hb h.1
      · rw [if_neg hb]
        cases hc : convLine N card (strip (if cs then l else lower l)) with
        | error e =>
          constructor
          · intro h; cases h
          · rintro ⟨-, -, h⟩
            rw [List.take_succ_cons] at h
            cases h with
            | cons h _ => rw [hc] at h; cases h.2
        | ok r =>
          dsimp only
          cases hr : cardLines N card cs k text with
          | error e =>
            constructor
            · intro h; cases h
            · rintro ⟨h1, h2, h⟩
              rw [List.take_succ_cons] at h
              cases h with
              | @cons _ b _ bs h' ht =>
                have := (ih text bs).mpr ⟨by simpa using h1, by simpa using h2, ht⟩
                rw [hr] at this; cases this
          | ok q =>
            obtain ⟨rs', rest'⟩ := q
            constructor
            · intro h
              simp only [Except.ok.injEq, Prod.mk.injEq] at h
              obtain ⟨rfl, rfl⟩ := h
              obtain ⟨h1, h2, h3⟩ := (ih text rs').mp hr
              exact ⟨by simpa using h1, by simpa using h2, by rw [List.take_succ_cons]; exact .cons ⟨hb, hc⟩ h3⟩
            · rintro ⟨h1, h2, h⟩
              rw [List.take_succ_cons] at h
              cases h with
              | @cons _ b _ bs h' ht =>
                have := (ih text bs).mpr ⟨by simpa using h1, by simpa using h2, ht⟩
                rw [hr] at this
                simp only [Except.ok.injEq, Prod.mk.injEq] at this
                rw [hc] at h'
                obtain rfl := Except.ok.inj h'.2
                rw [this.1, this.2]

/-- **C95** (too short). With fewer lines than announced, or a blank line among them, the card is rejected. -/
theorem C95_short_card (N : Nums) (card : Str) (cs : Bool) (k : ℕ) (text : List Str)
    (h : text.length < k ∨ ∃ l ∈ text.take k, strip (if cs then l else lower l) = []) : ∃ e, cardLines N card cs k text = .error e := by
  cases hr : cardLines N card cs k text with
  | error e => exact ⟨e, rfl⟩
  | ok q =>
    obtain ⟨rs, rest⟩ := q
    obtain ⟨h1, -, h3⟩ := (C95_card_lines N card cs k text rs rest).mp hr
    rcases h with h | ⟨l, hl, hb⟩
    · omega
    · exfalso
      clear hr h1
      generalize text.take k = t at h3 hl
      induction h3 with
      | nil => cases hl
      | cons h _ ih =>
        rcases List.mem_cons.mp hl with rfl | hl
        · exact h.1 hb
        · exact ih hl

theorem convToks_iff (N : Nums) : ∀ (ts : List Bool) (ws : List Str) (r : List Tok),
    convToks N ts ws = .ok r ↔ ts.length ≤ ws.length ∧ r.length = ws.length ∧
      ∀ i (hi : i < ws.length) (hr : i < r.length),
        if ts[i]? = some true then ∃ x, N.float ws[i] = some x ∧ r[i] = .float x else r[i] = .str ws[i] := by
  intro ts
  induction ts with
  | nil =>
    intro ws r
    simp only [convToks, Except.ok.injEq, List.length_nil, Nat.zero_le, true_and]
    constructor
    · rintro rfl
      refine ⟨by simp, ?_⟩
      intro i hi hr
      simp
    · rintro ⟨hl, h⟩
      apply List.ext_getElem
      · simp [hl]
      · intro i h1 h2
        have := h i (by simpa using h1) h2
        simp at this
        simp [this]
  | cons t ts ih =>
    intro ws r
    cases ws with
    | nil =>
      simp [convToks]
    | cons w ws =>
      cases t with
      | true =>
        cases hf : N.float w with
        | none =>
          simp only [convToks, hf]
          constructor
          · intro h; cases h
          · rintro ⟨_, h2, h3⟩
            have := h3 0 (by simp) (by rw [h2]; simp)
            simp [hf] at this
        | some x =>
          simp only [convToks, hf]
          cases hr : convToks N ts ws with
          | error e =>
            constructor
            · intro h; cases h
            · rintro ⟨h1, h2, h3⟩
              exfalso
              cases r with
              | nil => simp at h2
              | cons a r =>
                have := (ih ws r).mpr ⟨by simpa using h1, by simpa using h2, fun i hi hr => by
                  have := h3 (i + 1) (by simpa using hi) (by simpa using hr)
                  simpa using this⟩
                rw [hr] at this; cases this
          | ok r' =>
            obtain ⟨g1, g2, g3⟩ := (ih ws r').mp hr
            constructor
            · intro h
              obtain rfl := Except.ok.inj h
              refine ⟨by simpa using g1, by simpa using g2, ?_⟩
              intro i hi hr
              cases i with
              | zero => simp [hf]
              | succ i => simpa using g3 i (by simpa using hi) (by simpa using hr)
            · rintro ⟨h1, h2, h3⟩
              cases r with
              | nil => simp at h2
              | cons a r =>
                have := (ih ws r).mpr ⟨by simpa using h1, by simpa using h2, fun i hi hr => by
                  have := h3 (i + 1) (by simpa using hi) (by simpa using hr)
                  simpa using this⟩
                rw [hr] at this
                obtain rfl := Except.ok.inj this
                have h0 := h3 0 (by simp) (by simp)
                simp [hf] at h0
                rw [h0]
      | false =>
        simp only [convToks]
        cases hr : convToks N ts ws with
        | error e =>
          constructor
          · intro h; cases h
          · rintro ⟨h1, h2, h3⟩
            exfalso
            cases r with
            | nil => simp at h2
            | cons a r =>
              have := (ih ws r).mpr ⟨by simpa using h1, by simpa using h2, fun i hi hr => by
                have := h3 (i + 1) (by simpa using hi) (by simpa using hr)
                simpa using this⟩
              rw [hr] at this; cases this
        | ok r' =>
          obtain ⟨g1, g2, g3⟩ := (ih ws r').mp hr
          constructor
          · intro h
            obtain rfl := Except.ok.inj h
            refine ⟨by simpa using g1, by simpa using g2, ?_⟩
            intro i hi hr
            cases i with
            | zero => simp
            | succ i => simpa using g3 i (by simpa using hi) (by simpa using hr)
          · rintro ⟨h1, h2, h3⟩
            cases r with
            | nil => simp at h2
            | cons a r =>
              have := (ih ws r).mpr ⟨by simpa using h1, by simpa using h2, fun i hi hr => by
                have := h3 (i + 1) (by simpa using hi) (by simpa using hr)
                simpa using this⟩
              rw [hr] at this
              obtain rfl := Except.ok.inj this
              have h0 := h3 0 (by simp) (by simp)
              simp at h0
              rw [h0]

/-- **C95** (columns). A line of `ATOMIC_SPECIES`, `ATOMIC_POSITIONS` or `CELL_PARAMETERS` is accepted exactly if it has at least the columns of
its card and the numeric ones are numbers; then each column is kept, numeric ones as numbers. -/
theorem C95_columns (N : Nums) (card line : Str) (ts : List Bool)
    (hc : (card = chars! "atomic_species" ∧ ts = [false, true, false]) ∨ (card = chars! "atomic_positions" ∧ ts = [false, true, true, true]) ∨
      (card = chars! "cell_parameters" ∧ ts = [true, true, true])) (r : CardLine) :
    convLine N card line = .ok r ↔ ∃ toks, r = .toks toks ∧ ts.length ≤ (words line).length ∧ toks.length = (words line).length ∧
      ∀ i (hi : i < (words line).length) (hr : i < toks.length),
        if ts[i]? = some true then ∃ x, N.float (words line)[i] = some x ∧ toks[i] = .float x else toks[i] = .str (words line)[i] := by
  have ht : cardTypes card = some ts := by
    rcases hc with ⟨rfl, rfl⟩ | ⟨rfl, rfl⟩ | ⟨rfl, rfl⟩ <;> rfl
  unfold convLine
  rw [ht]
  simp only
  cases h : convToks N ts (words line) with
  | error e =>
    constructor
    · intro h'; cases h'
    · rintro ⟨toks, -, h2⟩
      rw [(convToks_iff N ts (words line) toks).mpr h2] at h
      cases h
  | ok l =>
    constructor
    · intro h'
      obtain rfl := Except.ok.inj h'
      exact ⟨l, rfl, (convToks_iff N ts (words line) l).mp h⟩
    · rintro ⟨toks, rfl, h2⟩
      rw [(convToks_iff N ts (words line) toks).mpr h2] at h
      obtain rfl := Except.ok.inj h
      rfl

/-- **C95** (header). `NAME { option }` and `NAME {option}` give the name and the option, in lower case and without braces and blanks. -/
theorem C95_header (name opt : Str) (h1 : '{' ∉ name) (h2 : '{' ∉ opt) (h3 : ∀ c ∈ opt.getLast?, (c == '}') = false) :
    cardHeader (name ++ '{' :: (opt ++ ['}'])) = .ok (lower (strip name), lower (strip opt)) := by
  unfold cardHeader
  rw [if_pos (by simp), split_append h1, split_nomem (by simp [h2])]
  simp only
  rw [rstripBy_core (p := (· == '}')) (by simp) h3]

/-- **C91** (required fields). A namelist is accepted only if every field without default (`ibrav`, `nat`, `ntyp`, `ecutwfc`) got a value. -/
theorem C91_required (N : Nums) (o o' : Out) (l : Str) (rest rest' : List Str) (hl : strip (lower l) = chars! "&system")
    (h : item N o l rest = .ok (o', rest')) :
    ∃ d, dictGet o'.namelists (chars! "system") = some d ∧
      ∀ f ∈ [chars! "ibrav", chars! "nat", chars! "ntyp", chars! "ecutwfc"], (dictGet d f).isSome = true := by
  unfold item at h
  rw [hl] at h
  have hf : namelistFields (chars! "system") = some systemFields := rfl
  simp only [hf] at h
  cases hb : nlBody N systemFields rest [] with
  | error e => rw [hb] at h; cases h
  | ok q =>
    obtain ⟨d, r⟩ := q
    rw [hb] at h
    simp only at h
    by_cases hr : requiredGiven systemFields d = true
    · rw [if_pos hr] at h
      have := Except.ok.inj h
      simp only [Prod.mk.injEq] at this
      obtain ⟨rfl, rfl⟩ := this
      refine ⟨d, by simp only [dictGet_set]; simp, ?_⟩
      intro f hfm
      unfold requiredGiven at hr
      rw [List.all_eq_true] at hr
      simp only [List.mem_cons, List.not_mem_nil, or_false] at hfm
      rcases hfm with rfl | rfl | rfl | rfl
      · simpa using hr (chars! "ibrav", .int, true) (by simp [systemFields])
      · simpa using hr (chars! "nat", .int, true) (by simp [systemFields])
      · simpa using hr (chars! "ntyp", .int, true) (by simp [systemFields])
      · simpa using hr (chars! "ecutwfc", .float, true) (by simp [systemFields])
    · rw [if_neg hr] at h
      cases h

/-- The number of lines of a card: `ntyp`, `nat` (as read from `&SYSTEM`), one line for `K_POINTS automatic`, the announced number for the other
`K_POINTS`, three for `CELL_PARAMETERS`. -/
theorem C95_counts (N : Nums) (o : Out) (sys : Data) (hs : dictGet o.namelists (chars! "system") = some sys) (rest : List Str) (opt : Str) :
    (∀ n : ℕ, 0 < n → dictGet sys (chars! "ntyp") = some (.int n) →
      cardCount N o (chars! "atomic_species") opt rest = .ok (n, true, rest)) ∧
    (∀ n : ℕ, 0 < n → dictGet sys (chars! "nat") = some (.int n) →
      cardCount N o (chars! "atomic_positions") opt rest = .ok (n, true, rest)) ∧
    cardCount N o (chars! "k_points") (chars! "automatic") rest = .ok (1, false, rest) ∧
    (∀ (n : ℕ) (l : Str), 0 < n → opt ≠ chars! "automatic" → N.int (strip (lower l)) = some (n : ℤ) →
      cardCount N o (chars! "k_points") opt (l :: rest) = .ok (n, false, rest)) ∧
    cardCount N o (chars! "cell_parameters") opt rest = .ok (3, false, rest) := by
  refine ⟨?_, ?_, ?_, ?_, ?_⟩
  · intro n hn h
    unfold cardCount
    rw [if_pos rfl]
    have : sysInt o (chars! "ntyp") = .ok (n : ℤ) := by unfold sysInt; rw [hs]; simp only [h]
    rw [this]
    simp only [show ¬ ((n : ℤ) ≤ 0) by omega, if_false, Int.toNat_natCast]
  · intro n hn h
    unfold cardCount
    rw [if_neg (by decide), if_pos rfl]
    have : sysInt o (chars! "nat") = .ok (n : ℤ) := by unfold sysInt; rw [hs]; simp only [h]
    rw [this]
    simp only [show ¬ ((n : ℤ) ≤ 0) by omega, if_false, Int.toNat_natCast]
  · rfl
  · intro n l hn ho h
    unfold cardCount
    rw [if_neg (by decide), if_neg (by decide), if_pos rfl, if_neg ho]
    simp only [List.headD_cons, h, show ¬ ((n : ℤ) ≤ 0) by omega, if_false, Int.toNat_natCast, List.tail_cons]
  · rfl

/-! ## C96: comments -/

/-- **C96 is violated** outside namelists: a comment line between the namelists and cards always makes the file unreadable. -/
theorem C96_comment_line_violated (N : Nums) (o : Out) (l : Str) (w t : Str) (ch : Char) (hw : ∀ c ∈ w, isWs c = true) (hch : ch = '!' ∨ ch = '#')
    (hl : lower l = w ++ ch :: t) (rest : List Str) : ∃ e, item N o l rest = .error e := by
  have hc1 : isWs ch = false := by rcases hch with rfl | rfl <;> decide
  have hs : ∃ t', strip (lower l) = ch :: t' := by
    rw [hl]
    unfold strip stripBy lstripBy
    have hd : (w ++ ch :: t).dropWhile isWs = ch :: t := by
      rw [dropWhile_all hw]
      exact dropWhile_head (by intro c hc; simp at hc; subst hc; exact hc1)
    rw [hd]
    exact rstripBy_head t hc1
  obtain ⟨t', ht'⟩ := hs
  have hamp : ∀ name, ch :: t' ≠ '&' :: name := by
    intro name h
    have := (List.cons.inj h).1
    rcases hch with rfl | rfl <;> exact absurd this (by decide)
  -- the first piece of the header starts with the comment sign
  have hsplit : ∀ (d : Char) (u : Str), ch ≠ d → ∃ x r, split d (ch :: u) = (ch :: x) :: r := by
    intro d u hd
    simp only [split, if_neg hd]
    cases split d u with
    | nil => exact ⟨[], [], rfl⟩
    | cons h r => exact ⟨h, r, rfl⟩
  have hwords : ∀ u : Str, ∃ x r, words (ch :: u) = (ch :: x) :: r := by
    intro u
    unfold words
    rw [List.foldr_cons, if_neg (by rw [hc1]; decide)]
    generalize List.foldr (fun ch acc => if isWs ch then [] :: acc else match acc with
      | [] => [[ch]]
      | h :: t => (ch :: h) :: t) [[]] u = acc
    cases acc with
    | nil => exact ⟨[], [], by simp⟩
    | cons h r => exact ⟨h, r.filter fun w => !w.isEmpty, by simp⟩
  have hfirst : ∃ x r, (if '{' ∈ ch :: t' then split '{' (ch :: t') else words (ch :: t')) = (ch :: x) :: r := by
    split
    · exact hsplit '{' t' (by rcases hch with rfl | rfl <;> decide)
    · exact hwords t'
  obtain ⟨x, r, hx⟩ := hfirst
  have hcard : ∀ x : Str, isCard (lower (strip (ch :: x))) = false ∧ (lower (strip (ch :: x))) ≠ [] := by
    intro x
    have : ∃ y, strip (ch :: x) = ch :: y := by
      unfold strip stripBy lstripBy
      rw [dropWhile_head (by intro c hc; simp at hc; subst hc; exact hc1)]
      exact rstripBy_head x hc1
    obtain ⟨y, hy⟩ := this
    rw [hy]
    have hlow : lower (ch :: y) = ch :: lower y := by
      unfold lower
      rw [List.map_cons]
      rcases hch with rfl | rfl <;> rfl
    rw [hlow]
    refine ⟨?_, by simp⟩
    unfold isCard
    rcases hch with rfl | rfl <;> simp
  unfold item
  rw [ht']
  split
  · exact absurd (by assumption) (by simp)
  · next name h => exact absurd h (hamp name)
  · next line h1 h2 =>
    have : ∃ e, (match cardHeader (ch :: t') with
        | .error e => (.error e : Except PyErr (Out × List Str))
        | .ok (card, option) =>
          if isCard card then
            (match cardCount N o card option rest with
              | .error e => .error e
              | .ok (k, cs, rest) =>
                match cardLines N card cs k rest with
                | .error e => .error e
                | .ok (ls, rest) => .ok ({ o with cards := dictSet o.cards card (option, ls) }, rest))
          else if (namelistFields card).isSome then .error .attribute
          else .error .key) = .error e := by
      unfold cardHeader
      rw [hx]
      cases r with
      | nil =>
        simp only [(hcard x).1, Bool.false_eq_true, if_false]
        split <;> exact ⟨_, rfl⟩
      | cons y r =>
        cases r with
        | nil =>
          simp only [(hcard x).1, Bool.false_eq_true, if_false]
          split <;> exact ⟨_, rfl⟩
        | cons z r => exact ⟨_, rfl⟩
    exact this

/-- **C96 is violated** behind a value: the comment after a text value becomes part of the value. -/
theorem C96_inline_comment_violated (N : Nums) (fields : List (Str × Ty × Bool)) (data : Data) (key v c : Str)
    (hk : key ≠ [] ∧ ∀ d ∈ key, isWs d = false ∧ d ≠ '=' ∧ d ≠ '(') (hv : ∀ d ∈ v, d ≠ '=' ∧ d ≠ '\'') (hc : ∀ d ∈ c, d ≠ '=')
    (hne : v ≠ []) (hl : c ≠ [] ∧ Trimmed isWs c ∧ Trimmed (· == '\'') c) (hf : fieldType fields key = some .str) :
    assign N fields data (key ++ '=' :: '\'' :: v ++ '\'' :: '!' :: c) = .ok (dictSet data key (.str (v ++ '\'' :: '!' :: c))) := by
  have hsp : split '=' (key ++ '=' :: '\'' :: v ++ '\'' :: '!' :: c) = [key, '\'' :: v ++ '\'' :: '!' :: c] := by
    rw [show key ++ '=' :: '\'' :: v ++ '\'' :: '!' :: c = key ++ '=' :: ('\'' :: v ++ '\'' :: '!' :: c) by simp]
    rw [split_append (fun h => (hk.2 _ h).2.1 rfl), split_nomem]
    simp only [List.cons_append, List.mem_cons, List.mem_append, not_or]
    exact ⟨by decide, fun h => (hv _ h).1 rfl, by decide, by decide, fun h => hc _ h rfl⟩
  have hpar : strip key = key := by
    have := stripBy_core (p := isWs) (u := []) (m := key) (v := []) (by simp) (by simp)
      ⟨fun d hd => (hk.2 d (List.mem_of_mem_head? hd)).1, fun d hd => (hk.2 d (List.mem_of_mem_getLast? hd)).1⟩
    simpa [strip] using this
  have hlast : ∀ (p : Char → Bool), (∀ d ∈ c.getLast?, p d = false) → ∀ (u : Str), ∀ d ∈ (u ++ '\'' :: '!' :: c).getLast?, p d = false := by
    intro p hp u d hd
    rw [show u ++ '\'' :: '!' :: c = (u ++ ['\'', '!']) ++ c by simp, List.getLast?_append] at hd
    cases hr : c.getLast? with
    | none => exact absurd (List.getLast?_eq_none_iff.mp hr) hl.1
    | some e => rw [hr] at hd; exact hp d (by rw [hr]; simpa using hd)
  have hval : strip ('\'' :: v ++ '\'' :: '!' :: c) = '\'' :: v ++ '\'' :: '!' :: c := by
    have := stripBy_core (p := isWs) (u := []) (m := '\'' :: v ++ '\'' :: '!' :: c) (v := []) (by simp) (by simp)
      ⟨by intro d hd; simp at hd; subst hd; decide, hlast isWs hl.2.1.2 ('\'' :: v)⟩
    simpa [strip] using this
  have hq : stripBy (· == '\'') ('\'' :: v ++ '\'' :: '!' :: c) = v ++ '\'' :: '!' :: c := by
    have := stripBy_core (p := (· == '\'')) (u := ['\'']) (m := v ++ '\'' :: '!' :: c) (v := []) (by simp) (by simp)
      ⟨by
        intro d hd
        cases v with
        | nil => exact absurd rfl hne
        | cons x v =>
          simp at hd; subst hd
          simpa using (hv x (by simp)).2,
       hlast _ hl.2.2.2 v⟩
    simpa using this
  unfold assign
  rw [hsp]
  have hn : ¬ '(' ∈ key := fun h => (hk.2 _ h).2.2 rfl
  simp only [hpar, hval, hq, if_neg hn, hf, parseTyp]

/-! ## C97: the reader terminates -/

theorem nlBody_length (N : Nums) (fields : List (Str × Ty × Bool)) (text : List Str) (data : Data) (d : Data) (rest : List Str)
    (h : nlBody N fields text data = .ok (d, rest)) : rest.length < text.length ∧ rest <:+ text := by
  induction text generalizing data with
  | nil => cases h
  | cons l ls ih =>
    simp only [nlBody] at h
    cases hs : lstripBy isWs (rstripBy (· == ',') (strip (lower l))) with
    | nil => rw [hs] at h; cases h
    | cons ch t =>
      rw [hs] at h
      dsimp only at h
      by_cases h1 : ch = '!' ∨ ch = '#'
      · rw [if_pos h1] at h
        have := ih data h
        exact ⟨by simp; omega, this.2.trans (List.suffix_cons _ _)⟩
      · rw [if_neg h1] at h
        by_cases h2 : ch = '/'
        · rw [if_pos h2] at h
          simp only [Except.ok.injEq, Prod.mk.injEq] at h
          rw [← h.2]
          exact ⟨by simp, List.suffix_cons _ _⟩
        · rw [if_neg h2] at h
          cases ha : assignAll N fields data (split ',' (rstripBy (· == ',') (strip (lower l)))) with
          | error e => rw [ha] at h; cases h
          | ok d' =>
            rw [ha] at h
            have := ih d' h
            exact ⟨by simp; omega, this.2.trans (List.suffix_cons _ _)⟩

theorem cardCount_suffix (N : Nums) (o : Out) (card opt : Str) (rest rest' : List Str) (k : ℕ) (cs : Bool)
    (h : cardCount N o card opt rest = .ok (k, cs, rest')) : rest' <:+ rest := by
  have hcase : rest' = rest ∨ rest' = rest.tail := by
    unfold cardCount at h
    by_cases h1 : card = chars! "atomic_species"
    · rw [if_pos h1] at h
      cases hz : sysInt o (chars! "ntyp") with
      | error e => rw [hz] at h; cases h
      | ok z =>
        rw [hz] at h
        dsimp only at h
        split at h
        · cases h
        · simp only [Except.ok.injEq, Prod.mk.injEq] at h; exact .inl h.2.2.symm
    · rw [if_neg h1] at h
      by_cases h2 : card = chars! "atomic_positions"
      · rw [if_pos h2] at h
        cases hz : sysInt o (chars! "nat") with
        | error e => rw [hz] at h; cases h
        | ok z =>
          rw [hz] at h
          dsimp only at h
          split at h
          · cases h
          · simp only [Except.ok.injEq, Prod.mk.injEq] at h; exact .inl h.2.2.symm
      · rw [if_neg h2] at h
        by_cases h3 : card = chars! "k_points"
        · rw [if_pos h3] at h
          by_cases h4 : opt = chars! "automatic"
          · rw [if_pos h4] at h
            simp only [Except.ok.injEq, Prod.mk.injEq] at h; exact .inl h.2.2.symm
          · rw [if_neg h4] at h
            cases hz : N.int (strip (lower (rest.headD []))) with
            | none => rw [hz] at h; cases h
            | some z =>
              rw [hz] at h
              dsimp only at h
              split at h
              · cases h
              · simp only [Except.ok.injEq, Prod.mk.injEq] at h; exact .inr h.2.2.symm
        · rw [if_neg h3] at h
          simp only [Except.ok.injEq, Prod.mk.injEq] at h; exact .inl h.2.2.symm
  rcases hcase with rfl | rfl
  · exact List.suffix_rfl
  · exact List.tail_suffix _

theorem item_suffix (N : Nums) (o o' : Out) (l : Str) (rest rest' : List Str) (h : item N o l rest = .ok (o', rest')) : rest' <:+ rest := by
  unfold item at h
  split at h
  · simp only [Except.ok.injEq, Prod.mk.injEq] at h
    rw [h.2]
    exact List.suffix_rfl
  · split at h
    · split at h <;> cases h
    · next fields _ =>
      cases hn : nlBody N fields rest [] with
      | error e => rw [hn] at h; cases h
      | ok q =>
        obtain ⟨d, r⟩ := q
        rw [hn] at h
        dsimp only at h
        split at h
        · simp only [Except.ok.injEq, Prod.mk.injEq] at h
          rw [← h.2]
          exact (nlBody_length N fields rest [] d r hn).2
        · cases h
  · split at h
    · cases h
    · next card opt _ =>
      split at h
      · cases hc : cardCount N o card opt rest with
        | error e => rw [hc] at h; cases h
        | ok q =>
          obtain ⟨k, cs, r⟩ := q
          rw [hc] at h
          dsimp only at h
          cases hl : cardLines N card cs k r with
          | error e => rw [hl] at h; cases h
          | ok q =>
            obtain ⟨ls, r'⟩ := q
            rw [hl] at h
            simp only [Except.ok.injEq, Prod.mk.injEq] at h
            rw [← h.2, ((C95_card_lines N card cs k r ls r').mp hl).2.1]
            exact (List.drop_suffix _ _).trans (cardCount_suffix N o card opt rest r k cs hc)
      · split at h <;> cases h

/-- The main loop as a recursion on the remaining text. -/
theorem mainLoop_enough (N : Nums) (text : List Str) (o : Out) (f f' : ℕ) (hf : text.length ≤ f) (hf' : text.length ≤ f') :
    mainLoop N f text o = mainLoop N f' text o := by
  induction f generalizing text o f' with
  | zero =>
    have : text = [] := List.eq_nil_of_length_eq_zero (by omega)
    subst this; cases f' <;> rfl
  | succ f ih =>
    cases text with
    | nil => cases f' <;> rfl
    | cons l rest =>
      cases f' with
      | zero => simp at hf'
      | succ f' =>
        simp only [mainLoop]
        cases hi : item N o l rest with
        | error e => rfl
        | ok q =>
          obtain ⟨o', r⟩ := q
          have := (item_suffix N o o' l rest r hi).length_le
          simp only [List.length_cons] at hf hf'
          exact ih r o' f' (by omega) (by omega)

/-- **C97.** Reading a file stops after at most as many rounds as it has lines, each of which consumes at least one line: allowing more rounds
never changes the result. -/
theorem C97_terminates (N : Nums) (text : List Str) (o : Out) (f : ℕ) (hf : text.length ≤ f) :
    mainLoop N f text o = mainLoop N text.length text o := mainLoop_enough N text o _ _ hf le_rfl

/-- What one round adds: the namelist or card named by its first line. -/
theorem item_adds (N : Nums) (o o' : Out) (l : Str) (rest rest' : List Str) (h : item N o l rest = .ok (o', rest')) :
    (∀ n, (dictGet o'.namelists n).isSome → (dictGet o.namelists n).isSome ∨ strip (lower l) = '&' :: n) ∧
    (∀ c, (dictGet o'.cards c).isSome → (dictGet o.cards c).isSome ∨ ∃ opt, cardHeader (strip (lower l)) = .ok (c, opt)) := by
  unfold item at h
  split at h
  · simp only [Except.ok.injEq, Prod.mk.injEq] at h
    rw [← h.1]
    exact ⟨fun _ hn => .inl hn, fun _ hc => .inl hc⟩
  · next name hname =>
    split at h
    · split at h <;> cases h
    · next fields _ =>
      cases hn : nlBody N fields rest [] with
      | error e => rw [hn] at h; cases h
      | ok q =>
        obtain ⟨d, r⟩ := q
        rw [hn] at h
        dsimp only at h
        split at h
        · simp only [Except.ok.injEq, Prod.mk.injEq] at h
          rw [← h.1]
          refine ⟨fun n hn => ?_, fun _ hc => .inl hc⟩
          dsimp only at hn
          rw [dictGet_set] at hn
          by_cases e : n = name
          · right; rw [e]; exact hname
          · rw [if_neg (by first | exact e | exact Ne.symm e)] at hn; exact .inl hn
        · cases h
  · split at h
    · cases h
    · next card opt hhd =>
      split at h
      · cases hc : cardCount N o card opt rest with
        | error e => rw [hc] at h; cases h
        | ok q =>
          obtain ⟨k, cs, r⟩ := q
          rw [hc] at h
          dsimp only at h
          cases hl : cardLines N card cs k r with
          | error e => rw [hl] at h; cases h
          | ok q =>
            obtain ⟨ls, r'⟩ := q
            rw [hl] at h
            simp only [Except.ok.injEq, Prod.mk.injEq] at h
            rw [← h.1]
            refine ⟨fun _ hn => .inl hn, fun c hc => ?_⟩
            dsimp only at hc
            rw [dictGet_set] at hc
            by_cases e : c = card
            · right; rw [e]; exact ⟨opt, hhd⟩
            · rw [if_neg (by first | exact e | exact Ne.symm e)] at hc; exact .inl hc
      · split at h <;> cases h

theorem mainLoop_adds (N : Nums) (f : ℕ) : ∀ (text : List Str) (o o' : Out), mainLoop N f text o = .ok o' →
    (∀ n, (dictGet o'.namelists n).isSome → (dictGet o.namelists n).isSome ∨ ∃ l ∈ text, strip (lower l) = '&' :: n) ∧
    (∀ c, (dictGet o'.cards c).isSome → (dictGet o.cards c).isSome ∨ ∃ l ∈ text, ∃ opt, cardHeader (strip (lower l)) = .ok (c, opt)) := by
  induction f with
  | zero =>
    intro text o o' h
    cases text with
    | nil =>
      simp only [mainLoop, Except.ok.injEq] at h
      rw [← h]
      exact ⟨fun _ hn => .inl hn, fun _ hc => .inl hc⟩
    | cons l rest => simp [mainLoop] at h
  | succ f ih =>
    intro text o o' h
    cases text with
    | nil =>
      simp only [mainLoop, Except.ok.injEq] at h
      rw [← h]
      exact ⟨fun _ hn => .inl hn, fun _ hc => .inl hc⟩
    | cons l rest =>
      simp only [mainLoop] at h
      cases hi : item N o l rest with
      | error e => rw [hi] at h; cases h
      | ok q =>
        obtain ⟨o1, r⟩ := q
        rw [hi] at h
        obtain ⟨a1, a2⟩ := item_adds N o o1 l rest r hi
        obtain ⟨b1, b2⟩ := ih r o1 o' h
        have hsub := (item_suffix N o o1 l rest r hi).subset
        refine ⟨fun n hn => ?_, fun c hc => ?_⟩
        · rcases b1 n hn with h1 | ⟨l', hl', h1⟩
          · rcases a1 n h1 with h2 | h2
            · exact .inl h2
            · exact .inr ⟨l, by simp, h2⟩
          · exact .inr ⟨l', List.mem_cons_of_mem _ (hsub hl'), h1⟩
        · rcases b2 c hc with h1 | ⟨l', hl', h1⟩
          · rcases a2 c h1 with h2 | h2
            · exact .inl h2
            · exact .inr ⟨l, by simp, h2⟩
          · exact .inr ⟨l', List.mem_cons_of_mem _ (hsub hl'), h1⟩

/-- **C91** (required blocks). A file that is read has a line opening each of the namelists CONTROL, SYSTEM and ELECTRONS and a header of each of the cards ATOMIC_SPECIES, ATOMIC_POSITIONS and K_POINTS: a file without one of them is rejected. -/
theorem C91_blocks (N : Nums) (text : List Str) (o : Out) (h : fromLines N text = .ok o) :
    (∀ n ∈ [chars! "control", chars! "system", chars! "electrons"], ∃ l ∈ text, strip (lower l) = '&' :: n) ∧
    (∀ c ∈ [chars! "atomic_species", chars! "atomic_positions", chars! "k_points"], ∃ l ∈ text, ∃ opt, cardHeader (strip (lower l)) = .ok (c, opt)) := by
  unfold fromLines at h
  cases hm : mainLoop N text.length text ⟨[], []⟩ with
  | error e => rw [hm] at h; cases h
  | ok o1 =>
    rw [hm] at h
    dsimp only at h
    split at h
    · next hall =>
      obtain ⟨c1, c2, c3, c4, c5, c6⟩ := hall
      obtain ⟨a1, a2⟩ := mainLoop_adds N text.length text ⟨[], []⟩ o1 hm
      have n0 : ∀ n, (dictGet (o1.namelists) n).isSome → ∃ l ∈ text, strip (lower l) = '&' :: n :=
        fun n hn => (a1 n hn).resolve_left (by simp [dictGet])
      have k0 : ∀ c, (dictGet (o1.cards) c).isSome → ∃ l ∈ text, ∃ opt, cardHeader (strip (lower l)) = .ok (c, opt) :=
        fun c hc => (a2 c hc).resolve_left (by simp [dictGet])
      refine ⟨fun n hn => ?_, fun c hc => ?_⟩
      · rcases List.mem_cons.1 hn with rfl | hn
        · exact n0 _ c1
        rcases List.mem_cons.1 hn with rfl | hn
        · exact n0 _ c2
        rw [List.mem_singleton.1 hn]
        exact n0 _ c3
      · rcases List.mem_cons.1 hc with rfl | hc
        · exact k0 _ c4
        rcases List.mem_cons.1 hc with rfl | hc
        · exact k0 _ c5
        rw [List.mem_singleton.1 hc]
        exact k0 _ c6
    · cases h


/-- A complete file: three namelists, one species, one atom, one k-point. -/
example : ∃ o, fromLines ⟨fun _ => some 1, fun _ => some 1⟩
    [chars! "&CONTROL", chars! "/", chars! "", chars! "&system", chars! "ibrav=1, nat=1", chars! "ntyp=1, ecutwfc=1", chars! "/", chars! "&electrons", chars! "/",
      chars! "ATOMIC_SPECIES", chars! "Si 1 a.upf", chars! "ATOMIC_POSITIONS {alat}", chars! "Si 1 1 1", chars! "K_POINTS {automatic}", chars! "1 1 1 0 0 0"] = .ok o :=
  ⟨_, rfl⟩

/-! ## A concrete file fragment meeting the hypotheses -/

/-- Integers `4` and `2`, one real `1e-3`; nothing else is a number. -/
noncomputable def exNums : Nums where
  int s := if s = chars! "4" then some 4 else if s = chars! "2" then some 2 else none
  float s := if s = chars! "1e-3" then some (1 / 1000) else none

/-- `  ibrav =4, Celldm(2)= 1d-3,,` / `! remark` / `occupations = 'smearing' , ibrav=2` / ` /` -/
def exText : List Str :=
  [chars! "  ibrav =4, Celldm(2)= 1d-3,,", chars! "! remark", chars! "occupations = 'smearing' , ibrav=2"]

def exLines : List NLine :=
  [.asgs ⟨chars! "ibrav", none, chars! "4", false, chars! "  ", chars! " ", [], []⟩
      [⟨chars! "celldm", some (chars! "2"), chars! "1d-3", false, chars! " ", [], chars! " ", []⟩] 2 [],
    .comment [] '!' (chars! " remark"),
    .asgs ⟨chars! "occupations", none, chars! "smearing", true, [], chars! " ", chars! " ", chars! " "⟩
      [⟨chars! "ibrav", none, chars! "2", false, chars! " ", [], [], []⟩] 0 []]

/-- A checkable form of well-formedness. -/
def Asg.check (a : Asg) : Bool :=
  !a.key.isEmpty && (a.key.all fun c => !isWs c && c != ',' && c != '=' && c != '(' && c != '!' && c != '#' && c != '/') &&
    ((a.idx.getD []).all fun c => c != ',' && c != '=' && c != '(' && c != ')') && (a.val.all fun c => c != ',' && c != '=') &&
    (a.val.head?.all fun c => c != '\'') && (a.val.getLast?.all fun c => c != '\'') && !a.val.isEmpty &&
    (a.val.head?.all fun c => !isWs c) && (a.val.getLast?.all fun c => !isWs c) && ([a.w1, a.w2, a.w3, a.w4].all fun w => w.all isWs)

theorem Asg.check_wf {a : Asg} (h : a.check = true) : a.WF := by
  unfold Asg.check at h
  simp only [Bool.and_eq_true, List.all_eq_true, Option.all_eq_true, bne_iff_ne, ne_eq, Bool.not_eq_true', List.isEmpty_eq_false_iff] at h
  obtain ⟨⟨⟨⟨⟨⟨⟨⟨⟨h1, h2⟩, h3⟩, h4⟩, h5⟩, h6⟩, h7⟩, h8⟩, h9⟩, h10⟩ := h
  refine ⟨h1, ?_, ?_, h4, ⟨?_, ?_⟩, fun _ => ⟨h7, ?_, ?_⟩, h10⟩
  · intro c hc
    have := h2 c hc
    tauto
  · intro i hi c hc
    have := h3 c (by rw [hi]; exact hc)
    tauto
  · intro c hc; simpa using h5 c hc
  · intro c hc; simpa using h6 c hc
  · intro c hc; exact h8 c hc
  · intro c hc; exact h9 c hc

theorem exLines_wf : ∀ l ∈ exLines, l.WF := by
  intro l hl
  simp only [exLines, List.mem_cons, List.not_mem_nil, or_false] at hl
  rcases hl with rfl | rfl | rfl
  · refine ⟨?_, by simp⟩
    intro b hb
    simp only [List.mem_cons, List.not_mem_nil, or_false] at hb
    rcases hb with rfl | rfl <;> exact Asg.check_wf rfl
  · exact ⟨by simp, .inl rfl⟩
  · refine ⟨?_, by simp⟩
    intro b hb
    simp only [List.mem_cons, List.not_mem_nil, or_false] at hb
    rcases hb with rfl | rfl <;> exact Asg.check_wf rfl

/-- The fragment is read as: `ibrav = 2` (last assignment), `celldm(2) = 0.001`, `occupations = smearing`. -/
example (rest : List Str) : ∃ d, nlBody exNums systemFields (exText ++ (chars! " / end") :: rest) [] = .ok (d, rest) ∧
    dictGet d (chars! "ibrav") = some (.int 2) ∧ entry d (chars! "celldm") 2 = some (1 / 1000) ∧
    dictGet d (chars! "occupations") = some (.str (chars! "smearing")) ∧ dictGet d (chars! "nat") = none := by
  obtain ⟨d, h1, h2, h3, -⟩ := C91_namelist exNums systemFields exLines exLines_wf exText rfl (chars! " / end") (chars! " ")
    (chars! " end") (by simp [isWs]) rfl rest (by
      intro a ha
      simp only [exLines, List.flatMap_cons, List.flatMap_nil, NLine.assignments, List.append_nil, List.cons_append, List.nil_append,
        List.mem_cons, List.not_mem_nil, or_false] at ha
      rcases ha with rfl | rfl | rfl | rfl
      · exact .inl ⟨rfl, .int, by decide, rfl⟩
      · exact .inr ⟨by decide, _, 2, 1 / 1000, rfl, by simp [exNums], by simp [exNums, fortranReal]⟩
      · exact .inl ⟨rfl, .str, by decide, rfl⟩
      · exact .inl ⟨rfl, .int, by decide, by simp [denotes, exNums]⟩)
  refine ⟨d, h1, ?_, ?_, ?_, ?_⟩
  · rw [h2 _ .int (by decide) (by decide)]
    rw [show ((exLines.flatMap NLine.assignments).filter fun a => a.key = chars! "ibrav").getLast?
      = some ⟨chars! "ibrav", none, chars! "2", false, chars! " ", [], [], []⟩ from rfl]
    simp [denotes, exNums]
  · rw [h3 _ (by decide) 2]
    rw [show ((exLines.flatMap NLine.assignments).filter fun a => a.key = chars! "celldm" ∧ a.idx.bind exNums.int = some 2).getLast?
      = some ⟨chars! "celldm", some (chars! "2"), chars! "1d-3", false, chars! " ", [], chars! " ", []⟩ by
        simp [exLines, NLine.assignments, List.filter_cons, exNums]]
    simp [exNums, fortranReal]
  · rw [h2 _ .str (by decide) (by decide)]
    rfl
  · rw [h2 _ .int (by decide) (by decide)]
    rfl

/-- `pseudo_dir = './Pseudo'` is read as `./pseudo` (C93), and `nosym = .true.` is rejected (C92). -/
example (N : Nums) : (nlBody N controlFields [chars! "pseudo_dir = './Pseudo'", chars! "/"] []) =
      .ok ([(chars! "pseudo_dir", .str (chars! "./pseudo"))], []) ∧
    nlBody N systemFields [chars! "nosym = .true.", chars! "/"] [] = .error .value := ⟨rfl, rfl⟩

/-- `prefix='si'!note` stores `si'!note` (C96). -/
example (N : Nums) : nlBody N controlFields [chars! "prefix='si'!note", chars! "/"] [] =
    .ok ([(chars! "prefix", .str (chars! "si'!note"))], []) := rfl

/-- A two-line card (C95). -/
example (N : Nums) (rest : List Str) :
    cardLines N (chars! "k_points") false 2 ((chars! "0 0 0 1") :: (chars! " .5 0 0 2 ") :: rest) =
      .ok ([.raw (chars! "0 0 0 1"), .raw (chars! ".5 0 0 2")], rest) := rfl

end Verif.QEInp
