import Mathlib.Data.List.Forall2
import Mathlib.Data.List.GetD
import Mathlib.Data.List.Nodup
import Verif.Model.SigmaHP
import Verif.Props.QEInp

/-!
# C145: the tables of `sigma_hp.log`
-/

namespace Verif.SigmaHP

open Verif.QEInp (Str Nums words strip dictSet dictGet dictGet_set)
open Verif.BGW (word)

/-! ## Specification -/

/-- The block of one k-point in the file: its lines and what they say. -/
structure Block where
  kline : Str
  skip : Str
  hline : Str
  rows : List Str
  blank : Str
  ik : ℤ
  k : ℝ × ℝ × ℝ
  /-- band number and the other columns of each row -/
  vals : List (ℤ × List ℝ)

def Block.lines (b : Block) : List Str := b.kline :: b.skip :: b.hline :: (b.rows ++ [b.blank])

/-- The text of the block says what is recorded; `hdr` are the names of the columns. -/
structure Block.Good (N : Nums) (hdr : List Str) (b : Block) : Prop where
  isK : isK b.kline = true
  ik : ∃ w, (words b.kline)[7]? = some w ∧ N.int w = some b.ik
  k1 : ∃ w, (words b.kline)[2]? = some w ∧ N.float w = some b.k.1
  k2 : ∃ w, (words b.kline)[3]? = some w ∧ N.float w = some b.k.2.1
  k3 : ∃ w, (words b.kline)[4]? = some w ∧ N.float w = some b.k.2.2
  header : words b.hline = hdr
  rows : List.Forall₂ (fun line v => ∃ w ws, words line = w :: ws ∧ N.int w = some v.1 ∧ List.Forall₂ (fun u x => N.float u = some x) ws v.2 ∧
    v.2.length + 1 = hdr.length) b.rows b.vals
  blank : words b.blank = []

/-- Column `j` of the table. -/
def column (vals : List (ℤ × List ℝ)) (j : ℕ) : List ℝ := vals.map fun v => if j = 0 then (v.1 : ℝ) else v.2.getD (j - 1) 0

/-- The dictionary of a k-point holds its coordinates and, under the names of the columns, the columns. -/
def Holds (hdr : List Str) (b : Block) (cols : List (Str × List ℝ)) : Prop :=
  dictGet cols (chars! "kvec") = some [b.k.1, b.k.2.1, b.k.2.2] ∧ ∀ j, (h : j < hdr.length) → dictGet cols hdr[j] = some (column b.vals j)

/-- A header as in the file: different names, `n` first, none of them `kvec`. -/
structure GoodHdr (hdr : List Str) : Prop where
  nodup : hdr.Nodup
  first : hdr[0]? = some (chars! "n")
  noK : (chars! "kvec") ∉ hdr

/-- A part of the file outside the tables, or a table. -/
inductive Item
  | other (line : Str)
  | block (b : Block)

def Item.lines : Item → List Str
  | .other l => [l]
  | .block b => b.lines

def Item.Good (N : Nums) (hdr : List Str) : Item → Prop
  | .other l => isK l = false ∧ isEnd l = false ∧ (words l).head? ≠ some (chars! "header")
  | .block b => b.Good N hdr

/-- The tables of a file. -/
def blocks (items : List Item) : List Block := items.filterMap fun i => match i with | .other _ => none | .block b => some b

/-! ## Proofs -/

theorem foldl_init (h : List Str) (c : List (Str × List ℝ)) (k : Str) :
    dictGet (h.foldl (fun c k => dictSet c k []) c) k = if k ∈ h then some [] else dictGet c k := by
  induction h generalizing c with
  | nil => simp
  | cons a t ih =>
    simp only [List.foldl_cons, ih, dictGet_set, List.mem_cons]
    by_cases h1 : k ∈ t
    · simp [h1]
    · by_cases h2 : a = k
      · simp [h1, h2]
      · have : k ≠ a := fun h => h2 h.symm
        simp [h1, h2, this]

theorem append_ok (d : List (ℤ × List (Str × List ℝ))) (ik : ℤ) (h : Str) (x : ℝ) (cols : List (Str × List ℝ)) (l : List ℝ)
    (h1 : dictGet d ik = some cols) (h2 : dictGet cols h = some l) :
    append d ik h (some x) = .ok (dictSet d ik (dictSet cols h (l ++ [x]))) := by
  simp [append, h1, h2]

theorem rowLoop_ok (N : Nums) (hdr : List Str) (hn : hdr.Nodup) (ik : ℤ) (ws : List Str) (xs : List ℝ)
    (hx : List.Forall₂ (fun u x => N.float u = some x) ws xs) (i : ℕ) (hi : i + xs.length ≤ hdr.length)
    (d : List (ℤ × List (Str × List ℝ))) (cols : List (Str × List ℝ)) (f : ℕ → List ℝ) (hd : dictGet d ik = some cols)
    (hf : ∀ j, (h : j < hdr.length) → dictGet cols hdr[j] = some (f j)) :
    ∃ d' cols', rowLoop N hdr ik i ws d = .ok d' ∧ dictGet d' ik = some cols' ∧
      (∀ j, (h : j < hdr.length) → dictGet cols' hdr[j] = some (if i ≤ j ∧ j < i + xs.length then f j ++ [xs.getD (j - i) 0] else f j)) ∧
      (∀ key, key ∉ hdr → dictGet cols' key = dictGet cols key) ∧ ∀ ik', ik' ≠ ik → dictGet d' ik' = dictGet d ik' := by
  induction hx generalizing i d cols f with
  | nil =>
    refine ⟨d, cols, rfl, hd, fun j h => ?_, fun _ _ => rfl, fun _ _ => rfl⟩
    rw [if_neg (by simp), hf j h]
  | @cons u x us ys hux hrest ih =>
    have hi' : i < hdr.length := by simp only [List.length_cons] at hi; omega
    have hget : hdr[i]? = some hdr[i] := List.getElem?_eq_getElem hi'
    obtain ⟨d', cols', e1, e2, e3, e4, e5⟩ := ih (i + 1) (by simp only [List.length_cons] at hi; omega)
      (dictSet d ik (dictSet cols hdr[i] (f i ++ [x]))) (dictSet cols hdr[i] (f i ++ [x]))
      (fun j => if j = i then f i ++ [x] else f j) (by rw [dictGet_set, if_pos rfl]) (by
        intro j h
        rw [dictGet_set]
        by_cases hj : j = i
        · subst hj; simp
        · have : hdr[i] ≠ hdr[j] := fun he => hj ((List.Nodup.getElem_inj_iff hn).1 he).symm
          rw [if_neg this, if_neg hj, hf j h])
    refine ⟨d', cols', ?_, e2, fun j h => ?_, fun key hk => ?_, fun ik' hk => ?_⟩
    · rw [rowLoop, hget]
      simp only [hux, append_ok d ik _ x cols (f i) hd (hf i hi'), e1]
    · rw [e3 j h]
      congr 1
      simp only [List.length_cons]
      rcases lt_trichotomy j i with hj | hj | hj
      · rw [if_neg (by omega), if_neg (by omega), if_neg (by omega)]
      · subst hj
        rw [if_neg (by omega), if_pos rfl, if_pos (by omega), Nat.sub_self, List.getD_cons_zero]
      · by_cases hb : j < i + (ys.length + 1)
        · rw [if_pos (by omega), if_neg (by omega), if_pos (by omega), show j - i = (j - (i + 1)) + 1 by omega, List.getD_cons_succ]
        · rw [if_neg (by omega), if_neg (by omega), if_neg (by omega)]
    · rw [e4 key hk, dictGet_set, if_neg]
      intro he; exact hk (he ▸ List.getElem_mem hi')
    · rw [e5 ik' hk, dictGet_set, if_neg (fun h => hk h.symm)]

theorem run_step (N : Nums) (s s' : St) (l : Str) (ls : List Str) (h : step N s l = .ok s') (hm : s.mode ≠ .top ∨ isK l = true ∨ isEnd l = false) :
    run N (l :: ls) s = run N ls s' := by
  rw [run]
  split
  · next h1 h2 h3 => rcases hm with hm | hm | hm <;> simp_all
  · rw [h]

/-- The rows of a table. -/
theorem run_rows (N : Nums) (hdr : List Str) (hh : GoodHdr hdr) (ik : ℤ) (rows : List Str) (vals : List (ℤ × List ℝ))
    (hr : List.Forall₂ (fun line v => ∃ w ws, words line = w :: ws ∧ N.int w = some v.1 ∧ List.Forall₂ (fun u x => N.float u = some x) ws v.2 ∧
      v.2.length + 1 = hdr.length) rows vals) (rest : List Str) (s : St) (hm : s.mode = .rows ik) (hs : s.header = some hdr)
    (cols : List (Str × List ℝ)) (old : List (ℤ × List ℝ)) (hd : dictGet s.data ik = some cols)
    (hc : ∀ j, (h : j < hdr.length) → dictGet cols hdr[j] = some (column old j)) :
    ∃ s' cols', run N (rows ++ rest) s = run N rest s' ∧ s'.mode = .rows ik ∧ s'.header = some hdr ∧ s'.other = s.other ∧
      dictGet s'.data ik = some cols' ∧ (∀ j, (h : j < hdr.length) → dictGet cols' hdr[j] = some (column (old ++ vals) j)) ∧
      dictGet cols' (chars! "kvec") = dictGet cols (chars! "kvec") ∧ ∀ ik', ik' ≠ ik → dictGet s'.data ik' = dictGet s.data ik' := by
  induction hr generalizing s cols old with
  | nil => exact ⟨s, cols, rfl, hm, hs, rfl, hd, by simpa using hc, rfl, fun _ _ => rfl⟩
  | @cons line v rows vals hl _ ih =>
    obtain ⟨w, ws, hw, hint, hfl, hlen⟩ := hl
    have h0 : 0 < hdr.length := by omega
    have hn0 : hdr[0] = chars! "n" := by
      have := hh.first
      rw [List.getElem?_eq_getElem h0] at this
      simpa using this
    have ha := append_ok s.data ik (chars! "n") (v.1 : ℝ) cols (column old 0) hd (by rw [← hn0]; exact hc 0 h0)
    obtain ⟨d', cols', e1, e2, e3, e4, e5⟩ := rowLoop_ok N hdr hh.nodup ik ws v.2 hfl 1 (by omega)
      (dictSet s.data ik (dictSet cols (chars! "n") (column old 0 ++ [(v.1 : ℝ)]))) (dictSet cols (chars! "n") (column old 0 ++ [(v.1 : ℝ)]))
      (fun j => if j = 0 then column old 0 ++ [(v.1 : ℝ)] else column old j) (by rw [dictGet_set, if_pos rfl]) (by
        intro j h
        rw [dictGet_set, ← hn0]
        by_cases hj : j = 0
        · subst hj; simp
        · have : hdr[0] ≠ hdr[j] := fun he => hj ((List.Nodup.getElem_inj_iff hh.nodup).1 he).symm
          rw [if_neg this, if_neg hj, hc j h])
    have hst : step N s line = .ok { s with data := d' } := by
      simp only [step, hm, hw, hint, Option.map_some, ha, hs, Option.getD_some]
      rw [e1]
    obtain ⟨s', cols2, g1, g2, g3, g4, g5, g6, g7, g8⟩ := ih { s with data := d' } hm hs cols' (old ++ [v]) e2 (by
      intro j h
      rw [e3 j h]
      congr 1
      unfold column
      rw [List.map_append, List.map_singleton]
      by_cases hj : j = 0
      · subst hj; simp
      · rw [if_pos (by omega), if_neg hj, if_neg hj])
    refine ⟨s', cols2, ?_, g2, g3, g4, g5, ?_, ?_, ?_⟩
    · rw [List.cons_append, run_step N s _ line _ hst (.inl (by rw [hm]; simp))]
      exact g1
    · intro j h; rw [g6 j h, List.append_assoc, List.singleton_append]
    · rw [g7, e4 _ hh.noK, dictGet_set, if_neg]; decide
    · intro ik' hk
      rw [g8 ik' hk]
      show dictGet d' ik' = _
      rw [e5 ik' hk, dictGet_set, if_neg (fun h => hk h.symm)]

/-- A table: the reader comes back to its loop with the k-point stored and nothing else changed. -/
theorem run_block (N : Nums) (hdr : List Str) (hh : GoodHdr hdr) (b : Block) (hb : b.Good N hdr) (rest : List Str) (s : St) (hm : s.mode = .top)
    (hs : s.header = none ∨ s.header = some hdr) :
    ∃ s' cols, run N (b.lines ++ rest) s = run N rest s' ∧ s'.mode = .top ∧ s'.header = some hdr ∧ s'.other = s.other ∧
      dictGet s'.data b.ik = some cols ∧ Holds hdr b cols ∧ ∀ ik', ik' ≠ b.ik → dictGet s'.data ik' = dictGet s.data ik' := by
  obtain ⟨w7, a1, a2⟩ := hb.ik
  obtain ⟨w2, b1, b2⟩ := hb.k1
  obtain ⟨w3, c1, c2⟩ := hb.k2
  obtain ⟨w4, d1, d2⟩ := hb.k3
  let s1 : St := { s with mode := .skip b.ik, data := dictSet s.data b.ik [(chars! "kvec", [b.k.1, b.k.2.1, b.k.2.2])] }
  have e1 : step N s b.kline = .ok s1 := by
    simp only [step, hm, hb.isK, if_true, word, a1, a2, b1, b2, c1, c2, d1, d2, s1]
  let s2 : St := { s1 with mode := .hdr b.ik }
  have e2 : step N s1 b.skip = .ok s2 := rfl
  let cols0 := hdr.foldl (fun c k => dictSet c k []) [(chars! "kvec", [b.k.1, b.k.2.1, b.k.2.2])]
  let s3 : St := { s2 with mode := .rows b.ik, header := some hdr, data := dictSet s2.data b.ik cols0 }
  have e3 : step N s2 b.hline = .ok s3 := by
    have hg : dictGet s2.data b.ik = some [(chars! "kvec", [b.k.1, b.k.2.1, b.k.2.2])] := by
      show dictGet (dictSet _ _ _) _ = _
      rw [dictGet_set, if_pos rfl]
    have hH : s2.header.getD (words b.hline) = hdr := by
      show s.header.getD _ = _
      rcases hs with h | h <;> simp [h, hb.header]
    simp only [step, show s2.mode = .hdr b.ik from rfl, hH, hg, Option.getD_some, s3, cols0]
  obtain ⟨s4, cols', g1, g2, g3, g4, g5, g6, g7, g8⟩ := run_rows N hdr hh b.ik b.rows b.vals hb.rows (b.blank :: rest) s3 rfl rfl cols0 []
    (by show dictGet (dictSet _ _ _) _ = _; rw [dictGet_set, if_pos rfl])
    (by intro j h; rw [foldl_init, if_pos (List.getElem_mem h)]; rfl)
  have e5 : step N s4 b.blank = .ok { s4 with mode := .top } := by simp only [step, g2, hb.blank]
  refine ⟨{ s4 with mode := .top }, cols', ?_, rfl, g3, g4, g5, ⟨?_, ?_⟩, ?_⟩
  · unfold Block.lines
    simp only [List.cons_append, List.append_assoc, List.nil_append]
    rw [run_step N s s1 _ _ e1 (.inr (.inl hb.isK)), run_step N s1 s2 _ _ e2 (.inl (by simp [s1])),
      run_step N s2 s3 _ _ e3 (.inl (by simp [s2])), g1, run_step N s4 _ _ _ e5 (.inl (by rw [g2]; simp))]
  · rw [g7, foldl_init, if_neg hh.noK]; rfl
  · simpa using g6
  · intro ik' hk
    show dictGet s4.data ik' = _
    rw [g8 ik' hk]
    show dictGet (dictSet (dictSet s.data _ _) _ _) ik' = _
    rw [dictGet_set, if_neg (fun h => hk h.symm), dictGet_set, if_neg (fun h => hk h.symm)]

/-- An end of a file: nothing, or a line beginning with `=====` and anything after it. -/
def Tail (t : List Str) : Prop := t = [] ∨ ∃ l ls, t = l :: ls ∧ isK l = false ∧ isEnd l = true

theorem run_tail (N : Nums) (t : List Str) (ht : Tail t) (s : St) (hm : s.mode = .top) : run N t s = .ok s := by
  rcases ht with rfl | ⟨l, ls, rfl, h1, h2⟩
  · simp [run, hm]
  · rw [run]; simp [hm, h1, h2]

theorem run_items (N : Nums) (hdr : List Str) (hh : GoodHdr hdr) (items : List Item) (hg : ∀ i ∈ items, i.Good N hdr)
    (hik : ((blocks items).map Block.ik).Nodup) (t : List Str) (ht : Tail t) (s : St) (hm : s.mode = .top) (hs : s.header = none ∨ s.header = some hdr) :
    ∃ r, run N (items.flatMap Item.lines ++ t) s = .ok r ∧ (∀ b ∈ blocks items, ∃ cols, dictGet r.data b.ik = some cols ∧ Holds hdr b cols) ∧
      (∀ ik, ik ∉ (blocks items).map Block.ik → dictGet r.data ik = dictGet s.data ik) ∧
      r.header = if blocks items = [] then s.header else some hdr := by
  induction items generalizing s with
  | nil => exact ⟨s, by simpa using run_tail N t ht s hm, by simp [blocks], fun _ _ => rfl, by simp [blocks]⟩
  | cons it items ih =>
    cases it with
    | other l =>
      obtain ⟨g1, g2, g3⟩ := hg (.other l) (by simp)
      have hstep : ∃ s', step N s l = .ok s' ∧ s'.mode = .top ∧ s'.header = s.header ∧ s'.data = s.data := by
        simp only [step, hm, g1, Bool.false_eq_true, if_false]
        cases hw : words l with
        | nil => exact ⟨s, rfl, hm, rfl, rfl⟩
        | cons w ws =>
          rw [hw] at g3
          have : w ≠ chars! "header" := fun h => g3 (by simp [h])
          simp only [this, if_false]
          exact ⟨_, rfl, rfl, rfl, rfl⟩
      obtain ⟨s', e1, e2, e3, e4⟩ := hstep
      obtain ⟨r, f1, f2, f3, f4⟩ := ih (fun i hi => hg i (by simp [hi])) hik s' e2 (by rw [e3]; exact hs)
      refine ⟨r, ?_, f2, ?_, ?_⟩
      · rw [List.flatMap_cons]
        show run N (l :: (items.flatMap Item.lines ++ t)) s = _
        rw [run_step N s s' _ _ e1 (.inr (.inr g2)), f1]
      · rw [← e4]; exact f3
      · rw [← e3]; exact f4
    | block b =>
      have hb : b.Good N hdr := hg (.block b) (by simp)
      obtain ⟨s', cols, e1, e2, e3, -, e5, e6, e7⟩ := run_block N hdr hh b hb (items.flatMap Item.lines ++ t) s hm hs
      have hbl : blocks (.block b :: items) = b :: blocks items := rfl
      rw [hbl, List.map_cons, List.nodup_cons] at hik
      obtain ⟨r, f1, f2, f3, f4⟩ := ih (fun i hi => hg i (by simp [hi])) hik.2 s' e2 (.inr e3)
      refine ⟨r, ?_, ?_, ?_, ?_⟩
      · rw [List.flatMap_cons, List.append_assoc]
        exact e1.trans f1
      · intro b' hb'
        rw [hbl, List.mem_cons] at hb'
        rcases hb' with rfl | hb'
        · exact ⟨cols, by rw [f3 _ hik.1]; exact e5, e6⟩
        · exact f2 b' hb'
      · intro ik hk
        rw [hbl, List.map_cons, List.mem_cons, not_or] at hk
        rw [f3 ik hk.2, e7 ik hk.1]
      · rw [f4, e3, hbl]; simp

/-- C145: a log whose tables all have the same header is read completely: for every k-point its coordinates and every column under its name. -/
theorem C145_tables (N : Nums) (hdr : List Str) (hh : GoodHdr hdr) (items : List Item) (hg : ∀ i ∈ items, i.Good N hdr)
    (hik : ((blocks items).map Block.ik).Nodup) (t : List Str) (ht : Tail t) :
    ∃ r, readSigmaHP N (items.flatMap Item.lines ++ t) = .ok r ∧ (∀ b ∈ blocks items, ∃ cols, dictGet r.data b.ik = some cols ∧ Holds hdr b cols) ∧
      ∀ ik, ik ∉ (blocks items).map Block.ik → dictGet r.data ik = none := by
  obtain ⟨r, h1, h2, h3, -⟩ := run_items N hdr hh items hg hik t ht {} rfl (.inl rfl)
  exact ⟨r, h1, h2, h3⟩

/-- C145, violated: a file that ends with the last row of a table, without an empty line, ends in `StopIteration`; nothing is returned. -/
theorem C145_truncated (N : Nums) (hdr : List Str) (hh : GoodHdr hdr) (items : List Item) (hg : ∀ i ∈ items, i.Good N hdr)
    (hik : ((blocks items).map Block.ik).Nodup) (b : Block) (hb : b.Good N hdr) :
    readSigmaHP N (items.flatMap Item.lines ++ (b.kline :: b.skip :: b.hline :: b.rows)) = .error .stopIteration := by
  have key : ∀ (items : List Item), (∀ i ∈ items, i.Good N hdr) → ∀ s : St, s.mode = .top → (s.header = none ∨ s.header = some hdr) →
      run N (items.flatMap Item.lines ++ (b.kline :: b.skip :: b.hline :: b.rows)) s = .error .stopIteration := by
    intro items
    induction items with
    | nil =>
      intro _ s hm hs
      obtain ⟨w7, a1, a2⟩ := hb.ik
      obtain ⟨w2, b1, b2⟩ := hb.k1
      obtain ⟨w3, c1, c2⟩ := hb.k2
      obtain ⟨w4, d1, d2⟩ := hb.k3
      let s1 : St := { s with mode := .skip b.ik, data := dictSet s.data b.ik [(chars! "kvec", [b.k.1, b.k.2.1, b.k.2.2])] }
      have e1 : step N s b.kline = .ok s1 := by
        simp only [step, hm, hb.isK, if_true, word, a1, a2, b1, b2, c1, c2, d1, d2, s1]
      let s2 : St := { s1 with mode := .hdr b.ik }
      let cols0 := hdr.foldl (fun c k => dictSet c k []) [(chars! "kvec", [b.k.1, b.k.2.1, b.k.2.2])]
      let s3 : St := { s2 with mode := .rows b.ik, header := some hdr, data := dictSet s2.data b.ik cols0 }
      have e3 : step N s2 b.hline = .ok s3 := by
        have hg : dictGet s2.data b.ik = some [(chars! "kvec", [b.k.1, b.k.2.1, b.k.2.2])] := by
          show dictGet (dictSet _ _ _) _ = _
          rw [dictGet_set, if_pos rfl]
        have hH : s2.header.getD (words b.hline) = hdr := by
          show s.header.getD _ = _
          rcases hs with h | h <;> simp [h, hb.header]
        simp only [step, show s2.mode = .hdr b.ik from rfl, hH, hg, Option.getD_some, s3, cols0]
      obtain ⟨s4, cols', g1, g2, -⟩ := run_rows N hdr hh b.ik b.rows b.vals hb.rows [] s3 rfl rfl cols0 []
        (by show dictGet (dictSet _ _ _) _ = _; rw [dictGet_set, if_pos rfl])
        (by intro j h; rw [foldl_init, if_pos (List.getElem_mem h)]; rfl)
      rw [List.append_nil] at g1
      simp only [List.flatMap_nil, List.nil_append]
      rw [run_step N s s1 _ _ e1 (.inr (.inl hb.isK)), run_step N s1 s2 _ _ rfl (.inl (by simp [s1])),
        run_step N s2 s3 _ _ e3 (.inl (by simp [s2])), g1]
      simp [run, g2]
    | cons it items ih =>
      intro hg s hm hs
      cases it with
      | other l =>
        obtain ⟨g1, g2, g3⟩ := hg (.other l) (by simp)
        have hstep : ∃ s', step N s l = .ok s' ∧ s'.mode = .top ∧ s'.header = s.header := by
          simp only [step, hm, g1, Bool.false_eq_true, if_false]
          cases hw : words l with
          | nil => exact ⟨s, rfl, hm, rfl⟩
          | cons w ws =>
            rw [hw] at g3
            have : w ≠ chars! "header" := fun h => g3 (by simp [h])
            simp only [this, if_false]
            exact ⟨_, rfl, rfl, rfl⟩
        obtain ⟨s', e1, e2, e3⟩ := hstep
        rw [List.flatMap_cons]
        show run N (l :: (items.flatMap Item.lines ++ _)) s = _
        rw [run_step N s s' _ _ e1 (.inr (.inr g2))]
        exact ih (fun i hi => hg i (by simp [hi])) s' e2 (by rw [e3]; exact hs)
      | block b' =>
        obtain ⟨s', cols, e1, e2, e3, -⟩ := run_block N hdr hh b' (hg (.block b') (by simp)) (items.flatMap Item.lines ++ (b.kline :: b.skip :: b.hline :: b.rows)) s hm hs
        rw [List.flatMap_cons, List.append_assoc]
        exact e1.trans (ih (fun i hi => hg i (by simp [hi])) s' e2 (.inr e3))
  exact key items hg {} rfl (.inl rfl)

/-- C145, violated: after the first table the header line of a table is not looked at, whatever the columns are called there. -/
theorem C145_header_ignored (N : Nums) (s : St) (ik : ℤ) (hm : s.mode = .hdr ik) (h : List Str) (hs : s.header = some h) (l l' : Str) : step N s l = step N s l' := by
  simp only [step, hm, hs, Option.getD_some]

/-- The hypotheses are met: a file with a line before the table, a table with two rows and three columns, and the closing line. -/
example : let N : Nums := ⟨fun w => if w = chars! "7" then some 7 else some 1, fun _ => some (1 / 2)⟩
    let hdr := [chars! "n", chars! "Emf", chars! "X"]
    let b : Block := ⟨chars! " k = 0.5 0.5 0.5 ik = 7 spin = 1", [], chars! " n Emf X", [chars! " 1 0.5 0.5", chars! " 7 0.5 0.5"], chars! " ", 7, (1 / 2, 1 / 2, 1 / 2),
      [(1, [1 / 2, 1 / 2]), (7, [1 / 2, 1 / 2])]⟩
    GoodHdr hdr ∧ (∀ i ∈ [Item.other (chars! "frequency_dependence 1"), Item.block b], i.Good N hdr) ∧ Tail [chars! "=======", chars! "k"] := by
  intro N hdr b
  refine ⟨⟨by decide, rfl, by decide⟩, ?_, .inr ⟨_, _, rfl, rfl, rfl⟩⟩
  intro i hi
  simp only [List.mem_cons, List.not_mem_nil, or_false] at hi
  rcases hi with rfl | rfl
  · exact ⟨rfl, rfl, by rw [show words (chars! "frequency_dependence 1") = [chars! "frequency_dependence", chars! "1"] from rfl]; simp⟩
  · refine ⟨rfl, ⟨_, rfl, rfl⟩, ⟨_, rfl, rfl⟩, ⟨_, rfl, rfl⟩, ⟨_, rfl, rfl⟩, rfl, ?_, rfl⟩
    exact .cons ⟨_, _, rfl, rfl, .cons rfl (.cons rfl .nil), rfl⟩ (.cons ⟨_, _, rfl, rfl, .cons rfl (.cons rfl .nil), rfl⟩ .nil)

end Verif.SigmaHP
