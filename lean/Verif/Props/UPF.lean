import Verif.Model.UPF
import Verif.Props.QEInp
import Verif.Props.QEParse
import Verif.Props.GWMel
import Mathlib.Data.List.GetD
import Mathlib.Data.List.Forall2

/-!
# Reading a UPF pseudopotential: C131 (content), C132 (unsupported kinds), C133 (missing parts)
-/

namespace Verif.UPF

open Verif.QEInp (Str Nums Ty Val dictSet dictGet words lower dictGet_set)

/-! ## Specification: what a file contains -/

/-- The words of an element's text are the numbers `l`. -/
def Holds (N : Nums) (t : Option Str) (l : List ℝ) : Prop := ∃ s, t = some s ∧ List.Forall₂ (fun w x => N.float w = some x) (words s) l

/-- Spellings of a logical value. -/
def Logical (s : Str) : Bool → Prop
  | true => lower s ∈ [chars! "t", chars! "true", chars! ".true."]
  | false => lower s ∈ [chars! "f", chars! "false", chars! ".false."]

/-- The attribute text `s` denotes the value `v` of type `t`. -/
inductive Denotes (N : Nums) : Ty → Str → Val → Prop
  | str (s : Str) : Denotes N .str s (.str s)
  | int (s : Str) (z : ℤ) (h : N.int s = some z) : Denotes N .int s (.int z)
  | float (s : Str) (x : ℝ) (h : N.float s = some x) : Denotes N .float s (.float x)
  | bool (s : Str) (b : Bool) (h : Logical s b) : Denotes N .bool s (.bool b)

/-- The numbers of a pseudopotential file, in the units of the file. -/
structure Content where
  hdr : Str → Val
  r : List ℝ
  rab : List ℝ
  vloc : List ℝ
  rhoatom : List ℝ
  core : List ℝ
  beta : List (ℤ × List ℝ)
  dij : List ℝ

/-- `c` is the only section with this tag, wherever it stands. -/
def OnlySec (root : List Sec) (tag : Str) (c : Sec) : Prop := root.filter (fun c => decide (c.tag = tag)) = [c]

def OnlyLeaf (kids : List Leaf) (tag : Str) (g : Leaf) : Prop := kids.filter (fun g => decide (g.tag = tag)) = [g]

/-- Header with every field, in any order, among any other attributes. -/
def HasHeader (N : Nums) (root : List Sec) (hdr : Str → Val) : Prop :=
  ∃ h, OnlySec root (chars! "PP_HEADER") h ∧ (h.attrs.map Prod.fst).Nodup
    ∧ ∀ p ∈ headerFields, ∃ s, (p.1, s) ∈ h.attrs ∧ Denotes N p.2 s (hdr p.1)

def HasMesh (N : Nums) (root : List Sec) (r rab : List ℝ) : Prop :=
  ∃ m, OnlySec root (chars! "PP_MESH") m ∧ (∃ a, OnlyLeaf m.kids (chars! "PP_R") a ∧ Holds N a.text r)
    ∧ ∃ b, OnlyLeaf m.kids (chars! "PP_RAB") b ∧ Holds N b.text rab

def HasText (N : Nums) (root : List Sec) (tag : Str) (l : List ℝ) : Prop := ∃ c, OnlySec root tag c ∧ Holds N c.text l

/-- Non-local part: one `PP_DIJ` and the projectors in file order. -/
def HasNonlocal (N : Nums) (root : List Sec) (beta : List (ℤ × List ℝ)) (dij : List ℝ) : Prop :=
  ∃ n, OnlySec root (chars! "PP_NONLOCAL") n ∧ (∃ g, OnlyLeaf n.kids (chars! "PP_DIJ") g ∧ Holds N g.text dij)
    ∧ List.Forall₂ (fun g p => (g.attrs.map Prod.fst).Nodup ∧ (∃ a, (chars! "angular_momentum", a) ∈ g.attrs ∧ N.int a = some p.1) ∧ Holds N g.text p.2)
      (n.kids.filter fun g => (chars! "PP_BETA.").isPrefixOf g.tag) beta

/-- The file has the content `F`; the sections stand in any order, among any others. -/
structure Describes (N : Nums) (root : List Sec) (F : Content) : Prop where
  header : HasHeader N root F.hdr
  mesh : HasMesh N root F.r F.rab
  vloc : HasText N root (chars! "PP_LOCAL") F.vloc
  rhoatom : HasText N root (chars! "PP_RHOATOM") F.rhoatom
  core : F.hdr (chars! "core_correction") = .bool true → HasText N root (chars! "PP_NLCC") F.core
  nonlocal : HasNonlocal N root F.beta F.dij
  square : F.dij.length = F.beta.length * F.beta.length

/-- No logical of the header is spelled `true` or `.true.`. -/
def ShortLogicals (root : List Sec) : Prop := ∀ h ∈ root, h.tag = chars! "PP_HEADER" → ∀ k s, (k, Ty.bool) ∈ headerFields → (k, s) ∈ h.attrs →
  lower s ≠ chars! "true" ∧ lower s ≠ chars! ".true."

/-! ## Lemmas -/

theorem floats_ok {N : Nums} {t : Option Str} {l : List ℝ} (h : Holds N t l) : floats N t = .ok l := by
  obtain ⟨s, rfl, hs⟩ := h
  have : (words s).mapM N.float = some l := by
    revert hs
    generalize words s = ws
    intro hs
    induction hs with
    | nil => rfl
    | cons h _ ih => simp [List.mapM_cons, h, ih]
  simp only [floats, this]

/-- Reading of one attribute by the code. -/
def conv (N : Nums) : Ty → Str → Option Val
  | .bool, s => some (.bool (decide (lower s = chars! "t")))
  | .str, s => some (.str s)
  | .int, s => (N.int s).map .int
  | .float, s => (N.float s).map .float
  | .dict, _ => none

theorem setAttr_ok {N : Nums} {d : Header} {k s : Str} {t : Ty} {v : Val} (h : dictGet d k = some (.ty t)) (hv : conv N t s = some v) :
    setAttr N d k s = .ok (dictSet d k (.val v)) := by
  cases t <;> simp only [setAttr, h] <;> simp only [conv] at hv
  · cases hv; rfl
  · cases hi : N.int s with
    | none => simp [hi] at hv
    | some z => simp [hi] at hv; subst hv; rfl
  · cases hi : N.float s with
    | none => simp [hi] at hv
    | some z => simp [hi] at hv; subst hv; rfl
  · cases hv; rfl
  · cases hv

theorem setAttrs_ok (N : Nums) (attrs : List (Str × Str)) (hn : (attrs.map Prod.fst).Nodup) (d : Header)
    (hd : ∀ p ∈ attrs, ∀ c, dictGet d p.1 = some c → ∃ t v, c = .ty t ∧ conv N t p.2 = some v) :
    ∃ d', setAttrs N d attrs = .ok d' ∧ (∀ k, k ∉ attrs.map Prod.fst → dictGet d' k = dictGet d k)
      ∧ ∀ k s t, (k, s) ∈ attrs → dictGet d k = some (.ty t) → ∃ v, conv N t s = some v ∧ dictGet d' k = some (.val v) := by
  induction attrs generalizing d with
  | nil => exact ⟨d, rfl, fun _ _ => rfl, fun _ _ _ h => by cases h⟩
  | cons p rest ih =>
    obtain ⟨k0, s0⟩ := p
    rw [List.map_cons, List.nodup_cons] at hn
    cases hc : dictGet d k0 with
    | none =>
      obtain ⟨d', h1, h2, h3⟩ := ih hn.2 d fun p hp => hd p (by simp [hp])
      refine ⟨d', by simp only [setAttrs, setAttr, hc, h1], ?_, ?_⟩
      · intro k hk
        exact h2 k fun h => hk (by simp [h])
      · intro k s t hk ht
        rcases List.mem_cons.1 hk with h | h
        · obtain ⟨rfl, rfl⟩ := Prod.mk.inj h
          rw [hc] at ht; cases ht
        · exact h3 k s t h ht
    | some c =>
      obtain ⟨t0, v0, rfl, hv⟩ := hd (k0, s0) (by simp) c hc
      have hne : ∀ p ∈ rest, k0 ≠ p.1 := fun p hp he => hn.1 (List.mem_map.2 ⟨p, hp, he.symm⟩)
      obtain ⟨d', h1, h2, h3⟩ := ih hn.2 (dictSet d k0 (.val v0)) (by
        intro p hp c hc'
        rw [dictGet_set, if_neg (hne p hp)] at hc'
        exact hd p (by simp [hp]) c hc')
      refine ⟨d', by simp only [setAttrs, setAttr_ok hc hv, h1], ?_, ?_⟩
      · intro k hk
        rw [List.map_cons, List.mem_cons, not_or] at hk
        rw [h2 k hk.2, dictGet_set, if_neg (Ne.symm hk.1)]
      · intro k s t hk ht
        rcases List.mem_cons.1 hk with h | h
        · obtain ⟨rfl, rfl⟩ := Prod.mk.inj h
          rw [hc] at ht
          obtain ⟨rfl⟩ := Cell.ty.inj (Option.some.inj ht)
          exact ⟨v0, hv, by rw [h2 _ hn.1, dictGet_set, if_pos rfl]⟩
        · exact h3 k s t h (by rw [dictGet_set, if_neg (hne _ h), ht])

theorem get_mem {α β : Type} [DecidableEq α] {d : List (α × β)} {k : α} {v : β} (h : dictGet d k = some v) : (k, v) ∈ d := by
  induction d with
  | nil => cases h
  | cons a t ih =>
    obtain ⟨x, y⟩ := a
    simp only [dictGet] at h
    split_ifs at h with hx
    · rw [hx, Option.some.inj h]; simp
    · exact List.mem_cons_of_mem _ (ih h)

theorem header0_nodup : (header0.map Prod.fst).Nodup := by
  unfold header0 headerFields
  decide

theorem header0_get {k : Str} {t : Ty} : dictGet header0 k = some (.ty t) ↔ (k, t) ∈ headerFields := by
  constructor
  · intro h
    have := get_mem h
    unfold header0 at this
    obtain ⟨p, hp, he⟩ := List.mem_map.1 this
    obtain ⟨h1, h2⟩ := Prod.mk.inj he
    rw [← h1, ← Cell.ty.inj h2]
    exact hp
  · intro h
    refine QEParse.mem_get_some header0_nodup ?_
    exact List.mem_map.2 ⟨(k, t), h, rfl⟩

theorem header0_cell {k : Str} {c : Cell} (h : dictGet header0 k = some c) : ∃ t, c = .ty t := by
  have := get_mem h
  unfold header0 at this
  obtain ⟨p, _, he⟩ := List.mem_map.1 this
  exact ⟨p.2, (Prod.mk.inj he).2.symm⟩

theorem mesh_ok (N : Nums) (kids : List Leaf) (r rab : List ℝ) : ∀ d : Data,
    ((kids.filter (fun g => decide (g.tag = chars! "PP_R")) = [] ∧ d.r = some r) ∨ ∃ a, OnlyLeaf kids (chars! "PP_R") a ∧ Holds N a.text r) →
    ((kids.filter (fun g => decide (g.tag = chars! "PP_RAB")) = [] ∧ d.rab = some rab) ∨ ∃ a, OnlyLeaf kids (chars! "PP_RAB") a ∧ Holds N a.text rab) →
    mesh N d kids = .ok { d with r := some r, rab := some rab } := by
  unfold OnlyLeaf
  induction kids with
  | nil =>
    rintro d (⟨-, h1⟩ | ⟨a, h, -⟩) (⟨-, h2⟩ | ⟨b, h', -⟩)
    · simp only [mesh]
      rw [← h1, ← h2]
    all_goals first | cases h | cases h'
  | cons g t ih =>
    intro d h1 h2
    by_cases hr : g.tag = chars! "PP_R"
    · have hrab : g.tag ≠ chars! "PP_RAB" := by rw [hr]; decide
      rcases h1 with ⟨h, -⟩ | ⟨a, h, ha⟩
      · simp [hr] at h
      · rw [List.filter_cons, if_pos (by simpa using hr)] at h
        obtain ⟨rfl, hnil⟩ := List.cons.inj h
        simp only [mesh, if_pos hr, floats_ok ha]
        rw [ih _ (Or.inl ⟨hnil, rfl⟩)]
        rw [List.filter_cons, if_neg (by simpa using hrab)] at h2
        exact h2
    · by_cases hrab : g.tag = chars! "PP_RAB"
      · rcases h2 with ⟨h, -⟩ | ⟨a, h, ha⟩
        · simp [hrab] at h
        · rw [List.filter_cons, if_pos (by simpa using hrab)] at h
          obtain ⟨rfl, hnil⟩ := List.cons.inj h
          simp only [mesh, if_neg hr, if_pos hrab, floats_ok ha]
          rw [ih _ ?_ (Or.inl ⟨hnil, rfl⟩)]
          rw [List.filter_cons, if_neg (by simpa using hr)] at h1
          exact h1
      · simp only [mesh, if_neg hr, if_neg hrab]
        apply ih
        · rw [List.filter_cons, if_neg (by simpa using hr)] at h1
          exact h1
        · rw [List.filter_cons, if_neg (by simpa using hrab)] at h2
          exact h2

theorem sections_ok (N : Nums) (root : List Sec) (D : Data) : ∀ d : Data,
    ((root.filter (fun c => decide (c.tag = chars! "PP_HEADER")) = [] ∧ d.hdr = D.hdr)
      ∨ ∃ h, OnlySec root (chars! "PP_HEADER") h ∧ setAttrs N d.hdr h.attrs = .ok D.hdr) →
    ((root.filter (fun c => decide (c.tag = chars! "PP_MESH")) = [] ∧ d.r = D.r ∧ d.rab = D.rab)
      ∨ ∃ m, OnlySec root (chars! "PP_MESH") m ∧ ∀ d : Data, mesh N d m.kids = .ok { d with r := D.r, rab := D.rab }) →
    ((root.filter (fun c => decide (c.tag = chars! "PP_LOCAL")) = [] ∧ d.vloc = D.vloc)
      ∨ ∃ c l, OnlySec root (chars! "PP_LOCAL") c ∧ Holds N c.text l ∧ D.vloc = some (l.map (· * (1 / 2)))) →
    ((root.filter (fun c => decide (c.tag = chars! "PP_RHOATOM")) = [] ∧ d.rhoatom = D.rhoatom)
      ∨ ∃ c l, OnlySec root (chars! "PP_RHOATOM") c ∧ Holds N c.text l ∧ D.rhoatom = some l) →
    sections N d root = .ok D := by
  unfold OnlySec
  induction root with
  | nil =>
    rintro d (⟨-, h1⟩ | ⟨_, h, -⟩) (⟨-, h2, h2'⟩ | ⟨_, h, -⟩) (⟨-, h3⟩ | ⟨_, _, h, -⟩) (⟨-, h4⟩ | ⟨_, _, h, -⟩)
    · obtain ⟨a1, a2, a3, a4, a5⟩ := d
      obtain ⟨b1, b2, b3, b4, b5⟩ := D
      simp only at h1 h2 h2' h3 h4
      subst h1 h2 h2' h3 h4
      rfl
    all_goals cases h
  | cons c t ih =>
    intro d h1 h2 h3 h4
    have skip : ∀ tag : Str, c.tag ≠ tag → (c :: t).filter (fun c => decide (c.tag = tag)) = t.filter fun c => decide (c.tag = tag) := fun tag h => by
      rw [List.filter_cons, if_neg (by simpa using h)]
    have keep : ∀ tag : Str, c.tag = tag → (c :: t).filter (fun c => decide (c.tag = tag)) = c :: t.filter fun c => decide (c.tag = tag) := fun tag h => by
      rw [List.filter_cons, if_pos (by simpa using h)]
    by_cases e1 : c.tag = chars! "PP_HEADER"
    · rw [keep _ e1] at h1
      rw [skip (chars! "PP_MESH") (by rw [e1]; decide)] at h2
      rw [skip (chars! "PP_LOCAL") (by rw [e1]; decide)] at h3
      rw [skip (chars! "PP_RHOATOM") (by rw [e1]; decide)] at h4
      rcases h1 with ⟨h, -⟩ | ⟨a, h, ha⟩
      · cases h
      · obtain ⟨rfl, hnil⟩ := List.cons.inj h
        have hs : section' N d c = .ok { d with hdr := D.hdr } := by simp only [section', if_pos e1, ha]
        simp only [sections, hs]
        exact ih _ (Or.inl ⟨hnil, rfl⟩) h2 h3 h4
    by_cases e2 : c.tag = chars! "PP_MESH"
    · rw [keep _ e2] at h2
      rw [skip _ e1] at h1
      rw [skip (chars! "PP_LOCAL") (by rw [e2]; decide)] at h3
      rw [skip (chars! "PP_RHOATOM") (by rw [e2]; decide)] at h4
      rcases h2 with ⟨h, -⟩ | ⟨a, h, ha⟩
      · cases h
      · obtain ⟨rfl, hnil⟩ := List.cons.inj h
        have hs : section' N d c = .ok { d with r := D.r, rab := D.rab } := by simp only [section', if_neg e1, if_pos e2, ha]
        simp only [sections, hs]
        exact ih _ h1 (Or.inl ⟨hnil, rfl, rfl⟩) h3 h4
    by_cases e3 : c.tag = chars! "PP_LOCAL"
    · rw [keep _ e3] at h3
      rw [skip _ e1] at h1
      rw [skip _ e2] at h2
      rw [skip (chars! "PP_RHOATOM") (by rw [e3]; decide)] at h4
      rcases h3 with ⟨h, -⟩ | ⟨a, l, h, ha, hl⟩
      · cases h
      · obtain ⟨rfl, hnil⟩ := List.cons.inj h
        have hs : section' N d c = .ok { d with vloc := D.vloc } := by
          simp only [section', if_neg e1, if_neg e2, if_pos e3, floats_ok ha, hl]
        simp only [sections, hs]
        exact ih _ h1 h2 (Or.inl ⟨hnil, rfl⟩) h4
    by_cases e4 : c.tag = chars! "PP_RHOATOM"
    · rw [keep _ e4] at h4
      rw [skip _ e1] at h1
      rw [skip _ e2] at h2
      rw [skip _ e3] at h3
      rcases h4 with ⟨h, -⟩ | ⟨a, l, h, ha, hl⟩
      · cases h
      · obtain ⟨rfl, hnil⟩ := List.cons.inj h
        have hs : section' N d c = .ok { d with rhoatom := D.rhoatom } := by
          simp only [section', if_neg e1, if_neg e2, if_neg e3, if_pos e4, floats_ok ha, hl]
        simp only [sections, hs]
        exact ih _ h1 h2 h3 (Or.inl ⟨hnil, rfl⟩)
    · rw [skip _ e1] at h1
      rw [skip _ e2] at h2
      rw [skip _ e3] at h3
      rw [skip _ e4] at h4
      have hs : section' N d c = .ok d := by simp only [section', if_neg e1, if_neg e2, if_neg e3, if_neg e4]
      simp only [sections, hs]
      exact ih _ h1 h2 h3 h4

theorem nonlocal_ok (N : Nums) (kids : List Leaf) (dij : List ℝ) : ∀ (beta : List (ℤ × List ℝ)) (s : NL),
    ((kids.filter (fun g => decide (g.tag = chars! "PP_DIJ")) = [] ∧ s.dij = some (dij.map (· * (1 / 2))))
      ∨ ∃ a, OnlyLeaf kids (chars! "PP_DIJ") a ∧ Holds N a.text dij) →
    List.Forall₂ (fun g p => (g.attrs.map Prod.fst).Nodup ∧ (∃ a, (chars! "angular_momentum", a) ∈ g.attrs ∧ N.int a = some p.1) ∧ Holds N g.text p.2)
      (kids.filter fun g => (chars! "PP_BETA.").isPrefixOf g.tag) beta →
    nonlocal N s kids = .ok { beta := s.beta ++ beta, dij := some (dij.map (· * (1 / 2))) } := by
  unfold OnlyLeaf
  induction kids with
  | nil =>
    rintro beta s (⟨-, h⟩ | ⟨_, h, -⟩) hb
    · cases hb
      obtain ⟨b, x⟩ := s
      simp only at h
      simp [nonlocal, h]
    · cases h
  | cons g t ih =>
    intro beta s h1 h2
    by_cases e1 : g.tag = chars! "PP_DIJ"
    · have hb : ((chars! "PP_BETA.").isPrefixOf g.tag) = false := by rw [e1]; decide
      rw [List.filter_cons, if_neg (by simp [hb])] at h2
      rw [List.filter_cons, if_pos (by simpa using e1)] at h1
      rcases h1 with ⟨h, -⟩ | ⟨a, h, ha⟩
      · cases h
      · obtain ⟨rfl, hnil⟩ := List.cons.inj h
        simp only [nonlocal, if_pos e1, floats_ok ha]
        rw [ih beta _ (Or.inl ⟨hnil, rfl⟩) h2]
    · rw [List.filter_cons, if_neg (by simpa using e1)] at h1
      by_cases e2 : ((chars! "PP_BETA.").isPrefixOf g.tag) = true
      · rw [List.filter_cons, if_pos e2] at h2
        cases h2 with
        | cons hp ht =>
          rename_i p beta'
          obtain ⟨hn, ⟨a, ha, hi⟩, ht'⟩ := hp
          simp only [nonlocal, if_neg e1, isBeta, e2, if_true, QEParse.mem_get_some hn ha, hi, floats_ok ht']
          rw [ih beta' { s with beta := s.beta ++ [(p.1, p.2)] } h1 ht]
          simp
      · rw [List.filter_cons, if_neg e2] at h2
        have e2' := Bool.eq_false_iff.2 e2
        simp only [nonlocal, if_neg e1, isBeta, e2', Bool.false_eq_true, if_false]
        exact ih beta s h1 h2

/-- The header after reading. -/
theorem header_ok {N : Nums} {root : List Sec} {hdr : Str → Val} (h : HasHeader N root hdr) (hs : ShortLogicals root) :
    ∃ s, OnlySec root (chars! "PP_HEADER") s ∧ ∃ d, setAttrs N header0 s.attrs = .ok d ∧ ∀ p ∈ headerFields, dictGet d p.1 = some (.val (hdr p.1)) := by
  obtain ⟨s, hs1, hn, hf⟩ := h
  have hmem : s ∈ root ∧ s.tag = chars! "PP_HEADER" := by
    have : s ∈ root.filter (fun c => decide (c.tag = chars! "PP_HEADER")) := by rw [hs1]; simp
    simpa using this
  have key : ∀ p ∈ headerFields, ∀ v, (p.1, v) ∈ s.attrs → conv N p.2 v = some (hdr p.1) := by
    intro p hp v hv
    obtain ⟨v', hv', hd⟩ := hf p hp
    have e : v = v' := by
      have h1 := QEParse.mem_get_some hn hv
      have h2 := QEParse.mem_get_some hn hv'
      rw [h1] at h2
      exact Option.some.inj h2
    subst e
    obtain ⟨k, t⟩ := p
    simp only at hd hv ⊢
    have hsh := hs s hmem.1 hmem.2 k v
    revert hd
    generalize hdr k = w
    intro hd
    cases hd with
    | str => rfl
    | int _ z h => simp [conv, h]
    | float _ z h => simp [conv, h]
    | bool _ b h =>
      obtain ⟨h1, h2⟩ := hsh hp hv
      simp only [conv]
      cases b with
      | true =>
        simp only [Logical, List.mem_cons, List.not_mem_nil, or_false] at h
        rcases h with h | h | h
        · simp [h]
        · exact absurd h h1
        · exact absurd h h2
      | false =>
        simp only [Logical, List.mem_cons, List.not_mem_nil, or_false] at h
        rcases h with h | h | h <;> simp [h]
  obtain ⟨d, h1, -, h3⟩ := setAttrs_ok N s.attrs hn header0 (by
    intro p hp c hc
    obtain ⟨t, rfl⟩ := header0_cell hc
    exact ⟨t, _, rfl, key (p.1, t) (header0_get.1 hc) p.2 hp⟩)
  refine ⟨s, hs1, d, h1, ?_⟩
  intro p hp
  obtain ⟨v, hv, -⟩ := hf p hp
  obtain ⟨w, hw, hg⟩ := h3 p.1 v p.2 hv (header0_get.2 hp)
  rw [key p hp v hv] at hw
  rw [hg, ← Option.some.inj hw]

/-! ## C131 -/

/-- Nearest integer, the even one of two. -/
def Nearest (z : ℤ) (x : ℝ) : Prop := |(z : ℝ) - x| ≤ 1 / 2 ∧ (|(z : ℝ) - x| = 1 / 2 → Even z)

theorem rint_nearest (x : ℝ) : Nearest (Nonloc.rint x) x := by
  refine ⟨GW.rint_close x, fun h => ?_⟩
  have hf : (⌊x⌋ : ℝ) - x = -Int.fract x := by rw [Int.fract]; ring
  unfold Nonloc.rint at h ⊢
  by_cases h1 : Int.fract x < 1 / 2
  · rw [if_pos h1, hf, abs_neg, abs_of_nonneg (Int.fract_nonneg x)] at h
    linarith
  · rw [if_neg h1] at h ⊢
    by_cases h2 : 1 / 2 < Int.fract x
    · rw [if_pos h2] at h
      have hf' : ((⌊x⌋ + 1 : ℤ) : ℝ) - x = 1 - Int.fract x := by push_cast; linarith
      rw [hf', abs_of_nonneg (by linarith [Int.fract_lt_one x])] at h
      linarith
    · rw [if_neg h2]
      by_cases h3 : ⌊x⌋ % 2 = 0
      · rw [if_pos h3]; exact Int.even_iff.2 h3
      · rw [if_neg h3]; exact Int.even_iff.2 (by omega)

/-- What a read file must contain: the numbers of the file, energies converted from Rydberg to Hartree. -/
structure Faithful (F : Content) (u : UPF) : Prop where
  header : ∀ p ∈ headerFields, dictGet u.hdr p.1 = some (.val (F.hdr p.1))
  beta : u.beta = F.beta
  dij : ∀ i < F.beta.length, ∀ j < F.beta.length, u.dij i j = F.dij.getD (i * F.beta.length + j) 0 / 2
  core : ∃ b, F.hdr (chars! "core_correction") = .bool b ∧ u.rhoAtc = if b then some F.core else none
  valence : ∃ z, F.hdr (chars! "z_valence") = .float z ∧ Nearest u.valence z
  libxc : ∃ s, F.hdr (chars! "functional") = .str s ∧ u.libxc = if lower s = chars! "pbe" then some (chars! "gga_x_pbe", chars! "gga_c_pbe") else none

theorem fromFile_ok {N : Nums} {root : List Sec} {F : Content} {D : Data} (hh : HasHeader N root F.hdr)
    (hf : ∀ p ∈ headerFields, dictGet D.hdr p.1 = some (.val (F.hdr p.1))) (hsec : sections N {} root = .ok D)
    (hcore : F.hdr (chars! "core_correction") = .bool true → HasText N root (chars! "PP_NLCC") F.core) (hnl : HasNonlocal N root F.beta F.dij)
    (hsq : F.dij.length = F.beta.length * F.beta.length) (hp : F.hdr (chars! "number_of_proj") ≠ .int 0) :
    ∃ u, fromFile N root = .ok u ∧ u.r = D.r ∧ u.rab = D.rab ∧ u.vloc = D.vloc ∧ u.rhoatom = D.rhoatom ∧ Faithful F u := by
  obtain ⟨h, -, -, hden⟩ := hh
  have hfn : ∃ s, F.hdr (chars! "functional") = .str s := by
    obtain ⟨s, -, hd⟩ := hden (chars! "functional", .str) (by simp [headerFields])
    generalize F.hdr (chars! "functional") = w at hd
    cases hd
    exact ⟨_, rfl⟩
  have hz : ∃ x, F.hdr (chars! "z_valence") = .float x := by
    obtain ⟨s, -, hd⟩ := hden (chars! "z_valence", .float) (by simp [headerFields])
    generalize F.hdr (chars! "z_valence") = w at hd
    cases hd
    exact ⟨_, rfl⟩
  have hc : ∃ b, F.hdr (chars! "core_correction") = .bool b := by
    obtain ⟨s, -, hd⟩ := hden (chars! "core_correction", .bool) (by simp [headerFields])
    generalize F.hdr (chars! "core_correction") = w at hd
    cases hd
    exact ⟨_, rfl⟩
  have hnp : ∃ z, F.hdr (chars! "number_of_proj") = .int z := by
    obtain ⟨s, -, hd⟩ := hden (chars! "number_of_proj", .int) (by simp [headerFields])
    generalize F.hdr (chars! "number_of_proj") = w at hd
    cases hd
    exact ⟨_, rfl⟩
  obtain ⟨fn, hfn⟩ := hfn
  obtain ⟨z, hz⟩ := hz
  obtain ⟨b, hc⟩ := hc
  obtain ⟨np, hnp⟩ := hnp
  have g1 := hf (chars! "functional", .str) (by simp [headerFields])
  have g2 := hf (chars! "z_valence", .float) (by simp [headerFields])
  have g3 := hf (chars! "core_correction", .bool) (by simp [headerFields])
  have g4 := hf (chars! "number_of_proj", .int) (by simp [headerFields])
  simp only at g1 g2 g3 g4
  rw [hfn] at g1
  rw [hz] at g2
  rw [hc] at g3
  rw [hnp] at g4
  rw [hnp] at hp
  -- the core charge
  have hnlcc : nlcc N D.hdr root = .ok (if b then some F.core else none) := by
    unfold nlcc
    cases b with
    | true =>
      obtain ⟨c, hc1, hc2⟩ := hcore hc
      unfold OnlySec at hc1
      simp only [g3, hc1, floats_ok hc2, if_true]
    | false => simp only [g3, Bool.false_eq_true, if_false]
  -- the projectors
  obtain ⟨n, hn1, hn2, hn3⟩ := hnl
  have hpr : projectors N root = .ok (F.beta, fun i j => (F.dij.map (· * (1 / 2))).getD (i * F.beta.length + j) 0) := by
    unfold projectors
    unfold OnlySec at hn1
    simp only [hn1, nonlocal_ok N n.kids F.dij F.beta {} (Or.inr hn2) hn3, List.nil_append]
    rw [if_neg (by rw [List.length_map, hsq]; simp)]
  have hnp0 : np ≠ 0 := fun h0 => hp (by rw [h0])
  have hrun : fromFile N root = .ok
      { hdr := D.hdr, r := D.r, rab := D.rab, vloc := D.vloc, rhoatom := D.rhoatom,
        rhoAtc := if b then some F.core else none, beta := F.beta, dij := fun i j => (F.dij.map (· * (1 / 2))).getD (i * F.beta.length + j) 0,
        libxc := if lower fn = chars! "pbe" then some (chars! "gga_x_pbe", chars! "gga_c_pbe") else none, valence := Nonloc.rint z } := by
    unfold fromFile
    simp only [hsec, hnlcc, g4]
    split
    · rename_i heq
      simp only [Option.some.injEq, Cell.val.injEq, Val.int.injEq] at heq
      exact absurd heq hnp0
    · simp only [hpr, functional, g1, valence, g2]
  refine ⟨_, hrun, rfl, rfl, rfl, rfl, ?_⟩
  refine ⟨hf, rfl, ?_, ⟨b, hc, rfl⟩, ⟨z, hz, rint_nearest z⟩, fn, hfn, rfl⟩
  intro i hi j hj
  have hlt : i * F.beta.length + j < F.dij.length := by rw [hsq]; nlinarith
  show (F.dij.map (· * (1 / 2))).getD (i * F.beta.length + j) 0 = _
  rw [List.getD_eq_getElem _ _ (by rw [List.length_map]; exact hlt), List.getElem_map, List.getD_eq_getElem _ _ hlt]
  ring

/-- Result of the first loop, part by part present or missing. -/
theorem sections_parts {N : Nums} {root : List Sec} {hdr : Str → Val} (hh : HasHeader N root hdr) (hs : ShortLogicals root)
    (r rab vloc rhoatom : Option (List ℝ))
    (hm : (root.filter (fun c => decide (c.tag = chars! "PP_MESH")) = [] ∧ r = none ∧ rab = none)
      ∨ ∃ a b, r = some a ∧ rab = some b ∧ HasMesh N root a b)
    (hv : (root.filter (fun c => decide (c.tag = chars! "PP_LOCAL")) = [] ∧ vloc = none)
      ∨ ∃ a, vloc = some (a.map (· * (1 / 2))) ∧ HasText N root (chars! "PP_LOCAL") a)
    (hr : (root.filter (fun c => decide (c.tag = chars! "PP_RHOATOM")) = [] ∧ rhoatom = none)
      ∨ ∃ a, rhoatom = some a ∧ HasText N root (chars! "PP_RHOATOM") a) :
    ∃ d, (∀ p ∈ headerFields, dictGet d p.1 = some (.val (hdr p.1))) ∧ sections N {} root = .ok ⟨d, r, rab, vloc, rhoatom⟩ := by
  obtain ⟨s, hs1, d, hd, hf⟩ := header_ok hh hs
  refine ⟨d, hf, sections_ok N root ⟨d, r, rab, vloc, rhoatom⟩ {} (Or.inr ⟨s, hs1, hd⟩) ?_ ?_ ?_⟩
  · rcases hm with ⟨h, rfl, rfl⟩ | ⟨a, b, rfl, rfl, m, hm1, hm2, hm3⟩
    · exact Or.inl ⟨h, rfl, rfl⟩
    · exact Or.inr ⟨m, hm1, fun d => mesh_ok N m.kids a b d (Or.inr hm2) (Or.inr hm3)⟩
  · rcases hv with ⟨h, rfl⟩ | ⟨a, rfl, c, h1, h2⟩
    · exact Or.inl ⟨h, rfl⟩
    · exact Or.inr ⟨c, a, h1, h2, rfl⟩
  · rcases hr with ⟨h, rfl⟩ | ⟨a, rfl, c, h1, h2⟩
    · exact Or.inl ⟨h, rfl⟩
    · exact Or.inr ⟨c, a, h1, h2, rfl⟩

/-- **C131 (content).** Whatever the order of the sections, attributes and children, and whatever else the file contains, all header fields, the radial mesh,
the atomic density, the core charge, the projectors with their angular momenta and the matrix `D` are read; the local potential and `D` are converted from
Rydberg to Hartree. Hypotheses: at least one projector, and logical values are not spelled `true` or `.true.`. -/
theorem C131_read_partial (N : Nums) (root : List Sec) (F : Content) (h : Describes N root F) (hs : ShortLogicals root)
    (hp : F.hdr (chars! "number_of_proj") ≠ .int 0) :
    ∃ u, fromFile N root = .ok u ∧ u.r = some F.r ∧ u.rab = some F.rab ∧ u.vloc = some (F.vloc.map (· / 2)) ∧ u.rhoatom = some F.rhoatom
      ∧ Faithful F u := by
  obtain ⟨d, hf, hsec⟩ := sections_parts h.header hs (some F.r) (some F.rab) (some (F.vloc.map (· * (1 / 2)))) (some F.rhoatom)
    (Or.inr ⟨_, _, rfl, rfl, h.mesh⟩) (Or.inr ⟨_, rfl, h.vloc⟩) (Or.inr ⟨_, rfl, h.rhoatom⟩)
  obtain ⟨u, h1, h2, h3, h4, h5, h6⟩ := fromFile_ok h.header hf hsec h.core h.nonlocal h.square hp
  refine ⟨u, h1, h2, h3, ?_, h5, h6⟩
  rw [h4]
  show some (F.vloc.map (· * (1 / 2))) = _
  congr 1
  refine List.map_congr_left fun x _ => ?_
  ring

/-! Inversion: what success says about the header -/

theorem mesh_hdr (N : Nums) (kids : List Leaf) (d D : Data) (h : mesh N d kids = .ok D) : D.hdr = d.hdr := by
  induction kids generalizing d with
  | nil => simp only [mesh] at h; rw [← Except.ok.inj h]
  | cons g t ih =>
    simp only [mesh] at h
    repeat' split at h
    all_goals first | cases h | skip
    · have := ih _ h
      exact this
    · have := ih _ h
      exact this
    · exact ih _ h

theorem sections_hdr (N : Nums) (root : List Sec) (d D : Data) (h : sections N d root = .ok D) :
    (root.filter (fun c => decide (c.tag = chars! "PP_HEADER")) = [] → D.hdr = d.hdr)
    ∧ ∀ s, OnlySec root (chars! "PP_HEADER") s → setAttrs N d.hdr s.attrs = .ok D.hdr := by
  unfold OnlySec
  induction root generalizing d with
  | nil =>
    simp only [sections] at h
    rw [← Except.ok.inj h]
    exact ⟨fun _ => rfl, fun s hs => by cases hs⟩
  | cons c t ih =>
    simp only [sections] at h
    cases hc : section' N d c with
    | error e => rw [hc] at h; cases h
    | ok d' =>
      rw [hc] at h
      obtain ⟨h1, h2⟩ := ih d' h
      by_cases e1 : c.tag = chars! "PP_HEADER"
      · rw [List.filter_cons, if_pos (by simpa using e1)]
        refine ⟨fun h => (by cases h), ?_⟩
        intro s hs
        obtain ⟨rfl, hnil⟩ := List.cons.inj hs
        simp only [section', if_pos e1] at hc
        cases ha : setAttrs N d.hdr c.attrs with
        | error e => rw [ha] at hc; cases hc
        | ok x =>
          rw [ha] at hc
          rw [h1 hnil, ← Except.ok.inj hc]
      · rw [List.filter_cons, if_neg (by simpa using e1)]
        have hd : d'.hdr = d.hdr := by
          simp only [section', if_neg e1] at hc
          split_ifs at hc with e2 e3 e4
          · exact mesh_hdr N _ _ _ hc
          · cases hf : floats N c.text with
            | error e => rw [hf] at hc; cases hc
            | ok l => rw [hf] at hc; rw [← Except.ok.inj hc]
          · cases hf : floats N c.text with
            | error e => rw [hf] at hc; cases hc
            | ok l => rw [hf] at hc; rw [← Except.ok.inj hc]
          · rw [← Except.ok.inj hc]
        rw [← hd]
        exact ⟨h1, h2⟩

theorem setAttr_inv (N : Nums) (d d' : Header) (k v : Str) (h : setAttr N d k v = .ok d') :
    (∀ k', k' ≠ k → dictGet d' k' = dictGet d k') ∧ ∀ t, dictGet d k = some (.ty t) → ∃ w, conv N t v = some w ∧ dictGet d' k = some (.val w) := by
  cases hc : dictGet d k with
  | none =>
    simp only [setAttr, hc] at h
    rw [← Except.ok.inj h]
    exact ⟨fun _ _ => rfl, fun t ht => by cases ht⟩
  | some c =>
    cases c with
    | val w => simp only [setAttr, hc] at h; cases h
    | ty t =>
      have key : ∃ w, conv N t v = some w := by
        cases t with
        | bool => exact ⟨_, rfl⟩
        | str => exact ⟨_, rfl⟩
        | int =>
          simp only [setAttr, hc] at h
          cases hi : N.int v with
          | none => rw [hi] at h; cases h
          | some z => exact ⟨.int z, by simp [conv, hi]⟩
        | float =>
          simp only [setAttr, hc] at h
          cases hi : N.float v with
          | none => rw [hi] at h; cases h
          | some z => exact ⟨.float z, by simp [conv, hi]⟩
        | dict => simp only [setAttr, hc] at h; cases h
      obtain ⟨w, hw⟩ := key
      rw [setAttr_ok hc hw] at h
      rw [← Except.ok.inj h]
      refine ⟨fun k' hk => by rw [dictGet_set, if_neg (Ne.symm hk)], ?_⟩
      intro t' ht
      obtain ⟨rfl⟩ := Cell.ty.inj (Option.some.inj ht)
      exact ⟨w, hw, by rw [dictGet_set, if_pos rfl]⟩

theorem setAttrs_inv (N : Nums) (attrs : List (Str × Str)) (hn : (attrs.map Prod.fst).Nodup) (d d' : Header) (h : setAttrs N d attrs = .ok d') :
    (∀ k, k ∉ attrs.map Prod.fst → dictGet d' k = dictGet d k)
    ∧ ∀ k s t, (k, s) ∈ attrs → dictGet d k = some (.ty t) → ∃ v, conv N t s = some v ∧ dictGet d' k = some (.val v) := by
  induction attrs generalizing d with
  | nil =>
    simp only [setAttrs] at h
    rw [← Except.ok.inj h]
    exact ⟨fun _ _ => rfl, fun _ _ _ h => by cases h⟩
  | cons p rest ih =>
    obtain ⟨k0, s0⟩ := p
    rw [List.map_cons, List.nodup_cons] at hn
    simp only [setAttrs] at h
    cases h0 : setAttr N d k0 s0 with
    | error e => rw [h0] at h; cases h
    | ok d1 =>
      rw [h0] at h
      obtain ⟨a1, a2⟩ := setAttr_inv N d d1 k0 s0 h0
      obtain ⟨b1, b2⟩ := ih hn.2 d1 h
      constructor
      · intro k hk
        rw [List.map_cons, List.mem_cons, not_or] at hk
        rw [b1 k hk.2, a1 k hk.1]
      · intro k s t hk ht
        rcases List.mem_cons.1 hk with he | he
        · obtain ⟨rfl, rfl⟩ := Prod.mk.inj he
          obtain ⟨w, hw, hg⟩ := a2 t ht
          exact ⟨w, hw, by rw [b1 _ hn.1, hg]⟩
        · refine b2 k s t he ?_
          rw [a1 k (fun e => hn.1 (List.mem_map.2 ⟨(k, s), he, e⟩)), ht]

/-- A header field after the first loop. -/
theorem field_inv {N : Nums} {root : List Sec} {D : Data} (hD : sections N {} root = .ok D) {h : Sec} (hh : OnlySec root (chars! "PP_HEADER") h)
    (hn : (h.attrs.map Prod.fst).Nodup) {k s : Str} {t : Ty} (hk : (k, t) ∈ headerFields) (hs : (k, s) ∈ h.attrs) :
    ∃ v, conv N t s = some v ∧ dictGet D.hdr k = some (.val v) :=
  (setAttrs_inv N h.attrs hn _ _ ((sections_hdr N root {} D hD).2 h hh)).2 k s t hs (header0_get.2 hk)

/-- **C131 (violated: logical values).** In every file whose header gives `core_correction` in any spelling but `t`/`T` — `true` and `.true.` included — the core
charge is not read. -/
theorem C131_core_violated (N : Nums) (root : List Sec) (h : Sec) (hh : OnlySec root (chars! "PP_HEADER") h) (s : Str)
    (hs : (chars! "core_correction", s) ∈ h.attrs) (hn : (h.attrs.map Prod.fst).Nodup) (hne : lower s ≠ chars! "t") (u : UPF)
    (hu : fromFile N root = .ok u) : u.rhoAtc = none := by
  unfold fromFile at hu
  cases hD : sections N {} root with
  | error e => rw [hD] at hu; cases hu
  | ok D =>
    obtain ⟨v, hv, hg⟩ := field_inv hD hh hn (k := chars! "core_correction") (t := .bool) (by simp [headerFields]) hs
    simp only [conv, decide_eq_false hne, Option.some.injEq] at hv
    subst hv
    have hnl : nlcc N D.hdr root = .ok none := by
      unfold nlcc
      simp only [hg]
    simp only [hD, hnl] at hu
    repeat' split at hu
    all_goals first | cases hu | skip
    all_goals rfl

/-- **C131 (violated: local pseudopotentials).** A file that declares no projectors (hydrogen, for instance) can never be read; if the rest of it is well-formed
the constructor fails with `TypeError`. -/
theorem C131_no_projectors (N : Nums) (root : List Sec) (h : Sec) (hh : OnlySec root (chars! "PP_HEADER") h) (s : Str)
    (hs : (chars! "number_of_proj", s) ∈ h.attrs) (hn : (h.attrs.map Prod.fst).Nodup) (h0 : N.int s = some 0) :
    (∃ e, fromFile N root = .error e) ∧ ∀ F, Describes N root F → ShortLogicals root → fromFile N root = .error .type := by
  constructor
  · unfold fromFile
    cases hD : sections N {} root with
    | error e => exact ⟨e, rfl⟩
    | ok D =>
      obtain ⟨v, hv, hg⟩ := field_inv hD hh hn (k := chars! "number_of_proj") (t := .int) (by simp [headerFields]) hs
      simp only [conv, h0, Option.map_some, Option.some.injEq] at hv
      subst hv
      cases hc : nlcc N D.hdr root with
      | error e => exact ⟨e, by simp only [hc]⟩
      | ok core =>
        simp only [hc, hg]
        cases functional D.hdr with
        | error e => exact ⟨e, rfl⟩
        | ok f =>
          cases valence D.hdr with
          | error e => exact ⟨e, rfl⟩
          | ok z => exact ⟨_, rfl⟩
  · intro F hF hsh
    obtain ⟨d, hf, hsec⟩ := sections_parts hF.header hsh (some F.r) (some F.rab) (some (F.vloc.map (· * (1 / 2)))) (some F.rhoatom)
      (Or.inr ⟨_, _, rfl, rfl, hF.mesh⟩) (Or.inr ⟨_, rfl, hF.vloc⟩) (Or.inr ⟨_, rfl, hF.rhoatom⟩)
    obtain ⟨v, hv, hg⟩ := field_inv hsec hh hn (k := chars! "number_of_proj") (t := .int) (by simp [headerFields]) hs
    simp only [conv, h0, Option.map_some, Option.some.injEq] at hv
    subst hv
    obtain ⟨h', hh', -, hden⟩ := hF.header
    unfold fromFile
    simp only [hsec]
    have hnl : ∃ c, nlcc N d root = .ok c := by
      unfold nlcc
      have g3 := hf (chars! "core_correction", .bool) (by simp [headerFields])
      simp only at g3
      obtain ⟨s, -, hd⟩ := hden (chars! "core_correction", .bool) (by simp [headerFields])
      have hcc : ∃ b, F.hdr (chars! "core_correction") = .bool b := by
        generalize F.hdr (chars! "core_correction") = w at hd
        cases hd
        exact ⟨_, rfl⟩
      obtain ⟨b, hb⟩ := hcc
      rw [hb] at g3
      cases b with
      | true =>
        obtain ⟨c, hc1, hc2⟩ := hF.core hb
        unfold OnlySec at hc1
        exact ⟨some F.core, by simp only [g3, hc1, floats_ok hc2]⟩
      | false => exact ⟨none, by simp only [g3]⟩
    obtain ⟨c, hc⟩ := hnl
    simp only [hc, hg]
    have g1 := hf (chars! "functional", .str) (by simp [headerFields])
    have g2 := hf (chars! "z_valence", .float) (by simp [headerFields])
    simp only at g1 g2
    obtain ⟨s1, -, hd1⟩ := hden (chars! "functional", .str) (by simp [headerFields])
    obtain ⟨s2, -, hd2⟩ := hden (chars! "z_valence", .float) (by simp [headerFields])
    simp only at hd1 hd2
    generalize F.hdr (chars! "functional") = w1 at hd1 g1
    generalize F.hdr (chars! "z_valence") = w2 at hd2 g2
    cases hd1
    cases hd2
    simp only [functional, g1, valence, g2]

/-- **C131 (violated: order of the projectors).** The number in the tag of a projector is not looked at: if `PP_BETA.2` stands before `PP_BETA.1`, the first row
and column of `D` go with the second projector. -/
theorem C131_projector_order (N : Nums) (root : List Sec) (F : Content) (h : Describes N root F) (hs : ShortLogicals root)
    (hp : F.hdr (chars! "number_of_proj") ≠ .int 0) (n g1 g2 : Leaf) (nl : Sec) (hnl : OnlySec root (chars! "PP_NONLOCAL") nl)
    (hk : nl.kids = [g2, g1, n]) (h1 : g1.tag = chars! "PP_BETA.1") (h2 : g2.tag = chars! "PP_BETA.2") (hn : n.tag = chars! "PP_DIJ") (l1 l2 : List ℝ)
    (t1 : Holds N g1.text l1) (t2 : Holds N g2.text l2) : ∃ u a b, fromFile N root = .ok u ∧ u.beta = [(a, l2), (b, l1)] := by
  obtain ⟨u, hu, -, -, -, -, hF⟩ := C131_read_partial N root F h hs hp
  obtain ⟨nl', hnl', -, hb⟩ := h.nonlocal
  have e : nl' = nl := by
    unfold OnlySec at hnl hnl'
    rw [hnl] at hnl'
    exact (List.cons.inj hnl').1.symm
  subst e
  have hfil : nl'.kids.filter (fun g => (chars! "PP_BETA.").isPrefixOf g.tag) = [g2, g1] := by
    rw [hk]
    have a1 : ((chars! "PP_BETA.").isPrefixOf g1.tag) = true := by rw [h1]; decide
    have a2 : ((chars! "PP_BETA.").isPrefixOf g2.tag) = true := by rw [h2]; decide
    have a3 : ((chars! "PP_BETA.").isPrefixOf n.tag) = false := by rw [hn]; decide
    rw [List.filter_cons, if_pos a2, List.filter_cons, if_pos a1, List.filter_cons, if_neg (by rw [a3]; simp), List.filter_nil]
  rw [hfil] at hb
  have uniq : ∀ {t : Option Str} {l l' : List ℝ}, Holds N t l → Holds N t l' → l = l' := by
    intro t l l' hl hl'
    have := (floats_ok hl).symm.trans (floats_ok hl')
    exact Except.ok.inj this
  cases hbe : F.beta with
  | nil => rw [hbe] at hb; cases hb
  | cons p q =>
    rw [hbe] at hb
    cases hb with
    | cons c1 c2 =>
      cases c2 with
      | cons c3 c4 =>
        cases c4
        rename_i p2
        refine ⟨u, p.1, p2.1, hu, ?_⟩
        rw [hF.beta, hbe, uniq t2 c1.2.2, uniq t1 c3.2.2]

/-! A file that meets the hypotheses: sections and attributes in reverse order, ultrasoft, with core charge and two projectors. -/

/-- Numbers of one digit. -/
def toyNums : Nums where
  int := fun s => match s with
    | [c] => if c.isDigit then some ((c.toNat : ℤ) - 48) else none
    | _ => none
  float := fun s => match s with
    | [c] => if c.isDigit then some ((c.toNat : ℝ) - 48) else none
    | _ => none

def toyText (p : Str × Ty) : Str := match p.2 with
  | .str => chars! "PBE"
  | .bool => if p.1 = chars! "is_ultrasoft" ∨ p.1 = chars! "core_correction" then chars! "T" else chars! ".false."
  | _ => chars! "4"

def toyFile : List Sec :=
  [⟨chars! "PP_NONLOCAL", [], none, [⟨chars! "PP_DIJ", [], some (chars! " 2 0\n0 6 ")⟩,
      ⟨chars! "PP_BETA.1", [(chars! "angular_momentum", chars! "1")], some (chars! "0 3")⟩,
      ⟨chars! "PP_BETA.2", [(chars! "index", chars! "2"), (chars! "angular_momentum", chars! "0")], some (chars! "0 5")⟩]⟩,
   ⟨chars! "PP_RHOATOM", [], some (chars! "0 1"), []⟩, ⟨chars! "PP_LOCAL", [], some (chars! "8 4"), []⟩, ⟨chars! "PP_NLCC", [], some (chars! "7 7"), []⟩,
   ⟨chars! "PP_MESH", [], none, [⟨chars! "PP_RAB", [], some (chars! "1 1")⟩, ⟨chars! "PP_R", [], some (chars! "1 2")⟩]⟩,
   ⟨chars! "PP_HEADER", (headerFields.map fun p => (p.1, toyText p)).reverse, none, []⟩]

noncomputable def toyContent : Content where
  hdr := fun k => match dictGet headerFields k with
    | some .str => .str (chars! "PBE")
    | some .bool => .bool (decide (k = chars! "is_ultrasoft" ∨ k = chars! "core_correction"))
    | some .int => .int 4
    | some .float => .float 4
    | _ => .str []
  r := [1, 2]
  rab := [1, 1]
  vloc := [8, 4]
  rhoatom := [0, 1]
  core := [7, 7]
  beta := [(1, [0, 3]), (0, [0, 5])]
  dij := [2, 0, 0, 6]

theorem toy_digit (c : Char) (h : c.isDigit = true) (n : ℕ) (hn : c.toNat = n + 48) : toyNums.float [c] = some (n : ℝ) := by
  simp only [toyNums, h, if_true, hn]
  congr 1
  push_cast
  ring

theorem toy_describes : Describes toyNums toyFile toyContent := by
  have f0 := toy_digit '0' (by decide) 0 (by decide)
  have f1 := toy_digit '1' (by decide) 1 (by decide)
  have f2 := toy_digit '2' (by decide) 2 (by decide)
  have f3 := toy_digit '3' (by decide) 3 (by decide)
  have f4 := toy_digit '4' (by decide) 4 (by decide)
  have f5 := toy_digit '5' (by decide) 5 (by decide)
  have f6 := toy_digit '6' (by decide) 6 (by decide)
  have f7 := toy_digit '7' (by decide) 7 (by decide)
  have f8 := toy_digit '8' (by decide) 8 (by decide)
  simp only [Nat.cast_zero, Nat.cast_one, Nat.cast_ofNat] at f0 f1 f2 f3 f4 f5 f6 f7 f8
  have h2 : ∀ {a b : Char} {x y : ℝ}, toyNums.float [a] = some x → toyNums.float [b] = some y →
      List.Forall₂ (fun w x => toyNums.float w = some x) [[a], [b]] [x, y] := fun ha hb => .cons ha (.cons hb .nil)
  refine ⟨?_, ?_, ?_, ?_, ?_, ?_, rfl⟩
  · refine ⟨_, rfl, by unfold headerFields; decide, ?_⟩
    intro p hp
    refine ⟨toyText p, ?_, ?_⟩
    · simp only [List.mem_reverse]
      exact List.mem_map.2 ⟨p, hp, rfl⟩
    · have hg : dictGet headerFields p.1 = some p.2 := QEParse.mem_get_some (by unfold headerFields; decide) hp
      obtain ⟨k, t⟩ := p
      have hnd : t ≠ .dict := by
        rintro rfl
        revert hp
        simp [headerFields]
      simp only [toyContent, hg]
      cases t with
      | str => exact .str _
      | int => exact .int _ _ (by rfl)
      | float => exact .float _ _ f4
      | bool =>
        refine .bool _ _ ?_
        simp only [toyText]
        by_cases hk : k = chars! "is_ultrasoft" ∨ k = chars! "core_correction"
        · rw [if_pos hk, decide_eq_true hk]
          exact List.mem_cons_self
        · rw [if_neg hk, decide_eq_false hk]
          show lower (chars! ".false.") ∈ _
          have : lower (chars! ".false.") = chars! ".false." := by decide
          rw [this]
          simp
      | dict => exact absurd rfl hnd
  · exact ⟨_, rfl, ⟨_, rfl, _, rfl, h2 f1 f2⟩, _, rfl, _, rfl, h2 f1 f1⟩
  · exact ⟨_, rfl, _, rfl, h2 f8 f4⟩
  · exact ⟨_, rfl, _, rfl, h2 f0 f1⟩
  · intro _
    exact ⟨_, rfl, _, rfl, h2 f7 f7⟩
  · refine ⟨_, rfl, ⟨_, rfl, _, rfl, .cons f2 (.cons f0 (.cons f0 (.cons f6 .nil)))⟩, ?_⟩
    refine .cons ⟨by decide, ⟨chars! "1", by simp, rfl⟩, _, rfl, h2 f0 f3⟩ (.cons ⟨by decide, ⟨chars! "0", by simp, rfl⟩, _, rfl, h2 f0 f5⟩ .nil)

/-- The hypotheses of `C131_read_partial`, `C132_unsupported_accepted` and `C133_missing_accepted` are met. -/
example : Describes toyNums toyFile toyContent ∧ ShortLogicals toyFile ∧ toyContent.hdr (chars! "number_of_proj") ≠ .int 0
    ∧ toyContent.hdr (chars! "is_ultrasoft") = .bool true := by
  refine ⟨toy_describes, ?_, ?_, rfl⟩
  · intro h hh ht k s hk hs
    have hmem : h = ⟨chars! "PP_HEADER", (headerFields.map fun p => (p.1, toyText p)).reverse, none, []⟩ := by
      simp only [toyFile, List.mem_cons, List.not_mem_nil, or_false] at hh
      rcases hh with rfl | rfl | rfl | rfl | rfl | rfl
      all_goals first | rfl | (exact absurd ht (by decide))
    subst hmem
    simp only [List.mem_reverse, List.mem_map, Prod.mk.injEq] at hs
    obtain ⟨p, hp, rfl, rfl⟩ := hs
    have : p.2 = .bool := by
      have h1 : dictGet headerFields p.1 = some p.2 := QEParse.mem_get_some (by unfold headerFields; decide) hp
      have h2 : dictGet headerFields p.1 = some .bool := QEParse.mem_get_some (by unfold headerFields; decide) hk
      rw [h1] at h2
      exact Option.some.inj h2
    simp only [toyText, this]
    split_ifs <;> decide
  · intro h
    have : (Val.int 4) = .int 0 := h
    simp at this

/-! ## C132 -/

/-- **C132 (violated: unsupported kinds of pseudopotentials).** Ultrasoft, PAW and spin-orbit pseudopotentials, which the programs cannot handle, are read
like norm-conserving ones. -/
theorem C132_unsupported_accepted (N : Nums) (root : List Sec) (F : Content) (h : Describes N root F) (hs : ShortLogicals root)
    (hp : F.hdr (chars! "number_of_proj") ≠ .int 0)
    (_ : F.hdr (chars! "is_ultrasoft") = .bool true ∨ F.hdr (chars! "is_paw") = .bool true ∨ F.hdr (chars! "has_so") = .bool true) :
    ∃ u, fromFile N root = .ok u ∧ Faithful F u := by
  obtain ⟨u, h1, -, -, -, -, h2⟩ := C131_read_partial N root F h hs hp
  exact ⟨u, h1, h2⟩

/-! ## C133 -/

/-- Remove the sections with this tag. -/
def without (tag : Str) (root : List Sec) : List Sec := root.filter fun c => decide (c.tag ≠ tag)

theorem without_filter (tag tag' : Str) (root : List Sec) (h : tag' ≠ tag) :
    (without tag root).filter (fun c => decide (c.tag = tag')) = root.filter fun c => decide (c.tag = tag') := by
  unfold without
  rw [List.filter_filter]
  refine List.filter_congr fun c _ => ?_
  by_cases e : c.tag = tag'
  · simp [e, h]
  · simp [e]

/-- **C133 (violated: missing parts).** A file without mesh, local potential or atomic density is accepted; the object then holds no numbers for it (the class
`ndarray` in their place). -/
theorem C133_missing_accepted (N : Nums) (root : List Sec) (F : Content) (h : Describes N root F) (hs : ShortLogicals root)
    (hp : F.hdr (chars! "number_of_proj") ≠ .int 0) :
    (∃ u, fromFile N (without (chars! "PP_LOCAL") root) = .ok u ∧ u.vloc = none ∧ Faithful F u)
    ∧ (∃ u, fromFile N (without (chars! "PP_MESH") root) = .ok u ∧ u.r = none ∧ u.rab = none ∧ Faithful F u)
    ∧ ∃ u, fromFile N (without (chars! "PP_RHOATOM") root) = .ok u ∧ u.rhoatom = none ∧ Faithful F u := by
  have hsw : ∀ tag, ShortLogicals (without tag root) := by
    intro tag a ha
    exact hs a (List.mem_of_mem_filter ha)
  have sec : ∀ tag tag' c, tag' ≠ tag → OnlySec root tag' c → OnlySec (without tag root) tag' c := by
    intro tag tag' c hne hc
    unfold OnlySec at hc ⊢
    rw [without_filter tag tag' root hne, hc]
  have hhd : ∀ tag, chars! "PP_HEADER" ≠ tag → HasHeader N (without tag root) F.hdr := by
    intro tag hne
    obtain ⟨a, ha, hr⟩ := h.header
    exact ⟨a, sec _ _ a hne ha, hr⟩
  have htx : ∀ tag tag' l, tag' ≠ tag → HasText N root tag' l → HasText N (without tag root) tag' l := by
    rintro tag tag' l hne ⟨c, hc, hl⟩
    exact ⟨c, sec _ _ c hne hc, hl⟩
  have hme : ∀ tag, chars! "PP_MESH" ≠ tag → HasMesh N (without tag root) F.r F.rab := by
    intro tag hne
    obtain ⟨a, ha, hr⟩ := h.mesh
    exact ⟨a, sec _ _ a hne ha, hr⟩
  have hnl : ∀ tag, chars! "PP_NONLOCAL" ≠ tag → HasNonlocal N (without tag root) F.beta F.dij := by
    intro tag hne
    obtain ⟨a, ha, hr⟩ := h.nonlocal
    exact ⟨a, sec _ _ a hne ha, hr⟩
  have gone : ∀ tag, (without tag root).filter (fun c => decide (c.tag = tag)) = [] := by
    intro tag
    unfold without
    rw [List.filter_filter, List.filter_eq_nil_iff]
    intro c _
    by_cases e : c.tag = tag <;> simp [e]
  refine ⟨?_, ?_, ?_⟩
  · obtain ⟨d, hf, hsec⟩ := sections_parts (hhd (chars! "PP_LOCAL") (by decide)) (hsw _) (some F.r) (some F.rab) none (some F.rhoatom)
      (Or.inr ⟨_, _, rfl, rfl, hme _ (by decide)⟩) (Or.inl ⟨gone _, rfl⟩) (Or.inr ⟨_, rfl, htx _ _ _ (by decide) h.rhoatom⟩)
    obtain ⟨u, h1, h2, h3, h4, h5, h6⟩ := fromFile_ok (hhd _ (by decide)) hf hsec (fun hc => htx _ _ _ (by decide) (h.core hc)) (hnl _ (by decide))
      h.square hp
    exact ⟨u, h1, h4, h6⟩
  · obtain ⟨d, hf, hsec⟩ := sections_parts (hhd (chars! "PP_MESH") (by decide)) (hsw _) none none (some (F.vloc.map (· * (1 / 2)))) (some F.rhoatom)
      (Or.inl ⟨gone _, rfl, rfl⟩) (Or.inr ⟨_, rfl, htx _ _ _ (by decide) h.vloc⟩) (Or.inr ⟨_, rfl, htx _ _ _ (by decide) h.rhoatom⟩)
    obtain ⟨u, h1, h2, h3, h4, h5, h6⟩ := fromFile_ok (hhd _ (by decide)) hf hsec (fun hc => htx _ _ _ (by decide) (h.core hc)) (hnl _ (by decide))
      h.square hp
    exact ⟨u, h1, h2, h3, h6⟩
  · obtain ⟨d, hf, hsec⟩ := sections_parts (hhd (chars! "PP_RHOATOM") (by decide)) (hsw _) (some F.r) (some F.rab) (some (F.vloc.map (· * (1 / 2)))) none
      (Or.inr ⟨_, _, rfl, rfl, hme _ (by decide)⟩) (Or.inr ⟨_, rfl, htx _ _ _ (by decide) h.vloc⟩) (Or.inl ⟨gone _, rfl⟩)
    obtain ⟨u, h1, h2, h3, h4, h5, h6⟩ := fromFile_ok (hhd _ (by decide)) hf hsec (fun hc => htx _ _ _ (by decide) (h.core hc)) (hnl _ (by decide))
      h.square hp
    exact ⟨u, h1, h5, h6⟩

/-- **C133 (rejections).** A file without core charge although one is declared, without non-local section, or with a matrix `D` that is not square in the number
of projectors is never read. -/
theorem C133_rejected (N : Nums) (root : List Sec) (h : Sec) (hh : OnlySec root (chars! "PP_HEADER") h) (hn : (h.attrs.map Prod.fst).Nodup) :
    ((chars! "core_correction", chars! "T") ∈ h.attrs → root.filter (fun c => decide (c.tag = chars! "PP_NLCC")) = [] → ∃ e, fromFile N root = .error e)
    ∧ (root.filter (fun c => decide (c.tag = chars! "PP_NONLOCAL")) = [] → ∃ e, fromFile N root = .error e)
    ∧ ∀ beta dij, HasNonlocal N root beta dij → dij.length ≠ beta.length * beta.length → ∃ e, fromFile N root = .error e := by
  have noproj : (∃ e, projectors N root = .error e) → ∃ e, fromFile N root = .error e := by
    rintro ⟨e, he⟩
    unfold fromFile
    cases hD : sections N {} root with
    | error e => exact ⟨e, rfl⟩
    | ok D =>
      cases hc : nlcc N D.hdr root with
      | error e => exact ⟨e, by simp only [hc]⟩
      | ok core =>
        simp only [hc, he]
        split
        · cases functional D.hdr with
          | error e => exact ⟨e, rfl⟩
          | ok f =>
            cases valence D.hdr with
            | error e => exact ⟨e, rfl⟩
            | ok z => exact ⟨_, rfl⟩
        · exact ⟨e, rfl⟩
  refine ⟨?_, ?_, ?_⟩
  · intro hs hnil
    unfold fromFile
    cases hD : sections N {} root with
    | error e => exact ⟨e, rfl⟩
    | ok D =>
      obtain ⟨v, hv, hg⟩ := field_inv hD hh hn (k := chars! "core_correction") (t := .bool) (by simp [headerFields]) hs
      have : v = .bool true := by
        simp only [conv, Option.some.injEq] at hv
        rw [← hv]
        rfl
      subst this
      exact ⟨.index, by simp only [nlcc, hg, hnil]⟩
  · intro hnil
    exact noproj ⟨.index, by simp only [projectors, hnil]⟩
  · rintro beta dij ⟨n, hn1, hn2, hn3⟩ hne
    refine noproj ⟨.value, ?_⟩
    unfold projectors
    unfold OnlySec at hn1
    simp only [hn1, nonlocal_ok N n.kids dij beta {} (Or.inr hn2) hn3, List.nil_append]
    rw [if_pos (by rw [List.length_map]; exact hne)]

end Verif.UPF
