import Verif.Model.BGWInp
import Verif.Props.QEInp
import Verif.Props.QEParse
import Mathlib.Data.List.Induction

/-!
# The BerkeleyGW text inputs: C53, C125, C126
-/

namespace Verif.BGW

open Verif.QEInp (Str Nums words dictSet dictGet dictGet_set)

/-! ## Specification of an input file -/

/-- A row of the point block: its words and the numbers they denote. -/
structure Row where
  ws : List Str
  x : ℝ
  y : ℝ
  z : ℝ
  s : ℝ
  f : ℤ

/-- The words of the row denote its numbers: three coordinates, a scale factor and (if `q0` is asked for) an integer. -/
def Row.Ok (N : Nums) (q0 : Bool) (r : Row) : Prop :=
  ∃ wx wy wz wS rest, r.ws = wx :: wy :: wz :: wS :: rest ∧ wx ≠ chars! "end" ∧ N.float wx = some r.x ∧ N.float wy = some r.y
    ∧ N.float wz = some r.z ∧ N.float wS = some r.s ∧ (q0 = true → ∃ wf more, rest = wf :: more ∧ N.int wf = some r.f)

/-- The parts of an input file. -/
inductive Item
  | blank
  | par (name value : Str) (more : List Str)
  | opt (name : Str)
  | block (more : List Str) (rows : List Row) (endMore : List Str)

/-- The words of the lines a part occupies. -/
def Item.lines (hdr : Str) : Item → List (List Str)
  | .blank => [[]]
  | .par k v m => [k :: v :: m]
  | .opt o => [[o]]
  | .block m rows e => (chars! "begin" :: hdr :: m) :: rows.map (·.ws) ++ [chars! "end" :: e]

def Item.Ok (N : Nums) (q0 : Bool) (hdr : Str) : Item → Prop
  | .blank => True
  | .par k v _ => ¬ (k = chars! "begin" ∧ v = hdr)
  | .opt o => o ≠ chars! "begin"
  | .block _ rows _ => ∀ r ∈ rows, r.Ok N q0

def Item.pars : Item → List (Str × Str)
  | .par k v _ => [(k, v)]
  | _ => []

def Item.opts : Item → List Str
  | .opt o => [o]
  | _ => []

def Item.rows : Item → List Row
  | .block _ rows _ => rows
  | _ => []

/-- The last value given to a name. -/
def lastValue (l : List (Str × Str)) (k : Str) : Option Str := ((l.reverse.find? fun p => p.1 = k)).map Prod.snd

/-! ## The scan -/

/-- What a file adds to what has been collected. -/
def addItem (q0 : Bool) (a : Acc) (it : Item) : Acc :=
  { pars := a.pars ++ it.pars, pts := a.pts ++ it.rows.map fun r => [r.x, r.y, r.z],
    isq0 := if q0 then a.isq0 ++ it.rows.map fun r => decide (r.f ≠ 0) else a.isq0,
    scale := a.scale ++ it.rows.map (·.s), opts := a.opts ++ it.opts }

def addRow (q0 : Bool) (a : Acc) (r : Row) : Acc :=
  { a with pts := a.pts ++ [[r.x, r.y, r.z]], isq0 := if q0 then a.isq0 ++ [decide (r.f ≠ 0)] else a.isq0, scale := a.scale ++ [r.s] }

theorem epsRow_ok (N : Nums) (a : Acc) (r : Row) (h : r.Ok N true) : epsRow N a r.ws = .ok (addRow true a r) := by
  obtain ⟨wx, wy, wz, wS, rest, h1, -, h2, h3, h4, h5, h6⟩ := h
  obtain ⟨wf, more, h7, h8⟩ := h6 rfl
  rw [h1, h7]
  simp [epsRow, floats, word, h2, h3, h4, h5, h8, addRow]

theorem sigRow_ok (N : Nums) (a : Acc) (r : Row) (h : r.Ok N false) : sigRow N a r.ws = .ok (addRow false a r) := by
  obtain ⟨wx, wy, wz, wS, rest, h1, -, h2, h3, h4, h5, -⟩ := h
  rw [h1]
  simp [sigRow, floats, word, h2, h3, h4, h5, addRow]

theorem scan_rows (hdr : Str) (N : Nums) (q0 : Bool) (row : Acc → List Str → Except PyErr Acc)
    (hrow : ∀ a (r : Row), r.Ok N q0 → row a r.ws = .ok (addRow q0 a r)) (rows : List Row) (h : ∀ r ∈ rows, r.Ok N q0)
    (rest : List (List Str)) (a : Acc) :
    scan hdr row true (rows.map (·.ws) ++ rest) a = scan hdr row true rest (rows.foldl (addRow q0) a) := by
  induction rows generalizing a with
  | nil => rfl
  | cons r t ih =>
    have hr := h r (by simp)
    obtain ⟨wx, wy, wz, wS, more, h1, h2, -⟩ := id hr
    have hrun := hrow a r hr
    simp only [List.map_cons, List.cons_append, List.foldl_cons]
    rw [h1] at hrun ⊢
    simp only [scan]
    rw [if_neg h2, hrun]
    exact ih (fun x hx => h x (by simp [hx])) _

theorem fold_rows (q0 : Bool) (rows : List Row) (a : Acc) (m e : List Str) :
    rows.foldl (addRow q0) a = addItem q0 a (.block m rows e) := by
  induction rows generalizing a with
  | nil => simp [addItem, Item.pars, Item.rows, Item.opts]
  | cons r t ih =>
    rw [List.foldl_cons, ih]
    cases q0 <;> simp [addItem, addRow, Item.pars, Item.rows, Item.opts]

theorem scan_item (hdr : Str) (N : Nums) (q0 : Bool) (row : Acc → List Str → Except PyErr Acc)
    (hrow : ∀ a (r : Row), r.Ok N q0 → row a r.ws = .ok (addRow q0 a r)) (it : Item) (h : it.Ok N q0 hdr) (rest : List (List Str)) (a : Acc) :
    scan hdr row false (it.lines hdr ++ rest) a = scan hdr row false rest (addItem q0 a it) := by
  cases it with
  | blank =>
    have : addItem q0 a .blank = a := by cases q0 <;> simp [addItem, Item.pars, Item.rows, Item.opts]
    rw [this]
    simp [Item.lines, scan]
  | par k v m =>
    have : addItem q0 a (.par k v m) = { a with pars := a.pars ++ [(k, v)] } := by
      cases q0 <;> simp [addItem, Item.pars, Item.rows, Item.opts]
    rw [this]
    simp only [Item.lines, List.cons_append, List.nil_append, scan]
    rw [if_neg h]
  | opt o =>
    have : addItem q0 a (.opt o) = { a with opts := a.opts ++ [o] } := by
      cases q0 <;> simp [addItem, Item.pars, Item.rows, Item.opts]
    rw [this]
    simp only [Item.lines, List.cons_append, List.nil_append, scan]
    rw [if_neg h]
  | block m rows e =>
    simp only [Item.lines, List.cons_append, scan, and_self, if_true, List.append_assoc, List.nil_append]
    rw [scan_rows hdr N q0 row hrow rows h]
    simp only [scan, if_true]
    rw [fold_rows]

theorem scan_items (hdr : Str) (N : Nums) (q0 : Bool) (row : Acc → List Str → Except PyErr Acc)
    (hrow : ∀ a (r : Row), r.Ok N q0 → row a r.ws = .ok (addRow q0 a r)) (items : List Item) (h : ∀ it ∈ items, it.Ok N q0 hdr)
    (rest : List (List Str)) (a : Acc) :
    scan hdr row false (items.flatMap (Item.lines hdr) ++ rest) a = scan hdr row false rest (items.foldl (addItem q0) a) := by
  induction items generalizing a with
  | nil => rfl
  | cons it t ih =>
    rw [List.flatMap_cons, List.append_assoc, scan_item hdr N q0 row hrow it (h it (by simp)), List.foldl_cons]
    exact ih (fun x hx => h x (by simp [hx])) _

theorem fold_items (q0 : Bool) (items : List Item) (a : Acc) :
    items.foldl (addItem q0) a =
      { pars := a.pars ++ items.flatMap Item.pars, 
        pts := a.pts ++ (items.flatMap Item.rows).map (fun r => [r.x, r.y, r.z]),
        isq0 := if q0 then a.isq0 ++ (items.flatMap Item.rows).map (fun r => decide (r.f ≠ 0)) else a.isq0,
        scale := a.scale ++ (items.flatMap Item.rows).map (·.s), opts := a.opts ++ items.flatMap Item.opts } := by
  induction items generalizing a with
  | nil => cases q0 <;> simp
  | cons it t ih => rw [List.foldl_cons, ih]; cases q0 <;> simp [addItem]

theorem lastValue_cons (p : Str × Str) (t : List (Str × Str)) (k : Str) :
    lastValue (p :: t) k = (lastValue t k).or (if p.1 = k then some p.2 else none) := by
  unfold lastValue
  rw [List.reverse_cons, List.find?_append]
  cases (t.reverse.find? fun p => p.1 = k) with
  | some x => simp
  | none =>
    by_cases h : p.1 = k
    · simp [h]
    · simp [h]

theorem jsonDict_ok {V : Type} (json : Str → Option V) (l : List (Str × Str)) (h : ∀ p ∈ l, (json p.2).isSome) (d : List (Str × Field V)) :
    ∃ d', jsonDict json l d = .ok d' ∧ (∀ k, dictGet d' k = (((lastValue l k).bind json).map Field.json).or (dictGet d k))
      ∧ (∀ k ∈ d'.map Prod.fst, k ∈ l.map Prod.fst ∨ k ∈ d.map Prod.fst)
      ∧ (∀ k, k ∈ l.map Prod.fst ∨ k ∈ d.map Prod.fst → k ∈ d'.map Prod.fst) := by
  induction l generalizing d with
  | nil => exact ⟨d, rfl, by simp [lastValue], by simp, by simp⟩
  | cons p t ih =>
    obtain ⟨k0, w⟩ := p
    obtain ⟨v, hv⟩ := Option.isSome_iff_exists.1 (h (k0, w) (by simp))
    have hv' : json w = some v := hv
    obtain ⟨d', h1, h2, h3, h4⟩ := ih (fun p hp => h p (by simp [hp])) (dictSet d k0 (.json v))
    have hmem : ∀ k, k ∈ (dictSet d k0 (Field.json v)).map Prod.fst ↔ k = k0 ∨ k ∈ d.map Prod.fst := by
      intro k
      rw [QEParse.keys_set]
      split_ifs with hk
      · constructor
        · exact Or.inr
        · rintro (rfl | h)
          · exact hk
          · exact h
      · simp [or_comm]
    refine ⟨d', by simp only [jsonDict, hv', h1], ?_, ?_, ?_⟩
    · intro k
      rw [h2, lastValue_cons, dictGet_set]
      cases hl : lastValue t k with
      | some x =>
        have : (json x).isSome := by
          unfold lastValue at hl
          obtain ⟨q, hq, rfl⟩ := Option.map_eq_some_iff.1 hl
          exact h q (by have := List.mem_of_find?_eq_some hq; simp at this; simp [this])
        obtain ⟨y, hy⟩ := Option.isSome_iff_exists.1 this
        simp [hy]
      | none =>
        by_cases hk : k0 = k
        · simp [hk, hv']
        · simp [hk]
    · intro k hk
      rcases h3 k hk with h | h
      · left; simp [h]
      · rcases (hmem k).1 h with rfl | h
        · left; simp
        · exact Or.inr h
    · intro k hk
      apply h4
      rcases hk with h | h
      · rw [List.map_cons, List.mem_cons] at h
        rcases h with rfl | h
        · right; rw [hmem]; left; rfl
        · left; exact h
      · right; rw [hmem]; right; exact h

theorem lastValue_none (l : List (Str × Str)) (k : Str) (h : k ∉ l.map Prod.fst) : lastValue l k = none := by
  unfold lastValue
  rw [List.find?_eq_none.2]
  · rfl
  · intro p hp
    simp only [decide_eq_true_eq]
    rintro rfl
    exact h (List.mem_map_of_mem (by simpa using hp))

theorem mem_keys_set {V : Type} (d : List (Str × V)) (k0 k : Str) (v : V) :
    k ∈ (dictSet d k0 v).map Prod.fst ↔ k = k0 ∨ k ∈ d.map Prod.fst := by
  rw [QEParse.keys_set]
  split_ifs with hk
  · constructor
    · exact Or.inr
    · rintro (rfl | h)
      · exact hk
      · exact h
  · simp [or_comm]

/-- **C125 (epsilon.inp).** Every file made of blank lines, parameters, options and q-point blocks is read completely: the q-points of all blocks in
order, their flags (any non-zero integer counts as `True`), the options in order, and for every parameter the last value given. -/
theorem C125_epsilon_inp {V : Type} (N : Nums) (json : Str → Option V) (legal : Str → Bool) (text : List Str) (items : List Item)
    (htext : text.map words = items.flatMap (Item.lines (chars! "qpoints")))
    (hok : ∀ it ∈ items, it.Ok N true (chars! "qpoints"))
    (hjson : ∀ p ∈ items.flatMap Item.pars, (json p.2).isSome)
    (hlegal : ∀ p ∈ items.flatMap Item.pars, legal p.1 = true)
    (hstd : legal (chars! "qpts") = true ∧ legal (chars! "is_q0") = true ∧ legal (chars! "options") = true) :
    ∃ nt, readEps N json legal text = .ok nt
      ∧ dictGet nt (chars! "qpts") = some (.points ((items.flatMap Item.rows).map fun r => [r.x, r.y, r.z]))
      ∧ dictGet nt (chars! "is_q0") = some (.flags ((items.flatMap Item.rows).map fun r => decide (r.f ≠ 0)))
      ∧ dictGet nt (chars! "options") = some (.options (items.flatMap Item.opts))
      ∧ (∀ k, k ≠ chars! "qpts" → k ≠ chars! "is_q0" → k ≠ chars! "options" →
        dictGet nt k = ((lastValue (items.flatMap Item.pars) k).bind json).map Field.json)
      ∧ ∀ k, k ∈ nt.map Prod.fst ↔ k ∈ (items.flatMap Item.pars).map Prod.fst ∨ k = chars! "qpts" ∨ k = chars! "is_q0" ∨ k = chars! "options" := by
  have hs := scan_items (chars! "qpoints") N true (epsRow N) (fun a r h => epsRow_ok N a r h) items hok [] {}
  rw [List.append_nil, ← htext, fold_items] at hs
  simp only [scan, List.nil_append, if_true] at hs
  obtain ⟨d, h1, h2, h3, h4⟩ := jsonDict_ok json (items.flatMap Item.pars) hjson ([] : List (Str × Field V))
  set nt := dictSet (dictSet (dictSet d (chars! "qpts") (Field.points ((items.flatMap Item.rows).map fun r => [r.x, r.y, r.z])))
    (chars! "is_q0") (.flags ((items.flatMap Item.rows).map fun r => decide (r.f ≠ 0)))) (chars! "options") (.options (items.flatMap Item.opts)) with hnt
  have hkeys : ∀ k, k ∈ nt.map Prod.fst ↔ k ∈ (items.flatMap Item.pars).map Prod.fst ∨ k = chars! "qpts" ∨ k = chars! "is_q0" ∨ k = chars! "options" := by
    intro k
    rw [hnt, mem_keys_set, mem_keys_set, mem_keys_set]
    have : k ∈ d.map Prod.fst ↔ k ∈ (items.flatMap Item.pars).map Prod.fst :=
      ⟨fun h => by rcases h3 k h with h | h; exact h; simp at h, fun h => h4 k (Or.inl h)⟩
    rw [this]
    tauto
  have hall : (nt.map Prod.fst).all legal = true := by
    rw [List.all_eq_true]
    intro k hk
    rcases (hkeys k).1 hk with h | rfl | rfl | rfl
    · obtain ⟨p, hp, rfl⟩ := List.mem_map.1 h
      exact hlegal p hp
    · exact hstd.1
    · exact hstd.2.1
    · exact hstd.2.2
  refine ⟨nt, ?_, ?_, ?_, ?_, ?_, hkeys⟩
  · unfold readEps
    simp only [hs, h1]
    unfold toTuple
    rw [if_pos hall]
  · rw [hnt, dictGet_set, dictGet_set, dictGet_set]; rfl
  · rw [hnt, dictGet_set, dictGet_set]; rfl
  · rw [hnt, dictGet_set]; rfl
  · intro k hq hi ho
    rw [hnt, dictGet_set, dictGet_set, dictGet_set, if_neg (Ne.symm ho), if_neg (Ne.symm hi), if_neg (Ne.symm hq), h2]
    simp [dictGet]

/-- **C125 (sigma.inp).** -/
theorem C125_sigma_inp {V : Type} (N : Nums) (json : Str → Option V) (legal : Str → Bool) (text : List Str) (items : List Item)
    (htext : text.map words = items.flatMap (Item.lines (chars! "kpoints")))
    (hok : ∀ it ∈ items, it.Ok N false (chars! "kpoints"))
    (hjson : ∀ p ∈ items.flatMap Item.pars, (json p.2).isSome)
    (hlegal : ∀ p ∈ items.flatMap Item.pars, legal p.1 = true)
    (hstd : legal (chars! "kpts") = true ∧ legal (chars! "options") = true) :
    ∃ nt, readSig N json legal text = .ok nt
      ∧ dictGet nt (chars! "kpts") = some (.points ((items.flatMap Item.rows).map fun r => [r.x, r.y, r.z]))
      ∧ dictGet nt (chars! "options") = some (.options (items.flatMap Item.opts))
      ∧ (∀ k, k ≠ chars! "kpts" → k ≠ chars! "options" →
        dictGet nt k = ((lastValue (items.flatMap Item.pars) k).bind json).map Field.json)
      ∧ ∀ k, k ∈ nt.map Prod.fst ↔ k ∈ (items.flatMap Item.pars).map Prod.fst ∨ k = chars! "kpts" ∨ k = chars! "options" := by
  have hs := scan_items (chars! "kpoints") N false (sigRow N) (fun a r h => sigRow_ok N a r h) items hok [] {}
  rw [List.append_nil, ← htext, fold_items] at hs
  simp only [scan, List.nil_append, Bool.false_eq_true, if_false] at hs
  obtain ⟨d, h1, h2, h3, h4⟩ := jsonDict_ok json (items.flatMap Item.pars) hjson ([] : List (Str × Field V))
  set nt := dictSet (dictSet d (chars! "kpts") (Field.points ((items.flatMap Item.rows).map fun r => [r.x, r.y, r.z])))
    (chars! "options") (.options (items.flatMap Item.opts)) with hnt
  have hkeys : ∀ k, k ∈ nt.map Prod.fst ↔ k ∈ (items.flatMap Item.pars).map Prod.fst ∨ k = chars! "kpts" ∨ k = chars! "options" := by
    intro k
    rw [hnt, mem_keys_set, mem_keys_set]
    have : k ∈ d.map Prod.fst ↔ k ∈ (items.flatMap Item.pars).map Prod.fst :=
      ⟨fun h => by rcases h3 k h with h | h; exact h; simp at h, fun h => h4 k (Or.inl h)⟩
    rw [this]
    tauto
  have hall : (nt.map Prod.fst).all legal = true := by
    rw [List.all_eq_true]
    intro k hk
    rcases (hkeys k).1 hk with h | rfl | rfl
    · obtain ⟨p, hp, rfl⟩ := List.mem_map.1 h
      exact hlegal p hp
    · exact hstd.1
    · exact hstd.2
  refine ⟨nt, ?_, ?_, ?_, ?_, hkeys⟩
  · unfold readSig
    simp only [hs, h1]
    unfold toTuple
    rw [if_pos hall]
  · rw [hnt, dictGet_set, dictGet_set]; rfl
  · rw [hnt, dictGet_set]; rfl
  · intro k hq ho
    rw [hnt, dictGet_set, dictGet_set, if_neg (Ne.symm ho), if_neg (Ne.symm hq), h2]
    simp [dictGet]

/-- **C125 (violated: scale factors).** A BerkeleyGW row `x y z s f` means the point `(x, y, z) / s`; the reader returns `(x, y, z)` and no scale
factor: there is a file whose only q-point is read as something else than what it says. -/
theorem C125_scale_ignored {V : Type} (json : Str → Option V) (legal : Str → Bool)
    (hstd : legal (chars! "qpts") = true ∧ legal (chars! "is_q0") = true ∧ legal (chars! "options") = true) :
    ∃ (N : Nums) (text : List Str) (r : Row) (nt : List (Str × Field V)), r.Ok N true
      ∧ text.map words = (Item.block [] [r] []).lines (chars! "qpoints")
      ∧ readEps N json legal text = .ok nt
      ∧ dictGet nt (chars! "qpts") ≠ some (.points [[r.x / r.s, r.y / r.s, r.z / r.s]])
      ∧ dictGet nt (chars! "scale_factor") = none := by
  let N : Nums := ⟨fun s => if s = chars! "1" then some 1 else if s = chars! "2" then some 2 else none,
    fun s => if s = chars! "1" then some 1 else if s = chars! "2" then some 2 else none⟩
  let r : Row := ⟨[chars! "1", chars! "1", chars! "1", chars! "2", chars! "1"], 1, 1, 1, 2, 1⟩
  have hr : r.Ok N true := ⟨chars! "1", chars! "1", chars! "1", chars! "2", [chars! "1"], rfl, by decide, rfl, rfl, rfl,
    rfl, fun _ => ⟨_, _, rfl, rfl⟩⟩
  obtain ⟨text, ht⟩ : ∃ text, text.map words = (Item.block [] [r] []).lines (chars! "qpoints") :=
    ⟨[chars! "begin qpoints", chars! "1 1 1 2 1", chars! "end"], rfl⟩
  obtain ⟨nt, h1, h2, -, -, h5, -⟩ := C125_epsilon_inp N json legal text [Item.block [] [r] []] (by rw [ht]; simp)
    (by intro it hit; simp at hit; subst hit; intro r' hr'; simp at hr'; subst hr'; exact hr)
    (by simp [Item.pars]) (by simp [Item.pars]) hstd
  refine ⟨N, _, r, nt, hr, ht, h1, ?_, ?_⟩
  · rw [h2]
    simp only [List.flatMap_cons, List.flatMap_nil, Item.rows, List.append_nil, List.map_cons, List.map_nil]
    intro h
    injection h with h
    injection h with h
    simp [r] at h
  · rw [h5 _ (by decide) (by decide) (by decide)]
    simp [Item.pars, lastValue]

/-- **C125 (an unfinished block).** A file that ends inside a block is rejected with `StopIteration`. -/
theorem C125_unterminated {V : Type} (N : Nums) (json : Str → Option V) (legal : Str → Bool) (text : List Str) (items : List Item) (m : List Str)
    (rows : List Row) (htext : text.map words = items.flatMap (Item.lines (chars! "qpoints")) ++ (chars! "begin" :: chars! "qpoints" :: m) :: rows.map (·.ws))
    (hok : ∀ it ∈ items, it.Ok N true (chars! "qpoints")) (hr : ∀ r ∈ rows, r.Ok N true) :
    readEps N json legal text = .error .stopIteration := by
  unfold readEps
  rw [htext, scan_items (chars! "qpoints") N true (epsRow N) (fun a r h => epsRow_ok N a r h) items hok]
  simp only [scan, and_self, if_true]
  have := scan_rows (chars! "qpoints") N true (epsRow N) (fun a r h => epsRow_ok N a r h) rows hr [] (items.foldl (addItem true) {})
  rw [List.append_nil] at this
  rw [this]
  simp only [scan]

/-- **C125 (a blank line in a block).** A blank line between the q-points is rejected with `IndexError`. -/
theorem C125_blank_in_block {V : Type} (N : Nums) (json : Str → Option V) (legal : Str → Bool) (text : List Str) (items : List Item) (m : List Str)
    (rows : List Row) (rest : List (List Str))
    (htext : text.map words = items.flatMap (Item.lines (chars! "qpoints")) ++ (chars! "begin" :: chars! "qpoints" :: m) :: (rows.map (·.ws) ++ [] :: rest))
    (hok : ∀ it ∈ items, it.Ok N true (chars! "qpoints")) (hr : ∀ r ∈ rows, r.Ok N true) :
    readEps N json legal text = .error .index := by
  unfold readEps
  rw [htext, scan_items (chars! "qpoints") N true (epsRow N) (fun a r h => epsRow_ok N a r h) items hok]
  simp only [scan, and_self, if_true]
  rw [scan_rows (chars! "qpoints") N true (epsRow N) (fun a r h => epsRow_ok N a r h) rows hr]
  simp only [scan]

/-- **C125 (comments).** A comment line (of two words or more) is taken as a parameter; as `#` is not a name, the whole file is rejected. -/
theorem C125_comment {V : Type} (N : Nums) (json : Str → Option V) (legal : Str → Bool) (text : List Str) (items : List Item)
    (htext : text.map words = items.flatMap (Item.lines (chars! "qpoints")))
    (hok : ∀ it ∈ items, it.Ok N true (chars! "qpoints")) (p : Str × Str) (hp : p ∈ items.flatMap Item.pars) (hill : legal p.1 = false) :
    readEps N json legal text = .error .value := by
  have hs := scan_items (chars! "qpoints") N true (epsRow N) (fun a r h => epsRow_ok N a r h) items hok [] {}
  rw [List.append_nil, ← htext, fold_items] at hs
  simp only [scan, List.nil_append, if_true] at hs
  unfold readEps
  simp only [hs]
  by_cases hjson : ∀ p ∈ items.flatMap Item.pars, (json p.2).isSome
  · obtain ⟨d, h1, h2, h3, h4⟩ := jsonDict_ok json (items.flatMap Item.pars) hjson ([] : List (Str × Field V))
    simp only [h1]
    unfold toTuple
    rw [if_neg]
    intro hall
    rw [List.all_eq_true] at hall
    have := hall p.1 (by
      rw [mem_keys_set, mem_keys_set, mem_keys_set]
      exact Or.inr (Or.inr (Or.inr (h4 _ (Or.inl (List.mem_map_of_mem hp))))))
    rw [hill] at this
    cases this
  · have herr : ∀ (l : List (Str × Str)) (d : List (Str × Field V)), ¬ (∀ p ∈ l, (json p.2).isSome) → jsonDict json l d = .error .value := by
      intro l
      induction l with
      | nil => intro d h; exact absurd (by simp) h
      | cons q t ih =>
        intro d h
        obtain ⟨k, w⟩ := q
        simp only [jsonDict]
        cases hj : json w with
        | none => rfl
        | some v =>
          apply ih
          intro h'
          exact h (by
            intro p hp
            rcases List.mem_cons.1 hp with rfl | hp
            · simp [hj]
            · exact h' p hp)
    simp only [herr _ _ hjson]

/-! ## C53 -/

theorem setFields_get {V : Type} (known : Str → Bool) (nt o : List (Str × Field V)) (k : Str) (hn : (nt.map Prod.fst).Nodup) :
    dictGet (setFields known nt o) k = if known k = true ∧ k ∈ nt.map Prod.fst then dictGet nt k else dictGet o k := by
  induction nt generalizing o with
  | nil => simp [setFields]
  | cons p t ih =>
    obtain ⟨k0, v⟩ := p
    rw [List.map_cons, List.nodup_cons] at hn
    simp only [setFields]
    rw [ih _ hn.2]
    by_cases hk : k0 = k
    · subst hk
      have h0 : ¬ (known k0 = true ∧ k0 ∈ t.map Prod.fst) := fun h => hn.1 h.2
      rw [if_neg h0]
      by_cases hkn : known k0 = true
      · rw [if_pos hkn, if_pos ⟨hkn, by simp⟩, dictGet_set]
        simp [dictGet]
      · rw [if_neg hkn, if_neg (fun h => hkn h.1)]
    · have e : (k ∈ (List.map Prod.fst ((k0, v) :: t))) ↔ k ∈ t.map Prod.fst := by simp [Ne.symm hk]
      simp only [e]
      have e2 : dictGet ((k0, v) :: t) k = dictGet t k := by simp [dictGet, hk]
      rw [e2]
      split_ifs with h1 h2
      · rfl
      · rw [dictGet_set, if_neg hk]
      · rfl

theorem setOptions_get {V : Type} (cond : Str → Bool) (l : List Str) (o : List (Str × Field V)) (k : Str) :
    dictGet (setOptions cond l o) k = if cond k = true ∧ k ∈ l then some .true_ else dictGet o k := by
  induction l generalizing o with
  | nil => simp [setOptions]
  | cons a t ih =>
    simp only [setOptions]
    rw [ih]
    by_cases hk : a = k
    · subst hk
      by_cases hc : cond a = true
      · simp only [hc, true_and, List.mem_cons_self, if_true]
        split_ifs
        · rfl
        · rw [dictGet_set, if_pos rfl]
      · simp [hc]
    · have e : (k ∈ a :: t) ↔ k ∈ t := by simp [Ne.symm hk]
      simp only [e]
      split_ifs with h1 h2
      · rfl
      · rw [dictGet_set, if_neg hk]
      · rfl

theorem dictSet_nodup {V : Type} (d : List (Str × V)) (k : Str) (v : V) (h : (d.map Prod.fst).Nodup) : ((dictSet d k v).map Prod.fst).Nodup := by
  rw [QEParse.keys_set]
  split_ifs with hk
  · exact h
  · rw [List.nodup_append]
    refine ⟨h, by simp, ?_⟩
    intro a ha b hb
    simp at hb
    subst hb
    rintro rfl
    exact hk ha

theorem jsonDict_nodup {V : Type} (json : Str → Option V) (l : List (Str × Str)) (d d' : List (Str × Field V)) (h : (d.map Prod.fst).Nodup)
    (hr : jsonDict json l d = .ok d') : (d'.map Prod.fst).Nodup := by
  induction l generalizing d with
  | nil => simp only [jsonDict] at hr; cases hr; exact h
  | cons p t ih =>
    obtain ⟨k, w⟩ := p
    simp only [jsonDict] at hr
    split at hr
    · cases hr
    · exact ih _ (dictSet_nodup _ _ _ h) hr

theorem readEps_nodup {V : Type} (N : Nums) (json : Str → Option V) (legal : Str → Bool) (text : List Str) (nt : List (Str × Field V))
    (h : readEps N json legal text = .ok nt) : (nt.map Prod.fst).Nodup := by
  unfold readEps at h
  split at h
  · cases h
  · split at h
    · cases h
    · rename_i d hd
      unfold toTuple at h
      split at h
      · cases h
        exact dictSet_nodup _ _ _ (dictSet_nodup _ _ _ (dictSet_nodup _ _ _ (jsonDict_nodup _ _ _ _ (by simp) hd)))
      · cases h

theorem readSig_nodup {V : Type} (N : Nums) (json : Str → Option V) (legal : Str → Bool) (text : List Str) (nt : List (Str × Field V))
    (h : readSig N json legal text = .ok nt) : (nt.map Prod.fst).Nodup := by
  unfold readSig at h
  split at h
  · cases h
  · split at h
    · cases h
    · rename_i d hd
      unfold toTuple at h
      split at h
      · cases h
        exact dictSet_nodup _ _ _ (dictSet_nodup _ _ _ (jsonDict_nodup _ _ _ _ (by simp) hd))
      · cases h

/-- **C53 (violated).** An option of `epsilon.inp` is never set on the resulting object: for every well-formed file and every option listed in it which
the object knows, which is not also given a value in the file and is no attribute of every tuple, the attribute keeps its default. -/
theorem C53_epsilon_options_dropped {V : Type} (N : Nums) (json : Str → Option V) (legal known dunder : Str → Bool) (text : List Str)
    (items : List Item) (htext : text.map words = items.flatMap (Item.lines (chars! "qpoints")))
    (hok : ∀ it ∈ items, it.Ok N true (chars! "qpoints"))
    (hjson : ∀ p ∈ items.flatMap Item.pars, (json p.2).isSome)
    (hlegal : ∀ p ∈ items.flatMap Item.pars, legal p.1 = true)
    (hstd : legal (chars! "qpts") = true ∧ legal (chars! "is_q0") = true ∧ legal (chars! "options") = true)
    (opt : Str) (hd : dunder opt = false) (hnp : opt ∉ (items.flatMap Item.pars).map Prod.fst)
    (h1 : opt ≠ chars! "qpts") (h2 : opt ≠ chars! "is_q0") (h3 : opt ≠ chars! "options") :
    ∃ o, fromEps N json legal known dunder text = .ok o ∧ dictGet o opt = none := by
  obtain ⟨nt, hr, -, -, -, h5, h6⟩ := C125_epsilon_inp N json legal text items htext hok hjson hlegal hstd
  have hnin : opt ∉ nt.map Prod.fst := by
    rw [h6]
    rintro (h | h | h | h)
    · exact hnp h
    · exact h1 h
    · exact h2 h
    · exact h3 h
  refine ⟨_, by unfold fromEps; simp only [hr]; rfl, ?_⟩
  rw [setOptions_get, if_neg, setFields_get _ _ _ _ (readEps_nodup _ _ _ _ _ hr), if_neg (fun h => hnin h.2)]
  · rfl
  · rintro ⟨h, -⟩
    rw [hd] at h
    simp only [Bool.false_or, decide_eq_true_eq] at h
    exact hnin h

/-- **C53 (parameters of epsilon.inp).** Every parameter the object knows gets the last value given in the file, provided its name is not also listed as
an option. -/
theorem C53_epsilon_parameters {V : Type} (N : Nums) (json : Str → Option V) (legal known dunder : Str → Bool) (text : List Str)
    (items : List Item) (htext : text.map words = items.flatMap (Item.lines (chars! "qpoints")))
    (hok : ∀ it ∈ items, it.Ok N true (chars! "qpoints"))
    (hjson : ∀ p ∈ items.flatMap Item.pars, (json p.2).isSome)
    (hlegal : ∀ p ∈ items.flatMap Item.pars, legal p.1 = true)
    (hstd : legal (chars! "qpts") = true ∧ legal (chars! "is_q0") = true ∧ legal (chars! "options") = true) :
    ∃ o, fromEps N json legal known dunder text = .ok o
      ∧ (∀ k w v, known k = true → k ∉ items.flatMap Item.opts → k ≠ chars! "qpts" → k ≠ chars! "is_q0" → k ≠ chars! "options" →
        lastValue (items.flatMap Item.pars) k = some w → json w = some v → dictGet o k = some (.json v))
      ∧ (known (chars! "qpts") = true → chars! "qpts" ∉ items.flatMap Item.opts →
        dictGet o (chars! "qpts") = some (.points ((items.flatMap Item.rows).map fun r => [r.x, r.y, r.z])))
      ∧ (known (chars! "is_q0") = true → chars! "is_q0" ∉ items.flatMap Item.opts →
        dictGet o (chars! "is_q0") = some (.flags ((items.flatMap Item.rows).map fun r => decide (r.f ≠ 0)))) := by
  obtain ⟨nt, hr, hq, hi, ho, h5, h6⟩ := C125_epsilon_inp N json legal text items htext hok hjson hlegal hstd
  have hopts : optionsOf nt = items.flatMap Item.opts := by unfold optionsOf; rw [ho]
  have get : ∀ k, known k = true → k ∉ items.flatMap Item.opts → k ∈ nt.map Prod.fst →
      dictGet (setOptions (fun o => dunder o || decide (o ∈ nt.map Prod.fst)) (optionsOf nt) (setFields known nt [])) k = dictGet nt k := by
    intro k hk hko hkn
    rw [setOptions_get, if_neg (fun h => hko (hopts ▸ h.2)), setFields_get _ _ _ _ (readEps_nodup _ _ _ _ _ hr), if_pos ⟨hk, hkn⟩]
  refine ⟨_, by unfold fromEps; simp only [hr]; rfl, ?_, ?_, ?_⟩
  · intro k w v hk hko h1 h2 h3 hw hv
    have hmem : k ∈ nt.map Prod.fst := by
      rw [h6]
      left
      by_contra hc
      rw [lastValue_none _ _ hc] at hw
      cases hw
    rw [get k hk hko hmem, h5 k h1 h2 h3, hw]
    simp [hv]
  · intro hk hko
    rw [get _ hk hko ((h6 _).2 (by simp)), hq]
  · intro hk hko
    rw [get _ hk hko ((h6 _).2 (by simp)), hi]

/-- **C53 (sigma.inp).** From a well-formed `sigma.inp` with at least one k-point and both band indices (and no option of those three names), every
option the object knows is set to `True`, every known parameter gets the last value given, and the k-points are those of the file. -/
theorem C53_sigma {V : Type} (N : Nums) (json : Str → Option V) (legal known : Str → Bool) (isNone : V → Bool) (text : List Str)
    (items : List Item) (htext : text.map words = items.flatMap (Item.lines (chars! "kpoints")))
    (hok : ∀ it ∈ items, it.Ok N false (chars! "kpoints"))
    (hjson : ∀ p ∈ items.flatMap Item.pars, (json p.2).isSome)
    (hlegal : ∀ p ∈ items.flatMap Item.pars, legal p.1 = true)
    (hstd : legal (chars! "kpts") = true ∧ legal (chars! "options") = true)
    (hkn : known (chars! "kpts") = true ∧ known (chars! "band_index_min") = true ∧ known (chars! "band_index_max") = true)
    (hrows : items.flatMap Item.rows ≠ [])
    (hmin : ∃ w v, lastValue (items.flatMap Item.pars) (chars! "band_index_min") = some w ∧ json w = some v ∧ isNone v = false)
    (hmax : ∃ w v, lastValue (items.flatMap Item.pars) (chars! "band_index_max") = some w ∧ json w = some v ∧ isNone v = false)
    (hopt : chars! "kpts" ∉ items.flatMap Item.opts) :
    ∃ o, fromSig N json legal known isNone text = .ok o
      ∧ (∀ k ∈ items.flatMap Item.opts, known k = true → dictGet o k = some .true_)
      ∧ (∀ k w v, known k = true → k ∉ items.flatMap Item.opts → k ≠ chars! "kpts" → k ≠ chars! "options" →
        lastValue (items.flatMap Item.pars) k = some w → json w = some v → dictGet o k = some (.json v))
      ∧ dictGet o (chars! "kpts") = some (.points ((items.flatMap Item.rows).map fun r => [r.x, r.y, r.z])) := by
  obtain ⟨nt, hr, hq, ho, h5, h6⟩ := C125_sigma_inp N json legal text items htext hok hjson hlegal hstd
  have hopts : optionsOf nt = items.flatMap Item.opts := by unfold optionsOf; rw [ho]
  set o := setOptions known (optionsOf nt) (setFields known nt []) with hodef
  have get : ∀ k, known k = true → k ∉ items.flatMap Item.opts → k ∈ nt.map Prod.fst → dictGet o k = dictGet nt k := by
    intro k hk hko hkn
    rw [hodef, setOptions_get, if_neg (fun h => hko (hopts ▸ h.2)), setFields_get _ _ _ _ (readSig_nodup _ _ _ _ _ hr), if_pos ⟨hk, hkn⟩]
  have flag : ∀ k ∈ items.flatMap Item.opts, known k = true → dictGet o k = some .true_ := by
    intro k hk hkn
    rw [hodef, setOptions_get, if_pos ⟨hkn, hopts ▸ hk⟩]
  have par : ∀ k w v, known k = true → k ∉ items.flatMap Item.opts → k ≠ chars! "kpts" → k ≠ chars! "options" →
      lastValue (items.flatMap Item.pars) k = some w → json w = some v → dictGet o k = some (.json v) := by
    intro k w v hk hko h1 h3 hw hv
    have hmem : k ∈ nt.map Prod.fst := by
      rw [h6]
      left
      by_contra hc
      rw [lastValue_none _ _ hc] at hw
      cases hw
    rw [get k hk hko hmem, h5 k h1 h3, hw]
    simp [hv]
  have hk : dictGet o (chars! "kpts") = some (.points ((items.flatMap Item.rows).map fun r => [r.x, r.y, r.z])) := by
    rw [get _ hkn.1 hopt ((h6 _).2 (by simp)), hq]
  have given : ∀ k, known k = true → k ≠ chars! "kpts" → k ≠ chars! "options" →
      (∃ w v, lastValue (items.flatMap Item.pars) k = some w ∧ json w = some v ∧ isNone v = false) →
      (match dictGet o k with
        | none => false
        | some (.json v) => !isNone v
        | some _ => true) = true := by
    rintro k hkk h1 h2 ⟨w, v, hw, hv, hn⟩
    by_cases hko : k ∈ items.flatMap Item.opts
    · rw [flag k hko hkk]
    · rw [par k w v hkk hko h1 h2 hw hv]
      simp [hn]
  refine ⟨o, ?_, flag, par, hk⟩
  unfold fromSig
  simp only [hr]
  rw [if_pos]
  unfold validate
  have g1 := given (chars! "band_index_max") hkn.2.2 (by decide) (by decide) hmax
  have g2 := given (chars! "band_index_min") hkn.2.1 (by decide) (by decide) hmin
  refine Bool.and_eq_true_iff.2 ⟨Bool.and_eq_true_iff.2 ⟨g1, g2⟩, ?_⟩
  rw [hk]
  simp only [List.length_map, decide_eq_true_eq]
  exact List.length_pos_iff.2 hrows

/-- **C53 (required parameters).** `sigma.inp` without k-points is rejected (`AssertionError`). -/
theorem C53_sigma_no_kpoints {V : Type} (N : Nums) (json : Str → Option V) (legal known : Str → Bool) (isNone : V → Bool) (text : List Str)
    (items : List Item) (htext : text.map words = items.flatMap (Item.lines (chars! "kpoints")))
    (hok : ∀ it ∈ items, it.Ok N false (chars! "kpoints"))
    (hjson : ∀ p ∈ items.flatMap Item.pars, (json p.2).isSome)
    (hlegal : ∀ p ∈ items.flatMap Item.pars, legal p.1 = true)
    (hstd : legal (chars! "kpts") = true ∧ legal (chars! "options") = true)
    (hrows : items.flatMap Item.rows = []) :
    fromSig N json legal known isNone text = .error .assertion := by
  obtain ⟨nt, hr, hq, ho, h5, h6⟩ := C125_sigma_inp N json legal text items htext hok hjson hlegal hstd
  unfold fromSig
  simp only [hr]
  rw [if_neg]
  intro hv
  unfold validate at hv
  simp only [Bool.and_eq_true] at hv
  have h3 := hv.2
  rw [setOptions_get, setFields_get _ _ _ _ (readSig_nodup _ _ _ _ _ hr), hq, hrows] at h3
  split_ifs at h3 with a b
  · simp at h3
  · cases h3

/-- The hypotheses of the theorems on epsilon.inp are met by a file with two parameters, an option and a q-point; the option the object knows is lost. -/
example : ∃ (N : Nums) (text : List Str) (items : List Item),
    text.map words = items.flatMap (Item.lines (chars! "qpoints")) ∧ (∀ it ∈ items, it.Ok N true (chars! "qpoints"))
    ∧ chars! "no_min_fftgrid" ∈ items.flatMap Item.opts
    ∧ (items.flatMap Item.pars).map Prod.fst = [chars! "epsilon_cutoff", chars! "number_bands"]
    ∧ (items.flatMap Item.rows).length = 1 := by
  let N : Nums := ⟨fun s => if s = chars! "1" then some 1 else none, fun s => if s = chars! "0.0" then some 0 else some 1⟩
  let r : Row := ⟨[chars! "0.0", chars! "0.0", chars! "0.5", chars! "1.0", chars! "1"], 0, 0, 1, 1, 1⟩
  refine ⟨N, [chars! "epsilon_cutoff 10.0", chars! "  number_bands  8 # comment", chars! "", chars! "no_min_fftgrid", chars! "begin qpoints",
    chars! " 0.0 0.0 0.5 1.0 1", chars! "end"],
    [.par (chars! "epsilon_cutoff") (chars! "10.0") [], .par (chars! "number_bands") (chars! "8") [chars! "#", chars! "comment"], .blank,
      .opt (chars! "no_min_fftgrid"), .block [] [r] []], rfl, ?_, by simp [Item.opts], rfl, rfl⟩
  intro it hit
  simp only [List.mem_cons, List.not_mem_nil, or_false] at hit
  rcases hit with rfl | rfl | rfl | rfl | rfl
  · exact fun h => absurd h.1 (by decide)
  · exact fun h => absurd h.1 (by decide)
  · trivial
  · show chars! "no_min_fftgrid" ≠ chars! "begin"
    decide
  · intro r' hr'
    simp at hr'
    subst hr'
    exact ⟨chars! "0.0", chars! "0.0", chars! "0.5", chars! "1.0", [chars! "1"], rfl, by decide, rfl, rfl, rfl, rfl, fun _ => ⟨_, _, rfl, rfl⟩⟩

/-! ## C126: vxc.dat -/

/-- One k-point of `vxc.dat`: its header words, three coordinates, and its rows of words with the value of each. -/
structure VxcK where
  w : Str × Str × Str × Str
  more : List Str
  x : ℝ
  y : ℝ
  z : ℝ
  rows : List ((Str × Str × Str × List Str) × ℝ)

def VxcK.lines (k : VxcK) : List (List Str) :=
  (k.w.1 :: k.w.2.1 :: k.w.2.2.1 :: k.w.2.2.2 :: k.more) :: k.rows.map fun r => r.1.1 :: r.1.2.1 :: r.1.2.2.1 :: r.1.2.2.2

/-- The header denotes the coordinates and the number of rows, and the third word of every row denotes its value. -/
def VxcK.Ok (N : Nums) (k : VxcK) : Prop :=
  N.float k.w.1 = some k.x ∧ N.float k.w.2.1 = some k.y ∧ N.float k.w.2.2.1 = some k.z ∧ N.int k.w.2.2.2 = some (k.rows.length : ℤ)
    ∧ ∀ r ∈ k.rows, N.float r.1.2.2.1 = some r.2

theorem vxcBands_ok (N : Nums) (rows : List ((Str × Str × Str × List Str) × ℝ)) (h : ∀ r ∈ rows, N.float r.1.2.2.1 = some r.2) (rest : List (List Str)) :
    vxcBands N rows.length ((rows.map fun r => r.1.1 :: r.1.2.1 :: r.1.2.2.1 :: r.1.2.2.2) ++ rest) = .ok (rows.map Prod.snd, rest) := by
  induction rows with
  | nil => rfl
  | cons r t ih =>
    have hr := h r (by simp)
    have iht := ih fun x hx => h x (by simp [hx])
    simp only [List.length_cons, List.map_cons, List.cons_append, vxcBands, List.headD_cons, List.tail_cons, word]
    simp [hr, iht]

theorem readVxc_step (N : Nums) (k : VxcK) (h : k.Ok N) (rest : List (List Str)) (fuel : ℕ) :
    readVxc N (fuel + 1) (k.lines ++ rest) = match readVxc N fuel rest with
      | .error e => .error e
      | .ok t => .ok (([k.x, k.y, k.z], (k.rows.length : ℤ), k.rows.map Prod.snd) :: t) := by
  obtain ⟨h1, h2, h3, h4, h5⟩ := h
  have hb := vxcBands_ok N k.rows h5 rest
  unfold VxcK.lines
  simp only [List.cons_append, readVxc]
  simp [floats, word, h1, h2, h3, h4, hb]
  cases readVxc N fuel rest <;> rfl

/-- **C126 (reading).** `vxc.dat` made of k-points with their rows, optionally followed by a blank line and anything else, is read completely: the
coordinates, the number of rows and the values of every k-point, in order. -/
theorem C126_read (N : Nums) (ks : List VxcK) (h : ∀ k ∈ ks, k.Ok N) (tail : List (List Str)) (ht : tail = [] ∨ tail.head? = some []) (fuel : ℕ)
    (hf : ks.length < fuel) :
    readVxc N fuel (ks.flatMap VxcK.lines ++ tail) = .ok (ks.map fun k => ([k.x, k.y, k.z], (k.rows.length : ℤ), k.rows.map Prod.snd)) := by
  induction ks generalizing fuel with
  | nil =>
    cases fuel with
    | zero => simp at hf
    | succ n =>
      rcases ht with rfl | ht
      · rfl
      · cases tail with
        | nil => cases ht
        | cons a t => simp at ht; subst ht; rfl
  | cons k t ih =>
    cases fuel with
    | zero => simp at hf
    | succ n =>
      rw [List.flatMap_cons, List.append_assoc, readVxc_step N k (h k (by simp)),
        ih (fun x hx => h x (by simp [hx])) n (by simpa using hf)]
      rfl

/-- **C126 (violated: off-diagonal elements).** If the header of a k-point announces only its diagonal rows and off-diagonal rows `spin n m re im`
follow, the next row is taken for a k-point: the file is rejected unless `re` is the text of an integer. -/
theorem C126_offdiagonal (N : Nums) (ks : List VxcK) (h : ∀ k ∈ ks, k.Ok N) (ws wn wm wre : Str) (more : List Str) (rest : List (List Str))
    (x y z : ℝ) (h1 : N.float ws = some x) (h2 : N.float wn = some y) (h3 : N.float wm = some z) (hre : N.int wre = none) (fuel : ℕ)
    (hf : ks.length < fuel) :
    readVxc N fuel (ks.flatMap VxcK.lines ++ (ws :: wn :: wm :: wre :: more) :: rest) = .error .value := by
  induction ks generalizing fuel with
  | nil =>
    cases fuel with
    | zero => simp at hf
    | succ n => simp [readVxc, floats, word, h1, h2, h3, hre]
  | cons k t ih =>
    cases fuel with
    | zero => simp at hf
    | succ n =>
      rw [List.flatMap_cons, List.append_assoc, readVxc_step N k (h k (by simp)),
        ih (fun x hx => h x (by simp [hx])) n (by simpa using hf)]

/-- **C126 (truncated file).** A k-point with fewer rows than announced at the end of the file is rejected (`IndexError`). -/
theorem C126_truncated (N : Nums) (ks : List VxcK) (h : ∀ k ∈ ks, k.Ok N) (k : VxcK) (n : ℕ) (hn : k.rows.length < n)
    (hk : N.float k.w.1 = some k.x ∧ N.float k.w.2.1 = some k.y ∧ N.float k.w.2.2.1 = some k.z ∧ N.int k.w.2.2.2 = some (n : ℤ)
      ∧ ∀ r ∈ k.rows, N.float r.1.2.2.1 = some r.2) (fuel : ℕ) (hf : ks.length < fuel) :
    readVxc N fuel (ks.flatMap VxcK.lines ++ k.lines) = .error .index := by
  have hb : ∀ (rows : List ((Str × Str × Str × List Str) × ℝ)) (n : ℕ), rows.length < n → (∀ r ∈ rows, N.float r.1.2.2.1 = some r.2) →
      vxcBands N n (rows.map fun r => r.1.1 :: r.1.2.1 :: r.1.2.2.1 :: r.1.2.2.2) = .error .index := by
    intro rows
    induction rows with
    | nil =>
      intro n hn _
      obtain ⟨m, rfl⟩ := Nat.exists_eq_succ_of_ne_zero (by simp at hn; omega : n ≠ 0)
      simp [vxcBands, word]
    | cons r t ih =>
      intro n hn hr
      obtain ⟨m, rfl⟩ := Nat.exists_eq_succ_of_ne_zero (by simp at hn; omega : n ≠ 0)
      have h0 := hr r (by simp)
      have iht := ih m (by simpa using hn) fun x hx => hr x (by simp [hx])
      simp only [List.map_cons, vxcBands, List.headD_cons, List.tail_cons, word]
      simp [h0, iht]
  induction ks generalizing fuel with
  | nil =>
    cases fuel with
    | zero => simp at hf
    | succ m =>
      obtain ⟨h1, h2, h3, h4, h5⟩ := hk
      have := hb k.rows n hn h5
      unfold VxcK.lines
      simp [readVxc, floats, word, h1, h2, h3, h4, this]
  | cons k' t ih =>
    cases fuel with
    | zero => simp at hf
    | succ m =>
      rw [List.flatMap_cons, List.append_assoc, readVxc_step N k' (h k' (by simp)),
        ih (fun x hx => h x (by simp [hx])) m (by simpa using hf)]

/-- A k-point with two rows meets the hypotheses of C126. -/
example : ∃ (N : Nums) (k : VxcK), k.Ok N ∧ k.rows.length = 2 := by
  refine ⟨⟨fun s => if s = chars! "2" then some 2 else none, fun s => if s = chars! "-0.5" then some (-1 / 2) else some 0⟩,
    ⟨(chars! "0.0", chars! "0.0", chars! "0.0", chars! "2"), [], 0, 0, 0,
      [((chars! "1", chars! "4", chars! "-0.5", []), -1 / 2), ((chars! "1", chars! "5", chars! "1.0", []), 0)]⟩, ⟨rfl, rfl, rfl, rfl, ?_⟩, rfl⟩
  intro r hr
  simp only [List.mem_cons, List.not_mem_nil, or_false] at hr
  rcases hr with rfl | rfl <;> rfl

end Verif.BGW
