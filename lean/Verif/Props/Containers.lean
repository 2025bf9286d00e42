import Mathlib.Algebra.BigOperators.Intervals
import Mathlib.Algebra.Star.BigOperators
import Verif.Model.Containers
import Verif.Props.DFTComm

/-!
# Properties C24, C25, C58: indexing and reducing containers
-/

namespace Verif.Containers

/-! ## C25: indexing -/

/-- Specification: the array over the leading axes at basis position `j`. -/
def leading {α : Type*} (a : Arr α) (j : ℕ) : Arr α :=
  { shape := a.shape.dropLast, get := fun i => a.get (i ++ [j]) }

theorem consumed_append (x y : List Item) : consumed (x ++ y) = consumed x + consumed y := by
  simp [consumed]

theorem consumed_replicate (k : ℕ) : consumed (List.replicate k Item.all) = k := by
  simp [consumed, Item.all, Item.consumes]

theorem expand_noEll (k : ℕ) (item : List Item) (h : item.filter Item.isEllipsis = []) :
    expand k item = item ++ List.replicate k Item.all ∧
    ∀ t, expand k (item ++ .ellipsis :: t) = item ++ List.replicate k Item.all ++ t := by
  induction item with
  | nil => exact ⟨rfl, fun t => rfl⟩
  | cons x l ih =>
    cases x <;> simp_all [expand, Item.isEllipsis]

theorem slicePos_all (n : ℕ) : slicePos n none none none = .ok (List.range n) := by
  unfold slicePos
  simp only [Option.getD_none]
  rw [if_neg (by omega), if_pos (by omega)]
  congr 1
  show List.map _ (List.range (if (if (0:ℤ) < 0 then max ((0:ℤ) + n) 0 else min 0 (n:ℤ)) <
      (if (n:ℤ) < 0 then max ((n:ℤ) + n) 0 else min (n:ℤ) n) then
      ((if (n:ℤ) < 0 then max ((n:ℤ) + n) 0 else min (n:ℤ) n) -
        (if (0:ℤ) < 0 then max ((0:ℤ) + n) 0 else min 0 (n:ℤ)) - 1) / 1 + 1 else 0).toNat) = _
  have h : (if (if (0:ℤ) < 0 then max ((0:ℤ) + n) 0 else min 0 (n:ℤ)) <
      (if (n:ℤ) < 0 then max ((n:ℤ) + n) 0 else min (n:ℤ) n) then
      ((if (n:ℤ) < 0 then max ((n:ℤ) + n) 0 else min (n:ℤ) n) -
        (if (0:ℤ) < 0 then max ((0:ℤ) + n) 0 else min 0 (n:ℤ)) - 1) / 1 + 1 else 0).toNat = n := by
    have e : (if (0:ℤ) < 0 then max ((0:ℤ) + n) 0 else min 0 (n:ℤ)) = 0 := by
      rw [if_neg (by omega)]; omega
    have e' : (if (n:ℤ) < 0 then max ((n:ℤ) + n) 0 else min (n:ℤ) n) = n := by
      rw [if_neg (by omega)]; omega
    rw [e, e']
    split_ifs <;> omega
  rw [h]
  show List.map (fun k : ℕ => (((if (0:ℤ) < 0 then max ((0:ℤ) + n) 0 else min 0 (n:ℤ)) + (k:ℤ) * 1)).toNat) _ = _
  have : ∀ k : ℕ, (((if (0:ℤ) < 0 then max ((0:ℤ) + n) 0 else min 0 (n:ℤ)) + (k:ℤ) * 1)).toNat = k := by
    intro k
    rw [if_neg (by omega)]; omega
  simp only [this, List.map_id']

theorem selectors_snoc (X : List Item) (lead : List ℕ) (n : ℕ) (hX : consumed X = lead.length)
    (hE : X.filter Item.isEllipsis = []) :
    selectors (X ++ [Item.all]) (lead ++ [n])
      = (selectors X lead).map (· ++ [Sel.axis (List.range n)]) := by
  induction X generalizing lead with
  | nil =>
    have : lead = [] := by cases lead <;> simp_all [consumed]
    subst this
    simp [selectors, Item.all, slicePos_all, bind, Except.bind, pure, Except.pure, Except.map]
  | cons x l ih =>
    cases x with
    | newaxis =>
      have := ih lead (by simpa [consumed, Item.consumes] using hX) (by simpa [Item.isEllipsis] using hE)
      simp only [List.cons_append, selectors, this]
      cases selectors l lead <;> rfl
    | ellipsis => simp [Item.isEllipsis] at hE
    | int i =>
      cases lead with
      | nil => simp [consumed, Item.consumes] at hX
      | cons m s =>
        have := ih s (by simp [consumed, Item.consumes] at hX ⊢; omega) (by simpa [Item.isEllipsis] using hE)
        simp only [List.cons_append, selectors, this]
        cases normIdx m i
        · rfl
        · cases selectors l s <;> rfl
    | slice a b c =>
      cases lead with
      | nil => simp [consumed, Item.consumes] at hX
      | cons m s =>
        have := ih s (by simp [consumed, Item.consumes] at hX ⊢; omega) (by simpa [Item.isEllipsis] using hE)
        simp only [List.cons_append, selectors, this]
        cases slicePos m a b c
        · rfl
        · cases selectors l s <;> rfl
    | fancy q =>
      cases lead with
      | nil => simp [consumed, Item.consumes] at hX
      | cons m s =>
        have := ih s (by simp [consumed, Item.consumes] at hX ⊢; omega) (by simpa [Item.isEllipsis] using hE)
        simp only [List.cons_append, selectors, this]
        cases List.mapM (normIdx m) q
        · rfl
        · cases selectors l s <;> rfl

theorem outShape_snoc (s : List Sel) (n : ℕ) :
    outShape (s ++ [Sel.axis (List.range n)]) = outShape s ++ [n] := by
  induction s with
  | nil => simp [outShape]
  | cons x t ih => cases x <;> simp [outShape, ih]

theorem source_snoc (s : List Sel) (n j : ℕ) (hj : j < n) (i : List ℕ) (hi : i.length = (outShape s).length) :
    source (s ++ [Sel.axis (List.range n)]) (i ++ [j]) = source s i ++ [j] := by
  induction s generalizing i with
  | nil =>
    have : i = [] := by simpa [outShape] using hi
    subst this
    simp [source, List.getD_eq_getElem?_getD, hj]
  | cons x t ih =>
    cases x with
    | fixed k => simp [source, ih i (by simpa [outShape] using hi)]
    | axis p =>
      cases i with
      | nil => simp [outShape] at hi
      | cons a b => simp [source, ih b (by simpa [outShape] using hi)]
    | new =>
      cases i with
      | nil => simp [outShape] at hi
      | cons a b => simp [source, ih b (by simpa [outShape] using hi)]

/-- The key used by `__getitem__` selects like `item` on the leading axes, plus the whole basis axis. -/
theorem keySel_getitem (lead : List ℕ) (n : ℕ) (item : List Item) :
    (∃ e, item.filter Item.isEllipsis ≠ [] ∧
        keySel (lead ++ [n]) (item ++ [.ellipsis, Item.all]) = .error e) ∨
      (item.filter Item.isEllipsis = [] ∧ keySel (lead ++ [n]) (item ++ [.ellipsis, Item.all])
        = (keySel lead item).map (· ++ [Sel.axis (List.range n)])) := by
  by_cases h : item.filter Item.isEllipsis = []
  · right
    refine ⟨h, ?_⟩
    unfold keySel
    have e1 : ((item ++ [.ellipsis, Item.all]).filter Item.isEllipsis).length = 1 := by
      rw [List.filter_append, h]; rfl
    have e2 : (item ++ [.ellipsis, Item.all]).filter Item.isFancy = item.filter Item.isFancy := by
      rw [List.filter_append]
      have : [Item.ellipsis, Item.all].filter Item.isFancy = [] := rfl
      rw [this, List.append_nil]
    have e3 : consumed (item ++ [.ellipsis, Item.all]) = consumed item + 1 := by
      rw [consumed_append]; rfl
    rw [e1, e2, e3, if_neg (by omega), if_neg (show ¬ 1 < (item.filter Item.isEllipsis).length by rw [h]; simp),
      List.length_append, List.length_singleton]
    by_cases hf : 1 < (item.filter Item.isFancy).length
    · rw [if_pos hf, if_pos hf]; rfl
    · rw [if_neg hf, if_neg hf]
      by_cases hc : lead.length < consumed item
      · rw [if_pos (by omega), if_pos hc]; rfl
      · rw [if_neg (by omega), if_neg hc, (expand_noEll _ item h).1,
          show [Item.ellipsis, Item.all] = Item.ellipsis :: [Item.all] from rfl,
          (expand_noEll _ item h).2, Nat.add_sub_add_right]
        apply selectors_snoc
        · rw [consumed_append, consumed_replicate]; omega
        · rw [List.filter_append, h, List.nil_append]
          simp [Item.all, Item.isEllipsis]
  · left
    refine ⟨.index, h, ?_⟩
    unfold keySel
    rw [if_pos]
    have : 0 < (item.filter Item.isEllipsis).length := List.length_pos_of_ne_nil h
    rw [List.filter_append, List.length_append]
    have : ([Item.ellipsis, Item.all].filter Item.isEllipsis).length = 1 := rfl
    omega

/-- **C25.** For every buffer of shape `(…, n)` and every index expression: if indexing succeeds, the
result has shape `(…, n)` again, and for every basis position `j` its values at `j` are those of the same
expression applied to the leading axes of the data at `j`: no basis entry is dropped, moved or mixed with
another. Indexing fails (always with the documented exception) exactly when the expression contains an
ellipsis or is invalid for the leading axes. -/
theorem C25_indexing_keeps_basis {α : Type*} (a : Arr α) (lead : List ℕ) (n : ℕ)
    (ha : a.shape = lead ++ [n]) (item : List Item) :
    (∀ r, getitem a item = .ok r →
      ∃ lead', r.shape = lead' ++ [n] ∧ ∀ j < n, ∃ rj, index (leading a j) item = .ok rj ∧
        rj.shape = lead' ∧ ∀ i, InShape lead' i → r.get (i ++ [j]) = rj.get i) ∧
    (∀ e, getitem a item = .error e → e = .runtime) ∧
    ((∃ r, getitem a item = .ok r) ↔
      Item.ellipsis ∉ item ∧ ∃ r0, index (⟨lead, fun i => a.get (i ++ [0])⟩ : Arr α) item = .ok r0) := by
  have hl : ∀ j, leading a j = ⟨lead, fun i => a.get (i ++ [j])⟩ := by
    intro j; simp [leading, ha]
  have hmem : Item.ellipsis ∉ item ↔ item.filter Item.isEllipsis = [] := by
    rw [List.filter_eq_nil_iff]
    constructor
    · rintro h x hx hb
      cases x <;> simp [Item.isEllipsis] at hb
      exact h hx
    · intro h hx
      exact h _ hx rfl
  unfold getitem index
  rw [hmem, ha]
  rcases keySel_getitem lead n item with ⟨e, h1, h2⟩ | ⟨h1, h2⟩
  · rw [h2]
    refine ⟨?_, ?_, ?_⟩
    · intro r h; cases h
    · intro e h; cases h; rfl
    · constructor
      · rintro ⟨r, h⟩; cases h
      · intro h; exact absurd h.1 h1
  · rw [h2]
    cases hk : keySel lead item with
    | error e =>
      refine ⟨?_, ?_, ?_⟩
      · intro r h; cases h
      · intro e h; cases h; rfl
      · constructor
        · rintro ⟨r, h⟩; cases h
        · rintro ⟨_, r, h⟩; cases h
    | ok s =>
      refine ⟨?_, ?_, ?_⟩
      · intro r h
        cases h
        refine ⟨outShape s, outShape_snoc s n, fun j hj => ?_⟩
        rw [hl j]
        simp only [hk]
        refine ⟨_, rfl, rfl, fun i hi => ?_⟩
        show a.get (source (s ++ [Sel.axis (List.range n)]) (i ++ [j])) = a.get (source s i ++ [j])
        rw [source_snoc s n j hj i hi.length_eq]
      · intro e h; cases h
      · exact ⟨fun _ => ⟨h1, _, rfl⟩, fun _ => ⟨_, rfl⟩⟩

/-- a case: `buf[1, ::-1]` on shape (2, 3, 5) -/
example : ∃ r, getitem (⟨[2, 3, 5], fun i => i⟩ : Arr (List ℕ)) [.int 1, .slice none none (some (-1))] = .ok r ∧
    r.shape = [3, 5] ∧ r.get [0, 4] = [1, 2, 4] ∧ r.get [2, 3] = [1, 0, 3] := by
  refine ⟨_, rfl, rfl, rfl, rfl⟩

/-- **C25 (integers).** `buf[i]` on a buffer of shape `(m, …)` selects row `i` (counted from the end if negative) and is refused
exactly when `i` is outside `[-m, m)`. -/
theorem C25_integer {α : Type*} (a : Arr α) (m : ℕ) (rest : List ℕ) (ha : a.shape = m :: rest) (i : ℤ) :
    (∀ k : ℕ, k < m → (i = k ∨ i = (k : ℤ) - m) → ∃ r, index a [.int i] = .ok r ∧ r.shape = rest ∧
      ∀ x, InShape rest x → r.get x = a.get (k :: x)) ∧
    ((i < -(m : ℤ) ∨ (m : ℤ) ≤ i) → index a [.int i] = .error .index) := by
  have hall : ∀ l : List ℕ, selectors (List.replicate l.length Item.all) l = .ok (l.map fun n => Sel.axis (List.range n)) := by
    intro l
    induction l with
    | nil => rfl
    | cons n t ih =>
      simp only [List.length_cons, List.replicate_succ, List.map_cons]
      show selectors (Item.slice none none none :: List.replicate t.length Item.all) (n :: t) = _
      simp only [selectors, slicePos_all, ih, bind, Except.bind, pure, Except.pure]
  have hshape : ∀ l : List ℕ, outShape (l.map fun n => Sel.axis (List.range n)) = l := by
    intro l
    induction l with
    | nil => rfl
    | cons n t ih => simp [outShape, ih]
  have hsrc : ∀ (l x : List ℕ), InShape l x → source (l.map fun n => Sel.axis (List.range n)) x = x := by
    intro l
    induction l with
    | nil => intro x hx; cases x with
      | nil => rfl
      | cons y t => exact absurd hx (by simp [InShape])
    | cons n t ih =>
      intro x hx
      cases x with
      | nil => exact absurd hx (by simp [InShape])
      | cons y t' =>
        have hx' : y < n ∧ InShape t t' := by simpa [InShape] using hx
        simp only [List.map_cons, source, ih t' hx'.2]
        congr 1
        rw [List.getD_eq_getElem?_getD, List.getElem?_range hx'.1]
        rfl
  have hkey : ∀ k, normIdx m i = .ok k → keySel (m :: rest) [.int i] = .ok (Sel.fixed k :: rest.map fun n => Sel.axis (List.range n)) := by
    intro k hk
    have e : keySel (m :: rest) [.int i] = selectors (.int i :: List.replicate rest.length Item.all) (m :: rest) := by
      simp [keySel, consumed, Item.consumes, Item.isEllipsis, Item.isFancy, expand]
    rw [e]
    simp only [selectors, hk, hall, bind, Except.bind, pure, Except.pure]
  constructor
  · intro k hk hi
    have hn : normIdx m i = .ok k := by
      unfold normIdx
      rcases hi with rfl | rfl
      · have h1 : ¬ ((k : ℤ) < 0) := by omega
        simp [h1, hk]
      · have h1 : ((k : ℤ) - m) < 0 := by omega
        simp [h1, hk]
    unfold index
    rw [ha, hkey k hn]
    refine ⟨_, rfl, by simp [outShape, hshape], ?_⟩
    intro x hx
    simp only [source, hsrc rest x hx]
  · intro h
    have hn : normIdx m i = .error .index := by
      unfold normIdx
      rcases h with h | h
      · have h1 : i < 0 := by omega
        simp only [h1, if_true]
        rw [if_neg (by omega)]
      · have h1 : ¬ i < 0 := by omega
        simp only [h1, if_false]
        rw [if_neg (by omega)]
    have e : keySel (m :: rest) [.int i] = selectors (.int i :: List.replicate rest.length Item.all) (m :: rest) := by
      simp [keySel, consumed, Item.consumes, Item.isEllipsis, Item.isFancy, expand]
    unfold index
    rw [ha, e]
    simp only [selectors, hn, bind, Except.bind, Except.map]

example : index (⟨[3, 2], fun i => i⟩ : Arr (List ℕ)) [.int 3] = .error .index := rfl

/-! ## C58: assigning -/

/-- **C58 (violation).** `buf[:, 0] = v` writes across the basis axis of a buffer of shape `(n, n)` without
being refused: the guard only compares the last dimension of the selected view with the basis size. -/
theorem C58_setitem_crosses_basis {α : Type*} (n : ℕ) (hn : 0 < n) (a v : Arr α) (ha : a.shape = [n, n]) :
    ∃ a', setitem n a [Item.all, .int 0] v = .ok a' ∧ a'.shape = [n, n] ∧
      ∀ i < n, a'.get [i, 0] = v.get [i] ∧ ∀ j, j ≠ 0 → a'.get [i, j] = a.get [i, j] := by
  have hk : keySel [n, n] [Item.all, .int 0] = .ok [Sel.axis (List.range n), Sel.fixed 0] := by
    have h1 : selectors [Item.all, .int 0] [n, n] = .ok [Sel.axis (List.range n), Sel.fixed 0] := by
      simp [selectors, Item.all, slicePos_all, normIdx, bind, Except.bind, pure, Except.pure, hn]
    exact h1
  unfold setitem index assign
  rw [ha, hk]
  have hall : allIdx [n] = (List.range n).map fun i => [i] := by
    simp [allIdx]
    rw [List.flatMap_def]
    induction (List.range n) with
    | nil => rfl
    | cons x t ih => simp [ih]
  simp only [Except.map, outShape, List.length_range, List.getLast?_singleton, if_true]
  refine ⟨_, rfl, rfl, fun i hi => ⟨?_, fun j hj => ?_⟩⟩
  · simp only [hall]
    have : ((List.range n).map fun i => [i]).reverse.find?
        (fun j => source [Sel.axis (List.range n), Sel.fixed 0] j == [i, 0]) = some [i] := by
      rw [List.find?_eq_some_iff_append]
      refine ⟨by simp [source, List.getD_eq_getElem?_getD, hi], ?_⟩
      have hmem : ([i] : List ℕ) ∈ ((List.range n).map fun i => [i]).reverse := by simp [hi]
      obtain ⟨as, bs, hab⟩ := List.append_of_mem hmem
      refine ⟨as, bs, hab, fun x hx => ?_⟩
      have hnd : (((List.range n).map fun i => [i]).reverse).Nodup := by
        rw [List.nodup_reverse]
        exact (List.nodup_range).map (fun x y h => by simpa using h)
      rw [hab] at hnd
      have hxm : x ∈ ((List.range n).map fun i => [i]).reverse := by rw [hab]; simp [hx]
      simp at hxm
      obtain ⟨k, hkn, rfl⟩ := hxm
      have hne : k ≠ i := by
        rintro rfl
        exact (List.nodup_append.1 hnd).2.2 _ hx _ (by simp) rfl
      simp [source, List.getD_eq_getElem?_getD, hkn, hne]
    rw [this]
  · have : (allIdx [n]).reverse.find?
        (fun k => source [Sel.axis (List.range n), Sel.fixed 0] k == [i, j]) = none := by
      rw [List.find?_eq_none]
      intro x hx
      rw [hall] at hx
      simp at hx
      obtain ⟨k, hkn, rfl⟩ := hx
      simp [source, Ne.symm hj]
    simp only [this]

theorem allIdx_length (s : List ℕ) : ∀ i ∈ allIdx s, i.length = s.length := by
  induction s with
  | nil => simp [allIdx]
  | cons n s ih =>
    intro i hi
    simp [allIdx] at hi
    obtain ⟨a, _, b, hb, rfl⟩ := hi
    simp [ih b hb]

theorem allIdx_snoc (s : List ℕ) (n : ℕ) :
    allIdx (s ++ [n]) = (allIdx s).flatMap fun i => (List.range n).map fun j => i ++ [j] := by
  induction s with
  | nil =>
    simp [allIdx]
    induction (List.range n) with
    | nil => rfl
    | cons x t ih => simp [ih]
  | cons m s ih =>
    simp only [List.cons_append, allIdx, ih]
    simp only [List.map_flatMap, List.flatMap_assoc, List.flatMap_map, List.map_map]
    rfl

/-- Searching the reversed list of extended indices for one extended by `j` is searching the
unextended list. -/
theorem find_snoc (L : List (List ℕ)) (n j : ℕ) (hj : j < n) (f : List ℕ → List ℕ) (g : List ℕ → List ℕ)
    (hg : ∀ i ∈ L, ∀ j < n, g (i ++ [j]) = f i ++ [j]) (i0 : List ℕ) :
    ((L.flatMap fun i => (List.range n).map fun j => i ++ [j]).reverse.find? fun k => g k == i0 ++ [j])
      = (L.reverse.find? fun k => f k == i0).map (· ++ [j]) := by
  induction L with
  | nil => rfl
  | cons x t ih =>
    have ih := ih (fun i hi => hg i (by simp [hi]))
    rw [List.flatMap_cons, List.reverse_append, List.find?_append, ih, List.reverse_cons, List.find?_append]
    cases ht : t.reverse.find? fun k => f k == i0 with
    | some y => simp
    | none =>
      simp only [Option.map_none, Option.none_or]
      have hx := hg x (by simp)
      by_cases hfx : f x = i0
      · have h2 : List.find? (fun k => f k == i0) [x] = some x := by simp [hfx]
        rw [h2]
        rw [Option.map_some]
        rw [List.find?_eq_some_iff_append]
        refine ⟨by rw [hx j hj, hfx]; simp, ?_⟩
        have hmem : x ++ [j] ∈ ((List.range n).map fun j => x ++ [j]).reverse := by simp [hj]
        obtain ⟨as, bs, hab⟩ := List.append_of_mem hmem
        refine ⟨as, bs, hab, fun y hy => ?_⟩
        have hnd : (((List.range n).map fun j => x ++ [j]).reverse).Nodup := by
          rw [List.nodup_reverse]
          exact (List.nodup_range).map (fun a b h => by simpa using h)
        rw [hab] at hnd
        have hym : y ∈ ((List.range n).map fun j => x ++ [j]).reverse := by rw [hab]; simp [hy]
        simp only [List.mem_reverse, List.mem_map, List.mem_range] at hym
        obtain ⟨k, hk, rfl⟩ := hym
        have hne : k ≠ j := by
          rintro rfl
          exact (List.nodup_append.1 hnd).2.2 _ hy _ (by simp) rfl
        rw [hx k hk]
        simp [hne]
      · have h2 : List.find? (fun k => f k == i0) [x] = none := by simp [hfx]
        rw [h2, Option.map_none, List.find?_eq_none]
        intro y hy
        simp only [List.mem_reverse, List.mem_map, List.mem_range] at hy
        obtain ⟨k, hk, rfl⟩ := hy
        rw [hx k hk]
        simp [hfx]

theorem keySel_lead (lead : List ℕ) (n : ℕ) (key : List Item) (h : key.filter Item.isEllipsis = [])
    (hc : consumed key ≤ lead.length) :
    keySel (lead ++ [n]) key = (keySel lead key).map (· ++ [Sel.axis (List.range n)]) := by
  unfold keySel
  rw [if_neg (show ¬ 1 < (key.filter Item.isEllipsis).length by rw [h]; simp),
    if_neg (show ¬ 1 < (key.filter Item.isEllipsis).length by rw [h]; simp)]
  by_cases hf : 1 < (key.filter Item.isFancy).length
  · rw [if_pos hf, if_pos hf]; rfl
  · rw [if_neg hf, if_neg hf, List.length_append, List.length_singleton, if_neg (by omega), if_neg (by omega),
      (expand_noEll _ key h).1, (expand_noEll _ key h).1,
      show lead.length + 1 - consumed key = (lead.length - consumed key) + 1 by omega,
      List.replicate_succ', ← List.append_assoc]
    apply selectors_snoc
    · rw [consumed_append, consumed_replicate]; omega
    · rw [List.filter_append, h, List.nil_append]
      simp [Item.all, Item.isEllipsis]

/-- **C58 (partial).** A key that addresses leading axes only (no ellipsis, not more entries than leading
axes) is accepted whenever it is valid there, and the assignment then changes, for every basis position
`j`, exactly what the same assignment on the leading axes at `j` changes. Missing for the full property:
keys that reach the basis axis are not always refused (`C58_setitem_crosses_basis`). -/
theorem C58_setitem_leading_partial {α : Type*} (a v : Arr α) (lead : List ℕ) (n : ℕ)
    (ha : a.shape = lead ++ [n]) (key : List Item) (he : Item.ellipsis ∉ key)
    (hc : consumed key ≤ lead.length) :
    (∀ e, setitem n a key v = .error e → e = .runtime ∧ ∃ e', index (leading a 0) key = .error e') ∧
    (∀ a', setitem n a key v = .ok a' → a'.shape = a.shape ∧ ∀ j < n, ∃ b,
      assign (leading a j) key ⟨v.shape.dropLast, fun i => v.get (i ++ [j])⟩ = .ok b ∧
      ∀ i, InShape lead i → a'.get (i ++ [j]) = b.get i) := by
  have hm : key.filter Item.isEllipsis = [] := by
    rw [List.filter_eq_nil_iff]
    rintro x hx hb
    cases x <;> simp [Item.isEllipsis] at hb
    exact he hx
  have hl : ∀ j, leading a j = ⟨lead, fun i => a.get (i ++ [j])⟩ := by
    intro j; simp [leading, ha]
  have hk := keySel_lead lead n key hm hc
  unfold setitem index assign
  rw [ha, hk]
  cases hs : keySel lead key with
  | error e0 =>
    refine ⟨fun e h => ?_, fun a' h => by cases h⟩
    cases h
    rw [hl 0]
    simp only [hs]
    exact ⟨trivial, e0, rfl⟩
  | ok s =>
    simp only [Except.map, outShape_snoc, List.getLast?_concat, if_true]
    refine ⟨fun e h => (by cases h), fun a' h => ?_⟩
    cases h
    refine ⟨rfl, fun j hj => ?_⟩
    rw [hl j]
    simp only [hs]
    refine ⟨_, rfl, fun i _ => ?_⟩
    simp only []
    rw [allIdx_snoc, find_snoc (allIdx (outShape s)) n j hj (source s)
      (source (s ++ [Sel.axis (List.range n)])) (fun i hi k hk => source_snoc s n k hk i (allIdx_length _ i hi)) i]
    cases (allIdx (outShape s)).reverse.find? fun k => source s k == i <;> rfl

example : Item.ellipsis ∉ [Item.int 1] ∧ consumed [Item.int 1] ≤ [2].length := by decide

/-! ## C24: reductions -/

theorem foldl_assoc {α : Type*} (op : α → α → α) (h : ∀ x y z, op (op x y) z = op x (op y z))
    (x y : α) (l : List α) : l.foldl op (op x y) = op x (l.foldl op y) := by
  induction l generalizing y with
  | nil => rfl
  | cons a t ih => simp only [List.foldl_cons]; rw [h, ih]

theorem fold1_append {α : Type*} (op : α → α → α) (h : ∀ x y z, op (op x y) z = op x (op y z))
    (l1 l2 : List α) (v1 v2 : α) (h1 : fold1 op l1 = .ok v1) (h2 : fold1 op l2 = .ok v2) :
    fold1 op (l1 ++ l2) = .ok (op v1 v2) := by
  cases l1 with
  | nil => cases h1
  | cons x t =>
    cases l2 with
    | nil => cases h2
    | cons y u =>
      injection h1 with h1; injection h2 with h2
      simp only [fold1, List.cons_append, List.foldl_append, List.foldl_cons]
      rw [foldl_assoc op h, h1, h2]

theorem fold1_flatten {α : Type*} (op : α → α → α) (h : ∀ x y z, op (op x y) z = op x (op y z))
    (L : List (List α)) (f : List α → α) (hf : ∀ l ∈ L, fold1 op l = .ok (f l)) (hne : L ≠ []) :
    fold1 op L.flatten = fold1 op (L.map f) := by
  induction L with
  | nil => exact absurd rfl hne
  | cons l t ih =>
    cases t with
    | nil =>
      simp only [List.flatten_cons, List.flatten_nil, List.append_nil, List.map_cons, List.map_nil]
      rw [hf l (by simp)]; rfl
    | cons l' t' =>
      have ih := ih (fun l hl => hf l (by simp [hl])) (by simp)
      obtain ⟨v, hv⟩ : ∃ v, fold1 op ((l' :: t').map f) = .ok v := ⟨_, rfl⟩
      rw [List.flatten_cons, fold1_append op h _ _ _ v (hf l (by simp)) (ih.trans hv), List.map_cons]
      rw [List.map_cons] at hv
      injection hv with hv
      rw [← hv, List.map_cons]
      simp only [fold1, List.foldl_cons]
      rw [foldl_assoc op h]

/-- Specification: `loc 0, …, loc (P-1)` are consecutive non-empty blocks, of sizes `sz p` starting at
`st p`, of the basis (last) axis of the serial array `A`. -/
structure Blocks {α : Type*} (A : Arr α) (lead : List ℕ) (n P : ℕ) (st sz : ℕ → ℕ) (loc : ℕ → Arr α) :
    Prop where
  serial : A.shape = lead ++ [n]
  pos : 0 < P
  start : st 0 = 0
  next : ∀ p < P, st (p + 1) = st p + sz p
  stop : st P = n
  nonempty : ∀ p < P, 0 < sz p
  shape : ∀ p < P, (loc p).shape = lead ++ [sz p]
  get : ∀ p < P, ∀ i, i.length = lead.length → ∀ j < sz p, (loc p).get (i ++ [j]) = A.get (i ++ [st p + j])

theorem insertIdx_append_left (l t : List ℕ) (k x : ℕ) (h : k ≤ l.length) :
    (l ++ t).insertIdx k x = l.insertIdx k x ++ t := by
  induction l generalizing k with
  | nil =>
    have : k = 0 := by simpa using h
    subst this
    simp
  | cons a l ih =>
    cases k with
    | zero => simp
    | succ k => simp [ih k (by simpa using h)]

theorem insertIdx_snoc (i : List ℕ) (j : ℕ) : i.insertIdx i.length j = i ++ [j] := by
  rw [List.insertIdx_length_self]

theorem range_blocks (st sz : ℕ → ℕ) (h0 : st 0 = 0) (P : ℕ) (h : ∀ p < P, st (p + 1) = st p + sz p) :
    List.range (st P) = ((List.range P).map fun p => (List.range (sz p)).map (st p + ·)).flatten := by
  induction P with
  | zero => simp [h0]
  | succ P ih =>
    rw [h P (by omega), List.range_add, List.range_succ, List.map_append, List.flatten_append,
      ← ih (fun p hp => h p (by omega))]
    simp

theorem fold1_ok {α : Type*} [Inhabited α] (op : α → α → α) (l : List α) (h : l ≠ []) :
    fold1 op l = .ok (val (fold1 op l)) := by
  cases l with
  | nil => exact absurd rfl h
  | cons x t => rfl

theorem fold_blocks {α : Type*} [Inhabited α] (op : α → α → α)
    (hop : ∀ x y z, op (op x y) z = op x (op y z)) {A : Arr α} {lead : List ℕ} {n P : ℕ} {st sz : ℕ → ℕ}
    {loc : ℕ → Arr α} (hB : Blocks A lead n P st sz loc) (i : List ℕ) (hi : i.length = lead.length) :
    fold1 op ((List.range P).map fun q => (reduceAx op (loc q) lead.length).get i)
      = fold1 op ((List.range n).map fun j => A.get (i ++ [j])) := by
  have hmap : (List.range n).map (fun j => A.get (i ++ [j]))
      = ((List.range P).map fun p => (List.range (sz p)).map fun j => A.get (i ++ [st p + j])).flatten := by
    rw [← hB.stop, range_blocks st sz hB.start P hB.next, List.map_flatten, List.map_map]
    congr 1
    apply List.map_congr_left
    intro p _
    simp [Function.comp_def]
  rw [hmap]
  let f : List α → α := fun l => val (fold1 op l)
  rw [fold1_flatten op hop _ f]
  · rw [List.map_map]
    congr 1
    apply List.map_congr_left
    intro q hq
    have hq := List.mem_range.1 hq
    have h2 : (List.range ((loc q).shape.getD lead.length 0)).map (fun j => (loc q).get (i.insertIdx lead.length j))
        = (List.range (sz q)).map fun j => A.get (i ++ [st q + j]) := by
      rw [hB.shape q hq]
      have : (lead ++ [sz q]).getD lead.length 0 = sz q := by simp [List.getD_eq_getElem?_getD]
      rw [this]
      apply List.map_congr_left
      intro j hj
      rw [← hi, insertIdx_snoc, hB.get q hq i hi j (List.mem_range.1 hj)]
    simp only [reduceAx, h2]
    rfl
  · intro l hl
    apply fold1_ok
    simp only [List.mem_map, List.mem_range] at hl
    obtain ⟨p, hp, rfl⟩ := hl
    have := hB.nonempty p hp
    simp
    omega
  · have := hB.pos
    simp
    omega

/-- **C24 (partial), basis axis.** For every associative operation, every shape and every distribution of
the basis over processes: if the last leading dimension differs from every local basis size, reducing over
the basis axis gives on every process the value the serial array gives. (Missing: see
`C24_reduce_fails`.) -/
theorem C24_reduce_basis_partial {α : Type*} [Inhabited α] (op : α → α → α)
    (hop : ∀ x y z, op (op x y) z = op x (op y z)) (A : Arr α) (lead : List ℕ) (n P : ℕ) (st sz : ℕ → ℕ)
    (loc : ℕ → Arr α) (hB : Blocks A lead n P st sz loc)
    (hne : ∀ p < P, lead.getLast? ≠ some (sz p)) :
    ∃ out, distReduce op P sz loc lead.length = some out ∧ ∀ p < P, (out p).shape = lead ∧
      (reduceAx op A lead.length).shape = lead ∧
      ∀ i, InShape lead i → (out p).get i = (reduceAx op A lead.length).get i := by
  have hsh : ∀ p < P, (reduceAx op (loc p) lead.length).shape = lead := by
    intro p hp
    simp [reduceAx, hB.shape p hp, List.eraseIdx_append_of_length_le]
  have hA : (reduceAx op A lead.length).shape = lead := by
    simp [reduceAx, hB.serial, List.eraseIdx_append_of_length_le]
  have hbuf : ∀ p < P, isBuffer (sz p) (reduceAx op (loc p) lead.length).shape = false := by
    intro p hp
    rw [hsh p hp, isBuffer]
    simpa using hne p hp
  unfold distReduce
  rw [if_neg, if_neg]
  · refine ⟨_, rfl, fun p hp => ⟨hsh p hp, hA, fun i hi => ?_⟩⟩
    show val (fold1 op _) = _
    rw [fold_blocks op hop hB i hi.length_eq]
    have : (A.shape.getD lead.length 0) = n := by rw [hB.serial]; simp [List.getD_eq_getElem?_getD]
    simp only [reduceAx, this]
    rw [← hi.length_eq]
    simp only [insertIdx_snoc]
  · simp only [List.any_eq_true, List.mem_range, not_exists, not_and, Bool.not_eq_true]
    exact hbuf
  · simp only [List.all_eq_true, List.mem_range, not_forall, Bool.not_eq_true]
    exact ⟨0, hB.pos, hbuf 0 hB.pos⟩

/-- **C24, leading axes.** Reducing over a leading axis never communicates and gives on every process its
block of the serial result, for every operation. -/
theorem C24_reduce_leading {α : Type*} [Inhabited α] (op : α → α → α) (A : Arr α) (lead : List ℕ) (n P : ℕ)
    (st sz : ℕ → ℕ) (loc : ℕ → Arr α) (hB : Blocks A lead n P st sz loc) (ax : ℕ) (hax : ax < lead.length) :
    ∃ out, distReduce op P sz loc ax = some out ∧
      (reduceAx op A ax).shape = lead.eraseIdx ax ++ [n] ∧
      ∀ p < P, (out p).shape = lead.eraseIdx ax ++ [sz p] ∧
        ∀ i, InShape (lead.eraseIdx ax) i → ∀ j < sz p,
          (out p).get (i ++ [j]) = (reduceAx op A ax).get (i ++ [st p + j]) := by
  have hsh : ∀ p < P, (reduceAx op (loc p) ax).shape = lead.eraseIdx ax ++ [sz p] := by
    intro p hp
    simp [reduceAx, hB.shape p hp, List.eraseIdx_append_of_lt_length hax]
  have hbuf : (List.range P).all fun p => isBuffer (sz p) (reduceAx op (loc p) ax).shape := by
    rw [List.all_eq_true]
    intro p hp
    rw [hsh p (List.mem_range.1 hp)]
    simp [isBuffer]
  unfold distReduce
  simp only [hbuf, if_true]
  refine ⟨_, rfl, by simp [reduceAx, hB.serial, List.eraseIdx_append_of_lt_length hax], fun p hp => ?_⟩
  refine ⟨hsh p hp, fun i hi j hj => ?_⟩
  have hil : i.length + 1 = lead.length := by
    rw [hi.length_eq, List.length_eraseIdx_of_lt hax]; omega
  have e1 : (loc p).shape.getD ax 0 = lead.getD ax 0 := by
    rw [hB.shape p hp]; simp [List.getD_eq_getElem?_getD, List.getElem?_append_left hax]
  have e2 : A.shape.getD ax 0 = lead.getD ax 0 := by
    rw [hB.serial]; simp [List.getD_eq_getElem?_getD, List.getElem?_append_left hax]
  simp only [reduceAx, e1, e2]
  have : (List.range (lead.getD ax 0)).map (fun k => (loc p).get ((i ++ [j]).insertIdx ax k))
      = (List.range (lead.getD ax 0)).map fun k => A.get ((i ++ [st p + j]).insertIdx ax k) := by
    apply List.map_congr_left
    intro k _
    rw [insertIdx_append_left _ _ _ _ (by omega), insertIdx_append_left _ _ _ _ (by omega)]
    apply hB.get p hp _ _ j hj
    rw [List.length_insertIdx_of_le_length (by omega)]
    omega
  rw [this]

/-- **C24 (violation).** If the last leading dimension equals the local basis size on every process, a
reduction over the basis axis is mistaken for a container and never combined: every process keeps its
partial value. If it equals it on some processes but not on others, the collective never completes. -/
theorem C24_reduce_fails {α : Type*} [Inhabited α] (op : α → α → α) (A : Arr α) (lead : List ℕ) (n P : ℕ)
    (st sz : ℕ → ℕ) (loc : ℕ → Arr α) (hB : Blocks A lead n P st sz loc) :
    ((∀ p < P, lead.getLast? = some (sz p)) →
      ∃ out, distReduce op P sz loc lead.length = some out ∧
        ∀ p < P, (out p).get = (reduceAx op (loc p) lead.length).get) ∧
    ((∃ p < P, lead.getLast? = some (sz p)) → (∃ p < P, lead.getLast? ≠ some (sz p)) →
      distReduce op P sz loc lead.length = none) := by
  have hsh : ∀ p < P, (reduceAx op (loc p) lead.length).shape = lead := by
    intro p hp
    simp [reduceAx, hB.shape p hp, List.eraseIdx_append_of_length_le]
  constructor
  · intro h
    unfold distReduce
    rw [if_pos]
    · exact ⟨_, rfl, fun p _ => rfl⟩
    · rw [List.all_eq_true]
      intro p hp
      have hp := List.mem_range.1 hp
      simp only [isBuffer, hsh p hp]
      simpa using h p hp
  · rintro ⟨p, hp, h1⟩ ⟨q, hq, h2⟩
    unfold distReduce
    rw [if_neg, if_pos]
    · rw [List.any_eq_true]
      exact ⟨p, List.mem_range.2 hp, by simp only [isBuffer, hsh p hp]; simpa using h1⟩
    · rw [List.all_eq_true]
      intro h
      have := h q (List.mem_range.2 hq)
      simp only [isBuffer, hsh q hq] at this
      exact h2 (by simpa using this)

/-- The violation is reachable: two spin components, four G-vectors over two processes. Process 0 gets
0 + 1 for the first spin instead of 0 + 1 + 2 + 3. -/
theorem C24_reduce_fails_witness :
    ∃ (A : Arr ℕ) (loc : ℕ → Arr ℕ), Blocks A [2] 4 2 (fun p => 2 * p) (fun _ => 2) loc ∧
      (reduceAx (· + ·) A 1).get [0] = 6 ∧
      ∃ out, distReduce (· + ·) 2 (fun _ => 2) loc 1 = some out ∧ (out 0).get [0] = 1 := by
  refine ⟨⟨[2, 4], fun i => i.getD 1 0⟩, fun p => ⟨[2, 2], fun i => 2 * p + i.getD 1 0⟩, ?_, rfl, _, rfl, rfl⟩
  refine ⟨rfl, by omega, rfl, fun p _ => by omega, rfl, fun _ _ => by omega, fun _ _ => rfl, ?_⟩
  intro p hp i hi j hj
  match i, hi with
  | [a], _ => rfl

/-- The hypotheses of the partial theorem are met, e.g. three spin components on the same basis. -/
example : ∃ (A : Arr ℕ) (loc : ℕ → Arr ℕ), Blocks A [3] 4 2 (fun p => 2 * p) (fun _ => 2) loc ∧
    ∀ p < 2, [3].getLast? ≠ some ((fun _ : ℕ => 2) p) := by
  refine ⟨⟨[3, 4], fun i => i.getD 1 0⟩, fun p => ⟨[3, 2], fun i => 2 * p + i.getD 1 0⟩, ?_, by simp⟩
  refine ⟨rfl, by omega, rfl, fun p _ => by omega, rfl, fun _ _ => by omega, fun _ _ => rfl, ?_⟩
  intro p hp i hi j hj
  match i, hi with
  | [a], _ => rfl

/-- **C24, wavefunctions.** For every number of spin components, every distribution of the G-vectors and all
wavefunctions, the distributed inner product (and squared norm) is the serial one. A wavefunction stores
`numspin` consecutive copies of the basis, so the local array of rank `p` holds, at `s * sz p + j`, the
serial entry `s * n + (st p + j)`. -/
theorem C24_vdot {K : Type*} [Semiring K] [Star K] (ns n P : ℕ) (st sz : ℕ → ℕ) (h0 : st 0 = 0)
    (hn : ∀ p < P, st (p + 1) = st p + sz p) (hP : st P = n) (bra ket : ℕ → K) (lbra lket : ℕ → ℕ → K)
    (hb : ∀ p < P, ∀ s < ns, ∀ j < sz p, lbra p (s * sz p + j) = bra (s * n + (st p + j)))
    (hk : ∀ p < P, ∀ s < ns, ∀ j < sz p, lket p (s * sz p + j) = ket (s * n + (st p + j))) :
    distVdot P (fun p => ns * sz p) lbra lket = ∑ i ∈ Finset.range (ns * n), star (bra i) * ket i := by
  unfold distVdot vdot
  rw [DFTComm.list_sum_range, DFTComm.sum_range_mul]
  have h1 : ∀ p ∈ Finset.range P, ((List.range (ns * sz p)).map fun i => star (lbra p i) * lket p i).sum
      = ∑ s ∈ Finset.range ns, ∑ j ∈ Finset.range (sz p), star (bra (s * n + (st p + j))) * ket (s * n + (st p + j)) := by
    intro p hp
    have hp := Finset.mem_range.1 hp
    rw [DFTComm.list_sum_range, DFTComm.sum_range_mul]
    refine Finset.sum_congr rfl fun s hs => Finset.sum_congr rfl fun j hj => ?_
    rw [hb p hp s (Finset.mem_range.1 hs) j (Finset.mem_range.1 hj),
      hk p hp s (Finset.mem_range.1 hs) j (Finset.mem_range.1 hj)]
  rw [Finset.sum_congr rfl h1, Finset.sum_comm]
  refine Finset.sum_congr rfl fun s _ => ?_
  subst hP
  clear h1 hb hk
  obtain ⟨G, hG⟩ : ∃ G : ℕ → K, ∀ i, G i = star (bra (s * st P + i)) * ket (s * st P + i) := ⟨_, fun _ => rfl⟩
  simp only [← hG]
  clear hG
  induction P with
  | zero => simp [h0]
  | succ P ih =>
    rw [Finset.sum_range_succ, ih (fun p hp => hn p (by omega)), hn P (by omega), Finset.sum_range_add]

example : ∃ st : ℕ → ℕ, st 0 = 0 ∧ (∀ p < 2, st (p + 1) = st p + 3) ∧ st 2 = 6 :=
  ⟨fun p => 3 * p, rfl, fun p _ => by show 3 * (p + 1) = 3 * p + 3; omega, rfl⟩

end Verif.Containers
