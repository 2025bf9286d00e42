import Verif.Model.H5

/-!
# C143: nested dictionaries survive HDF5 files; C144: copying a header group
-/

namespace Verif.H5

variable {α : Type*}

/-- The keys at every level are distinct, as in a Python dictionary. -/
def T.Distinct : T α → Prop
  | .nil => True
  | .leaf k _ r => r.find k = none ∧ r.Distinct
  | .grp k s r => r.find k = none ∧ s.Distinct ∧ r.Distinct

/-- No groups at all. -/
def T.Flat : T α → Prop
  | .nil => True
  | .leaf _ _ r => r.Flat
  | .grp _ _ _ => False

/-- Every group of the first level holds arrays only. -/
def T.TwoLevels : T α → Prop
  | .nil => True
  | .leaf _ _ r => r.TwoLevels
  | .grp _ s r => s.Flat ∧ r.TwoLevels

theorem find_insA (key : String) (v : α ⊕ T α) (h : T α) (hn : h.find key = none) (k : String) :
    (h.insA key v).find k = if key = k then some v else h.find k := by
  induction h with
  | nil => cases v <;> simp [T.insA, T.find]
  | leaf k' a r ih =>
    have hk : k' ≠ key := by intro h; simp [T.find, h] at hn
    have hr : r.find key = none := by simpa [T.find, hk] using hn
    unfold T.insA
    split
    · cases v <;> simp only [T.find]
    · simp only [T.find, ih hr]
      by_cases h1 : k' = k
      · have : key ≠ k := by rintro rfl; exact hk h1
        simp [h1, this]
      · simp [h1]
  | grp k' s r _ ih =>
    have hk : k' ≠ key := by intro h; simp [T.find, h] at hn
    have hr : r.find key = none := by simpa [T.find, hk] using hn
    unfold T.insA
    split
    · cases v <;> simp only [T.find]
    · simp only [T.find, ih hr]
      by_cases h1 : k' = k
      · have : key ≠ k := by rintro rfl; exact hk h1
        simp [h1, this]
      · simp [h1]

/-- Same content: the same things are found at the same paths. -/
def Same (t u : T α) : Prop := ∀ path, t.at path = u.at path

theorem retrieve_find (t : T α) (k : String) : (retrieve t).find k = (t.find k).map fun v => match v with | .inl a => .inl a | .inr s => .inr (retrieve s) := by
  induction t with
  | nil => rfl
  | leaf k' a r ih => simp only [retrieve, T.find]; split <;> simp [ih]
  | grp k' s r _ ih => simp only [retrieve, T.find]; split <;> simp [ih]

theorem retrieve_same (t : T α) : Same (retrieve t) t := by
  intro path
  induction path generalizing t with
  | nil => rfl
  | cons k ks ih =>
    simp only [T.at, retrieve_find]
    cases t.find k with
    | none => rfl
    | some v => cases v with
      | inl a => rfl
      | inr s => exact ih s

/-- Values that look the same from outside. -/
def SameV : Option (α ⊕ T α) → Option (α ⊕ T α) → Prop
  | none, none => True
  | some (.inl a), some (.inl b) => a = b
  | some (.inr s), some (.inr t) => Same s t
  | _, _ => False

theorem same_of_find (t u : T α) (h : ∀ k, SameV (t.find k) (u.find k)) : Same t u := by
  intro path
  cases path with
  | nil => rfl
  | cons k ks =>
    have := h k
    simp only [T.at]
    revert this
    cases t.find k with
    | none => cases u.find k with
      | none => intro _; rfl
      | some v => exact False.elim
    | some v => cases u.find k with
      | none => cases v <;> exact False.elim
      | some w =>
        cases v <;> cases w
        · intro h; simp only [SameV] at h; rw [h]
        · exact False.elim
        · exact False.elim
        · intro h; exact h ks

theorem write_spec (kind : Kind) (d : T α) : ∀ (st : Kind) (h : T α), d.Distinct → (∀ k, (d.find k).isSome → h.find k = none) →
    (kind = .dict ∧ st = .dict ∨ st = kind ∧ d.TwoLevels ∨ d.Flat) →
    ∃ h', writeRec kind st d h = .ok h' ∧ ∀ k, SameV (h'.find k) (match d.find k with | none => h.find k | some v => some v) := by
  induction d with
  | nil =>
    intro st h _ _ _
    refine ⟨h, rfl, fun k => ?_⟩
    simp only [T.find]
    cases h.find k with
    | none => trivial
    | some v => cases v with
      | inl a => exact rfl
      | inr s => exact fun _ => rfl
  | leaf k a r ih =>
    intro st h hd hh hk
    have h1 : h.find k = none := hh k (by simp [T.find])
    obtain ⟨h', e1, e2⟩ := ih st (h.insA k (.inl a)) hd.2 (by
      intro k' hk'
      rw [find_insA _ _ _ h1]
      have hne : k ≠ k' := by rintro rfl; rw [hd.1] at hk'; simp at hk'
      rw [if_neg hne]
      exact hh k' (by simp [T.find, hne, hk'])) (by
      rcases hk with hk | hk | hk
      · exact .inl hk
      · exact .inr (.inl ⟨hk.1, hk.2⟩)
      · exact .inr (.inr hk))
    refine ⟨h', by simp [writeRec, h1, e1], fun k' => ?_⟩
    have := e2 k'
    rw [find_insA _ _ _ h1] at this
    by_cases hkk : k = k'
    · subst hkk
      simpa [T.find, hd.1] using this
    · simpa [T.find, hkk] using this
  | grp k s r ihs ih =>
    intro st h hd hh hk
    have h1 : h.find k = none := hh k (by simp [T.find])
    have hst : st = kind := by
      rcases hk with hk | hk | hk
      · rw [hk.1, hk.2]
      · exact hk.1
      · exact hk.elim
    obtain ⟨s', f1, f2⟩ := ihs .dict .nil hd.2.1 (by intro _ _; rfl) (by
      rcases hk with hk | hk | hk
      · exact .inl ⟨hk.1, rfl⟩
      · exact .inr (.inr hk.2.1)
      · exact hk.elim)
    have hsame : Same s' s := same_of_find _ _ (fun k => by
      have := f2 k
      revert this
      cases s.find k with
      | none => exact id
      | some v => exact id)
    obtain ⟨h', e1, e2⟩ := ih st (h.insA k (.inr s')) hd.2.2 (by
      intro k' hk'
      rw [find_insA _ _ _ h1]
      have hne : k ≠ k' := by rintro rfl; rw [hd.1] at hk'; simp at hk'
      rw [if_neg hne]
      exact hh k' (by simp [T.find, hne, hk'])) (by
      rcases hk with hk | hk | hk
      · exact .inl hk
      · exact .inr (.inl ⟨hk.1, hk.2.2⟩)
      · exact hk.elim)
    refine ⟨h', ?_, fun k' => ?_⟩
    · simp only [writeRec, hst, if_true, h1, Option.isSome_none, Bool.false_eq_true, if_false, f1]
      rw [hst] at e1; exact e1
    · have := e2 k'
      rw [find_insA _ _ _ h1] at this
      by_cases hkk : k = k'
      · subst hkk
        simp only [T.find, if_true]
        simp only [hd.1, if_true] at this
        revert this
        cases h'.find k with
        | none => exact id
        | some v => cases v with
          | inl a => exact id
          | inr t => exact fun h p => (h p).trans (hsame p)
      · simpa [T.find, hkk] using this

/-- C143: a nested dictionary of any depth written with `dict_to_h5` and read back with `read_input_h5` has the same groups and arrays at the same paths. -/
theorem C143_round_trip (d : T α) (hd : d.Distinct) : ∃ f, dictToH5 d = .ok f ∧ Same (retrieve f) d := by
  obtain ⟨h', e1, e2⟩ := write_spec .dict d .dict .nil hd (by intro _ _; rfl) (.inl ⟨rfl, rfl⟩)
  refine ⟨h', e1, fun p => (retrieve_same h' p).trans (same_of_find _ _ (fun k => ?_) p)⟩
  have := e2 k
  revert this
  cases d.find k with
  | none => exact id
  | some v => exact id

/-- The first name of a group is after `k`. -/
def T.After (k : String) : T α → Prop
  | .nil => True
  | .leaf k' _ _ => k < k'
  | .grp k' _ _ => k < k'

/-- The names at every level are in strictly ascending order. -/
def T.Ordered : T α → Prop
  | .nil => True
  | .leaf k _ r => r.After k ∧ r.Ordered
  | .grp k s r => r.After k ∧ s.Ordered ∧ r.Ordered

/-- Everything below a value is in order. -/
def ValOrdered (v : α ⊕ T α) : Prop := match v with | .inl _ => True | .inr s => s.Ordered

theorem after_insA (k key : String) (v : α ⊕ T α) (h : T α) (hk : k < key) (ha : h.After k) : (h.insA key v).After k := by
  cases h with
  | nil => cases v <;> exact hk
  | leaf k' a r => unfold T.insA; split <;> [(cases v <;> exact hk); exact ha]
  | grp k' s r => unfold T.insA; split <;> [(cases v <;> exact hk); exact ha]

theorem ordered_insA (key : String) (v : α ⊕ T α) (hv : ValOrdered v) (h : T α) (ho : h.Ordered) (hn : h.find key = none) : (h.insA key v).Ordered := by
  induction h with
  | nil => cases v <;> simp [T.insA, T.Ordered, T.After]; exact hv
  | leaf k' a r ih =>
    have hk : k' ≠ key := by intro h; simp [T.find, h] at hn
    have hr : r.find key = none := by simpa [T.find, hk] using hn
    unfold T.insA
    split
    · next hlt => cases v <;> [exact ⟨hlt, ho⟩; exact ⟨hlt, hv, ho⟩]
    · next hlt => exact ⟨after_insA _ _ _ _ (lt_of_le_of_ne (not_lt.1 hlt) hk) ho.1, ih ho.2 hr⟩
  | grp k' s r _ ih =>
    have hk : k' ≠ key := by intro h; simp [T.find, h] at hn
    have hr : r.find key = none := by simpa [T.find, hk] using hn
    unfold T.insA
    split
    · next hlt => cases v <;> [exact ⟨hlt, ho⟩; exact ⟨hlt, hv, ho⟩]
    · next hlt => exact ⟨after_insA _ _ _ _ (lt_of_le_of_ne (not_lt.1 hlt) hk) ho.1, ho.2.1, ih ho.2.2 hr⟩

theorem write_ordered (kind : Kind) (d : T α) : ∀ (st : Kind) (h f : T α), h.Ordered → writeRec kind st d h = .ok f → f.Ordered := by
  induction d with
  | nil => intro st h f ho hf; cases hf; exact ho
  | leaf k a r ih =>
    intro st h f ho hf
    unfold writeRec at hf
    split at hf
    · cases hf
    · next hk => exact ih _ _ _ (ordered_insA k (.inl a) True.intro h ho (by simpa using hk)) hf
  | grp k s r ihs ih =>
    intro st h f ho hf
    unfold writeRec at hf
    split at hf
    · split at hf
      · cases hf
      · next hk =>
        cases hs : writeRec kind .dict s .nil with
        | error e => rw [hs] at hf; cases hf
        | ok s' =>
          rw [hs] at hf
          exact ih _ _ _ (ordered_insA k (.inr s') (ihs _ .nil _ True.intro hs) h ho (by simpa using hk)) hf
    · cases hf

/-- C143: in the file, the names of every group are in ascending order whatever the order of the dictionary. -/
theorem C143_order (d f : T α) (h : dictToH5 d = .ok f) : f.Ordered := write_ordered .dict d .dict .nil f trivial h

/-- C143: nothing that is in a file is overwritten: writing a dictionary with a name that the file has already is a `ValueError`. -/
theorem C143_no_overwrite (d h : T α) (hd : d.Distinct) (k : String) (h1 : (d.find k).isSome) (h2 : (h.find k).isSome) : writeRec .dict .dict d h = .error .value := by
  induction d generalizing h with
  | nil => simp [T.find] at h1
  | leaf k' a r ih =>
    simp only [writeRec]
    split
    · rfl
    · next hk =>
      have hne : k' ≠ k := by rintro rfl; exact hk h2
      apply ih _ hd.2 (by simpa [T.find, hne] using h1)
      rw [find_insA _ _ _ (by simpa using hk), if_neg hne]
      exact h2
  | grp k' s r _ ih =>
    simp only [writeRec, if_true]
    split
    · rfl
    · next hk =>
      have hne : k' ≠ k := by rintro rfl; exact hk h2
      obtain ⟨s', e1, _⟩ := write_spec .dict s .dict .nil hd.2.1 (by intro _ _; rfl) (.inl ⟨rfl, rfl⟩)
      rw [e1]
      apply ih _ hd.2.2 (by simpa [T.find, hne] using h1)
      rw [find_insA _ _ _ (by simpa using hk), if_neg hne]
      exact h2

example : writeRec .dict .dict (.leaf "b" (1 : ℕ) (.leaf "a" 2 .nil)) (.leaf "a" 0 .nil) = .error .value :=
  C143_no_overwrite _ _ ⟨by simp [T.find], by simp [T.find], trivial⟩ "a" (by simp [T.find]) (by simp [T.find])

/-- C144, proved part: a header whose groups hold only arrays (as the `mf_header` of BerkeleyGW) is copied. -/
theorem C144_copy_partial (aux : T α) (hd : aux.Distinct) (h2 : aux.TwoLevels) : ∃ f, copyHeader aux = .ok f ∧ Same f aux := by
  obtain ⟨h', e1, e2⟩ := write_spec .group aux .group .nil hd (by intro _ _; rfl) (.inr (.inl ⟨rfl, h2⟩))
  refine ⟨h', e1, same_of_find _ _ (fun k => ?_)⟩
  have := e2 k
  revert this
  cases aux.find k with
  | none => exact id
  | some v => exact id

theorem write_notFlat (d h : T α) (hd : d.Distinct) (hh : ∀ k, (d.find k).isSome → h.find k = none) (hf : ¬ d.Flat) : writeRec .group .dict d h = .error .type := by
  induction d generalizing h with
  | nil => exact absurd trivial hf
  | leaf k a r ih =>
    have h1 : h.find k = none := hh k (by simp [T.find])
    simp only [writeRec, h1, Option.isSome_none, Bool.false_eq_true, if_false]
    apply ih _ hd.2 _ hf
    intro k' hk'
    rw [find_insA _ _ _ h1]
    have hne : k ≠ k' := by rintro rfl; rw [hd.1] at hk'; simp at hk'
    rw [if_neg hne]
    exact hh k' (by simp [T.find, hne, hk'])
  | grp k s r _ _ => simp [writeRec]

/-- C144, violated: a header with a group inside a group is refused with a `TypeError`. -/
theorem C144_deep_fails (aux : T α) (hd : aux.Distinct) (h2 : ¬ aux.TwoLevels) : copyHeader aux = .error .type := by
  unfold copyHeader
  have key : ∀ (d h : T α), d.Distinct → (∀ k, (d.find k).isSome → h.find k = none) → ¬ d.TwoLevels → writeRec .group .group d h = .error .type := by
    intro d
    induction d with
    | nil => intro h _ _ h2; exact absurd trivial h2
    | leaf k a r ih =>
      intro h hd hh h2
      have h1 : h.find k = none := hh k (by simp [T.find])
      simp only [writeRec, h1, Option.isSome_none, Bool.false_eq_true, if_false]
      apply ih _ hd.2 _ h2
      intro k' hk'
      rw [find_insA _ _ _ h1]
      have hne : k ≠ k' := by rintro rfl; rw [hd.1] at hk'; simp at hk'
      rw [if_neg hne]
      exact hh k' (by simp [T.find, hne, hk'])
    | grp k s r _ ih =>
      intro h hd hh h2
      have h1 : h.find k = none := hh k (by simp [T.find])
      simp only [writeRec, if_true, h1, Option.isSome_none, Bool.false_eq_true, if_false]
      by_cases hs : s.Flat
      · obtain ⟨s', f1, -⟩ := write_spec .group s .dict .nil hd.2.1 (by intro _ _; rfl) (.inr (.inr hs))
        rw [f1]
        apply ih _ hd.2.2 _ (fun h => h2 ⟨hs, h⟩)
        intro k' hk'
        rw [find_insA _ _ _ h1]
        have hne : k ≠ k' := by rintro rfl; rw [hd.1] at hk'; simp at hk'
        rw [if_neg hne]
        exact hh k' (by simp [T.find, hne, hk'])
      · rw [write_notFlat s .nil hd.2.1 (by intro _ _; rfl) hs]
  exact key aux .nil hd (by intro _ _; rfl) h2

/-- A dictionary with three levels and keys out of order, one with two levels. -/
example : (T.leaf "flavor" 2 (T.grp "kpoints" (T.leaf "w" 1 (T.grp "deep" (.leaf "el" 5 .nil) .nil)) .nil) : T ℕ).Distinct ∧
    ¬ (T.leaf "flavor" 2 (T.grp "kpoints" (T.leaf "w" 1 (T.grp "deep" (.leaf "el" 5 .nil) .nil)) .nil) : T ℕ).TwoLevels ∧
    (T.leaf "flavor" 2 (T.grp "crystal" (T.leaf "nat" 2 .nil) .nil) : T ℕ).TwoLevels := by
  simp [T.Distinct, T.TwoLevels, T.Flat, T.find]

end Verif.H5
