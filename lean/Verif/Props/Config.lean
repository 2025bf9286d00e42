import Mathlib.Data.List.Induction
import Verif.Model.Config

/-!
# Configuration options (C48, C73)
-/

namespace Verif.Config

/-- The documented values of each option, given the installed packages. -/
def Valid (i : Installed) : Opt → PyVal → Prop
  | .eigsolve_method, v => v = .str "davidson" ∨ v = .str "scipy" ∨ (v = .str "primme" ∧ i.primme = true)
  | .davidson_maxiter, v | .davidson_numwork, v | .fft_threads, v => (∃ n : ℤ, 0 < n ∧ v = .int n) ∨ v = .bool true
  | .mixing_method, v => v = .str "modbroyden" ∨ v = .str "genbroyden"
  | .logging_enabled, v => ∃ b, v = .bool b
  | .fft_backend, v => v = .str "scipy" ∨ v = .str "numpy" ∨ (v = .str "pyfftw" ∧ i.pyfftw = true)
      ∨ (v = .str "mkl_fft" ∧ i.mkl = true) ∨ (v = .str "cupy" ∧ i.cupy = true)
  | .pyfftw_planner, v => v = .str "FFTW_ESTIMATE" ∨ v = .str "FFTW_MEASURE" ∨ v = .str "FFTW_PATIENT"
      ∨ v = .str "FFTW_EXHAUSTIVE"

/-- An assignment or a read. -/
inductive Act
  | assign (o : Opt) (v : PyVal)
  | look (o : Opt)

/-- Perform an action (exceptions are caught by the caller). -/
def act (i : Installed) (c : Cfg) : Act → Cfg
  | .assign o v => (set i o v c).2
  | .look o => (get o c).2

/-- The value to be expected: the last valid value assigned to the option, if any. -/
def lastValid (i : Installed) (o : Opt) (l : List Act) (r : Option PyVal) : Prop :=
  (r = none ∧ ∀ v, Act.assign o v ∈ l → ¬ Valid i o v) ∨
  ∃ v l1 l2, r = some v ∧ l = l1 ++ Act.assign o v :: l2 ∧ Valid i o v ∧ ∀ w, Act.assign o w ∈ l2 → ¬ Valid i o w

theorem isPosInt_iff (v : PyVal) : isPosInt v = true ↔ (∃ n : ℤ, 0 < n ∧ v = .int n) ∨ v = .bool true := by
  cases v <;> simp [isPosInt]

theorem isBool_iff (v : PyVal) : isBool v = true ↔ ∃ b, v = .bool b := by
  cases v <;> simp [isBool]

theorem inList_iff (v : PyVal) (l : List String) : inList v l = true ↔ ∃ s ∈ l, v = .str s := by
  cases v <;> simp [inList]

/-- **C48.** Assigning raises nothing exactly for valid values. -/
theorem C48_accepts (i : Installed) (o : Opt) (v : PyVal) (c : Cfg) : (set i o v c).1 = .ok () ↔ Valid i o v := by
  cases o with
  | eigsolve_method =>
    simp only [set, Valid]
    by_cases hp : i.primme = true
    · by_cases h : inList v (["davidson", "scipy"] ++ if i.primme then ["primme"] else []) = true
      · have := (inList_iff _ _).mp h
        simp only [hp, if_true] at h this
        simp only [hp, Bool.not_true, Bool.false_and, Bool.false_eq_true, if_false, if_true, h, true_iff]
        simpa using this
      · have h' := fun hh => h ((inList_iff _ _).mpr hh)
        simp only [hp, if_true] at h h'
        simp only [hp, Bool.not_true, Bool.false_and, Bool.false_eq_true, if_false, if_true, h, Bool.not_false]
        simp at h'
        simp [h']
    · simp only [Bool.not_eq_true] at hp
      by_cases hv : v = .str "primme"
      · subst hv; simp [hp]
      · have hbe : (v == .str "primme") = false := by simpa using hv
        by_cases h : inList v (["davidson", "scipy"] ++ if i.primme then ["primme"] else []) = true
        · have := (inList_iff _ _).mp h
          simp only [hp, Bool.false_eq_true, if_false] at h this
          simp only [hp, hbe, Bool.and_false, Bool.false_eq_true, if_false, h, Bool.not_true, true_iff]
          simpa using this
        · have h' := fun hh => h ((inList_iff _ _).mpr hh)
          simp only [hp, Bool.false_eq_true, if_false] at h h'
          simp only [hp, hbe, Bool.and_false, Bool.false_eq_true, if_false, h, Bool.not_false, if_true]
          simp at h'
          simp [h', hv]
  | davidson_maxiter | davidson_numwork | fft_threads =>
    simp only [set, Valid, ← isPosInt_iff]
    cases isPosInt v <;> simp
  | mixing_method =>
    simp only [set, Valid]
    have := inList_iff v ["modbroyden", "genbroyden"]
    cases h : inList v ["modbroyden", "genbroyden"] <;> rw [h] at this <;> simp at this ⊢
    · simp [this]
    · exact this
  | logging_enabled =>
    simp only [set, Valid, ← isBool_iff]
    cases isBool v <;> simp
  | fft_backend =>
    have h : inList v (backends i) = true ↔ Valid i .fft_backend v := by
      rw [inList_iff]
      unfold backends Valid
      cases i.mkl <;> cases i.pyfftw <;> cases i.cupy <;> simp <;> tauto
    rw [← h]
    simp only [set]
    cases inList v (backends i) <;> simp
  | pyfftw_planner =>
    have h : inList v ["FFTW_ESTIMATE", "FFTW_MEASURE", "FFTW_PATIENT", "FFTW_EXHAUSTIVE"] = true
        ↔ Valid i .pyfftw_planner v := by
      rw [inList_iff]; simp [Valid]
    rw [← h]
    simp only [set]
    cases inList v ["FFTW_ESTIMATE", "FFTW_MEASURE", "FFTW_PATIENT", "FFTW_EXHAUSTIVE"] <;> simp

/-- A rejected assignment changes nothing. -/
theorem set_error (i : Installed) (o : Opt) (v : PyVal) (c : Cfg) (h : ¬ Valid i o v) : (set i o v c).2 = c := by
  rw [← C48_accepts i o v c] at h
  cases o <;> simp only [set] at h ⊢ <;> split_ifs at h ⊢ <;> first | rfl | exact absurd rfl h

/-- The options whose setter stores the value. -/
def Stores (o : Opt) : Prop := o ≠ .davidson_numwork ∧ o ≠ .mixing_method

theorem set_get (i : Installed) (o : Opt) (v : PyVal) (c : Cfg) (h : Valid i o v) (ho : Stores o) :
    (get o (set i o v c).2).1 = v := by
  have h0 := h
  rw [← C48_accepts i o v c] at h
  cases o <;> simp only [set] at h ⊢
  case davidson_numwork => exact absurd rfl ho.1
  case mixing_method => exact absurd rfl ho.2
  case pyfftw_planner =>
    split_ifs at h ⊢
    have : v ≠ .none := by rintro rfl; simp [Valid] at h0
    simp [get, this]
  all_goals
    split_ifs at h ⊢ <;> rfl

theorem set_get_other (i : Installed) (o o' : Opt) (v : PyVal) (c : Cfg) (h : o' ≠ o) :
    (get o (set i o' v c).2).1 = (get o c).1 := by
  cases o' <;> simp only [set] <;> split_ifs <;> first
    | rfl
    | (cases o <;> first | rfl | exact absurd rfl h | (by_cases hc : c.pyfftw_planner = .none <;> simp [get, hc]))

theorem look_get (o o' : Opt) (c : Cfg) : (get o (get o' c).2).1 = (get o c).1 := by
  cases o' <;> try rfl
  by_cases hc : c.pyfftw_planner = .none
  · cases o <;> simp [get, hc]
  · cases o <;> simp [get, hc]

/-- The defaults a user reads from fresh configuration objects. -/
def dflt (i : Installed) (gpu : Bool) : Opt → PyVal
  | .eigsolve_method => .str "davidson"
  | .davidson_maxiter => .int 20
  | .davidson_numwork => .int 2
  | .mixing_method => .str "modbroyden"
  | .logging_enabled => .bool false
  | .fft_backend => if gpu then .str "cupy" else if i.mkl then .str "mkl_fft" else if i.pyfftw then .str "pyfftw"
      else .str "scipy"
  | .fft_threads => .int 1
  | .pyfftw_planner => .str "FFTW_MEASURE"

theorem init_get (i : Installed) (gpu : Bool) (o : Opt) : (get o (init i gpu)).1 = dflt i gpu o := by
  cases o <;> simp [get, init, dflt, backends]
  cases gpu <;> cases i.mkl <;> cases i.pyfftw <;> rfl

theorem runs_get (i : Installed) (o : Opt) (ho : Stores o) (c : Cfg) (l : List Act) :
    ∃ r, lastValid i o l r ∧ (get o (l.foldl (act i) c)).1 = r.getD (get o c).1 := by
  induction l using List.reverseRecOn with
  | nil => exact ⟨none, Or.inl ⟨rfl, by simp⟩, rfl⟩
  | append_singleton l a ih =>
    obtain ⟨r, hr, hg⟩ := ih
    rw [List.foldl_append]
    simp only [List.foldl_cons, List.foldl_nil]
    have keep : (∀ v, a = .assign o v → ¬ Valid i o v) →
        (get o (act i (l.foldl (act i) c) a)).1 = (get o (l.foldl (act i) c)).1 →
        ∃ r, lastValid i o (l ++ [a]) r ∧ (get o (act i (l.foldl (act i) c) a)).1 = r.getD (get o c).1 := by
      intro hno heq
      refine ⟨r, ?_, heq.trans hg⟩
      rcases hr with ⟨h1, h2⟩ | ⟨v, l1, l2, h1, h2, h3, h4⟩
      · refine Or.inl ⟨h1, fun v hv => ?_⟩
        rw [List.mem_append, List.mem_singleton] at hv
        exact hv.elim (h2 v) fun h => hno v h.symm
      · refine Or.inr ⟨v, l1, l2 ++ [a], h1, by rw [h2]; simp, h3, fun w hw => ?_⟩
        rw [List.mem_append, List.mem_singleton] at hw
        exact hw.elim (h4 w) fun h => hno w h.symm
    cases a with
    | look o' => exact keep (by intro v h; cases h) (look_get o o' _)
    | assign o' v =>
      by_cases hoo : o' = o
      · subst hoo
        by_cases hv : Valid i o' v
        · exact ⟨some v, Or.inr ⟨v, l, [], rfl, rfl, hv, by simp⟩, set_get i o' v _ hv ho⟩
        · refine keep (by intro w h; cases h; exact hv) ?_
          show (get o' (set i o' v _).2).1 = _
          rw [set_error i o' v _ hv]
      · exact keep (by intro w h; cases h; exact absurd rfl hoo) (set_get_other i o o' v _ hoo)

/-- **C48.** For every option except `davidson_numwork` and `mixing_method`: after any history of assignments and reads, reading
the option returns the last valid value assigned to it (its default if there was none); assignments to other options and
invalid assignments do not matter. -/
theorem C48_read_back_partial (i : Installed) (gpu : Bool) (o : Opt) (ho : o ≠ .davidson_numwork ∧ o ≠ .mixing_method)
    (l : List Act) : ∃ r, lastValid i o l r ∧ (get o (l.foldl (act i) (init i gpu))).1 = r.getD (dflt i gpu o) := by
  obtain ⟨r, h1, h2⟩ := runs_get i o ho (init i gpu) l
  exact ⟨r, h1, by rw [h2, init_get]⟩

example : lastValid ⟨false, false, false, false⟩ .fft_threads
    [.assign .fft_threads (.int 4), .assign .fft_backend (.str "numpy"), .assign .fft_threads (.int (-1))] (some (.int 4)) :=
  Or.inr ⟨_, [], _, rfl, rfl, Or.inl ⟨4, by decide, rfl⟩, by
    intro w hw
    simp only [List.mem_cons, List.not_mem_nil, or_false, Act.assign.injEq, reduceCtorEq, false_and, true_and, false_or] at hw
    subst hw
    rintro (⟨n, hn, h⟩ | h)
    · cases h; exact absurd hn (by decide)
    · cases h⟩

/-- **C48 (violated).** Assigning `davidson_numwork` or `mixing_method` never has an effect: after any history whatsoever they
read as their defaults, although valid assignments raise nothing. -/
theorem C48_not_stored (i : Installed) (gpu : Bool) (l : List Act) :
    (get .davidson_numwork (l.foldl (act i) (init i gpu))).1 = .int 2
    ∧ (get .mixing_method (l.foldl (act i) (init i gpu))).1 = .str "modbroyden" := by
  suffices h : ∀ c : Cfg, c.davidson_numwork = .int 2 → c.mixing_method = .str "modbroyden" →
      (get .davidson_numwork (l.foldl (act i) c)).1 = .int 2
      ∧ (get .mixing_method (l.foldl (act i) c)).1 = .str "modbroyden" from h _ rfl rfl
  induction l with
  | nil => exact fun c h1 h2 => ⟨h1, h2⟩
  | cons a l ih =>
    intro c h1 h2
    simp only [List.foldl_cons]
    apply ih
    · cases a with
      | look o => cases o <;> simp only [act, get] <;> first | exact h1 | (split_ifs <;> exact h1)
      | assign o v => cases o <;> simp only [act, set] <;> split_ifs <;> exact h1
    · cases a with
      | look o => cases o <;> simp only [act, get] <;> first | exact h2 | (split_ifs <;> exact h2)
      | assign o v => cases o <;> simp only [act, set] <;> split_ifs <;> exact h2

/-- **C48 (violated).** The documented `ValueError` for an unknown solver or mixer never appears: building its message fails, so
`TypeError` is raised instead (`ImportError` for a missing `primme`). -/
theorem C48_wrong_exception (i : Installed) (v : PyVal) (c : Cfg) :
    (¬ Valid i .mixing_method v → (set i .mixing_method v c).1 = .error .type)
    ∧ (¬ Valid i .eigsolve_method v → v ≠ .str "primme" → (set i .eigsolve_method v c).1 = .error .type)
    ∧ (i.primme = false → (set i .eigsolve_method (.str "primme") c).1 = .error .import_) := by
  refine ⟨fun h => ?_, fun h hp => ?_, fun h => by simp [set, h]⟩
  · rw [← C48_accepts i _ v c] at h
    simp only [set] at h ⊢
    split_ifs at h ⊢
    · rfl
    · exact absurd rfl h
  · rw [← C48_accepts i _ v c] at h
    have hbe : (v == .str "primme") = false := by simpa using hp
    simp only [set, hbe, Bool.and_false, Bool.false_eq_true, if_false] at h ⊢
    split_ifs at h ⊢ <;> first | rfl | exact absurd rfl h

/-- **C48.** Setting the random seed collectively leaves the root's value on every process. -/
theorem C48_seed {α : Type} (vals : List α) (k : ℕ) (h : k < vals.length) :
    (setSeed vals)[k]? = vals[0]? := by
  cases vals with
  | nil => simp at h
  | cons v l =>
    simp only [setSeed, List.getElem?_map, List.getElem?_eq_getElem h, Option.map_some, List.getElem?_cons_zero]

/-- **C73.** Every backend name accepted as `fft_backend` selects the class of that name. -/
theorem C73_backend (i : Installed) (s : String) (h : Valid i .fft_backend (.str s)) :
    getFFTBackend i (.str s) = .ok s := by
  obtain ⟨m, p, c, pr⟩ := i
  simp only [Valid, PyVal.str.injEq] at h
  rcases h with rfl | rfl | ⟨rfl, h⟩ | ⟨rfl, h⟩ | ⟨rfl, h⟩
  · simp [getFFTBackend]
  · simp [getFFTBackend]
  · subst h; simp [getFFTBackend]
  · subst h; simp [getFFTBackend]
  · subst h; simp [getFFTBackend]

/-- **C73 (violated).** The documented call without a name (first available backend) always raises `TypeError`. -/
theorem C73_default_fails (i : Installed) : getFFTBackend i .none = .error .type := by
  simp [getFFTBackend, raiseNotInList, valueNotInListMsg]

end Verif.Config
