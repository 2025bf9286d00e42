import Mathlib.Tactic.IntervalCases
import Verif.Model.GArr
import Verif.Props.FFT

/-!
# C170: transforms of arrays of functions, into new and into given arrays
-/

namespace Verif.GArr

variable {K : Type*}

/-! ## Specification -/

/-- The elements of the array are at different places. -/
def View.Distinct (v : View) : Prop := ∀ k < v.rows, ∀ f < v.last, ∀ k' < v.rows, ∀ f' < v.last, v.addr k f = v.addr k' f' → k = k' ∧ f = f'

/-- The place is one of those of the array. -/
def View.Has (v : View) (a : ℕ) : Prop := ∃ k < v.rows, ∃ f < v.last, a = v.addr k f

/-- The shape without the last axis. -/
def View.dims (v : View) : List ℕ := v.lead.map Prod.fst

/-- The leading axes can be merged to one: true of every contiguous array and of every array with at most two axes; not of a part `a[:, :2, :]` of an array `a` with
three entries along the second axis. -/
def View.Mergeable (v : View) : Prop := ∃ s, ∀ k < v.rows, rowOff v.lead k = k * s

/-! ## Lemmas: reshaping -/

theorem count_cons (p : ℕ × ℕ) (l : List (ℕ × ℕ)) : count (p :: l) = p.1 * count l := by simp [count]

theorem count_filter (l : List (ℕ × ℕ)) : count (l.filter fun p => p.1 ≠ 1) = count l := by
  induction l with
  | nil => rfl
  | cons p l ih =>
    by_cases h : p.1 = 1
    · rw [List.filter_cons_of_neg (by simpa using h), ih, count_cons, h, one_mul]
    · rw [List.filter_cons_of_pos (by simpa using h), count_cons, count_cons, ih]

theorem rowOff_filter (l : List (ℕ × ℕ)) (k : ℕ) (hk : k < count l) : rowOff (l.filter fun p => p.1 ≠ 1) k = rowOff l k := by
  induction l generalizing k with
  | nil => rfl
  | cons p l ih =>
    obtain ⟨d, s⟩ := p
    rw [count_cons] at hk
    have hc : 0 < count l := by
      rcases Nat.eq_zero_or_pos (count l) with h | h
      · rw [h] at hk; omega
      · exact h
    by_cases h : d = 1
    · subst h
      rw [List.filter_cons_of_neg (by simp)]
      have hk' : k < count l := by simpa using hk
      rw [ih k hk']
      simp [rowOff, Nat.div_eq_of_lt hk', Nat.mod_eq_of_lt hk']
    · rw [List.filter_cons_of_pos (by simpa using h)]
      simp only [rowOff]
      rw [count_filter, ih _ (Nat.mod_lt _ hc)]

theorem merge_head (d s : ℕ) (l : List (ℕ × ℕ)) (t : ℕ) (h : merge ((d, s) :: l) = some t) : s = count l * t := by
  induction l generalizing d s with
  | nil => simp only [merge, Option.some.injEq] at h; simp [count, h]
  | cons p l ih =>
    obtain ⟨d', s'⟩ := p
    simp only [merge] at h
    split at h
    · next e => rw [e, ih d' s' h, count_cons]; ring
    · cases h

theorem merge_spec (l : List (ℕ × ℕ)) (t : ℕ) (h : merge l = some t) (k : ℕ) (hk : k < count l) : rowOff l k = k * t := by
  induction l generalizing k with
  | nil =>
    have : k = 0 := by simpa [count] using hk
    simp [rowOff, this]
  | cons p l ih =>
    obtain ⟨d, s⟩ := p
    have hs := merge_head d s l t h
    rw [count_cons] at hk
    have hc : 0 < count l := by
      rcases Nat.eq_zero_or_pos (count l) with h | h
      · rw [h] at hk; omega
      · exact h
    have ht : rowOff l (k % count l) = k % count l * t := by
      cases l with
      | nil => simp [rowOff, count, Nat.mod_one]
      | cons q l =>
        obtain ⟨d', s'⟩ := q
        have h2 : merge ((d', s') :: l) = some t := by
          simp only [merge] at h
          split at h
          · exact h
          · cases h
        exact ih h2 _ (Nat.mod_lt _ hc)
    simp only [rowOff]
    rw [ht, hs, ← mul_assoc, ← Nat.add_mul, mul_comm (k / count l), Nat.div_add_mod]

theorem reshape_spec (v w : View) (h : v.reshape = some w) : w.rows = v.rows ∧ w.last = v.last ∧ ∀ k < v.rows, ∀ f, w.addr k f = v.addr k f := by
  unfold View.reshape at h
  cases hm : merge (v.lead.filter fun p => p.1 ≠ 1) with
  | none => rw [hm] at h; cases h
  | some t =>
    rw [hm] at h
    simp only [Option.map_some, Option.some.injEq] at h
    subst h
    refine ⟨by simp [View.rows, count], rfl, fun k hk f => ?_⟩
    have e := merge_spec _ t hm k (by rw [count_filter]; exact hk)
    rw [rowOff_filter _ _ hk] at e
    simp only [View.addr, e, rowOff]
    simp [count]

/-- If the axes can be merged, NumPy finds out. -/
theorem merge_complete (l : List (ℕ × ℕ)) (h1 : ∀ p ∈ l, p.1 ≠ 1) (h0 : 0 < count l) (s : ℕ) (h : ∀ k < count l, rowOff l k = k * s) : ∃ t, merge l = some t := by
  induction l with
  | nil => exact ⟨0, rfl⟩
  | cons p l ih =>
    obtain ⟨d, st⟩ := p
    have hd : d ≠ 1 := h1 (d, st) (by simp)
    rw [count_cons] at h0 h
    have hc : 0 < count l := Nat.pos_of_mul_pos_left h0
    have hd0 : 0 < d := Nat.pos_of_mul_pos_right h0
    have hl : ∀ k < count l, rowOff l k = k * s := by
      intro k hk
      have := h k (lt_of_lt_of_le hk (Nat.le_mul_of_pos_left _ hd0))
      simpa [rowOff, Nat.div_eq_of_lt hk, Nat.mod_eq_of_lt hk] using this
    have hst : st = count l * s := by
      have hlt : count l < d * count l := by
        have : 2 * count l ≤ d * count l := Nat.mul_le_mul_right _ (by omega)
        omega
      have := h (count l) hlt
      have h00 := hl 0 hc
      simp only [rowOff, Nat.div_self hc, Nat.mod_self, one_mul] at this
      rw [h00] at this
      simpa using this
    obtain ⟨t, ht⟩ := ih (fun p hp => h1 p (List.mem_cons_of_mem _ hp)) hc hl
    cases l with
    | nil => exact ⟨st, rfl⟩
    | cons q l =>
      obtain ⟨d', s'⟩ := q
      refine ⟨t, ?_⟩
      have hs' : s' = count l * s := by
        have hd' : d' ≠ 1 := h1 (d', s') (by simp)
        rw [count_cons] at hc hl
        have hc' : 0 < count l := Nat.pos_of_mul_pos_left hc
        have hd0' : 0 < d' := Nat.pos_of_mul_pos_right hc
        have hlt : count l < d' * count l := by
          have : 2 * count l ≤ d' * count l := Nat.mul_le_mul_right _ (by omega)
          omega
        have h1 := hl (count l) hlt
        have h2 := hl 0 hc
        simp only [rowOff, Nat.div_self hc', Nat.mod_self, one_mul, Nat.zero_div, Nat.zero_mod, zero_mul, zero_add] at h1 h2
        rw [h2] at h1
        simpa using h1
      simp only [merge]
      rw [if_pos]
      · exact ht
      · rw [hst, count_cons, hs']; ring

/-- An array is reshaped without a copy exactly if its leading axes can be merged (an array without elements apart). -/
theorem reshape_iff (v : View) (h0 : 0 < v.rows) : (∃ w, v.reshape = some w) ↔ v.Mergeable := by
  constructor
  · rintro ⟨w, h⟩
    unfold View.reshape at h
    cases hm : merge (v.lead.filter fun p => p.1 ≠ 1) with
    | none => rw [hm] at h; cases h
    | some t =>
      refine ⟨t, fun k hk => ?_⟩
      rw [← rowOff_filter _ _ hk]
      exact merge_spec _ t hm k (by rw [count_filter]; exact hk)
  · rintro ⟨s, hs⟩
    obtain ⟨t, ht⟩ := merge_complete (v.lead.filter fun p => p.1 ≠ 1) (fun p hp => by simpa using (List.mem_filter.1 hp).2) (by rw [count_filter]; exact h0) s
      (fun k hk => by rw [count_filter] at hk; rw [rowOff_filter _ _ hk]; exact hs k hk)
    unfold View.reshape
    rw [ht]
    exact ⟨_, rfl⟩

theorem count_contiguous (ds : List ℕ) (n : ℕ) : count (contiguous ds n) = ds.prod := by
  induction ds with
  | nil => rfl
  | cons d ds ih => simp [contiguous, count_cons, ih]

theorem rowOff_contiguous (ds : List ℕ) (n k : ℕ) (hk : k < ds.prod) : rowOff (contiguous ds n) k = k * n := by
  induction ds generalizing k with
  | nil =>
    have : k = 0 := by simpa using hk
    simp [contiguous, rowOff, this]
  | cons d ds ih =>
    rw [List.prod_cons] at hk
    have hc : 0 < ds.prod := by
      rcases Nat.eq_zero_or_pos ds.prod with h | h
      · rw [h] at hk; omega
      · exact h
    simp only [contiguous, rowOff]
    rw [count_contiguous, ih _ (Nat.mod_lt _ hc), ← mul_assoc, ← Nat.add_mul, mul_comm (k / ds.prod), Nat.div_add_mod]

theorem contiguous_dims (ds : List ℕ) (n : ℕ) : (contiguous ds n).map Prod.fst = ds := by
  induction ds with
  | nil => rfl
  | cons d ds ih => simp [contiguous, ih]

/-! ## Lemmas: writing -/

theorem writeRow_other (mem : ℕ → K) (addr : ℕ → ℕ) (vals : List K) (a : ℕ) (h : ∀ f < vals.length, a ≠ addr f) : writeRow mem addr vals a = mem a := by
  refine FFT.put_not_mem _ _ _ _ fun hm => ?_
  obtain ⟨f, hf, e⟩ := List.mem_map.1 hm
  exact h f (List.mem_range.1 hf) e.symm

theorem writeRow_at (mem : ℕ → K) (addr : ℕ → ℕ) (vals : List K) (hi : ∀ f < vals.length, ∀ f' < vals.length, addr f = addr f' → f = f') (f : ℕ) (hf : f < vals.length) :
    writeRow mem addr vals (addr f) = vals[f] := by
  have hn : ((List.range vals.length).map addr).Nodup := by
    refine List.Nodup.map_on ?_ List.nodup_range
    intro a ha b hb e
    exact hi a (List.mem_range.1 ha) b (List.mem_range.1 hb) e
  have := FFT.put_getElem mem ((List.range vals.length).map addr) vals hn (by simp) f (by simpa using hf)
  simpa [writeRow] using this

theorem row_congr (v w : View) (h : v.reshape = some w) (mem : ℕ → K) (k : ℕ) (hk : k < v.rows) : w.row mem k = v.row mem k := by
  obtain ⟨-, h2, h3⟩ := reshape_spec v w h
  unfold View.row
  rw [h2]
  exact List.map_congr_left fun f _ => by rw [h3 k hk]

theorem transform_spec (T : List K → List K) (inp out : View) (mem : ℕ → K) (hT : ∀ x : List K, x.length = inp.last → (T x).length = out.last)
    (hm : ∃ w, out.reshape = some w) (hd : out.Distinct) (hdis : ∀ a, inp.Has a → ¬ out.Has a) :
    (∀ k < min inp.rows out.rows, out.row (transform T inp out mem) k = T (inp.row mem k)) ∧
    ∀ a, (∀ k < min inp.rows out.rows, ∀ f < out.last, a ≠ out.addr k f) → transform T inp out mem a = mem a := by
  obtain ⟨w, hw⟩ := hm
  obtain ⟨-, -, h3⟩ := reshape_spec out w hw
  unfold transform
  simp only [hw]
  have gen : ∀ n ≤ min inp.rows out.rows, ∀ m : ℕ → K, m = (List.range n).foldl (fun m k =>
      writeRow m (w.addr k) (T (match inp.reshape with | some v => v.row m k | none => inp.row mem k))) mem →
      (∀ k < n, out.row m k = T (inp.row mem k)) ∧ ∀ a, (∀ k < n, ∀ f < out.last, a ≠ out.addr k f) → m a = mem a := by
    intro n
    induction n with
    | zero => rintro - m rfl; exact ⟨fun k hk => absurd hk (by omega), fun a _ => rfl⟩
    | succ n ih =>
      intro hn m hm
      rw [List.range_succ, List.foldl_append] at hm
      obtain ⟨i1, i2⟩ := ih (by omega) _ rfl
      generalize (List.range n).foldl (fun m k => writeRow m (w.addr k) (T (match inp.reshape with | some v => v.row m k | none => inp.row mem k))) mem = m0 at hm i1 i2
      simp only [List.foldl_cons, List.foldl_nil] at hm
      have hni : n < inp.rows := by omega
      have hno : n < out.rows := by omega
      have hx : (match inp.reshape with | some v => v.row m0 n | none => inp.row mem n) = inp.row mem n := by
        cases hr : inp.reshape with
        | none => rfl
        | some v =>
          show v.row m0 n = _
          rw [row_congr inp v hr m0 n hni]
          refine List.map_congr_left fun f hf => i2 _ fun k hk f' hf' e => ?_
          exact hdis _ ⟨n, hni, f, List.mem_range.1 hf, rfl⟩ ⟨k, by omega, f', hf', e⟩
      rw [hx] at hm
      have hlen : (T (inp.row mem n)).length = out.last := hT _ (by simp [View.row])
      have ea : ∀ f, w.addr n f = out.addr n f := h3 n hno
      have hoth : ∀ a, (∀ f < out.last, a ≠ out.addr n f) → m a = m0 a := by
        intro a ha
        rw [hm]
        exact writeRow_other _ _ _ _ fun f hf => by rw [ea]; exact ha f (by omega)
      have hat : ∀ f (hf : f < out.last), m (out.addr n f) = (T (inp.row mem n))[f]'(by omega) := by
        intro f hf
        rw [hm, ← ea]
        refine writeRow_at _ _ _ (fun a ha b hb e => ?_) f (by omega)
        rw [ea, ea] at e
        exact (hd n hno a (by omega) n hno b (by omega) e).2
      refine ⟨fun k hk => ?_, fun a ha => ?_⟩
      · by_cases e : k = n
        · subst e
          refine List.ext_getElem (by rw [hlen]; simp [View.row]) fun f h1 h2 => ?_
          simp only [View.row, List.getElem_map, List.getElem_range]
          exact hat f (by omega)
        · rw [← i1 k (by omega)]
          refine List.map_congr_left fun f hf => hoth _ fun f' hf' e' => ?_
          exact e (hd k (by omega) f (List.mem_range.1 hf) n hno f' hf' e').1
      · rw [hoth a fun f hf => ha n (by omega) f hf]
        exact i2 a fun k hk => ha k (by omega)
  exact gen _ le_rfl _ rfl

/-! ## C170 -/

/-- **C170a.** Without an output array, a new array with the leading axes of the input is made; every row of it is the transform of that row of the input, however the input is laid out in memory (sliced,
transposed, broadcast), and nothing that was in memory before, the input included, is changed. -/
theorem C170_alloc (nIn nOut : ℕ) (T : List K → List K) (hT : ∀ x : List K, x.length = nIn → (T x).length = nOut) (inp : View) (s : Heap K)
    (hl : inp.last = nIn) (hin : ∀ a, inp.Has a → a < s.next) :
    ∃ o s', call nIn nOut T inp none s = .ok (o, s') ∧ o.dims = inp.dims ∧ o.last = nOut ∧
      (∀ k < inp.rows, o.row s'.mem k = T (inp.row s.mem k)) ∧
      (∀ a < s.next, s'.mem a = s.mem a) ∧ (∀ a, o.Has a → s.next ≤ a ∧ a < s'.next) ∧ o.Distinct := by
  set ds := inp.lead.map Prod.fst with hds
  set o : View := ⟨s.next, contiguous ds nOut, nOut, 1⟩ with ho
  have hrows : o.rows = ds.prod := count_contiguous _ _
  have hrows' : inp.rows = ds.prod := rfl
  have haddr : ∀ k < o.rows, ∀ f, o.addr k f = s.next + k * nOut + f := by
    intro k hk f
    rw [hrows] at hk
    show s.next + rowOff (contiguous ds nOut) k + f * 1 = _
    rw [rowOff_contiguous _ _ _ hk, mul_one]
  have hdist : o.Distinct := by
    intro k hk f hf k' hk' f' hf' e
    rw [haddr k hk, haddr k' hk'] at e
    change f < nOut at hf
    change f' < nOut at hf'
    have e2 : nOut * k + f = nOut * k' + f' := by rw [mul_comm nOut k, mul_comm nOut k']; omega
    have h1 : (nOut * k + f) / nOut = k := by rw [Nat.mul_add_div (by omega), Nat.div_eq_of_lt hf, add_zero]
    have h2 : (nOut * k' + f') / nOut = k' := by rw [Nat.mul_add_div (by omega), Nat.div_eq_of_lt hf', add_zero]
    have h3 : k = k' := by rw [← h1, e2, h2]
    subst h3
    exact ⟨rfl, by omega⟩
  have hhas : ∀ a, o.Has a → s.next ≤ a ∧ a < s.next + ds.prod * nOut := by
    rintro a ⟨k, hk, f, hf, rfl⟩
    rw [haddr k hk]
    rw [hrows] at hk
    change f < nOut at hf
    have : (k + 1) * nOut ≤ ds.prod * nOut := Nat.mul_le_mul_right _ hk
    rw [Nat.add_mul] at this
    omega
  have hcall : call nIn nOut T inp none s = .ok (o, ⟨transform T inp o s.mem, s.next + ds.prod * nOut⟩) := by
    unfold call
    rw [if_neg (by simp [hl])]
    rfl
  refine ⟨o, _, hcall, contiguous_dims _ _, rfl, ?_, ?_, hhas, hdist⟩
  · intro k hk
    rcases Nat.eq_zero_or_pos o.rows with h0 | h0
    · rw [hrows'] at hk; omega
    · have hm := (reshape_iff o h0).2 ⟨nOut, fun k hk => rowOff_contiguous _ _ _ (by rw [← hrows]; exact hk)⟩
      refine (transform_spec T inp o s.mem (by rw [hl]; exact hT) hm hdist ?_).1 k (by rw [hrows, ← hrows']; omega)
      intro a ha hb
      have := hin a ha
      have := (hhas a hb).1
      omega
  · intro a ha
    show transform T inp o s.mem a = s.mem a
    rcases Nat.eq_zero_or_pos o.rows with h0 | h0
    · unfold transform
      rw [h0, Nat.min_zero]
      rfl
    · have hm := (reshape_iff o h0).2 ⟨nOut, fun k hk => rowOff_contiguous _ _ _ (by rw [← hrows]; exact hk)⟩
      refine (transform_spec T inp o s.mem (by rw [hl]; exact hT) hm hdist ?_).2 a ?_
      · intro a ha hb
        have := hin a ha
        have := (hhas a hb).1
        omega
      · intro k hk f hf e
        have := (hhas a ⟨k, by omega, f, hf, e⟩).1
        omega

/-- **C170b.** With an output array of the same leading axes that can be merged (for instance a contiguous one, or one with two axes), and that does not overlap with the input: its rows become the
transforms of the rows of the input, it is returned, and nothing else in memory changes. -/
theorem C170_into_partial (nIn nOut : ℕ) (T : List K → List K) (hT : ∀ x : List K, x.length = nIn → (T x).length = nOut) (inp out : View) (s : Heap K)
    (hl : inp.last = nIn) (hl' : out.last = nOut) (hs : out.dims = inp.dims) (hm : out.Mergeable) (hd : out.Distinct) (hdis : ∀ a, inp.Has a → ¬ out.Has a) :
    ∃ s', call nIn nOut T inp (some out) s = .ok (out, s') ∧ (∀ k < inp.rows, out.row s'.mem k = T (inp.row s.mem k)) ∧
      (∀ a, ¬ out.Has a → s'.mem a = s.mem a) ∧ s'.next = s.next := by
  have hr : out.rows = inp.rows := by unfold View.rows count; unfold View.dims at hs; rw [hs]
  refine ⟨{ s with mem := transform T inp out s.mem }, by unfold call; rw [if_neg (by simp [hl])]; simp [hl'], ?_, ?_, rfl⟩
  · intro k hk
    exact (transform_spec T inp out s.mem (by rw [hl, hl']; exact hT) ((reshape_iff out (by omega)).2 hm) hd hdis).1 k (by omega)
  · intro a ha
    show transform T inp out s.mem a = s.mem a
    rcases Nat.eq_zero_or_pos out.rows with h0 | h0
    · unfold transform
      rw [h0, Nat.min_zero]
      rfl
    · exact (transform_spec T inp out s.mem (by rw [hl, hl']; exact hT) ((reshape_iff out h0).2 hm) hd hdis).2 a fun k hk f hf e => ha ⟨k, by omega, f, hf, e⟩

/-- **C170c.** Arrays whose last axis has not the right length are rejected and nothing changes. -/
theorem C170_rejects (nIn nOut : ℕ) (T : List K → List K) (inp : View) (out : Option View) (s : Heap K) (h : inp.last ≠ nIn ∨ ∃ o, out = some o ∧ o.last ≠ nOut) :
    call nIn nOut T inp out s = .error .value := by
  unfold call
  by_cases h1 : inp.last = nIn
  · rcases h with h | ⟨o, rfl, h⟩
    · exact absurd h1 h
    · rw [if_neg (by simp [h1])]
      simp [h]
  · rw [if_pos h1]

/-- **C170b (violation).** With an output array whose leading axes cannot be merged — for instance a part `a[:, :2, :]` of a larger array, or a transposed array — the call returns normally and
has done nothing. -/
theorem C170_lost_violated (nIn nOut : ℕ) (T : List K → List K) (inp out : View) (s : Heap K) (hl : inp.last = nIn) (hl' : out.last = nOut) (h0 : 0 < out.rows) (hm : ¬ out.Mergeable) :
    call nIn nOut T inp (some out) s = .ok (out, s) := by
  have hr : out.reshape = none := by
    cases h : out.reshape with
    | none => rfl
    | some w => exact absurd ((reshape_iff out h0).1 ⟨w, h⟩) hm
  unfold call
  rw [if_neg (by simp [hl])]
  simp only [hl', ne_eq, not_true_eq_false, if_false]
  have : transform T inp out s.mem = s.mem := by
    unfold transform
    simp only [hr]
    generalize List.range (min inp.rows out.rows) = l
    induction l with
    | nil => rfl
    | cons a l ih => exact ih
  rw [this]

/-- The part `a[:, :2, :]` of a `2 × 3 × 4` array is such an output: its elements are at different places, but its four rows are not equally spaced. -/
example : ¬ View.Mergeable ⟨0, [(2, 12), (2, 4)], 4, 1⟩ ∧ View.Distinct ⟨0, [(2, 12), (2, 4)], 4, 1⟩ := by
  constructor
  · rintro ⟨s, h⟩
    have h1 := h 1 (by decide)
    have h2 := h 2 (by decide)
    simp [rowOff, count] at h1 h2
    omega
  · intro k hk f hf k' hk' f' hf' e
    change k < 4 at hk
    change f < 4 at hf
    change k' < 4 at hk'
    change f' < 4 at hf'
    simp [View.addr, rowOff, count] at e
    omega

/-- Two functions in an array with two axes, into the second part of a contiguous array. -/
example : View.Mergeable ⟨8, [(1, 6), (2, 3)], 3, 1⟩ ∧ View.Distinct ⟨8, [(1, 6), (2, 3)], 3, 1⟩ ∧
    ∀ a, View.Has ⟨0, [(1, 8), (2, 4)], 4, 1⟩ a → ¬ View.Has ⟨8, [(1, 6), (2, 3)], 3, 1⟩ a := by
  refine ⟨⟨3, by decide⟩, ?_, ?_⟩
  · intro k hk f hf k' hk' f' hf' e
    change k < 2 at hk
    change f < 3 at hf
    change k' < 2 at hk'
    change f' < 3 at hf'
    simp [View.addr, rowOff, count] at e
    omega
  rintro a ⟨k, hk, f, hf, rfl⟩ ⟨k', hk', f', hf', e⟩
  change k < 2 at hk
  change f < 4 at hf
  change k' < 2 at hk'
  change f' < 3 at hf'
  simp [View.addr, rowOff, count] at e
  omega

/-- **C170d (violation).** Arrays with different numbers of rows are not rejected: as many rows as both have are transformed, the others are left as they were. -/
theorem C170_rows_violated (nIn nOut : ℕ) (T : List K → List K) (hT : ∀ x : List K, x.length = nIn → (T x).length = nOut) (inp out : View) (s : Heap K)
    (hl : inp.last = nIn) (hl' : out.last = nOut) (h0 : 0 < out.rows) (hm : out.Mergeable) (hd : out.Distinct) (hdis : ∀ a, inp.Has a → ¬ out.Has a) :
    ∃ s', call nIn nOut T inp (some out) s = .ok (out, s') ∧ ∀ k, inp.rows ≤ k → k < out.rows → out.row s'.mem k = out.row s.mem k := by
  refine ⟨{ s with mem := transform T inp out s.mem }, by unfold call; rw [if_neg (by simp [hl])]; simp [hl'], fun k hk hk' => ?_⟩
  refine List.map_congr_left fun f hf => ?_
  refine (transform_spec T inp out s.mem (by rw [hl, hl']; exact hT) ((reshape_iff out h0).2 hm) hd hdis).2 _ fun k2 hk2 f2 hf2 e => ?_
  have := (hd k hk' f (List.mem_range.1 hf) k2 (by omega) f2 hf2 e).1
  omega

/-! ## With the transforms -/

open Verif.FFT in
/-- **C170e.** `gspc.r2g(arr)` with either driver, whatever it was used for before: every row of the new array is the list of the Fourier coefficients of the function in that row of `arr`. -/
theorem C170_r2g (drv : Driver) (d : Dims) (idx : List ℕ) (hv : ValidIdx d idx) (st : DrvState ℂ) (inp : View) (s : Heap ℂ) (hl : inp.last = d.size) (hin : ∀ a, inp.Has a → a < s.next) :
    ∃ o s', call d.size idx.length (fun x => (drv.r2g d (dftKern true d) idx st (fun f => x.getD f 0)).2) inp none s = .ok (o, s') ∧ o.dims = inp.dims ∧
      (∀ k < inp.rows, o.row s'.mem k =
        idx.map fun f => dftSpec d (fun x y z => (inp.row s.mem k).getD (d.flat x y z) 0) (d.ix f) (d.iy f) (d.iz f)) ∧
      ∀ a < s.next, s'.mem a = s.mem a := by
  obtain ⟨o, s', h1, h2, -, h4, h5, -⟩ := C170_alloc d.size idx.length (fun x : List ℂ => (drv.r2g d (dftKern true d) idx st (fun f => x.getD f 0)).2)
    (fun x _ => by rw [(C17_drivers_compute_dft drv d true idx hv st).1]; simp) inp s hl hin
  refine ⟨o, s', h1, h2, fun k hk => ?_, h5⟩
  rw [h4 k hk]
  exact (C17_drivers_compute_dft drv d true idx hv st).1 _

open Verif.FFT in
/-- **C170f.** `gspc.g2r(arr)`: every row of the new array is the function, on all points of the grid, with the coefficients in that row of `arr`. -/
theorem C170_g2r (drv : Driver) (d : Dims) (norm : Bool) (idx : List ℕ) (hv : ValidIdx d idx) (st : DrvState ℂ) (inp : View) (s : Heap ℂ) (hl : inp.last = idx.length)
    (hin : ∀ a, inp.Has a → a < s.next) :
    ∃ o s', call idx.length d.size (fun c => (List.range d.size).map (drv.g2r d (dftKern false d) norm idx st c).2) inp none s = .ok (o, s') ∧ o.dims = inp.dims ∧
      (∀ k < inp.rows, ∀ x < d.nx, ∀ y < d.ny, ∀ z < d.nz, s'.mem (o.addr k (d.flat x y z)) =
        (if norm then ((d.nx * d.ny * d.nz : ℂ))⁻¹ else 1) * synthSpec d ((idx.map fun f => (d.ix f, d.iy f, d.iz f)).zip (inp.row s.mem k)) x y z) ∧
      ∀ a < s.next, s'.mem a = s.mem a := by
  obtain ⟨o, s', h1, h2, h3, h4, h5, -⟩ := C170_alloc idx.length d.size (fun c : List ℂ => (List.range d.size).map (drv.g2r d (dftKern false d) norm idx st c).2)
    (fun x _ => by simp) inp s hl hin
  refine ⟨o, s', h1, h2, fun k hk x hx y hy z hz => ?_, h5⟩
  have hrow := h4 k hk
  have hfl : d.flat x y z < d.size := by
    unfold Dims.flat Dims.size Dims.plane
    have e1 : (x + 1) * (d.ny * d.nz) ≤ d.nx * (d.ny * d.nz) := Nat.mul_le_mul_right _ hx
    have e2 : (y + 1) * d.nz ≤ d.ny * d.nz := Nat.mul_le_mul_right _ hy
    rw [Nat.add_mul, one_mul] at e1 e2
    rw [mul_assoc d.nx]
    omega
  have := congrArg (fun l => l[d.flat x y z]?) hrow
  simp only [View.row, List.getElem?_map] at this
  rw [List.getElem?_range (by rw [h3]; exact hfl), List.getElem?_range hfl] at this
  simp only [Option.map_some, Option.some.injEq] at this
  rw [this]
  exact (C17_drivers_compute_dft drv d norm idx hv st).2 _ (by simp [hl]) x hx y hy z hz

/-! ## C171: arrays that the driver returns -/

/-- A call does not touch an array that is neither its output nor the driver's. -/
theorem full_frame (b : Backend) (F B : (ℕ → K) → ℕ → K) (o : FullOp K) (s : Objs K) (i : ℕ) (hi : i < s.next) (h0 : b = .pyfftw → i ≠ 0)
    (h1 : ∀ a, o ≠ .r2g a i) (h2 : ∀ a, o ≠ .g2r a (some i)) : (o.run b F B s).2.content i = s.content i ∧ s.next ≤ (o.run b F B s).2.next := by
  have key : ∀ x : ℕ → K, (b.give x s).2.content i = s.content i ∧ s.next ≤ (b.give x s).2.next := by
    intro x
    have hne : i ≠ s.next := by omega
    cases b with
    | pyfftw => exact ⟨Function.update_of_ne (h0 rfl) _ _, le_rfl⟩
    | numpy => exact ⟨Function.update_of_ne hne _ _, Nat.le_succ _⟩
    | scipy => exact ⟨Function.update_of_ne hne _ _, Nat.le_succ _⟩
    | mkl => exact ⟨Function.update_of_ne hne _ _, Nat.le_succ _⟩
  cases o with
  | r2g a o =>
    have hne : i ≠ o := by rintro rfl; exact h1 a rfl
    refine ⟨?_, (key (F a)).2⟩
    show Function.update (b.give (F a) s).2.content o _ i = _
    rw [Function.update_of_ne hne]
    exact (key (F a)).1
  | g2r a o =>
    cases o with
    | none => exact key (B a)
    | some o =>
      have hne : i ≠ o := by rintro rfl; exact h2 a rfl
      refine ⟨?_, (key (B a)).2⟩
      show Function.update (b.give (B a) s).2.content o _ i = _
      rw [Function.update_of_ne hne]
      exact (key (B a)).1

/-- The history never uses the array as an output. -/
def NotOutput (ops : List (FullOp K)) (i : ℕ) : Prop := ∀ o ∈ ops, (∀ a, o ≠ .r2g a i) ∧ ∀ a, o ≠ .g2r a (some i)

theorem full_frame_all (b : Backend) (F B : (ℕ → K) → ℕ → K) (ops : List (FullOp K)) (s : Objs K) (i : ℕ) (hi : i < s.next) (h0 : b = .pyfftw → i ≠ 0) (h : NotOutput ops i) :
    (runFull b F B ops s).content i = s.content i := by
  induction ops generalizing s with
  | nil => rfl
  | cons o ops ih =>
    obtain ⟨g1, g2⟩ := full_frame b F B o s i hi h0 (h o (by simp)).1 (h o (by simp)).2
    have := ih (o.run b F B s).2 (by omega) fun o' ho' => h o' (List.mem_cons_of_mem _ ho')
    rw [g1] at this
    exact this

/-- **C171a.** With the NumPy, SciPy and MKL backends, the array that the driver returns is the caller's: it holds the transform and keeps it, whatever transforms are computed afterwards into other arrays. -/
theorem C171_returned_partial (b : Backend) (hb : b ≠ .pyfftw) (F B : (ℕ → K) → ℕ → K) (a : ℕ → K) (s : Objs K) (later : List (FullOp K)) (i : ℕ)
    (hi : ((FullOp.g2r a none).run b F B s).1 = some i) (hl : NotOutput later i) :
    (runFull b F B (.g2r a none :: later) s).content i = B a := by
  have e : (runFull b F B (.g2r a none :: later) s) = runFull b F B later ((FullOp.g2r a none).run b F B s).2 := rfl
  have e1 : i = s.next ∧ ((FullOp.g2r a none).run b F B s).2 = ⟨Function.update s.content s.next (B a), s.next + 1⟩ := by
    cases b with
    | pyfftw => exact absurd rfl hb
    | numpy => exact ⟨(Option.some.inj hi).symm, rfl⟩
    | scipy => exact ⟨(Option.some.inj hi).symm, rfl⟩
    | mkl => exact ⟨(Option.some.inj hi).symm, rfl⟩
  rw [e, e1.2]
  rw [full_frame_all b F B later _ i (by rw [e1.1]; exact Nat.lt_succ_self _) (fun h => absurd h hb) hl, e1.1]
  simp

/-- **C171a (violation).** With pyFFTW the driver returns its own work array: after the next transform, into whatever array, the first result is gone. -/
theorem C171_pyfftw_violated (F B : (ℕ → K) → ℕ → K) (a a' : ℕ → K) (s : Objs K) (o : ℕ) (ho : o ≠ 0) :
    ((FullOp.g2r a none).run .pyfftw F B s).1 = some 0 ∧ (runFull .pyfftw F B [.g2r a none] s).content 0 = B a ∧
    (runFull .pyfftw F B [.g2r a none, .g2r a' none] s).content 0 = B a' ∧ (runFull .pyfftw F B [.g2r a none, .r2g a' o] s).content 0 = F a' := by
  refine ⟨rfl, ?_, ?_, ?_⟩
  · show Function.update s.content 0 (B a) 0 = _; simp
  · show Function.update (Function.update s.content 0 (B a)) 0 (B a') 0 = _; simp
  · show Function.update (Function.update (Function.update s.content 0 (B a)) 0 (F a')) o _ 0 = _
    rw [Function.update_of_ne ho.symm]; simp

/-- **C171b.** With every backend: an array that is not the output of a call, and was not returned by the driver, is not changed by any history of calls; and an output array holds its transform until it
is used as an output again. -/
theorem C171_frame (b : Backend) (F B : (ℕ → K) → ℕ → K) (s : Objs K) (later : List (FullOp K)) (i : ℕ) (hi : i < s.next) (h0 : i ≠ 0) (hl : NotOutput later i) :
    (runFull b F B later s).content i = s.content i ∧
    ∀ a, (runFull b F B (.g2r a (some i) :: later) s).content i = B a ∧ (runFull b F B (.r2g a i :: later) s).content i = F a := by
  refine ⟨full_frame_all b F B later s i hi (fun _ => h0) hl, fun a => ?_⟩
  have key : ∀ x : ℕ → K, (b.give x s).2.content (b.give x s).1 = x ∧ s.next ≤ (b.give x s).2.next := by
    intro x
    cases b <;> simp [Backend.give]
  constructor
  · have e : runFull b F B (.g2r a (some i) :: later) s = runFull b F B later ((FullOp.g2r a (some i)).run b F B s).2 := rfl
    have hn : i < ((FullOp.g2r a (some i)).run b F B s).2.next := lt_of_lt_of_le hi (key (B a)).2
    rw [e, full_frame_all b F B later _ i hn (fun _ => h0) hl]
    show Function.update (b.give (B a) s).2.content i _ i = _
    rw [Function.update_self]
    exact (key (B a)).1
  · have e : runFull b F B (.r2g a i :: later) s = runFull b F B later ((FullOp.r2g a i).run b F B s).2 := rfl
    have hn : i < ((FullOp.r2g a i).run b F B s).2.next := lt_of_lt_of_le hi (key (F a)).2
    rw [e, full_frame_all b F B later _ i hn (fun _ => h0) hl]
    show Function.update (b.give (F a) s).2.content i _ i = _
    rw [Function.update_self]
    exact (key (F a)).1

example : NotOutput [FullOp.g2r (fun _ => (1 : ℂ)) none, .r2g (fun _ => 0) 4] 3 := by
  intro o ho
  simp only [List.mem_cons, List.not_mem_nil, or_false] at ho
  rcases ho with rfl | rfl <;> exact ⟨fun a => by simp, fun a => by simp⟩

end Verif.GArr
