import Verif.Model.EpsFile
import Verif.Props.BGWMat

/-!
# C190, C191: dielectric-matrix files over a history of calls and crashes; files of one array
-/

namespace Verif.EpsFile

open Verif.BGW (Mat Stored writeMats readMats)

variable {N : Type} [DecidableEq N]

/-- What reading gives after the matrices `ms` have been written completely (C52 says how they relate to `ms`). -/
def ReadsAs (ms : List Mat) (r : Except PyErr (List Mat)) : Prop := ∃ s, writeMats ms = .ok s ∧ r = .ok (readMats s)

theorem write_full (name : N) (ms : List Mat) (s : Stored) (h : writeMats ms = .ok s) (fs : FS N) (k : ℕ) : writeTo k name ms fs =
    (fun x => if x = name ∧ 0 < k then some ⟨decide (1 < k), decide (3 < k), if 4 < k then some s else none, decide (5 < k)⟩ else fs x, none) := by
  have hu : ∀ (c : Content) (f : Content → Content), upd (fun x => if x = name then some c else fs x) name f = fun x => if x = name then some (f c) else fs x := by
    intro c f
    funext x
    unfold upd
    by_cases hx : x = name <;> simp [hx]
  unfold writeTo steps
  match k with
  | 0 => simp [exec]
  | 1 => simp [exec]
  | 2 => simp [exec, hu]
  | 3 => simp [exec, hu, h]
  | 4 => simp [exec, hu, h]
  | 5 => simp [exec, hu, h]
  | 6 => simp [exec, hu, h]
  | k + 7 => simp [exec, hu, h]

theorem ok_of_ne (ms : List Mat) (h : ms ≠ []) : ∃ s, writeMats ms = .ok s := by
  obtain ⟨s, hs, -⟩ := BGW.C52_read_back ms h
  exact ⟨s, hs⟩

/-- **C190a.** After any sequence of calls of `write_epsmat`, whatever was in the directory before, a file holds the matrices of the last call for that file that had any matrices; a file for which there
was no such call is as it was. No call raises. -/
theorem C190_history_partial (calls : List (N × List Mat)) (fs : FS N) (name : N) :
    (match (calls.filter fun c => decide (c.1 = name ∧ c.2 ≠ [])).getLast? with
    | some c => ReadsAs c.2 (readEpsmat name (history calls fs))
    | none => history calls fs name = fs name) ∧
    ∀ c ∈ calls, ∀ fs' : FS N, (writeEpsmat 7 c.1 c.2 fs').2 = none := by
  have hw : ∀ (c : N × List Mat) (fs' : FS N), (writeEpsmat 7 c.1 c.2 fs').2 = none ∧
      (writeEpsmat 7 c.1 c.2 fs').1 name = if c.1 = name ∧ c.2 ≠ [] then (match writeMats c.2 with
        | .ok s => some ⟨true, true, some s, true⟩
        | .error _ => none) else fs' name := by
    intro c fs'
    unfold writeEpsmat
    by_cases h : c.2 = []
    · simp [h]
    · obtain ⟨s, hs⟩ := ok_of_ne c.2 h
      rw [if_pos (List.length_pos_iff.2 h), write_full c.1 c.2 s hs]
      refine ⟨rfl, ?_⟩
      simp only [h, hs, ne_eq, not_false_eq_true, and_true]
      by_cases hn : name = c.1
      · simp [hn]
      · simp [hn, Ne.symm hn]
  refine ⟨?_, fun c _ fs' => (hw c fs').1⟩
  induction calls using List.reverseRecOn with
  | nil => rfl
  | append_singleton l c ih =>
    have hs : history (l ++ [c]) fs = (writeEpsmat 7 c.1 c.2 (history l fs)).1 := by
      unfold history
      rw [List.foldl_append]
      rfl
    rw [List.filter_append]
    by_cases hc : c.1 = name ∧ c.2 ≠ []
    · rw [List.filter_singleton, decide_eq_true hc]
      simp only [cond_true, List.getLast?_append, List.getLast?_singleton, Option.some_or]
      obtain ⟨s, hs'⟩ := ok_of_ne c.2 hc.2
      refine ⟨s, hs', ?_⟩
      unfold readEpsmat
      rw [hs, (hw c _).2, if_pos hc, hs']
      simp
    · have : decide (c.1 = name ∧ c.2 ≠ []) = false := decide_eq_false hc
      rw [List.filter_singleton, this]
      simp only [cond_false, List.append_nil]
      have hsame : history (l ++ [c]) fs name = history l fs name := by
        rw [hs, (hw c _).2, if_neg hc]
      have hr : readEpsmat name (history (l ++ [c]) fs) = readEpsmat name (history l fs) := by
        unfold readEpsmat
        rw [hsame]
      rw [hr, hsame]
      exact ih

/-- **C190b (violation).** Writing no matrices leaves those of an earlier run in the file: reading gives them, not an empty list. -/
theorem C190_empty_violated (name : N) (old : List Mat) (h : old ≠ []) (fs : FS N) :
    ReadsAs old (readEpsmat name (history [(name, old), (name, [])] fs)) ∧ readEpsmat name (history [(name, old), (name, [])] fs) ≠ .ok [] := by
  have k := (C190_history_partial [(name, old), (name, [])] fs name).1
  have e : ([(name, old), (name, [])] : List (N × List Mat)).filter (fun c => decide (c.1 = name ∧ c.2 ≠ [])) = [(name, old)] := by simp [h]
  rw [e] at k
  change ReadsAs old _ at k
  refine ⟨k, ?_⟩
  obtain ⟨s, hs, hr⟩ := k
  rw [hr]
  intro hcon
  obtain ⟨s', hs', hl, -⟩ := BGW.C52_read_back old h
  rw [hs] at hs'
  cases hs'
  have : readMats s = [] := by injection hcon
  rw [this] at hl
  exact h (List.length_eq_zero_iff.1 hl.symm)

/-- **C190c.** A run stopped in the middle of writing new matrices over old ones: before the file is opened the old ones are there, from the moment the dataset is made the new ones are there, and in
between neither is (reading raises `KeyError`), although the file exists. Other files are untouched. -/
theorem C190_crash (name : N) (old new : List Mat) (ho : old ≠ []) (hn : new ≠ []) (fs : FS N) (k : ℕ) :
    (k = 0 → ReadsAs old (readEpsmat name (writeEpsmat k name new (history [(name, old)] fs)).1)) ∧
    (1 ≤ k → k ≤ 4 → readEpsmat name (writeEpsmat k name new (history [(name, old)] fs)).1 = .error .key) ∧
    (5 ≤ k → ReadsAs new (readEpsmat name (writeEpsmat k name new (history [(name, old)] fs)).1)) ∧
    ∀ other, other ≠ name → (writeEpsmat k name new fs).1 other = fs other := by
  obtain ⟨s, hs⟩ := ok_of_ne new hn
  have hw : ∀ fs' : FS N, writeEpsmat k name new fs' = (fun x => if x = name ∧ 0 < k then some ⟨decide (1 < k), decide (3 < k), if 4 < k then some s else none, decide (5 < k)⟩ else fs' x, none) := by
    intro fs'
    unfold writeEpsmat
    rw [if_pos (List.length_pos_iff.2 hn), write_full name new s hs]
  refine ⟨?_, ?_, ?_, ?_⟩
  · rintro rfl
    have k := (C190_history_partial [(name, old)] fs name).1
    have e : ([(name, old)] : List (N × List Mat)).filter (fun c => decide (c.1 = name ∧ c.2 ≠ [])) = [(name, old)] := by simp [ho]
    rw [e] at k
    rw [hw]
    simpa using k
  · intro h1 h4
    rw [hw]
    have h3 : ¬ 4 < k := by omega
    unfold readEpsmat
    simp only [true_and, show 0 < k by omega, if_true, h3, if_false]
    split <;> rfl
  · intro h5
    refine ⟨s, hs, ?_⟩
    rw [hw]
    unfold readEpsmat
    have h1 : 4 < k := by omega
    have h2 : decide (3 < k) = true := decide_eq_true (by omega)
    simp only [true_and, show 0 < k by omega, if_true, h1, h2]
  · intro other h
    rw [hw]
    simp [h]

/-- **C190d (violation).** `write_mats` itself with no matrices raises, but only after it has emptied the file: the earlier matrices are lost. -/
theorem C190_failed_write_violated (name : N) (old : List Mat) (fs : FS N) :
    (writeTo 7 name [] (history [(name, old)] fs)).2 = some .value ∧ readEpsmat name (writeTo 7 name [] (history [(name, old)] fs)).1 = .error .key := by
  have h : writeMats [] = .error .value := rfl
  unfold writeTo steps readEpsmat
  simp [exec, upd, h]

/-- Two matrices of different sizes: the hypotheses of C190. -/
example : ([⟨2, 2, fun i j => if i = j then 1 else Complex.I⟩, ⟨1, 1, fun _ _ => 3⟩] : List Mat) ≠ [] := by simp

/-- **C191a.** A complex array written with `arr_to_h5` comes back from `h5_to_arr` with its shape and entries, whatever the dataset is called. -/
theorem C191_roundtrip_partial (a : Arr ℂ) (name : String) : ∃ b, h5ToArr (arrToH5 a name) true none = .ok (.cplx b) ∧ b.shape = a.shape ∧ ∀ i, b.get i = a.get i := by
  refine ⟨⟨(a.shape ++ [2]).dropLast, fun i => ((toReal a).get (i ++ [0]) : ℂ) + Complex.I * ((toReal a).get (i ++ [1]) : ℂ)⟩, ?_, by simp, fun i => ?_⟩
  · unfold h5ToArr h5ToArr.first arrToH5 toCplx toReal
    simp [Except.map]
  · simp only [toReal]
    rw [List.getLast?_append, List.getLast?_append]
    simp only [List.getLast?_singleton, Option.some_or, if_true, List.dropLast_concat]
    rw [if_neg (by simp)]
    rw [mul_comm]
    exact Complex.re_add_im _

/-- **C191b.** Real arrays written and read without conversion come back. -/
theorem C191_real (a : Arr ℝ) (name : String) : h5ToArr (arrToH5Real a name) false none = .ok (.real a) := rfl

/-- **C191c (violation).** Asked for by its name, the same complex array comes back as real pairs, of another shape, although `cplx` is `True`. -/
theorem C191_address_violated (a : Arr ℂ) (name : String) (h : name ≠ "") : ∃ b, h5ToArr (arrToH5 a name) true (some name) = .ok (.real b) ∧ b.shape = a.shape ++ [2] ∧ b.shape ≠ a.shape := by
  refine ⟨toReal a, ?_, rfl, ?_⟩
  · unfold h5ToArr arrToH5
    simp [h]
  · intro e
    have := congrArg List.length e
    simp [toReal] at this

/-- **C190e.** Reading succeeds only from a file holding a matrix dataset: without a file it is an `OSError`, after any history that never wrote matrices to that name in a directory without that file. -/
theorem C190_missing_file (calls : List (N × List Mat)) (fs : FS N) (name : N) (h0 : fs name = none) (h : ∀ c ∈ calls, c.1 = name → c.2 = []) :
    readEpsmat name (history calls fs) = .error .os := by
  have k := (C190_history_partial calls fs name).1
  have e : calls.filter (fun c => decide (c.1 = name ∧ c.2 ≠ [])) = [] := by
    rw [List.filter_eq_nil_iff]
    intro c hc hcon
    rw [decide_eq_true_eq] at hcon
    exact hcon.2 (h c hc hcon.1)
  rw [e] at k
  change history calls fs name = fs name at k
  unfold readEpsmat
  rw [k, h0]

example (m : Mat) : ∃ calls : List (ℕ × List Mat), calls ≠ [] ∧ (∃ c ∈ calls, c.1 = 3) ∧ ∀ c ∈ calls, c.1 = 3 → c.2 = [] :=
  ⟨[(2, [m]), (3, [])], by simp, ⟨(3, []), by simp, rfl⟩, by simp⟩

/-- **C191d.** A dataset is read as complex exactly when its last axis has at least the two entries of a complex number; otherwise it is an `IndexError`. -/
theorem C191_conversion_rejects (a : Arr ℝ) (name : String) :
    (∃ b, h5ToArr (arrToH5Real a name) true none = .ok b) ↔ ∃ s m, a.shape = s ++ [m] ∧ 2 ≤ m := by
  have key : h5ToArr (arrToH5Real a name) true none = (toCplx a).map .cplx := rfl
  rw [key]
  unfold toCplx
  constructor
  · rintro ⟨b, hb⟩
    cases hl : a.shape.getLast? with
    | none => rw [hl] at hb; cases hb
    | some m =>
      rw [hl] at hb
      by_cases hm : 2 ≤ m
      · obtain ⟨s, hs⟩ := List.getLast?_eq_some_iff.1 hl
        exact ⟨s, m, hs, hm⟩
      · simp only [if_neg hm] at hb
        cases hb
  · rintro ⟨s, m, hs, hm⟩
    rw [hs, List.getLast?_append]
    simp only [List.getLast?_singleton, Option.some_or, if_pos hm]
    exact ⟨_, rfl⟩

end Verif.EpsFile
