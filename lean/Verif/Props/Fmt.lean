import Mathlib.Data.List.GetD
import Mathlib.Tactic.IntervalCases
import Mathlib.Tactic.Linarith
import Mathlib.Tactic.FieldSimp
import Verif.Model.Fmt
import Verif.Props.Nonloc
import Verif.Props.QEInp

/-!
# C159: files of Coulomb values
-/

namespace Verif.Fmt

open Verif QEInp

theorem digit_toNat (n : ℕ) : (digit n).toNat = 48 + n % 10 := by
  unfold digit
  have h : n % 10 < 10 := Nat.mod_lt _ (by norm_num)
  generalize n % 10 = k at *
  interval_cases k <;> rfl

theorem isDigit_digit (n : ℕ) : isDigit (digit n) = true := by
  unfold isDigit
  rw [digit_toNat, decide_eq_true_eq]
  omega

theorem natVal_snoc (s : Str) (c : Char) : natVal (s ++ [c]) = 10 * natVal s + (c.toNat - 48) := by
  simp [natVal, List.foldl_append]

theorem natVal_append (a b : Str) : natVal (a ++ b) = natVal a * 10 ^ b.length + natVal b := by
  induction b using List.reverseRecOn with
  | nil => simp [natVal]
  | append_singleton b c ih =>
    rw [← List.append_assoc, natVal_snoc, ih, natVal_snoc, List.length_append, List.length_singleton, pow_succ]
    ring

theorem natStr_spec (n : ℕ) : natVal (natStr n) = n ∧ natStr n ≠ [] ∧ ∀ c ∈ natStr n, isDigit c = true := by
  induction n using Nat.strong_induction_on with
  | _ n ih =>
    unfold natStr
    split
    · next h =>
      refine ⟨?_, by simp, by simp [isDigit_digit]⟩
      simp only [natVal, List.foldl_cons, List.foldl_nil, digit_toNat]
      omega
    · next h =>
      obtain ⟨h1, h2, h3⟩ := ih (n / 10) (by omega)
      refine ⟨?_, by simp, ?_⟩
      · rw [natVal_snoc, h1, digit_toNat]; omega
      · intro c hc
        rcases List.mem_append.1 hc with h | h
        · exact h3 c h
        · rw [List.mem_singleton.1 h]; exact isDigit_digit n

theorem digitsPad_spec (d n : ℕ) : natVal (digitsPad d n) = n % 10 ^ d ∧ (digitsPad d n).length = d ∧ ∀ c ∈ digitsPad d n, isDigit c = true := by
  induction d generalizing n with
  | zero => simp [digitsPad, natVal, Nat.mod_one]
  | succ d ih =>
    obtain ⟨h1, h2, h3⟩ := ih (n / 10)
    refine ⟨?_, by simp [digitsPad, h2], ?_⟩
    · rw [digitsPad, natVal_snoc, h1, digit_toNat, pow_succ', Nat.mod_mul]
      omega
    · intro c hc
      rcases List.mem_append.1 hc with h | h
      · exact h3 c h
      · rw [List.mem_singleton.1 h]; exact isDigit_digit n

theorem pyFloat_digits (c : Char) (s : Str) (h : isDigit c = true) : pyFloat (c :: s) = readUnsigned (c :: s) := by
  unfold pyFloat
  split
  · next heq => injection heq with h1 _; subst h1; simp [isDigit] at h
  · next heq => injection heq with h1 _; subst h1; simp [isDigit] at h
  · rfl

theorem pyFloat_neg (s : Str) : pyFloat ('-' :: s) = (readUnsigned s).map fun x => -x := rfl

theorem take_digits (a : Str) (ha : ∀ c ∈ a, isDigit c = true) (c : Char) (hc : isDigit c = false) (r : Str) :
    (a ++ c :: r).takeWhile isDigit = a ∧ (a ++ c :: r).dropWhile isDigit = c :: r := by
  constructor
  · rw [List.takeWhile_append_of_pos ha, List.takeWhile_cons_of_neg (by simp [hc]), List.append_nil]
  · rw [List.dropWhile_append_of_pos ha, List.dropWhile_cons_of_neg (by simp [hc])]

theorem take_all (a : Str) (ha : ∀ c ∈ a, isDigit c = true) : a.takeWhile isDigit = a ∧ a.dropWhile isDigit = [] := by
  induction a with
  | nil => exact ⟨rfl, rfl⟩
  | cons c a ih =>
    obtain ⟨h1, h2⟩ := ih fun x hx => ha x (List.mem_cons_of_mem _ hx)
    have hc := ha c (by simp)
    exact ⟨by rw [List.takeWhile_cons_of_pos hc, h1], by rw [List.dropWhile_cons_of_pos hc, h2]⟩

/-- Reading digits, a point, digits and an exponent. -/
theorem readUnsigned_point (a b : Str) (ha : ∀ c ∈ a, isDigit c = true) (ha0 : a ≠ []) (hb : ∀ c ∈ b, isDigit c = true) (x : Str) (e : ℤ) (hx : readExp x = some e)
    (hxd : ∀ c r, x = c :: r → isDigit c = false) :
    readUnsigned (a ++ '.' :: (b ++ x)) = some ((natVal (a ++ b) : ℝ) / 10 ^ b.length * (10 : ℝ) ^ e) := by
  obtain ⟨h1, h2⟩ := take_digits a ha '.' (by decide) (b ++ x)
  have h34 : (b ++ x).takeWhile isDigit = b ∧ (b ++ x).dropWhile isDigit = x := by
    cases x with
    | nil => rw [List.append_nil]; exact take_all b hb
    | cons c r => exact take_digits b hb c (hxd c r rfl) r
  unfold readUnsigned
  simp only [h1, h2, h34.1, h34.2, hx, Option.map_some]
  rw [if_neg (by simp [ha0])]

theorem readUnsigned_int (a : Str) (ha : ∀ c ∈ a, isDigit c = true) (ha0 : a ≠ []) : readUnsigned a = some (natVal a : ℝ) := by
  obtain ⟨h1, h2⟩ := take_all a ha
  unfold readUnsigned
  simp only [h1, h2, readExp, Option.map_some, zpow_zero, mul_one, if_neg ha0]

theorem pyFloat_of_digits (s t : Str) (hs : ∀ c ∈ s, isDigit c = true) (hs0 : s ≠ []) : pyFloat (s ++ t) = readUnsigned (s ++ t) := by
  cases s with
  | nil => exact absurd rfl hs0
  | cons c s => exact pyFloat_digits c (s ++ t) (hs c (by simp))

/-- Integers are read back exactly. -/
theorem pyFloat_intStr (z : ℤ) : pyFloat (intStr z) = some (z : ℝ) := by
  obtain ⟨h1, h2, h3⟩ := natStr_spec z.natAbs
  unfold intStr
  by_cases hz : z < 0
  · rw [if_pos hz, List.singleton_append, pyFloat_neg, readUnsigned_int _ h3 h2, h1, Option.map_some]
    congr 1
    have h : ((z.natAbs : ℕ) : ℤ) = -z := by omega
    have h' : ((z.natAbs : ℕ) : ℝ) = -(z : ℝ) := by rw [← Int.cast_natCast, h, Int.cast_neg]
    rw [h', neg_neg]
  · rw [if_neg hz, List.nil_append]
    have := pyFloat_of_digits (natStr z.natAbs) [] h3 h2
    rw [List.append_nil] at this
    rw [this, readUnsigned_int _ h3 h2, h1]
    congr 1
    have h : ((z.natAbs : ℕ) : ℤ) = z := by omega
    rw [← Int.cast_natCast, h]

/-- The number that `fixed` writes. -/
noncomputable def roundTo (d : ℕ) (x : ℝ) : ℝ := (if x < 0 then -1 else 1) * ((Nonloc.rint (|x| * 10 ^ d)).toNat : ℝ) / 10 ^ d

theorem rint_nonneg (y : ℝ) (hy : 0 ≤ y) : 0 ≤ Nonloc.rint y := by
  have := abs_le.1 (Nonloc.rint_err y)
  have h : (-1 : ℝ) < Nonloc.rint y := by linarith
  have : (-1 : ℤ) < Nonloc.rint y := by exact_mod_cast h
  omega

theorem rint_toNat_err (y : ℝ) (hy : 0 ≤ y) : |(((Nonloc.rint y).toNat : ℕ) : ℝ) - y| ≤ 1 / 2 := by
  have h : (((Nonloc.rint y).toNat : ℕ) : ℤ) = Nonloc.rint y := Int.toNat_of_nonneg (rint_nonneg y hy)
  have h' : (((Nonloc.rint y).toNat : ℕ) : ℝ) = ((Nonloc.rint y : ℤ) : ℝ) := by exact_mod_cast h
  rw [h']
  exact Nonloc.rint_err y

theorem roundTo_err (d : ℕ) (x : ℝ) : |roundTo d x - x| ≤ 1 / 2 / 10 ^ d := by
  have hp : (0 : ℝ) < 10 ^ d := by positivity
  have h := rint_toNat_err (|x| * 10 ^ d) (by positivity)
  unfold roundTo
  generalize ((Nonloc.rint (|x| * 10 ^ d)).toNat : ℝ) = m at *
  have key : abs (m / 10 ^ d - abs x) ≤ 1 / 2 / 10 ^ d := by
    have e : m / 10 ^ d - abs x = (m - abs x * 10 ^ d) / 10 ^ d := by field_simp
    rw [e, abs_div, abs_of_pos hp]
    exact div_le_div_of_nonneg_right h hp.le
  split_ifs with hx
  · rw [abs_of_neg hx] at key
    rw [show (-1 : ℝ) * m / 10 ^ d - x = -(m / 10 ^ d - -x) by ring, abs_neg]
    exact key
  · rw [abs_of_nonneg (not_lt.1 hx)] at key
    rw [one_mul]
    exact key

theorem pyFloat_fixed (d : ℕ) (x : ℝ) : pyFloat (fixed d x) = some (roundTo d x) := by
  obtain ⟨m, hm⟩ : ∃ m, m = (Nonloc.rint (|x| * 10 ^ d)).toNat := ⟨_, rfl⟩
  obtain ⟨a1, a2, a3⟩ := natStr_spec (m / 10 ^ d)
  obtain ⟨b1, b2, b3⟩ := digitsPad_spec d (m % 10 ^ d)
  have hr : readUnsigned (natStr (m / 10 ^ d) ++ '.' :: digitsPad d (m % 10 ^ d)) = some ((m : ℝ) / 10 ^ d) := by
    have := readUnsigned_point _ _ a3 a2 b3 [] 0 rfl (by intro c r h; cases h)
    rw [List.append_nil] at this
    rw [this, natVal_append, a1, b1, b2, Nat.mod_mod, Nat.div_add_mod', zpow_zero, mul_one]
  unfold fixed roundTo
  simp only [← hm]
  by_cases hx : x < 0
  · rw [if_pos hx, if_pos hx, List.singleton_append, List.cons_append, pyFloat_neg, hr, Option.map_some]
    congr 1
    ring
  · rw [if_neg hx, if_neg hx, List.nil_append, pyFloat_of_digits _ _ a3 a2, hr, one_mul]

theorem readExp_expStr (e : ℤ) : readExp (expStr e) = some e := by
  obtain ⟨h1, h2, h3⟩ := natStr_spec e.natAbs
  have key : ∀ ds : Str, ds ≠ [] → (∀ c ∈ ds, isDigit c = true) → natVal ds = e.natAbs → readExp ('E' :: (if e < 0 then '-' else '+') :: ds) = some e := by
    intro ds d1 d2 d3
    have hall : ds.all isDigit = true := List.all_eq_true.2 d2
    by_cases he : e < 0
    · simp only [readExp, if_pos he, true_or, if_true]
      rw [if_pos ⟨d1, hall⟩, d3]
      congr 1
      omega
    · simp only [readExp, if_neg he, true_or, if_true]
      rw [if_pos ⟨d1, hall⟩, d3]
      congr 1
      omega
  unfold expStr
  by_cases h10 : e.natAbs < 10
  · rw [if_pos h10]
    refine key _ (by simp) ?_ ?_
    · intro c hc
      rcases List.mem_cons.1 hc with rfl | h
      · decide
      · exact h3 c h
    · rw [← List.singleton_append, natVal_append, h1]; simp [natVal]
  · rw [if_neg h10]
    exact key _ h2 h3 h1

theorem sciParts_spec (d : ℕ) (x : ℝ) (hx : 0 < x) : |((sciParts d x).1 : ℝ) / 10 ^ d * (10 : ℝ) ^ (sciParts d x).2 - x| ≤ x * (1 / 2 / 10 ^ d) := by
  obtain ⟨e, he⟩ : ∃ e, e = Int.log 10 x := ⟨_, rfl⟩
  obtain ⟨m, hm⟩ : ∃ m, m = (Nonloc.rint (x / (10 : ℝ) ^ e * 10 ^ d)).toNat := ⟨_, rfl⟩
  have hpe : (0 : ℝ) < (10 : ℝ) ^ e := by positivity
  have hpd : (0 : ℝ) < 10 ^ d := by positivity
  have hle : (10 : ℝ) ^ e ≤ x := by rw [he]; exact_mod_cast Int.zpow_log_le_self (by norm_num) hx
  have herr := rint_toNat_err (x / (10 : ℝ) ^ e * 10 ^ d) (by positivity)
  rw [← hm] at herr
  have hval : ((sciParts d x).1 : ℝ) / 10 ^ d * (10 : ℝ) ^ (sciParts d x).2 = (m : ℝ) / 10 ^ d * (10 : ℝ) ^ e := by
    unfold sciParts
    simp only [← he, ← hm]
    split
    · next h =>
      rw [h, zpow_add₀ (by norm_num), zpow_one]
      push_cast
      rw [pow_succ]
      field_simp
    · rfl
  rw [hval]
  have e1 : (m : ℝ) / 10 ^ d * (10 : ℝ) ^ e - x = ((m : ℝ) - x / (10 : ℝ) ^ e * 10 ^ d) * ((10 : ℝ) ^ e / 10 ^ d) := by field_simp
  rw [e1, abs_mul, abs_of_pos (show (0 : ℝ) < (10 : ℝ) ^ e / 10 ^ d by positivity)]
  calc _ ≤ 1 / 2 * ((10 : ℝ) ^ e / 10 ^ d) := mul_le_mul_of_nonneg_right herr (by positivity)
    _ ≤ 1 / 2 * (x / 10 ^ d) := by gcongr
    _ = x * (1 / 2 / 10 ^ d) := by ring

/-- What `sci` writes is read back with a small relative error. -/
theorem pyFloat_sci (d : ℕ) (x : ℝ) : ∃ y, pyFloat (sci d x) = some y ∧ |y - x| ≤ |x| * (1 / 2 / 10 ^ d) := by
  obtain ⟨p, hp⟩ : ∃ p : ℕ × ℤ, p = if x = 0 then (0, 0) else sciParts d |x| := ⟨_, rfl⟩
  obtain ⟨a1, a2, a3⟩ := natStr_spec (p.1 / 10 ^ d)
  obtain ⟨b1, b2, b3⟩ := digitsPad_spec d (p.1 % 10 ^ d)
  have hr : readUnsigned (natStr (p.1 / 10 ^ d) ++ '.' :: (digitsPad d (p.1 % 10 ^ d) ++ expStr p.2)) = some ((p.1 : ℝ) / 10 ^ d * (10 : ℝ) ^ p.2) := by
    rw [readUnsigned_point _ _ a3 a2 b3 _ _ (readExp_expStr p.2), natVal_append, a1, b1, b2, Nat.mod_mod, Nat.div_add_mod']
    intro c r h
    unfold expStr at h
    injection h with h1 _
    subst h1
    decide
  have hsci : sci d x = (if x < 0 then ['-'] else []) ++ (natStr (p.1 / 10 ^ d) ++ '.' :: (digitsPad d (p.1 % 10 ^ d) ++ expStr p.2)) := by
    unfold sci
    simp only [← hp, List.append_assoc, List.cons_append]
  have hv : abs ((p.1 : ℝ) / 10 ^ d * (10 : ℝ) ^ p.2 - abs x) ≤ |x| * (1 / 2 / 10 ^ d) := by
    by_cases h0 : x = 0
    · rw [if_pos h0] at hp; simp [hp, h0]
    · rw [if_neg h0] at hp
      rw [hp]
      exact sciParts_spec d |x| (abs_pos.2 h0)
  rw [hsci]
  by_cases hx : x < 0
  · rw [if_pos hx, List.singleton_append, pyFloat_neg, hr, Option.map_some]
    refine ⟨_, rfl, ?_⟩
    rw [abs_of_neg hx] at hv ⊢
    rw [show -((p.1 : ℝ) / 10 ^ d * (10 : ℝ) ^ p.2) - x = -((p.1 : ℝ) / 10 ^ d * (10 : ℝ) ^ p.2 - -x) by ring, abs_neg]
    exact hv
  · rw [if_neg hx, List.nil_append, pyFloat_of_digits _ _ a3 a2, hr]
    refine ⟨_, rfl, ?_⟩
    rw [abs_of_nonneg (not_lt.1 hx)] at hv ⊢
    exact hv

/-! ## Words of a line -/

/-- The words with the empty pieces between two blanks. -/
def pieces (s : Str) : List Str := s.foldr (fun ch acc => if isWs ch then [] :: acc else match acc with
    | [] => [[ch]]
    | h :: t => (ch :: h) :: t) [[]]

theorem words_eq (s : Str) : words s = (pieces s).filter fun w => !w.isEmpty := rfl

theorem pieces_space (c : Char) (s : Str) (h : isWs c = true) : pieces (c :: s) = [] :: pieces s := by
  simp only [pieces, List.foldr_cons, h, if_true]

theorem pieces_tok (tok r : Str) (ht : ∀ c ∈ tok, isWs c = false) : ∃ h t, pieces r = h :: t ∧ pieces (tok ++ r) = (tok ++ h) :: t := by
  induction tok with
  | nil =>
    cases r with
    | nil => exact ⟨[], [], rfl, rfl⟩
    | cons c r =>
      have : ∃ h t, pieces (c :: r) = h :: t := by
        simp only [pieces, List.foldr_cons]
        split
        · exact ⟨_, _, rfl⟩
        · split <;> exact ⟨_, _, rfl⟩
      obtain ⟨h, t, e⟩ := this
      exact ⟨h, t, e, e⟩
  | cons c tok ih =>
    obtain ⟨h, t, e1, e2⟩ := ih fun x hx => ht x (List.mem_cons_of_mem _ hx)
    refine ⟨h, t, e1, ?_⟩
    have hc := ht c (by simp)
    show (if isWs c then [] :: pieces (tok ++ r) else match pieces (tok ++ r) with
      | [] => [[c]]
      | h :: t => (c :: h) :: t) = _
    rw [e2, if_neg (by simp [hc])]
    rfl

theorem words_spaces (k : ℕ) (s : Str) : words (List.replicate k ' ' ++ s) = words s := by
  induction k with
  | zero => rfl
  | succ k ih =>
    rw [List.replicate_succ, List.cons_append, words_eq, pieces_space _ _ (by decide), List.filter_cons_of_neg (by simp)]
    exact ih

theorem words_space (s : Str) : words (' ' :: s) = words s := words_spaces 1 s

theorem words_tok (tok r : Str) (h0 : tok ≠ []) (ht : ∀ c ∈ tok, isWs c = false) : words (tok ++ ' ' :: r) = tok :: words r := by
  obtain ⟨h, t, e1, e2⟩ := pieces_tok tok (' ' :: r) ht
  rw [pieces_space _ _ (by decide)] at e1
  injection e1 with e3 e4
  subst e3 e4
  rw [words_eq, e2, List.append_nil, List.filter_cons_of_pos (by simp [h0])]
  rfl

theorem words_last (tok : Str) (h0 : tok ≠ []) (ht : ∀ c ∈ tok, isWs c = false) : words tok = [tok] := by
  obtain ⟨h, t, e1, e2⟩ := pieces_tok tok [] ht
  have : pieces [] = [[]] := rfl
  rw [this] at e1
  injection e1 with e3 e4
  subst e3 e4
  rw [List.append_nil] at e2
  rw [words_eq, e2, List.filter_cons_of_pos (by simp [h0])]
  rfl

theorem words_padTok (w : ℕ) (tok r : Str) (h0 : tok ≠ []) (ht : ∀ c ∈ tok, isWs c = false) : words (padLeft w tok ++ ' ' :: r) = tok :: words r := by
  unfold padLeft
  rw [List.append_assoc, words_spaces, words_tok _ _ h0 ht]

/-- A character of a written number. -/
theorem digit_not_ws {c : Char} (h : isDigit c = true) : isWs c = false := by
  have : 48 ≤ c.toNat ∧ c.toNat ≤ 57 := by simpa [isDigit] using h
  have hn : ∀ d : Char, d.toNat < 48 → c ≠ d := by
    rintro d hd rfl
    omega
  simp [isWs, hn ' ' (by decide), hn '\t' (by decide), hn '\n' (by decide), hn '\r' (by decide), hn '\x0b' (by decide), hn '\x0c' (by decide)]

theorem intStr_tok (z : ℤ) : intStr z ≠ [] ∧ ∀ c ∈ intStr z, isWs c = false := by
  obtain ⟨_, h2, h3⟩ := natStr_spec z.natAbs
  refine ⟨by simp [intStr, h2], ?_⟩
  intro c hc
  rcases List.mem_append.1 hc with h | h
  · split at h
    · rw [List.mem_singleton.1 h]; decide
    · cases h
  · exact digit_not_ws (h3 c h)

theorem fixed_tok (d : ℕ) (x : ℝ) : fixed d x ≠ [] ∧ ∀ c ∈ fixed d x, isWs c = false := by
  obtain ⟨m, hm⟩ : ∃ m, m = (Nonloc.rint (|x| * 10 ^ d)).toNat := ⟨_, rfl⟩
  obtain ⟨_, a2, a3⟩ := natStr_spec (m / 10 ^ d)
  obtain ⟨_, _, b3⟩ := digitsPad_spec d (m % 10 ^ d)
  unfold fixed
  simp only [← hm]
  refine ⟨by simp, ?_⟩
  intro c hc
  rcases List.mem_append.1 hc with h | h
  · rcases List.mem_append.1 h with h | h
    · split at h
      · rw [List.mem_singleton.1 h]; decide
      · cases h
    · exact digit_not_ws (a3 c h)
  · rcases List.mem_cons.1 h with rfl | h
    · decide
    · exact digit_not_ws (b3 c h)

theorem expStr_ws (e : ℤ) : ∀ c ∈ expStr e, isWs c = false := by
  obtain ⟨_, _, h3⟩ := natStr_spec e.natAbs
  intro c hc
  unfold expStr at hc
  rcases List.mem_cons.1 hc with rfl | hc
  · decide
  · rcases List.mem_cons.1 hc with h | hc
    · rw [h]; split <;> decide
    · by_cases h10 : e.natAbs < 10
      · rw [if_pos h10] at hc
        rcases List.mem_cons.1 hc with rfl | hc
        · decide
        · exact digit_not_ws (h3 c hc)
      · rw [if_neg h10] at hc
        exact digit_not_ws (h3 c hc)

theorem sci_tok (d : ℕ) (x : ℝ) : sci d x ≠ [] ∧ ∀ c ∈ sci d x, isWs c = false := by
  obtain ⟨p, hp⟩ : ∃ p : ℕ × ℤ, p = if x = 0 then (0, 0) else sciParts d |x| := ⟨_, rfl⟩
  obtain ⟨_, a2, a3⟩ := natStr_spec (p.1 / 10 ^ d)
  obtain ⟨_, _, b3⟩ := digitsPad_spec d (p.1 % 10 ^ d)
  unfold sci
  simp only [← hp]
  refine ⟨by simp, ?_⟩
  intro c hc
  rcases List.mem_append.1 hc with h | h
  · rcases List.mem_append.1 h with h | h
    · rcases List.mem_append.1 h with h | h
      · split at h
        · rw [List.mem_singleton.1 h]; decide
        · cases h
      · exact digit_not_ws (a3 c h)
    · rcases List.mem_cons.1 h with rfl | h
      · decide
      · exact digit_not_ws (b3 c h)
  · exact expStr_ws _ c h

/-- The words of one line of the file. -/
theorem words_line (r : VRow) : words (vcoulLine r) =
    [fixed 8 (r.q 0), fixed 8 (r.q 1), fixed 8 (r.q 2), intStr (r.g 0), intStr (r.g 1), intStr (r.g 2), sci 7 r.v] := by
  have e : vcoulLine r = padLeft 11 (fixed 8 (r.q 0)) ++ ' ' :: (padLeft 11 (fixed 8 (r.q 1)) ++ ' ' :: (padLeft 11 (fixed 8 (r.q 2)) ++ ' ' :: (' ' ::
    (padLeft 6 (intStr (r.g 0)) ++ ' ' :: (padLeft 6 (intStr (r.g 1)) ++ ' ' :: (padLeft 6 (intStr (r.g 2)) ++ ' ' :: (List.replicate 6 ' ' ++ sci 7 r.v))))))) := by
    simp [vcoulLine, List.replicate_succ, List.append_assoc]
  have hf := fun x => fixed_tok 8 x
  rw [e, words_padTok _ _ _ (hf _).1 (hf _).2, words_padTok _ _ _ (hf _).1 (hf _).2, words_padTok _ _ _ (hf _).1 (hf _).2, words_space,
    words_padTok _ _ _ (intStr_tok _).1 (intStr_tok _).2, words_padTok _ _ _ (intStr_tok _).1 (intStr_tok _).2, words_padTok _ _ _ (intStr_tok _).1 (intStr_tok _).2,
    words_spaces, words_last _ (sci_tok _ _).1 (sci_tok _ _).2]

theorem nl_of_ws {s : Str} (h : ∀ c ∈ s, isWs c = false) : '\n' ∉ s := fun hm => by have := h _ hm; revert this; decide

theorem nl_pad (w : ℕ) {s : Str} (h : '\n' ∉ s) : '\n' ∉ padLeft w s := by
  unfold padLeft
  intro hm
  rcases List.mem_append.1 hm with h' | h'
  · have := List.eq_of_mem_replicate h'; revert this; decide
  · exact h h'

theorem nl_line (r : VRow) : '\n' ∉ vcoulLine r := by
  have hf := fun x => nl_pad 11 (nl_of_ws (fixed_tok 8 x).2)
  have hi := fun x => nl_pad 6 (nl_of_ws (intStr_tok x).2)
  have hs := nl_of_ws (sci_tok 7 r.v).2
  simp only [vcoulLine, List.mem_append, List.mem_cons, hf, hi, hs, List.mem_replicate, not_or, or_false, false_or]
  decide

/-- The lines of the written text. -/
theorem lines_write (rows : List VRow) : ((split '\n' (writeVcoul rows)).map words).filter (fun w => !w.isEmpty) = rows.map fun r => words (vcoulLine r) := by
  induction rows with
  | nil => rfl
  | cons r rows ih =>
    have e : writeVcoul (r :: rows) = vcoulLine r ++ '\n' :: writeVcoul rows := by simp [writeVcoul]
    rw [e, QEInp.split_append (nl_line r), List.map_cons, List.filter_cons_of_pos (by rw [words_line]; rfl), ih, List.map_cons]

theorem read_write (rows : List VRow) (h : 2 ≤ rows.length) : loadVcoul (writeVcoul rows) = .ok
    (rows.map fun r => [some (roundTo 8 (r.q 0)), some (roundTo 8 (r.q 1)), some (roundTo 8 (r.q 2))],
      rows.map fun r => [some (r.g 0 : ℝ), some (r.g 1 : ℝ), some (r.g 2 : ℝ)], rows.map fun r => pyFloat (sci 7 r.v)) := by
  have hlen : ∀ r, (words (vcoulLine r)).length = 7 := fun r => by rw [words_line]; rfl
  obtain ⟨r0, rest, hr⟩ : ∃ r0 rest, rows = r0 :: rest := by
    cases rows with
    | nil => simp at h
    | cons r0 rest => exact ⟨r0, rest, rfl⟩
  have hg : genfromtxt (writeVcoul rows) = .ok (rows.map fun r => (words (vcoulLine r)).map pyFloat) := by
    unfold genfromtxt
    simp only [lines_write]
    rw [if_pos]
    · rw [List.map_map]; rfl
    · rw [List.all_eq_true]
      intro w hw
      obtain ⟨r, _, rfl⟩ := List.mem_map.1 hw
      rw [hr, List.map_cons, List.headD_cons, hlen, hlen]
      rfl
  unfold loadVcoul
  rw [hg]
  simp only
  rw [if_neg]
  · simp only [List.map_map, Function.comp_def, words_line, List.map_cons, List.map_nil, pyFloat_fixed, pyFloat_intStr]
    rfl
  · rw [List.length_map, hr, List.map_cons, List.headD_cons, List.length_map, hlen, List.length_cons]
    rw [hr, List.length_cons] at h
    omega

/-- What a row read from the file has to do with the row written to it: q-vector within half a unit of the eighth decimal, the G-vector exactly, the Coulomb value within a relative error of half a unit
of the seventh decimal. -/
def SameRow (r : VRow) (q g : List (Option ℝ)) (v : Option ℝ) : Prop :=
  (∃ q' : Fin 3 → ℝ, q = [some (q' 0), some (q' 1), some (q' 2)] ∧ ∀ j, |q' j - r.q j| ≤ 5 / 10 ^ 9) ∧
  g = [some (r.g 0 : ℝ), some (r.g 1 : ℝ), some (r.g 2 : ℝ)] ∧ ∃ v', v = some v' ∧ |v' - r.v| ≤ 5 / 10 ^ 8 * |r.v|

theorem row_same (r : VRow) : SameRow r [some (roundTo 8 (r.q 0)), some (roundTo 8 (r.q 1)), some (roundTo 8 (r.q 2))]
    [some (r.g 0 : ℝ), some (r.g 1 : ℝ), some (r.g 2 : ℝ)] (pyFloat (sci 7 r.v)) := by
  obtain ⟨y, h1, h2⟩ := pyFloat_sci 7 r.v
  refine ⟨⟨fun j => roundTo 8 (r.q j), rfl, fun j => (roundTo_err 8 (r.q j)).trans (by norm_num)⟩, rfl, y, h1, h2.trans ?_⟩
  rw [mul_comm, show (1 : ℝ) / 2 / 10 ^ 7 = 5 / 10 ^ 8 by norm_num]

/-- C159: reading the file that was written for the q-points `iqs` gives one row per q-point and G-vector, in the order of the list and of the G-vectors of each q-point. -/
theorem C159_round_trip_partial (q0 : Option ℕ) (q0vec : Fin 3 → ℝ) (qpts : ℕ → Fin 3 → ℝ) (gs : ℕ → List (Fin 3 → ℤ)) (v : ℕ → ℕ → ℝ) (iqs : List ℕ)
    (h2 : 2 ≤ (iqs.map fun i => (gs i).length).sum) :
    ∃ ql gl vl, loadVcoul (writeVcoul (vcoulRows q0 q0vec qpts gs v iqs)) = .ok (ql, gl, vl) ∧
      ql.length = (iqs.map fun i => (gs i).length).sum ∧ gl.length = ql.length ∧ vl.length = ql.length ∧
      ∀ pre i post, iqs = pre ++ i :: post → ∀ k (hk : k < (gs i).length), ∃ q g vv,
        ql[(pre.map fun i => (gs i).length).sum + k]? = some q ∧ gl[(pre.map fun i => (gs i).length).sum + k]? = some g ∧ vl[(pre.map fun i => (gs i).length).sum + k]? = some vv ∧
        SameRow ⟨if q0 = some i then q0vec else qpts i, (gs i)[k], v i k⟩ q g vv := by
  have hlen : ∀ l : List ℕ, (vcoulRows q0 q0vec qpts gs v l).length = (l.map fun i => (gs i).length).sum := by
    intro l
    simp [vcoulRows, List.length_flatMap]
  refine ⟨_, _, _, read_write _ (by rw [hlen]; exact h2), by rw [List.length_map, hlen], by simp, by simp, ?_⟩
  intro pre i post e k hk
  have hrow : (vcoulRows q0 q0vec qpts gs v iqs)[(pre.map fun i => (gs i).length).sum + k]? = some ⟨if q0 = some i then q0vec else qpts i, (gs i)[k], v i k⟩ := by
    have e1 : vcoulRows q0 q0vec qpts gs v iqs = vcoulRows q0 q0vec qpts gs v pre ++ (vcoulRows q0 q0vec qpts gs v [i] ++ vcoulRows q0 q0vec qpts gs v post) := by
      rw [e]; simp [vcoulRows]
    rw [e1, ← hlen pre, List.getElem?_append_right (by omega), Nat.add_sub_cancel_left, List.getElem?_append_left (by rw [hlen]; simpa using hk)]
    simp only [vcoulRows, List.flatMap_cons, List.flatMap_nil, List.append_nil, List.getElem?_map, List.getElem?_range hk, Option.map_some]
    rw [List.getD_eq_getElem (hn := hk)]
  simp only [List.getElem?_map, hrow, Option.map_some]
  exact ⟨_, _, _, rfl, rfl, rfl, row_same _⟩

/-- C159 does not hold for a file with a single row, or none: the loader raises `IndexError`. -/
theorem C159_single_row_violated (rows : List VRow) (h : rows.length ≤ 1) : loadVcoul (writeVcoul rows) = .error .index := by
  have hg : ∃ l, genfromtxt (writeVcoul rows) = .ok l ∧ l.length ≤ 1 := by
    unfold genfromtxt
    simp only [lines_write]
    rw [if_pos]
    · exact ⟨_, rfl, by simpa using h⟩
    · rw [List.all_eq_true]
      intro w hw
      obtain ⟨r, _, rfl⟩ := List.mem_map.1 hw
      rcases rows with _ | ⟨a, rows⟩
      · simp at hw
      · rw [List.map_cons, List.headD_cons, words_line, words_line]; rfl
  obtain ⟨l, e, hl⟩ := hg
  unfold loadVcoul
  rw [e]
  simp only
  rw [if_pos (Or.inl (by omega))]

/-- Two q-points, the first replaced by `q0vec`; three rows. -/
example : 2 ≤ (([0, 1] : List ℕ).map fun i => ((if i = 0 then [![0, 0, 0]] else [![0, 0, 0], ![-1, 2, 0]] : List (Fin 3 → ℤ))).length).sum := by decide

end Verif.Fmt
