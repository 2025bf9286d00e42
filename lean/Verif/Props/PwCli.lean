import Verif.Model.PwCli
import Verif.Props.DFTComm
import Verif.Props.Fmt

/-!
# C165, C166: command line and process layout of the PWscf front end
-/

namespace Verif.PwCli

open Verif.QEInp Verif.Fmt Verif.DFTComm

/-! ## Specification -/

/-- A command line: the program, then options, each with its value. -/
def cmdline (prog : Str) (opts : List (Str × Str)) : List Str := prog :: opts.flatMap fun o => [o.1, o.2]

/-- The names of the options. -/
def optionNames : List Str := ["-in", "-nk", "-npools", "-nt", "-ntg", "-nb", "-nband"].map String.toList

/-- No word that is not in the place of an option has an option's name. -/
def Plain (prog : Str) (opts : List (Str × Str)) : Prop := prog ∉ optionNames ∧ ∀ o ∈ opts, o.2 ∉ optionNames

/-- The value of an option: that of its first occurrence. -/
def valueOf (opts : List (Str × Str)) (name : Str) : Option Str := (opts.find? fun o => o.1 = name).map Prod.snd

/-! ## C165: options -/

theorem fetchArg_nil (arg : Str) : fetchArg [] arg = none := by simp [fetchArg]

theorem fetchArg_cons_ne (a arg : Str) (l : List Str) (h : a ≠ arg) : fetchArg (a :: l) arg = fetchArg l arg := by
  unfold fetchArg
  simp only [List.mem_cons, Ne.symm h, false_or, List.idxOf_cons_ne l h, List.length_cons]
  by_cases hm : arg ∈ l
  · simp only [hm, if_true]
    by_cases hl : l.length > l.idxOf arg + 1
    · rw [if_pos hl, if_pos (by omega)]
      simp
    · rw [if_neg hl, if_neg (by omega)]
  · simp only [hm, if_false]

theorem fetchArg_hit (v arg : Str) (l : List Str) : fetchArg (arg :: v :: l) arg = some v := by
  unfold fetchArg
  simp

theorem fetchArg_opts (opts : List (Str × Str)) (name : Str) (h : ∀ o ∈ opts, o.2 ≠ name) :
    fetchArg (opts.flatMap fun o => [o.1, o.2]) name = valueOf opts name := by
  induction opts with
  | nil => exact fetchArg_nil name
  | cons o opts ih =>
    have ih := ih fun p hp => h p (List.mem_cons_of_mem _ hp)
    rw [List.flatMap_cons]
    by_cases ho : o.1 = name
    · have e : [o.1, o.2] ++ (opts.flatMap fun o => [o.1, o.2]) = name :: o.2 :: opts.flatMap fun o => [o.1, o.2] := by rw [ho]; rfl
      rw [e, fetchArg_hit]
      simp [valueOf, ho]
    · have e : [o.1, o.2] ++ (opts.flatMap fun o => [o.1, o.2]) = o.1 :: o.2 :: opts.flatMap fun o => [o.1, o.2] := rfl
      rw [e, fetchArg_cons_ne _ _ _ ho, fetchArg_cons_ne _ _ _ (h o (by simp)), ih]
      simp [valueOf, ho]

theorem fetchArg_cmdline (prog : Str) (opts : List (Str × Str)) (hp : Plain prog opts) (name : Str) (hn : name ∈ optionNames) :
    fetchArg (cmdline prog opts) name = valueOf opts name := by
  unfold cmdline
  have h1 : prog ≠ name := by rintro rfl; exact hp.1 hn
  rw [fetchArg_cons_ne _ _ _ h1, fetchArg_opts opts name fun o ho e => hp.2 o ho (by rw [e]; exact hn)]

/-- **C165a.** On a command line of options with values, whatever other options there are and in whatever order: the number of pools is the value of the first `-nk`, else of the first `-npools`,
else one; likewise the band groups; the input file is the value of the first `-in`. -/
theorem C165_options (prog : Str) (opts : List (Str × Str)) (hp : Plain prog opts) (o : Opts) (h : parseArgs (cmdline prog opts) = .ok o) :
    (match valueOf opts "-nk".toList <|> valueOf opts "-npools".toList with
      | some s => castInt s = .ok o.npools
      | none => o.npools = 1) ∧
    (match valueOf opts "-nb".toList <|> valueOf opts "-nband".toList with
      | some s => castInt s = .ok o.nband
      | none => o.nband = 1) ∧
    ∀ s, valueOf opts "-in".toList = some s → o.filename = some s := by
  have f := fun name hn => fetchArg_cmdline prog opts hp name hn
  unfold parseArgs fetchLSD at h
  have e1 : ('-' :: "in".toList) = "-in".toList := by decide
  have e2 : ('-' :: "nk".toList) = "-nk".toList := by decide
  have e3 : ('-' :: "npools".toList) = "-npools".toList := by decide
  have e4 : ('-' :: "nt".toList) = "-nt".toList := by decide
  have e5 : ('-' :: "ntg".toList) = "-ntg".toList := by decide
  have e6 : ('-' :: "nb".toList) = "-nb".toList := by decide
  have e7 : ('-' :: "nband".toList) = "-nband".toList := by decide
  simp only [e1, e2, e3, e4, e5, e6, e7] at h
  rw [f _ (by decide), f _ (by decide), f _ (by decide), f _ (by decide), f _ (by decide), f _ (by decide), f _ (by decide)] at h
  simp only [bind, Except.bind, pure, Except.pure] at h
  generalize valueOf opts "-in".toList = vi at h ⊢
  generalize valueOf opts "-nk".toList = vk at h ⊢
  generalize valueOf opts "-npools".toList = vp at h ⊢
  generalize valueOf opts "-nt".toList = vt at h
  generalize valueOf opts "-ntg".toList = vg at h
  generalize valueOf opts "-nb".toList = vb at h ⊢
  generalize valueOf opts "-nband".toList = vn at h ⊢
  have key : ∀ (a b : Option Str) (d : ℕ) (x : ℕ), (match a with
        | some s => castInt s
        | none => match b with
          | some s => castInt s
          | none => Except.ok d) = Except.ok x →
      match a <|> b with
        | some s => castInt s = .ok x
        | none => x = d := by
    intro a b d x hx
    cases a with
    | some s => exact hx
    | none =>
      cases b with
      | some s => exact hx
      | none => injection hx with hx; exact hx.symm
  split at h
  · cases h
  · next fn hfn =>
    split at h
    · cases h
    · next k hk =>
      split at h
      · cases h
      · next t ht =>
        split at h
        · cases h
        · next b hb =>
          injection h with h; subst h
          refine ⟨key vk vp 1 k hk, key vb vn 1 b hb, fun s hs => ?_⟩
          subst hs
          injection hfn with hfn
          exact hfn.symm

theorem castInt_natStr (n : ℕ) : castInt (natStr n) = .ok n := by
  obtain ⟨h1, h2, h3⟩ := natStr_spec n
  unfold castInt
  rw [if_pos ⟨h2, List.all_eq_true.2 h3⟩, h1]

/-- The counts that a user writes as decimal numbers are understood. -/
theorem C165_numbers (prog : Str) (file : Str) (k b : ℕ) (hp : prog ∉ optionNames) (hf : file ∉ optionNames) :
    parseArgs (cmdline prog [("-in".toList, file), ("-nk".toList, natStr k), ("-nb".toList, natStr b)]) = .ok ⟨some file, k, 1, b⟩ := by
  have hn : ∀ n, natStr n ∉ optionNames := by
    intro n hm
    obtain ⟨-, -, h2⟩ := natStr_spec n
    have : ∀ s ∈ optionNames, s.all isDigit = false := by decide
    have := this _ hm
    rw [List.all_eq_true.2 h2] at this
    cases this
  have hpl : Plain prog [("-in".toList, file), ("-nk".toList, natStr k), ("-nb".toList, natStr b)] := by
    refine ⟨hp, fun o ho => ?_⟩
    simp only [List.mem_cons, List.not_mem_nil, or_false] at ho
    rcases ho with rfl | rfl | rfl
    · exact hf
    · exact hn k
    · exact hn b
  have f := fun name hn => fetchArg_cmdline prog _ hpl name hn
  unfold parseArgs fetchLSD
  have e1 : ('-' :: "in".toList) = "-in".toList := by decide
  have e2 : ('-' :: "nk".toList) = "-nk".toList := by decide
  have e3 : ('-' :: "npools".toList) = "-npools".toList := by decide
  have e4 : ('-' :: "nt".toList) = "-nt".toList := by decide
  have e5 : ('-' :: "ntg".toList) = "-ntg".toList := by decide
  have e6 : ('-' :: "nb".toList) = "-nb".toList := by decide
  have e7 : ('-' :: "nband".toList) = "-nband".toList := by decide
  simp only [e1, e2, e3, e4, e5, e6, e7]
  rw [f _ (by decide), f _ (by decide), f _ (by decide), f _ (by decide), f _ (by decide), f _ (by decide), f _ (by decide)]
  have v1 : valueOf [("-in".toList, file), ("-nk".toList, natStr k), ("-nb".toList, natStr b)] "-in".toList = some file := by
    simp [valueOf, List.find?]
  have v2 : valueOf [("-in".toList, file), ("-nk".toList, natStr k), ("-nb".toList, natStr b)] "-nk".toList = some (natStr k) := by
    simp [valueOf, List.find?]
  have v3 : valueOf [("-in".toList, file), ("-nk".toList, natStr k), ("-nb".toList, natStr b)] "-nb".toList = some (natStr b) := by
    simp [valueOf, List.find?]
  have v4 : valueOf [("-in".toList, file), ("-nk".toList, natStr k), ("-nb".toList, natStr b)] "-nt".toList = none := by
    simp [valueOf, List.find?]
  have v5 : valueOf [("-in".toList, file), ("-nk".toList, natStr k), ("-nb".toList, natStr b)] "-ntg".toList = none := by
    simp [valueOf, List.find?]
  rw [v1, v2, v3, v4, v5]
  simp only [castInt_natStr, bind, Except.bind, pure, Except.pure]

/-- **C165b (violation).** A file given without `-in` is found only if it is the first word: otherwise the first word, an option, is taken for the file. -/
theorem C165_first_word_violated (k : ℕ) (file : Str) (hf : file ∉ optionNames) :
    ∃ o, parseArgs ["pw.py".toList, "-nk".toList, natStr k, file] = .ok o ∧ o.filename = some "-nk".toList := by
  have hn : ∀ n, natStr n ∉ optionNames := by
    intro n hm
    obtain ⟨-, -, h2⟩ := natStr_spec n
    have : ∀ s ∈ optionNames, s.all isDigit = false := by decide
    have := this _ hm
    rw [List.all_eq_true.2 h2] at this
    cases this
  have g : ∀ name ∈ optionNames, name ≠ "-nk".toList → fetchArg ["pw.py".toList, "-nk".toList, natStr k, file] name = none := by
    intro name hm hne
    rw [fetchArg_cons_ne _ _ _ (by rintro rfl; revert hm; decide), fetchArg_cons_ne _ _ _ (Ne.symm hne),
      fetchArg_cons_ne _ _ _ (by rintro rfl; exact hn k hm), fetchArg_cons_ne _ _ _ (by rintro rfl; exact hf hm), fetchArg_nil]
  have gk : fetchArg ["pw.py".toList, "-nk".toList, natStr k, file] "-nk".toList = some (natStr k) := by
    rw [fetchArg_cons_ne _ _ _ (by decide), fetchArg_hit]
  refine ⟨⟨some "-nk".toList, k, 1, 1⟩, ?_, rfl⟩
  unfold parseArgs fetchLSD
  have e1 : ('-' :: "in".toList) = "-in".toList := by decide
  have e2 : ('-' :: "nk".toList) = "-nk".toList := by decide
  have e3 : ('-' :: "npools".toList) = "-npools".toList := by decide
  have e4 : ('-' :: "nt".toList) = "-nt".toList := by decide
  have e5 : ('-' :: "ntg".toList) = "-ntg".toList := by decide
  have e6 : ('-' :: "nb".toList) = "-nb".toList := by decide
  have e7 : ('-' :: "nband".toList) = "-nband".toList := by decide
  simp only [e1, e2, e3, e4, e5, e6, e7]
  rw [gk, g "-in".toList (by decide) (by decide), g "-nt".toList (by decide) (by decide), g "-ntg".toList (by decide) (by decide),
    g "-nb".toList (by decide) (by decide), g "-nband".toList (by decide) (by decide)]
  simp only [castInt_natStr, bind, Except.bind, pure, Except.pure]
  rfl

example : Plain "pw.py".toList [("-in".toList, "si.in".toList), ("-nk".toList, "4".toList)] := by
  refine ⟨by decide, fun o ho => ?_⟩
  simp only [List.mem_cons, List.not_mem_nil, or_false] at ho
  rcases ho with rfl | rfl <;> decide

/-- A text of digits, at least one. -/
def Number (s : Str) : Prop := s ≠ [] ∧ ∀ c ∈ s, isDigit c = true

/-- **C165c.** A value that is not a number is not taken for one: the program ends with a `ValueError`. -/
theorem C165_not_a_number (prog : Str) (opts : List (Str × Str)) (hp : Plain prog opts) (s : Str)
    (hs : (valueOf opts "-nk".toList <|> valueOf opts "-npools".toList) = some s ∨ (valueOf opts "-nb".toList <|> valueOf opts "-nband".toList) = some s)
    (hn : ¬ Number s) : parseArgs (cmdline prog opts) = .error .value := by
  have f := fun name hn => fetchArg_cmdline prog opts hp name hn
  have bad : castInt s = .error .value := by
    unfold castInt
    rw [if_neg]
    rintro ⟨h1, h2⟩
    exact hn ⟨h1, fun c hc => List.all_eq_true.1 h2 c hc⟩
  have only : ∀ s e, castInt s = .error e → e = .value := by
    intro s e h
    unfold castInt at h
    split at h
    · cases h
    · injection h with h; exact h.symm
  have e2 : ('-' :: "nk".toList) = "-nk".toList := by decide
  have e3 : ('-' :: "npools".toList) = "-npools".toList := by decide
  have e4 : ('-' :: "nt".toList) = "-nt".toList := by decide
  have e5 : ('-' :: "ntg".toList) = "-ntg".toList := by decide
  have e6 : ('-' :: "nb".toList) = "-nb".toList := by decide
  have e7 : ('-' :: "nband".toList) = "-nband".toList := by decide
  have key : ∀ (long short : Str), ('-' :: long) ∈ optionNames → ('-' :: short) ∈ optionNames →
      (∀ e, fetchLSD (cmdline prog opts) long short 1 castInt = .error e → e = .value) ∧
      ((valueOf opts ('-' :: short) <|> valueOf opts ('-' :: long)) = some s → fetchLSD (cmdline prog opts) long short 1 castInt = .error .value) := by
    intro long short hl hs
    unfold fetchLSD
    rw [f _ hl, f _ hs]
    cases valueOf opts ('-' :: short) with
    | some s' => exact ⟨fun e h => only _ _ h, fun h => by injection h with h; subst h; exact bad⟩
    | none =>
      cases valueOf opts ('-' :: long) with
      | some s' => exact ⟨fun e h => only _ _ h, fun h => by injection h with h; subst h; exact bad⟩
      | none => exact ⟨fun e h => (by cases h), fun h => (by cases h)⟩
  have kk := key "npools".toList "nk".toList (by rw [e3]; decide) (by rw [e2]; decide)
  have kt := key "ntg".toList "nt".toList (by rw [e5]; decide) (by rw [e4]; decide)
  have kb := key "nband".toList "nb".toList (by rw [e7]; decide) (by rw [e6]; decide)
  rw [e2, e3] at kk
  rw [e6, e7] at kb
  have ki : ∀ d : Option Str, ∃ r, fetchLSD (cmdline prog opts) "in".toList "in".toList d (fun s => .ok (some s)) = .ok r := by
    intro d
    unfold fetchLSD
    cases fetchArg (cmdline prog opts) ('-' :: "in".toList) with
    | some s' => exact ⟨_, rfl⟩
    | none => exact ⟨_, rfl⟩
  unfold parseArgs
  obtain ⟨r, hr⟩ := ki (if (cmdline prog opts).length > 1 then some ((cmdline prog opts).getD 1 []) else none)
  rw [hr]
  generalize fetchLSD (cmdline prog opts) "npools".toList "nk".toList 1 castInt = ck at kk ⊢
  generalize fetchLSD (cmdline prog opts) "ntg".toList "nt".toList 1 castInt = ct at kt ⊢
  generalize fetchLSD (cmdline prog opts) "nband".toList "nb".toList 1 castInt = cb at kb ⊢
  simp only [bind, Except.bind, pure, Except.pure]
  cases ck with
  | error e => rw [kk.1 e rfl]
  | ok k =>
    cases ct with
    | error e => rw [kt.1 e rfl]
    | ok t =>
      cases cb with
      | error e => rw [kb.1 e rfl]
      | ok b =>
        rcases hs with hs | hs
        · exact absurd (kk.2 hs) (by simp)
        · exact absurd (kb.2 hs) (by simp)

example : ¬ Number "2x".toList ∧ ¬ Number [] ∧ Number ['1', '6'] := by
  refine ⟨fun h => ?_, fun h => h.1 rfl, by simp, fun c hc => ?_⟩
  swap
  · simp only [List.mem_cons, List.not_mem_nil, or_false] at hc
    rcases hc with rfl | rfl <;> rfl
  have := h.2 'x' (by decide)
  revert this; decide

/-! ## C166: process layout -/

/-- **C166a.** If pools times band groups divides the number of processes, all processes get the layout that was asked for. -/
theorem C166_layout_partial (size rank : ℕ) (o : Opts) (hs : 0 < size) (hd : o.npools * o.nband ∣ size) (hr : rank < size) :
    ∃ L, layout size o rank = .ok L ∧ L.nKgrp = o.npools ∧ L.nBgrp = o.nband ∧ L.iKgrp < o.npools ∧ L.iBgrp < o.nband := by
  obtain ⟨P, rfl⟩ := hd
  have hK : 0 < o.npools := by rcases Nat.eq_zero_or_pos o.npools with h | h; (rw [h] at hs; simp at hs); exact h
  have hB : 0 < o.nband := by rcases Nat.eq_zero_or_pos o.nband with h | h; (rw [h] at hs; simp at hs); exact h
  have hP : 0 < P := by rcases Nat.eq_zero_or_pos P with h | h; (rw [h] at hs; simp at hs); exact h
  have e : pwSize (o.npools * o.nband * P) o = .ok P := by
    unfold pwSize
    rw [if_neg (by omega), Nat.div_div_eq_div_mul, Nat.mul_div_cancel_left _ (Nat.mul_pos hK hB)]
  obtain ⟨lay, h1, -⟩ := C05_layout_bijection o.npools o.nband P hK hB hP
  obtain ⟨g1, g2, g3, g4, g5, -⟩ := h1 rank hr
  refine ⟨lay rank, ?_, g2, g3, g4, g5⟩
  unfold layout
  rw [e]
  exact g1

/-- **C166a'.** Zero pools or zero band groups are an error on every process, not a layout. -/
theorem C166_zero (size rank : ℕ) (o : Opts) (h : o.npools = 0 ∨ o.nband = 0) : layout size o rank = .error .zeroDivision := by
  have e : pwSize size o = .error .zeroDivision := by
    unfold pwSize
    rw [if_pos h]
  unfold layout
  rw [e]

/-- In an accepted layout the number of band groups is what the numbers of processes and pools leave. -/
theorem nBgrp_of_ok (size nK P r : ℕ) (L : Layout) (h : dftComm size (some nK) P r = .ok L) : L.nBgrp = size / P / nK ∧ P ∣ size ∧ nK ∣ size / P ∧ L.nPwgrp = size / P ∧ 0 < P ∧ 0 < nK := by
  have hP : 0 < P := by
    rcases Nat.eq_zero_or_pos P with h0 | h0
    · subst h0; simp [dftComm] at h
    · exact h0
  have hK : 0 < nK := by
    rcases Nat.eq_zero_or_pos nK with h0 | h0
    · subst h0
      unfold dftComm at h
      simp only [Option.getD_some, if_true] at h
      repeat' split at h
      all_goals cases h
    · exact h0
  obtain ⟨h1, h2⟩ := (C05_accepts_iff size nK P r hK hP).1 ⟨L, h⟩
  obtain ⟨c, hc⟩ := h1
  have hlen : (splitMembers size (pwKey P) r).length = size / P := by
    unfold splitMembers pwKey
    rw [hc, mul_comm P c, filter_range_key _ _ _ (Nat.mod_lt _ hP)]
    simp [Nat.mul_div_cancel _ hP]
  unfold dftComm at h
  simp only [Option.getD_some, hlen] at h
  rw [if_neg (by omega), if_neg (by rw [hc, Nat.mul_mod_right]; simp), if_neg (by omega), if_neg (by rw [Nat.mod_eq_zero_of_dvd h2]; simp)] at h
  injection h with h
  subst h
  exact ⟨rfl, ⟨c, hc⟩, h2, rfl, hP, hK⟩

/-- **C166b (violation).** Otherwise the program may go on with a different number of band groups without a word: six processes with `-nb 4` make six band groups. -/
theorem C166_bands_violated : ∃ L, layout 6 ⟨none, 1, 1, 4⟩ 0 = .ok L ∧ L.nBgrp = 6 := by
  have h : ∃ L, dftComm 6 (some 1) 1 0 = .ok L := (C05_accepts_iff 6 1 1 0 (by omega) (by omega)).2 ⟨by decide, by decide⟩
  obtain ⟨L, h⟩ := h
  exact ⟨L, h, (nBgrp_of_ok _ _ _ _ _ h).1⟩

/-- **C166c.** When the layout is accepted, the plane waves are distributed over the processes of the plane-wave group of each process - those that work on the same k-points and bands - exactly if
these groups are single processes or there is only one of them. In all other layouts (violation) they are distributed over processes that work on other k-points or bands. -/
theorem C166_basis_group (size : ℕ) (hs : 0 < size) (o : Opts) (P : ℕ) (hP : pwSize size o = .ok P) (lay : ℕ → Layout) (hok : ∀ r < size, layout size o r = .ok (lay r)) :
    (∀ r < size, basisMembers size (lay r) r = splitMembers size (pwColor P) r) ↔ (P = 1 ∨ P = size) := by
  have hl : ∀ r < size, dftComm size (some o.npools) P r = .ok (lay r) := by
    intro r hr
    have := hok r hr
    unfold layout at this
    rw [hP] at this
    exact this
  obtain ⟨-, ⟨c, hc⟩, -, -, hP0, -⟩ := nBgrp_of_ok _ _ _ _ _ (hl 0 hs)
  have hn : ∀ r < size, (lay r).nPwgrp = size / P := fun r hr => (nBgrp_of_ok _ _ _ _ _ (hl r hr)).2.2.2.1
  have hcP : size / P = c := by rw [hc, Nat.mul_div_cancel_left _ hP0]
  have hc0 : 0 < c := by rcases Nat.eq_zero_or_pos c with h | h; (rw [h] at hc; simp at hc; omega); exact h
  constructor
  · intro h
    by_contra hcon
    push Not at hcon
    have h0 := h 0 hs
    unfold basisMembers at h0
    have hne : size / P ≠ size := by
      rw [hcP]
      intro e
      have : P = 1 := by
        have h1 : c * P = c * 1 := by rw [mul_one]; nth_rewrite 2 [e]; rw [hc, mul_comm]
        exact Nat.eq_of_mul_eq_mul_left hc0 h1
      exact hcon.1 this
    rw [hn 0 hs, if_neg hne] at h0
    have hlt : P < size := by
      have h1 : P ≤ size := Nat.le_of_dvd hs ⟨c, hc⟩
      omega
    have hm : P ∈ splitMembers size (pwColor P) 0 := by rw [← h0]; exact List.mem_range.2 hlt
    unfold splitMembers pwColor at hm
    have := (List.mem_filter.1 hm).2
    simp only [decide_eq_true_eq, Nat.zero_div, Nat.div_self hP0] at this
    omega
  · rintro (h | h) r hr
    · subst h
      unfold basisMembers
      rw [hn r hr, Nat.div_one, if_pos rfl]
      unfold splitMembers pwColor
      simp only [Nat.div_one]
      have : ∀ n, r < n → (List.range n).filter (fun s => decide (s = r)) = [r] := by
        intro n hn
        induction n with
        | zero => omega
        | succ n ih =>
          rw [List.range_succ, List.filter_append]
          rcases Nat.lt_succ_iff_lt_or_eq.1 hn with h | h
          · rw [ih h]; simp [Nat.ne_of_gt h]
          · subst h
            have : (List.range r).filter (fun s => decide (s = r)) = [] := by
              rw [List.filter_eq_nil_iff]
              intro s hs
              have := List.mem_range.1 hs
              simp; omega
            rw [this]; simp
      rw [this size hr]
    · subst h
      unfold basisMembers splitMembers pwColor
      rw [hn r hr, Nat.div_self hP0]
      by_cases h1 : 1 = P
      · rw [if_pos h1]
        subst h1
        have : r = 0 := by omega
        subst this
        rfl
      · rw [if_neg h1]
        symm
        rw [List.filter_eq_self]
        intro s hs
        simp [Nat.div_eq_of_lt (List.mem_range.1 hs), Nat.div_eq_of_lt hr]

/-- The hypotheses of C166a are met, e.g. twelve processes in two pools of three band groups; by C166c the plane waves then go wrong (groups of two). -/
example : pwSize 12 ⟨none, 2, 1, 3⟩ = .ok 2 ∧ 2 * 3 ∣ 12 ∧ ¬ (2 = 1 ∨ 2 = 12) := ⟨rfl, by decide, by decide⟩

end Verif.PwCli
