import Verif.Model.Printer
import Verif.Props.Fmt
import Verif.Props.SCF

/-!
# C160, C161: what an SCF run prints
-/

namespace Verif.Printer

open Verif QEInp Fmt

/-! ## Specification: reading the printed text -/

/-- The number that stands behind a label: the first word after it on the first line beginning with it. -/
noncomputable def value (label : Str) (lines : List Str) : Option ℝ :=
  (lines.find? fun l => label.isPrefixOf l).bind fun l => (words (l.drop label.length)).head?.bind pyFloat

/-- The printed text shows `x` behind the label, to eight decimals; it shows nothing for `None`. -/
def Shows (lines : List Str) (label : String) (x : Option ℝ) : Prop :=
  match x with
  | none => value label.toList lines = none
  | some x => ∃ y, value label.toList lines = some y ∧ |y - x| ≤ 5 / 10 ^ 9

theorem value_nil (lab : Str) : value lab [] = none := rfl

theorem value_skip (lab l : Str) (ls : List Str) (h : lab.isPrefixOf l = false) : value lab (l :: ls) = value lab ls := by
  unfold value
  rw [List.find?_cons_of_neg (by simp [h])]

theorem value_hit (lab sp : Str) (ls : List Str) (x : ℝ) (u : Str) (hs : ∃ k, sp = List.replicate k ' ') :
    value lab (valueLine (lab ++ sp) x u :: ls) = some (roundTo 8 x) := by
  obtain ⟨k, rfl⟩ := hs
  have e : valueLine (lab ++ List.replicate k ' ') x u = lab ++ (List.replicate k ' ' ++ (padLeft 17 (fixed 8 x) ++ ' ' :: u)) := by
    simp [valueLine, List.append_assoc]
  unfold value
  rw [List.find?_cons_of_pos (by rw [e]; simp [List.isPrefixOf_iff_prefix]), Option.bind_some, e, List.drop_left, words_spaces, words_padTok _ _ _ (fixed_tok 8 x).1 (fixed_tok 8 x).2,
    List.head?_cons, Option.bind_some, pyFloat_fixed]

theorem shows_of (lines : List Str) (label : String) (x : ℝ) (h : value label.toList lines = some (roundTo 8 x)) : Shows lines label (some x) :=
  ⟨_, h, (roundTo_err 8 x).trans (by norm_num)⟩

theorem lab0 : "Total Energy:".toList = ['T', 'o', 't', 'a', 'l', ' ', 'E', 'n', 'e', 'r', 'g', 'y', ':'] := by decide
theorem labS0 : "Total Energy:     ".toList = ['T', 'o', 't', 'a', 'l', ' ', 'E', 'n', 'e', 'r', 'g', 'y', ':'] ++ List.replicate 5 ' ' := by decide
theorem lab1 : "    Internal:".toList = [' ', ' ', ' ', ' ', 'I', 'n', 't', 'e', 'r', 'n', 'a', 'l', ':'] := by decide
theorem labS1 : "    Internal:     ".toList = [' ', ' ', ' ', ' ', 'I', 'n', 't', 'e', 'r', 'n', 'a', 'l', ':'] ++ List.replicate 5 ' ' := by decide
theorem lab2 : "      one-el:".toList = [' ', ' ', ' ', ' ', ' ', ' ', 'o', 'n', 'e', '-', 'e', 'l', ':'] := by decide
theorem labS2 : "      one-el:     ".toList = [' ', ' ', ' ', ' ', ' ', ' ', 'o', 'n', 'e', '-', 'e', 'l', ':'] ++ List.replicate 5 ' ' := by decide
theorem lab3 : "     Hartree:".toList = [' ', ' ', ' ', ' ', ' ', 'H', 'a', 'r', 't', 'r', 'e', 'e', ':'] := by decide
theorem labS3 : "     Hartree:     ".toList = [' ', ' ', ' ', ' ', ' ', 'H', 'a', 'r', 't', 'r', 'e', 'e', ':'] ++ List.replicate 5 ' ' := by decide
theorem lab4 : "          XC:".toList = [' ', ' ', ' ', ' ', ' ', ' ', ' ', ' ', ' ', ' ', 'X', 'C', ':'] := by decide
theorem labS4 : "          XC:     ".toList = [' ', ' ', ' ', ' ', ' ', ' ', ' ', ' ', ' ', ' ', 'X', 'C', ':'] ++ List.replicate 5 ' ' := by decide
theorem lab5 : "       Ewald:".toList = [' ', ' ', ' ', ' ', ' ', ' ', ' ', 'E', 'w', 'a', 'l', 'd', ':'] := by decide
theorem labS5 : "       Ewald:     ".toList = [' ', ' ', ' ', ' ', ' ', ' ', ' ', 'E', 'w', 'a', 'l', 'd', ':'] ++ List.replicate 5 ' ' := by decide
theorem lab6 : "       Smear:".toList = [' ', ' ', ' ', ' ', ' ', ' ', ' ', 'S', 'm', 'e', 'a', 'r', ':'] := by decide
theorem labS6 : "       Smear:     ".toList = [' ', ' ', ' ', ' ', ' ', ' ', ' ', 'S', 'm', 'e', 'a', 'r', ':'] ++ List.replicate 5 ' ' := by decide
theorem lab7 : " Fermi Level:".toList = [' ', 'F', 'e', 'r', 'm', 'i', ' ', 'L', 'e', 'v', 'e', 'l', ':'] := by decide
theorem labS7 : " Fermi Level:     ".toList = [' ', 'F', 'e', 'r', 'm', 'i', ' ', 'L', 'e', 'v', 'e', 'l', ':'] ++ List.replicate 5 ' ' := by decide
theorem lab8 : "    HO Level:".toList = [' ', ' ', ' ', ' ', 'H', 'O', ' ', 'L', 'e', 'v', 'e', 'l', ':'] := by decide
theorem labS8 : "    HO Level:     ".toList = [' ', ' ', ' ', ' ', 'H', 'O', ' ', 'L', 'e', 'v', 'e', 'l', ':'] ++ List.replicate 5 ' ' := by decide
theorem lab9 : "    LU Level:".toList = [' ', ' ', ' ', ' ', 'L', 'U', ' ', 'L', 'e', 'v', 'e', 'l', ':'] := by decide
theorem labS9 : "    LU Level:     ".toList = [' ', ' ', ' ', ' ', 'L', 'U', ' ', 'L', 'e', 'v', 'e', 'l', ':'] ++ List.replicate 5 ' ' := by decide
theorem hd0 : "Iteration # ".toList = ['I', 't', 'e', 'r', 'a', 't', 'i', 'o', 'n', ' ', '#', ' '] := by decide
theorem hd1 : "Convergence Status   : ".toList = ['C', 'o', 'n', 'v', 'e', 'r', 'g', 'e', 'n', 'c', 'e', ' ', 'S', 't', 'a', 't', 'u', 's', ' ', ' ', ' ', ':', ' '] := by decide
theorem hd2 : "SCF Error           : ".toList = ['S', 'C', 'F', ' ', 'E', 'r', 'r', 'o', 'r', ' ', ' ', ' ', ' ', ' ', ' ', ' ', ' ', ' ', ' ', ' ', ':', ' '] := by decide
theorem hd3 : "Avg Diago Iterations: ".toList = ['A', 'v', 'g', ' ', 'D', 'i', 'a', 'g', 'o', ' ', 'I', 't', 'e', 'r', 'a', 't', 'i', 'o', 'n', 's', ':', ' '] := by decide
theorem hd4 : "Diago Threshold     : ".toList = ['D', 'i', 'a', 'g', 'o', ' ', 'T', 'h', 'r', 'e', 's', 'h', 'o', 'l', 'd', ' ', ' ', ' ', ' ', ' ', ':', ' '] := by decide

theorem skip_opt (lab : Str) (o : Option ℝ) (f : ℝ → Str) (ls : List Str) (h : ∀ x, lab.isPrefixOf (f x) = false) : value lab ((o.map f).toList ++ ls) = value lab ls := by
  cases o with
  | none => rfl
  | some x => exact value_skip _ _ _ (h x)

theorem hit_opt (lab : Str) (o : Option ℝ) (u : Str) (c : ℝ) (ls : List Str) (h : value lab ls = none) :
    value lab ((o.map fun x => valueLine (lab ++ List.replicate 5 ' ') (x / c) u).toList ++ ls) = (o.map (· / c)).map (roundTo 8) := by
  cases o with
  | none => exact h
  | some x => exact value_hit _ _ _ _ _ ⟨5, rfl⟩

theorem shows_opt (lines : List Str) (label : String) (o : Option ℝ) (h : value label.toList lines = o.map (roundTo 8)) : Shows lines label o := by
  cases o with
  | none => exact h
  | some x => exact shows_of _ _ _ h

/-- The lines of the levels. -/
noncomputable def levels (a : Args) : List Str :=
  match a.fermi with
  | some f => [valueLine " Fermi Level:     ".toList (f / electronvolt) "eV".toList]
  | none => (a.ho.map fun x => valueLine "    HO Level:     ".toList (x / electronvolt) "eV".toList).toList ++
      (a.lu.map fun x => valueLine "    LU Level:     ".toList (x / electronvolt) "eV".toList).toList

theorem status_eq (a : Args) (h : a.fermi ≠ none ∨ a.ho ≠ none) : status a = (headLines a ++ (levels a ++ [List.replicate 40 '-', []]), none) := by
  unfold status levels
  cases hf : a.fermi with
  | some f => simp
  | none =>
    cases hh : a.ho with
    | none => simp [hf, hh] at h
    | some x => simp

theorem levels_skip (lab : Str) (a : Args) (ls : List Str) (h1 : ∀ x u, lab.isPrefixOf (valueLine " Fermi Level:     ".toList x u) = false)
    (h2 : ∀ x u, lab.isPrefixOf (valueLine "    HO Level:     ".toList x u) = false) (h3 : ∀ x u, lab.isPrefixOf (valueLine "    LU Level:     ".toList x u) = false) :
    value lab (levels a ++ ls) = value lab ls := by
  unfold levels
  split
  · exact value_skip _ _ _ (h1 _ _)
  · rw [List.append_assoc, skip_opt _ _ _ _ (fun x => h2 _ _), skip_opt _ _ _ _ (fun x => h3 _ _)]

/-- Skips the lines that do not begin with the label. -/
macro "skp" : tactic => `(tactic| repeat' first
  | refine (value_skip _ _ _ rfl).trans ?_
  | refine (skip_opt _ _ _ _ (fun _ => rfl)).trans ?_)

/-- Skips the lines of the levels, too. -/
macro "skl" : tactic => `(tactic| (skp; refine (levels_skip _ _ _ ?_ ?_ ?_).trans ?_ <;> first | (intros; simp only [lab7, labS7, lab8, labS8, lab9, labS9]; rfl) | skp))

/-- C160: the status report of an iteration shows every energy in Rydberg and every level in electronvolt, to eight decimals; a term that does not exist is left out. -/
theorem C160_status (a : Args) (h : a.fermi ≠ none ∨ a.ho ≠ none) : (status a).2 = none ∧
    Shows (status a).1 "Total Energy:" (some (a.en.total / (1 / 2))) ∧
    Shows (status a).1 "    Internal:" (a.en.internal.map (· / (1 / 2))) ∧
    Shows (status a).1 "      one-el:" (some (a.en.oneEl / (1 / 2))) ∧
    Shows (status a).1 "     Hartree:" (some (a.en.hartree / (1 / 2))) ∧
    Shows (status a).1 "          XC:" (some (a.en.xc / (1 / 2))) ∧
    Shows (status a).1 "       Ewald:" (some (a.en.ewald / (1 / 2))) ∧
    Shows (status a).1 "       Smear:" (a.en.smear.map (· / (1 / 2))) ∧
    Shows (status a).1 " Fermi Level:" (a.fermi.map (· / electronvolt)) ∧
    Shows (status a).1 "    HO Level:" (if a.fermi = none then a.ho.map (· / electronvolt) else none) ∧
    Shows (status a).1 "    LU Level:" (if a.fermi = none then a.lu.map (· / electronvolt) else none) := by
  have hs : ∃ k, List.replicate 5 ' ' = List.replicate k ' ' := ⟨5, rfl⟩
  rw [status_eq a h]
  refine ⟨rfl, ?_⟩
  simp only [headLines, List.cons_append, List.nil_append, List.append_assoc, rydberg]
  refine ⟨?_, ?_, ?_, ?_, ?_, ?_, ?_, ?_, ?_, ?_⟩
  · apply shows_opt; simp only [lab0, labS0, lab1, labS1, lab2, labS2, lab3, labS3, lab4, labS4, lab5, labS5, lab6, labS6, lab7, labS7, lab8, labS8, lab9, labS9, hd0, hd1, hd2, hd3, hd4]; skp; exact value_hit _ _ _ _ _ hs
  · apply shows_opt; simp only [lab0, labS0, lab1, labS1, lab2, labS2, lab3, labS3, lab4, labS4, lab5, labS5, lab6, labS6, lab7, labS7, lab8, labS8, lab9, labS9, hd0, hd1, hd2, hd3, hd4]; skp; refine hit_opt _ _ _ _ _ ?_; skl; exact value_nil _
  · apply shows_opt; simp only [lab0, labS0, lab1, labS1, lab2, labS2, lab3, labS3, lab4, labS4, lab5, labS5, lab6, labS6, lab7, labS7, lab8, labS8, lab9, labS9, hd0, hd1, hd2, hd3, hd4]; skp; exact value_hit _ _ _ _ _ hs
  · apply shows_opt; simp only [lab0, labS0, lab1, labS1, lab2, labS2, lab3, labS3, lab4, labS4, lab5, labS5, lab6, labS6, lab7, labS7, lab8, labS8, lab9, labS9, hd0, hd1, hd2, hd3, hd4]; skp; exact value_hit _ _ _ _ _ hs
  · apply shows_opt; simp only [lab0, labS0, lab1, labS1, lab2, labS2, lab3, labS3, lab4, labS4, lab5, labS5, lab6, labS6, lab7, labS7, lab8, labS8, lab9, labS9, hd0, hd1, hd2, hd3, hd4]; skp; exact value_hit _ _ _ _ _ hs
  · apply shows_opt; simp only [lab0, labS0, lab1, labS1, lab2, labS2, lab3, labS3, lab4, labS4, lab5, labS5, lab6, labS6, lab7, labS7, lab8, labS8, lab9, labS9, hd0, hd1, hd2, hd3, hd4]; skp; exact value_hit _ _ _ _ _ hs
  · apply shows_opt; simp only [lab0, labS0, lab1, labS1, lab2, labS2, lab3, labS3, lab4, labS4, lab5, labS5, lab6, labS6, lab7, labS7, lab8, labS8, lab9, labS9, hd0, hd1, hd2, hd3, hd4]; skp; refine hit_opt _ _ _ _ _ ?_; skl; exact value_nil _
  · apply shows_opt; simp only [lab0, labS0, lab1, labS1, lab2, labS2, lab3, labS3, lab4, labS4, lab5, labS5, lab6, labS6, lab7, labS7, lab8, labS8, lab9, labS9, hd0, hd1, hd2, hd3, hd4]; skp; unfold levels
    simp only [lab0, labS0, lab1, labS1, lab2, labS2, lab3, labS3, lab4, labS4, lab5, labS5, lab6, labS6, lab7, labS7, lab8, labS8, lab9, labS9, hd0, hd1, hd2, hd3, hd4]
    cases a.fermi with
    | some f => exact value_hit _ _ _ _ _ hs
    | none => simp only [List.append_assoc]; skp; exact value_nil _
  · apply shows_opt; simp only [lab0, labS0, lab1, labS1, lab2, labS2, lab3, labS3, lab4, labS4, lab5, labS5, lab6, labS6, lab7, labS7, lab8, labS8, lab9, labS9, hd0, hd1, hd2, hd3, hd4]; skp; unfold levels
    simp only [lab0, labS0, lab1, labS1, lab2, labS2, lab3, labS3, lab4, labS4, lab5, labS5, lab6, labS6, lab7, labS7, lab8, labS8, lab9, labS9, hd0, hd1, hd2, hd3, hd4]
    cases a.fermi with
    | some f => skp; exact value_nil _
    | none => rw [List.append_assoc, if_pos rfl]; refine hit_opt _ _ _ _ _ ?_; skp; exact value_nil _
  · apply shows_opt; simp only [lab0, labS0, lab1, labS1, lab2, labS2, lab3, labS3, lab4, labS4, lab5, labS5, lab6, labS6, lab7, labS7, lab8, labS8, lab9, labS9, hd0, hd1, hd2, hd3, hd4]; skp; unfold levels
    simp only [lab0, labS0, lab1, labS1, lab2, labS2, lab3, labS3, lab4, labS4, lab5, labS5, lab6, labS6, lab7, labS7, lab8, labS8, lab9, labS9, hd0, hd1, hd2, hd3, hd4]
    cases a.fermi with
    | some f => skp; exact value_nil _
    | none => rw [List.append_assoc, if_pos rfl]; skp; refine hit_opt _ _ _ _ _ ?_; skp; exact value_nil _

/-- C160: energies without levels cannot be printed: the report breaks off with a `TypeError` after the energies. -/
theorem C160_no_levels (a : Args) (h1 : a.fermi = none) (h2 : a.ho = none) : (status a).2 = some .type := by
  unfold status
  rw [h1, h2]

theorem shows_some {lines : List Str} {label : String} {x : ℝ} (h : Shows lines label (some x)) : ∃ y, value label.toList lines = some y ∧ |y - x| ≤ 5 / 10 ^ 9 := h

/-- C160: in the report of every iteration of every run the printed terms add up to the printed total energy, and internal energy and smearing term to the total energy, up to the rounding of the printed
numbers. -/
theorem C160_adds_up {s n : ℕ} {W V M : Type} (e : SCF.Env s n W V M) (maxiter : ℕ) (rho : SCF.Dens s (n + 1)) (w0 : W) (mx : M) (res : SCF.Res s n W M)
    (hrun : SCF.scf e maxiter rho w0 mx = .ok res) (r : SCF.Report) (hr : r ∈ res.trace) (a : Args) (ha : a.en = r.en) (h : a.fermi ≠ none ∨ a.ho ≠ none) :
    ∃ T O H X E, value "Total Energy:".toList (status a).1 = some T ∧ value "      one-el:".toList (status a).1 = some O ∧ value "     Hartree:".toList (status a).1 = some H ∧
      value "          XC:".toList (status a).1 = some X ∧ value "       Ewald:".toList (status a).1 = some E ∧
      |T - (O + H + X + E + (value "       Smear:".toList (status a).1).getD 0)| ≤ 3 / 10 ^ 8 ∧
      ∀ I, value "    Internal:".toList (status a).1 = some I → |T - (I + (value "       Smear:".toList (status a).1).getD 0)| ≤ 15 / 10 ^ 9 := by
  obtain ⟨rin, w, -, h1, h2, h3, -, -, h4, h5, h6⟩ := SCF.C90_reported_energies e maxiter rho w0 mx res hrun r hr
  obtain ⟨-, ⟨T, hT, eT⟩, hI, ⟨O, hO, eO⟩, ⟨H, hH, eH⟩, ⟨X, hX, eX⟩, ⟨E, hE, eE⟩, hS, -⟩ := C160_status a h
  rw [ha] at eT eO eH eX eE hI hS
  refine ⟨T, O, H, X, E, hT, hO, hH, hX, hE, ?_⟩
  rw [h4, SCF.freeEnergy] at eT
  rw [h6] at eO
  rw [h2] at eH
  rw [h3] at eX
  rw [h1] at eE
  rw [h5, h4, SCF.freeEnergy] at hI
  rw [abs_le] at eT eO eH eX eE
  cases hsm : r.en.smear with
  | none =>
    rw [hsm] at hS hI eT
    have hS' : value "       Smear:".toList (status a).1 = none := hS
    have hI' : value "    Internal:".toList (status a).1 = none := hI
    rw [hS', hI']
    refine ⟨?_, fun I h => by cases h⟩
    simp only [Option.getD_none] at eT ⊢
    rw [abs_le]
    constructor <;> linarith [eT.1, eT.2, eO.1, eO.2, eH.1, eH.2, eX.1, eX.2, eE.1, eE.2]
  | some x =>
    rw [hsm] at hS hI eT
    obtain ⟨S, hS', eS⟩ := shows_some hS
    obtain ⟨I, hI', eI⟩ := shows_some hI
    rw [hS', hI']
    rw [abs_le] at eS eI
    simp only [Option.getD_some] at eT eI ⊢
    refine ⟨?_, fun I' h => ?_⟩
    · rw [abs_le]
      constructor <;> linarith [eT.1, eT.2, eO.1, eO.2, eH.1, eH.2, eX.1, eX.2, eE.1, eE.2, eS.1, eS.2]
    · cases h
      rw [abs_le]
      constructor <;> linarith [eT.1, eT.2, eS.1, eS.2, eI.1, eI.2]

/-! ### The head of the report -/

theorem toLower_digit {c : Char} (h : isDigit c = true) : c.toLower = c := by
  unfold isDigit at h
  have h' := of_decide_eq_true h
  unfold Char.toLower
  split
  · next h1 =>
    exfalso
    have : c.toNat = c.val.toNat := rfl
    have h2 := UInt32.le_iff_toNat_le.1 h1.1
    rw [this] at h'
    simp at h2
    omega
  · rfl

theorem map_lower_digits {s : Str} (h : ∀ c ∈ s, isDigit c = true) : s.map Char.toLower = s := by
  conv_rhs => rw [← List.map_id s]
  exact List.map_congr_left fun c hc => toLower_digit (h c hc)

/-- What `sciLow` writes is read back with a small relative error. -/
theorem pyFloat_sciLow (d : ℕ) (x : ℝ) : ∃ y, pyFloat (sciLow d x) = some y ∧ |y - x| ≤ |x| * (1 / 2 / 10 ^ d) := by
  obtain ⟨y, hy, he⟩ := pyFloat_sci d x
  refine ⟨y, ?_, he⟩
  rw [← hy]
  obtain ⟨p, hp⟩ : ∃ p : ℕ × ℤ, p = if x = 0 then (0, 0) else sciParts d |x| := ⟨_, rfl⟩
  obtain ⟨a1, a2, a3⟩ := natStr_spec (p.1 / 10 ^ d)
  obtain ⟨b1, b2, b3⟩ := digitsPad_spec d (p.1 % 10 ^ d)
  obtain ⟨c1, c2, c3⟩ := natStr_spec p.2.natAbs
  have hexp : ∃ sg ds, (sg = '-' ∨ sg = '+') ∧ (∀ c ∈ ds, isDigit c = true) ∧ expStr p.2 = 'E' :: sg :: ds := by
    unfold expStr
    refine ⟨_, _, ?_, ?_, rfl⟩
    · split
      · exact .inl rfl
      · exact .inr rfl
    · split
      · intro c hc
        rcases List.mem_cons.1 hc with rfl | h
        · decide
        · exact c3 c h
      · exact c3
  obtain ⟨sg, ds, hsg, hds, hE⟩ := hexp
  have hl : ('E' :: sg :: ds).map Char.toLower = 'e' :: sg :: ds := by
    rw [List.map_cons, List.map_cons, map_lower_digits hds]
    rcases hsg with rfl | rfl <;> rfl
  have hr : readExp ('e' :: sg :: ds) = readExp ('E' :: sg :: ds) := by
    rcases hsg with rfl | rfl <;> simp [readExp]
  have hU : readUnsigned (natStr (p.1 / 10 ^ d) ++ '.' :: (digitsPad d (p.1 % 10 ^ d) ++ 'e' :: sg :: ds)) =
      readUnsigned (natStr (p.1 / 10 ^ d) ++ '.' :: (digitsPad d (p.1 % 10 ^ d) ++ 'E' :: sg :: ds)) := by
    have h0 := readExp_expStr p.2
    rw [hE] at h0
    rw [readUnsigned_point _ _ a3 a2 b3 _ p.2 (hr.trans h0), readUnsigned_point _ _ a3 a2 b3 _ p.2 h0]
    · intro c r h; injection h with h1 _; subst h1; decide
    · intro c r h; injection h with h1 _; subst h1; decide
  have hsci : sci d x = (if x < 0 then ['-'] else []) ++ (natStr (p.1 / 10 ^ d) ++ '.' :: (digitsPad d (p.1 % 10 ^ d) ++ 'E' :: sg :: ds)) := by
    unfold sci
    simp only [← hp, List.append_assoc, List.cons_append, hE]
  have hlow : sciLow d x = (if x < 0 then ['-'] else []) ++ (natStr (p.1 / 10 ^ d) ++ '.' :: (digitsPad d (p.1 % 10 ^ d) ++ 'e' :: sg :: ds)) := by
    unfold sciLow
    rw [hsci, List.map_append, List.map_append, List.map_cons, List.map_append, hl, map_lower_digits a3, map_lower_digits b3]
    congr 1
    split <;> rfl
  rw [hsci, hlow]
  by_cases hx : x < 0
  · rw [if_pos hx, List.singleton_append, List.singleton_append, pyFloat_neg, pyFloat_neg, hU]
  · rw [if_neg hx, List.nil_append, List.nil_append, pyFloat_of_digits _ _ a3 a2, pyFloat_of_digits _ _ a3 a2, hU]

theorem toLower_ws {c : Char} (h : isWs c = false) : isWs c.toLower = false := by
  unfold Char.toLower
  split
  · next h1 =>
    have h2 := UInt32.le_iff_toNat_le.1 h1.1
    have h3 := UInt32.le_iff_toNat_le.1 h1.2
    have hv : (c.val + 32).toNat = c.val.toNat + 32 := by
      rw [UInt32.toNat_add]
      simp at h2 h3 ⊢
      omega
    simp only [isWs, Bool.or_eq_false_iff, beq_eq_false_iff_ne, ne_eq]
    have h4 : 65 ≤ c.val.toNat := h2
    have key : ∀ (e : Char) (pf : (c.val + 32).isValidChar), e.val.toNat < 97 → ¬ (Char.mk (c.val + 32) pf) = e := by
      intro e pf he h
      have : e.val.toNat = c.val.toNat + 32 := by rw [← h]; exact hv
      omega
    refine ⟨⟨⟨⟨⟨?_, ?_⟩, ?_⟩, ?_⟩, ?_⟩, ?_⟩ <;> exact key _ _ (by decide)
  · exact h

theorem sciLow_tok (d : ℕ) (x : ℝ) : sciLow d x ≠ [] ∧ ∀ c ∈ sciLow d x, isWs c = false := by
  obtain ⟨h1, h2⟩ := sci_tok d x
  refine ⟨by unfold sciLow; simpa using h1, fun c hc => ?_⟩
  obtain ⟨c', hc', rfl⟩ := List.mem_map.1 hc
  exact toLower_ws (h2 c' hc')

theorem status_head (a : Args) : ∃ rest, (status a).1 = headLines a ++ rest := by
  unfold status
  simp only
  split
  · exact ⟨_, List.append_assoc _ _ _⟩
  · split
    · exact ⟨[], (List.append_nil _).symm⟩
    · rw [List.append_assoc, List.append_assoc]
      exact ⟨_, rfl⟩

theorem lit_tok (s : Str) (h : (!s.isEmpty && s.all fun c => !isWs c) = true) : s ≠ [] ∧ ∀ c ∈ s, isWs c = false := by
  rw [Bool.and_eq_true, List.all_eq_true] at h
  exact ⟨by rintro rfl; exact absurd h.1 (by decide), fun c hc => by simpa using h.2 c hc⟩

theorem words_lit (s r : Str) (h : (!s.isEmpty && s.all fun c => !isWs c) = true) : words (s ++ ' ' :: r) = s :: words r := words_tok s r (lit_tok s h).1 (lit_tok s h).2

set_option maxRecDepth 8000 in
/-- C160: the report begins with the number of the iteration counted from one, says NOT Converged exactly if the run has not converged, and shows the error and the threshold of the diagonalization in Rydberg and the average number of iterations. -/
theorem C160_header (a : Args) : ∃ l0 l1 l2 l3 l4 rest, (status a).1 = l0 :: l1 :: l2 :: l3 :: l4 :: rest ∧
    (∃ n w, words l0 = "Iteration".toList :: "#".toList :: (n ++ [',']) :: w ∧ pyFloat n = some ((a.idx : ℝ) + 1)) ∧
    (words l1 = ["Convergence", "Status", ":"].map String.toList ++ if a.converged then ["Converged".toList] else ["NOT".toList, "Converged".toList]) ∧
    (∃ t y, words l2 = ["SCF".toList, "Error".toList, ":".toList, t, "Ry".toList] ∧ pyFloat t = some y ∧ |y - a.err / (1 / 2)| ≤ |a.err / (1 / 2)| * (1 / 2 / 10 ^ 4)) ∧
    (∃ t y, words l3 = ["Avg".toList, "Diago".toList, "Iterations:".toList, t] ∧ pyFloat t = some y ∧ |y - a.avgIter| ≤ 1 / 20) ∧
    (∃ t y, words l4 = ["Diago".toList, "Threshold".toList, ":".toList, t, "Ry".toList] ∧ pyFloat t = some y ∧ |y - a.thr / (1 / 2)| ≤ |a.thr / (1 / 2)| * (1 / 2 / 10 ^ 2)) := by
  obtain ⟨rest, hr⟩ := status_head a
  rw [hr]
  simp only [headLines, List.cons_append, List.nil_append, List.append_assoc, rydberg]
  refine ⟨_, _, _, _, _, _, rfl, ?_, ?_, ?_, ?_, ?_⟩
  · obtain ⟨n1, n2, n3⟩ := natStr_spec (a.idx + 1)
    refine ⟨natStr (a.idx + 1), words ("Run Time: ".toList ++ (padLeft 5 (fixed 1 a.runtime) ++ " sec".toList)), ?_, ?_⟩
    · have e1 : "Iteration # ".toList = "Iteration".toList ++ ' ' :: ("#".toList ++ [' ']) := by decide
      have e2 : ", Run Time: ".toList = [','] ++ ' ' :: "Run Time: ".toList := by decide
      rw [e1, e2]
      have : "Iteration".toList ++ ' ' :: ("#".toList ++ [' ']) ++ (natStr (a.idx + 1) ++ (([','] ++ ' ' :: "Run Time: ".toList) ++ (padLeft 5 (fixed 1 a.runtime) ++ " sec".toList))) =
        "Iteration".toList ++ ' ' :: ("#".toList ++ ' ' :: ((natStr (a.idx + 1) ++ [',']) ++ ' ' :: ("Run Time: ".toList ++ (padLeft 5 (fixed 1 a.runtime) ++ " sec".toList)))) := by
        simp only [List.append_assoc, List.cons_append, List.nil_append]
      rw [this, words_lit _ _ rfl, words_lit _ _ rfl, words_tok _ _ (by simp) ?_]
      intro c hc
      rcases List.mem_append.1 hc with h | h
      · exact digit_not_ws (n3 c h)
      · rw [List.mem_singleton.1 h]; decide
    · have := pyFloat_intStr ((a.idx + 1 : ℕ) : ℤ)
      have hi' : intStr ((a.idx + 1 : ℕ) : ℤ) = natStr (a.idx + 1) := by
        unfold intStr
        rw [if_neg (by omega), List.nil_append, Int.natAbs_natCast]
      rw [hi'] at this
      rw [this]
      push_cast
      rfl
  · cases a.converged <;> decide
  · obtain ⟨y, hy, he⟩ := pyFloat_sciLow 4 (a.err / (1 / 2))
    refine ⟨sciLow 4 (a.err / (1 / 2)), y, ?_, hy, he⟩
    have e1 : "SCF Error           : ".toList = "SCF".toList ++ ' ' :: ("Error".toList ++ ' ' :: (List.replicate 10 ' ' ++ (":".toList ++ [' ']))) := by decide
    have e2 : " Ry".toList = ' ' :: "Ry".toList := by decide
    rw [e1, e2]
    simp only [List.append_assoc, List.cons_append, List.nil_append]
    rw [words_lit _ _ rfl, words_lit _ _ rfl, words_spaces, words_lit _ _ rfl,
      words_tok _ _ (sciLow_tok _ _).1 (sciLow_tok _ _).2, words_last _ (lit_tok _ rfl).1 (lit_tok _ rfl).2]
  · refine ⟨fixed 1 a.avgIter, roundTo 1 a.avgIter, ?_, pyFloat_fixed _ _, (roundTo_err _ _).trans (by norm_num)⟩
    have e1 : "Avg Diago Iterations: ".toList = "Avg".toList ++ ' ' :: ("Diago".toList ++ ' ' :: ("Iterations:".toList ++ [' '])) := by decide
    rw [e1]
    simp only [List.append_assoc, List.cons_append, List.nil_append, padLeft]
    rw [words_lit _ _ rfl, words_lit _ _ rfl, words_lit _ _ rfl, words_spaces,
      words_last _ (fixed_tok _ _).1 (fixed_tok _ _).2]
  · obtain ⟨y, hy, he⟩ := pyFloat_sciLow 2 (a.thr / (1 / 2))
    refine ⟨sciLow 2 (a.thr / (1 / 2)), y, ?_, hy, he⟩
    have e1 : "Diago Threshold     : ".toList = "Diago".toList ++ ' ' :: ("Threshold".toList ++ ' ' :: (List.replicate 4 ' ' ++ (":".toList ++ [' ']))) := by decide
    have e2 : " Ry".toList = ' ' :: "Ry".toList := by decide
    rw [e1, e2]
    simp only [List.append_assoc, List.cons_append, List.nil_append]
    rw [words_lit _ _ rfl, words_lit _ _ rfl, words_spaces, words_lit _ _ rfl,
      words_tok _ _ (sciLow_tok _ _).1 (sciLow_tok _ _).2, words_last _ (lit_tok _ rfl).1 (lit_tok _ rfl).2]

/-! ## C161: the table of eigenvalues -/

/-- The numbers on a line of the table. -/
noncomputable def readBand (l : Str) : List (Option ℝ) := (words l).map pyFloat

/-- C161: the table printed for a wavefunction has one line per band, in ascending order: number of the band, eigenvalue in electronvolt to eight decimals, occupation to six. -/
theorem C161_bands (ks : List (List KOut)) (pre post : List (List KOut)) (g1 g2 : List KOut) (k : KOut) (hks : ks = pre ++ (g1 ++ k :: g2) :: post) :
    ∃ before table after', eigenvalues ks = before ++ ("weight:     ".toList ++ k.wStr) :: ("Basis size: ".toList ++ natStr k.size) :: "  Band  Eigenvalue (eV)  Occupation".toList :: table ++ after' ∧
      before.getLast? = some ("k-point:    ".toList ++ k.kStr) ∧ table.length = k.numbnd ∧
      ∀ i, i < k.numbnd → ∃ l x f, table[i]? = some l ∧ readBand l = [some ((i : ℝ) + 1), some x, some f] ∧ |x - k.evl i / electronvolt| ≤ 5 / 10 ^ 9 ∧ |f - k.occ i| ≤ 5 / 10 ^ 7 := by
  subst hks
  refine ⟨"Printing eigenvalues:".toList :: (pre.flatMap fun g => g.flatMap kLines) ++ (g1.flatMap kLines ++ [[], "k-point:    ".toList ++ k.kStr]), (List.range k.numbnd).map (bandLine k),
    g2.flatMap kLines ++ post.flatMap fun g => g.flatMap kLines, ?_, ?_, by simp, ?_⟩
  · simp [eigenvalues, kLines, List.append_assoc]
  · rw [List.getLast?_append, List.getLast?_append]
    rfl
  · intro i hi
    refine ⟨bandLine k i, roundTo 8 (k.evl i / electronvolt), roundTo 6 (k.occ i), by rw [List.getElem?_map, List.getElem?_range hi, Option.map_some], ?_, (roundTo_err _ _).trans (by norm_num),
      (roundTo_err _ _).trans (by norm_num)⟩
    obtain ⟨n1, n2, n3⟩ := natStr_spec (i + 1)
    have e : bandLine k i = ' ' :: (' ' :: (padLeft 4 (natStr (i + 1)) ++ ' ' :: (' ' :: (padLeft 14 (fixed 8 (k.evl i / electronvolt)) ++ ' ' :: (' ' :: (padLeft 10 (fixed 6 (k.occ i)))))))) := by
      simp [bandLine, List.append_assoc]
    have hp : words (padLeft 10 (fixed 6 (k.occ i))) = [fixed 6 (k.occ i)] := by
      unfold padLeft
      rw [words_spaces, words_last _ (fixed_tok _ _).1 (fixed_tok _ _).2]
    have hn : pyFloat (natStr (i + 1)) = some ((i : ℝ) + 1) := by
      have := pyFloat_intStr ((i + 1 : ℕ) : ℤ)
      have hi' : intStr ((i + 1 : ℕ) : ℤ) = natStr (i + 1) := by
        unfold intStr
        rw [if_neg (by omega), List.nil_append, Int.natAbs_natCast]
      rw [hi'] at this
      rw [this]
      push_cast
      rfl
    unfold readBand
    rw [e, words_space, words_space, words_padTok _ _ _ n2 (fun c hc => digit_not_ws (n3 c hc)), words_space, words_padTok _ _ _ (fixed_tok _ _).1 (fixed_tok _ _).2, words_space, hp]
    simp only [List.map_cons, List.map_nil, hn, pyFloat_fixed]

/-- A smeared iteration with its Fermi level, and a fixed one with both levels. -/
example : ({ idx := 0, runtime := 1, converged := false, err := 1, thr := 1, avgIter := 2, en := { smear := some (-1), internal := some 1 }, fermi := some 1 } : Args).fermi ≠ none := by simp
example : ({ idx := 0, runtime := 1, converged := true, err := 1, thr := 1, avgIter := 2, en := {}, ho := some 1, lu := some 2 } : Args).ho ≠ none := by simp

end Verif.Printer
