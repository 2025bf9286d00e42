import Mathlib.Data.Complex.Basic
import Verif.Model.RhoFile

/-!
# C146: the RHO file of BerkeleyGW; C147: charge densities and wavefunctions of Quantum ESPRESSO
-/

namespace Verif.RhoFile

/-! ## Specification: what `pw2bgw` writes (the comments of inp.py:57-97) -/

/-- The content of a RHO file. -/
structure Rho where
  title : List ℤ
  nsf : ℤ
  ntran : ℤ
  csym : ℤ
  ecutrho : ℝ
  fft : ℤ × ℤ × ℤ
  /-- volume, lattice parameter, vectors, metric: 20 numbers -/
  cell : List ℝ
  rcell : List ℝ
  sym : List ℤ
  transl : List ℝ
  /-- positions and atomic numbers -/
  atoms : List ((ℝ × ℝ × ℝ) × ℤ)
  gvecs : List (ℤ × ℤ × ℤ)
  /-- for every spin the coefficients, in the order of the G-vectors -/
  rho : List (List ℂ)
  /-- the real flavour, for crystals with inversion symmetry -/
  isReal : Bool

def ints (l : List ℤ) : Rec := l.map .i4
def reals (l : List ℝ) : Rec := l.map .f8

/-- The records. -/
noncomputable def Rho.file (f : Rho) : List Rec :=
  [f.title.map .i1,
   ints [f.nsf, f.gvecs.length, f.ntran, f.csym, f.atoms.length] ++ reals [f.ecutrho],
   ints [f.fft.1, f.fft.2.1, f.fft.2.2],
   reals f.cell, reals f.rcell, ints f.sym, reals f.transl,
   f.atoms.flatMap fun a => [.f8 a.1.1, .f8 a.1.2.1, .f8 a.1.2.2, .i4 a.2],
   ints [1], ints [f.gvecs.length],
   ints (f.gvecs.flatMap fun g => [g.1, g.2.1, g.2.2]),
   ints [1], ints [f.gvecs.length],
   reals (f.rho.flatten.flatMap fun c => if f.isReal then [c.re] else [c.re, c.im])]

/-! ## Proofs -/

theorem bytes_ints (l : List ℤ) : bytes (ints l) = 4 * l.length := by
  induction l with
  | nil => rfl
  | cons a l ih => simp only [bytes, ints, List.map_cons, List.sum_cons, List.length_cons] at ih ⊢; simp only [Item.size]; omega

theorem bytes_reals (l : List ℝ) : bytes (reals l) = 8 * l.length := by
  induction l with
  | nil => rfl
  | cons a l ih => simp only [bytes, reals, List.map_cons, List.sum_cons, List.length_cons] at ih ⊢; simp only [Item.size]; omega

theorem readInts_ints (R : Raw) (l : List ℤ) : readInts R (ints l) = .ok l := by
  have : allInts (ints l) = some l := by
    induction l with
    | nil => rfl
    | cons a l ih => simp only [ints, List.map_cons, allInts] at ih ⊢; rw [ih]; rfl
  simp [readInts, bytes_ints, this]

theorem readReals_reals (R : Raw) (l : List ℝ) : readReals R (reals l) = .ok l := by
  have : allReals (reals l) = some l := by
    induction l with
    | nil => rfl
    | cons a l ih => simp only [reals, List.map_cons, allReals] at ih ⊢; rw [ih]; rfl
  simp [readReals, bytes_reals, this]

theorem bytes_atoms (l : List ((ℝ × ℝ × ℝ) × ℤ)) : bytes (l.flatMap fun a => [.f8 a.1.1, .f8 a.1.2.1, .f8 a.1.2.2, .i4 a.2]) = 28 * l.length := by
  induction l with
  | nil => rfl
  | cons a l ih =>
    simp only [bytes, List.flatMap_cons, List.map_append, List.sum_append, List.length_cons] at ih ⊢
    rw [ih]
    simp only [List.map_cons, List.map_nil, List.sum_cons, List.sum_nil, Item.size]; omega

theorem rows3_flat (l : List (ℤ × ℤ × ℤ)) : rows3 (l.flatMap fun g => [g.1, g.2.1, g.2.2]) = .ok l := by
  induction l with
  | nil => rfl
  | cons a l ih => simp only [List.flatMap_cons, List.cons_append, List.nil_append, rows3, ih]; rfl

theorem pairs_flat (l : List ℂ) : pairs (l.flatMap fun c => [c.re, c.im]) = .ok l := by
  induction l with
  | nil => rfl
  | cons a l ih =>
    simp only [List.flatMap_cons, List.cons_append, List.nil_append, pairs, ih]
    show Except.ok (_ :: l) = _
    rw [mul_comm, Complex.re_add_im]

theorem pairs_length (l : List ℝ) : (l.length % 2 = 1 → pairs l = .error .value) ∧ (l.length % 2 = 0 → ∃ r, pairs l = .ok r ∧ 2 * r.length = l.length) := by
  induction l using pairs.induct with
  | case1 => exact ⟨by simp, fun _ => ⟨[], rfl, rfl⟩⟩
  | case2 a b l ih =>
    simp only [List.length_cons]
    refine ⟨fun h => ?_, fun h => ?_⟩
    · rw [pairs, ih.1 (by omega)]; rfl
    · obtain ⟨r, h1, h2⟩ := ih.2 (by omega)
      refine ⟨_, by rw [pairs, h1]; exact rfl, ?_⟩
      simp only [List.length_cons]; omega
  | case3 t h1 h2 =>
    match t, h1, h2 with
    | [], h1, _ => exact absurd rfl h1
    | [a], _, _ => exact ⟨fun _ => rfl, by simp⟩
    | a :: b :: l, _, h2 => exact absurd rfl (h2 a b l)

theorem skip_prefix (R : Raw) (f : Rho) (rest : List Rec) (h2 : f.atoms.length = 2) :
    skipAll R prefixReads ([f.title.map .i1, ints [f.nsf, f.gvecs.length, f.ntran, f.csym, f.atoms.length] ++ reals [f.ecutrho], ints [f.fft.1, f.fft.2.1, f.fft.2.2], reals f.cell, reals f.rcell, ints f.sym,
      reals f.transl, f.atoms.flatMap fun a => [.f8 a.1.1, .f8 a.1.2.1, .f8 a.1.2.2, .i4 a.2], ints [1], ints [f.gvecs.length]] ++ rest) = .ok rest := by
  have h28 : bytes (ints [f.nsf, f.gvecs.length, f.ntran, f.csym, f.atoms.length] ++ reals [f.ecutrho]) = 28 := by
    simp [bytes, ints, reals, Item.size]
  have h56 : 28 * f.atoms.length = 56 := by omega
  simp only [prefixReads, skipAll, List.cons_append, Rd.run, readMixed, h28, readInts_ints, readReals_reals, bytes_atoms, h56, Except.map, if_true, List.nil_append]

/-- The file after the G-vectors' record is reached. -/
theorem readRho_eq (R : Raw) (f : Rho) (h2 : f.atoms.length = 2) :
    readRho R f.file = (pairs (f.rho.flatten.flatMap fun c => if f.isReal then [c.re] else [c.re, c.im])).map fun r => (r, f.gvecs) := by
  unfold readRho
  rw [show f.file = [f.title.map .i1, ints [f.nsf, f.gvecs.length, f.ntran, f.csym, f.atoms.length] ++ reals [f.ecutrho], ints [f.fft.1, f.fft.2.1, f.fft.2.2], reals f.cell, reals f.rcell, ints f.sym,
      reals f.transl, f.atoms.flatMap fun a => [.f8 a.1.1, .f8 a.1.2.1, .f8 a.1.2.2, .i4 a.2], ints [1], ints [f.gvecs.length]] ++
      [ints (f.gvecs.flatMap fun g => [g.1, g.2.1, g.2.2]), ints [1], ints [f.gvecs.length], reals (f.rho.flatten.flatMap fun c => if f.isReal then [c.re] else [c.re, c.im])] from rfl,
    skip_prefix R f _ h2]
  simp only [readInts_ints, rows3_flat, skipAll, Rd.run, readReals_reals, Except.map]
  cases pairs (f.rho.flatten.flatMap fun c => if f.isReal then [c.re] else [c.re, c.im]) <;> rfl

/-- C146, proved part: the RHO file of a crystal with two atoms, complex flavour, one spin, is read as it was written. -/
theorem C146_read_partial (R : Raw) (f : Rho) (h2 : f.atoms.length = 2) (hr : f.isReal = false) (rho : List ℂ) (h1 : f.rho = [rho]) :
    readRho R f.file = .ok (rho, f.gvecs) := by
  rw [readRho_eq R f h2, hr, h1]
  simp only [List.flatten_cons, List.flatten_nil, List.append_nil, Bool.false_eq_true, if_false, pairs_flat]
  rfl

/-- C146, violated: the file of a crystal with any other number of atoms is refused. -/
theorem C146_atoms (R : Raw) (f : Rho) (h2 : f.atoms.length ≠ 2) : readRho R f.file = .error .value := by
  have h28 : bytes (ints [f.nsf, f.gvecs.length, f.ntran, f.csym, f.atoms.length] ++ reals [f.ecutrho]) = 28 := by
    simp [bytes, ints, reals, Item.size]
  have h56 : ¬ 28 * f.atoms.length = 56 := by omega
  simp only [readRho, Rho.file, prefixReads, skipAll, Rd.run, readMixed, h28, readInts_ints, readReals_reals, bytes_atoms, h56, Except.map, if_true, if_false]

/-- C146, violated: the real flavour is refused or gives half as many values as G-vectors. -/
theorem C146_real (R : Raw) (f : Rho) (h2 : f.atoms.length = 2) (hr : f.isReal = true) (rho : List ℂ) (h1 : f.rho = [rho]) (hl : rho.length = f.gvecs.length) :
    (f.gvecs.length % 2 = 1 → readRho R f.file = .error .value) ∧
    (f.gvecs.length % 2 = 0 → ∃ r, readRho R f.file = .ok (r, f.gvecs) ∧ 2 * r.length = f.gvecs.length) := by
  have hlen : (f.rho.flatten.flatMap fun c => if f.isReal then [c.re] else [c.re, c.im]).length = f.gvecs.length := by
    rw [h1, hr, ← hl]; simp
  obtain ⟨p1, p2⟩ := pairs_length (f.rho.flatten.flatMap fun c => if f.isReal then [c.re] else [c.re, c.im])
  rw [hlen] at p1 p2
  rw [readRho_eq R f h2]
  refine ⟨fun h => by rw [p1 h]; rfl, fun h => ?_⟩
  obtain ⟨r, q1, q2⟩ := p2 h
  exact ⟨r, by rw [q1]; rfl, q2⟩

/-- C146, violated: with two spins the values of both are returned in one list, twice as long as that of the G-vectors. -/
theorem C146_spin (R : Raw) (f : Rho) (h2 : f.atoms.length = 2) (hr : f.isReal = false) (up dn : List ℂ) (h1 : f.rho = [up, dn]) :
    readRho R f.file = .ok (up ++ dn, f.gvecs) := by
  rw [readRho_eq R f h2, hr, h1]
  simp only [List.flatten_cons, List.flatten_nil, List.append_nil, Bool.false_eq_true, if_false, pairs_flat]
  rfl

/-- A file that meets the hypotheses of `C146_read_partial`. -/
example : ∃ f : Rho, f.atoms.length = 2 ∧ f.isReal = false ∧ f.rho = [[2, Complex.I, 1 + Complex.I]] ∧ f.gvecs.length = 3 :=
  ⟨⟨[81], 1, 1, 0, 25, (12, 12, 12), [1], [1], [1, 0, 0, 0, 1, 0, 0, 0, 1], [0, 0, 0], [((0, 0, 0), 14), ((1 / 4, 1 / 4, 1 / 4), 14)], [(0, 0, 0), (1, 0, 0), (0, 1, 0)], [[2, Complex.I, 1 + Complex.I]], false⟩,
    rfl, rfl, rfl, rfl⟩

/-- C147, violated: `read_chargeden` never returns; for a file of Quantum ESPRESSO, which names the reciprocal vectors `bg1`, `bg2`, `bg3`, it raises `KeyError`. -/
theorem C147_read_fails (f : H5) (tail : Except PyErr Unit) : (∃ e, readChargeden f tail = .error e) ∧
    ("MillerIndices" ∈ f.items → f.miller = ["bg1", "bg2", "bg3"] → readChargeden f tail = .error .key) ∧
    ("MillerIndices" ∈ f.items → "bg0" ∈ f.miller → readChargeden f tail = .error .attribute) := by
  have a1 : attr fieldAttrs "gspc" = .ok () := by decide
  have a2 : attr gspaceAttrs "recispc" = .error .attribute := by decide
  simp only [readChargeden, a1, a2, bind, Except.bind, key]
  refine ⟨?_, ?_, ?_⟩
  · by_cases h1 : "MillerIndices" ∈ f.items <;> by_cases h2 : "bg0" ∈ f.miller <;> simp [h1, h2]
  · intro h1 h2; simp [h1, h2]
  · intro h1 h2; simp [h1, h2]

/-- C147, violated: `write_chargeden` and `read_wfc` raise `AttributeError` for every field, wavefunction and file. -/
theorem C147_write_fails (tail : Except PyErr Unit) : writeChargeden tail = .error .attribute ∧ readWfc tail = .error .attribute := by
  have a1 : attr fieldAttrs "grho" = .error .attribute := by decide
  have a2 : attr kswfnAttrs "gspc" = .error .attribute := by decide
  simp only [writeChargeden, readWfc, a1, a2, bind, Except.bind, and_self]

end Verif.RhoFile
