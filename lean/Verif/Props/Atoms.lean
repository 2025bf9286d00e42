import Mathlib.LinearAlgebra.Matrix.NonsingularInverse
import Verif.Model.Atoms
import Verif.Props.LatArr
import Verif.Props.Printer

/-!
# Constructors and text form of lattices, groups of atoms and crystals: C167–C169
-/

namespace Verif.Atoms

open Verif Lattice LatArr QEInp Fmt

/-! ## C167: lattices -/

/-- The vector with the given components. -/
def toV (l : List ℝ) : Vec := fun i => l.getD i.val 0

/-- Three vectors in general position. -/
def Independent (a1 a2 a3 : List ℝ) : Prop := LinearIndependent ℝ ![toV a1, toV a2, toV a3]

theorem det_iff (a1 a2 a3 : List ℝ) : (columns a1 a2 a3).det ≠ 0 ↔ Independent a1 a2 a3 := by
  have h : (columns a1 a2 a3).col = ![toV a1, toV a2, toV a3] := by
    funext j i
    fin_cases j <;> rfl
  unfold Independent
  rw [← h, Matrix.linearIndependent_cols_iff_isUnit, Matrix.isUnit_iff_isUnit_det, isUnit_iff_ne_zero]

theorem three {l : List ℝ} (h : l.length = 3) : ∃ x y z, l = [x, y, z] := by
  rcases l with _ | ⟨x, _ | ⟨y, _ | ⟨z, _ | ⟨w, l⟩⟩⟩⟩ <;> simp at h
  exact ⟨x, y, z, rfl⟩

theorem fin3 {α : Type} (f : Fin 3 → α) : (List.finRange 3).map f = [f 0, f 1, f 2] := rfl

/-- The axes of the lattice made of three vectors, scaled. -/
theorem axes_of {u : ℝ} {a1 a2 a3 : List ℝ} (h1 : a1.length = 3) (h2 : a2.length = 3) (h3 : a3.length = 3) (c : ℝ) {L : Lat} (hL : mkLat u (c • columns a1 a2 a3) = .ok L) :
    L.unit = u ∧ axesCart L = [a1, a2, a3].map (fun a => a.map (c * ·)) ∧ axesUnit L = [a1, a2, a3].map (fun a => a.map (c * · / u)) := by
  obtain ⟨-, e1, e2, -, -, -⟩ := mkLat_ok hL
  obtain ⟨x1, y1, z1, rfl⟩ := three h1
  obtain ⟨x2, y2, z2, rfl⟩ := three h2
  obtain ⟨x3, y3, z3, rfl⟩ := three h3
  refine ⟨e1, ?_, ?_⟩
  · simp only [axesCart, fin3, e2]; rfl
  · simp only [axesUnit, fin3, e2, e1]; rfl

theorem scaled_ok (u c : ℝ) (hc : c ≠ 0) (a1 a2 a3 : List ℝ) (hi : Independent a1 a2 a3) : ∃ L, mkLat u (c • columns a1 a2 a3) = .ok L := by
  rw [(C26_conversions_inverse u _).1, Matrix.det_smul]
  exact mul_ne_zero (pow_ne_zero _ hc) ((det_iff a1 a2 a3).2 hi)

theorem scaled_err (u c : ℝ) (a1 a2 a3 : List ℝ) (hi : ¬ Independent a1 a2 a3) : mkLat u (c • columns a1 a2 a3) = .error .value := by
  have : (c • columns a1 a2 a3).det = 0 := by
    rw [Matrix.det_smul]
    have := fun h => hi ((det_iff a1 a2 a3).1 h)
    rw [not_not.1 this, mul_zero]
  unfold mkLat
  rw [if_pos this]

theorem angstrom_pos : 0 < angstrom := by unfold angstrom; norm_num

/-- C167: one Ångström is 1.8897261246 Bohr, to ten decimals. -/
theorem C167_angstrom : |angstrom - 18897261246 / 10 ^ 10| ≤ 1 / 10 ^ 10 := by
  unfold angstrom
  rw [abs_le]
  constructor <;> norm_num

/-- C167: for three independent vectors of three components, not all of them integers, `from_bohr` (and `from_cart` of the reciprocal lattice) makes the lattice with exactly these axes; `from_angstrom` scales vectors and lattice parameter from Ångström to Bohr; `from_alat` (`from_tpiba`) makes the lattice whose axes in units of the lattice parameter are the vectors. -/
theorem C167_axes_partial (u : ℝ) (hu : u ≠ 0) (a1 a2 a3 : Seq) (h1 : a1.v.length = 3) (h2 : a2.v.length = 3) (h3 : a3.v.length = 3) (hi : Independent a1.v a2.v a3.v) :
    ((a1.int && a2.int && a3.int) = false → ∃ L, fromBohr u a1 a2 a3 = .ok L ∧ L.unit = u ∧ axesCart L = [a1.v, a2.v, a3.v] ∧ axesUnit L = [a1.v, a2.v, a3.v].map (fun a => a.map (· / u))) ∧
    (∃ L, fromAngstrom u a1 a2 a3 = .ok L ∧ L.unit = u * angstrom ∧ axesCart L = [a1.v, a2.v, a3.v].map (fun a => a.map (· * angstrom)) ∧ axesUnit L = [a1.v, a2.v, a3.v].map (fun a => a.map (· / u))) ∧
    (∀ ui : Bool, (ui && a1.int && a2.int && a3.int) = false → ∃ L, fromUnit u ui a1 a2 a3 = .ok L ∧ L.unit = u ∧ axesCart L = [a1.v, a2.v, a3.v].map (fun a => a.map (· * u)) ∧ axesUnit L = [a1.v, a2.v, a3.v]) := by
  refine ⟨fun hint => ?_, ?_, fun ui hint => ?_⟩
  · obtain ⟨L, hL⟩ := scaled_ok u 1 one_ne_zero _ _ _ hi
    obtain ⟨e1, e2, e3⟩ := axes_of h1 h2 h3 1 hL
    refine ⟨L, by unfold fromBohr checked; rw [if_pos ⟨h1, h2, h3, hint⟩, hL], e1, ?_, ?_⟩
    · rw [e2]; simp
    · rw [e3]; simp
  · obtain ⟨L, hL⟩ := scaled_ok (u * angstrom) angstrom angstrom_pos.ne' _ _ _ hi
    obtain ⟨e1, e2, e3⟩ := axes_of h1 h2 h3 angstrom hL
    refine ⟨L, by unfold fromAngstrom checked; rw [if_pos ⟨h1, h2, h3, rfl⟩, hL], e1, ?_, ?_⟩
    · rw [e2]; simp [mul_comm]
    · rw [e3]
      refine congrArg (fun f => List.map (fun a => List.map f a) [a1.v, a2.v, a3.v]) ?_
      funext x
      rw [mul_comm angstrom, mul_div_mul_right _ _ angstrom_pos.ne']
  · obtain ⟨L, hL⟩ := scaled_ok u u hu _ _ _ hi
    obtain ⟨e1, e2, e3⟩ := axes_of h1 h2 h3 u hL
    refine ⟨L, by unfold fromUnit checked; rw [if_pos ⟨h1, h2, h3, hint⟩, hL], e1, ?_, ?_⟩
    · rw [e2]; simp [mul_comm]
    · rw [e3]
      have : (fun x => u * x / u) = id := by funext x; simp [mul_div_cancel_left₀, hu]
      simp [this]

/-- C167: vectors of the wrong length, dependent vectors, and a zero lattice parameter where it multiplies the vectors are refused with a `ValueError`. -/
theorem C167_rejects (u : ℝ) (ui : Bool) (a1 a2 a3 : Seq) :
    (¬ (a1.v.length = 3 ∧ a2.v.length = 3 ∧ a3.v.length = 3) ∨ ¬ Independent a1.v a2.v a3.v →
      fromBohr u a1 a2 a3 = .error .value ∧ fromAngstrom u a1 a2 a3 = .error .value ∧ fromUnit u ui a1 a2 a3 = .error .value) ∧
    fromUnit 0 ui a1 a2 a3 = .error .value := by
  have key : ∀ (w c : ℝ) (i : Bool), ¬ (a1.v.length = 3 ∧ a2.v.length = 3 ∧ a3.v.length = 3) ∨ ¬ Independent a1.v a2.v a3.v → checked w a1 a2 a3 i c = .error .value := by
    intro w c i h
    unfold checked
    split
    · next h' =>
      rcases h with h | h
      · exact absurd ⟨h'.1, h'.2.1, h'.2.2.1⟩ h
      · exact scaled_err _ _ _ _ _ h
    · rfl
  refine ⟨fun h => ⟨key _ _ _ h, key _ _ _ h, key _ _ _ h⟩, ?_⟩
  unfold fromUnit checked
  split
  · unfold mkLat
    rw [if_pos (by rw [zero_smul]; exact Matrix.det_zero)]
  · rfl

/-- C167 fails for integers: three vectors written with integers only are refused by `from_bohr` (and by `from_cart` of the reciprocal lattice), whatever they are; so does `from_alat` (`from_tpiba`) if the lattice parameter is an integer, too. -/
theorem C167_integers_violated (u : ℝ) (a1 a2 a3 : Seq) (h1 : a1.int = true) (h2 : a2.int = true) (h3 : a3.int = true) :
    fromBohr u a1 a2 a3 = .error .value ∧ fromUnit u true a1 a2 a3 = .error .value := by
  unfold fromBohr fromUnit checked
  rw [h1, h2, h3]
  simp

/-- The cube of side 10 in Bohr: with integers `from_bohr` refuses it, with floats it makes it. -/
example : Independent [10, 0, 0] [0, 10, 0] [0, 0, 10] ∧ fromBohr 10 ⟨[10, 0, 0], true⟩ ⟨[0, 10, 0], true⟩ ⟨[0, 0, 10], true⟩ = .error .value := by
  refine ⟨(det_iff _ _ _).1 ?_, (C167_integers_violated _ _ _ _ rfl rfl rfl).1⟩
  rw [Matrix.det_fin_three]
  simp [columns]

/-- The component of a list of axes. -/
def comp (l : List (List ℝ)) (i j : Fin 3) : ℝ := (l.getD i.val []).getD j.val 0

theorem comp_axesUnit (L : Lat) (i j : Fin 3) : comp (axesUnit L) i j = L.primvec j i / L.unit := by
  unfold axesUnit
  simp only [fin3]
  fin_cases i <;> fin_cases j <;> rfl

/-- C167: the axes of a lattice in units of `alat` and those of its reciprocal lattice in units of `tpiba` are dual to each other: their scalar products are one and zero. -/
theorem C167_dual (u : ℝ) (hu : u ≠ 0) (A : Mat) (L : Lat) (hL : mkLat u A = .ok L) : ∃ R, fromReallat L = .ok R ∧
    ∀ i j, ∑ k : Fin 3, comp (axesUnit L) i k * comp (axesUnit R) j k = if i = j then 1 else 0 := by
  obtain ⟨R, hR, hd, -, -⟩ := C27_duality u A L hL
  refine ⟨R, hR, fun i j => ?_⟩
  have e1 := (mkLat_ok hL).2.1
  have e2 : R.unit = TPI / u := by rw [← e1]; exact (mkLat_ok hR).2.1
  have h := hd i j
  have h' : ∑ k, L.primvec k i * R.primvec k j = if i = j then TPI else 0 := h
  simp only [comp_axesUnit, e1, e2]
  have : ∀ k, L.primvec k i / u * (R.primvec k j / (TPI / u)) = (L.primvec k i * R.primvec k j) / TPI := by
    intro k
    have := TPI_ne
    field_simp
  simp only [this, ← Finset.sum_div, h']
  split
  · exact div_self TPI_ne
  · exact zero_div _

/-! ## C168: groups of atoms -/

/-- The components of a sequence of three numbers. -/
def vec3 (a : Arr) : Vec := fun i => a.get [i.val]

/-- Positions as the documentation asks for them: one argument per atom, each a sequence of three numbers. -/
def Triples (args : List Arr) : Prop := args ≠ [] ∧ ∀ a ∈ args, a.shape = [3]

theorem stack_ok {m : List ℕ} {args : List Arr} (h0 : args ≠ []) (h : ∀ a ∈ args, a.shape = m) : ∃ s, stack args = .ok s ∧ s.shape = args.length :: m ∧
    ∀ (j : ℕ) (hj : j < args.length) q, s.get (j :: q) = (args[j]).get q := by
  cases args with
  | nil => exact absurd rfl h0
  | cons a as =>
    have hall : (as.all fun b => b.shape == a.shape) = true := by
      rw [List.all_eq_true]
      intro b hb
      rw [h b (List.mem_cons_of_mem _ hb), h a (by simp)]
      exact beq_self_eq_true _
    refine ⟨_, (if_pos hall : stack (a :: as) = _), by rw [← h a (by simp)]; rfl, ?_⟩
    intro j hj q
    show (((a :: as)[j]?).getD a).get q = _
    rw [List.getElem?_eq_getElem hj]
    rfl

/-- Stacked and transposed: coordinates along the first axis, atoms along the second. -/
theorem stackT {args : List Arr} (h : Triples args) : ∃ s, stack args = .ok s ∧ (transpose s).shape = [3, args.length] ∧
    ∀ (j : ℕ) (hj : j < args.length), vecAt (transpose s) [] [j] = vec3 args[j] := by
  obtain ⟨s, hs, hsh, hg⟩ := stack_ok h.1 h.2
  refine ⟨s, hs, by show s.shape.reverse = _; rw [hsh]; rfl, fun j hj => ?_⟩
  funext i
  show s.get ([i.val, j].reverse) = _
  exact hg j hj [i.val]

/-- The arguments `ppdata` and `mass` that the constructor accepts. -/
def Accepts (pp : PP) (mass : Mass) : Prop := pp ≠ .other ∧ mass ≠ .other ∧ ∀ x, mass = .float x → 0 ≤ x

/-- The number of valence electrons of an atom: that of the pseudopotential, the number given, or minus one. -/
def valenceOf : PP → ℤ
  | .file z _ _ => z
  | .int z => z
  | _ => -1

/-- The mass that is kept. -/
def massOf : Mass → Option ℝ
  | .float x => some x
  | _ => none

/-- The data of the pseudopotential that are kept. -/
def fileOf : PP → Option (ℤ × Str × Str)
  | .file z n m => some (z, n, m)
  | _ => none

theorem mkBasis_ok (label : Str) (pp : PP) (mass : Mass) (L : Lat) (r : Arr) (n : ℕ) (hs : r.shape = [3, n]) (ha : Accepts pp mass) :
    ∃ b, mkBasis label pp mass L r = .ok b ∧ b.lat = L ∧ b.r = r ∧ b.numatoms = n ∧ b.label = label ∧ b.valence = valenceOf pp ∧ (b.mass = massOf mass ∧ b.file = fileOf pp ∧ b.r.shape = [3, n]) := by
  obtain ⟨h1, h2, h3⟩ := ha
  unfold mkBasis
  cases pp with
  | other => exact absurd rfl h1
  | _ =>
    cases mass with
    | other => exact absurd rfl h2
    | none =>
      refine ⟨_, by simp only [hs]; simp; exact rfl, rfl, rfl, ?_, rfl, rfl, rfl, rfl, hs⟩
      simp [Basis.numatoms, hs]
    | float x =>
      have := not_lt.2 (h3 x rfl)
      refine ⟨_, by simp only [hs, if_neg this]; simp; exact rfl, rfl, rfl, ?_, rfl, rfl, rfl, rfl, hs⟩
      simp [Basis.numatoms, hs]

/-- The Cartesian position of atom `j`. -/
def cartAt (b : Basis) (j : ℕ) (v : Vec) : Prop := ∃ r, b.rCart = .ok r ∧ r.shape = [3, b.numatoms] ∧ vecAt r [] [j] = v

/-- The position of atom `j` in units of the lattice parameter. -/
def alatAt (b : Basis) (j : ℕ) (v : Vec) : Prop := ∃ r, b.rAlat = .ok r ∧ r.shape = [3, b.numatoms] ∧ vecAt r [] [j] = v

/-- What every accepted group of atoms keeps of its arguments. -/
def Keeps (b : Basis) (label : Str) (pp : PP) (mass : Mass) (L : Lat) (n : ℕ) : Prop :=
  b.label = label ∧ b.valence = valenceOf pp ∧ (b.mass = massOf mass ∧ b.file = fileOf pp ∧ b.r.shape = [3, n]) ∧ b.numatoms = n ∧ b.lat = L

theorem in1 {n j : ℕ} (h : j < n) : InShape [n] [j] := List.Forall₂.cons h List.Forall₂.nil

/-- C168: from one sequence of three numbers per atom, `from_cryst` makes the atoms with these crystal coordinates, `from_cart` and `from_bohr` those with these Cartesian coordinates in Bohr, `from_angstrom` those with these coordinates in Ångström; label, valence and mass are kept. -/
theorem C168_positions (u : ℝ) (A : Mat) (L : Lat) (hL : mkLat u A = .ok L) (hu : u ≠ 0) (label : Str) (pp : PP) (mass : Mass) (ha : Accepts pp mass) (args : List Arr) (h : Triples args) :
    (∃ b, fromCryst label pp mass L args = .ok b ∧ Keeps b label pp mass L args.length ∧ ∀ (j : ℕ) (hj : j < args.length), vecAt b.r [] [j] = vec3 args[j] ∧ cartAt b j (A.mulVec (vec3 args[j]))) ∧
    (∃ b, fromCart label pp mass L args = .ok b ∧ Keeps b label pp mass L args.length ∧ ∀ (j : ℕ) (hj : j < args.length), cartAt b j (vec3 args[j]) ∧ alatAt b j (fun i => vec3 args[j] i / u)) ∧
    (∃ b, fromAng label pp mass L args = .ok b ∧ Keeps b label pp mass L args.length ∧ ∀ (j : ℕ) (hj : j < args.length), cartAt b j (fun i => vec3 args[j] i * angstrom)) := by
  obtain ⟨s, hs, hsh, hv⟩ := stackT h
  obtain ⟨-, e1, e2, -⟩ := mkLat_ok hL
  have inv := (C26_conversions_inverse u A).2 L hL hu
  refine ⟨?_, ?_, ?_⟩
  · obtain ⟨b, hb, b1, b2, b3, b4, b5, b6⟩ := mkBasis_ok label pp mass L (transpose s) _ hsh ha
    refine ⟨b, by unfold fromCryst; rw [hs]; exact hb, ⟨b4, b5, b6, b3, b1⟩, fun j hj => ⟨by rw [b2]; exact hv j hj, ?_⟩⟩
    obtain ⟨-, ⟨r, r1, r2, r3⟩, -, -⟩ := C140_array_conversion L (transpose s) [] [args.length] hsh
    refine ⟨r, by unfold Basis.rCart; rw [b1, b2]; exact r1, by rw [r2, b3]; exact hsh, ?_⟩
    have := r3 [] [j] List.Forall₂.nil (in1 hj)
    rw [this, hv j hj]
    unfold Lat.cryst2cart
    rw [e2]
  · obtain ⟨⟨r, r1, r2, r3⟩, -, -, -⟩ := C140_array_conversion L (transpose s) [] [args.length] hsh
    obtain ⟨b, hb, b1, b2, b3, b4, b5, b6⟩ := mkBasis_ok label pp mass L r _ (r2.trans hsh) ha
    refine ⟨b, by unfold fromCart; rw [hs]; simp only; rw [show LatArr.cart2cryst L (transpose s) 0 = _ from r1]; exact hb, ⟨b4, b5, b6, b3, b1⟩, fun j hj => ?_⟩
    obtain ⟨-, ⟨t, t1, t2, t3⟩, ⟨w, w1, w2, w3⟩, -⟩ := C140_array_conversion L r [] [args.length] (r2.trans hsh)
    have k := r3 [] [j] List.Forall₂.nil (in1 hj)
    rw [hv j hj] at k
    refine ⟨⟨t, by unfold Basis.rCart; rw [b1, b2]; exact t1, by rw [t2, b3, r2]; exact hsh, ?_⟩, ⟨w, by unfold Basis.rAlat; rw [b1, b2]; exact w1, by rw [w2, b3, r2]; exact hsh, ?_⟩⟩
    · rw [t3 [] [j] List.Forall₂.nil (in1 hj), k, (inv _).2.1]
    · rw [w3 [] [j] List.Forall₂.nil (in1 hj), k]
      unfold Lat.cryst2unit
      rw [(inv _).2.1, e1]
  · have hsm : ((transpose s).mulBy angstrom).shape = [] ++ 3 :: [args.length] := hsh
    obtain ⟨⟨r, r1, r2, r3⟩, -, -, -⟩ := C140_array_conversion L ((transpose s).mulBy angstrom) [] [args.length] hsm
    obtain ⟨b, hb, b1, b2, b3, b4, b5, b6⟩ := mkBasis_ok label pp mass L r _ (r2.trans hsm) ha
    refine ⟨b, by unfold fromAng; rw [hs]; simp only; rw [show LatArr.cart2cryst L ((transpose s).mulBy angstrom) 0 = _ from r1]; exact hb, ⟨b4, b5, b6, b3, b1⟩, fun j hj => ?_⟩
    obtain ⟨-, ⟨t, t1, t2, t3⟩, -, -⟩ := C140_array_conversion L r [] [args.length] (r2.trans hsm)
    have k := r3 [] [j] List.Forall₂.nil (in1 hj)
    have hm : vecAt ((transpose s).mulBy angstrom) [] [j] = fun i => vec3 args[j] i * angstrom := by
      funext i
      rw [← hv j hj]
      rfl
    rw [hm] at k
    refine ⟨t, by unfold Basis.rCart; rw [b1, b2]; exact t1, by rw [t2, b3, r2]; exact hsm, ?_⟩
    rw [t3 [] [j] List.Forall₂.nil (in1 hj), k, (inv _).2.1]

/-- C168: from ONE table with a row of three numbers per atom, `from_alat` makes the atoms with these coordinates in units of the lattice parameter. -/
theorem C168_from_alat_partial (u : ℝ) (A : Mat) (L : Lat) (hL : mkLat u A = .ok L) (hu : u ≠ 0) (label : Str) (pp : PP) (mass : Mass) (ha : Accepts pp mass) (a : Arr) (n : ℕ) (h : a.shape = [n, 3]) :
    ∃ b, fromAlat label pp mass L [a] = .ok b ∧ Keeps b label pp mass L n ∧ ∀ j : ℕ, j < n → alatAt b j (fun i => a.get [j, i.val]) ∧ cartAt b j (fun i => a.get [j, i.val] * u) := by
  have hsh : (transpose a).shape = [] ++ 3 :: [n] := by show a.shape.reverse = _; rw [h]; rfl
  obtain ⟨-, e1, e2, -⟩ := mkLat_ok hL
  have inv := (C26_conversions_inverse u A).2 L hL hu
  obtain ⟨-, -, -, ⟨r, r1, r2, r3⟩⟩ := C140_array_conversion L (transpose a) [] [n] hsh
  obtain ⟨b, hb, b1, b2, b3, b4, b5, b6⟩ := mkBasis_ok label pp mass L r _ (r2.trans hsh) ha
  refine ⟨b, by unfold fromAlat; simp only; rw [show LatArr.unit2cryst L (transpose a) 0 = _ from r1]; exact hb, ⟨b4, b5, b6, b3, b1⟩, fun j hj => ?_⟩
  obtain ⟨-, ⟨t, t1, t2, t3⟩, ⟨w, w1, w2, w3⟩, -⟩ := C140_array_conversion L r [] [n] (r2.trans hsh)
  have k := r3 [] [j] List.Forall₂.nil (in1 hj)
  have hm : vecAt (transpose a) [] [j] = fun i => a.get [j, i.val] := rfl
  rw [hm] at k
  refine ⟨⟨w, by unfold Basis.rAlat; rw [b1, b2]; exact w1, by rw [w2, b3, r2]; exact hsh, ?_⟩, ⟨t, by unfold Basis.rCart; rw [b1, b2]; exact t1, by rw [t2, b3, r2]; exact hsh, ?_⟩⟩
  · rw [w3 [] [j] List.Forall₂.nil (in1 hj), k, (inv _).2.2.2.2.2]
  · rw [t3 [] [j] List.Forall₂.nil (in1 hj), k]
    have := (inv (fun i => a.get [j, i.val])).2.2.2.2.2
    funext i
    have := congrFun this i
    unfold Lat.cryst2unit at this
    rw [e1] at this
    rw [← this, div_mul_cancel₀ _ hu]

/-- C168 fails for `from_alat`: it does not take its positions like the other constructors, as its documentation says: given one sequence of three numbers per atom it always fails, with a `TypeError` for several atoms and a `ValueError` for one. -/
theorem C168_from_alat_violated (L : Lat) (label : Str) (pp : PP) (mass : Mass) (ha : Accepts pp mass) (args : List Arr) (h : Triples args) :
    fromAlat label pp mass L args = .error (if args.length = 1 then .value else .type) := by
  obtain ⟨h0, h3⟩ := h
  rcases args with _ | ⟨a, _ | ⟨b, as⟩⟩
  · exact absurd rfl h0
  · have hsh : (transpose a).shape = [] ++ 3 :: [] := by show a.shape.reverse = _; rw [h3 a (by simp)]; rfl
    obtain ⟨-, -, -, ⟨r, r1, r2, -⟩⟩ := C140_array_conversion L (transpose a) [] [] hsh
    unfold fromAlat
    simp only
    rw [show LatArr.unit2cryst L (transpose a) 0 = _ from r1]
    have hr : r.shape = [3] := r2.trans hsh
    obtain ⟨h1, h2, h3⟩ := ha
    simp only [List.length_cons, List.length_nil, if_true]
    unfold mkBasis
    cases pp with
    | other => exact absurd rfl h1
    | _ =>
      cases mass with
      | other => exact absurd rfl h2
      | none => simp [hr]
      | float x => simp [hr, not_lt.2 (h3 x rfl)]
  · unfold fromAlat
    simp

/-- C168: positions with another number of components (not one, not three) are refused with a `ValueError` by all constructors that take one argument per atom. -/
theorem C168_wrong_length (L : Lat) (label : Str) (pp : PP) (mass : Mass) (ha : Accepts pp mass) (args : List Arr) (m : ℕ) (h0 : args ≠ []) (h : ∀ a ∈ args, a.shape = [m]) (h1 : m ≠ 1) (h3 : m ≠ 3) :
    fromCryst label pp mass L args = .error .value ∧ fromCart label pp mass L args = .error .value ∧ fromAng label pp mass L args = .error .value := by
  obtain ⟨s, hs, hsh, -⟩ := stack_ok h0 h
  have ht : (transpose s).shape = [m, args.length] := by show s.shape.reverse = _; rw [hsh]; rfl
  have key : ∀ a : Arr, a.shape = [m, args.length] → LatArr.cart2cryst L a 0 = .error .value := by
    intro a e
    have hb : bdim 3 m = none := by unfold bdim; simp [h1, Ne.symm h3]
    have hb2 : bdim 3 1 = some 3 := by decide
    unfold LatArr.cart2cryst transform mul
    simp [expandDims, e, matArr, bshape, bzip, hb, hb2]
  refine ⟨?_, ?_, ?_⟩
  · unfold fromCryst
    rw [hs]
    simp only
    obtain ⟨g1, g2, g3⟩ := ha
    unfold mkBasis
    cases pp with
    | other => exact absurd rfl g1
    | _ =>
      cases mass with
      | other => exact absurd rfl g2
      | none => simp [ht, h3]
      | float x => simp [ht, h3, not_lt.2 (g3 x rfl)]
  · unfold fromCart
    rw [hs]
    simp only
    rw [key _ ht]
  · unfold fromAng
    rw [hs]
    simp only
    rw [key _ (show ((transpose s).mulBy angstrom).shape = _ from ht)]

/-- C168: positions with different numbers of components are refused with a `ValueError`. -/
theorem C168_ragged (L : Lat) (label : Str) (pp : PP) (mass : Mass) (args : List Arr) (a b : Arr) (ha : a ∈ args) (hb : b ∈ args) (h : a.shape ≠ b.shape) :
    fromCryst label pp mass L args = .error .value ∧ fromCart label pp mass L args = .error .value ∧ fromAng label pp mass L args = .error .value := by
  have hs : stack args = .error .value := by
    cases args with
    | nil => cases ha
    | cons c cs =>
      refine (if_neg fun hall => ?_ : stack (c :: cs) = _)
      rw [List.all_eq_true] at hall
      have key : ∀ d ∈ c :: cs, d.shape = c.shape := by
        intro d hd
        rcases List.mem_cons.1 hd with rfl | hd
        · rfl
        · exact eq_of_beq (hall d hd)
      exact h ((key a ha).trans (key b hb).symm)
  unfold fromCryst fromCart fromAng
  rw [hs]
  exact ⟨rfl, rfl, rfl⟩

/-- C168 fails for positions of a single number: `from_cart` (`from_bohr`) takes the sequence `[x]` for the position `(x, x, x)` instead of refusing it. -/
theorem C168_one_number_violated (u : ℝ) (A : Mat) (L : Lat) (hL : mkLat u A = .ok L) (hu : u ≠ 0) (label : Str) (pp : PP) (mass : Mass) (ha : Accepts pp mass) (args : List Arr) (h0 : args ≠ [])
    (h : ∀ a ∈ args, a.shape = [1]) : ∃ b, fromCart label pp mass L args = .ok b ∧ Keeps b label pp mass L args.length ∧ ∀ (j : ℕ) (hj : j < args.length), cartAt b j (fun _ => args[j].get [0]) := by
  obtain ⟨s, hs, hsh, hg⟩ := stack_ok h0 h
  have ht : (transpose s).shape = [1, args.length] := by show s.shape.reverse = _; rw [hsh]; rfl
  have inv := (C26_conversions_inverse u A).2 L hL hu
  have hb1 : bdim 3 1 = some 3 := by decide
  have hb2 : bdim 1 args.length = some args.length := bdim_one _
  obtain ⟨r, hr, hrs, hrv⟩ : ∃ r, LatArr.cart2cryst L (transpose s) 0 = .ok r ∧ r.shape = [3, args.length] ∧
      ∀ j : ℕ, (hj : j < args.length) → vecAt r [] [j] = L.cart2cryst fun _ => args[j].get [0] := by
    have hbs : bshape (matArr L.primvecInv 1).shape (expandDims (transpose s) 0).shape = some [3, 3, args.length] := by
      simp [expandDims, ht, matArr, bshape, bzip, hb1, hb2]
    refine ⟨_, by
      unfold LatArr.cart2cryst transform mul
      have : (expandDims (transpose s) 0).shape.length - 0 - 2 = 1 := by simp [expandDims, ht]
      simp only [this, hbs]
      exact rfl, rfl, fun j hj => ?_⟩
    funext i
    show ∑ k ∈ Finset.range 3, bget (matArr L.primvecInv 1) [i.val, k, j] * bget (expandDims (transpose s) 0) [i.val, k, j] = _
    rw [Finset.sum_range]
    show _ = ∑ k : Fin 3, L.primvecInv i k * args[j].get [0]
    refine Finset.sum_congr rfl fun k _ => ?_
    have h1 : bget (matArr L.primvecInv 1) [i.val, k.val, j] = L.primvecInv i k := by
      simp only [bget, matArr, List.replicate_succ, List.replicate_zero, List.length_cons, List.length_nil]
      simp [LatArr.entry]
    have h2 : bget (expandDims (transpose s) 0) [i.val, k.val, j] = args[j].get [0] := by
      rw [← hg j hj [0]]
      have e : (expandDims (transpose s) 0).shape = [1, 1, args.length] := by simp [expandDims, ht]
      unfold bget
      rw [e]
      show s.get (List.reverse (List.eraseIdx _ 0)) = _
      by_cases hn : args.length = 1
      · have : j = 0 := by omega
        subst this
        simp [hn]
      · simp [hn]
    rw [h1, h2]
  obtain ⟨b, hb, b1, b2, b3, b4, b5, b6⟩ := mkBasis_ok label pp mass L r _ hrs ha
  refine ⟨b, by unfold fromCart; rw [hs]; simp only; rw [hr]; exact hb, ⟨b4, b5, b6, b3, b1⟩, fun j hj => ?_⟩
  obtain ⟨-, ⟨t, t1, t2, t3⟩, -, -⟩ := C140_array_conversion L r [] [args.length] hrs
  refine ⟨t, by unfold Basis.rCart; rw [b1, b2]; exact t1, by rw [t2, b3]; exact hrs, ?_⟩
  rw [t3 [] [j] List.Forall₂.nil (in1 hj), hrv j hj, (inv _).2.1]

/-- C168: a pseudopotential of another kind, and a mass that is negative or no float (an integer, say), are refused with a `TypeError`. -/
theorem C168_checks (L : Lat) (label : Str) (pp : PP) (mass : Mass) (r : Arr) (h : ¬ Accepts pp mass) : mkBasis label pp mass L r = .error .type := by
  unfold mkBasis
  cases pp with
  | other => rfl
  | _ =>
    cases mass with
    | other => rfl
    | none => exact absurd ⟨by simp, by simp, by simp⟩ h
    | float x =>
      have : x < 0 := by
        by_contra hx
        exact h ⟨by simp, by simp, fun y e => by cases e; exact not_lt.1 hx⟩
      simp [this]

/-- Silicon: two atoms of mass 28.086 with four electrons each in the sheared lattice. -/
noncomputable def exArgs : List Arr := [⟨[3], fun _ => 0⟩, ⟨[3], fun _ => 1 / 4⟩]
example : Triples exArgs ∧ Accepts (.int 4) (.float 28.086) ∧ mkLat 1 !![1, 1, 0; 0, 1, 0; 0, 0, 1] = .ok LatArr.exLat :=
  ⟨⟨by simp [exArgs], by simp [exArgs]⟩, ⟨by simp, by simp, fun x h => by cases h; norm_num⟩, exLat_ok⟩

/-! ## C169: text -/

/-- Reading a line of text: brackets and commas are blanks. -/
def blank (c : Char) : Char := if c = '(' ∨ c = ')' ∨ c = ',' then ' ' else c

/-- The numbers on a line. -/
noncomputable def nums (l : Str) : List ℝ := (words (l.map blank)).filterMap pyFloat

/-- Two lists of numbers agree up to rounding to five decimals. -/
def Close (l m : List ℝ) : Prop := List.Forall₂ (fun x y => |x - y| ≤ 5 / 10 ^ 6) l m

theorem blank_digit {c : Char} (h : isDigit c = true) : blank c = c := by
  unfold blank
  rw [if_neg]
  rintro (rfl | rfl | rfl) <;> exact absurd h (by decide)

theorem map_blank {s : Str} (h : ∀ c ∈ s, blank c = c) : s.map blank = s := by
  conv_rhs => rw [← List.map_id s]
  exact List.map_congr_left fun c hc => h c hc

theorem blank_nat (n : ℕ) : (natStr n).map blank = natStr n := map_blank fun c hc => blank_digit ((natStr_spec n).2.2 c hc)

theorem blank_fixed (d : ℕ) (x : ℝ) : (fixed d x).map blank = fixed d x := by
  apply map_blank
  intro c hc
  unfold fixed at hc
  simp only at hc
  rcases List.mem_append.1 hc with h | h
  · rcases List.mem_append.1 h with h | h
    · split at h
      · rw [List.mem_singleton.1 h]; decide
      · cases h
    · exact blank_digit ((natStr_spec _).2.2 c h)
  · rcases List.mem_cons.1 h with rfl | h
    · decide
    · exact blank_digit ((digitsPad_spec _ _).2.2 c h)

theorem blank_pad (w d : ℕ) (x : ℝ) : (padLeft w (fixed d x)).map blank = padLeft w (fixed d x) := by
  unfold padLeft
  rw [List.map_append, blank_fixed, List.map_replicate]
  rfl

theorem pyFloat_nat (n : ℕ) : pyFloat (natStr n) = some (n : ℝ) := by
  have := pyFloat_intStr (n : ℤ)
  have hi' : intStr (n : ℤ) = natStr n := by
    unfold intStr
    rw [if_neg (by omega), List.nil_append, Int.natAbs_natCast]
  rw [hi'] at this
  rw [this]
  push_cast
  rfl

theorem pyFloat_none (c : Char) (s : Str) (h : isDigit c = false) (h1 : c ≠ '.') (h2 : c ≠ '-') (h3 : c ≠ '+') : pyFloat (c :: s) = none := by
  have e : pyFloat (c :: s) = readUnsigned (c :: s) := by
    unfold pyFloat
    split
    · next h' => injection h' with h4; exact absurd h4 h2
    · next h' => injection h' with h4; exact absurd h4 h3
    · rfl
  rw [e]
  unfold readUnsigned
  simp only [List.takeWhile_cons, List.dropWhile_cons, h]
  simp only [Bool.false_eq_true, if_false]
  split
  · next h' => injection h' with h4; exact absurd h4 h1
  · simp

/-- The words of a line that ends with three numbers in brackets. -/
theorem words_triple (x y z : ℝ) : words ((triple x y z).map blank) = [fixed 5 x, fixed 5 y, fixed 5 z] := by
  have e : (triple x y z).map blank = ' ' :: (padLeft 8 (fixed 5 x) ++ ' ' :: (' ' :: (padLeft 8 (fixed 5 y) ++ ' ' :: (' ' :: (padLeft 8 (fixed 5 z) ++ ' ' :: []))))) := by
    unfold triple
    simp only [List.map_append, List.map_cons, List.map_nil, blank_pad, List.append_assoc, List.cons_append, List.nil_append]
    rfl
  have hf := fun x => fixed_tok 5 x
  rw [e, words_space, words_padTok _ _ _ (hf _).1 (hf _).2, words_space, words_padTok _ _ _ (hf _).1 (hf _).2, words_space, words_padTok _ _ _ (hf _).1 (hf _).2]
  rfl

theorem close_round (x y z : ℝ) : Close [roundTo 5 x, roundTo 5 y, roundTo 5 z] [x, y, z] := by
  have h : ∀ x, |roundTo 5 x - x| ≤ 5 / 10 ^ 6 := fun x => (roundTo_err 5 x).trans (by norm_num)
  exact .cons (h x) (.cons (h y) (.cons (h z) .nil))

theorem nat_tok (n : ℕ) : natStr n ≠ [] ∧ ∀ c ∈ natStr n, isWs c = false := ⟨(natStr_spec n).2.1, fun c hc => digit_not_ws ((natStr_spec n).2.2 c hc)⟩

theorem nums_axis (name : Char) (hn : name = 'a' ∨ name = 'b') (i : Fin 3) (L : Lat) :
    ∃ l, nums (axisLine name i L) = ((i.val : ℝ) + 1) :: l ∧ Close l [L.primvec 0 i / L.unit, L.primvec 1 i / L.unit, L.primvec 2 i / L.unit] := by
  refine ⟨_, ?_, close_round _ _ _⟩
  have e : (axisLine name i L).map blank = List.replicate 4 ' ' ++ ([name] ++ ' ' :: (natStr (i.val + 1) ++ ' ' :: (' ' :: (['='] ++ ' ' :: ((triple (L.primvec 0 i / L.unit) (L.primvec 1 i / L.unit) (L.primvec 2 i / L.unit)).map blank))))) := by
    unfold axisLine
    have e1 : "    ".toList = List.replicate 4 ' ' := by decide
    have e2 : ") = ".toList = [')', ' ', '=', ' '] := by decide
    rw [e1, e2]
    simp only [List.map_append, List.map_cons, List.map_nil, blank_nat, List.append_assoc, List.cons_append, List.nil_append]
    rcases hn with rfl | rfl <;> rfl
  have hname : isWs name = false ∧ isDigit name = false ∧ name ≠ '.' ∧ name ≠ '-' ∧ name ≠ '+' := by rcases hn with rfl | rfl <;> decide
  unfold nums
  rw [e, words_spaces, words_tok [name] _ (by simp) (by simpa using hname.1), words_tok _ _ (nat_tok _).1 (nat_tok _).2, words_space, Printer.words_lit ['='] _ rfl, words_triple]
  have p1 := pyFloat_none name [] hname.2.1 hname.2.2.1 hname.2.2.2.1 hname.2.2.2.2
  have p2 := pyFloat_none '=' [] (by decide) (by decide) (by decide) (by decide)
  simp only [List.filterMap_cons, List.filterMap_nil, p1, p2, pyFloat_nat, pyFloat_fixed]
  push_cast
  rfl

/-- C169: the text of a lattice shows its three axes in units of `alat`, numbered, and then those of its reciprocal lattice in units of `tpiba`, all to five decimals. -/
theorem C169_lattice (u : ℝ) (A : Mat) (L : Lat) (hL : mkLat u A = .ok L) : ∃ R lines, fromReallat L = .ok R ∧ latticeLines L = .ok lines ∧ lines.length = 9 ∧
    ∀ i : Fin 3, (∃ line l, lines[1 + i.val]? = some line ∧ nums line = ((i.val : ℝ) + 1) :: l ∧ Close l ((axesUnit L).getD i.val [])) ∧
      ∃ line l, lines[6 + i.val]? = some line ∧ nums line = ((i.val : ℝ) + 1) :: l ∧ Close l ((axesUnit R).getD i.val []) := by
  obtain ⟨R, hR, -, -, -⟩ := C27_duality u A L hL
  refine ⟨R, _, hR, by unfold latticeLines; rw [hR], rfl, fun i => ?_⟩
  have ha : ∀ M : Lat, (axesUnit M).getD i.val [] = [M.primvec 0 i / M.unit, M.primvec 1 i / M.unit, M.primvec 2 i / M.unit] := by
    intro M
    unfold axesUnit
    simp only [fin3]
    fin_cases i <;> rfl
  obtain ⟨l1, n1, c1⟩ := nums_axis 'a' (.inl rfl) i L
  obtain ⟨l2, n2, c2⟩ := nums_axis 'b' (.inr rfl) i R
  refine ⟨⟨axisLine 'a' i L, l1, ?_, n1, by rw [ha]; exact c1⟩, ⟨axisLine 'b' i R, l2, ?_, n2, by rw [ha]; exact c2⟩⟩
  · fin_cases i <;> rfl
  · fin_cases i <;> rfl

theorem nums_atom (b : Basis) (j : ℕ) : ∃ l, nums (atomLine b j) = ((j : ℝ) + 1) :: l ∧ Close l [b.r.get [0, j], b.r.get [1, j], b.r.get [2, j]] := by
  refine ⟨_, ?_, close_round _ _ _⟩
  have e : (atomLine b j).map blank = List.replicate 10 ' ' ++ (natStr (j + 1) ++ ' ' :: (['-'] ++ ' ' :: ((triple (b.r.get [0, j]) (b.r.get [1, j]) (b.r.get [2, j])).map blank))) := by
    unfold atomLine
    have e1 : "          ".toList = List.replicate 10 ' ' := by decide
    have e2 : " - ".toList = [' ', '-', ' '] := by decide
    rw [e1, e2]
    simp only [List.map_append, List.map_cons, List.map_nil, blank_nat, List.append_assoc, List.cons_append, List.nil_append]
    rfl
  unfold nums
  rw [e, words_spaces, words_tok _ _ (nat_tok _).1 (nat_tok _).2, Printer.words_lit ['-'] _ rfl, words_triple]
  have p2 : pyFloat ['-'] = none := by unfold pyFloat readUnsigned; simp
  simp only [List.filterMap_cons, List.filterMap_nil, p2, pyFloat_nat, pyFloat_fixed]
  push_cast
  rfl

/-- C169: the text of a group of atoms whose mass and pseudopotential are known has six lines of data and then one line per atom with its number and its CRYSTAL coordinates to five decimals. -/
theorem C169_atoms (b : Basis) (m : ℝ) (hm : b.mass = some m) (f : ℤ × Str × Str) (hf : b.file = some f) : ∃ lines, basisLines b = .ok lines ∧ lines.length = 6 + b.numatoms ∧
    lines[5]? = some "    Coordinates (in units of alat)".toList ∧
    ∀ j : ℕ, j < b.numatoms → ∃ line l, lines[6 + j]? = some line ∧ nums line = ((j : ℝ) + 1) :: l ∧ Close l [vecAt b.r [] [j] 0, vecAt b.r [] [j] 1, vecAt b.r [] [j] 2] := by
  obtain ⟨z, name, md5⟩ := f
  refine ⟨_, by unfold basisLines; rw [hm, hf], ?_, rfl, fun j hj => ?_⟩
  · simp; omega
  · obtain ⟨l, h1, h2⟩ := nums_atom b j
    refine ⟨atomLine b j, l, ?_, h1, h2⟩
    rw [List.getElem?_append_right (by simp)]
    simp only [List.length_cons, List.length_nil]
    rw [show 6 + j - (0 + 1 + 1 + 1 + 1 + 1 + 1) = j by omega, List.getElem?_map, List.getElem?_range hj, Option.map_some]

/-- C169 fails for the unit of the coordinates: in the lattice with axes `(1, 0, 0)`, `(1, 1, 0)`, `(0, 0, 1)` an atom at `(1/2, 1/2, 0)` in units of `alat` is shown, below the heading "in units of alat", with the numbers `0, 1/2, 0`. -/
theorem C169_coords_violated : ∃ b lines line l, fromCart "Si".toList (.file 4 [] []) (.float 28) exLat [⟨[3], fun i => ([1 / 2, 1 / 2, 0] : List ℝ).getD (i.headD 0) 0⟩] = .ok b ∧
    alatAt b 0 ![1 / 2, 1 / 2, 0] ∧ basisLines b = .ok lines ∧ lines[5]? = some "    Coordinates (in units of alat)".toList ∧ lines[6]? = some line ∧ nums line = 1 :: l ∧ Close l [0, 1 / 2, 0] := by
  have hacc : Accepts (.file 4 [] []) (.float 28) := ⟨by simp, by simp, fun x h => by cases h; norm_num⟩
  have htr : Triples [⟨[3], fun i => ([1 / 2, 1 / 2, 0] : List ℝ).getD (i.headD 0) 0⟩] := ⟨by simp, by simp⟩
  obtain ⟨-, ⟨b, hb, ⟨k1, k2, ⟨k3, k6, k7⟩, k4, k5⟩, hpos⟩, -⟩ := C168_positions 1 _ exLat exLat_ok one_ne_zero "Si".toList _ _ hacc _ htr
  obtain ⟨hc, hal⟩ := hpos 0 (by simp)
  have hv : vec3 ([⟨[3], fun i => ([1 / 2, 1 / 2, 0] : List ℝ).getD (i.headD 0) 0⟩] : List Arr)[0] = ![1 / 2, 1 / 2, 0] := by
    funext i
    fin_cases i <;> rfl
  have hl := k5
  have hn : b.numatoms = 1 := k4
  have hsh : b.r.shape = [3, 1] := k7
  obtain ⟨r, r1, r2, r3⟩ := hc
  obtain ⟨-, ⟨t, t1, t2, t3⟩, -, -⟩ := C140_array_conversion exLat b.r [] [1] hsh
  have htr' : t = r := by
    unfold Basis.rCart at r1
    rw [hl] at r1
    have := r1.symm.trans t1
    exact ((Except.ok.injEq _ _).mp this).symm
  have hcart := t3 [] [0] List.Forall₂.nil (in1 (by simp))
  rw [htr', r3, hv] at hcart
  have hcr : vecAt b.r [] [0] = ![0, 1 / 2, 0] := by
    have h := (C26_conversions_inverse 1 _).2 exLat exLat_ok one_ne_zero (vecAt b.r [] [0])
    have h1 : vecAt b.r [] [0] = exLat.cart2cryst ![1 / 2, 1 / 2, 0] := by rw [hcart, h.1]
    have h2 : exLat.cryst2cart ![0, 1 / 2, 0] = ![1 / 2, 1 / 2, 0] := by
      unfold Lat.cryst2cart exLat
      funext i
      fin_cases i <;> simp [Matrix.mulVec, dotProduct, Fin.sum_univ_three]
    rw [h1, ← h2]
    exact ((C26_conversions_inverse 1 _).2 exLat exLat_ok one_ne_zero _).1
  obtain ⟨lines, h1, h2, h3, h4⟩ := C169_atoms b 28 k3 _ k6
  obtain ⟨line, l, h5, h6, h7⟩ := h4 0 (by omega)
  refine ⟨b, lines, line, l, hb, ?_, h1, h3, h5, by simpa using h6, ?_⟩
  · obtain ⟨w, w1, w2, w3⟩ := hal
    refine ⟨w, w1, w2, ?_⟩
    rw [w3, hv]
    funext i
    simp
  · rw [hcr] at h7
    simpa using h7

/-- C169: a group without a mass cannot be shown (`TypeError`), nor one made with a number of electrons instead of a pseudopotential (`AttributeError`). -/
theorem C169_raises (b : Basis) : (b.mass = none → basisLines b = .error .type) ∧ (b.mass ≠ none → b.file = none → basisLines b = .error .attribute) := by
  refine ⟨fun h => by unfold basisLines; rw [h], fun h h' => ?_⟩
  obtain ⟨m, hm⟩ := Option.ne_none_iff_exists'.1 h
  unfold basisLines
  rw [hm, h']

/-- The last word of a line. -/
def lastWord (l : Str) : Option Str := (words l).getLast?

theorem word_after (p : Str) (tok : Str) (h0 : tok ≠ []) (ht : ∀ c ∈ tok, isWs c = false) : lastWord (p ++ ' ' :: tok) = some tok := by
  have : ∀ q : Str, ∃ w, words (q ++ ' ' :: tok) = w ++ [tok] := by
    have key : ∀ q : Str, ∃ w : List Str, pieces (q ++ ' ' :: tok) = w ++ [tok] ∧ w ≠ [] := by
      intro q
      induction q with
      | nil =>
        refine ⟨[[]], ?_, by simp⟩
        rw [List.nil_append, pieces_space _ _ (by decide)]
        obtain ⟨h, t, e1, e2⟩ := pieces_tok tok [] ht
        have : pieces [] = [[]] := rfl
        rw [this] at e1
        injection e1 with e3 e4
        subst e3 e4
        rw [List.append_nil] at e2
        rw [e2]
        rfl
      | cons c q ih =>
        obtain ⟨w, hw, hne⟩ := ih
        by_cases hc : isWs c = true
        · exact ⟨[] :: w, by rw [List.cons_append, pieces_space _ _ hc, hw]; rfl, by simp⟩
        · cases w with
          | nil => exact absurd rfl hne
          | cons h t =>
            refine ⟨(c :: h) :: t, ?_, by simp⟩
            show (if isWs c then [] :: pieces (q ++ ' ' :: tok) else match pieces (q ++ ' ' :: tok) with
              | [] => [[c]]
              | h :: t => (c :: h) :: t) = _
            rw [hw, if_neg hc]
            rfl
    intro q
    obtain ⟨w, hw, -⟩ := key q
    refine ⟨w.filter fun w => !w.isEmpty, ?_⟩
    rw [words_eq, hw, List.filter_append, List.filter_cons_of_pos (by simp [h0])]
    rfl
  obtain ⟨w, hw⟩ := this p
  unfold lastWord
  rw [hw]
  simp

/-- C169: the text of a crystal all of whose species have a mass and a pseudopotential begins with lattice parameter and volume to five decimals and ends three further lines with the numbers of atoms, species and valence electrons in the cell; then come the lattice and the species in order. -/
theorem C169_crystal (u : ℝ) (A : Mat) (L : Lat) (hL : mkLat u A = .ok L) (atoms : List Basis) (h : ∀ b ∈ atoms, b.mass ≠ none ∧ b.file ≠ none) :
    ∃ l0 l1 l2 l3 l4 lat groups, crystalLines L atoms = .ok (l0 :: l1 :: l2 :: l3 :: l4 :: [] :: (lat ++ [] :: groups)) ∧ latticeLines L = .ok lat ∧
      (∃ x, nums l0 = [x] ∧ |x - u| ≤ 5 / 10 ^ 6) ∧ (∃ x, (nums l1).head? = some x ∧ |x - abs A.det| ≤ 5 / 10 ^ 6) ∧
      ((lastWord l2).bind pyFloat = some (((atoms.map Basis.numatoms).sum : ℕ) : ℝ)) ∧ ((lastWord l3).bind pyFloat = some (atoms.length : ℝ)) ∧
      ((lastWord l4).bind pyFloat = some (((atoms.map fun b => b.valence * (b.numatoms : ℤ)).sum : ℤ) : ℝ)) ∧
      ∃ gs, gs.length = atoms.length ∧ groups = ((List.range atoms.length).zip gs).flatMap (fun p => [] :: ("Atom Species #".toList ++ natStr (p.1 + 1)) :: p.2) ∧
        ∀ (i : ℕ) (hi : i < atoms.length) (hg : i < gs.length), basisLines atoms[i] = .ok gs[i] := by
  obtain ⟨R, lat, hR, hlat, -, -⟩ := C169_lattice u A L hL
  have e1 := (mkLat_ok hL).2.1
  have e5 := (mkLat_ok hL).2.2.2.2.2
  have hg : ∀ (atoms : List Basis) (k : ℕ), (∀ b ∈ atoms, b.mass ≠ none ∧ b.file ≠ none) → ∃ gs g, groupLines (k + 1) atoms = .ok g ∧ gs.length = atoms.length ∧
      g = ((List.range' k atoms.length).zip gs).flatMap (fun p => [] :: ("Atom Species #".toList ++ natStr (p.1 + 1)) :: p.2) ∧
      ∀ (i : ℕ) (hi : i < atoms.length) (hg : i < gs.length), basisLines atoms[i] = .ok gs[i] := by
    intro atoms
    induction atoms with
    | nil => intro k _; exact ⟨[], [], rfl, rfl, rfl, fun i hi => absurd hi (by simp)⟩
    | cons b bs ih =>
      intro k h
      obtain ⟨gs, g, i1, i2, i3, i4⟩ := ih (k + 1) fun b hb => h b (List.mem_cons_of_mem _ hb)
      obtain ⟨hm, hf⟩ := h b (by simp)
      obtain ⟨m, hm⟩ := Option.ne_none_iff_exists'.1 hm
      obtain ⟨f, hf⟩ := Option.ne_none_iff_exists'.1 hf
      obtain ⟨ls, hls, -⟩ := C169_atoms b m hm f hf
      refine ⟨ls :: gs, _, by simp only [groupLines, hls, i1]; exact rfl, by simp [i2], ?_, ?_⟩
      · rw [i3]
        simp only [List.length_cons, List.range'_succ, List.zip_cons_cons, List.flatMap_cons, List.cons_append]
      · intro i hi hg
        cases i with
        | zero => exact hls
        | succ i => exact i4 i (by simpa using hi) (by simpa using hg)
  obtain ⟨gs, g, g1, g2, g3, g4⟩ := hg atoms 0 h
  refine ⟨_, _, _, _, _, lat, g, by unfold crystalLines; rw [hlat]; simp only; rw [g1]; simp only [List.cons_append, List.nil_append, List.append_assoc]; exact rfl, hlat, ?_, ?_, ?_, ?_, ?_, gs, g2, by rw [g3, List.range_eq_range'], g4⟩
  · refine ⟨roundTo 5 L.unit, ?_, by rw [← e1]; exact (roundTo_err 5 L.unit).trans (by norm_num)⟩
    have q1 : "Lattice parameter 'alat' :   ".toList.map blank = "Lattice".toList ++ ' ' :: ("parameter".toList ++ ' ' :: ("'alat'".toList ++ ' ' :: (":".toList ++ ' ' :: [' ', ' ']))) := by decide
    have q2 : "  a.u.".toList.map blank = ' ' :: ' ' :: "a.u.".toList := by decide
    unfold nums
    simp only [List.map_append, blank_fixed, q1, q2, List.append_assoc, List.cons_append, List.nil_append]
    rw [Printer.words_lit _ _ rfl, Printer.words_lit _ _ rfl, Printer.words_lit _ _ rfl, Printer.words_lit _ _ rfl, words_space, words_space, words_tok _ _ (fixed_tok _ _).1 (fixed_tok _ _).2, words_space,
      words_last _ (Printer.lit_tok _ rfl).1 (Printer.lit_tok _ rfl).2]
    have z1 : pyFloat "Lattice".toList = none := pyFloat_none 'L' _ (by decide) (by decide) (by decide) (by decide)
    have z2 : pyFloat "parameter".toList = none := pyFloat_none 'p' _ (by decide) (by decide) (by decide) (by decide)
    have z3 : pyFloat "'alat'".toList = none := pyFloat_none '\'' _ (by decide) (by decide) (by decide) (by decide)
    have z4 : pyFloat ":".toList = none := pyFloat_none ':' _ (by decide) (by decide) (by decide) (by decide)
    have z5 : pyFloat "a.u.".toList = none := pyFloat_none 'a' _ (by decide) (by decide) (by decide) (by decide)
    simp only [List.filterMap_cons, List.filterMap_nil, z1, z2, z3, z4, z5, pyFloat_fixed]
  · refine ⟨roundTo 5 L.cellvol, ?_, by rw [← e5]; exact (roundTo_err 5 L.cellvol).trans (by norm_num)⟩
    have q1 : "Unit cell volume         :  ".toList.map blank = "Unit".toList ++ ' ' :: ("cell".toList ++ ' ' :: ("volume".toList ++ ' ' :: (List.replicate 8 ' ' ++ (":".toList ++ ' ' :: [' '])))) := by decide
    have q2 : "  (a.u.)^3".toList.map blank = ' ' :: ' ' :: ' ' :: "a.u. ^3".toList := by decide
    unfold nums
    simp only [List.map_append, blank_fixed, q1, q2, List.append_assoc, List.cons_append, List.nil_append]
    rw [Printer.words_lit _ _ rfl, Printer.words_lit _ _ rfl, Printer.words_lit _ _ rfl, words_spaces, Printer.words_lit _ _ rfl, words_space, words_tok _ _ (fixed_tok _ _).1 (fixed_tok _ _).2]
    have z1 : pyFloat "Unit".toList = none := pyFloat_none 'U' _ (by decide) (by decide) (by decide) (by decide)
    have z2 : pyFloat "cell".toList = none := pyFloat_none 'c' _ (by decide) (by decide) (by decide) (by decide)
    have z3 : pyFloat "volume".toList = none := pyFloat_none 'v' _ (by decide) (by decide) (by decide) (by decide)
    have z4 : pyFloat ":".toList = none := pyFloat_none ':' _ (by decide) (by decide) (by decide) (by decide)
    simp only [List.filterMap_cons, z1, z2, z3, z4, pyFloat_fixed, List.head?_cons]
  · have q : "Number of atoms/cell     : ".toList = "Number of atoms/cell     :".toList ++ [' '] := by decide
    rw [q, List.append_assoc, List.singleton_append, word_after _ _ (nat_tok _).1 (nat_tok _).2]
    exact pyFloat_nat _
  · have q : "Number of atomic types   : ".toList = "Number of atomic types   :".toList ++ [' '] := by decide
    rw [q, List.append_assoc, List.singleton_append, word_after _ _ (nat_tok _).1 (nat_tok _).2]
    exact pyFloat_nat _
  · have q : "Number of electrons      : ".toList = "Number of electrons      :".toList ++ [' '] := by decide
    rw [q, List.append_assoc, List.singleton_append, word_after _ _ (intStr_tok _).1 (intStr_tok _).2]
    exact pyFloat_intStr _

end Verif.Atoms
