import Mathlib.Tactic.FinCases
import Verif.Props.Symm

/-!
# Property C59: the operations kept by the symmetry filters form a group
-/

namespace Verif.Symm

open Verif.GSpace Matrix

/-! ## Specification -/

/-- `q` is the composition "first `p`, then `o`", up to a lattice translation. -/
def Prod (o p q : SymOp) : Prop :=
  q.W = o.W * p.W ∧ ∀ i, ∃ m : ℤ, q.t i = (o.W.map (Int.cast : ℤ → ℝ) *ᵥ p.t) i + o.t i + m

/-- What the symmetry finder returns: the space group of the crystal modulo lattice translations, each class once, with
translations in `[0,1)` and the identity first. -/
structure SpaceGroup (l : List SymOp) : Prop where
  unimod : ∀ o ∈ l, IsUnit o.W.det
  range : ∀ o ∈ l, ∀ i, 0 ≤ o.t i ∧ o.t i < 1
  nodup : l.Nodup
  id_first : l.head? = some ⟨1, 0⟩
  closed : ∀ o ∈ l, ∀ p ∈ l, ∃ q ∈ l, Prod o p q

/-- A list of operations on which fields can be symmetrised (`IsGroup` of the operations in the order of the list). -/
def IsGroupList (l : List SymOp) : Prop :=
  ∃ o rest, l = o :: rest ∧ IsGroup (fun i : Fin (rest.length + 1) => (o :: rest).get i)

theorem isGroupList_iff (l : List SymOp) : IsGroupList l ↔
    (∃ o, l.head? = some o ∧ o.W = 1) ∧ (∀ o ∈ l, IsUnit o.W.det) ∧ (l.map SymOp.W).Nodup ∧
      ∀ o ∈ l, ∀ p ∈ l, ∃ q ∈ l, Prod o p q := by
  constructor
  · rintro ⟨o, rest, rfl, h⟩
    refine ⟨⟨o, rfl, h.id_rot⟩, ?_, ?_, ?_⟩
    · intro p hp
      obtain ⟨i, rfl⟩ := List.get_of_mem hp
      exact h.unimod i
    · have h1 : (o :: rest).Nodup := by
        rw [List.nodup_iff_injective_get]
        intro i j e
        exact h.inj i j (congrArg SymOp.W e)
      apply List.Nodup.map_on _ h1
      intro x hx y hy e
      obtain ⟨i, rfl⟩ := List.get_of_mem hx
      obtain ⟨j, rfl⟩ := List.get_of_mem hy
      rw [h.inj i j e]
    · intro p hp q hq
      obtain ⟨i, rfl⟩ := List.get_of_mem hp
      obtain ⟨j, rfl⟩ := List.get_of_mem hq
      obtain ⟨v, hv⟩ := h.closed i j
      exact ⟨_, List.get_mem (o :: rest) v, hv⟩
  · rintro ⟨⟨o, ho, hW⟩, hu, hn, hc⟩
    cases l with
    | nil => simp at ho
    | cons a rest =>
      simp only [List.head?_cons, Option.some.injEq] at ho
      subst ho
      refine ⟨a, rest, rfl, ⟨fun s => hu _ (List.get_mem (a :: rest) s), hW, ?_, ?_⟩⟩
      · intro s u e
        have h1 := List.nodup_iff_injective_get.1 hn
        have : (⟨s.1, by simpa using s.2⟩ : Fin ((a :: rest).map SymOp.W).length) = ⟨u.1, by simpa using u.2⟩ := by
          apply h1
          show ((a :: rest).map SymOp.W)[s.1]'(by have := s.2; simp; omega) = ((a :: rest).map SymOp.W)[u.1]'(by have := u.2; simp; omega)
          rw [List.getElem_map, List.getElem_map]
          exact e
        exact Fin.ext (by simpa using this)
      · intro s u
        obtain ⟨q, hq, e⟩ := hc _ (List.get_mem (a :: rest) s) _ (List.get_mem (a :: rest) u)
        obtain ⟨v, rfl⟩ := List.get_of_mem hq
        exact ⟨v, e⟩

/-! ## Proofs -/

theorem frac_eq {a b : ℝ} (ha : 0 ≤ a ∧ a < 1) (hb : 0 ≤ b ∧ b < 1) (m : ℤ) (h : a = b + m) : a = b := by
  have h1 : (m : ℝ) < 1 := by linarith [ha.2, hb.1]
  have h2 : (-1 : ℝ) < m := by linarith [ha.1, hb.2]
  have h1' : m < 1 := by exact_mod_cast h1
  have h2' : -1 < m := by exact_mod_cast h2
  have : m = 0 := by omega
  rw [h, this]; simp

theorem op_ext {o p : SymOp} (h1 : o.W = p.W) (h2 : ∀ i, o.t i = p.t i) : o = p := by
  cases o; cases p
  simp only at h1 h2
  subst h1
  congr 1
  funext i; exact h2 i

theorem mulW_cancel {A B C : Matrix (Fin 3) (Fin 3) ℤ} (hC : IsUnit C.det) (h : A * C = B * C) : A = B := by
  have := congrArg (· * C⁻¹) h
  simpa [Matrix.mul_assoc, mul_nonsing_inv _ hC] using this

theorem right_div {l : List SymOp} (h : SpaceGroup l) {p o : SymOp} (hp : p ∈ l) (ho : o ∈ l) : ∃ e ∈ l, Prod e p o := by
  classical
  choose f hf using fun x : {x // x ∈ l} => h.closed x.1 x.2 p hp
  have hinj : Function.Injective (fun x : {x // x ∈ l} => (⟨f x, (hf x).1⟩ : {x // x ∈ l})) := by
    intro x y e
    have e' : f x = f y := congrArg Subtype.val e
    obtain ⟨_, hx1, hx2⟩ := hf x
    obtain ⟨_, hy1, hy2⟩ := hf y
    have hW : x.1.W = y.1.W := mulW_cancel (h.unimod p hp) (by rw [← hx1, ← hy1, e'])
    apply Subtype.ext
    refine op_ext hW fun i => ?_
    obtain ⟨m, hm⟩ := hx2 i
    obtain ⟨m', hm'⟩ := hy2 i
    rw [e', hm', hW] at hm
    exact frac_eq (h.range _ x.2 i) (h.range _ y.2 i) (m' - m) (by push_cast; linarith)
  have hfin : Finite {x // x ∈ l} := List.finite_toSet l
  obtain ⟨e, he⟩ := (Finite.injective_iff_surjective.1 hinj) ⟨o, ho⟩
  have : f e = o := congrArg Subtype.val he
  exact ⟨e.1, e.2, this ▸ (hf e).2⟩

theorem head_mem {α : Type*} {l : List α} {a : α} (h : l.head? = some a) : a ∈ l := List.mem_of_head? h

theorem filter_head {α : Type*} (l : List α) (p : α → Bool) (a : α) (h : l.head? = some a) (ha : p a = true) :
    (l.filter p).head? = some a := by
  cases l with
  | nil => simp at h
  | cons b l =>
    simp only [List.head?_cons, Option.some.injEq] at h
    subst h
    rw [List.filter_cons_of_pos ha]; rfl

theorem zero_of_int {a : ℝ} (ha : 0 ≤ a ∧ a < 1) (m : ℤ) (h : a = m) : a = 0 :=
  frac_eq ha ⟨le_refl 0, one_pos⟩ m (by rw [h]; simp)

/-- **C59 (supercells).** For every space group returned by the symmetry finder, the operations kept after the
supercell check form a group with one operation per rotation and the identity first, also when the crystal is a
supercell with pure translations among its symmetries. -/
theorem C59_supercell_filter (l : List SymOp) (h : SpaceGroup l) : IsGroupList (supercellFilter l) := by
  classical
  have hid := head_mem h.id_first
  rw [isGroupList_iff]
  unfold supercellFilter
  split
  · refine ⟨⟨⟨1, 0⟩, filter_head _ _ _ h.id_first (by simp), rfl⟩, ?_, ?_, ?_⟩
    · intro o ho; exact h.unimod o (List.mem_of_mem_filter ho)
    · apply List.Nodup.map_on _ (h.nodup.filter _)
      intro o ho p hp e
      simp only [List.mem_filter, decide_eq_true_eq] at ho hp
      exact op_ext e fun i => by rw [ho.2, hp.2]
    · intro o ho p hp
      simp only [List.mem_filter, decide_eq_true_eq] at ho hp
      obtain ⟨q, hq, hW, ht⟩ := h.closed o ho.1 p hp.1
      refine ⟨q, ?_, hW, ht⟩
      simp only [List.mem_filter, decide_eq_true_eq]
      refine ⟨hq, funext fun i => ?_⟩
      obtain ⟨m, hm⟩ := ht i
      rw [ho.2, hp.2] at hm
      exact zero_of_int (h.range q hq i) m (by simpa using hm)
  · next hlen =>
    push Not at hlen
    refine ⟨⟨⟨1, 0⟩, h.id_first, rfl⟩, h.unimod, ?_, h.closed⟩
    apply List.Nodup.map_on _ h.nodup
    intro o ho p hp e
    obtain ⟨x, hx, hW, ht⟩ := right_div h hp ho
    have hx1 : x.W = 1 := mulW_cancel (h.unimod p hp) (by rw [← hW, e, one_mul])
    obtain ⟨a, ha⟩ := List.length_eq_one_iff.1 hlen
    have m1 : x ∈ l.filter fun o => decide (o.W = 1) := by simp [hx, hx1]
    have m2 : (⟨1, 0⟩ : SymOp) ∈ l.filter fun o => decide (o.W = 1) := by simp [hid]
    rw [ha, List.mem_singleton] at m1 m2
    have hxe : x = ⟨1, 0⟩ := by rw [m1, m2]
    refine op_ext e fun i => ?_
    obtain ⟨m, hm⟩ := ht i
    rw [hxe] at hm
    refine frac_eq (h.range o ho i) (h.range p hp i) m ?_
    rw [hm, Matrix.map_one _ Int.cast_zero Int.cast_one, one_mulVec]
    simp

/-- The FFT grid is compatible with an operation: rotating by whole grid steps gives whole grid steps. -/
def GridCompatible (sh : Shape) (o : SymOp) : Prop :=
  ∀ i j : Fin 3, ∃ m : ℤ, (![(sh.n1 : ℤ), sh.n2, sh.n3] i) * o.W i j = m * (![(sh.n1 : ℤ), sh.n2, sh.n3] j)

/-- **C59 (grid filter, partial).** If the FFT grid is compatible with every operation, then filtering a group by "the
translation is a whole number of grid steps" leaves a group. Missing: an incompatible grid, see `C59_grid_filter_fails`. -/
theorem C59_grid_filter_partial (l : List SymOp) (h : IsGroupList l) (sh : Shape)
    (hid : ∃ o, l.head? = some o ∧ o.t = 0) (hgrid : ∀ o ∈ l, GridCompatible sh o) :
    IsGroupList (filterFracTrans l sh) := by
  classical
  rw [isGroupList_iff] at h ⊢
  obtain ⟨⟨e, he, heW⟩, hu, hn, hc⟩ := h
  obtain ⟨e', he', het⟩ := hid
  rw [he] at he'
  obtain rfl : e = e' := by simpa using he'
  have hN : ∀ i, (![(sh.n1 : ℝ), sh.n2, sh.n3] i) = ((![(sh.n1 : ℤ), sh.n2, sh.n3] i : ℤ) : ℝ) := by
    intro i; fin_cases i <;> simp
  unfold filterFracTrans
  refine ⟨⟨e, filter_head _ _ _ he (by simp only [decide_eq_true_eq]; intro i; exact ⟨0, by rw [het]; simp⟩), heW⟩, ?_, ?_, ?_⟩
  · intro o ho; exact hu o (List.mem_of_mem_filter ho)
  · exact hn.sublist (List.filter_sublist.map _)
  · intro o ho p hp
    simp only [List.mem_filter, decide_eq_true_eq] at ho hp
    obtain ⟨q, hq, hW, ht⟩ := hc o ho.1 p hp.1
    refine ⟨q, ?_, hW, ht⟩
    simp only [List.mem_filter, decide_eq_true_eq]
    refine ⟨hq, fun i => ?_⟩
    obtain ⟨m, hm⟩ := ht i
    obtain ⟨a, ha⟩ := ho.2 i
    choose b hb using hp.2
    choose c hcg using hgrid o ho.1 i
    refine ⟨∑ j, c j * b j + a + m * (![(sh.n1 : ℤ), sh.n2, sh.n3] i), ?_⟩
    have e1 : ∀ j, (![(sh.n1 : ℝ), sh.n2, sh.n3] i) * (o.W i j : ℝ) * p.t j = ((c j * b j : ℤ) : ℝ) := by
      intro j
      have h1 : (![(sh.n1 : ℝ), sh.n2, sh.n3] i) * (o.W i j : ℝ) = (c j : ℝ) * (![(sh.n1 : ℝ), sh.n2, sh.n3] j) := by
        rw [hN, hN]; exact_mod_cast hcg j
      rw [h1]; push_cast; rw [← hb j]; ring
    rw [hm, add_mul, add_mul, ha]
    push_cast
    rw [← hN i]
    congr 2
    simp only [mulVec, dotProduct, map_apply, Finset.sum_mul]
    apply Finset.sum_congr rfl
    intro j _
    have := e1 j
    push_cast at this
    rw [← this]; ring

/-- In particular nothing can go wrong on a grid with equal dimensions. -/
theorem C59_cubic_grid (l : List SymOp) (h : IsGroupList l) (n : ℕ) (hid : ∃ o, l.head? = some o ∧ o.t = 0) :
    IsGroupList (filterFracTrans l ⟨n, n, n⟩) := by
  apply C59_grid_filter_partial l h _ hid
  intro o _ i j
  have : ∀ k, (![(n : ℤ), n, n] k) = n := by intro k; fin_cases k <;> rfl
  exact ⟨o.W i j, by simp only [this]; ring⟩

/-- Rotations by 90 degrees about the axis through (1/4, 1/4, 0), in crystal coordinates. -/
noncomputable def p4 : List SymOp :=
  [⟨1, 0⟩, ⟨!![0, -1, 0; 1, 0, 0; 0, 0, 1], ![1 / 2, 0, 0]⟩, ⟨!![-1, 0, 0; 0, -1, 0; 0, 0, 1], ![1 / 2, 1 / 2, 0]⟩,
    ⟨!![0, 1, 0; -1, 0, 0; 0, 0, 1], ![0, 1 / 2, 0]⟩]

theorem p4_group : SpaceGroup p4 := by
  have prodI : ∀ (W1 W2 W3 : Matrix (Fin 3) (Fin 3) ℤ) (t1 t2 t3 : Fin 3 → ℝ) (m : Fin 3 → ℤ), W3 = W1 * W2 →
      (∀ i, t3 i = (∑ j, (W1 i j : ℝ) * t2 j) + t1 i + m i) → Prod ⟨W1, t1⟩ ⟨W2, t2⟩ ⟨W3, t3⟩ := by
    intro W1 W2 W3 t1 t2 t3 m h1 h2
    exact ⟨h1, fun i => ⟨m i, h2 i⟩⟩
  refine ⟨?_, ?_, ?_, rfl, ?_⟩
  · intro o ho
    simp only [p4, List.mem_cons, List.not_mem_nil, or_false] at ho
    rcases ho with rfl | rfl | rfl | rfl
    · simp
    all_goals (simp only [det_fin_three]; simp)
  · intro o ho i
    simp only [p4, List.mem_cons, List.not_mem_nil, or_false] at ho
    rcases ho with rfl | rfl | rfl | rfl <;> fin_cases i <;> norm_num
  · have h : (p4.map SymOp.W).Nodup := by
      simp only [p4, List.map_cons, List.map_nil]
      decide
    exact h.of_map _
  · intro o ho p hp
    simp only [p4, List.mem_cons, List.not_mem_nil, or_false] at ho hp
    have a1 : (⟨1, 0⟩ : SymOp) ∈ p4 := by simp [p4]
    have a2 : (⟨!![0, -1, 0; 1, 0, 0; 0, 0, 1], ![1 / 2, 0, 0]⟩ : SymOp) ∈ p4 := by simp [p4]
    have a3 : (⟨!![-1, 0, 0; 0, -1, 0; 0, 0, 1], ![1 / 2, 1 / 2, 0]⟩ : SymOp) ∈ p4 := by simp [p4]
    have a4 : (⟨!![0, 1, 0; -1, 0, 0; 0, 0, 1], ![0, 1 / 2, 0]⟩ : SymOp) ∈ p4 := by simp [p4]
    rcases ho with rfl | rfl | rfl | rfl
    · refine ⟨p, ?_, (one_mul _).symm, fun i => ⟨0, ?_⟩⟩
      · rcases hp with rfl | rfl | rfl | rfl <;> assumption
      · rw [Matrix.map_one _ Int.cast_zero Int.cast_one, one_mulVec]; simp
    · rcases hp with rfl | rfl | rfl | rfl
      · refine ⟨_, a2, prodI _ _ _ _ _ _ ![0, 0, 0] (mul_one _).symm ?_⟩
        intro i; fin_cases i <;> simp
      · refine ⟨_, a3, prodI _ _ _ _ _ _ ![0, 0, 0] (by decide) ?_⟩
        intro i; fin_cases i <;> simp [Fin.sum_univ_three]
      · refine ⟨_, a4, prodI _ _ _ _ _ _ ![0, 0, 0] (by decide) ?_⟩
        intro i; fin_cases i <;> simp [Fin.sum_univ_three]
      · refine ⟨_, a1, prodI _ _ _ _ _ _ ![0, 0, 0] (by decide) ?_⟩
        intro i; fin_cases i <;> simp [Fin.sum_univ_three]
    · rcases hp with rfl | rfl | rfl | rfl
      · refine ⟨_, a3, prodI _ _ _ _ _ _ ![0, 0, 0] (mul_one _).symm ?_⟩
        intro i; fin_cases i <;> simp
      · refine ⟨_, a4, prodI _ _ _ _ _ _ ![0, 0, 0] (by decide) ?_⟩
        intro i; fin_cases i <;> simp [Fin.sum_univ_three]
      · refine ⟨_, a1, prodI _ _ _ _ _ _ ![0, 0, 0] (by decide) ?_⟩
        intro i; fin_cases i <;> simp [Fin.sum_univ_three]
      · refine ⟨_, a2, prodI _ _ _ _ _ _ ![0, 0, 0] (by decide) ?_⟩
        intro i; fin_cases i <;> simp [Fin.sum_univ_three]
    · rcases hp with rfl | rfl | rfl | rfl
      · refine ⟨_, a4, prodI _ _ _ _ _ _ ![0, 0, 0] (mul_one _).symm ?_⟩
        intro i; fin_cases i <;> simp
      · refine ⟨_, a1, prodI _ _ _ _ _ _ ![0, 0, 0] (by decide) ?_⟩
        intro i; fin_cases i <;> simp [Fin.sum_univ_three]
      · refine ⟨_, a2, prodI _ _ _ _ _ _ ![0, 0, 0] (by decide) ?_⟩
        intro i; fin_cases i <;> simp [Fin.sum_univ_three]
      · refine ⟨_, a3, prodI _ _ _ _ _ _ ![0, 0, 0] (by decide) ?_⟩
        intro i; fin_cases i <;> simp [Fin.sum_univ_three]

/-- **C59 (violation).** On a user-supplied 2 x 3 x 1 grid, filtering the operations of a tetragonal crystal whose
fourfold axis passes through (1/4, 1/4) keeps the rotation by 90 degrees and drops its square: what remains is not a
group. -/
theorem C59_grid_filter_fails : SpaceGroup p4 ∧ ¬ IsGroupList (filterFracTrans (supercellFilter p4) ⟨2, 3, 1⟩) := by
  classical
  refine ⟨p4_group, ?_⟩
  have hW : ∀ o ∈ p4, o.W = 1 ∨ o.W = !![0, -1, 0; 1, 0, 0; 0, 0, 1] ∨ o.t 1 = 1 / 2 := by
    intro o ho
    simp only [p4, List.mem_cons, List.not_mem_nil, or_false] at ho
    rcases ho with rfl | rfl | rfl | rfl <;> simp
  have hsub : ∀ o ∈ supercellFilter p4, o ∈ p4 := by
    intro o ho
    unfold supercellFilter at ho
    split at ho
    · exact List.mem_of_mem_filter ho
    · exact ho
  have hone : supercellFilter p4 = p4 := by
    unfold supercellFilter
    rw [if_neg]
    push Not
    have h2 : (!![0, -1, 0; 1, 0, 0; 0, 0, 1] : Matrix (Fin 3) (Fin 3) ℤ) ≠ 1 := by decide
    have h3 : (!![-1, 0, 0; 0, -1, 0; 0, 0, 1] : Matrix (Fin 3) (Fin 3) ℤ) ≠ 1 := by decide
    have h4 : (!![0, 1, 0; -1, 0, 0; 0, 0, 1] : Matrix (Fin 3) (Fin 3) ℤ) ≠ 1 := by decide
    simp [p4, h2, h3, h4]
  rw [hone, isGroupList_iff]
  rintro ⟨_, _, _, hc⟩
  have hr : (⟨!![0, -1, 0; 1, 0, 0; 0, 0, 1], ![1 / 2, 0, 0]⟩ : SymOp) ∈ filterFracTrans p4 ⟨2, 3, 1⟩ := by
    unfold filterFracTrans
    simp only [List.mem_filter, decide_eq_true_eq]
    refine ⟨by simp [p4], fun i => ?_⟩
    fin_cases i
    · exact ⟨1, by norm_num⟩
    · exact ⟨0, by norm_num⟩
    · exact ⟨0, by norm_num⟩
  obtain ⟨q, hq, hqW, _⟩ := hc _ hr _ hr
  unfold filterFracTrans at hq
  simp only [List.mem_filter, decide_eq_true_eq] at hq
  obtain ⟨hq1, hq2⟩ := hq
  rcases hW q hq1 with h | h | h
  · rw [h] at hqW; revert hqW; decide
  · rw [h] at hqW; revert hqW; decide
  · obtain ⟨m, hm⟩ := hq2 1
    rw [h] at hm
    have : (3 : ℝ) = 2 * m := by
      have e : (1 / 2 : ℝ) * ((3 : ℕ) : ℝ) = m := hm
      push_cast at e
      linarith
    have : (3 : ℤ) = 2 * m := by exact_mod_cast this
    omega

/-- cases: the same group on a compatible grid -/
example : IsGroupList (filterFracTrans (supercellFilter p4) ⟨6, 6, 6⟩) := by
  apply C59_cubic_grid _ (C59_supercell_filter _ p4_group)
  have := p4_group.id_first
  unfold supercellFilter
  split
  · exact ⟨⟨1, 0⟩, filter_head _ _ _ this (by simp), rfl⟩
  · exact ⟨⟨1, 0⟩, this, rfl⟩

end Verif.Symm
