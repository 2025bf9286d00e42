import Mathlib.Data.List.Sort
import Mathlib.Data.List.Range
import Mathlib.Data.List.Perm.Basic
import Mathlib.Data.Nat.Prime.Basic
import Mathlib.Tactic.Ring
import Mathlib.Tactic.Linarith
import Mathlib.Tactic.NormNum
import Mathlib.Tactic.NormNum.Prime
import Mathlib.Tactic.Tauto
import Verif.Model.GSpace

/-!
# Properties C10–C12, C14–C16: G-vector bookkeeping
-/

namespace Verif.GSpace

/-! ## C10: index map -/

theorem inRange_iff (n : ℕ) (i : ℤ) :
    inRange n i = true ↔ -((n / 2 : ℕ) : ℤ) ≤ i ∧ i < ((n + 1) / 2 : ℕ) := by
  simp only [inRange, Bool.and_eq_true, decide_eq_true_eq]

theorem inBounds_iff (s : Shape) (g : GVec) :
    inBounds s g = true ↔
      inRange s.n1 g.1 = true ∧ inRange s.n2 g.2.1 = true ∧ inRange s.n3 g.2.2 = true := by
  simp only [inBounds, Bool.and_eq_true]; tauto

theorem wrap_spec (n : ℕ) (i : ℤ) (h : inRange n i = true) :
    0 ≤ wrap n i ∧ wrap n i < n ∧ (wrap n i < ((n + 1) / 2 : ℕ) ↔ 0 ≤ i) := by
  rw [inRange_iff] at h
  unfold wrap
  split_ifs <;> omega

theorem wrap_inj (n : ℕ) (i j : ℤ) (hi : inRange n i = true) (hj : inRange n j = true)
    (h : wrap n i = wrap n j) : i = j := by
  have h1 := (wrap_spec n i hi).2.2
  have h2 := (wrap_spec n j hj).2.2
  rw [h] at h1
  have h3 : 0 ≤ i ↔ 0 ≤ j := h1.symm.trans h2
  unfold wrap at h
  split_ifs at h <;> omega

theorem wrap_surj (n : ℕ) (k : ℤ) (h0 : 0 ≤ k) (hk : k < n) :
    ∃ i, inRange n i = true ∧ wrap n i = k := by
  by_cases h : k < ((n + 1) / 2 : ℕ)
  · exact ⟨k, by rw [inRange_iff]; omega, by unfold wrap; rw [if_neg (by omega)]; omega⟩
  · exact ⟨k - n, by rw [inRange_iff]; omega, by unfold wrap; rw [if_pos (by omega)]; omega⟩

/-- mixed-radix digits are unique -/
theorem radix_unique (N2 N3 : ℤ) {a b c a' b' c' : ℤ}
    (hb : 0 ≤ b ∧ b < N2) (hc : 0 ≤ c ∧ c < N3) (hb' : 0 ≤ b' ∧ b' < N2) (hc' : 0 ≤ c' ∧ c' < N3)
    (h : N2 * N3 * a + N3 * b + c = N2 * N3 * a' + N3 * b' + c') : a = a' ∧ b = b' ∧ c = c' := by
  have h3 : 0 < N3 := by omega
  have h2 : 0 < N2 := by omega
  have e1 : ∀ a b c : ℤ, N2 * N3 * a + N3 * b + c = c + N3 * (N2 * a + b) := by intros; ring
  rw [e1, e1] at h
  have hm := congrArg (· % N3) h
  simp only [Int.add_mul_emod_self_left, Int.emod_eq_of_lt hc.1 hc.2,
    Int.emod_eq_of_lt hc'.1 hc'.2] at hm
  subst hm
  have h4 : N2 * a + b = N2 * a' + b' := by
    have : N3 * (N2 * a + b) = N3 * (N2 * a' + b') := by linarith
    exact mul_left_cancel₀ h3.ne' this
  have h5 : b + N2 * a = b' + N2 * a' := by linarith
  have hm2 := congrArg (· % N2) h5
  simp only [Int.add_mul_emod_self_left, Int.emod_eq_of_lt hb.1 hb.2,
    Int.emod_eq_of_lt hb'.1 hb'.2] at hm2
  subst hm2
  have : N2 * a = N2 * a' := by linarith
  exact ⟨mul_left_cancel₀ h2.ne' this, rfl, rfl⟩

/-- **C10.** For every positive grid shape: `cryst2idxgrid` accepts a list iff every vector is inside
the grid bounds; each accepted vector gets a flat index in `[0, n1·n2·n3)`; and the map from in-bounds
vectors to `[0, n1·n2·n3)` is a bijection (every flat index belongs to exactly one G-vector). -/
theorem C10_index_bijection (s : Shape) (hs : s.Pos) :
    (∀ gs : List GVec, (∀ g ∈ gs, inBounds s g = true) →
      cryst2idxgrid s gs = .ok (gs.map (flatIdx s))) ∧
    (∀ gs : List GVec, ¬ (∀ g ∈ gs, inBounds s g = true) →
      cryst2idxgrid s gs = .error .assertion) ∧
    (∀ g, inBounds s g = true → 0 ≤ flatIdx s g ∧ flatIdx s g < s.size) ∧
    (∀ k : ℤ, 0 ≤ k → k < s.size → ∃! g, inBounds s g = true ∧ flatIdx s g = k) := by
  refine ⟨?_, ?_, ?_, ?_⟩
  · intro gs h
    simp [cryst2idxgrid, checkG, hs, List.all_eq_true.2 h]
  · intro gs h
    have h' : ¬ (gs.all (inBounds s) = true) := by rwa [List.all_eq_true]
    simp only [cryst2idxgrid, checkG, hs, not_true_eq_false, if_false, if_neg h']
  · intro g hg
    rw [inBounds_iff] at hg
    obtain ⟨h1, h2, h3⟩ := hg
    obtain ⟨a0, a1, _⟩ := wrap_spec _ _ h1
    obtain ⟨b0, b1, _⟩ := wrap_spec _ _ h2
    obtain ⟨c0, c1, _⟩ := wrap_spec _ _ h3
    unfold flatIdx Shape.size
    have hn2 : (0 : ℤ) ≤ s.n2 := by omega
    have hn3 : (0 : ℤ) ≤ s.n3 := by omega
    constructor
    · have := mul_nonneg (mul_nonneg hn2 hn3) a0
      have := mul_nonneg hn3 b0
      linarith
    · have e1 : (s.n2 : ℤ) * s.n3 * wrap s.n1 g.1 ≤ s.n2 * s.n3 * (s.n1 - 1) :=
        mul_le_mul_of_nonneg_left (by omega) (mul_nonneg hn2 hn3)
      have e2 : (s.n3 : ℤ) * wrap s.n2 g.2.1 ≤ s.n3 * (s.n2 - 1) :=
        mul_le_mul_of_nonneg_left (by omega) hn3
      push_cast
      nlinarith
  · intro k hk0 hk
    obtain ⟨p1, p2, p3⟩ := hs
    have hP3 : (0 : ℤ) < s.n3 := by omega
    have hP2 : (0 : ℤ) < s.n2 := by omega
    have hk' : k < s.n1 * s.n2 * s.n3 := by unfold Shape.size at hk; push_cast at hk; exact hk
    obtain ⟨c, hc, ec⟩ := wrap_surj s.n3 (k % s.n3) (Int.emod_nonneg _ hP3.ne')
      (Int.emod_lt_of_pos _ hP3)
    obtain ⟨b, hb, eb⟩ := wrap_surj s.n2 (k / s.n3 % s.n2) (Int.emod_nonneg _ hP2.ne')
      (Int.emod_lt_of_pos _ hP2)
    have hd0 : 0 ≤ k / s.n3 / s.n2 := Int.ediv_nonneg (Int.ediv_nonneg hk0 hP3.le) hP2.le
    have hd1 : k / s.n3 / s.n2 < s.n1 :=
      Int.ediv_lt_of_lt_mul hP2 (Int.ediv_lt_of_lt_mul hP3 hk')
    obtain ⟨a, ha, ea⟩ := wrap_surj s.n1 (k / s.n3 / s.n2) hd0 hd1
    have e : flatIdx s (a, b, c) = k := by
      unfold flatIdx
      simp only [ea, eb, ec]
      have q1 := Int.mul_ediv_add_emod k s.n3
      have q2 := Int.mul_ediv_add_emod (k / s.n3) s.n2
      calc (s.n2 : ℤ) * s.n3 * (k / s.n3 / s.n2) + s.n3 * (k / s.n3 % s.n2) + k % s.n3
          = s.n3 * (s.n2 * (k / s.n3 / s.n2) + k / s.n3 % s.n2) + k % s.n3 := by ring
        _ = k := by rw [q2, q1]
    refine ⟨(a, b, c), ⟨?_, e⟩, ?_⟩
    · rw [inBounds_iff]; exact ⟨ha, hb, hc⟩
    · rintro ⟨a', b', c'⟩ ⟨hg, hk⟩
      rw [inBounds_iff] at hg
      obtain ⟨h1, h2, h3⟩ := hg
      rw [← e] at hk
      unfold flatIdx at hk
      have w := radix_unique s.n2 s.n3
        ⟨(wrap_spec _ _ h2).1, (wrap_spec _ _ h2).2.1⟩ ⟨(wrap_spec _ _ h3).1, (wrap_spec _ _ h3).2.1⟩
        ⟨(wrap_spec _ _ hb).1, (wrap_spec _ _ hb).2.1⟩ ⟨(wrap_spec _ _ hc).1, (wrap_spec _ _ hc).2.1⟩
        hk
      have x1 : a' = a := wrap_inj _ _ _ h1 ha w.1
      have x2 : b' = b := wrap_inj _ _ _ h2 hb w.2.1
      have x3 : c' = c := wrap_inj _ _ _ h3 hc w.2.2
      rw [x1, x2, x3]

example : cryst2idxgrid ⟨4, 3, 5⟩ [(0, 0, 0), (-2, 1, -2), (1, -1, 2)] = .ok [0, 38, 27] := by decide
example : cryst2idxgrid ⟨4, 3, 5⟩ [(2, 0, 0)] = .error .assertion := by decide

/-! ## C11: canonical order -/

theorem flatIdx_inj (s : Shape) (hs : s.Pos) (g g' : GVec) (h : inBounds s g = true)
    (h' : inBounds s g' = true) (he : flatIdx s g = flatIdx s g') : g = g' := by
  have hb := (C10_index_bijection s hs).2.2.1 g h
  exact ((C10_index_bijection s hs).2.2.2 (flatIdx s g) hb.1 hb.2).unique ⟨h, rfl⟩ ⟨h', he.symm⟩

/-- the grid position of an in-bounds vector -/
theorem unravel_flatIdx (s : Shape) (hs : s.Pos) (g : GVec) (h : inBounds s g = true) :
    unravel s (flatIdx s g)
      = ((wrap s.n1 g.1).toNat, (wrap s.n2 g.2.1).toNat, (wrap s.n3 g.2.2).toNat) := by
  rw [inBounds_iff] at h
  obtain ⟨h1, h2, h3⟩ := h
  obtain ⟨a0, a1, _⟩ := wrap_spec _ _ h1
  obtain ⟨b0, b1, _⟩ := wrap_spec _ _ h2
  obtain ⟨c0, c1, _⟩ := wrap_spec _ _ h3
  unfold flatIdx
  generalize wrap s.n1 g.1 = a at *
  generalize wrap s.n2 g.2.1 = b at *
  generalize wrap s.n3 g.2.2 = c at *
  lift a to ℕ using a0
  lift b to ℕ using b0
  lift c to ℕ using c0
  have e : (s.n2 : ℤ) * s.n3 * a + s.n3 * b + c = ((s.n2 * s.n3 * a + s.n3 * b + c : ℕ) : ℤ) := by
    push_cast; ring
  rw [e]
  unfold unravel
  simp only [Int.toNat_natCast]
  have hb : b < s.n2 := by omega
  have hc : c < s.n3 := by omega
  have q1 : (s.n2 * s.n3 * a + s.n3 * b + c) / s.n3 = s.n2 * a + b := by
    rw [show s.n2 * s.n3 * a + s.n3 * b + c = s.n3 * (s.n2 * a + b) + c by ring,
      Nat.mul_add_div hs.2.2, Nat.div_eq_of_lt hc, add_zero]
  have q2 : (s.n2 * s.n3 * a + s.n3 * b + c) % s.n3 = c := by
    rw [show s.n2 * s.n3 * a + s.n3 * b + c = s.n3 * (s.n2 * a + b) + c by ring,
      Nat.mul_add_mod, Nat.mod_eq_of_lt hc]
  have q3 : (s.n2 * s.n3 * a + s.n3 * b + c) / (s.n2 * s.n3) = a := by
    rw [Nat.mul_comm s.n2 s.n3, ← Nat.div_div_eq_div_mul, Nat.mul_comm s.n3 s.n2, q1,
      Nat.mul_add_div hs.2.1, Nat.div_eq_of_lt hb, add_zero]
  rw [q3, q1, q2, Nat.mul_add_mod, Nat.mod_eq_of_lt hb]

theorem unravel_inj (s : Shape) (hs : s.Pos) (g g' : GVec) (h : inBounds s g = true)
    (h' : inBounds s g' = true) (he : unravel s (flatIdx s g) = unravel s (flatIdx s g')) :
    g = g' := by
  rw [unravel_flatIdx s hs g h, unravel_flatIdx s hs g' h'] at he
  rw [inBounds_iff] at h h'
  have e1 := congrArg Prod.fst he
  have e2 := congrArg (fun p => p.2.1) he
  have e3 := congrArg (fun p => p.2.2) he
  simp only at e1 e2 e3
  have w1 := wrap_spec _ _ h.1; have w1' := wrap_spec _ _ h'.1
  have w2 := wrap_spec _ _ h.2.1; have w2' := wrap_spec _ _ h'.2.1
  have w3 := wrap_spec _ _ h.2.2; have w3' := wrap_spec _ _ h'.2.2
  have x1 := wrap_inj _ _ _ h.1 h'.1 (by omega)
  have x2 := wrap_inj _ _ _ h.2.1 h'.2.1 (by omega)
  have x3 := wrap_inj _ _ _ h.2.2 h'.2.2 (by omega)
  exact Prod.ext x1 (Prod.ext x2 x3)

theorem lexLe_trans (a b c : ℕ × ℕ × ℕ) (h1 : lexLe a b = true) (h2 : lexLe b c = true) :
    lexLe a c = true := by
  simp only [lexLe, decide_eq_true_eq] at *; omega

theorem lexLe_total (a b : ℕ × ℕ × ℕ) : (lexLe a b || lexLe b a) = true := by
  simp only [lexLe, Bool.or_eq_true, decide_eq_true_eq]; omega

theorem lexLe_antisymm (a b : ℕ × ℕ × ℕ) (h1 : lexLe a b = true) (h2 : lexLe b a = true) :
    a = b := by
  obtain ⟨a1, a2, a3⟩ := a
  obtain ⟨b1, b2, b3⟩ := b
  simp only [lexLe, decide_eq_true_eq, Prod.mk.injEq] at *; omega

theorem gather_range {α : Type*} [Inhabited α] (l : List α) :
    gather l (List.range l.length) = l := by
  unfold gather at'
  apply List.ext_getElem
  · simp
  · intro i h1 h2
    simp at h1
    simp [List.getD_eq_getElem?_getD, h1]

theorem at'_gather {α : Type*} [Inhabited α] (l : List α) (p : List ℕ) (i : ℕ) (h : i < p.length) :
    at' (gather l p) i = at' l (at' p i) := by
  unfold gather at'
  simp [List.getD_eq_getElem?_getD, h]

theorem gather_perm {α : Type*} [Inhabited α] (l : List α) (p : List ℕ)
    (h : p.Perm (List.range l.length)) : (gather l p).Perm l := by
  have := h.map (at' l)
  rw [show (List.range l.length).map (at' l) = l from gather_range l] at this
  exact this

theorem argsort_perm (p : List ℕ) : (argsort p).Perm (List.range p.length) :=
  List.mergeSort_perm _ _

theorem gather_argsort (p : List ℕ) (h : p.Perm (List.range p.length)) :
    gather p (argsort p) = List.range p.length := by
  have hp : (gather p (argsort p)).Perm (List.range p.length) :=
    (gather_perm p _ (argsort_perm p)).trans h
  have hs : (argsort p).Pairwise (fun i j => decide (at' p i ≤ at' p j) = true) := by
    apply List.pairwise_mergeSort
    · intro a b c; simp only [decide_eq_true_eq]; omega
    · intro a b; simp only [Bool.or_eq_true, decide_eq_true_eq]; omega
  have hs2 : (gather p (argsort p)).Pairwise (· ≤ ·) := by
    unfold gather
    rw [List.pairwise_map]
    exact hs.imp (fun h => by simpa using h)
  have hs3 : (List.range p.length).Pairwise (· ≤ ·) :=
    List.pairwise_lt_range.imp (fun h => le_of_lt h)
  exact List.Perm.eq_of_pairwise (fun a b _ _ h1 h2 => le_antisymm h1 h2) hs2 hs3 hp

/-- sort then un-sort -/
theorem gather_gather_argsort {α : Type*} [Inhabited α] (l : List α) (p : List ℕ)
    (h : p.Perm (List.range l.length)) : gather (gather l p) (argsort p) = l := by
  have hlen : p.length = l.length := by simpa using h.length_eq
  have h' : p.Perm (List.range p.length) := by rwa [hlen]
  have e : gather (gather l p) (argsort p) = gather l (gather p (argsort p)) := by
    unfold gather
    rw [List.map_map]
    apply List.map_congr_left
    intro i hi
    have hi' : i < p.length := by
      have := (argsort_perm p).mem_iff.1 hi; simpa using this
    exact at'_gather l p i hi'
  rw [e, gather_argsort p h', hlen, gather_range]

theorem sortG_perm (s : Shape) (idx : List ℤ) : (sortG s idx).Perm (List.range idx.length) :=
  List.mergeSort_perm _ _

theorem sortG_sorted (s : Shape) (idx : List ℤ) :
    (sortG s idx).Pairwise
      fun i j => lexLe (unravel s (at' idx i)) (unravel s (at' idx j)) = true := by
  apply List.pairwise_mergeSort
  · intro a b c h1 h2; exact lexLe_trans _ _ _ h1 h2
  · intro a b; exact lexLe_total _ _

theorem at'_map {α β : Type*} [Inhabited α] [Inhabited β] (f : α → β) (l : List α) (i : ℕ)
    (h : i < l.length) : at' (l.map f) i = f (at' l i) := by
  unfold at'
  simp [List.getD_eq_getElem?_getD, h]

/-- The canonical order on grid positions, from the docstring of `_sort_g`: sticks parallel to the
x axis are kept together, sticks are ordered by (y, z), and points inside a stick by x. Positions are
the FFT-grid coordinates `g mod n`. -/
def CanonLe (s : Shape) (g g' : GVec) : Prop :=
  let y := g.2.1 % s.n2; let y' := g'.2.1 % s.n2
  let z := g.2.2 % s.n3; let z' := g'.2.2 % s.n3
  let x := g.1 % s.n1; let x' := g'.1 % s.n1
  y < y' ∨ (y = y' ∧ (z < z' ∨ (z = z' ∧ x ≤ x')))

theorem wrap_eq_emod (n : ℕ) (i : ℤ) (h : inRange n i = true) : wrap n i = i % n := by
  have h1 := wrap_spec n i h
  have : i % n = (wrap n i) % n := by
    unfold wrap; rw [Int.add_mul_emod_self_left]
  rw [this, Int.emod_eq_of_lt h1.1 h1.2.1]

theorem lexLe_iff_canon (s : Shape) (hs : s.Pos) (g g' : GVec) (h : inBounds s g = true)
    (h' : inBounds s g' = true) :
    lexLe (unravel s (flatIdx s g)) (unravel s (flatIdx s g')) = true ↔ CanonLe s g g' := by
  rw [unravel_flatIdx s hs g h, unravel_flatIdx s hs g' h']
  rw [inBounds_iff] at h h'
  have w1 := wrap_spec _ _ h.1; have w1' := wrap_spec _ _ h'.1
  have w2 := wrap_spec _ _ h.2.1; have w2' := wrap_spec _ _ h'.2.1
  have w3 := wrap_spec _ _ h.2.2; have w3' := wrap_spec _ _ h'.2.2
  simp only [lexLe, CanonLe, decide_eq_true_eq, ← wrap_eq_emod _ _ h.1, ← wrap_eq_emod _ _ h.2.1,
    ← wrap_eq_emod _ _ h.2.2, ← wrap_eq_emod _ _ h'.1, ← wrap_eq_emod _ _ h'.2.1,
    ← wrap_eq_emod _ _ h'.2.2]
  omega

/-- Construction in closed form. -/
theorem mkBase_ok (s : Shape) (hs : s.Pos) (gs : List GVec) (hg : ∀ g ∈ gs, inBounds s g = true)
    (hne : gs ≠ []) :
    ∃ b, mkBase s gs = .ok b ∧ b.shape = s ∧
      b.gCryst = gather gs (sortG s (gs.map (flatIdx s))) ∧
      b.idxgrid = gather (gs.map (flatIdx s)) (sortG s (gs.map (flatIdx s))) ∧
      b.idxsort = argsort (sortG s (gs.map (flatIdx s))) ∧
      b.hasG0 = decide (b.gCryst.head? = some (0, 0, 0)) := by
  unfold mkBase
  rw [(C10_index_bijection s hs).1 gs hg]
  simp only
  generalize hG : gather gs (sortG s (gs.map (flatIdx s))) = G
  cases G with
  | nil =>
    exfalso
    have hp := gather_perm gs (sortG s (gs.map (flatIdx s)))
      (by simpa using sortG_perm s (gs.map (flatIdx s)))
    rw [hG] at hp
    exact hne (List.nil_perm.1 hp)
  | cons g0 tl =>
    refine ⟨_, rfl, rfl, rfl, rfl, rfl, ?_⟩
    simp

/-- **C11.** For every grid and every non-empty list of in-bounds G-vectors, construction succeeds; the
stored vectors are the given ones, in canonical order (`CanonLe`); `idxgrid` is their flat grid index;
`idxsort` is a permutation and indexing with it restores the caller's order, for the vectors and hence
for data stored per vector. -/
theorem C11_canonical_order (s : Shape) (hs : s.Pos) (gs : List GVec)
    (hg : ∀ g ∈ gs, inBounds s g = true) (hne : gs ≠ []) :
    ∃ b, mkBase s gs = .ok b ∧
      b.gCryst.Perm gs ∧ b.gCryst.Pairwise (CanonLe s) ∧
      b.idxgrid = b.gCryst.map (flatIdx s) ∧
      b.idxsort.Perm (List.range gs.length) ∧
      gather b.gCryst b.idxsort = gs := by
  obtain ⟨b, hb, _, e1, e2, e3, _⟩ := mkBase_ok s hs gs hg hne
  have hp : (sortG s (gs.map (flatIdx s))).Perm (List.range gs.length) := by
    simpa using sortG_perm s (gs.map (flatIdx s))
  have hlen : (sortG s (gs.map (flatIdx s))).length = gs.length := by simpa using hp.length_eq
  refine ⟨b, hb, ?_, ?_, ?_, ?_, ?_⟩
  · rw [e1]; exact gather_perm _ _ hp
  · rw [e1]
    unfold gather
    rw [List.pairwise_map]
    have hs' := sortG_sorted s (gs.map (flatIdx s))
    refine List.Pairwise.imp_of_mem ?_ hs'
    intro i j hi hj hij
    have hi' : i < gs.length := by have := hp.mem_iff.1 hi; simpa using this
    have hj' : j < gs.length := by have := hp.mem_iff.1 hj; simpa using this
    rw [at'_map _ _ _ hi', at'_map _ _ _ hj'] at hij
    refine (lexLe_iff_canon s hs _ _ (hg _ ?_) (hg _ ?_)).1 hij
    · simp [at', List.getD_eq_getElem?_getD, hi']
    · simp [at', List.getD_eq_getElem?_getD, hj']
  · rw [e1, e2]
    unfold gather
    rw [List.map_map]
    apply List.map_congr_left
    intro i hi
    have hi' : i < gs.length := by have := hp.mem_iff.1 hi; simpa using this
    exact at'_map _ _ _ hi'
  · rw [e3]
    have := argsort_perm (sortG s (gs.map (flatIdx s)))
    rwa [hlen] at this
  · rw [e1, e3]; exact gather_gather_argsort gs _ hp

/-- **C11 (data).** Per-vector data given in the caller's order, sorted with the construction's order
and un-sorted with `idxsort`, comes back unchanged. -/
theorem C11_data_round_trip {α : Type*} [Inhabited α] (s : Shape) (hs : s.Pos) (gs : List GVec)
    (hg : ∀ g ∈ gs, inBounds s g = true) (hne : gs ≠ []) (data : List α)
    (hd : data.length = gs.length) :
    ∃ b p, mkBase s gs = .ok b ∧ b.gCryst = gather gs p ∧ gather (gather data p) b.idxsort = data := by
  obtain ⟨b, hb, _, e1, _, e3, _⟩ := mkBase_ok s hs gs hg hne
  refine ⟨b, _, hb, e1, ?_⟩
  rw [e3]
  apply gather_gather_argsort
  rw [hd]
  simpa using sortG_perm s (gs.map (flatIdx s))

theorem CanonLe.antisymm {s : Shape} (hs : s.Pos) {g g' : GVec} (h : inBounds s g = true)
    (h' : inBounds s g' = true) (h1 : CanonLe s g g') (h2 : CanonLe s g' g) : g = g' := by
  rw [← lexLe_iff_canon s hs g g' h h'] at h1
  rw [← lexLe_iff_canon s hs g' g h' h] at h2
  exact unravel_inj s hs g g' h h' (lexLe_antisymm _ _ h1 h2)

/-- **C11 (independence of the given order).** Two lists with the same vectors, in any order, give
G-spaces with identical vectors, grid indices and `has_g0`. -/
theorem C11_order_independent (s : Shape) (hs : s.Pos) (gs gs' : List GVec)
    (hg : ∀ g ∈ gs, inBounds s g = true) (hne : gs ≠ []) (hp : gs.Perm gs') :
    ∃ b b', mkBase s gs = .ok b ∧ mkBase s gs' = .ok b' ∧
      b.gCryst = b'.gCryst ∧ b.idxgrid = b'.idxgrid ∧ b.hasG0 = b'.hasG0 := by
  have hg' : ∀ g ∈ gs', inBounds s g = true := fun g h => hg g (hp.mem_iff.2 h)
  have hne' : gs' ≠ [] := by rintro rfl; exact hne hp.eq_nil
  obtain ⟨b, hb, p1, s1, i1, _, _⟩ := C11_canonical_order s hs gs hg hne
  obtain ⟨b', hb', p1', s1', i1', _, _⟩ := C11_canonical_order s hs gs' hg' hne'
  obtain ⟨b2, hb2, _, _, _, _, z2⟩ := mkBase_ok s hs gs hg hne
  obtain ⟨b3, hb3, _, _, _, _, z3⟩ := mkBase_ok s hs gs' hg' hne'
  have q2 : b2 = b := by rw [hb] at hb2; injection hb2 with h; exact h.symm
  have q3 : b3 = b' := by rw [hb'] at hb3; injection hb3 with h; exact h.symm
  subst q2 q3
  have e : b2.gCryst = b3.gCryst := by
    refine List.Perm.eq_of_pairwise ?_ s1 s1' (p1.trans (hp.trans p1'.symm))
    intro x y hx hy h1 h2
    exact CanonLe.antisymm hs (hg x (p1.mem_iff.1 hx)) (hg' y (p1'.mem_iff.1 hy)) h1 h2
  refine ⟨b2, b3, hb, hb', e, by rw [i1, i1', e], by rw [z2, z3, e]⟩

/-- The hypotheses are met by a non-trivial list in a non-canonical order. -/
example : (⟨4, 4, 4⟩ : Shape).Pos ∧ (∀ g ∈ ([(1, 0, 0), (0, 0, -1), (0, 1, 0), (0, 0, 0), (-1, 0, 0)] :
    List GVec), inBounds ⟨4, 4, 4⟩ g = true) ∧ CanonLe ⟨4, 4, 4⟩ (-1, 0, 0) (0, 0, -1) ∧
    ¬ CanonLe ⟨4, 4, 4⟩ (0, 1, 0) (0, 0, -1) := by
  refine ⟨by decide, by decide, ?_, ?_⟩ <;> simp [CanonLe]

/-! ## C12 -/

/-- **C12.** `has_g0` is true exactly when G = 0 is among the given vectors, and then G = 0 is the
first stored vector. -/
theorem C12_g0_first (s : Shape) (hs : s.Pos) (gs : List GVec)
    (hg : ∀ g ∈ gs, inBounds s g = true) (hne : gs ≠ []) :
    ∃ b, mkBase s gs = .ok b ∧ (b.hasG0 = true ↔ (0, 0, 0) ∈ gs) ∧
      (b.hasG0 = true → b.gCryst.head? = some (0, 0, 0)) := by
  obtain ⟨b, hb, p1, s1, _, _, _⟩ := C11_canonical_order s hs gs hg hne
  obtain ⟨b2, hb2, _, _, _, _, z2⟩ := mkBase_ok s hs gs hg hne
  have q2 : b2 = b := by rw [hb] at hb2; injection hb2 with h; exact h.symm
  subst q2
  refine ⟨b2, hb, ⟨?_, ?_⟩, ?_⟩
  · intro h
    rw [z2, decide_eq_true_eq] at h
    exact p1.mem_iff.1 (List.mem_of_mem_head? h)
  · intro h0
    rw [z2, decide_eq_true_eq]
    have h0' := p1.mem_iff.2 h0
    cases hG : b2.gCryst with
    | nil => rw [hG] at h0'; simp at h0'
    | cons g tl =>
      rw [hG] at h0' s1
      simp only [List.head?_cons, Option.some.injEq]
      rcases List.mem_cons.1 h0' with h | h
      · exact h.symm
      · have hc := (List.pairwise_cons.1 s1).1 _ h
        have hgb : inBounds s g = true := hg g (p1.mem_iff.1 (by rw [hG]; simp))
        have h0b := hg _ h0
        refine CanonLe.antisymm hs hgb h0b hc ?_
        rw [inBounds_iff] at hgb
        have e1 := (wrap_spec _ _ hgb.1).1
        have e2 := (wrap_spec _ _ hgb.2.1).1
        have e3 := (wrap_spec _ _ hgb.2.2).1
        rw [wrap_eq_emod _ _ hgb.1] at e1
        rw [wrap_eq_emod _ _ hgb.2.1] at e2
        rw [wrap_eq_emod _ _ hgb.2.2] at e3
        simp only [CanonLe, Int.zero_emod]
        omega
  · intro h
    rwa [z2, decide_eq_true_eq] at h

/-! ## C14: default grid sizes -/

/-- No prime factor other than 2, 3, 5. -/
def Smooth235 (n : ℕ) : Prop := ∀ q : ℕ, q.Prime → q ∣ n → q = 2 ∨ q = 3 ∨ q = 5

theorem strip_spec (p : ℕ) (hp : 2 ≤ p) :
    ∀ fuel x, 0 < x → x < fuel → ∃ y k, strip fuel p x = some y ∧ x = p ^ k * y ∧ ¬ p ∣ y ∧ 0 < y := by
  intro fuel
  induction fuel with
  | zero => intro x _ h; omega
  | succ fuel ih =>
    intro x hx hf
    unfold strip
    by_cases h : x % p = 0
    · rw [if_pos h]
      have hd : p ∣ x := Nat.dvd_of_mod_eq_zero h
      have h1 : 0 < x / p := Nat.div_pos (Nat.le_of_dvd hx hd) (by omega)
      have h2 : x / p < x := Nat.div_lt_self hx hp
      obtain ⟨y, k, e1, e2, e3, e4⟩ := ih (x / p) h1 (by omega)
      refine ⟨y, k + 1, e1, ?_, e3, e4⟩
      rw [pow_succ, mul_comm (p ^ k), mul_assoc, ← e2, Nat.mul_div_cancel' hd]
    · rw [if_neg h]
      exact ⟨x, 0, rfl, by simp, fun hd => h (Nat.mod_eq_zero_of_dvd hd), hx⟩

theorem isGood_spec (n : ℕ) (hn : 0 < n) :
    ∃ r, isGood (n + 1) n = some r ∧ (r = true ↔ Smooth235 n) := by
  obtain ⟨x, a, hx, e1, d1, p1⟩ := strip_spec 2 (by norm_num) (n + 1) n hn (by omega)
  have lx : x ≤ n := Nat.le_of_dvd hn ⟨2 ^ a, by rw [e1, mul_comm]⟩
  obtain ⟨y, b, hy, e2, d2, p2⟩ := strip_spec 3 (by norm_num) (n + 1) x p1 (by omega)
  have ly : y ≤ x := Nat.le_of_dvd p1 ⟨3 ^ b, by rw [e2, mul_comm]⟩
  obtain ⟨z, c, hz, e3, d3, p3⟩ := strip_spec 5 (by norm_num) (n + 1) y p2 (by omega)
  refine ⟨z == 1, ?_, ?_⟩
  · simp [isGood, hx, hy, hz]
  · have hzy : z ∣ y := ⟨5 ^ c, by rw [e3, mul_comm]⟩
    have hyx : y ∣ x := ⟨3 ^ b, by rw [e2, mul_comm]⟩
    have hxn : x ∣ n := ⟨2 ^ a, by rw [e1, mul_comm]⟩
    rw [beq_iff_eq]
    constructor
    · intro h1 q hq hqn
      rw [e1, e2, e3, h1] at hqn
      rcases (Nat.Prime.dvd_mul hq).1 hqn with h | h
      · left; exact (Nat.prime_dvd_prime_iff_eq hq Nat.prime_two).1 (hq.dvd_of_dvd_pow h)
      · rcases (Nat.Prime.dvd_mul hq).1 h with h | h
        · right; left
          exact (Nat.prime_dvd_prime_iff_eq hq Nat.prime_three).1 (hq.dvd_of_dvd_pow h)
        · rcases (Nat.Prime.dvd_mul hq).1 h with h | h
          · right; right
            exact (Nat.prime_dvd_prime_iff_eq hq Nat.prime_five).1 (hq.dvd_of_dvd_pow h)
          · exact absurd (Nat.dvd_one.1 h) hq.one_lt.ne'
    · intro hs
      by_contra hz1
      obtain ⟨q, hq, hqz⟩ := Nat.exists_prime_and_dvd hz1
      rcases hs q hq (hqz.trans (hzy.trans (hyx.trans hxn))) with h | h | h
      · subst h; exact d1 (hqz.trans (hzy.trans hyx))
      · subst h; exact d2 (hqz.trans hzy)
      · subst h; exact d3 hqz

theorem optimalLen_spec : ∀ d n fuel, 0 < n → d < fuel → Smooth235 (n + d) →
    ∃ m, optimalLen fuel n = some m ∧ n ≤ m ∧ m ≤ n + d ∧ Smooth235 m ∧
      ∀ k, n ≤ k → k < m → ¬ Smooth235 k := by
  intro d
  induction d with
  | zero =>
    intro n fuel hn hf hs
    obtain ⟨f, rfl⟩ : ∃ f, fuel = f + 1 := ⟨fuel - 1, by omega⟩
    obtain ⟨r, hr, hr2⟩ := isGood_spec n hn
    have : r = true := hr2.2 hs
    subst this
    refine ⟨n, ?_, le_rfl, le_rfl, hs, fun k h1 h2 => by omega⟩
    simp [optimalLen, hr]
  | succ d ih =>
    intro n fuel hn hf hs
    obtain ⟨f, rfl⟩ : ∃ f, fuel = f + 1 := ⟨fuel - 1, by omega⟩
    obtain ⟨r, hr, hr2⟩ := isGood_spec n hn
    cases r with
    | true =>
      refine ⟨n, ?_, le_rfl, by omega, hr2.1 rfl, fun k h1 h2 => by omega⟩
      simp [optimalLen, hr]
    | false =>
      obtain ⟨m, h1, h2, h3, h4, h5⟩ := ih (n + 1) f (by omega) (by omega)
        (by rw [show n + 1 + d = n + (d + 1) by omega]; exact hs)
      refine ⟨m, ?_, by omega, by omega, h4, ?_⟩
      · simp [optimalLen, hr, h1]
      · intro k hk1 hk2
        rcases Nat.eq_or_lt_of_le hk1 with h | h
        · subst h; intro hh; have := hr2.2 hh; simp at this
        · exact h5 k h hk2

/-- **C14.** For every positive size the search terminates (some number of iterations is enough), and
the size it returns is at least the requested one, has no prime factor other than 2, 3 and 5, and no
smaller admissible size at or above the request has this property. -/
theorem C14_optimal_grid (n : ℕ) (hn : 0 < n) :
    ∃ fuel m, optimalLen fuel n = some m ∧ n ≤ m ∧ Smooth235 m ∧
      ∀ k, n ≤ k → k < m → ¬ Smooth235 k := by
  have hlt : n < 2 ^ n := Nat.lt_two_pow_self
  have hs : Smooth235 (n + (2 ^ n - n)) := by
    rw [Nat.add_sub_cancel' hlt.le]
    intro q hq h
    left; exact (Nat.prime_dvd_prime_iff_eq hq Nat.prime_two).1 (hq.dvd_of_dvd_pow h)
  obtain ⟨m, h1, h2, _, h4, h5⟩ := optimalLen_spec (2 ^ n - n) n (2 ^ n - n + 1) hn (by omega) hs
  exact ⟨_, m, h1, h2, h4, h5⟩

theorem strip_zero (p : ℕ) : ∀ fuel, strip fuel p 0 = none := by
  intro fuel
  induction fuel with
  | zero => rfl
  | succ f ih => simp [strip, ih]

/-- The excluded point: for size 0 the inner loop never ends, whatever the number of iterations. -/
theorem C14_zero_diverges : ∀ fuel, strip fuel 2 0 = none := strip_zero 2

example : optimalLen 10 7 = some 8 := by decide
example : optimalLen 20 31 = some 32 := by decide

/-! ## C15 (violated by the pinned code) -/

/-- The grid is large enough along every axis. -/
def Fits (minShape grid : Shape) : Prop :=
  minShape.n1 ≤ grid.n1 ∧ minShape.n2 ≤ grid.n2 ∧ minShape.n3 ≤ grid.n3

/-- **C15 fails**: `check_grid_shape` accepts every positive grid, whatever the minimal shape … -/
theorem C15_never_rejects (minShape grid : Shape) (h : grid.Pos) :
    checkGridShape minShape grid = .ok () := by
  have : ¬ (minShape.n1 < minShape.n1 ∨ minShape.n2 < minShape.n2 ∨ minShape.n3 < minShape.n3) := by
    omega
  simp only [checkGridShape, h, not_true_eq_false, if_false, if_neg this]

/-- … in particular grids that do not fit. -/
theorem C15_accepts_too_small : ∃ minShape grid, ¬ Fits minShape grid ∧
    checkGridShape minShape grid = .ok () :=
  ⟨⟨9, 9, 9⟩, ⟨3, 9, 9⟩, by simp [Fits], C15_never_rejects _ _ (by decide)⟩

/-- **C15, what does hold**: grids that fit are accepted, grids with a zero dimension are refused. -/
theorem C15_accepts_fitting_partial (minShape grid : Shape) :
    (grid.Pos → Fits minShape grid → checkGridShape minShape grid = .ok ()) ∧
    (¬ grid.Pos → checkGridShape minShape grid = .error .assertion) :=
  ⟨fun h _ => C15_never_rejects _ _ h, fun h => by simp only [checkGridShape, h, not_false_eq_true, if_true]⟩

/-! ## C13 (selection part) and C16 -/

theorem mem_axisPoints (n : ℕ) (i : ℤ) : i ∈ axisPoints n ↔ inRange n i = true := by
  rw [inRange_iff]
  unfold axisPoints
  simp only [List.mem_map, List.mem_range]
  constructor
  · rintro ⟨k, hk, rfl⟩; omega
  · intro h; exact ⟨(i + (n / 2 : ℕ)).toNat, by omega, by omega⟩

theorem mem_gridPoints (s : Shape) (g : GVec) : g ∈ gridPoints s ↔ inBounds s g = true := by
  obtain ⟨a, b, c⟩ := g
  rw [inBounds_iff]
  simp only [gridPoints, List.mem_flatMap, List.mem_map, mem_axisPoints, Prod.mk.injEq]
  constructor
  · rintro ⟨a', ha, b', hb, c', hc, rfl, rfl, rfl⟩; exact ⟨ha, hb, hc⟩
  · rintro ⟨ha, hb, hc⟩; exact ⟨a, ha, b, hb, c, hc, rfl, rfl, rfl⟩

theorem axisPoints_nodup (n : ℕ) : (axisPoints n).Nodup := by
  unfold axisPoints
  apply List.Nodup.map _ List.nodup_range
  intro a b h; simp only at h; omega

theorem gridPoints_nodup (s : Shape) : (gridPoints s).Nodup := by
  unfold gridPoints
  rw [List.nodup_flatMap]
  refine ⟨?_, ?_⟩
  · intro a _
    rw [List.nodup_flatMap]
    refine ⟨?_, ?_⟩
    · intro b _
      apply List.Nodup.map _ (axisPoints_nodup _)
      intro c c' h; simpa using h
    · apply (axisPoints_nodup s.n2).imp
      intro b b' hb
      simp only [Function.onFun, List.disjoint_left, List.mem_map]
      rintro g ⟨c, _, rfl⟩ ⟨c', _, h⟩
      simp only [Prod.mk.injEq] at h
      exact hb h.2.1.symm
  · apply (axisPoints_nodup s.n1).imp
    intro a a' ha
    simp only [Function.onFun, List.disjoint_left, List.mem_flatMap, List.mem_map]
    rintro g ⟨b, _, c, _, rfl⟩ ⟨b', _, c', _, h⟩
    simp only [Prod.mk.injEq] at h
    exact ha h.1.symm

/-- **C13 (selection).** When a G-space is constructed on a grid, it holds exactly the vectors of that
grid inside the cutoff sphere, each once, in canonical order. -/
theorem C13_selects_sphere {K : Type*} [LE K] [DecidableLE K] (norm2 : GVec → K)
    (lenKey : GVec → ℤ) (twoEcut : K) (s : Shape) (hs : s.Pos) (b : Base)
    (h : mkGSpace norm2 lenKey twoEcut s = .ok b) :
    (∀ g, g ∈ b.gCryst ↔ inBounds s g = true ∧ norm2 g ≤ twoEcut) ∧ b.gCryst.Nodup ∧
      b.gCryst.Pairwise (CanonLe s) ∧ b.shape = s := by
  unfold mkGSpace at h
  simp only at h
  split_ifs at h with h1 h2
  generalize hl : ((gridPoints s).filter fun g => decide (norm2 g ≤ twoEcut)) = cut at *
  have hperm : (cut.mergeSort fun a b => decide (lenKey a ≤ lenKey b)).Perm cut :=
    List.mergeSort_perm _ _
  have hmem : ∀ g, g ∈ cut ↔ inBounds s g = true ∧ norm2 g ≤ twoEcut := by
    intro g; rw [← hl, List.mem_filter, mem_gridPoints, decide_eq_true_eq]
  have hin : ∀ g ∈ cut.mergeSort fun a b => decide (lenKey a ≤ lenKey b),
      inBounds s g = true := fun g hg => ((hmem g).1 (hperm.mem_iff.1 hg)).1
  have hne : (cut.mergeSort fun a b => decide (lenKey a ≤ lenKey b)) ≠ [] := by
    intro he
    have := hperm.length_eq
    rw [he] at this; simp at this; omega
  obtain ⟨b', hb', p1, s1, _⟩ := C11_canonical_order s hs _ hin hne
  obtain ⟨b3, hb3, z3, _⟩ := mkBase_ok s hs _ hin hne
  have q : b' = b := by rw [h] at hb'; injection hb' with hh; exact hh.symm
  have q3 : b3 = b := by rw [h] at hb3; injection hb3 with hh; exact hh.symm
  subst q
  refine ⟨?_, ?_, s1, by rw [← q3, z3]⟩
  · intro g; rw [p1.mem_iff, hperm.mem_iff, hmem]
  · rw [(p1.trans hperm).nodup_iff, ← hl]
    exact (gridPoints_nodup s).filter _

theorem gather_filter_range {α : Type*} [Inhabited α] (l : List α) (p : α → Bool) :
    gather l ((List.range l.length).filter fun i => p (at' l i)) = l.filter p := by
  unfold gather
  have e : (List.range l.length).filter (fun i => p (at' l i))
      = (List.range l.length).filter (p ∘ at' l) := rfl
  rw [e, ← List.filter_map, show (List.range l.length).map (at' l) = l from gather_range l]

/-- **C16.** For every parent G-space built from in-bounds vectors `gs` and every `k` (through
`normk2 g = |k+G|²`), if the basis at `k` is constructed it holds exactly the parent's vectors with
`|k+G|² ≤ 2·ecutwfn`, with the parent's multiplicity, in canonical order; `idxgk` lists, in increasing
order, the positions of these vectors in the parent's original order; and undoing the basis' own sort
lists the selected vectors in the parent's original order. -/
theorem C16_k_basis {K : Type*} [LE K] [DecidableLE K] (s : Shape) (hs : s.Pos) (gs : List GVec)
    (hg : ∀ g ∈ gs, inBounds s g = true) (hne : gs ≠ []) (normk2 : GVec → K) (twoEcut : K)
    (parent : Base) (hp : mkBase s gs = .ok parent) (r : GkData)
    (h : mkGk parent normk2 twoEcut = .ok r) :
    (∀ g, g ∈ r.base.gCryst ↔ g ∈ parent.gCryst ∧ normk2 g ≤ twoEcut) ∧
    r.base.gCryst.Perm (gs.filter fun g => decide (normk2 g ≤ twoEcut)) ∧
    r.base.gCryst.Pairwise (CanonLe s) ∧
    r.idxgk.Pairwise (· < ·) ∧
    gather gs r.idxgk = gs.filter (fun g => decide (normk2 g ≤ twoEcut)) ∧
    gather r.base.gCryst r.base.idxsort = gather gs r.idxgk := by
  obtain ⟨b, hb, pp, _, _, _, hun⟩ := C11_canonical_order s hs gs hg hne
  obtain ⟨b2, hb2, hsh, _⟩ := mkBase_ok s hs gs hg hne
  have q : b = parent := by rw [hp] at hb; injection hb with hh; exact hh.symm
  have q2 : b2 = parent := by rw [hp] at hb2; injection hb2 with hh; exact hh.symm
  subst q; subst q2
  unfold mkGk at h
  simp only [hun, hsh] at h
  have hf := gather_filter_range gs (fun g => decide (normk2 g ≤ twoEcut))
  generalize hidx : (List.range gs.length).filter (fun i => decide (normk2 (at' gs i) ≤ twoEcut))
    = idx at *
  cases hm : mkBase s (gather gs idx) with
  | error e => rw [hm] at h; simp at h
  | ok b' =>
    rw [hm] at h
    simp only [Except.ok.injEq] at h
    subst h
    have hin' : ∀ g ∈ gather gs idx, inBounds s g = true := by
      intro g hgm; rw [hf] at hgm; exact hg g (List.mem_of_mem_filter hgm)
    have hne' : gather gs idx ≠ [] := by
      intro he
      rw [he] at hm
      simp [mkBase, cryst2idxgrid, checkG, hs, gather, sortG] at hm
    obtain ⟨c, hc, cp, cs, _, _, cu⟩ := C11_canonical_order s hs _ hin' hne'
    have q3 : c = b' := by rw [hm] at hc; injection hc with hh; exact hh.symm
    subst q3
    refine ⟨?_, ?_, cs, ?_, hf, cu⟩
    · intro g
      rw [cp.mem_iff, hf, List.mem_filter, decide_eq_true_eq, pp.mem_iff]
    · rw [← hf]; exact cp
    · rw [← hidx]
      exact List.pairwise_lt_range.filter _

/-- Concrete parents and cutoffs that meet the hypotheses exist: the three-vector parent below and the
cutoff that keeps two of them. -/
example : ∃ parent r, mkBase ⟨4, 4, 4⟩ [(0, 0, 0), (1, 0, 0), (-1, 0, 0)] = .ok parent ∧
    mkGk parent (fun g => (2 * g.1 + 1) ^ 2) (1 : ℤ) = .ok r ∧ r.base.gCryst.length = 2 := by
  have hs : (⟨4, 4, 4⟩ : Shape).Pos := by decide
  have hg : ∀ g ∈ ([(0, 0, 0), (1, 0, 0), (-1, 0, 0)] : List GVec), inBounds ⟨4, 4, 4⟩ g = true := by
    decide
  obtain ⟨b, hb, _, _, _, _, hun⟩ := C11_canonical_order _ hs _ hg (by simp)
  obtain ⟨b2, hb2, hsh, _⟩ := mkBase_ok _ hs _ hg (by simp)
  have q2 : b2 = b := by rw [hb] at hb2; injection hb2 with hh; exact hh.symm
  subst q2
  have hidx : (List.range 3).filter (fun i => decide ((2 * (at' ([(0, 0, 0), (1, 0, 0), (-1, 0, 0)] :
      List GVec) i).1 + 1) ^ 2 ≤ (1 : ℤ))) = [0, 2] := by decide
  obtain ⟨c, hc, cp, _⟩ := C11_canonical_order ⟨4, 4, 4⟩ hs [(0, 0, 0), (-1, 0, 0)] (by decide) (by simp)
  refine ⟨b2, ⟨c, [0, 2]⟩, hb, ?_, by simpa using cp.length_eq⟩
  unfold mkGk
  simp only [hun, hsh]
  rw [show ([(0, 0, 0), (1, 0, 0), (-1, 0, 0)] : List GVec).length = 3 from rfl, hidx]
  have : gather ([(0, 0, 0), (1, 0, 0), (-1, 0, 0)] : List GVec) [0, 2] = [(0, 0, 0), (-1, 0, 0)] := by
    decide
  rw [this, hc]

end Verif.GSpace
