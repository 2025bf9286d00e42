import Mathlib.Data.List.FinRange
import Mathlib.Data.List.GetD
import Mathlib.Algebra.BigOperators.Fin
import Mathlib.Algebra.BigOperators.Field
import Mathlib.Data.Fintype.EquivFin
import Verif.Model.Symm
import Verif.Props.GSpace

/-!
# Properties C31 and C59: symmetrised fields, and the set of symmetry operations kept
-/

namespace Verif.Symm

open Verif.GSpace Matrix

/-! ## Specification -/

/-- The operations form a group modulo lattice translations, with one operation per rotation and the identity first:
composing `x ↦ W_u x + t_u` with `x ↦ W_s x + t_s` gives an operation of the list up to a lattice vector. -/
structure IsGroup {n : ℕ} (ops : Fin (n + 1) → SymOp) : Prop where
  unimod : ∀ s, IsUnit (ops s).W.det
  id_rot : (ops 0).W = 1
  inj : ∀ s u, (ops s).W = (ops u).W → s = u
  closed : ∀ s u, ∃ v, (ops v).W = (ops s).W * (ops u).W ∧
    ∀ i, ∃ m : ℤ, (ops v).t i = ((ops s).W.map (Int.cast : ℤ → ℝ) *ᵥ (ops u).t) i + (ops s).t i + m

/-- The image of the point `x` (crystal coordinates) under an operation. -/
noncomputable def SymOp.apply (o : SymOp) (x : Fin 3 → ℝ) : Fin 3 → ℝ := o.W.map (Int.cast : ℤ → ℝ) *ᵥ x + o.t

/-- The plane wave `exp(2πi G·x)`. -/
noncomputable def wave (g : GVec) (x : Fin 3 → ℝ) : ℂ :=
  Complex.exp (2 * Real.pi * Complex.I * (∑ i, x i * (toV g i : ℝ) : ℝ))

/-- The value at the point `x` of the field with coefficients `f` on the G-vectors `gs`. -/
noncomputable def realVal (gs : List GVec) (f : ℕ → ℂ) (x : Fin 3 → ℝ) : ℂ :=
  ∑ j ∈ Finset.range gs.length, f j * wave (at' gs j) x

/-- What a G-space must satisfy for its fields to be symmetrised: distinct G-vectors inside the grid, and with every
vector its rotated images, of the same (rounded) length. -/
structure Basis {n : ℕ} (ops : Fin (n + 1) → SymOp) (sh : Shape) (key : GVec → ℤ) (gs : List GVec) : Prop where
  pos : sh.Pos
  nodup : gs.Nodup
  bounds : ∀ g ∈ gs, inBounds sh g = true
  closed : ∀ s, ∀ g ∈ gs, rotG (ops s) g ∈ gs
  key_rot : ∀ s, ∀ g ∈ gs, key (rotG (ops s) g) = key g

/-! ## Algebra of the operations -/

theorem toV_ofV (v : Fin 3 → ℤ) : toV (ofV v) = v := by
  funext i; fin_cases i <;> rfl

theorem ofV_toV (g : GVec) : ofV (toV g) = g := rfl

theorem toV_rotG (o : SymOp) (g : GVec) : toV (rotG o g) = o.R *ᵥ toV g := toV_ofV _

theorem R_mul {o p q : SymOp} (h : q.W = o.W * p.W) :
    q.R = o.R * p.R := by
  unfold SymOp.R
  rw [h, transpose_mul, Matrix.mul_inv_rev]

theorem WT_mul_R {o : SymOp} (ho : IsUnit o.W.det) : o.Wᵀ * o.R = 1 := by
  unfold SymOp.R
  exact mul_nonsing_inv _ (by rwa [det_transpose])

theorem R_mul_WT {o : SymOp} (ho : IsUnit o.W.det) : o.R * o.Wᵀ = 1 := by
  unfold SymOp.R
  exact nonsing_inv_mul _ (by rwa [det_transpose])

/-- `(W y) · (R h) = y · h` -/
theorem dot_W_R {o : SymOp} (ho : IsUnit o.W.det) (y : Fin 3 → ℝ) (h : Fin 3 → ℤ) :
    ∑ i, (o.W.map (Int.cast : ℤ → ℝ) *ᵥ y) i * ((o.R *ᵥ h) i : ℝ) = ∑ i, y i * (h i : ℝ) := by
  have e : ∀ i k, ∑ j, o.W j i * o.R j k = if i = k then 1 else 0 := by
    intro i k
    have := congrFun (congrFun (WT_mul_R ho) i) k
    simpa [mul_apply, one_apply] using this
  simp only [mulVec, dotProduct, map_apply]
  push_cast
  simp only [Finset.sum_mul, Finset.mul_sum]
  have : ∀ j i k : Fin 3, (o.W j i : ℝ) * y i * ((o.R j k : ℝ) * (h k : ℝ))
      = y i * (h k : ℝ) * ((o.W j i * o.R j k : ℤ) : ℝ) := by
    intro j i k; push_cast; ring
  simp only [this]
  have comm : ∀ t : Fin 3 → Fin 3 → Fin 3 → ℝ, (∑ j, ∑ i, ∑ k, t j i k) = ∑ i, ∑ k, ∑ j, t j i k := by
    intro t
    rw [Finset.sum_comm]
    exact Finset.sum_congr rfl fun i _ => Finset.sum_comm
  rw [comm]
  simp only [← Finset.mul_sum, ← Int.cast_sum, e]
  simp

theorem exp_int (z : ℝ) (m : ℤ) : Complex.exp (2 * Real.pi * Complex.I * ((z + m : ℝ) : ℂ))
    = Complex.exp (2 * Real.pi * Complex.I * (z : ℂ)) := by
  have : 2 * Real.pi * Complex.I * ((z + m : ℝ) : ℂ)
      = 2 * Real.pi * Complex.I * (z : ℂ) + m * (2 * Real.pi * Complex.I) := by push_cast; ring
  rw [this, Complex.exp_add, Complex.exp_int_mul_two_pi_mul_I, mul_one]

theorem phase_norm (o : SymOp) (g : GVec) : phase o g * (starRingEnd ℂ) (phase o g) = 1 := by
  unfold phase
  rw [← Complex.exp_conj, ← Complex.exp_add]
  have : (2 * Real.pi * Complex.I * ((∑ i, o.t i * (toV g i : ℝ) : ℝ) : ℂ))
      + (starRingEnd ℂ) (2 * Real.pi * Complex.I * ((∑ i, o.t i * (toV g i : ℝ) : ℝ) : ℂ)) = 0 := by
    simp only [map_mul, Complex.conj_I, Complex.conj_ofReal, map_ofNat]
    ring
  rw [this, Complex.exp_zero]

section group
variable {n : ℕ} {ops : Fin (n + 1) → SymOp}

theorem rot_mul {s u v : Fin (n + 1)} (h : (ops v).W = (ops s).W * (ops u).W) (g : GVec) :
    rotG (ops v) g = rotG (ops s) (rotG (ops u) g) := by
  have : toV (rotG (ops v) g) = toV (rotG (ops s) (rotG (ops u) g)) := by
    rw [toV_rotG, toV_rotG, toV_rotG, R_mul h, mulVec_mulVec]
  rw [← ofV_toV (rotG (ops v) g), this, ofV_toV]

theorem phase_mul (hG : IsGroup ops) {s u v : Fin (n + 1)} (h : (ops v).W = (ops s).W * (ops u).W)
    (ht : ∀ i, ∃ m : ℤ, (ops v).t i = ((ops s).W.map (Int.cast : ℤ → ℝ) *ᵥ (ops u).t) i + (ops s).t i + m)
    (g : GVec) : phase (ops v) (rotG (ops v) g)
      = phase (ops u) (rotG (ops u) g) * phase (ops s) (rotG (ops s) (rotG (ops u) g)) := by
  choose m hm using ht
  set H := rotG (ops s) (rotG (ops u) g) with hH
  have e1 : ∑ i, (ops v).t i * (toV H i : ℝ) = (∑ i, (ops u).t i * (toV (rotG (ops u) g) i : ℝ)
      + ∑ i, (ops s).t i * (toV H i : ℝ)) + ((∑ i, m i * toV H i : ℤ) : ℝ) := by
    rw [← dot_W_R (hG.unimod s) (ops u).t (toV (rotG (ops u) g)), ← toV_rotG, ← hH]
    push_cast
    rw [← Finset.sum_add_distrib, ← Finset.sum_add_distrib]
    apply Finset.sum_congr rfl
    intro i _
    rw [hm i]; ring
  rw [rot_mul h]
  unfold phase
  rw [e1, exp_int, ← Complex.exp_add]
  congr 1
  push_cast
  ring

theorem rot_zero (hG : IsGroup ops) (g : GVec) : rotG (ops 0) g = g := by
  unfold rotG SymOp.R
  rw [hG.id_rot]
  simp [ofV_toV]

theorem rotG_inj (hG : IsGroup ops) (s : Fin (n + 1)) {g h : GVec} (e : rotG (ops s) g = rotG (ops s) h) : g = h := by
  have := congrArg (fun v => (ops s).Wᵀ *ᵥ toV v) e
  simp only [toV_rotG, mulVec_mulVec, WT_mul_R (hG.unimod s), one_mulVec] at this
  rw [← ofV_toV g, this, ofV_toV]

/-- multiplication from the right by `u` permutes the operations -/
theorem mul_bij (hG : IsGroup ops) (u : Fin (n + 1)) : ∃ σ : Fin (n + 1) → Fin (n + 1), Function.Bijective σ ∧
    ∀ s, (ops (σ s)).W = (ops s).W * (ops u).W ∧
      ∀ i, ∃ m : ℤ, (ops (σ s)).t i = ((ops s).W.map (Int.cast : ℤ → ℝ) *ᵥ (ops u).t) i + (ops s).t i + m := by
  choose σ hσ using fun s => hG.closed s u
  refine ⟨σ, Finite.injective_iff_bijective.1 ?_, hσ⟩
  intro s s' h
  apply hG.inj
  have e : (ops s).W * (ops u).W = (ops s').W * (ops u).W := by rw [← (hσ s).1, ← (hσ s').1, h]
  have := congrArg (· * (ops u).W⁻¹) e
  simpa [Matrix.mul_assoc, mul_nonsing_inv _ (hG.unimod u)] using this

/-- each operation has an inverse in the list (as rotations) -/
theorem exists_inv (hG : IsGroup ops) (u : Fin (n + 1)) : ∃ s, ∀ g, rotG (ops s) (rotG (ops u) g) = g := by
  obtain ⟨σ, hb, hσ⟩ := mul_bij hG u
  obtain ⟨s, hs⟩ := hb.2 0
  refine ⟨s, fun g => ?_⟩
  have := rot_mul (hσ s).1 g
  rw [hs, rot_zero hG] at this
  exact this.symm

/-- The average over the group of a field given by its coefficient at each G-vector. -/
noncomputable def avg (ops : Fin (n + 1) → SymOp) (F : GVec → ℂ) (g : GVec) : ℂ :=
  (∑ s, F (rotG (ops s) g) * phase (ops s) (rotG (ops s) g)) / ((n + 1 : ℕ) : ℂ)

theorem avg_rot (hG : IsGroup ops) (F : GVec → ℂ) (u : Fin (n + 1)) (r : GVec) :
    avg ops F r = phase (ops u) (rotG (ops u) r) * avg ops F (rotG (ops u) r) := by
  obtain ⟨σ, hb, hσ⟩ := mul_bij hG u
  unfold avg
  rw [← hb.sum_comp (fun s => F (rotG (ops s) r) * phase (ops s) (rotG (ops s) r)), mul_div_assoc', Finset.mul_sum]
  congr 1
  apply Finset.sum_congr rfl
  intro s _
  rw [phase_mul hG (hσ s).1 (hσ s).2, rot_mul (hσ s).1]
  ring

end group

/-! ## Lists -/

theorem at'_mem {α : Type*} [Inhabited α] (l : List α) (j : ℕ) (h : j < l.length) : at' l j ∈ l := by
  unfold at'; rw [List.getD_eq_getElem _ _ h]; exact List.getElem_mem h

theorem at'_idxOf {α : Type*} [Inhabited α] [BEq α] [LawfulBEq α] (l : List α) (x : α) (h : x ∈ l) : at' l (l.idxOf x) = x := by
  have h' := List.idxOf_lt_length_of_mem h
  unfold at'; rw [List.getD_eq_getElem _ _ h']; exact List.getElem_idxOf h'

theorem idxOf_at' {α : Type*} [Inhabited α] [BEq α] [LawfulBEq α] (l : List α) (hl : l.Nodup) (j : ℕ) (h : j < l.length) :
    l.idxOf (at' l j) = j := by
  unfold at'; rw [List.getD_eq_getElem _ _ h]; exact hl.idxOf_getElem j h

theorem exists_at' {α : Type*} [Inhabited α] (l : List α) (x : α) (h : x ∈ l) : ∃ j < l.length, at' l j = x := by
  obtain ⟨j, hj, e⟩ := List.getElem_of_mem h
  exact ⟨j, hj, by unfold at'; rw [List.getD_eq_getElem _ _ hj]; exact e⟩

theorem map_range_at' {α β : Type*} [Inhabited α] (l : List α) (φ : α → β) :
    (List.range l.length).map (fun j => φ (at' l j)) = l.map φ := by
  apply List.ext_getElem
  · simp
  · intro i h1 h2
    simp only [List.getElem_map, List.getElem_range]
    unfold at'
    rw [List.getD_eq_getElem _ _ (by simpa using h2)]

theorem searchsorted_eq (l : List ℤ) (hl : l.Pairwise (· < ·)) (v : ℤ) (h : v ∈ l) : searchsorted l v = l.idxOf v := by
  induction l with
  | nil => simp at h
  | cons a l ih =>
    rw [List.pairwise_cons] at hl
    unfold searchsorted at *
    by_cases hav : a = v
    · subst hav; simp
    · have hvl : v ∈ l := by simpa [Ne.symm hav] using h
      have hlt := hl.1 v hvl
      rw [List.takeWhile_cons_of_pos (by simpa using hlt), List.length_cons, ih hl.2 hvl, List.idxOf_cons_ne _ hav]

theorem mem_uniqueIdx (vals : List ℤ) (j : ℕ) (h : j ∈ uniqueIdx vals) :
    j < vals.length ∧ j = vals.idxOf (at' vals j) := by
  unfold uniqueIdx at h
  simp only [List.mem_map, List.mem_mergeSort, List.mem_dedup] at h
  obtain ⟨v, hv, rfl⟩ := h
  refine ⟨List.idxOf_lt_length_of_mem hv, ?_⟩
  rw [at'_idxOf _ _ hv]

theorem uniqueIdx_nodup (vals : List ℤ) : (uniqueIdx vals).Nodup := by
  unfold uniqueIdx
  apply List.Nodup.map_on
  · intro x hx y hy e
    rw [List.mem_mergeSort, List.mem_dedup] at hx hy
    rw [← at'_idxOf vals x hx, e, at'_idxOf vals y hy]
  · exact (List.mergeSort_perm _ _).nodup_iff.2 (List.nodup_dedup _)

theorem uniqueIdx_complete (vals : List ℤ) (j : ℕ) (h : j < vals.length) :
    ∃ i ∈ uniqueIdx vals, at' vals i = at' vals j := by
  have hm := at'_mem vals j h
  refine ⟨vals.idxOf (at' vals j), ?_, at'_idxOf _ _ hm⟩
  unfold uniqueIdx
  exact List.mem_map.2 ⟨_, by simpa using hm, rfl⟩

/-! ## The sorted shells -/

section shells
variable {n : ℕ} {ops : Fin (n + 1) → SymOp} {sh : Shape} {key : GVec → ℤ} {gs : List GVec}

theorem sortLe_iff (g h : GVec) : sortLe sh key g h = true ↔
    (key g < key h ∨ (key g = key h ∧ (wrap sh.n1 g.1 < wrap sh.n1 h.1 ∨ (wrap sh.n1 g.1 = wrap sh.n1 h.1 ∧
      (wrap sh.n2 g.2.1 < wrap sh.n2 h.2.1 ∨ (wrap sh.n2 g.2.1 = wrap sh.n2 h.2.1 ∧
        wrap sh.n3 g.2.2 ≤ wrap sh.n3 h.2.2)))))) := by
  unfold sortLe; simp

theorem sortLe_trans (a b c : GVec) (h1 : sortLe sh key a b = true) (h2 : sortLe sh key b c = true) :
    sortLe sh key a c = true := by
  rw [sortLe_iff] at *; omega

theorem sortLe_total (a b : GVec) : (sortLe sh key a b || sortLe sh key b a) = true := by
  rw [Bool.or_eq_true, sortLe_iff, sortLe_iff]; omega

theorem flat_le_of_sortLe {g h : GVec} (hg : inBounds sh g = true) (hh : inBounds sh h = true) (hk : key g = key h)
    (hle : sortLe sh key g h = true) : flatIdx sh g ≤ flatIdx sh h := by
  rw [sortLe_iff] at hle
  unfold inBounds at hg hh
  simp only [Bool.and_eq_true] at hg hh
  have a1 := wrap_spec sh.n1 g.1 hg.1.1
  have a2 := wrap_spec sh.n2 g.2.1 hg.1.2
  have a3 := wrap_spec sh.n3 g.2.2 hg.2
  have b1 := wrap_spec sh.n1 h.1 hh.1.1
  have b2 := wrap_spec sh.n2 h.2.1 hh.1.2
  have b3 := wrap_spec sh.n3 h.2.2 hh.2
  unfold flatIdx
  generalize wrap sh.n1 g.1 = p1 at *
  generalize wrap sh.n2 g.2.1 = p2 at *
  generalize wrap sh.n3 g.2.2 = p3 at *
  generalize wrap sh.n1 h.1 = q1 at *
  generalize wrap sh.n2 h.2.1 = q2 at *
  generalize wrap sh.n3 h.2.2 = q3 at *
  generalize (sh.n2 : ℤ) = N2 at *
  generalize (sh.n3 : ℤ) = N3 at *
  have hN2 : 0 < N2 := by omega
  have hN3 : 0 < N3 := by omega
  rcases hle with h | ⟨_, h | ⟨e1, h | ⟨e2, h⟩⟩⟩
  · omega
  · have k1 : N2 * N3 * (p1 + 1) ≤ N2 * N3 * q1 := by
      apply mul_le_mul_of_nonneg_left (by omega) (by positivity)
    have k2 : N3 * p2 ≤ N3 * (N2 - 1) := mul_le_mul_of_nonneg_left (by omega) hN3.le
    have k3 : 0 ≤ N3 * q2 := mul_nonneg hN3.le (by omega)
    have e : N2 * N3 * (p1 + 1) = N2 * N3 * p1 + N2 * N3 := by ring
    have e' : N3 * (N2 - 1) = N2 * N3 - N3 := by ring
    omega
  · subst e1
    have k2 : N3 * (p2 + 1) ≤ N3 * q2 := mul_le_mul_of_nonneg_left (by omega) hN3.le
    have e : N3 * (p2 + 1) = N3 * p2 + N3 := by ring
    omega
  · subst e1 e2; omega

theorem idxsort_perm : (idxsort sh key gs).Perm (List.range gs.length) := List.mergeSort_perm _ _

theorem idxsort_sorted : (idxsort sh key gs).Pairwise fun a b => sortLe sh key (at' gs a) (at' gs b) = true :=
  List.pairwise_mergeSort (le := fun a b => sortLe sh key (at' gs a) (at' gs b))
    (fun _ _ _ => sortLe_trans _ _ _) (fun _ _ => sortLe_total _ _) _

theorem mem_shells {ig : List ℕ} (h : ig ∈ shells sh key gs) : ∃ k, (∃ g ∈ gs, key g = k) ∧
    ig = (idxsort sh key gs).filter fun j => decide (key (at' gs j) = k) := by
  unfold shells at h
  simp only [List.mem_map, List.mem_dedup] at h
  obtain ⟨k, ⟨g, hg, hk⟩, rfl⟩ := h
  exact ⟨k, ⟨g, hg, hk⟩, rfl⟩

/-- what is needed of one shell -/
structure Shell (sh : Shape) (key : GVec → ℤ) (gs : List GVec) (ig : List ℕ) (k : ℤ) : Prop where
  mem : ∀ j, j ∈ ig ↔ j < gs.length ∧ key (at' gs j) = k
  nodup : ig.Nodup
  sorted : (ig.map fun j => flatIdx sh (at' gs j)).Pairwise (· < ·)

theorem shell_ok (hpos : sh.Pos) (hnd : gs.Nodup) (hb : ∀ g ∈ gs, inBounds sh g = true) (k : ℤ) :
    Shell sh key gs ((idxsort sh key gs).filter fun j => decide (key (at' gs j) = k)) k := by
  have hmem : ∀ j, j ∈ (idxsort sh key gs).filter (fun j => decide (key (at' gs j) = k)) ↔
      j < gs.length ∧ key (at' gs j) = k := by
    intro j
    rw [List.mem_filter, idxsort_perm.mem_iff, List.mem_range, decide_eq_true_eq]
  have hnod : (idxsort sh key gs).Nodup := idxsort_perm.nodup_iff.2 List.nodup_range
  refine ⟨hmem, hnod.filter _, ?_⟩
  rw [List.pairwise_map]
  have h1 := (idxsort_sorted (sh := sh) (key := key) (gs := gs)).filter (fun j => decide (key (at' gs j) = k))
  have h2 : ((idxsort sh key gs).filter fun j => decide (key (at' gs j) = k)).Pairwise (· ≠ ·) := hnod.filter _
  refine (h1.and h2).imp_of_mem ?_
  intro a b ha hbm ⟨hle, hne⟩
  obtain ⟨ha1, ha2⟩ := (hmem a).1 ha
  obtain ⟨hb1, hb2⟩ := (hmem b).1 hbm
  have hle' := flat_le_of_sortLe (hb _ (at'_mem _ _ ha1)) (hb _ (at'_mem _ _ hb1)) (by rw [ha2, hb2]) hle
  refine lt_of_le_of_ne hle' fun e => hne ?_
  have := flatIdx_inj sh hpos _ _ (hb _ (at'_mem _ _ ha1)) (hb _ (at'_mem _ _ hb1)) e
  rw [← idxOf_at' gs hnd a ha1, this, idxOf_at' gs hnd b hb1]

/-- The column belonging to the representative `r`. -/
noncomputable def col (ops : Fin (n + 1) → SymOp) (gs : List GVec) (r : GVec) : Fin (n + 1) → ℕ × ℂ :=
  fun s => (gs.idxOf (rotG (ops s) r), phase (ops s) (rotG (ops s) r))

/-- orbit relation -/
def SameOrbit (ops : Fin (n + 1) → SymOp) (g h : GVec) : Prop := ∃ s, rotG (ops s) g = h

theorem SameOrbit.symm (hG : IsGroup ops) {g h : GVec} (e : SameOrbit ops g h) : SameOrbit ops h g := by
  obtain ⟨u, rfl⟩ := e
  obtain ⟨s, hs⟩ := exists_inv hG u
  exact ⟨s, hs g⟩

theorem SameOrbit.trans (hG : IsGroup ops) {g h k : GVec} (e : SameOrbit ops g h) (e' : SameOrbit ops h k) :
    SameOrbit ops g k := by
  obtain ⟨u, rfl⟩ := e
  obtain ⟨s, rfl⟩ := e'
  obtain ⟨v, hv, _⟩ := hG.closed s u
  exact ⟨v, rot_mul hv g⟩

theorem minFlat_eq_iff (hG : IsGroup ops) (hB : Basis ops sh key gs) {g h : GVec} (hg : g ∈ gs) (hh : h ∈ gs) :
    (Finset.univ.inf' Finset.univ_nonempty fun s => flatIdx sh (rotG (ops s) g))
      = (Finset.univ.inf' Finset.univ_nonempty fun s => flatIdx sh (rotG (ops s) h)) ↔ SameOrbit ops g h := by
  constructor
  · intro e
    obtain ⟨s, _, hs⟩ := Finset.exists_mem_eq_inf' (Finset.univ_nonempty (α := Fin (n + 1)))
      fun s => flatIdx sh (rotG (ops s) g)
    obtain ⟨u, _, hu⟩ := Finset.exists_mem_eq_inf' (Finset.univ_nonempty (α := Fin (n + 1)))
      fun s => flatIdx sh (rotG (ops s) h)
    rw [hs, hu] at e
    have := flatIdx_inj sh hB.pos _ _ (hB.bounds _ (hB.closed s g hg)) (hB.bounds _ (hB.closed u h hh)) e
    exact SameOrbit.trans hG ⟨s, this⟩ (SameOrbit.symm hG ⟨u, rfl⟩)
  · intro e
    have le : ∀ {g h : GVec}, SameOrbit ops g h →
        (Finset.univ.inf' Finset.univ_nonempty fun s => flatIdx sh (rotG (ops s) g))
        ≤ (Finset.univ.inf' Finset.univ_nonempty fun s => flatIdx sh (rotG (ops s) h)) := by
      intro g h e
      apply Finset.le_inf'
      intro u _
      obtain ⟨s, hs⟩ := SameOrbit.trans hG e ⟨u, rfl⟩
      rw [← hs]
      exact Finset.inf'_le _ (Finset.mem_univ s)
    exact le_antisymm (le e) (le (SameOrbit.symm hG e))

/-- The columns are those of a list of representatives, exactly one in each orbit. -/
theorem shellCols_spec (hG : IsGroup ops) (hB : Basis ops sh key gs) (ig : List ℕ) (k : ℤ)
    (hS : Shell sh key gs ig k) : ∃ reps : List GVec, shellCols ops sh gs ig = reps.map (col ops gs) ∧
      (∀ r ∈ reps, r ∈ gs ∧ key r = k) ∧ reps.Pairwise (fun r r' => ¬ SameOrbit ops r r') ∧
      ∀ g ∈ gs, key g = k → ∃ r ∈ reps, SameOrbit ops r g := by
  set mins := (List.range ig.length).map fun j =>
    Finset.univ.inf' Finset.univ_nonempty fun s => flatIdx sh (rotG (ops s) (at' gs (at' ig j))) with hmins
  have hlen : mins.length = ig.length := by simp [hmins]
  have hig : ∀ j < ig.length, at' ig j < gs.length ∧ key (at' gs (at' ig j)) = k := fun j hj =>
    (hS.mem _).1 (at'_mem ig j hj)
  have hmin : ∀ j < ig.length, at' mins j =
      Finset.univ.inf' Finset.univ_nonempty fun s => flatIdx sh (rotG (ops s) (at' gs (at' ig j))) := by
    intro j hj
    unfold at'
    rw [List.getD_eq_getElem _ _ (by omega)]
    simp [hmins, at']
  have hidx0 : ((List.range ig.length).map fun j => flatIdx sh (rotG (ops 0) (at' gs (at' ig j))))
      = ig.map fun j => flatIdx sh (at' gs j) := by
    rw [← map_range_at' ig fun j => flatIdx sh (at' gs j)]
    apply List.map_congr_left
    intro j _
    rw [rot_zero hG]
  refine ⟨(uniqueIdx mins).map fun j => at' gs (at' ig j), ?_, ?_, ?_, ?_⟩
  · unfold shellCols
    rw [List.map_map]
    apply List.map_congr_left
    intro j hj
    have hj' := (mem_uniqueIdx mins j hj).1
    rw [hlen] at hj'
    funext s
    simp only [Function.comp, col]
    refine Prod.ext ?_ rfl
    simp only
    rw [hidx0]
    set g := at' gs (at' ig j) with hg
    have hgm : g ∈ gs := at'_mem _ _ (hig j hj').1
    have hrm : rotG (ops s) g ∈ gs := hB.closed s g hgm
    obtain ⟨q, hq, hqe⟩ := exists_at' gs _ hrm
    have hqi : q ∈ ig := (hS.mem q).2 ⟨hq, by rw [hqe, hB.key_rot s g hgm, hg]; exact (hig j hj').2⟩
    have hv : flatIdx sh (rotG (ops s) g) ∈ ig.map fun j => flatIdx sh (at' gs j) :=
      List.mem_map.2 ⟨q, hqi, by rw [hqe]⟩
    rw [searchsorted_eq _ hS.sorted _ hv, ← hqe, idxOf_at' gs hB.nodup q hq]
    obtain ⟨p, hp, hpe⟩ := exists_at' ig q hqi
    have hnd := hS.sorted.imp (fun h => ne_of_lt h)
    have : at' (ig.map fun j => flatIdx sh (at' gs j)) p = flatIdx sh (at' gs q) := by
      rw [← hpe]
      unfold at'
      rw [List.getD_eq_getElem _ _ (by simpa using hp), List.getElem_map, List.getD_eq_getElem ig _ hp]
    rw [← this, idxOf_at' _ hnd p (by simpa using hp), hpe]
  · intro r hr
    obtain ⟨j, hj, rfl⟩ := List.mem_map.1 hr
    have hj' := (mem_uniqueIdx mins j hj).1
    rw [hlen] at hj'
    exact ⟨at'_mem _ _ (hig j hj').1, (hig j hj').2⟩
  · rw [List.pairwise_map]
    refine (uniqueIdx_nodup mins).imp_of_mem ?_
    intro a b ha hb hne hor
    obtain ⟨ha1, ha2⟩ := mem_uniqueIdx mins a ha
    obtain ⟨hb1, hb2⟩ := mem_uniqueIdx mins b hb
    rw [hlen] at ha1 hb1
    apply hne
    rw [ha2, hb2, hmin a ha1, hmin b hb1,
      (minFlat_eq_iff hG hB (at'_mem _ _ (hig a ha1).1) (at'_mem _ _ (hig b hb1).1)).2 hor]
  · intro g hg hk
    obtain ⟨q, hq, rfl⟩ := exists_at' gs g hg
    obtain ⟨p, hp, rfl⟩ := exists_at' ig q ((hS.mem q).2 ⟨hq, hk⟩)
    obtain ⟨i, hi, he⟩ := uniqueIdx_complete mins p (by omega)
    have hi1 := (mem_uniqueIdx mins i hi).1
    rw [hlen] at hi1
    rw [hmin i hi1, hmin p hp, minFlat_eq_iff hG hB (at'_mem _ _ (hig i hi1).1) hg] at he
    exact ⟨_, List.mem_map.2 ⟨i, hi, rfl⟩, he⟩

theorem cols_spec (hG : IsGroup ops) (hB : Basis ops sh key gs) :
    ∃ reps : List GVec, cols ops sh key gs = reps.map (col ops gs) ∧
      (∀ r ∈ reps, r ∈ gs) ∧ reps.Pairwise (fun r r' => ¬ SameOrbit ops r r') ∧
      ∀ g ∈ gs, ∃ r ∈ reps, SameOrbit ops r g := by
  have h : ∀ ks : List ℤ, ks.Nodup → ∃ reps : List GVec,
      (ks.map fun k => (idxsort sh key gs).filter fun j => decide (key (at' gs j) = k)).flatMap (shellCols ops sh gs)
        = reps.map (col ops gs) ∧
      (∀ r ∈ reps, r ∈ gs ∧ key r ∈ ks) ∧ reps.Pairwise (fun r r' => ¬ SameOrbit ops r r') ∧
      ∀ g ∈ gs, key g ∈ ks → ∃ r ∈ reps, SameOrbit ops r g := by
    intro ks
    induction ks with
    | nil => intro _; exact ⟨[], by simp, by simp, by simp, by simp⟩
    | cons k ks ih =>
      intro hnd
      rw [List.nodup_cons] at hnd
      obtain ⟨R1, e1, m1, p1, c1⟩ := shellCols_spec hG hB _ k (shell_ok (key := key) hB.pos hB.nodup hB.bounds k)
      obtain ⟨R2, e2, m2, p2, c2⟩ := ih hnd.2
      refine ⟨R1 ++ R2, ?_, ?_, ?_, ?_⟩
      · rw [List.map_cons, List.flatMap_cons, e1, e2, List.map_append]
      · intro r hr
        rcases List.mem_append.1 hr with hr | hr
        · exact ⟨(m1 r hr).1, by rw [(m1 r hr).2]; simp⟩
        · exact ⟨(m2 r hr).1, List.mem_cons_of_mem _ (m2 r hr).2⟩
      · rw [List.pairwise_append]
        refine ⟨p1, p2, ?_⟩
        rintro a ha b hb ⟨s, hs⟩
        have h1 := hB.key_rot s a (m1 a ha).1
        rw [hs, (m1 a ha).2] at h1
        exact hnd.1 (h1 ▸ (m2 b hb).2)
      · intro g hg hk
        rcases List.mem_cons.1 hk with hk | hk
        · obtain ⟨r, hr, e⟩ := c1 g hg hk
          exact ⟨r, List.mem_append_left _ hr, e⟩
        · obtain ⟨r, hr, e⟩ := c2 g hg hk
          exact ⟨r, List.mem_append_right _ hr, e⟩
  obtain ⟨reps, e, m, p, c⟩ := h _ (List.nodup_dedup (gs.map key))
  refine ⟨reps, e, fun r hr => (m r hr).1, p, fun g hg => c g hg ?_⟩
  rw [List.mem_dedup]
  exact List.mem_map_of_mem hg

end shells

/-! ## Accumulation -/

theorem foldl_update_notmem {K : Type*} : ∀ (ws : List (ℕ × K)) (a : ℕ → K) (g : ℕ × K → K) (j : ℕ),
    (∀ w ∈ ws, w.1 ≠ j) → ws.foldl (fun acc p => Function.update acc p.1 (g p)) a j = a j := by
  intro ws
  induction ws with
  | nil => intro a g j _; rfl
  | cons w ws ih =>
    intro a g j h
    rw [List.foldl_cons, ih _ _ _ (fun w' hw' => h w' (List.mem_cons_of_mem _ hw')),
      Function.update_of_ne (Ne.symm (h w (by simp)))]

theorem foldl_update_val {K : Type*} : ∀ (ws : List (ℕ × K)) (a : ℕ → K) (j : ℕ) (v : K),
    (∀ w ∈ ws, w.1 = j → w.2 = v) → (∃ w ∈ ws, w.1 = j) →
    ws.foldl (fun acc p => Function.update acc p.1 p.2) a j = v := by
  intro ws
  induction ws with
  | nil => intro a j v _ h; simp at h
  | cons w ws ih =>
    intro a j v h hex
    rw [List.foldl_cons]
    by_cases h2 : ∃ w' ∈ ws, w'.1 = j
    · exact ih _ j v (fun w' hw' => h w' (List.mem_cons_of_mem _ hw')) h2
    · rw [foldl_update_notmem ws _ (fun p => p.2) j (fun w' hw' e => h2 ⟨w', hw', e⟩)]
      obtain ⟨w', hw', e⟩ := hex
      rcases List.mem_cons.1 hw' with rfl | hw''
      · rw [← e, Function.update_self]; exact h w' (by simp) e
      · exact absurd ⟨w', hw'', e⟩ h2

theorem fancyAdd_apply {K : Type*} [AddCommMonoid K] (a : ℕ → K) (row : List (ℕ × K)) (hnd : (row.map Prod.fst).Nodup)
    (j : ℕ) : fancyAdd a row j = a j + ((row.filter fun p => decide (p.1 = j)).map Prod.snd).sum := by
  unfold fancyAdd
  have gen : ∀ (row : List (ℕ × K)), (row.map Prod.fst).Nodup → ∀ acc : ℕ → K, (∀ p ∈ row, acc p.1 = a p.1) →
      row.foldl (fun acc p => Function.update acc p.1 (a p.1 + p.2)) acc j
        = acc j + ((row.filter fun p => decide (p.1 = j)).map Prod.snd).sum := by
    intro row
    induction row with
    | nil => intro _ acc _; simp
    | cons w row ih =>
      intro hnd acc hacc
      rw [List.map_cons, List.nodup_cons] at hnd
      have hw : ∀ p ∈ row, p.1 ≠ w.1 := fun p hp e => hnd.1 (e ▸ List.mem_map_of_mem hp)
      rw [List.foldl_cons]
      by_cases hj : w.1 = j
      · rw [foldl_update_notmem row _ (fun p => a p.1 + p.2) j (fun p hp => hj ▸ hw p hp), ← hj, Function.update_self,
          hacc w (by simp), List.filter_cons_of_pos (by simp)]
        have : row.filter (fun p => decide (p.1 = w.1)) = [] := by
          rw [List.filter_eq_nil_iff]; intro p hp; simpa using hw p hp
        rw [this]; simp
      · rw [ih hnd.2, Function.update_of_ne (Ne.symm hj), List.filter_cons_of_neg (by simpa using hj)]
        intro p hp
        rw [Function.update_of_ne (hw p hp), hacc p (List.mem_cons_of_mem _ hp)]
  exact gen row hnd a fun _ _ => rfl

theorem filter_single {α K : Type*} [DecidableEq α] [AddCommMonoid K] (l : List α) (hl : l.Nodup) (P : α → Bool) (r0 : α)
    (hr : r0 ∈ l) (h : ∀ r ∈ l, P r = true → r = r0) (φ : α → K) :
    ((l.filter P).map φ).sum = if P r0 = true then φ r0 else 0 := by
  split
  · next hP =>
    have : l.filter P = l.filter (· = r0) := by
      apply List.filter_congr
      intro r hrl
      by_cases e : r = r0
      · subst e; simpa using hP
      · have : ¬ P r = true := fun hp => e (h r hrl hp)
        simp [e, Bool.eq_false_iff.2 this]
    rw [this, List.filter_eq, List.count_eq_one_of_mem hl hr]
    simp
  · next hP =>
    have : l.filter P = [] := by
      rw [List.filter_eq_nil_iff]
      intro r hrl hp
      exact hP (h r hrl hp ▸ hp)
    rw [this]; rfl

theorem foldl_rows {K : Type*} [AddCommMonoid K] {ι : Type*} (l : List ι) (row : ι → List (ℕ × K))
    (hnd : ∀ s ∈ l, ((row s).map Prod.fst).Nodup) (a : ℕ → K) (j : ℕ) :
    l.foldl (fun a s => fancyAdd a (row s)) a j
      = a j + (l.map fun s => (((row s).filter fun p => decide (p.1 = j)).map Prod.snd).sum).sum := by
  induction l generalizing a with
  | nil => simp
  | cons s l ih =>
    rw [List.foldl_cons, ih (fun s' hs' => hnd s' (List.mem_cons_of_mem _ hs')), fancyAdd_apply _ _ (hnd s (by simp)),
      List.map_cons, List.sum_cons, add_assoc]

section main
variable {n : ℕ} {ops : Fin (n + 1) → SymOp} {sh : Shape} {key : GVec → ℤ} {gs : List GVec}

theorem idxOf_inj' {g h : GVec} (hg : g ∈ gs) (hh : h ∈ gs) (e : gs.idxOf g = gs.idxOf h) : g = h := by
  rw [← at'_idxOf gs g hg, e, at'_idxOf gs h hh]

/-- What the code computes for each G-vector: the group average. -/
theorem symmetrize_eq_avg (hG : IsGroup ops) (hB : Basis ops sh key gs) (garbage f : ℕ → ℂ) (g : GVec) (hg : g ∈ gs) :
    symmetrize ops sh key gs garbage f (gs.idxOf g) = avg ops (fun h => f (gs.idxOf h)) g := by
  obtain ⟨reps, hc, hm, hp, hcov⟩ := cols_spec hG hB
  have hrefl : ∀ r, SameOrbit ops r r := fun r => ⟨0, rot_zero hG r⟩
  have hnd : reps.Nodup := hp.imp fun {a b} h (e : a = b) => h (e ▸ hrefl a)
  obtain ⟨r0, hr0, u0, hu0⟩ := hcov g hg
  have huniq : ∀ r ∈ reps, ∀ s, rotG (ops s) r = g → r = r0 := by
    intro r hr s hs
    by_contra hne
    have ho : SameOrbit ops r r0 := SameOrbit.trans hG ⟨s, hs⟩ (SameOrbit.symm hG ⟨u0, hu0⟩)
    have hsymm : Std.Symm (fun r r' => ¬ SameOrbit ops r r') := ⟨fun _ _ h e => h (SameOrbit.symm hG e)⟩
    exact (hp.forall hr hr0 hne) ho
  have hidx : ∀ r ∈ reps, ∀ s, gs.idxOf (rotG (ops s) r) = gs.idxOf g → rotG (ops s) r = g := fun r hr s e =>
    idxOf_inj' (hB.closed s r (hm r hr)) hg e
  have hrow : ∀ s : Fin (n + 1),
      (((cols ops sh key gs).map fun x => ((x s).1)).Nodup) := by
    intro s
    rw [hc, List.map_map]
    apply List.Nodup.map_on _ hnd
    intro r hr r' hr' e
    exact rotG_inj hG s (idxOf_inj' (hB.closed s r (hm r hr)) (hB.closed s r' (hm r' hr')) e)
  -- the writes
  have hout : (List.finRange (n + 1)).foldl (fun o s => (cols ops sh key gs).foldl (fun o x =>
      Function.update o (x s).1 ((∑ s, f (x s).1 * (x s).2) / ((n + 1 : ℕ) : ℂ))) o) garbage (gs.idxOf g)
      = avg ops (fun h => f (gs.idxOf h)) r0 := by
    have e : ∀ (l : List (Fin (n + 1))) (a : ℕ → ℂ), l.foldl (fun o s => (cols ops sh key gs).foldl (fun o x =>
        Function.update o (x s).1 ((∑ s, f (x s).1 * (x s).2) / ((n + 1 : ℕ) : ℂ))) o) a
        = (l.flatMap fun s => (cols ops sh key gs).map fun x =>
            ((x s).1, (∑ s, f (x s).1 * (x s).2) / ((n + 1 : ℕ) : ℂ))).foldl
            (fun acc p => Function.update acc p.1 p.2) a := by
      intro l
      induction l with
      | nil => intro a; rfl
      | cons s l ih => intro a; rw [List.foldl_cons, ih, List.flatMap_cons, List.foldl_append, List.foldl_map]
    rw [e]
    apply foldl_update_val
    · intro w hw e
      simp only [List.mem_flatMap, List.mem_map, hc] at hw
      obtain ⟨s, _, _, ⟨r, hr, rfl⟩, rfl⟩ := hw
      have := huniq r hr s (hidx r hr s e)
      subst this
      rfl
    · refine ⟨_, List.mem_flatMap.2 ⟨u0, List.mem_finRange _, List.mem_map.2 ⟨col ops gs r0, ?_, rfl⟩⟩, ?_⟩
      · rw [hc]; exact List.mem_map_of_mem hr0
      · simp only [col, hu0]
  have hphase : gPhase (cols ops sh key gs) (gs.idxOf g) = ∑ s, if rotG (ops s) r0 = g then phase (ops s) g else 0 := by
    unfold gPhase
    rw [foldl_rows _ _ (fun s _ => by rw [List.map_map]; exact hrow s), zero_add,
      ← List.ofFn_eq_map, List.sum_ofFn]
    apply Finset.sum_congr rfl
    intro s _
    rw [List.filter_map, List.map_map, hc, List.filter_map, List.map_map,
      filter_single reps hnd _ r0 hr0]
    swap
    · intro r hr h; exact huniq r hr s (hidx r hr s (of_decide_eq_true h))
    have : (((fun p : ℕ × ℂ => decide (p.1 = gs.idxOf g)) ∘ fun x : Fin (n + 1) → ℕ × ℂ => x s) ∘ col ops gs) r0 = true
        ↔ rotG (ops s) r0 = g := by
      show decide (gs.idxOf (rotG (ops s) r0) = gs.idxOf g) = true ↔ _
      rw [decide_eq_true_eq]
      exact ⟨fun h => hidx r0 hr0 s h, fun h => by rw [h]⟩
    by_cases h : rotG (ops s) r0 = g
    · rw [if_pos (this.2 h), if_pos h]; simp [col, h]
    · rw [if_neg (fun h' => h (this.1 h')), if_neg h]
  have hcount : gCount (cols ops sh key gs) (gs.idxOf g) = ∑ s, if rotG (ops s) r0 = g then 1 else 0 := by
    unfold gCount
    rw [foldl_rows _ _ (fun s _ => by rw [List.map_map]; exact hrow s), zero_add,
      ← List.ofFn_eq_map, List.sum_ofFn]
    apply Finset.sum_congr rfl
    intro s _
    rw [List.filter_map, List.map_map, hc, List.filter_map, List.map_map,
      filter_single reps hnd _ r0 hr0]
    swap
    · intro r hr h; exact huniq r hr s (hidx r hr s (of_decide_eq_true h))
    have : (((fun p : ℕ × ℕ => decide (p.1 = gs.idxOf g)) ∘ fun x : Fin (n + 1) → ℕ × ℂ => ((x s).1, 1)) ∘ col ops gs) r0
        = true ↔ rotG (ops s) r0 = g := by
      show decide (gs.idxOf (rotG (ops s) r0) = gs.idxOf g) = true ↔ _
      rw [decide_eq_true_eq]
      exact ⟨fun h => hidx r0 hr0 s h, fun h => by rw [h]⟩
    by_cases h : rotG (ops s) r0 = g
    · rw [if_pos (this.2 h), if_pos h]; rfl
    · rw [if_neg (fun h' => h (this.1 h')), if_neg h]
  have hcpos : (gCount (cols ops sh key gs) (gs.idxOf g) : ℂ) ≠ 0 := by
    rw [hcount, Nat.cast_ne_zero, ← Nat.pos_iff_ne_zero]
    apply Finset.sum_pos'
    · intro _ _; positivity
    · exact ⟨u0, Finset.mem_univ _, by rw [if_pos hu0]; exact Nat.one_pos⟩
  unfold symmetrize
  simp only
  rw [hout, mul_div_assoc', div_eq_iff hcpos, hphase, hcount, map_sum]
  push_cast
  rw [Finset.mul_sum, Finset.mul_sum]
  apply Finset.sum_congr rfl
  intro s _
  by_cases h : rotG (ops s) r0 = g
  · rw [if_pos h, if_pos h, avg_rot hG _ s r0, h, mul_comm (phase (ops s) g), mul_assoc, phase_norm]
  · rw [if_neg h, if_neg h]; simp


theorem sum_basis (hnd : gs.Nodup) (φ : ℕ → GVec → ℂ) :
    ∑ j ∈ Finset.range gs.length, φ j (at' gs j) = ∑ g ∈ gs.toFinset, φ (gs.idxOf g) g := by
  refine Finset.sum_bij' (fun j _ => at' gs j) (fun g _ => gs.idxOf g) ?_ ?_ ?_ ?_ ?_
  · intro j hj; rw [List.mem_toFinset]; exact at'_mem _ _ (Finset.mem_range.1 hj)
  · intro g hg; rw [Finset.mem_range]; exact List.idxOf_lt_length_of_mem (List.mem_toFinset.1 hg)
  · intro j hj; exact idxOf_at' gs hnd j (Finset.mem_range.1 hj)
  · intro g hg; exact at'_idxOf gs g (List.mem_toFinset.1 hg)
  · intro j hj; rw [idxOf_at' gs hnd j (Finset.mem_range.1 hj)]

theorem sum_rot (hG : IsGroup ops) (hB : Basis ops sh key gs) (s : Fin (n + 1)) (φ : GVec → ℂ) :
    ∑ g ∈ gs.toFinset, φ (rotG (ops s) g) = ∑ g ∈ gs.toFinset, φ g := by
  have hm : ∀ g ∈ gs.toFinset, rotG (ops s) g ∈ gs.toFinset := fun g hg =>
    List.mem_toFinset.2 (hB.closed s g (List.mem_toFinset.1 hg))
  have hinj : Set.InjOn (rotG (ops s)) gs.toFinset := fun a _ b _ e => rotG_inj hG s e
  exact Finset.sum_nbij (rotG (ops s)) hm hinj
    (Finset.surjOn_of_injOn_of_card_le _ (fun g hg => hm g hg) hinj le_rfl) (fun _ _ => rfl)

theorem wave_rot (hG : IsGroup ops) (s : Fin (n + 1)) (g : GVec) (x : Fin 3 → ℝ) :
    wave (rotG (ops s) g) ((ops s).apply x) = phase (ops s) (rotG (ops s) g) * wave g x := by
  unfold wave phase
  rw [← Complex.exp_add, ← mul_add, ← Complex.ofReal_add]
  congr 3
  unfold SymOp.apply
  simp only [Pi.add_apply, add_mul, Finset.sum_add_distrib]
  rw [toV_rotG, dot_W_R (hG.unimod s)]
  ring

/-- **C31.** For every group of space-group operations, every G-space that holds with each G-vector its rotated images,
and every field `f` on it, whatever the uninitialised memory contains, the symmetrised field is the average of the field
over the operations of the group: at every point `x` of space its value is the mean of the values of `f` at the images
`W_s x + t_s`. -/
theorem C31_group_average (hG : IsGroup ops) (hB : Basis ops sh key gs) (garbage f : ℕ → ℂ) (x : Fin 3 → ℝ) :
    realVal gs (symmetrize ops sh key gs garbage f) x
      = (∑ s, realVal gs f ((ops s).apply x)) / ((n + 1 : ℕ) : ℂ) := by
  unfold realVal
  rw [sum_basis hB.nodup (fun j g => symmetrize ops sh key gs garbage f j * wave g x)]
  have e : ∀ s, ∑ j ∈ Finset.range gs.length, f j * wave (at' gs j) ((ops s).apply x)
      = ∑ g ∈ gs.toFinset, f (gs.idxOf (rotG (ops s) g)) * phase (ops s) (rotG (ops s) g) * wave g x := by
    intro s
    rw [sum_basis hB.nodup (fun j g => f j * wave g ((ops s).apply x)),
      ← sum_rot hG hB s (fun g => f (gs.idxOf g) * wave g ((ops s).apply x))]
    apply Finset.sum_congr rfl
    intro g _
    rw [wave_rot hG, mul_assoc]
  simp only [e]
  rw [Finset.sum_comm, Finset.sum_div]
  apply Finset.sum_congr rfl
  intro g hg
  rw [symmetrize_eq_avg hG hB garbage f g (List.mem_toFinset.1 hg), avg, ← Finset.sum_mul, div_mul_eq_mul_div]

/-- **C31 (consequences).** The symmetrised field is invariant under every operation of the group; symmetrising it again
changes no coefficient; the coefficient at G = 0 (the total charge) is kept; symmetrising is linear; a field that is
already invariant keeps its values everywhere; and the uninitialised memory has no influence. -/
theorem C31_symmetrised (hG : IsGroup ops) (hB : Basis ops sh key gs) (garbage garbage' f f' : ℕ → ℂ) (a b : ℂ) :
    (∀ s x, realVal gs (symmetrize ops sh key gs garbage f) ((ops s).apply x)
      = realVal gs (symmetrize ops sh key gs garbage f) x) ∧
    (∀ j < gs.length, symmetrize ops sh key gs garbage' (symmetrize ops sh key gs garbage f) j
      = symmetrize ops sh key gs garbage f j) ∧
    (∀ j < gs.length, at' gs j = (0, 0, 0) → symmetrize ops sh key gs garbage f j = f j) ∧
    (∀ j < gs.length, symmetrize ops sh key gs garbage (fun i => a * f i + b * f' i) j
      = a * symmetrize ops sh key gs garbage f j + b * symmetrize ops sh key gs garbage f' j) ∧
    ((∀ s x, realVal gs f ((ops s).apply x) = realVal gs f x) →
      ∀ x, realVal gs (symmetrize ops sh key gs garbage f) x = realVal gs f x) ∧
    (∀ j < gs.length, symmetrize ops sh key gs garbage f j = symmetrize ops sh key gs garbage' f j) := by
  have hn : ((n + 1 : ℕ) : ℂ) ≠ 0 := by exact_mod_cast Nat.succ_ne_zero n
  have hj : ∀ (garbage f : ℕ → ℂ), ∀ j < gs.length, symmetrize ops sh key gs garbage f j
      = avg ops (fun h => f (gs.idxOf h)) (at' gs j) := by
    intro garbage f j hj
    rw [← symmetrize_eq_avg hG hB garbage f _ (at'_mem _ _ hj), idxOf_at' gs hB.nodup j hj]
  refine ⟨?_, ?_, ?_, ?_, ?_, ?_⟩
  · intro s x
    unfold realVal
    rw [sum_basis hB.nodup (fun j g => symmetrize ops sh key gs garbage f j * wave g ((ops s).apply x)),
      sum_basis hB.nodup (fun j g => symmetrize ops sh key gs garbage f j * wave g x),
      ← sum_rot hG hB s (fun g => symmetrize ops sh key gs garbage f (gs.idxOf g) * wave g ((ops s).apply x))]
    apply Finset.sum_congr rfl
    intro g hg
    have hg' := List.mem_toFinset.1 hg
    rw [wave_rot hG, symmetrize_eq_avg hG hB garbage f g hg', symmetrize_eq_avg hG hB garbage f _ (hB.closed s g hg'),
      avg_rot hG _ s g]
    ring
  · intro j hjl
    rw [hj _ _ j hjl, hj _ _ j hjl]
    have hg := at'_mem gs j hjl
    conv_lhs => unfold avg
    rw [div_eq_iff hn]
    have : ∀ s, symmetrize ops sh key gs garbage f (gs.idxOf (rotG (ops s) (at' gs j)))
        * phase (ops s) (rotG (ops s) (at' gs j)) = avg ops (fun h => f (gs.idxOf h)) (at' gs j) := by
      intro s
      rw [symmetrize_eq_avg hG hB garbage f _ (hB.closed s _ hg), avg_rot hG _ s (at' gs j)]
      ring
    simp only [this, Finset.sum_const, Finset.card_univ, Fintype.card_fin, nsmul_eq_mul]
    ring
  · intro j hjl h0
    rw [hj _ _ j hjl, h0]
    have hr : ∀ s, rotG (ops s) (0, 0, 0) = (0, 0, 0) := by
      intro s
      unfold rotG
      have : toV (0, 0, 0) = 0 := by funext i; fin_cases i <;> rfl
      rw [this, mulVec_zero]; rfl
    have hp : ∀ s, phase (ops s) (0, 0, 0) = 1 := by
      intro s
      have : ∀ i, toV (0, 0, 0) i = 0 := by intro i; fin_cases i <;> rfl
      unfold phase
      simp [this]
    unfold avg
    rw [div_eq_iff hn]
    simp only [hr, hp, mul_one, Finset.sum_const, Finset.card_univ, Fintype.card_fin, nsmul_eq_mul]
    rw [← h0, idxOf_at' gs hB.nodup j hjl]
    ring
  · intro j hjl
    rw [hj _ _ j hjl, hj _ _ j hjl, hj _ _ j hjl]
    unfold avg
    rw [mul_div_assoc', mul_div_assoc', ← add_div, Finset.mul_sum, Finset.mul_sum, ← Finset.sum_add_distrib]
    congr 1
    apply Finset.sum_congr rfl
    intro s _
    ring
  · intro h x
    rw [C31_group_average hG hB, div_eq_iff hn]
    simp only [h, Finset.sum_const, Finset.card_univ, Fintype.card_fin, nsmul_eq_mul]
    ring
  · intro j hjl
    rw [hj _ _ j hjl, hj _ _ j hjl]

end main

/-- a case: the identity and the inversion about the point (1/4, 0, 0), on three G-vectors -/
noncomputable def exOps : Fin 2 → SymOp := ![⟨1, 0⟩, ⟨-1, ![1 / 2, 0, 0]⟩]

theorem exR : (exOps 1).R = -1 := by
  unfold SymOp.R exOps
  have : ((-1 : Matrix (Fin 3) (Fin 3) ℤ)ᵀ) = -1 := by ext i j; fin_cases i <;> fin_cases j <;> rfl
  show ((-1 : Matrix (Fin 3) (Fin 3) ℤ)ᵀ)⁻¹ = -1
  rw [this]
  exact inv_eq_right_inv (by simp)

theorem exOps_ok : IsGroup exOps ∧ Basis exOps ⟨4, 1, 1⟩ (fun g => g.1 * g.1) [(0, 0, 0), (1, 0, 0), (-1, 0, 0)] := by
  have hd : (-1 : Matrix (Fin 3) (Fin 3) ℤ).det = -1 := by decide
  have hne : (1 : Matrix (Fin 3) (Fin 3) ℤ) ≠ -1 := by decide
  constructor
  · refine ⟨?_, rfl, ?_, ?_⟩
    · intro s; fin_cases s
      · show IsUnit (1 : Matrix (Fin 3) (Fin 3) ℤ).det; simp
      · show IsUnit (-1 : Matrix (Fin 3) (Fin 3) ℤ).det; rw [hd]; exact isUnit_one.neg
    · intro s u h
      fin_cases s <;> fin_cases u
      · rfl
      · exact absurd h hne
      · exact absurd h.symm hne
      · rfl
    · have c1 : ∀ m : Matrix (Fin 3) (Fin 3) ℤ, ∀ i, (m.map (Int.cast : ℤ → ℝ) *ᵥ (0 : Fin 3 → ℝ)) i = 0 := by simp
      have c2 : ∀ v : Fin 3 → ℝ, ∀ i, ((1 : Matrix (Fin 3) (Fin 3) ℤ).map (Int.cast : ℤ → ℝ) *ᵥ v) i = v i := by
        intro v i; rw [Matrix.map_one _ Int.cast_zero Int.cast_one, one_mulVec]
      have c3 : ∀ v : Fin 3 → ℝ, ∀ i, ((-1 : Matrix (Fin 3) (Fin 3) ℤ).map (Int.cast : ℤ → ℝ) *ᵥ v) i = - v i := by
        intro v i
        have : (-1 : Matrix (Fin 3) (Fin 3) ℤ).map (Int.cast : ℤ → ℝ) = -1 := by
          ext i j; fin_cases i <;> fin_cases j <;> simp
        rw [this, neg_mulVec, one_mulVec]; rfl
      intro s u
      fin_cases s <;> fin_cases u
      · exact ⟨0, (one_mul _).symm, fun i => ⟨0, by simp [exOps]⟩⟩
      · exact ⟨1, (one_mul _).symm, fun i => ⟨0, by show _ = (Matrix.map 1 _ *ᵥ _) i + _ + _; rw [c2]; simp [exOps]⟩⟩
      · exact ⟨1, (mul_one _).symm, fun i => ⟨0, by show _ = (Matrix.map _ _ *ᵥ 0) i + _ + _; rw [c1]; simp [exOps]⟩⟩
      · exact ⟨0, by show (1 : Matrix (Fin 3) (Fin 3) ℤ) = -1 * -1; simp,
          fun i => ⟨0, by show _ = (Matrix.map (-1) _ *ᵥ _) i + _ + _; rw [c3]; simp [exOps]⟩⟩
  · have hz : ∀ g, rotG (exOps 0) g = g := by
      intro g
      unfold rotG SymOp.R exOps
      show ofV ((1 : Matrix (Fin 3) (Fin 3) ℤ)ᵀ⁻¹ *ᵥ toV g) = g
      simp [ofV_toV]
    have ho : ∀ g, rotG (exOps 1) g = (-g.1, -g.2.1, -g.2.2) := by
      intro g
      unfold rotG
      rw [exR, neg_mulVec, one_mulVec]; rfl
    refine ⟨by decide, by decide, by decide, ?_, ?_⟩
    · intro s g hg
      fin_cases s
      · show rotG (exOps 0) g ∈ _; rw [hz]; exact hg
      · show rotG (exOps 1) g ∈ _
        rw [ho]
        simp only [List.mem_cons, List.not_mem_nil, or_false] at hg
        rcases hg with rfl | rfl | rfl <;> decide
    · intro s g _
      fin_cases s
      · show (rotG (exOps 0) g).1 * (rotG (exOps 0) g).1 = _; rw [hz]
      · show (rotG (exOps 1) g).1 * (rotG (exOps 1) g).1 = _; rw [ho]; ring

end Verif.Symm
