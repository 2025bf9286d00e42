import Verif.Model.GW
import Verif.Props.GWChi
import Mathlib.LinearAlgebra.Matrix.ToLinearEquiv

/-!
# Properties C55, C56, C111, C114: q-point distribution, G-vector order, inverse dielectric matrix, head and wings
-/

namespace Verif.GW

open Verif.Lattice (Vec)
open Verif.GSpace (at' gather argsort)
open scoped ComplexConjugate

/-! ## C55: distribution of q-points -/

theorem flatten_split (n size : ℕ) : ∀ r, r ≤ size →
    ((List.range r).map (arraySplit n size)).flatten = List.range (r * (n / size) + min r (n % size)) := by
  intro r
  induction r with
  | zero => intro _; simp
  | succ r ih =>
    intro hr
    rw [List.range_succ, List.map_append, List.flatten_append, ih (by omega)]
    simp only [List.map_cons, List.map_nil, List.flatten_cons, List.flatten_nil, List.append_nil]
    unfold arraySplit
    rw [List.range'_eq_map_range]
    have e : (r + 1) * (n / size) + min (r + 1) (n % size)
        = (r * (n / size) + min r (n % size)) + (n / size + if r < n % size then 1 else 0) := by
      rw [Nat.succ_mul]
      split_ifs with h
      · rw [min_eq_left (by omega), min_eq_left (by omega)]; omega
      · rw [min_eq_right (by omega), min_eq_right (by omega)]; omega
    rw [e]
    generalize r * (n / size) + min r (n % size) = A
    generalize (n / size + if r < n % size then 1 else 0) = B
    rw [List.range_add]

/-- **C55.** Splitting the q-points over any number of processes and gathering the parts gives back every q-point exactly once,
in order. -/
theorem C55_split (n size : ℕ) (hs : 0 < size) :
    ((List.range size).map (arraySplit n size)).flatten = List.range n := by
  rw [flatten_split n size size le_rfl]
  congr 1
  rw [min_eq_right (Nat.mod_lt _ hs).le]
  exact Nat.div_add_mod n size

/-- **C55 (parts are balanced).** No process gets more than one q-point more than another. -/
theorem C55_balanced (n size r r' : ℕ) :
    (arraySplit n size r).length ≤ (arraySplit n size r').length + 1 := by
  unfold arraySplit
  rw [List.length_range', List.length_range']
  split_ifs <;> omega

/-- **C55 (Coulomb interaction).** `Vcoul.calculate_vcoul` gives the same list on any number of processes as serially. -/
theorem C55_vcoul {α : Type*} (numq size : ℕ) (hs : 0 < size) (single : ℕ → α) :
    vcoulParallel numq size single = vcoulSerial numq single := by
  unfold vcoulParallel vcoulSerial
  rw [← C55_split numq size hs, List.map_flatten, List.map_map]
  rfl

/-- **C55 (sums).** Partial sums over the parts, added up over the processes, are the serial sum. -/
theorem C55_sum {M : Type*} [AddCommMonoid M] (n size : ℕ) (hs : 0 < size) (f : ℕ → M) :
    ∑ r ∈ Finset.range size, ((arraySplit n size r).map f).sum = ∑ q ∈ Finset.range n, f q := by
  rw [← DFTComm.list_sum_range n, ← C55_split n size hs, List.map_flatten, List.sum_flatten, List.map_map, List.map_map,
    DFTComm.list_sum_range]
  rfl

example : (List.range 3).map (arraySplit 8 3) = [[0, 1, 2], [3, 4, 5], [6, 7]] := by decide
example : (List.range 4).map (arraySplit 2 4) = [[0], [1], [], []] := by decide

/-! ## C56: G-vector order -/

/-- Lexicographic order on (rounded |q+G|², x, y, z). -/
def BGWOrder (a b : Vec × ℝ) : Prop :=
  around 10 a.2 < around 10 b.2 ∨ (around 10 a.2 = around 10 b.2 ∧ (a.1 0 < b.1 0 ∨ (a.1 0 = b.1 0 ∧
    (a.1 1 < b.1 1 ∨ (a.1 1 = b.1 1 ∧ a.1 2 ≤ b.1 2)))))

theorem bgwLe_iff (a b : Vec × ℝ) : bgwLe (bgwKey a.1 a.2) (bgwKey b.1 b.2) = true ↔ BGWOrder a b := by
  unfold bgwLe bgwKey BGWOrder
  simp only [decide_eq_true_eq]

theorem BGWOrder.trans {a b c : Vec × ℝ} (h1 : BGWOrder a b) (h2 : BGWOrder b c) : BGWOrder a c := by
  unfold BGWOrder at *
  rcases h1 with h1 | ⟨e1, h1⟩
  · rcases h2 with h2 | ⟨e2, _⟩
    · left; linarith
    · left; linarith
  rcases h2 with h2 | ⟨e2, h2⟩
  · left; linarith
  right
  refine ⟨e1.trans e2, ?_⟩
  rcases h1 with h1 | ⟨f1, h1⟩
  · rcases h2 with h2 | ⟨f2, _⟩ <;> (left; linarith)
  rcases h2 with h2 | ⟨f2, h2⟩
  · left; linarith
  right
  refine ⟨f1.trans f2, ?_⟩
  rcases h1 with h1 | ⟨g1, h1⟩
  · rcases h2 with h2 | ⟨g2, _⟩ <;> (left; linarith)
  rcases h2 with h2 | ⟨g2, h2⟩
  · left; linarith
  exact Or.inr ⟨g1.trans g2, h1.trans h2⟩

theorem BGWOrder.total (a b : Vec × ℝ) : BGWOrder a b ∨ BGWOrder b a := by
  unfold BGWOrder
  rcases lt_trichotomy (around 10 a.2) (around 10 b.2) with h | h | h
  · exact Or.inl (Or.inl h)
  · rcases lt_trichotomy (a.1 0) (b.1 0) with h0 | h0 | h0
    · exact Or.inl (Or.inr ⟨h, Or.inl h0⟩)
    · rcases lt_trichotomy (a.1 1) (b.1 1) with h1 | h1 | h1
      · exact Or.inl (Or.inr ⟨h, Or.inr ⟨h0, Or.inl h1⟩⟩)
      · rcases le_total (a.1 2) (b.1 2) with h2 | h2
        · exact Or.inl (Or.inr ⟨h, Or.inr ⟨h0, Or.inr ⟨h1, h2⟩⟩⟩)
        · exact Or.inr (Or.inr ⟨h.symm, Or.inr ⟨h0.symm, Or.inr ⟨h1.symm, h2⟩⟩⟩)
      · exact Or.inr (Or.inr ⟨h.symm, Or.inr ⟨h0.symm, Or.inl h1⟩⟩)
    · exact Or.inr (Or.inr ⟨h.symm, Or.inl h0⟩)
  · exact Or.inr (Or.inl h)

theorem BGWOrder.antisymm {a b : Vec × ℝ} (h1 : BGWOrder a b) (h2 : BGWOrder b a) : a.1 = b.1 := by
  unfold BGWOrder at *
  have e0 : around 10 a.2 = around 10 b.2 := by
    rcases h1 with h | h
    · rcases h2 with h' | h'
      · linarith
      · linarith [h'.1]
    · exact h.1
  have g1 : _ := h1.resolve_left (by linarith [e0])
  have g2 : _ := h2.resolve_left (by linarith [e0])
  have ex : a.1 0 = b.1 0 := by
    rcases g1.2 with h | h
    · rcases g2.2 with h' | h'
      · linarith
      · linarith [h'.1]
    · exact h.1
  have k1 := g1.2.resolve_left (by linarith [ex])
  have k2 := g2.2.resolve_left (by linarith [ex])
  have ey : a.1 1 = b.1 1 := by
    rcases k1.2 with h | h
    · rcases k2.2 with h' | h'
      · linarith
      · linarith [h'.1]
    · exact h.1
  have l1 := (k1.2.resolve_left (by linarith [ey])).2
  have l2 := (k2.2.resolve_left (by linarith [ey])).2
  have ez : a.1 2 = b.1 2 := le_antisymm l1 l2
  funext c
  fin_cases c
  · exact ex
  · exact ey
  · exact ez

/-- The vectors (with their keys) in the order of `sort_cryst_like_BGW`. -/
noncomputable def sorted (l : List (Vec × ℝ)) : List (Vec × ℝ) := (sortBGW l).map fun i => l.getD i (0, 0)

/-- **C56 (order).** `sort_cryst_like_BGW` returns a permutation of the positions, and it lists the vectors by `|q+G|²`
(rounded to 10 decimals), ties broken by the crystal coordinates. -/
theorem C56_sorts (l : List (Vec × ℝ)) :
    (sortBGW l).Perm (List.range l.length) ∧ (sorted l).Perm l ∧ (sorted l).Pairwise BGWOrder := by
  have hp : (sortBGW l).Perm (List.range l.length) := List.mergeSort_perm _ _
  refine ⟨hp, ?_, ?_⟩
  · have h := hp.map fun i => l.getD i ((0, 0) : Vec × ℝ)
    have e : (List.range l.length).map (fun i => l.getD i ((0, 0) : Vec × ℝ)) = l := by
      apply List.ext_getElem
      · simp
      · intro i h1 h2
        simp only [List.getElem_map, List.getElem_range]
        exact List.getD_eq_getElem _ _ h2
    rw [e] at h
    exact h
  · unfold sorted
    rw [List.pairwise_map]
    have := List.pairwise_mergeSort (le := fun i j =>
      bgwLe (bgwKey (l.getD i (0, 0)).1 (l.getD i (0, 0)).2) (bgwKey (l.getD j (0, 0)).1 (l.getD j (0, 0)).2))
      (fun a b c h1 h2 => by
        rw [bgwLe_iff] at *
        exact h1.trans h2)
      (fun a b => by
        rw [Bool.or_eq_true, bgwLe_iff, bgwLe_iff]
        exact BGWOrder.total _ _) (List.range l.length)
    exact this.imp fun h => (bgwLe_iff _ _).1 h

/-- **C56 (independent of the given order).** The sorted list of distinct vectors does not depend on the order they were
given in. -/
theorem C56_order_independent (l l' : List (Vec × ℝ)) (hp : l.Perm l') (hnd : (l.map Prod.fst).Nodup) :
    sorted l = sorted l' := by
  obtain ⟨_, p1, s1⟩ := C56_sorts l
  obtain ⟨_, p2, s2⟩ := C56_sorts l'
  refine List.Perm.eq_of_pairwise ?_ s1 s2 (p1.trans (hp.trans p2.symm))
  intro a b ha hb h1 h2
  have hv := h1.antisymm h2
  have ha' := p1.mem_iff.1 ha
  have hb' := hp.mem_iff.2 (p2.mem_iff.1 hb)
  exact List.inj_on_of_nodup_map hnd ha' hb' hv

/-- **C56 (reordering).** `reorder_2d_matrix_sorted_gvecs(mat, idx)[i, j] = mat[idx[i], idx[j]]`, and reordering by the inverse
permutation restores the matrix. -/
theorem C56_reorder {α : Type*} (mat : ℕ → ℕ → α) (p : List ℕ) (hp : p.Perm (List.range p.length)) :
    (∀ i < p.length, ∀ j < p.length, reorder mat p i j = mat (at' p i) (at' p j))
    ∧ (∀ i < p.length, ∀ j < p.length, reorder (reorder mat p) (argsort p) i j = mat i j) := by
  refine ⟨fun i _ j _ => rfl, ?_⟩
  intro i hi j hj
  have h := GSpace.gather_argsort p hp
  have hl : (argsort p).length = p.length := by simpa using (GSpace.argsort_perm p).length_eq
  have e : ∀ k < p.length, at' p (at' (argsort p) k) = k := by
    intro k hk
    have := GSpace.at'_gather p (argsort p) k (by rw [hl]; exact hk)
    rw [h] at this
    rw [← this]
    unfold at'
    rw [List.getD_eq_getElem _ _ (by simpa using hk), List.getElem_range]
  show mat (at' p (at' (argsort p) i)) (at' p (at' (argsort p) j)) = mat i j
  rw [e i hi, e j hj]

/-! ## C111: bare Coulomb interaction and inverse dielectric matrix -/

/-- **C111 (Coulomb).** `v_bare` is `8π/|q+G|²`, positive, and NaN exactly at `q + G = 0`. -/
theorem C111_v_bare (g2 : ℝ) (h : 0 ≤ g2) :
    (vBare g2 = none ↔ g2 = 0) ∧ (0 < g2 → vBare g2 = some (8 * Real.pi / g2) ∧ 0 < 8 * Real.pi / g2) := by
  unfold vBare
  constructor
  · by_cases e : g2 = 0
    · simp [e]
    · simp [e]
  · intro hg
    rw [if_pos hg.ne']
    exact ⟨by rw [div_eq_mul_inv], by positivity⟩

section inverse
variable {n : ℕ}

/-- `⟨y, A y⟩` is real for Hermitian `A`. -/
theorem quad_im (A : Fin n → Fin n → ℂ) (h : ∀ i j, A i j = conj (A j i)) (z : Fin n → ℂ) : (quad A z).im = 0 := by
  have e : conj (quad A z) = quad A z := by
    unfold quad
    simp only [map_sum, map_mul, Complex.conj_conj]
    rw [Finset.sum_comm]
    refine Finset.sum_congr rfl fun i _ => Finset.sum_congr rfl fun j _ => ?_
    rw [← h i j]
    ring
  exact Complex.conj_eq_iff_im.1 e

theorem quad_real (A : Fin n → Fin n → ℂ) (h : NegSemi A) (z : Fin n → ℂ) : ∃ r : ℝ, r ≤ 0 ∧ quad A z = r :=
  ⟨(quad A z).re, h.2 z, Complex.ext (by simp) (by simp [quad_im A h.1 z])⟩

/-- The equation solved by the inverse: `eps w = z` in terms of `y = (v/2) w`. -/
theorem eps_energy (v : Fin n → ℝ) (hv : ∀ j, 0 < v j) (chi : Fin n → Fin n → ℂ) (w z : Fin n → ℂ)
    (h : (epsMat v chi).mulVec w = z) :
    (∀ i, z i = w i - ∑ j, chi i j * (((v j / 2 : ℝ) : ℂ) * w j))
    ∧ ∑ i, conj (((v i / 2 : ℝ) : ℂ) * w i) * z i
      = ((∑ i, v i / 2 * Complex.normSq (w i) : ℝ) : ℂ) - quad chi (fun j => ((v j / 2 : ℝ) : ℂ) * w j) := by
  have hz : ∀ i, z i = w i - ∑ j, chi i j * (((v j / 2 : ℝ) : ℂ) * w j) := by
    intro i
    rw [← h]
    unfold Matrix.mulVec epsMat dotProduct
    simp only [sub_mul, Finset.sum_sub_distrib]
    congr 1
    · simp
    · refine Finset.sum_congr rfl fun j _ => ?_
      ring
  refine ⟨hz, ?_⟩
  unfold quad
  push_cast
  rw [← Finset.sum_sub_distrib]
  refine Finset.sum_congr rfl fun i _ => ?_
  rw [hz i, mul_sub, Finset.mul_sum]
  congr 1
  · rw [Complex.normSq_eq_conj_mul_self, map_mul, map_div₀, Complex.conj_ofReal, map_ofNat]
    ring
  · refine Finset.sum_congr rfl fun j _ => ?_
    push_cast
    ring

theorem eps_det_ne_zero (v : Fin n → ℝ) (hv : ∀ j, 0 < v j) (chi : Fin n → Fin n → ℂ) (hchi : NegSemi chi) :
    (epsMat v chi).det ≠ 0 := by
  intro hdet
  obtain ⟨w, hw, h0⟩ := Matrix.exists_mulVec_eq_zero_iff.2 hdet
  obtain ⟨_, he⟩ := eps_energy v hv chi w 0 h0
  obtain ⟨r, hr, hq⟩ := quad_real chi hchi fun j => ((v j / 2 : ℝ) : ℂ) * w j
  rw [hq] at he
  simp only [Pi.zero_apply, mul_zero, Finset.sum_const_zero] at he
  have he' : (∑ i, v i / 2 * Complex.normSq (w i)) - r = 0 := by
    have : (((∑ i, v i / 2 * Complex.normSq (w i)) - r : ℝ) : ℂ) = 0 := by push_cast; push_cast at he; rw [he]
    exact_mod_cast this
  have hnn : ∀ i ∈ Finset.univ, 0 ≤ v i / 2 * Complex.normSq (w i) := fun i _ =>
    mul_nonneg (by linarith [hv i]) (Complex.normSq_nonneg _)
  have hs0 : ∑ i, v i / 2 * Complex.normSq (w i) = 0 := le_antisymm (by linarith) (Finset.sum_nonneg hnn)
  apply hw
  funext i
  have := (Finset.sum_eq_zero_iff_of_nonneg hnn).1 hs0 i (Finset.mem_univ i)
  have h2 : Complex.normSq (w i) = 0 := by
    rcases mul_eq_zero.1 this with h | h
    · linarith [hv i]
    · exact h
  exact Complex.normSq_eq_zero.1 h2

/-- **C111 (inverse).** For a Hermitian negative-semidefinite polarizability and `q + G ≠ 0` for every G-vector,
`epsilon_inverse` never fails: it returns the two-sided inverse of `1 - χ v/2`, and every diagonal element of the inverse
(the inverse dielectric constant) is real and lies in `(0, 1]`. -/
theorem C111_epsilon_inverse (g2 : Fin n → ℝ) (hg : ∀ j, 0 < g2 j) (chi : Fin n → Fin n → ℂ) (hchi : NegSemi chi) :
    ∃ X : Matrix (Fin n) (Fin n) ℂ, epsInverse (fun j => vBare (g2 j)) chi = .ok (some X)
      ∧ epsMat (fun j => 8 * Real.pi / g2 j) chi * X = 1 ∧ X * epsMat (fun j => 8 * Real.pi / g2 j) chi = 1
      ∧ ∀ i, (X i i).im = 0 ∧ 0 < (X i i).re ∧ (X i i).re ≤ 1 := by
  set v : Fin n → ℝ := fun j => 8 * Real.pi / g2 j with hvdef
  have hv : ∀ j, 0 < v j := fun j => ((C111_v_bare (g2 j) (hg j).le).2 (hg j)).2
  have hdet := eps_det_ne_zero v hv chi hchi
  have hunit : IsUnit (epsMat v chi).det := isUnit_iff_ne_zero.2 hdet
  have hR := Matrix.mul_nonsing_inv _ hunit
  have hL := Matrix.nonsing_inv_mul _ hunit
  refine ⟨(epsMat v chi)⁻¹, ?_, hR, hL, ?_⟩
  · unfold epsInverse
    have e : (fun j => (vBare (g2 j)).getD 0) = v := by
      funext j
      rw [((C111_v_bare (g2 j) (hg j).le).2 (hg j)).1]
      rfl
    rw [if_neg, e, if_neg hdet]
    rintro ⟨j, hj⟩
    have hj' : vBare (g2 j) = none := hj
    rw [((C111_v_bare (g2 j) (hg j).le).2 (hg j)).1] at hj'
    cases hj'
  · intro i
    set w : Fin n → ℂ := fun a => (epsMat v chi)⁻¹ a i with hw
    have hcol : (epsMat v chi).mulVec w = fun a => (1 : Matrix (Fin n) (Fin n) ℂ) a i := by
      funext a
      rw [← hR]
      rfl
    obtain ⟨_, he⟩ := eps_energy v hv chi w _ hcol
    obtain ⟨r, hr, hq⟩ := quad_real chi hchi fun j => ((v j / 2 : ℝ) : ℂ) * w j
    rw [hq] at he
    have hlhs : ∑ a, conj (((v a / 2 : ℝ) : ℂ) * w a) * (1 : Matrix (Fin n) (Fin n) ℂ) a i
        = ((v i / 2 : ℝ) : ℂ) * conj (w i) := by
      rw [Finset.sum_eq_single i]
      · rw [Matrix.one_apply_eq, mul_one, map_mul, Complex.conj_ofReal]
      · intro b _ hb; rw [Matrix.one_apply_ne hb, mul_zero]
      · intro h; exact absurd (Finset.mem_univ i) h
    rw [hlhs] at he
    have hre := congrArg Complex.re he
    have him := congrArg Complex.im he
    rw [Complex.re_ofReal_mul, Complex.conj_re] at hre
    rw [Complex.im_ofReal_mul, Complex.conj_im] at him
    simp only [Complex.sub_re, Complex.ofReal_re, Complex.sub_im, Complex.ofReal_im, sub_zero] at hre him
    have hvi := hv i
    have him' : (w i).im = 0 := by
      rcases mul_eq_zero.1 him with h | h
      · linarith
      · linarith
    have hnn : ∀ a ∈ Finset.univ, 0 ≤ v a / 2 * Complex.normSq (w a) := fun a _ =>
      mul_nonneg (by linarith [hv a]) (Complex.normSq_nonneg _)
    have hsingle := Finset.single_le_sum hnn (Finset.mem_univ i)
    have hns : Complex.normSq (w i) = (w i).re * (w i).re := by
      rw [Complex.normSq_apply, him']; ring
    rw [hns] at hsingle
    have hge : v i / 2 * ((w i).re * (w i).re) ≤ v i / 2 * (w i).re := by linarith
    have hge' : (w i).re * (w i).re ≤ (w i).re := le_of_mul_le_mul_left hge (by linarith)
    have hnonneg : 0 ≤ (w i).re := le_trans (mul_self_nonneg _) hge'
    have hpos : 0 < (w i).re := by
      rcases hnonneg.lt_or_eq with h | h
      · exact h
      · exfalso
        rw [← h, mul_zero] at hre
        have hs0 : ∑ a, v a / 2 * Complex.normSq (w a) = 0 := le_antisymm (by linarith) (Finset.sum_nonneg hnn)
        have hall : w = 0 := by
          funext a
          have := (Finset.sum_eq_zero_iff_of_nonneg hnn).1 hs0 a (Finset.mem_univ a)
          rcases mul_eq_zero.1 this with h | h
          · linarith [hv a]
          · exact Complex.normSq_eq_zero.1 h
        rw [hall, Matrix.mulVec_zero] at hcol
        have := congrFun hcol i
        rw [Matrix.one_apply_eq] at this
        simp at this
    refine ⟨him', hpos, ?_⟩
    show (w i).re ≤ 1
    nlinarith

/-- **C111 (NaN).** If some `q + G` vanishes the result is not a number: the Coulomb interaction there is NaN. -/
theorem C111_nan (g2 : Fin n → ℝ) (chi : Fin n → Fin n → ℂ) (j : Fin n) (h : g2 j = 0) :
    epsInverse (fun j => vBare (g2 j)) chi = .ok none := by
  unfold epsInverse
  rw [if_pos ⟨j, by simp [vBare, h]⟩]

/-- **C111 (screening).** With the same Coulomb interaction, the screened interaction lies between zero and the bare one: for
every vector `M`, `Σ conj(M_k) v_k (ε⁻¹ - 1)_km M_m` is real, not positive, and not below `-Σ v_k |M_k|²`. -/
theorem C111_screening (v : Fin n → ℝ) (hv : ∀ j, 0 < v j) (chi : Fin n → Fin n → ℂ) (hchi : NegSemi chi)
    (X : Matrix (Fin n) (Fin n) ℂ) (hX : epsMat v chi * X = 1) (M : Fin n → ℂ) :
    (∑ k, ∑ m, conj (M k) * M m * (X k m - (1 : Matrix (Fin n) (Fin n) ℂ) k m) * v k).im = 0
    ∧ (∑ k, ∑ m, conj (M k) * M m * (X k m - (1 : Matrix (Fin n) (Fin n) ℂ) k m) * v k).re ≤ 0
    ∧ -∑ k, v k * Complex.normSq (M k) ≤ (∑ k, ∑ m, conj (M k) * M m * (X k m - (1 : Matrix (Fin n) (Fin n) ℂ) k m) * v k).re := by
  set w : Fin n → ℂ := X.mulVec M with hw
  have hew : (epsMat v chi).mulVec w = M := by
    rw [hw, Matrix.mulVec_mulVec, hX, Matrix.one_mulVec]
  set y : Fin n → ℂ := fun j => ((v j / 2 : ℝ) : ℂ) * w j with hy
  obtain ⟨hM, _⟩ := eps_energy v hv chi w M hew
  set c : Fin n → ℂ := fun i => ∑ j, chi i j * y j with hc
  have hMi : ∀ i, M i = w i - c i := hM
  obtain ⟨r, hr, hq⟩ := quad_real chi hchi y
  have hqc : ∑ i, conj (y i) * c i = r := by
    rw [← hq]
    unfold quad
    refine Finset.sum_congr rfl fun i _ => ?_
    rw [hc]
    simp only
    rw [Finset.mul_sum]
    refine Finset.sum_congr rfl fun j _ => ?_
    ring
  have hqc' : ∑ i, y i * conj (c i) = r := by
    have := congrArg (starRingEnd ℂ) hqc
    rw [map_sum, Complex.conj_ofReal] at this
    rw [← this]
    refine Finset.sum_congr rfl fun i _ => ?_
    rw [map_mul, Complex.conj_conj]
  have hS : ∑ k, ∑ m, conj (M k) * M m * (X k m - (1 : Matrix (Fin n) (Fin n) ℂ) k m) * v k
      = ∑ k, conj (M k) * v k * c k := by
    refine Finset.sum_congr rfl fun k _ => ?_
    have : c k = (X.mulVec M) k - ((1 : Matrix (Fin n) (Fin n) ℂ).mulVec M) k := by
      rw [Matrix.one_mulVec, ← hw, hMi k]; ring
    rw [this]
    unfold Matrix.mulVec dotProduct
    rw [← Finset.sum_sub_distrib, Finset.mul_sum]
    refine Finset.sum_congr rfl fun m _ => ?_
    ring
  have hS1 : ∑ k, conj (M k) * v k * c k = ((2 * r - ∑ k, v k * Complex.normSq (c k) : ℝ) : ℂ) := by
    have : ∀ k, conj (M k) * v k * c k = 2 * (conj (y k) * c k) - (v k * Complex.normSq (c k) : ℝ) := by
      intro k
      rw [hMi k, map_sub, hy]
      simp only [map_mul, Complex.conj_ofReal]
      push_cast
      rw [Complex.normSq_eq_conj_mul_self]
      ring
    rw [Finset.sum_congr rfl fun k _ => this k, Finset.sum_sub_distrib, ← Finset.mul_sum, hqc]
    push_cast
    ring
  rw [hS, hS1, Complex.ofReal_im, Complex.ofReal_re]
  have hnn : 0 ≤ ∑ k, v k * Complex.normSq (c k) := Finset.sum_nonneg fun k _ => mul_nonneg (hv k).le (Complex.normSq_nonneg _)
  refine ⟨rfl, by linarith, ?_⟩
  -- Σ v|M|² = Σ v|w|² - 4 r + Σ v|c|²
  have hMM : ∑ k, v k * Complex.normSq (M k) = ∑ k, v k * Complex.normSq (w k) - 4 * r + ∑ k, v k * Complex.normSq (c k) := by
    have : ((∑ k, v k * Complex.normSq (M k) : ℝ) : ℂ)
        = ((∑ k, v k * Complex.normSq (w k) - 4 * r + ∑ k, v k * Complex.normSq (c k) : ℝ) : ℂ) := by
      have e : ∀ k, (((v k * Complex.normSq (M k) : ℝ)) : ℂ) = (v k * Complex.normSq (w k) : ℝ) - 2 * (conj (y k) * c k)
          - 2 * (y k * conj (c k)) + (v k * Complex.normSq (c k) : ℝ) := by
        intro k
        push_cast
        rw [Complex.normSq_eq_conj_mul_self, Complex.normSq_eq_conj_mul_self, Complex.normSq_eq_conj_mul_self, hMi k, hy]
        simp only [map_sub, map_mul, Complex.conj_ofReal]
        push_cast
        ring
      rw [Complex.ofReal_sum, Finset.sum_congr rfl fun k _ => e k, Finset.sum_add_distrib, Finset.sum_sub_distrib,
        Finset.sum_sub_distrib, ← Finset.mul_sum, ← Finset.mul_sum, hqc, hqc', ← Complex.ofReal_sum, ← Complex.ofReal_sum]
      push_cast
      ring
    exact_mod_cast this
  have hww : 0 ≤ ∑ k, v k * Complex.normSq (w k) := Finset.sum_nonneg fun k _ => mul_nonneg (hv k).le (Complex.normSq_nonneg _)
  linarith

end inverse

/-- The hypotheses of C111 are met by a non-trivial 2 × 2 polarizability. -/
example : NegSemi (fun i j : Fin 2 => if i = j then (-2 : ℂ) else if i = 0 then Complex.I else -Complex.I) := by
  constructor
  · intro i j
    fin_cases i <;> fin_cases j <;> simp [Complex.ext_iff]
  · intro z
    have e : (quad (fun i j : Fin 2 => if i = j then (-2 : ℂ) else if i = 0 then Complex.I else -Complex.I) z).re
        = -(Complex.normSq (z 0) + Complex.normSq (z 1)) - ((z 0).re + (z 1).im) ^ 2 - ((z 0).im - (z 1).re) ^ 2 := by
      unfold quad
      simp [Fin.sum_univ_two, Complex.normSq_apply]
      ring
    rw [e]
    have := Complex.normSq_nonneg (z 0)
    have := Complex.normSq_nonneg (z 1)
    nlinarith [sq_nonneg ((z 0).re + (z 1).im), sq_nonneg ((z 0).im - (z 1).re)]

/-! ## C114: head and wings -/

/-- **C114.** `fixwings` changes the head, the G=0 row and the G=0 column only. At the q0 point the wings become zero and the
head `wcoul0/vcoul`; elsewhere the head is kept, the column is multiplied by `oneoverq·|q|/8π` and the row by
`oneoverq/(vcoul·|q|)`. -/
theorem C114_fixwings (q0flag : Bool) (wcoul0 : ℂ) (oneoverq vcoul q0len : ℝ) (g0 : ℕ) (eps : ℕ → ℕ → ℂ) (i j : ℕ) :
    fixwings q0flag wcoul0 oneoverq vcoul q0len g0 eps i j =
      if i = g0 ∧ j = g0 then (if q0flag then wcoul0 / (vcoul : ℂ) else eps g0 g0)
      else if i = g0 then (if q0flag then 0 else eps g0 j * ((oneoverq / (vcoul * q0len) : ℝ) : ℂ))
      else if j = g0 then (if q0flag then 0 else eps i g0 * ((oneoverq * q0len / (8 * Real.pi) : ℝ) : ℂ))
      else eps i j := by
  unfold fixwings fixElem
  simp only
  by_cases hi : i = g0
  · by_cases hj : j = g0
    · simp [hi, hj]
    · cases q0flag
      · simp [hi, hj]
        push_cast
        ring
      · simp [hi, hj]
  · by_cases hj : j = g0
    · cases q0flag
      · simp [hi, hj]
        push_cast
        ring
      · simp [hi, hj]
    · simp [hi, hj]

/-- **C114 (no averaging).** With un-averaged Coulomb values (`v = 8π/|q|²`, `oneoverq = 8π/|q|`) nothing changes away from q0. -/
theorem C114_bare_identity (wcoul0 : ℂ) (q : ℝ) (hq : 0 < q) (g0 : ℕ) (eps : ℕ → ℕ → ℂ) (i j : ℕ) :
    fixwings false wcoul0 (8 * Real.pi / q) (8 * Real.pi / q ^ 2) q g0 eps i j = eps i j := by
  rw [C114_fixwings]
  have hpi := Real.pi_pos
  have e1 : 8 * Real.pi / q / (8 * Real.pi / q ^ 2 * q) = 1 := by field_simp
  have e2 : 8 * Real.pi / q * q / (8 * Real.pi) = 1 := by field_simp
  rw [e1, e2]
  by_cases hi : i = g0
  · by_cases hj : j = g0
    · simp [hi, hj]
    · simp [hi, hj]
  · by_cases hj : j = g0
    · simp [hi, hj]
    · simp [hi, hj]

/-- **C114 (default head).** With the default `wcoul0 = epsinv[0, 0]·vcoul` of `calculate_fixedeps` (G=0 first), the head
is kept at q0 too. -/
theorem C114_default_head (oneoverq vcoul q0len : ℝ) (hv : vcoul ≠ 0) (eps : ℕ → ℕ → ℂ) :
    fixwings true (eps 0 0 * vcoul) oneoverq vcoul q0len 0 eps 0 0 = eps 0 0 := by
  rw [C114_fixwings]
  simp only [and_self, if_true]
  rw [mul_div_assoc, div_self (by exact_mod_cast hv), mul_one]

end Verif.GW
