import Mathlib.Algebra.BigOperators.Group.Finset.Basic
import Mathlib.Algebra.Order.BigOperators.Group.Finset
import Mathlib.Data.Finset.Card
import Mathlib.Tactic.Ring
import Mathlib.Tactic.Linarith
import Mathlib.Data.List.Range
import Mathlib.Data.List.GetD
import Mathlib.Tactic.NormNum
import Mathlib.Algebra.BigOperators.Group.List.Basic
import Mathlib.Data.Nat.ModEq
import Verif.Model.Scatter

/-!
# Properties C01–C04: data distribution over processes
-/

namespace Verif.Scatter

/-! ## Helper lemmas -/

theorem sliceStop_eq (len size rank : ℕ) :
    sliceStop len size rank = sliceStart len size (rank + 1) := by
  unfold sliceStop sliceStart
  rw [Nat.mul_succ]
  split_ifs with h <;> omega

theorem sliceStart_zero (len size : ℕ) : sliceStart len size 0 = 0 := by
  simp [sliceStart]

theorem sliceStart_size (len size : ℕ) (h : 0 < size) : sliceStart len size size = len := by
  unfold sliceStart
  have h1 : len % size < size := Nat.mod_lt _ h
  rw [min_eq_right h1.le, mul_comm]
  exact Nat.div_add_mod len size

theorem sliceStart_mono (len size : ℕ) : Monotone (sliceStart len size) := by
  refine monotone_nat_of_le_succ fun r => ?_
  rw [← sliceStop_eq]
  unfold sliceStop; exact Nat.le_add_right _ _

theorem sliceStop_le (len size rank : ℕ) (h : rank < size) : sliceStop len size rank ≤ len := by
  rw [sliceStop_eq]
  calc sliceStart len size (rank + 1) ≤ sliceStart len size size := sliceStart_mono len size h
    _ = len := sliceStart_size len size (by omega)

theorem exists_owner (f : ℕ → ℕ) (h0 : f 0 = 0) :
    ∀ n i, i < f n → ∃ r, r < n ∧ f r ≤ i ∧ i < f (r + 1) := by
  intro n
  induction n with
  | zero => intro i hi; omega
  | succ n ih =>
    intro i hi
    by_cases h : i < f n
    · obtain ⟨r, hr, h1, h2⟩ := ih i h
      exact ⟨r, by omega, h1, h2⟩
    · exact ⟨n, by omega, by omega, hi⟩

theorem unique_owner (f : ℕ → ℕ) (hm : Monotone f) {i r s : ℕ}
    (hr : f r ≤ i ∧ i < f (r + 1)) (hs : f s ≤ i ∧ i < f (s + 1)) : r = s := by
  rcases Nat.lt_trichotomy r s with h | h | h
  · have := hm (show r + 1 ≤ s from h); omega
  · exact h
  · have := hm (show s + 1 ≤ r from h); omega

theorem flatten_blocks {α : Type*} (f : ℕ → ℕ) (hm : Monotone f) (h0 : f 0 = 0) (l : List α) :
    ∀ n, ((List.range n).map fun r => pySlice l (f r) (f (r + 1))).flatten = l.take (f n) := by
  intro n
  induction n with
  | zero => simp [h0]
  | succ n ih =>
    rw [List.range_succ, List.map_append, List.flatten_append, ih]
    simp only [List.map_cons, List.map_nil, List.flatten_cons, List.flatten_nil, List.append_nil,
      pySlice]
    have h := hm (Nat.le_succ n)
    conv_rhs => rw [show f (n + 1) = f n + (f (n + 1) - f n) by simp only [Nat.succ_eq_add_one] at h; omega, List.take_add]

/-! ## C01 -/

/-- **C01.** For every length, every process count `size ≥ 1`, `scatter_slice` succeeds for every rank;
the slices start at 0, end at `len`, follow one another without gap or overlap in rank order, have the
length announced by `scatter_len`, and every index `i < len` lies in the slice of exactly one rank. -/
theorem C01_scatter_partition (len size : ℕ) (hsize : 0 < size) :
    ∃ start stop : ℕ → ℕ,
      (∀ r : ℕ, r < size →
        scatterSlicePy len size (some (r : ℤ)) = .ok (.one (start r) (stop r)) ∧
        scatterLenPy len size r = .ok (stop r - start r) ∧ start r ≤ stop r) ∧
      start 0 = 0 ∧ stop (size - 1) = len ∧
      (∀ r, r + 1 < size → stop r = start (r + 1)) ∧
      (∀ i, i < len → ∃! r, r < size ∧ start r ≤ i ∧ i < stop r) := by
  refine ⟨sliceStart len size, sliceStop len size, ?_, sliceStart_zero _ _, ?_, ?_, ?_⟩
  · intro r hr
    refine ⟨?_, ?_, ?_⟩
    · have : (0 : ℤ) ≤ len ∧ (0 : ℤ) < size ∧ (0 : ℤ) ≤ r ∧ (r : ℤ) < size := by omega
      simp only [scatterSlicePy, if_pos this, Int.toNat_natCast]
    · have : (0 : ℤ) ≤ len ∧ (0 : ℤ) < size ∧ (0 : ℤ) ≤ r ∧ (r : ℤ) < size := by omega
      simp only [scatterLenPy, if_pos this, Int.toNat_natCast, sliceStop, scatterLen, Nat.add_sub_cancel_left]
    · unfold sliceStop; exact Nat.le_add_right _ _
  · rw [sliceStop_eq, Nat.sub_add_cancel hsize, sliceStart_size _ _ hsize]
  · intro r _; exact sliceStop_eq _ _ _
  · intro i hi
    have hi' : i < sliceStart len size size := by rwa [sliceStart_size _ _ hsize]
    obtain ⟨r, hr, h1, h2⟩ := exists_owner _ (sliceStart_zero len size) size i hi'
    refine ⟨r, ⟨hr, h1, by rwa [sliceStop_eq]⟩, ?_⟩
    rintro s ⟨_, hs1, hs2⟩
    rw [sliceStop_eq] at hs2
    exact unique_owner _ (sliceStart_mono len size) ⟨hs1, hs2⟩ ⟨h1, h2⟩

/-- **C01, list form.** Cutting any list into the ranks' blocks and concatenating the blocks in rank
order gives the list back. -/
theorem C01_blocks_concat {α : Type*} (l : List α) (size : ℕ) (hsize : 0 < size) :
    ((List.range size).map fun r => block l size r).flatten = l := by
  have h := flatten_blocks (sliceStart l.length size) (sliceStart_mono _ _) (sliceStart_zero _ _) l
    size
  rw [sliceStart_size _ _ hsize, List.take_length] at h
  simpa only [block, sliceStop_eq] using h

/-- Bad arguments are refused: `scatter_slice` with a rank outside `0 ≤ rank < size`, a negative
length or a non-positive size raises `AssertionError`. -/
theorem C01_bad_arguments (len size rank : ℤ)
    (h : ¬ (0 ≤ len ∧ 0 < size ∧ 0 ≤ rank ∧ rank < size)) :
    scatterSlicePy len size (some rank) = .error .assertion ∧
    scatterLenPy len size rank = .error .assertion := by
  constructor <;> simp only [scatterSlicePy, scatterLenPy, if_neg h]

example : scatterSlicePy 10 4 (some 1) = .ok (.one 3 6) := by decide
example : ((List.range 4).map fun r => block [0,1,2,3,4,5,6,7,8,9] 4 r)
    = [[0,1,2],[3,4,5],[6,7],[8,9]] := by decide

/-! ## C02 -/

/-- **C02.** Shares add up to the length; they differ by at most one between any two ranks; earlier
ranks never hold less than later ones; and the all-ranks form of `scatter_len` returns exactly these
shares. -/
theorem C02_scatter_balanced (len size : ℕ) (hsize : 0 < size) :
    ∃ share : ℕ → ℕ,
      (∀ r : ℕ, r < size → scatterLenPy len size r = .ok (share r)) ∧
      scatterLenAllPy len size = .ok ((List.range size).map share) ∧
      ∑ r ∈ Finset.range size, share r = len ∧
      (∀ r s, r < size → s < size → share r ≤ share s + 1) ∧
      (∀ r s, r ≤ s → s < size → share s ≤ share r) := by
  refine ⟨scatterLen len size, ?_, ?_, ?_, ?_, ?_⟩
  · intro r hr
    have : (0 : ℤ) ≤ len ∧ (0 : ℤ) < size ∧ (0 : ℤ) ≤ r ∧ (r : ℤ) < size := by omega
    simp only [scatterLenPy, if_pos this, Int.toNat_natCast]
  · have : (0 : ℤ) ≤ len ∧ (0 : ℤ) < size := by omega
    simp only [scatterLenAllPy, if_pos this, Int.toNat_natCast]
  · have key : ∀ n, ∑ r ∈ Finset.range n, scatterLen len size r = sliceStart len size n := by
      intro n
      induction n with
      | zero => simp [sliceStart_zero]
      | succ n ih =>
        rw [Finset.sum_range_succ, ih, ← sliceStop_eq]; rfl
    rw [key, sliceStart_size _ _ hsize]
  · intro r s _ _; unfold scatterLen; split_ifs <;> omega
  · intro r s hrs _; unfold scatterLen; split_ifs <;> omega

example : scatterLenAllPy 10 4 = .ok [3, 3, 2, 2] := by decide

/-! ## C03 (violated by the pinned code) -/

/-- The documented contract of `scatter_slice` without a rank (return annotation
`slice | Sequence[slice]`, utils.py:29 and the intended return of utils.py:50). -/
def AllRanksContract (len size : ℕ) : Prop :=
  scatterSlicePy len size none
    = .ok (.all ((List.range size).map fun r => (sliceStart len size r, sliceStop len size r)))

/-- **C03 fails**: for no length and no process count does `scatter_slice` without a rank return the
tuple of slices; with more than one process it raises `ValueError`. -/
theorem C03_all_ranks_contract_fails (len size : ℕ) (hsize : 0 < size) :
    ¬ AllRanksContract len size ∧
    (1 < size → scatterSlicePy len size none = .error .value) := by
  have h0 : (0 : ℤ) ≤ len ∧ (0 : ℤ) < size := by omega
  constructor
  · unfold AllRanksContract scatterSlicePy
    simp only [h0, and_self, if_true, Int.toNat_natCast]
    split_ifs <;> simp
  · intro h1
    have h2 : ¬ size = 1 := by omega
    simp only [scatterSlicePy, if_pos h0, Int.toNat_natCast, if_neg h2]

/-- **C03, what does hold**: calling `scatter_slice` once per rank yields the tuple the contract
promises. -/
theorem C03_per_rank_calls_partial (len size : ℕ) :
    ∀ r : ℕ, r < size → scatterSlicePy len size (some (r : ℤ))
      = .ok (.one (sliceStart len size r) (sliceStop len size r)) := by
  intro r hr
  have : (0 : ℤ) ≤ len ∧ (0 : ℤ) < size ∧ (0 : ℤ) ≤ r ∧ (r : ℤ) < size := by omega
  simp only [scatterSlicePy, if_pos this, Int.toNat_natCast]

example : scatterSlicePy 10 4 none = .error .value := by decide

/-! ## C04: k-points over k-groups -/

theorem klist_slice_eq (numk n i : ℕ) :
    klistStart numk n i = sliceStart numk n i ∧ klistStop numk n i = sliceStop numk n i := by
  rw [sliceStop_eq]; exact ⟨rfl, rfl⟩

/-- **C04 (block mode, `KList.scatter`).** For every list of (k-point, weight) pairs and every number
of k-groups, every group's call succeeds, and concatenating the groups' lists in group order is the
original list: nothing lost, duplicated or reordered. -/
theorem C04_scatter_blocks {κ : Type*} (kpts : List κ) (n : ℕ) (hn : 0 < n) :
    ∃ part : ℕ → List κ,
      (∀ i : ℕ, i < n → klistScatter kpts n i = .ok (part i)) ∧
      ((List.range n).map part).flatten = kpts := by
  refine ⟨fun i => block kpts n i, ?_, C01_blocks_concat kpts n hn⟩
  intro i hi
  have h1 : ¬ ((n : ℤ) ≤ 0) := by omega
  have h2 : ¬ ¬ ((0 : ℤ) ≤ i ∧ (i : ℤ) < n) := by omega
  simp only [klistScatter, if_neg h1, if_neg h2, Int.toNat_natCast]

/-- **C04 (weights).** The groups' weights add up to the total weight (any weight type with
commutative addition). -/
theorem C04_scatter_weights {κ W : Type*} [AddCommMonoid W] (kpts : List (κ × W)) (n : ℕ)
    (hn : 0 < n) :
    ∃ part : ℕ → List (κ × W),
      (∀ i : ℕ, i < n → klistScatter kpts n i = .ok (part i)) ∧
      ∑ i ∈ Finset.range n, ((part i).map Prod.snd).sum = (kpts.map Prod.snd).sum := by
  obtain ⟨part, h1, h2⟩ := C04_scatter_blocks kpts n hn
  refine ⟨part, h1, ?_⟩
  conv_rhs => rw [← h2, List.map_flatten, List.sum_flatten, List.map_map, List.map_map]
  clear h1 h2
  induction n with
  | zero => simp
  | succ n ih =>
    rcases Nat.eq_zero_or_pos n with rfl | hn'
    · simp
    · rw [Finset.sum_range_succ, ih hn', List.range_succ]; simp

/-- **C04 (`klist_distribute`, block mode).** Same statement for the legacy distributor, which
requires at least one k-point per group. -/
theorem C04_distribute_blocks {κ : Type*} (kpts : List κ) (n : ℕ) (hn : 0 < n)
    (hk : n ≤ kpts.length) :
    ∃ part : ℕ → List κ,
      (∀ i : ℕ, i < n → klistDistribute kpts n i false = .ok (part i)) ∧
      (∀ i : ℕ, i < n → part i ≠ []) ∧
      ((List.range n).map part).flatten = kpts := by
  refine ⟨fun i => block kpts n i, ?_, ?_, C01_blocks_concat kpts n hn⟩
  · intro i _
    have : ¬ kpts.length < n := by omega
    simp [klistDistribute, this, block, klist_slice_eq]
  · intro i hi h
    have hlen : (block kpts n i).length = 0 := by
      have h' : block kpts n i = [] := h
      rw [h']; rfl
    have hstop := sliceStop_le kpts.length n i hi
    have h1 : 1 ≤ kpts.length / n := (Nat.one_le_div_iff hn).2 hk
    simp only [block, pySlice, List.length_take, List.length_drop] at hlen
    unfold sliceStop at hstop hlen
    omega

theorem mem_pyStride {α : Type*} (l : List α) (start step : ℕ) (a : α) :
    a ∈ pyStride l start step ↔
      ∃ j, l[j]? = some a ∧ start ≤ j ∧ (j - start) % step = 0 := by
  simp only [pyStride, List.mem_map, List.mem_filter, decide_eq_true_eq, Prod.exists]
  constructor
  · rintro ⟨x, j, ⟨hm, h1, h2⟩, rfl⟩
    exact ⟨j, List.mem_zipIdx_iff_getElem?.1 hm, h1, h2⟩
  · rintro ⟨j, hj, h1, h2⟩
    exact ⟨a, j, ⟨List.mem_zipIdx_iff_getElem?.2 hj, h1, h2⟩, rfl⟩

/-- **C04 (`klist_distribute`, round-robin mode).** Group `i`'s list is a sublist of the input (order
kept), and position `j` of the input is dealt to group `i` exactly when `j % n = i`: on the list of
positions, each position is in exactly one group's share, once. -/
theorem C04_distribute_round_robin {κ : Type*} (kpts : List κ) (n : ℕ)
    (hk : n ≤ kpts.length) :
    (∀ i : ℕ, i < n → ∃ part : List κ,
      klistDistribute kpts n i true = .ok part ∧ part.Sublist kpts) ∧
    (∀ i : ℕ, i < n → ∃ idx : List ℕ,
      klistDistribute (List.range kpts.length) n i true = .ok idx ∧ idx.Nodup ∧
      ∀ j, j ∈ idx ↔ j < kpts.length ∧ j % n = i) := by
  constructor
  · intro i _
    have : ¬ kpts.length < n := by omega
    refine ⟨pyStride kpts i n, by simp [klistDistribute, this], ?_⟩
    have h : ((kpts.zipIdx).filter fun p => i ≤ p.2 ∧ (p.2 - i) % n = 0).Sublist kpts.zipIdx :=
      List.filter_sublist
    have h2 := h.map Prod.fst
    simpa [pyStride, List.zipIdx_map_fst] using h2
  · intro i hi
    have : ¬ (List.range kpts.length).length < n := by simp; omega
    refine ⟨pyStride (List.range kpts.length) i n, ?_, ?_, ?_⟩
    · simp only [klistDistribute, if_neg this, if_true]
    · have h : (((List.range kpts.length).zipIdx).filter
          fun p => i ≤ p.2 ∧ (p.2 - i) % n = 0).Sublist (List.range kpts.length).zipIdx :=
        List.filter_sublist
      have h2 := h.map Prod.fst
      rw [List.zipIdx_map_fst] at h2
      exact h2.nodup List.nodup_range
    · intro j
      rw [mem_pyStride]
      constructor
      · rintro ⟨m, hm, h1, h2⟩
        obtain ⟨hlt, rfl⟩ : m < kpts.length ∧ m = j := by
          by_cases hlt : m < kpts.length
          · simp [hlt] at hm; exact ⟨hlt, hm⟩
          · simp [hlt] at hm
        refine ⟨hlt, ?_⟩
        obtain ⟨c, hc⟩ := Nat.dvd_of_mod_eq_zero h2
        have : m = i + n * c := by omega
        rw [this, Nat.add_mul_mod_self_left, Nat.mod_eq_of_lt hi]
      · rintro ⟨h1, h2⟩
        refine ⟨j, by simp [h1], ?_, ?_⟩
        · rw [← h2]; exact Nat.mod_le _ _
        · rw [← h2]; exact Nat.mod_eq_zero_of_dvd (Nat.dvd_sub_mod j)

example : klistDistribute [10,11,12,13,14] 2 1 true = .ok [11,13] := by decide
example : klistScatter [(10, 1), (11, 2), (12, 3)] 2 1 = .ok [(12, 3)] := by decide

/-! ## Eigen-solver blocks (used by C43's band-parallel products) -/

theorem displ_genBufspec (len size r : ℕ) (hr : r ≤ size) :
    displ (genBufspec len size) r = sliceStart len size r := by
  unfold displ genBufspec
  rw [← List.map_take, List.take_range, min_eq_left hr]
  induction r with
  | zero => simp [sliceStart_zero]
  | succ r ih =>
    rw [List.range_succ, List.map_append, List.sum_append, ih (by omega), ← sliceStop_eq]
    simp [sliceStop]

/-- **C01 (eigen-solver).** In the band-parallel eigen-solver the block computed by each band group is
exactly where `Allgatherv` will place what that group sends: for every range `istart:istop`, every
number of band groups, and every group `r`, the block starts `displ r` after `istart`, has length
`count r`, and the counts tile `istart:istop`. -/
theorem C01_davidson_blocks (istart istop size r : ℕ) (hr : r < size) (h : istart < istop) :
    (davSlice istart istop size r).1
        = istart + displ (genBufspec (istop - istart) size) r ∧
    (davSlice istart istop size r).2
        = (davSlice istart istop size r).1 + (genBufspec (istop - istart) size).getD r 0 ∧
    istart + (genBufspec (istop - istart) size).sum = istop := by
  refine ⟨?_, ?_, ?_⟩
  · rw [displ_genBufspec _ _ _ hr.le]
    have : ¬ istart ≥ istop := by omega
    simp only [davSlice, if_neg this, sliceStart]
    ring
  · have : ¬ istart ≥ istop := by omega
    simp only [davSlice, if_neg this, genBufspec]
    rw [List.getD_eq_getElem _ _ (by simpa using hr)]
    simp; omega
  · have h1 := displ_genBufspec (istop - istart) size size le_rfl
    rw [sliceStart_size _ _ (by omega)] at h1
    have h2 : (genBufspec (istop - istart) size).length = size := by simp [genBufspec]
    rw [displ, List.take_of_length_le (by omega)] at h1
    omega

example : davSlice 4 11 3 1 = (7, 9) := by decide

end Verif.Scatter
