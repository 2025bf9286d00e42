import Verif.Model.DistBuf
import Verif.Props.Dist
import Verif.Props.ScfArgs
import Verif.Props.Symm

/-!
# C175, C176: gathering and scattering distributed containers; symmetrising distributed fields

Specification: `cut` is the part of a basis vector that a process holds, `part` the part of a container: the same leading axes, every component of every basis vector cut.
-/

namespace Verif.DistBuf

open Verif.Dist

variable {K : Type*}

/-- What process `p` holds of one component of a basis vector: its G-vectors, or its planes of the grid. -/
def cut (S : Setup) (bs : Basis) (p : ℕ) (l : List K) : List K :=
  match bs with
  | .g => S.cutG p l
  | .r => pySlice l (S.x0 p * S.d.plane) ((S.x0 p + S.nxl p) * S.d.plane)

/-- Component `s` of a basis vector whose components have `n` entries. -/
def comp (n : ℕ) (l : List K) (s : ℕ) : List K := pySlice l (s * n) ((s + 1) * n)

/-- What process `p` holds of a container. -/
def part (S : Setup) (kind : Kind) (bs : Basis) (p : ℕ) (b : Buf K) : Buf K :=
  ⟨b.shape, b.rows.map fun row => (List.range kind.comps).flatMap fun s => cut S bs p (comp (bs.total S) row s)⟩

/-- `b` is a container of its class over a basis whose components have `n` entries. -/
def WF (kind : Kind) (n : ℕ) (b : Buf K) : Prop := b.rows.length = b.shape.prod ∧ ∀ row ∈ b.rows, row.length = kind.comps * n

/-- The containers the operations are meant for: not without elements, and, for fields, with leading axes. -/
def Usable (kind : Kind) (shape : List ℕ) : Prop := shape.prod ≠ 0 ∧ kind.comps ≠ 0 ∧ (kind = .field → shape ≠ [])

/-! ## Blocks -/

theorem comp_flatMap (f : ℕ → List K) (n m : ℕ) (h : ∀ s < m, (f s).length = n) (s : ℕ) (hs : s < m) : comp n ((List.range m).flatMap f) s = f s := by
  have len : ∀ k ≤ m, ((List.range k).flatMap f).length = k * n := by
    intro k hk
    induction k with
    | zero => simp
    | succ k ih => rw [List.range_succ, List.flatMap_append, List.length_append, ih (by omega)]; simp [h k (by omega), Nat.succ_mul]
  induction m with
  | zero => omega
  | succ m ih =>
    rw [List.range_succ, List.flatMap_append]
    unfold comp pySlice
    have hl := len m (by omega)
    by_cases hsm : s < m
    · have h1 : (s + 1) * n ≤ m * n := Nat.mul_le_mul_right _ hsm
      have h2 : s * n ≤ (s + 1) * n := Nat.mul_le_mul_right _ (by omega)
      rw [List.drop_append_of_le_length (by omega), List.take_append_of_le_length (by rw [List.length_drop]; omega)]
      exact ih (fun s hs => h s (by omega)) hsm (fun k hk => len k (by omega))
    · obtain rfl : s = m := by omega
      rw [List.drop_append, List.drop_of_length_le (by omega)]
      simp [hl, h s (by omega), Nat.succ_mul]

theorem flatMap_comp (n : ℕ) (l : List K) (m : ℕ) : (List.range m).flatMap (comp n l) = l.take (m * n) := by
  induction m with
  | zero => simp
  | succ m ih =>
    rw [List.range_succ, List.flatMap_append, ih]
    simp only [List.flatMap_cons, List.flatMap_nil, List.append_nil]
    unfold comp pySlice
    rw [show (m + 1) * n - m * n = n by rw [Nat.succ_mul]; omega, Nat.succ_mul, List.take_add]

theorem mapM_some {α β : Type*} (l : List α) (f : α → Option β) (g : α → β) (h : ∀ a ∈ l, f a = some (g a)) : l.mapM f = some (l.map g) := by
  induction l with
  | nil => rfl
  | cons a l ih => rw [List.mapM_cons, h a (by simp), ih fun b hb => h b (by simp [hb])]; rfl

/-! ## One component -/

theorem row_ok (S : Setup) (hS : S.Ok) (bs : Basis) (l : List K) (hl : l.length = bs.total S) :
    scatterv (bs.counts S) l = some ((List.range S.P).map fun p => cut S bs p l) ∧ gatherv (bs.counts S) ((List.range S.P).map fun p => cut S bs p l) = some l := by
  obtain ⟨h1, h2, _, _⟩ := C23_scatter_gather (α := K) S hS
  cases bs with
  | g => exact h1 l hl
  | r =>
    obtain ⟨e, parts, e1, e2⟩ := h2 l hl
    refine ⟨e, ?_⟩
    have : parts = _ := Option.some.inj (e1.symm.trans e)
    rw [this] at e2; exact e2

theorem counts_length (S : Setup) (bs : Basis) : (bs.counts S).length = S.P := by cases bs <;> simp [Basis.counts, Setup.gSpec, Setup.rSpec]

theorem lens (S : Setup) (hS : S.Ok) (bs : Basis) (l : List K) (hl : l.length = bs.total S) : ((List.range S.P).map fun p => (cut S bs p l).length) = bs.counts S := by
  have := (row_ok S hS bs l hl).2
  unfold gatherv at this
  split at this
  · rename_i h; rw [List.map_map] at h; exact h
  · cases this

theorem cut_length (S : Setup) (hS : S.Ok) (bs : Basis) (l : List K) (hl : l.length = bs.total S) (p : ℕ) (hp : p < S.P) : (cut S bs p l).length = (bs.counts S).getD p 0 := by
  rw [← lens S hS bs l hl, List.getD_eq_getElem (hn := by simpa using hp)]
  simp

theorem counts_sum (S : Setup) (hS : S.Ok) (bs : Basis) : (bs.counts S).sum = bs.total S := by
  have hl : (List.replicate (bs.total S) (0 : ℕ)).length = bs.total S := by simp
  have := (row_ok S hS bs _ hl).2
  unfold gatherv at this
  split at this
  · rename_i h
    have h2 := congrArg List.length (Option.some.inj this)
    rw [List.length_flatten, h] at h2
    rw [h2, hl]
  · cases this

theorem allrow_ok (S : Setup) (hS : S.Ok) (bs : Basis) (l : List K) (hl : l.length = bs.total S) (garbage : ℕ → List K) (hg : ∀ r, (garbage r).length = bs.total S) :
    allgatherRow S bs garbage ((List.range S.P).map fun p => cut S bs p l) = l := by
  have hlen := lens S hS bs l hl
  have hga := (row_ok S hS bs l hl).2
  obtain ⟨_, _, h3, h4⟩ := C23_scatter_gather (α := K) S hS
  cases bs with
  | g =>
    obtain ⟨l', e1, _, e3⟩ := h3 ((List.range S.P).map fun p => cut S .g p l) (by rw [List.map_map]; exact hlen)
    obtain rfl : l' = l := Option.some.inj (e1.symm.trans hga)
    exact e3 garbage hg
  | r =>
    obtain ⟨l', e1, _, e3⟩ := h4 ((List.range S.P).map fun p => cut S .r p l) (by rw [List.map_map]; exact hlen)
    obtain rfl : l' = l := Option.some.inj (e1.symm.trans hga)
    exact e3 garbage hg

/-- Every choice of parts of the right lengths comes from one vector. -/
theorem parts_ok (S : Setup) (hS : S.Ok) (bs : Basis) (q : ℕ → List K) (hq : ∀ p < S.P, (q p).length = (bs.counts S).getD p 0) :
    ∃ l : List K, l.length = bs.total S ∧ ∀ p < S.P, cut S bs p l = q p := by
  have hmap : ((List.range S.P).map q).map List.length = bs.counts S := by
    apply List.ext_getElem
    · rw [counts_length]; simp
    · intro i h1 h2
      have hi : i < S.P := by simpa using h1
      simp only [List.getElem_map, List.getElem_range]
      rw [hq i hi, List.getD_eq_getElem (hn := h2)]
  have hg : gatherv (bs.counts S) ((List.range S.P).map q) = some ((List.range S.P).map q).flatten := if_pos hmap
  have hl : ((List.range S.P).map q).flatten.length = bs.total S := by rw [List.length_flatten, hmap, counts_sum S hS]
  obtain ⟨_, _, h3, h4⟩ := C23_scatter_gather (α := K) S hS
  have hsc : scatterv (bs.counts S) ((List.range S.P).map q).flatten = some ((List.range S.P).map q) := by
    cases bs with
    | g => obtain ⟨l', e1, e2, _⟩ := h3 _ hmap; rw [show l' = _ from Option.some.inj (e1.symm.trans hg)] at e2; exact e2
    | r => obtain ⟨l', e1, e2, _⟩ := h4 _ hmap; rw [show l' = _ from Option.some.inj (e1.symm.trans hg)] at e2; exact e2
  refine ⟨_, hl, fun p hp => ?_⟩
  have := Option.some.inj ((row_ok S hS bs _ hl).1.symm.trans hsc)
  have h5 := congrArg (fun m => m.getD p []) this
  rw [List.getD_eq_getElem (hn := by simpa using hp), List.getD_eq_getElem (hn := by simpa using hp)] at h5
  simpa using h5

/-! ## Containers -/

/-- The reshaped array: the leading axes and, for every index of them, one component. -/
theorem split_spec (kind : Kind) (n : ℕ) (b : Buf K) (hb : WF kind n b) (hu : Usable kind b.shape) :
    (split kind n b).1 ≠ [] ∧ (split kind n b).1.prod = b.shape.prod * kind.comps ∧
      (split kind n b).2 = (List.range (b.shape.prod * kind.comps)).map fun j => comp n (b.rows.getD (j / kind.comps) []) (j % kind.comps) := by
  cases kind with
  | field =>
    refine ⟨hu.2.2 rfl, by simp [split, Kind.comps], ?_⟩
    apply List.ext_getElem
    · simp [split, Kind.comps, hb.1]
    · intro j h1 h2
      have hj : j < b.rows.length := h1
      have := hb.2 _ (List.getElem_mem hj)
      simp only [Kind.comps, one_mul] at this
      simp only [split, Kind.comps, List.getElem_map, List.getElem_range, Nat.div_one, Nat.mod_one]
      rw [List.getD_eq_getElem (hn := hj)]
      unfold comp pySlice
      rw [Nat.zero_mul, List.drop_zero, List.take_of_length_le (by omega)]
  | wave ns =>
    unfold split
    simp only [hu.1, if_false, Kind.comps]
    exact ⟨by simp, by simp, rfl⟩

theorem lastAxis_ok (kind : Kind) (n : ℕ) (shape : List ℕ) (h : shape.prod ≠ 0) : lastAxis kind n shape = n := by simp [lastAxis, h]

theorem getD_map_range (n : ℕ) (f : ℕ → List K) (j : ℕ) (hj : j < n) : ((List.range n).map f).getD j [] = f j := by
  rw [List.getD_eq_getElem (hn := by simpa using hj)]; simp

/-- Splitting and joining is the identity. -/
theorem join_split (kind : Kind) (n : ℕ) (b : Buf K) (hb : WF kind n b) (hu : Usable kind b.shape) : join kind b.shape (split kind n b).2 = .ok b := by
  obtain ⟨_, _, h3⟩ := split_spec kind n b hb hu
  unfold join
  rw [if_neg hu.1, h3]
  congr 1
  cases b with
  | mk shape rows =>
    congr 1
    apply List.ext_getElem
    · simpa using hb.1.symm
    · intro i h1 h2
      have hi : i < shape.prod := by simpa using h1
      have hc : 0 < kind.comps := Nat.pos_of_ne_zero hu.2.1
      simp only [List.getElem_map, List.getElem_range]
      have hlen := hb.2 _ (List.getElem_mem h2)
      calc (List.range kind.comps).flatMap (fun s => ((List.range (shape.prod * kind.comps)).map fun j => comp n (rows.getD (j / kind.comps) []) (j % kind.comps)).getD (i * kind.comps + s) [])
          = (List.range kind.comps).flatMap (comp n rows[i]) := by
            apply List.flatMap_congr
            intro s hs
            have hs : s < kind.comps := by simpa using hs
            rw [getD_map_range _ _ _ (rad_lt hi hs)]
            rw [Nat.mul_comm i, Nat.mul_add_div hc, Nat.div_eq_of_lt hs, Nat.add_zero, Nat.mul_add_mod, Nat.mod_eq_of_lt hs, List.getD_eq_getElem (hn := h2)]
        _ = rows[i] := by rw [flatMap_comp, List.take_of_length_le (by omega)]

theorem comp_length (kind : Kind) (n : ℕ) (row : List K) (h : row.length = kind.comps * n) (s : ℕ) (hs : s < kind.comps) : (comp n row s).length = n := by
  unfold comp pySlice
  have : (s + 1) * n ≤ kind.comps * n := Nat.mul_le_mul_right _ hs
  rw [List.length_take, List.length_drop, h]
  rw [Nat.succ_mul] at *
  omega

theorem part_WF (S : Setup) (hS : S.Ok) (kind : Kind) (bs : Basis) (b : Buf K) (hb : WF kind (bs.total S) b) (p : ℕ) (hp : p < S.P) :
    WF kind ((bs.counts S).getD p 0) (part S kind bs p b) := by
  refine ⟨by simpa [part] using hb.1, fun row hrow => ?_⟩
  obtain ⟨r, hr, rfl⟩ := List.mem_map.1 hrow
  rw [List.length_flatMap, List.map_congr_left (g := fun _ => (bs.counts S).getD p 0)]
  · simp
  · intro s hs
    exact cut_length S hS bs _ (comp_length kind _ r (hb.2 r hr) s (by simpa using hs)) p hp

/-- Row `j` of the reshaped part is the part of row `j` of the reshaped array. -/
theorem split_part (S : Setup) (hS : S.Ok) (kind : Kind) (bs : Basis) (b : Buf K) (hb : WF kind (bs.total S) b) (hu : Usable kind b.shape) (p : ℕ) (hp : p < S.P) :
    (split kind ((bs.counts S).getD p 0) (part S kind bs p b)).2 = (split kind (bs.total S) b).2.map (cut S bs p) := by
  obtain ⟨_, _, h3⟩ := split_spec kind _ b hb hu
  obtain ⟨_, _, h6⟩ := split_spec kind _ _ (part_WF S hS kind bs b hb p hp) hu
  rw [h3, h6, List.map_map]
  apply List.map_congr_left
  intro j hj
  have hc : 0 < kind.comps := Nat.pos_of_ne_zero hu.2.1
  have hj : j < b.shape.prod * kind.comps := by simpa [part] using hj
  have hd : j / kind.comps < b.rows.length := by rw [hb.1]; exact Nat.div_lt_of_lt_mul (by rw [Nat.mul_comm]; exact hj)
  have hm : j % kind.comps < kind.comps := Nat.mod_lt _ hc
  simp only [part, Function.comp]
  rw [List.getD_eq_getElem (l := b.rows.map _) (hn := by simpa using hd), List.getD_eq_getElem (l := b.rows) (hn := hd), List.getElem_map]
  exact comp_flatMap _ _ _ (fun s hs => cut_length S hS bs _ (comp_length kind _ _ (hb.2 _ (List.getElem_mem hd)) s hs) p hp) _ hm

theorem split_row_length (kind : Kind) (n : ℕ) (b : Buf K) (hb : WF kind n b) (hu : Usable kind b.shape) : ∀ l ∈ (split kind n b).2, l.length = n := by
  obtain ⟨_, _, h3⟩ := split_spec kind _ b hb hu
  rw [h3]
  intro l hl
  obtain ⟨j, hj, rfl⟩ := List.mem_map.1 hl
  have hc : 0 < kind.comps := Nat.pos_of_ne_zero hu.2.1
  have hj : j < b.shape.prod * kind.comps := by simpa using hj
  have hd : j / kind.comps < b.rows.length := by rw [hb.1]; exact Nat.div_lt_of_lt_mul (by rw [Nat.mul_comm]; exact hj)
  rw [List.getD_eq_getElem (hn := hd)]
  exact comp_length kind _ _ (hb.2 _ (List.getElem_mem hd)) _ (Nat.mod_lt _ hc)

theorem partsOf_part (S : Setup) (hS : S.Ok) (kind : Kind) (bs : Basis) (b : Buf K) (hb : WF kind (bs.total S) b) (hu : Usable kind b.shape) (bufs : ℕ → Buf K)
    (h : ∀ p < S.P, bufs p = part S kind bs p b) :
    partsOf S kind bs bufs = (split kind (bs.total S) b).2.map fun l => (List.range S.P).map fun p => cut S bs p l := by
  unfold partsOf
  rw [h 0 hS.pos, split_part S hS kind bs b hb hu 0 hS.pos, List.length_map]
  apply List.ext_getElem
  · simp
  · intro i h1 h2
    have hi : i < (split kind (bs.total S) b).2.length := by simpa using h1
    simp only [List.getElem_map, List.getElem_range]
    apply List.map_congr_left
    intro p hp
    have hp : p < S.P := by simpa using hp
    rw [h p hp, split_part S hS kind bs b hb hu p hp, List.getD_eq_getElem (hn := by simpa using hi), List.getElem_map]

theorem split_fst (kind : Kind) (n m : ℕ) (b c : Buf K) (h : b.shape = c.shape) : (split kind n b).1 = (split kind m c).1 := by
  cases kind with
  | field => exact h
  | wave ns => unfold split; simp only [h]; split <;> rfl

/-- **C175.** For every number of processes, every shape and number of components, in either basis: if every process holds its part of a container, `allgather()` returns the whole container on every process
and `gather(False)` returns it on process 0 and `None` on the others. Neither depends on what was in the newly allocated arrays. -/
theorem C175_gather_partial (S : Setup) (hS : S.Ok) (kind : Kind) (bs : Basis) (b : Buf K) (hb : WF kind (bs.total S) b) (hu : Usable kind b.shape) (bufs : ℕ → Buf K)
    (h : ∀ p < S.P, bufs p = part S kind bs p b) (garbage : ℕ → ℕ → List K) (hg : ∀ i r, (garbage i r).length = bs.total S) :
    (∀ p < S.P, gather S kind bs true garbage bufs p = .buf b) ∧ gather S kind bs false garbage bufs 0 = .buf b ∧
      ∀ p, 0 < p → p < S.P → gather S kind bs false garbage bufs p = .none := by
  have hsh : (bufs 0).shape = b.shape := by rw [h 0 hS.pos]; rfl
  obtain ⟨s1, s2, s3⟩ := split_spec kind _ b hb hu
  have hlead : (split kind ((bs.counts S).getD 0 0) (bufs 0)).1 = (split kind (bs.total S) b).1 := split_fst kind _ _ _ _ hsh
  have hrc : rowCount (split kind (bs.total S) b).1 = .ok (split kind (bs.total S) b).2.length := by
    unfold rowCount; rw [if_neg s1, s2, s3]; simp
  have hpo := partsOf_part S hS kind bs b hb hu bufs h
  have hrl := split_row_length kind _ b hb hu
  have hfin : finish kind b.shape (.ok (some (split kind (bs.total S) b).2)) = .buf b := by
    unfold finish; simp only [join_split kind _ b hb hu]
  have hid : (List.range (split kind (bs.total S) b).2.length).map (fun i => (split kind (bs.total S) b).2.getD i []) = (split kind (bs.total S) b).2 := by
    apply List.ext_getElem
    · simp
    · intro i h1 h2; simp only [List.getElem_map, List.getElem_range]; rw [List.getD_eq_getElem (hn := h2)]
  have hrow : ∀ i ∈ List.range (split kind (bs.total S) b).2.length,
      (partsOf S kind bs bufs).getD i [] = (List.range S.P).map (fun p => cut S bs p ((split kind (bs.total S) b).2.getD i [])) ∧ ((split kind (bs.total S) b).2.getD i []).length = bs.total S := by
    intro i hi
    have hi : i < (split kind (bs.total S) b).2.length := by simpa using hi
    rw [hpo, List.getD_eq_getElem (hn := by simpa using hi), List.getD_eq_getElem (hn := hi), List.getElem_map]
    exact ⟨rfl, hrl _ (List.getElem_mem hi)⟩
  have hall : allgatherRows S bs garbage (split kind (bs.total S) b).1 (partsOf S kind bs bufs) = .ok (some (split kind (bs.total S) b).2) := by
    unfold allgatherRows
    rw [hrc]
    simp only [Except.map]
    congr 2
    conv_rhs => rw [← hid]
    apply List.map_congr_left
    intro i hi
    obtain ⟨e1, e2⟩ := hrow i hi
    have := allrow_ok S hS bs _ e2 (garbage i) (hg i)
    rw [e1]
    exact this
  have hga : gatherRows (bs.counts S) (split kind (bs.total S) b).1 (partsOf S kind bs bufs) = .ok (some (split kind (bs.total S) b).2) := by
    unfold gatherRows
    rw [hrc]
    simp only [Except.map]
    congr 1
    rw [mapM_some _ _ (fun i => (split kind (bs.total S) b).2.getD i [])]
    · rw [hid]
    · intro i hi
      obtain ⟨e1, e2⟩ := hrow i hi
      rw [e1]; exact (row_ok S hS bs _ e2).2
  refine ⟨fun p hp => ?_, ?_, fun p h0 hp => ?_⟩
  · unfold gather
    simp only [hsh, lastAxis_ok kind _ _ hu.1, ne_eq, not_true, if_false, if_true, hlead, hall, hfin]
  · unfold gather
    simp only [hsh, lastAxis_ok kind _ _ hu.1, ne_eq, not_true, if_false, if_true, hlead, hga, hfin, Bool.false_eq_true]
  · unfold gather
    simp only [hsh, lastAxis_ok kind _ _ hu.1, ne_eq, not_true, if_false, hlead, hrc, Bool.false_eq_true, show ¬ p = 0 by omega]

/-- **C175.** `scatter` gives every process its part of the container. -/
theorem C175_scatter_partial (S : Setup) (hS : S.Ok) (kind : Kind) (bs : Basis) (b : Buf K) (hb : WF kind (bs.total S) b) (hu : Usable kind b.shape) (p : ℕ) (hp : p < S.P) :
    scatter S kind bs b p = .buf (part S kind bs p b) := by
  obtain ⟨s1, s2, s3⟩ := split_spec kind _ b hb hu
  have hrl := split_row_length kind _ b hb hu
  have hrc : rowCount (split kind (bs.total S) b).1 = .ok (split kind (bs.total S) b).2.length := by
    unfold rowCount; rw [if_neg s1, s2, s3]; simp
  have hid : (List.range (split kind (bs.total S) b).2.length).map (fun i => (split kind (bs.total S) b).2.getD i []) = (split kind (bs.total S) b).2 := by
    apply List.ext_getElem
    · simp
    · intro i h1 h2; simp only [List.getElem_map, List.getElem_range]; rw [List.getD_eq_getElem (hn := h2)]
  have hsc : scatterRows (bs.counts S) (split kind (bs.total S) b).1 (split kind (bs.total S) b).2 =
      .ok (some ((split kind (bs.total S) b).2.map fun l => (List.range S.P).map fun p => cut S bs p l)) := by
    unfold scatterRows
    rw [hrc]
    simp only [Except.map]
    congr 1
    rw [mapM_some _ _ (fun i => (List.range S.P).map fun p => cut S bs p ((split kind (bs.total S) b).2.getD i []))]
    · conv_rhs => rw [← hid, List.map_map]
      rfl
    · intro i hi
      have hi : i < (split kind (bs.total S) b).2.length := by simpa using hi
      rw [List.getD_eq_getElem (hn := hi)]
      exact (row_ok S hS bs _ (hrl _ (List.getElem_mem hi))).1
  unfold scatter
  simp only [lastAxis_ok kind _ _ hu.1, ne_eq, not_true, if_false, hsc, Except.map, Option.map_some, List.map_map]
  have hcut : (split kind (bs.total S) b).2.map ((fun parts : List (List K) => parts.getD p []) ∘ fun l => (List.range S.P).map fun p => cut S bs p l) =
      (split kind ((bs.counts S).getD p 0) (part S kind bs p b)).2 := by
    rw [split_part S hS kind bs b hb hu p hp]
    apply List.map_congr_left
    intro l _
    exact getD_map_range _ _ _ hp
  rw [hcut]
  unfold finish
  have := join_split kind _ _ (part_WF S hS kind bs b hb p hp) hu
  simp only [part] at this ⊢
  rw [this]

/-- **C175.** Local containers of the right lengths and of one shape are always the parts of a container, so scattering what `gather` returned gives them back. -/
theorem C175_parts (S : Setup) (hS : S.Ok) (kind : Kind) (bs : Basis) (shape : List ℕ) (hu : Usable kind shape) (bufs : ℕ → Buf K)
    (h : ∀ p < S.P, (bufs p).shape = shape ∧ WF kind ((bs.counts S).getD p 0) (bufs p)) :
    ∃ b : Buf K, WF kind (bs.total S) b ∧ b.shape = shape ∧ ∀ p < S.P, bufs p = part S kind bs p b := by
  have key : ∀ i < shape.prod, ∀ s < kind.comps, ∃ l : List K, l.length = bs.total S ∧ ∀ p < S.P, cut S bs p l = comp ((bs.counts S).getD p 0) ((bufs p).rows.getD i []) s := by
    intro i hi s hs
    refine parts_ok S hS bs (fun p => comp ((bs.counts S).getD p 0) ((bufs p).rows.getD i []) s) fun p hp => ?_
    obtain ⟨e1, e2, e3⟩ := h p hp
    have hi' : i < (bufs p).rows.length := by rw [e2, e1]; exact hi
    show (comp ((bs.counts S).getD p 0) ((bufs p).rows.getD i []) s).length = _
    rw [List.getD_eq_getElem (hn := hi')]
    exact comp_length kind _ _ (e3 _ (List.getElem_mem hi')) s hs
  choose! f hf using key
  refine ⟨⟨shape, (List.range shape.prod).map fun i => (List.range kind.comps).flatMap (f i)⟩, ⟨by simp, ?_⟩, rfl, fun p hp => ?_⟩
  · intro row hrow
    obtain ⟨i, hi, rfl⟩ := List.mem_map.1 hrow
    rw [List.length_flatMap, List.map_congr_left (g := fun _ => bs.total S)]
    · simp
    · intro s hs; exact (hf i (by simpa using hi) s (by simpa using hs)).1
  · obtain ⟨e1, e2, e3⟩ := h p hp
    have : (bufs p).rows = (part S kind bs p ⟨shape, (List.range shape.prod).map fun i => (List.range kind.comps).flatMap (f i)⟩).rows := by
      apply List.ext_getElem
      · simp [part, e2, e1]
      · intro i h1 h2
        have hi : i < shape.prod := by rw [e2, e1] at h1; exact h1
        simp only [part, List.getElem_map, List.getElem_range]
        have hlen := e3 _ (List.getElem_mem h1)
        calc (bufs p).rows[i] = (List.range kind.comps).flatMap (comp ((bs.counts S).getD p 0) (bufs p).rows[i]) := by
              rw [flatMap_comp, List.take_of_length_le (by omega)]
          _ = _ := by
            apply List.flatMap_congr
            intro s hs
            have hs : s < kind.comps := by simpa using hs
            rw [comp_flatMap _ _ _ (fun s hs => (hf i hi s hs).1) s hs, (hf i hi s hs).2 p hp, List.getD_eq_getElem (hn := h1)]
    calc bufs p = ⟨(bufs p).shape, (bufs p).rows⟩ := rfl
      _ = _ := by rw [e1, this]; rfl

/-- **C175 (violated).** A field without leading axes can neither be gathered nor scattered, although the same field in serial is valid. -/
theorem C175_single_field_violated (S : Setup) (bs : Basis) (row : List K) (garbage : ℕ → ℕ → List K) (bufs : ℕ → Buf K) (h : (bufs 0).shape = []) (all : Bool) (p : ℕ) :
    gather S .field bs all garbage bufs p = .err .runtime ∧ scatter S .field bs ⟨[], [row]⟩ p = .err .runtime := by
  constructor
  · unfold gather
    have : (split Kind.field ((bs.counts S).getD 0 0) (bufs 0)).1 = [] := h
    rw [this, h]
    simp only [lastAxis, List.prod_nil, one_ne_zero, if_false, ne_eq, not_true, allgatherRows, gatherRows, rowCount, if_true, Except.map, finish]
    cases all
    · by_cases hp : p = 0 <;> simp [hp]
    · simp
  · simp [scatter, split, lastAxis, scatterRows, rowCount, Except.map, finish]

/-- **C175 (violated).** Gathering or scattering a container without elements (no bands, say) fails on every process that would get a container. -/
theorem C175_empty_violated (S : Setup) (kind : Kind) (bs : Basis) (shape : List ℕ) (h : shape.prod = 0) (garbage : ℕ → ℕ → List K) (bufs : ℕ → Buf K) (hb : (bufs 0).shape = shape) (p : ℕ) :
    (∃ e, gather S kind bs true garbage bufs p = .err e) ∧ (∀ b, gather S kind bs false garbage bufs 0 ≠ .buf b) ∧ ∀ b : Buf K, scatter S kind bs ⟨shape, []⟩ p ≠ .buf b := by
  have hj : ∀ rows : List (List K), join kind shape rows = .error .value := fun rows => by simp [join, h]
  have hne : shape ≠ [] := by rintro rfl; simp at h
  have hs1 : ∀ n (b : Buf K), b.shape = shape → (split kind n b).1 = shape := by
    intro n b e
    cases kind with
    | field => exact e
    | wave ns => simp [split, e, h]
  have hf : ∀ x, ∀ b : Buf K, finish kind shape x ≠ .buf b := by
    intro x b
    unfold finish
    rcases x with e | (_ | rows)
    · simp
    · simp
    · simp only [hj]; simp
  refine ⟨?_, ?_, ?_⟩
  · unfold gather
    simp only [hb, hs1 _ _ hb]
    split
    · exact ⟨_, rfl⟩
    · simp only [if_true, allgatherRows, rowCount, if_neg hne, Except.map, finish, hj]
      exact ⟨_, rfl⟩
  · intro b
    unfold gather
    simp only [hb]
    split
    · simp
    · simp only [Bool.false_eq_true, if_false, if_true]
      exact hf _ b
  · intro b
    unfold scatter
    split
    · simp
    · exact hf _ b

open ScfArgs in
/-- The process waits in the broadcast of a root that has failed. -/
inductive Orphan : Prog Unit → Prog Unit → Prop
  | start (e : PyErr) (v : Val) (k : Val → Prog Unit) : Orphan (.sync 0 (.err e)) (.sync 0 (.bcast v k))
  | after (e : PyErr) (v : Val) (k : Val → Prog Unit) : Orphan (.err e) (.bcast v k)

open ScfArgs in
/-- **C175 (violated).** If the argument of `scatter` is not a container of the right type and G-space, only process 0 notices; under every schedule and for every number of other processes these never
return. -/
theorem C175_bad_argument_violated (n : ℕ) (shape basis : Fin (n + 1) → Val) (snc : Bool) (s : State n Unit) (h : Reachable snc (fun r => scatterStart (decide (r = 0)) false (shape r) (basis r)) s) (r : Fin (n + 1))
    (hr : r ≠ 0) : ¬ (s r).Done := by
  have hF : Follows (Orphan : Prog Unit → Prog Unit → Prop) := by
    refine ⟨?_, ?_, ?_, ?_, ?_⟩
    · intro v w k k' h; cases h
    · intro l l' k k' h; cases h; exact .after _ _ _
    · intro v l k k' h; cases h
    · intro v l k k' h; cases h
    · intro l l' k k' h; cases h; rfl
  have I := Inv.reach (T := fun _ => Orphan) (fun _ => hF) (by
    intro r hr
    simp only [scatterStart, hr, decide_true, decide_false, Bool.not_false, Bool.and_self, if_true, Bool.and_true, Bool.false_eq_true, if_false]
    exact .start _ _ _) h
  have hrel := I.rel r hr
  revert hrel
  generalize after (s r).hist.length _ = q
  rintro hrel (⟨a, ha⟩ | ⟨e, he⟩)
  · rw [ha] at hrel; cases hrel
  · rw [he] at hrel; cases hrel

open ScfArgs in
/-- **C175.** With an acceptable argument on process 0 all processes get through the checks, under every schedule. -/
theorem C175_good_argument (n : ℕ) (shape basis : Fin (n + 1) → Val) (snc : Bool) (s : State n Unit) (h : Reachable snc (fun r => scatterStart (decide (r = 0)) true (shape r) (basis r)) s) :
    (∀ r e, (s r).prog ≠ .err e) ∧ ((∃ r, ¬ (s r).Done) → ∃ t, Step snc s t) := by
  have hP : ∀ r : Fin (n + 1), r ≠ 0 → InStep (fun _ _ => True) (scatterStart (decide ((0 : Fin (n + 1)) = 0)) true (shape 0) (basis 0)) (scatterStart (decide (r = 0)) true (shape r) (basis r)) := by
    intro r hr
    simp only [scatterStart, Bool.not_true, Bool.and_false, Bool.false_eq_true, if_false]
    exact .sync _ _ _ (.bcast _ _ _ _ (.bcast _ _ _ _ (.ret _ _ trivial)))
  refine ⟨fun r e he => ?_, fun hn => instep_progress (R := fun _ _ _ => True) hP h hn⟩
  have := (instep_results (R := fun _ _ _ => True) (fun _ => trivial) hP h r).2 e he
  simp [scatterStart, solo] at this

/-! ## C176 -/

/-- **C176.** Symmetrising a distributed field with leading axes gives every process its part of what symmetrising the whole field gives, for any symmetriser that keeps the number of components. -/
theorem C176_distributed_partial (S : Setup) (hS : S.Ok) (sym : List K → List K) (b : Buf K) (hb : WF .field S.idx.length b) (hu : b.shape ≠ [] ∧ b.shape.prod ≠ 0)
    (hsym : ∀ l : List K, l.length = S.idx.length → (sym l).length = S.idx.length) (bufs : ℕ → Buf K) (h : ∀ p < S.P, bufs p = part S .field .g p b) (garbage : ℕ → ℕ → List K)
    (hg : ∀ i r, (garbage i r).length = S.idx.length) (p : ℕ) (hp : p < S.P) :
    symmetrize true true sym b = .ok (symmSerial sym b) ∧ symmDist S sym garbage bufs p = .buf (part S .field .g p (symmSerial sym b)) := by
  refine ⟨rfl, ?_⟩
  have := (C175_gather_partial S hS .field .g b hb ⟨hu.2, by decide, fun _ => hu.1⟩ bufs h garbage hg).1 p hp
  unfold symmDist
  rw [this]
  simp only [symmSerial, part, Kind.comps, List.map_map, cut, Basis.total]
  congr 2
  apply List.map_congr_left
  intro l hl
  have hl := hsym l (by simpa [Kind.comps] using hb.2 l hl)
  simp only [Function.comp, List.range_one, List.flatMap_cons, List.flatMap_nil, List.append_nil]
  congr 1
  unfold comp pySlice
  rw [Nat.zero_mul, List.drop_zero, List.take_of_length_le (by omega)]

/-- **C176.** The symmetriser keeps the number of components, every basis vector is symmetrised on its own, and what is not a field, or is a field of another G-space, is refused. -/
theorem C176_checks {n : ℕ} (ops : Fin (n + 1) → Symm.SymOp) (sh : GSpace.Shape) (key : GSpace.GVec → ℤ) (gs : List GSpace.GVec) (garbage : ℕ → ℂ) (b : Buf ℂ) (sameG : Bool) :
    (∀ l, (symRow ops sh key gs garbage l).length = gs.length) ∧
      (∀ (l : List ℂ) (j : ℕ), j < gs.length → (symRow ops sh key gs garbage l)[j]? = some (Symm.symmetrize ops sh key gs garbage (fun i => l.getD i 0) j)) ∧ (symmSerial (symRow ops sh key gs garbage) b).shape = b.shape ∧
      (∀ (i : ℕ) (l : List ℂ), b.rows[i]? = some l → (symmSerial (symRow ops sh key gs garbage) b).rows[i]? = some (symRow ops sh key gs garbage l)) ∧
      symmetrize false sameG (symRow ops sh key gs garbage) b = .error .type ∧ symmetrize true false (symRow ops sh key gs garbage) b = .error .value := by
  refine ⟨fun l => by simp [symRow], fun l j hj => by simp [symRow, hj], rfl, fun i l h => by simp [symmSerial, h], rfl, rfl⟩

/-- **C176 (violated).** A distributed field without leading axes cannot be symmetrised; the same field in serial can. -/
theorem C176_single_field_violated (S : Setup) (sym : List K → List K) (garbage : ℕ → ℕ → List K) (bufs : ℕ → Buf K) (h : (bufs 0).shape = []) (row : List K) (p : ℕ) :
    symmDist S sym garbage bufs p = .err .runtime ∧ symmetrize true true sym ⟨[], [row]⟩ = .ok ⟨[], [sym row]⟩ := by
  refine ⟨?_, rfl⟩
  unfold symmDist
  rw [(C175_single_field_violated S .g row garbage bufs h true p).1]

/-! ## Cases -/

/-- One band of a two-component wavefunction on a 2×2×2 grid. -/
def exBuf : Buf ℕ := ⟨[1], [[0, 1, 2, 3, 4, 5, 6, 7, 10, 11, 12, 13, 14, 15, 16, 17]]⟩

/-- Four plane waves on a 2×2×2 grid, two processes. -/
def exSetup : Setup := ⟨⟨2, 2, 2⟩, [0, 4, 1, 2], 2⟩

example : WF (.wave 2) (Basis.r.total exSetup) exBuf ∧ Usable (.wave 2) exBuf.shape := by
  refine ⟨⟨by decide, by decide⟩, by decide, by decide, by intro h; cases h⟩

example : exSetup.Ok where
  valid := ⟨by decide, by decide⟩
  sorted := by decide
  pos := by decide
  sticks := by
    have h0 : (0 : ℕ) ∈ exSetup.stk := (Setup.mem_stk _ _).2 (by decide)
    have h1 : (1 : ℕ) ∈ exSetup.stk := (Setup.mem_stk _ _).2 (by decide)
    obtain ⟨i, hi, e⟩ := List.getElem_of_mem h0
    obtain ⟨j, hj, e'⟩ := List.getElem_of_mem h1
    show 2 ≤ exSetup.stk.length
    by_contra hc
    obtain rfl : i = j := by omega
    rw [e] at e'; cases e'
  planes := by decide

/-- Every process has its half of both components. -/
example : (part exSetup (.wave 2) .r 0 exBuf).rows = [[0, 1, 2, 3, 10, 11, 12, 13]] ∧ (part exSetup (.wave 2) .r 1 exBuf).rows = [[4, 5, 6, 7, 14, 15, 16, 17]] := by decide

example : WF Kind.field exSetup.idx.length (⟨[2], [[1, 2, 3, 4], [5, 6, 7, 8]]⟩ : Buf ℕ) := ⟨by decide, by decide⟩

end Verif.DistBuf
