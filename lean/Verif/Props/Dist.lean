import Mathlib.Data.List.Pairwise
import Mathlib.Data.List.TakeWhile
import Verif.Model.Dist
import Verif.Props.FFT
import Verif.Props.GSpace
import Verif.Props.Scatter

/-!
# Properties C21–C23: the distributed G-space
-/

namespace Verif.Dist

open Verif.FFT Verif.Scatter

variable {K : Type*} [Field K]

/-- What the serial `GSpaceBase` guarantees (C10, C11) and the constructor needs: valid distinct indices
in canonical order (sticks in ascending order), and at least one stick and one x-plane per process. -/
structure Setup.Ok (S : Setup) : Prop where
  valid : ValidIdx S.d S.idx
  sorted : S.iyz.Pairwise (· ≤ ·)
  pos : 0 < S.P
  sticks : S.P ≤ S.ns
  planes : S.P ≤ S.d.nx

/-! ## Helper lemmas -/

theorem rad_lt {i j a b : ℕ} (hi : i < a) (hj : j < b) : i * b + j < a * b := by
  have : (i + 1) * b ≤ a * b := Nat.mul_le_mul_right _ hi
  rw [Nat.add_mul, Nat.one_mul] at this
  omega

theorem scatterLen_pos (n P p : ℕ) (hP : 0 < P) (h : P ≤ n) : 0 < scatterLen n P p := by
  unfold scatterLen
  have := Nat.div_pos h hP
  omega

theorem sliceStart_succ (n P p : ℕ) : sliceStart n P (p + 1) = sliceStart n P p + scatterLen n P p := by
  rw [← sliceStop_eq]; rfl

theorem sliceStart_le (n P p : ℕ) (hP : 0 < P) (hp : p ≤ P) : sliceStart n P p ≤ n := by
  conv_rhs => rw [← sliceStart_size n P hP]
  exact sliceStart_mono n P hp

theorem slice_lt (n P p i : ℕ) (hp : p < P) (hi : i < scatterLen n P p) : sliceStart n P p + i < n := by
  have h1 := sliceStart_le n P (p + 1) (by omega) (by omega)
  rw [sliceStart_succ] at h1
  omega

theorem length_block {α : Type*} (l : List α) (P p : ℕ) (hp : p < P) :
    (block l P p).length = scatterLen l.length P p := by
  have h1 := sliceStart_le l.length P (p + 1) (by omega) (by omega)
  rw [sliceStart_succ] at h1
  unfold block pySlice
  rw [List.length_take, List.length_drop, sliceStop_eq, sliceStart_succ]
  omega

theorem getElem_block {α : Type*} (l : List α) (P p i : ℕ) (hp : p < P) (hi : i < (block l P p).length) :
    (block l P p)[i] = l[sliceStart l.length P p + i]'(slice_lt _ _ _ _ hp (by rwa [← length_block l P p hp])) := by
  have : ∀ (h : i < (pySlice l (sliceStart l.length P p) (sliceStop l.length P p)).length) h',
      (pySlice l (sliceStart l.length P p) (sliceStop l.length P p))[i]'h
        = l[sliceStart l.length P p + i]'h' := by
    intro h h'
    simp [pySlice]
  exact this hi _

theorem Setup.nst_eq (S : Setup) (p : ℕ) (hp : p < S.P) : S.nst p = scatterLen S.ns S.P p :=
  length_block _ _ _ hp

theorem cum_scatter (n P m q : ℕ) : cum (fun r => scatterLen n P r * m) q = sliceStart n P q * m := by
  unfold cum
  induction q with
  | zero => simp [sliceStart_zero]
  | succ q ih =>
    rw [List.range_succ, List.map_append, List.sum_append, ih, sliceStart_succ]
    simp; ring

theorem sticks2full_id (S : Setup) : S.trans2full = S.stk := by
  have := sticks2full_eq S.d S.idx
  exact this

/-! ## C21: who owns what -/

theorem sorted_take_filter (l : List ℕ) (h : l.Pairwise (· ≤ ·)) (q : ℕ → Bool)
    (hq : ∀ a b, a ≤ b → q b = true → q a = true) :
    l.take (l.filter q).length = l.filter q ∧ ∀ a ∈ l.drop (l.filter q).length, q a = false := by
  induction l with
  | nil => simp
  | cons a t ih =>
    rw [List.pairwise_cons] at h
    by_cases hqa : q a = true
    · rw [List.filter_cons_of_pos hqa]
      obtain ⟨h1, h2⟩ := ih h.2
      refine ⟨by simp [h1], by simpa using h2⟩
    · rw [List.filter_cons_of_neg hqa]
      have hall : ∀ b ∈ t, q b = false := by
        intro b hb
        by_contra hc
        exact hqa (hq a b (h.1 b hb) (by simpa using hc))
      have : t.filter q = [] := by
        rw [List.filter_eq_nil_iff]; intro b hb; simp [hall b hb]
      rw [this]
      simp only [List.length_nil, List.take_zero, List.drop_zero, true_and]
      intro b hb
      rcases List.mem_cons.1 hb with rfl | hb
      · simpa using hqa
      · exact hall b hb

/-- number of G-vectors on the first `m` sticks -/
def cutAt (S : Setup) (m : ℕ) : ℕ := (S.iyz.filter fun v => searchsorted S.stk v < m).length

theorem searchsorted_mono (l : List ℕ) {a b : ℕ} (h : a ≤ b) : searchsorted l a ≤ searchsorted l b := by
  unfold searchsorted
  apply List.Sublist.length_le
  apply List.monotone_filter_right
  intro x hx
  simp at hx ⊢; omega

theorem Setup.stk_sorted (S : Setup) : S.stk.Pairwise (· < ·) := sticks_sorted _ _

theorem Setup.mem_stk (S : Setup) (v : ℕ) : v ∈ S.stk ↔ v ∈ S.iyz := by
  unfold Setup.stk Setup.iyz
  rw [mem_sticks, List.mem_map]
  simp only [stickOf_eq]

theorem Setup.stkLoc_head (S : Setup) (hS : S.Ok) (p : ℕ) (hp : p < S.P) :
    ∃ h : sliceStart S.ns S.P p < S.stk.length, (S.stkLoc p).headD 0 = S.stk[sliceStart S.ns S.P p] := by
  have hlen := length_block S.stk S.P p hp
  have hpos := scatterLen_pos S.ns S.P p hS.pos hS.sticks
  have h0 : 0 < (block S.stk S.P p).length := by rw [hlen]; exact hpos
  have := getElem_block S.stk S.P p 0 hp h0
  refine ⟨slice_lt S.ns S.P p 0 hp hpos, ?_⟩
  unfold Setup.stkLoc
  rw [List.headD_eq_head?_getD, List.head?_eq_getElem?, List.getElem?_eq_getElem h0, Option.getD_some, this]
  rfl

theorem Setup.stkLoc_last (S : Setup) (hS : S.Ok) (p : ℕ) (hp : p < S.P) :
    ∃ h : sliceStart S.ns S.P (p + 1) - 1 < S.stk.length,
      0 < sliceStart S.ns S.P (p + 1) ∧
      (S.stkLoc p).getLastD 0 = S.stk[sliceStart S.ns S.P (p + 1) - 1] := by
  have hlen := length_block S.stk S.P p hp
  have hpos := scatterLen_pos S.ns S.P p hS.pos hS.sticks
  have hlen' : (block S.stk S.P p).length = scatterLen S.ns S.P p := hlen
  have h0 : (block S.stk S.P p).length - 1 < (block S.stk S.P p).length := by omega
  have := getElem_block S.stk S.P p _ hp h0
  have hs := sliceStart_succ S.ns S.P p
  have hlt := slice_lt S.ns S.P p (scatterLen S.ns S.P p - 1) hp (by omega)
  have hlt' : sliceStart S.ns S.P p + (scatterLen S.ns S.P p - 1) < S.stk.length := hlt
  refine ⟨by omega, by omega, ?_⟩
  unfold Setup.stkLoc
  rw [List.getLastD_eq_getLast?, List.getLast?_eq_getElem?, List.getElem?_eq_getElem h0,
    Option.getD_some, this]
  congr 1
  show sliceStart S.ns S.P p + _ = _
  omega

theorem Setup.igStart_eq (S : Setup) (hS : S.Ok) (p : ℕ) (hp : p < S.P) :
    S.igStart p = cutAt S (sliceStart S.ns S.P p) := by
  obtain ⟨h, e⟩ := S.stkLoc_head hS p hp
  unfold Setup.igStart cutAt
  rw [e]
  show (List.filter _ _).length = _
  congr 1
  apply List.filter_congr
  intro v hv
  have hm := (S.mem_stk v).2 hv
  obtain ⟨i, hi, rfl⟩ := List.getElem_of_mem hm
  rw [searchsorted_getElem _ S.stk_sorted]
  have := List.pairwise_iff_getElem.1 S.stk_sorted
  rw [decide_eq_decide]
  constructor
  · intro hlt
    by_contra hc
    rcases Nat.lt_or_ge (sliceStart S.ns S.P p) i with h1 | h1
    · have := this _ _ h hi h1; omega
    · have : i = sliceStart S.ns S.P p := by omega
      subst this; omega
  · intro hlt; exact this _ _ hi h hlt

theorem Setup.igStop_eq (S : Setup) (hS : S.Ok) (p : ℕ) (hp : p < S.P) :
    S.igStop p = cutAt S (sliceStart S.ns S.P (p + 1)) := by
  obtain ⟨h, h0, e⟩ := S.stkLoc_last hS p hp
  unfold Setup.igStop cutAt searchsortedRight
  rw [e]
  congr 1
  apply List.filter_congr
  intro v hv
  have hm := (S.mem_stk v).2 hv
  obtain ⟨i, hi, rfl⟩ := List.getElem_of_mem hm
  rw [searchsorted_getElem _ S.stk_sorted]
  have := List.pairwise_iff_getElem.1 S.stk_sorted
  rw [decide_eq_decide]
  constructor
  · intro hle
    by_contra hc
    have := this _ _ h hi (by omega); omega
  · intro hlt
    rcases Nat.lt_or_ge i (sliceStart S.ns S.P (p + 1) - 1) with h1 | h1
    · have := this _ _ hi h h1; omega
    · have : i = sliceStart S.ns S.P (p + 1) - 1 := by omega
      subst this; exact le_refl _

theorem cutAt_mono (S : Setup) : Monotone (cutAt S) := by
  intro a b h
  unfold cutAt
  apply List.Sublist.length_le
  apply List.monotone_filter_right
  intro x hx
  simp at hx ⊢; omega

theorem cutAt_zero (S : Setup) : cutAt S 0 = 0 := by simp [cutAt]

theorem cutAt_ns (S : Setup) : cutAt S S.ns = S.idx.length := by
  unfold cutAt
  rw [List.filter_eq_self.2]
  · simp [Setup.iyz]
  · intro v hv
    have := (searchsorted_mem _ S.stk_sorted v ((S.mem_stk v).2 hv)).1
    exact decide_eq_true this

theorem Setup.cutG_eq {α : Type*} (S : Setup) (hS : S.Ok) (p : ℕ) (hp : p < S.P) (l : List α) :
    S.cutG p l = pySlice l (cutAt S (sliceStart S.ns S.P p)) (cutAt S (sliceStart S.ns S.P (p + 1))) := by
  unfold Setup.cutG
  rw [S.igStart_eq hS p hp, S.igStop_eq hS p hp]

theorem cutG_flatten {α : Type*} (S : Setup) (hS : S.Ok) (l : List α) (hl : l.length = S.idx.length) :
    ((List.range S.P).map fun p => S.cutG p l).flatten = l := by
  have h := flatten_blocks (fun p => cutAt S (sliceStart S.ns S.P p))
    ((cutAt_mono S).comp (sliceStart_mono _ _)) (by simp [sliceStart_zero, cutAt_zero]) l S.P
  simp only [sliceStart_size _ _ hS.pos, cutAt_ns, ← hl, List.take_length] at h
  refine Eq.trans ?_ h
  congr 1
  apply List.map_congr_left
  intro p hp
  exact S.cutG_eq hS p (List.mem_range.1 hp) l

/-- the G-vectors of rank `p` are those whose stick number lies in the rank's stick block -/
theorem mem_cutG (S : Setup) (hS : S.Ok) (p : ℕ) (hp : p < S.P) (f : ℕ) :
    f ∈ S.cutG p S.idx ↔ f ∈ S.idx ∧
      sliceStart S.ns S.P p ≤ searchsorted S.stk (stickOf S.d f) ∧
      searchsorted S.stk (stickOf S.d f) < sliceStart S.ns S.P (p + 1) := by
  rw [S.cutG_eq hS p hp]
  have hq : ∀ m, ∀ a b : ℕ, a ≤ b → decide (searchsorted S.stk b < m) = true →
      decide (searchsorted S.stk a < m) = true := by
    intro m a b hab h
    have := searchsorted_mono S.stk hab
    simp at h ⊢; omega
  have hcut : ∀ m f, (f ∈ S.idx.take (cutAt S m) → searchsorted S.stk (stickOf S.d f) < m) ∧
      (f ∈ S.idx.drop (cutAt S m) → m ≤ searchsorted S.stk (stickOf S.d f)) := by
    intro m f
    obtain ⟨h1, h2⟩ := sorted_take_filter S.iyz hS.sorted _ (hq m)
    constructor
    · intro hf
      have : stickOf S.d f ∈ S.iyz.take (cutAt S m) := by
        unfold Setup.iyz; rw [← List.map_take]; exact List.mem_map_of_mem hf
      rw [show cutAt S m = (S.iyz.filter fun v => searchsorted S.stk v < m).length from rfl, h1] at this
      have := (List.mem_filter.1 this).2
      simpa using this
    · intro hf
      have : stickOf S.d f ∈ S.iyz.drop (cutAt S m) := by
        unfold Setup.iyz; rw [← List.map_drop]; exact List.mem_map_of_mem hf
      have := h2 _ this
      simpa using this
  have hmono := cutAt_mono S (sliceStart_mono S.ns S.P (Nat.le_succ p))
  simp only [Nat.succ_eq_add_one] at hmono
  have hsl : pySlice S.idx (cutAt S (sliceStart S.ns S.P p)) (cutAt S (sliceStart S.ns S.P (p + 1)))
      = (S.idx.take (cutAt S (sliceStart S.ns S.P (p + 1)))).drop (cutAt S (sliceStart S.ns S.P p)) := by
    unfold pySlice
    rw [List.drop_take]
  constructor
  · intro hf
    have hmem : f ∈ S.idx := List.mem_of_mem_drop (List.mem_of_mem_take hf)
    refine ⟨hmem, (hcut _ f).2 (List.mem_of_mem_take hf), ?_⟩
    rw [hsl] at hf
    exact (hcut _ f).1 (List.mem_of_mem_drop hf)
  · rintro ⟨hf, h1, h2⟩
    rw [hsl]
    have ht : f ∈ S.idx.take (cutAt S (sliceStart S.ns S.P (p + 1))) := by
      rw [← List.take_append_drop (cutAt S (sliceStart S.ns S.P (p + 1))) S.idx] at hf
      rcases List.mem_append.1 hf with h | h
      · exact h
      · have := (hcut _ f).2 h; omega
    rw [← List.take_append_drop (cutAt S (sliceStart S.ns S.P p))
      (S.idx.take (cutAt S (sliceStart S.ns S.P (p + 1))))] at ht
    rcases List.mem_append.1 ht with h | h
    · rw [List.take_take, min_eq_left hmono] at h
      have := (hcut _ f).1 h; omega
    · exact h

theorem mem_stkLoc (S : Setup) (p : ℕ) (hp : p < S.P) (v : ℕ) (hv : v ∈ S.stk) :
    v ∈ S.stkLoc p ↔ sliceStart S.ns S.P p ≤ searchsorted S.stk v ∧
      searchsorted S.stk v < sliceStart S.ns S.P (p + 1) := by
  have hlen : (block S.stk S.P p).length = scatterLen S.ns S.P p := length_block S.stk S.P p hp
  have hs := sliceStart_succ S.ns S.P p
  constructor
  · intro h
    obtain ⟨i, hi, rfl⟩ := List.getElem_of_mem h
    unfold Setup.stkLoc at hi ⊢
    rw [getElem_block S.stk S.P p i hp hi, searchsorted_getElem _ S.stk_sorted]
    have : sliceStart S.stk.length S.P p = sliceStart S.ns S.P p := rfl
    omega
  · rintro ⟨h1, h2⟩
    obtain ⟨i, hi, rfl⟩ := List.getElem_of_mem hv
    rw [searchsorted_getElem _ S.stk_sorted] at h1 h2
    have hi' : i - sliceStart S.ns S.P p < (block S.stk S.P p).length := by omega
    have := getElem_block S.stk S.P p _ hp hi'
    unfold Setup.stkLoc
    have e : sliceStart S.stk.length S.P p + (i - sliceStart S.ns S.P p) = i := by
      have : sliceStart S.stk.length S.P p = sliceStart S.ns S.P p := rfl
      omega
    simp only [e] at this
    rw [← this]
    exact List.getElem_mem hi'

/-- **C21.** For every serial G-space and every group size that the constructor accepts: construction
succeeds on all ranks; the ranks' G-vectors, concatenated in rank order, are the serial G-vectors in the
serial order (so each one has exactly one owner); a rank's G-vectors are exactly those on its own sticks
(no stick is split); and the ranks' x-planes are consecutive blocks that cover the grid. -/
theorem C21_partition (S : Setup) (hS : S.Ok) (hpos : 0 < S.d.ny ∧ 0 < S.d.nz) :
    (∀ p < S.P, S.init p = .ok ()) ∧
    ((List.range S.P).map fun p => S.cutG p S.idx).flatten = S.idx ∧
    (∀ p < S.P, ∀ f, f ∈ S.cutG p S.idx ↔ f ∈ S.idx ∧ stickOf S.d f ∈ S.stkLoc p) ∧
    (∀ p < S.P, (S.cutG p S.idx).length = S.gSpec.getD p 0) ∧
    S.x0 0 = 0 ∧ (∀ p < S.P, S.x0 (p + 1) = S.x0 p + S.nxl p) ∧ S.x0 S.P = S.d.nx := by
  refine ⟨?_, cutG_flatten S hS _ rfl, ?_, ?_, sliceStart_zero _ _, ?_, sliceStart_size _ _ hS.pos⟩
  · intro p hp
    have h1 := scatterLen_pos S.ns S.P p hS.pos hS.sticks
    have h2 := scatterLen_pos S.d.nx S.P p hS.pos hS.planes
    have h3 := hS.planes
    have h4 := hS.pos
    unfold Setup.init
    rw [if_neg (by rw [S.nst_eq p hp]; omega), if_neg]
    unfold Setup.nxl; omega
  · intro p hp f
    rw [mem_cutG S hS p hp f]
    constructor
    · rintro ⟨h, h1⟩
      exact ⟨h, (mem_stkLoc S p hp _ ((S.mem_stk _).2 (List.mem_map_of_mem h))).2 h1⟩
    · rintro ⟨h, h1⟩
      exact ⟨h, (mem_stkLoc S p hp _ ((S.mem_stk _).2 (List.mem_map_of_mem h))).1 h1⟩
  · intro p hp
    have h1 := S.igStart_eq hS p hp
    have h2 := S.igStop_eq hS p hp
    have hle : cutAt S (sliceStart S.ns S.P (p + 1)) ≤ S.idx.length := by
      rw [← cutAt_ns S]; exact cutAt_mono S (sliceStart_le _ _ _ hS.pos (by omega))
    unfold Setup.gSpec Setup.cutG pySlice
    rw [List.getD_eq_getElem _ _ (by simpa using hp)]
    simp only [List.getElem_map, List.getElem_range, List.length_take, List.length_drop]
    omega
  · intro p _; exact sliceStart_succ _ _ _

/-- **C21, refusals.** With fewer sticks or x-planes than processes the construction fails on some rank. -/
theorem C21_refuses (S : Setup) (hP : 0 < S.P) (h : S.ns < S.P ∨ S.d.nx < S.P) :
    ∃ p < S.P, S.init p ≠ .ok () := by
  refine ⟨S.P - 1, by omega, ?_⟩
  unfold Setup.init
  rw [S.nst_eq _ (by omega)]
  have key : ∀ n, n < S.P → scatterLen n S.P (S.P - 1) = 0 := by
    intro n hn
    unfold scatterLen
    rw [Nat.div_eq_of_lt hn, Nat.mod_eq_of_lt hn, if_neg (by omega)]
  rcases h with h | h
  · rw [if_pos (key _ h)]; simp
  · split_ifs with h1
    · simp
    · have := key _ h; simp
    · rename_i h2
      exact absurd (Or.inr (Or.inl (key _ h))) h2

/-- **C12 (distributed).** The first process holds the first stored G-vector (hence `G = 0` when present, by
`GSpace.C12_g0_first`), as its first element, for every array over the G-vectors; no other process holds it. So
the broadcast of element 0 of process 0 is the `G = 0` value on every process. -/
theorem C12_first_process_owns (S : Setup) (hS : S.Ok) :
    (∀ {α : Type} (l : List α), l.length = S.idx.length → (S.cutG 0 l).head? = l.head?) ∧
    (∀ f, S.idx.head? = some f → ∀ p, 0 < p → p < S.P → f ∉ S.cutG p S.idx) := by
  have hP := hS.pos
  have hns : 0 < S.stk.length := lt_of_lt_of_le hP hS.sticks
  have h1 : 0 < sliceStart S.ns S.P 1 := by
    have := sliceStart_succ S.ns S.P 0
    have h2 := scatterLen_pos S.ns S.P 0 hP hS.sticks
    rw [Nat.zero_add] at this
    omega
  have hcut : 0 < cutAt S (sliceStart S.ns S.P 1) := by
    unfold cutAt
    apply List.length_pos_of_mem (a := S.stk[0])
    rw [List.mem_filter]
    refine ⟨(S.mem_stk _).1 (List.getElem_mem hns), ?_⟩
    rw [searchsorted_getElem _ S.stk_sorted]
    simpa using h1
  constructor
  · intro α l hl
    rw [S.cutG_eq hS 0 hP, sliceStart_zero, cutAt_zero]
    unfold pySlice
    obtain ⟨k, hk⟩ := Nat.exists_eq_succ_of_ne_zero (show cutAt S (sliceStart S.ns S.P (0 + 1)) - 0 ≠ 0 by
      rw [Nat.zero_add]; omega)
    rw [hk]
    cases l <;> rfl
  · intro f hf p hp0 hp hmem
    rw [S.cutG_eq hS p hp] at hmem
    have hge : 0 < cutAt S (sliceStart S.ns S.P p) :=
      lt_of_lt_of_le hcut (cutAt_mono S (sliceStart_mono S.ns S.P hp0))
    have hmem2 := List.mem_of_mem_take hmem
    have hnd := hS.valid.1
    generalize cutAt S (sliceStart S.ns S.P p) = k at hge hmem2
    obtain ⟨k, rfl⟩ : ∃ m, k = m + 1 := ⟨k - 1, by omega⟩
    cases hidx : S.idx with
    | nil => rw [hidx] at hf; cases hf
    | cons x t =>
      rw [hidx] at hf hmem2 hnd
      injection hf with hf
      subst hf
      rw [List.drop_succ_cons] at hmem2
      exact (List.nodup_cons.1 hnd).1 (List.mem_of_mem_drop hmem2)

/-! ## Segments -/

/-- Updating disjoint segments one after another, each update reading only its own segment. -/
theorem seg_foldl {α : Type*} (N : ℕ) (off cnt : ℕ → ℕ) (hoff : ∀ p < N, off p + cnt p ≤ off (p + 1))
    (hmono : ∀ p q, p ≤ q → q ≤ N → off p ≤ off q)
    (G : ℕ → (ℕ → α) → ℕ → α)
    (hG : ∀ p < N, ∀ b b' : ℕ → α, (∀ u, off p ≤ u → u < off p + cnt p → b u = b' u) →
      ∀ t, off p ≤ t → t < off p + cnt p → G p b t = G p b' t) (b0 : ℕ → α) :
    (∀ p < N, ∀ t, off p ≤ t → t < off p + cnt p →
      (List.range N).foldl (fun b p => fun t => if off p ≤ t ∧ t < off p + cnt p then G p b t else b t) b0 t
        = G p b0 t) ∧
    (∀ t, off N ≤ t →
      (List.range N).foldl (fun b p => fun t => if off p ≤ t ∧ t < off p + cnt p then G p b t else b t) b0 t
        = b0 t) := by
  induction N with
  | zero => simp
  | succ N ih =>
    obtain ⟨ih1, ih2⟩ := ih (fun p hp => hoff p (by omega)) (fun p q hpq hq => hmono p q hpq (by omega))
      (fun p hp => hG p (by omega))
    rw [List.range_succ]
    simp only [List.foldl_append, List.foldl_cons, List.foldl_nil]
    have hN := hoff N (by omega)
    constructor
    · intro p hp t h1 h2
      by_cases hpN : p = N
      · subst hpN
        rw [if_pos ⟨h1, h2⟩]
        apply hG p (by omega) _ _ _ t h1 h2
        intro u hu _
        exact ih2 u hu
      · have hp' : p < N := by omega
        have := hoff p (by omega)
        have := hmono (p + 1) N (by omega) (by omega)
        rw [if_neg (by omega)]
        exact ih1 p hp' t h1 h2
    · intro t ht
      rw [if_neg (by omega)]
      exact ih2 t (by have := hmono N (N+1) (by omega) (by omega); omega)

theorem cum_succ (c : ℕ → ℕ) (p : ℕ) : cum c (p + 1) = cum c p + c p := by
  unfold cum; rw [List.range_succ]; simp

theorem cum_mono (c : ℕ → ℕ) : Monotone (cum c) := by
  apply monotone_nat_of_le_succ; intro n; rw [cum_succ]; omega

theorem alltoallv_spec {α : Type*} (P : ℕ) (snd : ℕ → ℕ → α) (sc : ℕ → ℕ → ℕ) (rcv : ℕ → ℕ → α)
    (rc : ℕ → ℕ → ℕ) (h : ∀ p < P, ∀ q < P, sc p q = rc q p) :
    ∃ bufs, alltoallv P snd sc rcv rc = some bufs ∧
      ∀ q < P, ∀ p < P, ∀ i < rc q p, bufs q (cum (rc q) p + i) = snd p (cum (sc p) q + i) := by
  refine ⟨_, by rw [alltoallv, if_pos h], ?_⟩
  intro q _ p hp i hi
  have := (seg_foldl P (cum (rc q)) (rc q) (fun p _ => by rw [cum_succ]) (fun p r h _ => cum_mono _ h)
    (fun p _ t => snd p (cum (sc p) q + (t - cum (rc q) p))) (fun _ _ _ _ _ _ _ _ => rfl) (rcv q)).1
    p hp (cum (rc q) p + i) (by omega) (by omega)
  simp only [Nat.add_sub_cancel_left] at this
  exact this

theorem chunks_spec {α : Type*} (P a : ℕ) (c : ℕ → ℕ) (b : ℕ → ℕ) (hc : ∀ p < P, c p = a * b p)
    (buf : ℕ → α) (p i j : ℕ) (hp : p < P) (hi : i < a) (hj : j < b p) :
    (List.range P).foldl (fun bb p => chunkT bb (cum c p) a (c p / a)) buf (cum c p + j * a + i)
      = buf (cum c p + i * b p + j) := by
  have ha : 0 < a := by omega
  have hdiv : ∀ p < P, c p / a = b p := by
    intro p hp; rw [hc p hp, Nat.mul_div_cancel_left _ ha]
  have e : (List.range P).foldl (fun bb p => chunkT bb (cum c p) a (c p / a)) buf
      = (List.range P).foldl (fun bb p => fun t => if cum c p ≤ t ∧ t < cum c p + c p
          then bb (cum c p + (t - cum c p) % a * (c p / a) + (t - cum c p) / a) else bb t) buf := by
    apply List.foldl_ext
    intro bb q hq
    have hq := List.mem_range.1 hq
    funext t
    unfold chunkT
    have : a * (c q / a) = c q := by rw [hdiv q hq, hc q hq]
    rw [this]
  rw [e]
  have key := (seg_foldl P (cum c) c (fun p _ => by rw [cum_succ]) (fun p r h _ => cum_mono _ h)
    (fun p bb t => bb (cum c p + (t - cum c p) % a * (c p / a) + (t - cum c p) / a)) ?_ buf).1
    p hp (cum c p + j * a + i) (by omega) ?_
  · rw [key]
    have h1 : cum c p + j * a + i - cum c p = a * j + i := by rw [Nat.mul_comm a]; omega
    rw [h1, Nat.mul_add_mod, Nat.mod_eq_of_lt hi, Nat.mul_add_div ha, Nat.div_eq_of_lt hi, add_zero,
      hdiv p hp]
  · intro q hq bb bb' hb t h1 h2
    apply hb
    · rw [Nat.add_assoc]; exact Nat.le_add_right _ _
    · rw [hc q hq] at h2
      rw [hdiv q hq, hc q hq]
      have hr : t - cum c q < a * b q := by omega
      have g1 : (t - cum c q) % a < a := Nat.mod_lt _ ha
      have g2 : (t - cum c q) / a < b q := Nat.div_lt_of_lt_mul hr
      have : (t - cum c q) % a * b q + (t - cum c q) / a < a * b q := by nlinarith
      omega
  · rw [hc p hp]
    have : j * a + i < a * b p := by nlinarith
    omega

/-! ## C22: real to G -/

/-- `Σ_x wx · (y-z transform)` is the full transform -/
theorem two_stage (d : Dims) (w : Kern K) (a : ℕ → K) (f : ℕ) (hf : f < d.size) :
    ∑ x ∈ Finset.range d.nx, w.wx (d.ix f) x * xformYZ d w a (x * d.plane + stickOf d f)
      = ∑ g ∈ Finset.range d.size, ker3 d w f g * a g := by
  obtain ⟨hx, hy, hz⟩ := d.pos_of_lt hf
  rw [← sum_grid]
  refine Finset.sum_congr rfl fun x _ => ?_
  have hiy : d.iy f < d.ny := Nat.mod_lt _ hy
  have hiz : d.iz f < d.nz := Nat.mod_lt _ hz
  have e : x * d.plane + stickOf d f = d.flat x (d.iy f) (d.iz f) := rfl
  rw [e]
  unfold xformYZ
  rw [d.ix_flat hiy hiz, d.iy_flat hiy hiz, d.iz_flat hiz, Finset.mul_sum]
  refine Finset.sum_congr rfl fun y hy' => ?_
  rw [Finset.mul_sum]
  refine Finset.sum_congr rfl fun z hz' => ?_
  have hy' := Finset.mem_range.1 hy'
  have hz' := Finset.mem_range.1 hz'
  unfold ker3
  rw [d.ix_flat hy' hz', d.iy_flat hy' hz', d.iz_flat hz']
  ring

theorem counts_match (S : Setup) : ∀ p < S.P, ∀ q < S.P, S.transSpec p q = S.sticksSpec q p := by
  intro p hp q hq
  unfold Setup.transSpec Setup.sticksSpec Setup.nxl
  rw [S.nst_eq q hq]; ring

/-- position of a G-vector's stick inside the owner's local stick list -/
theorem stickLoc_pos (S : Setup) (hS : S.Ok) (q : ℕ) (hq : q < S.P) (f : ℕ) (hf : f ∈ S.cutG q S.idx) :
    searchsorted (S.stkLoc q) (stickOf S.d f) < S.nst q ∧
    S.stk.getD (sliceStart S.ns S.P q + searchsorted (S.stkLoc q) (stickOf S.d f)) 0 = stickOf S.d f := by
  obtain ⟨h1, h2⟩ := (mem_cutG S hS q hq f).1 hf
  have hm := (mem_stkLoc S q hq _ ((S.mem_stk _).2 (List.mem_map_of_mem h1))).2 h2
  have hsorted : (S.stkLoc q).Pairwise (· < ·) := by
    unfold Setup.stkLoc block pySlice
    exact (S.stk_sorted.sublist (List.drop_sublist _ _)).sublist (List.take_sublist _ _)
  obtain ⟨h3, h4⟩ := searchsorted_mem _ hsorted _ hm
  refine ⟨h3, ?_⟩
  rw [List.getD_eq_getElem _ _ h3] at h4
  have h5 := getElem_block S.stk S.P q _ hq h3
  have h6 : (S.stkLoc q)[searchsorted (S.stkLoc q) (stickOf S.d f)]
      = S.stk[sliceStart S.stk.length S.P q + searchsorted (S.stkLoc q) (stickOf S.d f)]'(by
        have := slice_lt S.ns S.P q _ hq (by rw [← S.nst_eq q hq]; exact h3)
        exact this) := h5
  rw [h6] at h4
  rw [List.getD_eq_getElem]
  exact h4

theorem r2g_eq (S : Setup) (hS : S.Ok) (fwd : Kern K) (st : ℕ → St K) (a : ℕ → K) (arr : ℕ → ℕ → K)
    (harr : ∀ p < S.P, ∀ f < S.nxl p * S.d.plane, arr p f = a (S.x0 p * S.d.plane + f)) :
    ∃ st' out, r2g S fwd st arr = some (st', out) ∧
      (∀ q, (st' q).xBwd = (st q).xBwd ∧ (st' q).yzBwd = (st q).yzBwd) ∧
      ∀ q < S.P, out q = (S.cutG q S.idx).map fun f => ∑ g ∈ Finset.range S.d.size, ker3 S.d fwd f g * a g := by
  obtain ⟨bufs, hb1, hb2⟩ := alltoallv_spec S.P (fun p => (r2gA S fwd p (st p) (arr p)).trans) S.transSpec
    (fun q => (r2gA S fwd q (st q) (arr q)).xFwd) S.sticksSpec (counts_match S)
  have he : r2g S fwd st arr = some (fun q => (r2gB S fwd q (r2gA S fwd q (st q) (arr q)) (bufs q)).1,
      fun q => (r2gB S fwd q (r2gA S fwd q (st q) (arr q)) (bufs q)).2) := by
    unfold r2g; simp only [hb1]
  refine ⟨_, _, he, fun q => ⟨rfl, rfl⟩, ?_⟩
  intro q hq
  unfold r2gB take Setup.g2sLoc
  simp only [List.map_map]
  refine List.map_congr_left fun f hf => ?_
  obtain ⟨hs1, hs2⟩ := stickLoc_pos S hS q hq f hf
  have hfi := ((mem_cutG S hS q hq f).1 hf).1
  have hfs := hS.valid.2 f hfi
  have hix := (S.d.coords hfs).1
  have hnst : 0 < S.nst q := by omega
  simp only [Function.comp]
  rw [← two_stage S.d fwd a f hfs]
  unfold xform0
  refine Finset.sum_congr rfl fun x hx => ?_
  have hx := Finset.mem_range.1 hx
  obtain ⟨s, hs⟩ : ∃ s, s = searchsorted (S.stkLoc q) (stickOf S.d f) := ⟨_, rfl⟩
  rw [← hs] at hs1 hs2 ⊢
  have e1 : (S.d.ix f * S.nst q + s) / S.nst q = S.d.ix f := by
    rw [Nat.mul_comm, Nat.mul_add_div hnst, Nat.div_eq_of_lt hs1, add_zero]
  have e2 : (S.d.ix f * S.nst q + s) % S.nst q = s := by
    rw [Nat.mul_comm, Nat.mul_add_mod, Nat.mod_eq_of_lt hs1]
  rw [e1, e2]
  congr 1
  -- owner of plane x
  obtain ⟨p, hp, hx1, hx2⟩ := exists_owner _ (sliceStart_zero S.d.nx S.P) S.P x
    (by rw [sliceStart_size _ _ hS.pos]; exact hx)
  rw [sliceStart_succ] at hx2
  obtain ⟨x', hx'⟩ : ∃ x', x = sliceStart S.d.nx S.P p + x' := ⟨x - sliceStart S.d.nx S.P p, by omega⟩
  have hxl : x' < S.nxl p := by unfold Setup.nxl; omega
  have hcum1 : cum (S.sticksSpec q) p = sliceStart S.d.nx S.P p * S.nst q := cum_scatter _ _ _ _
  have hcum2 : cum (S.transSpec p) q = sliceStart S.ns S.P q * S.nxl p := cum_scatter _ _ _ _
  have hpos : x * S.nst q + s = cum (S.sticksSpec q) p + x' * S.nst q + s := by
    rw [hcum1, hx']; ring
  rw [hpos, chunks_spec S.P (S.nst q) (S.sticksSpec q) S.nxl
    (fun p _ => by unfold Setup.sticksSpec Setup.nxl; ring) (bufs q) p s x' hp hs1 hxl]
  have hlt : s * S.nxl p + x' < S.sticksSpec q p := by
    have : S.sticksSpec q p = S.nxl p * S.nst q := rfl
    rw [this]; nlinarith
  rw [Nat.add_assoc, hb2 q hq p hp _ hlt]
  simp only [r2gA]
  have hns : sliceStart S.ns S.P q + s < S.ns := slice_lt _ _ _ _ hq (by rw [← S.nst_eq q hq]; exact hs1)
  have hpos2 : cum (S.transSpec p) q + (s * S.nxl p + x') = S.nxl p * (sliceStart S.ns S.P q + s) + x' := by
    rw [hcum2]; ring
  have m1 : (S.nxl p * (sliceStart S.ns S.P q + s) + x') % S.nxl p = x' := by
    rw [Nat.mul_add_mod, Nat.mod_eq_of_lt hxl]
  have m2 : (S.nxl p * (sliceStart S.ns S.P q + s) + x') / S.nxl p = sliceStart S.ns S.P q + s := by
    rw [Nat.mul_add_div (by omega), Nat.div_eq_of_lt hxl, add_zero]
  have m3 : S.nxl p * (sliceStart S.ns S.P q + s) + x' < S.ns * S.nxl p := by
    have : S.nxl p * (sliceStart S.ns S.P q + s + 1) ≤ S.nxl p * S.ns := Nat.mul_le_mul_left _ hns
    rw [Nat.mul_comm S.ns]; nlinarith
  rw [hpos2, if_pos m3, m1, m2, sticks2full_id, hs2, hx']
  -- the y-z transform of the slab is the slab of the y-z transform
  obtain ⟨_, hy, hz⟩ := S.d.pos_of_lt hfs
  have hiy : S.d.iy f < S.d.ny := Nat.mod_lt _ hy
  have hiz : S.d.iz f < S.d.nz := Nat.mod_lt _ hz
  have f1 : x' * S.d.plane + stickOf S.d f = S.d.flat x' (S.d.iy f) (S.d.iz f) := rfl
  have f2 : (sliceStart S.d.nx S.P p + x') * S.d.plane + stickOf S.d f
      = S.d.flat (sliceStart S.d.nx S.P p + x') (S.d.iy f) (S.d.iz f) := rfl
  rw [f1, f2]
  unfold xformYZ
  simp only [S.d.ix_flat hiy hiz, S.d.iy_flat hiy hiz, S.d.iz_flat hiz]
  refine Finset.sum_congr rfl fun y hy' => Finset.sum_congr rfl fun z hz' => ?_
  have hy' := Finset.mem_range.1 hy'
  have hz' := Finset.mem_range.1 hz'
  congr 1
  rw [harr p hp]
  · congr 1
    unfold Dims.flat Setup.x0; ring
  · unfold Dims.flat
    exact rad_lt hxl (rad_lt hy' hz')

/-! ## C22: G to real -/

/-- What the constructor establishes and every call keeps: the backward input arrays are zero outside the
positions that are overwritten by every `g2r`. -/
structure Inv (S : Setup) (p : ℕ) (st : St K) : Prop where
  x : ∀ j, j ∉ S.g2sLoc p → st.xBwd j = 0
  yz : ∀ f, f / S.d.plane < S.nxl p → f % S.d.plane ∉ S.stk → st.yzBwd f = 0

theorem g2sLoc_facts (S : Setup) (hS : S.Ok) (p : ℕ) (hp : p < S.P) :
    (S.g2sLoc p).Nodup ∧ ∀ j ∈ S.g2sLoc p, j < S.d.nx * S.nst p := by
  have key : ∀ f ∈ S.cutG p S.idx, searchsorted (S.stkLoc p) (stickOf S.d f) < S.nst p ∧
      S.d.ix f < S.d.nx ∧ f = S.d.ix f * S.d.plane +
        S.stk.getD (sliceStart S.ns S.P p + searchsorted (S.stkLoc p) (stickOf S.d f)) 0 := by
    intro f hf
    obtain ⟨h1, h2⟩ := stickLoc_pos S hS p hp f hf
    have hfs := hS.valid.2 f ((mem_cutG S hS p hp f).1 hf).1
    refine ⟨h1, (S.d.coords hfs).1, ?_⟩
    rw [h2]
    exact (S.d.coords hfs).2.2.2.symm
  constructor
  · unfold Setup.g2sLoc
    refine List.Nodup.map_on ?_ ?_
    · intro f hf g hg h
      obtain ⟨a1, a2, a3⟩ := key f hf
      obtain ⟨b1, b2, b3⟩ := key g hg
      have hx : S.d.ix f = S.d.ix g := by
        have := congrArg (· / S.nst p) h
        simpa [Nat.mul_comm _ (S.nst p), Nat.mul_add_div (show 0 < S.nst p by omega),
          Nat.div_eq_of_lt a1, Nat.div_eq_of_lt b1] using this
      have hs : searchsorted (S.stkLoc p) (stickOf S.d f) = searchsorted (S.stkLoc p) (stickOf S.d g) := by
        have := congrArg (· % S.nst p) h
        simpa [Nat.mul_comm _ (S.nst p), Nat.mul_add_mod, Nat.mod_eq_of_lt a1, Nat.mod_eq_of_lt b1] using this
      rw [a3, b3, hx, hs]
    · unfold Setup.cutG pySlice
      exact (hS.valid.1.sublist (List.drop_sublist _ _)).sublist (List.take_sublist _ _)
  · intro j hj
    unfold Setup.g2sLoc at hj
    obtain ⟨f, hf, rfl⟩ := List.mem_map.1 hj
    obtain ⟨a1, a2, a3⟩ := key f hf
    nlinarith

theorem put_zero_outside {α : Type*} [Zero α] (b : ℕ → α) (idx : List ℕ) (vals : List α)
    (hn : idx.Nodup) (hl : vals.length = idx.length) (hb : ∀ j, j ∉ idx → b j = 0) (j : ℕ) :
    put b idx vals j = put (fun _ => 0) idx vals j := by
  by_cases hj : j ∈ idx
  · obtain ⟨k, hk, rfl⟩ := List.getElem_of_mem hj
    rw [put_getElem _ _ _ hn hl k hk, put_getElem _ _ _ hn hl k hk]
  · rw [put_not_mem _ _ _ _ hj, put_not_mem _ _ _ _ hj, hb j hj]

/-- summing over the ranks' parts of a list is summing over the list -/
theorem sum_cutG {α M : Type*} [AddCommMonoid M] (S : Setup) (hS : S.Ok) (l : List α)
    (hl : l.length = S.idx.length) (g : α → M) :
    ∑ p ∈ Finset.range S.P, ((S.cutG p l).map g).sum = (l.map g).sum := by
  conv_rhs => rw [← cutG_flatten S hS l hl]
  rw [List.map_flatten, List.sum_flatten, List.map_map, List.map_map, DFTComm.list_sum_range]
  rfl

theorem cutG_zip {α β : Type*} (S : Setup) (p : ℕ) (l : List α) (l' : List β) :
    (S.cutG p l).zip (S.cutG p l') = S.cutG p (l.zip l') := by
  unfold Setup.cutG pySlice
  simp [List.zip, List.take_zipWith, List.drop_zipWith]

theorem sum_getD_zip (idx : List ℕ) (c : List K) (hl : c.length = idx.length) (F : ℕ → K) :
    ∑ k ∈ Finset.range idx.length, F (idx.getD k 0) * c.getD k 0
      = ((idx.zip c).map fun q => F q.1 * q.2).sum := by
  rw [← DFTComm.list_sum_range]
  congr 1
  apply List.ext_getElem
  · simp [hl]
  · intro i h1 h2
    have hi : i < idx.length := by simpa using h1
    simp only [List.getElem_map, List.getElem_range, List.getElem_zip]
    rw [List.getD_eq_getElem c _ (by omega), List.getD_eq_getElem idx _ hi]

theorem length_cutG {α : Type*} (S : Setup) (p : ℕ) (l : List α)
    (hl : l.length = S.idx.length) : (S.cutG p l).length = (S.cutG p S.idx).length := by
  unfold Setup.cutG pySlice
  simp [hl]

theorem g2r_eq (S : Setup) (hS : S.Ok) (bwd : Kern K) (norm : Bool) (st : ℕ → St K)
    (hinv : ∀ p < S.P, Inv S p (st p)) (c : List K) (hl : c.length = S.idx.length) (arr : ℕ → List K)
    (harr : ∀ p < S.P, arr p = S.cutG p c) :
    ∃ st' out, g2r S bwd norm st arr = some (st', out) ∧ (∀ q < S.P, Inv S q (st' q)) ∧
      ∀ q < S.P, ∀ f < S.nxl q * S.d.plane, out q f = scale norm S.d.size *
        ∑ k ∈ Finset.range S.idx.length,
          ker3 S.d bwd (S.x0 q * S.d.plane + f) (S.idx.getD k 0) * c.getD k 0 := by
  obtain ⟨bufs, hb1, hb2⟩ := alltoallv_spec S.P (fun p => (g2rA S bwd norm p (st p) (arr p)).2) S.sticksSpec
    (fun q => (g2rA S bwd norm q (st q) (arr q)).1.trans) S.transSpec
    (fun p hp q hq => (counts_match S q hq p hp).symm)
  have he : g2r S bwd norm st arr = some
      (fun q => (g2rB S bwd norm q (g2rA S bwd norm q (st q) (arr q)).1 (bufs q)).1,
       fun q => (g2rB S bwd norm q (g2rA S bwd norm q (st q) (arr q)).1 (bufs q)).2) := by
    unfold g2r; simp only [hb1]
  -- the transposed data on rank q
  have hlenarr : ∀ p < S.P, (arr p).length = (S.g2sLoc p).length := by
    intro p hp
    rw [harr p hp, length_cutG S p c hl]; simp [Setup.g2sLoc]
  have hinj : ∀ i < S.stk.length, ∀ j < S.stk.length, S.stk.getD i 0 = S.stk.getD j 0 → i = j := by
    intro i hi j hj h
    rw [List.getD_eq_getElem _ _ hi, List.getD_eq_getElem _ _ hj] at h
    exact (List.Nodup.getElem_inj_iff (sticks_nodup S.d S.idx)).1 h
  have hwt : ∀ q < S.P, ∀ p < S.P, ∀ s < S.nst p, ∀ x' < S.nxl q,
      (List.range S.P).foldl
        (fun b p => chunkT b (cum (S.transSpec q) p) (S.nxl q) (S.transSpec q p / S.nxl q)) (bufs q)
        ((sliceStart S.ns S.P p + s) * S.nxl q + x')
      = (g2rA S bwd norm p (st p) (arr p)).2 ((S.x0 q + x') * S.nst p + s) := by
    intro q hq p hp s hs x' hx'
    have hcum1 : cum (S.transSpec q) p = sliceStart S.ns S.P p * S.nxl q := cum_scatter _ _ _ _
    have hcum2 : cum (S.sticksSpec p) q = sliceStart S.d.nx S.P q * S.nst p := cum_scatter _ _ _ _
    have hpos : (sliceStart S.ns S.P p + s) * S.nxl q + x' = cum (S.transSpec q) p + s * S.nxl q + x' := by
      rw [hcum1]; ring
    rw [hpos, chunks_spec S.P (S.nxl q) (S.transSpec q) (fun p => scatterLen S.ns S.P p)
      (fun p _ => Nat.mul_comm _ _) (bufs q) p x' s hp hx' (by rw [← S.nst_eq p hp]; exact hs)]
    have hlt : x' * scatterLen S.ns S.P p + s < S.transSpec q p := by
      have : S.transSpec q p = S.nst p * S.nxl q := by rw [S.nst_eq p hp]; rfl
      rw [this, ← S.nst_eq p hp]; nlinarith
    rw [Nat.add_assoc, hb2 q hq p hp _ hlt, hcum2, ← S.nst_eq p hp]
    have e : sliceStart S.d.nx S.P q * S.nst p + (x' * S.nst p + s) = (S.x0 q + x') * S.nst p + s := by
      unfold Setup.x0; ring
    rw [e]
  refine ⟨_, _, he, ?_, ?_⟩
  · intro q hq
    constructor
    · intro j hj
      show put (st q).xBwd (S.g2sLoc q) (arr q) j = 0
      rw [put_not_mem _ _ _ _ hj]
      exact (hinv q hq).x j hj
    · intro f hf hns
      have hF := foldl_cols S.trans2full.length (fun s => S.trans2full.getD s 0)
        (by rw [sticks2full_id]; exact hinj) (fun f => f / S.d.plane < S.nxl q)
        (fun f => f % S.d.plane) (fun s f => (List.range S.P).foldl
        (fun b p => chunkT b (cum (S.transSpec q) p) (S.nxl q) (S.transSpec q p / S.nxl q)) (bufs q)
          (s * S.nxl q + f / S.d.plane)) (st q).yzBwd f
      refine (hF.2.2 ?_).trans ((hinv q hq).yz f hf hns)
      intro s hs h
      rw [sticks2full_id] at hs h
      apply hns
      rw [h, List.getD_eq_getElem _ _ hs]
      exact List.getElem_mem hs
  · intro q hq f hf
    have hnx : 0 < S.d.nx := by have := hS.planes; have := hS.pos; omega
    have hpl : 0 < S.d.plane := by
      rcases Nat.eq_zero_or_pos S.d.plane with h | h
      · rw [h] at hf; omega
      · exact h
    have hnz : 0 < S.d.nz := by
      unfold Dims.plane at hpl
      exact Nat.pos_of_mul_pos_left hpl
    have hixf : S.d.ix f < S.nxl q := (Nat.div_lt_iff_lt_mul hpl).2 hf
    -- coordinates of the global point
    have hx0 : sliceStart S.d.nx S.P q + S.d.ix f < S.d.nx := slice_lt _ _ _ _ hq hixf
    have gx : S.d.ix (S.x0 q * S.d.plane + f) = S.x0 q + S.d.ix f := by
      unfold Dims.ix
      rw [Nat.mul_comm, Nat.mul_add_div hpl]
    have gy : S.d.iy (S.x0 q * S.d.plane + f) = S.d.iy f := by
      unfold Dims.iy
      have : S.x0 q * S.d.plane + f = S.d.nz * (S.d.ny * S.x0 q) + f := by unfold Dims.plane; ring
      rw [this, Nat.mul_add_div hnz, Nat.mul_add_mod]
    have gz : S.d.iz (S.x0 q * S.d.plane + f) = S.d.iz f := by
      unfold Dims.iz
      have : S.x0 q * S.d.plane + f = S.d.nz * (S.d.ny * S.x0 q) + f := by unfold Dims.plane; ring
      rw [this, Nat.mul_add_mod]
    have hSlt : ∀ s < S.stk.length, S.stk.getD s 0 < S.d.plane := by
      intro s hs
      rw [List.getD_eq_getElem _ _ hs]
      obtain ⟨g, hg, hgs⟩ := (mem_sticks S.d S.idx _).1 (List.getElem_mem hs)
      rw [← hgs]; exact Nat.mod_lt _ hpl
    obtain ⟨W, hW⟩ : ∃ W : ℕ → K, ∀ j, W j = (List.range S.P).foldl
        (fun b p => chunkT b (cum (S.transSpec q) p) (S.nxl q) (S.transSpec q p / S.nxl q)) (bufs q) j :=
      ⟨_, fun _ => rfl⟩
    -- content of the y-z array
    have hbuf : ∀ p < S.d.plane,
        ((List.range S.trans2full.length).foldl (fun b s => fun f =>
          if f % S.d.plane = S.trans2full.getD s 0 ∧ f / S.d.plane < S.nxl q
          then (List.range S.P).foldl
            (fun b p => chunkT b (cum (S.transSpec q) p) (S.nxl q) (S.transSpec q p / S.nxl q)) (bufs q)
            (s * S.nxl q + f / S.d.plane) else b f) (st q).yzBwd) (S.d.ix f * S.d.plane + p)
        = ∑ s ∈ Finset.range S.stk.length, if p = S.stk.getD s 0 then W (s * S.nxl q + S.d.ix f) else 0 := by
      intro p hp
      have hdiv : (S.d.ix f * S.d.plane + p) / S.d.plane = S.d.ix f := by
        rw [Nat.mul_comm, Nat.mul_add_div hpl, Nat.div_eq_of_lt hp, add_zero]
      have hmod : (S.d.ix f * S.d.plane + p) % S.d.plane = p := by
        rw [Nat.mul_comm, Nat.mul_add_mod, Nat.mod_eq_of_lt hp]
      have hF := foldl_cols S.trans2full.length (fun s => S.trans2full.getD s 0)
        (by rw [sticks2full_id]; exact hinj) (fun f => f / S.d.plane < S.nxl q)
        (fun f => f % S.d.plane) (fun s f => (List.range S.P).foldl
        (fun b p => chunkT b (cum (S.transSpec q) p) (S.nxl q) (S.transSpec q p / S.nxl q)) (bufs q)
          (s * S.nxl q + f / S.d.plane)) (st q).yzBwd (S.d.ix f * S.d.plane + p)
      simp only [sticks2full_id] at hF ⊢
      by_cases hex : ∃ s < S.stk.length, p = S.stk.getD s 0
      · obtain ⟨s, hs, hps⟩ := hex
        rw [hF.2.1 s hs (by rw [hmod]; exact hps) (by rw [hdiv]; exact hixf)]
        simp only [hdiv, ← hW]
        rw [Finset.sum_eq_single_of_mem s (Finset.mem_range.2 hs)]
        · rw [if_pos hps]
        · intro b hb hbs
          rw [if_neg]
          intro h
          exact hbs (hinj b (Finset.mem_range.1 hb) s hs (h.symm.trans hps))
      · push Not at hex
        rw [hF.2.2 (by intro s hs; rw [hmod]; exact hex s hs)]
        rw [Finset.sum_eq_zero (fun s hs => by rw [if_neg (hex s (Finset.mem_range.1 hs))])]
        apply (hinv q hq).yz
        · rw [hdiv]; exact hixf
        · rw [hmod]
          intro hm
          obtain ⟨s, hs, hsp⟩ := List.getElem_of_mem hm
          exact hex s hs (by rw [List.getD_eq_getElem _ _ hs, hsp])
    have hout : (g2rB S bwd norm q (g2rA S bwd norm q (st q) (arr q)).1 (bufs q)).2 f
        = scale norm S.d.plane * xformYZ S.d bwd
        ((List.range S.trans2full.length).foldl (fun b s => fun f =>
          if f % S.d.plane = S.trans2full.getD s 0 ∧ f / S.d.plane < S.nxl q
          then (List.range S.P).foldl
            (fun b p => chunkT b (cum (S.transSpec q) p) (S.nxl q) (S.transSpec q p / S.nxl q)) (bufs q)
            (s * S.nxl q + f / S.d.plane) else b f) (st q).yzBwd) f := rfl
    rw [hout]
    unfold xformYZ
    have hstep : ∀ B : ℕ → K, ∑ y ∈ Finset.range S.d.ny, ∑ z ∈ Finset.range S.d.nz,
        bwd.wy (S.d.iy f) y * bwd.wz (S.d.iz f) z * B (S.d.flat (S.d.ix f) y z)
        = ∑ p ∈ Finset.range S.d.plane, bwd.wy (S.d.iy f) (p / S.d.nz) * bwd.wz (S.d.iz f) (p % S.d.nz)
            * B (S.d.ix f * S.d.plane + p) := by
      intro B
      unfold Dims.plane
      rw [DFTComm.sum_range_mul]
      refine Finset.sum_congr rfl fun y hy => Finset.sum_congr rfl fun z hz => ?_
      have hz := Finset.mem_range.1 hz
      have h1 : (y * S.d.nz + z) / S.d.nz = y := by
        rw [Nat.mul_comm, Nat.mul_add_div (by omega), Nat.div_eq_of_lt hz, add_zero]
      have h2 : (y * S.d.nz + z) % S.d.nz = z := by
        rw [Nat.mul_comm, Nat.mul_add_mod, Nat.mod_eq_of_lt hz]
      rw [h1, h2]
      rfl
    rw [hstep]
    rw [Finset.sum_congr rfl (fun p hp => congrArg
      (bwd.wy (S.d.iy f) (p / S.d.nz) * bwd.wz (S.d.iz f) (p % S.d.nz) * ·)
      (hbuf p (Finset.mem_range.1 hp)))]
    -- swap the sums: only stick columns contribute
    have e1 : ∑ p ∈ Finset.range S.d.plane,
        bwd.wy (S.d.iy f) (p / S.d.nz) * bwd.wz (S.d.iz f) (p % S.d.nz) *
          (∑ s ∈ Finset.range S.stk.length, if p = S.stk.getD s 0 then W (s * S.nxl q + S.d.ix f) else 0)
        = ∑ s ∈ Finset.range S.ns,
          bwd.wy (S.d.iy f) (S.stk.getD s 0 / S.d.nz) * bwd.wz (S.d.iz f) (S.stk.getD s 0 % S.d.nz) *
            W (s * S.nxl q + S.d.ix f) := by
      have : ∀ p ∈ Finset.range S.d.plane,
          bwd.wy (S.d.iy f) (p / S.d.nz) * bwd.wz (S.d.iz f) (p % S.d.nz) *
          (∑ s ∈ Finset.range S.stk.length, if p = S.stk.getD s 0 then W (s * S.nxl q + S.d.ix f) else 0)
          = ∑ s ∈ Finset.range S.stk.length, if p = S.stk.getD s 0 then
            bwd.wy (S.d.iy f) (S.stk.getD s 0 / S.d.nz) * bwd.wz (S.d.iz f) (S.stk.getD s 0 % S.d.nz) *
            W (s * S.nxl q + S.d.ix f) else 0 := by
        intro p _
        rw [Finset.mul_sum]
        refine Finset.sum_congr rfl fun s _ => ?_
        split_ifs with h
        · rw [h]
        · simp
      rw [Finset.sum_congr rfl this, Finset.sum_comm]
      refine Finset.sum_congr rfl fun s hs => ?_
      rw [Finset.sum_ite_eq', if_pos (Finset.mem_range.2 (hSlt s (Finset.mem_range.1 hs)))]
    rw [e1]
    -- split the sticks over the ranks
    have e2 : ∀ F : ℕ → K, ∑ s ∈ Finset.range S.ns, F s
        = ∑ p ∈ Finset.range S.P, ∑ s ∈ Finset.range (S.nst p), F (sliceStart S.ns S.P p + s) := by
      intro F
      rw [← DFTComm.sum_blocks S.ns S.P hS.pos F]
      refine Finset.sum_congr rfl fun p hp => ?_
      have hp := Finset.mem_range.1 hp
      rw [← DFTComm.list_sum_range]
      congr 1
      have hlen := length_block (List.range S.ns) S.P p hp
      rw [List.length_range] at hlen
      apply List.ext_getElem
      · simp [hlen, S.nst_eq p hp]
      · intro i h1 h2
        simp only [List.getElem_map, List.getElem_range]
        rw [getElem_block _ _ _ _ hp]
        simp
    rw [e2]
    -- the contribution of one rank
    have e3 : ∀ p ∈ Finset.range S.P, (∑ s ∈ Finset.range (S.nst p),
        bwd.wy (S.d.iy f) (S.stk.getD (sliceStart S.ns S.P p + s) 0 / S.d.nz) *
          bwd.wz (S.d.iz f) (S.stk.getD (sliceStart S.ns S.P p + s) 0 % S.d.nz) *
          W ((sliceStart S.ns S.P p + s) * S.nxl q + S.d.ix f))
        = (((S.cutG p S.idx).zip (S.cutG p c)).map fun u =>
            scale norm S.d.nx * ker3 S.d bwd (S.x0 q * S.d.plane + f) u.1 * u.2).sum := by
      intro p hp
      have hp := Finset.mem_range.1 hp
      obtain ⟨hgn, hgb⟩ := g2sLoc_facts S hS p hp
      obtain ⟨H, hH⟩ : ∃ H : ℕ → K, ∀ j, H j = scale norm S.d.nx *
          (bwd.wx (S.x0 q + S.d.ix f) (j / S.nst p) *
            (bwd.wy (S.d.iy f) (S.stk.getD (sliceStart S.ns S.P p + j % S.nst p) 0 / S.d.nz) *
             bwd.wz (S.d.iz f) (S.stk.getD (sliceStart S.ns S.P p + j % S.nst p) 0 % S.d.nz))) :=
        ⟨_, fun _ => rfl⟩
      have hsum : (∑ s ∈ Finset.range (S.nst p),
          bwd.wy (S.d.iy f) (S.stk.getD (sliceStart S.ns S.P p + s) 0 / S.d.nz) *
          bwd.wz (S.d.iz f) (S.stk.getD (sliceStart S.ns S.P p + s) 0 % S.d.nz) *
          W ((sliceStart S.ns S.P p + s) * S.nxl q + S.d.ix f))
          = ∑ j ∈ Finset.range (S.d.nx * S.nst p), H j * put (fun _ => 0) (S.g2sLoc p) (arr p) j := by
        rw [DFTComm.sum_range_mul, Finset.sum_comm]
        refine Finset.sum_congr rfl fun s hs => ?_
        have hs := Finset.mem_range.1 hs
        rw [hW, hwt q hq p hp s hs _ hixf]
        simp only [g2rA]
        unfold xform0
        have h1 : ((S.x0 q + S.d.ix f) * S.nst p + s) / S.nst p = S.x0 q + S.d.ix f := by
          rw [Nat.mul_comm, Nat.mul_add_div (by omega), Nat.div_eq_of_lt hs, add_zero]
        have h2 : ((S.x0 q + S.d.ix f) * S.nst p + s) % S.nst p = s := by
          rw [Nat.mul_comm, Nat.mul_add_mod, Nat.mod_eq_of_lt hs]
        rw [h1, h2, Finset.mul_sum, Finset.mul_sum]
        refine Finset.sum_congr rfl fun x _ => ?_
        have h3 : (x * S.nst p + s) / S.nst p = x := by
          rw [Nat.mul_comm, Nat.mul_add_div (by omega), Nat.div_eq_of_lt hs, add_zero]
        have h4 : (x * S.nst p + s) % S.nst p = s := by
          rw [Nat.mul_comm, Nat.mul_add_mod, Nat.mod_eq_of_lt hs]
        rw [hH, h3, h4, put_zero_outside _ _ _ hgn (hlenarr p hp) (hinv p hp).x]
        ring
      rw [hsum, sum_put _ _ _ hgn (hlenarr p hp) hgb, sum_getD_zip _ _ (hlenarr p hp), harr p hp]
      unfold Setup.g2sLoc
      rw [List.zip_map_left, List.map_map]
      congr 1
      apply List.map_congr_left
      rintro ⟨g, v⟩ hu
      have hg : g ∈ S.cutG p S.idx := (List.of_mem_zip hu).1
      obtain ⟨s1, s2⟩ := stickLoc_pos S hS p hp g hg
      simp only [Function.comp, Prod.map]
      rw [hH]
      have h3 : (S.d.ix g * S.nst p + searchsorted (S.stkLoc p) (stickOf S.d g)) / S.nst p = S.d.ix g := by
        rw [Nat.mul_comm, Nat.mul_add_div (by omega), Nat.div_eq_of_lt s1, add_zero]
      have h4 : (S.d.ix g * S.nst p + searchsorted (S.stkLoc p) (stickOf S.d g)) % S.nst p
          = searchsorted (S.stkLoc p) (stickOf S.d g) := by
        rw [Nat.mul_comm, Nat.mul_add_mod, Nat.mod_eq_of_lt s1]
      have hzl : S.d.iz g < S.d.nz := Nat.mod_lt _ hnz
      have hiy : stickOf S.d g / S.d.nz = S.d.iy g := by
        unfold stickOf
        rw [Nat.mul_comm, Nat.mul_add_div hnz, Nat.div_eq_of_lt hzl, add_zero]
      have hiz : stickOf S.d g % S.d.nz = S.d.iz g := by
        unfold stickOf
        rw [Nat.mul_comm, Nat.mul_add_mod, Nat.mod_eq_of_lt hzl]
      rw [h3, h4, s2, hiy, hiz]
      unfold ker3
      rw [gx, gy, gz]
      simp
    rw [Finset.sum_congr rfl e3]
    simp only [cutG_zip]
    rw [sum_cutG S hS (S.idx.zip c) (by simp [hl])
      (fun u => scale norm S.d.nx * ker3 S.d bwd (S.x0 q * S.d.plane + f) u.1 * u.2)]
    rw [sum_getD_zip S.idx c hl (fun g => ker3 S.d bwd (S.x0 q * S.d.plane + f) g)]
    have hsc : (scale norm S.d.size : K) = scale norm S.d.plane * scale norm S.d.nx := by
      unfold scale
      cases norm with
      | false => simp
      | true => simp [S.d.size_eq, mul_comm]
    rw [hsc, mul_assoc]
    congr 1
    rw [← List.sum_map_mul_left]
    congr 1
    apply List.map_congr_left
    intro u _
    ring

/-! ## C22: statements -/

/-- The part of a real-space array held by rank `p`: its block of x-planes. -/
def slab (S : Setup) (a : ℕ → K) (p : ℕ) : ℕ → K := fun f => a (S.x0 p * S.d.plane + f)

/-- A collective transform, with the serial array it is applied to. -/
inductive DCall (K : Type*)
  | r2g (a : ℕ → K)
  | g2r (c : List K)

/-- Acceptable argument: one coefficient per G-vector. -/
def DCall.Ok (S : Setup) : DCall K → Prop
  | .r2g _ => True
  | .g2r c => c.length = S.idx.length

/-- The state of all processes after a history of collective transforms on distributed data (`none`: some
exchange failed). -/
noncomputable def runHist (S : Setup) (fwd bwd : Kern K) (norm : Bool) :
    List (DCall K) → (ℕ → St K) → Option (ℕ → St K)
  | [], st => some st
  | .r2g a :: t, st =>
    match r2g S fwd st (slab S a) with
    | none => none
    | some (st', _) => runHist S fwd bwd norm t st'
  | .g2r c :: t, st =>
    match g2r S bwd norm st (fun p => S.cutG p c) with
    | none => none
    | some (st', _) => runHist S fwd bwd norm t st'

theorem inv_fresh (S : Setup) (p : ℕ) (g : St K) : Inv S p g.fresh :=
  ⟨fun _ _ => rfl, fun _ _ _ => rfl⟩

theorem runHist_ok (S : Setup) (hS : S.Ok) (fwd bwd : Kern K) (norm : Bool) (hist : List (DCall K))
    (hok : ∀ c ∈ hist, c.Ok S) (st : ℕ → St K) (hinv : ∀ p < S.P, Inv S p (st p)) :
    ∃ st', runHist S fwd bwd norm hist st = some st' ∧ ∀ p < S.P, Inv S p (st' p) := by
  induction hist generalizing st with
  | nil => exact ⟨st, rfl, hinv⟩
  | cons call t ih =>
    have ht : ∀ c ∈ t, c.Ok S := fun c hc => hok c (List.mem_cons_of_mem _ hc)
    cases call with
    | r2g a =>
      obtain ⟨st', out, h1, h2, _⟩ := r2g_eq S hS fwd st a (slab S a) (fun _ _ _ _ => rfl)
      simp only [runHist, h1]
      refine ih ht st' fun p hp => ⟨fun j hj => ?_, fun f hf hn => ?_⟩
      · rw [(h2 p).1]; exact (hinv p hp).x j hj
      · rw [(h2 p).2]; exact (hinv p hp).yz f hf hn
    | g2r c =>
      have hl : c.length = S.idx.length := hok (.g2r c) (by simp)
      obtain ⟨st', out, h1, h2, _⟩ := g2r_eq S hS bwd norm st hinv c hl (fun p => S.cutG p c)
        (fun _ _ => rfl)
      simp only [runHist, h1]
      exact ih ht st' h2

/-- **C22.** For every G-space, every admissible number of processes, every kernels, whatever the freshly
allocated work arrays contained and after *any* history of earlier collective transforms: no exchange ever
fails (the send and receive counts of every pair of processes agree), and

* the distributed real-to-G transform of a distributed array gives every process exactly its part of the
  serial result;
* the distributed G-to-real transform gives every process exactly its x-planes of the serial result.

The serial results are those of either serial driver (C17 says what these are). -/
theorem C22_distributed_eq_serial (S : Setup) (hS : S.Ok) (fwd bwd : Kern K) (norm : Bool)
    (garbage : ℕ → St K) (hist : List (DCall K)) (hok : ∀ c ∈ hist, c.Ok S)
    (drv : Driver) (sst : DrvState K) :
    ∃ st, runHist S fwd bwd norm hist (fun p => (garbage p).fresh) = some st ∧
      (∀ a : ℕ → K, ∃ st' out, r2g S fwd st (slab S a) = some (st', out) ∧
        ∀ q < S.P, out q = S.cutG q (drv.r2g S.d fwd S.idx sst a).2) ∧
      (∀ c : List K, c.length = S.idx.length →
        ∃ st' out, g2r S bwd norm st (fun p => S.cutG p c) = some (st', out) ∧
          ∀ q < S.P, ∀ f < S.nxl q * S.d.plane,
            out q f = slab S (drv.g2r S.d bwd norm S.idx sst c).2 q f) := by
  obtain ⟨st, h1, h2⟩ := runHist_ok S hS fwd bwd norm hist hok (fun p => (garbage p).fresh)
    (fun p _ => inv_fresh S p _)
  refine ⟨st, h1, ?_, ?_⟩
  · intro a
    obtain ⟨st', out, e1, _, e3⟩ := r2g_eq S hS fwd st a (slab S a) (fun _ _ _ _ => rfl)
    refine ⟨st', out, e1, fun q hq => ?_⟩
    rw [e3 q hq, drv.r2g_eq S.d fwd S.idx hS.valid sst sst.f a a (fun _ _ => rfl), fullR2g_eq]
    unfold Setup.cutG pySlice
    rw [← List.map_drop, ← List.map_take]
  · intro c hl
    obtain ⟨st', out, e1, _, e3⟩ := g2r_eq S hS bwd norm st h2 c hl (fun p => S.cutG p c) (fun _ _ => rfl)
    refine ⟨st', out, e1, fun q hq f hf => ?_⟩
    rw [e3 q hq f hf]
    unfold slab
    have hlt : S.x0 q * S.d.plane + f < S.d.size := by
      have h3 := sliceStart_le S.d.nx S.P (q + 1) hS.pos (by omega)
      rw [sliceStart_succ] at h3
      have h4 : (S.x0 q + S.nxl q) * S.d.plane ≤ S.d.nx * S.d.plane := Nat.mul_le_mul_right _ h3
      rw [S.d.size_eq]
      rw [Nat.add_mul] at h4
      omega
    rw [drv.g2r_eq S.d bwd norm S.idx hS.valid sst sst.f c hl _ hlt, fullG2r_eq S.d bwd norm S.idx hS.valid _ c hl]

/-! ## C23: scatter and gather -/

theorem displ_succ (counts : List ℕ) (r : ℕ) : displ counts (r + 1) = displ counts r + counts.getD r 0 := by
  unfold displ
  by_cases h : r < counts.length
  · rw [List.take_add_one, List.getElem?_eq_getElem h, List.getD_eq_getElem _ _ h, List.sum_append]
    exact congrArg _ (by rw [Option.toList_some, List.sum_singleton])
  · rw [List.take_of_length_le (by omega), List.take_of_length_le (by omega), List.getD_eq_default _ _ (by omega)]
    simp

theorem displ_mono (counts : List ℕ) : Monotone (displ counts) :=
  monotone_nat_of_le_succ fun n => by rw [displ_succ]; omega

theorem scatterv_ok {α : Type*} (counts : List ℕ) (l : List α) (h : counts.sum = l.length) :
    ∃ parts, scatterv counts l = some parts ∧ parts.flatten = l ∧ parts.map List.length = counts := by
  refine ⟨_, by rw [scatterv, if_pos (by omega)], ?_, ?_⟩
  · have := flatten_blocks (displ counts) (displ_mono counts) (by simp [displ]) l counts.length
    simp only [displ_succ] at this
    rw [this]
    rw [show displ counts counts.length = counts.sum by simp [displ], h, List.take_length]
  · apply List.ext_getElem
    · simp
    · intro i h1 h2
      have hd : displ counts (i + 1) ≤ l.length := by
        rw [← h]
        have := displ_mono counts (show i + 1 ≤ counts.length by omega)
        rwa [show displ counts counts.length = counts.sum by simp [displ]] at this
      rw [displ_succ, List.getD_eq_getElem _ _ h2] at hd
      simp only [List.getElem_map, List.getElem_range, pySlice, List.length_take, List.length_drop,
        List.getD_eq_getElem _ _ h2]
      omega

theorem flatten_inj {α : Type*} : ∀ (a b : List (List α)), a.map List.length = b.map List.length →
    a.flatten = b.flatten → a = b
  | [], [], _, _ => rfl
  | [], _ :: _, h, _ => by simp at h
  | _ :: _, [], h, _ => by simp at h
  | x :: a, y :: b, h, hf => by
    simp only [List.map_cons, List.cons.injEq] at h
    simp only [List.flatten_cons] at hf
    obtain ⟨h1, h2⟩ := List.append_inj hf h.1
    rw [h1, flatten_inj a b h.2 h2]

theorem allgatherInPlace_eq {α : Type*} (counts : List ℕ) (parts : List (List α))
    (hp : parts.map List.length = counts) (n : ℕ) (hn : counts.sum = n) (garbage : ℕ → List α)
    (hg : ∀ r, (garbage r).length = n) (start stop : ℕ → ℕ)
    (hs : ∀ r < counts.length, start r = displ counts r ∧ stop r = displ counts (r + 1)) :
    allgatherInPlace counts ((List.range counts.length).map fun r =>
      assignSlice (garbage r) (start r) (stop r) (parts.getD r [])) = parts.flatten := by
  unfold allgatherInPlace
  congr 1
  have hl : parts.length = counts.length := by rw [← hp]; simp
  apply List.ext_getElem
  · simp [hl]
  · intro r h1 h2
    have hr : r < counts.length := by simpa using h1
    have hr' : r < parts.length := by omega
    simp only [List.getElem_map, List.getElem_range]
    rw [List.getD_eq_getElem _ _ (by simpa using hr)]
    simp only [List.getElem_map, List.getElem_range]
    rw [(hs r hr).1, (hs r hr).2, List.getD_eq_getElem _ _ hr', List.getD_eq_getElem _ _ hr]
    have hlen : parts[r].length = counts[r] := by simp only [← hp, List.getElem_map]
    have hd : displ counts r ≤ n := by
      rw [← hn]
      have := displ_mono counts (show r ≤ counts.length by omega)
      rwa [show displ counts counts.length = counts.sum by simp [displ]] at this
    unfold pySlice assignSlice
    rw [List.append_assoc, List.drop_append_of_le_length (by simp [hg]; omega)]
    rw [List.drop_of_length_le (by simp), List.nil_append]
    rw [Nat.add_sub_cancel_left, ← hlen, List.take_left']
    rfl

theorem gSpec_sum (S : Setup) (hS : S.Ok) (r : ℕ) (hr : r ≤ S.P) :
    displ S.gSpec r = cutAt S (sliceStart S.ns S.P r) := by
  induction r with
  | zero => simp [displ, sliceStart_zero, cutAt_zero]
  | succ r ih =>
    rw [displ_succ, ih (by omega)]
    unfold Setup.gSpec
    rw [List.getD_eq_getElem _ _ (by simp; omega)]
    simp only [List.getElem_map, List.getElem_range]
    rw [S.igStart_eq hS r (by omega), S.igStop_eq hS r (by omega)]
    have := cutAt_mono S (sliceStart_mono S.ns S.P (Nat.le_succ r))
    simp only [Nat.succ_eq_add_one] at this
    omega

theorem rSpec_sum (S : Setup) (r : ℕ) (hr : r ≤ S.P) :
    displ S.rSpec r = S.x0 r * S.d.ny * S.d.nz := by
  induction r with
  | zero => simp [displ, Setup.x0, sliceStart_zero]
  | succ r ih =>
    rw [displ_succ, ih (by omega)]
    unfold Setup.rSpec Setup.x0
    rw [List.getD_eq_getElem _ _ (by simp; omega)]
    simp only [List.getElem_map, List.getElem_range]
    rw [sliceStart_succ]; ring

/-- **C23.** For every serial G-space and admissible group size, for data over the G-vectors and for data over
the real-space grid: scattering succeeds and hands every process exactly its own part (the same part the
transforms work on); gathering what was scattered gives the original array; scattering what was gathered
gives the original parts; and gathering to all processes gives every process the same full array, whatever its
receive array contained before. -/
theorem C23_scatter_gather {α : Type*} (S : Setup) (hS : S.Ok) :
    (∀ l : List α, l.length = S.idx.length →
      scatterv S.gSpec l = some ((List.range S.P).map fun p => S.cutG p l) ∧
      gatherv S.gSpec ((List.range S.P).map fun p => S.cutG p l) = some l) ∧
    (∀ l : List α, l.length = S.d.size →
      scatterv S.rSpec l = some ((List.range S.P).map fun p =>
        pySlice l (S.x0 p * S.d.plane) ((S.x0 p + S.nxl p) * S.d.plane)) ∧
      ∃ parts, scatterv S.rSpec l = some parts ∧ gatherv S.rSpec parts = some l) ∧
    (∀ parts : List (List α), parts.map List.length = S.gSpec →
      ∃ l, gatherv S.gSpec parts = some l ∧ scatterv S.gSpec l = some parts ∧
        ∀ garbage : ℕ → List α, (∀ r, (garbage r).length = S.idx.length) →
          allgatherG S garbage parts = l) ∧
    (∀ parts : List (List α), parts.map List.length = S.rSpec →
      ∃ l, gatherv S.rSpec parts = some l ∧ scatterv S.rSpec l = some parts ∧
        ∀ garbage : ℕ → List α, (∀ r, (garbage r).length = S.d.size) →
          allgatherR S garbage parts = l) := by
  have hglen : S.gSpec.length = S.P := by simp [Setup.gSpec]
  have hrlen : S.rSpec.length = S.P := by simp [Setup.rSpec]
  have hgsum : S.gSpec.sum = S.idx.length := by
    have := gSpec_sum S hS S.P le_rfl
    rw [sliceStart_size _ _ hS.pos, cutAt_ns] at this
    rw [← this]; unfold displ; rw [List.take_of_length_le (by omega)]
  have hrsum : S.rSpec.sum = S.d.size := by
    have := rSpec_sum S S.P le_rfl
    unfold Setup.x0 at this
    rw [sliceStart_size _ _ hS.pos] at this
    have e : S.d.size = S.d.nx * S.d.ny * S.d.nz := rfl
    rw [e, ← this]; unfold displ; rw [List.take_of_length_le (by omega)]
  have hgparts : ∀ l : List α, l.length = S.idx.length →
      scatterv S.gSpec l = some ((List.range S.P).map fun p => S.cutG p l) := by
    intro l hl
    rw [scatterv, if_pos (by omega), hglen]
    congr 1
    apply List.map_congr_left
    intro p hp
    have hp := List.mem_range.1 hp
    rw [← displ_succ, gSpec_sum S hS p (by omega), gSpec_sum S hS (p + 1) (by omega), S.cutG_eq hS p hp]
  have hrparts : ∀ l : List α, l.length = S.d.size →
      scatterv S.rSpec l = some ((List.range S.P).map fun p =>
        pySlice l (S.x0 p * S.d.plane) ((S.x0 p + S.nxl p) * S.d.plane)) := by
    intro l hl
    rw [scatterv, if_pos (by omega), hrlen]
    congr 1
    apply List.map_congr_left
    intro p hp
    have hp := List.mem_range.1 hp
    rw [← displ_succ, rSpec_sum S p (by omega), rSpec_sum S (p + 1) (by omega)]
    have e : S.x0 (p + 1) = S.x0 p + S.nxl p := sliceStart_succ _ _ _
    rw [e]
    unfold Dims.plane
    rw [Nat.mul_assoc, Nat.mul_assoc]
  have back : ∀ (counts : List ℕ) (parts : List (List α)), parts.map List.length = counts →
      gatherv counts parts = some parts.flatten ∧ scatterv counts parts.flatten = some parts := by
    intro counts parts hp
    have hsum : counts.sum = parts.flatten.length := by rw [← hp, List.length_flatten]
    obtain ⟨parts', e1, e2, e3⟩ := scatterv_ok counts parts.flatten hsum
    refine ⟨by rw [gatherv, if_pos hp], ?_⟩
    rw [e1, flatten_inj parts' parts (by rw [e3, hp]) e2]
  refine ⟨?_, ?_, ?_, ?_⟩
  · intro l hl
    refine ⟨hgparts l hl, ?_⟩
    obtain ⟨parts', e1, e2, e3⟩ := scatterv_ok S.gSpec l (by omega)
    rw [hgparts l hl] at e1
    rw [Option.some.inj e1, gatherv, if_pos e3, e2]
  · intro l hl
    refine ⟨hrparts l hl, ?_⟩
    obtain ⟨parts', e1, e2, e3⟩ := scatterv_ok S.rSpec l (by omega)
    exact ⟨parts', e1, by rw [gatherv, if_pos e3, e2]⟩
  · intro parts hp
    obtain ⟨h1, h2⟩ := back _ _ hp
    refine ⟨_, h1, h2, fun garbage hg => ?_⟩
    unfold allgatherG
    rw [← hglen]
    refine allgatherInPlace_eq S.gSpec parts hp S.idx.length hgsum garbage hg _ _ ?_
    intro r hr
    rw [hglen] at hr
    exact ⟨by rw [S.igStart_eq hS r hr, gSpec_sum S hS r (by omega)],
      by rw [S.igStop_eq hS r hr, gSpec_sum S hS (r + 1) (by omega)]⟩
  · intro parts hp
    obtain ⟨h1, h2⟩ := back _ _ hp
    refine ⟨_, h1, h2, fun garbage hg => ?_⟩
    unfold allgatherR
    have key := allgatherInPlace_eq S.rSpec parts hp S.d.size hrsum garbage hg
      (fun r => S.x0 r * S.d.ny * S.d.nz) (fun r => sliceStop S.d.nx S.P r * S.d.ny * S.d.nz) ?_
    · rw [hrlen] at key
      exact key
    intro r hr
    rw [hrlen] at hr
    refine ⟨(rSpec_sum S r (by omega)).symm, ?_⟩
    rw [rSpec_sum S (r + 1) (by omega), sliceStop_eq]; rfl

/-- **C23 (arrays with leading axes).** With at least one leading axis, scattering and gathering work row by
row and gathering inverts scattering. -/
theorem C23_rows {α : Type*} (counts shape : List ℕ) (hs : shape ≠ []) (rows : List (List α))
    (hl : rows.length = shape.prod) (hr : ∀ r ∈ rows, r.length = counts.sum) :
    ∃ parts, scatterRows counts shape rows = .ok (some parts) ∧ parts.length = rows.length ∧
      (∀ i (h : i < rows.length), scatterv counts rows[i] = some (parts.getD i [])) ∧
      gatherRows counts shape parts = .ok (some rows) := by
  have hex : ∀ l ∈ rows, ∃ p, scatterv counts l = some p ∧ gatherv counts p = some l := by
    intro l hl
    obtain ⟨p, e1, e2, e3⟩ := scatterv_ok counts l (hr l hl).symm
    exact ⟨p, e1, by rw [gatherv, if_pos e3, e2]⟩
  have main : ∀ (rows : List (List α)), (∀ l ∈ rows, ∃ p, scatterv counts l = some p ∧ gatherv counts p = some l) →
      ∃ parts : List (List (List α)), parts.length = rows.length ∧
        ∀ i (h : i < rows.length), scatterv counts rows[i] = some (parts.getD i []) ∧
          gatherv counts (parts.getD i []) = some rows[i] := by
    intro rows h
    induction rows with
    | nil => exact ⟨[], rfl, by simp⟩
    | cons l t ih =>
      obtain ⟨parts, e1, e2⟩ := ih (fun x hx => h x (by simp [hx]))
      obtain ⟨p, e3, e4⟩ := h l (by simp)
      refine ⟨p :: parts, by simp [e1], fun i hi => ?_⟩
      cases i with
      | zero => exact ⟨e3, e4⟩
      | succ i => simpa using e2 i (by simpa using hi)
  have mapM_ok : ∀ {β γ : Type _} (n : ℕ) (f : ℕ → Option γ) (l : List γ), l.length = n →
      (∀ i (h : i < l.length), f i = some l[i]) → (List.range n).mapM f = some l := by
    intro β γ n f l hln hf
    subst hln
    have : ∀ (k : ℕ), k ≤ l.length → (List.range k).mapM f = some (l.take k) := by
      intro k hk
      induction k with
      | zero => simp
      | succ k ih =>
        rw [List.range_succ, List.mapM_append, ih (by omega), List.take_add_one, List.getElem?_eq_getElem (by omega)]
        rw [List.mapM_cons, hf k (by omega)]
        rfl
    rw [this _ le_rfl, List.take_length]
  obtain ⟨parts, e1, e2⟩ := main rows hex
  refine ⟨parts, ?_, e1, fun i h => (e2 i h).1, ?_⟩
  · unfold scatterRows rowCount
    rw [if_neg hs]
    simp only [Except.map]
    rw [mapM_ok (β := ℕ) _ _ parts (by omega)]
    intro i hi
    rw [List.getD_eq_getElem _ _ (by omega), (e2 i (by omega)).1, List.getD_eq_getElem]
  · unfold gatherRows rowCount
    rw [if_neg hs]
    simp only [Except.map]
    rw [mapM_ok (β := ℕ) _ _ rows (by omega)]
    intro i hi
    rw [(e2 i hi).2]

/-- **C23 (violation).** Scattering or gathering a single field (no leading axis) always fails with a
`TypeError`. -/
theorem C23_single_field_fails {α : Type*} (counts : List ℕ) (rows : List (List α))
    (parts : List (List (List α))) :
    scatterRows counts [] rows = .error .type ∧ gatherRows counts [] parts = .error .type := ⟨rfl, rfl⟩

example : [2] ≠ [] ∧ ([[1, 2, 3], [4, 5, 6]] : List (List ℕ)).length = [2].prod ∧
    ∀ r ∈ ([[1, 2, 3], [4, 5, 6]] : List (List ℕ)), r.length = [1, 2].sum := by decide

/-! ## Every G-space the library builds meets the hypotheses -/

/-- **C21 (link to C10/C11).** For every grid and every non-empty list of distinct G-vectors inside the grid, the
G-space built by the serial constructor gives valid, distinct grid indices in stick order, so it can be
distributed over any number of processes not exceeding its sticks and x-planes. -/
theorem C21_reachable (s : GSpace.Shape) (hs : s.Pos) (gs : List GSpace.GVec)
    (hg : ∀ g ∈ gs, GSpace.inBounds s g = true) (hnd : gs.Nodup) (hne : gs ≠ []) :
    ∃ b, GSpace.mkBase s gs = .ok b ∧
      ∀ P, 0 < P → P ≤ (Setup.mk ⟨s.n1, s.n2, s.n3⟩ (b.idxgrid.map Int.toNat) P).ns → P ≤ s.n1 →
        (Setup.mk ⟨s.n1, s.n2, s.n3⟩ (b.idxgrid.map Int.toNat) P).Ok := by
  obtain ⟨b, hb, h1, h2, h3, _, _⟩ := GSpace.C11_canonical_order s hs gs hg hne
  refine ⟨b, hb, fun P hP hst hpl => ?_⟩
  obtain ⟨_, _, hrange, hinj⟩ := GSpace.C10_index_bijection s hs
  have hgb : ∀ g ∈ b.gCryst, GSpace.inBounds s g = true := fun g h => hg g (h1.mem_iff.1 h)
  have hmap : b.idxgrid.map Int.toNat = b.gCryst.map fun g => (GSpace.flatIdx s g).toNat := by
    rw [h3, List.map_map]; rfl
  have hst' : ∀ g ∈ b.gCryst, stickOf ⟨s.n1, s.n2, s.n3⟩ (GSpace.flatIdx s g).toNat
      = (g.2.1 % s.n2).toNat * s.n3 + (g.2.2 % s.n3).toNat := by
    intro g hgm
    have hgi := hgb g hgm
    have := GSpace.unravel_flatIdx s hs g hgi
    rw [GSpace.inBounds_iff] at hgi
    rw [GSpace.wrap_eq_emod _ _ hgi.1, GSpace.wrap_eq_emod _ _ hgi.2.1, GSpace.wrap_eq_emod _ _ hgi.2.2] at this
    simp only [GSpace.unravel, Prod.mk.injEq] at this
    unfold stickOf Dims.iy Dims.iz
    rw [this.2.1, this.2.2]
  refine ⟨⟨?_, ?_⟩, ?_, hP, hst, hpl⟩
  · show (b.idxgrid.map Int.toNat).Nodup
    rw [hmap, List.nodup_map_iff_inj_on (h1.nodup_iff.2 hnd)]
    intro x hx y hy hxy
    have hx' := hrange x (hgb x hx)
    have hy' := hrange y (hgb y hy)
    obtain ⟨g, _, hu⟩ := hinj _ hx'.1 hx'.2
    have e : GSpace.flatIdx s y = GSpace.flatIdx s x := by omega
    rw [hu x ⟨hgb x hx, rfl⟩, hu y ⟨hgb y hy, e⟩]
  · intro f hf
    have hf : f ∈ b.idxgrid.map Int.toNat := hf
    rw [hmap, List.mem_map] at hf
    obtain ⟨g, hgm, rfl⟩ := hf
    have := hrange g (hgb g hgm)
    show (GSpace.flatIdx s g).toNat < s.n1 * s.n2 * s.n3
    unfold GSpace.Shape.size at this
    omega
  · show (List.map (stickOf ⟨s.n1, s.n2, s.n3⟩) (b.idxgrid.map Int.toNat)).Pairwise (· ≤ ·)
    rw [hmap, List.map_map, List.pairwise_map]
    refine h2.imp_of_mem ?_
    intro g g' hgm hgm' hc
    show stickOf _ _ ≤ stickOf _ _
    rw [hst' g hgm, hst' g' hgm']
    have n2 : (0:ℤ) < s.n2 := by exact_mod_cast hs.2.1
    have n3 : (0:ℤ) < s.n3 := by exact_mod_cast hs.2.2
    have b1 := Int.emod_nonneg g.2.1 n2.ne'
    have b2 := Int.emod_nonneg g'.2.1 n2.ne'
    have c1 := Int.emod_nonneg g.2.2 n3.ne'
    have c2 := Int.emod_nonneg g'.2.2 n3.ne'
    have d1 := Int.emod_lt_of_pos g.2.2 n3
    unfold GSpace.CanonLe at hc
    simp only at hc
    rcases hc with h | ⟨h, h'⟩
    · have h4 : (g.2.1 % (s.n2:ℤ)).toNat + 1 ≤ (g'.2.1 % (s.n2:ℤ)).toNat := by omega
      have h5 := Nat.mul_le_mul_right s.n3 h4
      rw [Nat.add_mul, Nat.one_mul] at h5
      omega
    · rw [h]
      have : (g.2.2 % (s.n3:ℤ)).toNat ≤ (g'.2.2 % (s.n3:ℤ)).toNat := by omega
      omega

/-! ## The hypotheses are met -/

/-- a 2×2×2 grid with four G-vectors on three sticks, two processes -/
example : (⟨⟨2, 2, 2⟩, [0, 4, 1, 2], 2⟩ : Setup).Ok where
  valid := ⟨by decide, by decide⟩
  sorted := by decide
  pos := by decide
  sticks := by
    have h0 : (0 : ℕ) ∈ (⟨⟨2, 2, 2⟩, [0, 4, 1, 2], 2⟩ : Setup).stk := (Setup.mem_stk _ _).2 (by decide)
    have h1 : (1 : ℕ) ∈ (⟨⟨2, 2, 2⟩, [0, 4, 1, 2], 2⟩ : Setup).stk := (Setup.mem_stk _ _).2 (by decide)
    obtain ⟨i, hi, e⟩ := List.getElem_of_mem h0
    obtain ⟨j, hj, e'⟩ := List.getElem_of_mem h1
    show 2 ≤ (⟨⟨2, 2, 2⟩, [0, 4, 1, 2], 2⟩ : Setup).stk.length
    by_contra hc
    have : i = j := by omega
    subst this
    omega
  planes := by decide

end Verif.Dist
