import Mathlib.Data.List.GetD
import Mathlib.Data.List.Sort
import Mathlib.Tactic.Linarith
import Mathlib.Tactic.LinearCombination
import Mathlib.Analysis.SpecialFunctions.Complex.Circle
import Verif.Model.BGWMat
import Verif.Props.GSpace

/-!
# C52 (dielectric matrices), C123 (wavefunction files), C124 (atoms of a wavefunction file)
-/

namespace Verif.BGW

open Verif.GSpace (GVec at' gather)
open scoped ComplexConjugate

/-! ## C52 -/

/-- A number that numpy's `allclose(·, 0)` takes for zero. -/
def Tiny (z : ℂ) : Prop := ‖z‖ ≤ 1 / 100000000

theorem closeZero_iff (z : ℂ) : closeZero z = true ↔ Tiny z := by
  unfold closeZero Tiny
  simp

/-- `d` is the length left when tiny rows (columns) are dropped from the end: the `d`-th is not tiny, everything behind it is. -/
def TailLength (n d : ℕ) (tiny : ℕ → Prop) : Prop := d ≤ n ∧ (∀ i, d ≤ i → i < n → tiny i) ∧ (∀ i, i + 1 = d → ¬ tiny i)

theorem dropTail_spec (zero : ℕ → Bool) (n : ℕ) : TailLength n (dropTail zero n) fun i => zero i = true := by
  induction n with
  | zero => exact ⟨le_refl _, fun i _ h => absurd h (by omega), fun i h => by simp [dropTail] at h⟩
  | succ n ih =>
    unfold dropTail
    by_cases h : zero n = true
    · rw [if_pos h]
      refine ⟨by have := ih.1; omega, ?_, ih.2.2⟩
      intro i hi hn
      by_cases e : i = n
      · rw [e]; exact h
      · exact ih.2.1 i hi (by omega)
    · rw [if_neg h]
      refine ⟨le_refl _, fun i h1 h2 => by omega, ?_⟩
      intro i hi
      obtain rfl : i = n := by omega
      exact h

theorem tailLength_unique {n m d e : ℕ} {tiny : ℕ → Prop} (hd : TailLength n d tiny) (he : TailLength m e tiny)
    (hz : ∀ i, n ≤ i → i < m → tiny i) (hnm : n ≤ m) : d = e := by
  by_contra hne
  rcases Nat.lt_or_gt_of_ne hne with h | h
  · -- e - 1 ≥ d is tiny
    obtain ⟨j, rfl⟩ : ∃ j, e = j + 1 := ⟨e - 1, by omega⟩
    apply he.2.2 j rfl
    by_cases hj : j < n
    · exact hd.2.1 j (by omega) hj
    · exact hz j (by omega) (by have := he.1; omega)
  · obtain ⟨j, rfl⟩ : ∃ j, d = j + 1 := ⟨d - 1, by omega⟩
    apply hd.2.2 j rfl
    exact he.2.1 j (by omega) (by have := hd.1; omega)

theorem foldl_max_ge (l : List ℕ) (a : ℕ) : a ≤ l.foldl max a ∧ ∀ x ∈ l, x ≤ l.foldl max a := by
  induction l generalizing a with
  | nil => exact ⟨le_refl _, fun x hx => by simp at hx⟩
  | cons y t ih =>
    rw [List.foldl_cons]
    obtain ⟨h1, h2⟩ := ih (max a y)
    refine ⟨le_trans (le_max_left _ _) h1, ?_⟩
    intro x hx
    rcases List.mem_cons.1 hx with rfl | hx
    · exact le_trans (le_max_right _ _) h1
    · exact h2 x hx

theorem maxDim_ge (ms : List Mat) (N : ℕ) (h : maxDim ms = .ok N) : ∀ m ∈ ms, m.rows ≤ N ∧ m.cols ≤ N := by
  cases ms with
  | nil => cases h
  | cons m t =>
    have hN : (t.map fun m => max m.rows m.cols).foldl max (max m.rows m.cols) = N := by
      unfold maxDim at h; exact Except.ok.inj h
    intro x hx
    have := foldl_max_ge (t.map fun m => max m.rows m.cols) (max m.rows m.cols)
    rw [hN] at this
    rcases List.mem_cons.1 hx with rfl | hx
    · exact ⟨le_trans (le_max_left _ _) this.1, le_trans (le_max_right _ _) this.1⟩
    · have := this.2 _ (List.mem_map.2 ⟨x, hx, rfl⟩)
      exact ⟨le_trans (le_max_left _ _) this, le_trans (le_max_right _ _) this⟩

theorem conj_cplx (z : ℂ) : conj (realToCplx (cplxToReal z)) = conj z := by
  congr 1
  unfold realToCplx cplxToReal
  simp only
  rw [mul_comm]
  exact Complex.re_add_im z

theorem tiny_zero : Tiny 0 := by unfold Tiny; rw [norm_zero]; norm_num

theorem tiny_conj (z : ℂ) : Tiny (conj z) ↔ Tiny z := by unfold Tiny; rw [Complex.norm_conj]

/-- Row `i` is tiny. -/
def RowTiny (m : Mat) (i : ℕ) : Prop := ∀ j < m.cols, Tiny (m.e i j)

/-- Column `j` is tiny in the first `r` rows. -/
def ColTiny (m : Mat) (r j : ℕ) : Prop := ∀ i < r, Tiny (m.e i j)

/-- **C52 (what comes back).** Every non-empty list of matrices can be written, and reading returns one matrix for each: the leading square block of
the *complex conjugate*, of the size left after dropping tiny rows and then tiny columns at the end. -/
theorem C52_read_back (ms : List Mat) (hne : ms ≠ []) : ∃ s, writeMats ms = .ok s ∧ (readMats s).length = ms.length
    ∧ ∀ k (hk : k < ms.length), ∃ r c, TailLength ms[k].rows r (RowTiny ms[k]) ∧ TailLength ms[k].cols c (ColTiny ms[k] r)
      ∧ ((readMats s).getD k ⟨0, 0, fun _ _ => 0⟩).rows = min r c ∧ ((readMats s).getD k ⟨0, 0, fun _ _ => 0⟩).cols = min r c
      ∧ ∀ i j, i < min r c → j < min r c → ((readMats s).getD k ⟨0, 0, fun _ _ => 0⟩).e i j = conj (ms[k].e i j) := by
  obtain ⟨N, hN⟩ : ∃ N, maxDim ms = .ok N := by
    cases ms with
    | nil => exact absurd rfl hne
    | cons m t => exact ⟨_, rfl⟩
  refine ⟨⟨N, ms.map fun m i j => cplxToReal ((pad N m).e i j)⟩, by unfold writeMats; rw [hN], by simp [readMats], ?_⟩
  intro k hk
  have hdim := maxDim_ge ms N hN ms[k] (List.getElem_mem hk)
  set m := ms[k] with hm
  have hget : (readMats ⟨N, ms.map fun m i j => cplxToReal ((pad N m).e i j)⟩).getD k ⟨0, 0, fun _ _ => 0⟩
      = unpad ⟨N, N, fun i j => conj ((pad N m).e i j)⟩ := by
    unfold readMats
    rw [List.getD_eq_getElem _ _ (by simpa using hk), List.getElem_map, List.getElem_map]
    simp only [conj_cplx]
    rw [← hm]
  rw [hget]
  -- the padded conjugate
  set P : Mat := ⟨N, N, fun i j => conj ((pad N m).e i j)⟩ with hP
  have hPe : ∀ i j, P.e i j = if i < m.rows ∧ j < m.cols then conj (m.e i j) else 0 := by
    intro i j
    show conj ((pad N m).e i j) = _
    unfold pad
    simp only
    split_ifs <;> simp
  -- rows
  have hrz : ∀ i, i < m.rows → (rowZero P i = true ↔ RowTiny m i) := by
    intro i hi
    unfold rowZero RowTiny
    simp only [List.all_eq_true, List.mem_range, closeZero_iff]
    constructor
    · intro h j hj
      have := h j (by have := hdim.2; show j < N; omega)
      rw [hPe, if_pos ⟨hi, hj⟩, tiny_conj] at this
      exact this
    · intro h j _
      rw [hPe]
      by_cases hj : j < m.cols
      · rw [if_pos ⟨hi, hj⟩, tiny_conj]; exact h j hj
      · rw [if_neg (by intro hh; exact hj hh.2)]; exact tiny_zero
  have hrbig : ∀ i, m.rows ≤ i → rowZero P i = true := by
    intro i hi
    unfold rowZero
    simp only [List.all_eq_true, List.mem_range, closeZero_iff]
    intro j _
    rw [hPe, if_neg (by omega)]
    exact tiny_zero
  set r := dropTail (rowZero P) P.rows with hr
  have hrN := dropTail_spec (rowZero P) P.rows
  rw [← hr] at hrN
  have hrm : r ≤ m.rows := by
    by_contra hc
    exact hrN.2.2 (r - 1) (by omega) (hrbig _ (by omega))
  have hrow : TailLength m.rows r (RowTiny m) := by
    refine ⟨hrm, fun i h1 h2 => (hrz i h2).1 (hrN.2.1 i h1 (by show i < N; have := hdim.1; omega)), ?_⟩
    intro i hi ht
    exact hrN.2.2 i hi ((hrz i (by omega)).2 ht)
  -- columns
  set A : Mat := { P with rows := r } with hA
  have hcz : ∀ j, j < m.cols → (colZero A j = true ↔ ColTiny m r j) := by
    intro j hj
    unfold colZero ColTiny
    simp only [List.all_eq_true, List.mem_range, closeZero_iff]
    constructor
    · intro h i hi
      have := h i hi
      rw [show A.e i j = P.e i j from rfl, hPe, if_pos ⟨by omega, hj⟩, tiny_conj] at this
      exact this
    · intro h i hi
      have hi' : i < r := hi
      rw [show A.e i j = P.e i j from rfl, hPe, if_pos ⟨by omega, hj⟩, tiny_conj]
      exact h i hi'
  have hcbig : ∀ j, m.cols ≤ j → colZero A j = true := by
    intro j hj
    unfold colZero
    simp only [List.all_eq_true, List.mem_range, closeZero_iff]
    intro i _
    rw [show A.e i j = P.e i j from rfl, hPe, if_neg (by omega)]
    exact tiny_zero
  set c := dropTail (colZero A) A.cols with hc
  have hcN := dropTail_spec (colZero A) A.cols
  rw [← hc] at hcN
  have hcm : c ≤ m.cols := by
    by_contra hcc
    exact hcN.2.2 (c - 1) (by omega) (hcbig _ (by omega))
  have hcol : TailLength m.cols c (ColTiny m r) := by
    refine ⟨hcm, fun i h1 h2 => (hcz i h2).1 (hcN.2.1 i h1 (by show i < N; have := hdim.2; omega)), ?_⟩
    intro i hi ht
    exact hcN.2.2 i hi ((hcz i (by omega)).2 ht)
  refine ⟨r, c, hrow, hcol, rfl, rfl, ?_⟩
  intro i j hi hj
  show P.e i j = _
  rw [hPe, if_pos ⟨by omega, by omega⟩]

/-- The diagonal dataset holds the diagonal of every padded matrix. -/
theorem C52_diagonal (ms : List Mat) (s : Stored) (h : writeMats ms = .ok s) (k : ℕ) (hk : k < ms.length) (i : ℕ) (hi : i < s.n) :
    ((diagonal s k).getD 0 []).getD i 0 = (if i < ms[k].rows ∧ i < ms[k].cols then ms[k].e i i else 0).re
    ∧ ((diagonal s k).getD 1 []).getD i 0 = (if i < ms[k].rows ∧ i < ms[k].cols then ms[k].e i i else 0).im := by
  unfold writeMats at h
  split at h
  · cases h
  · injection h with h
    subst h
    have hi' : i < _ := hi
    simp only [diagonal]
    constructor
    · show ((List.range _).map _).getD i 0 = _
      rw [List.getD_eq_getElem _ _ (by simpa using hi), List.getElem_map, List.getElem_range, List.getD_eq_getElem _ _ (by simpa using hk),
        List.getElem_map]
      rfl
    · show ((List.range _).map _).getD i 0 = _
      rw [List.getD_eq_getElem _ _ (by simpa using hi), List.getElem_map, List.getElem_range, List.getD_eq_getElem _ _ (by simpa using hk),
        List.getElem_map]
      rfl

/-- Same matrix: shape and entries. -/
def SameMat (a b : Mat) : Prop := a.rows = b.rows ∧ a.cols = b.cols ∧ ∀ i j, i < a.rows → j < a.cols → a.e i j = b.e i j

/-- **C52 (partial).** Real square matrices whose last row and last column are not tiny survive. Missing: complex matrices (`C52_conjugated`)
and matrices with a tiny last row or column (`C52_dropped`). -/
theorem C52_partial (ms : List Mat) (hne : ms ≠ []) (hsq : ∀ m ∈ ms, m.rows = m.cols ∧ 0 < m.rows)
    (hlast : ∀ m ∈ ms, ¬ RowTiny m (m.rows - 1) ∧ ¬ ColTiny m m.rows (m.cols - 1)) (hreal : ∀ m ∈ ms, ∀ i j, (m.e i j).im = 0) :
    ∃ s, writeMats ms = .ok s ∧ (readMats s).length = ms.length
      ∧ ∀ k (hk : k < ms.length), SameMat ((readMats s).getD k ⟨0, 0, fun _ _ => 0⟩) ms[k] := by
  obtain ⟨s, hs, hlen, h⟩ := C52_read_back ms hne
  refine ⟨s, hs, hlen, ?_⟩
  intro k hk
  obtain ⟨r, c, hr, hc, h1, h2, h3⟩ := h k hk
  have hmem := List.getElem_mem hk
  have hr' : r = ms[k].rows := by
    by_contra hcon
    have : r < ms[k].rows := lt_of_le_of_ne hr.1 hcon
    exact (hlast _ hmem).1 (hr.2.1 _ (by omega) (by omega))
  subst hr'
  have hc' : c = ms[k].cols := by
    by_contra hcon
    have : c < ms[k].cols := lt_of_le_of_ne hc.1 hcon
    exact (hlast _ hmem).2 (hc.2.1 _ (by omega) (by omega))
  subst hc'
  have hq := (hsq _ hmem).1
  rw [← hq, min_self] at h1 h2 h3
  refine ⟨h1, by rw [h2, hq], ?_⟩
  intro i j hi hj
  rw [h3 i j (by omega) (by omega)]
  exact Complex.conj_eq_iff_im.2 (hreal _ hmem i j)

/-- The matrix `[[1, i], [-i, 1]]`. -/
def hermI : Mat := ⟨2, 2, fun i j => if i = j then 1 else if i < j then Complex.I else -Complex.I⟩

/-- **C52 (violated).** A Hermitian matrix comes back as its complex conjugate (its transpose). -/
theorem C52_conjugated : ∃ s, writeMats [hermI] = .ok s ∧ ((readMats s).getD 0 ⟨0, 0, fun _ _ => 0⟩).e 0 1 ≠ hermI.e 0 1 := by
  obtain ⟨s, hs, _, h⟩ := C52_read_back [hermI] (by simp)
  refine ⟨s, hs, ?_⟩
  obtain ⟨r, c, hr, hc, _, _, h3⟩ := h 0 (by simp)
  have hbig : ¬ Tiny (1 : ℂ) := by unfold Tiny; rw [norm_one]; norm_num
  have hr2 : r = 2 := by
    have h2 : r ≤ 2 := hr.1
    by_contra hcon
    apply hbig
    have := hr.2.1 1 (by omega) (by show 1 < 2; omega) 1 (by show 1 < 2; omega)
    simpa [hermI] using this
  subst hr2
  have hc2 : c = 2 := by
    have h2 : c ≤ 2 := hc.1
    by_contra hcon
    apply hbig
    have := hc.2.1 1 (by omega) (by show 1 < 2; omega) 1 (by omega)
    simpa [hermI] using this
  subst hc2
  rw [h3 0 1 (by decide) (by decide)]
  show conj (hermI.e 0 1) ≠ hermI.e 0 1
  unfold hermI
  simp only [Nat.zero_ne_one, if_false, Nat.zero_lt_one, if_true]
  rw [Complex.conj_I]
  intro hcon
  have := congrArg Complex.im hcon
  simp at this
  norm_num at this

/-- **C52 (violated).** A square matrix whose last row is tiny comes back with fewer rows and columns. -/
theorem C52_dropped (ms : List Mat) (k : ℕ) (hk : k < ms.length) (hpos : 0 < ms[k].rows) (htiny : RowTiny ms[k] (ms[k].rows - 1)) :
    ∃ s, writeMats ms = .ok s ∧ ((readMats s).getD k ⟨0, 0, fun _ _ => 0⟩).rows < ms[k].rows := by
  obtain ⟨s, hs, _, h⟩ := C52_read_back ms (by rintro rfl; simp at hk)
  refine ⟨s, hs, ?_⟩
  obtain ⟨r, c, hr, hc, h1, _, _⟩ := h k hk
  rw [h1]
  refine lt_of_le_of_lt (min_le_left _ _) (lt_of_le_of_ne hr.1 ?_)
  intro e
  exact hr.2.2 (ms[k].rows - 1) (by omega) htiny

/-- The hypotheses of `C52_partial` are met by two matrices of different sizes. -/
example : ∀ m ∈ [(⟨2, 2, fun i j => if i = j then 1 else 0⟩ : Mat), ⟨1, 1, fun _ _ => 2⟩], (m.rows = m.cols ∧ 0 < m.rows)
    ∧ (¬ RowTiny m (m.rows - 1) ∧ ¬ ColTiny m m.rows (m.cols - 1)) ∧ ∀ i j, (m.e i j).im = 0 := by
  have hbig : ¬ Tiny (1 : ℂ) := by unfold Tiny; rw [norm_one]; norm_num
  have hbig2 : ¬ Tiny (2 : ℂ) := by unfold Tiny; rw [Complex.norm_ofNat]; norm_num
  intro m hm
  simp only [List.mem_cons, List.not_mem_nil, or_false] at hm
  rcases hm with rfl | rfl
  · refine ⟨by decide, ⟨?_, ?_⟩, ?_⟩
    · intro h; apply hbig; simpa using h 1 (by decide)
    · intro h; apply hbig; simpa using h 1 (by decide)
    · intro i j; dsimp only; split_ifs <;> simp
  · refine ⟨by decide, ⟨?_, ?_⟩, ?_⟩
    · intro h; exact hbig2 (h 0 (by decide))
    · intro h; exact hbig2 (h 0 (by decide))
    · intro i j; dsimp only; simp

/-! ## C123 -/

theorem lexG_trans (a b c : GVec) (h1 : lexG a b = true) (h2 : lexG b c = true) : lexG a c = true := by
  simp only [lexG, decide_eq_true_eq] at *; omega

theorem lexG_total (a b : GVec) : (lexG a b || lexG b a) = true := by
  simp only [lexG, Bool.or_eq_true, decide_eq_true_eq]; omega

theorem lexG_antisymm (a b : GVec) (h1 : lexG a b = true) (h2 : lexG b a = true) : a = b := by
  obtain ⟨a1, a2, a3⟩ := a
  obtain ⟨b1, b2, b3⟩ := b
  simp only [lexG, decide_eq_true_eq, Prod.mk.injEq] at *; omega

theorem lexsort_perm (l : List GVec) : (lexsort l).Perm (List.range l.length) := List.mergeSort_perm _ _

theorem gather_lexsort_sorted (l : List GVec) : (gather l (lexsort l)).Pairwise fun a b => lexG a b = true := by
  unfold gather
  rw [List.pairwise_map]
  unfold lexsort
  apply List.pairwise_mergeSort
  · intro a b c h1 h2; exact lexG_trans _ _ _ h1 h2
  · intro a b; exact lexG_total _ _

/-- Lists with the same vectors have the same sorted form. -/
theorem gather_lexsort_eq (a b : List GVec) : gather a (lexsort a) = gather b (lexsort b) ↔ a.Perm b := by
  constructor
  · intro h
    exact ((GSpace.gather_perm a _ (lexsort_perm a)).symm.trans (h ▸ List.Perm.refl _)).trans (GSpace.gather_perm b _ (lexsort_perm b))
  · intro h
    refine List.Perm.eq_of_pairwise (le := fun a b => lexG a b = true) ?_ (gather_lexsort_sorted a) (gather_lexsort_sorted b) ?_
    · intro x y _ _ h1 h2; exact lexG_antisymm x y h1 h2
    · exact ((GSpace.gather_perm a _ (lexsort_perm a)).trans h).trans (GSpace.gather_perm b _ (lexsort_perm b)).symm

theorem find_zip_perm (pos val : List ℕ) (hnd : pos.Nodup) (t : ℕ) (ht : t < pos.length) (hl : pos.length = val.length) :
    ((pos.zip val).reverse.find? fun p => p.1 = pos[t]) = some (pos[t], val[t]'(hl ▸ ht)) := by
  cases hf : (pos.zip val).reverse.find? fun p => p.1 = pos[t] with
  | none =>
    exfalso
    rw [List.find?_eq_none] at hf
    have : (pos[t], val[t]'(hl ▸ ht)) ∈ (pos.zip val).reverse := by
      rw [List.mem_reverse, List.mem_iff_getElem]
      exact ⟨t, by simp [ht, ← hl], by simp⟩
    simpa using hf _ this
  | some p =>
    have h1 := List.find?_some hf
    have h2 := List.mem_of_find?_eq_some hf
    rw [List.mem_reverse, List.mem_iff_getElem] at h2
    obtain ⟨u, hu, rfl⟩ := h2
    simp only [List.getElem_zip, decide_eq_true_eq] at h1
    have : u = t := (List.Nodup.getElem_inj_iff hnd).1 h1
    subst this
    simp

/-- **C123 (order of plane waves).** The map between the two orders of the plane waves exists exactly if the file and the calculation use the same
set of plane waves, and then every plane wave is matched with the same plane wave of the file. -/
theorem C123_plane_waves (junk : ℕ → ℕ) (py bgw : List GVec) :
    (py.Perm bgw → ∃ idx, bgw2pw junk py bgw = .ok idx ∧ idx.length = py.length
      ∧ ∀ i < py.length, at' idx i < bgw.length ∧ at' bgw (at' idx i) = at' py i)
    ∧ (¬ py.Perm bgw → bgw2pw junk py bgw = .error .assertion) := by
  constructor
  · intro h
    have hs := (gather_lexsort_eq bgw py).2 h.symm
    refine ⟨_, by unfold bgw2pw; rw [if_pos hs], by simp [scatter], ?_⟩
    intro i hi
    have hmem : i ∈ lexsort py := (lexsort_perm py).mem_iff.2 (List.mem_range.2 hi)
    obtain ⟨t, ht, hti⟩ := List.mem_iff_getElem.1 hmem
    have hl : (lexsort py).length = (lexsort bgw).length := by
      rw [(lexsort_perm py).length_eq, (lexsort_perm bgw).length_eq, List.length_range, List.length_range, h.length_eq]
    have e : at' (scatter py.length junk (lexsort py) (lexsort bgw)) i = (lexsort bgw)[t]'(hl ▸ ht) := by
      unfold at' scatter
      rw [List.getD_eq_getElem _ _ (by simpa using hi), List.getElem_map, List.getElem_range]
      have := find_zip_perm (lexsort py) (lexsort bgw) ((lexsort_perm py).nodup_iff.2 List.nodup_range) t ht hl
      rw [hti] at this
      rw [this]
      rfl
    rw [e]
    have hlt : (lexsort bgw)[t]'(hl ▸ ht) < bgw.length :=
      List.mem_range.1 ((lexsort_perm bgw).mem_iff.1 (List.getElem_mem _))
    refine ⟨hlt, ?_⟩
    have h1 : at' (gather bgw (lexsort bgw)) t = at' bgw ((lexsort bgw)[t]'(hl ▸ ht)) := by
      rw [GSpace.at'_gather _ _ _ (hl ▸ ht)]
      congr 1
      unfold at'
      rw [List.getD_eq_getElem _ _ (hl ▸ ht)]
    have h2 : at' (gather py (lexsort py)) t = at' py i := by
      rw [GSpace.at'_gather _ _ _ ht]
      congr 1
      unfold at'
      rw [List.getD_eq_getElem _ _ ht, hti]
    rw [← h1, hs, h2]
  · intro h
    unfold bgw2pw
    rw [if_neg]
    intro hs
    exact h ((gather_lexsort_eq bgw py).1 hs).symm

theorem splitAt'_getD {α : Type*} (l : List α) (ns : List ℕ) (a k : ℕ) (hk : k < ns.length) :
    (splitAt' l a (cumsumFrom a ns)).getD k [] = pySlice l (a + (ns.take k).sum) (a + (ns.take (k + 1)).sum) := by
  induction ns generalizing a k with
  | nil => simp at hk
  | cons n t ih =>
    cases k with
    | zero => simp [cumsumFrom, splitAt']
    | succ k =>
      have := ih (a + n) k (by simpa using hk)
      simp only [cumsumFrom, splitAt', List.getD_cons_succ, List.take_succ_cons, List.sum_cons]
      rw [this]
      congr 1 <;> omega

theorem splitAt'_last {α : Type*} (l : List α) (ns : List ℕ) (a : ℕ) :
    (splitAt' l a (cumsumFrom a ns)).getD ns.length [] = l.drop (a + ns.sum) := by
  induction ns generalizing a with
  | nil => simp [cumsumFrom, splitAt']
  | cons n t ih =>
    simp only [cumsumFrom, splitAt', List.length_cons, List.getD_cons_succ, List.sum_cons]
    rw [ih]
    congr 1
    omega

/-- Splitting by plane-wave counts. -/
theorem splitK_getD {α : Type*} (l : List α) (ngk : List ℕ) (hl : l.length = ngk.sum) (k : ℕ) (hk : k < ngk.length) :
    (splitK l ngk).getD k [] = pySlice l (ngk.take k).sum (ngk.take (k + 1)).sum := by
  unfold splitK
  by_cases h : k < ngk.dropLast.length
  · rw [splitAt'_getD l _ 0 k h]
    have h' : k < ngk.length - 1 := by simpa using h
    have e : ∀ j, j ≤ ngk.length - 1 → ngk.dropLast.take j = ngk.take j := by
      intro j hj
      rw [List.dropLast_eq_take, List.take_take, min_eq_left hj]
    rw [e k (by omega), e (k + 1) (by omega), zero_add, zero_add]
  · have hk' : k = ngk.dropLast.length := by simp at h ⊢; omega
    rw [hk', splitAt'_last, zero_add, ← hk']
    have h1 : ngk.dropLast = ngk.take k := by
      rw [List.dropLast_eq_take]; congr 1; simp at hk'; omega
    have h2 : ngk.take (k + 1) = ngk := List.take_of_length_le (by simp at hk'; omega)
    have e : (ngk.take (k + 1)).sum = ngk.sum := by rw [h2]
    rw [h1, e]
    unfold pySlice
    symm
    apply List.take_of_length_le
    rw [List.length_drop, hl]

theorem getD_pySlice {α : Type*} (l : List α) (a b i : ℕ) (d : α) (hi : i < b - a) : (pySlice l a b).getD i d = l.getD (a + i) d := by
  unfold pySlice
  simp only [List.getD_eq_getElem?_getD]
  rw [List.getElem?_take_of_lt hi, List.getElem?_drop]

theorem length_pySlice {α : Type*} (l : List α) (a b : ℕ) (hb : b ≤ l.length) : (pySlice l a b).length = b - a := by
  unfold pySlice
  rw [List.length_take, List.length_drop]
  omega

theorem take_sum_le (ns : List ℕ) (k : ℕ) : (ns.take k).sum ≤ ns.sum := by
  conv_rhs => rw [← List.take_append_drop k ns, List.sum_append]
  omega

theorem take_sum_mono (ns : List ℕ) (k : ℕ) : (ns.take k).sum ≤ (ns.take (k + 1)).sum := by
  by_cases h : k < ns.length
  · rw [List.take_succ_eq_append_getElem h, List.sum_append]; omega
  · rw [List.take_of_length_le (by omega), List.take_of_length_le (by omega)]

theorem mapM_okB {α β : Type} (l : List α) (f : α → Except PyErr β) (g : α → β) (h : ∀ x ∈ l, f x = .ok (g x)) : l.mapM f = .ok (l.map g) := by
  induction l with
  | nil => rfl
  | cons a t ih =>
    simp only [List.mapM_cons, bind, Except.bind, pure, Except.pure, List.map_cons]
    rw [h a (by simp), ih fun x hx => h x (by simp [hx])]

/-- **C123 (coefficients).** If every k-point uses the file's plane waves, the coefficient loaded for a plane wave of a k-point is computed from
the coefficient stored for that plane wave in that k-point's block of the file — as `i` times its complex conjugate. -/
theorem C123_coefficients (junk : ℕ → ℕ) (pys : List (List GVec)) (gvecs : List GVec) (coeffs : List (ℝ × ℝ)) (ngk : List ℕ)
    (hk : pys.length = ngk.length) (hg : gvecs.length = ngk.sum) (hc : coeffs.length = ngk.sum)
    (hperm : ∀ k (h : k < pys.length), (pys[k]).Perm (pySlice gvecs (ngk.take k).sum (ngk.take (k + 1)).sum)) :
    ∃ out, loadBand junk pys gvecs coeffs ngk = .ok out ∧ out.length = pys.length
      ∧ ∀ k (h : k < pys.length), (out.getD k []).length = pys[k].length ∧ ∀ i (hi : i < pys[k].length),
        ∃ p, (ngk.take k).sum ≤ p ∧ p < (ngk.take (k + 1)).sum ∧ gvecs.getD p default = pys[k][i]
          ∧ (out.getD k []).getD i 0 = Complex.I * conj (⟨(coeffs.getD p (0, 0)).1, (coeffs.getD p (0, 0)).2⟩ : ℂ) := by
  have hone : ∀ k (h : k < pys.length), ∃ idx, bgw2pw junk pys[k] ((splitK gvecs ngk).getD k []) = .ok idx ∧ idx.length = pys[k].length
      ∧ ∀ i < pys[k].length, at' idx i < (ngk.take (k + 1)).sum - (ngk.take k).sum
        ∧ at' ((splitK gvecs ngk).getD k []) (at' idx i) = at' pys[k] i := by
    intro k h
    rw [splitK_getD gvecs ngk hg k (hk ▸ h)]
    obtain ⟨idx, h1, h2, h3⟩ := (C123_plane_waves junk pys[k] _).1 (hperm k h)
    refine ⟨idx, h1, h2, fun i hi => ⟨?_, (h3 i hi).2⟩⟩
    have := (h3 i hi).1
    rwa [length_pySlice _ _ _ (hg ▸ take_sum_le _ _)] at this
  choose! idx hidx using hone
  have hrun : loadBand junk pys gvecs coeffs ngk
      = .ok ((List.range pys.length).map fun k => gather ((splitK (coeffs.map loadCoeff) ngk).getD k []) (idx k)) := by
    unfold loadBand
    refine mapM_okB _ _ _ fun k hkr => ?_
    have hkl := List.mem_range.1 hkr
    simp only [bind, Except.bind, pure, Except.pure]
    rw [List.getD_eq_getElem pys [] hkl, (hidx k hkl).1]
  refine ⟨_, hrun, by simp, ?_⟩
  intro k h
  obtain ⟨h1, h2, h3⟩ := hidx k h
  have hout : ((List.range pys.length).map fun k => gather ((splitK (coeffs.map loadCoeff) ngk).getD k []) (idx k)).getD k []
      = gather ((splitK (coeffs.map loadCoeff) ngk).getD k []) (idx k) := by
    rw [List.getD_eq_getElem _ _ (by simpa using h), List.getElem_map, List.getElem_range]
  rw [hout]
  refine ⟨by simp [gather, h2], ?_⟩
  intro i hi
  obtain ⟨h4, h5⟩ := h3 i hi
  refine ⟨(ngk.take k).sum + at' (idx k) i, by omega, by omega, ?_, ?_⟩
  · rw [splitK_getD gvecs ngk hg k (hk ▸ h)] at h5
    unfold at' at h5
    have h4' : (idx k).getD i default < (ngk.take (k + 1)).sum - (ngk.take k).sum := h4
    rw [getD_pySlice _ _ _ _ _ h4'] at h5
    rw [show (idx k).getD i default = at' (idx k) i from rfl, List.getD_eq_getElem pys[k] default hi] at h5
    exact h5
  · have e : (gather ((splitK (coeffs.map loadCoeff) ngk).getD k []) (idx k)).getD i 0
        = at' ((splitK (coeffs.map loadCoeff) ngk).getD k []) (at' (idx k) i) :=
      GSpace.at'_gather _ _ _ (by rw [h2]; exact hi)
    rw [e, splitK_getD _ ngk (by simpa using hc) k (hk ▸ h)]
    unfold at'
    have h4' : (idx k).getD i default < (ngk.take (k + 1)).sum - (ngk.take k).sum := h4
    rw [getD_pySlice _ _ _ _ _ h4']
    have hlt : (ngk.take k).sum + (idx k).getD i default < coeffs.length := by
      have := take_sum_le ngk (k + 1)
      have h4' : (idx k).getD i default < (ngk.take (k + 1)).sum - (ngk.take k).sum := h4
      omega
    rw [List.getD_eq_getElem _ _ (by simpa using hlt), List.getElem_map, List.getD_eq_getElem _ _ hlt]
    unfold loadCoeff realToCplx
    congr 2
    apply Complex.ext <;> simp

/-- The two readers of the coefficients agree. -/
theorem C123_readers_agree (p : ℝ × ℝ) : loadCoeff p = parseCoeff p := by
  unfold loadCoeff parseCoeff realToCplx
  apply Complex.ext <;> simp

/-- Value of a sum of plane waves `Σ c_G exp(iG·r)`, for the phases `θ G = G·r`. -/
noncomputable def waveSum (l : List (GVec × ℂ)) (θ : GVec → ℝ) : ℂ := (l.map fun p => p.2 * Complex.exp (Complex.I * (θ p.1 : ℂ))).sum

/-- **C123 (violated: inversion).** The density of every loaded state at `r` is that of the stored state at `-r`. -/
theorem C123_inverted (l : List (GVec × ℂ)) (θ : GVec → ℝ) :
    Complex.normSq (waveSum (l.map fun p => (p.1, loadCoeff (p.2.re, p.2.im))) θ) = Complex.normSq (waveSum l fun g => -θ g) := by
  have e : waveSum (l.map fun p => (p.1, loadCoeff (p.2.re, p.2.im))) θ = Complex.I * conj (waveSum l fun g => -θ g) := by
    unfold waveSum
    induction l with
    | nil => simp
    | cons p t ih =>
      simp only [List.map_cons, List.sum_cons] at ih ⊢
      rw [ih, map_add, mul_add]
      congr 1
      rw [map_mul, ← Complex.exp_conj, map_mul, Complex.conj_I, Complex.conj_ofReal]
      unfold loadCoeff realToCplx
      rw [mul_comm Complex.I ((p.2.im : ℝ) : ℂ), Complex.re_add_im]
      push_cast
      rw [show -Complex.I * -(θ p.1 : ℂ) = Complex.I * (θ p.1 : ℂ) by ring]
      ring
  rw [e, map_mul, Complex.normSq_I, one_mul, Complex.normSq_conj]

/-- **C123 (violated: phase).** The loaded state is not the stored one up to a phase: `(1, i)` becomes `(i, 1)`. -/
theorem C123_not_a_phase : ¬ ∃ z : ℂ, loadCoeff (1, 0) = z * (1 : ℂ) ∧ loadCoeff (0, 1) = z * Complex.I := by
  rintro ⟨z, h1, h2⟩
  rw [C123_readers_agree] at h1 h2
  unfold parseCoeff at h1 h2
  simp at h1 h2
  rw [← h1] at h2
  have := congrArg Complex.re h2
  simp at this
  norm_num at this

/-- The hypotheses of `C123_coefficients` are met by two k-points with reordered plane waves. -/
example : let pys : List (List GVec) := [[(0, 0, 0), (1, 0, 0)], [(0, 1, 0)]]
    let gvecs : List GVec := [(1, 0, 0), (0, 0, 0), (0, 1, 0)]
    pys.length = [2, 1].length ∧ gvecs.length = [2, 1].sum
      ∧ ∀ k (h : k < pys.length), (pys[k]).Perm (pySlice gvecs ([2, 1].take k).sum ([2, 1].take (k + 1)).sum) := by
  refine ⟨rfl, rfl, ?_⟩
  intro k h
  have : k = 0 ∨ k = 1 := by simp at h; omega
  rcases this with rfl | rfl
  · exact (List.Perm.swap _ _ _)
  · exact List.Perm.refl _

/-! ## C124 -/

theorem argsortZ_perm (l : List ℤ) : (argsortZ l).Perm (List.range l.length) := List.mergeSort_perm _ _

theorem argsortZ_sorted (l : List ℤ) : (argsortZ l).Pairwise fun i j => l.getD i 0 ≤ l.getD j 0 := by
  have := List.pairwise_mergeSort (le := fun i j => decide (l.getD i 0 ≤ l.getD j 0))
    (by intro a b c h1 h2; simp only [decide_eq_true_eq] at *; omega)
    (by intro a b; simp only [Bool.or_eq_true, decide_eq_true_eq]; omega) (List.range l.length)
  exact this.imp fun h => by simpa using h

/-- A sorted list of pairs, cut at the cumulated counts of the sorted distinct keys, falls into its groups. -/
theorem split_groups {α : Type*} (us : List ℤ) (hus : us.Pairwise (· < ·)) (A L : List (ℤ × α)) (hL : L.Pairwise fun a b => a.1 ≤ b.1)
    (hmem : ∀ p ∈ L, p.1 ∈ us) (k : ℕ) (hk : k < us.length) :
    (splitAt' (A ++ L) A.length (cumsumFrom A.length (us.map fun t => (L.map Prod.fst).count t))).getD k []
      = L.filter fun p => p.1 = us[k] := by
  induction us generalizing A L k with
  | nil => simp at hk
  | cons u t ih =>
    rw [List.pairwise_cons] at hus
    -- the first group is a prefix
    have hsplit : L = L.filter (fun p => p.1 = u) ++ L.filter (fun p => ¬ p.1 = u) := by
      clear ih hk k
      induction L with
      | nil => rfl
      | cons p s ihs =>
        rw [List.pairwise_cons] at hL
        have hs := ihs hL.2 fun x hx => hmem x (List.mem_cons_of_mem _ hx)
        by_cases hp : p.1 = u
        · rw [List.filter_cons_of_pos (by simpa using hp), List.filter_cons_of_neg (by simpa using hp), List.cons_append, ← hs]
        · have hall : ∀ x ∈ p :: s, ¬ x.1 = u := by
            intro x hx
            rcases List.mem_cons.1 hx with rfl | hx'
            · exact hp
            · have h1 := hL.1 x hx'
              have h2 : p.1 ∈ t := by
                rcases List.mem_cons.1 (hmem p List.mem_cons_self) with h | h
                · exact absurd h hp
                · exact h
              have := hus.1 _ h2
              omega
          rw [List.filter_eq_nil_iff.2 (by intro x hx; simpa using hall x hx), List.nil_append,
            List.filter_eq_self.2 (by intro x hx; simpa using hall x hx)]
    have hcount : (L.map Prod.fst).count u = (L.filter fun p => p.1 = u).length := by
      rw [List.count_eq_countP, List.countP_map, List.countP_eq_length_filter]
      congr 1
    cases k with
    | zero =>
      simp only [List.map_cons, cumsumFrom, splitAt', List.getD_cons_zero, List.getElem_cons_zero]
      unfold pySlice
      rw [List.drop_append_of_le_length (le_refl _), List.drop_length, List.nil_append, Nat.add_sub_cancel_left, hcount]
      have htk : ∀ X Y : List (ℤ × α), L = X ++ Y → L.take X.length = X := by
        rintro X Y rfl
        rw [List.take_append_of_le_length (le_refl _), List.take_length]
      exact htk _ _ hsplit
    | succ k =>
      simp only [List.map_cons, cumsumFrom, splitAt', List.getD_cons_succ, List.getElem_cons_succ]
      set B := L.filter (fun p => p.1 = u) with hB
      set L' := L.filter (fun p => ¬ p.1 = u) with hL'
      have hk' : k < t.length := by simpa using hk
      have hcnt : t.map (fun x => (L.map Prod.fst).count x) = t.map fun x => (L'.map Prod.fst).count x := by
        refine List.map_congr_left fun x hx => ?_
        have hxu : x ≠ u := by have := hus.1 x hx; omega
        rw [hsplit, List.map_append, List.count_append]
        have : (B.map Prod.fst).count x = 0 := by
          rw [List.count_eq_zero]
          intro hm
          obtain ⟨p, hp, rfl⟩ := List.mem_map.1 hm
          rw [hB, List.mem_filter] at hp
          exact hxu (by simpa using hp.2)
        rw [this, zero_add]
      have hlen : A.length + (L.map Prod.fst).count u = (A ++ B).length := by rw [hcount, List.length_append]
      have happ : A ++ L = (A ++ B) ++ L' := by rw [List.append_assoc, ← hsplit]
      rw [hcnt, hlen, happ, ih hus.2 (A ++ B) L' (hL.filter _) (by
        intro p hp
        rw [hL', List.mem_filter] at hp
        rcases List.mem_cons.1 (hmem p hp.1) with h | h
        · simp [h] at hp
        · exact h) k hk']
      rw [hL', List.filter_filter]
      apply List.filter_congr
      intro p hp
      have hne : t[k] ≠ u := by have := hus.1 _ (List.getElem_mem hk'); omega
      by_cases e : p.1 = t[k]
      · simp [e, hne]
      · simp [e]

theorem unique_sorted (l : List ℤ) : ((unique l).map Prod.fst).Pairwise (· < ·) := by
  unfold unique
  rw [List.map_map]
  have e : (Prod.fst ∘ fun t => (t, l.count t)) = (id : ℤ → ℤ) := rfl
  rw [e, List.map_id]
  have h1 : (l.mergeSort (· ≤ ·)).Pairwise (· ≤ ·) := by
    have := List.pairwise_mergeSort (le := fun a b : ℤ => decide (a ≤ b)) (by intro a b c h1 h2; simp only [decide_eq_true_eq] at *; omega)
      (by intro a b; simp only [Bool.or_eq_true, decide_eq_true_eq]; omega) l
    exact this.imp fun h => by simpa using h
  have h2 := h1.sublist (List.dedup_sublist (l.mergeSort (· ≤ ·)))
  have h3 := List.nodup_dedup (l.mergeSort (· ≤ ·))
  exact List.Pairwise.imp₂ (fun a b (h : a ≤ b) (h' : a ≠ b) => lt_of_le_of_ne h h') h2 h3

theorem unique_mem (l : List ℤ) (t : ℤ) : t ∈ (unique l).map Prod.fst ↔ t ∈ l := by
  unfold unique
  rw [List.map_map]
  have e : (Prod.fst ∘ fun t => (t, l.count t)) = (id : ℤ → ℤ) := rfl
  rw [e, List.map_id, List.mem_dedup, List.mem_mergeSort]

theorem map_pySlice {α β : Type*} (f : α → β) (l : List α) (a b : ℕ) : (pySlice l a b).map f = pySlice (l.map f) a b := by
  unfold pySlice
  rw [List.map_take, List.map_drop]

theorem map_splitAt' {α β : Type*} (f : α → β) (l : List α) (cs : List ℕ) (a : ℕ) :
    (splitAt' l a cs).map (List.map f) = splitAt' (l.map f) a cs := by
  induction cs generalizing a with
  | nil => simp [splitAt', List.map_drop]
  | cons c t ih => simp only [splitAt', List.map_cons, ih, map_pySlice]

theorem splitAt'_length {α : Type*} (l : List α) (cs : List ℕ) (a : ℕ) : (splitAt' l a cs).length = cs.length + 1 := by
  induction cs generalizing a with
  | nil => rfl
  | cons c t ih => simp [splitAt', ih]

theorem cumsumFrom_length (ns : List ℕ) (a : ℕ) : (cumsumFrom a ns).length = ns.length := by
  induction ns generalizing a with
  | nil => rfl
  | cons c t ih => simp [cumsumFrom, ih]

theorem gather_zip {α β : Type*} [Inhabited α] [Inhabited β] (a : List α) (b : List β) (h : a.length = b.length) (idx : List ℕ)
    (hi : ∀ i ∈ idx, i < a.length) : gather (a.zip b) idx = (gather a idx).zip (gather b idx) := by
  unfold gather
  rw [List.zip_map']
  refine List.map_congr_left fun i hm => ?_
  have hia := hi i hm
  unfold at'
  rw [List.getD_eq_getElem _ _ (by simp; omega), List.getD_eq_getElem _ _ hia, List.getD_eq_getElem _ _ (by omega)]
  simp

/-- **C124 (atoms).** The species built from a wavefunction file are the distinct atom types in ascending order, each once, and each gets exactly the
positions of the atoms of that type (in some order), for all lists of atoms. -/
theorem C124_species {α : Type} [Inhabited α] (atyp : List ℤ) (apos : List α) (h : atyp.length = apos.length) :
    ((species atyp apos).map Prod.fst).Pairwise (· < ·)
    ∧ (∀ t, t ∈ (species atyp apos).map Prod.fst ↔ t ∈ atyp)
    ∧ ∀ s ∈ species atyp apos, s.2.Perm (((atyp.zip apos).filter fun p => p.1 = s.1).map Prod.snd) := by
  set u := unique atyp with hu
  have hfst : (species atyp apos).map Prod.fst = u.map Prod.fst := by
    unfold species
    simp only
    rw [← hu, List.map_fst_zip]
    rw [splitAt'_length, cumsumFrom_length, List.length_map, List.length_map]
    omega
  refine ⟨by rw [hfst]; exact unique_sorted atyp, by rw [hfst]; exact unique_mem atyp, ?_⟩
  intro s hs
  set P := atyp.zip apos with hP
  set L := gather P (argsortZ atyp) with hL
  have hPlen : P.length = atyp.length := by rw [hP, List.length_zip]; omega
  have hidx : ∀ i ∈ argsortZ atyp, i < atyp.length := fun i hi => List.mem_range.1 ((argsortZ_perm atyp).mem_iff.1 hi)
  have hLz : L = (gather atyp (argsortZ atyp)).zip (gather apos (argsortZ atyp)) := gather_zip atyp apos h _ hidx
  have hlen : (gather atyp (argsortZ atyp)).length = (gather apos (argsortZ atyp)).length := by simp [gather]
  have hsnd : L.map Prod.snd = gather apos (argsortZ atyp) := by rw [hLz, List.map_snd_zip]; omega
  have hfs : L.map Prod.fst = gather atyp (argsortZ atyp) := by rw [hLz, List.map_fst_zip]; omega
  have hperm : L.Perm P := GSpace.gather_perm P _ (hPlen ▸ argsortZ_perm atyp)
  have hsorted : L.Pairwise fun a b => a.1 ≤ b.1 := by
    have h1 : (gather atyp (argsortZ atyp)).Pairwise (· ≤ ·) := by
      unfold gather
      rw [List.pairwise_map]
      exact argsortZ_sorted atyp
    rw [← hfs, List.pairwise_map] at h1
    exact h1
  have hcount : (u.map Prod.fst).map (fun t => (L.map Prod.fst).count t) = u.map Prod.snd := by
    rw [List.map_map]
    refine List.map_congr_left fun p hp => ?_
    obtain ⟨t, _, rfl⟩ := List.mem_map.1 (hu ▸ hp : p ∈ unique atyp)
    show (L.map Prod.fst).count t = atyp.count t
    rw [hfs]
    exact (GSpace.gather_perm atyp _ (argsortZ_perm atyp)).count_eq t
  obtain ⟨k, hk, hks⟩ := List.mem_iff_getElem.1 hs
  have hku : k < u.length := by
    have := hk
    unfold species at this
    simp only [List.length_zip, List.length_map] at this
    rw [← hu] at this
    omega
  have hs1 : s.1 = (u.map Prod.fst)[k]'(by simpa using hku) := by
    have : ((species atyp apos).map Prod.fst)[k]'(by simpa using hk) = s.1 := by rw [List.getElem_map, hks]
    rw [← this]
    congr 1
  have hs2 : s.2 = (splitAt' (gather apos (argsortZ atyp)) 0 (cumsumFrom 0 (u.map Prod.snd))).getD k [] := by
    rw [← hks, List.getD_eq_getElem _ _ (by rw [splitAt'_length, cumsumFrom_length, List.length_map]; omega)]
    exact congrArg Prod.snd (List.getElem_zip (l := u.map Prod.fst)
      (l' := splitAt' (gather apos (argsortZ atyp)) 0 (cumsumFrom 0 (u.map Prod.snd))) (h := hk))
  have key := split_groups (u.map Prod.fst) (unique_sorted atyp) [] L hsorted (by
    intro p hp
    rw [unique_mem]
    have : p ∈ P := hperm.mem_iff.1 hp
    exact (List.of_mem_zip (hP ▸ this)).1) k (by simpa using hku)
  rw [List.nil_append, List.length_nil, hcount, ← hs1] at key
  have e : s.2 = ((splitAt' L 0 (cumsumFrom 0 (u.map Prod.snd))).getD k []).map Prod.snd := by
    rw [hs2, ← hsnd, ← map_splitAt']
    have hlt : k < (splitAt' L 0 (cumsumFrom 0 (u.map Prod.snd))).length := by
      rw [splitAt'_length, cumsumFrom_length, List.length_map]; omega
    rw [List.getD_eq_getElem _ _ (by simpa using hlt), List.getElem_map, List.getD_eq_getElem _ _ hlt]
  rw [e, key]
  exact (hperm.filter _).map _

/-- Three atoms of two types, listed out of order. -/
example : ([14, 6, 14] : List ℤ).length = ["a", "b", "c"].length
    ∧ (6 : ℤ) ∈ (species [14, 6, 14] ["a", "b", "c"]).map Prod.fst :=
  ⟨rfl, ((C124_species [14, 6, 14] ["a", "b", "c"] rfl).2.1 6).2 (by simp)⟩

end Verif.BGW
