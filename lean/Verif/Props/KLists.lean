import Verif.Model.KLists
import Verif.Props.LatArr
import Verif.Props.Containers
import Verif.Props.SigmaMaps

/-!
# C172–C174: k-point lists as sequences, the k-point lists and q-points of GW
-/

namespace Verif.KLists

open Verif.Lattice Verif.LatArr Verif.Containers

variable {α : Type*}

/-! ## C172: indexing, slicing, iterating -/

theorem normIdx_nat (n k : ℕ) (h : k < n) : normIdx n (k : ℤ) = .ok k := by
  unfold normIdx
  rw [if_neg (by omega : ¬ (k : ℤ) < 0)]
  rw [if_pos (by omega), Int.toNat_natCast]

theorem normIdx_neg (n k : ℕ) (h1 : 1 ≤ k) (h : k ≤ n) : normIdx n (-(k : ℤ)) = .ok (n - k) := by
  unfold normIdx
  rw [if_pos (by omega : -(k : ℤ) < 0)]
  rw [if_pos (by omega)]
  congr 1
  omega

theorem normIdx_out (n : ℕ) (i : ℤ) (h : i < -n ∨ (n : ℤ) ≤ i) : normIdx n i = .error .index := by
  unfold normIdx
  by_cases hi : i < 0
  · simp only [hi, if_true]; rw [if_neg (by omega)]
  · simp only [hi, if_false]; rw [if_neg (by omega)]

theorem npGet_int (l : List α) (k : ℕ) (hk : k < l.length) (i : ℤ) (h : normIdx l.length i = .ok k) : npGet l (.int i) = .ok (.one l[k]) := by
  simp only [npGet, h, List.getElem?_eq_getElem hk]

theorem npGet_out (l : List α) (i : ℤ) (h : normIdx l.length i = .error .index) : npGet l (.int i) = .error .index := by
  simp only [npGet, h]

/-- **C172a.** For both kinds of k-point list: `kl[i]` is the i-th point with its weight, counted from the end if `i` is negative, and an `IndexError` exactly if there is no such point. -/
theorem C172_index (l : List α) (get : List α → Key → Except PyErr (Got α)) (hg : get = getNew ∨ get = getOld) :
    (∀ (k : ℕ) (h : k < l.length), get l (.int k) = .ok (.one l[k])) ∧
    (∀ (k : ℕ) (h1 : 1 ≤ k) (h : k ≤ l.length), get l (.int (-k)) = .ok (.one (l[l.length - k]'(by omega)))) ∧
    ∀ i : ℤ, i < -l.length ∨ (l.length : ℤ) ≤ i → get l (.int i) = .error .index := by
  have e : ∀ i : ℤ, get l (.int i) = npGet l (.int i) := by
    intro i
    rcases hg with rfl | rfl <;> rfl
  refine ⟨fun k h => ?_, fun k h1 h => ?_, fun i h => ?_⟩
  · rw [e]; exact npGet_int l k h _ (normIdx_nat _ _ h)
  · rw [e]; exact npGet_int l _ (by omega) _ (normIdx_neg _ _ h1 h)
  · rw [e]; exact npGet_out l i (normIdx_out _ _ h)

/-- **C172b.** For both kinds of list: `for k, w in kl` runs over all points with their weights, in order, and ends. -/
theorem C172_iteration (l : List α) (get : List α → Key → Except PyErr (Got α)) (hg : get = getNew ∨ get = getOld) (out : List (Got α)) :
    Yields (fun i : ℕ => get l (.int i)) 0 out ↔ out = l.map .one := by
  obtain ⟨h1, -, h3⟩ := C172_index l get hg
  have gen : ∀ (m i : ℕ), i + m = l.length → ∀ out, Yields (fun i : ℕ => get l (.int i)) i out ↔ out = (l.drop i).map .one := by
    intro m
    induction m with
    | zero =>
      intro i hi out
      have hend : get l (.int i) = .error .index := h3 i (by omega)
      rw [List.drop_of_length_le (by omega)]
      constructor
      · rintro (⟨_, -⟩ | ⟨_, x, l', hx, -⟩)
        · rfl
        · rw [hend] at hx; cases hx
      · rintro rfl; exact .stop i hend
    | succ m ih =>
      intro i hi out
      have hil : i < l.length := by omega
      have hx := h1 i hil
      rw [List.drop_eq_getElem_cons hil, List.map_cons]
      constructor
      · rintro (⟨_, h⟩ | ⟨_, x, l', hx', ht⟩)
        · simp only [hx] at h; cases h
        · simp only [hx, Except.ok.injEq] at hx'
          rw [← hx', (ih (i + 1) (by omega) l').1 ht]
      · rintro rfl
        exact .step i _ _ hx ((ih (i + 1) (by omega) _).2 rfl)
  have := gen l.length 0 (by omega) out
  rwa [List.drop_zero] at this

theorem at_range (l : List α) (a m : ℕ) (h : a + m ≤ l.length) : at_ l ((List.range m).map fun k => a + k) = (l.drop a).take m := by
  unfold at_
  induction m with
  | zero => simp
  | succ m ih =>
    rw [List.range_succ, List.map_append, List.filterMap_append, ih (by omega)]
    have : a + m < l.length := by omega
    rw [List.take_succ]
    simp [this]

/-- **C172c.** For both kinds of list: `kl[a:b]` and `kl[-m:]` are the points in these ranges, `kl[::-1]` the points in reverse order; a step of zero is a `ValueError`. -/
theorem C172_slices (l : List α) (get : List α → Key → Except PyErr (Got α)) (hg : get = getNew ∨ get = getOld) :
    (∀ a b : ℕ, get l (.slice (some a) (some b) none) = .ok (.many ((l.take b).drop a))) ∧
    (∀ m : ℕ, 1 ≤ m → m ≤ l.length → get l (.slice (some (-m)) none none) = .ok (.many (l.drop (l.length - m)))) ∧
    get l (.slice none none (some (-1))) = .ok (.many l.reverse) ∧
    ∀ a b, get l (.slice a b (some 0)) = .error .value := by
  have e : ∀ a b c, get l (.slice a b c) = npGet l (.slice a b c) := by
    intro a b c
    rcases hg with rfl | rfl <;> rfl
  refine ⟨fun a b => ?_, fun m h1 hm => ?_, ?_, fun a b => ?_⟩
  · rw [e]
    have hp : slicePos l.length (some (a : ℤ)) (some (b : ℤ)) none = .ok ((List.range (min b l.length - min a l.length)).map fun k => min a l.length + k) := by
      unfold slicePos
      simp only [Option.getD_none, Option.getD_some, show ¬ ((1 : ℤ) = 0) by omega, show (0 : ℤ) < 1 by omega, show ¬ ((a : ℤ) < 0) by omega, show ¬ ((b : ℤ) < 0) by omega, if_true, if_false]
      by_cases h : min (a : ℤ) l.length < min (b : ℤ) l.length
      · rw [if_pos h]
        congr 1
        rw [show ((min (b : ℤ) l.length - min (a : ℤ) l.length - 1) / 1 + 1).toNat = min b l.length - min a l.length by omega]
        exact List.map_congr_left fun k _ => by omega
      · rw [if_neg h, show min b l.length - min a l.length = 0 by omega]
        rfl
    simp only [npGet, hp]
    rw [at_range l _ _ (by omega)]
    congr 2
    rw [List.drop_take]
    by_cases ha : a ≤ l.length
    · rw [min_eq_left ha]
      by_cases hb : b ≤ l.length
      · rw [min_eq_left hb]
      · rw [min_eq_right (by omega), List.take_of_length_le (by simp), List.take_of_length_le (by simp; omega)]
    · rw [show min a l.length = l.length by omega, List.drop_of_length_le le_rfl, List.drop_of_length_le (by omega : l.length ≤ a)]
      simp
  · rw [e]
    have hp : slicePos l.length (some (-(m : ℤ))) none none = .ok ((List.range m).map fun k => l.length - m + k) := by
      unfold slicePos
      simp only [Option.getD_none, Option.getD_some, show ¬ ((1 : ℤ) = 0) by omega, show (0 : ℤ) < 1 by omega, show -(m : ℤ) < 0 by omega, show ¬ ((l.length : ℤ) < 0) by omega, if_true, if_false]
      rw [if_pos (by omega)]
      congr 1
      rw [show ((min (l.length : ℤ) l.length - max (-(m : ℤ) + l.length) 0 - 1) / 1 + 1).toNat = m by omega]
      exact List.map_congr_left fun k _ => by omega
    simp only [npGet, hp]
    rw [at_range l _ _ (by omega), List.take_of_length_le (by simp; omega)]
  · rw [e]
    have hp : slicePos l.length none none (some (-1)) = .ok ((List.range l.length).map fun k => l.length - 1 - k) := by
      unfold slicePos
      simp only [Option.getD_some]
      rw [if_neg (by omega), if_neg (by omega)]
      by_cases h : (-1 : ℤ) < (l.length : ℤ) - 1
      · rw [if_pos h]
        congr 1
        rw [show (((l.length : ℤ) - 1 - -1 - 1) / (- -1) + 1).toNat = l.length by rw [neg_neg, Int.ediv_one]; omega]
        refine List.map_congr_left fun k hk => ?_
        have := List.mem_range.1 hk
        omega
      · rw [if_neg h, show l.length = 0 by omega]
        rfl
    simp only [npGet, hp]
    congr 2
    unfold at_
    refine List.ext_getElem? fun i => ?_
    have hs : ((List.range l.length).map fun k => l.length - 1 - k).filterMap (fun i => l[i]?) = (List.range l.length).filterMap fun k => l[l.length - 1 - k]? := by
      rw [List.filterMap_map]; rfl
    rw [hs]
    have hs2 : ((List.range l.length).filterMap fun k => l[l.length - 1 - k]?) = l.reverse := by
      have : ∀ (l : List α), ((List.range l.length).filterMap fun k => l.reverse[k]?) = l.reverse := by
        intro l
        have h := at_range l.reverse 0 l.length (by simp)
        unfold at_ at h
        rw [List.filterMap_map] at h
        simp only [Function.comp_def, zero_add, List.drop_zero] at h
        rw [h, List.take_of_length_le (by simp)]
      rw [← this l]
      refine List.filterMap_congr fun k hk => ?_
      rw [List.getElem?_reverse (List.mem_range.1 hk)]
    rw [hs2]
  · rw [e]
    simp [npGet, slicePos]

theorem mapM_normIdx (n : ℕ) (is : List ℕ) (h : ∀ i ∈ is, i < n) : (is.map fun i : ℕ => (i : ℤ)).mapM (normIdx n) = .ok is := by
  induction is with
  | nil => rfl
  | cons i is ih =>
    rw [List.map_cons, List.mapM_cons, normIdx_nat n i (h i (by simp)), ih fun j hj => h j (List.mem_cons_of_mem _ hj)]
    rfl

theorem mask_zip : ∀ (l : List α) (m : List Bool), m.length = l.length →
    (l.zip m).filterMap (fun p => if p.2 then some p.1 else none) = ((List.range l.length).filter fun i => m.getD i false).filterMap fun i => l[i]?
  | [], _, _ => rfl
  | x :: l, [], h => by simp at h
  | x :: l, b :: m, h => by
    have ih := mask_zip l m (by simpa using h)
    rw [List.zip_cons_cons, List.length_cons, List.range_succ_eq_map, List.filter_cons, List.filterMap_cons, ih]
    cases b <;> simp [List.filter_map, List.filterMap_map, Function.comp_def]

/-- **C172d.** The list of the SCF also takes numpy integers, lists of indices and lists of booleans: the points chosen, in the order and as often as they are named; a list of booleans has to have one for
each point. -/
theorem C172_numpy_partial (l : List α) :
    (∀ i, getNew l (.npint i) = getNew l (.int i)) ∧
    (∀ (is : List ℕ) (_ : ∀ i ∈ is, i < l.length), getNew l (.fancy (is.map fun i : ℕ => (i : ℤ))) = .ok (.many (is.filterMap fun i => l[i]?))) ∧
    (∀ m : List Bool, m.length = l.length → getNew l (.mask m) = .ok (.many (((List.range l.length).filter fun i => m.getD i false).filterMap fun i => l[i]?))) ∧
    ∀ m : List Bool, m.length ≠ l.length → getNew l (.mask m) = .error .index := by
  refine ⟨fun i => rfl, fun is h => ?_, fun m h => ?_, fun m h => ?_⟩
  · simp only [getNew, npGet, mapM_normIdx l.length is h]
    rfl
  · simp only [getNew, npGet, h, if_true, mask_zip l m h]
  · simp only [getNew, npGet, h, if_false]

example : getNew [(1 : ℕ), 2, 3] (.mask [true, false, true]) = .ok (.many [1, 3]) := by decide

/-- **C172d (violation).** The list of GW takes neither, nor a list of booleans: `for i in np.arange(len(kl)): kl[i]` is a `TypeError`. -/
theorem C172_numpy_violated (l : List α) : (∀ i, getOld l (.npint i) = .error .type) ∧ (∀ is, getOld l (.fancy is) = .error .type) ∧ ∀ m, getOld l (.mask m) = .error .type :=
  ⟨fun _ => rfl, fun _ => rfl, fun _ => rfl⟩

/-- **C172e (violation).** The function that should give a process its share of such a list fails on every list. -/
theorem C172_distribute_violated (l : List α) (r i : Bool) : klistDistribute l r i = .error .attribute := rfl

example : getNew [(1 : ℕ), 2, 3] (.int (-1)) = .ok (.one 3) ∧ getOld [(1 : ℕ), 2, 3] (.slice (some 1) none none) = .ok (.many [2, 3]) := by decide

/-! ## C173: coordinates of the k-point lists of GW -/

/-- **C173.** A list made from crystal, Cartesian or `tpiba` coordinates with non-negative weights, not all zero: `cryst`, `cart` and `tpiba` are the coordinates of the given points, in their order, and the
weights are the given ones divided by their sum. -/
theorem C173_coords (u : ℝ) (A : Mat) (L : Lat) (hL : mkLat u A = .ok L) (hu : u ≠ 0) (typ : Coords) (pts : Arr) (n : ℕ) (hs : pts.shape = [n, 3]) (w : List ℝ) (hw : w.length = n)
    (hpos : ∀ x ∈ w, 0 ≤ x) (hsum : w.sum ≠ 0) :
    ∃ k c t, fromPts L typ pts w = .ok (some k) ∧ k.weights = w.map (· / w.sum) ∧ k.cryst.shape = [n, 3] ∧ k.cart L = .ok c ∧ k.tpiba L = .ok t ∧ c.shape = [n, 3] ∧ t.shape = [n, 3] ∧
      ∀ i < n, L.cryst2cart (vecAt k.cryst [i] []) = vecAt c [i] [] ∧ (∀ j, vecAt t [i] [] j * u = vecAt c [i] [] j) ∧
        (match typ with
          | .cryst => vecAt k.cryst [i] [] = vecAt pts [i] []
          | .cart => vecAt c [i] [] = vecAt pts [i] []
          | .tpiba => vecAt t [i] [] = vecAt pts [i] []) := by
  have inv := (C26_conversions_inverse u A).2 L hL hu
  have hunit : L.unit = u := (mkLat_ok hL).2.1
  have hin : ∀ i < n, LatArr.InShape [n] [i] := fun i hi => .cons hi .nil
  have hsan : sanitize w = .ok (some (w.map (· / w.sum))) := by
    unfold sanitize
    rw [if_neg (by rintro ⟨x, hx, h⟩; exact absurd (hpos x hx) (by linarith)), if_neg hsum]
  have mk : ∀ b : Arr, b.shape = [n, 3] → mkOld b (w.map (· / w.sum)) = .ok ⟨b, w.map (· / w.sum)⟩ := by
    intro b hb
    simp [mkOld, hb, hw]
  have fin : ∀ b : Arr, b.shape = [n, 3] → ∃ c t, (⟨b, w.map (· / w.sum)⟩ : OldKL).cart L = .ok c ∧ (⟨b, w.map (· / w.sum)⟩ : OldKL).tpiba L = .ok t ∧ c.shape = [n, 3] ∧ t.shape = [n, 3] ∧
      ∀ i < n, vecAt c [i] [] = L.cryst2cart (vecAt b [i] []) ∧ vecAt t [i] [] = L.cryst2unit (vecAt b [i] []) := by
    intro b hb
    obtain ⟨-, ⟨c, y, t, z⟩, ⟨c', y', t', z'⟩, -⟩ := C140_array_conversion L b [n] [] hb
    exact ⟨c, c', y, y', t.trans hb, t'.trans hb, fun i hi => ⟨z [i] [] (hin i hi) .nil, z' [i] [] (hin i hi) .nil⟩⟩
  have hunit2 : ∀ v : Vec, ∀ j, L.cryst2unit v j * u = L.cryst2cart v j := by
    intro v j
    simp only [Lat.cryst2unit, hunit]
    field_simp
  obtain ⟨⟨b1, x1, s1, v1⟩, -, -, ⟨b4, x4, s4, v4⟩⟩ := C140_array_conversion L pts [n] [] hs
  have x1' : LatArr.cart2cryst L pts 1 = .ok b1 := x1
  have x4' : LatArr.unit2cryst L pts 1 = .ok b4 := x4
  cases typ with
  | cryst =>
    obtain ⟨c, t, h1, h2, h3, h4, h5⟩ := fin pts hs
    refine ⟨⟨pts, _⟩, c, t, by simp [fromPts, hsan, mk pts hs, Except.map], rfl, hs, h1, h2, h3, h4, fun i hi => ⟨(h5 i hi).1.symm, fun j => ?_, rfl⟩⟩
    rw [(h5 i hi).1, (h5 i hi).2, hunit2]
  | cart =>
    obtain ⟨c, t, h1, h2, h3, h4, h5⟩ := fin b1 (s1.trans hs)
    refine ⟨⟨b1, _⟩, c, t, by simp [fromPts, x1', hsan, mk b1 (s1.trans hs), Except.map], rfl, s1.trans hs, h1, h2, h3, h4, fun i hi => ⟨(h5 i hi).1.symm, fun j => ?_, ?_⟩⟩
    · rw [(h5 i hi).1, (h5 i hi).2, hunit2]
    · show vecAt c [i] [] = _
      rw [(h5 i hi).1, v1 [i] [] (hin i hi) .nil, (inv _).2.1]
  | tpiba =>
    obtain ⟨c, t, h1, h2, h3, h4, h5⟩ := fin b4 (s4.trans hs)
    refine ⟨⟨b4, _⟩, c, t, by simp [fromPts, x4', hsan, mk b4 (s4.trans hs), Except.map], rfl, s4.trans hs, h1, h2, h3, h4, fun i hi => ⟨(h5 i hi).1.symm, fun j => ?_, ?_⟩⟩
    · rw [(h5 i hi).1, (h5 i hi).2, hunit2]
    · show vecAt t [i] [] = _
      rw [(h5 i hi).2, v4 [i] [] (hin i hi) .nil]
      exact (inv _).2.2.2.2.2

/-- **C173b.** Negative weights and arrays that are not `(n, 3)` with `n` weights are refused with a `ValueError` (a scalar with an `IndexError`). -/
theorem C173_checks (L : Lat) (pts : Arr) (w : List ℝ) :
    ((∃ x ∈ w, x < 0) → fromPts L .cryst pts w = .error .value) ∧
    (pts.shape ≠ [] → pts.shape ≠ [w.length, 3] → mkOld pts w = .error .value) ∧
    (pts.shape = [] → mkOld pts w = .error .index) := by
  refine ⟨?_, ?_, fun h => by unfold mkOld; rw [h]⟩
  · intro h
    simp only [fromPts, sanitize, if_pos h]
  · intro h0 h
    unfold mkOld
    split
    · next n hs => rw [if_neg]; rintro rfl; exact h hs
    · next hs => exact absurd hs h0
    · rfl

example : (⟨[2, 3], fun i => i.sum⟩ : Arr).shape = [2, 3] ∧ ([1, 3] : List ℝ).length = 2 ∧ ([1, 3] : List ℝ).sum ≠ 0 ∧ mkLat 1 !![1, 1, 0; 0, 1, 0; 0, 0, 1] = .ok exLat :=
  ⟨rfl, rfl, by norm_num, exLat_ok⟩

/-! ## C174: the q-points of GW -/

/-- **C174a.** With flags, the q-point that stands for Γ is the first flagged one; it is an `IndexError` if none is flagged or if it is not in the list. Without flags it is the (first) shortest one, and an empty list
is a `ValueError`. -/
theorem C174_q0 (u : ℝ) (A : Mat) (L : Lat) (hL : mkLat u A = .ok L) (q : List Vec) :
    (∀ (f : List Bool) (j : ℕ) (hj : j < f.length) (hq : j < q.length), f[j] = true → (∀ i (hi : i < j), f[i] = false) →
      ∃ p, qpoints L (some f) q = .ok p ∧ p.q = q ∧ p.index = j ∧ p.q0vec = q[j]) ∧
    (∀ f : List Bool, true ∉ f → qpoints L (some f) q = .error .index) ∧
    (∀ f : List Bool, (∀ i (hi : i < f.length), i < q.length → f[i] = false) → qpoints L (some f) q = .error .index) ∧
    qpoints L none [] = .error .value ∧
    (q ≠ [] → ∃ p, qpoints L none q = .ok p ∧ p.q = q ∧ ∃ h : p.index < q.length, p.q0vec = q[p.index] ∧
      (∀ v ∈ q, dotCart (L.cryst2cart p.q0vec) (L.cryst2cart p.q0vec) ≤ dotCart (L.cryst2cart v) (L.cryst2cart v)) ∧
      ∀ i (hi : i < p.index), ∃ v ∈ q, dotCart (L.cryst2cart v) (L.cryst2cart v) < dotCart (L.cryst2cart q[i]) (L.cryst2cart q[i])) := by
  refine ⟨fun f j hj hq ht hf => ?_, fun f hf => ?_, fun f hf => ?_, rfl, fun hne => ?_⟩
  · have hm : true ∈ f := by rw [← ht]; exact List.getElem_mem hj
    have hi : f.idxOf true = j := by
      rw [List.idxOf]
      refine (List.findIdx_eq hj).2 ⟨by simp [ht], fun i hi => by simp [hf i hi]⟩
    refine ⟨⟨q, j, q[j]⟩, ?_, rfl, rfl, rfl⟩
    simp only [qpoints, if_pos hm, hi, List.getElem?_eq_getElem hq]
  · simp only [qpoints, if_neg hf]
  · by_cases hm : true ∈ f
    · have hlt := List.idxOf_lt_length_of_mem hm
      have hq : ¬ f.idxOf true < q.length := by
        intro hq
        have := hf _ hlt hq
        rw [List.getElem_idxOf hlt] at this
        cases this
      simp only [qpoints, if_pos hm, List.getElem?_eq_none (not_lt.1 hq)]
    · simp only [qpoints, if_neg hm]
  · have hm := fun v => (C26_metric u A L hL v v).2.1
    set i := GW.argmin (q.map L.norm2Cryst) with hi
    have hne' : q.map L.norm2Cryst ≠ [] := by simpa using hne
    have hlt : i < q.length := by have := GW.argmin_lt _ hne'; simpa using this
    refine ⟨⟨q, i, q.getD i 0⟩, ?_, rfl, hlt, List.getD_eq_getElem _ _ hlt, ?_, ?_⟩
    · simp only [qpoints, if_neg hne]; rfl
    · intro v hv
      show dotCart (L.cryst2cart (q.getD i 0)) (L.cryst2cart (q.getD i 0)) ≤ _
      rw [← hm, ← hm, List.getD_eq_getElem _ _ hlt]
      have := GW.argmin_spec _ hne' (L.norm2Cryst v) (List.mem_map.2 ⟨v, hv, rfl⟩)
      rw [List.getD_eq_getElem _ _ (by simpa using hlt), List.getElem_map] at this
      exact this
    · intro k hk
      change k < i at hk
      have hk' : k < q.length := by omega
      classical
      have := List.not_of_lt_findIdx (p := fun x => decide (∀ y ∈ q.map L.norm2Cryst, x ≤ y)) (xs := q.map L.norm2Cryst) (i := k) (by
        show k < _
        rw [hi] at hk
        unfold GW.argmin at hk
        exact hk)
      simp only [List.getElem_map, decide_eq_false_iff_not, not_forall, List.mem_map] at this
      obtain ⟨y, ⟨v, hv, rfl⟩, hy⟩ := this
      exact ⟨v, hv, by rw [← hm, ← hm]; push Not at hy; exact hy⟩

/-- **C174b.** If the q-point for Γ comes first in `epsilon.inp`, a self-energy calculation from files uses the same q-points as one straight from the SCF. -/
theorem C174_from_data_partial (u : ℝ) (A : Mat) (L : Lat) (hL : mkLat u A = .ok L) (q : List Vec) (hq : q ≠ []) (f : List Bool) :
    ∃ p p', qScf L (true :: f) q = .ok p ∧ qData L (true :: f) q = .ok p' ∧ p'.used = p.used ∧ p'.index = p.index ∧ p.index = 0 := by
  obtain ⟨v, q', rfl⟩ := List.exists_cons_of_ne_nil hq
  have h0 : GW.argmin (((v :: q').set 0 0).map L.norm2Cryst) = 0 := by
    classical
    unfold GW.argmin
    rw [List.set_cons_zero, List.map_cons, List.findIdx_cons]
    have hz : ∀ y ∈ (L.norm2Cryst 0 :: q'.map L.norm2Cryst), L.norm2Cryst 0 ≤ y := by
      intro y hy
      have h0 : L.norm2Cryst 0 = 0 := (C26_metric u A L hL 0 0).2.2.2.2.2 rfl
      rw [h0]
      rcases List.mem_cons.1 hy with rfl | hy
      · rw [h0]
      · obtain ⟨x, -, rfl⟩ := List.mem_map.1 hy
        exact (C26_metric u A L hL x x).2.2.2.1
    simp only [decide_eq_true hz, cond_true]
  refine ⟨⟨v :: q', 0, v⟩, ⟨0 :: q', 0, 0⟩, ?_, ?_, ?_, rfl, rfl⟩
  · simp [qScf, qpoints]
  · have : qData L (true :: f) (v :: q') = .ok ⟨(v :: q').set 0 0, GW.argmin (((v :: q').set 0 0).map L.norm2Cryst),
        ((v :: q').set 0 0).getD (GW.argmin (((v :: q').set 0 0).map L.norm2Cryst)) 0⟩ := by
      simp [qData, qpoints]
    rw [this, h0]
    rfl
  · simp [QP.used]

/-- **C174b (violation).** If the q-point for Γ comes later (here second), the calculation from files replaces the first, regular q-point by Γ and treats the small vector that stands for Γ as a
regular q-point. -/
theorem C174_from_data_violated (u : ℝ) (A : Mat) (L : Lat) (hL : mkLat u A = .ok L) (q0 q1 : Vec) (h0 : q0 ≠ 0) :
    ∃ p p', qScf L [false, true] [q0, q1] = .ok p ∧ qData L [false, true] [q0, q1] = .ok p' ∧ p.used = [q0, 0] ∧ p'.used = [0, q1] ∧ p'.used ≠ p.used := by
  obtain ⟨-, p', -, hp', hu, hi, -⟩ := C174_from_data_partial u A L hL [q0, q1] (by simp) [true]
  obtain ⟨p2, p3, e2, e3, e4, e5, e6⟩ := C174_from_data_partial u A L hL [q0, q1] (by simp) [true]
  have e2' : p2 = ⟨[q0, q1], 0, q0⟩ := by
    have : qScf L [true, true] [q0, q1] = .ok ⟨[q0, q1], 0, q0⟩ := by simp [qScf, qpoints]
    rw [this] at e2
    injection e2 with e2
    exact e2.symm
  refine ⟨⟨[q0, q1], 1, q1⟩, p3, ?_, e3, by simp [QP.used], ?_, ?_⟩
  · simp [qScf, qpoints, List.idxOf, List.findIdx_cons]
  · rw [e4, e2']; simp [QP.used]
  · rw [e4, e2']
    simp only [QP.used, List.set_cons_zero, List.set_cons_succ, ne_eq]
    intro h
    injection h with h _
    exact h0 h.symm

example : (![1 / 2, 0, 0] : Vec) ≠ 0 ∧ mkLat 1 !![1, 1, 0; 0, 1, 0; 0, 0, 1] = .ok exLat :=
  ⟨fun h => by have := congrFun h 0; norm_num at this, exLat_ok⟩

end Verif.KLists
