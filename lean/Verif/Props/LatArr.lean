import Mathlib.Data.List.Forall2
import Verif.Model.LatArr
import Verif.Props.Lattice
import Verif.Props.Wavefun

/-!
# C140 – C142: coordinate conversions on arrays, coordinates of k-point lists, norms of arrays of vectors
-/

namespace Verif.LatArr

open Verif.Lattice Matrix

theorem insertIdx_mid {α : Type*} (p q : List α) (x : α) : (p ++ q).insertIdx p.length x = p ++ x :: q := by
  induction p with
  | nil => rfl
  | cons a p ih => simp [ih]

theorem eraseIdx_mid {α : Type*} (p q : List α) (x : α) : (p ++ x :: q).eraseIdx p.length = p ++ q := by
  induction p with
  | nil => rfl
  | cons a p ih => simp [ih]

theorem bdim_one (d : ℕ) : bdim 1 d = some d := by unfold bdim; split <;> simp_all

theorem bzip_ones (s : List ℕ) : bzip (List.replicate s.length 1) s = some s := by
  induction s with
  | nil => rfl
  | cons d s ih => simp [List.replicate_succ, bzip, bdim_one, ih]

theorem bzip_mid (pre post : List ℕ) :
    bzip (List.replicate pre.length 1 ++ 3 :: 3 :: List.replicate post.length 1) (pre ++ 1 :: 3 :: post) = some (pre ++ 3 :: 3 :: post) := by
  induction pre with
  | nil => simp [bzip, bdim, bzip_ones]
  | cons d s ih => simp only [List.length_cons, List.replicate_succ, List.cons_append, bzip, bdim_one, Option.bind_some, ih, Option.map_some]

/-- Clipping at axes of length one does nothing to an index inside the shape. -/
theorem clip_id (shape idx : List ℕ) (h : InShape shape idx) : List.zipWith (fun d i => if d = 1 then 0 else i) shape idx = idx := by
  induction h with
  | nil => rfl
  | cons h _ ih =>
    simp only [List.zipWith_cons_cons, ih, List.cons.injEq, and_true]
    split <;> omega

/-- Specification: the vector of coordinates found in `a` along the axis after the indices `p`, at the remaining indices `q`. -/
def vecAt (a : Arr) (p q : List ℕ) : Vec := fun i => a.get (p ++ i.val :: q)

theorem transform_spec (M : Mat) (a : Arr) (pre post : List ℕ) (hs : a.shape = pre ++ 3 :: post) :
    ∃ r, transform M a pre.length = .ok r ∧ r.shape = a.shape ∧
      ∀ p q, InShape pre p → InShape post q → vecAt r p q = M.mulVec (vecAt a p q) := by
  have hlen : (expandDims a pre.length).shape = pre ++ 1 :: 3 :: post := by
    show a.shape.insertIdx pre.length 1 = _
    rw [hs, insertIdx_mid]
  have hn : (expandDims a pre.length).shape.length - pre.length - 2 = post.length := by
    rw [hlen]; simp only [List.length_append, List.length_cons]; omega
  have hb : bshape (matArr M post.length).shape (expandDims a pre.length).shape = some (pre ++ 3 :: 3 :: post) := by
    rw [hlen]
    unfold bshape matArr
    simp only [List.length_append, List.length_cons, List.length_replicate]
    rw [show pre.length + (post.length + 1 + 1) - (post.length + 1 + 1) = pre.length by omega,
      show post.length + 1 + 1 - (pre.length + (post.length + 1 + 1)) = 0 by omega]
    exact bzip_mid pre post
  unfold transform
  simp only [hn]
  unfold mul
  rw [hb]
  refine ⟨_, rfl, ?_, ?_⟩
  · show (pre ++ 3 :: 3 :: post).eraseIdx (pre.length + 1) = _
    have := eraseIdx_mid (pre ++ [3]) post 3
    rw [hs]
    simpa using this
  · intro p q hp hq
    have hpl : p.length = pre.length := hp.length_eq
    have hql : q.length = post.length := hq.length_eq
    funext i
    show ∑ j ∈ Finset.range ((pre ++ 3 :: 3 :: post).getD (pre.length + 1) 0), _ = _
    have hd : (pre ++ 3 :: 3 :: post).getD (pre.length + 1) 0 = 3 := by simp [List.getD_append_right]
    have hins : ∀ j : ℕ, (p ++ i.val :: q).insertIdx (pre.length + 1) j = p ++ i.val :: j :: q := by
      intro j
      have := insertIdx_mid (p ++ [i.val]) q j
      rw [← hpl]
      simpa using this
    have hg1 : ∀ j : ℕ, j < 3 → bget (matArr M post.length) (p ++ i.val :: j :: q) = entry M i.val j := by
      intro j hj
      unfold bget matArr
      simp only [List.length_append, List.length_cons, List.length_replicate, hpl, hql]
      rw [show pre.length + (post.length + 1 + 1) - (post.length + 1 + 1) = p.length by omega, List.drop_left]
      simp only [List.zipWith_cons_cons, List.getD_cons_zero, List.getD_cons_succ]
      norm_num
    have hg2 : ∀ j : ℕ, j < 3 → bget (expandDims a pre.length) (p ++ i.val :: j :: q) = a.get (p ++ j :: q) := by
      intro j hj
      unfold bget
      rw [hlen]
      simp only [List.length_append, List.length_cons, hpl, hql, Nat.sub_self, List.drop_zero]
      rw [List.zipWith_append (by rw [hpl])]
      simp only [List.zipWith_cons_cons]
      rw [clip_id _ _ hp, clip_id _ _ hq]
      show a.get ((p ++ _).eraseIdx pre.length) = _
      rw [← hpl, eraseIdx_mid]
      norm_num
    rw [hd, Matrix.mulVec]
    show _ = ∑ j : Fin 3, M i j * vecAt a p q j
    rw [Finset.sum_range]
    apply Finset.sum_congr rfl
    intro j _
    show bget _ ((p ++ i.val :: q).insertIdx (pre.length + 1) j.val) * bget _ ((p ++ i.val :: q).insertIdx (pre.length + 1) j.val) = _
    rw [hins, hg1 _ j.isLt, hg2 _ j.isLt]
    unfold entry vecAt
    rw [dif_pos ⟨i.isLt, j.isLt⟩]

/-- C140: a conversion of an array of vectors, with the coordinates along any axis, returns an array of the same shape with every vector converted. -/
theorem C140_array_conversion (L : Lat) (a : Arr) (pre post : List ℕ) (hs : a.shape = pre ++ 3 :: post) :
    (∃ r, cart2cryst L a pre.length = .ok r ∧ r.shape = a.shape ∧
      ∀ p q, InShape pre p → InShape post q → vecAt r p q = L.cart2cryst (vecAt a p q)) ∧
    (∃ r, cryst2cart L a pre.length = .ok r ∧ r.shape = a.shape ∧
      ∀ p q, InShape pre p → InShape post q → vecAt r p q = L.cryst2cart (vecAt a p q)) ∧
    (∃ r, cryst2unit L a pre.length = .ok r ∧ r.shape = a.shape ∧
      ∀ p q, InShape pre p → InShape post q → vecAt r p q = L.cryst2unit (vecAt a p q)) ∧
    (∃ r, unit2cryst L a pre.length = .ok r ∧ r.shape = a.shape ∧
      ∀ p q, InShape pre p → InShape post q → vecAt r p q = L.unit2cryst (vecAt a p q)) := by
  have h3 : cryst2cart L a pre.length = transform L.primvec a pre.length := by
    unfold cryst2cart
    rw [hs]
    simp
  obtain ⟨r1, a1, a2, a3⟩ := transform_spec L.primvecInv a pre post hs
  obtain ⟨r2, b1, b2, b3⟩ := transform_spec L.primvec a pre post hs
  have a1' : cart2cryst L a pre.length = .ok r1 := a1
  have b1' : cryst2cart L a pre.length = .ok r2 := by rw [h3]; exact b1
  refine ⟨⟨r1, a1', a2, a3⟩, ⟨r2, b1', b2, b3⟩, ⟨r2.divBy L.unit, ?_, b2, ?_⟩, ⟨r1.mulBy L.unit, ?_, a2, ?_⟩⟩
  · unfold cryst2unit; rw [b1']; rfl
  · intro p q hp hq
    funext i
    have := congrFun (b3 p q hp hq) i
    show r2.get _ / L.unit = L.primvec.mulVec (vecAt a p q) i / L.unit
    rw [← this]; rfl
  · unfold unit2cryst; rw [a1']; rfl
  · intro p q hp hq
    funext i
    have := congrFun (a3 p q hp hq) i
    show r1.get _ * L.unit = L.primvecInv.mulVec (vecAt a p q) i * L.unit
    rw [← this]; rfl

/-- Two arrays have the same shape and elements. -/
def Same (a b : Arr) : Prop := a.shape = b.shape ∧ ∀ idx, InShape a.shape idx → a.get idx = b.get idx

/-- C140: `cryst2cart` refuses an array whose chosen axis does not have length 3 (`AssertionError`) or does not exist (`IndexError`). -/
theorem C140_rejects (L : Lat) (a : Arr) (axis : ℕ) :
    (a.shape.length ≤ axis → cryst2cart L a axis = .error .index) ∧ ∀ d, a.shape[axis]? = some d → d ≠ 3 → cryst2cart L a axis = .error .assertion := by
  refine ⟨fun h => ?_, fun d h h3 => ?_⟩
  · simp only [cryst2cart, List.getElem?_eq_none h]
  · simp only [cryst2cart, h, if_neg h3]

theorem split_idx (pre post idx : List ℕ) (h : InShape (pre ++ 3 :: post) idx) :
    ∃ p i q, idx = p ++ i :: q ∧ i < 3 ∧ InShape pre p ∧ InShape post q := by
  induction pre generalizing idx with
  | nil =>
    cases h with
    | cons h1 h2 => exact ⟨[], _, _, rfl, h1, List.Forall₂.nil, h2⟩
  | cons d pre ih =>
    cases h with
    | cons h1 h2 =>
      obtain ⟨p, i, q, rfl, h3, h4, h5⟩ := ih _ h2
      exact ⟨_ :: p, i, q, rfl, h3, List.Forall₂.cons h1 h4, h5⟩

/-- C140, round trips: converting an array to Cartesian (or `alat`/`tpiba`) coordinates and back gives the array. -/
theorem C140_round_trip (u : ℝ) (A : Mat) (L : Lat) (hL : mkLat u A = .ok L) (hu : u ≠ 0) (a : Arr) (pre post : List ℕ) (hs : a.shape = pre ++ 3 :: post) :
    (∃ b c, cryst2cart L a pre.length = .ok b ∧ cart2cryst L b pre.length = .ok c ∧ Same c a) ∧
    (∃ b c, cart2cryst L a pre.length = .ok b ∧ cryst2cart L b pre.length = .ok c ∧ Same c a) ∧
    (∃ b c, cryst2unit L a pre.length = .ok b ∧ unit2cryst L b pre.length = .ok c ∧ Same c a) ∧
    (∃ b c, unit2cryst L a pre.length = .ok b ∧ cryst2unit L b pre.length = .ok c ∧ Same c a) := by
  have key : ∀ (b c : Arr) (hb : b.shape = a.shape) (hc : c.shape = b.shape)
      (f g : Vec → Vec) (h1 : ∀ p q, InShape pre p → InShape post q → vecAt b p q = f (vecAt a p q))
      (h2 : ∀ p q, InShape pre p → InShape post q → vecAt c p q = g (vecAt b p q)) (hfg : ∀ v, g (f v) = v), Same c a := by
    intro b c hb hc f g h1 h2 hfg
    refine ⟨hc.trans hb, fun idx hidx => ?_⟩
    rw [hc, hb, hs] at hidx
    obtain ⟨p, i, q, rfl, hi, hp, hq⟩ := split_idx pre post idx hidx
    have := congrFun (h2 p q hp hq) ⟨i, hi⟩
    rw [h1 p q hp hq, hfg] at this
    exact this
  have inv := (C26_conversions_inverse u A).2 L hL hu
  obtain ⟨⟨b1, x1, s1, v1⟩, ⟨b2, x2, s2, v2⟩, ⟨b3, x3, s3, v3⟩, ⟨b4, x4, s4, v4⟩⟩ := C140_array_conversion L a pre post hs
  refine ⟨?_, ?_, ?_, ?_⟩
  · obtain ⟨⟨c, y, t, w⟩, -, -, -⟩ := C140_array_conversion L b2 pre post (s2.trans hs)
    exact ⟨b2, c, x2, y, key b2 c s2 t _ _ v2 w fun v => (inv v).1⟩
  · obtain ⟨-, ⟨c, y, t, w⟩, -, -⟩ := C140_array_conversion L b1 pre post (s1.trans hs)
    exact ⟨b1, c, x1, y, key b1 c s1 t _ _ v1 w fun v => (inv v).2.1⟩
  · obtain ⟨-, -, -, ⟨c, y, t, w⟩⟩ := C140_array_conversion L b3 pre post (s3.trans hs)
    exact ⟨b3, c, x3, y, key b3 c s3 t _ _ v3 w fun v => (inv v).2.2.2.2.1⟩
  · obtain ⟨-, -, ⟨c, y, t, w⟩, -⟩ := C140_array_conversion L b4 pre post (s4.trans hs)
    exact ⟨b4, c, x4, y, key b4 c s4 t _ _ v4 w fun v => (inv v).2.2.2.2.2⟩

/-- A concrete lattice, sheared so that mistakes of orientation show. -/
noncomputable def exLat : Lat := ⟨1, !![1, 1, 0; 0, 1, 0; 0, 0, 1], (!![1, 1, 0; 0, 1, 0; 0, 0, 1] : Mat)⁻¹, (!![1, 1, 0; 0, 1, 0; 0, 0, 1] : Mat)ᵀ * !![1, 1, 0; 0, 1, 0; 0, 0, 1], |(!![1, 1, 0; 0, 1, 0; 0, 0, 1] : Mat).det|⟩

theorem exLat_ok : mkLat 1 !![1, 1, 0; 0, 1, 0; 0, 0, 1] = .ok exLat := by
  unfold mkLat
  rw [if_neg (by simp [Matrix.det_fin_three])]
  rfl

/-- The hypotheses are met: a list of five vectors (coordinates along the last axis), a mesh of 2 × 4 × 4 vectors (along the first), the lattice `exLat`. -/
example : (⟨[5, 3], fun i => i.sum⟩ : Arr).shape = [5] ++ 3 :: [] ∧ (⟨[3, 2, 4, 4], fun i => i.sum⟩ : Arr).shape = [] ++ 3 :: [2, 4, 4] ∧
    mkLat 1 !![1, 1, 0; 0, 1, 0; 0, 0, 1] = .ok exLat := ⟨rfl, rfl, exLat_ok⟩

/-- C141, proved part: a k-point list made from Cartesian or `tpiba` coordinates holds the crystal coordinates of the given points, one column and one weight for each, and its `k_cart` are
the Cartesian coordinates. -/
theorem C141_klist_coords_partial (u : ℝ) (A : Mat) (L : Lat) (hL : mkLat u A = .ok L) (hu : u ≠ 0) (a : Arr) (n : ℕ) (hs : a.shape = [3, n]) (w : List ℝ) (hw : w.length = n) (typ : Coords) :
    ∃ k r, mkKL L a w typ = .ok k ∧ k.weights = w ∧ k.numk = n ∧ k.kcart L = .ok r ∧ r.shape = [3, n] ∧
      ∀ i < n, vecAt k.kcryst [] [i] = (match typ with
          | .cryst => vecAt a [] [i]
          | .cart => L.cart2cryst (vecAt a [] [i])
          | .tpiba => L.cart2cryst (fun j => vecAt a [] [i] j * u)) ∧
        vecAt r [] [i] = (match typ with
          | .cryst => L.cryst2cart (vecAt a [] [i])
          | .cart => vecAt a [] [i]
          | .tpiba => fun j => vecAt a [] [i] j * u) := by
  have inv := (C26_conversions_inverse u A).2 L hL hu
  have hunit : L.unit = u := (mkLat_ok hL).2.1
  have hin : ∀ i < n, InShape [n] [i] := fun i hi => .cons hi .nil
  obtain ⟨⟨b1, x1, s1, v1⟩, -, -, ⟨b4, x4, s4, v4⟩⟩ := C140_array_conversion L a [] [n] hs
  have fin : ∀ b : Arr, b.shape = [3, n] → ∃ r, cryst2cart L b 0 = .ok r ∧ r.shape = [3, n] ∧
      ∀ i < n, vecAt r [] [i] = L.cryst2cart (vecAt b [] [i]) := by
    intro b hb
    obtain ⟨-, ⟨c, y, t, z⟩, -, -⟩ := C140_array_conversion L b [] [n] hb
    exact ⟨c, y, t.trans hb, fun i hi => z [] [i] .nil (hin i hi)⟩
  have hu4 : ∀ v, L.unit2cryst v = L.cart2cryst fun j => v j * u := by
    intro v
    funext i
    simp only [Lat.unit2cryst, Lat.cart2cryst, hunit, Matrix.mulVec, dotProduct, Finset.sum_mul]
    exact Finset.sum_congr rfl fun j _ => by ring
  cases typ with
  | cryst =>
    obtain ⟨r, h1, h2, h3⟩ := fin a hs
    refine ⟨⟨a, w⟩, r, ?_, rfl, ?_, h1, h2, fun i hi => ⟨rfl, h3 i hi⟩⟩
    · simp [mkKL, hs, hw]
    · simp [KL.numk, hs]
  | cart =>
    obtain ⟨r, h1, h2, h3⟩ := fin b1 (s1.trans hs)
    refine ⟨⟨b1, w⟩, r, ?_, rfl, ?_, h1, h2, fun i hi => ⟨v1 [] [i] .nil (hin i hi), ?_⟩⟩
    · have x1' : cart2cryst L a 0 = .ok b1 := x1
      simp [mkKL, hs, hw, x1']
    · simp [KL.numk, s1.trans hs]
    · rw [h3 i hi, v1 [] [i] .nil (hin i hi), (inv _).2.1]
  | tpiba =>
    obtain ⟨r, h1, h2, h3⟩ := fin b4 (s4.trans hs)
    refine ⟨⟨b4, w⟩, r, ?_, rfl, ?_, h1, h2, fun i hi => ⟨?_, ?_⟩⟩
    · have x4' : unit2cryst L a 0 = .ok b4 := x4
      simp [mkKL, hs, hw, x4']
    · simp [KL.numk, s4.trans hs]
    · rw [v4 [] [i] .nil (hin i hi), hu4]
    · rw [h3 i hi, v4 [] [i] .nil (hin i hi), hu4, (inv _).2.1]

/-- C141: a list that is not `(3, n)`, and a number of weights other than `n`, are refused with `ValueError`. -/
theorem C141_checks (L : Lat) (a : Arr) (w : List ℝ) :
    ((¬ ∃ n, a.shape = [3, n]) → ∀ typ, mkKL L a w typ = .error .value) ∧ ∀ n, a.shape = [3, n] → w.length ≠ n → mkKL L a w .cryst = .error .value := by
  refine ⟨fun h typ => ?_, fun n h hw => ?_⟩
  · unfold mkKL
    split
    · next d n hs => rw [if_neg]; rintro rfl; exact h ⟨n, hs⟩
    · rfl
  · simp only [mkKL, h, if_true, if_neg hw]

/-- C141, violated: the `tpiba` coordinates of a k-point list cannot be obtained unless it has exactly three points … -/
theorem C141_tpiba_fails (L : Lat) (k : KL) (n : ℕ) (hs : k.kcryst.shape = [3, n]) (hn : n ≠ 3) : k.ktpiba L = .error .assertion := by
  simp [KL.ktpiba, cryst2unit, cryst2cart, hs, hn, Except.map]

/-- … and with three points they are wrong: the crystal coordinates `(1, 0, 0)` of the second point of this list have `tpiba` coordinates `(1, 0, 0)`, but the first point, Γ, gets the
first coordinate 1. -/
theorem C141_tpiba_wrong : mkLat 1 !![1, 1, 0; 0, 1, 0; 0, 0, 1] = .ok exLat ∧
    ∃ k : KL, mkKL exLat ⟨[3, 3], fun idx => if idx = [0, 1] then 1 else 0⟩ [1, 1, 1] .cryst = .ok k ∧
      vecAt k.kcryst [] [0] = 0 ∧ ∃ r, k.ktpiba exLat = .ok r ∧ vecAt r [] [0] 0 = 1 := by
  refine ⟨exLat_ok, ⟨⟨[3, 3], fun idx => if idx = [0, 1] then 1 else 0⟩, [1, 1, 1]⟩, rfl, ?_, ?_⟩
  · funext i; fin_cases i <;> simp [vecAt]
  · obtain ⟨-, -, ⟨c, y, t, z⟩, -⟩ := C140_array_conversion exLat ⟨[3, 3], fun idx => if idx = [0, 1] then 1 else 0⟩ [3] [] rfl
    refine ⟨c, y, ?_⟩
    have := congrFun (z [0] [] (.cons (by omega) .nil) .nil) 0
    refine this.trans ?_
    simp [Lat.cryst2unit, Lat.cryst2cart, exLat, Matrix.mulVec, dotProduct, Fin.sum_univ_three, vecAt]

/-- C142, proved part: `norm2` of an array `(3, …)` holds the squared lengths of the vectors, in row-major order. -/
theorem C142_norm2_values_partial (u : ℝ) (A : Mat) (L : Lat) (hL : mkLat u A = .ok L) (a : Arr) (rest : List ℕ) (hs : a.shape = 3 :: rest) :
    ∃ r, norm2 L a = .ok r ∧ r.shape = [rest.prod] ∧
      ∀ idx, InShape rest idx → r.get [Wavefun.ravel rest idx] = dotCart (L.cryst2cart (vecAt a [] idx)) (L.cryst2cart (vecAt a [] idx)) := by
  refine ⟨_, by unfold norm2; rw [hs]; exact rfl, rfl, fun idx hidx => ?_⟩
  simp only [List.getD_cons_zero]
  rw [Wavefun.unravel_ravel rest idx hidx]
  exact (C26_metric u A L hL (vecAt a [] idx) (vecAt a [] idx)).2.1

/-- C142, violated: the result has the shape of the array of vectors only if that is one-dimensional; for a single vector it is an array of length one, for a mesh it is flat (documented: the
shape of the array without its first axis). -/
theorem C142_norm2_shape (L : Lat) (a : Arr) (rest : List ℕ) (hs : a.shape = 3 :: rest) :
    ∃ r, norm2 L a = .ok r ∧ (r.shape = rest ↔ rest.length = 1) := by
  refine ⟨_, by unfold norm2; rw [hs]; exact rfl, ?_⟩
  show [rest.prod] = rest ↔ _
  constructor
  · intro h; rw [← h]; rfl
  · intro h
    obtain ⟨x, rfl⟩ := List.length_eq_one_iff.1 h
    simp

end Verif.LatArr
