import Verif.Model.LatNorm
import Verif.Props.LatArr

/-!
# C192: dot products and lengths are the same in every unit system
-/

namespace Verif.LatNorm

open Verif.Lattice Verif.LatArr

/-- The unit names a class documents. -/
def Known (k : Cls) (c : Name) : Prop := c = .cryst ∨ c = .cart ∨ (k = .real ∧ c = .alat) ∨ (k = .reci ∧ c = .tpiba)

/-- Specification: the Cartesian vector, in atomic units, that the numbers `v` stand for in the coordinates `c`. -/
noncomputable def meaning (L : Lat) : Name → Vec → Vec
  | .cryst, v => fun j => ∑ i, v i * L.axis i j
  | .cart, v => v
  | .alat, v => fun j => L.unit * v j
  | .tpiba, v => fun j => L.unit * v j
  | .other, v => v

/-- Specification: the scalar product of Cartesian vectors. -/
def sp (u v : Vec) : ℝ := u 0 * v 0 + u 1 * v 1 + u 2 * v 2

theorem sp_eq (u v : Vec) : sp u v = u ⬝ᵥ v := by simp [sp, dotProduct, Fin.sum_univ_three]

theorem meaning_cryst (L : Lat) (v : Vec) : meaning L .cryst v = L.cryst2cart v := by
  funext j
  simp only [meaning, Lat.cryst2cart, Matrix.mulVec, dotProduct, Lat.axis]
  exact Finset.sum_congr rfl fun i _ => mul_comm _ _

/-- **C192a.** `dot` of arrays of shapes `(3, s…)` and `(3, t…)` has the shape `(s…, t…)` and holds the scalar products of all pairs of vectors, whatever coordinates the vectors are given in: two
arrays that stand for the same vectors in different coordinates have the same scalar products. -/
theorem C192_dot (k : Cls) (u : ℝ) (A : Mat) (L : Lat) (hL : mkLat u A = .ok L) (a b : Arr) (s t : List ℕ) (ha : a.shape = 3 :: s) (hb : b.shape = 3 :: t) (c : Name) (hc : Known k c) :
    ∃ r, dot k L a b c = .ok r ∧ r.shape = s ++ t ∧
      ∀ i j, i.length = s.length → r.get (i ++ j) = sp (meaning L c (vec a i)) (meaning L c (vec b j)) := by
  have hbase : ∀ c', c' = .cryst ∨ c' = .cart → ∃ r, baseDot L a b c' = .ok r ∧ r.shape = s ++ t ∧
      ∀ i j, i.length = s.length → r.get (i ++ j) = sp (meaning L c' (vec a i)) (meaning L c' (vec b j)) := by
    intro c' hc'
    unfold baseDot
    rw [ha, hb]
    rcases hc' with rfl | rfl
    · refine ⟨_, rfl, rfl, fun i j hi => ?_⟩
      show vec a ((i ++ j).take s.length) ⬝ᵥ (L.metric.mulVec (vec b ((i ++ j).drop s.length))) = _
      rw [← hi, List.take_left, List.drop_left, meaning_cryst, meaning_cryst, sp_eq]
      exact (C26_metric u A L hL (vec a i) (vec b j)).1
    · refine ⟨_, rfl, rfl, fun i j hi => ?_⟩
      show vec a ((i ++ j).take s.length) ⬝ᵥ vec b ((i ++ j).drop s.length) = _
      rw [← hi, List.take_left, List.drop_left, sp_eq]
      rfl
  unfold dot
  by_cases h1 : c = .cryst ∨ c = .cart
  · rw [if_pos h1]
    exact hbase c h1
  · have h2 : (k = .real ∧ c = .alat) ∨ (k = .reci ∧ c = .tpiba) := by
      rcases hc with h | h | h | h
      · exact absurd (Or.inl h) h1
      · exact absurd (Or.inr h) h1
      · exact Or.inl h
      · exact Or.inr h
    rw [if_neg h1, if_pos h2]
    obtain ⟨r, hr, hs, hv⟩ := hbase .cart (Or.inr rfl)
    refine ⟨r.mulBy (L.unit ^ 2), by rw [hr]; rfl, hs, fun i j hi => ?_⟩
    show r.get (i ++ j) * L.unit ^ 2 = _
    rw [hv i j hi]
    have : meaning L c = meaning L .alat := by rcases h2 with ⟨-, rfl⟩ | ⟨-, rfl⟩ <;> rfl
    rw [this]
    simp only [sp, meaning]
    ring

/-- **C192b.** `norm2` holds the scalar products of the vectors with themselves, in row-major order. -/
theorem C192_norm2 (k : Cls) (u : ℝ) (A : Mat) (L : Lat) (hL : mkLat u A = .ok L) (a : Arr) (s : List ℕ) (ha : a.shape = 3 :: s) (c : Name) (hc : Known k c) :
    ∃ r, norm2 k L a c = .ok r ∧ r.shape = [s.prod] ∧
      ∀ i, InShape s i → r.get [Wavefun.ravel s i] = sp (meaning L c (vec a i)) (meaning L c (vec a i)) := by
  have hbase : ∀ c', c' = .cryst ∨ c' = .cart → ∃ r, baseNorm2 L a c' = .ok r ∧ r.shape = [s.prod] ∧
      ∀ i, InShape s i → r.get [Wavefun.ravel s i] = sp (meaning L c' (vec a i)) (meaning L c' (vec a i)) := by
    intro c' hc'
    unfold baseNorm2
    rw [ha]
    rcases hc' with rfl | rfl
    · refine ⟨_, rfl, rfl, fun i hi => ?_⟩
      show L.norm2Cryst (vec a (Wavefun.unravel s (Wavefun.ravel s i))) = _
      rw [Wavefun.unravel_ravel s i hi, meaning_cryst, sp_eq]
      exact (C26_metric u A L hL (vec a i) (vec a i)).2.1
    · refine ⟨_, rfl, rfl, fun i hi => ?_⟩
      show ∑ l, vec a (Wavefun.unravel s (Wavefun.ravel s i)) l * vec a (Wavefun.unravel s (Wavefun.ravel s i)) l = _
      rw [Wavefun.unravel_ravel s i hi, sp_eq]
      rfl
  unfold norm2
  by_cases h1 : c = .cryst ∨ c = .cart
  · rw [if_pos h1]
    exact hbase c h1
  · have h2 : (k = .real ∧ c = .alat) ∨ (k = .reci ∧ c = .tpiba) := by
      rcases hc with h | h | h | h
      · exact absurd (Or.inl h) h1
      · exact absurd (Or.inr h) h1
      · exact Or.inl h
      · exact Or.inr h
    rw [if_neg h1, if_pos h2]
    obtain ⟨r, hr, hs, hv⟩ := hbase .cart (Or.inr rfl)
    refine ⟨r.mulBy (L.unit ^ 2), by rw [hr]; rfl, hs, fun i hi => ?_⟩
    show r.get [Wavefun.ravel s i] * L.unit ^ 2 = _
    rw [hv i hi]
    have : meaning L c = meaning L .alat := by rcases h2 with ⟨-, rfl⟩ | ⟨-, rfl⟩ <;> rfl
    rw [this]
    simp only [sp, meaning]
    ring

/-- **C192c.** `norm` holds the lengths of the vectors in atomic units, whatever coordinates they are given in, for lattices whose unit is not negative. -/
theorem C192_norm_partial (k : Cls) (u : ℝ) (hu : 0 ≤ u) (A : Mat) (L : Lat) (hL : mkLat u A = .ok L) (a : Arr) (s : List ℕ) (ha : a.shape = 3 :: s) (c : Name) (hc : Known k c) :
    ∃ r, norm k L a c = .ok r ∧ r.shape = [s.prod] ∧
      ∀ i, InShape s i → r.get [Wavefun.ravel s i] = Real.sqrt (sp (meaning L c (vec a i)) (meaning L c (vec a i))) := by
  have hunit : L.unit = u := (mkLat_ok hL).2.1
  have key : ∀ k' c', Known k' c' → ∃ r, (norm2 k' L a c').map sqrtArr = .ok r ∧ r.shape = [s.prod] ∧
      ∀ i, InShape s i → r.get [Wavefun.ravel s i] = Real.sqrt (sp (meaning L c' (vec a i)) (meaning L c' (vec a i))) := by
    intro k' c' h
    obtain ⟨r, hr, hs, hv⟩ := C192_norm2 k' u A L hL a s ha c' h
    refine ⟨sqrtArr r, by rw [hr]; rfl, hs, fun i hi => ?_⟩
    show Real.sqrt (r.get _) = _
    rw [hv i hi]
  cases k with
  | reci => exact key .reci c hc
  | real =>
    unfold norm
    by_cases h1 : c = .cryst ∨ c = .cart
    · simp only [h1, if_true]
      exact key .real c hc
    · have h2 : c = .alat := by
        rcases hc with h | h | h | h
        · exact absurd (Or.inl h) h1
        · exact absurd (Or.inr h) h1
        · exact h.2
        · exact absurd h.1 (by decide)
      subst h2
      simp only [h1, if_false, if_true]
      obtain ⟨r, hr, hs, hv⟩ := key .real .cart (Or.inr (Or.inl rfl))
      refine ⟨r.mulBy L.unit, by rw [hr]; rfl, hs, fun i hi => ?_⟩
      show r.get _ * L.unit = _
      rw [hv i hi]
      have e : sp (meaning L .alat (vec a i)) (meaning L .alat (vec a i)) = sp (meaning L .cart (vec a i)) (meaning L .cart (vec a i)) * L.unit ^ 2 := by
        simp only [sp, meaning]
        ring
      rw [e, Real.sqrt_mul' _ (sq_nonneg _), Real.sqrt_sq (by rw [hunit]; exact hu)]

/-- **C192d (violation).** A `RealLattice` with a negative `alat` is accepted, and then the lengths of vectors given in units of it are negative, while `norm2` is right. -/
theorem C192_negative_alat_violated (u : ℝ) (hu : u < 0) (A : Mat) (L : Lat) (hL : mkLat u A = .ok L) (v : Vec) (hv : v ≠ 0) :
    ∃ r, norm .real L ⟨[3], fun i => if h : i.getD 0 0 < 3 then v ⟨i.getD 0 0, h⟩ else 0⟩ .alat = .ok r ∧ r.get [0] < 0 := by
  have hunit : L.unit = u := (mkLat_ok hL).2.1
  let X : Arr := ⟨[3], fun i => if h : i.getD 0 0 < 3 then v ⟨i.getD 0 0, h⟩ else 0⟩
  have e : vec X (Wavefun.unravel [] ([0].getD 0 0)) = v := by
    funext i
    simp [vec, X]
  refine ⟨_, rfl, ?_⟩
  show Real.sqrt (∑ i, vec X (Wavefun.unravel [] ([0].getD 0 0)) i * vec X (Wavefun.unravel [] ([0].getD 0 0)) i) * L.unit < 0
  rw [e, hunit]
  have : 0 < ∑ i : Fin 3, v i * v i := lt_of_le_of_ne (dot_self_nonneg v) (fun h => hv ((dot_self_eq_zero v).1 h.symm))
  exact mul_neg_of_pos_of_neg (Real.sqrt_pos.2 this) hu

/-- **C192e.** Lengths and scalar products obey the Cauchy-Schwarz and triangle inequalities in every unit system (`sp` and `meaning` are what `dot`, `norm2` and `norm` return, C192a-c), and only the zero
vector has length zero (unless the unit is zero). -/
theorem C192_geometry (u : ℝ) (A : Mat) (L : Lat) (hL : mkLat u A = .ok L) (c : Name) (v w : Vec) :
    |sp (meaning L c v) (meaning L c w)| ≤ Real.sqrt (sp (meaning L c v) (meaning L c v)) * Real.sqrt (sp (meaning L c w) (meaning L c w)) ∧
    Real.sqrt (sp (meaning L c (v + w)) (meaning L c (v + w))) ≤ Real.sqrt (sp (meaning L c v) (meaning L c v)) + Real.sqrt (sp (meaning L c w) (meaning L c w)) ∧
    (u ≠ 0 → (sp (meaning L c v) (meaning L c v) = 0 ↔ v = 0)) := by
  have hunit : L.unit = u := (mkLat_ok hL).2.1
  have cs : ∀ x y : Vec, |sp x y| ≤ Real.sqrt (sp x x) * Real.sqrt (sp y y) := by
    intro x y
    rw [← Real.sqrt_mul (by rw [sp_eq]; exact dot_self_nonneg x), ← Real.sqrt_sq_eq_abs]
    apply Real.sqrt_le_sqrt
    rw [sp_eq, sp_eq, sp_eq]
    exact cauchy x y
  have tri : ∀ x y : Vec, Real.sqrt (sp (x + y) (x + y)) ≤ Real.sqrt (sp x x) + Real.sqrt (sp y y) := by
    intro x y
    apply Real.sqrt_le_iff.2
    refine ⟨add_nonneg (Real.sqrt_nonneg _) (Real.sqrt_nonneg _), ?_⟩
    have h1 := Real.sq_sqrt (show 0 ≤ sp x x by rw [sp_eq]; exact dot_self_nonneg x)
    have h2 := Real.sq_sqrt (show 0 ≤ sp y y by rw [sp_eq]; exact dot_self_nonneg y)
    have h3 := le_trans (le_abs_self _) (cs x y)
    have e : sp (x + y) (x + y) = sp x x + 2 * sp x y + sp y y := by
      simp only [sp, Pi.add_apply]
      ring
    rw [e, add_sq, h1, h2]
    linarith
  have hadd : meaning L c (v + w) = meaning L c v + meaning L c w := by
    cases c with
    | cryst =>
      rw [meaning_cryst, meaning_cryst, meaning_cryst]
      exact Matrix.mulVec_add _ _ _
    | cart => rfl
    | alat => funext j; exact mul_add _ _ _
    | tpiba => funext j; exact mul_add _ _ _
    | other => rfl
  refine ⟨cs _ _, by rw [hadd]; exact tri _ _, fun hu => ?_⟩
  rw [sp_eq]
  have hz : L.unit ≠ 0 := by rw [hunit]; exact hu
  cases c with
  | cryst =>
    rw [meaning_cryst]
    have k := C26_metric u A L hL v v
    have := k.2.2.2.2
    rw [k.2.1] at this
    exact this
  | cart => exact dot_self_eq_zero v
  | other => exact dot_self_eq_zero v
  | alat =>
    rw [dot_self_eq_zero]
    exact ⟨fun h => funext fun j => (mul_eq_zero.1 (congrFun h j)).resolve_left hz, fun h => by rw [h]; funext j; exact mul_zero _⟩
  | tpiba =>
    rw [dot_self_eq_zero]
    exact ⟨fun h => funext fun j => (mul_eq_zero.1 (congrFun h j)).resolve_left hz, fun h => by rw [h]; funext j; exact mul_zero _⟩

/-- **C192f.** An unknown unit name — in particular `"tpiba"` for a real and `"alat"` for a reciprocal lattice — raises `ValueError` in all three, and so does a leading axis that is not 3 long. -/
theorem C192_rejects (k : Cls) (L : Lat) (a b : Arr) (c : Name) :
    (¬ Known k c → dot k L a b c = .error .value ∧ norm2 k L a c = .error .value ∧ norm k L a c = .error .value) ∧
    (∀ n s, a.shape = n :: s → n ≠ 3 → dot k L a b c = .error .value ∧ norm2 k L a c = .error .value ∧ norm k L a c = .error .value) := by
  have hn : ∀ n s, a.shape = n :: s → n ≠ 3 → ∀ k' c', norm2 k' L a c' = .error .value ∧ dot k' L a b c' = .error .value := by
    intro n s hs hne k' c'
    have e1 : ∀ d, baseNorm2 L a d = .error .value := by
      intro d
      unfold baseNorm2
      rw [hs]
      simp only [ne_eq, hne, not_false_eq_true, if_true]
    have e2 : ∀ d, baseDot L a b d = .error .value := by
      intro d
      unfold baseDot
      rw [hs]
      simp only [ne_eq, hne, not_false_eq_true, if_true]
    unfold norm2 dot
    rw [e1, e1, e2, e2]
    constructor <;> (split; rfl; split <;> rfl)
  constructor
  · intro h
    have h1 : ¬ (c = .cryst ∨ c = .cart) := fun x => h (x.elim Or.inl fun y => Or.inr (Or.inl y))
    have h2 : ¬ ((k = .real ∧ c = .alat) ∨ (k = .reci ∧ c = .tpiba)) := fun x => h (Or.inr (Or.inr x))
    have e1 : dot k L a b c = .error .value := by
      unfold dot
      rw [if_neg h1, if_neg h2]
    have e2 : norm2 k L a c = .error .value := by
      unfold norm2
      rw [if_neg h1, if_neg h2]
    refine ⟨e1, e2, ?_⟩
    cases k with
    | reci =>
      unfold norm
      rw [e2]
      rfl
    | real =>
      unfold norm
      have h3 : ¬ c = .alat := fun x => h2 (Or.inl ⟨rfl, x⟩)
      simp only [h1, h3, if_false]
  · intro n s hs hne
    have hx := hn n s hs hne
    refine ⟨(hx k c).2, (hx k c).1, ?_⟩
    cases k with
    | reci =>
      unfold norm
      rw [(hx _ _).1]
      rfl
    | real =>
      unfold norm
      simp only [(hx _ _).1]
      split
      · rfl
      · split <;> rfl

/-- A skewed lattice, arrays of two and of one vector. -/
example : mkLat 1 !![1, 1, 0; 0, 1, 0; 0, 0, 1] = .ok exLat ∧ Known .real .alat ∧ Known .reci .tpiba ∧ ¬ Known .real .tpiba ∧ (0 : ℝ) ≤ 1 ∧
    (∃ r, dot .real exLat ⟨[3, 2], fun i => i.getD 0 0 + i.getD 1 0⟩ ⟨[3], fun i => i.getD 0 0⟩ .cryst = .ok r ∧ r.shape = [2] ∧ r.get [1] = sp (meaning exLat .cryst ![1, 2, 3]) (meaning exLat .cryst ![0, 1, 2])) := by
  refine ⟨exLat_ok, Or.inr (Or.inr (Or.inl ⟨rfl, rfl⟩)), Or.inr (Or.inr (Or.inr ⟨rfl, rfl⟩)), by unfold Known; decide, by norm_num, ?_⟩
  obtain ⟨r, hr, hs, hv⟩ := C192_dot .real 1 _ exLat exLat_ok ⟨[3, 2], fun i => i.getD 0 0 + i.getD 1 0⟩ ⟨[3], fun i => i.getD 0 0⟩ [2] [] rfl rfl .cryst (Or.inl rfl)
  refine ⟨r, hr, hs, ?_⟩
  have := hv [1] [] rfl
  simp only [List.append_nil] at this
  rw [this]
  congr 2 <;> funext i <;> fin_cases i <;> norm_num [vec]

end Verif.LatNorm
