import Verif.Model.GW
import Verif.Props.GWMel
import Verif.Props.DFTComm
import Mathlib.Data.List.Induction
import Mathlib.Data.List.GetD
import Mathlib.Algebra.BigOperators.Field

/-!
# Property C54: the polarizability matrix
-/

namespace Verif.GW

open Verif.Lattice (Vec)
open Verif.GSpace (GVec Shape cryst2idxgrid flatIdx inBounds)
open Verif.FFT (Driver DrvState)
open scoped ComplexConjugate

/-! ## Specification -/

/-- State `(k, b)` is among the bands considered and has occupation `x`. -/
def HasOcc (E : EpsIn) (x : ℝ) (p : ℕ × ℕ) : Prop :=
  p.1 < E.ks.length ∧ p.2 < E.nbands ∧ (E.wfn.getD p.1 default).occ p.2 = x

/-- Transition from the occupied state `v` to the empty state `c` with `k_v = k_c + q` up to a reciprocal lattice vector
(and the tolerance of the comparison). -/
def Transition (E : EpsIn) (t : (ℕ × ℕ) × (ℕ × ℕ)) : Prop :=
  HasOcc E 0 t.1 ∧ HasOcc E 1 t.2 ∧ IsClose (E.ks.getD t.2.1 0) (kPlusQ (E.ks.getD t.1.1 0) E.qadd)

open Classical in
/-- All transitions. -/
noncomputable def transitions (E : EpsIn) : Finset ((ℕ × ℕ) × (ℕ × ℕ)) :=
  (((Finset.range E.ks.length) ×ˢ (Finset.range E.nbands)) ×ˢ ((Finset.range E.ks.length) ×ˢ (Finset.range E.nbands))).filter
    (Transition E)

/-- RPA polarizability: `χ_GG' = -4/(Ω N_k) Σ_transitions conj(M_G) M_G'`. -/
noncomputable def chiSpec (drv : Driver) (E : EpsIn) (st : DrvState ℂ) (l m : ℕ) : ℂ :=
  -(4 / ((E.vol * E.ks.length : ℝ) : ℂ)) * ∑ t ∈ transitions E,
    conj ((mel drv E st t.1.1 t.1.2 t.2.1 t.2.2).getD l 0) * (mel drv E st t.1.1 t.1.2 t.2.1 t.2.2).getD m 0

/-- A quadratic form. -/
noncomputable def quad {n : ℕ} (A : Fin n → Fin n → ℂ) (z : Fin n → ℂ) : ℂ := ∑ l, ∑ m, conj (z l) * A l m * z m

/-- Hermitian and negative semidefinite. -/
def NegSemi {n : ℕ} (A : Fin n → Fin n → ℂ) : Prop := (∀ i j, A i j = conj (A j i)) ∧ ∀ z, (quad A z).re ≤ 0

/-! ## Lists of states -/

open Classical in
theorem mem_whereOcc (E : EpsIn) (x : ℝ) (p : ℕ × ℕ) : p ∈ whereOcc E x ↔ HasOcc E x p := by
  unfold whereOcc HasOcc
  simp only [List.mem_flatMap, List.mem_range, List.mem_map, List.mem_filter, decide_eq_true_eq]
  constructor
  · rintro ⟨k, hk, b, ⟨hb, ho⟩, rfl⟩
    exact ⟨hk, hb, ho⟩
  · rintro ⟨h1, h2, h3⟩
    exact ⟨p.1, h1, p.2, ⟨h2, h3⟩, rfl⟩

theorem whereOcc_nodup (E : EpsIn) (x : ℝ) : (whereOcc E x).Nodup := by
  classical
  unfold whereOcc
  rw [List.nodup_flatMap]
  refine ⟨fun k _ => (List.Nodup.filter _ List.nodup_range).map fun a b h => (Prod.mk.inj h).2, ?_⟩
  refine List.nodup_range.imp ?_
  intro a b hab
  simp only [Function.onFun]
  rw [List.disjoint_iff_ne]
  intro p hp p' hp' e
  rw [List.mem_map] at hp hp'
  obtain ⟨_, _, rfl⟩ := hp
  obtain ⟨_, _, rfl⟩ := hp'
  exact hab (Prod.mk.inj e).1

theorem mem_matchV (E : EpsIn) (kc : ℕ) (v : ℕ × ℕ) :
    v ∈ matchV E kc ↔ HasOcc E 1 v ∧ IsClose (E.ks.getD v.1 0) (kPlusQ (E.ks.getD kc 0) E.qadd) := by
  classical
  unfold matchV
  rw [List.mem_filter, mem_whereOcc]
  simp

theorem matchV_nodup (E : EpsIn) (kc : ℕ) : (matchV E kc).Nodup := by
  classical
  exact (whereOcc_nodup E 1).filter _

/-- The transitions in the order of the loops. -/
noncomputable def trList (E : EpsIn) : List ((ℕ × ℕ) × (ℕ × ℕ)) :=
  (whereOcc E 0).flatMap fun c => (matchV E c.1).map fun v => (c, v)

theorem mem_trList (E : EpsIn) (t : (ℕ × ℕ) × (ℕ × ℕ)) : t ∈ trList E ↔ Transition E t := by
  unfold trList Transition
  simp only [List.mem_flatMap, List.mem_map]
  constructor
  · rintro ⟨c, hc, v, hv, rfl⟩
    rw [mem_whereOcc] at hc
    rw [mem_matchV] at hv
    exact ⟨hc, hv.1, hv.2⟩
  · rintro ⟨h1, h2, h3⟩
    exact ⟨t.1, (mem_whereOcc E 0 t.1).2 h1, t.2, (mem_matchV E t.1.1 t.2).2 ⟨h2, h3⟩, rfl⟩

theorem trList_nodup (E : EpsIn) : (trList E).Nodup := by
  unfold trList
  rw [List.nodup_flatMap]
  refine ⟨fun c _ => (matchV_nodup E c.1).map fun a b h => (Prod.mk.inj h).2, ?_⟩
  refine (whereOcc_nodup E 0).imp ?_
  intro a b hab
  simp only [Function.onFun]
  rw [List.disjoint_iff_ne]
  intro p hp p' hp' e
  rw [List.mem_map] at hp hp'
  obtain ⟨_, _, rfl⟩ := hp
  obtain ⟨_, _, rfl⟩ := hp'
  exact hab (Prod.mk.inj e).1

open Classical in
theorem trList_toFinset (E : EpsIn) : (trList E).toFinset = transitions E := by
  ext t
  rw [List.mem_toFinset, mem_trList]
  unfold transitions
  simp only [Finset.mem_filter, Finset.mem_product, Finset.mem_range]
  constructor
  · intro h
    exact ⟨⟨⟨h.1.1, h.1.2.1⟩, h.2.1.1, h.2.1.2.1⟩, h⟩
  · exact fun h => h.2

theorem sum_trList (E : EpsIn) (F : (ℕ × ℕ) × (ℕ × ℕ) → ℂ) : ((trList E).map F).sum = ∑ t ∈ transitions E, F t := by
  classical
  rw [← trList_toFinset, List.sum_toFinset F (trList_nodup E)]

/-! ## The loops -/

theorem mapM_ok {α β ε : Type*} (l : List α) (f : α → Except ε β) (g : α → β) (h : ∀ a ∈ l, f a = .ok (g a)) :
    l.mapM f = .ok (l.map g) := by
  induction l with
  | nil => rfl
  | cons a l ih =>
    rw [List.mapM_cons, h a (by simp), ih fun b hb => h b (by simp [hb])]
    rfl

/-- The input is usable: there are occupied and empty states, and every shifted G-vector fits on the FFT grid. -/
structure EpsIn.Ok (E : EpsIn) : Prop where
  pos : E.shape.Pos
  occupied : ∃ p, HasOcc E 1 p
  empty : ∃ p, HasOcc E 0 p
  fits : ∀ kc < E.ks.length, ∀ g ∈ gUmk E kc, inBounds E.shape g = true

/-- The sequence of computed matrix elements. -/
noncomputable def events (drv : Driver) (E : EpsIn) (st : DrvState ℂ) : List (Key × List ℂ) :=
  (trList E).map fun t => ((t.1.1, t.1.2, t.2.2), mel drv E st t.1.1 t.1.2 t.2.1 t.2.2)

theorem matrixElements_ok (drv : Driver) (E : EpsIn) (st : DrvState ℂ) (h : E.Ok) :
    matrixElements drv E st = .ok (events drv E st) := by
  unfold matrixElements
  obtain ⟨p, hp⟩ := h.occupied
  obtain ⟨p', hp'⟩ := h.empty
  have h1 : whereOcc E 1 ≠ [] := List.ne_nil_of_mem ((mem_whereOcc E 1 p).2 hp)
  have h0 : whereOcc E 0 ≠ [] := List.ne_nil_of_mem ((mem_whereOcc E 0 p').2 hp')
  rw [if_neg (by tauto)]
  rw [mapM_ok (whereOcc E 0) _ (fun c => (matchV E c.1).map fun v => ((c.1, c.2, v.2), mel drv E st c.1 c.2 v.1 v.2))]
  · simp only [bind, Except.bind, pure, Except.pure]
    congr 1
    unfold events trList
    rw [List.map_flatMap, List.flatMap_def]
    congr 1
    refine List.map_congr_left fun c _ => ?_
    rw [List.map_map]
    rfl
  · intro c hc
    rw [mem_whereOcc] at hc
    rw [(GSpace.C10_index_bijection E.shape h.pos).1 _ (h.fits c.1 hc.1)]
    rfl

theorem foldl_add_eq {α : Type*} (l : List α) (f : α → ℂ) (z : ℂ) :
    l.foldl (fun acc e => acc + f e) z = z + (l.map f).sum := by
  induction l generalizing z with
  | nil => simp
  | cons a l ih => rw [List.foldl_cons, ih, List.map_cons, List.sum_cons]; ring

theorem sum_outer_events (drv : Driver) (E : EpsIn) (st : DrvState ℂ) (l m : ℕ) :
    4 * ((events drv E st).map fun e => outer e.2 l m).sum / ((E.vol * E.ks.length : ℝ) : ℂ) = chiSpec drv E st l m := by
  unfold events chiSpec
  rw [List.map_map, sum_trList]
  simp only [Function.comp, outer, Finset.sum_neg_distrib]
  ring

/-- **C54 (memory-saving variant).** `polarizability_active` returns `χ_GG' = -4/(Ω N_k) Σ conj(M_G) M_G'`, summed once over
every pair of an empty state at `k` and an occupied state at `k + q`. -/
theorem C54_active (drv : Driver) (E : EpsIn) (st : DrvState ℂ) (h : E.Ok) :
    chiActive drv E st = .ok (chiSpec drv E st) := by
  unfold chiActive
  rw [matrixElements_ok drv E st h]
  simp only [bind, Except.bind, pure, Except.pure]
  congr 1
  funext l m
  unfold polActive
  rw [foldl_add_eq, zero_add]
  exact sum_outer_events drv E st l m

/-! ## The stored variant -/

theorem outer_zero (n l m : ℕ) : outer (List.replicate n 0) l m = 0 := by
  unfold outer
  have : (List.replicate n (0 : ℂ)).getD l 0 = 0 := by
    rw [List.getD_eq_getElem?_getD, List.getElem?_replicate]
    split_ifs <;> rfl
  rw [this]
  simp

theorem batchM_snoc (n beg : ℕ) (evs : List (Key × List ℂ)) (e : Key × List ℂ) (k c v : ℕ) :
    batchM n beg (evs ++ [e]) k c v
      = if e.1.1 = k ∧ e.1.2.1 - beg = c ∧ e.1.2.2 = v then e.2 else batchM n beg evs k c v := by
  unfold batchM
  rw [List.foldl_append]
  rfl

theorem batchM_absent (n beg : ℕ) (evs : List (Key × List ℂ)) (k c v : ℕ)
    (h : ∀ e ∈ evs, ¬ (e.1.1 = k ∧ e.1.2.1 - beg = c ∧ e.1.2.2 = v)) : batchM n beg evs k c v = List.replicate n 0 := by
  induction evs using List.reverseRecOn with
  | nil => rfl
  | append_singleton l e ih =>
    rw [batchM_snoc, if_neg (h e (by simp)), ih fun e' he' => h e' (by simp [he'])]

/-- Sum over the stored array when no position is written twice. -/
theorem sum_batch (n beg nk nc nv : ℕ) (l m : ℕ) (evs : List (Key × List ℂ)) (hnd : (evs.map Prod.fst).Nodup)
    (hk : ∀ e ∈ evs, e.1.1 < nk ∧ beg ≤ e.1.2.1 ∧ e.1.2.1 < beg + nc ∧ e.1.2.2 < nv) :
    ∑ k ∈ Finset.range nk, ∑ c ∈ Finset.range nc, ∑ v ∈ Finset.range nv, outer (batchM n beg evs k c v) l m
      = (evs.map fun e => outer e.2 l m).sum := by
  induction evs using List.reverseRecOn with
  | nil =>
    simp only [List.map_nil, List.sum_nil]
    refine Finset.sum_eq_zero fun k _ => Finset.sum_eq_zero fun c _ => Finset.sum_eq_zero fun v _ => ?_
    exact outer_zero n l m
  | append_singleton evs e ih =>
    rw [List.map_append, List.nodup_append] at hnd
    have ih := ih hnd.1 fun e' he' => hk e' (by simp [he'])
    obtain ⟨h1, h2, h3, h4⟩ := hk e (by simp)
    have habs : ∀ e' ∈ evs, ¬ (e'.1.1 = e.1.1 ∧ e'.1.2.1 - beg = e.1.2.1 - beg ∧ e'.1.2.2 = e.1.2.2) := by
      rintro e' he' ⟨q1, q2, q3⟩
      have hb := (hk e' (by simp [he'])).2.1
      have : e'.1 = e.1 := Prod.ext q1 (Prod.ext (by omega) q3)
      exact hnd.2.2 e'.1 (List.mem_map_of_mem he') e.1 (by simp) this
    have hz := batchM_absent n beg evs e.1.1 (e.1.2.1 - beg) e.1.2.2 habs
    have key : ∀ k c v, outer (batchM n beg (evs ++ [e]) k c v) l m
        = outer (batchM n beg evs k c v) l m
          + if e.1.1 = k then (if e.1.2.1 - beg = c then (if e.1.2.2 = v then outer e.2 l m else 0) else 0) else 0 := by
      intro k c v
      rw [batchM_snoc]
      by_cases q1 : e.1.1 = k
      · by_cases q2 : e.1.2.1 - beg = c
        · by_cases q3 : e.1.2.2 = v
          · rw [if_pos ⟨q1, q2, q3⟩, if_pos q1, if_pos q2, if_pos q3, ← q1, ← q2, ← q3, hz, outer_zero, zero_add]
          · rw [if_neg (fun h => q3 h.2.2), if_pos q1, if_pos q2, if_neg q3, add_zero]
        · rw [if_neg (fun h => q2 h.2.1), if_pos q1, if_neg q2, add_zero]
      · rw [if_neg (fun h => q1 h.1), if_neg q1, add_zero]
    simp only [key, Finset.sum_add_distrib]
    rw [ih, List.map_append, List.sum_append]
    congr 1
    rw [Finset.sum_eq_single e.1.1, Finset.sum_eq_single (e.1.2.1 - beg), Finset.sum_eq_single e.1.2.2]
    · simp
    · intro b _ hb; simp [Ne.symm hb]
    · intro hb; exact absurd (Finset.mem_range.2 h4) hb
    · intro b _ hb; simp [Ne.symm hb]
    · intro hb; exact absurd (Finset.mem_range.2 (by omega)) hb
    · intro b _ hb; simp [Ne.symm hb]
    · intro hb; exact absurd (Finset.mem_range.2 h1) hb

theorem foldl_min_le (l : List ℕ) (z : ℕ) : l.foldl min z ≤ z ∧ ∀ a ∈ l, l.foldl min z ≤ a := by
  induction l generalizing z with
  | nil => simp
  | cons b l ih =>
    rw [List.foldl_cons]
    obtain ⟨h1, h2⟩ := ih (min z b)
    refine ⟨h1.trans (min_le_left _ _), ?_⟩
    intro a ha
    rcases List.mem_cons.1 ha with rfl | ha
    · exact h1.trans (min_le_right _ _)
    · exact h2 a ha

theorem le_foldl_max (l : List ℕ) (z : ℕ) : z ≤ l.foldl max z ∧ ∀ a ∈ l, a ≤ l.foldl max z := by
  induction l generalizing z with
  | nil => simp
  | cons b l ih =>
    rw [List.foldl_cons]
    obtain ⟨h1, h2⟩ := ih (max z b)
    refine ⟨(le_max_left _ _).trans h1, ?_⟩
    intro a ha
    rcases List.mem_cons.1 ha with rfl | ha
    · exact (le_max_right _ _).trans h1
    · exact h2 a ha

/-- **C54 (stored variant).** If every `k + q` matches at most one k-point of the list (k-points separated by more than the
tolerance), `polarizability(next(matrix_elements(i_q)))` is the same matrix as `polarizability_active(i_q)`. -/
theorem C54_stored (drv : Driver) (E : EpsIn) (st : DrvState ℂ) (h : E.Ok)
    (huniq : ∀ kc < E.ks.length, ∀ kv < E.ks.length, ∀ kv' < E.ks.length,
      IsClose (E.ks.getD kv 0) (kPlusQ (E.ks.getD kc 0) E.qadd) →
      IsClose (E.ks.getD kv' 0) (kPlusQ (E.ks.getD kc 0) E.qadd) → kv = kv') :
    chiBatch drv E st = .ok (chiSpec drv E st) := by
  unfold chiBatch
  rw [matrixElements_ok drv E st h]
  simp only [bind, Except.bind, pure, Except.pure]
  congr 1
  funext l m
  unfold polarizability
  rw [sum_batch]
  · exact sum_outer_events drv E st l m
  · unfold events
    rw [List.map_map]
    refine List.Nodup.map_on ?_ (trList_nodup E)
    intro t ht t' ht' e
    rw [mem_trList] at ht ht'
    simp only [Function.comp, Prod.mk.injEq] at e
    obtain ⟨e1, e2, e3⟩ := e
    have e4 : t.2.1 = t'.2.1 := huniq t.1.1 ht.1.1 t.2.1 ht.2.1.1 t'.2.1 ht'.2.1.1 ht.2.2 (by rw [e1]; exact ht'.2.2)
    exact Prod.ext (Prod.ext e1 e2) (Prod.ext e4 e3)
  · intro e he
    unfold events at he
    rw [List.mem_map] at he
    obtain ⟨t, ht, rfl⟩ := he
    rw [mem_trList] at ht
    simp only
    have hb : nCBeg E ≤ t.1.2 := (foldl_min_le _ _).2 _ (List.mem_map_of_mem ((mem_whereOcc E 0 t.1).2 ht.1))
    have hv : t.2.2 < nVMax E := Nat.lt_succ_of_le
      ((le_foldl_max _ _).2 _ (List.mem_map_of_mem ((mem_whereOcc E 1 t.2).2 ht.2.1)))
    have := ht.1.2.1
    exact ⟨ht.1.1, hb, by omega, hv⟩

theorem re_conj_mul_self (z : ℂ) : (conj z * z).re = Complex.normSq z ∧ (conj z * z).im = 0 := by
  rw [← Complex.normSq_eq_conj_mul_self]
  exact ⟨Complex.ofReal_re _, Complex.ofReal_im _⟩

/-- **C54 (physics).** The polarizability is Hermitian and negative semidefinite. -/
theorem C54_hermitian_nonpos (drv : Driver) (E : EpsIn) (st : DrvState ℂ) (hvol : 0 < E.vol) (n : ℕ) :
    NegSemi (fun l m : Fin n => chiSpec drv E st l m) := by
  constructor
  · intro l m
    unfold chiSpec
    simp only [map_mul, map_neg, map_div₀, map_sum, Complex.conj_ofReal, Complex.conj_conj, map_ofNat]
    congr 1
    refine Finset.sum_congr rfl fun t _ => ?_
    ring
  · intro z
    set r : ℝ := 4 / (E.vol * E.ks.length) with hr
    have hr0 : 0 ≤ r := by positivity
    have e : quad (fun l m : Fin n => chiSpec drv E st l m) z
        = ((-r : ℝ) : ℂ) * ∑ t ∈ transitions E,
          conj (∑ m : Fin n, (mel drv E st t.1.1 t.1.2 t.2.1 t.2.2).getD m 0 * z m)
            * (∑ m : Fin n, (mel drv E st t.1.1 t.1.2 t.2.1 t.2.2).getD m 0 * z m) := by
      unfold quad chiSpec
      simp only [map_sum, Finset.sum_mul_sum]
      rw [Finset.mul_sum]
      rw [show (∑ t ∈ transitions E, ((-r : ℝ) : ℂ) * ∑ i : Fin n, ∑ j : Fin n,
          conj ((mel drv E st t.1.1 t.1.2 t.2.1 t.2.2).getD i 0 * z i) * ((mel drv E st t.1.1 t.1.2 t.2.1 t.2.2).getD j 0 * z j))
        = ∑ i : Fin n, ∑ j : Fin n, ∑ t ∈ transitions E, ((-r : ℝ) : ℂ) *
          (conj ((mel drv E st t.1.1 t.1.2 t.2.1 t.2.2).getD i 0 * z i) * ((mel drv E st t.1.1 t.1.2 t.2.1 t.2.2).getD j 0 * z j)) by
        rw [Finset.sum_congr rfl fun t _ => Finset.mul_sum _ _ _, Finset.sum_comm]
        refine Finset.sum_congr rfl fun i _ => ?_
        rw [Finset.sum_congr rfl fun t _ => Finset.mul_sum _ _ _, Finset.sum_comm]]
      refine Finset.sum_congr rfl fun i _ => Finset.sum_congr rfl fun j _ => ?_
      rw [Finset.mul_sum, Finset.mul_sum, Finset.sum_mul]
      refine Finset.sum_congr rfl fun t _ => ?_
      rw [map_mul, hr]
      push_cast
      ring
    rw [e, Complex.re_ofReal_mul, Complex.re_sum]
    have : 0 ≤ ∑ t ∈ transitions E, (conj (∑ m : Fin n, (mel drv E st t.1.1 t.1.2 t.2.1 t.2.2).getD m 0 * z m)
            * (∑ m : Fin n, (mel drv E st t.1.1 t.1.2 t.2.1 t.2.2).getD m 0 * z m)).re :=
      Finset.sum_nonneg fun t _ => by rw [(re_conj_mul_self _).1]; exact Complex.normSq_nonneg _
    nlinarith

/-! ## A concrete case, and two k-points closer than the tolerance -/

/-- One plane wave, one occupied and one empty band at each of the given k-points. -/
noncomputable def tiny (ks : List Vec) : EpsIn where
  shape := ⟨1, 1, 1⟩
  ks := ks
  wfn := ks.map fun _ => ⟨[(0, 0, 0)], fun _ _ => 1, fun b => b, fun b => if b = 0 then 1 else 0⟩
  val := ks.map fun _ => ⟨[(0, 0, 0)], fun _ _ => 1, fun b => b, fun b => if b = 0 then 1 else 0⟩
  nbands := 2
  vol := 1
  qadd := 0
  gq := [(0, 0, 0)]

theorem around_zero (nd : ℕ) : around nd 0 = 0 := by
  unfold around Nonloc.rint
  simp

theorem umklapp_zero (c : Fin 3) : umklapp 0 0 c = 0 := by
  unfold umklapp
  simp [around_zero]

theorem tiny_ok (n : ℕ) : (tiny (List.replicate (n + 1) 0)).Ok where
  pos := (by decide : (⟨1, 1, 1⟩ : Shape).Pos)
  occupied := ⟨(0, 0), by simp [HasOcc, tiny]⟩
  empty := ⟨(0, 1), by simp [HasOcc, tiny]⟩
  fits := by
    intro kc hk g hg
    unfold gUmk at hg
    have e : (tiny (List.replicate (n + 1) 0)).ks.getD kc 0 = 0 := by
      have hk' : kc < (List.replicate (n + 1) (0 : Vec)).length := hk
      show (List.replicate (n + 1) (0 : Vec)).getD kc 0 = 0
      rw [List.getD_eq_getElem _ _ hk', List.getElem_replicate]
    rw [e] at hg
    simp only [tiny, umklapp_zero, List.map_cons, List.map_nil, List.mem_singleton] at hg
    rw [hg]
    exact (by decide : inBounds ⟨1, 1, 1⟩ (0 - 0, 0 - 0, 0 - 0) = true)

theorem tiny_ks (n k : ℕ) : (tiny (List.replicate n 0)).ks.getD k 0 = 0 := by
  show (List.replicate n (0 : Vec)).getD k 0 = 0
  rw [List.getD_eq_getElem?_getD, List.getElem?_replicate]
  split_ifs <;> rfl

theorem tiny_wfn (n k : ℕ) (hk : k < n) : (tiny (List.replicate n 0)).wfn.getD k default
    = ⟨[(0, 0, 0)], fun _ _ => 1, fun b => b, fun b => if b = 0 then 1 else 0⟩ := by
  show ((List.replicate n (0 : Vec)).map fun _ => _).getD k default = _
  rw [List.getD_eq_getElem _ _ (by simpa using hk), List.getElem_map]

theorem tiny_mel (drv : Driver) (st : DrvState ℂ) (n k k' : ℕ) (hk : k < n) (hk' : k' < n) :
    mel drv (tiny (List.replicate n 0)) st k 1 k' 0 = [1] := by
  have hw := tiny_wfn n k hk
  have hw' : (tiny (List.replicate n 0)).val.getD k' default = _ := tiny_wfn n k' hk'
  have hon : OnGrid ⟨1, 1, 1⟩ [((0 : ℤ), (0 : ℤ), (0 : ℤ))] := ⟨by simp, by simp; decide⟩
  have hg : gUmk (tiny (List.replicate n 0)) k = [(0, 0, 0)] := by
    unfold gUmk
    rw [tiny_ks]
    simp [tiny, umklapp_zero]
  rw [C109_matrix_elements drv _ st (by decide : (⟨1, 1, 1⟩ : Shape).Pos) k 1 k' 0 (by rw [hg]; exact hon) (by rw [hw]; exact hon)
    (by rw [hw']; exact hon) (by rw [hw, hw']; norm_num)]
  rw [hw, hw', tiny_ks]
  show [_] = [_]
  congr 1
  simp only [show (tiny (List.replicate n 0)).qadd = 0 from rfl, umklapp_zero]
  unfold overlap
  simp [SameFreq]

/-- The hypotheses of C54 and C109 are met: one k-point, one transition, `χ = -4`. -/
example (drv : Driver) (st : DrvState ℂ) : (tiny [0]).Ok
    ∧ (∀ kc < (tiny [0]).ks.length, ∀ kv < (tiny [0]).ks.length, ∀ kv' < (tiny [0]).ks.length,
      IsClose ((tiny [0]).ks.getD kv 0) (kPlusQ ((tiny [0]).ks.getD kc 0) (tiny [0]).qadd) →
      IsClose ((tiny [0]).ks.getD kv' 0) (kPlusQ ((tiny [0]).ks.getD kc 0) (tiny [0]).qadd) → kv = kv')
    ∧ (tiny [0]).vol = 1 ∧ mel drv (tiny [0]) st 0 1 0 0 = [1] :=
  ⟨tiny_ok 0, by intro kc _ kv h kv' h' _ _; have : (tiny [0]).ks.length = 1 := rfl; omega, rfl,
    tiny_mel drv st 1 0 0 (by omega) (by omega)⟩

theorem close_zero (n k k' : ℕ) :
    IsClose ((tiny (List.replicate n 0)).ks.getD k' 0) (kPlusQ ((tiny (List.replicate n 0)).ks.getD k 0) (tiny (List.replicate n 0)).qadd) := by
  rw [tiny_ks, tiny_ks]
  intro c
  have : kPlusQ (0 : Vec) (tiny (List.replicate n 0)).qadd c = 0 := by
    show (0 : Vec) c + (0 : Vec) c + (umklapp 0 0 c : ℝ) = 0
    rw [umklapp_zero]; simp
  rw [this]
  simp

theorem tiny_trans (n : ℕ) (t : (ℕ × ℕ) × (ℕ × ℕ)) :
    Transition (tiny (List.replicate n 0)) t ↔ t.1.1 < n ∧ t.1.2 = 1 ∧ t.2.1 < n ∧ t.2.2 = 0 := by
  have hl : (tiny (List.replicate n 0)).ks.length = n := by show (List.replicate n _).length = n; simp
  unfold Transition HasOcc
  rw [hl]
  constructor
  · rintro ⟨⟨h1, h2, h3⟩, ⟨h4, h5, h6⟩, _⟩
    rw [tiny_wfn n _ h1] at h3
    rw [tiny_wfn n _ h4] at h6
    have h2' : t.1.2 < 2 := h2
    have h5' : t.2.2 < 2 := h5
    refine ⟨h1, ?_, h4, ?_⟩
    · by_contra hne
      have : t.1.2 = 0 := by omega
      simp [this] at h3
    · by_contra hne
      simp [hne] at h6
  · rintro ⟨h1, h2, h3, h4⟩
    refine ⟨⟨h1, by rw [h2]; show 1 < 2; omega, by rw [tiny_wfn n _ h1]; simp [h2]⟩,
      ⟨h3, by rw [h4]; show 0 < 2; omega, by rw [tiny_wfn n _ h3]; simp [h4]⟩, close_zero n _ _⟩

/-- Beyond the hypothesis of `C54_stored`: with two k-points that both match `k + q`, the stored variant overwrites one of
the transitions and the two variants disagree. -/
theorem C54_close_kpoints (drv : Driver) (st : DrvState ℂ) : ∃ E : EpsIn, E.Ok ∧ ∃ a b : ℕ → ℕ → ℂ,
    chiBatch drv E st = .ok a ∧ chiActive drv E st = .ok b ∧ a 0 0 ≠ b 0 0 := by
  refine ⟨tiny (List.replicate 2 0), tiny_ok 1,
    polarizability (tiny (List.replicate 2 0)).vol (tiny (List.replicate 2 0)).ks.length
      ((tiny (List.replicate 2 0)).nbands - nCBeg (tiny (List.replicate 2 0))) (nVMax (tiny (List.replicate 2 0)))
      (batchM (tiny (List.replicate 2 0)).gq.length (nCBeg (tiny (List.replicate 2 0))) (events drv (tiny (List.replicate 2 0)) st)),
    chiSpec drv (tiny (List.replicate 2 0)) st, ?_, C54_active drv _ st (tiny_ok 1), ?_⟩
  · unfold chiBatch
    rw [matrixElements_ok drv _ st (tiny_ok 1)]
    rfl
  · have htr : transitions (tiny (List.replicate 2 0)) = {((0, 1), (0, 0)), ((0, 1), (1, 0)), ((1, 1), (0, 0)), ((1, 1), (1, 0))} := by
      classical
      ext t
      obtain ⟨⟨a, b⟩, ⟨c, d⟩⟩ := t
      unfold transitions
      simp only [Finset.mem_filter, Finset.mem_product, Finset.mem_range, tiny_trans, Finset.mem_insert, Finset.mem_singleton,
        Prod.mk.injEq]
      have hl : (tiny (List.replicate 2 0)).ks.length = 2 := rfl
      have hb : (tiny (List.replicate 2 0)).nbands = 2 := rfl
      rw [hl, hb]
      omega
    have hm : ∀ t ∈ transitions (tiny (List.replicate 2 0)),
        mel drv (tiny (List.replicate 2 0)) st t.1.1 t.1.2 t.2.1 t.2.2 = [1] := by
      intro t ht
      classical
      unfold transitions at ht
      rw [Finset.mem_filter, tiny_trans] at ht
      obtain ⟨_, h1, h2, h3, h4⟩ := ht
      rw [h2, h4]
      exact tiny_mel drv st 2 _ _ h1 h3
    have hs : chiSpec drv (tiny (List.replicate 2 0)) st 0 0 = -8 := by
      unfold chiSpec
      rw [Finset.sum_congr rfl fun t ht => by rw [hm t ht]]
      rw [htr]
      simp [tiny]
      norm_num
    have hev : events drv (tiny (List.replicate 2 0)) st
        = [((0, 1, 0), [1]), ((0, 1, 0), [1]), ((1, 1, 0), [1]), ((1, 1, 0), [1])] := by
      have hl : trList (tiny (List.replicate 2 0)) = [((0, 1), (0, 0)), ((0, 1), (1, 0)), ((1, 1), (0, 0)), ((1, 1), (1, 0))] := by
        have hw0 : whereOcc (tiny (List.replicate 2 0)) 0 = [(0, 1), (1, 1)] := by
          classical
          have h0 := tiny_wfn 2 0 (by omega)
          have h1 := tiny_wfn 2 1 (by omega)
          unfold whereOcc
          rw [show (tiny (List.replicate 2 0)).ks.length = 2 from rfl, show (tiny (List.replicate 2 0)).nbands = 2 from rfl,
            show List.range 2 = [0, 1] from rfl]
          simp only [List.flatMap_cons, List.flatMap_nil, h0, h1]
          simp [List.filter_cons]
        have hw1 : whereOcc (tiny (List.replicate 2 0)) 1 = [(0, 0), (1, 0)] := by
          classical
          have h0 := tiny_wfn 2 0 (by omega)
          have h1 := tiny_wfn 2 1 (by omega)
          unfold whereOcc
          rw [show (tiny (List.replicate 2 0)).ks.length = 2 from rfl, show (tiny (List.replicate 2 0)).nbands = 2 from rfl,
            show List.range 2 = [0, 1] from rfl]
          simp only [List.flatMap_cons, List.flatMap_nil, h0, h1]
          simp [List.filter_cons]
        have hmv : ∀ k, matchV (tiny (List.replicate 2 0)) k = [(0, 0), (1, 0)] := by
          intro k
          unfold matchV
          rw [hw1]
          rw [List.filter_eq_self]
          intro v _
          simpa using close_zero 2 k v.1
        unfold trList
        rw [hw0]
        simp only [List.flatMap_cons, List.flatMap_nil, hmv, List.map_cons, List.map_nil, List.append_nil]
        rfl
      unfold events
      rw [hl]
      simp only [List.map_cons, List.map_nil]
      rw [tiny_mel drv st 2 0 0 (by omega) (by omega), tiny_mel drv st 2 0 1 (by omega) (by omega),
        tiny_mel drv st 2 1 0 (by omega) (by omega), tiny_mel drv st 2 1 1 (by omega) (by omega)]
    have hbeg : nCBeg (tiny (List.replicate 2 0)) ≤ 1 := by
      have : ((0, 1) : ℕ × ℕ) ∈ whereOcc (tiny (List.replicate 2 0)) 0 := by
        rw [mem_whereOcc]
        exact ((tiny_trans 2 ((0, 1), (0, 0))).2 ⟨by simp, rfl, by simp, rfl⟩).1
      exact (foldl_min_le _ _).2 1 (List.mem_map_of_mem this)
    rw [hs, hev]
    unfold polarizability
    rw [show (tiny (List.replicate 2 0)).ks.length = 2 from rfl, show (tiny (List.replicate 2 0)).vol = 1 from rfl]
    have hbat : ∀ k c v, outer (batchM (tiny (List.replicate 2 0)).gq.length (nCBeg (tiny (List.replicate 2 0)))
        [((0, 1, 0), [1]), ((0, 1, 0), [1]), ((1, 1, 0), [1]), ((1, 1, 0), [1])] k c v) 0 0
        = outer (batchM (tiny (List.replicate 2 0)).gq.length (nCBeg (tiny (List.replicate 2 0)))
        [((0, 1, 0), [1]), ((1, 1, 0), [1])] k c v) 0 0 := by
      intro k c v
      unfold batchM
      simp only [List.foldl_cons, List.foldl_nil]
      split_ifs <;> rfl
    simp only [hbat]
    rw [sum_batch]
    · simp [outer]
      norm_num
    · simp
    · intro e he
      have hv : 0 < nVMax (tiny (List.replicate 2 0)) := Nat.succ_pos _
      have hb : (tiny (List.replicate 2 0)).nbands = 2 := rfl
      simp only [List.mem_cons, List.not_mem_nil, or_false] at he
      rcases he with rfl | rfl
      · simp only; rw [hb]; omega
      · simp only; rw [hb]; omega

end Verif.GW
