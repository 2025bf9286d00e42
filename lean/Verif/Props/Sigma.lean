import Mathlib.Algebra.BigOperators.Field
import Mathlib.Data.List.GetD
import Verif.Model.Sigma
import Verif.Props.GWChi
import Verif.Props.GWEps

/-!
# C112, C113: exchange and static self-energies
-/

namespace Verif.GW

open Verif.Lattice (Vec)
open Verif.GSpace (GVec Shape cryst2idxgrid inBounds at' argsort)
open Verif.FFT (Driver DrvState)
open scoped ComplexConjugate

/-! ## Specification -/

/-- Position of the bra k-point paired with the `n`-th self-energy k-point at `-q`. -/
noncomputable def braOf (S : SigIn) (iq n : ℕ) : ℕ := (matchK S (indexMinusQ S iq) (S.kIdx.getD n 0)).getD 0

/-- The `iq`-th q-point is marked as the q0 point. -/
def Q0At (S : SigIn) (iq : ℕ) : Prop := ∃ l, S.isQ0 = some l ∧ l[iq]? = some true

open Classical in
/-- The momentum added to `k` at the `iq`-th q-point: none at the q0 point, where the shifted wavefunctions carry it. -/
noncomputable def shiftOf (S : SigIn) (iq : ℕ) : Vec := if Q0At S iq then 0 else S.qs.getD iq 0

open Classical in
/-- The wavefunctions of the bra states: the shifted ones at the q0 point. -/
noncomputable def braWfn (S : SigIn) (iq : ℕ) : List Wfn := if Q0At S iq then S.wfnq else S.wfn

theorem atQ0_iff (S : SigIn) (iq : ℕ) : S.atQ0 iq = true ↔ Q0At S iq := by
  unfold SigIn.atQ0 Q0At
  cases h : S.isQ0 with
  | none => simp
  | some l =>
    simp only [Option.some.injEq, exists_eq_left', List.getD_eq_getElem?_getD]
    cases l[iq]? with
    | none => simp
    | some b => simp

theorem eps_qadd (S : SigIn) (iq : ℕ) : (S.eps iq).qadd = shiftOf S iq := by
  unfold shiftOf SigIn.eps
  by_cases h : Q0At S iq
  · simp only [h, (atQ0_iff S iq).2 h, if_true]
  · have : ¬ S.atQ0 iq = true := fun h' => h ((atQ0_iff S iq).1 h')
    simp only [h, this, if_false, Bool.false_eq_true]

theorem eps_val (S : SigIn) (iq : ℕ) : (S.eps iq).val = braWfn S iq := by
  unfold braWfn SigIn.eps
  by_cases h : Q0At S iq
  · simp only [h, (atQ0_iff S iq).2 h, if_true]
  · have : ¬ S.atQ0 iq = true := fun h' => h ((atQ0_iff S iq).1 h')
    simp only [h, this, if_false, Bool.false_eq_true]

/-- **C116 (bra k-point).** The k-point paired with `k` at a q-point is, within the tolerance, the image in the first cell of `k + q` — of `k` itself at
the q0 point; and it is the first such point of the list. -/
theorem C116_bra (S : SigIn) (iq k b : ℕ) (h : matchK S iq k = some b) :
    b < S.ks.length ∧ IsCloseRel (S.ks.getD b 0) (kPlusQ (S.ks.getD k 0) (shiftOf S iq))
      ∧ ∀ b' < b, ¬ IsCloseRel (S.ks.getD b' 0) (kPlusQ (S.ks.getD k 0) (shiftOf S iq)) := by
  unfold matchK at h
  rw [eps_qadd] at h
  have h1 := List.mem_of_find?_eq_some h
  have h2 := List.find?_some h
  refine ⟨List.mem_range.1 h1, by simpa using h2, ?_⟩
  intro b' hb' hc
  obtain ⟨-, i, hi, hib, hall⟩ := List.find?_eq_some_iff_getElem.1 h
  rw [List.getElem_range] at hib
  subst hib
  have := hall b' hb'
  rw [List.getElem_range] at this
  simp only [Bool.not_eq_true', decide_eq_false_iff_not] at this
  exact this hc

/-- Matrix element between band `j` (counted from `band_index_min`) of the `n`-th self-energy k-point and band `b` of its partner
at `-q`, for the `m`-th G-vector of `q`. -/
noncomputable def amp (S : SigIn) (iq n b j m : ℕ) : ℂ :=
  let im := indexMinusQ S iq
  let k := S.kIdx.getD n 0
  let G := (S.gqs.getD im []).getD ((gToMg S iq).getD m 0) (0, 0, 0)
  let u := umklapp (S.ks.getD k 0) (shiftOf S im)
  overlap S.shape (S.wfn.getD k default) ((braWfn S im).getD (braOf S iq n) default) (j + (S.bmin - 1)) b
    (G.1 - u 0, G.2.1 - u 1, G.2.2 - u 2)

/-- `Σ_G v_q(G) |M_G|²` of one pair of states. -/
noncomputable def pairX (S : SigIn) (iq n b j : ℕ) : ℝ :=
  ∑ m ∈ Finset.range (S.gqs.getD iq []).length, (S.v.getD iq []).getD m 0 * Complex.normSq (amp S iq n b j m)

/-- `Σ_GG' conj(M_G) v_q(G) (ε⁻¹ - 1)_GG' M_G'` of one pair of states. -/
noncomputable def pairEps (S : SigIn) (iq n b j : ℕ) : ℂ :=
  ∑ k ∈ Finset.range (S.gqs.getD iq []).length, ∑ m ∈ Finset.range (S.gqs.getD iq []).length,
    conj (amp S iq n b j k) * amp S iq n b j m * S.epsI iq k m * ((S.v.getD iq []).getD k 0 : ℂ)

/-- Input for which the loops run through, as far as k-points, bands and G-vectors are concerned. -/
structure SigIn.Base (S : SigIn) : Prop where
  pos : S.shape.Pos
  occupied : ∃ p, HasOcc (S.eps 0) 1 p
  empty : ∃ p, HasOcc (S.eps 0) 0 p
  partner : ∀ iq < S.qs.length, ∀ k ∈ S.kIdx, ∃ b, matchK S (indexMinusQ S iq) k = some b
  fits : ∀ iq < S.qs.length, ∀ k ∈ S.kIdx, ∀ g ∈ gUmk (S.eps (indexMinusQ S iq)) k, inBounds S.shape g = true
  nonempty : ∀ iq < S.qs.length, S.gqs.getD (indexMinusQ S iq) [] ≠ []

/-- Input for which the loops run through: also one Coulomb value per G-vector. -/
structure SigIn.Ok (S : SigIn) : Prop extends S.Base where
  vlen : ∀ iq < S.qs.length, (S.v.getD iq []).length = (S.gqs.getD iq []).length

/-- G-vectors distinct and inside the grid. -/
structure SigIn.Grid (S : SigIn) : Prop where
  gq : ∀ iq, (S.gqs.getD iq []).Nodup
  wfn : ∀ k, OnGrid S.shape (S.wfn.getD k default).gs
  wfnq : ∀ k, OnGrid S.shape (S.wfnq.getD k default).gs

/-! ## Lemmas -/

theorem whereOcc_eps (S : SigIn) (i : ℕ) (x : ℝ) : whereOcc (S.eps i) x = whereOcc (S.eps 0) x := rfl

theorem pairs_ok (S : SigIn) (h : S.Base) (iq : ℕ) (hq : iq < S.qs.length) :
    pairs S (indexMinusQ S iq) = .ok (S.kIdx.map fun k => (k, (matchK S (indexMinusQ S iq) k).getD 0)) := by
  unfold pairs
  refine mapM_ok _ _ _ fun k hk => ?_
  obtain ⟨b, hb⟩ := h.partner iq hq k hk
  rw [hb]
  rfl

theorem cryst2idx_ok (s : Shape) (hs : s.Pos) (gs : List GVec) (h : ∀ g ∈ gs, inBounds s g = true) :
    ∃ l, cryst2idxgrid s gs = .ok l := by
  exact ⟨_, (GSpace.C10_index_bijection s hs).1 gs h⟩

theorem cryst2idx_mapM (s : Shape) (hs : s.Pos) (F : ℕ → List GVec) (ps : List (ℕ × ℕ)) (h : ∀ p ∈ ps, ∀ g ∈ F p.1, inBounds s g = true) :
    ∃ l, ps.mapM (fun p => cryst2idxgrid s (F p.1)) = .ok l := by
  induction ps with
  | nil => exact ⟨[], rfl⟩
  | cons p ps ih =>
    obtain ⟨l, hl⟩ := cryst2idx_ok s hs (F p.1) (h p (by simp))
    obtain ⟨l', hl'⟩ := ih fun q hq => h q (by simp [hq])
    refine ⟨l :: l', ?_⟩
    rw [List.mapM_cons, hl, hl']
    rfl

theorem qPairs_base (S : SigIn) (h : S.Base) (iq : ℕ) (hq : iq < S.qs.length) :
    qPairs S iq = if (S.v.getD iq []).length ≠ (S.gqs.getD iq []).length then .error .value
      else .ok (S.kIdx.map fun k => (k, (matchK S (indexMinusQ S iq) k).getD 0)) := by
  unfold qPairs
  obtain ⟨p, hp⟩ := h.occupied
  obtain ⟨p', hp'⟩ := h.empty
  have h1 : whereOcc (S.eps (indexMinusQ S iq)) 1 ≠ [] := List.ne_nil_of_mem ((mem_whereOcc (S.eps 0) 1 p).2 hp)
  have h0 : whereOcc (S.eps (indexMinusQ S iq)) 0 ≠ [] := List.ne_nil_of_mem ((mem_whereOcc (S.eps 0) 0 p').2 hp')
  obtain ⟨l, hl⟩ := cryst2idx_mapM S.shape h.pos (gUmk (S.eps (indexMinusQ S iq)))
    (S.kIdx.map fun k => (k, (matchK S (indexMinusQ S iq) k).getD 0)) (by
      intro p hp g hg
      obtain ⟨k, hk, rfl⟩ := List.mem_map.1 hp
      exact h.fits iq hq k hk g hg)
  have hno : ¬ (whereOcc (S.eps (indexMinusQ S iq)) 1 = [] ∨ whereOcc (S.eps (indexMinusQ S iq)) 0 = []) := by tauto
  simp only [bind, Except.bind, pure, Except.pure, if_neg hno, pairs_ok S h iq hq, hl]

theorem qPairs_ok (S : SigIn) (h : S.Ok) (iq : ℕ) (hq : iq < S.qs.length) :
    qPairs S iq = .ok (S.kIdx.map fun k => (k, (matchK S (indexMinusQ S iq) k).getD 0)) := by
  rw [qPairs_base S h.toBase iq hq, if_neg (by simpa using h.vlen iq hq)]

/-- The value written for the `n`-th k-point (if it is listed once). -/
theorem foldl_idx (l : List ℕ) (F : ℕ → List ℂ) (n : ℕ) (x : List ℂ) (L : List ℕ) (hsub : ∀ k ∈ l, k ∈ L) :
    l.foldl (fun cur k => if L.idxOf k = n then F k else cur) x
      = if l.any (fun k => L.idxOf k = n) then F (L.getD n 0) else x := by
  induction l generalizing x with
  | nil => simp
  | cons a l ih =>
    rw [List.foldl_cons, ih _ fun k hk => hsub k (by simp [hk])]
    by_cases ha : L.idxOf a = n
    · have e : L.getD n 0 = a := by
        have hlt := List.idxOf_lt_length_iff.2 (hsub a (by simp))
        rw [← ha, List.getD_eq_getElem _ _ hlt, List.getElem_idxOf hlt]
      rw [List.any_cons, decide_eq_true ha, Bool.true_or, if_pos ha, e]
      simp
    · simp [ha]

theorem fillRow_eq (drv : Driver) (S : SigIn) (st : DrvState ℂ) (iq beg bra : ℕ) (f : ℕ → ℕ) (M : ℕ → ℕ → List ℂ) (n j : ℕ) :
    fillRow drv S st iq beg (S.kIdx.map fun k => (k, f k)) bra M n j
      = if S.kIdx.any (fun k => S.kIdx.idxOf k = n)
        then sigMel drv S st iq (S.kIdx.getD n 0) (j + beg) (f (S.kIdx.getD n 0)) bra else M n j := by
  unfold fillRow
  rw [List.foldl_map]
  exact foldl_idx S.kIdx (fun k => sigMel drv S st iq k (j + beg) (f k) bra) n (M n j) S.kIdx fun k hk => hk

theorem any_idx (L : List ℕ) (n : ℕ) (hn : n < L.length) :
    (L.any fun k => L.idxOf k = n) = decide (L.idxOf (L.getD n 0) = n) := by
  rw [Bool.eq_iff_iff, List.any_eq_true]
  simp only [decide_eq_true_eq]
  constructor
  · rintro ⟨k, hk, e⟩
    have hlt := List.idxOf_lt_length_iff.2 hk
    have : L.getD n 0 = k := by rw [← e, List.getD_eq_getElem _ _ hlt, List.getElem_idxOf hlt]
    rw [this, e]
  · intro e
    exact ⟨L.getD n 0, by rw [List.getD_eq_getElem _ _ hn]; exact List.getElem_mem hn, e⟩

theorem yields_map (drv : Driver) (S : SigIn) (st : DrvState ℂ) (iq beg : ℕ) (f : ℕ → ℕ) (n j : ℕ) (hn : n < S.kIdx.length)
    (con : List ℂ → ℂ) (k bra : ℕ) (M : ℕ → ℕ → List ℂ) (acc : ℂ) :
    (yields drv S st iq beg (S.kIdx.map fun k => (k, f k)) k bra M).foldl (fun acc M => acc + con (M n j)) acc
      = acc + ∑ b ∈ Finset.range k, con (fillRow drv S st iq beg (S.kIdx.map fun k => (k, f k)) (bra + b) M n j) := by
  induction k generalizing bra M acc with
  | zero => simp [yields]
  | succ k ih =>
    have e : ∀ b : ℕ, fillRow drv S st iq beg (S.kIdx.map fun k => (k, f k)) b
        (fillRow drv S st iq beg (S.kIdx.map fun k => (k, f k)) bra M) n j
        = fillRow drv S st iq beg (S.kIdx.map fun k => (k, f k)) b M n j := by
      intro b
      rw [fillRow_eq, fillRow_eq, fillRow_eq, any_idx _ _ hn]
      by_cases hh : S.kIdx.idxOf (S.kIdx.getD n 0) = n
      · rw [if_pos (by simpa using hh), if_pos (by simpa using hh)]
      · rw [if_neg (by simpa using hh), if_neg (by simpa using hh), if_neg (by simpa using hh)]
    rw [yields, List.foldl_cons, ih, Finset.sum_range_succ']
    simp only [e, Nat.add_zero]
    rw [add_assoc]
    congr 1
    rw [add_comm]
    congr 1
    exact Finset.sum_congr rfl fun b _ => by rw [show bra + 1 + b = bra + (b + 1) by omega]

/-- Both variants of the loop over one q-point. -/
theorem sigPart_ok (drv : Driver) (S : SigIn) (st : DrvState ℂ) (h : S.Ok) (nbra : ℕ) (con : ℕ → List ℂ → ℂ) (y : Bool) (iq : ℕ)
    (hq : iq < S.qs.length) :
    ∃ X, sigPart drv S st nbra con y iq = .ok X ∧ ∀ n < S.kIdx.length, ∀ j, X n j
      = ∑ b ∈ Finset.range nbra, con iq (takeG
          (if S.kIdx.idxOf (S.kIdx.getD n 0) = n
            then sigMel drv S st (indexMinusQ S iq) (S.kIdx.getD n 0) (j + (S.bmin - 1)) (braOf S iq n) b
            else List.replicate (S.gqs.getD (indexMinusQ S iq) []).length 0) (gToMg S iq)) := by
  unfold sigPart
  simp only [bind, Except.bind, pure, Except.pure, qPairs_ok S h iq hq]
  refine ⟨_, rfl, ?_⟩
  intro n hn j
  have key : ∀ b, fillRow drv S st (indexMinusQ S iq) (S.bmin - 1)
      (S.kIdx.map fun k => (k, (matchK S (indexMinusQ S iq) k).getD 0)) b
        (zeroM (S.gqs.getD (indexMinusQ S iq) []).length) n j
      = if S.kIdx.idxOf (S.kIdx.getD n 0) = n
            then sigMel drv S st (indexMinusQ S iq) (S.kIdx.getD n 0) (j + (S.bmin - 1)) (braOf S iq n) b
            else List.replicate (S.gqs.getD (indexMinusQ S iq) []).length 0 := by
    intro b
    rw [fillRow_eq, any_idx _ _ hn]
    by_cases hh : S.kIdx.idxOf (S.kIdx.getD n 0) = n
    · rw [if_pos (by simpa using hh), if_pos hh]; rfl
    · rw [if_neg (by simpa using hh), if_neg hh]; rfl
  cases y
  · simp only [Bool.false_eq_true, if_false]
    exact Finset.sum_congr rfl fun b _ => by rw [key]
  · simp only [if_true]
    rw [yields_map drv S st (indexMinusQ S iq) (S.bmin - 1) _ n j hn (fun M => con iq (takeG M (gToMg S iq))), zero_add]
    exact Finset.sum_congr rfl fun b _ => by rw [Nat.zero_add, key]

theorem qSum_ok (size : Option ℕ) (hs : ∀ s, size = some s → 0 < s) (numq : ℕ) (sgn : ℂ) (part : ℕ → Except PyErr (ℕ → ℕ → ℂ))
    (F : ℕ → ℕ → ℕ → ℂ) (h : ∀ iq < numq, part iq = .ok (F iq)) :
    ∃ X, qSum size numq sgn part = .ok X ∧ ∀ n j, X n j = ∑ iq ∈ Finset.range numq, sgn * F iq n j := by
  unfold qSum
  cases size with
  | none =>
    have hm : (List.range numq).mapM part = .ok ((List.range numq).map F) :=
      mapM_ok _ _ _ fun a ha => h a (List.mem_range.1 ha)
    simp only [bind, Except.bind, pure, Except.pure, hm]
    refine ⟨_, rfl, ?_⟩
    intro n j
    rw [foldl_add_eq (f := fun p : ℕ → ℕ → ℂ => sgn * p n j), zero_add, List.map_map, DFTComm.list_sum_range]
    rfl
  | some size =>
    have hpos := hs size rfl
    have hsub : ∀ r < size, ∀ a ∈ arraySplit numq size r, a < numq := by
      intro r hr a ha
      rw [← List.mem_range, ← C55_split numq size hpos, List.mem_flatten]
      exact ⟨_, List.mem_map.2 ⟨r, List.mem_range.2 hr, rfl⟩, ha⟩
    have hm : (List.range size).mapM (fun r => do
        let ps ← (arraySplit numq size r).mapM part
        pure (fun n j => ps.foldl (fun acc p => acc + sgn * p n j) 0 : ℕ → ℕ → ℂ))
        = (.ok ((List.range size).map fun r n j =>
          ((arraySplit numq size r).map fun q => sgn * F q n j).sum) : Except PyErr _) := by
      refine mapM_ok _ _ _ fun r hr => ?_
      have hm' : (arraySplit numq size r).mapM part = .ok ((arraySplit numq size r).map F) :=
        mapM_ok _ _ _ fun a ha => h a (hsub r (List.mem_range.1 hr) a ha)
      simp only [bind, Except.bind, pure, Except.pure, hm']
      congr 1
      funext n j
      rw [foldl_add_eq (f := fun p : ℕ → ℕ → ℂ => sgn * p n j), zero_add, List.map_map]
      rfl
    simp only [bind, Except.bind, pure, Except.pure] at hm ⊢
    rw [hm]
    refine ⟨_, rfl, ?_⟩
    intro n j
    rw [foldl_add_eq (f := fun r : ℕ → ℕ → ℂ => r n j), zero_add, List.map_map, DFTComm.list_sum_range]
    exact C55_sum numq size hpos fun q => sgn * F q n j

theorem fftProd_scale (drv : Driver) (s : Shape) (hs : s.Pos) (st : DrvState ℂ) (gx : List GVec) (hx : OnGrid s gx)
    (pc pv : Fin (dims s).size → ℂ) (c : ℂ) :
    fftProd drv s st (idxOf s gx) (fun r => pc r / c) (fun r => pv r / c)
      = (fftProd drv s st (idxOf s gx) pc pv).map fun x => x / (conj c * c) := by
  unfold fftProd
  rw [drv.r2g_eq (dims s) _ _ (idxOf_valid s hs gx hx) st st.f _ _ (fun _ _ => rfl),
    drv.r2g_eq (dims s) _ _ (idxOf_valid s hs gx hx) st st.f _ _ (fun _ _ => rfl), FFT.fullR2g_eq, FFT.fullR2g_eq,
    List.map_map]
  refine List.map_congr_left fun k _ => ?_
  simp only [Function.comp, Finset.sum_div]
  refine Finset.sum_congr rfl fun r hr => ?_
  have hr' := Finset.mem_range.1 hr
  rw [dif_pos hr', dif_pos hr', map_div₀]
  ring

/-- The stored matrix element is the overlap integral. -/
theorem sigMel_eq (drv : Driver) (S : SigIn) (st : DrvState ℂ) (hs : S.shape.Pos) (hg : S.Grid) (iq k bj kb b : ℕ)
    (hfit : ∀ g ∈ gUmk (S.eps iq) k, inBounds S.shape g = true) :
    sigMel drv S st iq k bj kb b = (gUmk (S.eps iq) k).map fun X =>
      overlap S.shape (S.wfn.getD k default) ((S.eps iq).val.getD kb default) bj b X := by
  have hnd : OnGrid S.shape (gUmk (S.eps iq) k) := by
    refine ⟨?_, hfit⟩
    unfold gUmk
    refine List.Nodup.map ?_ (hg.gq iq)
    intro a b hab
    simp only [Prod.mk.injEq, sub_left_inj] at hab
    exact Prod.ext hab.1 (Prod.ext hab.2.1 hab.2.2)
  have hv : OnGrid S.shape ((S.eps iq).val.getD kb default).gs := by
    show OnGrid S.shape ((if S.atQ0 iq then S.wfnq else S.wfn).getD kb default).gs
    by_cases hq : S.atQ0 iq
    · rw [if_pos hq]; exact hg.wfnq kb
    · rw [if_neg hq]; exact hg.wfn kb
  have hN : (S.shape.size : ℂ) ≠ 0 := by
    have : 0 < S.shape.size := by
      unfold GSpace.Shape.size
      exact Nat.mul_pos (Nat.mul_pos hs.1 hs.2.1) hs.2.2
    exact_mod_cast this.ne'
  unfold sigMel
  simp only
  rw [fftProd_scale drv S.shape hs st _ hnd, show (S.eps iq).wfn = S.wfn from rfl, fftProd_eq drv S.shape hs st _ hnd _ _ (hg.wfn k) hv, List.map_map, List.map_map]
  refine List.map_congr_left fun X _ => ?_
  simp only [Function.comp, map_natCast]
  field_simp

theorem argmin_lt (l : List ℝ) (h : l ≠ []) : argmin l < l.length := by
  classical
  unfold argmin
  rw [List.findIdx_lt_length]
  obtain ⟨x, hx, hmin⟩ := l.toFinset.exists_min_image id
    (by obtain ⟨a, ha⟩ := List.exists_mem_of_ne_nil l h; exact ⟨a, List.mem_toFinset.2 ha⟩)
  refine ⟨x, List.mem_toFinset.1 hx, ?_⟩
  rw [decide_eq_true_eq]
  intro y hy
  exact hmin y (List.mem_toFinset.2 hy)

theorem gToMg_length (S : SigIn) (iq : ℕ) : (gToMg S iq).length = (S.gqs.getD iq []).length := by
  simp [gToMg, mapG]

theorem gToMg_lt (S : SigIn) (iq m : ℕ) (h : S.gqs.getD (indexMinusQ S iq) [] ≠ []) :
    (gToMg S iq).getD m 0 < (S.gqs.getD (indexMinusQ S iq) []).length := by
  by_cases hm : m < (gToMg S iq).length
  · rw [List.getD_eq_getElem _ _ hm]
    have e := List.getElem_map (fun x : GVec => argmin ((S.gqs.getD (indexMinusQ S iq) []).map fun y =>
      sq (fun c => (gv y c + lq S (indexMinusQ S iq) c) - (-1 * (gv x c + lq S iq c))))) (l := S.gqs.getD iq []) (i := m) (h := hm)
    refine lt_of_eq_of_lt e ((argmin_lt _ ?_).trans_eq ?_)
    · intro hh; exact h (List.map_eq_nil_iff.1 hh)
    · rw [List.length_map]
  · rw [List.getD_eq_default _ _ (by omega)]
    exact List.length_pos_of_ne_nil h

theorem takeG_amp (drv : Driver) (S : SigIn) (st : DrvState ℂ) (h : S.Ok) (hg : S.Grid) (iq n b j m : ℕ) (hq : iq < S.qs.length)
    (hn : n < S.kIdx.length) (hm : m < (S.gqs.getD iq []).length) :
    (takeG (sigMel drv S st (indexMinusQ S iq) (S.kIdx.getD n 0) (j + (S.bmin - 1)) (braOf S iq n) b) (gToMg S iq)).getD m 0
      = amp S iq n b j m := by
  have hk : S.kIdx.getD n 0 ∈ S.kIdx := by rw [List.getD_eq_getElem _ _ hn]; exact List.getElem_mem hn
  rw [sigMel_eq drv S st h.pos hg _ _ _ _ _ (h.fits iq hq _ hk)]
  have hml : m < (gToMg S iq).length := by rw [gToMg_length]; exact hm
  have hi := gToMg_lt S iq m (h.nonempty iq hq)
  unfold takeG
  rw [List.getD_eq_getElem _ _ (by simpa using hml), List.getElem_map, ← List.getD_eq_getElem _ 0 hml]
  have hlen : (gUmk (S.eps (indexMinusQ S iq)) (S.kIdx.getD n 0)).length = (S.gqs.getD (indexMinusQ S iq) []).length := by
    unfold gUmk
    rw [List.length_map]
    rfl
  rw [List.getD_eq_getElem _ _ (by rw [List.length_map, hlen]; exact hi), List.getElem_map]
  unfold gUmk amp
  simp only [← eps_val, ← eps_qadd]
  rw [List.getElem_map, List.getD_eq_getElem _ _ hi]
  rfl

theorem normSq_conj (z : ℂ) : conj z * z = (Complex.normSq z : ℂ) := (Complex.normSq_eq_conj_mul_self).symm

theorem takeG_zero (len : ℕ) (idx : List ℕ) (m : ℕ) : (takeG (List.replicate len 0) idx).getD m 0 = 0 := by
  unfold takeG
  have e : ∀ i, (List.replicate len (0 : ℂ)).getD i 0 = 0 := by
    intro i
    rw [List.getD_eq_getElem?_getD, List.getElem?_replicate]
    split_ifs <;> rfl
  simp only [e]
  rw [List.getD_eq_getElem?_getD, List.getElem?_map]
  cases idx[m]? <;> rfl

/-! ## C112: exchange -/

/-- **C112 (exchange).** `sigma_x` returns, for every self-energy k-point (listed once) and band,
`-factor Σ_q Σ_b Σ_G v_q(G) |M_G|²` — a real number — stored or memory-saving, on any number of processes. The sum over `b` runs over the
first `nVMax` bands at every k-point: `C112_occupied_partial` says when these are the occupied ones. -/
theorem C112_exchange (drv : Driver) (S : SigIn) (st : DrvState ℂ) (h : S.Ok) (hg : S.Grid) (hnd : S.kIdx.Nodup) (y : Bool) (size : Option ℕ)
    (hs : ∀ s, size = some s → 0 < s) :
    ∃ X, sigmaX drv S st y size = .ok X ∧ ∀ n < S.kIdx.length, ∀ j, X n j
      = ((-S.factor * ∑ iq ∈ Finset.range S.qs.length, ∑ b ∈ Finset.range (nVMax (S.eps 0)), pairX S iq n b j : ℝ) : ℂ) := by
  have hp : ∀ iq, iq < S.qs.length → _ := fun iq hq =>
    sigPart_ok drv S st h (nVMax (S.eps 0)) (fun iq => conX (S.v.getD iq [])) y iq hq
  choose! F hF hval using hp
  obtain ⟨X, hX, hsum⟩ := qSum_ok size hs S.qs.length (-1) _ F hF
  unfold sigmaX
  simp only [bind, Except.bind, pure, Except.pure, hX]
  refine ⟨_, rfl, ?_⟩
  intro n hn j
  rw [hsum]
  have hidx : S.kIdx.idxOf (S.kIdx.getD n 0) = n := by
    rw [List.getD_eq_getElem _ _ hn]; exact hnd.idxOf_getElem n hn
  have e : ∀ iq ∈ Finset.range S.qs.length, (-1 : ℂ) * F iq n j
      = ((-∑ b ∈ Finset.range (nVMax (S.eps 0)), pairX S iq n b j : ℝ) : ℂ) := by
    intro iq hiq
    have hq := Finset.mem_range.1 hiq
    rw [hval iq hq n hn j]
    simp only [if_pos hidx]
    push_cast
    rw [neg_one_mul]
    congr 1
    refine Finset.sum_congr rfl fun b _ => ?_
    unfold conX pairX
    rw [h.vlen iq hq]
    push_cast
    refine Finset.sum_congr rfl fun m hm => ?_
    rw [takeG_amp drv S st h hg iq n b j m hq hn (Finset.mem_range.1 hm), normSq_conj]
    ring
  rw [Finset.sum_congr rfl e]
  push_cast
  rw [Finset.sum_neg_distrib]
  ring

/-- **C112 (sign).** With a non-negative Coulomb interaction and factor, exchange never raises an energy. -/
theorem C112_nonpositive (drv : Driver) (S : SigIn) (st : DrvState ℂ) (h : S.Ok) (hg : S.Grid) (hnd : S.kIdx.Nodup) (y : Bool) (size : Option ℕ)
    (hs : ∀ s, size = some s → 0 < s) (hf : 0 ≤ S.factor) (hv : ∀ l ∈ S.v, ∀ x ∈ l, (0 : ℝ) ≤ x) :
    ∃ X, sigmaX drv S st y size = .ok X ∧ ∀ n < S.kIdx.length, ∀ j, (X n j).im = 0 ∧ (X n j).re ≤ 0 := by
  obtain ⟨X, hX, hval⟩ := C112_exchange drv S st h hg hnd y size hs
  refine ⟨X, hX, ?_⟩
  intro n hn j
  rw [hval n hn j]
  refine ⟨Complex.ofReal_im _, ?_⟩
  rw [Complex.ofReal_re]
  have : 0 ≤ ∑ iq ∈ Finset.range S.qs.length, ∑ b ∈ Finset.range (nVMax (S.eps 0)), pairX S iq n b j := by
    refine Finset.sum_nonneg fun iq _ => Finset.sum_nonneg fun b _ => Finset.sum_nonneg fun m _ => ?_
    refine mul_nonneg ?_ (Complex.normSq_nonneg _)
    rw [List.getD_eq_getElem?_getD]
    cases hm : (S.v.getD iq [])[m]? with
    | none => simp
    | some x =>
      have hx := List.mem_of_getElem? hm
      rw [List.getD_eq_getElem?_getD] at hx
      cases hi : S.v[iq]? with
      | none => rw [hi] at hx; simp at hx
      | some l =>
        rw [hi] at hx
        exact hv l (List.mem_of_getElem? hi) x hx
  nlinarith

/-- **C112 (violated).** A k-point listed twice: every copy but the first comes back as zero. -/
theorem C112_duplicate_k (drv : Driver) (S : SigIn) (st : DrvState ℂ) (h : S.Ok) (y : Bool) (size : Option ℕ)
    (hs : ∀ s, size = some s → 0 < s) :
    ∃ X, sigmaX drv S st y size = .ok X ∧ ∀ m n, m < n → n < S.kIdx.length → S.kIdx.getD m 0 = S.kIdx.getD n 0 → ∀ j, X n j = 0 := by
  have hp : ∀ iq, iq < S.qs.length → _ := fun iq hq =>
    sigPart_ok drv S st h (nVMax (S.eps 0)) (fun iq => conX (S.v.getD iq [])) y iq hq
  choose! F hF hval using hp
  obtain ⟨X, hX, hsum⟩ := qSum_ok size hs S.qs.length (-1) _ F hF
  unfold sigmaX
  simp only [bind, Except.bind, pure, Except.pure, hX]
  refine ⟨_, rfl, ?_⟩
  intro m n hmn hn hdup j
  have hidx : ¬ S.kIdx.idxOf (S.kIdx.getD n 0) = n := by
    intro e
    have hm : m < S.kIdx.length := by omega
    have h2 : S.kIdx.idxOf (S.kIdx.getD m 0) ≤ m := by
      rw [List.getD_eq_getElem _ _ hm]
      by_contra hlt
      have := List.not_of_lt_findIdx (p := (· == S.kIdx[m])) (xs := S.kIdx) (i := m) (by simpa [List.idxOf] using hlt)
      simp at this
    rw [hdup, e] at h2
    omega
  rw [hsum]
  have e : ∀ iq ∈ Finset.range S.qs.length, (-1 : ℂ) * F iq n j = 0 := by
    intro iq hiq
    rw [hval iq (Finset.mem_range.1 hiq) n hn j]
    simp only [if_neg hidx]
    rw [Finset.sum_eq_zero, mul_zero]
    intro b _
    unfold conX
    refine Finset.sum_eq_zero fun m _ => ?_
    rw [takeG_zero]
    simp
  rw [Finset.sum_congr rfl e]
  simp

/-- Filling: at every k-point exactly the bands below `nv` are occupied. -/
def SameFilling (S : SigIn) (nv : ℕ) : Prop :=
  0 < nv ∧ nv ≤ S.nbands ∧ 0 < S.ks.length ∧
    ∀ k < S.ks.length, ∀ b < S.nbands, (S.wfn.getD k default).occ b = if b < nv then 1 else 0

theorem nVMax_eq (S : SigIn) (nv : ℕ) (h : SameFilling S nv) : nVMax (S.eps 0) = nv := by
  obtain ⟨h0, h1, hk, hocc⟩ := h
  unfold nVMax
  have hmem : nv - 1 ∈ (whereOcc (S.eps 0) 1).map Prod.snd := by
    refine List.mem_map.2 ⟨(0, nv - 1), (mem_whereOcc (S.eps 0) 1 _).2 ⟨hk, ?_, ?_⟩, rfl⟩
    · show nv - 1 < S.nbands
      omega
    · show (S.wfn.getD 0 default).occ (nv - 1) = 1
      rw [hocc 0 hk (nv - 1) (by omega), if_pos (by omega)]
  have hle : ∀ a ∈ (whereOcc (S.eps 0) 1).map Prod.snd, a ≤ nv - 1 := by
    intro a ha
    obtain ⟨p, hp, rfl⟩ := List.mem_map.1 ha
    have hp' := (mem_whereOcc (S.eps 0) 1 p).1 hp
    have := hocc p.1 hp'.1 p.2 hp'.2.1
    have h3 : (S.wfn.getD p.1 default).occ p.2 = 1 := hp'.2.2
    rw [this] at h3
    by_contra hlt
    rw [if_neg (by omega)] at h3
    norm_num at h3
  have hub : ∀ (l : List ℕ) (z c : ℕ), z ≤ c → (∀ a ∈ l, a ≤ c) → l.foldl max z ≤ c := by
    intro l
    induction l with
    | nil => intro z c hz _; exact hz
    | cons a l ih =>
      intro z c hz hl
      rw [List.foldl_cons]
      exact ih _ _ (max_le hz (hl a (by simp))) fun b hb => hl b (by simp [hb])
  have e1 := (le_foldl_max ((whereOcc (S.eps 0) 1).map Prod.snd) 0).2 _ hmem
  have e2 := hub _ 0 (nv - 1) (by omega) hle
  omega

/-- Exchange with the states weighted by their occupation. -/
noncomputable def exactX (S : SigIn) (n j : ℕ) : ℝ :=
  -S.factor * ∑ iq ∈ Finset.range S.qs.length, ∑ b ∈ Finset.range S.nbands,
    (S.wfn.getD (braOf S iq n) default).occ b * pairX S iq n b j

theorem matchK_lt (S : SigIn) (iq k b : ℕ) (h : matchK S iq k = some b) : b < S.ks.length := by
  classical
  unfold matchK at h
  exact List.mem_range.1 (List.mem_of_find?_eq_some h)

/-- **C112 (occupied states only; partial).** If every k-point has the same number of occupied bands, `sigma_x` is the exchange with
the occupied states. `C112_metal` shows that the hypothesis cannot be dropped. -/
theorem C112_occupied_partial (drv : Driver) (S : SigIn) (st : DrvState ℂ) (h : S.Ok) (hg : S.Grid) (hnd : S.kIdx.Nodup) (nv : ℕ)
    (hfill : SameFilling S nv) (y : Bool) (size : Option ℕ) (hs : ∀ s, size = some s → 0 < s) :
    ∃ X, sigmaX drv S st y size = .ok X ∧ ∀ n < S.kIdx.length, ∀ j, X n j = (exactX S n j : ℂ) := by
  obtain ⟨X, hX, hval⟩ := C112_exchange drv S st h hg hnd y size hs
  refine ⟨X, hX, ?_⟩
  intro n hn j
  rw [hval n hn j, nVMax_eq S nv hfill]
  unfold exactX
  congr 2
  refine Finset.sum_congr rfl fun iq hiq => ?_
  have hk : S.kIdx.getD n 0 ∈ S.kIdx := by rw [List.getD_eq_getElem _ _ hn]; exact List.getElem_mem hn
  obtain ⟨b, hb⟩ := h.partner iq (Finset.mem_range.1 hiq) _ hk
  have hbl := matchK_lt S _ _ b hb
  have hbra : braOf S iq n = b := by unfold braOf; rw [hb]; rfl
  rw [hbra]
  obtain ⟨h0, h1, _, hocc⟩ := hfill
  rw [← Finset.sum_subset (Finset.range_mono h1)]
  · refine Finset.sum_congr rfl fun c hc => ?_
    have := Finset.mem_range.1 hc
    rw [hocc b hbl c (by omega), if_pos this, one_mul]
  · intro c hc hc'
    rw [hocc b hbl c (Finset.mem_range.1 hc), if_neg (by simpa using hc'), zero_mul]

/-! ### Errors -/

theorem mapM_err {α β ε : Type*} (l : List α) (f : α → Except ε β) (e : ε) (h : ∀ a ∈ l, (∃ b, f a = .ok b) ∨ f a = .error e)
    (hx : ∃ a ∈ l, f a = .error e) : l.mapM f = .error e := by
  induction l with
  | nil => obtain ⟨a, ha, _⟩ := hx; simp at ha
  | cons a l ih =>
    rw [List.mapM_cons]
    rcases h a (by simp) with ⟨b, hb⟩ | hb
    · have : ∃ a ∈ l, f a = .error e := by
        obtain ⟨c, hc, hce⟩ := hx
        rcases List.mem_cons.1 hc with rfl | hc
        · rw [hb] at hce; cases hce
        · exact ⟨c, hc, hce⟩
      rw [hb, ih (fun c hc => h c (by simp [hc])) this]
      rfl
    · rw [hb]; rfl

/-- **C112 (violated).** The Coulomb interaction is tabulated for the G-vectors below `bare_coulomb_cutoff`, the matrix elements for those
below `epsilon_cutoff`: when their numbers differ at some q-point the calculation ends in `ValueError`. -/
theorem C112_cutoffs (drv : Driver) (S : SigIn) (st : DrvState ℂ) (h : S.Base) (y : Bool)
    (iq : ℕ) (hq : iq < S.qs.length) (hlen : (S.v.getD iq []).length ≠ (S.gqs.getD iq []).length) :
    sigmaX drv S st y none = .error .value := by
  have hpart : ∀ a < S.qs.length, ∀ con, (∃ X, sigPart drv S st (nVMax (S.eps 0)) con y a = .ok X)
      ∨ sigPart drv S st (nVMax (S.eps 0)) con y a = .error .value := by
    intro a ha con
    unfold sigPart
    rw [qPairs_base S h a ha]
    by_cases hv : (S.v.getD a []).length ≠ (S.gqs.getD a []).length
    · right; rw [if_pos hv]; rfl
    · left; rw [if_neg hv]; exact ⟨_, rfl⟩
  have hbad : ∀ con, sigPart drv S st (nVMax (S.eps 0)) con y iq = .error .value := by
    intro con
    unfold sigPart
    rw [qPairs_base S h iq hq, if_pos hlen]
    rfl
  unfold sigmaX qSum
  have := mapM_err (List.range S.qs.length) (sigPart drv S st (nVMax (S.eps 0)) (fun iq => conX (S.v.getD iq [])) y) .value
    (fun a ha => hpart a (List.mem_range.1 ha) _) ⟨iq, List.mem_range.2 hq, hbad _⟩
  simp only [bind, Except.bind, this]

end Verif.GW
