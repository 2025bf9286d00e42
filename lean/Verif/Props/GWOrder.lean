import Mathlib.Algebra.BigOperators.Fin
import Mathlib.LinearAlgebra.Matrix.NonsingularInverse
import Verif.Props.GWGauge

/-!
# Property C223: order and repetition in the lists of a GW calculation
-/

namespace Verif.GW

open Verif
open Verif.Lattice (Vec)
open Verif.GSpace (GVec Shape inBounds at')
open Verif.FFT (Driver DrvState)
open scoped ComplexConjugate

/-! ## Specification -/

/-- The same states, their plane waves listed in another order. -/
structure SameWaves (w w' : Wfn) : Prop where
  waves : ∃ e : Fin w'.gs.length ≃ Fin w.gs.length, ∀ a : Fin w'.gs.length, w'.gs[a] = w.gs[e a] ∧ ∀ b, w'.evc b a = w.evc b (e a)
  evl : w'.evl = w.evl
  occ : w'.occ = w.occ

/-- The calculation `E'` has the k-points of `E`, each of them `r` times, in any order (number `k` of `E'` is number `p k` of `E`), with the same states, their plane waves in any order, and the G-vectors of the dielectric matrix in the order `s`. -/
structure EpsIn.Listed (E E' : EpsIn) (p s : ℕ → ℕ) (r : ℕ) : Prop where
  maps : ∀ k < E'.ks.length, p k < E.ks.length
  times : ∀ k < E.ks.length, ((Finset.range E'.ks.length).filter fun k' => p k' = k).card = r
  k : ∀ k < E'.ks.length, E'.ks.getD k 0 = E.ks.getD (p k) 0
  wfn : ∀ k < E'.ks.length, SameWaves (E.wfn.getD (p k) default) (E'.wfn.getD k default)
  val : ∀ k < E'.ks.length, SameWaves (E.val.getD (p k) default) (E'.val.getD k default)
  gq : E'.gq.length = E.gq.length
  smaps : ∀ l < E.gq.length, s l < E.gq.length
  sinj : ∀ l < E.gq.length, ∀ m < E.gq.length, s l = s m → l = m
  g : ∀ l < E.gq.length, E'.gq.getD l (0, 0, 0) = E.gq.getD (s l) (0, 0, 0)
  shape : E'.shape = E.shape
  nbands : E'.nbands = E.nbands
  vol : E'.vol = E.vol
  qadd : E'.qadd = E.qadd
  more : ∀ k, E'.ks.length ≤ k → OnGrid E'.shape (E'.wfn.getD k default).gs ∧ OnGrid E'.shape (E'.val.getD k default).gs

/-! ## Lemmas -/

theorem sum_times (n n' r : ℕ) (p : ℕ → ℕ) (hm : ∀ k < n', p k < n) (ht : ∀ k < n, ((Finset.range n').filter fun k' => p k' = k).card = r) (f : ℕ → ℂ) :
    ∑ k ∈ Finset.range n', f (p k) = r * ∑ k ∈ Finset.range n, f k := by
  rw [← Finset.sum_fiberwise_of_maps_to (s := Finset.range n') (t := Finset.range n) (g := p) (fun k hk => Finset.mem_range.2 (hm k (Finset.mem_range.1 hk))), Finset.mul_sum]
  refine Finset.sum_congr rfl fun k hk => ?_
  rw [Finset.sum_congr rfl (g := fun _ => f k) (fun k' hk' => by rw [(Finset.mem_filter.1 hk').2]), Finset.sum_const, ht k (Finset.mem_range.1 hk), nsmul_eq_mul]

theorem count_times (n n' r : ℕ) (p : ℕ → ℕ) (hm : ∀ k < n', p k < n) (ht : ∀ k < n, ((Finset.range n').filter fun k' => p k' = k).card = r) : n' = r * n := by
  have h := Finset.card_eq_sum_card_fiberwise (s := Finset.range n') (t := Finset.range n) (f := p) (fun k hk => by
    simp only [Finset.coe_range, Set.mem_Iio] at hk ⊢
    exact hm k hk)
  rw [Finset.card_range, Finset.sum_congr rfl (g := fun _ => r) (fun k hk => ht k (Finset.mem_range.1 hk))] at h
  simpa [mul_comm] using h

theorem overlap_waves (s : Shape) (wc wc' wv wv' : Wfn) (hc : SameWaves wc wc') (hv : SameWaves wv wv') (bc bv : ℕ) (X : GVec) :
    overlap s wc' wv' bc bv X = overlap s wc wv bc bv X := by
  classical
  obtain ⟨e, he⟩ := hc.waves
  obtain ⟨e', he'⟩ := hv.waves
  unfold overlap
  rw [← Equiv.sum_comp e]
  refine Finset.sum_congr rfl fun a _ => ?_
  rw [← Equiv.sum_comp e']
  refine Finset.sum_congr rfl fun b _ => ?_
  rw [(he a).1, (he' b).1, (he a).2, (he' b).2]

theorem onGrid_waves (s : Shape) (w w' : Wfn) (h : SameWaves w w') (hg : OnGrid s w.gs) : OnGrid s w'.gs := by
  obtain ⟨e, he⟩ := h.waves
  refine ⟨?_, fun g hg' => ?_⟩
  · rw [List.nodup_iff_injective_get]
    intro a b hab
    have h1 : w'.gs[a] = w'.gs[b] := hab
    rw [(he a).1, (he b).1] at h1
    have h2 : (e a).1 = (e b).1 := (List.Nodup.getElem_inj_iff hg.1).1 h1
    exact e.injective (Fin.ext h2)
  · obtain ⟨a, ha, rfl⟩ := List.mem_iff_getElem.1 hg'
    have := (he ⟨a, ha⟩).1
    rw [show w'.gs[a] = w.gs[e ⟨a, ha⟩] from this]
    exact hg.2 _ (List.getElem_mem _)

theorem map_getD_lt {α : Type*} (L : List α) (F : α → ℂ) (l : ℕ) (d : α) (hl : l < L.length) : (L.map F).getD l 0 = F (L.getD l d) := by
  simp only [List.getD_eq_getElem?_getD, List.getElem?_map, List.getElem?_eq_getElem hl, Option.map_some, Option.getD_some]

theorem umk_getD (E : EpsIn) (kc l : ℕ) (hl : l < E.gq.length) : (gUmk E kc).getD l (0, 0, 0) =
    ((E.gq.getD l (0, 0, 0)).1 - umklapp (E.ks.getD kc 0) E.qadd 0, (E.gq.getD l (0, 0, 0)).2.1 - umklapp (E.ks.getD kc 0) E.qadd 1, (E.gq.getD l (0, 0, 0)).2.2 - umklapp (E.ks.getD kc 0) E.qadd 2) := by
  unfold gUmk
  simp only [List.getD_eq_getElem?_getD, List.getElem?_map, List.getElem?_eq_getElem hl, Option.map_some, Option.getD_some]

section

variable {E E' : EpsIn} {p s : ℕ → ℕ} {r : ℕ}

theorem umk_listed (h : E.Listed E' p s r) (kc l : ℕ) (hk : kc < E'.ks.length) (hl : l < E.gq.length) :
    (gUmk E' kc).getD l (0, 0, 0) = (gUmk E (p kc)).getD (s l) (0, 0, 0) := by
  rw [umk_getD E' kc l (by rw [h.gq]; exact hl), umk_getD E (p kc) (s l) (h.smaps l hl), h.g l hl, h.k kc hk, h.qadd]

theorem grid_listed (h : E.Listed E' p s r) (hg : E.Grid) : E'.Grid where
  gq := by
    rw [List.nodup_iff_injective_get]
    intro a b hab
    have ha : a.1 < E.gq.length := lt_of_lt_of_eq a.2 h.gq
    have hb : b.1 < E.gq.length := lt_of_lt_of_eq b.2 h.gq
    have h1 : E'.gq.getD a.1 (0, 0, 0) = E'.gq.getD b.1 (0, 0, 0) := by
      rw [List.getD_eq_getElem?_getD, List.getD_eq_getElem?_getD, List.getElem?_eq_getElem a.2, List.getElem?_eq_getElem b.2]
      exact hab
    rw [h.g a.1 ha, h.g b.1 hb, List.getD_eq_getElem?_getD, List.getD_eq_getElem?_getD, List.getElem?_eq_getElem (h.smaps a.1 ha), List.getElem?_eq_getElem (h.smaps b.1 hb)] at h1
    exact Fin.ext (h.sinj a.1 ha b.1 hb ((List.Nodup.getElem_inj_iff hg.gq).1 h1))
  wfn k := by
    by_cases hk : k < E'.ks.length
    · rw [h.shape]; exact onGrid_waves _ _ _ (h.wfn k hk) (hg.wfn _)
    · exact (h.more k (not_lt.1 hk)).1
  val k := by
    by_cases hk : k < E'.ks.length
    · rw [h.shape]; exact onGrid_waves _ _ _ (h.val k hk) (hg.val _)
    · exact (h.more k (not_lt.1 hk)).2

theorem ok_listed (h : E.Listed E' p s r) (hr : 0 < r) (hE : E.Ok) : E'.Ok := by
  have hx : ∀ x : ℝ, (∃ q, HasOcc E x q) → ∃ q, HasOcc E' x q := by
    rintro x ⟨⟨k, b⟩, h1, h2, h3⟩
    have hc := h.times k h1
    obtain ⟨k', hk'⟩ := Finset.card_pos.1 (hc ▸ hr)
    obtain ⟨h4, h5⟩ := Finset.mem_filter.1 hk'
    rw [Finset.mem_range] at h4
    refine ⟨(k', b), h4, by rw [h.nbands]; exact h2, ?_⟩
    show (E'.wfn.getD k' default).occ b = x
    rw [(h.wfn k' h4).occ, h5]
    exact h3
  refine ⟨by rw [h.shape]; exact hE.pos, hx 1 hE.occupied, hx 0 hE.empty, fun kc hk g hg => ?_⟩
  obtain ⟨l, hl, rfl⟩ := List.mem_iff_getElem.1 hg
  have hl' : l < E.gq.length := by rw [← h.gq]; simpa [gUmk] using hl
  have h1 := umk_listed h kc l hk hl'
  have hsl : s l < (gUmk E (p kc)).length := by simpa [gUmk] using h.smaps l hl'
  rw [List.getD_eq_getElem?_getD, List.getD_eq_getElem?_getD, List.getElem?_eq_getElem hl, List.getElem?_eq_getElem hsl] at h1
  simp only [Option.getD_some] at h1
  rw [h1, h.shape]
  exact hE.fits (p kc) (h.maps kc hk) _ (List.getElem_mem _)

theorem mel_listed (drv drv' : Driver) (st st' : DrvState ℂ) (h : E.Listed E' p s r) (hr : 0 < r) (hE : E.Ok) (hg : E.Grid) (kc kv : ℕ) (hkc : kc < E'.ks.length) (hkv : kv < E'.ks.length)
    (c b l : ℕ) (hl : l < E.gq.length) :
    (mel drv' E' st' kc c kv b).getD l 0 = (mel drv E st (p kc) c (p kv) b).getD (s l) 0 := by
  have hE' := ok_listed h hr hE
  rw [mel_eq drv' E' st' hE'.pos kc c kv b (grid_listed h hg) (hE'.fits kc hkc), mel_eq drv E st hE.pos (p kc) c (p kv) b hg (hE.fits _ (h.maps kc hkc))]
  rw [map_getD_lt _ _ l (0, 0, 0) (by simpa [gUmk, h.gq] using hl), map_getD_lt _ _ (s l) (0, 0, 0) (by simpa [gUmk] using h.smaps l hl), umk_listed h kc l hkc hl, h.shape,
    overlap_waves E.shape _ _ _ _ (h.wfn kc hkc) (h.val kv hkv), (h.wfn kc hkc).evl, (h.val kv hkv).evl]

theorem chiSpec_listed (drv drv' : Driver) (st st' : DrvState ℂ) (h : E.Listed E' p s r) (hr : 0 < r) (hE : E.Ok) (hg : E.Grid) (l m : ℕ) (hl : l < E.gq.length) (hm : m < E.gq.length) :
    chiSpec drv' E' st' l m = r * chiSpec drv E st (s l) (s m) := by
  classical
  have hn := count_times _ _ r p h.maps h.times
  set T : ℕ → ℕ → ℂ := fun kc kv => if IsClose (E.ks.getD kv 0) (kPlusQ (E.ks.getD kc 0) E.qadd) then
        ∑ c ∈ Finset.range E.nbands, ∑ v ∈ Finset.range E.nbands,
          (if (E.wfn.getD kc default).occ c = 0 then (1 : ℂ) else 0) * (if (E.wfn.getD kv default).occ v = 1 then (1 : ℂ) else 0)
            * (conj ((mel drv E st kc c kv v).getD (s l) 0) * (mel drv E st kc c kv v).getD (s m) 0)
      else 0 with hT
  have e1 : ∑ t ∈ transitions E', conj ((mel drv' E' st' t.1.1 t.1.2 t.2.1 t.2.2).getD l 0) * (mel drv' E' st' t.1.1 t.1.2 t.2.1 t.2.2).getD m 0
      = ∑ kc ∈ Finset.range E'.ks.length, ∑ kv ∈ Finset.range E'.ks.length, T (p kc) (p kv) := by
    rw [sum_transitions]
    refine Finset.sum_congr rfl fun kc hkc => Finset.sum_congr rfl fun kv hkv => ?_
    rw [Finset.mem_range] at hkc hkv
    simp only [hT]
    rw [h.k kc hkc, h.k kv hkv, h.qadd, h.nbands, (h.wfn kc hkc).occ, (h.wfn kv hkv).occ]
    split_ifs
    · refine Finset.sum_congr rfl fun c _ => Finset.sum_congr rfl fun v _ => ?_
      rw [mel_listed drv drv' st st' h hr hE hg kc kv hkc hkv c v l hl, mel_listed drv drv' st st' h hr hE hg kc kv hkc hkv c v m hm]
    · rfl
  have e2 : ∑ t ∈ transitions E, conj ((mel drv E st t.1.1 t.1.2 t.2.1 t.2.2).getD (s l) 0) * (mel drv E st t.1.1 t.1.2 t.2.1 t.2.2).getD (s m) 0
      = ∑ kc ∈ Finset.range E.ks.length, ∑ kv ∈ Finset.range E.ks.length, T kc kv := sum_transitions E _
  have e3 : ∑ kc ∈ Finset.range E'.ks.length, ∑ kv ∈ Finset.range E'.ks.length, T (p kc) (p kv)
      = r * (r * ∑ kc ∈ Finset.range E.ks.length, ∑ kv ∈ Finset.range E.ks.length, T kc kv) := by
    rw [Finset.sum_congr rfl (fun kc _ => sum_times _ _ r p h.maps h.times (fun kv => T (p kc) kv)), ← Finset.mul_sum]
    congr 1
    exact sum_times _ _ r p h.maps h.times fun kc => ∑ kv ∈ Finset.range E.ks.length, T kc kv
  unfold chiSpec
  rw [e1, e2, e3, h.vol, hn]
  have hr' : (r : ℂ) ≠ 0 := by exact_mod_cast hr.ne'
  obtain ⟨q, hq, -, -⟩ := hE.occupied
  have hk0 : (E.ks.length : ℂ) ≠ 0 := by exact_mod_cast (by omega : E.ks.length ≠ 0)
  push_cast
  by_cases hv : (E.vol : ℂ) = 0
  · rw [hv]; simp
  · field_simp

end

/-! ## The property -/

/-- **C223 (order).** Listing the k-points, the plane waves of the wavefunctions or the G-vectors of the matrix in another order reorders the rows and columns of the polarizability accordingly and changes nothing else, in either variant
of the code and with any FFT driver. -/
theorem C223_order (drv drv' : Driver) (st st' : DrvState ℂ) (E E' : EpsIn) (p s : ℕ → ℕ) (h : E.Listed E' p s 1) (hE : E.Ok) (hg : E.Grid) :
    (∃ chi chi', chiActive drv E st = .ok chi ∧ chiActive drv' E' st' = .ok chi' ∧ ∀ l < E.gq.length, ∀ m < E.gq.length, chi' l m = chi (s l) (s m)) ∧
    ((∀ kc < E.ks.length, ∀ kv < E.ks.length, ∀ kv' < E.ks.length, IsClose (E.ks.getD kv 0) (kPlusQ (E.ks.getD kc 0) E.qadd) → IsClose (E.ks.getD kv' 0) (kPlusQ (E.ks.getD kc 0) E.qadd) → kv = kv') →
      ∃ chi chi', chiBatch drv E st = .ok chi ∧ chiBatch drv' E' st' = .ok chi' ∧ ∀ l < E.gq.length, ∀ m < E.gq.length, chi' l m = chi (s l) (s m)) := by
  have hE' := ok_listed h one_pos hE
  have hchi : ∀ l < E.gq.length, ∀ m < E.gq.length, chiSpec drv' E' st' l m = chiSpec drv E st (s l) (s m) := fun l hl m hm => by
    rw [chiSpec_listed drv drv' st st' h one_pos hE hg l m hl hm]; simp
  refine ⟨⟨_, _, C54_active drv E st hE, C54_active drv' E' st' hE', hchi⟩, fun hu => ⟨_, _, C54_stored drv E st hE hu, C54_stored drv' E' st' hE' ?_, hchi⟩⟩
  intro kc hkc kv hkv kv' hkv' h1 h2
  rw [h.k kv hkv, h.k kc hkc, h.qadd] at h1
  rw [h.k kv' hkv', h.k kc hkc, h.qadd] at h2
  have e := hu _ (h.maps kc hkc) _ (h.maps kv hkv) _ (h.maps kv' hkv') h1 h2
  have hc := h.times _ (h.maps kv hkv)
  obtain ⟨x, hx⟩ := Finset.card_eq_one.1 hc
  have m1 : kv ∈ ({x} : Finset ℕ) := hx ▸ Finset.mem_filter.2 ⟨Finset.mem_range.2 hkv, rfl⟩
  have m2 : kv' ∈ ({x} : Finset ℕ) := hx ▸ Finset.mem_filter.2 ⟨Finset.mem_range.2 hkv', e.symm⟩
  exact (Finset.mem_singleton.1 m1).trans (Finset.mem_singleton.1 m2).symm

/-- **C223 (violated: repetition).** Listing every k-point `r` times — the same physical mesh — multiplies the polarizability by `r`: states are paired with every copy of their partner. -/
theorem C223_repeated (drv drv' : Driver) (st st' : DrvState ℂ) (E E' : EpsIn) (p s : ℕ → ℕ) (r : ℕ) (hr : 0 < r) (h : E.Listed E' p s r) (hE : E.Ok) (hg : E.Grid) :
    ∃ chi chi', chiActive drv E st = .ok chi ∧ chiActive drv' E' st' = .ok chi' ∧ ∀ l < E.gq.length, ∀ m < E.gq.length, chi' l m = r * chi (s l) (s m) :=
  ⟨_, _, C54_active drv E st hE, C54_active drv' E' st' (ok_listed h hr hE), fun l hl m hm => chiSpec_listed drv drv' st st' h hr hE hg l m hl hm⟩

/-- **C223 (dielectric matrix).** Reordering the G-vectors and inverting the dielectric matrix may be exchanged, whatever the Coulomb values; errors and NaN are the same. -/
theorem C223_dielectric {n : ℕ} (s : Equiv.Perm (Fin n)) (v : Fin n → Option ℝ) (chi : Fin n → Fin n → ℂ) :
    epsInverse (fun i => v (s i)) (fun i j => chi (s i) (s j)) = (epsInverse v chi).map (Option.map fun A => fun i j => A (s i) (s j)) := by
  classical
  have hM : epsMat (fun j => (v (s j)).getD 0) (fun i j => chi (s i) (s j)) = (epsMat (fun j => (v j).getD 0) chi).submatrix s s := by
    ext i j
    show (if i = j then (1 : ℂ) else 0) - _ = (if s i = s j then (1 : ℂ) else 0) - _
    simp [s.injective.eq_iff]
  have hN : (∃ j, v (s j) = none) ↔ ∃ j, v j = none := ⟨fun ⟨j, hj⟩ => ⟨_, hj⟩, fun ⟨j, hj⟩ => ⟨s.symm j, by simpa using hj⟩⟩
  unfold epsInverse
  rw [hM, Matrix.det_submatrix_equiv_self]
  by_cases hn : ∃ j, v j = none
  · rw [if_pos hn, if_pos (hN.2 hn)]; rfl
  rw [if_neg hn, if_neg fun hh => hn (hN.1 hh)]
  by_cases h0 : (epsMat (fun j => (v j).getD 0) chi).det = 0
  · rw [if_pos h0, if_pos h0]; rfl
  rw [if_neg h0, if_neg h0, Matrix.inv_submatrix_equiv]
  rfl

/-! ## Cases meeting the hypotheses -/

theorem sameWaves_refl (w : Wfn) : SameWaves w w := ⟨⟨Equiv.refl _, fun _ => ⟨rfl, fun _ => rfl⟩⟩, rfl, rfl⟩

theorem getD_reverse {α : Type*} (L : List α) (d : α) (k : ℕ) (hk : k < L.length) : L.reverse.getD k d = L.getD (L.length - 1 - k) d := by
  rw [List.getD_eq_getElem?_getD, List.getD_eq_getElem?_getD, List.getElem?_reverse hk]

/-- Every calculation with its lists reversed. -/
theorem listed_reverse (E : EpsIn) (hw : E.wfn.length = E.ks.length) (hv : E.val.length = E.ks.length) :
    E.Listed { E with ks := E.ks.reverse, wfn := E.wfn.reverse, val := E.val.reverse, gq := E.gq.reverse } (fun k => E.ks.length - 1 - k) (fun l => E.gq.length - 1 - l) 1 where
  maps k hk := by simp at hk; omega
  times k hk := by
    rw [Finset.card_eq_one]
    refine ⟨E.ks.length - 1 - k, ?_⟩
    ext x
    simp only [Finset.mem_filter, Finset.mem_range, Finset.mem_singleton, List.length_reverse]
    omega
  k k hk := getD_reverse _ _ _ (by simpa using hk)
  wfn k hk := by
    simp only [List.length_reverse] at hk
    rw [getD_reverse _ _ _ (by omega), hw]
    exact sameWaves_refl _
  val k hk := by
    simp only [List.length_reverse] at hk
    rw [getD_reverse _ _ _ (by omega), hv]
    exact sameWaves_refl _
  gq := by simp
  smaps l hl := by omega
  sinj l hl m hm e := by omega
  g l hl := getD_reverse _ _ _ hl
  shape := rfl
  nbands := rfl
  vol := rfl
  qadd := rfl
  more k hk := by
    simp only [List.length_reverse] at hk
    constructor
    · rw [List.getD_eq_default _ _ (by rw [List.length_reverse]; omega)]
      exact ⟨List.nodup_nil, by intro g hg; cases hg⟩
    · rw [List.getD_eq_default _ _ (by rw [List.length_reverse]; omega)]
      exact ⟨List.nodup_nil, by intro g hg; cases hg⟩

theorem tiny_grid (n : ℕ) : (tiny (List.replicate n 0)).Grid := by
  have hon : OnGrid ⟨1, 1, 1⟩ [((0 : ℤ), (0 : ℤ), (0 : ℤ))] := ⟨by simp, by simp; decide⟩
  have hall : ∀ k, OnGrid ⟨1, 1, 1⟩ ((tiny (List.replicate n 0)).wfn.getD k default).gs := by
    intro k
    by_cases hk : k < n
    · rw [tiny_wfn n k hk]; exact hon
    · rw [List.getD_eq_default _ _ (by simp [tiny]; omega)]
      exact ⟨List.nodup_nil, by intro g hg; cases hg⟩
  exact ⟨by simp [tiny], hall, hall⟩

/-- One k-point listed `n + 1` times. -/
theorem tiny_listed (n : ℕ) : (tiny (List.replicate 1 0)).Listed (tiny (List.replicate (n + 1) 0)) (fun _ => 0) id (n + 1) where
  maps k hk := by simp [tiny]
  times k hk := by
    have hk' : k = 0 := by simpa [tiny] using hk
    subst hk'
    simp [tiny]
  k k hk := by rw [tiny_ks, tiny_ks]
  wfn k hk := by
    rw [tiny_wfn (n + 1) k (by simpa [tiny] using hk), tiny_wfn 1 0 one_pos]
    exact sameWaves_refl _
  val k hk := by
    have h1 := tiny_wfn (n + 1) k (by simpa [tiny] using hk)
    have h2 := tiny_wfn 1 0 one_pos
    change SameWaves ((tiny (List.replicate 1 0)).wfn.getD 0 default) ((tiny (List.replicate (n + 1) 0)).wfn.getD k default)
    rw [h1, h2]
    exact sameWaves_refl _
  gq := rfl
  smaps l hl := hl
  sinj l _ m _ e := e
  g l _ := rfl
  shape := rfl
  nbands := rfl
  vol := rfl
  qadd := rfl
  more k hk := ⟨(tiny_grid (n + 1)).wfn k, (tiny_grid (n + 1)).val k⟩

theorem tiny_chi (drv : Driver) (st : DrvState ℂ) : chiSpec drv (tiny (List.replicate 1 0)) st 0 0 = -4 := by
  classical
  have htr : transitions (tiny (List.replicate 1 0)) = {((0, 1), (0, 0))} := by
    ext t
    obtain ⟨⟨a, b⟩, ⟨c, d⟩⟩ := t
    unfold transitions
    simp only [Finset.mem_filter, Finset.mem_product, Finset.mem_range, tiny_trans, Finset.mem_singleton, Prod.mk.injEq]
    have hl : (tiny (List.replicate 1 0)).ks.length = 1 := rfl
    have hb : (tiny (List.replicate 1 0)).nbands = 2 := rfl
    rw [hl, hb]
    omega
  unfold chiSpec
  rw [htr, Finset.sum_singleton, tiny_mel drv st 1 0 0 one_pos one_pos]
  simp [tiny]

/-- **C223 (violated: repetition).** With the only k-point listed twice the polarizability is another one. -/
theorem C223_repetition_violated (drv : Driver) (st : DrvState ℂ) : ∃ E E' : EpsIn, E.Ok ∧ E.Grid ∧ E.Listed E' (fun _ => 0) id 2 ∧
    ∃ chi chi', chiActive drv E st = .ok chi ∧ chiActive drv E' st = .ok chi' ∧ chi' 0 0 ≠ chi 0 0 := by
  refine ⟨_, _, tiny_ok 0, tiny_grid 1, tiny_listed 1, _, _, C54_active drv _ st (tiny_ok 0), C54_active drv _ st (tiny_ok 1), ?_⟩
  rw [chiSpec_listed drv drv st st (tiny_listed 1) (by omega) (tiny_ok 0) (tiny_grid 1) 0 0 (by simp [tiny]) (by simp [tiny])]
  show ((1 + 1 : ℕ) : ℂ) * chiSpec drv (tiny (List.replicate 1 0)) st (id 0) (id 0) ≠ chiSpec drv (tiny (List.replicate 1 0)) st 0 0
  rw [id, tiny_chi]
  norm_num

/-- The hypotheses of C223_order are met by every list of k-points, reversed. -/
example (drv : Driver) (st : DrvState ℂ) (E : EpsIn) (hE : E.Ok) (hg : E.Grid) (hw : E.wfn.length = E.ks.length) (hv : E.val.length = E.ks.length) :
    ∃ chi chi', chiActive drv E st = .ok chi ∧ chiActive drv { E with ks := E.ks.reverse, wfn := E.wfn.reverse, val := E.val.reverse, gq := E.gq.reverse } st = .ok chi' ∧
      ∀ l < E.gq.length, ∀ m < E.gq.length, chi' l m = chi (E.gq.length - 1 - l) (E.gq.length - 1 - m) :=
  (C223_order drv drv st st E _ _ _ (listed_reverse E hw hv) hE hg).1

end Verif.GW
