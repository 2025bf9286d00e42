import Verif.Model.KSWfn
import Verif.Props.FFT
import Verif.Props.QEInp
import Verif.Props.QEParse
import Verif.Props.DFTComm
import Mathlib.Data.List.GetD
import Mathlib.Algebra.BigOperators.Field

/-!
# The container of Kohn-Sham states: C127 (overlaps), C128 (occupied bands), C129 (reading a file), C130 (density)
-/

namespace Verif.KSWfn

open Verif.GSpace (GVec Shape)
open Verif.FFT (Dims Driver DrvState)
open Verif.QEInp (dictSet dictGet)
open scoped ComplexConjugate

/-! ## C127 -/

/-- Same point of the grid: the components differ by multiples of the grid's dimensions. -/
def SameMod (S : Shape) (a b : GVec) : Prop := (S.n1 : ℤ) ∣ a.1 - b.1 ∧ (S.n2 : ℤ) ∣ a.2.1 - b.2.1 ∧ (S.n3 : ℤ) ∣ a.2.2 - b.2.2

def addG (a b : GVec) : GVec := (a.1 + b.1, a.2.1 + b.2.1, a.2.2 + b.2.2)

theorem hash_eq_iff (S : Shape) (hS : S.Pos) (u v a b : GVec) : hash S u a = hash S v b ↔ SameMod S (addG a u) (addG b v) := by
  obtain ⟨h1, h2, h3⟩ := hS
  have p1 : (0 : ℤ) < S.n1 := by exact_mod_cast h1
  have p2 : (0 : ℤ) < S.n2 := by exact_mod_cast h2
  have p3 : (0 : ℤ) < S.n3 := by exact_mod_cast h3
  have key : ∀ x y : ℤ, ∀ n : ℤ, x % n = y % n ↔ n ∣ x - y := fun x y n => by
    rw [Int.emod_eq_emod_iff_emod_sub_eq_zero, Int.dvd_iff_emod_eq_zero]
  unfold hash SameMod addG
  simp only
  rw [← key, ← key, ← key]
  constructor
  · intro h
    set a1 := (a.1 + u.1) % (S.n1 : ℤ)
    set b1 := (b.1 + v.1) % (S.n1 : ℤ)
    set a2 := (a.2.1 + u.2.1) % (S.n2 : ℤ)
    set b2 := (b.2.1 + v.2.1) % (S.n2 : ℤ)
    set a3 := (a.2.2 + u.2.2) % (S.n3 : ℤ)
    set b3 := (b.2.2 + v.2.2) % (S.n3 : ℤ)
    have ha1 : 0 ≤ a1 ∧ a1 < S.n1 := ⟨Int.emod_nonneg _ p1.ne', Int.emod_lt_of_pos _ p1⟩
    have hb1 : 0 ≤ b1 ∧ b1 < S.n1 := ⟨Int.emod_nonneg _ p1.ne', Int.emod_lt_of_pos _ p1⟩
    have ha2 : 0 ≤ a2 ∧ a2 < S.n2 := ⟨Int.emod_nonneg _ p2.ne', Int.emod_lt_of_pos _ p2⟩
    have hb2 : 0 ≤ b2 ∧ b2 < S.n2 := ⟨Int.emod_nonneg _ p2.ne', Int.emod_lt_of_pos _ p2⟩
    have e1 : a1 + (S.n1 : ℤ) * (a2 + S.n2 * a3) = b1 + (S.n1 : ℤ) * (b2 + S.n2 * b3) := by linarith [h]
    have r1 : a1 = b1 := by
      have := congrArg (· % (S.n1 : ℤ)) e1
      simp only [Int.add_mul_emod_self_left] at this
      rwa [Int.emod_eq_of_lt ha1.1 ha1.2, Int.emod_eq_of_lt hb1.1 hb1.2] at this
    have e2 : a2 + (S.n2 : ℤ) * a3 = b2 + (S.n2 : ℤ) * b3 := by
      rw [r1] at e1
      exact mul_left_cancel₀ p1.ne' (add_left_cancel e1)
    have r2 : a2 = b2 := by
      have := congrArg (· % (S.n2 : ℤ)) e2
      simp only [Int.add_mul_emod_self_left] at this
      rwa [Int.emod_eq_of_lt ha2.1 ha2.2, Int.emod_eq_of_lt hb2.1 hb2.2] at this
    have r3 : a3 = b3 := by
      rw [r2] at e2
      exact mul_left_cancel₀ p2.ne' (add_left_cancel e2)
    exact ⟨r1, r2, r3⟩
  · rintro ⟨h1, h2, h3⟩
    rw [h1, h2, h3]

theorem foldl_dictSet {β : Type} (l : List β) (key : β → ℤ) (hn : (l.map key).Nodup) (d : List (ℤ × β))
    (hd : ∀ x ∈ l, key x ∉ d.map Prod.fst) : l.foldl (fun d x => dictSet d (key x) x) d = d ++ l.map fun x => (key x, x) := by
  induction l generalizing d with
  | nil => simp
  | cons a t ih =>
    rw [List.map_cons, List.nodup_cons] at hn
    have happ : ∀ (d : List (ℤ × β)) (k : ℤ) (v : β), k ∉ d.map Prod.fst → dictSet d k v = d ++ [(k, v)] := by
      intro d k v hk
      induction d with
      | nil => rfl
      | cons p s ihs =>
        obtain ⟨x, y⟩ := p
        simp only [List.map_cons, List.mem_cons, not_or] at hk
        simp only [dictSet]
        rw [if_neg (Ne.symm hk.1), ihs hk.2]
        rfl
    rw [List.foldl_cons, happ d _ _ (hd a (by simp)), ih hn.2]
    · simp
    · intro x hx
      rw [List.map_append, List.mem_append, not_or]
      refine ⟨hd x (by simp [hx]), ?_⟩
      simp only [List.map_cons, List.map_nil, List.mem_singleton]
      intro he
      exact hn.1 (he ▸ List.mem_map_of_mem hx)

theorem idxDict_eq (S : Shape) (hS : S.Pos) (u : GVec) (gs : List GVec) (hg : gs.Pairwise fun a b => ¬ SameMod S a b) :
    ((List.range gs.length).map fun i => hash S u (gs.getD i (0, 0, 0))).Nodup
    ∧ idxDict S u gs = (List.range gs.length).map fun i => (hash S u (gs.getD i (0, 0, 0)), i) := by
  have hn : ((List.range gs.length).map fun i => hash S u (gs.getD i (0, 0, 0))).Nodup := by
    have e : ((List.range gs.length).map fun i => hash S u (gs.getD i (0, 0, 0))) = gs.map (hash S u) := by
      apply List.ext_getElem
      · simp
      · intro i h1 h2
        simp only [List.getElem_map, List.getElem_range]
        rw [List.getD_eq_getElem _ _ (by simpa using h2)]
    rw [e]
    unfold List.Nodup
    rw [List.pairwise_map]
    refine hg.imp fun {a b} h he => h ?_
    rw [hash_eq_iff S hS] at he
    obtain ⟨h1, h2, h3⟩ := he
    unfold addG at h1 h2 h3
    exact ⟨by simpa using h1, by simpa using h2, by simpa using h3⟩
  refine ⟨hn, ?_⟩
  unfold idxDict
  rw [foldl_dictSet (List.range gs.length) (fun i => hash S u (gs.getD i (0, 0, 0))) hn [] (by simp)]
  simp

theorem dictGet_map {β : Type} (l : List β) (key : β → ℤ) (hn : (l.map key).Nodup) (k : ℤ) (f : β → ℂ) :
    (dictGet (l.map fun x => (key x, x)) k).elim 0 f = (l.map fun x => if k = key x then f x else 0).sum := by
  induction l with
  | nil => rfl
  | cons a t ih =>
    rw [List.map_cons, List.nodup_cons] at hn
    simp only [List.map_cons, dictGet, List.sum_cons]
    by_cases h : key a = k
    · subst h
      simp only [if_true, Option.elim]
      have : (t.map fun x => if key a = key x then f x else 0).sum = 0 := by
        apply List.sum_eq_zero
        intro y hy
        obtain ⟨x, hx, rfl⟩ := List.mem_map.1 hy
        rw [if_neg]
        intro he
        exact hn.1 (he ▸ List.mem_map_of_mem hx)
      rw [this, add_zero]
    · rw [if_neg h, if_neg (Ne.symm h), ih hn.2, zero_add]

open Classical in
/-- **C127 (overlaps).** For states on a common grid whose plane waves are distinct there, `overlap` returns the matrix
`Σ conj(c_G) c'_G'` over the pairs of plane waves with `G = G' + umklapp` *modulo the grid*. -/
theorem C127_overlap (S : Shape) (hS : S.Pos) (bra ket : KS) (gb gk : List GVec) (hb : gb.Pairwise fun a b => ¬ SameMod S a b)
    (hk : gk.Pairwise fun a b => ¬ SameMod S a b) (lb lk : List ℕ) (hlb : ∀ b ∈ lb, b < bra.nb) (hlk : ∀ b ∈ lk, b < ket.nb) (u : GVec) :
    ∃ M, overlap S bra ket gb gk (.many lb) (.many lk) u = .ok M
      ∧ ∀ a (ha : a < lb.length) b (hb : b < lk.length), M a b
        = ∑ i ∈ Finset.range gb.length, ∑ j ∈ Finset.range gk.length,
          if SameMod S (gb.getD i (0, 0, 0)) (addG (gk.getD j (0, 0, 0)) u) then conj (bra.evc lb[a] i) * ket.evc lk[b] j else 0 := by
  have h1 : Bands.ok bra.nb (.many lb) = true := by simpa [Bands.ok] using hlb
  have h2 : Bands.ok ket.nb (.many lk) = true := by simpa [Bands.ok] using hlk
  refine ⟨_, by unfold overlap; rw [if_neg (by simp [h1, h2])], ?_⟩
  intro a ha b hbb
  obtain ⟨hnk, hdk⟩ := idxDict_eq S hS u gk hk
  obtain ⟨-, hdb⟩ := idxDict_eq S hS (0, 0, 0) gb hb
  simp only [hdk, hdb, List.map_map]
  rw [DFTComm.list_sum_range]
  refine Finset.sum_congr rfl fun i _ => ?_
  simp only [Function.comp]
  refine Eq.trans ?_ ((dictGet_map (List.range gk.length) (fun j => hash S u (gk.getD j (0, 0, 0))) hnk (hash S (0, 0, 0) (gb.getD i (0, 0, 0)))
    fun j => conj (bra.evc (lb.getD a 0) i) * ket.evc (lk.getD b 0) j).trans ?_)
  · generalize dictGet (β := ℕ) (List.map (fun i => (hash S u (gk.getD i (0, 0, 0)), i)) (List.range gk.length)) (hash S (0, 0, 0) (gb.getD i (0, 0, 0))) = o
    cases o <;> rfl
  rw [DFTComm.list_sum_range]
  refine Finset.sum_congr rfl fun j _ => ?_
  rw [List.getD_eq_getElem lb 0 ha, List.getD_eq_getElem lk 0 hbb]
  have e : hash S (0, 0, 0) (gb.getD i (0, 0, 0)) = hash S u (gk.getD j (0, 0, 0))
      ↔ SameMod S (gb.getD i (0, 0, 0)) (addG (gk.getD j (0, 0, 0)) u) := by
    rw [hash_eq_iff S hS]
    unfold addG
    simp
  by_cases h : SameMod S (gb.getD i (0, 0, 0)) (addG (gk.getD j (0, 0, 0)) u)
  · rw [if_pos h, if_pos (e.2 h)]
  · rw [if_neg h, if_neg (fun h' => h (e.1 h'))]

/-- The pairs of plane waves are closer than the grid: nothing wraps. -/
def NoWrap (S : Shape) (gb gk : List GVec) (u : GVec) : Prop :=
  ∀ a ∈ gb, ∀ b ∈ gk, |a.1 - (b.1 + u.1)| < S.n1 ∧ |a.2.1 - (b.2.1 + u.2.1)| < S.n2 ∧ |a.2.2 - (b.2.2 + u.2.2)| < S.n3

/-- **C127 (exact).** If no difference of plane waves reaches the grid's dimension, the overlap is the inner product: the sum over
`G = G' + umklapp`. -/
theorem C127_exact (S : Shape) (hS : S.Pos) (bra ket : KS) (gb gk : List GVec) (hb : gb.Pairwise fun a b => ¬ SameMod S a b)
    (hk : gk.Pairwise fun a b => ¬ SameMod S a b) (lb lk : List ℕ) (hlb : ∀ b ∈ lb, b < bra.nb) (hlk : ∀ b ∈ lk, b < ket.nb) (u : GVec)
    (hw : NoWrap S gb gk u) :
    ∃ M, overlap S bra ket gb gk (.many lb) (.many lk) u = .ok M
      ∧ ∀ a (ha : a < lb.length) b (hb : b < lk.length), M a b
        = ∑ i ∈ Finset.range gb.length, ∑ j ∈ Finset.range gk.length,
          if gb.getD i (0, 0, 0) = addG (gk.getD j (0, 0, 0)) u then conj (bra.evc lb[a] i) * ket.evc lk[b] j else 0 := by
  obtain ⟨M, h1, h2⟩ := C127_overlap S hS bra ket gb gk hb hk lb lk hlb hlk u
  refine ⟨M, h1, ?_⟩
  intro a ha b hbb
  rw [h2 a ha b hbb]
  refine Finset.sum_congr rfl fun i hi => Finset.sum_congr rfl fun j hj => ?_
  have hi' := Finset.mem_range.1 hi
  have hj' := Finset.mem_range.1 hj
  have hm1 : gb.getD i (0, 0, 0) ∈ gb := by rw [List.getD_eq_getElem _ _ hi']; exact List.getElem_mem hi'
  have hm2 : gk.getD j (0, 0, 0) ∈ gk := by rw [List.getD_eq_getElem _ _ hj']; exact List.getElem_mem hj'
  obtain ⟨w1, w2, w3⟩ := hw _ hm1 _ hm2
  generalize gb.getD i (0, 0, 0) = x at *
  generalize gk.getD j (0, 0, 0) = y at *
  have e : SameMod S x (addG y u) ↔ x = addG y u := by
    constructor
    · rintro ⟨d1, d2, d3⟩
      unfold addG at d1 d2 d3 ⊢
      have z1 := Int.eq_zero_of_abs_lt_dvd d1 w1
      have z2 := Int.eq_zero_of_abs_lt_dvd d2 w2
      have z3 := Int.eq_zero_of_abs_lt_dvd d3 w3
      exact Prod.ext (by simpa using sub_eq_zero.1 z1) (Prod.ext (by simpa using sub_eq_zero.1 z2) (by simpa using sub_eq_zero.1 z3))
    · rintro rfl
      exact ⟨by simp, by simp, by simp⟩
  by_cases h : x = addG y u
  · rw [if_pos h, if_pos (e.2 h)]
  · rw [if_neg h, if_neg (fun h' => h (e.1 h'))]

/-- A state with one band and one plane wave. -/
def oneWave (nspin : ℕ) (c : ℕ → ℂ) : KS := ⟨1, nspin, 1, fun _ i => c i, fun _ => 1, fun _ => 0⟩

/-- **C127 (violated: wrapping).** With an umklapp vector that carries a plane wave out of the grid's box, the overlap counts plane waves with different
wave vectors: on a 3×3×3 grid `G = 1` and `G' - 1 = -2` are taken for equal. -/
theorem C127_wraps : ∃ M, overlap ⟨3, 3, 3⟩ (oneWave 1 fun _ => 1) (oneWave 1 fun _ => 1) [(1, 0, 0)] [(-1, 0, 0)] (.many [0]) (.many [0]) (-1, 0, 0)
    = .ok M ∧ M 0 0 = 1 := by
  obtain ⟨M, h1, h2⟩ := C127_overlap ⟨3, 3, 3⟩ ⟨by decide, by decide, by decide⟩ (oneWave 1 fun _ => 1) (oneWave 1 fun _ => 1)
    [(1, 0, 0)] [(-1, 0, 0)] (by simp) (by simp) [0] [0] (by simp [oneWave]) (by simp [oneWave]) (-1, 0, 0)
  refine ⟨M, h1, ?_⟩
  rw [h2 0 (by simp) 0 (by simp)]
  simp only [List.length_singleton, Finset.sum_range_one, List.getD_cons_zero]
  rw [if_pos]
  · simp [oneWave]
  · exact ⟨⟨1, rfl⟩, ⟨0, rfl⟩, ⟨0, rfl⟩⟩

/-- **C127 (violated: spinors).** For two spin components only the first one is summed: a normalised spinor pointing down has overlap 0 with itself. -/
theorem C127_spinor : ∃ M, overlap ⟨3, 3, 3⟩ (oneWave 2 fun i => if i = 1 then 1 else 0) (oneWave 2 fun i => if i = 1 then 1 else 0)
    [(0, 0, 0)] [(0, 0, 0)] (.many [0]) (.many [0]) (0, 0, 0) = .ok M ∧ M 0 0 = 0
    ∧ (oneWave 2 fun i => if i = 1 then 1 else 0).norm2 0 = 1 := by
  obtain ⟨M, h1, h2⟩ := C127_overlap ⟨3, 3, 3⟩ ⟨by decide, by decide, by decide⟩ (oneWave 2 fun i => if i = 1 then 1 else 0)
    (oneWave 2 fun i => if i = 1 then 1 else 0) [(0, 0, 0)] [(0, 0, 0)] (by simp) (by simp) [0] [0] (by simp [oneWave]) (by simp [oneWave]) (0, 0, 0)
  refine ⟨M, h1, ?_, ?_⟩
  · rw [h2 0 (by simp) 0 (by simp)]
    simp [oneWave]
  · unfold KS.norm2 KS.basis oneWave
    simp [Finset.sum_range_succ]

/-- **C127 (violated: single bands).** A band given as a number, which the interface announces, is always rejected with `TypeError`. -/
theorem C127_single_band (S : Shape) (bra ket : KS) (gb gk : List GVec) (b : ℕ) (hb : b < bra.nb) (kb : Bands) (hk : kb.ok ket.nb = true) (u : GVec) :
    overlap S bra ket gb gk (.one b) kb u = .error .type := by
  unfold overlap
  rw [if_neg (by rw [hk]; simp [Bands.ok, hb])]

/-- The hypotheses of `C127_exact` are met with three plane waves and an umklapp vector. -/
example : let gs : List GVec := [(0, 0, 0), (1, 0, 0), (-1, 0, 0)]
    (gs.Pairwise fun a b => ¬ SameMod ⟨5, 3, 3⟩ a b) ∧ NoWrap ⟨5, 3, 3⟩ gs gs (1, 0, 0) := by
  refine ⟨?_, ?_⟩
  · simp only [List.pairwise_cons, List.mem_cons, List.not_mem_nil, or_false, forall_eq_or_imp, forall_eq, SameMod]
    refine ⟨⟨by decide, by decide⟩, by decide, ?_, List.Pairwise.nil⟩
    intro a h
    exact absurd h (by simp)
  · unfold NoWrap
    decide

/-! ## C128 -/

/-- **C128 (occupied and empty bands).** Every band is listed exactly once, as occupied (`occ ≥ 1/2`) or as empty, in ascending order. -/
theorem C128_partition (K : KS) :
    (occupied K).Pairwise (· < ·) ∧ (empty K).Pairwise (· < ·)
    ∧ (occupied K ++ empty K).Perm (List.range K.nb)
    ∧ (∀ b, b ∈ occupied K ↔ b < K.nb ∧ 1 / 2 ≤ K.occ b) ∧ ∀ b, b ∈ empty K ↔ b < K.nb ∧ K.occ b < 1 / 2 := by
  have ho : ∀ b, b ∈ occupied K ↔ b < K.nb ∧ 1 / 2 ≤ K.occ b := by intro b; unfold occupied; simp
  have he : ∀ b, b ∈ empty K ↔ b < K.nb ∧ K.occ b < 1 / 2 := by intro b; unfold empty; simp
  have hr : (List.range K.nb).Pairwise (· < ·) := List.pairwise_lt_range
  refine ⟨?_, ?_, ?_, ho, he⟩
  · unfold occupied; exact hr.filter _
  · unfold empty; exact hr.filter _
  · rw [List.perm_ext_iff_of_nodup]
    · intro b
      rw [List.mem_append, ho, he, List.mem_range]
      constructor
      · rintro (h | h) <;> exact h.1
      · intro h
        rcases le_or_gt (1 / 2) (K.occ b) with h' | h'
        · exact Or.inl ⟨h, h'⟩
        · exact Or.inr ⟨h, h'⟩
    · rw [List.nodup_append]
      refine ⟨?_, ?_, ?_⟩
      · unfold occupied; exact List.nodup_range.filter _
      · unfold empty; exact List.nodup_range.filter _
      · intro a ha b hb hab
        rw [ho] at ha
        rw [he, ← hab] at hb
        linarith [ha.2, hb.2]
    · exact List.nodup_range

/-! ## C129 -/

theorem interleaved_ok (l : List (ℝ × ℝ)) : interleaved (l.flatMap fun p => [p.1, p.2]) = .ok (l.map fun p => (⟨p.1, p.2⟩ : ℂ)) := by
  induction l with
  | nil => rfl
  | cons a t ih => simp [interleaved, ih]

theorem find_pos (gs : List GVec) (hn : gs.Nodup) (p : ℕ) (hp : p < gs.length) :
    (List.range gs.length).find? (fun q => decide (gs.getD q (0, 0, 0) = gs[p])) = some p := by
  rw [List.find?_eq_some_iff_getElem]
  refine ⟨by rw [List.getD_eq_getElem _ _ hp]; simp, p, by simpa using hp, by simp, ?_⟩
  intro j hj
  have hj' : j < gs.length := by omega
  simp only [List.getElem_range, Bool.not_eq_true', decide_eq_false_iff_not]
  rw [List.getD_eq_getElem _ _ hj']
  intro he
  have := (List.Nodup.getElem_inj_iff hn).1 he
  omega

theorem place_ok (gs : List GVec) (hn : gs.Nodup) (col : ℕ → ℕ → ℂ) (ms : List GVec) (hm : ∀ g ∈ ms, g ∈ gs) (hmn : ms.Nodup) (i0 : ℕ)
    (data : ℕ → ℕ → ℂ) :
    ∃ out, place gs col ms i0 data = .ok out
      ∧ (∀ b p, (∀ (h : p < gs.length), gs[p] ∉ ms) → out b p = data b p)
      ∧ ∀ b i (hi : i < ms.length) p (hp : p < gs.length), gs[p] = ms[i] → out b p = col b (i0 + i) := by
  induction ms generalizing i0 data with
  | nil => exact ⟨data, rfl, fun _ _ _ => rfl, fun _ i hi => absurd hi (by simp)⟩
  | cons g t ih =>
    rw [List.nodup_cons] at hmn
    obtain ⟨p0, hp0, hg⟩ := List.mem_iff_getElem.1 (hm g (by simp))
    obtain ⟨out, h1, h2, h3⟩ := ih (fun x hx => hm x (by simp [hx])) hmn.2 (i0 + 1) (fun b q => if q = p0 then col b i0 else data b q)
    have hfind := find_pos gs hn p0 hp0
    rw [hg] at hfind
    refine ⟨out, by simp only [place, hfind, h1], ?_, ?_⟩
    · intro b p hp
      have hpp : p ≠ p0 := by
        rintro rfl
        exact hp hp0 (by rw [hg]; simp)
      rw [h2 b p fun h => fun hmem => hp h (by simp [hmem]), if_neg hpp]
    · intro b i hi p hp he
      cases i with
      | zero =>
        rw [List.getElem_cons_zero] at he
        have hpp : p = p0 := (List.Nodup.getElem_inj_iff hn).1 (he.trans hg.symm)
        subst hpp
        rw [h2 b p (fun h hmem => hmn.1 (by rw [← he]; exact hmem)), if_pos rfl, add_zero]
      | succ i =>
        rw [List.getElem_cons_succ] at he
        rw [h3 b i (by simpa using hi) p hp he]
        congr 1
        omega

/-- A file: one list of complex coefficients (given by real and imaginary parts) per band. -/
def fileRows (cs : List (List (ℝ × ℝ))) : List (List ℝ) := cs.map fun r => r.flatMap fun p => [p.1, p.2]

theorem rows_ok (cs : List (List (ℝ × ℝ))) :
    (fileRows cs).mapM interleaved = .ok (cs.map fun r => r.map fun p => (⟨p.1, p.2⟩ : ℂ)) := by
  unfold fileRows
  induction cs with
  | nil => rfl
  | cons r t ih =>
    simp only [List.map_cons, List.mapM_cons, bind, Except.bind, pure, Except.pure]
    rw [interleaved_ok, ih]

theorem load_rows (N : ℕ) (hN : 0 < N) (gs : List GVec) (hgs : gs.Nodup) (K : KS) (hK : K.numg = gs.length) (hsp : K.nspin = 1)
    (miller : List GVec) (hm : miller.Perm gs) (cs : List (List (ℝ × ℝ))) (hcs : cs.length = K.nb ∨ cs.length = 1) (hlen : ∀ r ∈ cs, r.length = miller.length) :
    ∃ K', initHdf5 N gs K miller (fileRows cs) none = .ok K' ∧ K'.nb = K.nb ∧ K'.occ = K.occ
      ∧ ∀ b j (hj : j < cs.length), (j = if cs.length = 1 then 0 else b) → (∃ p ∈ cs[j], p ≠ (0, 0)) → K'.norm2 b = 1
        ∧ ∃ x : ℝ, 0 < x ∧ ∀ i (hi : i < miller.length) p (hp : p < gs.length), gs[p] = miller[i] →
          K'.evc b p = x * (⟨(cs[j].getD i (0, 0)).1, (cs[j].getD i (0, 0)).2⟩ : ℂ) := by
  have hmn : miller.Nodup := hm.nodup_iff.2 hgs
  obtain ⟨C, hC⟩ : ∃ C, C = cs.map fun r => r.map fun p => (⟨p.1, p.2⟩ : ℂ) := ⟨_, rfl⟩
  have hCl : C.length = cs.length := by rw [hC, List.length_map]
  obtain ⟨col, hcol⟩ : ∃ col : ℕ → ℕ → ℂ, col = fun b i => (N : ℂ) * (C.getD (if C.length = 1 then 0 else b) []).getD i 0 := ⟨_, rfl⟩
  obtain ⟨out, h1, h2, h3⟩ := place_ok gs hgs col miller (fun g hg => hm.mem_iff.1 hg) hmn 0 K.evc
  have hany : ((C.map List.length).any fun n => decide (n < miller.length)) = false := by
    rw [List.any_eq_false]
    intro n hn
    rw [hC, List.map_map] at hn
    obtain ⟨r, hr, rfl⟩ := List.mem_map.1 hn
    have := hlen r hr
    simp [Function.comp, this]
  have hrun : initHdf5 N gs K miller (fileRows cs) none = .ok ({ K with evc := out, evl := K.evl }.normalize fun _ => true) := by
    unfold initHdf5
    simp only [rows_ok, ← hC]
    rw [if_neg (by rw [hK, hm.length_eq]; simp), if_neg (by rw [hCl]; rcases hcs with h | h <;> simp [h]), hany]
    simp only [Bool.false_eq_true, if_false, ← hcol, h1]
  refine ⟨_, hrun, rfl, rfl, ?_⟩
  intro b j hb hj hne
  have hcolb : ∀ i (hi : i < miller.length), col b i = (N : ℂ) * (⟨(cs[j].getD i (0, 0)).1, (cs[j].getD i (0, 0)).2⟩ : ℂ) := by
    intro i hi
    have hbsel : (if C.length = 1 then 0 else b) = j := by rw [hCl]; exact hj.symm
    have hbl : i < cs[j].length := by rw [hlen _ (List.getElem_mem hb)]; exact hi
    rw [hcol]
    simp only [hbsel]
    rw [hC, List.getD_eq_getElem (l := List.map _ cs) (n := j) _ (by simpa using hb), List.getElem_map, List.getD_eq_getElem _ _ (by rw [List.length_map]; exact hbl), List.getElem_map,
      List.getD_eq_getElem _ _ hbl]
  -- the norm before normalisation
  set K1 : KS := { K with evc := out, evl := K.evl } with hK1
  have hbasis : K1.basis = gs.length := by
    show K.nspin * K.numg = _
    rw [hsp, one_mul, hK]
  have hpos : 0 < K1.norm2 b := by
    obtain ⟨c, hc, hc0⟩ := hne
    obtain ⟨i, hi, hic⟩ := List.mem_iff_getElem.1 hc
    have hil : i < miller.length := by rw [← hlen _ (List.getElem_mem hb)]; exact hi
    obtain ⟨p, hp, hpe⟩ := List.mem_iff_getElem.1 (hm.mem_iff.1 (List.getElem_mem hil))
    unfold KS.norm2
    rw [hbasis]
    refine Finset.sum_pos' (fun _ _ => Complex.normSq_nonneg _) ⟨p, Finset.mem_range.2 hp, ?_⟩
    show 0 < Complex.normSq (out b p)
    rw [h3 b i hil p hp hpe, zero_add, hcolb i hil, Complex.normSq_pos]
    refine mul_ne_zero (by exact_mod_cast hN.ne') ?_
    rw [List.getD_eq_getElem _ _ hi, hic]
    intro h0
    apply hc0
    have hre := congrArg Complex.re h0
    have him := congrArg Complex.im h0
    exact Prod.ext (by simpa using hre) (by simpa using him)
  have hs : (0 : ℝ) < Real.sqrt (K1.norm2 b) := Real.sqrt_pos.2 hpos
  have hevc : ∀ p, (K1.normalize fun _ => true).evc b p = out b p / (Real.sqrt (K1.norm2 b) : ℂ) := fun p => by
    unfold KS.normalize
    simp [hK1]
  refine ⟨?_, N / Real.sqrt (K1.norm2 b), by positivity, ?_⟩
  · have e : ∀ p, Complex.normSq ((K1.normalize fun _ => true).evc b p) = Complex.normSq (out b p) / K1.norm2 b := by
      intro p
      rw [hevc, Complex.normSq_div, Complex.normSq_ofReal, Real.mul_self_sqrt hpos.le]
    show ∑ i ∈ Finset.range K1.basis, _ = _
    simp only [e]
    rw [← Finset.sum_div]
    exact div_self hpos.ne'
  · intro i hi p hp he
    rw [hevc, h3 b i hi p hp he, zero_add, hcolb i hi]
    push_cast
    ring

/-- **C129 (reading a file).** For a state with one spin component and a file that lists the same plane waves (in any order) for the same number of bands:
afterwards the coefficient of each plane wave is a positive multiple — the same for the whole band — of the file's coefficient of that plane
wave, and every band with a non-zero coefficient in the file is normalised. -/
theorem C129_load (N : ℕ) (hN : 0 < N) (gs : List GVec) (hgs : gs.Nodup) (K : KS) (hK : K.numg = gs.length) (hsp : K.nspin = 1)
    (miller : List GVec) (hm : miller.Perm gs) (cs : List (List (ℝ × ℝ))) (hcs : cs.length = K.nb) (hlen : ∀ r ∈ cs, r.length = miller.length) :
    ∃ K', initHdf5 N gs K miller (fileRows cs) none = .ok K' ∧ K'.nb = K.nb ∧ K'.occ = K.occ
      ∧ ∀ b (hb : b < cs.length), (∃ p ∈ cs[b], p ≠ (0, 0)) → K'.norm2 b = 1
        ∧ ∃ x : ℝ, 0 < x ∧ ∀ i (hi : i < miller.length) p (hp : p < gs.length), gs[p] = miller[i] →
          K'.evc b p = x * (⟨(cs[b].getD i (0, 0)).1, (cs[b].getD i (0, 0)).2⟩ : ℂ) := by
  obtain ⟨K', h1, h2, h3, h4⟩ := load_rows N hN gs hgs K hK hsp miller hm cs (.inl hcs) hlen
  refine ⟨K', h1, h2, h3, fun b hb hne => h4 b b hb ?_ hne⟩
  split_ifs with h
  · omega
  · rfl

/-- **C129 (one row).** A file with a single row of coefficients is accepted whatever the number of bands, and every band is that row, normalised. -/
theorem C129_broadcast (N : ℕ) (hN : 0 < N) (gs : List GVec) (hgs : gs.Nodup) (K : KS) (hK : K.numg = gs.length) (hsp : K.nspin = 1)
    (miller : List GVec) (hm : miller.Perm gs) (r : List (ℝ × ℝ)) (hlen : r.length = miller.length) :
    ∃ K', initHdf5 N gs K miller (fileRows [r]) none = .ok K' ∧ K'.nb = K.nb ∧ K'.occ = K.occ
      ∧ ∀ b, (∃ p ∈ r, p ≠ (0, 0)) → K'.norm2 b = 1
        ∧ ∃ x : ℝ, 0 < x ∧ ∀ i (hi : i < miller.length) p (hp : p < gs.length), gs[p] = miller[i] →
          K'.evc b p = x * (⟨(r.getD i (0, 0)).1, (r.getD i (0, 0)).2⟩ : ℂ) := by
  obtain ⟨K', h1, h2, h3, h4⟩ := load_rows N hN gs hgs K hK hsp miller hm [r] (.inr rfl) (by simpa using hlen)
  exact ⟨K', h1, h2, h3, fun b hne => h4 b 0 (by simp) (by simp) hne⟩

/-- **C129 (wrong number of bands).** Any other number of rows is rejected with `ValueError`. -/
theorem C129_wrong_bands (N : ℕ) (gs : List GVec) (K : KS) (miller : List GVec) (hm : miller ≠ []) (cs : List (List (ℝ × ℝ))) (h : cs.length ≠ K.nb) (h1 : cs.length ≠ 1) :
    initHdf5 N gs K miller (fileRows cs) none = .error .value := by
  unfold initHdf5
  simp only [rows_ok, List.length_map]
  split
  · rfl
  · rw [if_pos ⟨hm, h, h1⟩]

/-- **C129 (wrong size).** A file with another number of plane waves is rejected with `ValueError`. -/
theorem C129_wrong_size (N : ℕ) (gs : List GVec) (K : KS) (miller : List GVec) (cs : List (List (ℝ × ℝ))) (h : K.numg ≠ miller.length) :
    initHdf5 N gs K miller (fileRows cs) none = .error .value := by
  unfold initHdf5
  simp only [rows_ok, if_pos h]

theorem place_missing (gs : List GVec) (col : ℕ → ℕ → ℂ) (ms : List GVec) (h : ∃ g ∈ ms, g ∉ gs) (i : ℕ) (data : ℕ → ℕ → ℂ) :
    place gs col ms i data = .error .index := by
  induction ms generalizing i data with
  | nil => simp at h
  | cons g t ih =>
    simp only [place]
    cases hf : (List.range gs.length).find? (fun p => decide (gs.getD p (0, 0, 0) = g)) with
    | none => rfl
    | some p =>
      simp only
      apply ih
      obtain ⟨x, hx, hxn⟩ := h
      rcases List.mem_cons.1 hx with rfl | hx
      · have h1 := List.find?_some hf
        have h2 := List.mem_range.1 (List.mem_of_find?_eq_some hf)
        simp only [decide_eq_true_eq] at h1
        rw [List.getD_eq_getElem _ _ h2] at h1
        exact absurd (h1 ▸ List.getElem_mem h2) hxn
      · exact ⟨x, hx, hxn⟩

/-- **C129 (violated: foreign plane waves).** A file with a plane wave that is not in the basis is not rejected with the announced `ValueError` but fails
with `IndexError` while copying. -/
theorem C129_foreign (N : ℕ) (gs : List GVec) (K : KS) (miller : List GVec) (hK : K.numg = miller.length) (cs : List (List (ℝ × ℝ)))
    (hcs : cs.length = K.nb) (hlen : ∀ r ∈ cs, r.length = miller.length) (h : ∃ g ∈ miller, g ∉ gs) :
    initHdf5 N gs K miller (fileRows cs) none = .error .index := by
  unfold initHdf5
  simp only [rows_ok]
  rw [if_neg (by rw [hK]; simp), if_neg (by rw [List.length_map, hcs]; simp)]
  by_cases hs : ((cs.map fun r => r.map fun p => (⟨p.1, p.2⟩ : ℂ)).map List.length).any (fun n => decide (n < miller.length)) = true
  · simp only [hs, if_true]
  · simp only [hs, Bool.false_eq_true, if_false, place_missing gs _ miller h]

/-- **C129 (violated: repeated plane waves).** A file that lists a plane wave twice and leaves another one out is accepted; the result contains what
happened to be in memory. -/
theorem C129_repeated : ∃ (gs miller : List GVec) (cs : List (List (ℝ × ℝ))) (K1 K2 : KS) (K1' K2' : KS), gs.Nodup
    ∧ K1 = { K2 with evc := K1.evc } ∧ initHdf5 1 gs K1 miller (fileRows cs) none = .ok K1'
    ∧ initHdf5 1 gs K2 miller (fileRows cs) none = .ok K2' ∧ K1'.evc 0 1 ≠ K2'.evc 0 1 := by
  let mk : ℂ → KS := fun z => ⟨1, 1, 2, fun _ _ => z, fun _ => 1, fun _ => 0⟩
  have run : ∀ z : ℂ, initHdf5 1 [(0, 0, 0), (1, 0, 0)] (mk z) [(0, 0, 0), (0, 0, 0)] (fileRows [[(1, 0), (1, 0)]]) none
      = .ok ({ mk z with evc := fun _ q => if q = 0 then 1 else z }.normalize fun _ => true) := by
    intro z
    unfold initHdf5
    simp only [rows_ok]
    simp [mk, place, List.range_succ]
    congr 2
    funext b q
    by_cases h : q = 0
    · simp [h]
      exact Complex.ext rfl rfl
    · simp [h]
  refine ⟨[(0, 0, 0), (1, 0, 0)], [(0, 0, 0), (0, 0, 0)], [[(1, 0), (1, 0)]], mk 0, mk 1, _, _, by decide, rfl, run 0, run 1, ?_⟩
  unfold KS.normalize
  simp only [if_true, if_neg (by decide : ¬ (1 : ℕ) = 0)]
  intro h
  have hne : (Real.sqrt (KS.norm2 { mk 1 with evc := fun _ q => if q = 0 then 1 else 1 } 0) : ℂ) ≠ 0 := by
    rw [Ne, Complex.ofReal_eq_zero]
    apply ne_of_gt
    apply Real.sqrt_pos.2
    unfold KS.norm2 KS.basis
    simp [mk]
  rw [zero_div] at h
  exact (div_ne_zero one_ne_zero hne) h.symm

/-! ## C130 -/

theorem density_sum (drv : Driver) (d : Dims) (idx : List ℕ) (hv : FFT.ValidIdx d idx) (st : DrvState ℂ) (K : KS) (hK : K.numg = idx.length)
    (b s : ℕ) : ∑ r ∈ Finset.range d.size, density drv d idx st K b s r
      = (d.size : ℂ) * ((∑ i ∈ Finset.range K.numg, Complex.normSq (K.evc b (s * K.numg + i)) : ℝ) : ℂ) := by
  unfold density
  have := FFT.C57_parseval drv d false idx hv st ((List.range K.numg).map fun i => K.evc b (s * K.numg + i))
    ((List.range K.numg).map fun i => K.evc b (s * K.numg + i)) (by simp [hK]) (by simp [hK])
  simp only at this ⊢
  rw [this]
  simp only [Bool.false_eq_true, if_false]
  congr 1
  rw [List.zip_map', List.map_map, DFTComm.list_sum_range]
  push_cast
  refine Finset.sum_congr rfl fun i _ => ?_
  simp only [Function.comp]
  exact (Complex.normSq_eq_conj_mul_self).symm

/-- Charge of a density: its integral over the unit cell, summed over the spin components. -/
noncomputable def charge (d : Dims) (vol : ℝ) (nspin : ℕ) (rho : ℕ → ℕ → ℂ) : ℂ :=
  ∑ s ∈ Finset.range nspin, ∑ r ∈ Finset.range d.size, rho s r * ((vol / d.size : ℝ) : ℂ)

theorem charge_formula (drv : Driver) (d : Dims) (hd : 0 < d.size) (idx : List ℕ) (hv : FFT.ValidIdx d idx) (st : DrvState ℂ) (vol : ℝ)
    (hvol : vol ≠ 0) (K : KS) (hK : K.numg = idx.length) (occ : ℕ → ℝ) (bands : List ℕ) :
    charge d vol K.nspin (fun s r => (bands.map fun b => (occ b : ℂ) * density drv d idx st K b s r).sum / (vol : ℂ))
      = ((bands.map fun b => occ b * K.norm2 b).sum : ℝ) := by
  have hd' : (d.size : ℂ) ≠ 0 := by exact_mod_cast hd.ne'
  have hv' : (vol : ℂ) ≠ 0 := by exact_mod_cast hvol
  unfold charge
  induction bands with
  | nil => simp
  | cons b t ih =>
    simp only [List.map_cons, List.sum_cons]
    push_cast at ih ⊢
    rw [← ih]
    simp only [add_div, add_mul, Finset.sum_add_distrib]
    congr 1
    have e : ∀ s ∈ Finset.range K.nspin, ∑ r ∈ Finset.range d.size, (occ b : ℂ) * density drv d idx st K b s r / (vol : ℂ) * ((vol : ℂ) / (d.size : ℂ))
        = (occ b : ℂ) * ((∑ i ∈ Finset.range K.numg, Complex.normSq (K.evc b (s * K.numg + i)) : ℝ) : ℂ) := by
      intro s _
      have : ∀ r ∈ Finset.range d.size, (occ b : ℂ) * density drv d idx st K b s r / (vol : ℂ) * ((vol : ℂ) / (d.size : ℂ))
          = (occ b : ℂ) / (d.size : ℂ) * density drv d idx st K b s r := by
        intro r _
        field_simp
      rw [Finset.sum_congr rfl this, ← Finset.mul_sum, density_sum drv d idx hv st K hK]
      field_simp
    rw [Finset.sum_congr rfl e, ← Finset.mul_sum, ← Complex.ofReal_sum]
    congr 2
    unfold KS.norm2 KS.basis
    rw [DFTComm.sum_range_mul]

theorem norm2_normalize (K : KS) (sel : ℕ → Bool) (b : ℕ) (hb : sel b = true) (h : K.norm2 b ≠ 0) : (K.normalize sel).norm2 b = 1 := by
  have h0 : 0 ≤ K.norm2 b := Finset.sum_nonneg fun _ _ => Complex.normSq_nonneg _
  have e : ∀ i, Complex.normSq ((K.normalize sel).evc b i) = Complex.normSq (K.evc b i) / K.norm2 b := by
    intro i
    show Complex.normSq (if sel b = true then _ else _) = _
    rw [if_pos hb, Complex.normSq_div, Complex.normSq_ofReal, Real.mul_self_sqrt h0]
  show ∑ i ∈ Finset.range K.basis, _ = _
  simp only [e]
  rw [← Finset.sum_div]
  exact div_self h

/-- **C130 (charge).** For a slice of bands with non-zero states, the density integrates to the sum of their occupations, whatever the norms of the states
were; afterwards exactly these states are normalised, the others untouched. -/
theorem C130_charge_slice (drv : Driver) (d : Dims) (hd : 0 < d.size) (idx : List ℕ) (hv : FFT.ValidIdx d idx) (st : DrvState ℂ) (vol : ℝ)
    (hvol : vol ≠ 0) (K : KS) (hK : K.numg = idx.length) (a b : ℕ) (hne : pySlice (List.range K.nb) a b ≠ [])
    (hn : ∀ x ∈ pySlice (List.range K.nb) a b, K.norm2 x ≠ 0) :
    ∃ K' rho, computeRho drv d idx st vol K (.slice a b) = .ok (K', rho)
      ∧ charge d vol K.nspin rho = (((pySlice (List.range K.nb) a b).map K.occ).sum : ℝ)
      ∧ (∀ x ∈ pySlice (List.range K.nb) a b, K'.norm2 x = 1)
      ∧ ∀ x, x ∉ pySlice (List.range K.nb) a b → K'.evc x = K.evc x := by
  set bands := pySlice (List.range K.nb) a b with hbands
  have hall : bands.all (fun b => decide (b < K.nb)) = true := by
    rw [List.all_eq_true]
    intro x hx
    rw [hbands] at hx
    have := List.mem_range.1 (List.mem_of_mem_drop (List.mem_of_mem_take hx))
    simpa using this
  set K' := K.normalize fun b => decide (b ∈ bands) with hK'
  have hone : ∀ x ∈ bands, K'.norm2 x = 1 := fun x hx => norm2_normalize K _ x (by simpa using hx) (hn x hx)
  refine ⟨K', fun s r => (bands.map fun b => (K.occ b : ℂ) * density drv d idx st K' b s r).sum / (vol : ℂ), ?_, ?_, hone, ?_⟩
  · unfold computeRho
    simp only [Sel.bands, ← hbands, hall]
    rw [if_neg (by simp), if_neg hne]
  · have hf := charge_formula drv d hd idx hv st vol hvol K' hK K.occ bands
    have : K'.nspin = K.nspin := rfl
    rw [this] at hf
    rw [hf]
    congr 2
    refine List.map_congr_left fun x hx => ?_
    rw [hone x hx, mul_one]
  · intro x hx
    funext i
    show (if decide (x ∈ bands) = true then _ else _) = _
    rw [if_neg (by simpa using hx)]

/-- **C130 (lists of bands).** For a list of bands nothing is normalised: the density integrates to `Σ occ ‖c‖²`, and the states stay as they were. -/
theorem C130_charge_list (drv : Driver) (d : Dims) (hd : 0 < d.size) (idx : List ℕ) (hv : FFT.ValidIdx d idx) (st : DrvState ℂ) (vol : ℝ)
    (hvol : vol ≠ 0) (K : KS) (hK : K.numg = idx.length) (l : List ℕ) (hne : l ≠ []) (hl : ∀ b ∈ l, b < K.nb) :
    ∃ rho, computeRho drv d idx st vol K (.index l) = .ok (K, rho)
      ∧ charge d vol K.nspin rho = ((l.map fun b => K.occ b * K.norm2 b).sum : ℝ) := by
  have hall : l.all (fun b => decide (b < K.nb)) = true := by
    rw [List.all_eq_true]
    intro x hx
    simpa using hl x hx
  refine ⟨fun s r => (l.map fun b => (K.occ b : ℂ) * density drv d idx st K b s r).sum / (vol : ℂ), ?_, charge_formula drv d hd idx hv st vol hvol K hK _ _⟩
  unfold computeRho
  simp only [Sel.bands, hall, Bool.true_eq_false, if_false, hne]

/-- **C130 (violated: lists of bands).** A state of norm 2 and occupation 1, selected by a list, gives the charge 4. -/
theorem C130_list_violated : ∃ (d : Dims) (idx : List ℕ) (K : KS), FFT.ValidIdx d idx ∧ K.numg = idx.length ∧ ∀ drv st,
    ∃ rho, computeRho drv d idx st 1 K (.index [0]) = .ok (K, rho) ∧ charge d 1 K.nspin rho = 4 ∧ K.occ 0 = 1 := by
  refine ⟨⟨1, 1, 1⟩, [0], ⟨1, 1, 1, fun _ _ => 2, fun _ => 1, fun _ => 0⟩, ⟨by simp, by simp [Dims.size]⟩, rfl, ?_⟩
  intro drv st
  obtain ⟨rho, h1, h2⟩ := C130_charge_list drv ⟨1, 1, 1⟩ (by decide) [0] ⟨by simp, by simp [Dims.size]⟩ st 1 one_ne_zero
    ⟨1, 1, 1, fun _ _ => 2, fun _ => 1, fun _ => 0⟩ rfl [0] (by simp) (by simp)
  refine ⟨rho, h1, ?_, rfl⟩
  rw [h2]
  simp [KS.norm2, KS.basis, Complex.normSq_apply]
  norm_num

/-- **C130 (no bands).** A process without bands cannot compute its (zero) share of the density: `AttributeError`. -/
theorem C130_no_bands (drv : Driver) (d : Dims) (idx : List ℕ) (st : DrvState ℂ) (vol : ℝ) (K : KS) (a : ℕ) :
    computeRho drv d idx st vol K (.slice a a) = .error .attribute := by
  unfold computeRho
  simp [Sel.bands, pySlice]

/-- **C130 (repeated calls).** After a call with a slice, a second call with the same slice gives the same density and changes nothing. -/
theorem C130_repeat (drv : Driver) (d : Dims) (idx : List ℕ) (st st' : DrvState ℂ) (hv : FFT.ValidIdx d idx) (vol : ℝ) (K K' : KS)
    (hK : K.numg = idx.length) (rho : ℕ → ℕ → ℂ) (a b : ℕ) (hn : ∀ x ∈ pySlice (List.range K.nb) a b, K.norm2 x ≠ 0)
    (h : computeRho drv d idx st vol K (.slice a b) = .ok (K', rho)) :
    ∃ rho', computeRho drv d idx st' vol K' (.slice a b) = .ok (K', rho') ∧ ∀ s, ∀ r < d.size, rho' s r = rho s r := by
  unfold computeRho at h ⊢
  simp only [Sel.bands] at h ⊢
  by_cases h1 : ((pySlice (List.range K.nb) a b).all fun b => decide (b < K.nb)) = false
  · simp only [h1, if_true] at h
    cases h
  by_cases h2 : pySlice (List.range K.nb) a b = []
  · simp only [h1, h2, if_true, if_false] at h
    cases h
  simp only [h1, h2, if_false] at h
  obtain ⟨hk, hr⟩ := Prod.mk.inj (Except.ok.inj h)
  have hnb : K'.nb = K.nb := by rw [← hk]; rfl
  have hocc : K'.occ = K.occ := by rw [← hk]; rfl
  have hone : ∀ x ∈ pySlice (List.range K.nb) a b, K'.norm2 x = 1 := by
    intro x hx
    rw [← hk]
    exact norm2_normalize K _ x (decide_eq_true hx) (hn x hx)
  have hsame : (K'.normalize fun x => decide (x ∈ pySlice (List.range K.nb) a b)) = K' := by
    have : (K'.normalize fun x => decide (x ∈ pySlice (List.range K.nb) a b)).evc = K'.evc := by
      funext x i
      show (if _ then _ else _) = _
      split_ifs with hx
      · rw [hone x (by simpa using hx), Real.sqrt_one, Complex.ofReal_one, div_one]
      · rfl
    unfold KS.normalize at this ⊢
    simp only at this
    rw [this]
  simp only [hnb, h1, h2, if_false, hsame]
  refine ⟨_, rfl, ?_⟩
  intro s r hrr
  rw [← hr, hocc, hk]
  simp only
  congr 1
  congr 1
  refine List.map_congr_left fun x hx => ?_
  congr 1
  unfold density
  simp only
  have hgl : K'.numg = idx.length := by rw [← hk]; exact hK
  have e := (FFT.Driver.g2r_eq drv d (FFT.dftKern false d) false idx hv st' st.f
    ((List.range K'.numg).map fun i => K'.evc x (s * K'.numg + i)) (by simp [hgl]) r hrr).trans
    (FFT.Driver.g2r_eq drv d (FFT.dftKern false d) false idx hv st st.f
      ((List.range K'.numg).map fun i => K'.evc x (s * K'.numg + i)) (by simp [hgl]) r hrr).symm
  rw [e]

end Verif.KSWfn
