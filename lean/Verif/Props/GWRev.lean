import Verif.Props.GWOrder
import Mathlib.LinearAlgebra.Matrix.NonsingularInverse

/-!
# Property C225: GW quantities at `q` and `-q`
-/

namespace Verif.GW

open Verif
open Verif.Lattice (Vec)
open Verif.GSpace (GVec Shape inBounds)
open Verif.FFT (Driver DrvState)
open scoped ComplexConjugate

/-! ## Specification -/

/-- `-g - n` -/
def mirror (n : Fin 3 → ℤ) (g : GVec) : GVec := (-g.1 - n 0, -g.2.1 - n 1, -g.2.2 - n 2)

/-- The time-reversed states: `w` belongs to `k`, `w'` to `n - k`, and the coefficient of `w'` at `k' + G' = -(k + G)` is the complex conjugate of that of `w` at `k + G`; energies and occupations are the same. The plane waves may be listed in any order. -/
structure TimeReversed (n : Fin 3 → ℤ) (w w' : Wfn) : Prop where
  waves : ∃ e : Fin w'.gs.length ≃ Fin w.gs.length, ∀ a : Fin w'.gs.length, w'.gs[a] = mirror n w.gs[e a] ∧ ∀ b, w'.evc b a = conj (w.evc b (e a))
  evl : w'.evl = w.evl
  occ : w'.occ = w.occ

/-- `E'` is the calculation at `m - q` if `E` is that at `q`: its k-point number `k` is `n k` (integers) minus the k-point number `p k` of `E`, with the time-reversed states, and its G-vector number `l` is minus number `s l` of `E`, less `m`.
Pairs of k-points that belong together have mirror images that do. -/
structure EpsIn.Reversed (E E' : EpsIn) (p s : ℕ → ℕ) (n : ℕ → Fin 3 → ℤ) (m : Fin 3 → ℤ) : Prop where
  num : E'.ks.length = E.ks.length
  maps : ∀ k < E.ks.length, p k < E.ks.length
  inj : ∀ k < E.ks.length, ∀ k' < E.ks.length, p k = p k' → k = k'
  k : ∀ k < E.ks.length, ∀ c, E'.ks.getD k 0 c = n k c - E.ks.getD (p k) 0 c
  q : ∀ c, E'.qadd c = m c - E.qadd c
  wfn : ∀ k < E.ks.length, TimeReversed (n k) (E.wfn.getD (p k) default) (E'.wfn.getD k default)
  val : ∀ k < E.ks.length, TimeReversed (n k) (E.val.getD (p k) default) (E'.val.getD k default)
  gq : E'.gq.length = E.gq.length
  smaps : ∀ l < E.gq.length, s l < E.gq.length
  g : ∀ l < E.gq.length, E'.gq.getD l (0, 0, 0) = mirror m (E.gq.getD (s l) (0, 0, 0))
  shape : E'.shape = E.shape
  nbands : E'.nbands = E.nbands
  vol : E'.vol = E.vol
  pair : ∀ kc < E.ks.length, ∀ kv < E.ks.length, IsClose (E'.ks.getD kv 0) (kPlusQ (E'.ks.getD kc 0) E'.qadd) ↔ IsClose (E.ks.getD (p kv) 0) (kPlusQ (E.ks.getD (p kc) 0) E.qadd)

/-- The k-points are in the cell, and `k' - k - q` is an integer vector, or a thousandth away from one. -/
structure EpsIn.Mesh (E : EpsIn) : Prop where
  cell : ∀ k < E.ks.length, ∀ c, 0 ≤ E.ks.getD k 0 c ∧ E.ks.getD k 0 c ≤ 1 - 1 / 1000
  apart : ∀ kc < E.ks.length, ∀ kv < E.ks.length, ∀ c, ∀ z : ℤ, E.ks.getD kv 0 c - E.ks.getD kc 0 c - E.qadd c = z ∨ 1 / 1000 ≤ |E.ks.getD kv 0 c - E.ks.getD kc 0 c - E.qadd c - z|

/-! ## Lemmas -/

theorem mirror_freq (s : Shape) (n n' : Fin 3 → ℤ) (a b X : GVec) :
    SameFreq s ((mirror n a).1 + (mirror (fun c => n' c - n c) X).1, (mirror n a).2.1 + (mirror (fun c => n' c - n c) X).2.1, (mirror n a).2.2 + (mirror (fun c => n' c - n c) X).2.2) (mirror n' b)
      ↔ SameFreq s (a.1 + X.1, a.2.1 + X.2.1, a.2.2 + X.2.2) b := by
  unfold SameFreq mirror
  simp only
  rw [show -a.1 - n 0 + (-X.1 - (n' 0 - n 0)) - (-b.1 - n' 0) = -(a.1 + X.1 - b.1) by ring, show -a.2.1 - n 1 + (-X.2.1 - (n' 1 - n 1)) - (-b.2.1 - n' 1) = -(a.2.1 + X.2.1 - b.2.1) by ring,
    show -a.2.2 - n 2 + (-X.2.2 - (n' 2 - n 2)) - (-b.2.2 - n' 2) = -(a.2.2 + X.2.2 - b.2.2) by ring, dvd_neg, dvd_neg, dvd_neg]

/-- The overlap of time-reversed states. -/
theorem overlap_reversed (s : Shape) (wc wc' wv wv' : Wfn) (n n' : Fin 3 → ℤ) (hc : TimeReversed n wc wc') (hv : TimeReversed n' wv wv') (bc bv : ℕ) (X : GVec) :
    overlap s wc' wv' bc bv (mirror (fun c => n' c - n c) X) = conj (overlap s wc wv bc bv X) := by
  classical
  obtain ⟨e, he⟩ := hc.waves
  obtain ⟨e', he'⟩ := hv.waves
  unfold overlap
  rw [map_sum, ← Equiv.sum_comp e]
  refine Finset.sum_congr rfl fun a _ => ?_
  rw [map_sum, ← Equiv.sum_comp e']
  refine Finset.sum_congr rfl fun b _ => ?_
  rw [(he a).1, (he' b).1, (he a).2, (he' b).2]
  by_cases h : SameFreq s (wc.gs[e a].1 + X.1, wc.gs[e a].2.1 + X.2.1, wc.gs[e a].2.2 + X.2.2) wv.gs[e' b]
  · rw [if_pos h, if_pos ((mirror_freq s n n' _ _ X).2 h)]
    simp only [map_mul]
  · rw [if_neg h, if_neg (fun q => h ((mirror_freq s n n' _ _ X).1 q)), map_zero]

/-- The umklapp vectors of mirrored pairs. -/
theorem umklapp_reversed {E E' : EpsIn} {p s : ℕ → ℕ} {n : ℕ → Fin 3 → ℤ} {m : Fin 3 → ℤ} (h : E.Reversed E' p s n m) (kc kv : ℕ) (hkc : kc < E.ks.length) (hkv : kv < E.ks.length)
    (hp : IsClose (E.ks.getD (p kv) 0) (kPlusQ (E.ks.getD (p kc) 0) E.qadd)) (c : Fin 3) :
    umklapp (E'.ks.getD kc 0) E'.qadd c = n kv c - n kc c - m c - umklapp (E.ks.getD (p kc) 0) E.qadd c := by
  have hp' := (h.pair kc hkc kv hkv).2 hp c
  have hp := hp c
  obtain ⟨e1, l1, u1⟩ := C110_umklapp (E.ks.getD (p kc) 0) E.qadd c
  obtain ⟨e2, l2, u2⟩ := C110_umklapp (E'.ks.getD kc 0) E'.qadd c
  have b1 : |kPlusQ (E.ks.getD (p kc) 0) E.qadd c| ≤ 1 := abs_le.2 ⟨by linarith, by linarith⟩
  have b2 : |kPlusQ (E'.ks.getD kc 0) E'.qadd c| ≤ 1 := abs_le.2 ⟨by linarith, by linarith⟩
  have d1 := abs_le.1 (hp.trans (show _ ≤ (1 : ℝ) / 10 by linarith))
  have d2 := abs_le.1 (hp'.trans (show _ ≤ (1 : ℝ) / 10 by linarith))
  rw [e1] at d1
  rw [e2, h.k kc hkc c, h.k kv hkv c, h.q c] at d2
  have hz : |((umklapp (E'.ks.getD kc 0) E'.qadd c - (n kv c - n kc c - m c - umklapp (E.ks.getD (p kc) 0) E.qadd c) : ℤ) : ℝ)| < 1 := by
    push_cast
    rw [abs_lt]
    constructor <;> linarith [d1.1, d1.2, d2.1, d2.2]
  have hz' : |umklapp (E'.ks.getD kc 0) E'.qadd c - (n kv c - n kc c - m c - umklapp (E.ks.getD (p kc) 0) E.qadd c)| < 1 := by exact_mod_cast hz
  have := Int.abs_lt_one_iff.1 hz'
  omega

section

variable {E E' : EpsIn} {p s : ℕ → ℕ} {n : ℕ → Fin 3 → ℤ} {m : Fin 3 → ℤ}

theorem mel_reversed (drv drv' : Driver) (st st' : DrvState ℂ) (h : E.Reversed E' p s n m) (hE : E.Ok) (hE' : E'.Ok) (hg : E.Grid) (hg' : E'.Grid) (kc kv : ℕ) (hkc : kc < E.ks.length) (hkv : kv < E.ks.length)
    (hp : IsClose (E.ks.getD (p kv) 0) (kPlusQ (E.ks.getD (p kc) 0) E.qadd)) (c b l : ℕ) (hl : l < E.gq.length) :
    (mel drv' E' st' kc c kv b).getD l 0 = conj ((mel drv E st (p kc) c (p kv) b).getD (s l) 0) := by
  rw [mel_eq drv' E' st' hE'.pos kc c kv b hg' (hE'.fits kc (h.num ▸ hkc)), mel_eq drv E st hE.pos (p kc) c (p kv) b hg (hE.fits _ (h.maps kc hkc))]
  rw [map_getD_lt _ _ l (0, 0, 0) (by simpa [gUmk, h.gq] using hl), map_getD_lt _ _ (s l) (0, 0, 0) (by simpa [gUmk] using h.smaps l hl),
    umk_getD E' kc l (by rw [h.gq]; exact hl), umk_getD E (p kc) (s l) (h.smaps l hl), h.g l hl]
  simp only [umklapp_reversed h kc kv hkc hkv hp]
  have hX : ((mirror m (E.gq.getD (s l) (0, 0, 0))).1 - (n kv 0 - n kc 0 - m 0 - umklapp (E.ks.getD (p kc) 0) E.qadd 0), (mirror m (E.gq.getD (s l) (0, 0, 0))).2.1 - (n kv 1 - n kc 1 - m 1 - umklapp (E.ks.getD (p kc) 0) E.qadd 1),
      (mirror m (E.gq.getD (s l) (0, 0, 0))).2.2 - (n kv 2 - n kc 2 - m 2 - umklapp (E.ks.getD (p kc) 0) E.qadd 2))
      = mirror (fun c => n kv c - n kc c) ((E.gq.getD (s l) (0, 0, 0)).1 - umklapp (E.ks.getD (p kc) 0) E.qadd 0, (E.gq.getD (s l) (0, 0, 0)).2.1 - umklapp (E.ks.getD (p kc) 0) E.qadd 1,
        (E.gq.getD (s l) (0, 0, 0)).2.2 - umklapp (E.ks.getD (p kc) 0) E.qadd 2) := by
    unfold mirror
    refine Prod.ext ?_ (Prod.ext ?_ ?_)
    · simp only; ring
    · simp only; ring
    · simp only; ring
  rw [hX, h.shape, overlap_reversed E.shape _ _ _ _ _ _ (h.wfn kc hkc) (h.val kv hkv), (h.wfn kc hkc).evl, (h.val kv hkv).evl]
  simp only [map_mul, Complex.conj_ofReal, Complex.conj_natCast]

theorem sum_perm (N : ℕ) (p : ℕ → ℕ) (hm : ∀ k < N, p k < N) (hi : ∀ k < N, ∀ k' < N, p k = p k' → k = k') (f : ℕ → ℂ) : ∑ k ∈ Finset.range N, f (p k) = ∑ k ∈ Finset.range N, f k := by
  refine Finset.sum_nbij p (fun k hk => Finset.mem_range.2 (hm k (Finset.mem_range.1 hk))) ?_ ?_ fun _ _ => rfl
  · intro a ha b hb hab
    simp only [Finset.coe_range, Set.mem_Iio] at ha hb
    exact hi a ha b hb hab
  · have hinj : Set.InjOn p (Finset.range N : Finset ℕ) := by
      intro a ha b hb hab
      simp only [Finset.coe_range, Set.mem_Iio] at ha hb
      exact hi a ha b hb hab
    exact Finset.surjOn_of_injOn_of_card_le p (fun k hk => by simp only [Finset.coe_range, Set.mem_Iio] at hk ⊢; exact hm k hk) hinj le_rfl

theorem chiSpec_reversed (drv drv' : Driver) (st st' : DrvState ℂ) (h : E.Reversed E' p s n m) (hE : E.Ok) (hE' : E'.Ok) (hg : E.Grid) (hg' : E'.Grid) (l l' : ℕ) (hl : l < E.gq.length) (hl' : l' < E.gq.length) :
    chiSpec drv' E' st' l l' = conj (chiSpec drv E st (s l) (s l')) := by
  classical
  set T : ℕ → ℕ → ℂ := fun kc kv => if IsClose (E.ks.getD kv 0) (kPlusQ (E.ks.getD kc 0) E.qadd) then
        ∑ c ∈ Finset.range E.nbands, ∑ v ∈ Finset.range E.nbands,
          (if (E.wfn.getD kc default).occ c = 0 then (1 : ℂ) else 0) * (if (E.wfn.getD kv default).occ v = 1 then (1 : ℂ) else 0)
            * (conj ((mel drv E st kc c kv v).getD (s l) 0) * (mel drv E st kc c kv v).getD (s l') 0)
      else 0 with hT
  have e1 : ∑ t ∈ transitions E', conj ((mel drv' E' st' t.1.1 t.1.2 t.2.1 t.2.2).getD l 0) * (mel drv' E' st' t.1.1 t.1.2 t.2.1 t.2.2).getD l' 0
      = ∑ kc ∈ Finset.range E.ks.length, ∑ kv ∈ Finset.range E.ks.length, conj (T (p kc) (p kv)) := by
    rw [sum_transitions, h.num]
    refine Finset.sum_congr rfl fun kc hkc => Finset.sum_congr rfl fun kv hkv => ?_
    rw [Finset.mem_range] at hkc hkv
    simp only [hT]
    rw [h.nbands, (h.wfn kc hkc).occ, (h.wfn kv hkv).occ]
    by_cases hp : IsClose (E.ks.getD (p kv) 0) (kPlusQ (E.ks.getD (p kc) 0) E.qadd)
    · rw [if_pos hp, if_pos ((h.pair kc hkc kv hkv).2 hp), map_sum]
      refine Finset.sum_congr rfl fun c _ => ?_
      rw [map_sum]
      refine Finset.sum_congr rfl fun v _ => ?_
      rw [mel_reversed drv drv' st st' h hE hE' hg hg' kc kv hkc hkv hp c v l hl, mel_reversed drv drv' st st' h hE hE' hg hg' kc kv hkc hkv hp c v l' hl']
      have hif : ∀ P : Prop, ∀ [Decidable P], conj (if P then (1 : ℂ) else 0) = if P then 1 else 0 := fun P _ => by split_ifs <;> simp
      simp only [map_mul, hif]
    · rw [if_neg hp, if_neg (fun q => hp ((h.pair kc hkc kv hkv).1 q)), map_zero]
  have e2 : ∑ t ∈ transitions E, conj ((mel drv E st t.1.1 t.1.2 t.2.1 t.2.2).getD (s l) 0) * (mel drv E st t.1.1 t.1.2 t.2.1 t.2.2).getD (s l') 0
      = ∑ kc ∈ Finset.range E.ks.length, ∑ kv ∈ Finset.range E.ks.length, T kc kv := sum_transitions E _
  have e3 : ∑ kc ∈ Finset.range E.ks.length, ∑ kv ∈ Finset.range E.ks.length, conj (T (p kc) (p kv)) = conj (∑ kc ∈ Finset.range E.ks.length, ∑ kv ∈ Finset.range E.ks.length, T kc kv) := by
    simp only [← map_sum]
    congr 1
    rw [Finset.sum_congr rfl fun kc _ => sum_perm _ p h.maps h.inj fun kv => T (p kc) kv]
    exact sum_perm _ p h.maps h.inj fun kc => ∑ kv ∈ Finset.range E.ks.length, T kc kv
  unfold chiSpec
  rw [e1, e2, e3, h.vol, h.num]
  simp only [map_mul, map_neg, map_div₀, Complex.conj_ofReal, map_ofNat]

end

/-! ## The property -/

/-- **C225 (polarizability).** In a system with time-reversal symmetry the polarizability at `-q` is the complex conjugate of that at `q` with every G-vector reversed, in either variant of the code, with any order of the lists and any FFT drivers. -/
theorem C225_polarizability (drv drv' : Driver) (st st' : DrvState ℂ) (E E' : EpsIn) (p s : ℕ → ℕ) (n : ℕ → Fin 3 → ℤ) (m : Fin 3 → ℤ) (h : E.Reversed E' p s n m) (hE : E.Ok) (hE' : E'.Ok) (hg : E.Grid) (hg' : E'.Grid) :
    (∃ chi chi', chiActive drv E st = .ok chi ∧ chiActive drv' E' st' = .ok chi' ∧ ∀ l < E.gq.length, ∀ l' < E.gq.length, chi' l l' = conj (chi (s l) (s l'))) ∧
    ((∀ kc < E.ks.length, ∀ kv < E.ks.length, ∀ kv' < E.ks.length, IsClose (E.ks.getD kv 0) (kPlusQ (E.ks.getD kc 0) E.qadd) → IsClose (E.ks.getD kv' 0) (kPlusQ (E.ks.getD kc 0) E.qadd) → kv = kv') →
      ∃ chi chi', chiBatch drv E st = .ok chi ∧ chiBatch drv' E' st' = .ok chi' ∧ ∀ l < E.gq.length, ∀ l' < E.gq.length, chi' l l' = conj (chi (s l) (s l'))) := by
  have hchi := fun l (hl : l < E.gq.length) l' (hl' : l' < E.gq.length) => chiSpec_reversed drv drv' st st' h hE hE' hg hg' l l' hl hl'
  refine ⟨⟨_, _, C54_active drv E st hE, C54_active drv' E' st' hE', hchi⟩, fun hu => ⟨_, _, C54_stored drv E st hE hu, C54_stored drv' E' st' hE' ?_, hchi⟩⟩
  intro kc hkc kv hkv kv' hkv' h1 h2
  rw [h.num] at hkc hkv hkv'
  exact h.inj kv hkv kv' hkv' (hu _ (h.maps kc hkc) _ (h.maps kv hkv) _ (h.maps kv' hkv') ((h.pair kc hkc kv hkv).1 h1) ((h.pair kc hkc kv' hkv').1 h2))

/-- **C225 (dielectric matrix).** Conjugating and reordering the polarizability and inverting the dielectric matrix may be exchanged, whatever the Coulomb values (equal at `q + G` and `-q - G`); errors and NaN are the same. -/
theorem C225_dielectric {N : ℕ} (s : Equiv.Perm (Fin N)) (v : Fin N → Option ℝ) (chi : Fin N → Fin N → ℂ) :
    epsInverse (fun i => v (s i)) (fun i j => conj (chi (s i) (s j))) = (epsInverse v chi).map (Option.map fun A => fun i j => conj (A (s i) (s j))) := by
  classical
  rw [C223_dielectric s v fun i j => conj (chi i j)]
  have hM : epsMat (fun j => (v j).getD 0) (fun i j => conj (chi i j)) = (epsMat (fun j => (v j).getD 0) chi).map (starRingEnd ℂ) := by
    ext i j
    show (if i = j then (1 : ℂ) else 0) - _ = conj ((if i = j then (1 : ℂ) else 0) - _)
    rw [map_sub, apply_ite conj, map_one, map_zero]
    congr 1
    simp only [map_mul, Complex.conj_ofReal]
  have hd : (epsMat (fun j => (v j).getD 0) fun i j => conj (chi i j)).det = conj (epsMat (fun j => (v j).getD 0) chi).det := by
    rw [hM, RingHom.map_det]
    rfl
  have hi : (epsMat (fun j => (v j).getD 0) fun i j => conj (chi i j))⁻¹ = ((epsMat (fun j => (v j).getD 0) chi)⁻¹).map (starRingEnd ℂ) := by
    rw [hM, Matrix.inv_def, Matrix.inv_def]
    ext i j
    have h1 : ((epsMat (fun j => (v j).getD 0) chi).map (starRingEnd ℂ)).adjugate = (epsMat (fun j => (v j).getD 0) chi).adjugate.map (starRingEnd ℂ) := (RingHom.map_adjugate (starRingEnd ℂ) _).symm
    have h2 : ((epsMat (fun j => (v j).getD 0) chi).map (starRingEnd ℂ)).det = conj (epsMat (fun j => (v j).getD 0) chi).det := by rw [RingHom.map_det]; rfl
    rw [h1, h2]
    simp only [Matrix.smul_apply, Matrix.map_apply, smul_eq_mul, map_mul, Ring.inverse_eq_inv', map_inv₀]
  unfold epsInverse
  by_cases hn : ∃ j, v j = none
  · rw [if_pos hn, if_pos hn]; rfl
  rw [if_neg hn, if_neg hn, hd, hi]
  by_cases h0 : (epsMat (fun j => (v j).getD 0) chi).det = 0
  · rw [if_pos h0, if_pos (by rw [h0, map_zero])]; rfl
  · rw [if_neg h0, if_neg (by rwa [map_eq_zero])]
    rfl

/-- **C225 (pairs).** On a mesh of k-points the two k-points of a transition differ by `q` and an integer vector, exactly; so the pairs of a mesh and of its mirror image belong together. -/
theorem C225_pairs (E : EpsIn) (h : E.Mesh) (kc kv : ℕ) (hkc : kc < E.ks.length) (hkv : kv < E.ks.length) :
    IsClose (E.ks.getD kv 0) (kPlusQ (E.ks.getD kc 0) E.qadd) ↔ ∀ c, ∃ z : ℤ, E.ks.getD kv 0 c - E.ks.getD kc 0 c - E.qadd c = z := by
  refine forall_congr' fun c => ?_
  obtain ⟨e1, l1, u1⟩ := C110_umklapp (E.ks.getD kc 0) E.qadd c
  obtain ⟨l2, u2⟩ := h.cell kv hkv c
  constructor
  · intro hp
    have b1 : |kPlusQ (E.ks.getD kc 0) E.qadd c| ≤ 1 := abs_le.2 ⟨by linarith, by linarith⟩
    rcases h.apart kc hkc kv hkv c (umklapp (E.ks.getD kc 0) E.qadd c) with q | q
    · exact ⟨_, q⟩
    · exfalso
      rw [show E.ks.getD kv 0 c - E.ks.getD kc 0 c - E.qadd c - (umklapp (E.ks.getD kc 0) E.qadd c : ℝ) = E.ks.getD kv 0 c - kPlusQ (E.ks.getD kc 0) E.qadd c by rw [e1]; ring] at q
      linarith
  · rintro ⟨z, hz⟩
    have hd : ((z - umklapp (E.ks.getD kc 0) E.qadd c : ℤ) : ℝ) = E.ks.getD kv 0 c - kPlusQ (E.ks.getD kc 0) E.qadd c := by
      push_cast
      rw [e1, ← hz]
      ring
    have habs : |((z - umklapp (E.ks.getD kc 0) E.qadd c : ℤ) : ℝ)| < 1 := by
      rw [hd, abs_lt]
      constructor <;> linarith
    have h0 : z - umklapp (E.ks.getD kc 0) E.qadd c = 0 := Int.abs_lt_one_iff.1 (by exact_mod_cast habs)
    rw [← hd, h0, Int.cast_zero, abs_zero]
    positivity

/-- Pairs of mirrored meshes. -/
theorem C225_pairs_mirrored (E E' : EpsIn) (h : E.Mesh) (h' : E'.Mesh) (p : ℕ → ℕ) (n : ℕ → Fin 3 → ℤ) (m : Fin 3 → ℤ) (hnum : E'.ks.length = E.ks.length) (hmaps : ∀ k < E.ks.length, p k < E.ks.length)
    (hk : ∀ k < E.ks.length, ∀ c, E'.ks.getD k 0 c = n k c - E.ks.getD (p k) 0 c) (hq : ∀ c, E'.qadd c = m c - E.qadd c) (kc kv : ℕ) (hkc : kc < E.ks.length) (hkv : kv < E.ks.length) :
    IsClose (E'.ks.getD kv 0) (kPlusQ (E'.ks.getD kc 0) E'.qadd) ↔ IsClose (E.ks.getD (p kv) 0) (kPlusQ (E.ks.getD (p kc) 0) E.qadd) := by
  rw [C225_pairs E h _ _ (hmaps kc hkc) (hmaps kv hkv), C225_pairs E' h' _ _ (hnum ▸ hkc) (hnum ▸ hkv)]
  refine forall_congr' fun c => ?_
  rw [hk kc hkc c, hk kv hkv c, hq c]
  constructor
  · rintro ⟨z, hz⟩
    exact ⟨n kv c - n kc c - m c - z, by push_cast; rw [← hz]; ring⟩
  · rintro ⟨z, hz⟩
    exact ⟨n kv c - n kc c - m c - z, by push_cast; rw [← hz]; ring⟩

/-- The hypotheses are met: one k-point at `Γ`, `q = 0`. -/
theorem tiny_reversed : (tiny (List.replicate 1 0)).Reversed (tiny (List.replicate 1 0)) id id (fun _ _ => 0) (fun _ => 0) where
  num := rfl
  maps k hk := hk
  inj k _ k' _ e := e
  k k hk c := by rw [id, tiny_ks]; simp
  q c := by show (0 : ℝ) = ((0 : ℤ) : ℝ) - 0; simp
  wfn k hk := by
    rw [id, tiny_wfn 1 k (by simpa [tiny] using hk)]
    exact ⟨⟨Equiv.refl _, fun a => ⟨by
      have : a = ⟨0, by simp⟩ := Fin.ext (Nat.lt_one_iff.1 a.2)
      subst this
      rfl, fun b => by show (1 : ℂ) = conj 1; simp⟩⟩, rfl, rfl⟩
  val k hk := by
    have e := tiny_wfn 1 k (by simpa [tiny] using hk)
    change TimeReversed _ ((tiny (List.replicate 1 0)).wfn.getD (id k) default) ((tiny (List.replicate 1 0)).wfn.getD k default)
    rw [id, e]
    exact ⟨⟨Equiv.refl _, fun a => ⟨by
      have : a = ⟨0, by simp⟩ := Fin.ext (Nat.lt_one_iff.1 a.2)
      subst this
      rfl, fun b => by show (1 : ℂ) = conj 1; simp⟩⟩, rfl, rfl⟩
  gq := rfl
  smaps l hl := hl
  g l hl := by
    have : l = 0 := by simpa [tiny] using hl
    subst this
    rfl
  shape := rfl
  nbands := rfl
  vol := rfl
  pair kc hkc kv hkv := Iff.rfl

/-- So the polarizability of this calculation is real. -/
example (drv : Driver) (st : DrvState ℂ) : ∃ chi chi', chiActive drv (tiny (List.replicate 1 0)) st = .ok chi ∧ chiActive drv (tiny (List.replicate 1 0)) st = .ok chi' ∧ chi' 0 0 = conj (chi 0 0) := by
  obtain ⟨a, b, h1, h2, h3⟩ := (C225_polarizability drv drv st st _ _ _ _ _ _ tiny_reversed (tiny_ok 0) (tiny_ok 0) (tiny_grid 1) (tiny_grid 1)).1
  exact ⟨a, b, h1, h2, h3 0 (by simp [tiny]) 0 (by simp [tiny])⟩

/-- A mesh of two k-points along the first axis, with `q` half a reciprocal lattice vector. -/
noncomputable def two : EpsIn := { tiny [0, fun c => if c = 0 then 1 / 2 else 0] with qadd := fun c => if c = 0 then 1 / 2 else 0 }

theorem half_apart (x z : ℤ) : (x : ℝ) / 2 = z ∨ 1 / 1000 ≤ |(x : ℝ) / 2 - z| := by
  by_cases h : x = 2 * z
  · left; rw [h]; push_cast; ring
  · right
    have : (1 : ℝ) ≤ |((x - 2 * z : ℤ) : ℝ)| := by
      have : 1 ≤ |x - 2 * z| := Int.one_le_abs (by omega)
      exact_mod_cast this
    rw [show (x : ℝ) / 2 - z = ((x - 2 * z : ℤ) : ℝ) / 2 by push_cast; ring, abs_div, abs_two]
    linarith

theorem two_ks (k : ℕ) (hk : k < 2) (c : Fin 3) : two.ks.getD k 0 c = ((if c = 0 then (k : ℤ) else 0 : ℤ) : ℝ) / 2 := by
  interval_cases k
  · show (0 : ℝ) = _; simp
  · show (if c = 0 then (1 : ℝ) / 2 else 0) = _
    split_ifs <;> simp

theorem two_mesh : two.Mesh where
  cell k hk c := by
    change k < 2 at hk
    rw [two_ks k hk c]
    interval_cases k <;> split_ifs <;> norm_num
  apart kc hkc kv hkv c z := by
    change kc < 2 at hkc
    change kv < 2 at hkv
    rw [two_ks kc hkc c, two_ks kv hkv c]
    have hq : two.qadd c = ((if c = 0 then 1 else 0 : ℤ) : ℝ) / 2 := by
      show (if c = 0 then (1 : ℝ) / 2 else 0) = _
      split_ifs <;> simp
    rw [hq, show ∀ a b d : ℤ, (a : ℝ) / 2 - (b : ℝ) / 2 - (d : ℝ) / 2 = ((a - b - d : ℤ) : ℝ) / 2 from fun a b d => by push_cast; ring]
    exact half_apart _ _

/-- The two k-points belong together, in both orders. -/
example : IsClose (two.ks.getD 1 0) (kPlusQ (two.ks.getD 0 0) two.qadd) ∧ IsClose (two.ks.getD 0 0) (kPlusQ (two.ks.getD 1 0) two.qadd) ∧ ¬ IsClose (two.ks.getD 1 0) (kPlusQ (two.ks.getD 1 0) two.qadd) := by
  have l0 : 0 < two.ks.length := by show 0 < 2; omega
  have l1 : 1 < two.ks.length := by show 1 < 2; omega
  rw [C225_pairs _ two_mesh 0 1 l0 l1, C225_pairs _ two_mesh 1 0 l1 l0, C225_pairs _ two_mesh 1 1 l1 l1]
  have hq : ∀ c, two.qadd c = if c = 0 then (1 : ℝ) / 2 else 0 := fun _ => rfl
  simp only [two_ks 0 (by omega), two_ks 1 (by omega), hq]
  refine ⟨fun c => ⟨0, by split_ifs <;> norm_num⟩, fun c => ⟨if c = 0 then -1 else 0, by split_ifs <;> norm_num⟩, fun h => ?_⟩
  obtain ⟨z, hz⟩ := h 0
  simp only [if_true] at hz
  have h2 : ((2 * z : ℤ) : ℝ) = ((-1 : ℤ) : ℝ) := by push_cast at hz ⊢; linarith
  have h3 : 2 * z = -1 := by exact_mod_cast h2
  omega

end Verif.GW
