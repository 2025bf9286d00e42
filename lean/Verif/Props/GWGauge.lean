import Verif.Props.GWChi
import Verif.Props.GWEps
import Verif.Props.Sigma
import Verif.Props.SigmaStatic

/-!
# Property C199: GW quantities do not depend on the choice of the orbitals in a degenerate multiplet
-/

namespace Verif.GW

open Verif.Lattice (Vec)
open Verif.GSpace (GVec Shape cryst2idxgrid flatIdx inBounds)
open Verif.FFT (Driver DrvState)
open scoped ComplexConjugate

/-! ## Specification -/

/-- `w'` is another choice of the orbitals of `w`: bands `b < nb` of `w'` are the combinations `Σ_a U_ab ψ_a` of those of `w`,
with `U` unitary and mixing only bands of the same energy and occupation. -/
structure Rechosen (nb : ℕ) (U : ℕ → ℕ → ℂ) (w w' : Wfn) : Prop where
  gs : w'.gs = w.gs
  evl : w'.evl = w.evl
  occ : w'.occ = w.occ
  evc : ∀ b < nb, ∀ j, w'.evc b j = ∑ a ∈ Finset.range nb, U a b * w.evc a j
  unitary : ∀ a < nb, ∀ a' < nb, ∑ b ∈ Finset.range nb, U a b * conj (U a' b) = if a = a' then 1 else 0
  energy : ∀ a < nb, ∀ b < nb, U a b ≠ 0 → w.evl a = w.evl b
  filling : ∀ a < nb, ∀ b < nb, U a b ≠ 0 → w.occ a = w.occ b

/-- The mixing does not lead out of the set `P` of bands. -/
def Within (nb : ℕ) (U : ℕ → ℕ → ℂ) (P : ℕ → Prop) : Prop := ∀ a < nb, ∀ b < nb, U a b ≠ 0 → (P a ↔ P b)

/-! ## Lemmas -/

/-- A unitary mixing within the level sets of a weight does not change weighted sums of `conj f · g`. -/
theorem mix_sum (nb : ℕ) (U : ℕ → ℕ → ℂ)
    (hu : ∀ a < nb, ∀ a' < nb, ∑ b ∈ Finset.range nb, U a b * conj (U a' b) = if a = a' then 1 else 0)
    (p : ℕ → ℂ) (hp : ∀ a < nb, ∀ b < nb, U a b ≠ 0 → p a = p b) (f g : ℕ → ℂ) :
    ∑ b ∈ Finset.range nb, p b * (conj (∑ a ∈ Finset.range nb, U a b * f a) * ∑ a ∈ Finset.range nb, U a b * g a)
      = ∑ b ∈ Finset.range nb, p b * (conj (f b) * g b) := by
  have e1 : ∀ b ∈ Finset.range nb,
      p b * (conj (∑ a ∈ Finset.range nb, U a b * f a) * ∑ a ∈ Finset.range nb, U a b * g a)
      = ∑ a' ∈ Finset.range nb, ∑ a ∈ Finset.range nb, p a' * (conj (f a') * g a) * (U a b * conj (U a' b)) := by
    intro b hb
    rw [map_sum, Finset.sum_mul_sum, Finset.mul_sum]
    refine Finset.sum_congr rfl fun a' ha' => ?_
    rw [Finset.mul_sum]
    refine Finset.sum_congr rfl fun a _ => ?_
    by_cases h0 : U a' b = 0
    · simp [h0]
    · rw [hp a' (Finset.mem_range.1 ha') b (Finset.mem_range.1 hb) h0, map_mul]
      ring
  rw [Finset.sum_congr rfl e1, Finset.sum_comm]
  refine Finset.sum_congr rfl fun a' ha' => ?_
  rw [Finset.sum_comm]
  have e2 : ∀ a ∈ Finset.range nb,
      ∑ b ∈ Finset.range nb, p a' * (conj (f a') * g a) * (U a b * conj (U a' b))
      = p a' * (conj (f a') * g a) * (if a = a' then 1 else 0) := by
    intro a ha
    rw [← Finset.mul_sum, hu a (Finset.mem_range.1 ha) a' (Finset.mem_range.1 ha')]
  rw [Finset.sum_congr rfl e2]
  simp only [mul_ite, mul_one, mul_zero]
  rw [Finset.sum_ite_eq' (Finset.range nb) a' fun a => p a' * (conj (f a') * g a), if_pos ha']

/-- The same for two mixings, the first one acting on the bra. -/
theorem mix_sum2 (nb : ℕ) (U V : ℕ → ℕ → ℂ)
    (hu : ∀ a < nb, ∀ a' < nb, ∑ b ∈ Finset.range nb, U a b * conj (U a' b) = if a = a' then 1 else 0)
    (hv : ∀ a < nb, ∀ a' < nb, ∑ b ∈ Finset.range nb, V a b * conj (V a' b) = if a = a' then 1 else 0)
    (p q : ℕ → ℂ) (hp : ∀ a < nb, ∀ b < nb, U a b ≠ 0 → p a = p b) (hq : ∀ a < nb, ∀ b < nb, V a b ≠ 0 → q a = q b)
    (F G F' G' : ℕ → ℕ → ℂ)
    (hF : ∀ c < nb, ∀ v < nb, F' c v = ∑ a ∈ Finset.range nb, ∑ b ∈ Finset.range nb, conj (U a c) * V b v * F a b)
    (hG : ∀ c < nb, ∀ v < nb, G' c v = ∑ a ∈ Finset.range nb, ∑ b ∈ Finset.range nb, conj (U a c) * V b v * G a b) :
    ∑ c ∈ Finset.range nb, ∑ v ∈ Finset.range nb, p c * q v * (conj (F' c v) * G' c v)
      = ∑ c ∈ Finset.range nb, ∑ v ∈ Finset.range nb, p c * q v * (conj (F c v) * G c v) := by
  -- the ket
  have s1 : ∀ c ∈ Finset.range nb, ∑ v ∈ Finset.range nb, p c * q v * (conj (F' c v) * G' c v)
      = ∑ v ∈ Finset.range nb, p c * q v
        * (conj (∑ a ∈ Finset.range nb, conj (U a c) * F a v) * ∑ a ∈ Finset.range nb, conj (U a c) * G a v) := by
    intro c hc
    have key := mix_sum nb V hv q hq (fun b => ∑ a ∈ Finset.range nb, conj (U a c) * F a b)
      (fun b => ∑ a ∈ Finset.range nb, conj (U a c) * G a b)
    have sw : ∀ (H : ℕ → ℕ → ℂ) (v : ℕ), ∑ a ∈ Finset.range nb, ∑ b ∈ Finset.range nb, conj (U a c) * V b v * H a b
        = ∑ b ∈ Finset.range nb, V b v * ∑ a ∈ Finset.range nb, conj (U a c) * H a b := by
      intro H v
      rw [Finset.sum_comm]
      refine Finset.sum_congr rfl fun b _ => ?_
      rw [Finset.mul_sum]
      refine Finset.sum_congr rfl fun a _ => ?_
      ring
    have l1 : ∀ v ∈ Finset.range nb, p c * q v * (conj (F' c v) * G' c v)
        = p c * (q v * (conj (∑ b ∈ Finset.range nb, V b v * ∑ a ∈ Finset.range nb, conj (U a c) * F a b)
          * ∑ b ∈ Finset.range nb, V b v * ∑ a ∈ Finset.range nb, conj (U a c) * G a b)) := by
      intro v hv'
      rw [hF c (Finset.mem_range.1 hc) v (Finset.mem_range.1 hv'), hG c (Finset.mem_range.1 hc) v (Finset.mem_range.1 hv'),
        sw F v, sw G v]
      ring
    rw [Finset.sum_congr rfl l1, ← Finset.mul_sum, key, Finset.mul_sum]
    refine Finset.sum_congr rfl fun v _ => ?_
    ring
  rw [Finset.sum_congr rfl s1, Finset.sum_comm]
  have r1 : ∑ c ∈ Finset.range nb, ∑ v ∈ Finset.range nb, p c * q v * (conj (F c v) * G c v)
      = ∑ v ∈ Finset.range nb, ∑ c ∈ Finset.range nb, p c * q v * (conj (F c v) * G c v) := Finset.sum_comm
  rw [r1]
  refine Finset.sum_congr rfl fun v _ => ?_
  -- the bra
  have hu' : ∀ a < nb, ∀ a' < nb,
      ∑ b ∈ Finset.range nb, conj (U a b) * conj (conj (U a' b)) = if a = a' then 1 else 0 := by
    intro a ha a' ha'
    have := congrArg (starRingEnd ℂ) (hu a ha a' ha')
    rw [map_sum] at this
    simp only [map_mul] at this
    rw [this]
    split <;> simp
  have key := mix_sum nb (fun a b => conj (U a b)) hu' p
    (fun a ha b hb h => hp a ha b hb fun h0 => h (by rw [h0]; simp)) (fun a => F a v) (fun a => G a v)
  have l2 : ∀ H K : ℕ → ℂ, ∑ c ∈ Finset.range nb, p c * q v * (conj (H c) * K c)
      = q v * ∑ c ∈ Finset.range nb, p c * (conj (H c) * K c) := by
    intro H K
    rw [Finset.mul_sum]
    refine Finset.sum_congr rfl fun c _ => ?_
    ring
  rw [l2 (fun c => ∑ a ∈ Finset.range nb, conj (U a c) * F a v) (fun c => ∑ a ∈ Finset.range nb, conj (U a c) * G a v),
    l2 (fun c => F c v) (fun c => G c v), key]

/-- The overlap of rechosen orbitals. -/
theorem overlap_mix (s : Shape) (nb : ℕ) (U V : ℕ → ℕ → ℂ) (wc wc' wv wv' : Wfn) (hc : Rechosen nb U wc wc')
    (hv : Rechosen nb V wv wv') (c v : ℕ) (hcb : c < nb) (hvb : v < nb) (X : GVec) :
    overlap s wc' wv' c v X
      = ∑ a ∈ Finset.range nb, ∑ b ∈ Finset.range nb, conj (U a c) * V b v * overlap s wc wv a b X := by
  obtain ⟨g1, l1, o1, c1⟩ := wc'
  obtain ⟨g2, l2, o2, c2⟩ := wv'
  have e1 := hc.gs
  have e2 := hv.gs
  simp only at e1 e2
  subst e1
  subst e2
  unfold overlap
  have hL : ∀ (i : Fin wc.gs.length) (j : Fin wv.gs.length),
      (if SameFreq s (wc.gs[i].1 + X.1, wc.gs[i].2.1 + X.2.1, wc.gs[i].2.2 + X.2.2) wv.gs[j]
        then conj (l1 c i) * l2 v j else 0)
      = ∑ a ∈ Finset.range nb, ∑ b ∈ Finset.range nb, conj (U a c) * V b v *
        (if SameFreq s (wc.gs[i].1 + X.1, wc.gs[i].2.1 + X.2.1, wc.gs[i].2.2 + X.2.2) wv.gs[j]
          then conj (wc.evc a i) * wv.evc b j else 0) := by
    intro i j
    by_cases h : SameFreq s (wc.gs[i].1 + X.1, wc.gs[i].2.1 + X.2.1, wc.gs[i].2.2 + X.2.2) wv.gs[j]
    · simp only [h, if_true]
      have a1 := hc.evc c hcb i
      have a2 := hv.evc v hvb j
      simp only at a1 a2
      rw [a1, a2, map_sum, Finset.sum_mul_sum]
      refine Finset.sum_congr rfl fun a _ => Finset.sum_congr rfl fun b _ => ?_
      rw [map_mul]
      ring
    · simp only [h, if_false, mul_zero, Finset.sum_const_zero]
  have hR : ∀ a ∈ Finset.range nb, ∀ b ∈ Finset.range nb,
      conj (U a c) * V b v * (∑ i : Fin wc.gs.length, ∑ j : Fin wv.gs.length,
        if SameFreq s (wc.gs[i].1 + X.1, wc.gs[i].2.1 + X.2.1, wc.gs[i].2.2 + X.2.2) wv.gs[j]
          then conj (wc.evc a i) * wv.evc b j else 0)
      = ∑ i : Fin wc.gs.length, ∑ j : Fin wv.gs.length, conj (U a c) * V b v *
        (if SameFreq s (wc.gs[i].1 + X.1, wc.gs[i].2.1 + X.2.1, wc.gs[i].2.2 + X.2.2) wv.gs[j]
          then conj (wc.evc a i) * wv.evc b j else 0) := by
    intro a _ b _
    rw [Finset.mul_sum]
    refine Finset.sum_congr rfl fun i _ => ?_
    rw [Finset.mul_sum]
  have hR' := Finset.sum_congr (rfl : Finset.range nb = Finset.range nb) fun a ha =>
    Finset.sum_congr (rfl : Finset.range nb = Finset.range nb) fun b hb => hR a ha b hb
  refine Eq.trans ?_ hR'.symm
  refine Eq.trans (Finset.sum_congr rfl fun i _ => Finset.sum_congr rfl fun j _ => hL i j) ?_
  have t1 : ∀ i : Fin wc.gs.length, ∑ j : Fin wv.gs.length, ∑ a ∈ Finset.range nb, ∑ b ∈ Finset.range nb,
      conj (U a c) * V b v *
        (if SameFreq s (wc.gs[i].1 + X.1, wc.gs[i].2.1 + X.2.1, wc.gs[i].2.2 + X.2.2) wv.gs[j]
          then conj (wc.evc a i) * wv.evc b j else 0)
      = ∑ a ∈ Finset.range nb, ∑ b ∈ Finset.range nb, ∑ j : Fin wv.gs.length, conj (U a c) * V b v *
        (if SameFreq s (wc.gs[i].1 + X.1, wc.gs[i].2.1 + X.2.1, wc.gs[i].2.2 + X.2.2) wv.gs[j]
          then conj (wc.evc a i) * wv.evc b j else 0) := by
    intro i
    rw [Finset.sum_comm]
    refine Finset.sum_congr rfl fun a _ => ?_
    rw [Finset.sum_comm]
  refine Eq.trans (Finset.sum_congr rfl fun i _ => t1 i) ?_
  rw [Finset.sum_comm]
  refine Finset.sum_congr rfl fun a _ => ?_
  rw [Finset.sum_comm]

/-! ## The polarizability -/

/-- The same calculation with other wavefunctions. -/
def EpsIn.withWfn (E : EpsIn) (w v : List Wfn) : EpsIn := { E with wfn := w, val := v }

/-- Conditions on the grid: G-vectors distinct and on it. -/
structure EpsIn.Grid (E : EpsIn) : Prop where
  gq : E.gq.Nodup
  wfn : ∀ k, OnGrid E.shape (E.wfn.getD k default).gs
  val : ∀ k, OnGrid E.shape (E.val.getD k default).gs

theorem mel_eq (drv : Driver) (E : EpsIn) (st : DrvState ℂ) (hs : E.shape.Pos) (kc bc kv bv : ℕ) (hg : E.Grid)
    (hfit : ∀ g ∈ gUmk E kc, inBounds E.shape g = true) (l : ℕ) :
    (mel drv E st kc bc kv bv).getD l 0 = ((gUmk E kc).map fun X =>
      (E.shape.size : ℂ) * overlap E.shape (E.wfn.getD kc default) (E.val.getD kv default) bc bv X
        * (((Real.sqrt ((E.wfn.getD kc default).evl bc - (E.val.getD kv default).evl bv) * E.shape.size)⁻¹ : ℝ) : ℂ)).getD l 0 := by
  have hnd : OnGrid E.shape (gUmk E kc) := by
    refine ⟨?_, hfit⟩
    unfold gUmk
    refine List.Nodup.map ?_ hg.gq
    intro a b hab
    simp only [Prod.mk.injEq, sub_left_inj] at hab
    exact Prod.ext hab.1 (Prod.ext hab.2.1 hab.2.2)
  unfold mel
  simp only
  rw [fftProd_eq drv E.shape hs st _ hnd _ _ (hg.wfn kc) (hg.val kv), List.map_map]
  rfl

theorem map_getD_sum {α : Type*} (L : List α) (l : ℕ) (F : α → ℂ) (R : Finset ℕ) (co : ℕ → ℕ → ℂ) (G : ℕ → ℕ → α → ℂ)
    (h : ∀ X, F X = ∑ a ∈ R, ∑ a' ∈ R, co a a' * G a a' X) :
    (L.map F).getD l 0 = ∑ a ∈ R, ∑ a' ∈ R, co a a' * (L.map fun X => G a a' X).getD l 0 := by
  simp only [List.getD_eq_getElem?_getD, List.getElem?_map]
  cases L[l]? with
  | none => simp
  | some X => simpa using h X

theorem mel_mix (drv : Driver) (E : EpsIn) (st : DrvState ℂ) (hs : E.shape.Pos) (hg : E.Grid) (w v : List Wfn) (kc kv : ℕ)
    (U V : ℕ → ℕ → ℂ) (hw : Rechosen E.nbands U (E.wfn.getD kc default) (w.getD kc default))
    (hv : Rechosen E.nbands V (E.val.getD kv default) (v.getD kv default)) (hg' : (E.withWfn w v).Grid)
    (hfit : ∀ g ∈ gUmk E kc, inBounds E.shape g = true) (l c b : ℕ) (hc : c < E.nbands) (hb : b < E.nbands) :
    (mel drv (E.withWfn w v) st kc c kv b).getD l 0
      = ∑ a ∈ Finset.range E.nbands, ∑ a' ∈ Finset.range E.nbands, conj (U a c) * V a' b * (mel drv E st kc a kv a').getD l 0 := by
  rw [mel_eq drv (E.withWfn w v) st hs kc c kv b hg' hfit l]
  have hR : ∀ a a', (mel drv E st kc a kv a').getD l 0 = _ := fun a a' => mel_eq drv E st hs kc a kv a' hg hfit l
  simp only [hR]
  have hgu : gUmk (E.withWfn w v) kc = gUmk E kc := rfl
  rw [hgu]
  have hwf : (E.withWfn w v).wfn = w := rfl
  have hvf : (E.withWfn w v).val = v := rfl
  have hsf : (E.withWfn w v).shape = E.shape := rfl
  rw [hwf, hvf, hsf]
  rw [hw.evl, hv.evl]
  refine map_getD_sum (gUmk E kc) l _ (Finset.range E.nbands) (fun a a' => conj (U a c) * V a' b) _ fun X => ?_
  rw [overlap_mix E.shape E.nbands U V _ _ _ _ hw hv c b hc hb X, Finset.mul_sum, Finset.sum_mul]
  refine Finset.sum_congr rfl fun a ha => ?_
  rw [Finset.mul_sum, Finset.sum_mul]
  refine Finset.sum_congr rfl fun a' ha' => ?_
  by_cases hU : U a c = 0
  · simp [hU]
  by_cases hV : V a' b = 0
  · simp [hV]
  rw [hw.energy a (Finset.mem_range.1 ha) c hc hU, hv.energy a' (Finset.mem_range.1 ha') b hb hV]
  ring


theorem hasOcc_mix (E : EpsIn) (w v : List Wfn) (h : ∀ k, (w.getD k default).occ = (E.wfn.getD k default).occ) (x : ℝ) (p : ℕ × ℕ) :
    HasOcc (E.withWfn w v) x p ↔ HasOcc E x p := by
  unfold HasOcc
  show p.1 < E.ks.length ∧ p.2 < E.nbands ∧ (w.getD p.1 default).occ p.2 = x ↔ _
  rw [h]

open Classical in
/-- The sum over the transitions, k-points first. -/
theorem sum_transitions (E : EpsIn) (F : (ℕ × ℕ) × (ℕ × ℕ) → ℂ) :
    ∑ t ∈ transitions E, F t = ∑ kc ∈ Finset.range E.ks.length, ∑ kv ∈ Finset.range E.ks.length,
      if IsClose (E.ks.getD kv 0) (kPlusQ (E.ks.getD kc 0) E.qadd) then
        ∑ c ∈ Finset.range E.nbands, ∑ v ∈ Finset.range E.nbands,
          (if (E.wfn.getD kc default).occ c = 0 then (1 : ℂ) else 0) * (if (E.wfn.getD kv default).occ v = 1 then (1 : ℂ) else 0)
            * F ((kc, c), (kv, v))
      else 0 := by
  unfold transitions
  rw [Finset.sum_filter, Finset.sum_product, Finset.sum_product]
  refine Finset.sum_congr rfl fun kc hkc => ?_
  simp only [Finset.sum_product]
  rw [Finset.sum_comm]
  refine Finset.sum_congr rfl fun kv hkv => ?_
  split_ifs with hcl
  · refine Finset.sum_congr rfl fun c hc => Finset.sum_congr rfl fun v hv => ?_
    rw [Finset.mem_range] at *
    by_cases h0 : (E.wfn.getD kc default).occ c = 0
    · by_cases h1 : (E.wfn.getD kv default).occ v = 1
      · rw [if_pos (show Transition E ((kc, c), (kv, v)) from ⟨⟨hkc, hc, h0⟩, ⟨hkv, hv, h1⟩, hcl⟩), if_pos h0, if_pos h1]
        ring
      · rw [if_neg (fun h : Transition E ((kc, c), (kv, v)) => h1 h.2.1.2.2), if_neg h1]
        ring
    · rw [if_neg (fun h : Transition E ((kc, c), (kv, v)) => h0 h.1.2.2), if_neg h0]
      ring
  · refine Finset.sum_eq_zero fun c hc => Finset.sum_eq_zero fun v hv => ?_
    rw [if_neg (fun h : Transition E ((kc, c), (kv, v)) => hcl h.2.2)]

theorem chiSpec_mix (drv : Driver) (E : EpsIn) (st : DrvState ℂ) (h : E.Ok) (hg : E.Grid) (w v : List Wfn)
    (U V : ℕ → ℕ → ℕ → ℂ) (hw : ∀ k, Rechosen E.nbands (U k) (E.wfn.getD k default) (w.getD k default))
    (hv : ∀ k, Rechosen E.nbands (V k) (E.val.getD k default) (v.getD k default))
    (hocc : ∀ k, Within E.nbands (V k) fun b => (E.wfn.getD k default).occ b = 1) :
    chiSpec drv (E.withWfn w v) st = chiSpec drv E st := by
  classical
  have hg' : (E.withWfn w v).Grid :=
    ⟨hg.gq, fun k => by show OnGrid E.shape (w.getD k default).gs; rw [(hw k).gs]; exact hg.wfn k,
      fun k => by show OnGrid E.shape (v.getD k default).gs; rw [(hv k).gs]; exact hg.val k⟩
  funext l m
  unfold chiSpec
  rw [sum_transitions, sum_transitions]
  show -(4 / ((E.vol * E.ks.length : ℝ) : ℂ)) * ∑ kc ∈ Finset.range E.ks.length, ∑ kv ∈ Finset.range E.ks.length,
      (if IsClose (E.ks.getD kv 0) (kPlusQ (E.ks.getD kc 0) E.qadd) then
        ∑ c ∈ Finset.range E.nbands, ∑ b ∈ Finset.range E.nbands,
          (if (w.getD kc default).occ c = 0 then (1 : ℂ) else 0) * (if (w.getD kv default).occ b = 1 then (1 : ℂ) else 0)
            * (conj ((mel drv (E.withWfn w v) st kc c kv b).getD l 0) * (mel drv (E.withWfn w v) st kc c kv b).getD m 0)
      else 0) = _
  congr 1
  refine Finset.sum_congr rfl fun kc hkc => Finset.sum_congr rfl fun kv _ => ?_
  by_cases hcl : IsClose (E.ks.getD kv 0) (kPlusQ (E.ks.getD kc 0) E.qadd)
  · rw [if_pos hcl, if_pos hcl, (hw kc).occ, (hw kv).occ]
    have hfit := h.fits kc (Finset.mem_range.1 hkc)
    refine mix_sum2 E.nbands (U kc) (V kv) (hw kc).unitary (hv kv).unitary
      (fun c => if (E.wfn.getD kc default).occ c = 0 then (1 : ℂ) else 0)
      (fun b => if (E.wfn.getD kv default).occ b = 1 then (1 : ℂ) else 0) ?_ ?_
      (fun c b => (mel drv E st kc c kv b).getD l 0) (fun c b => (mel drv E st kc c kv b).getD m 0)
      (fun c b => (mel drv (E.withWfn w v) st kc c kv b).getD l 0) (fun c b => (mel drv (E.withWfn w v) st kc c kv b).getD m 0)
      (fun c hc b hb => mel_mix drv E st h.pos hg w v kc kv (U kc) (V kv) (hw kc) (hv kv) hg' hfit l c b hc hb)
      (fun c hc b hb => mel_mix drv E st h.pos hg w v kc kv (U kc) (V kv) (hw kc) (hv kv) hg' hfit m c b hc hb)
    · intro a ha b hb hU
      simp only [(hw kc).filling a ha b hb hU]
    · intro a ha b hb hV
      simp only [hocc kv a ha b hb hV]
  · rw [if_neg hcl, if_neg hcl]

theorem Ok_mix (E : EpsIn) (w v : List Wfn) (ho : ∀ k, (w.getD k default).occ = (E.wfn.getD k default).occ) (h : E.Ok) :
    (E.withWfn w v).Ok := by
  obtain ⟨p, hp⟩ := h.occupied
  obtain ⟨p', hp'⟩ := h.empty
  exact ⟨h.pos, ⟨p, (hasOcc_mix E w v ho 1 p).2 hp⟩, ⟨p', (hasOcc_mix E w v ho 0 p').2 hp'⟩, h.fits⟩

/-- **C199 (polarizability).** Replacing the orbitals of every degenerate multiplet by unitary combinations of themselves — new phases, other
bases of degenerate subspaces — changes the polarizability matrix in no element, in either variant of the code. -/
theorem C199_polarizability (drv : Driver) (E : EpsIn) (st : DrvState ℂ) (h : E.Ok) (hg : E.Grid) (w v : List Wfn)
    (U V : ℕ → ℕ → ℕ → ℂ) (hw : ∀ k, Rechosen E.nbands (U k) (E.wfn.getD k default) (w.getD k default))
    (hv : ∀ k, Rechosen E.nbands (V k) (E.val.getD k default) (v.getD k default))
    (hocc : ∀ k, Within E.nbands (V k) fun b => (E.wfn.getD k default).occ b = 1) :
    (∃ chi, chiActive drv E st = .ok chi ∧ chiActive drv { E with wfn := w, val := v } st = .ok chi)
    ∧ ((∀ kc < E.ks.length, ∀ kv < E.ks.length, ∀ kv' < E.ks.length,
        IsClose (E.ks.getD kv 0) (kPlusQ (E.ks.getD kc 0) E.qadd) →
        IsClose (E.ks.getD kv' 0) (kPlusQ (E.ks.getD kc 0) E.qadd) → kv = kv') →
      ∃ chi, chiBatch drv E st = .ok chi ∧ chiBatch drv { E with wfn := w, val := v } st = .ok chi) := by
  have h' : (E.withWfn w v).Ok := Ok_mix E w v (fun k => (hw k).occ) h
  have e := chiSpec_mix drv E st h hg w v U V hw hv hocc
  refine ⟨⟨_, C54_active drv E st h, ?_⟩, fun hu => ⟨_, C54_stored drv E st h hu, ?_⟩⟩
  · rw [← e]; exact C54_active drv (E.withWfn w v) st h'
  · rw [← e]; exact C54_stored drv (E.withWfn w v) st h' hu

/-! ## The self-energies -/

/-- The same calculation with other wavefunctions. -/
def SigIn.withWfn (S : SigIn) (w wq : List Wfn) : SigIn := { S with wfn := w, wfnq := wq }

/-- Other orbitals at every k-point, of the unshifted and of the shifted wavefunctions. -/
structure SigIn.Rechosen (S : SigIn) (U V : ℕ → ℕ → ℕ → ℂ) (w wq : List Wfn) : Prop where
  wfn : ∀ k, GW.Rechosen S.nbands (U k) (S.wfn.getD k default) (w.getD k default)
  wfnq : ∀ k, GW.Rechosen S.nbands (V k) (S.wfnq.getD k default) (wq.getD k default)

/-- The mixing of the bra states. -/
noncomputable def braMix (S : SigIn) (U V : ℕ → ℕ → ℕ → ℂ) (iq : ℕ) : ℕ → ℕ → ℕ → ℂ := if S.atQ0 iq then V else U

theorem bra_rechosen (S : SigIn) (U V : ℕ → ℕ → ℕ → ℂ) (w wq : List Wfn) (h : S.Rechosen U V w wq) (iq k : ℕ) :
    GW.Rechosen S.nbands (braMix S U V iq k) ((braWfn S iq).getD k default) ((braWfn (S.withWfn w wq) iq).getD k default) := by
  rw [← eps_val, ← eps_val]
  show GW.Rechosen S.nbands (braMix S U V iq k) ((if S.atQ0 iq then S.wfnq else S.wfn).getD k default)
    ((if S.atQ0 iq then wq else w).getD k default)
  unfold braMix
  by_cases hq : S.atQ0 iq
  · rw [if_pos hq, if_pos hq, if_pos hq]; exact h.wfnq k
  · rw [if_neg hq, if_neg hq, if_neg hq]; exact h.wfn k

theorem sum_set_eq (nb : ℕ) (B : Finset ℕ) (hB : ∀ a ∈ B, a < nb) (f : ℕ → ℂ) :
    ∑ a ∈ B, f a = ∑ a ∈ Finset.range nb, (if a ∈ B then (1 : ℂ) else 0) * f a := by
  simp only [ite_mul, one_mul, zero_mul]
  rw [← Finset.sum_filter]
  refine Finset.sum_congr ?_ fun _ _ => rfl
  ext a
  simp only [Finset.mem_filter, Finset.mem_range]
  exact ⟨fun h => ⟨hB a h, h⟩, fun h => h.2⟩

/-- Products of two matrix elements summed over a closed set of ket bands and the first `nbra` bra bands. -/
theorem pair_mix (S : SigIn) (U V : ℕ → ℕ → ℕ → ℂ) (w wq : List Wfn) (h : S.Rechosen U V w wq) (iq n nbra : ℕ)
    (hn : nbra ≤ S.nbands)
    (hcut : Within S.nbands (braMix S U V (indexMinusQ S iq) (braOf S iq n)) fun b => b < nbra)
    (B : Finset ℕ) (hB : ∀ a ∈ B, S.bmin - 1 ≤ a ∧ a < S.nbands)
    (hcl : Within S.nbands (U (S.kIdx.getD n 0)) fun a => a ∈ B) (l m : ℕ) :
    ∑ a ∈ B, ∑ b ∈ Finset.range nbra, conj (amp (S.withWfn w wq) iq n b (a - (S.bmin - 1)) l)
        * amp (S.withWfn w wq) iq n b (a - (S.bmin - 1)) m
      = ∑ a ∈ B, ∑ b ∈ Finset.range nbra, conj (amp S iq n b (a - (S.bmin - 1)) l) * amp S iq n b (a - (S.bmin - 1)) m := by
  set A : SigIn → ℕ → ℕ → ℕ → ℂ := fun T a b m =>
    overlap S.shape (T.wfn.getD (S.kIdx.getD n 0) default) ((braWfn T (indexMinusQ S iq)).getD (braOf S iq n) default) a b
      ((((S.gqs.getD (indexMinusQ S iq) []).getD ((gToMg S iq).getD m 0) (0, 0, 0)).1
          - umklapp (S.ks.getD (S.kIdx.getD n 0) 0) (shiftOf S (indexMinusQ S iq)) 0),
       (((S.gqs.getD (indexMinusQ S iq) []).getD ((gToMg S iq).getD m 0) (0, 0, 0)).2.1
          - umklapp (S.ks.getD (S.kIdx.getD n 0) 0) (shiftOf S (indexMinusQ S iq)) 1),
       (((S.gqs.getD (indexMinusQ S iq) []).getD ((gToMg S iq).getD m 0) (0, 0, 0)).2.2
          - umklapp (S.ks.getD (S.kIdx.getD n 0) 0) (shiftOf S (indexMinusQ S iq)) 2)) with hA
  have e0 : ∀ a ∈ B, ∀ b l, amp S iq n b (a - (S.bmin - 1)) l = A S a b l := by
    intro a ha b l
    have : a - (S.bmin - 1) + (S.bmin - 1) = a := by have := (hB a ha).1; omega
    unfold amp
    simp only [hA, this]
  have e1 : ∀ a ∈ B, ∀ b l, amp (S.withWfn w wq) iq n b (a - (S.bmin - 1)) l = A (S.withWfn w wq) a b l := by
    intro a ha b l
    have : a - (S.bmin - 1) + (S.bmin - 1) = a := by have := (hB a ha).1; omega
    show overlap S.shape (w.getD (S.kIdx.getD n 0) default)
      ((braWfn (S.withWfn w wq) (indexMinusQ S iq)).getD (braOf S iq n) default) (a - (S.bmin - 1) + (S.bmin - 1)) b _ = _
    rw [this]
    rfl
  have s0 : ∀ T : SigIn, ∑ a ∈ B, ∑ b ∈ Finset.range nbra, conj (A T a b l) * A T a b m
      = ∑ a ∈ Finset.range S.nbands, ∑ b ∈ Finset.range S.nbands,
        (if a ∈ B then (1 : ℂ) else 0) * (if b < nbra then (1 : ℂ) else 0) * (conj (A T a b l) * A T a b m) := by
    intro T
    rw [sum_set_eq S.nbands B (fun a ha => (hB a ha).2)]
    refine Finset.sum_congr rfl fun a _ => ?_
    rw [sum_set_eq S.nbands (Finset.range nbra) (fun b hb => lt_of_lt_of_le (Finset.mem_range.1 hb) hn), Finset.mul_sum]
    refine Finset.sum_congr rfl fun b _ => ?_
    simp only [Finset.mem_range]
    ring
  have t1 : ∑ a ∈ B, ∑ b ∈ Finset.range nbra, conj (amp (S.withWfn w wq) iq n b (a - (S.bmin - 1)) l)
        * amp (S.withWfn w wq) iq n b (a - (S.bmin - 1)) m
      = ∑ a ∈ B, ∑ b ∈ Finset.range nbra, conj (A (S.withWfn w wq) a b l) * A (S.withWfn w wq) a b m :=
    Finset.sum_congr rfl fun a ha => Finset.sum_congr rfl fun b _ => by rw [e1 a ha b l, e1 a ha b m]
  have t0 : ∑ a ∈ B, ∑ b ∈ Finset.range nbra, conj (amp S iq n b (a - (S.bmin - 1)) l) * amp S iq n b (a - (S.bmin - 1)) m
      = ∑ a ∈ B, ∑ b ∈ Finset.range nbra, conj (A S a b l) * A S a b m :=
    Finset.sum_congr rfl fun a ha => Finset.sum_congr rfl fun b _ => by rw [e0 a ha b l, e0 a ha b m]
  rw [t1, t0, s0, s0]
  have hk := h.wfn (S.kIdx.getD n 0)
  have hb := bra_rechosen S U V w wq h (indexMinusQ S iq) (braOf S iq n)
  refine mix_sum2 S.nbands (U (S.kIdx.getD n 0)) (braMix S U V (indexMinusQ S iq) (braOf S iq n)) hk.unitary hb.unitary
    (fun a => if a ∈ B then (1 : ℂ) else 0) (fun b => if b < nbra then (1 : ℂ) else 0) ?_ ?_
    (fun a b => A S a b l) (fun a b => A S a b m) (fun a b => A (S.withWfn w wq) a b l) (fun a b => A (S.withWfn w wq) a b m) ?_ ?_
  · intro a ha b hb' hU
    simp only [hcl a ha b hb' hU]
  · intro a ha b hb' hU
    simp only [hcut a ha b hb' hU]
  · intro a ha b hb'
    exact overlap_mix S.shape S.nbands _ _ _ _ _ _ hk hb a b ha hb' _
  · intro a ha b hb'
    exact overlap_mix S.shape S.nbands _ _ _ _ _ _ hk hb a b ha hb' _

theorem pairX_mix (S : SigIn) (U V : ℕ → ℕ → ℕ → ℂ) (w wq : List Wfn) (h : S.Rechosen U V w wq) (iq n nbra : ℕ)
    (hn : nbra ≤ S.nbands)
    (hcut : Within S.nbands (braMix S U V (indexMinusQ S iq) (braOf S iq n)) fun b => b < nbra)
    (B : Finset ℕ) (hB : ∀ a ∈ B, S.bmin - 1 ≤ a ∧ a < S.nbands)
    (hcl : Within S.nbands (U (S.kIdx.getD n 0)) fun a => a ∈ B) :
    ∑ a ∈ B, ∑ b ∈ Finset.range nbra, pairX (S.withWfn w wq) iq n b (a - (S.bmin - 1))
      = ∑ a ∈ B, ∑ b ∈ Finset.range nbra, pairX S iq n b (a - (S.bmin - 1)) := by
  have e : ∀ T : SigIn, T.gqs = S.gqs → T.v = S.v →
      ((∑ a ∈ B, ∑ b ∈ Finset.range nbra, pairX T iq n b (a - (S.bmin - 1)) : ℝ) : ℂ)
      = ∑ m ∈ Finset.range (S.gqs.getD iq []).length, ((S.v.getD iq []).getD m 0 : ℂ)
        * ∑ a ∈ B, ∑ b ∈ Finset.range nbra, conj (amp T iq n b (a - (S.bmin - 1)) m) * amp T iq n b (a - (S.bmin - 1)) m := by
    intro T h1 h2
    unfold pairX
    rw [h1, h2]
    push_cast
    have : ∀ a ∈ B, ∑ b ∈ Finset.range nbra, ∑ m ∈ Finset.range (S.gqs.getD iq []).length,
        ((S.v.getD iq []).getD m 0 : ℂ) * (Complex.normSq (amp T iq n b (a - (S.bmin - 1)) m) : ℂ)
        = ∑ m ∈ Finset.range (S.gqs.getD iq []).length, ∑ b ∈ Finset.range nbra,
          ((S.v.getD iq []).getD m 0 : ℂ) * (Complex.normSq (amp T iq n b (a - (S.bmin - 1)) m) : ℂ) :=
      fun a _ => Finset.sum_comm
    rw [Finset.sum_congr rfl this, Finset.sum_comm]
    refine Finset.sum_congr rfl fun m _ => ?_
    rw [Finset.mul_sum]
    refine Finset.sum_congr rfl fun a _ => ?_
    rw [Finset.mul_sum]
    refine Finset.sum_congr rfl fun b _ => ?_
    rw [Complex.normSq_eq_conj_mul_self]
  have := (e (S.withWfn w wq) rfl rfl).trans ((Finset.sum_congr rfl fun m _ => by
    rw [pair_mix S U V w wq h iq n nbra hn hcut B hB hcl m m]).trans (e S rfl rfl).symm)
  exact_mod_cast this

theorem pairEps_mix (S : SigIn) (U V : ℕ → ℕ → ℕ → ℂ) (w wq : List Wfn) (h : S.Rechosen U V w wq) (iq n nbra : ℕ)
    (hn : nbra ≤ S.nbands)
    (hcut : Within S.nbands (braMix S U V (indexMinusQ S iq) (braOf S iq n)) fun b => b < nbra)
    (B : Finset ℕ) (hB : ∀ a ∈ B, S.bmin - 1 ≤ a ∧ a < S.nbands)
    (hcl : Within S.nbands (U (S.kIdx.getD n 0)) fun a => a ∈ B) :
    ∑ a ∈ B, ∑ b ∈ Finset.range nbra, pairEps (S.withWfn w wq) iq n b (a - (S.bmin - 1))
      = ∑ a ∈ B, ∑ b ∈ Finset.range nbra, pairEps S iq n b (a - (S.bmin - 1)) := by
  have e : ∀ T : SigIn, T.gqs = S.gqs → T.v = S.v → T.epsI = S.epsI →
      ∑ a ∈ B, ∑ b ∈ Finset.range nbra, pairEps T iq n b (a - (S.bmin - 1))
      = ∑ l ∈ Finset.range (S.gqs.getD iq []).length, ∑ m ∈ Finset.range (S.gqs.getD iq []).length,
        (∑ a ∈ B, ∑ b ∈ Finset.range nbra, conj (amp T iq n b (a - (S.bmin - 1)) l) * amp T iq n b (a - (S.bmin - 1)) m)
          * (S.epsI iq l m * ((S.v.getD iq []).getD l 0 : ℂ)) := by
    intro T h1 h2 h3
    unfold pairEps
    rw [h1, h2, h3]
    have e1 : ∀ (l m : ℕ), (∑ a ∈ B, ∑ b ∈ Finset.range nbra, conj (amp T iq n b (a - (S.bmin - 1)) l) * amp T iq n b (a - (S.bmin - 1)) m)
          * (S.epsI iq l m * ((S.v.getD iq []).getD l 0 : ℂ))
        = ∑ a ∈ B, ∑ b ∈ Finset.range nbra, conj (amp T iq n b (a - (S.bmin - 1)) l) * amp T iq n b (a - (S.bmin - 1)) m
          * S.epsI iq l m * ((S.v.getD iq []).getD l 0 : ℂ) := by
      intro l m
      rw [Finset.sum_mul]
      refine Finset.sum_congr rfl fun a _ => ?_
      rw [Finset.sum_mul]
      refine Finset.sum_congr rfl fun b _ => ?_
      ring
    simp only [e1]
    set L := Finset.range (S.gqs.getD iq []).length
    set R := Finset.range nbra
    set F : ℕ → ℕ → ℕ → ℕ → ℂ := fun a b l m => conj (amp T iq n b (a - (S.bmin - 1)) l) * amp T iq n b (a - (S.bmin - 1)) m
          * S.epsI iq l m * ((S.v.getD iq []).getD l 0 : ℂ)
    show ∑ a ∈ B, ∑ b ∈ R, ∑ l ∈ L, ∑ m ∈ L, F a b l m = ∑ l ∈ L, ∑ m ∈ L, ∑ a ∈ B, ∑ b ∈ R, F a b l m
    calc ∑ a ∈ B, ∑ b ∈ R, ∑ l ∈ L, ∑ m ∈ L, F a b l m
        = ∑ a ∈ B, ∑ l ∈ L, ∑ b ∈ R, ∑ m ∈ L, F a b l m := Finset.sum_congr rfl fun a _ => Finset.sum_comm
      _ = ∑ l ∈ L, ∑ a ∈ B, ∑ b ∈ R, ∑ m ∈ L, F a b l m := Finset.sum_comm
      _ = ∑ l ∈ L, ∑ a ∈ B, ∑ m ∈ L, ∑ b ∈ R, F a b l m :=
          Finset.sum_congr rfl fun l _ => Finset.sum_congr rfl fun a _ => Finset.sum_comm
      _ = ∑ l ∈ L, ∑ m ∈ L, ∑ a ∈ B, ∑ b ∈ R, F a b l m := Finset.sum_congr rfl fun l _ => Finset.sum_comm
  refine (e (S.withWfn w wq) rfl rfl rfl).trans (Eq.trans ?_ (e S rfl rfl rfl).symm)
  refine Finset.sum_congr rfl fun l _ => Finset.sum_congr rfl fun m _ => ?_
  rw [pair_mix S U V w wq h iq n nbra hn hcut B hB hcl l m]

theorem whereOcc_mix (S : SigIn) (U V : ℕ → ℕ → ℕ → ℂ) (w wq : List Wfn) (h : S.Rechosen U V w wq) (x : ℝ) (i : ℕ) :
    whereOcc ((S.withWfn w wq).eps i) x = whereOcc (S.eps i) x := by
  classical
  unfold whereOcc
  show (List.range S.ks.length).flatMap (fun k =>
    ((List.range S.nbands).filter fun b => decide ((w.getD k default).occ b = x)).map fun b => (k, b)) = _
  have : (fun k => ((List.range S.nbands).filter fun b => decide ((w.getD k default).occ b = x)).map fun b => (k, b))
      = fun k => ((List.range S.nbands).filter fun b => decide ((S.wfn.getD k default).occ b = x)).map fun b => (k, b) := by
    funext k
    rw [(h.wfn k).occ]
  rw [this]
  rfl

theorem nVMax_mix (S : SigIn) (U V : ℕ → ℕ → ℕ → ℂ) (w wq : List Wfn) (h : S.Rechosen U V w wq) (i : ℕ) :
    nVMax ((S.withWfn w wq).eps i) = nVMax (S.eps i) := by
  unfold nVMax
  rw [whereOcc_mix S U V w wq h]

theorem foldl_max_le (l : List ℕ) (z n : ℕ) (hz : z ≤ n) (h : ∀ x ∈ l, x ≤ n) : l.foldl max z ≤ n := by
  induction l generalizing z with
  | nil => exact hz
  | cons a l ih => exact ih _ (max_le hz (h a (by simp))) fun x hx => h x (by simp [hx])

theorem nVMax_le (S : SigIn) (h : S.Base) : nVMax (S.eps 0) ≤ S.nbands := by
  obtain ⟨p, hp⟩ := h.occupied
  have hpos : 0 < S.nbands := by have := hp.2.1; exact lt_of_le_of_lt (Nat.zero_le _) this
  unfold nVMax
  have := foldl_max_le ((whereOcc (S.eps 0) 1).map Prod.snd) 0 (S.nbands - 1) (Nat.zero_le _) (by
    intro x hx
    rw [List.mem_map] at hx
    obtain ⟨q, hq, rfl⟩ := hx
    have h1 : q.2 < S.nbands := ((mem_whereOcc _ _ _).1 hq).2.1
    omega)
  omega

theorem sigOk_mix (S : SigIn) (U V : ℕ → ℕ → ℕ → ℂ) (w wq : List Wfn) (h : S.Rechosen U V w wq) (hS : S.Ok) : (S.withWfn w wq).Ok := by
  obtain ⟨p, hp⟩ := hS.occupied
  obtain ⟨p', hp'⟩ := hS.empty
  refine { pos := hS.pos, occupied := ⟨p, ?_⟩, empty := ⟨p', ?_⟩, partner := hS.partner, fits := hS.fits, nonempty := hS.nonempty,
           vlen := hS.vlen }
  · rw [← mem_whereOcc] at hp ⊢; rw [whereOcc_mix S U V w wq h]; exact hp
  · rw [← mem_whereOcc] at hp' ⊢; rw [whereOcc_mix S U V w wq h]; exact hp'

theorem sigGrid_mix (S : SigIn) (U V : ℕ → ℕ → ℕ → ℂ) (w wq : List Wfn) (h : S.Rechosen U V w wq) (hg : S.Grid) : (S.withWfn w wq).Grid :=
  ⟨hg.gq, fun k => by show OnGrid S.shape (w.getD k default).gs; rw [(h.wfn k).gs]; exact hg.wfn k,
    fun k => by show OnGrid S.shape (wq.getD k default).gs; rw [(h.wfnq k).gs]; exact hg.wfnq k⟩

theorem sum_both (B : Finset ℕ) (X' X : ℕ → ℂ) (c : ℂ) (Q : Finset ℕ) (f' f : ℕ → ℕ → ℂ)
    (h' : ∀ a ∈ B, X' a = c * ∑ iq ∈ Q, f' iq a) (h : ∀ a ∈ B, X a = c * ∑ iq ∈ Q, f iq a)
    (e : ∀ iq, ∑ a ∈ B, f' iq a = ∑ a ∈ B, f iq a) : ∑ a ∈ B, X' a = ∑ a ∈ B, X a := by
  rw [Finset.sum_congr rfl h', Finset.sum_congr rfl h, ← Finset.mul_sum, ← Finset.mul_sum, Finset.sum_comm]
  rw [Finset.sum_congr rfl fun iq _ => e iq, Finset.sum_comm]

/-- **C199 (self-energies).** When the orbitals of every degenerate multiplet are replaced by unitary combinations of themselves (the mixing not leading
across the boundary of the occupied bands), the sum of the bare exchange, the static screened exchange and the static Coulomb hole over any set of
bands closed under the mixing — a whole multiplet — does not change. -/
theorem C199_self_energies (drv : Driver) (S : SigIn) (st : DrvState ℂ) (h : S.Ok) (hg : S.Grid) (hnd : S.kIdx.Nodup) (hsort : SxSortOk S)
    (y : Bool) (size : Option ℕ) (hs : ∀ s, size = some s → 0 < s) (U V : ℕ → ℕ → ℕ → ℂ) (w wq : List Wfn)
    (hlen : w.length = S.wfn.length ∧ wq.length = S.wfnq.length) (hr : S.Rechosen U V w wq)
    (hcut : ∀ k, Within S.nbands (U k) (fun b => b < nVMax (S.eps 0)) ∧ Within S.nbands (V k) fun b => b < nVMax (S.eps 0)) :
    ∃ X SX CH X' SX' CH', sigmaX drv S st y size = .ok X ∧ sigmaSX drv S st y size = .ok SX ∧ sigmaCH drv S st y size = .ok CH
      ∧ sigmaX drv { S with wfn := w, wfnq := wq } st y size = .ok X' ∧ sigmaSX drv { S with wfn := w, wfnq := wq } st y size = .ok SX'
      ∧ sigmaCH drv { S with wfn := w, wfnq := wq } st y size = .ok CH'
      ∧ ∀ n < S.kIdx.length, ∀ B : Finset ℕ, (∀ a ∈ B, S.bmin - 1 ≤ a ∧ a < S.nbands) →
        Within S.nbands (U (S.kIdx.getD n 0)) (fun a => a ∈ B) →
        ∑ a ∈ B, X' n (a - (S.bmin - 1)) = ∑ a ∈ B, X n (a - (S.bmin - 1))
        ∧ ∑ a ∈ B, SX' n (a - (S.bmin - 1)) = ∑ a ∈ B, SX n (a - (S.bmin - 1))
        ∧ ∑ a ∈ B, CH' n (a - (S.bmin - 1)) = ∑ a ∈ B, CH n (a - (S.bmin - 1)) := by
  have h' := sigOk_mix S U V w wq hr h
  have hg' := sigGrid_mix S U V w wq hr hg
  have hsort' : SxSortOk (S.withWfn w wq) := by
    intro iq hq
    obtain ⟨a1, a2⟩ := hsort iq hq
    refine ⟨by show iq < w.length; rw [hlen.1]; exact a1, fun e => ⟨by show iq < wq.length; rw [hlen.2]; exact (a2 e).1, ?_⟩⟩
    show (wq.getD iq default).gs.length = (w.getD iq default).gs.length
    rw [(hr.wfn iq).gs, (hr.wfnq iq).gs]
    exact (a2 e).2
  obtain ⟨X, hX, vX⟩ := C112_exchange drv S st h hg hnd y size hs
  obtain ⟨SX, hSX, vSX⟩ := C113_sx drv S st h hg hnd hsort y size hs
  obtain ⟨CH, hCH, vCH⟩ := C113_ch drv S st h hg hnd y size hs
  obtain ⟨X', hX', vX'⟩ := C112_exchange drv (S.withWfn w wq) st h' hg' hnd y size hs
  obtain ⟨SX', hSX', vSX'⟩ := C113_sx drv (S.withWfn w wq) st h' hg' hnd hsort' y size hs
  obtain ⟨CH', hCH', vCH'⟩ := C113_ch drv (S.withWfn w wq) st h' hg' hnd y size hs
  refine ⟨X, SX, CH, X', SX', CH', hX, hSX, hCH, hX', hSX', hCH', ?_⟩
  intro n hn B hB hcl
  have hbc : ∀ iq k, Within S.nbands (braMix S U V iq k) fun b => b < nVMax (S.eps 0) := by
    intro iq k
    unfold braMix
    split
    · exact (hcut k).2
    · exact (hcut k).1
  have hall : ∀ iq k, Within S.nbands (braMix S U V iq k) fun b => b < S.nbands := fun iq k a ha b hb _ => ⟨fun _ => hb, fun _ => ha⟩
  refine ⟨?_, ?_, ?_⟩
  · refine sum_both B _ _ (-S.factor : ℂ) (Finset.range S.qs.length) (fun iq a => ((∑ b ∈ Finset.range (nVMax (S.eps 0)), pairX (S.withWfn w wq) iq n b (a - (S.bmin - 1)) : ℝ) : ℂ))
      (fun iq a => ((∑ b ∈ Finset.range (nVMax (S.eps 0)), pairX S iq n b (a - (S.bmin - 1)) : ℝ) : ℂ)) ?_ ?_ ?_
    · intro a _
      rw [vX' n hn (a - (S.bmin - 1)), nVMax_mix S U V w wq hr]
      push_cast
      rfl
    · intro a _
      rw [vX n hn (a - (S.bmin - 1))]
      push_cast
      rfl
    · intro iq
      rw [← Complex.ofReal_sum, ← Complex.ofReal_sum, pairX_mix S U V w wq hr iq n _ (nVMax_le S h.toBase) (hbc _ _) B hB hcl]
  · refine sum_both B _ _ (-S.factor : ℂ) (Finset.range S.qs.length) (fun iq a => ∑ b ∈ Finset.range (nVMax (S.eps 0)), pairEps (S.withWfn w wq) iq n b (a - (S.bmin - 1)))
      (fun iq a => ∑ b ∈ Finset.range (nVMax (S.eps 0)), pairEps S iq n b (a - (S.bmin - 1))) ?_ ?_ ?_
    · intro a _
      rw [vSX' n hn (a - (S.bmin - 1)), nVMax_mix S U V w wq hr]
      rfl
    · exact fun a _ => vSX n hn (a - (S.bmin - 1))
    · exact fun iq => pairEps_mix S U V w wq hr iq n _ (nVMax_le S h.toBase) (hbc _ _) B hB hcl
  · refine sum_both B _ _ (1 / 2 * S.factor : ℂ) (Finset.range S.qs.length) (fun iq a => ∑ b ∈ Finset.range S.nbands, pairEps (S.withWfn w wq) iq n b (a - (S.bmin - 1)))
      (fun iq a => ∑ b ∈ Finset.range S.nbands, pairEps S iq n b (a - (S.bmin - 1))) ?_ ?_ ?_
    · exact fun a _ => vCH' n hn (a - (S.bmin - 1))
    · exact fun a _ => vCH n hn (a - (S.bmin - 1))
    · exact fun iq => pairEps_mix S U V w wq hr iq n S.nbands le_rfl (hall _ _) B hB hcl

/-- **C199 (phases).** Where the new orbitals of a k-point are the old ones up to phases, every element of the self-energies is unchanged. -/
theorem C199_phases (drv : Driver) (S : SigIn) (st : DrvState ℂ) (h : S.Ok) (hg : S.Grid) (hnd : S.kIdx.Nodup) (hsort : SxSortOk S)
    (y : Bool) (size : Option ℕ) (hs : ∀ s, size = some s → 0 < s) (U V : ℕ → ℕ → ℕ → ℂ) (w wq : List Wfn)
    (hlen : w.length = S.wfn.length ∧ wq.length = S.wfnq.length) (hr : S.Rechosen U V w wq)
    (hcut : ∀ k, Within S.nbands (U k) (fun b => b < nVMax (S.eps 0)) ∧ Within S.nbands (V k) fun b => b < nVMax (S.eps 0)) :
    ∃ X SX CH X' SX' CH', sigmaX drv S st y size = .ok X ∧ sigmaSX drv S st y size = .ok SX ∧ sigmaCH drv S st y size = .ok CH
      ∧ sigmaX drv { S with wfn := w, wfnq := wq } st y size = .ok X' ∧ sigmaSX drv { S with wfn := w, wfnq := wq } st y size = .ok SX'
      ∧ sigmaCH drv { S with wfn := w, wfnq := wq } st y size = .ok CH'
      ∧ ∀ n < S.kIdx.length, (∀ a < S.nbands, ∀ b < S.nbands, U (S.kIdx.getD n 0) a b ≠ 0 → a = b) →
        ∀ j, j + (S.bmin - 1) < S.nbands → X' n j = X n j ∧ SX' n j = SX n j ∧ CH' n j = CH n j := by
  obtain ⟨X, SX, CH, X', SX', CH', h1, h2, h3, h4, h5, h6, hall⟩ :=
    C199_self_energies drv S st h hg hnd hsort y size hs U V w wq hlen hr hcut
  refine ⟨X, SX, CH, X', SX', CH', h1, h2, h3, h4, h5, h6, ?_⟩
  intro n hn hd j hj
  have := hall n hn {j + (S.bmin - 1)} (by
    intro a ha
    rw [Finset.mem_singleton] at ha
    omega) (by
    intro a ha b hb hU
    rw [hd a ha b hb hU])
  simpa using this

/-! ## Examples -/

/-- A phase on band 0 and a rotation of bands 1 and 2. -/
noncomputable def rotU (a b : ℕ) : ℂ :=
  if a = 0 ∧ b = 0 then Complex.I else if a = 1 ∧ b = 1 then 3 / 5 else if a = 2 ∧ b = 1 then 4 / 5
  else if a = 1 ∧ b = 2 then -4 / 5 else if a = 2 ∧ b = 2 then 3 / 5 else 0

/-- The rotated orbitals. -/
noncomputable def rotated (w : Wfn) : Wfn := { w with evc := fun b j => ∑ a ∈ Finset.range 3, rotU a b * w.evc a j }

theorem rotU_block (a b : ℕ) (ha : a < 3) (hb : b < 3) (h : rotU a b ≠ 0) : a = 0 ∧ b = 0 ∨ (1 ≤ a ∧ 1 ≤ b) := by
  interval_cases a <;> interval_cases b <;> first | (exfalso; apply h; simp [rotU]; done) | simp

theorem conj35 : (starRingEnd ℂ) (3 / 5) = 3 / 5 ∧ (starRingEnd ℂ) (4 / 5) = 4 / 5 ∧ (starRingEnd ℂ) (-4 / 5) = -4 / 5 := by
  refine ⟨?_, ?_, ?_⟩
  · have := Complex.conj_ofReal (3 / 5); push_cast at this; exact this
  · have := Complex.conj_ofReal (4 / 5); push_cast at this; exact this
  · have := Complex.conj_ofReal (-4 / 5); push_cast at this; exact this

theorem rotated_ok (w : Wfn) (h1 : w.evl 1 = w.evl 2) (h2 : w.occ 1 = w.occ 2) : Rechosen 3 rotU w (rotated w) where
  gs := rfl
  evl := rfl
  occ := rfl
  evc := fun _ _ _ => rfl
  unitary := by
    obtain ⟨c3, c4, c4'⟩ := conj35
    intro a ha a' ha'
    interval_cases a <;> interval_cases a' <;> simp [rotU, Finset.sum_range_succ, c3, c4, c4'] <;> norm_num
  energy := by
    intro a ha b hb h
    have := rotU_block a b ha hb h
    interval_cases a <;> interval_cases b <;> first | rfl | exact h1 | exact h1.symm | omega
  filling := by
    intro a ha b hb h
    have := rotU_block a b ha hb h
    interval_cases a <;> interval_cases b <;> first | rfl | exact h2 | exact h2.symm | omega

/-- One occupied band and two degenerate empty ones. -/
noncomputable def degW : Wfn := ⟨[(0, 0, 0)], fun b _ => b + 1, fun b => if b = 0 then 0 else 1, fun b => if b = 0 then 1 else 0⟩

/-- Two k-points, one occupied and two degenerate empty bands at each. -/
noncomputable def degS : SigIn := { twoK 1 with wfn := [degW, degW], wfnq := [degW, degW] }

theorem default_rechosen (nb : ℕ) : Rechosen nb (fun a b => if a = b then 1 else 0) (default : Wfn) default where
  gs := rfl
  evl := rfl
  occ := rfl
  evc := by
    intro b hb j
    have : ∀ a, (default : Wfn).evc a j = 0 := fun _ => rfl
    simp [this]
  unitary := by
    intro a ha a' ha'
    have : ∀ b ∈ Finset.range nb, (if a = b then (1 : ℂ) else 0) * (starRingEnd ℂ) (if a' = b then (1 : ℂ) else 0)
        = if a = b then (if a' = a then (1 : ℂ) else 0) else 0 := by
      intro b _
      split_ifs <;> simp_all
    rw [Finset.sum_congr rfl this, Finset.sum_ite_eq, if_pos (Finset.mem_range.2 ha)]
    simp only [eq_comm]
  energy := by
    intro a _ b _ h
    by_cases e : a = b
    · rw [e]
    · simp [e] at h
  filling := by
    intro a _ b _ h
    by_cases e : a = b
    · rw [e]
    · simp [e] at h

/-- The mixing of the examples. -/
noncomputable def exMix (k : ℕ) : ℕ → ℕ → ℂ := if k < 2 then rotU else fun a b => if a = b then 1 else 0

theorem ex_rechosen (k : ℕ) : Rechosen 3 (exMix k) ([degW, degW].getD k default) ([rotated degW, rotated degW].getD k default) := by
  unfold exMix
  by_cases hk : k < 2
  · rw [if_pos hk]
    have : [degW, degW].getD k default = degW ∧ [rotated degW, rotated degW].getD k default = rotated degW := by
      interval_cases k <;> exact ⟨rfl, rfl⟩
    rw [this.1, this.2]
    exact rotated_ok degW rfl rfl
  · rw [if_neg hk]
    have : [degW, degW].getD k default = default ∧ [rotated degW, rotated degW].getD k default = default := by
      obtain ⟨m, rfl⟩ : ∃ m, k = m + 2 := ⟨k - 2, by omega⟩
      exact ⟨rfl, rfl⟩
    rw [this.1, this.2]
    exact default_rechosen 3

theorem exMix_within (k : ℕ) (P : ℕ → Prop) (h : P 1 ↔ P 2) : Within 3 (exMix k) P := by
  intro a ha b hb hU
  unfold exMix at hU
  by_cases hk : k < 2
  · rw [if_pos hk] at hU
    have := rotU_block a b ha hb hU
    interval_cases a <;> interval_cases b <;> first | exact Iff.rfl | exact h | exact h.symm | omega
  · rw [if_neg hk] at hU
    by_cases e : a = b
    · rw [e]
    · simp [e] at hU

theorem degS_ok : degS.Ok where
  pos := (by decide : (⟨1, 1, 1⟩ : Shape).Pos)
  occupied := ⟨(0, 0), by simp [HasOcc, SigIn.eps, degS, twoK, degW]⟩
  empty := ⟨(1, 1), by simp [HasOcc, SigIn.eps, degS, twoK, degW]⟩
  partner := (twoK_ok 1 (by omega)).partner
  fits := (twoK_ok 1 (by omega)).fits
  nonempty := (twoK_ok 1 (by omega)).nonempty
  vlen := (twoK_ok 1 (by omega)).vlen

theorem degW_grid : ∀ k, OnGrid ⟨1, 1, 1⟩ ([degW, degW].getD k default).gs := by
  intro k
  have h1 : OnGrid ⟨1, 1, 1⟩ [((0 : ℤ), (0 : ℤ), (0 : ℤ))] := ⟨by simp, by simp; decide⟩
  match k with
  | 0 => exact h1
  | 1 => exact h1
  | (m + 2) => exact ⟨List.nodup_nil, fun g hg => absurd hg (by simp [default])⟩

/-- The hypotheses of C199 for the self-energies are met by a degenerate pair of bands that is rotated. -/
example : degS.Ok ∧ degS.Grid ∧ degS.kIdx.Nodup ∧ SxSortOk degS
    ∧ degS.Rechosen exMix exMix [rotated degW, rotated degW] [rotated degW, rotated degW]
    ∧ (∀ k, Within degS.nbands (exMix k) fun b => b < nVMax (degS.eps 0))
    ∧ Within degS.nbands (exMix (degS.kIdx.getD 0 0)) (fun a => a ∈ ({1, 2} : Finset ℕ))
    ∧ (rotated degW).evc 1 0 ≠ degW.evc 1 0 := by
  refine ⟨degS_ok, ⟨(twoK_grid 1).gq, degW_grid, degW_grid⟩, by simp [degS, twoK], ?_, ⟨ex_rechosen, ex_rechosen⟩, fun k => ?_,
    exMix_within _ _ (by simp), ?_⟩
  · intro iq hq
    have : iq = 0 := by simp [degS, twoK] at hq; exact hq
    subst this
    exact ⟨by simp [degS], fun e => by simp [degS, twoK] at e⟩
  · have hn : nVMax (degS.eps 0) = 1 := by
      classical
      have : whereOcc (degS.eps 0) 1 = [(0, 0), (1, 0)] := by
        unfold whereOcc
        show (List.range 2).flatMap (fun k =>
          ((List.range 3).filter fun b => decide (([degW, degW].getD k default).occ b = 1)).map fun b => (k, b)) = _
        simp [List.range_succ, degW]
      unfold nVMax
      rw [this]
      rfl
    exact exMix_within k _ (by simp [hn])
  · simp [rotated, degW, rotU, Finset.sum_range_succ]
    norm_num

/-- The hypotheses of C199 for the polarizability are met. -/
example : ∃ E : EpsIn, E.Ok ∧ E.Grid
    ∧ (∀ k, Rechosen E.nbands (exMix k) (E.wfn.getD k default) ([rotated degW, rotated degW].getD k default))
    ∧ (∀ k, Rechosen E.nbands (exMix k) (E.val.getD k default) ([rotated degW, rotated degW].getD k default))
    ∧ (∀ k, Within E.nbands (exMix k) fun b => (E.wfn.getD k default).occ b = 1) := by
  refine ⟨⟨⟨1, 1, 1⟩, List.replicate 2 0, [degW, degW], [degW, degW], 3, 1, 0, [(0, 0, 0)]⟩, ⟨by decide, ⟨(0, 0), ?_⟩, ⟨(0, 1), ?_⟩, (tiny_ok 1).fits⟩,
    ⟨by simp, degW_grid, degW_grid⟩, ex_rechosen, ex_rechosen, fun k => exMix_within k _ ?_⟩
  · simp [HasOcc, degW]
  · simp [HasOcc, degW]
  · match k with
    | 0 => simp [degW]
    | 1 => simp [degW]
    | (m + 2) => exact Iff.rfl

end Verif.GW
