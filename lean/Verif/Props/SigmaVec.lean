import Verif.Props.SigmaMaps
import Verif.Props.SigmaStatic

/-!
# Property C219: the momentum carried by the matrix elements of the self-energy
-/

namespace Verif.GW

open Verif.Lattice (Vec)
open Verif.GSpace (GVec Shape cryst2idxgrid inBounds at' argsort)
open Verif.FFT (Driver DrvState)
open scoped ComplexConjugate

/-! ## Specification -/

/-- The momentum of the `iq`-th q-point: none at the q0 point. -/
noncomputable def momentum (S : SigIn) (iq : ℕ) : Vec := if iq = S.q0 then 0 else S.qs.getD iq 0

/-- A mesh of q-points: one of them is marked as the q0 point, the components of the others are 0 or larger than 1e-5, different points are different, each has its negative, brought to the first cell, in the list.
The G-vectors of a q-point are those with `q + G` in a region that contains `-v` with `v`; at the q0 point, those of the list have their negatives in it. -/
structure SigIn.QMesh (S : SigIn) (N : Vec → ℝ) (cut : ℝ) : Prop where
  flags : ∀ iq < S.qs.length, Q0At S iq ↔ iq = S.q0
  comp : ∀ iq < S.qs.length, iq ≠ S.q0 → ∀ c, S.qs.getD iq 0 c = 0 ∨ 1 / 100000 < |S.qs.getD iq 0 c|
  minus : ∀ iq < S.qs.length, iq ≠ S.q0 → ∃ i < S.qs.length, i ≠ S.q0 ∧ ∀ c, S.qs.getD i 0 c = if S.qs.getD iq 0 c = 0 then 0 else 1 - S.qs.getD iq 0 c
  distinct : ∀ i < S.qs.length, ∀ j < S.qs.length, S.qs.getD i 0 = S.qs.getD j 0 → i = j
  even : ∀ v, N (-v) = N v
  sphere : ∀ iq < S.qs.length, iq ≠ S.q0 → ∀ g, g ∈ S.gqs.getD iq [] ↔ N (fun c => gv g c + S.qs.getD iq 0 c) ≤ cut
  sphere0 : ∀ g ∈ S.gqs.getD S.q0 [], (-g.1, -g.2.1, -g.2.2) ∈ S.gqs.getD S.q0 []

/-! ## Lemmas -/

/-- The point returned for `-q`. -/
theorem minus_point (S : SigIn) {N : Vec → ℝ} {cut : ℝ} (hm : S.QMesh N cut) (iq : ℕ) (hq : iq < S.qs.length) (h0 : iq ≠ S.q0) :
    indexMinusQ S iq < S.qs.length ∧ indexMinusQ S iq ≠ S.q0 ∧ ∀ c, S.qs.getD (indexMinusQ S iq) 0 c = if S.qs.getD iq 0 c = 0 then 0 else 1 - S.qs.getD iq 0 c := by
  obtain ⟨i, hi, hi0, hic⟩ := hm.minus iq hq h0
  by_cases hs : sq (S.qs.getD iq 0) < (1 / 100000) ^ 2
  · have hI : indexMinusQ S iq = iq := by
      unfold indexMinusQ
      rw [if_pos (.inl hs)]
    have hz : ∀ c, S.qs.getD iq 0 c = 0 := by
      intro c
      rcases hm.comp iq hq h0 c with h | h
      · exact h
      · exfalso
        have h2 : (1 / 100000 : ℝ) ^ 2 < S.qs.getD iq 0 c ^ 2 := by
          rw [← sq_abs (S.qs.getD iq 0 c)]
          exact pow_lt_pow_left₀ h (by norm_num) (by norm_num)
        have h3 : S.qs.getD iq 0 c ^ 2 ≤ sq (S.qs.getD iq 0) := by
          unfold sq
          have a0 := sq_nonneg (S.qs.getD iq 0 0)
          have a1 := sq_nonneg (S.qs.getD iq 0 1)
          have a2 := sq_nonneg (S.qs.getD iq 0 2)
          fin_cases c <;> simp only [Fin.zero_eta, Fin.mk_one, Fin.reduceFinMk] <;> linarith
        linarith
    rw [hI]
    refine ⟨hq, h0, fun c => ?_⟩
    rw [if_pos (hz c), hz c]
  · have hI : indexMinusQ S iq = argmin (S.qs.map fun q => sq (fun c => q c - minusTarget (S.qs.getD iq 0) c)) := by
      unfold indexMinusQ
      rw [if_neg]
      rintro (h | h)
      · exact hs h
      · exact h0 h.symm
    have ht : ∀ c, minusTarget (S.qs.getD iq 0) c = if S.qs.getD iq 0 c = 0 then 0 else 1 - S.qs.getD iq 0 c := by
      intro c
      unfold minusTarget
      rcases hm.comp iq hq h0 c with h | h
      · rw [h]; norm_num
      · have : S.qs.getD iq 0 c ≠ 0 := by
          intro e
          rw [e] at h
          norm_num at h
        rw [if_pos h, if_neg this]
    have hpm : S.qs.getD i 0 ∈ S.qs := by
      rw [List.getD_eq_getElem _ _ hi]
      exact List.getElem_mem hi
    obtain ⟨h1, h2⟩ := argmin_exact S.qs (0 : Vec) (fun q => fun c => q c - minusTarget (S.qs.getD iq 0) c) ⟨_, hpm, by funext c; rw [ht c, hic c, sub_self]; rfl⟩
    rw [← hI] at h1 h2
    have h3 : ∀ c, S.qs.getD (indexMinusQ S iq) 0 c = if S.qs.getD iq 0 c = 0 then 0 else 1 - S.qs.getD iq 0 c := by
      intro c
      have := congrFun h2 c
      simp only [Pi.zero_apply] at this
      rw [← ht c]
      linarith
    refine ⟨h1, ?_, h3⟩
    have : indexMinusQ S iq = i := hm.distinct _ h1 i hi (by funext c; rw [h3, hic])
    rw [this]
    exact hi0

theorem minus_q0 (S : SigIn) : indexMinusQ S S.q0 = S.q0 := by
  unfold indexMinusQ
  rw [if_pos (.inr rfl)]

theorem gv_neg (g : GVec) (n : Fin 3 → ℤ) (c : Fin 3) : gv (-g.1 - n 0, -g.2.1 - n 1, -g.2.2 - n 2) c = -gv g c - n c := by
  unfold gv
  fin_cases c <;> simp

/-- The G-vector that `map_g_to_g_minusq` finds. -/
theorem minus_vector (S : SigIn) {N : Vec → ℝ} {cut : ℝ} (hm : S.QMesh N cut) (iq : ℕ) (hq : iq < S.qs.length) (m : ℕ) (hlt : m < (S.gqs.getD iq []).length) (c : Fin 3) :
    gv ((S.gqs.getD (indexMinusQ S iq) []).getD ((gToMg S iq).getD m 0) (0, 0, 0)) c + momentum S (indexMinusQ S iq) c = -(gv ((S.gqs.getD iq []).getD m (0, 0, 0)) c + momentum S iq c) := by
  have hlq : ∀ i, lq S i = momentum S i := fun i => rfl
  unfold gToMg
  rw [hlq, hlq]
  refine (C116_partner _ _ _ _ m hlt ?_).2 c
  have hg : (S.gqs.getD iq []).getD m (0, 0, 0) ∈ S.gqs.getD iq [] := by
    rw [List.getD_eq_getElem _ _ hlt]
    exact List.getElem_mem hlt
  generalize (S.gqs.getD iq []).getD m (0, 0, 0) = g at hg
  by_cases h0 : iq = S.q0
  · subst h0
    rw [minus_q0]
    refine ⟨_, hm.sphere0 g hg, fun c => ?_⟩
    have := gv_neg g (fun _ => 0) c
    simp only [sub_zero, Int.cast_zero] at this
    rw [this]
    unfold momentum
    rw [if_pos rfl]
    simp
  · obtain ⟨h1, h2, h3⟩ := minus_point S hm iq hq h0
    let n : Fin 3 → ℤ := fun c => if S.qs.getD iq 0 c = 0 then 0 else 1
    have hn : ∀ c, S.qs.getD (indexMinusQ S iq) 0 c = n c - S.qs.getD iq 0 c := by
      intro c
      rw [h3]
      simp only [n]
      split
      · rename_i e
        simp [e]
      · simp
    have e : ∀ c, gv (-g.1 - n 0, -g.2.1 - n 1, -g.2.2 - n 2) c + S.qs.getD (indexMinusQ S iq) 0 c = -(gv g c + S.qs.getD iq 0 c) := by
      intro c
      rw [gv_neg, hn]
      ring
    refine ⟨(-g.1 - n 0, -g.2.1 - n 1, -g.2.2 - n 2), ?_, fun c => ?_⟩
    · rw [hm.sphere _ h1 h2]
      have : (fun c => gv (-g.1 - n 0, -g.2.1 - n 1, -g.2.2 - n 2) c + S.qs.getD (indexMinusQ S iq) 0 c) = -fun c => gv g c + S.qs.getD iq 0 c := funext e
      rw [this, hm.even]
      exact (hm.sphere iq hq h0 g).1 hg
    · unfold momentum
      rw [if_neg h2, if_neg h0]
      exact e c

/-! ## The property -/

/-- **C219.** On a mesh of q-points, the matrix elements that the self-energy uses for `q` and `G` are, for every band, the overlaps between a state at `k` and a state (of the shifted calculation at the q0 point) at a
k-point of the list, for a vector `X` such that the momentum transferred is `-(q + G)` — at the q0 point `-G` — up to the tolerance with which k-points are matched. -/
theorem C219_transfer_partial (S : SigIn) (h : S.Base) {N : Vec → ℝ} {cut : ℝ} (hm : S.QMesh N cut) (iq : ℕ) (hq : iq < S.qs.length) (n : ℕ) (hn : n < S.kIdx.length) :
    ∃ b < S.ks.length, ∀ m < (S.gqs.getD iq []).length, ∃ X : GVec,
      (∀ bra j, amp S iq n bra j m = overlap S.shape (S.wfn.getD (S.kIdx.getD n 0) default) ((if iq = S.q0 then S.wfnq else S.wfn).getD b default) (j + (S.bmin - 1)) bra X) ∧
      ∀ c, |S.ks.getD b 0 c + gv X c - S.ks.getD (S.kIdx.getD n 0) 0 c + (momentum S iq c + gv ((S.gqs.getD iq []).getD m (0, 0, 0)) c)| ≤ 2 / 100000 := by
  have hk : S.kIdx.getD n 0 ∈ S.kIdx := by rw [List.getD_eq_getElem _ _ hn]; exact List.getElem_mem hn
  obtain ⟨b, hb⟩ := h.partner iq hq _ hk
  obtain ⟨b1, b2, -⟩ := C116_bra S _ _ b hb
  have hbra : braOf S iq n = b := by
    unfold braOf
    rw [hb]
    rfl
  have hq0 : Q0At S (indexMinusQ S iq) ↔ iq = S.q0 := by
    by_cases h0 : iq = S.q0
    · rw [h0, minus_q0, hm.flags _ (h0 ▸ hq)]
    · obtain ⟨h1, h2, -⟩ := minus_point S hm iq hq h0
      rw [hm.flags _ h1]
      exact ⟨fun e => absurd e h2, fun e => absurd e h0⟩
  have hsh : shiftOf S (indexMinusQ S iq) = momentum S (indexMinusQ S iq) := by
    unfold shiftOf momentum
    by_cases h0 : iq = S.q0
    · rw [if_pos (hq0.2 h0), if_pos (by rw [h0, minus_q0])]
    · rw [if_neg (fun e => h0 (hq0.1 e)), if_neg (minus_point S hm iq hq h0).2.1]
  refine ⟨b, b1, fun m hlt => ?_⟩
  refine ⟨(((S.gqs.getD (indexMinusQ S iq) []).getD ((gToMg S iq).getD m 0) (0, 0, 0)).1 - umklapp (S.ks.getD (S.kIdx.getD n 0) 0) (shiftOf S (indexMinusQ S iq)) 0,
    ((S.gqs.getD (indexMinusQ S iq) []).getD ((gToMg S iq).getD m 0) (0, 0, 0)).2.1 - umklapp (S.ks.getD (S.kIdx.getD n 0) 0) (shiftOf S (indexMinusQ S iq)) 1,
    ((S.gqs.getD (indexMinusQ S iq) []).getD ((gToMg S iq).getD m 0) (0, 0, 0)).2.2 - umklapp (S.ks.getD (S.kIdx.getD n 0) 0) (shiftOf S (indexMinusQ S iq)) 2), fun bra j => ?_, fun c => ?_⟩
  · unfold amp braWfn
    simp only [hbra]
    by_cases h0 : iq = S.q0
    · rw [if_pos (hq0.2 h0), if_pos h0]
    · rw [if_neg (fun e => h0 (hq0.1 e)), if_neg h0]
  · have hv := minus_vector S hm iq hq m hlt c
    generalize (S.gqs.getD (indexMinusQ S iq) []).getD ((gToMg S iq).getD m 0) (0, 0, 0) = G' at hv ⊢
    have hX : gv (G'.1 - umklapp (S.ks.getD (S.kIdx.getD n 0) 0) (shiftOf S (indexMinusQ S iq)) 0, G'.2.1 - umklapp (S.ks.getD (S.kIdx.getD n 0) 0) (shiftOf S (indexMinusQ S iq)) 1,
        G'.2.2 - umklapp (S.ks.getD (S.kIdx.getD n 0) 0) (shiftOf S (indexMinusQ S iq)) 2) c = gv G' c - umklapp (S.ks.getD (S.kIdx.getD n 0) 0) (shiftOf S (indexMinusQ S iq)) c := by
      unfold gv
      fin_cases c <;> simp
    rw [hX]
    obtain ⟨u1, u2, u3⟩ := C110_umklapp (S.ks.getD (S.kIdx.getD n 0) 0) (shiftOf S (indexMinusQ S iq)) c
    have hc := b2 c
    have habs : |kPlusQ (S.ks.getD (S.kIdx.getD n 0) 0) (shiftOf S (indexMinusQ S iq)) c| ≤ 1 := by
      rw [abs_le]
      constructor <;> linarith
    have e : S.ks.getD b 0 c + (gv G' c - umklapp (S.ks.getD (S.kIdx.getD n 0) 0) (shiftOf S (indexMinusQ S iq)) c) - S.ks.getD (S.kIdx.getD n 0) 0 c + (momentum S iq c + gv ((S.gqs.getD iq []).getD m (0, 0, 0)) c)
        = S.ks.getD b 0 c - kPlusQ (S.ks.getD (S.kIdx.getD n 0) 0) (shiftOf S (indexMinusQ S iq)) c := by
      rw [u1, hsh]
      linarith
    rw [e]
    linarith

open Classical in
/-- **C219 (exchange).** On a mesh of q-points, `sigma_x` is the exchange energy over all momentum transfers `q + G` below the cutoff, with the states at `k - q`. -/
theorem C219_exchange_partial (drv : Driver) (S : SigIn) (st : DrvState ℂ) (h : S.Ok) (hg : S.Grid) (hnd : S.kIdx.Nodup) (y : Bool) (size : Option ℕ) (hs : ∀ s, size = some s → 0 < s) {N : Vec → ℝ} {cut : ℝ} (hm : S.QMesh N cut) :
    ∃ (Y : ℕ → ℕ → ℂ) (bra : ℕ → ℕ → ℕ) (X : ℕ → ℕ → ℕ → GVec), sigmaX drv S st y size = .ok Y ∧
      (∀ iq < S.qs.length, ∀ n < S.kIdx.length, bra iq n < S.ks.length ∧ ∀ m < (S.gqs.getD iq []).length, ∀ c,
        |S.ks.getD (bra iq n) 0 c + gv (X iq n m) c - S.ks.getD (S.kIdx.getD n 0) 0 c + (momentum S iq c + gv ((S.gqs.getD iq []).getD m (0, 0, 0)) c)| ≤ 2 / 100000) ∧
      ∀ n < S.kIdx.length, ∀ j, Y n j = ((-S.factor * ∑ iq ∈ Finset.range S.qs.length, ∑ b ∈ Finset.range (nVMax (S.eps 0)), ∑ m ∈ Finset.range (S.gqs.getD iq []).length, (S.v.getD iq []).getD m 0 *
        Complex.normSq (overlap S.shape (S.wfn.getD (S.kIdx.getD n 0) default) ((if iq = S.q0 then S.wfnq else S.wfn).getD (bra iq n) default) (j + (S.bmin - 1)) b (X iq n m)) : ℝ) : ℂ) := by
  obtain ⟨Y, hY, hval⟩ := C112_exchange drv S st h hg hnd y size hs
  have key := fun iq hq n hn => C219_transfer_partial S h.toBase hm iq hq n hn
  choose! bra b1 b2 using key
  choose! X x1 x2 using b2
  refine ⟨Y, bra, X, hY, fun iq hq n hn => ⟨b1 iq hq n hn, fun m hlt c => x2 iq hq n hn m hlt c⟩, fun n hn j => ?_⟩
  rw [hval n hn j]
  refine congrArg (fun x : ℝ => ((-S.factor * x : ℝ) : ℂ)) ?_
  refine Finset.sum_congr rfl fun iq hiq => Finset.sum_congr rfl fun b _ => ?_
  unfold pairX
  refine Finset.sum_congr rfl fun m hmm => ?_
  rw [x1 iq (Finset.mem_range.1 hiq) n hn m (Finset.mem_range.1 hmm)]

/-! ## What the mesh must provide at the q0 point -/

/-- **C219 (violated).** The list of G-vectors at the q0 point is cut at `|q0 + G|² ≤ cut` with the small shift `q0` (sigma.py:163-170), the search for `-G` is made without it (sigma.py:768-769). If the cutoff falls on a
shell, the shift keeps one of `G`, `-G` only, and another vector is taken for the missing one. -/
theorem C219_cut_shell (S : SigIn) (h0 : S.q0 = 0) (hq : S.qs = [ex (1 / 1000)]) (hg : S.gqs = [[(0, 0, 0), (-1, 0, 0)]]) :
    (∀ g : GVec, g ∈ S.gqs.getD 0 [] ↔ sq (fun c => gv g c + S.qs.getD 0 0 c) ≤ 1) ∧ (gToMg S 0).getD 1 0 = 0 ∧ (S.gqs.getD 0 []).getD ((gToMg S 0).getD 1 0) (0, 0, 0) = (0, 0, 0) := by
  have h1 : (gToMg S 0).getD 1 0 = 0 := by
    have e : (gToMg S 0).getD 1 0 = argmin [1, 4] := by
      have hi : indexMinusQ S 0 = 0 := by
        have := minus_q0 S
        rwa [h0] at this
      have hl : lq S 0 = 0 := by
        unfold lq
        rw [if_pos h0.symm]
      unfold gToMg mapG
      rw [hi, hl, hg]
      simp only [List.getD_cons_zero, List.map_cons, List.map_nil, List.getD_cons_succ]
      congr 2
      · simp [sq, gv]
      · simp [sq, gv]
        norm_num
    rw [e]
    have hlt := argmin_lt ([1, 4] : List ℝ) (by simp)
    have hmin := argmin_spec ([1, 4] : List ℝ) (by simp) 1 (by simp)
    generalize argmin ([1, 4] : List ℝ) = a at hlt hmin
    simp only [List.length_cons, List.length_nil] at hlt
    interval_cases a
    · rfl
    · norm_num at hmin
  refine ⟨fun g => ?_, h1, by rw [h1, hg]; rfl⟩
  rw [hg, hq]
  obtain ⟨x, y, z⟩ := g
  simp only [List.getD_cons_zero, List.mem_cons, List.not_mem_nil, or_false, Prod.mk.injEq]
  have e : sq (fun c => gv (x, y, z) c + ex (1 / 1000) c) = ((x : ℝ) + 1 / 1000) ^ 2 + (y : ℝ) ^ 2 + (z : ℝ) ^ 2 := by
    simp [sq, gv, ex]
  rw [e]
  constructor
  · rintro (⟨rfl, rfl, rfl⟩ | ⟨rfl, rfl, rfl⟩) <;> norm_num
  · intro hle
    have hx1 : x < 1 := by
      by_contra hx
      have : (1 : ℝ) ≤ x := by exact_mod_cast not_lt.1 hx
      nlinarith [sq_nonneg (y : ℝ), sq_nonneg (z : ℝ)]
    have hx2 : -2 < x := by
      by_contra hx
      have : (x : ℝ) ≤ -2 := by exact_mod_cast not_lt.1 hx
      nlinarith [sq_nonneg (y : ℝ), sq_nonneg (z : ℝ)]
    have hx3 : (1 / 1000 : ℝ) ^ 2 ≤ ((x : ℝ) + 1 / 1000) ^ 2 := by
      have : x = 0 ∨ x = -1 := by omega
      rcases this with rfl | rfl <;> norm_num
    have hyz : ∀ w : ℤ, (w : ℝ) ^ 2 < 1 → w = 0 := by
      intro w hw
      have : w ^ 2 < 1 := by exact_mod_cast hw
      have h0 : w ^ 2 = 0 := le_antisymm (by omega) (sq_nonneg w)
      exact pow_eq_zero_iff (two_ne_zero) |>.1 h0
    have hy := hyz y (by nlinarith [sq_nonneg (z : ℝ)])
    have hz := hyz z (by nlinarith [sq_nonneg (y : ℝ)])
    omega

/-! ## A case that meets the hypotheses -/

/-- Two q-points: the q0 point, with a small shift, and (1/2, 0, 0). -/
noncomputable def twoQ : SigIn :=
  { twoK 1 with shape := ⟨3, 1, 1⟩, qs := [ex (1 / 1000), halfX], q0 := 0, isQ0 := some [true, false], gqs := [[(0, 0, 0)], [(0, 0, 0), (-1, 0, 0)]], v := [[1], [1, 1]] }

theorem twoQ_minus : indexMinusQ twoQ 1 = 1 := by
  have ht : minusTarget (twoQ.qs.getD 1 0) = halfX := by
    funext c
    unfold minusTarget
    by_cases e : c = 0
    · subst e
      simp [twoQ, halfX]
      norm_num [abs_of_pos]
    · simp [twoQ, halfX, e]
  have hl : (1 / 100000 : ℝ) ^ 2 < sq halfX := by
    simp [sq, halfX]
    norm_num
  have hI : indexMinusQ twoQ 1 = argmin (twoQ.qs.map fun q => sq (fun c => q c - minusTarget (twoQ.qs.getD 1 0) c)) := by
    unfold indexMinusQ
    rw [if_neg]
    rintro (h | h)
    · exact absurd h (not_lt.2 hl.le)
    · exact absurd h (by simp [twoQ])
  obtain ⟨h1, h2⟩ := argmin_exact twoQ.qs (0 : Vec) (fun q => fun c => q c - minusTarget (twoQ.qs.getD 1 0) c) ⟨halfX, by simp [twoQ], by rw [ht]; funext c; exact sub_self _⟩
  rw [← hI] at h1 h2
  have hlen : twoQ.qs.length = 2 := rfl
  rw [hlen] at h1
  generalize indexMinusQ twoQ 1 = i at h1 h2
  interval_cases i
  · have := congrFun h2 0
    rw [ht] at this
    simp [twoQ, ex, halfX] at this
    norm_num at this
  · rfl

theorem twoQ_mesh : twoQ.QMesh sq (1 / 4) where
  flags := by
    intro iq hq
    have hq : iq < 2 := hq
    unfold Q0At
    interval_cases iq <;> simp [twoQ]
  comp := by
    intro iq hq h0 c
    have hq : iq < 2 := hq
    have h0 : iq ≠ 0 := h0
    have : iq = 1 := by omega
    subst this
    by_cases e : c = 0
    · right
      subst e
      simp [twoQ, halfX]
      norm_num [abs_of_pos]
    · left
      simp [twoQ, halfX, e]
  minus := by
    intro iq hq h0
    have hq : iq < 2 := hq
    have h0 : iq ≠ 0 := h0
    have : iq = 1 := by omega
    subst this
    refine ⟨1, hq, h0, fun c => ?_⟩
    by_cases e : c = 0
    · subst e
      simp [twoQ, halfX]
      norm_num
    · simp [twoQ, halfX, e]
  distinct := by
    intro i hi j hj e
    have hi : i < 2 := hi
    have hj : j < 2 := hj
    have := congrFun e 0
    interval_cases i <;> interval_cases j <;> first | rfl | (simp [twoQ, ex, halfX] at this <;> norm_num at this)
  even := fun v => by simp [sq]
  sphere := by
    intro iq hq h0 g
    have hq : iq < 2 := hq
    have h0 : iq ≠ 0 := h0
    have : iq = 1 := by omega
    subst this
    obtain ⟨x, y, z⟩ := g
    have e : sq (fun c => gv (x, y, z) c + twoQ.qs.getD 1 0 c) = ((x : ℝ) + 1 / 2) ^ 2 + (y : ℝ) ^ 2 + (z : ℝ) ^ 2 := by
      simp [sq, gv, twoQ, halfX]
    rw [e]
    simp only [twoQ, List.getD_cons_succ, List.getD_cons_zero, List.mem_cons, List.not_mem_nil, or_false, Prod.mk.injEq]
    constructor
    · rintro (⟨rfl, rfl, rfl⟩ | ⟨rfl, rfl, rfl⟩) <;> norm_num
    · intro hle
      have hi : (x ^ 2 + x) + y ^ 2 + z ^ 2 ≤ 0 := by
        have : ((x ^ 2 + x + y ^ 2 + z ^ 2 : ℤ) : ℝ) ≤ 0 := by
          push_cast
          nlinarith
        exact_mod_cast this
      have hx : 0 ≤ x ^ 2 + x := by
        rcases le_or_gt 0 x with h | h
        · positivity
        · nlinarith
      have hy := sq_nonneg y
      have hz := sq_nonneg z
      have hy0 : y = 0 := pow_eq_zero_iff two_ne_zero |>.1 (by omega : y ^ 2 = 0)
      have hz0 : z = 0 := pow_eq_zero_iff two_ne_zero |>.1 (by omega : z ^ 2 = 0)
      have hx0 : x * (x + 1) = 0 := by
        have : x ^ 2 + x = 0 := by omega
        linarith [this, sq x]
      rcases mul_eq_zero.1 hx0 with h | h <;> omega
  sphere0 := by
    intro g hg
    have hg : g = (0, 0, 0) := by simpa [twoQ] using hg
    subst hg
    simp [twoQ]

theorem match_pair (S : SigIn) (hk : S.ks = [0, halfX]) (iq : ℕ) (h : shiftOf S iq = 0 ∨ shiftOf S iq = halfX) : ∃ b, matchK S iq 0 = some b := by
  classical
  have hx : ∃ b ∈ List.range S.ks.length, decide (IsCloseRel (S.ks.getD b 0) (kPlusQ (S.ks.getD 0 0) (S.eps iq).qadd)) = true := by
    rw [eps_qadd, hk]
    rcases h with h | h
    · refine ⟨0, by simp, ?_⟩
      rw [h, decide_eq_true_eq]
      intro c
      have e : kPlusQ (([0, halfX] : List Vec).getD 0 0) 0 c = 0 := by
        unfold kPlusQ umklapp around Nonloc.rint
        simp
      rw [e]
      simp
    · refine ⟨1, by simp, ?_⟩
      rw [h, decide_eq_true_eq]
      intro c
      have e : kPlusQ (([0, halfX] : List Vec).getD 0 0) halfX = halfX := kPlus_half
      rw [e]
      simp only [List.getD_cons_succ, List.getD_cons_zero, sub_self, abs_zero]
      positivity
  obtain ⟨b, hb, hp⟩ := hx
  unfold matchK
  cases hf : (List.range S.ks.length).find? fun i => decide (IsCloseRel (S.ks.getD i 0) (kPlusQ (S.ks.getD 0 0) (S.eps iq).qadd)) with
  | some b => exact ⟨b, rfl⟩
  | none =>
    rw [List.find?_eq_none] at hf
    exact absurd hp (hf b hb)

theorem twoQ_shift (iq : ℕ) (hq : iq < 2) : shiftOf twoQ iq = 0 ∨ shiftOf twoQ iq = halfX := by
  unfold shiftOf Q0At
  interval_cases iq
  · left
    simp [twoQ]
  · right
    simp [twoQ]

theorem twoQ_im (iq : ℕ) (hq : iq < 2) : indexMinusQ twoQ iq = iq := by
  interval_cases iq
  · exact minus_q0 twoQ
  · exact twoQ_minus

theorem umk_zero : umklapp 0 0 = 0 := by
  funext c
  unfold umklapp around Nonloc.rint
  simp

theorem twoQ_ok : twoQ.Ok where
  pos := (by decide : (⟨3, 1, 1⟩ : Shape).Pos)
  occupied := ⟨(0, 0), by simp [HasOcc, SigIn.eps, twoQ, twoK, flatW]⟩
  empty := ⟨(1, 1), by simp [HasOcc, SigIn.eps, twoQ, twoK, flatW]⟩
  partner := by
    intro iq hq k hk
    have hq : iq < 2 := hq
    have hk' : k = 0 := by simpa [twoQ, twoK] using hk
    subst hk'
    rw [twoQ_im iq hq]
    exact match_pair twoQ rfl iq (twoQ_shift iq hq)
  fits := by
    intro iq hq k hk g hg
    have hq : iq < 2 := hq
    have hk' : k = 0 := by simpa [twoQ, twoK] using hk
    subst hk'
    rw [twoQ_im iq hq] at hg
    unfold gUmk at hg
    rw [eps_qadd, show (twoQ.eps iq).ks.getD 0 0 = 0 from rfl] at hg
    have hu : umklapp 0 (shiftOf twoQ iq) = 0 := by
      rcases twoQ_shift iq hq with h | h <;> rw [h]
      · exact umk_zero
      · exact umk_half
    rw [hu] at hg
    have hgs : g ∈ ([(0, 0, 0), (-1, 0, 0)] : List GVec) := by
      simp only [Pi.zero_apply, sub_zero] at hg
      obtain ⟨g', hg', rfl⟩ := List.mem_map.1 hg
      have hg' : g' ∈ twoQ.gqs.getD iq [] := hg'
      interval_cases iq
      · have : g' = (0, 0, 0) := by simpa [twoQ] using hg'
        simp [this]
      · simpa [twoQ] using hg'
    have : ∀ g ∈ ([(0, 0, 0), (-1, 0, 0)] : List GVec), inBounds ⟨3, 1, 1⟩ g = true := by decide
    exact this g hgs
  nonempty := by
    intro iq hq
    have hq : iq < 2 := hq
    rw [twoQ_im iq hq]
    interval_cases iq <;> simp [twoQ]
  vlen := by
    intro iq hq
    have hq : iq < 2 := hq
    interval_cases iq <;> rfl

theorem flatW_grid3 (m : ℕ) : OnGrid ⟨3, 1, 1⟩ (flatW m).gs := ⟨by simp [flatW], by simp [flatW]; decide⟩

theorem twoQ_grid : twoQ.Grid where
  gq := by
    intro iq
    rcases iq with _ | _ | iq <;> simp [twoQ]
  wfn := by
    intro k
    rcases k with _ | _ | k
    · exact flatW_grid3 1
    · exact flatW_grid3 1
    · exact ⟨List.nodup_nil, fun g hg => absurd hg (List.not_mem_nil)⟩
  wfnq := by
    intro k
    rcases k with _ | _ | k
    · exact flatW_grid3 1
    · exact flatW_grid3 1
    · exact ⟨List.nodup_nil, fun g hg => absurd hg (List.not_mem_nil)⟩

/-- The hypotheses of C219 are met by two q-points, the second on the zone boundary with two G-vectors. -/
example : twoQ.Ok ∧ twoQ.Grid ∧ twoQ.QMesh sq (1 / 4) ∧ twoQ.kIdx.Nodup ∧ twoQ.qs.length = 2 ∧ (twoQ.gqs.getD 1 []).length = 2 := ⟨twoQ_ok, twoQ_grid, twoQ_mesh, by simp [twoQ, twoK], rfl, rfl⟩

end Verif.GW
