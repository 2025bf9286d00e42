import Verif.Props.SigmaStatic

/-!
# C122: Coulomb hole by closure (`sigma_ch_static_exact`)
-/

namespace Verif.GW

open Verif.Lattice (Vec)
open Verif.GSpace (GVec Shape cryst2idxgrid inBounds)
open Verif.FFT (Driver DrvState)
open scoped ComplexConjugate

/-- Input for which the closure sum runs through. -/
structure ExactOk (S : SigIn) : Prop where
  pos : S.shape.Pos
  fits : ∀ iq < S.qs.length, ∀ a ∈ S.gqs.getD iq [], ∀ b ∈ S.gqs.getD iq [], inBounds S.shape (gSub b a) = true
  numk : S.qs.length ≤ S.ks.length
  vlen : ∀ iq < S.qs.length, (S.v.getD iq []).length = (S.gqs.getD iq []).length
  wfn : ∀ k, OnGrid S.shape (S.wfn.getD k default).gs
  distinct : ∀ i < S.ks.length, ∀ j < S.ks.length, IsClose (S.ks.getD i 0) (S.ks.getD j 0) → i = j

theorem close_refl (a : Vec) : IsClose a a := by
  intro c
  rw [sub_self, abs_zero]
  positivity

theorem exactBra_self (S : SigIn) (h : ExactOk S) (k : ℕ) (hk : k < S.qs.length) : exactBra S k = k := by
  classical
  unfold exactBra
  have hf : ∃ j, ((List.range S.qs.length).reverse.find? fun i => decide (IsClose (S.ks.getD i 0) (S.ks.getD k 0))) = some j := by
    rw [← Option.isSome_iff_exists, List.find?_isSome]
    exact ⟨k, by simpa using hk, by simpa using close_refl _⟩
  obtain ⟨j, hj⟩ := hf
  have hjl : j < S.qs.length := by simpa using List.mem_of_find?_eq_some hj
  have hje := List.find?_some hj
  simp only [decide_eq_true_eq] at hje
  rw [hj]
  have := h.numk
  exact h.distinct j (by omega) k (by omega) hje

theorem exactPart_ok (drv : Driver) (S : SigIn) (st : DrvState ℂ) (h : ExactOk S) (norm2 : GVec → ℝ) (cut : ℝ) (iq : ℕ) (hq : iq < S.qs.length) :
    exactPart drv S st norm2 cut iq = .ok fun n j =>
      (∑ k ∈ Finset.range (S.gqs.getD iq []).length, ∑ m ∈ Finset.range (S.gqs.getD iq []).length,
        exactMel drv S st norm2 cut n j (gSub ((S.gqs.getD iq []).getD m (0, 0, 0)) ((S.gqs.getD iq []).getD k (0, 0, 0)))
          * S.epsI iq m k * ((S.v.getD iq []).getD m 0 : ℂ)) / (S.shape.size : ℂ) := by
  unfold exactPart
  obtain ⟨l, hl⟩ := cryst2idx_ok S.shape h.pos ((S.gqs.getD iq []).flatMap fun a => (S.gqs.getD iq []).map fun b => gSub b a) (by
    intro g hg
    obtain ⟨a, ha, hm⟩ := List.mem_flatMap.1 hg
    obtain ⟨b, hb, rfl⟩ := List.mem_map.1 hm
    exact h.fits iq hq a ha b hb)
  have hk : ¬ S.ks.length < S.qs.length := by have := h.numk; omega
  have hv : ¬ ((S.v.getD iq []).length ≠ (S.gqs.getD iq []).length) := by simpa using h.vlen iq hq
  simp only [bind, Except.bind, pure, Except.pure, hl, if_neg hk, if_neg hv]

/-- Plane-wave density matrix element `⟨j| exp(iX·r) |j⟩` of band `j` at k-point `k`. -/
noncomputable def rhoX (S : SigIn) (k j : ℕ) (X : GVec) : ℂ := overlap S.shape (S.wfn.getD k default) (S.wfn.getD k default) j j X

/-- Closure Coulomb hole of band `j` at k-point `k`: `½ factor Σ_q Σ_GG' ρ(G'-G) (ε⁻¹-1)_G'G v_q(G')`. -/
noncomputable def closureCH (S : SigIn) (k j : ℕ) : ℂ :=
  1 / 2 * (S.factor : ℂ) * ∑ iq ∈ Finset.range S.qs.length,
    ∑ a ∈ Finset.range (S.gqs.getD iq []).length, ∑ b ∈ Finset.range (S.gqs.getD iq []).length,
      rhoX S k j (gSub ((S.gqs.getD iq []).getD b (0, 0, 0)) ((S.gqs.getD iq []).getD a (0, 0, 0)))
        * S.epsI iq b a * ((S.v.getD iq []).getD b 0 : ℂ)

/-- **C122 (closure Coulomb hole; partial).** With all differences `G' - G` below the cutoff, distinct k-points each listed once and with index
below the number of q-points, entry `(n, j)` is the closure Coulomb hole of *band `j` counted from the lowest band* — the requested band if
`band_index_min = 1`. On any number of processes. The missing cases fail: `C122_band_offset`, `C122_high_k`, `C122_truncated`. -/
theorem C122_exact_partial (drv : Driver) (S : SigIn) (st : DrvState ℂ) (h : ExactOk S) (norm2 : GVec → ℝ) (cut : ℝ) (hnd : S.kIdx.Nodup)
    (hk : ∀ k ∈ S.kIdx, k < S.qs.length)
    (hcut : ∀ iq < S.qs.length, ∀ a ∈ S.gqs.getD iq [], ∀ b ∈ S.gqs.getD iq [], norm2 (gSub b a) ≤ cut)
    (size : Option ℕ) (hs : ∀ s, size = some s → 0 < s) :
    ∃ X, sigmaCHExact drv S st norm2 cut size = .ok X
      ∧ ∀ n < S.kIdx.length, ∀ j, X n j = closureCH S (S.kIdx.getD n 0) j := by
  obtain ⟨X, hX, hsum⟩ := qSum_ok size hs S.qs.length 1 (exactPart drv S st norm2 cut) _ fun iq hq => exactPart_ok drv S st h norm2 cut iq hq
  unfold sigmaCHExact
  simp only [bind, Except.bind, pure, Except.pure, hX]
  refine ⟨_, rfl, ?_⟩
  intro n hn j
  rw [hsum]
  have hmem : S.kIdx.getD n 0 ∈ S.kIdx := by rw [List.getD_eq_getElem _ _ hn]; exact List.getElem_mem hn
  have hidx : S.kIdx.idxOf (S.kIdx.getD n 0) = n := by
    rw [List.getD_eq_getElem _ _ hn]; exact hnd.idxOf_getElem n hn
  have hkn := hk _ hmem
  have hN : (S.shape.size : ℂ) ≠ 0 := by
    have : 0 < S.shape.size := by
      unfold GSpace.Shape.size
      exact Nat.mul_pos (Nat.mul_pos h.pos.1 h.pos.2.1) h.pos.2.2
    exact_mod_cast this.ne'
  unfold closureCH
  rw [mul_comm]
  congr 1
  · push_cast; norm_num
  · refine Finset.sum_congr rfl fun iq hiq => ?_
    have hq := Finset.mem_range.1 hiq
    rw [one_mul, Finset.sum_div]
    refine Finset.sum_congr rfl fun a ha => ?_
    rw [Finset.sum_div]
    refine Finset.sum_congr rfl fun b hb => ?_
    have ha' := Finset.mem_range.1 ha
    have hb' := Finset.mem_range.1 hb
    have hA : (S.gqs.getD iq []).getD a (0, 0, 0) ∈ S.gqs.getD iq [] := by
      rw [List.getD_eq_getElem _ _ ha']; exact List.getElem_mem _
    have hB : (S.gqs.getD iq []).getD b (0, 0, 0) ∈ S.gqs.getD iq [] := by
      rw [List.getD_eq_getElem _ _ hb']; exact List.getElem_mem _
    have hfit := h.fits iq hq _ hA _ hB
    have hc := hcut iq hq _ hA _ hB
    have e : exactMel drv S st norm2 cut n j (gSub ((S.gqs.getD iq []).getD b (0, 0, 0)) ((S.gqs.getD iq []).getD a (0, 0, 0)))
        = (S.shape.size : ℂ) * rhoX S (S.kIdx.getD n 0) j
          (gSub ((S.gqs.getD iq []).getD b (0, 0, 0)) ((S.gqs.getD iq []).getD a (0, 0, 0))) := by
      generalize gSub ((S.gqs.getD iq []).getD b (0, 0, 0)) ((S.gqs.getD iq []).getD a (0, 0, 0)) = Y at hfit hc
      unfold exactMel
      simp only
      rw [if_pos ⟨hidx, hkn⟩, if_neg (by linarith), exactBra_self S h _ hkn,
        fftProd_eq drv S.shape h.pos st [Y] ⟨by simp, by simpa using hfit⟩ _ _ (h.wfn _) (h.wfn _)]
      rfl
    rw [e]
    field_simp

/-- **C122 (violated).** The result does not depend on `band_index_min`: with `band_index_min > 1` it is the Coulomb hole of the lowest bands
instead of the requested ones. -/
theorem C122_band_offset (drv : Driver) (S : SigIn) (st : DrvState ℂ) (norm2 : GVec → ℝ) (cut : ℝ) (size : Option ℕ) (b : ℕ) :
    sigmaCHExact drv ({ S with bmin := b }) st norm2 cut size = sigmaCHExact drv S st norm2 cut size := rfl

/-- **C122 (violated).** A self-energy k-point whose position in the k-point list is not below the number of q-points gets zero. -/
theorem C122_high_k (drv : Driver) (S : SigIn) (st : DrvState ℂ) (h : ExactOk S) (norm2 : GVec → ℝ) (cut : ℝ) (n : ℕ)
    (hk : S.qs.length ≤ S.kIdx.getD n 0) (size : Option ℕ) (hs : ∀ s, size = some s → 0 < s) :
    ∃ X, sigmaCHExact drv S st norm2 cut size = .ok X ∧ ∀ j, X n j = 0 := by
  obtain ⟨X, hX, hsum⟩ := qSum_ok size hs S.qs.length 1 (exactPart drv S st norm2 cut) _ fun iq hq => exactPart_ok drv S st h norm2 cut iq hq
  unfold sigmaCHExact
  simp only [bind, Except.bind, pure, Except.pure, hX]
  refine ⟨_, rfl, ?_⟩
  intro j
  rw [hsum, Finset.sum_eq_zero, zero_mul]
  intro iq _
  have e : ∀ Y, exactMel drv S st norm2 cut n j Y = 0 := by
    intro Y
    unfold exactMel
    simp only
    rw [if_neg (by intro hh; omega)]
  simp [e]

/-- **C122 (violated).** Pairs with `|G' - G|²` above the cutoff are dropped, although both vectors are inside it. -/
theorem C122_truncated (drv : Driver) (S : SigIn) (st : DrvState ℂ) (norm2 : GVec → ℝ) (cut : ℝ) (n j : ℕ) (X : GVec) (h : cut < norm2 X) :
    exactMel drv S st norm2 cut n j X = 0 := by
  unfold exactMel
  simp only
  split_ifs <;> rfl

/-- The hypotheses are met by the two-k-point system. -/
example : ExactOk (twoK 1) ∧ (twoK 1).kIdx.Nodup ∧ (∀ k ∈ (twoK 1).kIdx, k < (twoK 1).qs.length)
    ∧ ∀ iq < (twoK 1).qs.length, ∀ a ∈ (twoK 1).gqs.getD iq [], ∀ b ∈ (twoK 1).gqs.getD iq [], (fun _ => (0 : ℝ)) (gSub b a) ≤ 1 := by
  refine ⟨⟨(by decide : (⟨1, 1, 1⟩ : Shape).Pos), ?_, by simp [twoK], (twoK_ok 1 (by omega)).vlen, (twoK_grid 1).wfn, ?_⟩,
    by simp [twoK], by simp [twoK], fun _ _ _ _ _ _ => by norm_num⟩
  · intro iq hq a ha b hb
    have hq' : iq = 0 := by simp [twoK] at hq; exact hq
    subst hq'
    have ha' : a = (0, 0, 0) := by simpa [twoK] using ha
    have hb' : b = (0, 0, 0) := by simpa [twoK] using hb
    subst ha' hb'
    show inBounds ⟨1, 1, 1⟩ (gSub (0, 0, 0) (0, 0, 0)) = true
    decide
  · intro i hi j hj hc
    have hi' : i < 2 := hi
    have hj' : j < 2 := hj
    have h0 := hc 0
    interval_cases i <;> interval_cases j
    · rfl
    · simp [twoK, halfX] at h0; norm_num [abs_of_pos] at h0
    · simp [twoK, halfX] at h0; norm_num [abs_of_pos] at h0
    · rfl

/-! ## Sign and bound -/

theorem normSq_wave (s : Shape) (g : GVec) (r : ℕ) : Complex.normSq (wave s g r) = 1 := by
  have hroot : ∀ (n : ℕ) (m : ℤ) (x : ℕ), conj (root n m x) * root n m x = 1 := by
    intro n m x
    rw [root_conj, ← root_add]
    simp [root]
  have : ((Complex.normSq (wave s g r) : ℝ) : ℂ) = 1 := by
    rw [Complex.normSq_eq_conj_mul_self]
    unfold wave
    simp only [map_mul]
    have h1 := hroot s.n1 g.1 ((dims s).ix r)
    have h2 := hroot s.n2 g.2.1 ((dims s).iy r)
    have h3 := hroot s.n3 g.2.2 ((dims s).iz r)
    calc _ = (conj (root s.n1 g.1 ((dims s).ix r)) * root s.n1 g.1 ((dims s).ix r))
          * (conj (root s.n2 g.2.1 ((dims s).iy r)) * root s.n2 g.2.1 ((dims s).iy r))
          * (conj (root s.n3 g.2.2 ((dims s).iz r)) * root s.n3 g.2.2 ((dims s).iz r)) := by ring
      _ = 1 := by rw [h1, h2, h3]; norm_num
  exact_mod_cast this

/-- Overlap as a sum over grid points. -/
theorem overlap_grid (drv : Driver) (s : Shape) (hs : s.Pos) (st : DrvState ℂ) (w : Wfn) (hw : OnGrid s w.gs) (j : ℕ) (X : GVec)
    (hX : inBounds s X = true) :
    (s.size : ℂ) * overlap s w w j j X
      = ∑ r : Fin (dims s).size, wave s X r * ((Complex.normSq (phi drv s st w j r) : ℝ) : ℂ) := by
  have h1 := fftProd_eq drv s hs st [X] ⟨by simp, by simpa using hX⟩ w w hw hw j j
  unfold fftProd at h1
  rw [drv.r2g_eq (dims s) _ _ (idxOf_valid s hs [X] ⟨by simp, by simpa using hX⟩) st st.f _ _ (fun _ _ => rfl), FFT.fullR2g_eq] at h1
  simp only [idxOf, List.map_cons, List.map_nil, List.cons.injEq, and_true] at h1
  rw [← h1, Finset.sum_range]
  refine Finset.sum_congr rfl fun r _ => ?_
  rw [dif_pos r.2, ker3_fwd_wave s hs X hX, Complex.normSq_eq_conj_mul_self]

theorem wave_sub (s : Shape) (a b : GVec) (r : ℕ) : wave s (gSub b a) r = wave s b r * conj (wave s a r) := by
  rw [wave_conj, wave_mul]
  rfl

/-- **C122 (sign and size).** If `ε` comes from a Hermitian non-positive polarizability with the same positive Coulomb interaction, the closure
Coulomb hole is real, not positive, and at most half the bare interaction in size: `-½ factor Σ_q Σ_G v_q(G) ⟨j|j⟩ ≤ Σ_CH ≤ 0`. -/
theorem C122_bounds (S : SigIn) (h : ExactOk S) (hf : 0 ≤ S.factor) (hscr : ∀ iq < S.qs.length, Screened S iq) (k j : ℕ) :
    (closureCH S k j).im = 0 ∧ (closureCH S k j).re ≤ 0
    ∧ -(1 / 2 * S.factor * ∑ iq ∈ Finset.range S.qs.length, (∑ a ∈ Finset.range (S.gqs.getD iq []).length, (S.v.getD iq []).getD a 0)
        * (rhoX S k j (0, 0, 0)).re) ≤ (closureCH S k j).re := by
  -- any driver, any state: used only as a device
  let drv : Driver := Driver.full
  let st : DrvState ℂ := ⟨⟨fun _ => 0, fun _ => 0⟩, ⟨fun _ => 0, fun _ => 0, fun _ => 0, fun _ => 0⟩⟩
  have hNn : 0 < S.shape.size := by
    unfold GSpace.Shape.size
    exact Nat.mul_pos (Nat.mul_pos h.pos.1 h.pos.2.1) h.pos.2.2
  have hN : (S.shape.size : ℂ) ≠ 0 := by exact_mod_cast hNn.ne'
  have hNr : (0 : ℝ) < S.shape.size := by exact_mod_cast hNn
  set w := S.wfn.getD k default with hw
  set d : Fin (dims S.shape).size → ℝ := fun r => Complex.normSq (phi drv S.shape st w j r) / S.shape.size with hd
  have hd0 : ∀ r : Fin (dims S.shape).size, 0 ≤ d r := fun r => div_nonneg (Complex.normSq_nonneg _) hNr.le
  have hrho : ∀ X, inBounds S.shape X = true → rhoX S k j X = ∑ r : Fin (dims S.shape).size, wave S.shape X r * (d r : ℂ) := by
    intro X hX
    have := overlap_grid drv S.shape h.pos st w (h.wfn k) j X hX
    unfold rhoX
    rw [← hw, show overlap S.shape w w j j X = ((S.shape.size : ℂ) * overlap S.shape w w j j X) / (S.shape.size : ℂ) by field_simp, this,
      Finset.sum_div]
    refine Finset.sum_congr rfl fun r _ => ?_
    rw [hd]
    push_cast
    ring
  have hrho0 : (rhoX S k j (0, 0, 0)).re = ∑ r : Fin (dims S.shape).size, d r := by
    have h0 : inBounds S.shape (0, 0, 0) = true := by
      rw [GSpace.inBounds_iff]
      have : ∀ n : ℕ, 0 < n → GSpace.inRange n 0 = true := by
        intro n hn
        unfold GSpace.inRange
        simp
        omega
      exact ⟨this _ h.pos.1, this _ h.pos.2.1, this _ h.pos.2.2⟩
    rw [hrho _ h0]
    have : ∀ r : Fin (dims S.shape).size, wave S.shape (0, 0, 0) r = 1 := by
      intro r
      unfold wave root
      simp
    simp only [this, one_mul]
    rw [← Complex.ofReal_sum, Complex.ofReal_re]
  -- one q-point
  have hq : ∀ iq < S.qs.length,
      (∑ a ∈ Finset.range (S.gqs.getD iq []).length, ∑ b ∈ Finset.range (S.gqs.getD iq []).length,
        rhoX S k j (gSub ((S.gqs.getD iq []).getD b (0, 0, 0)) ((S.gqs.getD iq []).getD a (0, 0, 0)))
          * S.epsI iq b a * ((S.v.getD iq []).getD b 0 : ℂ)).im = 0
      ∧ (∑ a ∈ Finset.range (S.gqs.getD iq []).length, ∑ b ∈ Finset.range (S.gqs.getD iq []).length,
        rhoX S k j (gSub ((S.gqs.getD iq []).getD b (0, 0, 0)) ((S.gqs.getD iq []).getD a (0, 0, 0)))
          * S.epsI iq b a * ((S.v.getD iq []).getD b 0 : ℂ)).re ≤ 0
      ∧ -((∑ a ∈ Finset.range (S.gqs.getD iq []).length, (S.v.getD iq []).getD a 0) * (rhoX S k j (0, 0, 0)).re)
        ≤ (∑ a ∈ Finset.range (S.gqs.getD iq []).length, ∑ b ∈ Finset.range (S.gqs.getD iq []).length,
        rhoX S k j (gSub ((S.gqs.getD iq []).getD b (0, 0, 0)) ((S.gqs.getD iq []).getD a (0, 0, 0)))
          * S.epsI iq b a * ((S.v.getD iq []).getD b 0 : ℂ)).re := by
    intro iq hiq
    obtain ⟨chi, X, hchi, hv, hX, hE⟩ := hscr iq hiq
    have hfit := h.fits iq hiq
    generalize hg : S.gqs.getD iq [] = g at chi X hchi hv hX hE hfit ⊢
    have hgm : ∀ i < g.length, g.getD i (0, 0, 0) ∈ g := by
      intro i hi
      rw [List.getD_eq_getElem _ _ hi]; exact List.getElem_mem _
    -- the quadratic form at one grid point
    let Mr : Fin (dims S.shape).size → Fin g.length → ℂ := fun r m => conj (wave S.shape (g.getD m (0, 0, 0)) r)
    let Q : Fin (dims S.shape).size → ℂ := fun r => ∑ b : Fin g.length, ∑ a : Fin g.length, conj (Mr r b) * Mr r a
      * (X b a - (1 : Matrix (Fin g.length) (Fin g.length) ℂ) b a) * ((S.v.getD iq []).getD b 0 : ℂ)
    have hQ : ∀ r, (Q r).im = 0 ∧ (Q r).re ≤ 0 ∧ -∑ a : Fin g.length, (S.v.getD iq []).getD a 0 ≤ (Q r).re := by
      intro r
      have := C111_screening _ hv chi hchi X hX (Mr r)
      refine ⟨this.1, this.2.1, ?_⟩
      have h3 := this.2.2
      have e : ∀ m : Fin g.length, Complex.normSq (Mr r m) = 1 := by
        intro m
        show Complex.normSq (conj _) = 1
        rw [Complex.normSq_conj, normSq_wave]
      simp only [e, mul_one] at h3
      exact h3
    have hsumeq : (∑ a ∈ Finset.range g.length, ∑ b ∈ Finset.range g.length,
        rhoX S k j (gSub (g.getD b (0, 0, 0)) (g.getD a (0, 0, 0))) * S.epsI iq b a * ((S.v.getD iq []).getD b 0 : ℂ))
        = ∑ r : Fin (dims S.shape).size, (d r : ℂ) * Q r := by
      rw [Finset.sum_range]
      have e1 : ∀ a : Fin g.length, (∑ b ∈ Finset.range g.length,
          rhoX S k j (gSub (g.getD b (0, 0, 0)) (g.getD a (0, 0, 0))) * S.epsI iq b a * ((S.v.getD iq []).getD b 0 : ℂ))
          = ∑ b : Fin g.length, ∑ r : Fin (dims S.shape).size, (d r : ℂ) * (conj (Mr r b) * Mr r a
            * (X b a - (1 : Matrix (Fin g.length) (Fin g.length) ℂ) b a) * ((S.v.getD iq []).getD b 0 : ℂ)) := by
        intro a
        rw [Finset.sum_range]
        refine Finset.sum_congr rfl fun b _ => ?_
        rw [hrho _ (hfit _ (hgm a a.2) _ (hgm b b.2)), hE b a, Finset.sum_mul, Finset.sum_mul]
        refine Finset.sum_congr rfl fun r _ => ?_
        rw [wave_sub]
        show _ = (d r : ℂ) * (conj (conj (wave S.shape (g.getD b (0, 0, 0)) r)) * conj (wave S.shape (g.getD a (0, 0, 0)) r) * _ * _)
        rw [Complex.conj_conj]
        ring
      rw [Finset.sum_congr rfl fun a _ => e1 a, Finset.sum_comm]
      have e2 : ∀ b : Fin g.length, (∑ a : Fin g.length, ∑ r : Fin (dims S.shape).size, (d r : ℂ) * (conj (Mr r b) * Mr r a
            * (X b a - (1 : Matrix (Fin g.length) (Fin g.length) ℂ) b a) * ((S.v.getD iq []).getD b 0 : ℂ)))
          = ∑ r : Fin (dims S.shape).size, (d r : ℂ) * ∑ a : Fin g.length, (conj (Mr r b) * Mr r a
            * (X b a - (1 : Matrix (Fin g.length) (Fin g.length) ℂ) b a) * ((S.v.getD iq []).getD b 0 : ℂ)) := by
        intro b
        rw [Finset.sum_comm]
        exact Finset.sum_congr rfl fun r _ => by rw [Finset.mul_sum]
      rw [Finset.sum_congr rfl fun b _ => e2 b, Finset.sum_comm]
      exact Finset.sum_congr rfl fun r _ => by rw [← Finset.mul_sum]
    rw [hsumeq, hrho0, Finset.sum_range, Complex.im_sum, Complex.re_sum]
    have eim : ∀ r, ((d r : ℂ) * Q r).im = 0 := fun r => by rw [Complex.im_ofReal_mul, (hQ r).1, mul_zero]
    have ere : ∀ r, ((d r : ℂ) * Q r).re = d r * (Q r).re := fun r => Complex.re_ofReal_mul _ _
    simp only [eim, ere, Finset.sum_const_zero, true_and]
    constructor
    · exact Finset.sum_nonpos fun r _ => mul_nonpos_of_nonneg_of_nonpos (hd0 r) (hQ r).2.1
    · rw [Finset.mul_sum, ← Finset.sum_neg_distrib]
      refine Finset.sum_le_sum fun r _ => ?_
      have := mul_le_mul_of_nonneg_left (hQ r).2.2 (hd0 r)
      linarith
  -- sum over q-points
  unfold closureCH
  have e2 : 1 / 2 * (S.factor : ℂ) = ((1 / 2 * S.factor : ℝ) : ℂ) := by push_cast; rfl
  rw [e2, Complex.im_ofReal_mul, Complex.re_ofReal_mul, Complex.im_sum, Complex.re_sum]
  refine ⟨?_, ?_, ?_⟩
  · rw [Finset.sum_eq_zero fun iq hiq => (hq iq (Finset.mem_range.1 hiq)).1, mul_zero]
  · exact mul_nonpos_of_nonneg_of_nonpos (by linarith) (Finset.sum_nonpos fun iq hiq => (hq iq (Finset.mem_range.1 hiq)).2.1)
  · rw [← mul_neg, ← Finset.sum_neg_distrib]
    exact mul_le_mul_of_nonneg_left (Finset.sum_le_sum fun iq hiq => (hq iq (Finset.mem_range.1 hiq)).2.2) (by linarith)

end Verif.GW
