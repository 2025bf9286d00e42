import Verif.Props.Sigma

/-!
# C112 (metals), C113: static screened exchange and Coulomb hole
-/

namespace Verif.GW

open Verif.Lattice (Vec)
open Verif.GSpace (GVec Shape cryst2idxgrid inBounds at' argsort)
open Verif.FFT (Driver DrvState)
open scoped ComplexConjugate

/-! ## A small system -/

/-- Half a reciprocal lattice vector. -/
noncomputable def halfX : Vec := fun c => if c = 0 then 1 / 2 else 0

/-- One plane wave; the first `m` bands are occupied. -/
noncomputable def flatW (m : ℕ) : Wfn := ⟨[(0, 0, 0)], fun _ _ => 1, fun b => b, fun b => if b < m then 1 else 0⟩

/-- Two k-points with `m` and one occupied bands, one q-point joining them. -/
noncomputable def twoK (m : ℕ) : SigIn where
  shape := ⟨1, 1, 1⟩
  ks := [0, halfX]
  wfn := [flatW m, flatW 1]
  wfnq := [flatW m, flatW 1]
  nbands := 3
  bmin := 1
  bmax := 1
  kIdx := [0]
  qs := [halfX]
  q0 := 1
  isQ0 := none
  gqs := [[(0, 0, 0)]]
  v := [[1]]
  epsI := fun _ _ _ => -1 / 2
  factor := 1

theorem umk_half : umklapp 0 halfX = 0 := by
  funext c
  unfold umklapp halfX around Nonloc.rint
  fin_cases c
  · have e : ((0 : Vec) ⟨0, by omega⟩ + (1 / 2 : ℝ)) * 10 ^ 5 = ((50000 : ℤ) : ℝ) := by
      show ((0 : ℝ) + 1 / 2) * 10 ^ 5 = _
      norm_num
    simp only [if_true, Fin.zero_eta, Fin.mk_zero] at e ⊢
    rw [e]
    simp
    norm_num
  · simp
  · simp

theorem indexMinus_twoK (m : ℕ) : indexMinusQ (twoK m) 0 = 0 := by
  unfold indexMinusQ
  split_ifs
  · rfl
  · have := argmin_lt ((twoK m).qs.map fun q => sq (fun c => q c - minusTarget ((twoK m).qs.getD 0 0) c)) (by simp [twoK])
    simp only [twoK, List.map_cons, List.map_nil, List.length_singleton] at this ⊢
    omega

theorem eps_twoK (m : ℕ) : ((twoK m).eps 0).qadd = halfX := by
  simp [SigIn.eps, SigIn.atQ0, twoK]

theorem kPlus_half : kPlusQ 0 halfX = halfX := by
  funext c
  unfold kPlusQ
  rw [umk_half]
  simp

theorem matchK_twoK (m : ℕ) : matchK (twoK m) 0 0 = some 1 := by
  classical
  unfold matchK
  have e : kPlusQ ((twoK m).ks.getD 0 0) ((twoK m).eps 0).qadd = halfX := by
    rw [eps_twoK]
    exact kPlus_half
  rw [e]
  have hl : (twoK m).ks.length = 2 := rfl
  rw [hl]
  have h0 : ¬ IsCloseRel ((twoK m).ks.getD 0 0) halfX := by
    intro h
    have := h 0
    simp [twoK, halfX] at this
    norm_num [abs_of_pos] at this
  have h1 : IsCloseRel ((twoK m).ks.getD 1 0) halfX := by
    intro c
    have e : ((twoK m).ks.getD 1 0) c - halfX c = 0 := by simp [twoK]
    rw [e, abs_zero]
    positivity
  simp only [List.range_succ, List.range_zero, List.nil_append, List.cons_append, List.find?_cons, decide_eq_false h0, decide_eq_true h1]

theorem gUmk_twoK (m : ℕ) : gUmk ((twoK m).eps 0) 0 = [(0, 0, 0)] := by
  unfold gUmk
  rw [eps_twoK]
  have : ((twoK m).eps 0).ks.getD 0 0 = 0 := rfl
  rw [this, umk_half]
  simp [SigIn.eps, twoK]

theorem twoK_ok (m : ℕ) (hm : 0 < m) : (twoK m).Ok where
  pos := (by decide : (⟨1, 1, 1⟩ : Shape).Pos)
  occupied := ⟨(0, 0), by simp [HasOcc, SigIn.eps, twoK, flatW, hm]⟩
  empty := ⟨(1, 1), by simp [HasOcc, SigIn.eps, twoK, flatW]⟩
  partner := by
    intro iq hq k hk
    have hq' : iq = 0 := by simp [twoK] at hq; exact hq
    have hk' : k = 0 := by simpa [twoK] using hk
    subst hq' hk'
    rw [indexMinus_twoK]
    exact ⟨1, matchK_twoK m⟩
  fits := by
    intro iq hq k hk g hg
    have hq' : iq = 0 := by simp [twoK] at hq; exact hq
    have hk' : k = 0 := by simpa [twoK] using hk
    subst hq' hk'
    rw [indexMinus_twoK, gUmk_twoK] at hg
    simp only [List.mem_singleton] at hg
    subst hg
    show inBounds ⟨1, 1, 1⟩ (0, 0, 0) = true
    decide
  nonempty := by
    intro iq hq
    have hq' : iq = 0 := by simp [twoK] at hq; exact hq
    subst hq'
    rw [indexMinus_twoK]
    simp [twoK]
  vlen := by
    intro iq hq
    have hq' : iq = 0 := by simp [twoK] at hq; exact hq
    subst hq'
    rfl

theorem flatW_grid (m : ℕ) : OnGrid ⟨1, 1, 1⟩ (flatW m).gs := ⟨by simp [flatW], by simp [flatW]; decide⟩

theorem twoK_grid (m : ℕ) : (twoK m).Grid where
  gq := by
    intro iq
    rcases iq with _ | iq
    · simp [twoK]
    · simp [twoK]
  wfn := by
    intro k
    rcases k with _ | _ | k
    · exact flatW_grid m
    · exact flatW_grid 1
    · exact ⟨List.nodup_nil, fun g hg => absurd hg (List.not_mem_nil)⟩
  wfnq := by
    intro k
    rcases k with _ | _ | k
    · exact flatW_grid m
    · exact flatW_grid 1
    · exact ⟨List.nodup_nil, fun g hg => absurd hg (List.not_mem_nil)⟩

theorem braOf_twoK (m : ℕ) : braOf (twoK m) 0 0 = 1 := by
  unfold braOf
  rw [indexMinus_twoK]
  have : (twoK m).kIdx.getD 0 0 = 0 := rfl
  rw [this, matchK_twoK]
  rfl

theorem same_one (a b : GVec) : SameFreq ⟨1, 1, 1⟩ a b := ⟨by simp, by simp, by simp⟩

theorem pairX_twoK (m b : ℕ) : pairX (twoK m) 0 0 b 0 = 1 := by
  have ha : amp (twoK m) 0 0 b 0 0 = 1 := by
    unfold amp
    simp only [← eps_val, ← eps_qadd]
    rw [braOf_twoK, indexMinus_twoK]
    show overlap ⟨1, 1, 1⟩ (flatW m) (flatW 1) _ _ _ = 1
    unfold overlap
    simp only [if_pos (same_one _ _)]
    show ∑ a : Fin 1, ∑ b : Fin 1, conj (1 : ℂ) * 1 = 1
    simp
  unfold pairX
  show ∑ m' ∈ Finset.range 1, _ = _
  rw [Finset.sum_range_one, ha]
  simp [twoK]

theorem nVMax_two : nVMax ((twoK 2).eps 0) = 2 := by
  have hmem : 1 ∈ (whereOcc ((twoK 2).eps 0) 1).map Prod.snd :=
    List.mem_map.2 ⟨(0, 1), (mem_whereOcc _ 1 _).2 (by simp [HasOcc, SigIn.eps, twoK, flatW]), rfl⟩
  have hle : ∀ a ∈ (whereOcc ((twoK 2).eps 0) 1).map Prod.snd, a ≤ 1 := by
    intro a ha
    obtain ⟨p, hp, rfl⟩ := List.mem_map.1 ha
    obtain ⟨h1, h2, h3⟩ := (mem_whereOcc _ 1 p).1 hp
    obtain ⟨k, b⟩ := p
    have hk : k < 2 := h1
    have h3' : (([flatW 2, flatW 1] : List Wfn).getD k default).occ b = 1 := h3
    show b ≤ 1
    by_contra hb
    interval_cases k
    · simp [flatW] at h3'; omega
    · simp [flatW] at h3'; omega
  have hub : ∀ (l : List ℕ) (z c : ℕ), z ≤ c → (∀ a ∈ l, a ≤ c) → l.foldl max z ≤ c := by
    intro l
    induction l with
    | nil => intro z c hz _; exact hz
    | cons a l ih =>
      intro z c hz hl
      rw [List.foldl_cons]
      exact ih _ _ (max_le hz (hl a (by simp))) fun b hb => hl b (by simp [hb])
  unfold nVMax
  have e1 := (le_foldl_max ((whereOcc ((twoK 2).eps 0) 1).map Prod.snd) 0).2 _ hmem
  have e2 := hub _ 0 1 (by omega) hle
  omega

/-- The hypotheses of `C112_occupied_partial` are met. -/
example : SameFilling (twoK 1) 1 ∧ (twoK 1).Ok ∧ (twoK 1).Grid ∧ (twoK 1).kIdx.Nodup := by
  refine ⟨⟨by omega, by simp [twoK], by simp [twoK], ?_⟩, twoK_ok 1 (by omega), twoK_grid 1, by simp [twoK]⟩
  intro k hk b _
  have hk' : k < 2 := hk
  interval_cases k <;> simp [twoK, flatW]

/-- **C112 (violated).** With k-points of different filling, empty states count as occupied: two k-points with two and one occupied
bands, where the exact exchange is `-1` and `sigma_x` returns `-2`. -/
theorem C112_metal (drv : Driver) (st : DrvState ℂ) : ∃ S : SigIn, S.Ok ∧ S.Grid ∧ S.kIdx.Nodup ∧
    ∃ X, sigmaX drv S st false none = .ok X ∧ X 0 0 = -2 ∧ exactX S 0 0 = -1 := by
  refine ⟨twoK 2, twoK_ok 2 (by omega), twoK_grid 2, by simp [twoK], ?_⟩
  obtain ⟨X, hX, hval⟩ := C112_exchange drv (twoK 2) st (twoK_ok 2 (by omega)) (twoK_grid 2) (by simp [twoK]) false none (by simp)
  refine ⟨X, hX, ?_, ?_⟩
  · rw [hval 0 (by simp [twoK]) 0, nVMax_two]
    show (((-1 : ℝ) * ∑ iq ∈ Finset.range 1, ∑ b ∈ Finset.range 2, pairX (twoK 2) iq 0 b 0 : ℝ) : ℂ) = -2
    rw [Finset.sum_range_one]
    simp only [pairX_twoK]
    simp
  · unfold exactX
    show (-1 : ℝ) * ∑ iq ∈ Finset.range 1, ∑ b ∈ Finset.range 3, _ = -1
    rw [Finset.sum_range_one, braOf_twoK]
    simp only [pairX_twoK]
    simp [Finset.sum_range_succ, twoK, flatW]

/-! ## C113 -/

/-- `ε⁻¹ - 1` at this q-point comes from a Hermitian non-positive polarizability and the same positive Coulomb interaction. -/
def Screened (S : SigIn) (iq : ℕ) : Prop :=
  ∃ (chi : Fin (S.gqs.getD iq []).length → Fin (S.gqs.getD iq []).length → ℂ)
    (X : Matrix (Fin (S.gqs.getD iq []).length) (Fin (S.gqs.getD iq []).length) ℂ),
    NegSemi chi ∧ (∀ m : Fin (S.gqs.getD iq []).length, 0 < (S.v.getD iq []).getD m 0)
      ∧ epsMat (fun m : Fin (S.gqs.getD iq []).length => (S.v.getD iq []).getD m 0) chi * X = 1
      ∧ ∀ k m : Fin (S.gqs.getD iq []).length,
        S.epsI iq k m = X k m - (1 : Matrix (Fin (S.gqs.getD iq []).length) (Fin (S.gqs.getD iq []).length) ℂ) k m

theorem pairEps_bounds (S : SigIn) (iq n b j : ℕ) (h : Screened S iq) :
    (pairEps S iq n b j).im = 0 ∧ (pairEps S iq n b j).re ≤ 0 ∧ -pairX S iq n b j ≤ (pairEps S iq n b j).re := by
  obtain ⟨chi, X, hchi, hv, hX, hE⟩ := h
  have key := C111_screening _ hv chi hchi X hX fun m => amp S iq n b j m
  have e1 : pairEps S iq n b j = ∑ k : Fin (S.gqs.getD iq []).length, ∑ m : Fin (S.gqs.getD iq []).length,
      conj (amp S iq n b j k) * amp S iq n b j m
        * (X k m - (1 : Matrix (Fin (S.gqs.getD iq []).length) (Fin (S.gqs.getD iq []).length) ℂ) k m)
        * ((S.v.getD iq []).getD k 0 : ℂ) := by
    unfold pairEps
    rw [Finset.sum_range]
    refine Finset.sum_congr rfl fun k _ => ?_
    rw [Finset.sum_range]
    refine Finset.sum_congr rfl fun m _ => ?_
    rw [hE k m]
  have e2 : pairX S iq n b j = ∑ k : Fin (S.gqs.getD iq []).length, (S.v.getD iq []).getD k 0 * Complex.normSq (amp S iq n b j k) := by
    unfold pairX
    rw [Finset.sum_range]
  rw [e1, e2]
  exact key

theorem conEps_pair (drv : Driver) (S : SigIn) (st : DrvState ℂ) (h : S.Ok) (hg : S.Grid) (iq n b j : ℕ) (hq : iq < S.qs.length)
    (hn : n < S.kIdx.length) :
    conEps (S.v.getD iq []) (S.epsI iq)
      (takeG (sigMel drv S st (indexMinusQ S iq) (S.kIdx.getD n 0) (j + (S.bmin - 1)) (braOf S iq n) b) (gToMg S iq))
      = pairEps S iq n b j := by
  unfold conEps pairEps
  rw [h.vlen iq hq]
  refine Finset.sum_congr rfl fun k hk => Finset.sum_congr rfl fun m hm => ?_
  rw [takeG_amp drv S st h hg iq n b j m hq hn (Finset.mem_range.1 hm),
    takeG_amp drv S st h hg iq n b j k hq hn (Finset.mem_range.1 hk)]

theorem static_sum (drv : Driver) (S : SigIn) (st : DrvState ℂ) (h : S.Ok) (hg : S.Grid) (hnd : S.kIdx.Nodup) (y : Bool) (size : Option ℕ)
    (hs : ∀ s, size = some s → 0 < s) (nb : ℕ) (pre : ℕ → Except PyErr Unit) (hpre : ∀ iq < S.qs.length, pre iq = .ok ()) :
    ∃ X, qSum size S.qs.length 1 (fun iq => do
        pre iq
        sigPart drv S st nb (fun iq => conEps (S.v.getD iq []) (S.epsI iq)) y iq) = .ok X
      ∧ ∀ n < S.kIdx.length, ∀ j, X n j
        = ∑ iq ∈ Finset.range S.qs.length, ∑ b ∈ Finset.range nb, pairEps S iq n b j := by
  have hp : ∀ iq, iq < S.qs.length → _ := fun iq hq =>
    sigPart_ok drv S st h nb (fun iq => conEps (S.v.getD iq []) (S.epsI iq)) y iq hq
  choose! F hF hval using hp
  obtain ⟨X, hX, hsum⟩ := qSum_ok size hs S.qs.length 1 (fun iq => do
        pre iq
        sigPart drv S st nb (fun iq => conEps (S.v.getD iq []) (S.epsI iq)) y iq) F (by
    intro iq hq
    rw [hpre iq hq]
    exact hF iq hq)
  refine ⟨X, hX, ?_⟩
  intro n hn j
  rw [hsum]
  have hidx : S.kIdx.idxOf (S.kIdx.getD n 0) = n := by
    rw [List.getD_eq_getElem _ _ hn]; exact hnd.idxOf_getElem n hn
  refine Finset.sum_congr rfl fun iq hiq => ?_
  have hq := Finset.mem_range.1 hiq
  rw [one_mul, hval iq hq n hn j]
  simp only [if_pos hidx]
  exact Finset.sum_congr rfl fun b _ => conEps_pair drv S st h hg iq n b j hq hn

/-- The (unused) sort in `sigma_sx_static` runs through: there are at least as many k-points as q-points, and at `q0` the shifted and
unshifted wavefunctions have equally many plane waves. -/
def SxSortOk (S : SigIn) : Prop :=
  ∀ iq < S.qs.length, iq < S.wfn.length ∧ (iq = S.q0 → iq < S.wfnq.length
    ∧ (S.wfnq.getD iq default).gs.length = (S.wfn.getD iq default).gs.length)

theorem sxSort_ok (S : SigIn) (h : SxSortOk S) (iq : ℕ) (hq : iq < S.qs.length) : sxSort S iq = .ok () := by
  obtain ⟨h1, h2⟩ := h iq hq
  unfold sxSort
  by_cases e : iq = S.q0
  · obtain ⟨h3, h4⟩ := h2 e
    simp only [if_pos e]
    rw [if_neg (by omega), if_neg (by simpa using h4)]
  · simp only [if_neg e]
    rw [if_neg (by omega)]
    simp

/-- **C113 (static screened exchange).** `sigma_sx_static` returns `-factor Σ_q Σ_b Σ_GG' conj(M_G) v_q(G) (ε⁻¹-1)_GG' M_G'` over the bands
that `sigma_x` uses, stored or memory-saving, on any number of processes. -/
theorem C113_sx (drv : Driver) (S : SigIn) (st : DrvState ℂ) (h : S.Ok) (hg : S.Grid) (hnd : S.kIdx.Nodup) (hsort : SxSortOk S) (y : Bool)
    (size : Option ℕ) (hs : ∀ s, size = some s → 0 < s) :
    ∃ X, sigmaSX drv S st y size = .ok X ∧ ∀ n < S.kIdx.length, ∀ j, X n j
      = -(S.factor : ℂ) * ∑ iq ∈ Finset.range S.qs.length, ∑ b ∈ Finset.range (nVMax (S.eps 0)), pairEps S iq n b j := by
  obtain ⟨X, hX, hval⟩ := static_sum drv S st h hg hnd y size hs (nVMax (S.eps 0)) (sxSort S) (sxSort_ok S hsort)
  unfold sigmaSX
  rw [hX]
  refine ⟨_, rfl, ?_⟩
  intro n hn j
  show X n j * _ = _
  rw [hval n hn j]
  push_cast
  ring

/-- **C113 (static Coulomb hole).** `sigma_ch_static` returns `½ factor Σ_q Σ_b Σ_GG' conj(M_G) v_q(G) (ε⁻¹-1)_GG' M_G'` over all
`number_bands` bands, stored or memory-saving, on any number of processes. -/
theorem C113_ch (drv : Driver) (S : SigIn) (st : DrvState ℂ) (h : S.Ok) (hg : S.Grid) (hnd : S.kIdx.Nodup) (y : Bool)
    (size : Option ℕ) (hs : ∀ s, size = some s → 0 < s) :
    ∃ X, sigmaCH drv S st y size = .ok X ∧ ∀ n < S.kIdx.length, ∀ j, X n j
      = 1 / 2 * (S.factor : ℂ) * ∑ iq ∈ Finset.range S.qs.length, ∑ b ∈ Finset.range S.nbands, pairEps S iq n b j := by
  obtain ⟨X, hX, hval⟩ := static_sum drv S st h hg hnd y size hs S.nbands (fun _ => .ok ()) (fun _ _ => rfl)
  unfold sigmaCH
  have e : qSum size S.qs.length 1 (sigPart drv S st S.nbands (fun iq => conEps (S.v.getD iq []) (S.epsI iq)) y) = .ok X := hX
  rw [e]
  refine ⟨_, rfl, ?_⟩
  intro n hn j
  show X n j * _ = _
  rw [hval n hn j]
  push_cast
  norm_num
  ring

theorem sum_bounds (n : ℕ) (nb : ℕ) (P : ℕ → ℕ → ℂ) (Q : ℕ → ℕ → ℝ)
    (h : ∀ i < n, ∀ b < nb, (P i b).im = 0 ∧ (P i b).re ≤ 0 ∧ -Q i b ≤ (P i b).re) :
    (∑ i ∈ Finset.range n, ∑ b ∈ Finset.range nb, P i b).im = 0
    ∧ (∑ i ∈ Finset.range n, ∑ b ∈ Finset.range nb, P i b).re ≤ 0
    ∧ -(∑ i ∈ Finset.range n, ∑ b ∈ Finset.range nb, Q i b) ≤ (∑ i ∈ Finset.range n, ∑ b ∈ Finset.range nb, P i b).re := by
  simp only [Complex.im_sum, Complex.re_sum, ← Finset.sum_neg_distrib]
  refine ⟨?_, ?_, ?_⟩
  · exact Finset.sum_eq_zero fun i hi => Finset.sum_eq_zero fun b hb => (h i (Finset.mem_range.1 hi) b (Finset.mem_range.1 hb)).1
  · exact Finset.sum_nonpos fun i hi => Finset.sum_nonpos fun b hb => (h i (Finset.mem_range.1 hi) b (Finset.mem_range.1 hb)).2.1
  · exact Finset.sum_le_sum fun i hi => Finset.sum_le_sum fun b hb => (h i (Finset.mem_range.1 hi) b (Finset.mem_range.1 hb)).2.2

/-- **C113 (bounds).** If `ε` is built from a Hermitian non-positive polarizability with the same positive Coulomb interaction, the static
correction `SX` to exchange is real and lies between `0` and `-X` (screening weakens exchange but never reverses it), and the static Coulomb
hole is real, not positive and bounded by half the bare interaction with all bands. -/
theorem C113_bounds (drv : Driver) (S : SigIn) (st : DrvState ℂ) (h : S.Ok) (hg : S.Grid) (hnd : S.kIdx.Nodup) (hsort : SxSortOk S)
    (hf : 0 ≤ S.factor) (hscr : ∀ iq < S.qs.length, Screened S iq) (y : Bool) (size : Option ℕ) (hs : ∀ s, size = some s → 0 < s) :
    ∃ X SX CH, sigmaX drv S st y size = .ok X ∧ sigmaSX drv S st y size = .ok SX ∧ sigmaCH drv S st y size = .ok CH
      ∧ ∀ n < S.kIdx.length, ∀ j,
        ((SX n j).im = 0 ∧ 0 ≤ (SX n j).re ∧ (SX n j).re ≤ -(X n j).re)
        ∧ ((CH n j).im = 0 ∧ (CH n j).re ≤ 0
          ∧ -(1 / 2 * S.factor * ∑ iq ∈ Finset.range S.qs.length, ∑ b ∈ Finset.range S.nbands, pairX S iq n b j) ≤ (CH n j).re) := by
  obtain ⟨X, hX, vX⟩ := C112_exchange drv S st h hg hnd y size hs
  obtain ⟨SX, hSX, vSX⟩ := C113_sx drv S st h hg hnd hsort y size hs
  obtain ⟨CH, hCH, vCH⟩ := C113_ch drv S st h hg hnd y size hs
  refine ⟨X, SX, CH, hX, hSX, hCH, ?_⟩
  intro n hn j
  obtain ⟨a1, a2, a3⟩ := sum_bounds S.qs.length (nVMax (S.eps 0)) (fun iq b => pairEps S iq n b j) (fun iq b => pairX S iq n b j)
    fun iq hq b _ => pairEps_bounds S iq n b j (hscr iq hq)
  obtain ⟨b1, b2, b3⟩ := sum_bounds S.qs.length S.nbands (fun iq b => pairEps S iq n b j) (fun iq b => pairX S iq n b j)
    fun iq hq b _ => pairEps_bounds S iq n b j (hscr iq hq)
  have hc : ∀ (r : ℝ) (z : ℂ), z.im = 0 → ((r : ℂ) * z).im = 0 ∧ ((r : ℂ) * z).re = r * z.re := by
    intro r z hz
    simp [hz]
  rw [vSX n hn j, vX n hn j, vCH n hn j, Complex.ofReal_re]
  have e1 : -(S.factor : ℂ) = ((-S.factor : ℝ) : ℂ) := by push_cast; rfl
  have e2 : 1 / 2 * (S.factor : ℂ) = ((1 / 2 * S.factor : ℝ) : ℂ) := by push_cast; rfl
  rw [e1, e2]
  obtain ⟨c1, c2⟩ := hc (-S.factor) _ a1
  obtain ⟨d1, d2⟩ := hc (1 / 2 * S.factor) _ b1
  rw [c2, d2]
  refine ⟨⟨c1, ?_, ?_⟩, d1, ?_, ?_⟩
  · nlinarith
  · nlinarith
  · nlinarith
  · nlinarith

/-- The hypotheses of `C113_bounds` are met by the two-k-point system (`ε = 2`, from `χ = -2`, `v = 1`). -/
example : (twoK 1).Ok ∧ (twoK 1).Grid ∧ (twoK 1).kIdx.Nodup ∧ SxSortOk (twoK 1) ∧ ∀ iq < (twoK 1).qs.length, Screened (twoK 1) iq := by
  refine ⟨twoK_ok 1 (by omega), twoK_grid 1, by simp [twoK], ?_, ?_⟩
  · intro iq hq
    have hq' : iq = 0 := by simp [twoK] at hq; exact hq
    subst hq'
    exact ⟨by simp [twoK], by simp [twoK]⟩
  · intro iq hq
    have hq' : iq = 0 := by simp [twoK] at hq; exact hq
    subst hq'
    show ∃ (chi : Fin 1 → Fin 1 → ℂ) (X : Matrix (Fin 1) (Fin 1) ℂ), NegSemi chi
      ∧ (∀ m : Fin 1, (0 : ℝ) < ([1] : List ℝ).getD m 0)
      ∧ epsMat (fun m : Fin 1 => ([1] : List ℝ).getD m 0) chi * X = 1
      ∧ ∀ k m : Fin 1, (-1 / 2 : ℂ) = X k m - (1 : Matrix (Fin 1) (Fin 1) ℂ) k m
    refine ⟨fun _ _ => ((-2 : ℝ) : ℂ), Matrix.of fun _ _ => 1 / 2, ⟨fun _ _ => (Complex.conj_ofReal _).symm, ?_⟩, ?_, ?_, ?_⟩
    · intro z
      unfold quad
      simp only [Finset.univ_unique, Finset.sum_singleton]
      have := (re_conj_mul_self (z default)).1
      rw [show conj (z default) * ((-2 : ℝ) : ℂ) * z default = ((-2 : ℝ) : ℂ) * (conj (z default) * z default) by ring, Complex.re_ofReal_mul, this]
      have := Complex.normSq_nonneg (z default)
      linarith
    · intro m
      have : m = 0 := Subsingleton.elim _ _
      subst this
      norm_num
    · ext i k
      have h1 : i = 0 := Subsingleton.elim _ _
      have h2 : k = 0 := Subsingleton.elim _ _
      subst h1 h2
      rw [Matrix.mul_apply, Matrix.one_apply_eq]
      simp [epsMat]
      norm_num
    · intro k m
      have h1 : k = 0 := Subsingleton.elim _ _
      have h2 : m = 0 := Subsingleton.elim _ _
      subst h1 h2
      rw [Matrix.one_apply_eq]
      simp only [Matrix.of_apply]
      norm_num

/-- **C113 (violated).** At the q0 point `sigma_sx_static` sorts the unshifted G-vectors with the keys of the shifted ones: if the two spheres
have different numbers of plane waves it fails with `ValueError`. -/
theorem C113_q0_sort (drv : Driver) (S : SigIn) (st : DrvState ℂ) (y : Bool) (hq : S.q0 = 0) (h0 : 0 < S.qs.length)
    (hl : 0 < S.wfn.length ∧ 0 < S.wfnq.length)
    (hne : (S.wfnq.getD 0 default).gs.length ≠ (S.wfn.getD 0 default).gs.length) :
    sigmaSX drv S st y none = .error .value := by
  have hsx : sxSort S 0 = .error .value := by
    unfold sxSort
    simp only [hq, if_true]
    rw [if_neg (by omega), if_pos hne]
  unfold sigmaSX qSum
  obtain ⟨k, hk⟩ : ∃ k, S.qs.length = k + 1 := ⟨S.qs.length - 1, by omega⟩
  rw [hk, List.range_succ_eq_map]
  simp only [List.mapM_cons, hsx, bind, Except.bind]

/-- **C113 (violated).** With fewer k-points than q-points (all earlier steps passing) `sigma_sx_static` fails with `IndexError`. -/
theorem C113_fewer_kpoints (drv : Driver) (S : SigIn) (st : DrvState ℂ) (h : S.Ok) (y : Bool)
    (hfew : S.wfn.length < S.qs.length) (hok : ∀ iq < S.wfn.length, sxSort S iq = .ok ()) :
    sigmaSX drv S st y none = .error .index := by
  have herr : ∀ iq, S.wfn.length ≤ iq → sxSort S iq = .error .index := by
    intro iq hiq
    unfold sxSort
    simp only
    rw [if_pos (Or.inr hiq)]
  unfold sigmaSX qSum
  have := mapM_err (List.range S.qs.length) (fun iq => do
    sxSort S iq
    sigPart drv S st (nVMax (S.eps 0)) (fun iq => conEps (S.v.getD iq []) (S.epsI iq)) y iq) .index
    (by
      intro a ha
      by_cases hlt : a < S.wfn.length
      · left
        obtain ⟨X, hX, _⟩ := sigPart_ok drv S st h (nVMax (S.eps 0)) (fun iq => conEps (S.v.getD iq []) (S.epsI iq)) y a (List.mem_range.1 ha)
        refine ⟨X, ?_⟩
        rw [hok a hlt]
        exact hX
      · right
        rw [herr a (by omega)]
        rfl)
    ⟨S.wfn.length, List.mem_range.2 hfew, by rw [herr _ le_rfl]; rfl⟩
  simp only [bind, Except.bind] at this ⊢
  rw [this]

end Verif.GW
