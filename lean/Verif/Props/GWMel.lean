import Verif.Model.GW
import Verif.Props.GSpace
import Verif.Props.FFT
import Verif.Props.Nonloc

/-!
# Properties C109, C110: plane-wave matrix elements and umklapp vectors
-/

namespace Verif.GW

open Verif.Lattice (Vec)
open Verif.GSpace (GVec Shape cryst2idxgrid flatIdx inBounds wrap inRange)
open Verif.FFT (Driver DrvState Dims dftKern ker3)
open Verif.Nonloc (rint wfR)
open scoped ComplexConjugate

/-! ## Specification -/

/-- Two integer vectors are the same frequency on the FFT grid. -/
def SameFreq (s : Shape) (a b : GVec) : Prop :=
  (s.n1 : ℤ) ∣ a.1 - b.1 ∧ (s.n2 : ℤ) ∣ a.2.1 - b.2.1 ∧ (s.n3 : ℤ) ∣ a.2.2 - b.2.2

instance (s : Shape) (a b : GVec) : Decidable (SameFreq s a b) := by unfold SameFreq; infer_instance

/-- `⟨c| exp(iX·r) |v⟩`-type overlap on the grid: `Σ conj(c_G') v_G''` over the pairs with `G'' ≡ G' + X`. -/
noncomputable def overlap (s : Shape) (wc wv : Wfn) (bc bv : ℕ) (X : GVec) : ℂ :=
  ∑ a : Fin wc.gs.length, ∑ b : Fin wv.gs.length,
    if SameFreq s (wc.gs[a].1 + X.1, wc.gs[a].2.1 + X.2.1, wc.gs[a].2.2 + X.2.2) wv.gs[b]
      then conj (wc.evc bc a) * wv.evc bv b else 0

/-- The G-vectors of a wavefunction are distinct and on the FFT grid. -/
def OnGrid (s : Shape) (gs : List GVec) : Prop := gs.Nodup ∧ ∀ g ∈ gs, inBounds s g = true

/-! ## Sums of roots of unity -/

/-- `exp(-2πi m x / n)` -/
noncomputable def root (n : ℕ) (m : ℤ) (x : ℕ) : ℂ := Complex.exp (-(2 * Real.pi * Complex.I) * (m * x) / n)

theorem root_add (n : ℕ) (a b : ℤ) (x : ℕ) : root n (a + b) x = root n a x * root n b x := by
  unfold root
  rw [← Complex.exp_add]
  congr 1
  push_cast
  ring

theorem root_shift (n : ℕ) (hn : 0 < n) (m k : ℤ) (x : ℕ) : root n (m + n * k) x = root n m x := by
  have hnc : (n : ℂ) ≠ 0 := by exact_mod_cast hn.ne'
  unfold root
  rw [show -(2 * (Real.pi : ℂ) * Complex.I) * (((m + n * k : ℤ) : ℂ) * x) / n
      = -(2 * Real.pi * Complex.I) * (m * x) / n + ((-(k * x) : ℤ) : ℂ) * (2 * Real.pi * Complex.I) by
    push_cast; field_simp; ring]
  rw [Complex.exp_add, Complex.exp_int_mul_two_pi_mul_I, mul_one]

theorem root_conj (n : ℕ) (m : ℤ) (x : ℕ) : conj (root n m x) = root n (-m) x := by
  unfold root
  rw [← Complex.exp_conj]
  congr 1
  simp only [map_div₀, map_mul, map_neg, Complex.conj_ofReal, Complex.conj_I, map_natCast, map_ofNat, map_intCast]
  push_cast
  ring

theorem sum_root (n : ℕ) (hn : 0 < n) (m : ℤ) :
    ∑ x ∈ Finset.range n, root n m x = if (n : ℤ) ∣ m then (n : ℂ) else 0 := by
  have hnc : (n : ℂ) ≠ 0 := by exact_mod_cast hn.ne'
  have hpow : ∀ x, root n m x = root n m 1 ^ x := by
    intro x
    unfold root
    rw [← Complex.exp_nat_mul]
    congr 1
    push_cast
    ring
  split_ifs with h
  · obtain ⟨k, rfl⟩ := h
    have : ∀ x ∈ Finset.range n, root n (n * k) x = 1 := by
      intro x _
      have := root_shift n hn 0 k x
      rw [zero_add] at this
      rw [this]
      simp [root]
    rw [Finset.sum_congr rfl this]
    simp
  · have hne : root n m 1 ≠ 1 := by
      intro h1
      unfold root at h1
      rw [Complex.exp_eq_one_iff] at h1
      obtain ⟨q, hq⟩ := h1
      apply h
      have hpi : (2 * (Real.pi : ℂ) * Complex.I) ≠ 0 := by simp [Real.pi_ne_zero, Complex.I_ne_zero]
      have h3 : (2 * (Real.pi : ℂ) * Complex.I) * (-(m : ℂ)) = (2 * (Real.pi : ℂ) * Complex.I) * (q * n) := by
        field_simp at hq
        linear_combination (2 * (Real.pi : ℂ) * Complex.I) * hq
      have h4 : (-m : ℤ) = q * n := by
        have := mul_left_cancel₀ hpi h3
        exact_mod_cast this
      exact ⟨-q, by linarith⟩
    rw [Finset.sum_congr rfl fun x _ => hpow x, geom_sum_eq hne, ← hpow]
    have h1 : root n m n = 1 := by
      have e := root_shift n hn 0 m 1
      rw [zero_add] at e
      have : root n m n = root n (n * m) 1 := by
        unfold root; congr 1; push_cast; ring
      rw [this, e]
      simp [root]
    rw [h1]
    simp

/-- `exp(-2πi g·r)` at grid point `r` for an integer vector `g`. -/
noncomputable def wave (s : Shape) (g : GVec) (r : ℕ) : ℂ :=
  root s.n1 g.1 ((dims s).ix r) * root s.n2 g.2.1 ((dims s).iy r) * root s.n3 g.2.2 ((dims s).iz r)

theorem root_wrap (n : ℕ) (hn : 0 < n) (g : ℤ) (h : inRange n g = true) (x : ℕ) :
    root n ((wrap n g).toNat : ℤ) x = root n g x := by
  obtain ⟨h0, _, _⟩ := GSpace.wrap_spec n g h
  rw [Int.toNat_of_nonneg h0]
  unfold wrap
  rw [root_shift n hn]

theorem flat_coords (s : Shape) (hs : s.Pos) (g : GVec) (h : inBounds s g = true) :
    (dims s).ix (flatIdx s g).toNat = (wrap s.n1 g.1).toNat ∧ (dims s).iy (flatIdx s g).toNat = (wrap s.n2 g.2.1).toNat
      ∧ (dims s).iz (flatIdx s g).toNat = (wrap s.n3 g.2.2).toNat := by
  have := GSpace.unravel_flatIdx s hs g h
  unfold GSpace.unravel at this
  simp only [Prod.mk.injEq] at this
  exact this

theorem ker3_fwd_wave (s : Shape) (hs : s.Pos) (g : GVec) (h : inBounds s g = true) (r : ℕ) :
    ker3 (dims s) (dftKern true (dims s)) (flatIdx s g).toNat r = wave s g r := by
  obtain ⟨e1, e2, e3⟩ := flat_coords s hs g h
  rw [GSpace.inBounds_iff] at h
  unfold ker3 wave
  rw [e1, e2, e3, ← root_wrap _ hs.1 _ h.1, ← root_wrap _ hs.2.1 _ h.2.1, ← root_wrap _ hs.2.2 _ h.2.2, mul_assoc]
  unfold dftKern FFT.dftKer root dims
  simp only [if_true, Int.cast_natCast, neg_mul, one_mul]

theorem ker3_bwd_wave (s : Shape) (hs : s.Pos) (g : GVec) (h : inBounds s g = true) (r : ℕ) :
    ker3 (dims s) (dftKern false (dims s)) r (flatIdx s g).toNat = conj (wave s g r) := by
  rw [← ker3_fwd_wave s hs g h, FFT.dft_ker3_fwd, FFT.dft_ker3_bwd, ← Complex.exp_conj]
  congr 1
  simp only [map_div₀, map_mul, map_neg, map_add, Complex.conj_ofReal, Complex.conj_I, map_natCast, map_ofNat]
  ring

theorem wave_conj (s : Shape) (g : GVec) (r : ℕ) : conj (wave s g r) = wave s (-g.1, -g.2.1, -g.2.2) r := by
  unfold wave
  simp only [map_mul, root_conj]

theorem wave_mul (s : Shape) (g g' : GVec) (r : ℕ) :
    wave s g r * wave s g' r = wave s (g.1 + g'.1, g.2.1 + g'.2.1, g.2.2 + g'.2.2) r := by
  unfold wave
  simp only [root_add]
  ring

theorem sum_wave (s : Shape) (hs : s.Pos) (g : GVec) :
    ∑ r ∈ Finset.range (dims s).size, wave s g r
      = if SameFreq s g (0, 0, 0) then (s.size : ℂ) else 0 := by
  rw [← FFT.sum_grid]
  have e : ∀ x ∈ Finset.range (dims s).nx, (∑ y ∈ Finset.range (dims s).ny, ∑ z ∈ Finset.range (dims s).nz,
      wave s g ((dims s).flat x y z))
      = root s.n1 g.1 x * ((∑ y ∈ Finset.range s.n2, root s.n2 g.2.1 y) * (∑ z ∈ Finset.range s.n3, root s.n3 g.2.2 z)) := by
    intro x _
    rw [Finset.sum_mul_sum, Finset.mul_sum]
    refine Finset.sum_congr rfl fun y hy => ?_
    rw [Finset.mul_sum]
    refine Finset.sum_congr rfl fun z hz => ?_
    have hy := Finset.mem_range.1 hy
    have hz := Finset.mem_range.1 hz
    unfold wave
    rw [(dims s).ix_flat hy hz, (dims s).iy_flat hy hz, (dims s).iz_flat hz]
    ring
  rw [Finset.sum_congr rfl e, ← Finset.sum_mul]
  rw [show (dims s).nx = s.n1 from rfl, sum_root _ hs.1, sum_root _ hs.2.1, sum_root _ hs.2.2]
  unfold SameFreq Shape.size
  simp only [sub_zero]
  by_cases h1 : (s.n1 : ℤ) ∣ g.1
  · by_cases h2 : (s.n2 : ℤ) ∣ g.2.1
    · by_cases h3 : (s.n3 : ℤ) ∣ g.2.2
      · rw [if_pos h1, if_pos h2, if_pos h3, if_pos ⟨h1, h2, h3⟩]; push_cast; ring
      · simp [h3]
    · simp [h2]
  · simp [h1]

/-! ## Matrix elements -/

theorem idxOf_valid (s : Shape) (hs : s.Pos) (gs : List GVec) (h : OnGrid s gs) : FFT.ValidIdx (dims s) (idxOf s gs) := by
  have hb := (GSpace.C10_index_bijection s hs).2.2.1
  constructor
  · unfold idxOf
    refine List.Nodup.map_on ?_ h.1
    intro g hg g' hg' e
    have h1 := hb g (h.2 g hg)
    have h2 := hb g' (h.2 g' hg')
    exact GSpace.flatIdx_inj s hs g g' (h.2 g hg) (h.2 g' hg') (by omega)
  · intro f hf
    unfold idxOf at hf
    rw [List.mem_map] at hf
    obtain ⟨g, hg, rfl⟩ := hf
    have h1 := hb g (h.2 g hg)
    show _ < s.size
    omega

theorem phi_eq (drv : Driver) (s : Shape) (hs : s.Pos) (st : DrvState ℂ) (w : Wfn) (h : OnGrid s w.gs) (b : ℕ)
    (r : Fin (dims s).size) : phi drv s st w b r = ∑ a : Fin w.gs.length, conj (wave s w.gs[a] r) * w.evc b a := by
  unfold phi
  rw [Nonloc.wfR_eq _ _ _ (idxOf_valid s hs w.gs h)]
  have hl : (idxOf s w.gs).length = w.gs.length := by simp [idxOf]
  refine Fintype.sum_equiv (finCongr hl) _ _ ?_
  intro a
  have e : (idxOf s w.gs)[a] = (flatIdx s (w.gs[finCongr hl a])).toNat := by
    unfold idxOf
    exact List.getElem_map _
  rw [e, ker3_bwd_wave s hs (w.gs[finCongr hl a]) (h.2 _ (List.getElem_mem _))]
  rfl

theorem fftProd_eq (drv : Driver) (s : Shape) (hs : s.Pos) (st : DrvState ℂ) (gx : List GVec) (hx : OnGrid s gx)
    (wc wv : Wfn) (hc : OnGrid s wc.gs) (hv : OnGrid s wv.gs) (bc bv : ℕ) :
    fftProd drv s st (idxOf s gx) (phi drv s st wc bc) (phi drv s st wv bv)
      = gx.map fun X => (s.size : ℂ) * overlap s wc wv bc bv X := by
  unfold fftProd
  rw [drv.r2g_eq (dims s) _ _ (idxOf_valid s hs gx hx) st st.f _ _ (fun _ _ => rfl), FFT.fullR2g_eq]
  unfold idxOf
  rw [List.map_map]
  refine List.map_congr_left fun X hX => ?_
  have hXb := hx.2 X hX
  simp only [Function.comp]
  have e1 : ∀ r ∈ Finset.range (dims s).size,
      ker3 (dims s) (dftKern true (dims s)) (flatIdx s X).toNat r
        * (if h : r < (dims s).size then conj (phi drv s st wc bc ⟨r, h⟩) * phi drv s st wv bv ⟨r, h⟩ else 0)
      = ∑ a : Fin wc.gs.length, ∑ b : Fin wv.gs.length,
        (wave s (X.1 + wc.gs[a].1 - wv.gs[b].1, X.2.1 + wc.gs[a].2.1 - wv.gs[b].2.1, X.2.2 + wc.gs[a].2.2 - wv.gs[b].2.2) r
          * (conj (wc.evc bc a) * wv.evc bv b)) := by
    intro r hr
    have hr := Finset.mem_range.1 hr
    rw [dif_pos hr, phi_eq drv s hs st wc hc, phi_eq drv s hs st wv hv, ker3_fwd_wave s hs X hXb, map_sum,
      Finset.sum_mul_sum, Finset.mul_sum]
    refine Finset.sum_congr rfl fun a _ => ?_
    rw [Finset.mul_sum]
    refine Finset.sum_congr rfl fun b _ => ?_
    rw [map_mul, Complex.conj_conj, wave_conj]
    have e := wave_mul s (X.1 + wc.gs[a].1, X.2.1 + wc.gs[a].2.1, X.2.2 + wc.gs[a].2.2)
      (-wv.gs[b].1, -wv.gs[b].2.1, -wv.gs[b].2.2) r
    rw [← wave_mul] at e
    simp only [sub_eq_add_neg]
    rw [← e]
    ring
  rw [Finset.sum_congr rfl e1, Finset.sum_comm]
  unfold overlap
  rw [Finset.mul_sum]
  refine Finset.sum_congr rfl fun a _ => ?_
  rw [Finset.sum_comm, Finset.mul_sum]
  refine Finset.sum_congr rfl fun b _ => ?_
  rw [← Finset.sum_mul, sum_wave s hs]
  have hiff : SameFreq s (X.1 + wc.gs[a].1 - wv.gs[b].1, X.2.1 + wc.gs[a].2.1 - wv.gs[b].2.1, X.2.2 + wc.gs[a].2.2 - wv.gs[b].2.2) (0, 0, 0)
      ↔ SameFreq s (wc.gs[a].1 + X.1, wc.gs[a].2.1 + X.2.1, wc.gs[a].2.2 + X.2.2) wv.gs[b] := by
    unfold SameFreq
    simp only [sub_zero]
    rw [add_comm X.1, add_comm X.2.1, add_comm X.2.2]
  by_cases h : SameFreq s (wc.gs[a].1 + X.1, wc.gs[a].2.1 + X.2.1, wc.gs[a].2.2 + X.2.2) wv.gs[b]
  · rw [if_pos (hiff.2 h), if_pos h]
  · rw [if_neg (fun h' => h (hiff.1 h')), if_neg h]; ring

/-- **C109.** `Epsilon.matrix_elements`: for a pair of states at `k` and at the k-point matching `k + q`, component `G` of
the matrix element vector is `Σ_G' conj(c_{G'}) v_{G' + G - u} / √(E_c - E_v)`, where `u` is the integer vector that brings
`k + q` back to the first cell; frequencies are compared modulo the FFT grid. The number of components is the number of
G-vectors of the q-point, and neither the FFT driver nor its previous use matters. -/
theorem C109_matrix_elements (drv : Driver) (E : EpsIn) (st : DrvState ℂ) (hs : E.shape.Pos) (kc bc kv bv : ℕ)
    (hg : OnGrid E.shape (gUmk E kc)) (hc : OnGrid E.shape (E.wfn.getD kc default).gs)
    (hv : OnGrid E.shape (E.val.getD kv default).gs)
    (hE : (E.val.getD kv default).evl bv < (E.wfn.getD kc default).evl bc) :
    mel drv E st kc bc kv bv = E.gq.map fun G =>
      overlap E.shape (E.wfn.getD kc default) (E.val.getD kv default) bc bv
        (G.1 - umklapp (E.ks.getD kc 0) E.qadd 0, G.2.1 - umklapp (E.ks.getD kc 0) E.qadd 1,
         G.2.2 - umklapp (E.ks.getD kc 0) E.qadd 2)
      / (Real.sqrt ((E.wfn.getD kc default).evl bc - (E.val.getD kv default).evl bv) : ℂ) := by
  unfold mel
  simp only
  rw [fftProd_eq drv E.shape hs st _ hg _ _ hc hv, List.map_map]
  conv_lhs => unfold gUmk
  simp only
  rw [List.map_map]
  refine List.map_congr_left fun G _ => ?_
  simp only [Function.comp]
  have hN : (E.shape.size : ℂ) ≠ 0 := by
    have : 0 < E.shape.size := Nat.mul_pos (Nat.mul_pos hs.1 hs.2.1) hs.2.2
    exact_mod_cast this.ne'
  have hsq : (Real.sqrt ((E.wfn.getD kc default).evl bc - (E.val.getD kv default).evl bv) : ℂ) ≠ 0 := by
    exact_mod_cast (Real.sqrt_pos.2 (sub_pos.2 hE)).ne'
  push_cast
  field_simp

/-- Frequencies closer than the grid are compared exactly: no aliasing once the grid holds all the sums. -/
theorem C109_no_aliasing (s : Shape) (a b : GVec) (h1 : |a.1 - b.1| < s.n1) (h2 : |a.2.1 - b.2.1| < s.n2)
    (h3 : |a.2.2 - b.2.2| < s.n3) : SameFreq s a b ↔ a = b := by
  constructor
  · rintro ⟨d1, d2, d3⟩
    have e1 := Int.eq_zero_of_abs_lt_dvd d1 h1
    have e2 := Int.eq_zero_of_abs_lt_dvd d2 h2
    have e3 := Int.eq_zero_of_abs_lt_dvd d3 h3
    exact Prod.ext (by omega) (Prod.ext (by omega) (by omega))
  · rintro rfl
    exact ⟨by simp, by simp, by simp⟩

/-! ## Umklapp -/

theorem rint_close (x : ℝ) : |(rint x : ℝ) - x| ≤ 1 / 2 := by
  have h0 := Int.fract_nonneg x
  have h1 := Int.fract_lt_one x
  have h2 := Int.floor_add_fract x
  unfold rint
  split_ifs <;> push_cast <;> rw [abs_le] <;> constructor <;> linarith

theorem around_close (nd : ℕ) (x : ℝ) : |around nd x - x| ≤ 1 / 2 / 10 ^ nd := by
  have h := rint_close (x * 10 ^ nd)
  have hp : (0 : ℝ) < 10 ^ nd := by positivity
  unfold around
  rw [show (rint (x * 10 ^ nd) : ℝ) / 10 ^ nd - x = ((rint (x * 10 ^ nd) : ℝ) - x * 10 ^ nd) / 10 ^ nd by field_simp,
    abs_div, abs_of_pos hp]
  exact div_le_div_of_nonneg_right h hp.le

/-- **C110.** The umklapp vector is integral (so `k + q + u` is equivalent to `k + q`), and it brings every component of
`k + q` into the first cell `[0, 1)` up to the rounding of 5·10⁻⁶ used for the comparison. -/
theorem C110_umklapp (k q : Vec) (c : Fin 3) :
    kPlusQ k q c = k c + q c + (umklapp k q c : ℝ)
      ∧ -(5 / 1000000) ≤ kPlusQ k q c ∧ kPlusQ k q c ≤ 1 - 5 / 1000000 := by
  refine ⟨rfl, ?_⟩
  have hc := around_close 5 (k c + q c)
  rw [abs_le] at hc
  unfold kPlusQ umklapp
  set x := k c + q c with hx
  set y := around 5 x with hy
  have hf := Int.floor_le y
  have hl := Int.lt_floor_add_one y
  have hstep : y ≤ ⌊y⌋ + 1 - 1 / 100000 := by
    have e : y * 100000 = (rint (x * 10 ^ 5) : ℝ) := by
      rw [hy]; unfold around; norm_num
    have h1 : ((rint (x * 10 ^ 5) : ℤ) : ℝ) < ((⌊y⌋ + 1) * 100000 : ℤ) := by
      rw [← e]; push_cast; linarith
    have h2 : rint (x * 10 ^ 5) + 1 ≤ (⌊y⌋ + 1) * 100000 := by exact_mod_cast h1
    have h3 : (rint (x * 10 ^ 5) : ℝ) + 1 ≤ (⌊y⌋ + 1) * 100000 := by exact_mod_cast h2
    rw [← e] at h3
    linarith
  push_cast
  constructor <;> norm_num at hc <;> linarith [hc.1, hc.2]

/-- The k-points `kv`, `kc` and the q-point are the points `i/N`, `j/N`, `l/N` of a mesh, as read from files with an error of at most
3·10⁻⁶ (2·10⁻⁶ for `kc` and `q`). -/
structure OnMesh (N : ℕ) (i j l : Fin 3 → ℤ) (kv kc q : Vec) : Prop where
  pos : 0 < N
  coarse : N ≤ 10000
  cell : ∀ c, 0 ≤ i c ∧ i c < N
  v : ∀ c, |kv c - i c / N| ≤ 3 / 1000000
  k : ∀ c, |kc c - j c / N| ≤ 2 / 1000000
  q : ∀ c, |q c - l c / N| ≤ 2 / 1000000

/-- **C109 (partner).** On a mesh whose coordinates were read with a few correct digits, an occupied state at `i/N` is paired with an
empty state at `j/N` for the q-point `l/N` exactly when `i = j + l` modulo the mesh: no wrong pair and no missed pair. -/
theorem C109_partner {N : ℕ} {i j l : Fin 3 → ℤ} {kv kc q : Vec} (h : OnMesh N i j l kv kc q) :
    IsClose kv (kPlusQ kc q) ↔ ∀ c, i c ≡ j c + l c [ZMOD N] := by
  have hN : (0 : ℝ) < N := by exact_mod_cast h.pos
  have hN1 : (N : ℝ) ≤ 10000 := by exact_mod_cast h.coarse
  refine forall_congr' fun c => ?_
  obtain ⟨e0, e1, e2⟩ := C110_umklapp kc q c
  obtain ⟨c0, c1⟩ := h.cell c
  have hv := abs_le.1 (h.v c)
  have hk := abs_le.1 (h.k c)
  have hq := abs_le.1 (h.q c)
  obtain ⟨v1, v2⟩ := hv
  obtain ⟨k1, k2⟩ := hk
  obtain ⟨q1, q2⟩ := hq
  set y := kPlusQ kc q c with hy
  set m : ℤ := j c + l c + umklapp kc q c * N with hm
  have em : (m : ℝ) / N = j c / N + l c / N + umklapp kc q c := by
    rw [hm]; push_cast; field_simp
  have em' : (m : ℝ) / N * N = m := by field_simp
  have ei' : (i c : ℝ) / N * N = i c := by field_simp
  have y1 : y - m / N ≤ 4 / 1000000 := by linarith
  have y2 : -(4 / 1000000) ≤ y - m / N := by linarith
  have m0 : 0 ≤ m := by
    by_contra hc
    have : (m : ℝ) ≤ -1 := by exact_mod_cast (by omega : m ≤ -1)
    have h9 : -(9 / 1000000) ≤ (m : ℝ) / N := by linarith
    have := mul_le_mul_of_nonneg_right h9 hN.le
    rw [em'] at this
    linarith
  have m1 : m < N := by
    by_contra hc
    have : (N : ℝ) ≤ m := by exact_mod_cast (by omega : (N : ℤ) ≤ m)
    have h1 : 1 ≤ (m : ℝ) / N := by rw [le_div_iff₀ hN]; linarith
    linarith
  have hmod : i c ≡ j c + l c [ZMOD N] ↔ i c = m := by
    constructor
    · intro hh
      have h1 : i c ≡ m [ZMOD N] := hh.trans (by
        rw [hm]; exact (Int.modEq_iff_dvd.2 ⟨umklapp kc q c, by ring⟩))
      have h2 := h1.eq
      rwa [Int.emod_eq_of_lt c0 c1, Int.emod_eq_of_lt m0 m1] at h2
    · intro hh
      rw [hh, hm]
      exact (Int.modEq_iff_dvd.2 ⟨-umklapp kc q c, by ring⟩)
  rw [hmod]
  have yb : |y| ≤ 1 := abs_le.2 ⟨by linarith, by linarith⟩
  constructor
  · intro hcl
    obtain ⟨a1, a2⟩ := abs_le.1 hcl
    have b1 : (i c : ℝ) / N - m / N ≤ 3 / 100000 := by linarith
    have b2 : -(3 / 100000) ≤ (i c : ℝ) / N - m / N := by linarith
    have d1 := mul_le_mul_of_nonneg_right b1 hN.le
    have d2 := mul_le_mul_of_nonneg_right b2 hN.le
    rw [sub_mul, em', ei'] at d1 d2
    have f1 : (i c : ℝ) - m < 1 := by linarith
    have f2 : -1 < (i c : ℝ) - m := by linarith
    have g1 : i c - m < 1 := by exact_mod_cast f1
    have g2 : -1 < i c - m := by exact_mod_cast f2
    omega
  · intro hh
    rw [hh] at v1 v2
    have yb0 := abs_nonneg y
    exact abs_le.2 ⟨by linarith, by linarith⟩

/-- A point of the 3×1×1 mesh, given with six digits. -/
noncomputable def meshPt (x : ℝ) : Vec := fun c => if c = 0 then x else 0

/-- Non-trivial instance: on a mesh of three points written with six digits, 1/3 is the partner of 2/3 for q = 2/3. -/
example : IsClose (meshPt 0.333333) (kPlusQ (meshPt 0.666667) (meshPt 0.666667)) := by
  have hm : OnMesh 3 (fun c => if c = 0 then 1 else 0) (fun c => if c = 0 then 2 else 0) (fun c => if c = 0 then 2 else 0)
      (meshPt 0.333333) (meshPt 0.666667) (meshPt 0.666667) := by
    constructor <;> try norm_num
    all_goals
      intro c
      by_cases hc : c = 0 <;> simp [meshPt, hc] <;> norm_num [abs_le]
  rw [C109_partner hm]
  intro c
  by_cases hc : c = 0 <;> simp [hc] <;> decide

end Verif.GW
