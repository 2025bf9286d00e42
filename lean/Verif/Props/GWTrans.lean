import Verif.Props.GWGauge
import Verif.Props.SigmaVec
import Verif.Props.SigmaExact
import Verif.Props.SigmaGPP

/-!
# Property C221: GW quantities do not depend on the choice of the origin of the crystal
-/

namespace Verif.GW

open Verif.Lattice (Vec)
open Verif.GSpace (GVec Shape cryst2idxgrid flatIdx inBounds)
open Verif.FFT (Driver DrvState)
open scoped ComplexConjugate

/-! ## Specification -/

/-- `exp(-2πi t·g)`: the factor that a shift by `t` (crystal coordinates) puts on the plane wave `g`. -/
noncomputable def shiftPhase (t : Vec) (g : GVec) : ℂ :=
  Complex.exp (-(2 * Real.pi * Complex.I) * ((t 0 * g.1 + t 1 * g.2.1 + t 2 * g.2.2 : ℝ) : ℂ))

/-- `w'` holds the states of `w` moved by `t`: `c'_G = exp(-2πi t·(k + G)) c_G`, the factor `exp(-2πi t·k)` being some number of modulus 1. -/
structure Moved (t : Vec) (w w' : Wfn) : Prop where
  gs : w'.gs = w.gs
  evl : w'.evl = w.evl
  occ : w'.occ = w.occ
  evc : ∃ κ : ℂ, conj κ * κ = 1 ∧ ∀ b, ∀ j : Fin w.gs.length, w'.evc b j = κ * shiftPhase t w.gs[j] * w.evc b j

/-- Vectors that are one on the FFT grid get the same factor: true of every shift by whole grid steps, and of every shift if the grid is large enough that
`G' + X` meets a vector of the second sphere only by being equal to it. -/
def Resolved (s : Shape) (t : Vec) (gs gs' : List GVec) (X : GVec) : Prop :=
  ∀ a ∈ gs, ∀ b ∈ gs', SameFreq s (a.1 + X.1, a.2.1 + X.2.1, a.2.2 + X.2.2) b →
    shiftPhase t (a.1 + X.1, a.2.1 + X.2.1, a.2.2 + X.2.2) = shiftPhase t b

/-- All states of the polarizability. -/
def EpsIn.Resolved (E : EpsIn) (t : Vec) : Prop :=
  ∀ kc < E.ks.length, ∀ kv, ∀ X ∈ gUmk E kc, GW.Resolved E.shape t (E.wfn.getD kc default).gs (E.val.getD kv default).gs X

/-- All states of the self-energies. -/
def SigIn.Resolved (S : SigIn) (t : Vec) : Prop :=
  ∀ iq < S.qs.length, ∀ k ∈ S.kIdx, ∀ X ∈ gUmk (S.eps (indexMinusQ S iq)) k, ∀ kb,
    GW.Resolved S.shape t (S.wfn.getD k default).gs ((braWfn S (indexMinusQ S iq)).getD kb default).gs X

/-! ## Lemmas -/

theorem shiftPhase_zero (t : Vec) : shiftPhase t (0, 0, 0) = 1 := by simp [shiftPhase]

theorem shiftPhase_add (t : Vec) (a b : GVec) : shiftPhase t (a.1 + b.1, a.2.1 + b.2.1, a.2.2 + b.2.2) = shiftPhase t a * shiftPhase t b := by
  unfold shiftPhase
  rw [← Complex.exp_add]
  congr 1
  push_cast
  ring

theorem shiftPhase_conj (t : Vec) (g : GVec) : conj (shiftPhase t g) = shiftPhase t (-g.1, -g.2.1, -g.2.2) := by
  unfold shiftPhase
  rw [← Complex.exp_conj]
  congr 1
  simp only [map_mul, map_neg, Complex.conj_ofReal, Complex.conj_I, map_ofNat]
  push_cast
  ring

theorem shiftPhase_unit (t : Vec) (g : GVec) : conj (shiftPhase t g) * shiftPhase t g = 1 := by
  rw [shiftPhase_conj]
  have := shiftPhase_add t (-g.1, -g.2.1, -g.2.2) g
  simp only [neg_add_cancel, shiftPhase_zero] at this
  exact this.symm

theorem shiftPhase_of_eq (t : Vec) (a b : GVec) (n : ℤ) (h : t 0 * (a.1 - b.1) + t 1 * (a.2.1 - b.2.1) + t 2 * (a.2.2 - b.2.2) = n) :
    shiftPhase t a = shiftPhase t b := by
  unfold shiftPhase
  rw [Complex.exp_eq_exp_iff_exists_int]
  refine ⟨-n, ?_⟩
  have h' : t 0 * a.1 + t 1 * a.2.1 + t 2 * a.2.2 = t 0 * b.1 + t 1 * b.2.1 + t 2 * b.2.2 + n := by rw [← h]; ring
  rw [h']
  push_cast
  ring

/-- A shift by whole grid steps. -/
theorem resolved_steps (s : Shape) (t : Vec) (k : Fin 3 → ℤ) (h0 : t 0 * s.n1 = k 0) (h1 : t 1 * s.n2 = k 1) (h2 : t 2 * s.n3 = k 2)
    (gs gs' : List GVec) (X : GVec) : Resolved s t gs gs' X := by
  rintro a - b - ⟨⟨x, hx⟩, ⟨y, hy⟩, ⟨z, hz⟩⟩
  refine shiftPhase_of_eq t _ _ (k 0 * x + k 1 * y + k 2 * z) ?_
  have ex : (((a.1 + X.1 : ℤ) : ℝ) - (b.1 : ℝ)) = s.n1 * x := by exact_mod_cast hx
  have ey : (((a.2.1 + X.2.1 : ℤ) : ℝ) - (b.2.1 : ℝ)) = s.n2 * y := by exact_mod_cast hy
  have ez : (((a.2.2 + X.2.2 : ℤ) : ℝ) - (b.2.2 : ℝ)) = s.n3 * z := by exact_mod_cast hz
  simp only
  rw [ex, ey, ez]
  push_cast
  rw [← h0, ← h1, ← h2]
  ring

/-- A grid without aliasing. -/
theorem resolved_big (s : Shape) (t : Vec) (gs gs' : List GVec) (X : GVec)
    (h : ∀ a ∈ gs, ∀ b ∈ gs', |a.1 + X.1 - b.1| < s.n1 ∧ |a.2.1 + X.2.1 - b.2.1| < s.n2 ∧ |a.2.2 + X.2.2 - b.2.2| < s.n3) : Resolved s t gs gs' X := by
  rintro a ha b hb ⟨hx, hy, hz⟩
  obtain ⟨b1, b2, b3⟩ := h a ha b hb
  have e1 := Int.eq_zero_of_abs_lt_dvd hx b1
  have e2 := Int.eq_zero_of_abs_lt_dvd hy b2
  have e3 := Int.eq_zero_of_abs_lt_dvd hz b3
  congr 1
  exact Prod.ext (by simpa using by linarith) (Prod.ext (by simpa using by linarith) (by simpa using by linarith))

/-- The overlap of moved states. -/
theorem overlap_moved (s : Shape) (t : Vec) (wc wc' wv wv' : Wfn) (hc : Moved t wc wc') (hv : Moved t wv wv') (X : GVec)
    (hr : Resolved s t wc.gs wv.gs X) : ∀ κc κv : ℂ, (∀ b, ∀ j : Fin wc.gs.length, wc'.evc b j = κc * shiftPhase t wc.gs[j] * wc.evc b j) →
    (∀ b, ∀ j : Fin wv.gs.length, wv'.evc b j = κv * shiftPhase t wv.gs[j] * wv.evc b j) → ∀ c v,
    overlap s wc' wv' c v X = conj κc * κv * shiftPhase t X * overlap s wc wv c v X := by
  intro κc κv h1 h2 c v
  obtain ⟨g1, l1, o1, c1⟩ := wc'
  obtain ⟨g2, l2, o2, c2⟩ := wv'
  have e1 := hc.gs
  have e2 := hv.gs
  simp only at e1 e2
  subst e1
  subst e2
  unfold overlap
  simp only at h1 h2 ⊢
  rw [Finset.mul_sum]
  refine Finset.sum_congr rfl fun i _ => ?_
  rw [Finset.mul_sum]
  refine Finset.sum_congr rfl fun j _ => ?_
  by_cases h : SameFreq s (wc.gs[i].1 + X.1, wc.gs[i].2.1 + X.2.1, wc.gs[i].2.2 + X.2.2) wv.gs[j]
  · rw [if_pos h, if_pos h, h1 c i, h2 v j]
    have e := hr _ (List.getElem_mem i.2) _ (List.getElem_mem j.2) h
    have u := shiftPhase_unit t wc.gs[i]
    have ad : shiftPhase t wv.gs[j] = shiftPhase t wc.gs[i] * shiftPhase t X := e.symm.trans (shiftPhase_add t wc.gs[i] X)
    rw [ad]
    simp only [map_mul]
    linear_combination conj κc * κv * shiftPhase t X * conj (wc.evc c i) * wv.evc v j * u
  · rw [if_neg h, if_neg h, mul_zero]

/-! ## The polarizability and the dielectric matrix -/

theorem map_moved (E : EpsIn) (t : Vec) (kc : ℕ) (u : GVec)
    (hu : u = (umklapp (E.ks.getD kc 0) E.qadd 0, umklapp (E.ks.getD kc 0) E.qadd 1, umklapp (E.ks.getD kc 0) E.qadd 2)) (F F' : GVec → ℂ) (K : ℂ)
    (h : ∀ X ∈ gUmk E kc, F' X = K * shiftPhase t X * F X) (l : ℕ) :
    ((gUmk E kc).map F').getD l 0 = K * conj (shiftPhase t u) * shiftPhase t (E.gq.getD l (0, 0, 0)) * ((gUmk E kc).map F).getD l 0 := by
  by_cases hl : l < (gUmk E kc).length
  · have hlq : l < E.gq.length := by
      unfold gUmk at hl
      simpa using hl
    simp only [List.getD_eq_getElem?_getD, List.getElem?_map, List.getElem?_eq_getElem hl, List.getElem?_eq_getElem hlq, Option.map_some, Option.getD_some]
    rw [h _ (List.getElem_mem hl)]
    have hX : shiftPhase t E.gq[l] = shiftPhase t (gUmk E kc)[l] * shiftPhase t u := by
      rw [← shiftPhase_add]
      have hG : (gUmk E kc)[l] = (E.gq[l].1 - u.1, E.gq[l].2.1 - u.2.1, E.gq[l].2.2 - u.2.2) := by
        rw [hu]
        exact List.getElem_map _
      rw [hG]
      simp
    rw [hX]
    linear_combination (-(K * shiftPhase t (gUmk E kc)[l] * F (gUmk E kc)[l])) * shiftPhase_unit t u
  · have : (gUmk E kc)[l]? = none := List.getElem?_eq_none (by omega)
    simp [List.getD_eq_getElem?_getD, List.getElem?_map, this]

theorem mel_moved (drv : Driver) (E : EpsIn) (st : DrvState ℂ) (hs : E.shape.Pos) (hg : E.Grid) (t : Vec) (hr : E.Resolved t) (w v : List Wfn) (kc kv : ℕ)
    (hk : kc < E.ks.length) (hw : Moved t (E.wfn.getD kc default) (w.getD kc default))
    (hv : Moved t (E.val.getD kv default) (v.getD kv default)) (hg' : (E.withWfn w v).Grid)
    (hfit : ∀ g ∈ gUmk E kc, inBounds E.shape g = true) :
    ∃ K : ℂ, conj K * K = 1 ∧ ∀ c b l, (mel drv (E.withWfn w v) st kc c kv b).getD l 0
      = K * shiftPhase t (E.gq.getD l (0, 0, 0)) * (mel drv E st kc c kv b).getD l 0 := by
  obtain ⟨κc, uc, fc⟩ := hw.evc
  obtain ⟨κv, uv, fv⟩ := hv.evc
  set u : GVec := (umklapp (E.ks.getD kc 0) E.qadd 0, umklapp (E.ks.getD kc 0) E.qadd 1, umklapp (E.ks.getD kc 0) E.qadd 2) with hu
  refine ⟨conj κc * κv * conj (shiftPhase t u), ?_, fun c b l => ?_⟩
  · have a := shiftPhase_unit t u
    simp only [map_mul, Complex.conj_conj]
    linear_combination conj κv * κv * conj (shiftPhase t u) * shiftPhase t u * uc + conj (shiftPhase t u) * shiftPhase t u * uv + a
  · rw [mel_eq drv (E.withWfn w v) st hs kc c kv b hg' hfit l, mel_eq drv E st hs kc c kv b hg hfit l]
    have hgu : gUmk (E.withWfn w v) kc = gUmk E kc := rfl
    rw [hgu]
    have hwf : (E.withWfn w v).wfn = w := rfl
    have hvf : (E.withWfn w v).val = v := rfl
    have hsf : (E.withWfn w v).shape = E.shape := rfl
    rw [hwf, hvf, hsf, hw.evl, hv.evl]
    refine map_moved E t kc u rfl _ _ _ (fun X hX => ?_) l
    rw [overlap_moved E.shape t _ _ _ _ hw hv _ (hr kc hk kv _ hX) κc κv fc fv c b]
    ring

theorem chiSpec_moved (drv : Driver) (E : EpsIn) (st : DrvState ℂ) (h : E.Ok) (hg : E.Grid) (t : Vec) (hr : E.Resolved t) (w v : List Wfn)
    (hw : ∀ k, Moved t (E.wfn.getD k default) (w.getD k default)) (hv : ∀ k, Moved t (E.val.getD k default) (v.getD k default)) (l m : ℕ) :
    chiSpec drv (E.withWfn w v) st l m
      = conj (shiftPhase t (E.gq.getD l (0, 0, 0))) * shiftPhase t (E.gq.getD m (0, 0, 0)) * chiSpec drv E st l m := by
  classical
  have hg' : (E.withWfn w v).Grid :=
    ⟨hg.gq, fun k => by show OnGrid E.shape (w.getD k default).gs; rw [(hw k).gs]; exact hg.wfn k,
      fun k => by show OnGrid E.shape (v.getD k default).gs; rw [(hv k).gs]; exact hg.val k⟩
  have ht : transitions (E.withWfn w v) = transitions E := by
    unfold transitions
    ext p
    simp only [Finset.mem_filter]
    refine and_congr Iff.rfl ?_
    unfold Transition
    rw [hasOcc_mix E w v (fun k => (hw k).occ), hasOcc_mix E w v (fun k => (hw k).occ)]
    exact Iff.rfl
  unfold chiSpec
  rw [ht]
  show -(4 / ((E.vol * E.ks.length : ℝ) : ℂ)) * _ = _
  rw [mul_left_comm]
  congr 1
  rw [Finset.mul_sum]
  refine Finset.sum_congr rfl fun p hp => ?_
  unfold transitions at hp
  have hp' : Transition E p := (Finset.mem_filter.1 hp).2
  have hk : p.1.1 < E.ks.length := hp'.1.1
  obtain ⟨K, hK, hall⟩ := mel_moved drv E st h.pos hg t hr w v p.1.1 p.2.1 hk (hw _) (hv _) hg' (h.fits _ hk)
  rw [hall, hall]
  simp only [map_mul]
  linear_combination conj (shiftPhase t (E.gq.getD l (0, 0, 0))) * shiftPhase t (E.gq.getD m (0, 0, 0)) * conj ((mel drv E st p.1.1 p.1.2 p.2.1 p.2.2).getD l 0) * (mel drv E st p.1.1 p.1.2 p.2.1 p.2.2).getD m 0 * hK

/-- **C221 (polarizability).** If the crystal is moved by `t`, the polarizability matrix, in either variant of the code, is that of the unmoved crystal with `χ_GG'` multiplied by
`exp(2πi t·(G - G'))`; its diagonal does not change. -/
theorem C221_polarizability (drv : Driver) (E : EpsIn) (st : DrvState ℂ) (h : E.Ok) (hg : E.Grid) (t : Vec) (hr : E.Resolved t) (w v : List Wfn)
    (hw : ∀ k, Moved t (E.wfn.getD k default) (w.getD k default)) (hv : ∀ k, Moved t (E.val.getD k default) (v.getD k default)) :
    (∃ chi chi', chiActive drv E st = .ok chi ∧ chiActive drv { E with wfn := w, val := v } st = .ok chi'
      ∧ ∀ l m, chi' l m = conj (shiftPhase t (E.gq.getD l (0, 0, 0))) * shiftPhase t (E.gq.getD m (0, 0, 0)) * chi l m)
    ∧ ((∀ kc < E.ks.length, ∀ kv < E.ks.length, ∀ kv' < E.ks.length,
        IsClose (E.ks.getD kv 0) (kPlusQ (E.ks.getD kc 0) E.qadd) →
        IsClose (E.ks.getD kv' 0) (kPlusQ (E.ks.getD kc 0) E.qadd) → kv = kv') →
      ∃ chi chi', chiBatch drv E st = .ok chi ∧ chiBatch drv { E with wfn := w, val := v } st = .ok chi'
        ∧ ∀ l m, chi' l m = conj (shiftPhase t (E.gq.getD l (0, 0, 0))) * shiftPhase t (E.gq.getD m (0, 0, 0)) * chi l m) := by
  have h' : (E.withWfn w v).Ok := Ok_mix E w v (fun k => (hw k).occ) h
  refine ⟨⟨_, _, C54_active drv E st h, C54_active drv (E.withWfn w v) st h', ?_⟩, fun hu => ⟨_, _, C54_stored drv E st h hu, C54_stored drv (E.withWfn w v) st h' hu, ?_⟩⟩
  · exact chiSpec_moved drv E st h hg t hr w v hw hv
  · exact chiSpec_moved drv E st h hg t hr w v hw hv

theorem epsMat_moved {n : ℕ} (d : Fin n → ℂ) (hd : ∀ i, conj (d i) * d i = 1) (v : Fin n → ℝ) (chi : Fin n → Fin n → ℂ) :
    epsMat v (fun i j => conj (d i) * d j * chi i j) = Matrix.diagonal (fun i => conj (d i)) * epsMat v chi * Matrix.diagonal d := by
  ext i j
  rw [Matrix.mul_diagonal, Matrix.diagonal_mul]
  unfold epsMat
  by_cases e : i = j
  · subst e
    rw [if_pos rfl]
    linear_combination -(hd i)
  · rw [if_neg e]
    ring

/-- **C221 (dielectric matrix).** Multiplying `χ_GG'` by `conj(d_G) d_G'`, `|d_G| = 1`, multiplies `ε⁻¹_GG'` by the same factors; whether there is an inverse does not change. -/
theorem C221_dielectric {n : ℕ} (d : Fin n → ℂ) (hd : ∀ i, conj (d i) * d i = 1) (v : Fin n → Option ℝ) (chi : Fin n → Fin n → ℂ) :
    epsInverse v (fun i j => conj (d i) * d j * chi i j)
      = (epsInverse v chi).map (Option.map fun A => fun i j => conj (d i) * d j * A i j) := by
  classical
  have h1 : Matrix.diagonal (fun i => conj (d i)) * Matrix.diagonal d = 1 := by
    rw [Matrix.diagonal_mul_diagonal, ← Matrix.diagonal_one]
    exact congrArg _ (funext hd)
  have h2 : Matrix.diagonal d * Matrix.diagonal (fun i => conj (d i)) = 1 := by
    rw [Matrix.diagonal_mul_diagonal, ← Matrix.diagonal_one]
    exact congrArg _ (funext fun i => by rw [mul_comm]; exact hd i)
  have hdet : (epsMat (fun j => (v j).getD 0) fun i j => conj (d i) * d j * chi i j).det = (epsMat (fun j => (v j).getD 0) chi).det := by
    rw [epsMat_moved d hd, Matrix.det_mul, Matrix.det_mul]
    have := congrArg Matrix.det h1
    rw [Matrix.det_mul, Matrix.det_one] at this
    linear_combination (epsMat (fun j => (v j).getD 0) chi).det * this
  unfold epsInverse
  by_cases hn : ∃ j, v j = none
  · rw [if_pos hn, if_pos hn]; rfl
  rw [if_neg hn, if_neg hn, hdet]
  by_cases h0 : (epsMat (fun j => (v j).getD 0) chi).det = 0
  · rw [if_pos h0, if_pos h0]; rfl
  rw [if_neg h0, if_neg h0]
  show Except.ok (some _) = Except.ok (some _)
  congr 2
  have hi : Invertible (epsMat (fun j => (v j).getD 0) chi) := (Matrix.isUnit_iff_isUnit_det _ |>.2 (isUnit_iff_ne_zero.2 h0)).invertible
  rw [epsMat_moved d hd, Matrix.inv_eq_right_inv (B := Matrix.diagonal (fun i => conj (d i)) * (epsMat (fun j => (v j).getD 0) chi)⁻¹ * Matrix.diagonal d)]
  · funext i j
    rw [Matrix.mul_diagonal, Matrix.diagonal_mul]
    ring
  · calc _ = Matrix.diagonal (fun i => conj (d i)) * (epsMat (fun j => (v j).getD 0) chi * ((Matrix.diagonal d * Matrix.diagonal fun i => conj (d i)) * (epsMat (fun j => (v j).getD 0) chi)⁻¹)) * Matrix.diagonal d := by
          simp only [Matrix.mul_assoc]
      _ = 1 := by rw [h2, Matrix.one_mul, Matrix.mul_inv_of_invertible, Matrix.mul_one, h1]

/-- **C221 (head and wings).** `fixwings` keeps the relation, if the vector `G = 0` has the factor 1. -/
theorem C221_fixwings (q0flag : Bool) (wcoul0 : ℂ) (oneoverq vcoul q0len : ℝ) (g0 : ℕ) (d : ℕ → ℂ) (h0 : d g0 = 1) (eps : ℕ → ℕ → ℂ) (i j : ℕ) :
    fixwings q0flag wcoul0 oneoverq vcoul q0len g0 (fun i j => conj (d i) * d j * eps i j) i j
      = conj (d i) * d j * fixwings q0flag wcoul0 oneoverq vcoul q0len g0 eps i j := by
  rw [C114_fixwings, C114_fixwings]
  by_cases hi : i = g0
  · by_cases hj : j = g0
    · simp [hi, hj, h0]
    · cases q0flag <;> simp [hi, hj, h0]
      ring
  · by_cases hj : j = g0
    · cases q0flag <;> simp [hi, hj, h0]
      ring
    · simp [hi, hj]

/-! ## The self-energies -/

/-- The same calculation with other wavefunctions and another dielectric matrix. -/
def SigIn.withData (S : SigIn) (w wq : List Wfn) (e : ℕ → ℕ → ℕ → ℂ) : SigIn := { S with wfn := w, wfnq := wq, epsI := e }

/-- All states moved by `t`, and `ε⁻¹ - 1` of the moved crystal. -/
structure SigIn.Moved (S : SigIn) (t : Vec) (w wq : List Wfn) (e : ℕ → ℕ → ℕ → ℂ) : Prop where
  wfn : ∀ k, GW.Moved t (S.wfn.getD k default) (w.getD k default)
  wfnq : ∀ k, GW.Moved t (S.wfnq.getD k default) (wq.getD k default)
  eps : ∀ iq < S.qs.length, ∀ l < (S.gqs.getD iq []).length, ∀ m < (S.gqs.getD iq []).length,
    e iq l m = conj (shiftPhase t ((S.gqs.getD iq []).getD l (0, 0, 0))) * shiftPhase t ((S.gqs.getD iq []).getD m (0, 0, 0)) * S.epsI iq l m

theorem bra_moved (S : SigIn) {t : Vec} {w wq : List Wfn} {e : ℕ → ℕ → ℕ → ℂ} (h : S.Moved t w wq e) (iq k : ℕ) :
    GW.Moved t ((braWfn S iq).getD k default) ((braWfn (S.withData w wq e) iq).getD k default) := by
  rw [← eps_val, ← eps_val]
  show GW.Moved t ((if S.atQ0 iq then S.wfnq else S.wfn).getD k default) ((if S.atQ0 iq then wq else w).getD k default)
  by_cases hq : S.atQ0 iq
  · rw [if_pos hq, if_pos hq]; exact h.wfnq k
  · rw [if_neg hq, if_neg hq]; exact h.wfn k

/-- The factor of a vector of the list of `-q`. -/
theorem partner_phase (S : SigIn) {N : Vec → ℝ} {cut : ℝ} (hm : S.QMesh N cut) (t : Vec) (iq : ℕ) (hq : iq < S.qs.length) (u : Fin 3 → ℤ) :
    ∃ K : ℂ, conj K * K = 1 ∧ ∀ m < (S.gqs.getD iq []).length,
      shiftPhase t (((S.gqs.getD (indexMinusQ S iq) []).getD ((gToMg S iq).getD m 0) (0, 0, 0)).1 - u 0,
        ((S.gqs.getD (indexMinusQ S iq) []).getD ((gToMg S iq).getD m 0) (0, 0, 0)).2.1 - u 1,
        ((S.gqs.getD (indexMinusQ S iq) []).getD ((gToMg S iq).getD m 0) (0, 0, 0)).2.2 - u 2)
      = K * conj (shiftPhase t ((S.gqs.getD iq []).getD m (0, 0, 0))) := by
  set r : ℝ := ∑ c : Fin 3, t c * (-(momentum S iq c + momentum S (indexMinusQ S iq) c) - u c) with hrd
  refine ⟨Complex.exp (-(2 * Real.pi * Complex.I) * (r : ℂ)), ?_, fun m hlt => ?_⟩
  · rw [← Complex.exp_conj, ← Complex.exp_add]
    have : conj (-(2 * (Real.pi : ℂ) * Complex.I) * (r : ℂ)) + -(2 * (Real.pi : ℂ) * Complex.I) * (r : ℂ) = 0 := by
      simp only [map_mul, map_neg, Complex.conj_ofReal, Complex.conj_I, map_ofNat]
      ring
    rw [this, Complex.exp_zero]
  · rw [shiftPhase_conj]
    have hv := fun c => minus_vector S hm iq hq m hlt c
    generalize (S.gqs.getD (indexMinusQ S iq) []).getD ((gToMg S iq).getD m 0) (0, 0, 0) = G' at hv ⊢
    generalize (S.gqs.getD iq []).getD m (0, 0, 0) = G at hv ⊢
    unfold shiftPhase
    rw [← Complex.exp_add]
    congr 1
    rw [← mul_add, ← Complex.ofReal_add]
    congr 2
    have v0 := hv 0
    have v1 := hv 1
    have v2 := hv 2
    simp only [gv, Fin.isValue] at v0 v1 v2
    have e0 : (G'.1 : ℝ) = -(G.1 + momentum S iq 0) - momentum S (indexMinusQ S iq) 0 := by linarith [hv 0, show gv G' 0 = (G'.1 : ℝ) from rfl, show gv G 0 = (G.1 : ℝ) from rfl]
    have e1 : (G'.2.1 : ℝ) = -(G.2.1 + momentum S iq 1) - momentum S (indexMinusQ S iq) 1 := by linarith [hv 1, show gv G' 1 = (G'.2.1 : ℝ) from rfl, show gv G 1 = (G.2.1 : ℝ) from rfl]
    have e2 : (G'.2.2 : ℝ) = -(G.2.2 + momentum S iq 2) - momentum S (indexMinusQ S iq) 2 := by linarith [hv 2, show gv G' 2 = (G'.2.2 : ℝ) from rfl, show gv G 2 = (G.2.2 : ℝ) from rfl]
    rw [hrd, Fin.sum_univ_three]
    push_cast
    rw [e0, e1, e2]
    ring

/-- Matrix elements of the moved crystal. -/
theorem amp_moved (S : SigIn) (hS : S.Base) {N : Vec → ℝ} {cut : ℝ} (hm : S.QMesh N cut) {t : Vec} (hr : S.Resolved t) {w wq : List Wfn} {e : ℕ → ℕ → ℕ → ℂ} (h : S.Moved t w wq e)
    (iq n : ℕ) (hq : iq < S.qs.length) (hn : n < S.kIdx.length) :
    ∃ K : ℂ, conj K * K = 1 ∧ ∀ b j, ∀ m < (S.gqs.getD iq []).length,
      amp (S.withData w wq e) iq n b j m = K * conj (shiftPhase t ((S.gqs.getD iq []).getD m (0, 0, 0))) * amp S iq n b j m := by
  have hk : S.kIdx.getD n 0 ∈ S.kIdx := by rw [List.getD_eq_getElem _ _ hn]; exact List.getElem_mem hn
  obtain ⟨κc, uc, fc⟩ := (h.wfn (S.kIdx.getD n 0)).evc
  obtain ⟨κv, uv, fv⟩ := (bra_moved S h (indexMinusQ S iq) (braOf S iq n)).evc
  obtain ⟨P, uP, hP⟩ := partner_phase S hm t iq hq (umklapp (S.ks.getD (S.kIdx.getD n 0) 0) (shiftOf S (indexMinusQ S iq)))
  refine ⟨conj κc * κv * P, ?_, fun b j m hlt => ?_⟩
  · simp only [map_mul, Complex.conj_conj]
    linear_combination conj κv * κv * conj P * P * uc + conj P * P * uv + uP
  · have hi := gToMg_lt S iq m (hS.nonempty iq hq)
    have hX : (((S.gqs.getD (indexMinusQ S iq) []).getD ((gToMg S iq).getD m 0) (0, 0, 0)).1 - umklapp (S.ks.getD (S.kIdx.getD n 0) 0) (shiftOf S (indexMinusQ S iq)) 0,
        ((S.gqs.getD (indexMinusQ S iq) []).getD ((gToMg S iq).getD m 0) (0, 0, 0)).2.1 - umklapp (S.ks.getD (S.kIdx.getD n 0) 0) (shiftOf S (indexMinusQ S iq)) 1,
        ((S.gqs.getD (indexMinusQ S iq) []).getD ((gToMg S iq).getD m 0) (0, 0, 0)).2.2 - umklapp (S.ks.getD (S.kIdx.getD n 0) 0) (shiftOf S (indexMinusQ S iq)) 2)
        ∈ gUmk (S.eps (indexMinusQ S iq)) (S.kIdx.getD n 0) := by
      unfold gUmk
      rw [List.getD_eq_getElem _ _ hi, ← eps_qadd]
      exact List.mem_map.2 ⟨_, List.getElem_mem hi, rfl⟩
    have key := overlap_moved S.shape t _ _ _ _ (h.wfn (S.kIdx.getD n 0)) (bra_moved S h (indexMinusQ S iq) (braOf S iq n)) _
      (hr iq hq _ hk _ hX _) κc κv fc fv (j + (S.bmin - 1)) b
    refine Eq.trans (show amp (S.withData w wq e) iq n b j m = _ from key) ?_
    rw [hP m hlt]
    unfold amp
    simp only
    ring

theorem pairX_moved (S : SigIn) (hS : S.Base) {N : Vec → ℝ} {cut : ℝ} (hm : S.QMesh N cut) {t : Vec} (hr : S.Resolved t) {w wq : List Wfn} {e : ℕ → ℕ → ℕ → ℂ} (h : S.Moved t w wq e)
    (iq n : ℕ) (hq : iq < S.qs.length) (hn : n < S.kIdx.length) (b j : ℕ) : pairX (S.withData w wq e) iq n b j = pairX S iq n b j := by
  obtain ⟨K, uK, hK⟩ := amp_moved S hS hm hr h iq n hq hn
  have nK : Complex.normSq K = 1 := by exact_mod_cast (Complex.normSq_eq_conj_mul_self (z := K)).trans uK
  show ∑ m ∈ Finset.range (S.gqs.getD iq []).length, (S.v.getD iq []).getD m 0 * Complex.normSq (amp (S.withData w wq e) iq n b j m) = _
  unfold pairX
  refine Finset.sum_congr rfl fun m hmm => ?_
  rw [hK b j m (Finset.mem_range.1 hmm), Complex.normSq_mul, Complex.normSq_mul, nK, Complex.normSq_conj]
  have nP : Complex.normSq (shiftPhase t ((S.gqs.getD iq []).getD m (0, 0, 0))) = 1 := by
    exact_mod_cast (Complex.normSq_eq_conj_mul_self (z := shiftPhase t ((S.gqs.getD iq []).getD m (0, 0, 0)))).trans (shiftPhase_unit t _)
  rw [nP, one_mul, one_mul]

theorem pairEps_moved (S : SigIn) (hS : S.Base) {N : Vec → ℝ} {cut : ℝ} (hm : S.QMesh N cut) {t : Vec} (hr : S.Resolved t) {w wq : List Wfn} {e : ℕ → ℕ → ℕ → ℂ} (h : S.Moved t w wq e)
    (iq n : ℕ) (hq : iq < S.qs.length) (hn : n < S.kIdx.length) (b j : ℕ) : pairEps (S.withData w wq e) iq n b j = pairEps S iq n b j := by
  obtain ⟨K, uK, hK⟩ := amp_moved S hS hm hr h iq n hq hn
  show ∑ k ∈ Finset.range (S.gqs.getD iq []).length, ∑ m ∈ Finset.range (S.gqs.getD iq []).length,
    conj (amp (S.withData w wq e) iq n b j k) * amp (S.withData w wq e) iq n b j m * e iq k m * ((S.v.getD iq []).getD k 0 : ℂ) = _
  unfold pairEps
  refine Finset.sum_congr rfl fun k hk => Finset.sum_congr rfl fun m hmm => ?_
  rw [hK b j m (Finset.mem_range.1 hmm), hK b j k (Finset.mem_range.1 hk), h.eps iq hq k (Finset.mem_range.1 hk) m (Finset.mem_range.1 hmm)]
  have a := shiftPhase_unit t ((S.gqs.getD iq []).getD k (0, 0, 0))
  have b' := shiftPhase_unit t ((S.gqs.getD iq []).getD m (0, 0, 0))
  generalize shiftPhase t ((S.gqs.getD iq []).getD k (0, 0, 0)) = p at a ⊢
  generalize shiftPhase t ((S.gqs.getD iq []).getD m (0, 0, 0)) = r at b' ⊢
  simp only [map_mul, Complex.conj_conj]
  linear_combination conj (amp S iq n b j k) * amp S iq n b j m * S.epsI iq k m * ((S.v.getD iq []).getD k 0 : ℂ)
    * (conj p * p * conj r * r * uK + conj r * r * a + b')

theorem whereOcc_moved (S : SigIn) {t : Vec} {w wq : List Wfn} {e : ℕ → ℕ → ℕ → ℂ} (h : S.Moved t w wq e) (x : ℝ) (i : ℕ) :
    whereOcc ((S.withData w wq e).eps i) x = whereOcc (S.eps i) x := by
  classical
  unfold whereOcc
  show (List.range S.ks.length).flatMap (fun k =>
    ((List.range S.nbands).filter fun b => decide ((w.getD k default).occ b = x)).map fun b => (k, b)) = _
  have : (fun k => ((List.range S.nbands).filter fun b => decide ((w.getD k default).occ b = x)).map fun b => (k, b))
      = fun k => ((List.range S.nbands).filter fun b => decide ((S.wfn.getD k default).occ b = x)).map fun b => (k, b) := by
    funext k
    rw [(h.wfn k).occ]
  rw [this]
  rfl

theorem sigOk_moved (S : SigIn) {t : Vec} {w wq : List Wfn} {e : ℕ → ℕ → ℕ → ℂ} (h : S.Moved t w wq e) (hS : S.Ok) : (S.withData w wq e).Ok := by
  obtain ⟨p, hp⟩ := hS.occupied
  obtain ⟨p', hp'⟩ := hS.empty
  refine { pos := hS.pos, occupied := ⟨p, ?_⟩, empty := ⟨p', ?_⟩, partner := hS.partner, fits := hS.fits, nonempty := hS.nonempty,
           vlen := hS.vlen }
  · rw [← mem_whereOcc] at hp ⊢; rw [whereOcc_moved S h]; exact hp
  · rw [← mem_whereOcc] at hp' ⊢; rw [whereOcc_moved S h]; exact hp'

theorem sigGrid_moved (S : SigIn) {t : Vec} {w wq : List Wfn} {e : ℕ → ℕ → ℕ → ℂ} (h : S.Moved t w wq e) (hg : S.Grid) : (S.withData w wq e).Grid :=
  ⟨hg.gq, fun k => by show OnGrid S.shape (w.getD k default).gs; rw [(h.wfn k).gs]; exact hg.wfn k,
    fun k => by show OnGrid S.shape (wq.getD k default).gs; rw [(h.wfnq k).gs]; exact hg.wfnq k⟩

/-- **C221 (self-energies).** On a mesh of q-points, the bare exchange, the static screened exchange and the static Coulomb hole of the moved crystal are, entry by entry, those of the unmoved one. -/
theorem C221_self_energies (drv : Driver) (S : SigIn) (st : DrvState ℂ) (h : S.Ok) (hg : S.Grid) (hnd : S.kIdx.Nodup) (hsort : SxSortOk S) {N : Vec → ℝ} {cut : ℝ} (hm : S.QMesh N cut)
    (y : Bool) (size : Option ℕ) (hs : ∀ s, size = some s → 0 < s) (t : Vec) (hr : S.Resolved t) (w wq : List Wfn) (e : ℕ → ℕ → ℕ → ℂ)
    (hlen : w.length = S.wfn.length ∧ wq.length = S.wfnq.length) (hv : S.Moved t w wq e) :
    ∃ X SX CH X' SX' CH', sigmaX drv S st y size = .ok X ∧ sigmaSX drv S st y size = .ok SX ∧ sigmaCH drv S st y size = .ok CH
      ∧ sigmaX drv { S with wfn := w, wfnq := wq, epsI := e } st y size = .ok X' ∧ sigmaSX drv { S with wfn := w, wfnq := wq, epsI := e } st y size = .ok SX'
      ∧ sigmaCH drv { S with wfn := w, wfnq := wq, epsI := e } st y size = .ok CH'
      ∧ ∀ n < S.kIdx.length, ∀ j, X' n j = X n j ∧ SX' n j = SX n j ∧ CH' n j = CH n j := by
  have h' := sigOk_moved S hv h
  have hg' := sigGrid_moved S hv hg
  have hsort' : SxSortOk (S.withData w wq e) := by
    intro iq hq
    obtain ⟨a1, a2⟩ := hsort iq hq
    refine ⟨by show iq < w.length; rw [hlen.1]; exact a1, fun e => ⟨by show iq < wq.length; rw [hlen.2]; exact (a2 e).1, ?_⟩⟩
    show (wq.getD iq default).gs.length = (w.getD iq default).gs.length
    rw [(hv.wfn iq).gs, (hv.wfnq iq).gs]
    exact (a2 e).2
  have hmax : nVMax ((S.withData w wq e).eps 0) = nVMax (S.eps 0) := by unfold nVMax; rw [whereOcc_moved S hv]
  obtain ⟨X, hX, vX⟩ := C112_exchange drv S st h hg hnd y size hs
  obtain ⟨SX, hSX, vSX⟩ := C113_sx drv S st h hg hnd hsort y size hs
  obtain ⟨CH, hCH, vCH⟩ := C113_ch drv S st h hg hnd y size hs
  obtain ⟨X', hX', vX'⟩ := C112_exchange drv (S.withData w wq e) st h' hg' hnd y size hs
  obtain ⟨SX', hSX', vSX'⟩ := C113_sx drv (S.withData w wq e) st h' hg' hnd hsort' y size hs
  obtain ⟨CH', hCH', vCH'⟩ := C113_ch drv (S.withData w wq e) st h' hg' hnd y size hs
  refine ⟨X, SX, CH, X', SX', CH', hX, hSX, hCH, hX', hSX', hCH', fun n hn j => ⟨?_, ?_, ?_⟩⟩
  · rw [vX' n hn j, vX n hn j, hmax]
    show ((-S.factor * _ : ℝ) : ℂ) = _
    refine congrArg (fun x : ℝ => ((-S.factor * x : ℝ) : ℂ)) ?_
    exact Finset.sum_congr rfl fun iq hiq => Finset.sum_congr rfl fun b _ => pairX_moved S h.toBase hm hr hv iq n (Finset.mem_range.1 hiq) hn b j
  · rw [vSX' n hn j, vSX n hn j, hmax]
    show -(S.factor : ℂ) * _ = _
    refine congrArg (fun x : ℂ => -(S.factor : ℂ) * x) ?_
    exact Finset.sum_congr rfl fun iq hiq => Finset.sum_congr rfl fun b _ => pairEps_moved S h.toBase hm hr hv iq n (Finset.mem_range.1 hiq) hn b j
  · rw [vCH' n hn j, vCH n hn j]
    show 1 / 2 * (S.factor : ℂ) * _ = _
    refine congrArg (fun x : ℂ => 1 / 2 * (S.factor : ℂ) * x) ?_
    exact Finset.sum_congr rfl fun iq hiq => Finset.sum_congr rfl fun b _ => pairEps_moved S h.toBase hm hr hv iq n (Finset.mem_range.1 hiq) hn b j

/-- **C221 (Coulomb hole by closure).** The same for the static Coulomb hole by closure. -/
theorem C221_closure (drv : Driver) (S : SigIn) (st : DrvState ℂ) (h : ExactOk S) (norm2 : GVec → ℝ) (cut : ℝ) (hnd : S.kIdx.Nodup)
    (hk : ∀ k ∈ S.kIdx, k < S.qs.length)
    (hcut : ∀ iq < S.qs.length, ∀ a ∈ S.gqs.getD iq [], ∀ b ∈ S.gqs.getD iq [], norm2 (gSub b a) ≤ cut)
    (size : Option ℕ) (hs : ∀ s, size = some s → 0 < s) (t : Vec)
    (hr : ∀ k ∈ S.kIdx, ∀ iq < S.qs.length, ∀ a ∈ S.gqs.getD iq [], ∀ b ∈ S.gqs.getD iq [], Resolved S.shape t (S.wfn.getD k default).gs (S.wfn.getD k default).gs (gSub b a))
    (w wq : List Wfn) (e : ℕ → ℕ → ℕ → ℂ) (hv : S.Moved t w wq e) :
    ∃ X X', sigmaCHExact drv S st norm2 cut size = .ok X ∧ sigmaCHExact drv { S with wfn := w, wfnq := wq, epsI := e } st norm2 cut size = .ok X'
      ∧ ∀ n < S.kIdx.length, ∀ j, X' n j = X n j := by
  obtain ⟨X, hX, vX⟩ := C122_exact_partial drv S st h norm2 cut hnd hk hcut size hs
  have h' : ExactOk (S.withData w wq e) := ⟨h.pos, h.fits, h.numk, h.vlen, fun k => by
    show OnGrid S.shape (w.getD k default).gs; rw [(hv.wfn k).gs]; exact h.wfn k, h.distinct⟩
  obtain ⟨X', hX', vX'⟩ := C122_exact_partial drv (S.withData w wq e) st h' norm2 cut hnd hk hcut size hs
  refine ⟨X, X', hX, hX', fun n hn j => ?_⟩
  rw [vX' n hn j, vX n hn j]
  have hmem : S.kIdx.getD n 0 ∈ S.kIdx := by rw [List.getD_eq_getElem _ _ hn]; exact List.getElem_mem hn
  show closureCH (S.withData w wq e) (S.kIdx.getD n 0) j = _
  obtain ⟨κ, uκ, f⟩ := (hv.wfn (S.kIdx.getD n 0)).evc
  unfold closureCH
  show 1 / 2 * (S.factor : ℂ) * ∑ iq ∈ Finset.range S.qs.length,
    ∑ a ∈ Finset.range (S.gqs.getD iq []).length, ∑ b ∈ Finset.range (S.gqs.getD iq []).length,
      rhoX (S.withData w wq e) (S.kIdx.getD n 0) j (gSub ((S.gqs.getD iq []).getD b (0, 0, 0)) ((S.gqs.getD iq []).getD a (0, 0, 0)))
        * e iq b a * ((S.v.getD iq []).getD b 0 : ℂ) = _
  refine congrArg (fun x : ℂ => 1 / 2 * (S.factor : ℂ) * x) ?_
  refine Finset.sum_congr rfl fun iq hiq => Finset.sum_congr rfl fun a ha => Finset.sum_congr rfl fun b hb => ?_
  have ha' : (S.gqs.getD iq []).getD a (0, 0, 0) ∈ S.gqs.getD iq [] := by
    rw [List.getD_eq_getElem _ _ (Finset.mem_range.1 ha)]; exact List.getElem_mem _
  have hb' : (S.gqs.getD iq []).getD b (0, 0, 0) ∈ S.gqs.getD iq [] := by
    rw [List.getD_eq_getElem _ _ (Finset.mem_range.1 hb)]; exact List.getElem_mem _
  have key : rhoX (S.withData w wq e) (S.kIdx.getD n 0) j (gSub ((S.gqs.getD iq []).getD b (0, 0, 0)) ((S.gqs.getD iq []).getD a (0, 0, 0))) = _ :=
    overlap_moved S.shape t _ _ _ _ (hv.wfn (S.kIdx.getD n 0)) (hv.wfn (S.kIdx.getD n 0)) _
    (hr _ hmem iq (Finset.mem_range.1 hiq) _ ha' _ hb') κ κ f f j j
  rw [key, hv.eps iq (Finset.mem_range.1 hiq) b (Finset.mem_range.1 hb) a (Finset.mem_range.1 ha), uκ]
  generalize (S.gqs.getD iq []).getD a (0, 0, 0) = A
  generalize (S.gqs.getD iq []).getD b (0, 0, 0) = B
  have hAB : shiftPhase t (gSub B A) = shiftPhase t B * conj (shiftPhase t A) := by
    rw [shiftPhase_conj, ← shiftPhase_add]
    simp [gSub, sub_eq_add_neg]
  rw [hAB]
  have uA := shiftPhase_unit t A
  have uB := shiftPhase_unit t B
  show 1 * (shiftPhase t B * conj (shiftPhase t A)) * rhoX S (S.kIdx.getD n 0) j (gSub B A) * (conj (shiftPhase t B) * shiftPhase t A * S.epsI iq b a) * _ = _
  linear_combination rhoX S (S.kIdx.getD n 0) j (gSub B A) * S.epsI iq b a * ((S.v.getD iq []).getD b 0 : ℂ) * (conj (shiftPhase t A) * shiftPhase t A * uB + uA)

/-! ## The plasmon-pole model -/

/-- **C221 (violated).** Densities with an imaginary part above 1e-5 are set to zero by `sigma_gpp_omegas` (sigma.py:1178-1181), those with one below -1e-5 are not: with the density and `ε⁻¹` of the crystal moved by a quarter of a
lattice vector the squared plasmon-pole frequency is 1 where that of the unmoved crystal is 0. -/
theorem C221_plasmon_pole : ∃ (t : Vec) (g : GVec) (rho e : ℂ), ‖shiftPhase t g‖ = 1 ∧
    (gppEntry 1 rho 1 1 (8 * Real.pi) e false false).2 = 0 ∧
    (gppEntry 1 (shiftPhase t g * rho) 1 1 (8 * Real.pi) (shiftPhase t g * e) false false).2 = 1 := by
  have hpi : (8 * (Real.pi : ℂ)) ≠ 0 := by simp [Real.pi_ne_zero]
  have hph : shiftPhase (fun c => if c = 0 then 1 / 4 else 0) (1, 0, 0) = -Complex.I := by
    unfold shiftPhase
    have : -(2 * (Real.pi : ℂ) * Complex.I) * ((((if (0 : Fin 3) = 0 then 1 / 4 else 0 : ℝ) * ((1 : ℤ) : ℝ) + (if (1 : Fin 3) = 0 then 1 / 4 else 0 : ℝ) * ((0 : ℤ) : ℝ)
        + (if (2 : Fin 3) = 0 then 1 / 4 else 0 : ℝ) * ((0 : ℤ) : ℝ) : ℝ)) : ℂ) = -((Real.pi : ℂ) / 2 * Complex.I) := by
      push_cast
      simp
      ring
    rw [this, Complex.exp_neg, Complex.exp_pi_div_two_mul_I, Complex.inv_I]
  refine ⟨fun c => if c = 0 then 1 / 4 else 0, (1, 0, 0), Complex.I, -Complex.I, ?_, ?_, ?_⟩
  · rw [hph]; simp
  · unfold gppEntry
    rw [if_neg (by simp; norm_num)]
    have : gppOmega 1 Complex.I 1 1 (8 * Real.pi) false false = 0 := by
      unfold gppOmega
      simp
      norm_num
    rw [this]
    unfold gppPole
    simp
  · rw [hph]
    have e1 : -Complex.I * Complex.I = 1 := by simp
    have e2 : -Complex.I * -Complex.I = -1 := by simp
    rw [e1, e2]
    unfold gppEntry
    rw [if_neg (by simp; norm_num)]
    have : gppOmega 1 1 1 1 (8 * Real.pi) false false = 1 := by
      unfold gppOmega
      simp [hpi]
      norm_num
    rw [this]
    unfold gppPole
    simp
    norm_num

/-! ## A case that meets the hypotheses -/

/-- The states moved by `t`. -/
noncomputable def movedW (t : Vec) (w : Wfn) : Wfn := { w with evc := fun b j => shiftPhase t (w.gs.getD j (0, 0, 0)) * w.evc b j }

theorem movedW_ok (t : Vec) (w : Wfn) : Moved t w (movedW t w) where
  gs := rfl
  evl := rfl
  occ := rfl
  evc := ⟨1, by simp, fun b j => by
    show shiftPhase t (w.gs.getD j (0, 0, 0)) * w.evc b j = _
    rw [one_mul, List.getD_eq_getElem _ _ j.2]
    rfl⟩

theorem movedW_list (t : Vec) (l : List Wfn) (k : ℕ) : Moved t (l.getD k default) ((l.map (movedW t)).getD k default) := by
  by_cases h : k < l.length
  · rw [List.getD_eq_getElem _ _ h, List.getD_eq_getElem _ _ (by simpa using h), List.getElem_map]
    exact movedW_ok t _
  · rw [List.getD_eq_default _ _ (by omega), List.getD_eq_default _ _ (by simpa using h)]
    exact ⟨rfl, rfl, rfl, 1, by simp, fun b j => j.elim0⟩

/-- Every calculation has a moved one. -/
theorem moved_exists (S : SigIn) (t : Vec) : S.Moved t (S.wfn.map (movedW t)) (S.wfnq.map (movedW t))
    fun iq l m => conj (shiftPhase t ((S.gqs.getD iq []).getD l (0, 0, 0))) * shiftPhase t ((S.gqs.getD iq []).getD m (0, 0, 0)) * S.epsI iq l m :=
  ⟨movedW_list t _, movedW_list t _, fun _ _ _ _ _ _ => rfl⟩

/-- The shift of the example: one step of a grid of three points. -/
noncomputable def thirdX : Vec := fun c => if c = 0 then 1 / 3 else 0

/-- Two q-points, two G-vectors, the crystal moved by a third of the first lattice vector. -/
example (drv : Driver) (st : DrvState ℂ) (y : Bool) : ∃ w wq e, twoQ.Moved thirdX w wq e ∧ twoQ.Resolved thirdX ∧ shiftPhase thirdX (-1, 0, 0) ≠ 1 ∧
    ∃ X X', sigmaX drv twoQ st y none = .ok X ∧ sigmaX drv { twoQ with wfn := w, wfnq := wq, epsI := e } st y none = .ok X' ∧ ∀ n < 1, ∀ j, X' n j = X n j := by
  have hr : twoQ.Resolved thirdX := fun iq _ k _ X _ kb =>
    resolved_steps ⟨3, 1, 1⟩ thirdX (fun c => if c = 0 then 1 else 0) (by simp [thirdX]) (by simp [thirdX]) (by simp [thirdX]) _ _ X
  have hsort : SxSortOk twoQ := by
    intro iq hq
    have hq : iq < 2 := hq
    interval_cases iq
    · exact ⟨by simp [twoQ, twoK], fun _ => ⟨by simp [twoQ, twoK], rfl⟩⟩
    · exact ⟨by simp [twoQ, twoK], fun h => by simp [twoQ] at h⟩
  refine ⟨_, _, _, moved_exists twoQ thirdX, hr, ?_, ?_⟩
  · unfold shiftPhase
    rw [Ne, Complex.exp_eq_one_iff]
    rintro ⟨n, hn⟩
    have hpi : (2 * (Real.pi : ℂ) * Complex.I) ≠ 0 := by simp [Real.pi_ne_zero, Complex.I_ne_zero]
    have h3 : (2 * (Real.pi : ℂ) * Complex.I) * (1 / 3) = (2 * (Real.pi : ℂ) * Complex.I) * n := by
      have e : ((thirdX 0 * ((-1 : ℤ) : ℝ) + thirdX 1 * ((0 : ℤ) : ℝ) + thirdX 2 * ((0 : ℤ) : ℝ) : ℝ) : ℂ) = -(1 / 3) := by
        simp [thirdX]
      simp only at hn
      rw [e] at hn
      linear_combination hn
    have h4 : (1 / 3 : ℂ) = n := mul_left_cancel₀ hpi h3
    have h5 : ((1 : ℤ) : ℂ) = ((3 * n : ℤ) : ℂ) := by
      push_cast
      rw [← h4]
      norm_num
    have h6 : (1 : ℤ) = 3 * n := by exact_mod_cast h5
    omega
  · obtain ⟨X, SX, CH, X', SX', CH', h1, -, -, h4, -, -, hall⟩ := C221_self_energies drv twoQ st twoQ_ok twoQ_grid (by simp [twoQ, twoK]) hsort twoQ_mesh y none (by simp) thirdX hr _ _ _ ⟨by simp, by simp⟩ (moved_exists twoQ thirdX)
    exact ⟨X, X', h1, h4, fun n hn j => (hall n hn j).1⟩

end Verif.GW
