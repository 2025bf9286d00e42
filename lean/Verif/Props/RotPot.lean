import Verif.Props.Rot
import Verif.Props.TransPot

/-!
# C187: potentials and energies of a rotated (and translated) density
-/

namespace Verif.Rot

open scoped ComplexConjugate
open Verif.FFT (Driver Dims DrvState ValidIdx)
open Verif.Nonloc Verif.Trans Verif.Pot Verif.Loc
open Verif.Lattice (Lat Mat mkLat dotCart)

/-- The transforms turn the permutation `σ` of the G-vectors with phases `ω` into the permutation `p` of the grid points, and the G-vectors are rotated by the orthogonal matrix `Q`. -/
structure RotCov {m n : ℕ} (S : XCSpace m n) (σ : Equiv.Perm (Fin n)) (ω : Fin n → ℂ) (p : Equiv.Perm (Fin m)) (Q : Fin 3 → Fin 3 → ℝ) : Prop where
  toR : ∀ f f' : Fin n → ℂ, (∀ j, f' (σ j) = ω j * f j) → ∀ r, S.toR f' (p r) = S.toR f r
  toG : ∀ u u' : Fin m → ℂ, (∀ r, u' (p r) = u r) → ∀ j, S.toG u' (σ j) = ω j * S.toG u j
  g : ∀ c j, S.g c (σ j) = ∑ a, Q c a * S.g a j
  orth : ∀ a b, ∑ c, Q c a * Q c b = if a = b then 1 else 0
  linR : ∀ (q : Fin 3 → ℝ) (f : Fin 3 → Fin n → ℂ) (r : Fin m), S.toR (fun j => ∑ a, (q a : ℂ) * f a j) r = ∑ a, (q a : ℂ) * S.toR (f a) r
  linG : ∀ (q : Fin 3 → ℝ) (u : Fin 3 → Fin m → ℂ) (j : Fin n), S.toG (fun r => ∑ a, (q a : ℂ) * u a r) j = ∑ a, (q a : ℂ) * S.toG (u a) j

theorem orth_dot {Q : Fin 3 → Fin 3 → ℝ} (h : ∀ a b, ∑ c, Q c a * Q c b = if a = b then 1 else 0) (x y : Fin 3 → ℂ) :
    ∑ c, (∑ a, (Q c a : ℂ) * x a) * (∑ b, (Q c b : ℂ) * y b) = ∑ a, x a * y a := by
  have h' : ∀ a b, ∑ c, (Q c a : ℂ) * (Q c b : ℂ) = if a = b then 1 else 0 := by
    intro a b
    have := congrArg (fun x : ℝ => (x : ℂ)) (h a b)
    push_cast at this
    rw [this]
    split <;> simp
  have : ∀ c, (∑ a, (Q c a : ℂ) * x a) * (∑ b, (Q c b : ℂ) * y b) = ∑ a, ∑ b, x a * y b * ((Q c a : ℂ) * (Q c b : ℂ)) := by
    intro c
    rw [Finset.sum_mul_sum]
    exact Finset.sum_congr rfl fun a _ => Finset.sum_congr rfl fun b _ => by ring
  simp only [this]
  rw [Finset.sum_comm]
  refine Finset.sum_congr rfl fun a _ => ?_
  rw [Finset.sum_comm]
  have : ∀ b, ∑ c, x a * y b * ((Q c a : ℂ) * (Q c b : ℂ)) = if a = b then x a * y b else 0 := by
    intro b
    rw [← Finset.mul_sum, h']
    split <;> simp
  simp only [this]
  simp

section
variable {ns m n : ℕ} {S : XCSpace m n} {σ : Equiv.Perm (Fin n)} {ω : Fin n → ℂ} {p : Equiv.Perm (Fin m)} {Q : Fin 3 → Fin 3 → ℝ}

theorem gradR_rot (hS : RotCov S σ ω p Q) (f f' : Fin n → ℂ) (hf : ∀ j, f' (σ j) = ω j * f j) (c : Fin 3) (r : Fin m) : S.gradR f' c (p r) = ∑ a, (Q c a : ℂ) * S.gradR f a r := by
  unfold XCSpace.gradR
  rw [← hS.linR]
  refine hS.toR _ _ (fun j => ?_) r
  rw [hf, hS.g, Complex.ofReal_sum, Finset.mul_sum, Finset.mul_sum]
  refine Finset.sum_congr rfl fun a _ => ?_
  push_cast
  ring

theorem divR_rot (hS : RotCov S σ ω p Q) (h h' : Fin 3 → Fin m → ℂ) (hh : ∀ c r, h' c (p r) = ∑ a, (Q c a : ℂ) * h a r) (r : Fin m) : S.divR h' (p r) = S.divR h r := by
  unfold XCSpace.divR
  refine hS.toR _ _ (fun j => ?_) r
  have e : ∀ c, S.toG (h' c) (σ j) * (Complex.I * (S.g c (σ j) : ℂ)) = ω j * ((∑ a, (Q c a : ℂ) * S.toG (h a) j) * (∑ b, (Q c b : ℂ) * (Complex.I * (S.g b j : ℂ)))) := by
    intro c
    rw [hS.toG (fun r => ∑ a, (Q c a : ℂ) * h a r) (h' c) (hh c), hS.linG, hS.g, Complex.ofReal_sum]
    have : Complex.I * ∑ a, ((Q c a * S.g a j : ℝ) : ℂ) = ∑ b, (Q c b : ℂ) * (Complex.I * (S.g b j : ℂ)) := by
      rw [Finset.mul_sum]
      refine Finset.sum_congr rfl fun b _ => ?_
      push_cast
      ring
    rw [this]
    ring
  simp only [e]
  rw [← Finset.mul_sum, orth_dot hS.orth]

theorem xcAdd_rot (hS : RotCov S σ ω p Q) (rho rho' : Fin ns → Fin n → ℂ) (hr : ∀ s j, rho' s (σ j) = ω j * rho s j) (ng : Bool) (out out' : XCOut ns m) (hz : ∀ r, out'.zk (p r) = out.zk r)
    (hvr : ∀ s r, out'.vrho s (p r) = out.vrho s r)
    (hvs : match out.vsigma, out'.vsigma with
      | none, none => True
      | some g, some g' => ∀ k r, g' k (p r) = g k r
      | _, _ => False) (acc acc' : (Fin ns → Fin m → ℂ) × ℂ) (ha : ∀ s r, acc'.1 s (p r) = acc.1 s r) (he : acc'.2 = acc.2) :
    match xcAdd S rho ng out acc, xcAdd S rho' ng out' acc' with
    | .ok a, .ok a' => (∀ s r, a'.1 s (p r) = a.1 s r) ∧ a'.2 = a.2
    | .error e, .error e' => e' = e
    | _, _ => False := by
  have hen : (∑ r, ∑ s, S.toR (rho' s) r * (out'.zk r : ℂ)) = ∑ r, ∑ s, S.toR (rho s) r * (out.zk r : ℂ) := by
    refine (Equiv.sum_comp p fun r : Fin m => ∑ s, S.toR (rho' s) r * (out'.zk r : ℂ)).symm.trans ?_
    refine Finset.sum_congr rfl fun r _ => Finset.sum_congr rfl fun s _ => ?_
    rw [hS.toR (rho s) (rho' s) (hr s), hz]
  unfold xcAdd
  cases ng with
  | false =>
    simp only [Bool.false_eq_true, if_false]
    refine ⟨fun s r => ?_, ?_⟩
    · rw [ha, hvr]
    · rw [he, hen]
  | true =>
    simp only [if_true]
    cases h1 : out.vsigma with
    | none =>
      cases h2 : out'.vsigma with
      | none => rfl
      | some g' => rw [h1, h2] at hvs; exact hvs.elim
    | some g =>
      cases h2 : out'.vsigma with
      | none => rw [h1, h2] at hvs; exact hvs.elim
      | some g' =>
        rw [h1, h2] at hvs
        refine ⟨fun s r => ?_, ?_⟩
        · show acc'.1 s (p r) + (out'.vrho s (p r) : ℂ) - S.divR _ (p r) = acc.1 s r + (out.vrho s r : ℂ) - S.divR _ r
          rw [ha, hvr, divR_rot hS (xcH S rho g s) _ ?_ r]
          intro c r
          unfold xcH
          split
          · rw [gradR_rot hS _ _ (hr _), hvs, Finset.mul_sum]
            exact Finset.sum_congr rfl fun a _ => by ring
          · rw [gradR_rot hS _ _ (hr _), gradR_rot hS _ _ (hr _), hvs, hvs, Finset.mul_sum, Finset.mul_sum, ← Finset.sum_add_distrib]
            exact Finset.sum_congr rfl fun a _ => by ring
        · show acc'.2 + _ = acc.2 + _
          rw [he, hen]

theorem xcCompute_rot (hS : RotCov S σ ω p Q) (h0 : 0 < ns) (exch corr : XCFunc ns m) (hx : PointByPoint exch) (hc : PointByPoint corr) (rho rho' : Fin ns → Fin n → ℂ)
    (hr : ∀ s j, rho' s (σ j) = ω j * rho s j) (core core' : Fin n → ℂ) (hco : ∀ j, core' (σ j) = ω j * core j) :
    match xcCompute S h0 exch corr rho core, xcCompute S h0 exch corr rho' core' with
    | .ok a, .ok a' => (∀ s r, a'.1 s (p r) = a.1 s r) ∧ a'.2 = a.2
    | .error e, .error e' => e' = e
    | _, _ => False := by
  have hin : ∀ r, xcRho S rho' (p r) = xcRho S rho r := by
    intro r
    funext s
    unfold xcRho
    rw [hS.toR (rho s) (rho' s) (hr s)]
  have haux : ∀ s j, rhoaux rho' core' s (σ j) = ω j * rhoaux rho core s j := by
    intro s j
    unfold rhoaux
    rw [hr, hco]
    ring
  have hsig : ∀ k r, sigma S (rhoaux rho' core') h0 k (p r) = sigma S (rhoaux rho core) h0 k r := by
    intro k r
    have hg : ∀ s : Fin ns, ∀ c, S.gradR (rhoaux rho' core' s) c (p r) = ∑ a, (Q c a : ℂ) * S.gradR (rhoaux rho core s) a r := fun s c => gradR_rot hS _ _ (haux s) c r
    have hd : ∀ (s : ℕ) (c : Fin 3), (if hs : s < ns then S.gradR (rhoaux rho' core' ⟨s, hs⟩) c (p r) else S.gradR (rhoaux rho' core' ⟨0, h0⟩) c (p r))
        = ∑ a, (Q c a : ℂ) * (if hs : s < ns then S.gradR (rhoaux rho core ⟨s, hs⟩) a r else S.gradR (rhoaux rho core ⟨0, h0⟩) a r) := by
      intro s c
      by_cases hs : s < ns
      · simp only [dif_pos hs, hg]
      · simp only [dif_neg hs, hg]
    unfold sigma
    simp only [hd, orth_dot hS.orth]
  unfold xcCompute
  simp only [bind, Except.bind, pure, Except.pure]
  generalize decide (exch.family = .gga ∨ corr.family = .gga) = ng
  have hsg : match (if ng then some (sigma S (rhoaux rho core) h0) else none), (if ng then some (sigma S (rhoaux rho' core') h0) else none) with
      | none, none => True
      | some g, some g' => ∀ k r, g' k (p r) = g k r
      | _, _ => False := by
    cases ng with
    | false => exact True.intro
    | true => exact hsig
  obtain ⟨x1, x2, x3⟩ := hx p _ _ _ _ hin hsg
  obtain ⟨c1, c2, c3⟩ := hc p _ _ _ _ hin hsg
  have A := xcAdd_rot hS rho rho' hr ng _ _ x1 x2 x3 (fun _ _ => 0, 0) (fun _ _ => 0, 0) (fun _ _ => rfl) rfl
  revert A
  generalize xcAdd S rho ng _ (fun _ _ => 0, 0) = a
  generalize xcAdd S rho' ng _ (fun _ _ => 0, 0) = a'
  intro A
  cases a with
  | error e =>
    cases a' with
    | error e' => exact A
    | ok _ => exact A.elim
  | ok a =>
    cases a' with
    | error e' => exact A.elim
    | ok a' =>
      have B := xcAdd_rot hS rho rho' hr ng _ _ c1 c2 c3 a a' A.1 A.2
      revert B
      dsimp only
      generalize xcAdd S rho ng _ a = b
      generalize xcAdd S rho' ng _ a' = b'
      intro B
      cases b with
      | error e =>
        cases b' with
        | error e' => exact B
        | ok _ => exact B.elim
      | ok b =>
        cases b' with
        | error e' => exact B.elim
        | ok b' => exact ⟨B.1, congrArg Complex.re B.2⟩
end

/-- The rotation of reciprocal crystal coordinates by `M` in Cartesian coordinates. -/
noncomputable def cartRot (L : Lat) (M : Matrix (Fin 3) (Fin 3) ℤ) : Mat := L.primvec * M.map (Int.cast : ℤ → ℝ) * L.primvecInv

theorem app_mulVec (M : Matrix (Fin 3) (Fin 3) ℤ) (v : Fin 3 → ℝ) : app M v = (M.map (Int.cast : ℤ → ℝ)).mulVec v := rfl

theorem cartRot_apply (u : ℝ) (B : Mat) (L : Lat) (h : mkLat u B = .ok L) (M : Matrix (Fin 3) (Fin 3) ℤ) (v : Fin 3 → ℝ) :
    (cartRot L M).mulVec (L.cryst2cart v) = L.cryst2cart (app M v) := by
  obtain ⟨hd, e1, e2, e3, e4, _⟩ := Lattice.mkLat_ok h
  unfold cartRot Lat.cryst2cart
  rw [app_mulVec, e2, e3, Matrix.mulVec_mulVec, Matrix.mulVec_mulVec, Matrix.mul_assoc, Matrix.nonsing_inv_mul _ (isUnit_iff_ne_zero.2 hd), Matrix.mul_one]

theorem cartRot_orth (u : ℝ) (B : Mat) (L : Lat) (h : mkLat u B = .ok L) (M : Matrix (Fin 3) (Fin 3) ℤ) (hM : Keeps L M) (a b : Fin 3) :
    ∑ c, cartRot L M c a * cartRot L M c b = if a = b then 1 else 0 := by
  obtain ⟨hd, e1, e2, e3, e4, _⟩ := Lattice.mkLat_ok h
  have hs : ∀ x : Fin 3 → ℝ, L.cryst2cart (L.cart2cryst x) = x := by
    intro x
    unfold Lat.cryst2cart Lat.cart2cryst
    rw [e2, e3, Matrix.mulVec_mulVec, Matrix.mul_nonsing_inv _ (isUnit_iff_ne_zero.2 hd), Matrix.one_mulVec]
  have k := keeps_dot u B L h M hM (L.cart2cryst (Pi.single a 1)) (L.cart2cryst (Pi.single b 1))
  rw [← cartRot_apply u B L h, ← cartRot_apply u B L h, hs, hs, Matrix.mulVec_single_one, Matrix.mulVec_single_one] at k
  rw [Fin.sum_univ_three]
  refine k.trans ?_
  unfold dot
  fin_cases a <;> fin_cases b <;> simp

theorem fft_rot (drv : Driver) (u : ℝ) (B : Mat) (L : Lat) (h : mkLat u B = .ok L) (op : Op) (hM : Keeps L op.S) (d : Dims) (hgrid : OnGrid d op) (idx : List ℕ) (hv : ValidIdx d idx) (st : DrvState ℂ)
    (dv : ℝ) (G : Fin idx.length → Fin 3 → ℤ) (hG : Indexes d idx G) (σ : Equiv.Perm (Fin idx.length)) (hσ : ∀ j a, (G (σ j) a : ℝ) = app op.S (fun b => G j b) a) :
    RotCov (fftSpace drv d idx st (fun c j => L.cryst2cart (fun a => G j a) c) dv) σ (fun j => ex (∑ a, op.t a * G (σ j) a)) (gperm d op hgrid) (cartRot L op.S) := by
  have hb : ∀ (k : Fin idx.length) (x : ℕ), FFT.ker3 d (FFT.dftKern false d) x idx[k] = conj (ex (gridDot d idx[k] x)) := by
    intro k x
    rw [FFT.dft_ker3_bwd]
    unfold ex
    rw [Nonloc.gridDot_exp_conj]
    congr 1
    unfold Nonloc.gridDot
    push_cast
    ring
  have hf : ∀ (k : Fin idx.length) (x : ℕ), FFT.ker3 d (FFT.dftKern true d) idx[k] x = ex (gridDot d idx[k] x) := by
    intro k x
    rw [FFT.dft_ker3_fwd]
    unfold ex
    congr 1
    unfold Nonloc.gridDot
    push_cast
    ring
  have hm : ∀ (k : Fin idx.length) (r : Fin d.size), ex (gridDot d idx[σ k] (gperm d op hgrid r)) = ex (∑ a, op.t a * G (σ k) a) * ex (gridDot d idx[k] r) := by
    intro k r
    obtain ⟨m, e⟩ := gridDot_carried d op r (gperm d op hgrid r) r.2 (gperm d op hgrid r).2 (gperm_carried d op hgrid r) idx[k] idx[σ k] (G k) (G (σ k)) (hG k) (hG (σ k)) (fun _ => 0) (fun _ => 0)
      (fun a => by simp only [add_zero]; exact hσ k a)
    rw [e, ex_int]
    simp only [zero_mul, add_zero, mul_zero, Finset.sum_const_zero, sub_zero]
    rw [ex_add, mul_comm]
  have hR : ∀ (f : Fin idx.length → ℂ) (r : Fin d.size), (fftSpace drv d idx st (fun c j => L.cryst2cart (fun a => G j a) c) dv).toR f r = (d.size : ℂ)⁻¹ * ∑ k : Fin idx.length, conj (ex (gridDot d idx[k] r)) * f k := by
    intro f r
    show (drv.g2r d (FFT.dftKern false d) true idx st (List.ofFn f)).2 r = _
    rw [drv.g2r_eq d _ true idx hv st st.f _ (by simp) r r.2, FFT.fullG2r_eq d _ true idx hv st.f _ (by simp)]
    simp only [FFT.scale, if_true]
    congr 1
    rw [Finset.sum_range]
    refine Finset.sum_congr rfl fun k _ => ?_
    have e : idx.getD k 0 = idx[k] := by simp
    have e2 : (List.ofFn f).getD k 0 = f k := by simp
    rw [e, hb, e2]
  have hT : ∀ (u : Fin d.size → ℂ) (j : Fin idx.length), (fftSpace drv d idx st (fun c j => L.cryst2cart (fun a => G j a) c) dv).toG u j = ∑ r : Fin d.size, ex (gridDot d idx[j] r) * u r := by
    intro u j
    show (drv.r2g d (FFT.dftKern true d) idx st _).2.getD j 0 = _
    rw [drv.r2g_eq d _ idx hv st st.f _ _ (fun _ _ => rfl), FFT.fullR2g_eq, FFT.getD_map _ _ _ j.2, Finset.sum_range]
    refine Finset.sum_congr rfl fun r _ => ?_
    have e : idx.getD j 0 = idx[j] := by simp
    rw [e, hf]
    simp
  refine ⟨?_, ?_, ?_, cartRot_orth u B L h op.S hM, ?_, ?_⟩
  · intro f f' hff r
    rw [hR, hR]
    congr 1
    refine (Equiv.sum_comp σ fun k : Fin idx.length => conj (ex (gridDot d idx[k] (gperm d op hgrid r))) * f' k).symm.trans ?_
    refine Finset.sum_congr rfl fun k _ => ?_
    rw [hff, hm, map_mul]
    linear_combination conj (ex (gridDot d idx[k] r)) * f k * ex_unit (∑ a, op.t a * G (σ k) a)
  · intro u u' hu j
    rw [hT, hT, Finset.mul_sum]
    refine (Equiv.sum_comp (gperm d op hgrid) fun r : Fin d.size => ex (gridDot d idx[σ j] r) * u' r).symm.trans ?_
    refine Finset.sum_congr rfl fun r _ => ?_
    rw [hu, hm]
    ring
  · intro c j
    show L.cryst2cart (fun a => (G (σ j) a : ℝ)) c = _
    have e : (fun a => (G (σ j) a : ℝ)) = app op.S (fun b => G j b) := funext (hσ j)
    rw [e, ← cartRot_apply u B L h]
    rfl
  · intro q f r
    simp only [hR]
    rw [← Finset.sum_congr rfl fun a _ => (mul_left_comm _ _ _), ← Finset.mul_sum]
    congr 1
    simp only [Finset.mul_sum]
    rw [Finset.sum_comm]
    exact Finset.sum_congr rfl fun a _ => Finset.sum_congr rfl fun k _ => by ring
  · intro q f j
    simp only [hT]
    simp only [Finset.mul_sum]
    rw [Finset.sum_comm]
    exact Finset.sum_congr rfl fun a _ => Finset.sum_congr rfl fun k _ => by ring

theorem gperm_of_carried (d : Dims) (op : Op) (hgrid : OnGrid d op) (r r' : Fin d.size) (hc : Carried d op r r') : r' = gperm d op hgrid r := by
  apply Fin.ext
  refine eq_of_coord d (gperm d op hgrid r).2 r'.2 fun a => ?_
  obtain ⟨m1, h1⟩ := hc a
  obtain ⟨m2, h2⟩ := gperm_carried d op hgrid r a
  refine ⟨m1 - m2, ?_⟩
  have hl := len_pos d r r.2 a
  have e : pos d r' a - pos d (gperm d op hgrid r) a = ((m1 - m2 : ℤ) : ℝ) := by
    rw [h1, h2]
    push_cast
    ring
  unfold pos at e
  rw [div_sub_div_same, div_eq_iff hl] at e
  have : ((coord d r' a : ℤ) : ℝ) = ((coord d (gperm d op hgrid r) a + (m1 - m2) * len d a : ℤ) : ℝ) := by
    push_cast at e ⊢
    linarith
  exact_mod_cast this

/-- **C187a.** `σ` is the action of the operation on the G-vectors of the basis. Carrying density and core density by the operation (rotation and fractional translation) carries the exchange-correlation
potential to the image points and leaves the energy, for local and gradient functionals, one or two spins, either FFT driver; the failures are the same. -/
theorem C187_xc (drv : Driver) (u : ℝ) (B : Mat) (L : Lat) (h : mkLat u B = .ok L) (op : Op) (hM : Keeps L op.S) (d : Dims) (hgrid : OnGrid d op) (idx : List ℕ) (hv : ValidIdx d idx) (st : DrvState ℂ)
    (dv : ℝ) (G : Fin idx.length → Fin 3 → ℤ) (hG : Indexes d idx G) (σ : Equiv.Perm (Fin idx.length)) (hσ : ∀ j a, (G (σ j) a : ℝ) = app op.S (fun b => G j b) a)
    {ns : ℕ} (h0 : 0 < ns) (exch corr : XCFunc ns d.size) (hx : PointByPoint exch) (hc : PointByPoint corr) (rho rho' : Fin ns → Fin idx.length → ℂ)
    (hr : ∀ s j, rho' s (σ j) = ex (∑ a, op.t a * G (σ j) a) * rho s j) (core core' : Fin idx.length → ℂ) (hco : ∀ j, core' (σ j) = ex (∑ a, op.t a * G (σ j) a) * core j) :
    match xcCompute (fftSpace drv d idx st (fun c j => L.cryst2cart (fun a => G j a) c) dv) h0 exch corr rho core,
      xcCompute (fftSpace drv d idx st (fun c j => L.cryst2cart (fun a => G j a) c) dv) h0 exch corr rho' core' with
    | .ok a, .ok a' => (∀ (c : Fin ns) (r r' : Fin d.size), Carried d op r r' → a'.1 c r' = a.1 c r) ∧ a'.2 = a.2
    | .error e, .error e' => e' = e
    | _, _ => False := by
  have k := xcCompute_rot (fft_rot drv u B L h op hM d hgrid idx hv st dv G hG σ hσ) h0 exch corr hx hc rho rho' hr core core' hco
  revert k
  generalize xcCompute _ h0 exch corr rho core = a
  generalize xcCompute _ h0 exch corr rho' core' = a'
  intro k
  cases a with
  | error e =>
    cases a' with
    | error e' => exact k
    | ok _ => exact k.elim
  | ok a =>
    cases a' with
    | error e' => exact k.elim
    | ok a' =>
      refine ⟨fun c r r' hm => ?_, k.2⟩
      rw [gperm_of_carried d op hgrid r r' hm]
      exact k.1 c r

/-- **C187b.** Carrying the density carries the Hartree potential and leaves the Hartree energy. -/
theorem C187_hartree (nan : ℂ) (op : Op) (norm2 : List ℝ) (hasG0 : Bool) (dv : ℝ) (npts : ℕ) (G : Fin norm2.length → Fin 3 → ℤ) (σ : Equiv.Perm (Fin norm2.length))
    (hn : ∀ j, norm2[σ j] = norm2[j]) (hz : ∀ j : Fin norm2.length, norm2[j] = 0 ↔ (hasG0 = true ∧ j.1 = 0)) (rho rho' : List (List ℂ))
    (h : List.Forall₂ (fun c c' => ∀ j : Fin norm2.length, c'.getD (σ j) 0 = ex (∑ a, op.t a * G (σ j) a) * c.getD j 0) rho rho') :
    match hartree nan norm2 hasG0 dv npts rho, hartree nan norm2 hasG0 dv npts rho' with
    | .ok a, .ok a' => (∀ j : Fin norm2.length, a'.1.getD (σ j) 0 = ex (∑ a, op.t a * G (σ j) a) * a.1.getD j 0) ∧ a'.2 = a.2
    | .error e, .error e' => e' = e
    | _, _ => False := by
  have ht : ∀ j : Fin norm2.length, total rho' (σ j) = ex (∑ a, op.t a * G (σ j) a) * total rho j := by
    intro j
    unfold total
    induction h with
    | nil => simp
    | cons hx _ ih =>
      rw [List.map_cons, List.map_cons, List.sum_cons, List.sum_cons, ih, hx j]
      ring
  have hl : rho'.length = rho.length := h.length_eq.symm
  have hv : ∀ (rho : List (List ℂ)) (j : Fin norm2.length), (hartreeV nan norm2 hasG0 rho).getD j 0 = if norm2[j] = 0 then 0 else 4 * Real.pi * total rho j / (norm2[j] : ℂ) := by
    intro rho j
    unfold hartreeV
    have e : norm2.getD j 0 = norm2[j] := List.getD_eq_getElem _ _ j.2
    rw [List.getD_eq_getElem _ _ (by simp), List.getElem_map, List.getElem_range, e]
    by_cases h0 : norm2[j] = 0
    · rw [if_pos ((hz j).1 h0), if_pos h0]
    · rw [if_neg (fun k => h0 ((hz j).2 k)), if_neg h0, if_neg h0]
  have hV : ∀ j : Fin norm2.length, (hartreeV nan norm2 hasG0 rho').getD (σ j) 0 = ex (∑ a, op.t a * G (σ j) a) * (hartreeV nan norm2 hasG0 rho).getD j 0 := by
    intro j
    rw [hv, hv, hn, ht]
    split
    · rw [mul_zero]
    · ring
  unfold hartree checkRho
  rw [hl]
  by_cases hc : rho.length = 1 ∨ rho.length = 2
  · simp only [if_pos hc]
    refine ⟨hV, ?_⟩
    unfold hartreeEn
    congr 3
    rw [Finset.sum_range, Finset.sum_range]
    refine (Equiv.sum_comp σ fun j : Fin norm2.length => conj (total rho' j) * (hartreeV nan norm2 hasG0 rho').getD j 0).symm.trans ?_
    refine Finset.sum_congr rfl fun j _ => ?_
    rw [hV, ht, map_mul]
    have hu := ex_unit (∑ a, op.t a * G (σ j) a)
    linear_combination conj (total rho j) * (hartreeV nan norm2 hasG0 rho).getD j 0 * hu
  · simp only [if_neg hc]

theorem structFac_rot (op : Op) (tau tauI tau' : List (Fin 3 → ℝ)) (hi : List.Forall₂ (fun a b => ∀ c, ∃ m : ℤ, b c = app op.W a c + op.t c + m) tau tauI) (hp : tauI.Perm tau')
    (g g' : Fin 3 → ℤ) (hg : ∀ a, (g' a : ℝ) = app op.S (fun b => g b) a) : structFac tau' g' = ex (∑ a, op.t a * g' a) * structFac tau g := by
  rw [structFac_eq, structFac_eq, ← (hp.map _).sum_eq]
  clear hp
  induction hi with
  | nil => simp
  | @cons a b l l' hab _ ih =>
    rw [List.map_cons, List.map_cons, List.sum_cons, List.sum_cons, ih, mul_add]
    congr 1
    choose m hm using hab
    show ex (∑ c, b c * g' c) = _ * ex (∑ c, a c * g c)
    have e : ∑ c, b c * (g' c : ℝ) = (∑ a, op.t a * g' a + ∑ c, a c * g c) + ((∑ c, m c * g' c : ℤ) : ℝ) := by
      have hq := op.pair (fun b => (g b : ℝ)) a
      have : ∑ c, a c * (g c : ℝ) = ∑ c, (g' c : ℝ) * app op.W a c := by
        simp only [hg]
        rw [hq]
        exact Finset.sum_congr rfl fun c _ => mul_comm _ _
      rw [this]
      push_cast
      rw [← Finset.sum_add_distrib, ← Finset.sum_add_distrib]
      refine Finset.sum_congr rfl fun c _ => ?_
      rw [hm c]
      ring
    rw [e, ex_int, ex_add]

/-- **C187c.** Carrying the atoms of a species (in any order, up to lattice vectors) carries their atomic density, ionic potential and core density. -/
theorem C187_atoms (erf : ℝ → ℝ) (D : RadialData) (hasG0 : Bool) (dv cellvol : ℝ) (N : ℕ) (gnorm : ℕ → ℝ) (op : Op) (tau tauI tau' : List (Fin 3 → ℝ))
    (hi : List.Forall₂ (fun a b => ∀ c, ∃ m : ℤ, b c = app op.W a c + op.t c + m) tau tauI) (hp : tauI.Perm tau') (G : ℕ → Fin 3 → ℤ) (j j' : ℕ) (hg : ∀ a, (G j' a : ℝ) = app op.S (fun b => G j b) a)
    (hl : gnorm j' = gnorm j) (h0 : hasG0 = true → (j' = 0 ↔ j = 0)) :
    rhoAtomic D hasG0 dv tau' G gnorm j' = ex (∑ a, op.t a * G j' a) * rhoAtomic D hasG0 dv tau G gnorm j ∧
    vIon erf D hasG0 cellvol N tau' G gnorm j' = ex (∑ a, op.t a * G j' a) * vIon erf D hasG0 cellvol N tau G gnorm j ∧
    rhoCore D hasG0 cellvol N tau' G gnorm j' = ex (∑ a, op.t a * G j' a) * rhoCore D hasG0 cellvol N tau G gnorm j := by
  have hs := structFac_rot op tau tauI tau' hi hp (G j) (G j') hg
  have h0' : (j' = 0 ↔ j = 0) ∨ hasG0 = false := by
    cases hasG0 with
    | true => exact .inl (h0 rfl)
    | false => exact .inr rfl
  obtain ⟨⟨f1, k1, e1⟩, ⟨f2, k2, e2⟩, ⟨f3, k3, e3⟩⟩ := C79_superpositions erf D hasG0 dv cellvol N gnorm
  refine ⟨?_, ?_, ?_⟩
  · have a := e1 tau' G j'
    have b := e1 tau G j
    rw [a, b, hs, k1 j' j h0' hl]
    ring
  · have a := e2 tau' G j'
    have b := e2 tau G j
    rw [a, b, hs, k2 j' j h0' hl]
    ring
  · have a := e3 tau' G j'
    have b := e3 tau G j
    rw [a, b, hs, k3 j' j h0' hl]
    ring

/-- **C187d.** What is carried in G-space is carried on the grid. In particular a field equal to its own image in G-space has the symmetry on the grid that the Hamiltonian needs in C184. -/
theorem C187_grid (drv : Driver) (u : ℝ) (B : Mat) (L : Lat) (h : mkLat u B = .ok L) (op : Op) (hM : Keeps L op.S) (d : Dims) (hgrid : OnGrid d op) (idx : List ℕ) (hv : ValidIdx d idx) (st : DrvState ℂ)
    (G : Fin idx.length → Fin 3 → ℤ) (hG : Indexes d idx G) (σ : Equiv.Perm (Fin idx.length)) (hσ : ∀ j a, (G (σ j) a : ℝ) = app op.S (fun b => G j b) a) (f f' : Fin idx.length → ℂ)
    (hf : ∀ j, f' (σ j) = ex (∑ a, op.t a * G (σ j) a) * f j) (r r' : Fin d.size) (hc : Carried d op r r') :
    (drv.g2r d (FFT.dftKern false d) true idx st (List.ofFn f')).2 r' = (drv.g2r d (FFT.dftKern false d) true idx st (List.ofFn f)).2 r := by
  rw [gperm_of_carried d op hgrid r r' hc]
  exact (fft_rot drv u B L h op hM d hgrid idx hv st 1 G hG σ hσ).toR f f' hf r

/-- A glide plane: x and y exchanged, with half a translation along z. -/
noncomputable def glide : Op where
  W := !![0, 1, 0; 1, 0, 0; 0, 0, 1]
  S := !![0, 1, 0; 1, 0, 0; 0, 0, 1]
  t := ![0, 0, 1 / 2]
  inv := by decide

/-- The G-vectors 0, (1,0,1), (0,1,1): the last two are exchanged by the glide plane. -/
def exG : Fin ([0, 5, 3] : List ℕ).length → Fin 3 → ℤ := ![![0, 0, 0], ![1, 0, 1], ![0, 1, 1]]

/-- The hypotheses of C187 for the glide plane of a tetragonal lattice, on the 2×2×2 grid. -/
example : (∃ L, mkLat 1 !![1, 0, 0; 0, 1, 0; 0, 0, 2] = .ok L ∧ Keeps L glide.S) ∧ OnGrid ⟨2, 2, 2⟩ glide ∧ ValidIdx ⟨2, 2, 2⟩ [0, 5, 3] ∧ Indexes ⟨2, 2, 2⟩ [0, 5, 3] exG ∧
    (∀ j a, (exG ((Equiv.swap 1 2 : Equiv.Perm (Fin 3)) j) a : ℝ) = app glide.S (fun b => exG j b) a) ∧ ex (∑ a, glide.t a * exG 1 a) = -1 := by
  refine ⟨?_, ?_, by unfold ValidIdx; decide, ?_, ?_, ?_⟩
  · have hd : (!![1, 0, 0; 0, 1, 0; 0, 0, 2] : Mat).det ≠ 0 := by simp [Matrix.det_fin_three]
    refine ⟨_, by unfold mkLat; rw [if_neg hd], fun v => ?_⟩
    simp only [Lat.norm2Cryst, glide, app, Fin.sum_univ_three, Matrix.mulVec, dotProduct, Matrix.mul_apply, Matrix.transpose_apply]
    simp
    ring
  · intro r hr
    have hr : r < 8 := hr
    have : ∀ r : Fin 8, ∃ r' : Fin 8, ∃ m : Fin 3 → Fin 2, ∀ a : Fin 3, (coord ⟨2, 2, 2⟩ r' a : ℤ) = ∑ b, glide.W a b * coord ⟨2, 2, 2⟩ r b + ![0, 0, 1] a + (((m a : ℕ) : ℤ) - 1) * 2 := by
      unfold glide
      decide
    obtain ⟨r', m, hm⟩ := this ⟨r, hr⟩
    refine ⟨r', r'.2, fun a => ⟨((m a : ℕ) : ℤ) - 1, ?_⟩⟩
    have e : ((coord ⟨2, 2, 2⟩ r' a : ℤ) : ℝ) = ((∑ b, glide.W a b * coord ⟨2, 2, 2⟩ r b + ![0, 0, 1] a + (((m a : ℕ) : ℤ) - 1) * 2 : ℤ) : ℝ) := by rw [hm a]
    have hl : ∀ b, (len ⟨2, 2, 2⟩ b : ℝ) = 2 := by intro b; fin_cases b <;> simp [len]
    have ht : glide.t a = ((![0, 0, 1] a : ℤ) : ℝ) / 2 := by fin_cases a <;> simp [glide]
    unfold pos app
    rw [ht]
    simp only [hl]
    push_cast at e ⊢
    rw [e, add_div, add_div, Finset.sum_div]
    congr 1
    · congr 1
      exact Finset.sum_congr rfl fun b _ => by ring
    · ring
  · have : ∀ (j : Fin 3) (a : Fin 3), exG j a = coord ⟨2, 2, 2⟩ (([0, 5, 3] : List ℕ)[j]) a := by decide
    intro j a
    exact ⟨0, by rw [zero_mul, add_zero]; exact this j a⟩
  · have : ∀ (j : Fin 3) (a : Fin 3), exG ((Equiv.swap 1 2 : Equiv.Perm (Fin 3)) j) a = ∑ b, glide.S a b * exG j b := by
      unfold glide
      decide
    intro j a
    rw [this j a]
    unfold app
    push_cast
    rfl
  · have e : ∑ a, glide.t a * (exG 1 a : ℝ) = 1 / 2 := by
      simp [Fin.sum_univ_three, glide, exG]
    rw [e]
    unfold ex
    rw [show (-(2 * Real.pi * Complex.I) * ((1 / 2 : ℝ) : ℂ)) = -(Real.pi * Complex.I) by push_cast; ring, Complex.exp_neg, Complex.exp_pi_mul_I]
    norm_num

end Verif.Rot
