import Mathlib.Analysis.Calculus.Deriv.Basic
import Mathlib.Analysis.Calculus.Deriv.Comp
import Mathlib.Analysis.Calculus.Deriv.Prod
import Mathlib.Analysis.Calculus.Deriv.Pi
import Mathlib.Analysis.Calculus.Deriv.Add
import Mathlib.Analysis.Calculus.Deriv.Mul
import Mathlib.Analysis.Calculus.FDeriv.Pi
import Mathlib.Analysis.Calculus.Deriv.Pow
import Mathlib.Tactic.LinearCombination
import Mathlib.Tactic.Linarith
import Verif.Model.Pot
import Verif.Props.FFT

/-!
# Properties C60, C61, C62: exchange-correlation potential and energy
-/

namespace Verif.Pot

/-! ## The transforms used by `xc.compute` -/

/-- What the transforms between G-space and grid satisfy: `toR` is linear, `toG` inverts it, and the two are adjoint up
to a real factor. (`fft_laws` below: both FFT drivers do.) -/
structure XCSpace.Laws {m n : ℕ} (S : XCSpace m n) : Prop where
  lin : ∀ (f h : Fin n → ℂ) (t : ℂ) (r : Fin m), S.toR (fun j => f j + t * h j) r = S.toR f r + t * S.toR h r
  inv : ∀ f, S.toG (S.toR f) = f
  adj : ∃ K : ℂ, ∀ (u : Fin m → ℂ) (f : Fin n → ℂ),
    ∑ r, (starRingEnd ℂ) (u r) * S.toR f r = K * ∑ j, (starRingEnd ℂ) (S.toG u j) * f j

theorem XCSpace.Laws.grad_lin {m n : ℕ} {S : XCSpace m n} (L : S.Laws) (f h : Fin n → ℂ) (t : ℂ) (c : Fin 3) (r : Fin m) :
    S.gradR (fun j => f j + t * h j) c r = S.gradR f c r + t * S.gradR h c r := by
  unfold XCSpace.gradR
  rw [← L.lin]
  congr 1
  funext j
  ring

/-- Minus the divergence is the adjoint of the gradient, on the grid. -/
theorem XCSpace.Laws.by_parts {m n : ℕ} {S : XCSpace m n} (L : S.Laws) (h : Fin 3 → Fin m → ℂ) (f : Fin n → ℂ) :
    ∑ r, (starRingEnd ℂ) (S.divR h r) * S.toR f r = -∑ r, ∑ c, (starRingEnd ℂ) (h c r) * S.gradR f c r := by
  obtain ⟨K, hK⟩ := L.adj
  rw [hK, Finset.sum_comm]
  unfold XCSpace.gradR
  simp only [hK]
  unfold XCSpace.divR
  rw [L.inv, ← Finset.mul_sum, Finset.sum_comm, ← mul_neg, ← Finset.sum_neg_distrib]
  congr 1
  apply Finset.sum_congr rfl
  intro j _
  rw [map_sum, Finset.sum_mul, ← Finset.sum_neg_distrib]
  apply Finset.sum_congr rfl
  intro c _
  simp only [map_mul, Complex.conj_I, Complex.conj_ofReal]
  ring

/-- A field that is real on the grid, with a gradient real on the grid. -/
structure RealField {m n : ℕ} (S : XCSpace m n) (f : Fin n → ℂ) : Prop where
  val : ∀ r, (S.toR f r).im = 0
  grad : ∀ c r, (S.gradR f c r).im = 0

theorem XCSpace.Laws.by_parts_re {m n : ℕ} {S : XCSpace m n} (L : S.Laws) (h : Fin 3 → Fin m → ℂ) (f : Fin n → ℂ)
    (hf : RealField S f) :
    ∑ r, (S.divR h r).re * (S.toR f r).re = -∑ r, ∑ c, (h c r).re * (S.gradR f c r).re := by
  have := congrArg Complex.re (L.by_parts h f)
  simp only [Complex.re_sum, Complex.neg_re, Complex.mul_re, Complex.conj_re, Complex.conj_im, hf.val, hf.grad,
    mul_zero, sub_zero] at this
  exact this

open Verif.FFT in
/-- The space of a G-set on an FFT grid, for either driver. -/
noncomputable def fftSpace (drv : Driver) (d : Dims) (idx : List ℕ) (st : DrvState ℂ) (g : Fin 3 → Fin idx.length → ℝ)
    (dv : ℝ) : XCSpace d.size idx.length where
  toR f := fun r => (drv.g2r d (dftKern false d) true idx st (List.ofFn f)).2 r
  toG u := fun j => (drv.r2g d (dftKern true d) idx st (fun k => if h : k < d.size then u ⟨k, h⟩ else 0)).2.getD j 0
  g := g
  dv := dv

open Verif.FFT in
/-- Both FFT drivers satisfy the laws on every grid and G-set, whatever was transformed before. -/
theorem fft_laws (drv : Driver) (d : Dims) (idx : List ℕ) (hv : ValidIdx d idx) (st : DrvState ℂ)
    (g : Fin 3 → Fin idx.length → ℝ) (dv : ℝ) : (fftSpace drv d idx st g dv).Laws := by
  have hR : ∀ (f : Fin idx.length → ℂ) (r : Fin d.size), (fftSpace drv d idx st g dv).toR f r
      = (d.size : ℂ)⁻¹ * ∑ k : Fin idx.length, ker3 d (dftKern false d) r (idx[k]) * f k := by
    intro f r
    show (drv.g2r d (dftKern false d) true idx st (List.ofFn f)).2 r = _
    rw [drv.g2r_eq d _ true idx hv st st.f _ (by simp) r r.2, fullG2r_eq d _ true idx hv st.f _ (by simp)]
    simp only [scale, if_true]
    congr 1
    rw [Finset.sum_range]
    apply Finset.sum_congr rfl
    intro k _
    simp
  have hG : ∀ (u : Fin d.size → ℂ) (j : Fin idx.length), (fftSpace drv d idx st g dv).toG u j
      = ∑ r : Fin d.size, ker3 d (dftKern true d) (idx[j]) r * u r := by
    intro u j
    show (drv.r2g d (dftKern true d) idx st _).2.getD j 0 = _
    rw [drv.r2g_eq d _ idx hv st st.f _ _ (fun _ _ => rfl), fullR2g_eq, getD_map _ _ _ j.2, Finset.sum_range]
    apply Finset.sum_congr rfl
    intro r _
    simp
  refine ⟨?_, ?_, (d.size : ℂ)⁻¹, ?_⟩
  · intro f h t r
    rw [hR, hR, hR]
    simp only [mul_add, Finset.sum_add_distrib, Finset.mul_sum]
    congr 1
    apply Finset.sum_congr rfl
    intro k _
    ring
  · intro f
    funext j
    show (drv.r2g d (dftKern true d) idx st _).2.getD j 0 = _
    rw [drv.r2g_eq d _ idx hv st st.f _ (drv.g2r d (dftKern false d) true idx st (List.ofFn f)).2 (by
      intro k hk
      simp only [hk, dif_pos]
      rfl), ← drv.r2g_eq d _ idx hv st st.f _ _ (fun _ _ => rfl), C17_round_trip drv d true idx hv st st _ (by simp)]
    simp
  · intro u f
    simp only [hR, hG, map_sum, map_mul, Finset.sum_mul, Finset.mul_sum]
    rw [Finset.sum_comm]
    apply Finset.sum_congr rfl
    intro j _
    apply Finset.sum_congr rfl
    intro r _
    rw [← conj_ker3, Complex.conj_conj]
    ring

/-! ## C60: the core density -/

/-- **C60 (violation).** For local-density functionals the core density has no effect: potential and energy are those
computed without any core density, although the caller passes one for the non-linear core correction. -/
theorem C60_lda_ignores_core {ns m n : ℕ} (S : XCSpace m n) (h0 : 0 < ns) (exch corr : XCFunc ns m)
    (he : exch.family = .lda) (hc : corr.family = .lda) (rho : Fin ns → Fin n → ℂ) (core core' : Fin n → ℂ) :
    xcCompute S h0 exch corr rho core = xcCompute S h0 exch corr rho core' := by
  unfold xcCompute
  simp [he, hc]

/-- **C60 (violation, concrete).** With one grid point, valence density 1 and core density 1, the functional with energy
per particle equal to the density gives the energy 1·1 = 1 of the valence density alone; the energy with the core
included, (1 + 1)·(1 + 1) = 4, or the non-linearly corrected 1·(1 + 1) = 2, are not what is returned. -/
theorem C60_lda_core_witness :
    ∃ (S : XCSpace 1 1) (F : XCFunc 1 1), F.family = .lda ∧
      (∀ r s, (F.run r s).zk 0 = r 0 0) ∧ (∀ f, S.toR f = f) ∧ S.dv = 1 ∧
      ∃ Z : XCFunc 1 1, (∀ r s, (Z.run r s).zk 0 = 0) ∧ Z.family = .lda ∧
      ∃ v, xcCompute S Nat.one_pos F Z (fun _ _ => 1) (fun _ => 1) = .ok (v, 1) := by
  let F : XCFunc 1 1 := ⟨.lda, fun r _ => ⟨fun i => r i 0, fun _ i => 2 * r i 0, none⟩, by simp⟩
  let Z : XCFunc 1 1 := ⟨.lda, fun r _ => ⟨fun _ => 0, fun _ _ => 0, none⟩, by simp⟩
  refine ⟨⟨id, id, fun _ _ => 0, 1⟩, F, rfl, fun _ _ => rfl, fun _ => rfl, rfl, Z, fun _ _ => rfl, rfl, ?_⟩
  refine ⟨fun _ _ => 2, ?_⟩
  simp only [xcCompute, xcAdd, F, Z, xcRho]
  simp
  rfl

/-- **C60 (gradients).** With gradient functionals the core density enters only through the contracted gradients: they are those of
the spin densities with `core / numspin` added to each, so that the added densities sum up to the core density; density argument, prefactor of
the energy and gradient in the potential are those of the valence density alone. -/
theorem C60_gga_core {ns m n : ℕ} (S : XCSpace m n) (h0 : 0 < ns) (exch corr : XCFunc ns m)
    (he : exch.family = .gga) (hc : corr.family = .gga) (rho : Fin ns → Fin n → ℂ) (core : Fin n → ℂ) :
    ∃ aux : Fin ns → Fin n → ℂ, (∀ j, ∑ s, (aux s j - rho s j) = core j) ∧ (∀ s s' j, aux s j - rho s j = aux s' j - rho s' j) ∧
      ∃ v, xcCompute S h0 exch corr rho core = .ok (v,
        S.dv * (∑ r, ∑ s, (S.toR (rho s) r).re * ((exch.run (xcRho S rho) (some (sigma S aux h0))).zk r
          + (corr.run (xcRho S rho) (some (sigma S aux h0))).zk r))) := by
  have hns : (ns : ℂ) ≠ 0 := by exact_mod_cast h0.ne'
  refine ⟨rhoaux rho core, ?_, ?_, ?_⟩
  · intro j
    simp only [rhoaux, add_sub_cancel_left, Finset.sum_const, Finset.card_univ, Fintype.card_fin, nsmul_eq_mul]
    field_simp
  · intro s s' j
    simp only [rhoaux, add_sub_cancel_left]
  · have hsome : ∀ (F : XCFunc ns m), F.family = .gga → ∀ a b, ∃ vs, (F.run a b).vsigma = some vs := by
      intro F hF a b
      exact Option.isSome_iff_exists.1 ((F.vsigma_iff a b).2 hF)
    obtain ⟨vx, hvx⟩ := hsome exch he (xcRho S rho) (some (sigma S (rhoaux rho core) h0))
    obtain ⟨vc, hvc⟩ := hsome corr hc (xcRho S rho) (some (sigma S (rhoaux rho core) h0))
    unfold xcCompute
    simp only [he, hc, or_self, decide_true, if_true, xcAdd, hvx, hvc, bind, Except.bind, pure, Except.pure]
    refine ⟨_, congrArg Except.ok (Prod.ext rfl ?_)⟩
    simp only
    generalize (exch.run (xcRho S rho) (some (sigma S (rhoaux rho core) h0))).zk = zx
    generalize (corr.run (xcRho S rho) (some (sigma S (rhoaux rho core) h0))).zk = zc
    simp only [zero_add, Complex.add_re, Complex.re_mul_ofReal, Complex.re_sum]
    rw [← add_mul, ← Finset.sum_add_distrib, mul_comm]
    congr 1
    refine Finset.sum_congr rfl fun r _ => ?_
    rw [← Finset.sum_add_distrib]
    refine Finset.sum_congr rfl fun s _ => ?_
    ring

/-! ## C62: mixing functional families -/

/-- **C62 (violation).** A gradient-corrected functional combined with a local one (for example PBE exchange with a
local correlation) always raises `KeyError`, for every density; two functionals of the same family never raise. -/
theorem C62_mixed_families {ns m n : ℕ} (S : XCSpace m n) (h0 : 0 < ns) (exch corr : XCFunc ns m)
    (rho : Fin ns → Fin n → ℂ) (core : Fin n → ℂ) :
    (exch.family ≠ corr.family → xcCompute S h0 exch corr rho core = .error .key) ∧
    (exch.family = corr.family → ∃ r, xcCompute S h0 exch corr rho core = .ok r) := by
  have hadd : ∀ (F : XCFunc ns m) (inp sig) (b : Bool) acc,
      (F.family = .lda → b = true → xcAdd S rho b (F.run inp sig) acc = .error .key) ∧
      ((F.family = .gga ∨ b = false) → ∃ r, xcAdd S rho b (F.run inp sig) acc = .ok r) := by
    intro F inp sig b acc
    have hiff := F.vsigma_iff inp sig
    unfold xcAdd
    constructor
    · intro h1 h2
      simp only [h2, if_true]
      cases hv : (F.run inp sig).vsigma with
      | none => rfl
      | some v => rw [hv] at hiff; simp [h1] at hiff
    · rintro (h1 | h1)
      · cases b with
        | false => exact ⟨_, rfl⟩
        | true =>
          cases hv : (F.run inp sig).vsigma with
          | none => rw [hv] at hiff; simp [h1] at hiff
          | some v => exact ⟨_, rfl⟩
      · subst h1; exact ⟨_, rfl⟩
  constructor
  · intro hne
    have hb : decide (exch.family = .gga ∨ corr.family = .gga) = true := by
      rw [decide_eq_true_eq]
      cases h1 : exch.family <;> cases h2 : corr.family <;> simp_all
    unfold xcCompute
    simp only [hb, if_true]
    cases h1 : exch.family with
    | lda =>
      rw [(hadd exch _ _ true _).1 h1 rfl]
      rfl
    | gga =>
      obtain ⟨r, hr⟩ := (hadd exch (xcRho S rho) (some (sigma S (rhoaux rho core) h0))
        true (fun _ _ => 0, 0)).2 (Or.inl h1)
      rw [hr]
      have h2 : corr.family = .lda := by
        cases h2 : corr.family
        · rfl
        · rw [h1, h2] at hne; exact absurd rfl hne
      show (xcAdd S rho true _ r >>= _) = _
      rw [(hadd corr _ _ true r).1 h2 rfl]
      rfl
  · intro heq
    unfold xcCompute
    cases h1 : exch.family with
    | lda =>
      rw [h1] at heq
      simp only [← heq, reduceCtorEq, or_self, decide_false]
      exact ⟨_, rfl⟩
    | gga =>
      have h2 := heq.symm.trans h1
      simp only [h2, or_self, decide_true, if_true]
      obtain ⟨r, hr⟩ := (hadd exch (xcRho S rho) (some (sigma S (rhoaux rho core) h0))
        true (fun _ _ => 0, 0)).2 (Or.inl h1)
      rw [hr]
      obtain ⟨r', hr'⟩ := (hadd corr (xcRho S rho) (some (sigma S (rhoaux rho core) h0))
        true r).2 (Or.inl h2)
      show ∃ q, (xcAdd S rho true _ r >>= _) = _
      rw [hr']
      exact ⟨_, rfl⟩

/-! ## C61: the potential is the derivative of the energy -/

/-- `F` evaluates a local-density functional: on an open set of spin densities (above libxc's threshold) the energy
density is `f`, and `vrho` its partial derivatives. -/
structure IsLDA {ns m : ℕ} (F : XCFunc ns m) (D : Set (Fin ns → ℝ)) (f : (Fin ns → ℝ) → ℝ) : Prop where
  family : F.family = .lda
  zk : ∀ ρ s r, ρ r ∈ D → (F.run ρ s).zk r * ∑ i, ρ r i = f (ρ r)
  vrho : ∀ ρ s r, ρ r ∈ D → ∃ L : (Fin ns → ℝ) →L[ℝ] ℝ, HasFDerivAt f L (ρ r) ∧
    ∀ d, L d = ∑ i, (F.run ρ s).vrho i r * d i

/-- `F` evaluates a gradient-corrected functional: the energy density depends on the spin densities and on the
contracted gradients (1 or 3 of them), `vrho` and `vsigma` are its partial derivatives. -/
structure IsGGA {ns m : ℕ} (F : XCFunc ns m) (D : Set ((Fin ns → ℝ) × (Fin (2 * ns - 1) → ℝ)))
    (f : (Fin ns → ℝ) × (Fin (2 * ns - 1) → ℝ) → ℝ) : Prop where
  family : F.family = .gga
  zk : ∀ ρ s r, (ρ r, fun k => s k.1 r) ∈ D → (F.run ρ (some s)).zk r * ∑ i, ρ r i = f (ρ r, fun k => s k.1 r)
  vrho : ∀ ρ s r, (ρ r, fun k => s k.1 r) ∈ D → ∃ vs, (F.run ρ (some s)).vsigma = some vs ∧
    ∃ L : (Fin ns → ℝ) × (Fin (2 * ns - 1) → ℝ) →L[ℝ] ℝ, HasFDerivAt f L (ρ r, fun k => s k.1 r) ∧
    ∀ d, L d = ∑ i, (F.run ρ (some s)).vrho i r * d.1 i + ∑ k, vs k.1 r * d.2 k

theorem xcRho_pos {ns m n : ℕ} (S : XCSpace m n) (rho : Fin ns → Fin n → ℂ) (r : Fin m)
    (hre : ∀ s, (S.toR (rho s) r).im = 0) (hpos : ∀ s, 0 < (S.toR (rho s) r).re) (s : Fin ns) :
    xcRho S rho r s = (S.toR (rho s) r).re := by
  unfold xcRho
  have : S.toR (rho s) r = ((S.toR (rho s) r).re : ℂ) := by
    apply Complex.ext <;> simp [hre s]
  rw [this, Complex.norm_real, Real.norm_of_nonneg (hpos s).le, Complex.ofReal_re]

/-- **C61 (local functionals).** For every pair of local-density functionals, every number of spins, every density that
is real and positive on the grid and every real change `δ`: the energy `xc.compute` returns at `ρ + tδ` is
differentiable at t = 0 and its derivative is the integral of the returned potential times `δ`. -/
theorem C61_lda_potential_is_derivative {ns m n : ℕ} (S : XCSpace m n) (hS : S.Laws) (h0 : 0 < ns)
    (exch corr : XCFunc ns m) (D : Set (Fin ns → ℝ)) (hD : IsOpen D) (fx fc : (Fin ns → ℝ) → ℝ)
    (hx : IsLDA exch D fx) (hc : IsLDA corr D fc) (rho del : Fin ns → Fin n → ℂ) (core : Fin n → ℂ)
    (hre : ∀ s r, (S.toR (rho s) r).im = 0) (hpos : ∀ s r, 0 < (S.toR (rho s) r).re)
    (hin : ∀ r, (fun s => (S.toR (rho s) r).re) ∈ D)
    (hdel : ∀ s r, (S.toR (del s) r).im = 0) :
    ∃ E : ℝ → ℝ, (∀ t : ℝ, ∃ v, xcCompute S h0 exch corr (fun s j => rho s j + (t : ℂ) * del s j) core = .ok (v, E t)) ∧
      ∃ v, xcCompute S h0 exch corr rho core = .ok (v, E 0) ∧
        HasDerivAt E (S.dv * ∑ r, ∑ s, (v s r).re * (S.toR (del s) r).re) 0 := by
  have hrun : ∀ ρ : Fin ns → Fin n → ℂ, xcCompute S h0 exch corr ρ core
      = .ok ((fun s r => 0 + ((exch.run (xcRho S ρ) none).vrho s r : ℂ) + ((corr.run (xcRho S ρ) none).vrho s r : ℂ)),
        (0 + (∑ r, ∑ s, S.toR (ρ s) r * ((exch.run (xcRho S ρ) none).zk r : ℂ)) * (S.dv : ℂ)
          + (∑ r, ∑ s, S.toR (ρ s) r * ((corr.run (xcRho S ρ) none).zk r : ℂ)) * (S.dv : ℂ)).re) := by
    intro ρ
    unfold xcCompute
    simp only [hx.family, hc.family, reduceCtorEq, or_self, decide_false, Bool.false_eq_true, if_false]
    rfl
  refine ⟨fun t => _, fun t => ⟨_, hrun _⟩,
    fun s r => 0 + ((exch.run (xcRho S rho) none).vrho s r : ℂ) + ((corr.run (xcRho S rho) none).vrho s r : ℂ), ?_, ?_⟩
  · simp only [Complex.ofReal_zero, zero_mul, add_zero]
    exact hrun rho
  · -- values along the path
    have hlin : ∀ (t : ℝ) s r, S.toR (fun j => rho s j + (t : ℂ) * del s j) r
        = (((S.toR (rho s) r).re + t * (S.toR (del s) r).re : ℝ) : ℂ) := by
      intro t s r
      rw [hS.lin]
      apply Complex.ext <;> simp [hre s r, hdel s r]
    let P : Fin m → ℝ → (Fin ns → ℝ) := fun r t s => (S.toR (rho s) r).re + t * (S.toR (del s) r).re
    have hPd : ∀ r, HasDerivAt (P r) (fun s => (S.toR (del s) r).re) 0 := by
      intro r
      rw [hasDerivAt_pi]
      intro s
      have := ((hasDerivAt_id (0 : ℝ)).mul_const ((S.toR (del s) r).re)).const_add ((S.toR (rho s) r).re)
      simpa [P] using this
    have hev : ∀ᶠ t : ℝ in nhds (0 : ℝ), ∀ r, P r t ∈ D ∧ ∀ s, 0 < P r t s := by
      rw [Filter.eventually_all]
      intro r
      have hc0 := (hPd r).continuousAt
      have e0 : P r 0 = fun s => (S.toR (rho s) r).re := by funext s; simp [P]
      have h1 : ∀ᶠ t : ℝ in nhds (0 : ℝ), P r t ∈ D := hc0.eventually_mem (hD.mem_nhds (by rw [e0]; exact hin r))
      have h2 : ∀ᶠ t : ℝ in nhds (0 : ℝ), ∀ s, 0 < P r t s := by
        rw [Filter.eventually_all]
        intro s
        have hcs : ContinuousAt (fun t => P r t s) 0 := ((hasDerivAt_pi.1 (hPd r)) s).continuousAt
        exact hcs.eventually (lt_mem_nhds (by simp [P, hpos s r]))
      exact h1.and h2
    have hE : ∀ᶠ t : ℝ in nhds (0 : ℝ), (0 + (∑ r, ∑ s, S.toR (fun j => rho s j + (t : ℂ) * del s j) r
          * ((exch.run (xcRho S fun s j => rho s j + (t : ℂ) * del s j) none).zk r : ℂ)) * (S.dv : ℂ)
          + (∑ r, ∑ s, S.toR (fun j => rho s j + (t : ℂ) * del s j) r
          * ((corr.run (xcRho S fun s j => rho s j + (t : ℂ) * del s j) none).zk r : ℂ)) * (S.dv : ℂ)).re
        = S.dv * ∑ r, (fx (P r t) + fc (P r t)) := by
      filter_upwards [hev] with t ht
      have hP : xcRho S (fun s j => rho s j + (t : ℂ) * del s j) = fun r => P r t := by
        funext r s
        unfold xcRho
        rw [hlin, Complex.norm_real]
        exact Real.norm_of_nonneg ((ht r).2 s).le
      rw [hP]
      have hF : ∀ (F : XCFunc ns m) (f : (Fin ns → ℝ) → ℝ), IsLDA F D f →
          (∑ r, ∑ s, S.toR (fun j => rho s j + (t : ℂ) * del s j) r * ((F.run (fun r => P r t) none).zk r : ℂ))
          = ((∑ r, f (P r t) : ℝ) : ℂ) := by
        intro F f hF
        push_cast
        apply Finset.sum_congr rfl
        intro r _
        rw [← hF.zk (fun r => P r t) none r (ht r).1]
        push_cast
        rw [← Finset.sum_mul, mul_comm]
        congr 1
        apply Finset.sum_congr rfl
        intro s _
        rw [hlin]
      rw [hF exch fx hx, hF corr fc hc, zero_add, ← add_mul, ← Complex.ofReal_add, ← Complex.ofReal_mul,
        Complex.ofReal_re, Finset.sum_add_distrib, mul_comm]
    refine HasDerivAt.congr_of_eventuallyEq ?_ hE
    apply HasDerivAt.const_mul
    apply HasDerivAt.fun_sum
    intro r _
    have hx0 : xcRho S rho r = fun s => (S.toR (rho s) r).re := by
      funext s; exact xcRho_pos S rho r (fun s => hre s r) (fun s => hpos s r) s
    have e0 : P r 0 = fun s => (S.toR (rho s) r).re := by funext s; simp [P]
    obtain ⟨Lx, hLx, hLx'⟩ := hx.vrho (xcRho S rho) none r (by rw [hx0]; exact hin r)
    obtain ⟨Lc, hLc, hLc'⟩ := hc.vrho (xcRho S rho) none r (by rw [hx0]; exact hin r)
    rw [hx0, ← e0] at hLx hLc
    have h1 := HasFDerivAt.comp_hasDerivAt (0 : ℝ) hLx (hPd r)
    have h2 := HasFDerivAt.comp_hasDerivAt (0 : ℝ) hLc (hPd r)
    have h3 := h1.add h2
    rw [hLx', hLc', ← Finset.sum_add_distrib] at h3
    refine HasDerivAt.congr_deriv (f := fun y => fx (P r y) + fc (P r y)) h3 ?_
    apply Finset.sum_congr rfl
    intro s _
    simp only [zero_add, Complex.add_re, Complex.ofReal_re]
    ring

/-- Spin component `s`, or the first one if there is none (as `sigma` reads its components). -/
def spin {ns : ℕ} (h0 : 0 < ns) (s : ℕ) : Fin ns := if hs : s < ns then ⟨s, hs⟩ else ⟨0, h0⟩

/-- Which two spin gradients contracted gradient `k` multiplies. -/
def pr1 : ℕ → ℕ | 0 => 0 | 1 => 0 | _ => 1
/-- see `pr1` -/
def pr2 : ℕ → ℕ | 0 => 0 | _ => 1

theorem sigma_eq {ns m n : ℕ} (S : XCSpace m n) (rho : Fin ns → Fin n → ℂ) (h0 : 0 < ns) (k : ℕ) (r : Fin m) :
    sigma S rho h0 k r
      = (∑ c, S.gradR (rho (spin h0 (pr1 k))) c r * S.gradR (rho (spin h0 (pr2 k))) c r).re := by
  have hs : ∀ s c, (if hs : s < ns then S.gradR (rho ⟨s, hs⟩) c r else S.gradR (rho ⟨0, h0⟩) c r)
      = S.gradR (rho (spin h0 s)) c r := by
    intro s c
    unfold spin
    split <;> rfl
  unfold sigma
  simp only [hs]
  match k with
  | 0 => rfl
  | 1 => rfl
  | k + 2 => rfl

theorem xcH_dot {ns m n : ℕ} (hns : ns = 1 ∨ ns = 2) (S : XCSpace m n) (rho : Fin ns → Fin n → ℂ) (h0 : 0 < ns)
    (vs : ℕ → Fin m → ℝ) (B : Fin ns → Fin 3 → ℝ) (r : Fin m) :
    ∑ k : Fin (2 * ns - 1), vs k.1 r * ∑ c, ((S.gradR (rho (spin h0 (pr1 k.1))) c r).re * B (spin h0 (pr2 k.1)) c
        + B (spin h0 (pr1 k.1)) c * (S.gradR (rho (spin h0 (pr2 k.1))) c r).re)
      = ∑ s, ∑ c, (xcH S rho vs s c r).re * B s c := by
  have h2 : ∀ (x : ℝ) (z : ℂ), (2 * (x : ℂ) * z).re = 2 * x * z.re := by
    intro x z
    have : (2 * (x : ℂ)) = ((2 * x : ℝ) : ℂ) := by push_cast; rfl
    rw [this, Complex.re_ofReal_mul]
  rcases hns with rfl | rfl
  · show ∑ k : Fin 1, _ = _
    simp only [Fin.sum_univ_one, Fin.sum_univ_three, xcH, if_true, h2]
    simp only [Fin.isValue, Fin.val_zero, pr1, pr2]
    have : spin h0 0 = (0 : Fin 1) := rfl
    rw [this]
    ring
  · show ∑ k : Fin 3, _ = _
    simp only [Fin.sum_univ_two, Fin.sum_univ_three, xcH]
    have e0 : spin h0 0 = (0 : Fin 2) := rfl
    have e1 : spin h0 1 = (1 : Fin 2) := rfl
    simp [h2, Complex.add_re, pr1, pr2, e0, e1]
    ring

/-- **C61 (gradient-corrected functionals).** For every pair of gradient-corrected functionals, one or two spins, every
density that is real and positive on the grid with a real gradient, every such change `δ`, and no core density: the
energy `xc.compute` returns at `ρ + tδ` is differentiable at t = 0 and its derivative is the integral of the (real part
of the) returned potential times `δ`. -/
theorem C61_gga_potential_is_derivative {ns m n : ℕ} (hns : ns = 1 ∨ ns = 2) (S : XCSpace m n) (hS : S.Laws)
    (h0 : 0 < ns) (exch corr : XCFunc ns m) (D : Set ((Fin ns → ℝ) × (Fin (2 * ns - 1) → ℝ))) (hD : IsOpen D)
    (fx fc : (Fin ns → ℝ) × (Fin (2 * ns - 1) → ℝ) → ℝ)
    (hx : IsGGA exch D fx) (hc : IsGGA corr D fc) (rho del : Fin ns → Fin n → ℂ)
    (hre : ∀ s, RealField S (rho s)) (hpos : ∀ s r, 0 < (S.toR (rho s) r).re)
    (hin : ∀ r, (fun s => (S.toR (rho s) r).re, fun k => sigma S rho h0 k.1 r) ∈ D)
    (hdel : ∀ s, RealField S (del s)) :
    ∃ E : ℝ → ℝ,
      (∀ t : ℝ, (∃ r, xcCompute S h0 exch corr (fun s j => rho s j + (t : ℂ) * del s j) (fun _ => 0) = .ok r ∧ r.2 = E t)) ∧
      ∃ v, xcCompute S h0 exch corr rho (fun _ => 0) = .ok (v, E 0) ∧
        HasDerivAt E (S.dv * ∑ r, ∑ s, (v s r).re * (S.toR (del s) r).re) 0 := by
  have haux : ∀ ρ : Fin ns → Fin n → ℂ, rhoaux ρ (fun _ => 0) = ρ := by
    intro ρ; funext s j; simp [rhoaux]
  -- one functional never fails
  have hvs : ∀ (F : XCFunc ns m), F.family = .gga → ∀ ρ s, ∃ vs, (F.run ρ s).vsigma = some vs := by
    intro F hF ρ s
    have := (F.vsigma_iff ρ s).2 hF
    exact Option.isSome_iff_exists.1 this
  choose vx hvx using hvs exch hx.family
  choose vc hvc using hvs corr hc.family
  have hrun : ∀ ρ : Fin ns → Fin n → ℂ, xcCompute S h0 exch corr ρ (fun _ => 0)
      = .ok ((fun s r => 0 + ((exch.run (xcRho S ρ) (some (sigma S ρ h0))).vrho s r : ℂ)
          - S.divR (xcH S ρ (vx (xcRho S ρ) (some (sigma S ρ h0))) s) r
          + ((corr.run (xcRho S ρ) (some (sigma S ρ h0))).vrho s r : ℂ)
          - S.divR (xcH S ρ (vc (xcRho S ρ) (some (sigma S ρ h0))) s) r),
        (0 + (∑ r, ∑ s, S.toR (ρ s) r * ((exch.run (xcRho S ρ) (some (sigma S ρ h0))).zk r : ℂ)) * (S.dv : ℂ)
          + (∑ r, ∑ s, S.toR (ρ s) r * ((corr.run (xcRho S ρ) (some (sigma S ρ h0))).zk r : ℂ)) * (S.dv : ℂ)).re) := by
    intro ρ
    have hadd : ∀ acc, xcAdd S ρ true (exch.run (xcRho S ρ) (some (sigma S ρ h0))) acc
        = .ok (fun s r => acc.1 s r + ((exch.run (xcRho S ρ) (some (sigma S ρ h0))).vrho s r : ℂ)
          - S.divR (xcH S ρ (vx (xcRho S ρ) (some (sigma S ρ h0))) s) r,
          acc.2 + (∑ r, ∑ s, S.toR (ρ s) r * ((exch.run (xcRho S ρ) (some (sigma S ρ h0))).zk r : ℂ)) * (S.dv : ℂ)) := by
      intro acc
      unfold xcAdd
      simp only [if_true, hvx]
    have hadc : ∀ acc, xcAdd S ρ true (corr.run (xcRho S ρ) (some (sigma S ρ h0))) acc
        = .ok (fun s r => acc.1 s r + ((corr.run (xcRho S ρ) (some (sigma S ρ h0))).vrho s r : ℂ)
          - S.divR (xcH S ρ (vc (xcRho S ρ) (some (sigma S ρ h0))) s) r,
          acc.2 + (∑ r, ∑ s, S.toR (ρ s) r * ((corr.run (xcRho S ρ) (some (sigma S ρ h0))).zk r : ℂ)) * (S.dv : ℂ)) := by
      intro acc
      unfold xcAdd
      simp only [if_true, hvc]
    unfold xcCompute
    simp only [hx.family, hc.family, or_self, decide_true, if_true, haux]
    rw [hadd]
    show (xcAdd S ρ true _ _ >>= _) = _
    rw [hadc]
    rfl
  refine ⟨fun t => (0 + (∑ r, ∑ s, S.toR (fun j => rho s j + (t : ℂ) * del s j) r
          * ((exch.run (xcRho S fun s j => rho s j + (t : ℂ) * del s j)
              (some (sigma S (fun s j => rho s j + (t : ℂ) * del s j) h0))).zk r : ℂ)) * (S.dv : ℂ)
          + (∑ r, ∑ s, S.toR (fun j => rho s j + (t : ℂ) * del s j) r
          * ((corr.run (xcRho S fun s j => rho s j + (t : ℂ) * del s j)
              (some (sigma S (fun s j => rho s j + (t : ℂ) * del s j) h0))).zk r : ℂ)) * (S.dv : ℂ)).re,
    fun t => ⟨_, hrun _, rfl⟩, (fun s r => 0 + ((exch.run (xcRho S rho) (some (sigma S rho h0))).vrho s r : ℂ)
          - S.divR (xcH S rho (vx (xcRho S rho) (some (sigma S rho h0))) s) r
          + ((corr.run (xcRho S rho) (some (sigma S rho h0))).vrho s r : ℂ)
          - S.divR (xcH S rho (vc (xcRho S rho) (some (sigma S rho h0))) s) r), ?_, ?_⟩
  · simp only [Complex.ofReal_zero, zero_mul, add_zero]
    exact hrun rho
  · have hlin : ∀ (t : ℝ) s r, S.toR (fun j => rho s j + (t : ℂ) * del s j) r
        = (((S.toR (rho s) r).re + t * (S.toR (del s) r).re : ℝ) : ℂ) := by
      intro t s r
      rw [hS.lin]
      apply Complex.ext <;> simp [(hre s).val r, (hdel s).val r]
    have hgrad : ∀ (t : ℝ) s c r, S.gradR (fun j => rho s j + (t : ℂ) * del s j) c r
        = (((S.gradR (rho s) c r).re + t * (S.gradR (del s) c r).re : ℝ) : ℂ) := by
      intro t s c r
      rw [hS.grad_lin]
      apply Complex.ext <;> simp [(hre s).grad c r, (hdel s).grad c r]
    have hsig : ∀ (t : ℝ) k r, sigma S (fun s j => rho s j + (t : ℂ) * del s j) h0 k r
        = ∑ c, ((S.gradR (rho (spin h0 (pr1 k))) c r).re + t * (S.gradR (del (spin h0 (pr1 k))) c r).re)
          * ((S.gradR (rho (spin h0 (pr2 k))) c r).re + t * (S.gradR (del (spin h0 (pr2 k))) c r).re) := by
      intro t k r
      rw [sigma_eq, Complex.re_sum]
      apply Finset.sum_congr rfl
      intro c _
      rw [hgrad, hgrad, ← Complex.ofReal_mul, Complex.ofReal_re]
    let P1 : Fin m → ℝ → (Fin ns → ℝ) := fun r t s => (S.toR (rho s) r).re + t * (S.toR (del s) r).re
    let P2 : Fin m → ℝ → (Fin (2 * ns - 1) → ℝ) := fun r t k => sigma S (fun s j => rho s j + (t : ℂ) * del s j) h0 k.1 r
    let dS : Fin m → (Fin (2 * ns - 1) → ℝ) := fun r k =>
      ∑ c, ((S.gradR (rho (spin h0 (pr1 k.1))) c r).re * (S.gradR (del (spin h0 (pr2 k.1))) c r).re
        + (S.gradR (del (spin h0 (pr1 k.1))) c r).re * (S.gradR (rho (spin h0 (pr2 k.1))) c r).re)
    have hP1 : ∀ r, HasDerivAt (P1 r) (fun s => (S.toR (del s) r).re) 0 := by
      intro r
      rw [hasDerivAt_pi]
      intro s
      have := ((hasDerivAt_id (0 : ℝ)).mul_const ((S.toR (del s) r).re)).const_add ((S.toR (rho s) r).re)
      simpa [P1] using this
    have hP2 : ∀ r, HasDerivAt (P2 r) (dS r) 0 := by
      intro r
      rw [hasDerivAt_pi]
      intro k
      show HasDerivAt (fun t : ℝ => sigma S (fun s j => rho s j + (t : ℂ) * del s j) h0 k.1 r) _ 0
      simp only [hsig]
      apply HasDerivAt.fun_sum
      intro c _
      have ha : ∀ x y : ℝ, HasDerivAt (fun t : ℝ => x + t * y) y 0 := by
        intro x y
        have := ((hasDerivAt_id (0 : ℝ)).mul_const y).const_add x
        simpa using this
      have := (ha (S.gradR (rho (spin h0 (pr1 k))) c r).re (S.gradR (del (spin h0 (pr1 k))) c r).re).mul
        (ha (S.gradR (rho (spin h0 (pr2 k))) c r).re (S.gradR (del (spin h0 (pr2 k))) c r).re)
      refine HasDerivAt.congr_deriv (f := fun t : ℝ => _) this ?_
      ring
    have hP : ∀ r, HasDerivAt (fun t => (P1 r t, P2 r t)) ((fun s => (S.toR (del s) r).re), dS r) 0 :=
      fun r => (hP1 r).prodMk (hP2 r)
    have e0 : ∀ r, (P1 r 0, P2 r 0) = ((fun s => (S.toR (rho s) r).re), fun k => sigma S rho h0 k.1 r) := by
      intro r; simp [P1, P2]
    have hev : ∀ᶠ t : ℝ in nhds (0 : ℝ), ∀ r, (P1 r t, P2 r t) ∈ D ∧ ∀ s, 0 < P1 r t s := by
      rw [Filter.eventually_all]
      intro r
      have h1 : ∀ᶠ t : ℝ in nhds (0 : ℝ), (P1 r t, P2 r t) ∈ D :=
        (hP r).continuousAt.eventually_mem (hD.mem_nhds (by rw [e0]; exact hin r))
      have h2 : ∀ᶠ t : ℝ in nhds (0 : ℝ), ∀ s, 0 < P1 r t s := by
        rw [Filter.eventually_all]
        intro s
        have hcs : ContinuousAt (fun t => P1 r t s) 0 := ((hasDerivAt_pi.1 (hP1 r)) s).continuousAt
        exact hcs.eventually (lt_mem_nhds (by simp [P1, hpos s r]))
      exact h1.and h2
    have hE : ∀ᶠ t : ℝ in nhds (0 : ℝ), (0 + (∑ r, ∑ s, S.toR (fun j => rho s j + (t : ℂ) * del s j) r
          * ((exch.run (xcRho S fun s j => rho s j + (t : ℂ) * del s j)
              (some (sigma S (fun s j => rho s j + (t : ℂ) * del s j) h0))).zk r : ℂ)) * (S.dv : ℂ)
          + (∑ r, ∑ s, S.toR (fun j => rho s j + (t : ℂ) * del s j) r
          * ((corr.run (xcRho S fun s j => rho s j + (t : ℂ) * del s j)
              (some (sigma S (fun s j => rho s j + (t : ℂ) * del s j) h0))).zk r : ℂ)) * (S.dv : ℂ)).re
        = S.dv * ∑ r, (fx (P1 r t, P2 r t) + fc (P1 r t, P2 r t)) := by
      filter_upwards [hev] with t ht
      have hPx : xcRho S (fun s j => rho s j + (t : ℂ) * del s j) = fun r => P1 r t := by
        funext r s
        unfold xcRho
        rw [hlin, Complex.norm_real]
        exact Real.norm_of_nonneg ((ht r).2 s).le
      rw [hPx]
      have hF : ∀ (F : XCFunc ns m) f, IsGGA F D f →
          (∑ r, ∑ s, S.toR (fun j => rho s j + (t : ℂ) * del s j) r * ((F.run (fun r => P1 r t)
            (some (sigma S (fun s j => rho s j + (t : ℂ) * del s j) h0))).zk r : ℂ))
          = ((∑ r, f (P1 r t, P2 r t) : ℝ) : ℂ) := by
        intro F f hF
        push_cast
        apply Finset.sum_congr rfl
        intro r _
        rw [← hF.zk (fun r => P1 r t) (sigma S (fun s j => rho s j + (t : ℂ) * del s j) h0) r (ht r).1]
        push_cast
        rw [← Finset.sum_mul, mul_comm]
        congr 1
        apply Finset.sum_congr rfl
        intro s _
        rw [hlin]
      rw [hF exch fx hx, hF corr fc hc, zero_add, ← add_mul, ← Complex.ofReal_add, ← Complex.ofReal_mul,
        Complex.ofReal_re, Finset.sum_add_distrib, mul_comm]
    refine HasDerivAt.congr_of_eventuallyEq ?_ hE
    apply HasDerivAt.const_mul
    have hx0 : ∀ r, xcRho S rho r = fun s => (S.toR (rho s) r).re := by
      intro r
      funext s; exact xcRho_pos S rho r (fun s => (hre s).val r) (fun s => hpos s r) s
    -- value of the derivative for one functional
    have hone : ∀ (F : XCFunc ns m) f, IsGGA F D f → ∀ v : (Fin m → Fin ns → ℝ) → Option (ℕ → Fin m → ℝ) → ℕ → Fin m → ℝ,
        (∀ ρ s, (F.run ρ s).vsigma = some (v ρ s)) →
        HasDerivAt (fun t => ∑ r, f (P1 r t, P2 r t))
          (∑ r, ∑ s, (((F.run (xcRho S rho) (some (sigma S rho h0))).vrho s r : ℂ)
            - S.divR (xcH S rho (v (xcRho S rho) (some (sigma S rho h0))) s) r).re * (S.toR (del s) r).re) 0 := by
      intro F f hF v hv
      have hloc : ∀ r, HasDerivAt (fun t => f (P1 r t, P2 r t))
          (∑ s, (F.run (xcRho S rho) (some (sigma S rho h0))).vrho s r * (S.toR (del s) r).re
            + ∑ k, v (xcRho S rho) (some (sigma S rho h0)) k.1 r * dS r k) 0 := by
        intro r
        obtain ⟨vs, hvs, L, hL, hL'⟩ := hF.vrho (xcRho S rho) (sigma S rho h0) r (by rw [hx0]; exact hin r)
        have : vs = v (xcRho S rho) (some (sigma S rho h0)) := by
          have := hvs.symm.trans (hv _ _)
          exact Option.some.inj this
        subst this
        rw [hx0, ← e0] at hL
        have h1 := HasFDerivAt.comp_hasDerivAt (0 : ℝ) hL (hP r)
        rw [hL'] at h1
        exact h1
      have hsum := HasDerivAt.fun_sum (u := Finset.univ) (fun r _ => hloc r)
      refine HasDerivAt.congr_deriv hsum ?_
      rw [Finset.sum_add_distrib]
      have hd : ∀ r, ∑ k : Fin (2 * ns - 1), v (xcRho S rho) (some (sigma S rho h0)) k.1 r * dS r k
          = ∑ s, ∑ c, (xcH S rho (v (xcRho S rho) (some (sigma S rho h0))) s c r).re * (S.gradR (del s) c r).re :=
        fun r => xcH_dot hns S rho h0 _ (fun s c => (S.gradR (del s) c r).re) r
      simp only [hd, Complex.sub_re, Complex.ofReal_re, sub_mul, Finset.sum_sub_distrib]
      rw [sub_eq_add_neg]
      congr 1
      have hcomm : ∑ r, ∑ s, (S.divR (xcH S rho (v (xcRho S rho) (some (sigma S rho h0))) s) r).re * (S.toR (del s) r).re
          = ∑ s, ∑ r, (S.divR (xcH S rho (v (xcRho S rho) (some (sigma S rho h0))) s) r).re * (S.toR (del s) r).re :=
        Finset.sum_comm
      rw [Finset.sum_comm, hcomm, ← Finset.sum_neg_distrib]
      apply Finset.sum_congr rfl
      intro s _
      rw [hS.by_parts_re _ _ (hdel s), neg_neg]
    have h1 := (hone exch fx hx vx hvx).add (hone corr fc hc vc hvc)
    have e1 : ((fun t => ∑ r, fx (P1 r t, P2 r t)) + fun t => ∑ r, fc (P1 r t, P2 r t))
        = fun t => ∑ r, (fx (P1 r t, P2 r t) + fc (P1 r t, P2 r t)) := by
      funext t
      simp [Finset.sum_add_distrib]
    rw [e1] at h1
    refine HasDerivAt.congr_deriv h1 ?_
    rw [← Finset.sum_add_distrib]
    apply Finset.sum_congr rfl
    intro r _
    rw [← Finset.sum_add_distrib]
    apply Finset.sum_congr rfl
    intro s _
    simp only [Complex.sub_re, Complex.add_re, Complex.ofReal_re, Complex.zero_re]
    ring

/-- The hypotheses on functionals are met: energy density `(Σρ)²`, i.e. `Σρ` per particle, potential `2Σρ`. -/
example (ns m : ℕ) : IsLDA (ns := ns) (m := m)
    ⟨.lda, fun r _ => ⟨fun i => ∑ s, r i s, fun _ i => 2 * ∑ s, r i s, none⟩, by simp⟩ Set.univ
    (fun d => (∑ s, d s) ^ 2) where
  family := rfl
  zk := by intro ρ s r _; simp only; ring
  vrho := by
    intro ρ s r _
    have h1 : HasFDerivAt (fun d : Fin ns → ℝ => ∑ s, d s)
        (∑ s, (ContinuousLinearMap.proj s : (Fin ns → ℝ) →L[ℝ] ℝ)) (ρ r) := by
      apply HasFDerivAt.fun_sum
      intro i _
      exact hasFDerivAt_apply i _
    have h2 := h1.pow 2
    refine ⟨_, h2, ?_⟩
    intro d
    simp [Finset.mul_sum]

/-- The same for a gradient-corrected functional with energy density `ρ² + σ`. -/
example (m : ℕ) : IsGGA (ns := 1) (m := m)
    ⟨.gga, fun r s => ⟨fun i => (r i 0 ^ 2 + (s.getD fun _ _ => 0) 0 i) / r i 0, fun _ i => 2 * r i 0,
      some fun _ _ => 1⟩, by simp⟩ {p | 0 < p.1 0}
    (fun p => p.1 0 ^ 2 + p.2 0) where
  family := rfl
  zk := by
    intro ρ s r h
    have h : 0 < ρ r 0 := h
    simp only [Option.getD_some, Fin.sum_univ_one]
    rw [div_mul_cancel₀ _ h.ne']
    rfl
  vrho := by
    intro ρ s r _
    refine ⟨_, rfl, ?_⟩
    have h1 := hasFDerivAt_pi'.1 (hasFDerivAt_fst (𝕜 := ℝ) (E := Fin 1 → ℝ) (F := Fin (2 * 1 - 1) → ℝ)
      (p := (ρ r, fun k => s k.1 r))) (0 : Fin 1)
    have h2 := hasFDerivAt_pi'.1 (hasFDerivAt_snd (𝕜 := ℝ) (E := Fin 1 → ℝ) (F := Fin (2 * 1 - 1) → ℝ)
      (p := (ρ r, fun k => s k.1 r))) (0 : Fin (2 * 1 - 1))
    refine ⟨_, (h1.pow 2).add h2, ?_⟩
    intro d
    simp

end Verif.Pot
