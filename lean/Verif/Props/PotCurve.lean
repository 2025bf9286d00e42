import Verif.Props.PotXC

/-!
# The exchange-correlation energy along curves of densities (used by C198)
-/

namespace Verif.Pot

theorem quadratic_deriv (x y z : ℝ) : HasDerivAt (fun t : ℝ => x + t * y + t ^ 2 * z) y 0 := by
  have h1 := ((hasDerivAt_id (0 : ℝ)).mul_const y).const_add x
  have h2 := ((hasDerivAt_id (0 : ℝ)).pow 2).mul_const z
  refine (h1.add h2).congr_deriv ?_
  simp

/-- `C61_lda_potential_is_derivative` along a curve `ρ + tδ + t²δ₂`. -/
theorem curve_lda {ns m n : ℕ} (S : XCSpace m n) (hS : S.Laws) (h0 : 0 < ns)
    (exch corr : XCFunc ns m) (D : Set (Fin ns → ℝ)) (hD : IsOpen D) (fx fc : (Fin ns → ℝ) → ℝ)
    (hx : IsLDA exch D fx) (hc : IsLDA corr D fc) (rho del del2 : Fin ns → Fin n → ℂ) (core : Fin n → ℂ)
    (hre : ∀ s r, (S.toR (rho s) r).im = 0) (hpos : ∀ s r, 0 < (S.toR (rho s) r).re)
    (hin : ∀ r, (fun s => (S.toR (rho s) r).re) ∈ D)
    (hdel : ∀ s r, (S.toR (del s) r).im = 0) (hdel2 : ∀ s r, (S.toR (del2 s) r).im = 0) :
    ∃ E : ℝ → ℝ, (∀ t : ℝ, ∃ v, xcCompute S h0 exch corr (fun s j => rho s j + (t : ℂ) * del s j + (t : ℂ) ^ 2 * del2 s j) core = .ok (v, E t)) ∧
      ∃ v, xcCompute S h0 exch corr rho core = .ok (v, E 0) ∧
        HasDerivAt E (S.dv * ∑ r, ∑ s, (v s r).re * (S.toR (del s) r).re) 0 := by
  have hrun : ∀ ρ : Fin ns → Fin n → ℂ, xcCompute S h0 exch corr ρ core
      = .ok ((fun s r => 0 + ((exch.run (xcRho S ρ) none).vrho s r : ℂ) + ((corr.run (xcRho S ρ) none).vrho s r : ℂ)),
        (0 + (∑ r, ∑ s, S.toR (ρ s) r * ((exch.run (xcRho S ρ) none).zk r : ℂ)) * (S.dv : ℂ)
          + (∑ r, ∑ s, S.toR (ρ s) r * ((corr.run (xcRho S ρ) none).zk r : ℂ)) * (S.dv : ℂ)).re) := by
    intro ρ
    unfold xcCompute
    simp only [hx.family, hc.family, reduceCtorEq, or_self, decide_false, Bool.false_eq_true, if_false]
    rfl
  refine ⟨fun t => _, fun t => ⟨_, hrun _⟩,
    fun s r => 0 + ((exch.run (xcRho S rho) none).vrho s r : ℂ) + ((corr.run (xcRho S rho) none).vrho s r : ℂ), ?_, ?_⟩
  · simp only [Complex.ofReal_zero, zero_mul, add_zero, ne_eq, OfNat.ofNat_ne_zero, not_false_eq_true, zero_pow]
    exact hrun rho
  · -- values along the path
    have hlin : ∀ (t : ℝ) s r, S.toR (fun j => rho s j + (t : ℂ) * del s j + (t : ℂ) ^ 2 * del2 s j) r
        = (((S.toR (rho s) r).re + t * (S.toR (del s) r).re + t ^ 2 * (S.toR (del2 s) r).re : ℝ) : ℂ) := by
      intro t s r
      rw [show (fun j => rho s j + (t : ℂ) * del s j + (t : ℂ) ^ 2 * del2 s j) = fun j => (fun j => rho s j + (t : ℂ) * del s j) j + (t : ℂ) ^ 2 * del2 s j from rfl, hS.lin, hS.lin]
      apply Complex.ext <;> simp [hre s r, hdel s r, hdel2 s r, ← Complex.ofReal_pow]
    let P : Fin m → ℝ → (Fin ns → ℝ) := fun r t s => (S.toR (rho s) r).re + t * (S.toR (del s) r).re + t ^ 2 * (S.toR (del2 s) r).re
    have hPd : ∀ r, HasDerivAt (P r) (fun s => (S.toR (del s) r).re) 0 := by
      intro r
      rw [hasDerivAt_pi]
      intro s
      exact quadratic_deriv _ _ _
    have hev : ∀ᶠ t : ℝ in nhds (0 : ℝ), ∀ r, P r t ∈ D ∧ ∀ s, 0 < P r t s := by
      rw [Filter.eventually_all]
      intro r
      have hc0 := (hPd r).continuousAt
      have e0 : P r 0 = fun s => (S.toR (rho s) r).re := by funext s; simp [P]
      have h1 : ∀ᶠ t : ℝ in nhds (0 : ℝ), P r t ∈ D := hc0.eventually_mem (hD.mem_nhds (by rw [e0]; exact hin r))
      have h2 : ∀ᶠ t : ℝ in nhds (0 : ℝ), ∀ s, 0 < P r t s := by
        rw [Filter.eventually_all]
        intro s
        have hcs : ContinuousAt (fun t => P r t s) 0 := ((hasDerivAt_pi.1 (hPd r)) s).continuousAt
        exact hcs.eventually (lt_mem_nhds (by simp [P, hpos s r]))
      exact h1.and h2
    have hE : ∀ᶠ t : ℝ in nhds (0 : ℝ), (0 + (∑ r, ∑ s, S.toR (fun j => rho s j + (t : ℂ) * del s j + (t : ℂ) ^ 2 * del2 s j) r
          * ((exch.run (xcRho S fun s j => rho s j + (t : ℂ) * del s j + (t : ℂ) ^ 2 * del2 s j) none).zk r : ℂ)) * (S.dv : ℂ)
          + (∑ r, ∑ s, S.toR (fun j => rho s j + (t : ℂ) * del s j + (t : ℂ) ^ 2 * del2 s j) r
          * ((corr.run (xcRho S fun s j => rho s j + (t : ℂ) * del s j + (t : ℂ) ^ 2 * del2 s j) none).zk r : ℂ)) * (S.dv : ℂ)).re
        = S.dv * ∑ r, (fx (P r t) + fc (P r t)) := by
      filter_upwards [hev] with t ht
      have hP : xcRho S (fun s j => rho s j + (t : ℂ) * del s j + (t : ℂ) ^ 2 * del2 s j) = fun r => P r t := by
        funext r s
        unfold xcRho
        rw [hlin, Complex.norm_real]
        exact Real.norm_of_nonneg ((ht r).2 s).le
      rw [hP]
      have hF : ∀ (F : XCFunc ns m) (f : (Fin ns → ℝ) → ℝ), IsLDA F D f →
          (∑ r, ∑ s, S.toR (fun j => rho s j + (t : ℂ) * del s j + (t : ℂ) ^ 2 * del2 s j) r * ((F.run (fun r => P r t) none).zk r : ℂ))
          = ((∑ r, f (P r t) : ℝ) : ℂ) := by
        intro F f hF
        push_cast
        apply Finset.sum_congr rfl
        intro r _
        rw [← hF.zk (fun r => P r t) none r (ht r).1]
        push_cast
        rw [← Finset.sum_mul, mul_comm]
        congr 1
        apply Finset.sum_congr rfl
        intro s _
        rw [hlin]
      rw [hF exch fx hx, hF corr fc hc, zero_add, ← add_mul, ← Complex.ofReal_add, ← Complex.ofReal_mul,
        Complex.ofReal_re, Finset.sum_add_distrib, mul_comm]
    refine HasDerivAt.congr_of_eventuallyEq ?_ hE
    apply HasDerivAt.const_mul
    apply HasDerivAt.fun_sum
    intro r _
    have hx0 : xcRho S rho r = fun s => (S.toR (rho s) r).re := by
      funext s; exact xcRho_pos S rho r (fun s => hre s r) (fun s => hpos s r) s
    have e0 : P r 0 = fun s => (S.toR (rho s) r).re := by funext s; simp [P]
    obtain ⟨Lx, hLx, hLx'⟩ := hx.vrho (xcRho S rho) none r (by rw [hx0]; exact hin r)
    obtain ⟨Lc, hLc, hLc'⟩ := hc.vrho (xcRho S rho) none r (by rw [hx0]; exact hin r)
    rw [hx0, ← e0] at hLx hLc
    have h1 := HasFDerivAt.comp_hasDerivAt (0 : ℝ) hLx (hPd r)
    have h2 := HasFDerivAt.comp_hasDerivAt (0 : ℝ) hLc (hPd r)
    have h3 := h1.add h2
    rw [hLx', hLc', ← Finset.sum_add_distrib] at h3
    refine HasDerivAt.congr_deriv (f := fun y => fx (P r y) + fc (P r y)) h3 ?_
    apply Finset.sum_congr rfl
    intro s _
    simp only [zero_add, Complex.add_re, Complex.ofReal_re]
    ring

/-- `C61_gga_potential_is_derivative` along a curve `ρ + tδ + t²δ₂`. -/
theorem curve_gga {ns m n : ℕ} (hns : ns = 1 ∨ ns = 2) (S : XCSpace m n) (hS : S.Laws)
    (h0 : 0 < ns) (exch corr : XCFunc ns m) (D : Set ((Fin ns → ℝ) × (Fin (2 * ns - 1) → ℝ))) (hD : IsOpen D)
    (fx fc : (Fin ns → ℝ) × (Fin (2 * ns - 1) → ℝ) → ℝ)
    (hx : IsGGA exch D fx) (hc : IsGGA corr D fc) (rho del del2 : Fin ns → Fin n → ℂ)
    (hre : ∀ s, RealField S (rho s)) (hpos : ∀ s r, 0 < (S.toR (rho s) r).re)
    (hin : ∀ r, (fun s => (S.toR (rho s) r).re, fun k => sigma S rho h0 k.1 r) ∈ D)
    (hdel : ∀ s, RealField S (del s)) (hdel2 : ∀ s, RealField S (del2 s)) :
    ∃ E : ℝ → ℝ,
      (∀ t : ℝ, (∃ r, xcCompute S h0 exch corr (fun s j => rho s j + (t : ℂ) * del s j + (t : ℂ) ^ 2 * del2 s j) (fun _ => 0) = .ok r ∧ r.2 = E t)) ∧
      ∃ v, xcCompute S h0 exch corr rho (fun _ => 0) = .ok (v, E 0) ∧
        HasDerivAt E (S.dv * ∑ r, ∑ s, (v s r).re * (S.toR (del s) r).re) 0 := by
  have haux : ∀ ρ : Fin ns → Fin n → ℂ, rhoaux ρ (fun _ => 0) = ρ := by
    intro ρ; funext s j; simp [rhoaux]
  -- one functional never fails
  have hvs : ∀ (F : XCFunc ns m), F.family = .gga → ∀ ρ s, ∃ vs, (F.run ρ s).vsigma = some vs := by
    intro F hF ρ s
    have := (F.vsigma_iff ρ s).2 hF
    exact Option.isSome_iff_exists.1 this
  choose vx hvx using hvs exch hx.family
  choose vc hvc using hvs corr hc.family
  have hrun : ∀ ρ : Fin ns → Fin n → ℂ, xcCompute S h0 exch corr ρ (fun _ => 0)
      = .ok ((fun s r => 0 + ((exch.run (xcRho S ρ) (some (sigma S ρ h0))).vrho s r : ℂ)
          - S.divR (xcH S ρ (vx (xcRho S ρ) (some (sigma S ρ h0))) s) r
          + ((corr.run (xcRho S ρ) (some (sigma S ρ h0))).vrho s r : ℂ)
          - S.divR (xcH S ρ (vc (xcRho S ρ) (some (sigma S ρ h0))) s) r),
        (0 + (∑ r, ∑ s, S.toR (ρ s) r * ((exch.run (xcRho S ρ) (some (sigma S ρ h0))).zk r : ℂ)) * (S.dv : ℂ)
          + (∑ r, ∑ s, S.toR (ρ s) r * ((corr.run (xcRho S ρ) (some (sigma S ρ h0))).zk r : ℂ)) * (S.dv : ℂ)).re) := by
    intro ρ
    have hadd : ∀ acc, xcAdd S ρ true (exch.run (xcRho S ρ) (some (sigma S ρ h0))) acc
        = .ok (fun s r => acc.1 s r + ((exch.run (xcRho S ρ) (some (sigma S ρ h0))).vrho s r : ℂ)
          - S.divR (xcH S ρ (vx (xcRho S ρ) (some (sigma S ρ h0))) s) r,
          acc.2 + (∑ r, ∑ s, S.toR (ρ s) r * ((exch.run (xcRho S ρ) (some (sigma S ρ h0))).zk r : ℂ)) * (S.dv : ℂ)) := by
      intro acc
      unfold xcAdd
      simp only [if_true, hvx]
    have hadc : ∀ acc, xcAdd S ρ true (corr.run (xcRho S ρ) (some (sigma S ρ h0))) acc
        = .ok (fun s r => acc.1 s r + ((corr.run (xcRho S ρ) (some (sigma S ρ h0))).vrho s r : ℂ)
          - S.divR (xcH S ρ (vc (xcRho S ρ) (some (sigma S ρ h0))) s) r,
          acc.2 + (∑ r, ∑ s, S.toR (ρ s) r * ((corr.run (xcRho S ρ) (some (sigma S ρ h0))).zk r : ℂ)) * (S.dv : ℂ)) := by
      intro acc
      unfold xcAdd
      simp only [if_true, hvc]
    unfold xcCompute
    simp only [hx.family, hc.family, or_self, decide_true, if_true, haux]
    rw [hadd]
    show (xcAdd S ρ true _ _ >>= _) = _
    rw [hadc]
    rfl
  refine ⟨fun t => (0 + (∑ r, ∑ s, S.toR (fun j => rho s j + (t : ℂ) * del s j + (t : ℂ) ^ 2 * del2 s j) r
          * ((exch.run (xcRho S fun s j => rho s j + (t : ℂ) * del s j + (t : ℂ) ^ 2 * del2 s j)
              (some (sigma S (fun s j => rho s j + (t : ℂ) * del s j + (t : ℂ) ^ 2 * del2 s j) h0))).zk r : ℂ)) * (S.dv : ℂ)
          + (∑ r, ∑ s, S.toR (fun j => rho s j + (t : ℂ) * del s j + (t : ℂ) ^ 2 * del2 s j) r
          * ((corr.run (xcRho S fun s j => rho s j + (t : ℂ) * del s j + (t : ℂ) ^ 2 * del2 s j)
              (some (sigma S (fun s j => rho s j + (t : ℂ) * del s j + (t : ℂ) ^ 2 * del2 s j) h0))).zk r : ℂ)) * (S.dv : ℂ)).re,
    fun t => ⟨_, hrun _, rfl⟩, (fun s r => 0 + ((exch.run (xcRho S rho) (some (sigma S rho h0))).vrho s r : ℂ)
          - S.divR (xcH S rho (vx (xcRho S rho) (some (sigma S rho h0))) s) r
          + ((corr.run (xcRho S rho) (some (sigma S rho h0))).vrho s r : ℂ)
          - S.divR (xcH S rho (vc (xcRho S rho) (some (sigma S rho h0))) s) r), ?_, ?_⟩
  · simp only [Complex.ofReal_zero, zero_mul, add_zero, ne_eq, OfNat.ofNat_ne_zero, not_false_eq_true, zero_pow]
    exact hrun rho
  · have hlin : ∀ (t : ℝ) s r, S.toR (fun j => rho s j + (t : ℂ) * del s j + (t : ℂ) ^ 2 * del2 s j) r
        = (((S.toR (rho s) r).re + t * (S.toR (del s) r).re + t ^ 2 * (S.toR (del2 s) r).re : ℝ) : ℂ) := by
      intro t s r
      rw [show (fun j => rho s j + (t : ℂ) * del s j + (t : ℂ) ^ 2 * del2 s j) = fun j => (fun j => rho s j + (t : ℂ) * del s j) j + (t : ℂ) ^ 2 * del2 s j from rfl, hS.lin, hS.lin]
      apply Complex.ext <;> simp [(hre s).val r, (hdel s).val r, (hdel2 s).val r, ← Complex.ofReal_pow]
    have hgrad : ∀ (t : ℝ) s c r, S.gradR (fun j => rho s j + (t : ℂ) * del s j + (t : ℂ) ^ 2 * del2 s j) c r
        = (((S.gradR (rho s) c r).re + t * (S.gradR (del s) c r).re + t ^ 2 * (S.gradR (del2 s) c r).re : ℝ) : ℂ) := by
      intro t s c r
      rw [show (fun j => rho s j + (t : ℂ) * del s j + (t : ℂ) ^ 2 * del2 s j) = fun j => (fun j => rho s j + (t : ℂ) * del s j) j + (t : ℂ) ^ 2 * del2 s j from rfl, hS.grad_lin, hS.grad_lin]
      apply Complex.ext <;> simp [(hre s).grad c r, (hdel s).grad c r, (hdel2 s).grad c r, ← Complex.ofReal_pow]
    have hsig : ∀ (t : ℝ) k r, sigma S (fun s j => rho s j + (t : ℂ) * del s j + (t : ℂ) ^ 2 * del2 s j) h0 k r
        = ∑ c, ((S.gradR (rho (spin h0 (pr1 k))) c r).re + t * (S.gradR (del (spin h0 (pr1 k))) c r).re + t ^ 2 * (S.gradR (del2 (spin h0 (pr1 k))) c r).re)
          * ((S.gradR (rho (spin h0 (pr2 k))) c r).re + t * (S.gradR (del (spin h0 (pr2 k))) c r).re + t ^ 2 * (S.gradR (del2 (spin h0 (pr2 k))) c r).re) := by
      intro t k r
      rw [sigma_eq, Complex.re_sum]
      apply Finset.sum_congr rfl
      intro c _
      rw [hgrad, hgrad, ← Complex.ofReal_mul, Complex.ofReal_re]
    let P1 : Fin m → ℝ → (Fin ns → ℝ) := fun r t s => (S.toR (rho s) r).re + t * (S.toR (del s) r).re + t ^ 2 * (S.toR (del2 s) r).re
    let P2 : Fin m → ℝ → (Fin (2 * ns - 1) → ℝ) := fun r t k => sigma S (fun s j => rho s j + (t : ℂ) * del s j + (t : ℂ) ^ 2 * del2 s j) h0 k.1 r
    let dS : Fin m → (Fin (2 * ns - 1) → ℝ) := fun r k =>
      ∑ c, ((S.gradR (rho (spin h0 (pr1 k.1))) c r).re * (S.gradR (del (spin h0 (pr2 k.1))) c r).re
        + (S.gradR (del (spin h0 (pr1 k.1))) c r).re * (S.gradR (rho (spin h0 (pr2 k.1))) c r).re)
    have hP1 : ∀ r, HasDerivAt (P1 r) (fun s => (S.toR (del s) r).re) 0 := by
      intro r
      rw [hasDerivAt_pi]
      intro s
      exact quadratic_deriv _ _ _
    have hP2 : ∀ r, HasDerivAt (P2 r) (dS r) 0 := by
      intro r
      rw [hasDerivAt_pi]
      intro k
      show HasDerivAt (fun t : ℝ => sigma S (fun s j => rho s j + (t : ℂ) * del s j + (t : ℂ) ^ 2 * del2 s j) h0 k.1 r) _ 0
      simp only [hsig]
      apply HasDerivAt.fun_sum
      intro c _
      have := (quadratic_deriv (S.gradR (rho (spin h0 (pr1 k))) c r).re (S.gradR (del (spin h0 (pr1 k))) c r).re (S.gradR (del2 (spin h0 (pr1 k))) c r).re).mul
        (quadratic_deriv (S.gradR (rho (spin h0 (pr2 k))) c r).re (S.gradR (del (spin h0 (pr2 k))) c r).re (S.gradR (del2 (spin h0 (pr2 k))) c r).re)
      refine HasDerivAt.congr_deriv (f := fun t : ℝ => _) this ?_
      ring
    have hP : ∀ r, HasDerivAt (fun t => (P1 r t, P2 r t)) ((fun s => (S.toR (del s) r).re), dS r) 0 :=
      fun r => (hP1 r).prodMk (hP2 r)
    have e0 : ∀ r, (P1 r 0, P2 r 0) = ((fun s => (S.toR (rho s) r).re), fun k => sigma S rho h0 k.1 r) := by
      intro r; simp [P1, P2]
    have hev : ∀ᶠ t : ℝ in nhds (0 : ℝ), ∀ r, (P1 r t, P2 r t) ∈ D ∧ ∀ s, 0 < P1 r t s := by
      rw [Filter.eventually_all]
      intro r
      have h1 : ∀ᶠ t : ℝ in nhds (0 : ℝ), (P1 r t, P2 r t) ∈ D :=
        (hP r).continuousAt.eventually_mem (hD.mem_nhds (by rw [e0]; exact hin r))
      have h2 : ∀ᶠ t : ℝ in nhds (0 : ℝ), ∀ s, 0 < P1 r t s := by
        rw [Filter.eventually_all]
        intro s
        have hcs : ContinuousAt (fun t => P1 r t s) 0 := ((hasDerivAt_pi.1 (hP1 r)) s).continuousAt
        exact hcs.eventually (lt_mem_nhds (by simp [P1, hpos s r]))
      exact h1.and h2
    have hE : ∀ᶠ t : ℝ in nhds (0 : ℝ), (0 + (∑ r, ∑ s, S.toR (fun j => rho s j + (t : ℂ) * del s j + (t : ℂ) ^ 2 * del2 s j) r
          * ((exch.run (xcRho S fun s j => rho s j + (t : ℂ) * del s j + (t : ℂ) ^ 2 * del2 s j)
              (some (sigma S (fun s j => rho s j + (t : ℂ) * del s j + (t : ℂ) ^ 2 * del2 s j) h0))).zk r : ℂ)) * (S.dv : ℂ)
          + (∑ r, ∑ s, S.toR (fun j => rho s j + (t : ℂ) * del s j + (t : ℂ) ^ 2 * del2 s j) r
          * ((corr.run (xcRho S fun s j => rho s j + (t : ℂ) * del s j + (t : ℂ) ^ 2 * del2 s j)
              (some (sigma S (fun s j => rho s j + (t : ℂ) * del s j + (t : ℂ) ^ 2 * del2 s j) h0))).zk r : ℂ)) * (S.dv : ℂ)).re
        = S.dv * ∑ r, (fx (P1 r t, P2 r t) + fc (P1 r t, P2 r t)) := by
      filter_upwards [hev] with t ht
      have hPx : xcRho S (fun s j => rho s j + (t : ℂ) * del s j + (t : ℂ) ^ 2 * del2 s j) = fun r => P1 r t := by
        funext r s
        unfold xcRho
        rw [hlin, Complex.norm_real]
        exact Real.norm_of_nonneg ((ht r).2 s).le
      rw [hPx]
      have hF : ∀ (F : XCFunc ns m) f, IsGGA F D f →
          (∑ r, ∑ s, S.toR (fun j => rho s j + (t : ℂ) * del s j + (t : ℂ) ^ 2 * del2 s j) r * ((F.run (fun r => P1 r t)
            (some (sigma S (fun s j => rho s j + (t : ℂ) * del s j + (t : ℂ) ^ 2 * del2 s j) h0))).zk r : ℂ))
          = ((∑ r, f (P1 r t, P2 r t) : ℝ) : ℂ) := by
        intro F f hF
        push_cast
        apply Finset.sum_congr rfl
        intro r _
        rw [← hF.zk (fun r => P1 r t) (sigma S (fun s j => rho s j + (t : ℂ) * del s j + (t : ℂ) ^ 2 * del2 s j) h0) r (ht r).1]
        push_cast
        rw [← Finset.sum_mul, mul_comm]
        congr 1
        apply Finset.sum_congr rfl
        intro s _
        rw [hlin]
      rw [hF exch fx hx, hF corr fc hc, zero_add, ← add_mul, ← Complex.ofReal_add, ← Complex.ofReal_mul,
        Complex.ofReal_re, Finset.sum_add_distrib, mul_comm]
    refine HasDerivAt.congr_of_eventuallyEq ?_ hE
    apply HasDerivAt.const_mul
    have hx0 : ∀ r, xcRho S rho r = fun s => (S.toR (rho s) r).re := by
      intro r
      funext s; exact xcRho_pos S rho r (fun s => (hre s).val r) (fun s => hpos s r) s
    -- value of the derivative for one functional
    have hone : ∀ (F : XCFunc ns m) f, IsGGA F D f → ∀ v : (Fin m → Fin ns → ℝ) → Option (ℕ → Fin m → ℝ) → ℕ → Fin m → ℝ,
        (∀ ρ s, (F.run ρ s).vsigma = some (v ρ s)) →
        HasDerivAt (fun t => ∑ r, f (P1 r t, P2 r t))
          (∑ r, ∑ s, (((F.run (xcRho S rho) (some (sigma S rho h0))).vrho s r : ℂ)
            - S.divR (xcH S rho (v (xcRho S rho) (some (sigma S rho h0))) s) r).re * (S.toR (del s) r).re) 0 := by
      intro F f hF v hv
      have hloc : ∀ r, HasDerivAt (fun t => f (P1 r t, P2 r t))
          (∑ s, (F.run (xcRho S rho) (some (sigma S rho h0))).vrho s r * (S.toR (del s) r).re
            + ∑ k, v (xcRho S rho) (some (sigma S rho h0)) k.1 r * dS r k) 0 := by
        intro r
        obtain ⟨vs, hvs, L, hL, hL'⟩ := hF.vrho (xcRho S rho) (sigma S rho h0) r (by rw [hx0]; exact hin r)
        have : vs = v (xcRho S rho) (some (sigma S rho h0)) := by
          have := hvs.symm.trans (hv _ _)
          exact Option.some.inj this
        subst this
        rw [hx0, ← e0] at hL
        have h1 := HasFDerivAt.comp_hasDerivAt (0 : ℝ) hL (hP r)
        rw [hL'] at h1
        exact h1
      have hsum := HasDerivAt.fun_sum (u := Finset.univ) (fun r _ => hloc r)
      refine HasDerivAt.congr_deriv hsum ?_
      rw [Finset.sum_add_distrib]
      have hd : ∀ r, ∑ k : Fin (2 * ns - 1), v (xcRho S rho) (some (sigma S rho h0)) k.1 r * dS r k
          = ∑ s, ∑ c, (xcH S rho (v (xcRho S rho) (some (sigma S rho h0))) s c r).re * (S.gradR (del s) c r).re :=
        fun r => xcH_dot hns S rho h0 _ (fun s c => (S.gradR (del s) c r).re) r
      simp only [hd, Complex.sub_re, Complex.ofReal_re, sub_mul, Finset.sum_sub_distrib]
      rw [sub_eq_add_neg]
      congr 1
      have hcomm : ∑ r, ∑ s, (S.divR (xcH S rho (v (xcRho S rho) (some (sigma S rho h0))) s) r).re * (S.toR (del s) r).re
          = ∑ s, ∑ r, (S.divR (xcH S rho (v (xcRho S rho) (some (sigma S rho h0))) s) r).re * (S.toR (del s) r).re :=
        Finset.sum_comm
      rw [Finset.sum_comm, hcomm, ← Finset.sum_neg_distrib]
      apply Finset.sum_congr rfl
      intro s _
      rw [hS.by_parts_re _ _ (hdel s), neg_neg]
    have h1 := (hone exch fx hx vx hvx).add (hone corr fc hc vc hvc)
    have e1 : ((fun t => ∑ r, fx (P1 r t, P2 r t)) + fun t => ∑ r, fc (P1 r t, P2 r t))
        = fun t => ∑ r, (fx (P1 r t, P2 r t) + fc (P1 r t, P2 r t)) := by
      funext t
      simp [Finset.sum_add_distrib]
    rw [e1] at h1
    refine HasDerivAt.congr_deriv h1 ?_
    rw [← Finset.sum_add_distrib]
    apply Finset.sum_congr rfl
    intro r _
    rw [← Finset.sum_add_distrib]
    apply Finset.sum_congr rfl
    intro s _
    simp only [Complex.sub_re, Complex.add_re, Complex.ofReal_re, Complex.zero_re]
    ring


end Verif.Pot
