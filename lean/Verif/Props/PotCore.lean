import Verif.Props.PotXC
import Verif.Props.KSVar

/-!
# C61 with a core density: the potential of a gradient-corrected functional is not the derivative of the energy
-/

namespace Verif.Pot

open scoped ComplexConjugate

/-- The functional with energy density `ρ σ`. -/
def rhoSigma (m : ℕ) : XCFunc 1 m := ⟨.gga, fun r s => ⟨fun i => (s.getD fun _ _ => 0) 0 i, fun _ i => (s.getD fun _ _ => 0) 0 i, some fun _ i => r i 0⟩, by simp⟩

/-- The functional that yields nothing. -/
def zeroGGA (m : ℕ) : XCFunc 1 m := ⟨.gga, fun _ _ => ⟨fun _ => 0, fun _ _ => 0, some fun _ _ => 0⟩, by simp⟩

theorem rhoSigma_isGGA (m : ℕ) : IsGGA (rhoSigma m) Set.univ fun p => p.1 0 * p.2 0 where
  family := rfl
  zk := by
    intro ρ s r _
    simp only [rhoSigma, Option.getD_some, Fin.sum_univ_one]
    rw [mul_comm]
    rfl
  vrho := by
    intro ρ s r _
    refine ⟨_, rfl, ?_⟩
    have h1 := hasFDerivAt_pi'.1 (hasFDerivAt_fst (𝕜 := ℝ) (E := Fin 1 → ℝ) (F := Fin (2 * 1 - 1) → ℝ)
      (p := (ρ r, fun k => s k.1 r))) (0 : Fin 1)
    have h2 := hasFDerivAt_pi'.1 (hasFDerivAt_snd (𝕜 := ℝ) (E := Fin 1 → ℝ) (F := Fin (2 * 1 - 1) → ℝ)
      (p := (ρ r, fun k => s k.1 r))) (0 : Fin (2 * 1 - 1))
    refine ⟨_, h1.mul h2, ?_⟩
    intro d
    simp [rhoSigma]
    ring

theorem zeroGGA_isGGA (m : ℕ) : IsGGA (zeroGGA m) Set.univ fun _ => 0 where
  family := rfl
  zk := by
    intro ρ s r _
    simp [zeroGGA]
  vrho := by
    intro ρ s r _
    exact ⟨_, rfl, 0, hasFDerivAt_const _ _, by simp [zeroGGA]⟩

/-- **C61, violation.** With a core density the rate of change of the energy `xc.compute` returns differs from the integral of the returned potential times the change: the energy sees the gradient of the core, the potential
does not. For the functional `ρ σ` the difference is `2 ∫ ρ ∇core·∇δ`. -/
theorem C61_gga_core_error {m n : ℕ} (S : XCSpace m n) (hS : S.Laws) (rho del : Fin 1 → Fin n → ℂ) (core : Fin n → ℂ) (hre : ∀ s, RealField S (rho s)) (hpos : ∀ s r, 0 < (S.toR (rho s) r).re)
    (hdel : ∀ s, RealField S (del s)) (hcore : RealField S core) :
    ∃ E : ℝ → ℝ, (∀ t : ℝ, ∃ v, xcCompute S one_pos (rhoSigma m) (zeroGGA m) (fun s j => rho s j + (t : ℂ) * del s j) core = .ok (v, E t)) ∧
      ∃ v, xcCompute S one_pos (rhoSigma m) (zeroGGA m) rho core = .ok (v, E 0) ∧
        HasDerivAt E (S.dv * (∑ r, ∑ s, (v s r).re * (S.toR (del s) r).re) + 2 * S.dv * ∑ r, (S.toR (rho 0) r).re * ∑ c, (S.gradR core c r).re * (S.gradR (del 0) c r).re) 0 := by
  have hz : ∀ r, S.toR (fun _ => 0) r = 0 := by
    intro r
    have := hS.lin (fun _ => 0) (fun _ => 0) 1 r
    simp only [mul_zero, add_zero, one_mul] at this
    exact left_eq_add.1 this
  have hzG : ∀ j, S.toG (fun _ => 0) j = 0 := by
    intro j
    have := congrFun (hS.inv fun _ => 0) j
    rwa [show S.toR (fun _ => 0) = fun _ => 0 from funext hz] at this
  have hdz : ∀ r, S.divR (fun _ _ => 0) r = 0 := by
    intro r
    unfold XCSpace.divR
    simp only [hzG, zero_mul, Finset.sum_const_zero]
    exact hz r
  have hrun : ∀ ρ : Fin 1 → Fin n → ℂ, xcCompute S one_pos (rhoSigma m) (zeroGGA m) ρ core
      = .ok ((fun s r => (sigma S (rhoaux ρ core) one_pos 0 r : ℂ) - S.divR (xcH S ρ (fun _ i => xcRho S ρ i 0) s) r),
        ((∑ r, S.toR (ρ 0) r * (sigma S (rhoaux ρ core) one_pos 0 r : ℂ)) * (S.dv : ℂ)).re) := by
    intro ρ
    have e : (rhoSigma m).family = .gga := rfl
    have e' : (zeroGGA m).family = .gga := rfl
    have hh : ∀ s r, S.divR (xcH S ρ (fun _ _ => 0) s) r = 0 := by
      intro s r
      rw [show xcH S ρ (fun _ _ => 0) s = fun _ _ => 0 from funext fun c => funext fun r => by simp [xcH]]
      exact hdz r
    unfold xcCompute xcAdd
    simp only [e, e', or_self, decide_true, if_true, bind, Except.bind, pure, Except.pure, rhoSigma, zeroGGA, Option.getD_some, hh]
    simp
  have hg : ∀ (t : ℝ) r, sigma S (rhoaux (fun s j => rho s j + (t : ℂ) * del s j) core) one_pos 0 r = ∑ c, ((S.gradR (rho 0) c r).re + (S.gradR core c r).re + t * (S.gradR (del 0) c r).re) ^ 2 := by
    intro t r
    rw [sigma_eq, Complex.re_sum]
    refine Finset.sum_congr rfl fun c _ => ?_
    have : S.gradR (rhoaux (fun s j => rho s j + (t : ℂ) * del s j) core (spin one_pos (pr1 0))) c r = (((S.gradR (rho 0) c r).re + (S.gradR core c r).re + t * (S.gradR (del 0) c r).re : ℝ) : ℂ) := by
      have e0 : (spin one_pos (pr1 0) : Fin 1) = 0 := rfl
      have e1 : rhoaux (fun s j => rho s j + (t : ℂ) * del s j) core 0 = fun j => (fun j => rho 0 j + (t : ℂ) * del 0 j) j + (1 : ℂ) * core j := by
        funext j
        simp [rhoaux]
      rw [e0, e1, hS.grad_lin, hS.grad_lin]
      apply Complex.ext
      · simp
        ring
      · simp [(hre 0).grad, (hdel 0).grad, hcore.grad]
    have this' : S.gradR (rhoaux (fun s j => rho s j + (t : ℂ) * del s j) core (spin one_pos (pr2 0))) c r = _ := this
    rw [this, this', ← Complex.ofReal_mul, Complex.ofReal_re]
    ring
  have hlin : ∀ (t : ℝ) r, S.toR (fun j => rho 0 j + (t : ℂ) * del 0 j) r = (((S.toR (rho 0) r).re + t * (S.toR (del 0) r).re : ℝ) : ℂ) := by
    intro t r
    rw [hS.lin]
    apply Complex.ext <;> simp [(hre 0).val r, (hdel 0).val r]
  refine ⟨fun t => S.dv * ∑ r, ((S.toR (rho 0) r).re + t * (S.toR (del 0) r).re) * ∑ c, ((S.gradR (rho 0) c r).re + (S.gradR core c r).re + t * (S.gradR (del 0) c r).re) ^ 2,
    fun t => ⟨(fun s r => (sigma S (rhoaux (fun s j => rho s j + (t : ℂ) * del s j) core) one_pos 0 r : ℂ) - S.divR (xcH S (fun s j => rho s j + (t : ℂ) * del s j) (fun _ i => xcRho S (fun s j => rho s j + (t : ℂ) * del s j) i 0) s) r), ?_⟩,
    (fun s r => (sigma S (rhoaux rho core) one_pos 0 r : ℂ) - S.divR (xcH S rho (fun _ i => xcRho S rho i 0) s) r), ?_, ?_⟩
  rotate_left 1
  · rw [hrun]
    congr 2
    have h0 := hg 0
    simp only [Complex.ofReal_zero, zero_mul, add_zero] at h0 ⊢
    have l0 := hlin 0
    simp only [Complex.ofReal_zero, zero_mul, add_zero] at l0
    simp only [h0]
    rw [Complex.re_mul_ofReal, mul_comm, Complex.re_sum]
    congr 1
    refine Finset.sum_congr rfl fun r _ => ?_
    rw [Complex.re_mul_ofReal]
  · have hx : ∀ r, xcRho S rho r 0 = (S.toR (rho 0) r).re := fun r => xcRho_pos S rho r (fun s => (hre s).val r) (fun s => hpos s r) 0
    have h0 := hg 0
    simp only [Complex.ofReal_zero, zero_mul, add_zero] at h0
    have hp := hS.by_parts_re (xcH S rho (fun _ i => xcRho S rho i 0) 0) (del 0) (hdel 0)
    have hH : ∀ c r, (xcH S rho (fun _ i => xcRho S rho i 0) 0 c r).re = 2 * (S.toR (rho 0) r).re * (S.gradR (rho 0) c r).re := by
      intro c r
      unfold xcH
      rw [if_pos rfl]
      show (2 * ((xcRho S rho r 0 : ℝ) : ℂ) * S.gradR (rho 0) c r).re = _
      rw [hx, show (2 * ((S.toR (rho 0) r).re : ℂ)) = ((2 * (S.toR (rho 0) r).re : ℝ) : ℂ) by push_cast; rfl, Complex.re_ofReal_mul]
    simp only [hH] at hp
    have d : ∀ r, HasDerivAt (fun t : ℝ => ((S.toR (rho 0) r).re + t * (S.toR (del 0) r).re) * ∑ c, ((S.gradR (rho 0) c r).re + (S.gradR core c r).re + t * (S.gradR (del 0) c r).re) ^ 2)
        ((S.toR (del 0) r).re * (∑ c, ((S.gradR (rho 0) c r).re + (S.gradR core c r).re) ^ 2) + (S.toR (rho 0) r).re * ∑ c, 2 * ((S.gradR (rho 0) c r).re + (S.gradR core c r).re) * (S.gradR (del 0) c r).re) 0 := by
      intro r
      have ha : ∀ x y : ℝ, HasDerivAt (fun t : ℝ => x + t * y) y 0 := by
        intro x y
        have := ((hasDerivAt_id (0 : ℝ)).mul_const y).const_add x
        simpa using this
      have hs : HasDerivAt (fun t : ℝ => ∑ c, ((S.gradR (rho 0) c r).re + (S.gradR core c r).re + t * (S.gradR (del 0) c r).re) ^ 2) (∑ c, 2 * ((S.gradR (rho 0) c r).re + (S.gradR core c r).re) * (S.gradR (del 0) c r).re) 0 := by
        refine HasDerivAt.fun_sum fun c _ => ?_
        refine ((ha ((S.gradR (rho 0) c r).re + (S.gradR core c r).re) (S.gradR (del 0) c r).re).pow 2).congr_deriv ?_
        simp
      refine ((ha _ _).mul hs).congr_deriv ?_
      simp
    refine (HasDerivAt.const_mul S.dv (HasDerivAt.fun_sum fun r (_ : r ∈ Finset.univ) => d r)).congr_deriv ?_
    simp only [Fin.sum_univ_one, Fin.isValue, Complex.sub_re, Complex.ofReal_re, h0, sub_mul, Finset.sum_sub_distrib]
    rw [hp, mul_assoc 2, mul_comm 2, mul_assoc, ← mul_add, Finset.sum_mul, sub_neg_eq_add, ← Finset.sum_add_distrib, ← Finset.sum_add_distrib]
    congr 1
    refine Finset.sum_congr rfl fun r _ => ?_
    simp only [Fin.sum_univ_three]
    ring
  · rw [hrun]
    congr 2
    simp only [hg, hlin]
    rw [Complex.re_mul_ofReal, mul_comm, Complex.re_sum]
    congr 1
    refine Finset.sum_congr rfl fun r _ => ?_
    rw [← Complex.ofReal_mul, Complex.ofReal_re]

/-- **C61, violation.** So for every core density that is not constant, there is a change of the density (the core itself) along which the potential is not the derivative of the energy. -/
theorem C61_gga_core_violated {m n : ℕ} (S : XCSpace m n) (hS : S.Laws) (hdv : 0 < S.dv) (rho : Fin 1 → Fin n → ℂ) (core : Fin n → ℂ) (hre : ∀ s, RealField S (rho s)) (hpos : ∀ s r, 0 < (S.toR (rho s) r).re)
    (hcore : RealField S core) (hc : ∃ c r, S.gradR core c r ≠ 0) :
    ∃ E : ℝ → ℝ, (∀ t : ℝ, ∃ v, xcCompute S one_pos (rhoSigma m) (zeroGGA m) (fun s j => rho s j + (t : ℂ) * core j) core = .ok (v, E t)) ∧
      ∃ v, xcCompute S one_pos (rhoSigma m) (zeroGGA m) rho core = .ok (v, E 0) ∧ ¬HasDerivAt E (S.dv * (∑ r, ∑ s, (v s r).re * (S.toR core r).re)) 0 := by
  obtain ⟨E, h1, v, h2, h3⟩ := C61_gga_core_error S hS rho (fun _ => core) core hre hpos (fun _ => hcore) hcore
  refine ⟨E, h1, v, h2, fun h4 => ?_⟩
  have e := h3.unique h4
  have hp : 0 < ∑ r, (S.toR (rho 0) r).re * ∑ c, (S.gradR core c r).re * (S.gradR core c r).re := by
    obtain ⟨c, r, hcr⟩ := hc
    have hne : (S.gradR core c r).re ≠ 0 := fun h => hcr (Complex.ext h (hcore.grad c r))
    refine Finset.sum_pos' (fun r _ => mul_nonneg (hpos 0 r).le (Finset.sum_nonneg fun c _ => mul_self_nonneg _)) ⟨r, Finset.mem_univ _, ?_⟩
    exact mul_pos (hpos 0 r) (Finset.sum_pos' (fun c _ => mul_self_nonneg _) ⟨c, Finset.mem_univ _, mul_self_pos.2 hne⟩)
  have : 0 < 2 * S.dv * ∑ r, (S.toR (rho 0) r).re * ∑ c, (S.gradR core c r).re * (S.gradR core c r).re := by positivity
  linarith

open Verif.FFT Verif.Nonloc Verif.Trans Verif.Rot Verif.KSEn Verif.Lattice in
/-- A grid of four points along x with the G-vectors 0, ±1, a constant density and the core density `cos x / 2`: the hypotheses of the violation. -/
example (drv : Driver) (st : DrvState ℂ) : ∃ (R : Run) (rho : Fin 1 → Fin R.idx.length → ℂ) (core : Fin R.idx.length → ℂ), R.drv = drv ∧ R.space.Laws ∧ 0 < R.space.dv ∧ (∀ s, RealField R.space (rho s)) ∧
    (∀ s r, 0 < (R.space.toR (rho s) r).re) ∧ RealField R.space core ∧ ∃ c r, R.space.gradR core c r ≠ 0 := by
  have hd : (1 : Mat).det ≠ 0 := by simp
  obtain ⟨L, hL⟩ : ∃ L, mkLat 1 1 = .ok L := ⟨_, by unfold mkLat; rw [if_neg hd]⟩
  have hcc : ∀ v, L.cryst2cart v = v := by
    intro v
    obtain ⟨-, e1, e2, -⟩ := Lattice.mkLat_ok hL
    unfold Lat.cryst2cart
    rw [e2]
    simp
  have hv : ValidIdx ⟨4, 1, 1⟩ [0, 1, 3] := by unfold ValidIdx; decide
  let G : Fin 3 → Fin 3 → ℤ := ![0, ![1, 0, 0], ![-1, 0, 0]]
  have hix : Indexes ⟨4, 1, 1⟩ [0, 1, 3] G := by
    intro j a
    change Fin 3 at j
    have : ∀ (j : Fin 3) (a : Fin 3), G j a = coord ⟨4, 1, 1⟩ (([0, 1, 3] : List ℕ)[j]) a + (![0, 0, if a = 0 then -1 else 0] : Fin 3 → ℤ) j * len ⟨4, 1, 1⟩ a := by decide
    exact ⟨_, this j a⟩
  let R : Run := ⟨drv, st, L, ⟨4, 1, 1⟩, [0, 1, 3], G, 1, 4, 2, fun _ => 0, 0, 1, one_pos, noXC _, noXC _⟩
  have hneg : ∀ j, ∃ j', R.G j' = -R.G j := by
    have : ∀ j : Fin 3, ∃ j', G j' = -G j := by decide
    exact this
  have h3 : ∀ q : Fin R.idx.length → ℂ, ∑ j, q j = q (0 : Fin 3) + q (1 : Fin 3) + q (2 : Fin 3) := fun q => Fin.sum_univ_three (fun j : Fin 3 => q j)
  have hb : ∀ r : Fin R.d.size, ex (gridDot R.d 3 r) = conj (ex (gridDot R.d 1 r)) := by
    intro r
    obtain ⟨m1, h1⟩ := gridDot_pos R.d 3 r r.2 (G 2) (hix (2 : Fin 3))
    obtain ⟨m2, h2⟩ := gridDot_pos R.d 1 r r.2 (G 1) (hix (1 : Fin 3))
    rw [ex_conj, h1, h2, ex_int, neg_add, show -(m2 : ℝ) = ((-m2 : ℤ) : ℝ) by push_cast; rfl, ex_int]
    congr 1
    simp [G, Fin.sum_univ_three]
  let f : Fin 3 → ℂ := ![0, 1, 1]
  have hf : ∀ r : Fin R.d.size, R.space.toR f r = ((1 / 2 * (ex (gridDot R.d 1 r)).re : ℝ) : ℂ) := by
    intro r
    rw [space_toR R hv, h3]
    show ((4 : ℕ) : ℂ)⁻¹ * (conj (ex (gridDot R.d 0 r)) * 0 + conj (ex (gridDot R.d 1 r)) * 1 + conj (ex (gridDot R.d 3 r)) * 1) = _
    rw [hb, Complex.conj_conj, mul_zero, zero_add, mul_one, mul_one, add_comm, Complex.add_conj]
    push_cast
    ring
  have h0 : ∀ r : Fin R.d.size, R.space.toR (![4, 0, 0] : Fin 3 → ℂ) r = ((1 : ℝ) : ℂ) := by
    intro r
    rw [space_toR R hv, h3]
    show ((4 : ℕ) : ℂ)⁻¹ * (conj (ex (gridDot R.d 0 r)) * 4 + conj (ex (gridDot R.d 1 r)) * 0 + conj (ex (gridDot R.d 3 r)) * 0) = _
    obtain ⟨m, hm⟩ := gridDot_pos R.d 0 r r.2 (G 0) (hix (0 : Fin 3))
    have : ex (gridDot R.d 0 r) = 1 := by
      rw [hm, ex_int]
      simp [G, ex]
    rw [this]
    norm_num
  have hr : ∀ (q : Fin 3 → ℂ) (u : Fin R.d.size → ℝ), (∀ r, R.space.toR q r = (u r : ℂ)) → RealField R.space q := by
    intro q u hq
    have := realField R hv hix hneg u ⟨q, fun r => (hq r).symm⟩
    rwa [show (fun r => (u r : ℂ)) = R.space.toR q from funext fun r => (hq r).symm, (laws R hv).inv] at this
  refine ⟨R, fun _ => (![4, 0, 0] : Fin 3 → ℂ), f, rfl, laws R hv, one_pos, fun _ => hr _ _ h0, fun s r => ?_, hr _ _ hf, 0, ⟨1, by norm_num [R, Dims.size]⟩, ?_⟩
  · rw [h0]
    simp
  · unfold XCSpace.gradR
    rw [space_toR R hv, h3]
    have hg : ∀ j, R.space.g 0 j = (G j 0 : ℝ) := by
      intro j
      show L.cryst2cart (fun a => (G j a : ℝ)) 0 = _
      rw [hcc]
    simp only [hg]
    show ((4 : ℕ) : ℂ)⁻¹ * (conj (ex (gridDot R.d 0 (1 : ℕ))) * (0 * Complex.I * _) + conj (ex (gridDot R.d 1 (1 : ℕ))) * (1 * Complex.I * (((1 : ℤ) : ℝ) : ℂ)) + conj (ex (gridDot R.d 3 (1 : ℕ))) * (1 * Complex.I * (((-1 : ℤ) : ℝ) : ℂ))) ≠ 0
    have hb1 := hb (1 : Fin 4)
    have hb1' : ex (gridDot R.d 3 (1 : ℕ)) = conj (ex (gridDot R.d 1 (1 : ℕ))) := hb1
    have he : ex (gridDot R.d 1 (1 : ℕ)) = -Complex.I := by
      have : gridDot R.d 1 (1 : ℕ) = 1 / 4 := by
        simp [gridDot, R, Dims.ix, Dims.iy, Dims.iz, Dims.plane]
      rw [this]
      unfold ex
      rw [show -(2 * (Real.pi : ℂ) * Complex.I) * ((1 / 4 : ℝ) : ℂ) = -((Real.pi : ℂ) / 2 * Complex.I) by push_cast; ring, Complex.exp_neg, Complex.exp_pi_div_two_mul_I, Complex.inv_I]
    rw [hb1', he]
    simp

end Verif.Pot
