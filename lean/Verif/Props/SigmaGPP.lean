import Verif.Props.SigmaMaps

/-!
# C117 (result tables), C118 (plasmon-pole parameters), C120 (static limit)
-/

namespace Verif.GW

open scoped ComplexConjugate

/-! ## C118 -/

theorem tan_mul (w : ℂ) (hw : w.re ≠ 0) :
    w * (1 - Complex.I * ((w.im / w.re : ℝ) : ℂ)) = ((‖w‖ / (w.re / ‖w‖) : ℝ) : ℂ) := by
  have hn : ‖w‖ ≠ 0 := by
    intro h
    rw [norm_eq_zero] at h
    exact hw (by rw [h]; rfl)
  have hsq : ‖w‖ * ‖w‖ = w.re * w.re + w.im * w.im := by
    rw [Complex.norm_mul_self_eq_normSq, Complex.normSq_apply]
  have e : ‖w‖ / (w.re / ‖w‖) = (w.re * w.re + w.im * w.im) / w.re := by
    rw [← hsq]; field_simp
  rw [e]
  apply Complex.ext
  · simp
    field_simp
  · simp
    field_simp
    ring

theorem gppOmega_one (rho : ℂ) (h : rho.im ≤ 1 / 100000) (hn : 1 / 100000 ≤ ‖rho‖) : gppOmega 1 rho 1 0 0 true true = rho := by
  unfold gppOmega
  simp only [Bool.and_self, if_true, one_mul, div_one]
  rw [if_neg (by linarith : ¬ rho.im > 1 / 100000), if_neg (by linarith)]

/-- **C118 (plasmon-pole parameters).** Every entry that is kept has a real positive squared pole frequency and satisfies
`Ω² = -(ε⁻¹ - 1) ω̃²`, whatever the density, the vectors and the dielectric matrix (also where the pole is reset to 10²⁴). -/
theorem C118_pole (nelec rho wp2 : ℂ) (gdot v : ℝ) (e : ℂ) (head head00 : Bool)
    (h : (gppEntry nelec rho wp2 gdot v e head head00).2 ≠ 0) :
    ∃ w : ℝ, 0 < w ∧ (gppEntry nelec rho wp2 gdot v e head head00).2 = (w : ℂ)
      ∧ (gppEntry nelec rho wp2 gdot v e head head00).1 = -e * (w : ℂ) := by
  unfold gppEntry at h ⊢
  generalize gppOmega nelec rho wp2 gdot v head head00 = o at h ⊢
  by_cases h1 : ‖e‖ < 1 / 100000
  · rw [if_pos h1] at h; exact absurd rfl h
  rw [if_neg h1] at h ⊢
  have he : e ≠ 0 := by
    rintro rfl
    apply h1
    rw [norm_zero]
    norm_num
  unfold gppPole at h ⊢
  simp only at h ⊢
  by_cases h2 : ‖o / (-e)‖ < 1 / 100000
  · rw [if_pos h2] at h; exact absurd rfl h
  rw [if_neg h2] at h ⊢
  by_cases h3 : |(o / (-e)).re / ‖o / (-e)‖| < 1 / 100000
  · rw [if_pos h3] at h; exact absurd rfl h
  rw [if_neg h3] at h ⊢
  have hre : (o / (-e)).re ≠ 0 := by
    intro hz
    apply h3
    rw [hz, zero_div, abs_zero]
    norm_num
  by_cases h4 : ‖o / (-e)‖ / ((o / (-e)).re / ‖o / (-e)‖) < 0
  · rw [if_pos h4]
    refine ⟨10 ^ 24, by positivity, rfl, ?_⟩
    ring
  rw [if_neg h4] at h ⊢
  refine ⟨‖o / (-e)‖ / ((o / (-e)).re / ‖o / (-e)‖), ?_, rfl, ?_⟩
  · refine lt_of_le_of_ne (not_lt.1 h4) ?_
    intro hz
    apply h
    show (((‖o / (-e)‖ / ((o / (-e)).re / ‖o / (-e)‖) : ℝ)) : ℂ) = 0
    rw [← hz]
    rfl
  · rw [← tan_mul _ hre]
    field_simp

/-- The entry computed for a real positive density: head of the matrix. -/
example : gppEntry 1 1 1 0 0 (-1 / 2) true true = (1, 2) := by
  have e1 : ‖(-1 / 2 : ℂ)‖ = 1 / 2 := by rw [norm_div, norm_neg]; norm_num
  have e2 : (1 : ℂ) / (-(-1 / 2)) = ((2 : ℝ) : ℂ) := by push_cast; norm_num
  unfold gppEntry gppPole
  rw [gppOmega_one 1 (by norm_num) (by norm_num), e1, if_neg (by norm_num), e2]
  simp only [Complex.norm_real, Complex.ofReal_re, Complex.ofReal_im]
  norm_num

/-- **C118 (violated).** Terms with a small `cos φ` are documented as neglected, but only the pole is dropped: `Ω²` stays, with pole
frequency zero, and such an entry still contributes `Ω²/(E - E')²` to the screened exchange. -/
theorem C118_not_neglected (eps : ℝ) : ∃ (nelec rho wp2 : ℂ) (gdot v : ℝ) (e : ℂ),
    (gppEntry nelec rho wp2 gdot v e true true).2 = 0 ∧ (gppEntry nelec rho wp2 gdot v e true true).1 = 1
    ∧ ssxEntry eps 1 0 (gppEntry nelec rho wp2 gdot v e true true).1 e = 1 := by
  have hg : gppEntry 1 1 1 0 0 (Complex.I) true true = (1, 0) := by
    have e2 : (1 : ℂ) / (-Complex.I) = Complex.I := by
      rw [one_div, inv_neg, Complex.inv_I, neg_neg]
    unfold gppEntry gppPole
    rw [gppOmega_one 1 (by norm_num) (by norm_num), Complex.norm_I, if_neg (by norm_num : ¬ (1 : ℝ) < 1 / 100000), e2]
    simp only [Complex.norm_I, Complex.I_re]
    norm_num
  refine ⟨1, 1, 1, 0, 0, Complex.I, ?_, ?_, ?_⟩
  · rw [hg]
  · rw [hg]
  · rw [hg]
    unfold ssxEntry
    norm_num

/-- **C118 (violated).** A density with a negative imaginary part is used as it is, one with a positive imaginary part is set to zero:
the entry of `G - G'` and that of `G' - G` (the complex conjugate) are treated differently. -/
theorem C118_one_sided : ∃ (rho : ℂ), (gppEntry 1 rho 1 0 0 (-1 / 2) true true).1 = 0
    ∧ (gppEntry 1 (conj rho) 1 0 0 (-1 / 2) true true).1 ≠ 0 := by
  have e1 : ‖(-1 / 2 : ℂ)‖ = 1 / 2 := by rw [norm_div, norm_neg]; norm_num
  refine ⟨1 + Complex.I, ?_, ?_⟩
  · have ho : gppOmega 1 (1 + Complex.I) 1 0 0 true true = 0 := by
      have hi : (1 + Complex.I).im > 1 / 100000 := by
        rw [Complex.add_im, Complex.one_im, Complex.I_im]; norm_num
      unfold gppOmega
      simp only [if_pos hi]
      simp
    unfold gppEntry gppPole
    rw [ho, e1, if_neg (by norm_num)]
    simp
  · intro h
    have hne : (gppEntry 1 (conj (1 + Complex.I)) 1 0 0 (-1 / 2) true true).2 ≠ 0 := by
      have hc : conj (1 + Complex.I) = 1 - Complex.I := by simp [sub_eq_add_neg]
      have e2 : (1 - Complex.I) / (-(-1 / 2)) = ((2 : ℝ) : ℂ) * (1 - Complex.I) := by push_cast; ring
      have n1 : ‖(1 - Complex.I)‖ = Real.sqrt 2 := by
        have h1 : ‖(1 - Complex.I)‖ * ‖(1 - Complex.I)‖ = 2 := by
          rw [Complex.norm_mul_self_eq_normSq, Complex.normSq_apply]
          simp
          norm_num
        rw [← h1, Real.sqrt_mul_self (norm_nonneg _)]
      have hs2 : (1 : ℝ) ≤ Real.sqrt 2 := by rw [Real.le_sqrt] <;> norm_num
      have hs3 : Real.sqrt 2 * Real.sqrt 2 = 2 := Real.mul_self_sqrt (by norm_num)
      have n2 : ‖((2 : ℝ) : ℂ) * (1 - Complex.I)‖ = 2 * Real.sqrt 2 := by
        rw [norm_mul, n1, Complex.norm_real]
        norm_num
      have r2 : (((2 : ℝ) : ℂ) * (1 - Complex.I)).re = 2 := by simp
      have hi : (1 - Complex.I).im ≤ 1 / 100000 := by
        rw [Complex.sub_im, Complex.one_im, Complex.I_im]; norm_num
      have hcos : (2 : ℝ) / (2 * Real.sqrt 2) = Real.sqrt 2 / 2 := by
        field_simp
        linarith
      rw [hc]
      unfold gppEntry gppPole
      rw [gppOmega_one _ hi (by rw [n1]; linarith), e1, if_neg (by norm_num), e2]
      simp only [n2, r2, hcos]
      rw [if_neg (by linarith), abs_of_nonneg (by positivity), if_neg (by linarith)]
      have h4 : 2 * Real.sqrt 2 / (Real.sqrt 2 / 2) = 4 := by field_simp; norm_num
      rw [h4, if_neg (by norm_num)]
      norm_num
    obtain ⟨w, hw, h2, h3⟩ := C118_pole _ _ _ _ _ _ _ _ hne
    rw [h] at h3
    have : ((w / 2 : ℝ) : ℂ) = 0 := by push_cast; linear_combination -h3
    have : w / 2 = 0 := by exact_mod_cast this
    linarith

/-- **C118 (pole terms).** Away from the pole (`(E - ω̃)² > 1/4`, `delw² < 25000`) and above the cutoff on negative energies, the screened-exchange and
Coulomb-hole factors are the plasmon-pole expressions `Ω²/(E² - ω̃²)` and `-ω̃ (ε⁻¹-1)/(E - ω̃)`. -/
theorem C118_terms (eps wxt wt : ℝ) (omega2 e : ℂ) (hA : (wxt - wt) ^ 2 > 1 / 4) (hd : (wt / (wxt - wt)) ^ 2 < 25000) :
    (0 ≤ wxt → wxt ^ 2 ≠ wt ^ 2 → ssxEntry eps wxt wt omega2 e = omega2 / (((wxt ^ 2 - wt ^ 2 : ℝ)) : ℂ))
    ∧ schEntry eps wxt wt e = -((wt / (wxt - wt) : ℝ) : ℂ) * e := by
  have hne : wxt - wt ≠ 0 := by
    intro h
    rw [h] at hA
    norm_num at hA
  have hsq : (wxt - wt) ^ 2 ≠ 0 := pow_ne_zero _ hne
  have hdel : wt * (wxt - wt) * ((wxt - wt) ^ 2)⁻¹ = wt / (wxt - wt) := by field_simp
  have hc : (wxt - wt) * (wxt - wt) > 1 / 4 ∧ wt / (wxt - wt) * (wt / (wxt - wt)) < 25000 := by
    constructor
    · nlinarith
    · nlinarith
  constructor
  · intro hpos hne2
    unfold ssxEntry
    simp only
    rw [if_neg hsq, hdel, if_pos hc]
    have hden : wxt ^ 2 - wt ^ 2 ≠ 0 := sub_ne_zero.2 hne2
    rw [if_neg (pow_ne_zero 2 hden), if_neg (by intro h; linarith [h.2])]
    have hdc : ((wxt ^ 2 - wt ^ 2 : ℝ) : ℂ) ≠ 0 := by exact_mod_cast hden
    rw [Complex.ofReal_inv, Complex.ofReal_pow]
    field_simp
  · unfold schEntry
    simp only
    rw [if_neg hsq, hdel, if_pos hc]
    ring

example : ((1 : ℝ) - 3) ^ 2 > 1 / 4 ∧ ((3 : ℝ) / (1 - 3)) ^ 2 < 25000 ∧ (0 : ℝ) ≤ 1 ∧ (1 : ℝ) ^ 2 ≠ 3 ^ 2 := by norm_num

/-- **C118 (static limit).** At `E = 0` the plasmon-pole factors of a kept entry give back the static matrix `ε⁻¹ - 1` it was fitted to (poles
above 1/2). -/
theorem C118_static_limit (eps wt : ℝ) (e : ℂ) (hw : 1 / 2 < wt) :
    ssxEntry eps 0 wt (-e * ((wt ^ 2 : ℝ) : ℂ)) e = e ∧ schEntry eps 0 wt e = e := by
  have hwt : wt ≠ 0 := by intro h; rw [h] at hw; norm_num at hw
  have h1 : (wt / (0 - wt)) = -1 := by rw [zero_sub, div_neg, div_self hwt]
  obtain ⟨a, b⟩ := C118_terms eps 0 wt (-e * ((wt ^ 2 : ℝ) : ℂ)) e (by nlinarith) (by rw [h1]; norm_num)
  constructor
  · rw [a le_rfl (by
      intro h
      have : wt ^ 2 ≠ 0 := pow_ne_zero 2 hwt
      apply this
      rw [← h]
      norm_num)]
    have : ((wt ^ 2 : ℝ) : ℂ) ≠ 0 := by exact_mod_cast pow_ne_zero 2 hwt
    rw [show ((0 : ℝ) ^ 2 - wt ^ 2) = -(wt ^ 2) by ring, Complex.ofReal_neg]
    field_simp
  · rw [b, h1]
    push_cast
    ring

/-! ## C120 -/

/-- **C120 (contraction).** The plasmon-pole sums contract the *transposed* matrix with the Coulomb factor on the second index: they equal the
static sums evaluated with the complex conjugate matrix elements. -/
theorem C120_conjugate (v : List ℝ) (E : ℕ → ℕ → ℂ) (M : List ℂ) :
    conGPP v (fun g p => E p g) M = conEps v E (M.map fun z => conj z) := by
  unfold conGPP conEps
  rw [Finset.sum_comm]
  refine Finset.sum_congr rfl fun k _ => Finset.sum_congr rfl fun m _ => ?_
  have e : ∀ i, (M.map fun z => conj z).getD i 0 = conj (M.getD i 0) := by
    intro i
    rw [List.getD_eq_getElem?_getD, List.getD_eq_getElem?_getD, List.getElem?_map]
    cases M[i]? <;> simp
  rw [e, e, Complex.conj_conj]
  ring

/-- **C120 (partial).** For a real symmetric `v_G (ε⁻¹-1)_GG'` (crystals with inversion symmetry) both contractions agree, so the static limit of
the plasmon-pole self-energy is the static COHSEX one. Missing: crystals without inversion symmetry (`C120_complex`). -/
theorem C120_real_partial (v : List ℝ) (E : ℕ → ℕ → ℂ) (M : List ℂ)
    (hsym : ∀ k m, E k m * (v.getD k 0 : ℂ) = E m k * (v.getD m 0 : ℂ)) :
    conGPP v (fun g p => E p g) M = conEps v E M := by
  unfold conGPP conEps
  refine Finset.sum_congr rfl fun k _ => Finset.sum_congr rfl fun m _ => ?_
  rw [mul_assoc _ (E m k), mul_assoc _ (E k m), hsym k m]

/-- **C120 (violated).** For a complex Hermitian matrix the two sums differ: with `v = (1, 1)`, `ε⁻¹-1 = [[-½, i/4], [-i/4, -½]]`, `M = (1, i)` the
plasmon-pole sum is `-½` and the static one `-3/2`. -/
theorem C120_complex : ∃ (v : List ℝ) (E : ℕ → ℕ → ℂ) (M : List ℂ), (∀ k m, E k m = conj (E m k))
    ∧ conGPP v (fun g p => E p g) M = -1 / 2 ∧ conEps v E M = -3 / 2 := by
  refine ⟨[1, 1], fun k m => if k = m then ((-1 / 2 : ℝ) : ℂ) else if k < m then ((1 / 4 : ℝ) : ℂ) * Complex.I else -((1 / 4 : ℝ) : ℂ) * Complex.I,
    [1, Complex.I], ?_, ?_, ?_⟩
  · intro k m
    show (if k = m then _ else if k < m then _ else _ : ℂ) = conj (if m = k then _ else if m < k then _ else _ : ℂ)
    rcases lt_trichotomy k m with h | h | h
    · have h1 : ¬ k = m := by omega
      have h2 : ¬ m = k := by omega
      have h3 : ¬ m < k := by omega
      simp only [h, h1, h2, h3, if_true, if_false, map_mul, map_neg, Complex.conj_ofReal, Complex.conj_I]
      ring
    · simp only [h, if_true, Complex.conj_ofReal]
    · have h1 : ¬ k = m := by omega
      have h2 : ¬ m = k := by omega
      have h3 : ¬ k < m := by omega
      simp only [h, h1, h2, h3, if_true, if_false, map_mul, map_neg, Complex.conj_ofReal, Complex.conj_I]
      ring
  · unfold conGPP
    simp [Finset.sum_range_succ]
    apply Complex.ext <;> simp <;> norm_num
  · unfold conEps
    simp [Finset.sum_range_succ]
    apply Complex.ext <;> simp <;> norm_num

/-! ## C117 -/

theorem around_close6 (x : ℝ) : |around 6 x - x| ≤ 1 / 2000000 := by
  have := around_close 6 x
  norm_num at this ⊢
  linarith

/-- **C117 (quasiparticle energies, COHSEX).** In the static COHSEX table the quasiparticle energy is `E_mf + Σ - V_xc`, with `Σ = X + SX + CH` up to
the rounding of the printed terms, in both variants (exact and partial-sum Coulomb hole); the renormalisation factor is one. -/
theorem C117_cohsex (t : Terms) :
    (cohsexRow t).eqp0 = (cohsexRow t).emf + (cohsexRow t).sig - (cohsexRow t).vxc
    ∧ (cohsexRow t).eqp0' = (cohsexRow t).emf + (cohsexRow t).sig' - (cohsexRow t).vxc
    ∧ |(cohsexRow t).sig - ((cohsexRow t).x + (cohsexRow t).sx + (cohsexRow t).ch)| ≤ 3 / 2000000
    ∧ |(cohsexRow t).sig' - ((cohsexRow t).x + (cohsexRow t).sx + (cohsexRow t).ch')| ≤ 3 / 2000000
    ∧ (cohsexRow t).emf = t.emf ∧ (cohsexRow t).vxc = t.vxc.re ∧ (cohsexRow t).sig = (t.x + t.sx + t.chExact).re
    ∧ (cohsexRow t).sig' = (t.x + t.sx + t.ch).re ∧ (cohsexRow t).eqp1 = (cohsexRow t).eqp0 ∧ (cohsexRow t).eqp1' = (cohsexRow t).eqp0' := by
  have a := around_close6 t.x.re
  have b := around_close6 t.sx.re
  have c := around_close6 t.chExact.re
  have d := around_close6 t.ch.re
  rw [abs_le] at a b c d
  unfold cohsexRow aroundC
  simp only [Complex.add_re, Complex.sub_re, Complex.ofReal_re]
  refine ⟨by ring, by ring, ?_, ?_, trivial, trivial, by ring, by ring, trivial, trivial⟩
  · rw [abs_le]; constructor <;> linarith [a.1, a.2, b.1, b.2, c.1, c.2]
  · rw [abs_le]; constructor <;> linarith [a.1, a.2, b.1, b.2, d.1, d.2]

/-- **C117 (quasiparticle energies, plasmon-pole model; partial).** `Eqp0 = E_mf + Σ - V_xc` and, for real terms, `Eqp1 = E_mf + Z (Eqp0 - E_mf)`
with `Z = 1/(1 - dΣ/dE)`, `dΣ/dE` the difference quotient over 1 eV. Missing: the primed columns and `Z` itself (`C117_gpp_primed`). -/
theorem C117_gpp_partial (t : Terms) (chS sx2 ch2 : ℂ)
    (him : t.x.im = 0 ∧ t.sx.im = 0 ∧ t.ch.im = 0 ∧ t.chExact.im = 0 ∧ chS.im = 0 ∧ sx2.im = 0 ∧ ch2.im = 0 ∧ t.vxc.im = 0)
    (hd : (sx2.re + ch2.re) - (t.sx.re + t.ch.re) ≠ 1) :
    let r := gppRow t chS sx2 ch2
    let d := (sx2.re + ch2.re) - (t.sx.re + t.ch.re)
    r.eqp0 = r.emf + r.sig - r.vxc ∧ r.eqp1 = r.emf + 1 / (1 - d) * (r.eqp0 - r.emf)
    ∧ |r.sig - (t.x.re + t.sx.re + t.ch.re + 1 / 2 * (t.chExact.re - chS.re))| ≤ 1 / 2000000 := by
  obtain ⟨h1, h2, h3, h4, h5, h6, h7, h8⟩ := him
  have hr : ∀ z : ℂ, z.im = 0 → z = ((z.re : ℝ) : ℂ) := fun z hz => Complex.ext rfl (by simp [hz])
  have e : t.x + t.sx + t.ch + (1 / 2 : ℂ) * (t.chExact - chS)
      = ((t.x.re + t.sx.re + t.ch.re + 1 / 2 * (t.chExact.re - chS.re) : ℝ) : ℂ) := by
    rw [hr _ h1, hr _ h2, hr _ h3, hr _ h4, hr _ h5]
    push_cast
    simp
  have hs : aroundC (t.x + t.sx + t.ch + (1 / 2 : ℂ) * (t.chExact - chS))
      = ((around 6 (t.x.re + t.sx.re + t.ch.re + 1 / 2 * (t.chExact.re - chS.re)) : ℝ) : ℂ) := by
    rw [e]
    unfold aroundC
    rw [Complex.ofReal_re, Complex.ofReal_im, around_zero]
    rfl
  have hdd : (sx2 + ch2) - (t.sx + t.ch) = (((sx2.re + ch2.re) - (t.sx.re + t.ch.re) : ℝ) : ℂ) := by
    rw [hr _ h2, hr _ h3, hr _ h6, hr _ h7]
    push_cast
    simp
  simp only [gppRow]
  rw [hs, hdd]
  have hclose := around_close6 (t.x.re + t.sx.re + t.ch.re + 1 / 2 * (t.chExact.re - chS.re))
  generalize (sx2.re + ch2.re) - (t.sx.re + t.ch.re) = d at *
  generalize around 6 (t.x.re + t.sx.re + t.ch.re + 1 / 2 * (t.chExact.re - chS.re)) = sg at *
  have h1d : 1 - d ≠ 0 := sub_ne_zero.2 (Ne.symm hd)
  have hE : ((sg : ℝ) : ℂ) + (t.emf : ℂ) - t.vxc = ((sg + t.emf - t.vxc.re : ℝ) : ℂ) := by
    rw [hr _ h8]; push_cast; simp
  rw [hE]
  have hE1 : ((sg + t.emf - t.vxc.re : ℝ) : ℂ) + (d : ℂ) / (1 - (d : ℂ)) * (((sg + t.emf - t.vxc.re : ℝ) : ℂ) - (t.emf : ℂ))
      = ((sg + t.emf - t.vxc.re + d / (1 - d) * (sg + t.emf - t.vxc.re - t.emf) : ℝ) : ℂ) := by push_cast; ring
  rw [hE1]
  simp only [Complex.ofReal_re]
  refine ⟨by ring, ?_, hclose⟩
  field_simp
  ring

example : (⟨1, 1, 1, 1, 1, 1⟩ : Terms).x.im = 0 ∧ ((1 : ℂ).re + (2 : ℂ).re) - ((1 : ℂ).re + (1 : ℂ).re) = 1
    ∧ ((1 : ℂ).re + (1 : ℂ).re) - ((1 : ℂ).re + (1 : ℂ).re) ≠ 1 := by norm_num

/-- **C117 (violated).** In the plasmon-pole table the primed columns repeat the corrected ones — the partial-sum Coulomb hole and the energies built
from it are lost, `Eqp1'` is `Eqp0` — and `Znk` is always one, also when `Eqp1 ≠ Eqp0`. -/
theorem C117_gpp_primed (t : Terms) (chS sx2 ch2 : ℂ) :
    ((gppRow t chS sx2 ch2).ch' = (gppRow t chS sx2 ch2).ch ∧ (gppRow t chS sx2 ch2).sig' = (gppRow t chS sx2 ch2).sig
      ∧ (gppRow t chS sx2 ch2).eqp0' = (gppRow t chS sx2 ch2).eqp0 ∧ (gppRow t chS sx2 ch2).eqp1' = (gppRow t chS sx2 ch2).eqp0
      ∧ (gppRow t chS sx2 ch2).znk = 1)
    ∧ ∃ (t : Terms) (chS sx2 ch2 : ℂ), (gppRow t chS sx2 ch2).eqp1 ≠ (gppRow t chS sx2 ch2).eqp0
      ∧ (gppRow t chS sx2 ch2).ch' ≠ (aroundC t.ch).re := by
  refine ⟨⟨rfl, rfl, rfl, rfl, rfl⟩, ⟨0, 0, 1, 0, 0, 2⟩, 0, -1, 0, ?_, ?_⟩
  · obtain ⟨h1, h2, _⟩ := C117_gpp_partial ⟨0, 0, 1, 0, 0, 2⟩ 0 (-1) 0 (by simp) (by simp; norm_num)
    have e2 : aroundC (1 + 0 + 0 + (1 / 2 : ℂ) * (2 - 0)) = 2 := by
      have : (1 + 0 + 0 + (1 / 2 : ℂ) * (2 - 0)) = ((2 : ℝ) : ℂ) := by push_cast; norm_num
      rw [this]
      have h6 := around_int 6 2000000
      norm_num at h6
      unfold aroundC
      rw [Complex.ofReal_re, Complex.ofReal_im, around_zero, h6]
      rfl
    have h0 : (gppRow ⟨0, 0, 1, 0, 0, 2⟩ 0 (-1) 0).eqp0 = 2 := by
      show (aroundC (1 + 0 + 0 + (1 / 2 : ℂ) * (2 - 0)) + ((0 : ℝ) : ℂ) - 0).re = 2
      rw [e2]
      simp
    rw [h2, h0]
    show (0 : ℝ) + 1 / (1 - (((-1 : ℂ).re + (0 : ℂ).re) - ((0 : ℂ).re + (0 : ℂ).re))) * (2 - 0) ≠ 2
    norm_num
  · show (aroundC (0 + (1 / 2 : ℂ) * (2 - 0))).re ≠ (aroundC 0).re
    have : (0 + (1 / 2 : ℂ) * (2 - 0)) = ((1 : ℝ) : ℂ) := by push_cast; norm_num
    rw [this]
    have h6 := around_int 6 1000000
    norm_num at h6
    unfold aroundC
    rw [Complex.ofReal_re, h6, Complex.zero_re, around_zero]
    norm_num

/-- **C117 (band labels).** The table has `band_index_max - band_index_min + 1` rows; the list of band labels has that length exactly when
`band_index_min = 1`; then row `n` is labelled with `n`, the band counted from zero. -/
theorem C117_band_labels (bmin bmax : ℤ) (h1 : 1 ≤ bmin) (h2 : bmin ≤ bmax) :
    (((bandList bmin bmax).length : ℤ) = bmax - bmin + 1 ↔ bmin = 1)
    ∧ ∀ n (h : n < (bandList bmin bmax).length), (bandList bmin bmax)[n] = (n : ℤ) + (bmin - 1) := by
  unfold bandList
  refine ⟨?_, ?_⟩
  · rw [List.length_map, List.length_range]
    constructor
    · intro h; omega
    · rintro rfl; omega
  · intro n h
    rw [List.getElem_map, List.getElem_range]
    omega

example : bandList 1 3 = [0, 1, 2] ∧ bandList 3 4 = [] := by decide

/-- **C117 (violated).** `calculate_gpp` fails on every process that does not print. -/
theorem C117_non_root {α : Type*} (rows : List α) : gppDict false rows = .error .runtime := rfl

/-- `calculate_gpp` on the printing process. -/
theorem C117_root {α : Type*} (rows : List α) (h : rows ≠ []) : gppDict true rows = .ok rows := by
  unfold gppDict
  rw [if_pos ⟨rfl, h⟩]

end Verif.GW
