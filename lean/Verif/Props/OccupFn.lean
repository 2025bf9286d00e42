import Mathlib.MeasureTheory.Integral.IntervalIntegral.FundThmCalculus
import Mathlib.MeasureTheory.Integral.IntervalIntegral.IntegrationByParts
import Mathlib.MeasureTheory.Integral.IntegralEqImproper
import Mathlib.MeasureTheory.Integral.ExpDecay
import Mathlib.Analysis.Calculus.Deriv.MeanValue
import Mathlib.Analysis.SpecialFunctions.ExpDeriv
import Mathlib.Analysis.SpecialFunctions.Log.Deriv
import Mathlib.Analysis.SpecialFunctions.Gaussian.GaussianIntegral
import Mathlib.Tactic.FieldSimp
import Mathlib.Tactic.Positivity
import Mathlib.Tactic.Linarith
import Mathlib.Tactic.LinearCombination
import Verif.Model.Occup

/-!
# Properties C37, C63: the smearing functions
-/

namespace Verif.Occup

open Real MeasureTheory Set

/-! ## The error function -/

theorem cont_gauss : Continuous fun t : ℝ => exp (-t ^ 2) := by fun_prop

theorem erf_hasDerivAt (x : ℝ) : HasDerivAt erf (2 / √π * exp (-x ^ 2)) x := by
  unfold erf
  apply HasDerivAt.const_mul
  exact intervalIntegral.integral_hasDerivAt_right (cont_gauss.intervalIntegrable _ _)
    (cont_gauss.stronglyMeasurableAtFilter _ _) cont_gauss.continuousAt

theorem sqrt_pi_pos : 0 < √π := Real.sqrt_pos.2 Real.pi_pos

theorem erf_strictMono : StrictMono erf := by
  apply strictMono_of_deriv_pos
  intro x
  rw [(erf_hasDerivAt x).deriv]
  have := sqrt_pi_pos
  positivity

theorem erf_continuous : Continuous erf :=
  continuous_iff_continuousAt.2 fun x => (erf_hasDerivAt x).continuousAt

theorem erf_zero : erf 0 = 0 := by simp [erf]

theorem erf_neg (x : ℝ) : erf (-x) = -erf x := by
  unfold erf
  have h : ∫ t in (0 : ℝ)..(-x), exp (-t ^ 2) = -∫ t in (0 : ℝ)..x, exp (-t ^ 2) := by
    have h2 := intervalIntegral.integral_comp_neg (a := 0) (b := x) (fun t : ℝ => exp (-t ^ 2))
    simp only [neg_zero, even_two, Even.neg_pow] at h2
    rw [intervalIntegral.integral_symm, ← h2]
  rw [h]
  ring

theorem gauss_Ioi : ∫ x in Ioi (0 : ℝ), exp (-x ^ 2) = √π / 2 := by
  have := integral_gaussian_Ioi 1
  simpa using this

theorem gauss_intOn (a : ℝ) : IntegrableOn (fun x : ℝ => exp (-x ^ 2)) (Ioi a) := by
  have := (integrable_exp_neg_mul_sq (b := 1) one_pos).integrableOn (s := Ioi a)
  simpa using this

theorem erf_eq_tail (x : ℝ) : 1 - erf x = 2 / √π * ∫ t in Ioi x, exp (-t ^ 2) := by
  have h := intervalIntegral.integral_interval_add_Ioi (gauss_intOn 0) (gauss_intOn x)
  rw [gauss_Ioi] at h
  have h2 : ∫ t in Ioi x, exp (-t ^ 2) = √π / 2 - ∫ t in (0 : ℝ)..x, exp (-t ^ 2) := by linarith
  rw [h2]
  unfold erf
  have := sqrt_pi_pos
  field_simp

theorem tail_pos (x : ℝ) : 0 < ∫ t in Ioi x, exp (-t ^ 2) := by
  rw [setIntegral_pos_iff_support_of_nonneg_ae]
  · have : (Function.support fun t : ℝ => exp (-t ^ 2)) = univ := by
      ext t; simp [Function.mem_support, (exp_pos _).ne']
    rw [this, univ_inter, Real.volume_Ioi]
    simp
  · exact Filter.Eventually.of_forall fun t => (exp_pos _).le
  · exact gauss_intOn x

theorem erf_lt_one (x : ℝ) : erf x < 1 := by
  have h := erf_eq_tail x
  have := tail_pos x
  have h3 := sqrt_pi_pos
  have : 0 < 2 / √π * ∫ t in Ioi x, exp (-t ^ 2) := by positivity
  linarith

theorem neg_one_lt_erf (x : ℝ) : -1 < erf x := by
  have := erf_lt_one (-x)
  rw [erf_neg] at this
  linarith

/-- `½ erfc` has tails below `e^{-x}`. -/
theorem erfc_tail (x : ℝ) (hx : 1 ≤ x) : (1 - erf x) / 2 ≤ exp (-x) := by
  rw [erf_eq_tail]
  have h1 : ∫ t in Ioi x, exp (-t ^ 2) ≤ ∫ t in Ioi x, exp (-t) := by
    apply setIntegral_mono_on (gauss_intOn x)
    · have := exp_neg_integrableOn_Ioi x (b := 1) one_pos
      simpa using this
    · exact measurableSet_Ioi
    · intro t ht
      have : x < t := ht
      apply exp_le_exp.2
      nlinarith
  have h2 : ∫ t in Ioi x, exp (-t) = exp (-x) := by
    exact integral_exp_neg_Ioi x
  rw [h2] at h1
  have h3 := sqrt_pi_pos
  have h4 : 1 ≤ √π := by
    rw [Real.one_le_sqrt]
    have := Real.two_le_pi
    linarith
  have h5 : 0 ≤ ∫ t in Ioi x, exp (-t ^ 2) := (tail_pos x).le
  calc 2 / √π * (∫ t in Ioi x, exp (-t ^ 2)) / 2 = (∫ t in Ioi x, exp (-t ^ 2)) / √π := by ring
    _ ≤ (∫ t in Ioi x, exp (-t ^ 2)) / 1 := by
        apply div_le_div_of_nonneg_left h5 one_pos h4
    _ ≤ exp (-x) := by linarith

/-! ## The three smearing functions -/

theorem hasDerivAt_neg_add (c f : ℝ) : HasDerivAt (fun f : ℝ => -(f + c)) (-1) f :=
  HasDerivAt.congr_deriv (f := fun f : ℝ => -(f + c)) ((hasDerivAt_id' f).add_const c).neg rfl

theorem hasDerivAt_neg_sq (g : ℝ) : HasDerivAt (fun g : ℝ => -g ^ 2) (-(2 * g)) g :=
  HasDerivAt.congr_deriv (f := fun g : ℝ => -g ^ 2) (hasDerivAt_pow 2 g).neg (by simp)

/-- The symmetric types (Gaussian and Fermi–Dirac). -/
def Typ.symm : Typ → Prop
  | .mv => False
  | _ => True

theorem fd_hasDerivAt (f : ℝ) : HasDerivAt Typ.fd.occ (-(exp f / (1 + exp f) ^ 2)) f := by
  have h1 : HasDerivAt (fun f : ℝ => 1 + exp f) (exp f) f := by
    simpa using (Real.hasDerivAt_exp f).const_add 1
  have hne : 1 + exp f ≠ 0 := by positivity
  have h2 := h1.inv hne
  have e : Typ.fd.occ = (fun f : ℝ => 1 + exp f)⁻¹ := by
    funext x; simp [Typ.occ]
  rw [e]
  refine h2.congr_deriv ?_
  ring

theorem gauss_hasDerivAt (f : ℝ) : HasDerivAt Typ.gauss.occ (-(exp (-f ^ 2) / √π)) f := by
  have h := ((erf_hasDerivAt f).const_sub 1).const_mul (0.5 : ℝ)
  have e : Typ.gauss.occ = fun f => 0.5 * (1 - erf f) := rfl
  rw [e]
  refine h.congr_deriv ?_
  ring

theorem mv_hasDerivAt (f : ℝ) : HasDerivAt Typ.mv.occ
    (-(exp (-(-(f + 1 / √2)) ^ 2) / √π * (1 - √2 * (-(f + 1 / √2))))) f := by
  have hg : HasDerivAt (fun f : ℝ => -(f + 1 / √2)) (-1) f := by
    exact hasDerivAt_neg_add _ f
  have he := (erf_hasDerivAt (-(f + 1 / √2))).comp f hg
  have hx : HasDerivAt (fun g : ℝ => exp (-g ^ 2)) (exp (-(-(f + 1 / √2)) ^ 2) * (-(2 * (-(f + 1 / √2))))) (-(f + 1 / √2)) := by
    have h0 : HasDerivAt (fun g : ℝ => -g ^ 2) (-(2 * (-(f + 1 / √2)))) (-(f + 1 / √2)) := by
      exact hasDerivAt_neg_sq _
    exact h0.exp
  have hx' := hx.comp f hg
  have h := ((he.add_const 1).const_mul (0.5 : ℝ)).add (hx'.const_mul (1 / √(2 * π)))
  refine HasDerivAt.congr_deriv (f := Typ.mv.occ) h ?_
  have h2 : √(2 * π) = √2 * √π := Real.sqrt_mul (by norm_num) _
  rw [h2]
  have hs : √2 * √2 = 2 := Real.mul_self_sqrt (by norm_num)
  have h2p : 0 < √2 := Real.sqrt_pos.2 (by norm_num)
  have hp := sqrt_pi_pos
  generalize exp (-(-(f + 1 / √2)) ^ 2) = E
  field_simp
  rw [pow_two, hs]
  ring

theorem fd_pos (f : ℝ) : 0 < Typ.fd.occ f ∧ Typ.fd.occ f < 1 := by
  simp only [Typ.occ]
  have := exp_pos f
  constructor
  · positivity
  · rw [div_lt_one (by positivity)]; linarith

theorem gauss_pos (f : ℝ) : 0 < Typ.gauss.occ f ∧ Typ.gauss.occ f < 1 := by
  simp only [Typ.occ, erfc]
  have := erf_lt_one f
  have := neg_one_lt_erf f
  constructor <;> norm_num <;> linarith

theorem occ_strictAnti (t : Typ) (ht : t.symm) : StrictAnti t.occ := by
  cases t with
  | mv => exact absurd ht id
  | fd =>
    apply strictAnti_of_deriv_neg
    intro x
    rw [(fd_hasDerivAt x).deriv]
    have := exp_pos x
    have : 0 < exp x / (1 + exp x) ^ 2 := by positivity
    linarith
  | gauss =>
    apply strictAnti_of_deriv_neg
    intro x
    rw [(gauss_hasDerivAt x).deriv]
    have := sqrt_pi_pos
    have : 0 < exp (-x ^ 2) / √π := by positivity
    linarith

theorem occ_range (t : Typ) (ht : t.symm) (f : ℝ) : 0 < t.occ f ∧ t.occ f < 1 := by
  cases t with
  | mv => exact absurd ht id
  | fd => exact fd_pos f
  | gauss => exact gauss_pos f

theorem occ_symm (t : Typ) (ht : t.symm) (f : ℝ) : t.occ (-f) + t.occ f = 1 := by
  cases t with
  | mv => exact absurd ht id
  | fd =>
    simp only [Typ.occ, exp_neg]
    have := exp_pos f
    field_simp
    ring
  | gauss =>
    simp only [Typ.occ, erfc, erf_neg]
    ring

theorem occ_continuous (t : Typ) : Continuous t.occ := by
  cases t with
  | fd => exact continuous_iff_continuousAt.2 fun x => (fd_hasDerivAt x).continuousAt
  | gauss => exact continuous_iff_continuousAt.2 fun x => (gauss_hasDerivAt x).continuousAt
  | mv => exact continuous_iff_continuousAt.2 fun x => (mv_hasDerivAt x).continuousAt

/-- Marzari–Vanderbilt occupations exceed 1 for every level more than `√2 degauss` below the Fermi level. -/
theorem mv_gt_one (f : ℝ) (hf : f < -√2) : 1 < Typ.mv.occ f := by
  have h2p : 0 < √2 := Real.sqrt_pos.2 (by norm_num)
  have hs : √2 * √2 = 2 := Real.mul_self_sqrt (by norm_num)
  have hp := sqrt_pi_pos
  -- in terms of g ≥ 1/√2 : h(g) = ½(erf g + 1) + e^{-g²}/√(2π) decreases to 1
  have hanti : StrictMonoOn Typ.mv.occ (Iic (-√2)) := by
    apply strictMonoOn_of_deriv_pos (convex_Iic _) (occ_continuous _).continuousOn
    intro x hx
    rw [interior_Iic] at hx
    have hx : x < -√2 := hx
    rw [(mv_hasDerivAt x).deriv]
    have hE := exp_pos (-(-(x + 1 / √2)) ^ 2)
    have h1 : 1 - √2 * (-(x + 1 / √2)) < 0 := by
      have : √2 * (x + 1 / √2) = √2 * x + 1 := by field_simp
      have h3 : √2 * x < √2 * (-√2) := by
        apply mul_lt_mul_of_pos_left hx h2p
      nlinarith
    have h4 : 0 < exp (-(-(x + 1 / √2)) ^ 2) / √π := by positivity
    nlinarith
  -- lower bound: occ f > occ(f - 1) and occ → 1 at -∞; use the tail of erf
  by_contra hcon
  push Not at hcon
  have hlt : Typ.mv.occ (f - 1) < 1 := by
    have := hanti (show f - 1 ∈ Iic (-√2) from by rw [mem_Iic]; linarith) (show f ∈ Iic (-√2) from hf.le)
      (by linarith)
    linarith
  -- limit at -∞ is 1
  have hlim : Filter.Tendsto Typ.mv.occ Filter.atBot (nhds 1) := by
    have hb : ∀ᶠ x in Filter.atBot, |Typ.mv.occ x - 1| ≤ 2 * exp (-(-(x + 1 / √2))) := by
      filter_upwards [Filter.eventually_le_atBot (-(1 + 1 / √2))] with x hx
      have hg : 1 ≤ -(x + 1 / √2) := by linarith
      have ht := erfc_tail _ hg
      have hl := erf_lt_one (-(x + 1 / √2))
      have hE : exp (-(-(x + 1 / √2)) ^ 2) ≤ exp (-(-(x + 1 / √2))) := by
        apply exp_le_exp.2; nlinarith
      have hE0 := exp_pos (-(-(x + 1 / √2)) ^ 2)
      have hsq : 1 ≤ √(2 * π) := by
        rw [Real.one_le_sqrt]; have := Real.two_le_pi; linarith
      have hq : (1 / √(2 * π)) * exp (-(-(x + 1 / √2)) ^ 2) ≤ exp (-(-(x + 1 / √2)) ^ 2) := by
        apply mul_le_of_le_one_left hE0.le
        rw [div_le_one (by linarith)]
        exact hsq
      have hq0 : 0 ≤ (1 / √(2 * π)) * exp (-(-(x + 1 / √2)) ^ 2) := by positivity
      simp only [Typ.occ]
      generalize (1 / √(2 * π)) * exp (-(-(x + 1 / √2)) ^ 2) = A at *
      generalize -(x + 1 / √2) = G at *
      rw [abs_le]
      constructor
      · norm_num; linarith
      · norm_num; linarith
    have hz : Filter.Tendsto (fun x : ℝ => 2 * exp (-(-(x + 1 / √2)))) Filter.atBot (nhds 0) := by
      have : Filter.Tendsto (fun x : ℝ => exp (-(-(x + 1 / √2)))) Filter.atBot (nhds 0) := by
        apply Real.tendsto_exp_atBot.comp
        have : (fun x : ℝ => -(-(x + 1 / √2))) = fun x => x + 1 / √2 := by funext x; ring
        rw [this]
        exact Filter.tendsto_atBot_add_const_right _ _ Filter.tendsto_id
      simpa using this.const_mul 2
    have := squeeze_zero' (Filter.Eventually.of_forall fun x => abs_nonneg _) hb hz
    rw [tendsto_iff_norm_sub_tendsto_zero]
    simpa using this
  have hev := hlim.eventually (lt_mem_nhds hlt)
  obtain ⟨y, hy1, hy2⟩ := (hev.and (Filter.eventually_le_atBot (f - 1))).exists
  have : Typ.mv.occ y ≤ Typ.mv.occ (f - 1) :=
    hanti.monotoneOn (show y ∈ Iic (-√2) from by rw [mem_Iic]; linarith)
      (show f - 1 ∈ Iic (-√2) from by rw [mem_Iic]; linarith) hy2
  linarith

theorem levelOcc_eq (t : Typ) (deg mu e : ℝ) : levelOcc t deg mu e
    = if (e - mu) / deg < -50 then 1 else if |(e - mu) / deg| ≤ 50 then t.occ ((e - mu) / deg) else 0 := rfl

/-- The occupation as a function of the scaled energy. -/
theorem clamp_anti (t : Typ) (ht : t.symm) : Antitone fun f : ℝ => if f < -50 then (1 : ℝ) else if |f| ≤ 50 then t.occ f else 0 := by
  intro x y hxy
  simp only
  by_cases h1 : y < -50
  · rw [if_pos h1, if_pos (by linarith)]
  rw [if_neg h1]
  by_cases h2 : |y| ≤ 50
  · rw [if_pos h2]
    by_cases h3 : x < -50
    · rw [if_pos h3]; exact (occ_range t ht y).2.le
    · rw [if_neg h3, if_pos (abs_le.2 ⟨by linarith, by linarith [(abs_le.1 h2).2]⟩)]
      exact (occ_strictAnti t ht).antitone hxy
  · rw [if_neg h2]
    split
    · norm_num
    · split
      · exact (occ_range t ht x).1.le
      · exact le_refl _

/-- **C37.** Gaussian and Fermi–Dirac occupations, as computed including the cut-off of large arguments: they lie in
[0, 1], never increase with the energy of the level, never decrease with the Fermi level, are ½ at the Fermi level, and
levels at equal distance above and below it have occupations adding to 1. -/
theorem C37_occupations (t : Typ) (ht : t = .gauss ∨ t = .fd) (deg : ℝ) (hd : 0 < deg) :
    (∀ mu e, 0 ≤ levelOcc t deg mu e ∧ levelOcc t deg mu e ≤ 1) ∧
    (∀ mu e e', e ≤ e' → levelOcc t deg mu e' ≤ levelOcc t deg mu e) ∧
    (∀ mu mu' e, mu ≤ mu' → levelOcc t deg mu e ≤ levelOcc t deg mu' e) ∧
    (∀ mu, levelOcc t deg mu mu = 1 / 2) ∧
    (∀ mu x, levelOcc t deg mu (mu + x) + levelOcc t deg mu (mu - x) = 1) := by
  have ht : t.symm := by rcases ht with rfl | rfl <;> exact trivial
  have hsym : ∀ mu x, levelOcc t deg mu (mu + x) + levelOcc t deg mu (mu - x) = 1 := by
    intro mu x
    rw [levelOcc_eq, levelOcc_eq]
    have e1 : (mu + x - mu) / deg = x / deg := by ring
    have e2 : (mu - x - mu) / deg = -(x / deg) := by ring
    rw [e1, e2, abs_neg]
    generalize x / deg = y
    by_cases h1 : y < -50
    · have : 50 < |y| := by rw [abs_of_neg (by linarith)]; linarith
      rw [if_pos h1, if_neg (by linarith), if_neg (by linarith)]; norm_num
    · by_cases h2 : -y < -50
      · have : 50 < |y| := by rw [abs_of_pos (by linarith)]; linarith
        rw [if_neg h1, if_neg (by linarith), if_pos h2]; norm_num
      · have : |y| ≤ 50 := abs_le.2 ⟨by linarith, by linarith⟩
        rw [if_neg h1, if_pos this, if_neg h2, if_pos this, add_comm]
        exact occ_symm t ht y
  refine ⟨?_, ?_, ?_, ?_, hsym⟩
  · intro mu e
    rw [levelOcc_eq]
    split
    · norm_num
    · split
      · exact ⟨(occ_range t ht _).1.le, (occ_range t ht _).2.le⟩
      · norm_num
  · intro mu e e' h
    rw [levelOcc_eq, levelOcc_eq]
    exact clamp_anti t ht (div_le_div_of_nonneg_right (by linarith) hd.le)
  · intro mu mu' e h
    rw [levelOcc_eq, levelOcc_eq]
    exact clamp_anti t ht (div_le_div_of_nonneg_right (by linarith) hd.le)
  · intro mu
    have := hsym mu 0
    rw [add_zero, sub_zero] at this
    linarith

/-- **C37 (cold smearing).** Marzari–Vanderbilt occupations are never negative, but every level between `√2 degauss`
and `50 degauss` below the Fermi level gets an occupation above 1. -/
theorem C37_mv_exceeds_one (deg : ℝ) (hd : 0 < deg) (mu e : ℝ) :
    0 ≤ levelOcc .mv deg mu e ∧ (mu - 50 * deg ≤ e → e < mu - √2 * deg → 1 < levelOcc .mv deg mu e) := by
  rw [levelOcc_eq]
  constructor
  · split
    · norm_num
    · split
      · simp only [Typ.occ]
        have := neg_one_lt_erf (-((e - mu) / deg + 1 / √2))
        have h1 : 0 ≤ 0.5 * (erf (-((e - mu) / deg + 1 / √2)) + 1) :=
          mul_nonneg (by norm_num) (by linarith)
        have h2 : 0 ≤ 1 / √(2 * π) * exp (-(-((e - mu) / deg + 1 / √2)) ^ 2) := by positivity
        linarith
      · norm_num
  · intro h1 h2
    have h3 : -50 ≤ (e - mu) / deg := by rw [le_div_iff₀ hd]; linarith
    have h4 : (e - mu) / deg < -√2 := by rw [div_lt_iff₀ hd]; linarith
    have h5 : 0 < √2 := Real.sqrt_pos.2 (by norm_num)
    rw [if_neg (by linarith), if_pos (abs_le.2 ⟨h3, by linarith⟩)]
    exact mv_gt_one _ h4

/-- **C63.** For all three smearing types the energy function belongs to the occupation function: its derivative is
`-f` times the derivative of the occupation (so that the free energy is stationary in the occupations); and the
Gaussian and Fermi–Dirac energies are never positive. -/
theorem C63_energy_consistent (t : Typ) (f : ℝ) :
    (∃ d, HasDerivAt t.occ d f ∧ HasDerivAt t.en (-f * d) f) ∧ (t ≠ .mv → t.en f ≤ 0) := by
  have hp := sqrt_pi_pos
  cases t with
  | gauss =>
    refine ⟨⟨_, gauss_hasDerivAt f, ?_⟩, fun _ => ?_⟩
    · have h0 : HasDerivAt (fun g : ℝ => -g ^ 2) (-(2 * f)) f := by
        exact hasDerivAt_neg_sq _
      have h := (h0.exp.const_mul (-0.5 : ℝ)).div_const (√π)
      refine HasDerivAt.congr_deriv (f := Typ.gauss.en) h ?_
      ring
    · simp only [Typ.en]
      have := exp_pos (-f ^ 2)
      have h : 0 ≤ 0.5 * exp (-f ^ 2) / √π := by positivity
      have e : -0.5 * exp (-f ^ 2) / √π = -(0.5 * exp (-f ^ 2) / √π) := by ring
      rw [e]; linarith
  | fd =>
    have hr := fd_pos f
    refine ⟨⟨_, fd_hasDerivAt f, ?_⟩, fun _ => ?_⟩
    · have e0 : Typ.fd.en = fun x => Typ.fd.occ x * log (Typ.fd.occ x) + (1 - Typ.fd.occ x) * log (1 - Typ.fd.occ x) := by
        funext x; simp only [Typ.en, Typ.occ, xlogx]
      rw [e0]
      have hd := fd_hasDerivAt f
      have h1 := (hd.mul (hd.log hr.1.ne'))
      have hd2 := hd.const_sub 1
      have h2 := hd2.mul (hd2.log (by linarith : 1 - Typ.fd.occ f ≠ 0))
      refine HasDerivAt.congr_deriv (h1.add h2) ?_
      have hlog : log (Typ.fd.occ f) - log (1 - Typ.fd.occ f) = -f := by
        rw [← log_div hr.1.ne' (by linarith : 1 - Typ.fd.occ f ≠ 0)]
        have : Typ.fd.occ f / (1 - Typ.fd.occ f) = exp (-f) := by
          simp only [Typ.occ, exp_neg]
          have := exp_pos f
          have h3 : 1 - 1 / (1 + exp f) = exp f / (1 + exp f) := by field_simp; ring
          rw [h3]
          field_simp
        rw [this, log_exp]
      have hne : Typ.fd.occ f ≠ 0 := hr.1.ne'
      have hne2 : 1 - Typ.fd.occ f ≠ 0 := by linarith
      rw [← hlog]
      generalize Typ.fd.occ f = n at *
      generalize log n = a
      generalize log (1 - n) = b
      generalize -(exp f / (1 + exp f) ^ 2) = d
      field_simp
      ring
    · have e0 : Typ.fd.en f = Typ.fd.occ f * log (Typ.fd.occ f) + (1 - Typ.fd.occ f) * log (1 - Typ.fd.occ f) := by
        simp only [Typ.en, Typ.occ, xlogx]
      rw [e0]
      have l1 := log_nonpos hr.1.le hr.2.le
      have l2 := log_nonpos (by linarith : 0 ≤ 1 - Typ.fd.occ f) (by linarith)
      have := mul_nonpos_of_nonneg_of_nonpos hr.1.le l1
      have := mul_nonpos_of_nonneg_of_nonpos (by linarith : 0 ≤ 1 - Typ.fd.occ f) l2
      linarith
  | mv =>
    refine ⟨⟨_, mv_hasDerivAt f, ?_⟩, fun h => absurd rfl h⟩
    have hg : HasDerivAt (fun f : ℝ => -(f + 1 / √2)) (-1) f := by
      exact hasDerivAt_neg_add _ f
    have hx : HasDerivAt (fun g : ℝ => exp (-g ^ 2)) (exp (-(-(f + 1 / √2)) ^ 2) * (-(2 * (-(f + 1 / √2))))) (-(f + 1 / √2)) := by
      have h0 : HasDerivAt (fun g : ℝ => -g ^ 2) (-(2 * (-(f + 1 / √2)))) (-(f + 1 / √2)) := by
        exact hasDerivAt_neg_sq _
      exact h0.exp
    have hx' := hx.comp f hg
    have h := (hg.const_mul (1 / √(2 * π))).mul hx'
    refine HasDerivAt.congr_deriv (f := Typ.mv.en) h ?_
    have h2 : √(2 * π) = √2 * √π := Real.sqrt_mul (by norm_num) _
    rw [h2]
    have hs : √2 * √2 = 2 := Real.mul_self_sqrt (by norm_num)
    have h2p : 0 < √2 := Real.sqrt_pos.2 (by norm_num)
    simp only [Function.comp]
    generalize exp (-(-(f + 1 / √2)) ^ 2) = E
    have hr2 : √2 ^ 2 = 2 := by rw [pow_two]; exact hs
    generalize √2 = r at *
    generalize √π = q at *
    field_simp
    ring_nf
    have h3 : r ^ 3 = 2 * r := by rw [pow_succ, hr2]
    have h4 : r ^ 4 = 4 := by rw [show r ^ 4 = (r ^ 2) ^ 2 by ring, hr2]; norm_num
    simp only [hr2, h3, h4]
    ring

/-- Levels strictly inside the window of the thresholds. -/
theorem levelOcc_eventually (t : Typ) (deg mu e : ℝ) (hd : 0 < deg) (he : |(e - mu) / deg| < thr) :
    ∀ᶠ m in nhds mu, |(e - m) / deg| ≤ thr := by
  have hc : Continuous fun m : ℝ => |(e - m) / deg| := by fun_prop
  have := hc.continuousAt.eventually_lt (continuousAt_const (y := thr)) he
  exact this.mono fun m hm => hm.le

/-- **C63b.** The free energy of a wavefunction is stationary: if all levels lie inside the smearing window around the Fermi level, then at
fixed electron number the band energy plus the reported smearing energy does not change, to first order, when the occupations are moved along
the family the smearing function defines (Mermin's variational principle, with the Lagrange multiplier `mu`). -/
theorem C63_free_energy_stationary (t : Typ) (deg mu : ℝ) (hd : 0 < deg) (evl : List ℝ) (hin : ∀ e ∈ evl, |(e - mu) / deg| < thr) :
    HasDerivAt (fun m => (evl.map fun e => e * levelOcc t deg m e).sum + wfnEn t deg m evl - mu * (evl.map (levelOcc t deg m)).sum) 0 mu := by
  induction evl with
  | nil => simpa [wfnEn] using hasDerivAt_const mu (0 : ℝ)
  | cons e l ih =>
    have hl := ih fun x hx => hin x (List.mem_cons_of_mem _ hx)
    have he := hin e List.mem_cons_self
    obtain ⟨⟨d, h1, h2⟩, -⟩ := C63_energy_consistent t ((e - mu) / deg)
    have hf : HasDerivAt (fun m : ℝ => (e - m) / deg) (-1 / deg) mu := by
      have := ((hasDerivAt_id mu).const_sub e).div_const deg
      simpa using this
    have g1 := h1.comp mu hf
    have g2 := h2.comp mu hf
    have hone : HasDerivAt (fun m => e * t.occ ((e - m) / deg) + deg * t.en ((e - m) / deg) - mu * t.occ ((e - m) / deg)) 0 mu := by
      refine HasDerivAt.congr_deriv (f := fun m => e * t.occ ((e - m) / deg) + deg * t.en ((e - m) / deg) - mu * t.occ ((e - m) / deg))
        (((g1.const_mul e).add (g2.const_mul deg)).sub (g1.const_mul mu)) ?_
      field_simp
      ring
    have hsum := hone.add hl
    rw [add_zero] at hsum
    refine hsum.congr_of_eventuallyEq ?_
    filter_upwards [levelOcc_eventually t deg mu e hd he] with m hm
    have hocc : levelOcc t deg m e = t.occ ((e - m) / deg) := by
      unfold levelOcc
      rw [if_neg (by have := (abs_le.1 hm).1; exact not_lt.2 this), if_pos hm]
    simp only [Pi.add_apply, List.map_cons, List.sum_cons, hocc, wfnEn]
    rw [List.filter_cons_of_pos (by simpa using hm)]
    simp only [List.map_cons, List.sum_cons]
    ring

/-- Two partially occupied levels around the Fermi level. -/
example : ∀ e ∈ [(0.1 : ℝ), 0.3], |(e - 0.2) / 0.01| < thr := by
  intro e he
  simp only [List.mem_cons, List.not_mem_nil, or_false] at he
  rcases he with rfl | rfl <;> rw [abs_lt] <;> norm_num [thr]

end Verif.Occup
