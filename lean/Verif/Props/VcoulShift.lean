import Mathlib.Analysis.InnerProductSpace.Projection.Reflection
import Mathlib.MeasureTheory.Integral.Prod
import Mathlib.MeasureTheory.Measure.Haar.InnerProductSpace
import Verif.Props.Vcoul

/-!
# C150: the average of the Coulomb interaction over a ball that does not contain the origin
-/

namespace Verif.Vcoul

open Verif MeasureTheory Metric Set

abbrev E2 := EuclideanSpace ℝ (Fin 2)

theorem integral_disc_radial (f : ℝ → ℝ) (R : ℝ) :
    ∫ x in ball (0 : E2) R, f ‖x‖ = 2 * Real.pi * ∫ y in Ioo (0 : ℝ) R, y * f y := by
  have h1 : ∫ x in ball (0 : E2) R, f ‖x‖ = ∫ x : E2, (Iio R).indicator f ‖x‖ := by
    rw [← integral_indicator measurableSet_ball]
    congr 1; funext x; simp [indicator]
  have hv : volume.real (ball (0 : E2) 1) = Real.pi := by
    rw [measureReal_def, EuclideanSpace.volume_ball_fin_two]; simp [Real.pi_pos.le]
  rw [h1, integral_fun_norm_addHaar volume (fun y => (Iio R).indicator f y), hv]
  have hd : Module.finrank ℝ E2 = 2 := by simp
  rw [hd]
  have h2 : ∫ y in Ioi (0 : ℝ), y ^ (2 - 1) • (Iio R).indicator f y = ∫ y in Ioo (0 : ℝ) R, y * f y := by
    rw [← integral_indicator measurableSet_Ioi, ← integral_indicator measurableSet_Ioo]
    congr 1; funext y
    simp only [indicator, mem_Ioi, mem_Iio, mem_Ioo, smul_eq_mul]
    by_cases h1 : 0 < y <;> by_cases h2 : y < R <;> simp [h1, h2]
  rw [h2]
  simp only [nsmul_eq_mul, smul_eq_mul]
  push_cast; ring

theorem integral_disc (z ρ : ℝ) (hz : 0 < z) (hρ : 0 ≤ ρ) :
    ∫ y in ball (0 : E2) ρ, 1 / (z ^ 2 + ‖y‖ ^ 2) = Real.pi * (Real.log (z ^ 2 + ρ ^ 2) - 2 * Real.log z) := by
  rw [integral_disc_radial (fun r => 1 / (z ^ 2 + r ^ 2)), ← integral_Ioc_eq_integral_Ioo, ← intervalIntegral.integral_of_le hρ]
  have : ∫ r in (0 : ℝ)..ρ, r * (1 / (z ^ 2 + r ^ 2)) = (fun r => Real.log (z ^ 2 + r ^ 2) / 2) ρ - (fun r => Real.log (z ^ 2 + r ^ 2) / 2) 0 := by
    apply intervalIntegral.integral_eq_sub_of_hasDerivAt
    · intro r _
      have h0 : z ^ 2 + r ^ 2 ≠ 0 := by positivity
      have h1 : HasDerivAt (fun r : ℝ => z ^ 2 + r ^ 2) (2 * r) r := by
        have := (hasDerivAt_pow 2 r).const_add (z ^ 2)
        simpa using this
      have h2 := (h1.log h0).div_const 2
      refine h2.congr_deriv ?_
      ring
    · apply Continuous.intervalIntegrable
      have : ∀ r : ℝ, z ^ 2 + r ^ 2 ≠ 0 := fun r => by positivity
      fun_prop (disch := assumption)
  rw [this]
  have hl : Real.log (z ^ 2 + 0 ^ 2) = 2 * Real.log z := by
    rw [zero_pow two_ne_zero, add_zero, Real.log_pow]; norm_num
  simp only [hl]
  ring

theorem integral_outer (R d : ℝ) (hR : 0 < R) (hd : R < d) :
    ∫ z in (d - R)..(d + R), Real.pi * (Real.log (z ^ 2 + (R ^ 2 - (z - d) ^ 2)) - 2 * Real.log z) =
      2 * Real.pi * ((R ^ 2 / d - d) * Real.artanh (R / d) + R) := by
  have hd0 : 0 < d := hR.trans hd
  have hw : ∀ z, z ^ 2 + (R ^ 2 - (z - d) ^ 2) = R ^ 2 - d ^ 2 + 2 * d * z := fun z => by ring
  simp only [hw]
  have hpos : ∀ z ∈ uIcc (d - R) (d + R), 0 < z ∧ 0 < R ^ 2 - d ^ 2 + 2 * d * z := by
    intro z hz
    rw [uIcc_of_le (by linarith)] at hz
    refine ⟨by linarith [hz.1], ?_⟩
    nlinarith [hz.1, mul_le_mul_of_nonneg_left hz.1 hd0.le, sq_pos_of_pos (sub_pos.2 hd)]
  have := intervalIntegral.integral_eq_sub_of_hasDerivAt (a := d - R) (b := d + R)
    (f := fun z => Real.pi * (((R ^ 2 - d ^ 2 + 2 * d * z) * Real.log (R ^ 2 - d ^ 2 + 2 * d * z) - (R ^ 2 - d ^ 2 + 2 * d * z)) / (2 * d) - 2 * (z * Real.log z - z)))
    (f' := fun z => Real.pi * (Real.log (R ^ 2 - d ^ 2 + 2 * d * z) - 2 * Real.log z)) ?_ ?_
  · rw [this]
    have e1 : R ^ 2 - d ^ 2 + 2 * d * (d + R) = (d + R) ^ 2 := by ring
    have e2 : R ^ 2 - d ^ 2 + 2 * d * (d - R) = (d - R) ^ 2 := by ring
    have h1 : R / d < 1 := (div_lt_one hd0).2 hd
    have h2 : 0 < R / d := by positivity
    have e3 : Real.artanh (R / d) = 1 / 2 * (Real.log (d + R) - Real.log (d - R)) := by
      rw [Real.artanh_eq_half_log ⟨by linarith, h1.le⟩, ← Real.log_div (by linarith) (by linarith)]
      congr 2
      have : d - R ≠ 0 := by linarith
      field_simp
    simp only [e1, e2, e3, Real.log_pow]
    field_simp
    push_cast
    ring
  · intro z hz
    obtain ⟨h1, h2⟩ := hpos z hz
    have hl : HasDerivAt (fun z => R ^ 2 - d ^ 2 + 2 * d * z) (2 * d) z := by
      have := ((hasDerivAt_id z).const_mul (2 * d)).const_add (R ^ 2 - d ^ 2)
      simpa using this
    have a1 := ((hl.mul (hl.log h2.ne')).sub hl).div_const (2 * d)
    have a2 := (((hasDerivAt_id z).mul (Real.hasDerivAt_log h1.ne')).sub (hasDerivAt_id z)).const_mul 2
    have a3 := (a1.sub a2).const_mul Real.pi
    refine a3.congr_deriv ?_
    simp only [id]
    field_simp
    ring
  · apply ContinuousOn.intervalIntegrable
    have c1 : ContinuousOn (fun z => Real.log (R ^ 2 - d ^ 2 + 2 * d * z)) (uIcc (d - R) (d + R)) :=
      ContinuousOn.log (by fun_prop) fun z hz => (hpos z hz).2.ne'
    have c2 : ContinuousOn (fun z => Real.log z) (uIcc (d - R) (d + R)) := ContinuousOn.log (by fun_prop) fun z hz => (hpos z hz).1.ne'
    exact continuousOn_const.mul (c1.sub (continuousOn_const.mul c2))

/-- Coordinates along the axis and across it. -/
noncomputable def slice : E3 ≃ᵐ ℝ × E2 :=
  (MeasurableEquiv.toLp 2 (Fin 3 → ℝ)).symm.trans ((MeasurableEquiv.piFinSuccAbove (fun _ => ℝ) 0).trans (MeasurableEquiv.prodCongr (MeasurableEquiv.refl ℝ) (MeasurableEquiv.toLp 2 (Fin 2 → ℝ))))

theorem slice_preserving : MeasurePreserving slice :=
  (EuclideanSpace.volume_preserving_symm_measurableEquiv_toLp (Fin 3)).trans ((volume_preserving_piFinSuccAbove (fun _ => ℝ) 0).trans
    ((MeasurePreserving.id volume).prod (EuclideanSpace.volume_preserving_symm_measurableEquiv_toLp (Fin 2)).symm))

theorem slice_fst (x : E3) : (slice x).1 = x 0 := rfl

theorem slice_norm (x : E3) : ‖(slice x).2‖ ^ 2 = x 1 ^ 2 + x 2 ^ 2 := by
  rw [EuclideanSpace.real_norm_sq_eq, Fin.sum_univ_two]; rfl

/-- The ball about `(d, 0, 0)` in these coordinates. -/
def ballS (R d : ℝ) : Set (ℝ × E2) := {p | (p.1 - d) ^ 2 + ‖p.2‖ ^ 2 < R ^ 2}

theorem integral_axis (R d : ℝ) (hR : 0 < R) (hd : R < d) (c : E3) (hc : c = EuclideanSpace.single 0 d) :
    ∫ x in ball c R, 1 / ‖x‖ ^ 2 = 2 * Real.pi * ((R ^ 2 / d - d) * Real.artanh (R / d) + R) := by
  have hpre : slice ⁻¹' ballS R d = ball c R := by
    ext x
    simp only [mem_preimage, ballS, mem_ofPred_eq, mem_ball, slice_fst, slice_norm, dist_eq_norm]
    rw [← sq_lt_sq₀ (norm_nonneg _) hR.le, EuclideanSpace.real_norm_sq_eq, Fin.sum_univ_three, hc]
    simp [add_assoc]
  have hn : ∀ x : E3, ‖x‖ ^ 2 = (slice x).1 ^ 2 + ‖(slice x).2‖ ^ 2 := by
    intro x
    rw [slice_fst, slice_norm, EuclideanSpace.real_norm_sq_eq, Fin.sum_univ_three, add_assoc]
  have hmS : MeasurableSet (ballS R d) := by
    apply measurableSet_lt <;> fun_prop
  have h1 : ∫ x in ball c R, 1 / ‖x‖ ^ 2 = ∫ p in ballS R d, 1 / (p.1 ^ 2 + ‖p.2‖ ^ 2) := by
    rw [← hpre]
    simp only [hn]
    exact slice_preserving.setIntegral_preimage_emb slice.measurableEmbedding (fun p : ℝ × E2 => 1 / (p.1 ^ 2 + ‖p.2‖ ^ 2)) _
  have hfin : volume (ballS R d) < ⊤ := by
    rw [← slice_preserving.measure_preimage hmS.nullMeasurableSet, hpre]
    exact measure_ball_lt_top
  have hint : Integrable ((ballS R d).indicator fun p : ℝ × E2 => 1 / (p.1 ^ 2 + ‖p.2‖ ^ 2)) (volume.prod volume) := by
    rw [integrable_indicator_iff hmS]
    refine Measure.integrableOn_of_bounded (M := 1 / (d - R) ^ 2) hfin.ne ?_ ?_
    · apply Measurable.aestronglyMeasurable; fun_prop
    · refine (ae_restrict_iff' hmS).2 (Filter.Eventually.of_forall fun p hp => ?_)
      have h0 : 0 < d - R := sub_pos.2 hd
      have hp1 : (p.1 - d) ^ 2 < R ^ 2 := lt_of_le_of_lt (le_add_of_nonneg_right (sq_nonneg _)) hp
      have hp2 : d - R < p.1 := by have := abs_lt_of_sq_lt_sq hp1 hR.le; rw [abs_lt] at this; linarith [this.1]
      rw [Real.norm_eq_abs, abs_of_nonneg (by positivity)]
      apply one_div_le_one_div_of_le (by positivity)
      nlinarith [sq_nonneg ‖p.2‖]
  rw [h1, ← integral_indicator hmS]
  have h2 : ∫ p : ℝ × E2, (ballS R d).indicator (fun p : ℝ × E2 => 1 / (p.1 ^ 2 + ‖p.2‖ ^ 2)) p =
      ∫ z : ℝ, ∫ y : E2, (ballS R d).indicator (fun p : ℝ × E2 => 1 / (p.1 ^ 2 + ‖p.2‖ ^ 2)) (z, y) := integral_prod _ hint
  rw [h2, ← integral_outer R d hR hd, intervalIntegral.integral_of_le (by linarith), integral_Ioc_eq_integral_Ioo, ← integral_indicator measurableSet_Ioo]
  congr 1
  funext z
  by_cases hz : z ∈ Ioo (d - R) (d + R)
  · rw [indicator_of_mem hz]
    have hz0 : 0 < z := by linarith [hz.1]
    have hρ : 0 ≤ R ^ 2 - (z - d) ^ 2 := by nlinarith [hz.1, hz.2]
    have := integral_disc z (Real.sqrt (R ^ 2 - (z - d) ^ 2)) hz0 (Real.sqrt_nonneg _)
    rw [Real.sq_sqrt hρ] at this
    rw [← this, ← integral_indicator measurableSet_ball]
    congr 1
    funext y
    have : (z, y) ∈ ballS R d ↔ y ∈ ball (0 : E2) (Real.sqrt (R ^ 2 - (z - d) ^ 2)) := by
      rw [mem_ball_zero_iff, Real.lt_sqrt (norm_nonneg _)]
      simp only [ballS, mem_ofPred_eq]
      constructor <;> intro h <;> linarith
    by_cases hy : (z, y) ∈ ballS R d
    · rw [indicator_of_mem hy, indicator_of_mem (this.1 hy)]
    · rw [indicator_of_notMem hy, indicator_of_notMem fun h => hy (this.2 h)]
  · rw [indicator_of_notMem hz]
    have : ∀ y : E2, (ballS R d).indicator (fun p : ℝ × E2 => 1 / (p.1 ^ 2 + ‖p.2‖ ^ 2)) (z, y) = 0 := by
      intro y
      apply indicator_of_notMem
      intro h
      have h3 : (z - d) ^ 2 < R ^ 2 := lt_of_le_of_lt (le_add_of_nonneg_right (sq_nonneg _)) h
      have := abs_lt_of_sq_lt_sq h3 hR.le
      rw [abs_lt] at this
      exact hz ⟨by linarith [this.1], by linarith [this.2]⟩
    simp only [this, integral_zero]

theorem integral_shifted (R : ℝ) (c : E3) (hR : 0 < R) (hd : R < ‖c‖) :
    ∫ x in ball c R, 1 / ‖x‖ ^ 2 = 2 * Real.pi * ((R ^ 2 / ‖c‖ - ‖c‖) * Real.artanh (R / ‖c‖) + R) := by
  set c' : E3 := EuclideanSpace.single 0 ‖c‖ with hc'
  have hn : ‖c'‖ = ‖c‖ := by simp [hc']
  set L : E3 ≃ₗᵢ[ℝ] E3 := (ℝ ∙ (c' - c))ᗮ.reflection with hL
  have hLc : L c' = c := Submodule.reflection_sub hn
  rw [← integral_axis R ‖c‖ hR hd c' hc']
  have hpre : L ⁻¹' ball c R = ball c' R := by
    ext x
    rw [mem_preimage, mem_ball, mem_ball, ← hLc, L.dist_map]
  rw [← hpre]
  have := (L.measurePreserving).setIntegral_preimage_emb L.toMeasurableEquiv.measurableEmbedding (fun x => 1 / ‖x‖ ^ 2) (ball c R)
  simp only [L.norm_map] at this
  exact this.symm

/-- C150: `v_minibz_sphere_shifted` is the average of 8π/|q|² over the ball about the centre, whenever the origin lies outside of it. -/
theorem C150_shifted (R : ℝ) (c : E3) (hR : 0 < R) (hd : R < ‖c‖) :
    vSphereShifted R ‖c‖ = some (⨍ q in ball c R, 8 * Real.pi / ‖q‖ ^ 2) := by
  have : ∫ q in ball c R, 8 * Real.pi / ‖q‖ ^ 2 = 8 * Real.pi * (2 * Real.pi * ((R ^ 2 / ‖c‖ - ‖c‖) * Real.artanh (R / ‖c‖) + R)) := by
    rw [← integral_shifted R c hR hd, ← integral_const_mul]
    simp only [mul_one_div]
  rw [vSphereShifted, if_pos hd, setAverage_eq, this, volume_ball_real R hR.le, smul_eq_mul, div_eq_inv_mul]

/-- C150: otherwise the result is NaN. -/
theorem C150_nan (R d : ℝ) (h : d ≤ R) : vSphereShifted R d = none := by
  rw [vSphereShifted, if_neg (not_lt.2 h)]

/-- A centre at distance 2 and radius 1. -/
example : ∃ c : E3, (1 : ℝ) < ‖c‖ := ⟨EuclideanSpace.single 0 2, by simp⟩

end Verif.Vcoul
