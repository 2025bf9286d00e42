import Mathlib.Analysis.SpecialFunctions.Integrals.Basic
import Mathlib.MeasureTheory.Constructions.HaarToSphere
import Mathlib.MeasureTheory.Integral.Average
import Mathlib.MeasureTheory.Measure.Lebesgue.VolumeOfBalls
import Verif.Model.Vcoul

/-!
# C150: Coulomb averages over spheres; C151: Monte-Carlo averages over the cell of a q-point
-/

namespace Verif.Vcoul

open Verif MeasureTheory Metric Set

/-! ## Integrals over balls -/

theorem volume_ball_real (R : ℝ) (hR : 0 ≤ R) (c : E3) : volume.real (ball c R) = 4 * Real.pi * R ^ 3 / 3 := by
  rw [measureReal_def, EuclideanSpace.volume_ball_fin_three, ← ENNReal.ofReal_pow hR, ← ENNReal.ofReal_mul (by positivity), ENNReal.toReal_ofReal (by positivity)]
  ring

theorem integral_ball_radial (f : ℝ → ℝ) (R : ℝ) :
    ∫ x in ball (0 : E3) R, f ‖x‖ = 4 * Real.pi * ∫ y in Ioo (0 : ℝ) R, y ^ 2 * f y := by
  have h1 : ∫ x in ball (0 : E3) R, f ‖x‖ = ∫ x : E3, (Iio R).indicator f ‖x‖ := by
    rw [← integral_indicator measurableSet_ball]
    congr 1; funext x; simp [indicator]
  rw [h1, integral_fun_norm_addHaar volume (fun y => (Iio R).indicator f y), volume_ball_real 1 zero_le_one]
  have hd : Module.finrank ℝ E3 = 3 := by simp
  rw [hd]
  have h2 : ∫ y in Ioi (0 : ℝ), y ^ (3 - 1) • (Iio R).indicator f y = ∫ y in Ioo (0 : ℝ) R, y ^ 2 * f y := by
    rw [← integral_indicator measurableSet_Ioi, ← integral_indicator measurableSet_Ioo]
    congr 1; funext y
    simp only [indicator, mem_Ioi, mem_Iio, mem_Ioo, smul_eq_mul]
    by_cases h1 : 0 < y <;> by_cases h2 : y < R <;> simp [h1, h2]
  rw [h2]
  simp only [nsmul_eq_mul, smul_eq_mul]
  push_cast; ring

/-- ∫ 8π/|x|² over a ball about the origin. -/
theorem integral_inv_sq (R : ℝ) (hR : 0 ≤ R) : ∫ x in ball (0 : E3) R, 8 * Real.pi / ‖x‖ ^ 2 = 32 * Real.pi ^ 2 * R := by
  rw [integral_ball_radial (fun y => 8 * Real.pi / y ^ 2)]
  have : ∫ y in Ioo (0 : ℝ) R, y ^ 2 * (8 * Real.pi / y ^ 2) = ∫ _y in Ioo (0 : ℝ) R, 8 * Real.pi := by
    apply setIntegral_congr_fun measurableSet_Ioo
    intro y hy
    have : y ≠ 0 := hy.1.ne'
    simp only; field_simp
  rw [this, setIntegral_const, measureReal_def, Real.volume_Ioo, ENNReal.toReal_ofReal (by linarith)]
  simp only [smul_eq_mul]; ring

/-- ∫ 8π/|x| over a ball about the origin. -/
theorem integral_inv (R : ℝ) (hR : 0 ≤ R) : ∫ x in ball (0 : E3) R, 8 * Real.pi / ‖x‖ = 16 * Real.pi ^ 2 * R ^ 2 := by
  rw [integral_ball_radial (fun y => 8 * Real.pi / y)]
  have : ∫ y in Ioo (0 : ℝ) R, y ^ 2 * (8 * Real.pi / y) = ∫ y in Ioo (0 : ℝ) R, 8 * Real.pi * y := by
    apply setIntegral_congr_fun measurableSet_Ioo
    intro y hy
    have : y ≠ 0 := hy.1.ne'
    simp only; field_simp
  rw [this, ← integral_Ioc_eq_integral_Ioo, ← intervalIntegral.integral_of_le hR, intervalIntegral.integral_const_mul, integral_id]
  ring

/-- The radius of the code is that of the ball with the volume of one q-point's cell. -/
theorem qCutoff_volume (recvol : ℝ) (nq : ℕ) (hv : 0 < recvol) (hn : 0 < nq) :
    0 < qCutoff recvol nq ∧ volume.real (ball (0 : E3) (qCutoff recvol nq)) = recvol / nq := by
  have hp : 0 < recvol / nq * 3 / (4 * Real.pi) := by have : (0 : ℝ) < nq := by exact_mod_cast hn
                                                      positivity
  have h0 : 0 < qCutoff recvol nq := Real.rpow_pos_of_pos hp _
  refine ⟨h0, ?_⟩
  rw [volume_ball_real _ h0.le]
  have : qCutoff recvol nq ^ 3 = recvol / nq * 3 / (4 * Real.pi) := by
    rw [qCutoff, ← Real.rpow_natCast, ← Real.rpow_mul hp.le]; norm_num
  rw [this]
  field_simp

/-- C150: `v_minibz_sphere` is the average of 8π/|q|² over the ball about the origin that has the volume of one q-point's cell. -/
theorem C150_sphere (recvol : ℝ) (nq : ℕ) (hv : 0 < recvol) (hn : 0 < nq) :
    ∃ R : ℝ, 0 < R ∧ volume.real (ball (0 : E3) R) = recvol / nq ∧ vSphere recvol nq = ⨍ q in ball (0 : E3) R, 8 * Real.pi / ‖q‖ ^ 2 := by
  obtain ⟨h0, h1⟩ := qCutoff_volume recvol nq hv hn
  refine ⟨_, h0, h1, ?_⟩
  rw [setAverage_eq, integral_inv_sq _ h0.le, volume_ball_real _ h0.le, vSphere, smul_eq_mul]
  field_simp
  ring

/-- C150: `oneoverq_minibz_sphere` is the average of 8π/|q| over the ball of the given radius, or of the volume of one q-point's cell. -/
theorem C150_oneoverq (recvol : ℝ) (nq : ℕ) (hv : 0 < recvol) (hn : 0 < nq) (qlen : Option ℝ) (hq : ∀ l, qlen = some l → 0 < l) :
    ∃ R : ℝ, 0 < R ∧ (∀ l, qlen = some l → R = l) ∧ (qlen = none → volume.real (ball (0 : E3) R) = recvol / nq) ∧
      oneoverqSphere recvol nq qlen = ⨍ q in ball (0 : E3) R, 8 * Real.pi / ‖q‖ := by
  have key : ∀ R : ℝ, 0 < R → 12 * Real.pi / R = ⨍ q in ball (0 : E3) R, 8 * Real.pi / ‖q‖ := by
    intro R hR
    rw [setAverage_eq, integral_inv _ hR.le, volume_ball_real _ hR.le, smul_eq_mul]
    field_simp
    ring
  cases qlen with
  | none =>
    obtain ⟨h0, h1⟩ := qCutoff_volume recvol nq hv hn
    exact ⟨_, h0, by simp, fun _ => h1, key _ h0⟩
  | some l => exact ⟨l, hq l rfl, fun l' h => by injection h, by simp, key _ (hq l rfl)⟩

end Verif.Vcoul
