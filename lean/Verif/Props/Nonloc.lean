import Mathlib.Tactic.LinearCombination
import Mathlib.Tactic.Linarith
import Mathlib.Tactic.FieldSimp
import Mathlib.Tactic.IntervalCases
import Mathlib.Algebra.BigOperators.Field
import Mathlib.Analysis.SpecificLimits.Normed
import Mathlib.Analysis.SpecialFunctions.Trigonometric.Series
import Verif.Model.Nonloc
import Verif.Props.FFT

/-!
# Properties C72, C74, C75, C76, C77: Hamiltonian application and non-local pseudopotential
-/

namespace Verif.Nonloc

open scoped ComplexConjugate
open Verif.FFT (Driver Dims DrvState ValidIdx)

/-! ## C72: the Hamiltonian -/

/-- Crystal-coordinate dot product of grid frequency `g` and grid point `r`: `Σ_axis n_axis x_axis / N_axis`. -/
noncomputable def gridDot (d : Dims) (g r : ℕ) : ℝ :=
  (d.ix g * d.ix r : ℝ) / d.nx + (d.iy g * d.iy r : ℝ) / d.ny + (d.iz g * d.iz r : ℝ) / d.nz

/-- The non-local operator between plane waves `j` and `k`: `Σ_{i,i'} β_i(j) D_{ii'} β_{i'}(k)^*`. -/
noncomputable def nlMatrix {n : ℕ} (P : Proj n) (j k : Fin n) : ℂ :=
  ∑ i ∈ Finset.range P.num, ∑ i' ∈ Finset.range P.num, P.vkb i j * P.dij i i' * conj (P.vkb i' k)

/-- The plane-wave Kohn-Sham Hamiltonian of a local potential `V` on the grid: kinetic energy, Fourier component of `V` at the
difference of the frequencies, and the non-local operators. -/
noncomputable def hamMatrix (d : Dims) (idx : List ℕ) (gk2 : Fin idx.length → ℝ) (V : Fin d.size → ℝ)
    (nl : List (Proj idx.length)) (j k : Fin idx.length) : ℂ :=
  (if j = k then ((gk2 j / 2 : ℝ) : ℂ) else 0)
    + (1 / (d.size : ℂ)) * ∑ r, (V r : ℂ) * Complex.exp (-(2 * Real.pi * Complex.I) * ((gridDot d idx[j] r - gridDot d idx[k] r : ℝ) : ℂ))
    + (nl.map fun P => nlMatrix P j k).sum

theorem wfR_eq (drv : Driver) (d : Dims) (idx : List ℕ) (hv : ValidIdx d idx) (st : DrvState ℂ) (f : Fin idx.length → ℂ)
    (r : Fin d.size) : wfR drv d idx st f r = ∑ k : Fin idx.length, FFT.ker3 d (FFT.dftKern false d) r (idx[k]) * f k := by
  unfold wfR
  rw [drv.g2r_eq d _ false idx hv st st.f _ (by simp) r r.2, FFT.fullG2r_eq d _ false idx hv st.f _ (by simp)]
  simp only [FFT.scale, Bool.false_eq_true, if_false, one_mul]
  rw [Finset.sum_range]
  apply Finset.sum_congr rfl
  intro k _
  simp

theorem wfG_eq (drv : Driver) (d : Dims) (idx : List ℕ) (hv : ValidIdx d idx) (st : DrvState ℂ) (u : Fin d.size → ℂ)
    (j : Fin idx.length) : wfG drv d idx st u j = ∑ r : Fin d.size, FFT.ker3 d (FFT.dftKern true d) (idx[j]) r * u r := by
  unfold wfG
  rw [drv.r2g_eq d _ idx hv st st.f _ _ (fun _ _ => rfl), FFT.fullR2g_eq, FFT.getD_map _ _ _ j.2, Finset.sum_range]
  apply Finset.sum_congr rfl
  intro r _
  simp

theorem ker3_pair (d : Dims) (g g' r : ℕ) : FFT.ker3 d (FFT.dftKern true d) g r * FFT.ker3 d (FFT.dftKern false d) r g'
    = Complex.exp (-(2 * Real.pi * Complex.I) * ((gridDot d g r - gridDot d g' r : ℝ) : ℂ)) := by
  rw [FFT.dft_ker3_fwd, FFT.dft_ker3_bwd, ← Complex.exp_add]
  congr 1
  unfold gridDot
  push_cast
  ring

theorem applyProj_eq (dev : Device) {n : ℕ} (P : Proj n) (psi hpsi : Fin n → ℂ) (j : Fin n) :
    applyProj dev P psi hpsi j = dev.keep (hpsi j) + ∑ k, nlMatrix P j k * psi k := by
  unfold applyProj nlMatrix
  simp only
  congr 1
  simp only [Finset.sum_mul, Finset.mul_sum]
  conv_rhs => rw [Finset.sum_comm]
  apply Finset.sum_congr rfl
  intro i _
  conv_rhs => rw [Finset.sum_comm]
  apply Finset.sum_congr rfl
  intro i' _
  apply Finset.sum_congr rfl
  intro k _
  ring

theorem foldl_applyProj {n : ℕ} (nl : List (Proj n)) (psi h : Fin n → ℂ) (j : Fin n) :
    nl.foldl (fun h P => applyProj .gpu P psi h) h j = h j + ∑ k, (nl.map fun P => nlMatrix P j k).sum * psi k := by
  induction nl generalizing h with
  | nil => simp
  | cons P nl ih =>
    rw [List.foldl_cons, ih, applyProj_eq]
    simp only [List.map_cons, List.sum_cons, add_mul, Finset.sum_add_distrib, Device.keep, id]
    ring

/-- **C72a.** Whatever the driver and whatever was transformed before, `h_psi` on the GPU with the grid-normalised potential that the SCF
driver passes applies the plane-wave Hamiltonian matrix. -/
theorem C72_h_psi_is_hamiltonian (drv : Driver) (d : Dims) (idx : List ℕ) (hv : ValidIdx d idx) (st : DrvState ℂ)
    (gk2 : Fin idx.length → ℝ) (V : Fin d.size → ℝ) (nl : List (Proj idx.length)) (psi : Fin idx.length → ℂ)
    (j : Fin idx.length) :
    hPsi .gpu drv d idx st gk2 (fun r => (V r : ℂ) / d.size) nl psi j = ∑ k, hamMatrix d idx gk2 V nl j k * psi k := by
  unfold hPsi
  simp only
  rw [foldl_applyProj, wfG_eq drv d idx hv]
  unfold hamMatrix
  simp only [add_mul, Finset.sum_add_distrib]
  congr 1
  congr 1
  · simp only [ite_mul, zero_mul, Finset.sum_ite_eq, Finset.mem_univ, if_true]
    push_cast
    ring
  · simp only [wfR_eq drv d idx hv]
    simp only [Finset.sum_mul, Finset.mul_sum]
    rw [Finset.sum_comm]
    apply Finset.sum_congr rfl
    intro k _
    apply Finset.sum_congr rfl
    intro r _
    rw [← ker3_pair]
    simp only [Fin.getElem_fin]
    ring

theorem rint_err (x : ℝ) : |(rint x : ℝ) - x| ≤ 1 / 2 := by
  have h1 := Int.fract_nonneg x
  have h2 := Int.fract_lt_one x
  have h3 : (⌊x⌋ : ℝ) = x - Int.fract x := by rw [Int.fract]; ring
  unfold rint
  rw [abs_le]
  split_ifs <;> push_cast <;> constructor <;> linarith

/-- The relative error of the conversion is at most `2^-24`. -/
theorem f4_err (x : ℝ) : |f4 x - x| ≤ 1 / 2 ^ 24 * |x| := by
  unfold f4
  split_ifs with h
  · simp [h]
  · have hx : 0 < |x| := abs_pos.2 h
    have h1 := Int.zpow_log_le_self (b := 2) (by norm_num) hx
    generalize Int.log 2 |x| = e at h1 ⊢
    have h2 : (2 : ℝ) ^ (23 - e) * (2 : ℝ) ^ (e - 23) = 1 := by rw [← zpow_add₀ (by norm_num)]; simp
    have h3 : (rint (x * (2 : ℝ) ^ (23 - e)) : ℝ) * (2 : ℝ) ^ (e - 23) - x
        = ((rint (x * (2 : ℝ) ^ (23 - e)) : ℝ) - x * (2 : ℝ) ^ (23 - e)) * (2 : ℝ) ^ (e - 23) := by
      rw [sub_mul, mul_assoc, h2, mul_one]
    rw [h3, abs_mul, abs_of_pos (zpow_pos (by norm_num : (0 : ℝ) < 2) (e - 23))]
    have h4 : (2 : ℝ) ^ (e - 23) = 2 ^ e * (1 / 2 ^ 23) := by
      rw [zpow_sub₀ (by norm_num)]
      norm_num
      ring
    rw [h4]
    have h5 := rint_err (x * (2 : ℝ) ^ (23 - e))
    have h6 : (0 : ℝ) < 2 ^ e := zpow_pos (by norm_num) e
    have h1' : (2 : ℝ) ^ e ≤ |x| := by exact_mod_cast h1
    calc _ ≤ 1 / 2 * ((2 : ℝ) ^ e * (1 / 2 ^ 23)) := mul_le_mul_of_nonneg_right h5 (by positivity)
      _ = 1 / 2 ^ 24 * 2 ^ e := by ring
      _ ≤ _ := mul_le_mul_of_nonneg_left h1' (by positivity)

theorem c8_err (z : ℂ) : ‖c8 z - z‖ ≤ 1 / 2 ^ 24 * ‖z‖ := by
  have h1 := f4_err z.re
  have h2 := f4_err z.im
  rw [← abs_of_nonneg (by positivity : (0 : ℝ) ≤ 1 / 2 ^ 24 * ‖z‖), ← abs_of_nonneg (norm_nonneg (c8 z - z))]
  rw [← sq_le_sq, mul_pow, ← Complex.normSq_eq_norm_sq, ← Complex.normSq_eq_norm_sq, Complex.normSq_apply, Complex.normSq_apply]
  have e1 : (c8 z - z).re = f4 z.re - z.re := rfl
  have e2 : (c8 z - z).im = f4 z.im - z.im := rfl
  rw [e1, e2]
  have h3 : (f4 z.re - z.re) ^ 2 ≤ (1 / 2 ^ 24) ^ 2 * z.re ^ 2 := by
    rw [← sq_abs, ← sq_abs z.re, ← mul_pow]
    exact pow_le_pow_left₀ (abs_nonneg _) h1 2
  have h4 : (f4 z.im - z.im) ^ 2 ≤ (1 / 2 ^ 24) ^ 2 * z.im ^ 2 := by
    rw [← sq_abs, ← sq_abs z.im, ← mul_pow]
    exact pow_le_pow_left₀ (abs_nonneg _) h2 2
  linarith

/-- **C72d.** On the CPU the result is the Hamiltonian matrix times the vector up to an error of single precision: for each species, `2^-24` of what had been
accumulated before the species was added. -/
theorem C72_cpu_error_partial (drv : Driver) (d : Dims) (idx : List ℕ) (hv : ValidIdx d idx) (st : DrvState ℂ)
    (gk2 : Fin idx.length → ℝ) (V : Fin d.size → ℝ) (nl : List (Proj idx.length)) (psi : Fin idx.length → ℂ)
    (j : Fin idx.length) :
    ‖hPsi .cpu drv d idx st gk2 (fun r => (V r : ℂ) / d.size) nl psi j - ∑ k, hamMatrix d idx gk2 V nl j k * psi k‖
      ≤ 1 / 2 ^ 24 * ∑ i ∈ Finset.range nl.length, ‖hPsi .cpu drv d idx st gk2 (fun r => (V r : ℂ) / d.size) (nl.take i) psi j‖ := by
  induction nl using List.reverseRecOn with
  | nil =>
    have := C72_h_psi_is_hamiltonian drv d idx hv st gk2 V [] psi j
    have e : hPsi .cpu drv d idx st gk2 (fun r => (V r : ℂ) / d.size) [] psi j
        = hPsi .gpu drv d idx st gk2 (fun r => (V r : ℂ) / d.size) [] psi j := rfl
    rw [e, this]
    simp
  | append_singleton nl P ih =>
    have e1 : hPsi .cpu drv d idx st gk2 (fun r => (V r : ℂ) / d.size) (nl ++ [P]) psi j
        = c8 (hPsi .cpu drv d idx st gk2 (fun r => (V r : ℂ) / d.size) nl psi j) + ∑ k, nlMatrix P j k * psi k := by
      unfold hPsi
      simp only [List.foldl_append, List.foldl_cons, List.foldl_nil]
      rw [applyProj_eq]
      rfl
    have e2 : ∑ k, hamMatrix d idx gk2 V (nl ++ [P]) j k * psi k = ∑ k, hamMatrix d idx gk2 V nl j k * psi k + ∑ k, nlMatrix P j k * psi k := by
      rw [← Finset.sum_add_distrib]
      apply Finset.sum_congr rfl
      intro k _
      unfold hamMatrix
      simp only [List.map_append, List.map_cons, List.map_nil, List.sum_append, List.sum_cons, List.sum_nil]
      ring
    rw [e1, e2, List.length_append, List.length_singleton, Finset.sum_range_succ, mul_add]
    have e3 : ∑ i ∈ Finset.range nl.length, ‖hPsi .cpu drv d idx st gk2 (fun r => (V r : ℂ) / d.size) ((nl ++ [P]).take i) psi j‖
        = ∑ i ∈ Finset.range nl.length, ‖hPsi .cpu drv d idx st gk2 (fun r => (V r : ℂ) / d.size) (nl.take i) psi j‖ := by
      apply Finset.sum_congr rfl
      intro i hi
      rw [List.take_append_of_le_length (Finset.mem_range.1 hi).le]
    rw [e3, List.take_left']
    · have h := c8_err (hPsi .cpu drv d idx st gk2 (fun r => (V r : ℂ) / d.size) nl psi j)
      have e4 : ∀ a b c e : ℂ, a + c - (e + c) = (b - e) + (a - b) := fun a b c e => by ring
      rw [e4 _ (hPsi .cpu drv d idx st gk2 (fun r => (V r : ℂ) / d.size) nl psi j)]
      exact (norm_add_le _ _).trans (add_le_add ih h)
    · rfl

theorem gridDot_exp_conj (x : ℝ) : conj (Complex.exp (-(2 * Real.pi * Complex.I) * (x : ℂ)))
    = Complex.exp (-(2 * Real.pi * Complex.I) * ((-x : ℝ) : ℂ)) := by
  rw [← Complex.exp_conj]
  congr 1
  simp [Complex.conj_ofReal]
  left
  exact map_ofNat _ 2

/-- The coupling matrix is Hermitian. -/
def HermDij {n : ℕ} (P : Proj n) : Prop := ∀ i < P.num, ∀ i' < P.num, P.dij i' i = conj (P.dij i i')

theorem nlMatrix_conj {n : ℕ} (P : Proj n) (h : HermDij P) (j k : Fin n) : conj (nlMatrix P j k) = nlMatrix P k j := by
  unfold nlMatrix
  simp only [map_sum, map_mul, Complex.conj_conj]
  rw [Finset.sum_comm]
  apply Finset.sum_congr rfl
  intro i hi
  apply Finset.sum_congr rfl
  intro i' hi'
  rw [h i' (Finset.mem_range.1 hi') i (Finset.mem_range.1 hi)]
  ring

theorem hamMatrix_herm (d : Dims) (idx : List ℕ) (gk2 : Fin idx.length → ℝ) (V : Fin d.size → ℝ)
    (nl : List (Proj idx.length)) (hD : ∀ P ∈ nl, HermDij P) (j k : Fin idx.length) :
    conj (hamMatrix d idx gk2 V nl j k) = hamMatrix d idx gk2 V nl k j := by
  unfold hamMatrix
  simp only [map_add, map_mul, map_sum, gridDot_exp_conj, Complex.conj_ofReal]
  congr 1
  · congr 1
    · by_cases h : j = k
      · subst h
        simp only [if_true, Complex.conj_ofReal]
      · rw [if_neg h, if_neg (fun e => h e.symm)]
        simp
    · congr 1
      · simp
      · apply Finset.sum_congr rfl
        intro r _
        congr 3
        push_cast
        ring
  · rw [map_list_sum, List.map_map]
    congr 1
    apply List.map_congr_left
    intro P hP
    exact nlMatrix_conj P (hD P hP) j k

/-- **C72b.** On the GPU `h_psi` is Hermitian: `⟨φ|Hψ⟩ = conj ⟨ψ|Hφ⟩` for every real local potential and every Hermitian (real symmetric)
coupling matrix, so expectation values are real. -/
theorem C72_h_psi_hermitian (drv : Driver) (d : Dims) (idx : List ℕ) (hv : ValidIdx d idx) (st st' : DrvState ℂ)
    (gk2 : Fin idx.length → ℝ) (V : Fin d.size → ℝ) (nl : List (Proj idx.length)) (hD : ∀ P ∈ nl, HermDij P)
    (phi psi : Fin idx.length → ℂ) :
    ∑ j, conj (phi j) * hPsi .gpu drv d idx st gk2 (fun r => (V r : ℂ) / d.size) nl psi j
      = conj (∑ j, conj (psi j) * hPsi .gpu drv d idx st' gk2 (fun r => (V r : ℂ) / d.size) nl phi j) := by
  simp only [C72_h_psi_is_hamiltonian drv d idx hv, map_sum, map_mul, Complex.conj_conj, Finset.mul_sum,
    hamMatrix_herm d idx gk2 V nl hD]
  rw [Finset.sum_comm]
  apply Finset.sum_congr rfl
  intro j _
  apply Finset.sum_congr rfl
  intro k _
  ring

/-- **C72c.** On the GPU `h_psi` is linear and does not depend on the FFT driver nor on earlier transforms. -/
theorem C72_h_psi_linear (drv drv' : Driver) (d : Dims) (idx : List ℕ) (hv : ValidIdx d idx) (st st' : DrvState ℂ)
    (gk2 : Fin idx.length → ℝ) (V : Fin d.size → ℝ) (nl : List (Proj idx.length)) (phi psi : Fin idx.length → ℂ) (a b : ℂ)
    (j : Fin idx.length) :
    hPsi .gpu drv d idx st gk2 (fun r => (V r : ℂ) / d.size) nl (fun k => a * phi k + b * psi k) j
      = a * hPsi .gpu drv' d idx st' gk2 (fun r => (V r : ℂ) / d.size) nl phi j
        + b * hPsi .gpu drv' d idx st' gk2 (fun r => (V r : ℂ) / d.size) nl psi j := by
  simp only [C72_h_psi_is_hamiltonian drv d idx hv, C72_h_psi_is_hamiltonian drv' d idx hv, Finset.mul_sum,
    ← Finset.sum_add_distrib]
  apply Finset.sum_congr rfl
  intro k _
  ring

/-- `1 + 2^-30` is rounded to `1`. -/
theorem f4_tiny : f4 (1 + 1 / 2 ^ 30) = 1 := by
  have hl : Int.log 2 |(1 + 1 / 2 ^ 30 : ℝ)| = 0 := by
    rw [abs_of_pos (by norm_num)]
    rw [Int.log_of_one_le_right _ (by norm_num)]
    have : ⌊(1 + 1 / 2 ^ 30 : ℝ)⌋₊ = 1 := by
      rw [Nat.floor_eq_iff (by norm_num)]
      norm_num
    rw [this]; rfl
  have hr : rint ((1 + 1 / 2 ^ 30 : ℝ) * (2 : ℝ) ^ (23 - (0 : ℤ))) = 2 ^ 23 := by
    have hfl : ⌊(1 + 1 / 2 ^ 30 : ℝ) * (2 : ℝ) ^ (23 - (0 : ℤ))⌋ = 2 ^ 23 := by
      rw [Int.floor_eq_iff]
      norm_num
    unfold rint
    rw [if_pos, hfl]
    rw [Int.fract, hfl]
    norm_num
  unfold f4
  rw [if_neg (by norm_num), hl, hr]
  norm_num

theorem f4_zero : f4 0 = 0 := by simp [f4]

theorem f4_one : f4 1 = 1 := by
  have h := f4_err 1
  unfold f4 at *
  rw [if_neg one_ne_zero, abs_one, Int.log_one_right] at *
  norm_num at *
  have hfl : ⌊(8388608 : ℝ)⌋ = 8388608 := by rw [Int.floor_eq_iff]; norm_num
  have : rint 8388608 = 8388608 := by
    unfold rint
    rw [if_pos, hfl]
    rw [Int.fract, hfl]; norm_num
  rw [this]; norm_num

theorem c8_ofReal (x : ℝ) : c8 (x : ℂ) = (f4 x : ℂ) := by
  apply Complex.ext
  · simp [c8]
  · simp [c8, f4_zero]

/-- **C72e (violation).** On the CPU `h_psi` is not linear as soon as there is a species, even one without projectors: with one plane wave of kinetic energy 1
and no potential, the vectors `1` and `2^-30` are reproduced, but not their sum. -/
theorem C72_cpu_not_linear (drv : Driver) (st : DrvState ℂ) :
    let H := hPsi .cpu drv ⟨1, 1, 1⟩ [0] st (fun _ => 2) (fun _ => 0) [⟨0, fun _ _ => 0, fun _ _ => 0⟩]
    ∃ phi psi : Fin 1 → ℂ, H (fun k => phi k + psi k) 0 ≠ H phi 0 + H psi 0 := by
  intro H
  have hH : ∀ psi : Fin 1 → ℂ, H psi 0 = c8 (psi 0) := by
    intro psi
    have h1 : H psi 0 = c8 (hPsi .cpu drv ⟨1, 1, 1⟩ [0] st (fun _ => 2) (fun _ => 0) [] psi 0) + 0 := by
      show hPsi .cpu drv ⟨1, 1, 1⟩ [0] st (fun _ => 2) (fun _ => 0) [⟨0, fun _ _ => 0, fun _ _ => 0⟩] psi 0 = _
      unfold hPsi
      simp only [List.foldl_cons, List.foldl_nil]
      rw [applyProj_eq]
      simp [nlMatrix, Device.keep]
    have h2 := C72_h_psi_is_hamiltonian drv ⟨1, 1, 1⟩ [0] (by simp [ValidIdx, Dims.size]) st (fun _ => 2) (fun _ => 0) [] psi 0
    have h3 : hPsi .cpu drv ⟨1, 1, 1⟩ [0] st (fun _ => 2) (fun _ => 0) [] psi 0 = psi 0 := by
      have : (fun _ : Fin (Dims.size ⟨1, 1, 1⟩) => (0 : ℂ)) = fun _ => (((0 : ℝ) : ℂ)) / (Dims.size ⟨1, 1, 1⟩ : ℂ) := by
        funext; simp
      rw [this]
      refine h2.trans ?_
      simp [hamMatrix]
    rw [h1, h3, add_zero]
  refine ⟨fun _ => 1, fun _ => ((1 / 2 ^ 30 : ℝ) : ℂ), ?_⟩
  rw [hH, hH, hH]
  have e1 : c8 (1 + ((1 / 2 ^ 30 : ℝ) : ℂ)) = 1 := by
    have : (1 + ((1 / 2 ^ 30 : ℝ) : ℂ)) = ((1 + 1 / 2 ^ 30 : ℝ) : ℂ) := by push_cast; ring
    rw [this, c8_ofReal, f4_tiny]; simp
  have e2 : c8 (1 : ℂ) = 1 := by
    have := c8_ofReal 1
    rw [f4_one] at this
    simpa using this
  rw [e1, e2, c8_ofReal]
  intro h
  have h' : (f4 (1 / 2 ^ 30) : ℂ) = 0 := by
    have h2 := congrArg (fun z => z - 1) h
    simp only [sub_self, add_sub_cancel_left] at h2
    exact h2.symm
  have h'' : f4 (1 / 2 ^ 30) = 0 := by exact_mod_cast h'
  have := f4_err (1 / 2 ^ 30)
  rw [h''] at this
  norm_num at this

/-! ## C74: the non-local operator -/

/-- Magnetic quantum number of a row. -/
def Ang.m : Ang → ℤ
  | .zero => 0
  | .imag m => -m
  | .real m => m

theorem tags_m (l : ℕ) : ((List.range (l + 1)).flatMap fun m =>
      if m = 0 then [Ang.zero] else [Ang.imag m, Ang.real m]).map Ang.m
    = (List.range (2 * l + 1)).map fun i => (((i + 1) / 2 : ℕ) : ℤ) * (-1) ^ (i % 2) := by
  induction l with
  | zero => simp [Ang.m]
  | succ l ih =>
    rw [List.range_succ (n := l + 1), List.flatMap_append, List.map_append, ih, show 2 * (l + 1) + 1 = (2 * l + 1) + 1 + 1 from by ring,
      List.range_succ (n := 2 * l + 1 + 1), List.range_succ (n := 2 * l + 1), List.map_append, List.map_append, List.append_assoc]
    congr 1
    have h1 : (2 * l + 1 + 1) / 2 = l + 1 := by omega
    have h2 : (2 * l + 1) % 2 = 1 := by omega
    have h3 : (2 * l + 1 + 1 + 1) / 2 = l + 1 := by omega
    have h4 : (2 * l + 1 + 1) % 2 = 0 := by omega
    simp only [List.flatMap_cons, List.flatMap_nil, List.map_cons, List.map_nil, h1, h2, h3, h4, Ang.m,
      Nat.add_eq_zero_iff, one_ne_zero, and_false, if_false, List.append_nil]
    simp

theorem tags_len (l : ℕ) : ((List.range (l + 1)).flatMap fun m =>
      if m = 0 then [Ang.zero] else [Ang.imag m, Ang.real m]).length = 2 * l + 1 := by
  have := congrArg List.length (tags_m l)
  simpa using this

/-- The angular parts of one beta function. -/
def tagsOf (l : ℕ) : List Ang := (List.range (l + 1)).flatMap fun m =>
      if m = 0 then [Ang.zero] else [Ang.imag m, Ang.real m]

theorem rowTags_eq (beta_l : List ℕ) : rowTags beta_l = beta_l.zipIdx.flatMap fun p => (tagsOf p.1).map fun a => (p.2, a) := by
  unfold rowTags tagsOf
  congr 1
  funext p
  rw [List.map_flatMap]
  congr 1
  funext m
  split <;> rfl

/-- **C74a.** The rows written for one atom carry exactly the labels used to build the coupling matrix: same beta function,
same `l`, and `m` negative for the imaginary and positive for the real combination. -/
theorem C74_rows_match_labels (beta_l : List ℕ) :
    (rowTags beta_l).map (fun t => t.1) = vkbBeta beta_l ∧ (rowTags beta_l).map (fun t => beta_l.getD t.1 0) = vkbL beta_l ∧
    (rowTags beta_l).map (fun t => t.2.m) = vkbM beta_l := by
  rw [rowTags_eq]
  refine ⟨?_, ?_, ?_⟩
  · unfold vkbBeta
    rw [List.map_flatMap]
    congr 1
    funext p
    rw [List.map_map, show (fun t : ℕ × Ang => t.1) ∘ (fun a => (p.2, a)) = fun _ => p.2 from rfl, List.map_const',
      show (tagsOf p.1).length = _ from tags_len p.1]
  · unfold vkbL
    rw [List.map_flatMap]
    have : beta_l.flatMap (fun l => List.replicate (2 * l + 1) l)
        = beta_l.zipIdx.flatMap (fun p => List.replicate (2 * p.1 + 1) p.1) := by
      conv_lhs => rw [← List.zipIdx_map_fst 0 beta_l, List.flatMap_map]
    rw [this, List.flatMap_def, List.flatMap_def]
    congr 1
    apply List.map_congr_left
    intro p hp
    have hp' := List.mem_zipIdx hp
    rw [List.map_map, show (fun t : ℕ × Ang => beta_l.getD t.1 0) ∘ (fun a => (p.2, a)) = fun _ => beta_l.getD p.2 0 from rfl,
      List.map_const', show (tagsOf p.1).length = _ from tags_len p.1]
    have h1 : p.2 < beta_l.length := by omega
    have h2 : beta_l[p.2] = p.1 := by simpa using hp'.2.2.symm
    simp [List.getD_eq_getElem?_getD, h1, h2]
  · unfold vkbM
    rw [List.map_flatMap]
    conv_rhs => rw [← List.zipIdx_map_fst 0 beta_l, List.flatMap_map]
    congr 1
    funext p
    rw [List.map_map]
    exact tags_m p.1

/-- Real spherical harmonic `S_{l,m}` built from `Y_{l,|m|}`: `√2 (-1)^m Re Y` for `m > 0`, `√2 (-1)^m Im Y` for `m < 0`. -/
noncomputable def realHarm (Y : ℕ → ℕ → ℂ) (l : ℕ) (m : ℤ) : ℂ :=
  if m = 0 then Y l 0
  else if m < 0 then (Real.sqrt 2 : ℂ) * (-1) ^ m.natAbs * (Y l m.natAbs).im
  else (Real.sqrt 2 : ℂ) * (-1) ^ m.natAbs * (Y l m.natAbs).re

/-- Sum over the rows of one atom, by beta function and magnetic quantum number. -/
theorem sum_tagsOf (l : ℕ) (f : Ang → ℂ) :
    ((tagsOf l).map f).sum = f .zero + ∑ m ∈ Finset.range l, (f (.imag (m + 1)) + f (.real (m + 1))) := by
  unfold tagsOf
  induction l with
  | zero => simp
  | succ l ih =>
    rw [List.range_succ, List.flatMap_append, List.map_append, List.sum_append, ih, Finset.sum_range_succ]
    simp
    ring

theorem sum_Icc_sym (l : ℕ) (g : ℤ → ℂ) :
    ∑ m ∈ Finset.Icc (-(l : ℤ)) l, g m = g 0 + ∑ m ∈ Finset.range l, (g (-((m : ℤ) + 1)) + g ((m : ℤ) + 1)) := by
  induction l with
  | zero => simp
  | succ l ih =>
    have e : Finset.Icc (-((l + 1 : ℕ) : ℤ)) ((l + 1 : ℕ) : ℤ)
        = insert (-((l : ℤ) + 1)) (insert ((l : ℤ) + 1) (Finset.Icc (-(l : ℤ)) l)) := by
      ext x
      simp only [Finset.mem_Icc, Finset.mem_insert]
      push_cast
      omega
    rw [e, Finset.sum_insert (by simp; omega), Finset.sum_insert (by simp), ih, Finset.sum_range_succ]
    ring

theorem sum_rows (beta_l : List ℕ) (f : ℕ × Ang → ℂ) :
    ∑ i ∈ Finset.range (vkbL beta_l).length, f ((rowTags beta_l).getD i (0, .zero))
      = ∑ b ∈ Finset.range beta_l.length, ((tagsOf (beta_l.getD b 0)).map fun a => f (b, a)).sum := by
  have hl : (rowTags beta_l).length = (vkbL beta_l).length := by
    rw [← (C74_rows_match_labels beta_l).2.1, List.length_map]
  have e : ∑ i ∈ Finset.range (vkbL beta_l).length, f ((rowTags beta_l).getD i (0, .zero)) = ((rowTags beta_l).map f).sum := by
    rw [← hl, ← DFTComm.list_sum_range]
    congr 1
    apply List.ext_getElem
    · simp
    · intro i h1 h2
      simp at h1 h2
      simp [h2]
  rw [e, rowTags_eq, List.map_flatMap, List.flatMap_def, List.sum_flatten, List.map_map, ← DFTComm.list_sum_range]
  congr 1
  apply List.ext_getElem
  · simp
  · intro i h1 h2
    simp at h1 h2
    simp only [List.getElem_map, List.getElem_zipIdx, List.getElem_range, List.map_map, Nat.zero_add]
    rw [List.getD_eq_getElem _ _ h1]
    rfl

theorem sum_rows2 (beta_l : List ℕ) (T : ℕ × Ang → ℕ × Ang → ℂ) :
    ∑ i ∈ Finset.range (vkbL beta_l).length, ∑ i' ∈ Finset.range (vkbL beta_l).length,
        T ((rowTags beta_l).getD i (0, .zero)) ((rowTags beta_l).getD i' (0, .zero))
      = ∑ b ∈ Finset.range beta_l.length, ((tagsOf (beta_l.getD b 0)).map fun a =>
        ∑ b' ∈ Finset.range beta_l.length, ((tagsOf (beta_l.getD b' 0)).map fun a' => T (b, a) (b', a')).sum).sum := by
  rw [← sum_rows beta_l (fun t => ∑ b' ∈ Finset.range beta_l.length,
    ((tagsOf (beta_l.getD b' 0)).map fun a' => T t (b', a')).sum)]
  apply Finset.sum_congr rfl
  intro i _
  exact sum_rows beta_l (T _)

theorem row_labels (beta_l : List ℕ) (i : ℕ) (hi : i < (vkbL beta_l).length) :
    (vkbBeta beta_l).getD i 0 = ((rowTags beta_l).getD i (0, .zero)).1 ∧
    (vkbL beta_l).getD i 0 = beta_l.getD ((rowTags beta_l).getD i (0, .zero)).1 0 ∧
    (vkbM beta_l).getD i 0 = ((rowTags beta_l).getD i (0, .zero)).2.m := by
  obtain ⟨h1, h2, h3⟩ := C74_rows_match_labels beta_l
  have hl : (rowTags beta_l).length = (vkbL beta_l).length := by
    rw [← h2, List.length_map]
  rw [← h1, ← h2, ← h3]
  have hi' : i < (rowTags beta_l).length := by omega
  refine ⟨?_, ?_, ?_⟩ <;> simp [List.getD_eq_getElem?_getD, hi']

theorem sum_tagsOf_m (l : ℕ) (g : ℤ → ℂ) : ((tagsOf l).map fun a => g a.m).sum = ∑ m ∈ Finset.Icc (-(l : ℤ)) l, g m := by
  rw [sum_tagsOf, sum_Icc_sym]
  simp only [Ang.m]
  push_cast
  rfl

/-- The sign the code puts on the `m ≠ 0` rows relative to `realHarm`. -/
noncomputable def rowSign (m : ℤ) : ℂ := if m = 0 then 1 else -1

theorem rowVal_eq (beta_l : List ℕ) (Y : ℕ → ℕ → ℂ) (F : ℕ → ℝ) (b : ℕ) (a : Ang) (l : ℕ) (ha : a ∈ tagsOf l) :
    rowVal beta_l Y F (b, a) = rowSign a.m * realHarm Y (beta_l.getD b 0) a.m * F b := by
  unfold tagsOf at ha
  rw [List.mem_flatMap] at ha
  obtain ⟨m, _, ha⟩ := ha
  unfold rowVal rowSign realHarm
  by_cases hm : m = 0
  · rw [if_pos hm, List.mem_singleton] at ha
    subst ha
    simp [Ang.m]
  · rw [if_neg hm] at ha
    have hp : 0 < m := by omega
    rcases List.mem_cons.1 ha with rfl | ha
    · have h1 : (Ang.imag m).m ≠ 0 := by simp only [Ang.m]; omega
      have h2 : (Ang.imag m).m < 0 := by simp only [Ang.m]; omega
      have h3 : (Ang.imag m).m.natAbs = m := by simp only [Ang.m]; omega
      rw [if_neg h1, if_neg h1, if_pos h2, h3]
      ring
    · rw [List.mem_singleton] at ha
      subst ha
      have h1 : (Ang.real m).m ≠ 0 := by simp only [Ang.m]; omega
      have h2 : ¬ (Ang.real m).m < 0 := by simp only [Ang.m]; omega
      have h3 : (Ang.real m).m.natAbs = m := by simp only [Ang.m]; omega
      rw [if_neg h1, if_neg h1, if_neg h2, h3]
      ring

/-- Non-local matrix element of one atom at the origin. -/
noncomputable def atomElement (beta_l : List ℕ) (Yj Yk : ℕ → ℕ → ℂ) (Fj Fk : ℕ → ℝ) (dij : ℕ → ℕ → ℝ) : ℂ :=
  ∑ b ∈ Finset.range beta_l.length, ∑ b' ∈ Finset.range beta_l.length,
    if beta_l.getD b 0 = beta_l.getD b' 0 then
      (dij b b' * Fj b * Fk b' : ℂ) * ∑ m ∈ Finset.Icc (-(beta_l.getD b 0 : ℤ)) (beta_l.getD b 0),
        realHarm Yj (beta_l.getD b 0) m * conj (realHarm Yk (beta_l.getD b 0) m)
    else 0

theorem atom_sum (beta_l : List ℕ) (Yj Yk : ℕ → ℕ → ℂ) (Fj Fk : ℕ → ℝ) (dij : ℕ → ℕ → ℝ) :
    ∑ i ∈ Finset.range (vkbL beta_l).length, ∑ i' ∈ Finset.range (vkbL beta_l).length,
      rowVal beta_l Yj Fj ((rowTags beta_l).getD i (0, .zero)) * (dijAtom beta_l dij i i' : ℂ)
        * conj (rowVal beta_l Yk Fk ((rowTags beta_l).getD i' (0, .zero)))
    = atomElement beta_l Yj Yk Fj Fk dij := by
  have e : ∀ i ∈ Finset.range (vkbL beta_l).length, ∀ i' ∈ Finset.range (vkbL beta_l).length,
      rowVal beta_l Yj Fj ((rowTags beta_l).getD i (0, .zero)) * (dijAtom beta_l dij i i' : ℂ)
        * conj (rowVal beta_l Yk Fk ((rowTags beta_l).getD i' (0, .zero)))
      = (fun t t' : ℕ × Ang => if beta_l.getD t.1 0 = beta_l.getD t'.1 0 ∧ t.2.m = t'.2.m then
          rowVal beta_l Yj Fj t * (dij t.1 t'.1 : ℂ) * conj (rowVal beta_l Yk Fk t') else 0)
          ((rowTags beta_l).getD i (0, .zero)) ((rowTags beta_l).getD i' (0, .zero)) := by
    intro i hi i' hi'
    obtain ⟨a1, a2, a3⟩ := row_labels beta_l i (Finset.mem_range.1 hi)
    obtain ⟨b1, b2, b3⟩ := row_labels beta_l i' (Finset.mem_range.1 hi')
    unfold dijAtom
    rw [a1, a2, a3, b1, b2, b3]
    simp only
    split <;> simp
  rw [Finset.sum_congr rfl fun i hi => Finset.sum_congr rfl (e i hi)]
  refine (sum_rows2 beta_l (fun t t' : ℕ × Ang => if beta_l.getD t.1 0 = beta_l.getD t'.1 0 ∧ t.2.m = t'.2.m then
          rowVal beta_l Yj Fj t * (dij t.1 t'.1 : ℂ) * conj (rowVal beta_l Yk Fk t') else 0)).trans ?_
  unfold atomElement
  apply Finset.sum_congr rfl
  intro b _
  set l := beta_l.getD b 0 with hl
  have e2 : ∀ a ∈ tagsOf l, (∑ b' ∈ Finset.range beta_l.length, ((tagsOf (beta_l.getD b' 0)).map fun a' =>
      (if beta_l.getD b 0 = beta_l.getD b' 0 ∧ a.m = a'.m then
          rowVal beta_l Yj Fj (b, a) * (dij b b' : ℂ) * conj (rowVal beta_l Yk Fk (b', a')) else 0)).sum)
      = (fun m : ℤ => ∑ b' ∈ Finset.range beta_l.length, if l = beta_l.getD b' 0 then
          (dij b b' * Fj b * Fk b' : ℂ) * (realHarm Yj l m * conj (realHarm Yk l m)) else 0) a.m := by
    intro a ha
    simp only
    apply Finset.sum_congr rfl
    intro b' _
    by_cases hb : l = beta_l.getD b' 0
    · rw [if_pos hb, ← hb]
      have e3 : ((tagsOf l).map fun a' => (if beta_l.getD b 0 = l ∧ a.m = a'.m then
          rowVal beta_l Yj Fj (b, a) * (dij b b' : ℂ) * conj (rowVal beta_l Yk Fk (b', a')) else 0))
          = (tagsOf l).map fun a' => (fun m' : ℤ => if a.m = m' then (dij b b' * Fj b * Fk b' : ℂ) *
            (rowSign a.m * rowSign m' * (realHarm Yj l a.m * conj (realHarm Yk l m'))) else 0) a'.m := by
        apply List.map_congr_left
        intro a' ha'
        simp only [← hl, true_and]
        split
        · rw [rowVal_eq _ _ _ _ _ _ ha, rowVal_eq _ _ _ _ _ _ ha', ← hl, ← hb]
          have hs : ∀ m, conj (rowSign m) = rowSign m := by
            intro m
            unfold rowSign
            split <;> simp
          simp only [map_mul, hs, Complex.conj_ofReal]
          ring
        · rfl
      rw [e3]
      refine (sum_tagsOf_m l (fun m' : ℤ => if a.m = m' then (dij b b' * Fj b * Fk b' : ℂ) *
            (rowSign a.m * rowSign m' * (realHarm Yj l a.m * conj (realHarm Yk l m'))) else 0)).trans ?_
      have hin : a.m ∈ Finset.Icc (-(l : ℤ)) l := by
        unfold tagsOf at ha
        rw [List.mem_flatMap] at ha
        obtain ⟨m, hm, ha⟩ := ha
        have hm := List.mem_range.1 hm
        rw [Finset.mem_Icc]
        split at ha
        · rw [List.mem_singleton.1 ha]
          simp [Ang.m]
        · rcases List.mem_cons.1 ha with rfl | ha
          · simp only [Ang.m]; omega
          · rw [List.mem_singleton.1 ha]
            simp only [Ang.m]; omega
      rw [Finset.sum_ite_eq, if_pos hin]
      have : rowSign a.m * rowSign a.m = 1 := by unfold rowSign; split <;> simp
      rw [this, one_mul]
    · rw [if_neg hb]
      apply List.sum_eq_zero
      intro x hx
      obtain ⟨a', _, rfl⟩ := List.mem_map.1 hx
      rw [if_neg (fun h => hb h.1)]
  rw [List.map_congr_left e2]
  refine (sum_tagsOf_m l (fun m : ℤ => ∑ b' ∈ Finset.range beta_l.length, if l = beta_l.getD b' 0 then
          (dij b b' * Fj b * Fk b' : ℂ) * (realHarm Yj l m * conj (realHarm Yk l m)) else 0)).trans ?_
  rw [Finset.sum_comm]
  apply Finset.sum_congr rfl
  intro b' _
  split
  · rw [Finset.mul_sum]
  · simp

/-- **C74b.** The non-local operator that is applied is, between the plane waves `k+G_j` and `k+G_k`, the sum over the atoms
of `e^{-2πi τ·(G_j - G_k)}` times `Σ_{ββ'} D_ββ' F_β(j) F_β'(k) Σ_m S_lm(j) S_lm(k)^*` over pairs of beta functions of equal
angular momentum `l`. -/
theorem C74_nonlocal_operator {n : ℕ} (beta_l : List ℕ) (nat : ℕ) (tau : ℕ → Fin 3 → ℝ) (gk : Fin n → Fin 3 → ℝ)
    (Y : Fin n → ℕ → ℕ → ℂ) (F : ℕ → Fin n → ℝ) (dij : ℕ → ℕ → ℝ) (j k : Fin n) :
    nlMatrix (speciesProj beta_l nat tau gk Y F dij) j k
      = ∑ a ∈ Finset.range nat, Complex.exp (-(2 * Real.pi * Complex.I) * ((∑ c, tau a c * (gk j c - gk k c) : ℝ) : ℂ))
        * atomElement beta_l (Y j) (Y k) (fun b => F b j) (fun b => F b k) dij := by
  unfold nlMatrix speciesProj genVkbDij
  simp only
  set nv := (vkbL beta_l).length with hnv
  rw [DFTComm.sum_range_mul]
  apply Finset.sum_congr rfl
  intro a ha
  rw [← atom_sum, Finset.mul_sum]
  apply Finset.sum_congr rfl
  intro i hi
  have hi := Finset.mem_range.1 hi
  have hdiv : ∀ a' i', i' < nv → (a' * nv + i') / nv = a' ∧ (a' * nv + i') % nv = i' := by
    intro a' i' h
    have hp : 0 < nv := by omega
    constructor
    · rw [mul_comm, Nat.mul_add_div hp, Nat.div_eq_of_lt h, add_zero]
    · rw [mul_comm, Nat.mul_add_mod, Nat.mod_eq_of_lt h]
  rw [DFTComm.sum_range_mul, Finset.sum_eq_single_of_mem a ha, Finset.mul_sum]
  · apply Finset.sum_congr rfl
    intro i' hi'
    have hi' := Finset.mem_range.1 hi'
    rw [(hdiv a i hi).1, (hdiv a i hi).2, (hdiv a i' hi').1, (hdiv a i' hi').2, if_pos rfl]
    by_cases hd : (vkbL beta_l).getD i 0 = (vkbL beta_l).getD i' 0
    · rw [map_mul, map_mul, gridDot_exp_conj, hd]
      have hph : -(Complex.I ^ (vkbL beta_l).getD i' 0) * conj (-(Complex.I ^ (vkbL beta_l).getD i' 0)) = 1 := by
        rw [map_neg, map_pow, Complex.conj_I, neg_mul_neg, ← mul_pow]
        simp
      have hex : Complex.exp (-(2 * Real.pi * Complex.I) * ((∑ c, tau a c * gk j c : ℝ) : ℂ))
          * Complex.exp (-(2 * Real.pi * Complex.I) * ((-(∑ c, tau a c * gk k c) : ℝ) : ℂ))
          = Complex.exp (-(2 * Real.pi * Complex.I) * ((∑ c, tau a c * (gk j c - gk k c) : ℝ) : ℂ)) := by
        rw [← Complex.exp_add]
        congr 1
        simp only [mul_sub, Finset.sum_sub_distrib]
        push_cast
        ring
      rw [← hex]
      linear_combination (Complex.exp (-(2 * Real.pi * Complex.I) * ((∑ c, tau a c * gk j c : ℝ) : ℂ))
          * Complex.exp (-(2 * Real.pi * Complex.I) * ((-(∑ c, tau a c * gk k c) : ℝ) : ℂ))
          * rowVal beta_l (Y j) (fun b => F b j) ((rowTags beta_l).getD i (0, .zero)) * (dijAtom beta_l dij i i' : ℂ)
          * conj (rowVal beta_l (Y k) (fun b => F b k) ((rowTags beta_l).getD i' (0, .zero)))) * hph
    · have : dijAtom beta_l dij i i' = 0 := by
        unfold dijAtom
        rw [if_neg (fun h => hd h.1)]
      rw [this]
      simp
  · intro a' ha' hne
    apply Finset.sum_eq_zero
    intro i' hi'
    have hi' := Finset.mem_range.1 hi'
    rw [(hdiv a i hi).1, (hdiv a' i' hi').1, if_neg (fun h => hne h.symm)]
    simp

theorem exp_int_shift (x : ℝ) (n : ℤ) : Complex.exp (-(2 * Real.pi * Complex.I) * ((x + n : ℝ) : ℂ))
    = Complex.exp (-(2 * Real.pi * Complex.I) * (x : ℂ)) := by
  rw [Complex.exp_eq_exp_iff_exists_int]
  exact ⟨-n, by push_cast; ring⟩

/-- **C74c.** Replacing atoms by translates under lattice vectors leaves the non-local operator unchanged, for every `k` and every
set of plane waves. -/
theorem C74_lattice_translation {n : ℕ} (beta_l : List ℕ) (nat : ℕ) (tau tau' : ℕ → Fin 3 → ℝ)
    (hshift : ∀ a, ∀ c, ∃ s : ℤ, tau' a c = tau a c + s)
    (G : Fin n → Fin 3 → ℤ) (kpt : Fin 3 → ℝ)
    (Y : Fin n → ℕ → ℕ → ℂ) (F : ℕ → Fin n → ℝ) (dij : ℕ → ℕ → ℝ) (j k : Fin n) :
    nlMatrix (speciesProj beta_l nat tau' (fun j c => G j c + kpt c) Y F dij) j k
      = nlMatrix (speciesProj beta_l nat tau (fun j c => G j c + kpt c) Y F dij) j k := by
  rw [C74_nonlocal_operator, C74_nonlocal_operator]
  apply Finset.sum_congr rfl
  intro a _
  congr 1
  choose s hs using hshift a
  have : (∑ c, tau' a c * ((G j c + kpt c) - (G k c + kpt c)) : ℝ)
      = ∑ c, tau a c * ((G j c + kpt c) - (G k c + kpt c)) + ((∑ c, s c * (G j c - G k c) : ℤ) : ℝ) := by
    push_cast
    rw [← Finset.sum_add_distrib]
    apply Finset.sum_congr rfl
    intro c _
    rw [hs]
    ring
  rw [this]
  exact exp_int_shift _ _

/-- **C74d.** A rigid translation of all atoms by `t` multiplies the matrix element between `k+G_j` and `k+G_k` by
`e^{-2πi t·(G_j-G_k)}`: the same operator in a translated frame. Relabelling the atoms changes nothing. -/
theorem C74_translation_relabelling {n : ℕ} (beta_l : List ℕ) (nat : ℕ) (tau : ℕ → Fin 3 → ℝ) (t : Fin 3 → ℝ)
    (gk : Fin n → Fin 3 → ℝ) (Y : Fin n → ℕ → ℕ → ℂ) (F : ℕ → Fin n → ℝ) (dij : ℕ → ℕ → ℝ) (j k : Fin n)
    (σ : Equiv.Perm (Fin nat)) :
    nlMatrix (speciesProj beta_l nat (fun a c => tau a c + t c) gk Y F dij) j k
      = Complex.exp (-(2 * Real.pi * Complex.I) * ((∑ c, t c * (gk j c - gk k c) : ℝ) : ℂ))
        * nlMatrix (speciesProj beta_l nat tau gk Y F dij) j k ∧
    nlMatrix (speciesProj beta_l nat (fun a => if h : a < nat then tau (σ ⟨a, h⟩) else tau a) gk Y F dij) j k
      = nlMatrix (speciesProj beta_l nat tau gk Y F dij) j k := by
  constructor
  · rw [C74_nonlocal_operator, C74_nonlocal_operator, Finset.mul_sum]
    apply Finset.sum_congr rfl
    intro a _
    rw [← mul_assoc, ← Complex.exp_add]
    congr 2
    simp only [add_mul, Finset.sum_add_distrib]
    push_cast
    ring
  · rw [C74_nonlocal_operator, C74_nonlocal_operator, Finset.sum_range, Finset.sum_range]
    simp only [Fin.is_lt, dif_pos]
    exact Equiv.sum_comp σ (fun a : Fin nat =>
      Complex.exp (-(2 * Real.pi * Complex.I) * ((∑ c, tau a c * (gk j c - gk k c) : ℝ) : ℂ))
        * atomElement beta_l (Y j) (Y k) (fun b => F b j) (fun b => F b k) dij)

/-- **C74e.** `vnl_diag` (used to precondition the eigensolver) is the diagonal of the non-local operator, summed over the
species. -/
theorem C74_vnl_diag {n : ℕ} (sp : List (List ℕ × ℕ × (ℕ → Fin 3 → ℝ) × (Fin n → ℕ → ℕ → ℂ) × (ℕ → Fin n → ℝ) × (ℕ → ℕ → ℝ)))
    (gk : Fin n → Fin 3 → ℝ) (j : Fin n) :
    vnlDiag (sp.map fun s => vkbDiag s.2.1 (vkbL s.1).length (speciesProj s.1 s.2.1 s.2.2.1 gk s.2.2.2.1 s.2.2.2.2.1 s.2.2.2.2.2)
        (dijAtom s.1 s.2.2.2.2.2)) j
      = (sp.map fun s => nlMatrix (speciesProj s.1 s.2.1 s.2.2.1 gk s.2.2.2.1 s.2.2.2.2.1 s.2.2.2.2.2) j j).sum := by
  unfold vnlDiag
  rw [List.map_map]
  congr 1
  apply List.map_congr_left
  rintro ⟨bl, nat, tau, Y, F, dij⟩ _
  simp only [Function.comp]
  unfold vkbDiag nlMatrix
  show _ = ∑ i ∈ Finset.range (nat * (vkbL bl).length), ∑ i' ∈ Finset.range (nat * (vkbL bl).length), _
  set nv := (vkbL bl).length with hnv
  rw [DFTComm.sum_range_mul]
  apply Finset.sum_congr rfl
  intro a ha
  apply Finset.sum_congr rfl
  intro i hi
  have hi := Finset.mem_range.1 hi
  have hdiv : ∀ a' i', i' < nv → (a' * nv + i') / nv = a' ∧ (a' * nv + i') % nv = i' := by
    intro a' i' h
    have hp : 0 < nv := by omega
    constructor
    · rw [mul_comm, Nat.mul_add_div hp, Nat.div_eq_of_lt h, add_zero]
    · rw [mul_comm, Nat.mul_add_mod, Nat.mod_eq_of_lt h]
  have hd : ∀ r s, (speciesProj bl nat tau gk Y F dij).dij r s
      = if r / nv = s / nv then (dijAtom bl dij (r % nv) (s % nv) : ℂ) else 0 := fun _ _ => rfl
  rw [DFTComm.sum_range_mul, Finset.sum_eq_single_of_mem a ha, Finset.mul_sum]
  · apply Finset.sum_congr rfl
    intro i' hi'
    have hi' := Finset.mem_range.1 hi'
    rw [hd, (hdiv a i hi).1, (hdiv a i hi).2, (hdiv a i' hi').1, (hdiv a i' hi').2, if_pos rfl]
    ring
  · intro a' ha' hne
    apply Finset.sum_eq_zero
    intro i' hi'
    have hi' := Finset.mem_range.1 hi'
    rw [hd, (hdiv a i hi).1, (hdiv a' i' hi').1, if_neg (fun h => hne h.symm)]
    simp

/-- **C74f.** With a symmetric `D_ij` in the pseudopotential file the coupling matrix is Hermitian, so C72b applies. -/
theorem C74_hermitian {n : ℕ} (beta_l : List ℕ) (nat : ℕ) (tau : ℕ → Fin 3 → ℝ) (gk : Fin n → Fin 3 → ℝ)
    (Y : Fin n → ℕ → ℕ → ℂ) (F : ℕ → Fin n → ℝ) (dij : ℕ → ℕ → ℝ) (hs : ∀ b b', dij b b' = dij b' b) :
    HermDij (speciesProj beta_l nat tau gk Y F dij) := by
  intro i _ i' _
  show (if i' / (vkbL beta_l).length = i / (vkbL beta_l).length then (dijAtom beta_l dij (i' % _) (i % _) : ℂ) else 0)
    = conj (if i / (vkbL beta_l).length = i' / (vkbL beta_l).length then (dijAtom beta_l dij (i % _) (i' % _) : ℂ) else 0)
  have : ∀ a b, dijAtom beta_l dij a b = dijAtom beta_l dij b a := by
    intro a b
    unfold dijAtom
    rw [hs]
    congr 1
    simp only [eq_comm]
  by_cases h : i / (vkbL beta_l).length = i' / (vkbL beta_l).length
  · rw [if_pos h, if_pos h.symm, this, Complex.conj_ofReal]
  · rw [if_neg h, if_neg (fun e => h e.symm), map_zero]

/-- The rows of a species with an `s` and a `p` projector. -/
example : rowTags [0, 1] = [(0, .zero), (1, .zero), (1, .imag 1), (1, .real 1)] ∧ vkbM [0, 1] = [0, 0, -1, 1]
    ∧ vkbL [0, 1] = [0, 1, 1, 1] ∧ vkbBeta [0, 1] = [0, 1, 1, 1] := by decide

/-! ## C75: interpolation of the radial part -/

/-- **C75a.** The four-point interpolation reproduces every cubic polynomial tabulated at spacing `DEL_Q` exactly, wherever it is
defined. -/
theorem C75_exact_for_cubics (c0 c1 c2 c3 : ℝ) (num : ℕ) (q : ℝ) (hq : 0 ≤ q) (v : ℝ)
    (h : interp (fun i => c0 + c1 * (i * delQ) + c2 * (i * delQ) ^ 2 + c3 * (i * delQ) ^ 3) num q = .ok v) :
    v = c0 + c1 * q + c2 * q ^ 2 + c3 * q ^ 3 := by
  unfold interp at h
  simp only at h
  split at h
  · injection h with h
    have hr : (0 : ℤ) ≤ rint (q / delQ) := by
      have h0 : 0 ≤ ⌊q / delQ⌋ := Int.floor_nonneg.2 (div_nonneg hq (by norm_num [delQ]))
      unfold rint
      split_ifs <;> omega
    have hcast : (((rint (q / delQ)).toNat : ℕ) : ℝ) = (rint (q / delQ) : ℝ) := by
      exact_mod_cast Int.toNat_of_nonneg hr
    set i : ℝ := (rint (q / delQ) : ℝ) with hi
    have hqe : q = (q / delQ - i + i) * delQ := by
      rw [sub_add_cancel, div_mul_cancel₀]
      norm_num [delQ]
    rw [← h]
    push_cast
    rw [hcast]
    set x := q / delQ - i with hx
    rw [hqe]
    ring
  · exact absurd h (by simp)

theorem rint_le_ceil (x : ℝ) : rint x ≤ ⌈x⌉ := by
  unfold rint
  have h1 : ⌊x⌋ ≤ ⌈x⌉ := Int.floor_le_ceil x
  split_ifs with h2 h3 h4
  · exact h1
  all_goals
    first
    | exact h1
    | (have hf : 0 < Int.fract x := by linarith
       have : (⌊x⌋ : ℝ) < x := by
         have := Int.floor_add_fract x
         linarith
       have := Int.lt_ceil.2 this
       omega)

/-- **C75b.** For every plane wave of a `k+G` sphere of the wavefunction cutoff (`|k+G| ≤ √(2·ecut)`) the four table points
exist, so the interpolation never reads outside the table. -/
theorem C75_table_covers_sphere (table : ℕ → ℝ) (ecut q : ℝ) (hq : q ≤ Real.sqrt (2 * ecut)) :
    ∃ v, interp table (numq ecut) q = .ok v := by
  have hd : (0 : ℝ) < delQ := by norm_num [delQ]
  have h1 : rint (q / delQ) ≤ ⌈Real.sqrt (2 * ecut) / delQ⌉ :=
    (rint_le_ceil _).trans (Int.ceil_mono (div_le_div_of_nonneg_right hq hd.le))
  have h2 : ⌈Real.sqrt (2 * ecut) / delQ + 4⌉ = ⌈Real.sqrt (2 * ecut) / delQ⌉ + 4 := by simp
  have h0 : 0 ≤ ⌈Real.sqrt (2 * ecut) / delQ⌉ := Int.ceil_nonneg (div_nonneg (Real.sqrt_nonneg _) hd.le)
  unfold interp
  simp only
  rw [if_pos]
  · exact ⟨_, rfl⟩
  · unfold numq
    rw [h2]
    omega

/-- **C75c.** Beyond the table the code raises `IndexError`: a `k+G` more than five table spacings past the sphere radius is
never silently extrapolated. -/
theorem C75_outside_raises (table : ℕ → ℝ) (ecut q : ℝ) (hq : Real.sqrt (2 * ecut) + 5 * delQ ≤ q) :
    interp table (numq ecut) q = .error .index := by
  have hd : (0 : ℝ) < delQ := by norm_num [delQ]
  have h2 : ⌈Real.sqrt (2 * ecut) / delQ + 4⌉ = ⌈Real.sqrt (2 * ecut) / delQ⌉ + 4 := by simp
  have h3 : Real.sqrt (2 * ecut) / delQ + 5 ≤ q / delQ := by
    rw [le_div_iff₀ hd, add_mul, div_mul_cancel₀ _ hd.ne']
    exact hq
  have h4 : ⌈Real.sqrt (2 * ecut) / delQ⌉ + 1 ≤ ⌊q / delQ⌋ := by
    rw [Int.le_floor]
    push_cast
    have := Int.ceil_lt_add_one (Real.sqrt (2 * ecut) / delQ)
    linarith
  have h5 : ⌊q / delQ⌋ ≤ rint (q / delQ) := by
    unfold rint
    split_ifs <;> omega
  unfold interp
  simp only
  rw [if_neg]
  unfold numq
  rw [h2]
  have h0 : 0 ≤ ⌈Real.sqrt (2 * ecut) / delQ⌉ := Int.ceil_nonneg (div_nonneg (Real.sqrt_nonneg _) hd.le)
  omega

/-- A cutoff of 8 Hartree: the table has 404 points, and `|k+G| = 4` is read at the points 400 to 403. -/
example : numq 8 = 404 := by
  unfold numq delQ
  rw [show (2 * 8 : ℝ) = 4 ^ 2 from by norm_num, Real.sqrt_sq (by norm_num)]
  norm_num
  rfl

/-! ## C76: Simpson integration -/

theorem everyOther_get {α : Type*} (l : List α) : (∀ i, (everyOther l)[i]? = l[2 * i]?) ∧ (everyOther l).length = (l.length + 1) / 2 := by
  induction l using everyOther.induct with
  | case1 => simp [everyOther]
  | case2 a =>
    refine ⟨?_, by simp [everyOther]⟩
    intro i
    cases i with
    | zero => simp [everyOther]
    | succ i => simp [everyOther, Nat.mul_add]
  | case3 a b l ih =>
    refine ⟨?_, ?_⟩
    · intro i
      cases i with
      | zero => simp [everyOther]
      | succ i => simp [everyOther, Nat.mul_add, ih.1 i]
    · simp only [everyOther, List.length_cons, ih.2]
      omega

/-- Composite Simpson rule on the samples `0 … 2m` with unit spacing. -/
noncomputable def simpsonSpec (f : ℕ → ℝ) (m : ℕ) : ℝ :=
  ∑ i ∈ Finset.range m, (f (2 * i) + 4 * f (2 * i + 1) + f (2 * i + 2)) / 3

/-- **C76a.** `simpson` never fails, whatever the number of mesh points, and returns the composite Simpson sum over the first
`2⌊(n-1)/2⌋ + 1` of the `n` points. -/
theorem C76_simpson_value (f_r r_ab : List ℝ) (hl : f_r.length = r_ab.length) :
    simpson f_r r_ab = .ok (simpsonSpec (fun i => f_r.getD i 0 * r_ab.getD i 0) ((f_r.length - 1) / 2)) := by
  unfold simpson
  simp only
  set f := List.zipWith (· * ·) f_r r_ab with hf
  have hfl : f.length = f_r.length := by simp [hf, hl]
  have hA : (sliceA f).length = (f_r.length - 1) / 2 := by
    unfold sliceA
    rw [(everyOther_get _).2, List.length_take]
    omega
  have hB : (sliceB f).length = (f_r.length - 1) / 2 := by
    unfold sliceB
    rw [(everyOther_get _).2, List.length_drop, List.length_take]
    omega
  have hC : (sliceC f).length = (f_r.length - 1) / 2 := by
    unfold sliceC
    rw [(everyOther_get _).2, List.length_drop]
    omega
  rw [if_pos ⟨hA.trans hB.symm, hB.trans hC.symm⟩]
  congr 1
  unfold simpsonSpec
  rw [← Finset.sum_div, one_div, div_eq_inv_mul]
  congr 1
  rw [← DFTComm.list_sum_range]
  congr 1
  apply List.ext_getElem
  · simp [hA, hB, hC]
  · intro i h1 h2
    simp at h2
    have hfe : ∀ k, k < f_r.length → f[k]? = some (f_r.getD k 0 * r_ab.getD k 0) := by
      intro k hk
      rw [hf, List.getElem?_zipWith, List.getElem?_eq_getElem hk, List.getElem?_eq_getElem (by omega)]
      simp [hk, show k < r_ab.length by omega]
    have eA : (sliceA f)[i]? = some (f_r.getD (2 * i) 0 * r_ab.getD (2 * i) 0) := by
      unfold sliceA
      rw [(everyOther_get _).1, List.getElem?_take_of_lt (by omega), hfe _ (by omega)]
    have eB : (sliceB f)[i]? = some (f_r.getD (2 * i + 1) 0 * r_ab.getD (2 * i + 1) 0) := by
      unfold sliceB
      rw [(everyOther_get _).1, List.getElem?_drop, List.getElem?_take_of_lt (by omega), Nat.add_comm 1, hfe _ (by omega)]
    have eC : (sliceC f)[i]? = some (f_r.getD (2 * i + 2) 0 * r_ab.getD (2 * i + 2) 0) := by
      unfold sliceC
      rw [(everyOther_get _).1, List.getElem?_drop, Nat.add_comm 2, hfe _ (by omega)]
    have gA := (List.getElem?_eq_some_iff.1 eA).2
    have gB := (List.getElem?_eq_some_iff.1 eB).2
    have gC := (List.getElem?_eq_some_iff.1 eC).2
    simp only [List.getElem_zipWith, List.getElem_map, List.getElem_range, gA, gB, gC]

/-- **C76b.** For an odd number of mesh points the rule integrates cubics of the mesh index exactly. -/
theorem C76_exact_for_cubics (c0 c1 c2 c3 : ℝ) (m : ℕ) :
    simpsonSpec (fun i => c0 + c1 * i + c2 * i ^ 2 + c3 * i ^ 3) m
      = c0 * (2 * m : ℕ) + c1 / 2 * ((2 * m : ℕ) : ℝ) ^ 2 + c2 / 3 * ((2 * m : ℕ) : ℝ) ^ 3 + c3 / 4 * ((2 * m : ℕ) : ℝ) ^ 4 := by
  unfold simpsonSpec
  induction m with
  | zero => simp
  | succ m ih =>
    rw [Finset.sum_range_succ, ih]
    push_cast
    ring

/-- **C76c (violation).** With an even number of mesh points the last sample is ignored instead of being rejected: the comment
in the code says the integration "will fail", but it silently returns the integral of the shorter mesh. -/
theorem C76_even_drops_last (f_r r_ab : List ℝ) (hl : f_r.length = r_ab.length) (x y : ℝ) (ho : f_r.length % 2 = 1) :
    simpson (f_r ++ [x]) (r_ab ++ [y]) = simpson f_r r_ab := by
  rw [C76_simpson_value _ _ (by simp [hl]), C76_simpson_value _ _ hl]
  congr 1
  have h1 : ((f_r ++ [x]).length - 1) / 2 = (f_r.length - 1) / 2 := by
    rw [List.length_append, List.length_singleton]
    omega
  rw [h1]
  unfold simpsonSpec
  apply Finset.sum_congr rfl
  intro i hi
  have hi := Finset.mem_range.1 hi
  have e : ∀ k < f_r.length, (f_r ++ [x]).getD k 0 = f_r.getD k 0 := by
    intro k hk
    simp [List.getD_eq_getElem?_getD, List.getElem?_append_left hk]
  have e' : ∀ k < f_r.length, (r_ab ++ [y]).getD k 0 = r_ab.getD k 0 := by
    intro k hk
    simp [List.getD_eq_getElem?_getD, List.getElem?_append_left (show k < r_ab.length by omega)]
  simp only
  rw [e _ (by omega), e _ (by omega), e _ (by omega), e' _ (by omega), e' _ (by omega), e' _ (by omega)]

/-! ## C77: spherical Bessel functions -/

/-- Spherical Bessel functions by their upward recurrence. -/
noncomputable def sphBessel : ℕ → ℝ → ℝ
  | 0, x => Real.sin x / x
  | 1, x => Real.sin x / x ^ 2 - Real.cos x / x
  | n + 2, x => (2 * n + 3) / x * sphBessel (n + 1) x - sphBessel n x

/-- **C77a.** For every order that is implemented the closed form is the spherical Bessel function; higher orders are
refused. -/
theorem C77_closed_forms (n : ℕ) (x : ℝ) (hx : x ≠ 0) :
    jnLarge n x = if n ≤ 6 then some (sphBessel n x) else none := by
  by_cases hn : n ≤ 6
  · rw [if_pos hn]
    interval_cases n <;> (unfold jnLarge; simp only [sphBessel, Option.some.injEq]) <;> push_cast <;> field_simp <;> ring
  · rw [if_neg hn]
    unfold jnLarge
    match n, hn with
    | n + 7, _ => rfl

/-- General term of the power series of the spherical Bessel function. -/
noncomputable def jnTerm (n k : ℕ) (x : ℝ) : ℝ :=
  (-1) ^ k * x ^ (n + 2 * k) / (2 ^ k * k.factorial * (2 * n + 2 * k + 1).doubleFactorial)

theorem semifact_step (n k : ℕ) : ((2 * (n + 1) + 2 * k + 1).doubleFactorial : ℝ)
    = (2 * n + 2 * k + 3) * ((2 * n + 2 * k + 1).doubleFactorial : ℝ) := by
  rw [show 2 * (n + 1) + 2 * k + 1 = (2 * n + 2 * k + 1) + 2 from by ring, Nat.doubleFactorial_add_two]
  push_cast
  ring

theorem dfac_ne (m : ℕ) : ((m.doubleFactorial : ℕ) : ℝ) ≠ 0 := by
  exact_mod_cast (Nat.doubleFactorial_pos m).ne'

/-- **C77b.** The branch for small arguments is the power series truncated after five terms. -/
theorem C77_small_is_truncated_series (n : ℕ) (x : ℝ) : jnSmall n x = ∑ k ∈ Finset.range 5, jnTerm n k x := by
  unfold jnSmall jnTerm semifact
  simp only [Finset.sum_range_succ, Finset.sum_range_zero, zero_add]
  have e1 : ((2 * n + 2 * 1 + 1).doubleFactorial : ℝ) = (2 * n + 3) * ((2 * n + 1).doubleFactorial : ℝ) := by
    rw [show 2 * n + 2 * 1 + 1 = (2 * n + 1) + 2 from by ring, Nat.doubleFactorial_add_two]; push_cast; ring
  have e2 : ((2 * n + 2 * 2 + 1).doubleFactorial : ℝ) = (2 * n + 5) * ((2 * n + 2 * 1 + 1).doubleFactorial : ℝ) := by
    rw [show 2 * n + 2 * 2 + 1 = (2 * n + 2 * 1 + 1) + 2 from by ring, Nat.doubleFactorial_add_two]; push_cast; ring
  have e3 : ((2 * n + 2 * 3 + 1).doubleFactorial : ℝ) = (2 * n + 7) * ((2 * n + 2 * 2 + 1).doubleFactorial : ℝ) := by
    rw [show 2 * n + 2 * 3 + 1 = (2 * n + 2 * 2 + 1) + 2 from by ring, Nat.doubleFactorial_add_two]; push_cast; ring
  have e4 : ((2 * n + 2 * 4 + 1).doubleFactorial : ℝ) = (2 * n + 9) * ((2 * n + 2 * 3 + 1).doubleFactorial : ℝ) := by
    rw [show 2 * n + 2 * 4 + 1 = (2 * n + 2 * 3 + 1) + 2 from by ring, Nat.doubleFactorial_add_two]; push_cast; ring
  rw [e4, e3, e2, e1, show 2 * n + 2 * 0 + 1 = 2 * n + 1 from by ring]
  have h0 := dfac_ne (2 * n + 1)
  have h1 : (2 * n + 3 : ℝ) ≠ 0 := by positivity
  have h2 : (2 * n + 5 : ℝ) ≠ 0 := by positivity
  have h3 : (2 * n + 7 : ℝ) ≠ 0 := by positivity
  have h4 : (2 * n + 9 : ℝ) ≠ 0 := by positivity
  simp only [Nat.factorial, pow_add]
  push_cast
  field_simp
  ring

theorem hasSum_shift {f : ℕ → ℝ} {a : ℝ} (h : HasSum f a) (h0 : f 0 = 0) : HasSum (fun k => f (k + 1)) a := by
  have := (hasSum_nat_add_iff' 1).2 h
  simpa [h0] using this

theorem odd_factorial (k : ℕ) : ((2 * k + 1).factorial : ℝ) = 2 ^ k * k.factorial * ((2 * k + 1).doubleFactorial : ℝ) := by
  rw [Nat.factorial_eq_mul_doubleFactorial, Nat.doubleFactorial_two_mul]
  push_cast
  ring

/-- The recurrence defining `sphBessel` is that of the power series: for `x ≠ 0` the series converges to it. -/
theorem hasSum_sphBessel (x : ℝ) (hx : x ≠ 0) : ∀ n, HasSum (fun k => jnTerm n k x) (sphBessel n x) ∧
    HasSum (fun k => jnTerm (n + 1) k x) (sphBessel (n + 1) x)
  | 0 => by
    have hs : HasSum (fun k => jnTerm 0 k x) (sphBessel 0 x) := by
      have h := (Real.hasSum_sin x).div_const x
      have e : (fun k => jnTerm 0 k x) = fun i => (-1) ^ i * x ^ (2 * i + 1) / ((2 * i + 1).factorial : ℝ) / x := by
        funext k
        unfold jnTerm
        rw [odd_factorial, show 2 * 0 + 2 * k + 1 = 2 * k + 1 from by ring, zero_add, pow_succ]
        field_simp
      rw [e]
      exact h
    refine ⟨hs, ?_⟩
    have h1 := ((Real.hasSum_sin x).div_const (x ^ 2)).sub ((Real.hasSum_cos x).div_const x)
    have h2 := hasSum_shift h1 (by simp; field_simp; norm_num)
    have e : (fun k => jnTerm (0 + 1) k x) = fun k => (-1) ^ (k + 1) * x ^ (2 * (k + 1) + 1) / ((2 * (k + 1) + 1).factorial : ℝ) / x ^ 2
        - (-1) ^ (k + 1) * x ^ (2 * (k + 1)) / ((2 * (k + 1)).factorial : ℝ) / x := by
      funext k
      unfold jnTerm
      have hf : ((2 * (k + 1) + 1).factorial : ℝ) = (2 * (k + 1) + 1) * ((2 * (k + 1)).factorial : ℝ) := by
        rw [Nat.factorial_succ]
        push_cast
        ring
      have hf2 : ((2 * (k + 1)).factorial : ℝ) ≠ 0 := by exact_mod_cast Nat.factorial_ne_zero _
      have hf3 := odd_factorial (k + 1)
      have hk1 : ((k + 1).factorial : ℝ) = (k + 1) * (k.factorial : ℝ) := by
        rw [Nat.factorial_succ]
        push_cast
        ring
      have hk : (k.factorial : ℝ) ≠ 0 := by exact_mod_cast Nat.factorial_ne_zero _
      have hd := dfac_ne (2 * (k + 1) + 1)
      rw [show 2 * (0 + 1) + 2 * k + 1 = 2 * (k + 1) + 1 from by ring]
      have hkey : ((2 * (k + 1)).factorial : ℝ) = 2 ^ (k + 1) * ((k + 1) * k.factorial) * ((2 * (k + 1) + 1).doubleFactorial : ℝ) / (2 * (k + 1) + 1) := by
        rw [eq_div_iff (by positivity), ← hk1, ← hf3, hf]
        ring
      rw [hf, hkey]
      have hp : (2 * ((k : ℝ) + 1) + 1) ≠ 0 := by positivity
      have hp2 : ((k : ℝ) + 1) ≠ 0 := by positivity
      rw [show (0 + 1 + 2 * k) = 2 * k + 1 from by ring, show 2 * (k + 1) + 1 = 2 * k + 3 from by ring, show 2 * (k + 1) = 2 * k + 2 from by ring]
      rw [show 2 * (k + 1) + 1 = 2 * k + 3 from by ring] at hd
      simp only [pow_succ]
      field_simp
      ring
    rw [e]
    exact h2
  | n + 1 => by
    obtain ⟨h1, h2⟩ := hasSum_sphBessel x hx n
    refine ⟨h2, ?_⟩
    have h3 := (h2.mul_left ((2 * n + 3) / x)).sub h1
    have h4 := hasSum_shift h3 (by
      unfold jnTerm
      have e1 := semifact_step n 0
      have hd := dfac_ne (2 * n + 2 * 0 + 1)
      rw [e1]
      have hp : (2 * (n : ℝ) + 3) ≠ 0 := by positivity
      simp only [pow_succ, pow_zero, Nat.factorial, mul_zero, add_zero, Nat.cast_zero]
      rw [mul_zero, add_zero] at hd
      push_cast
      field_simp
      ring)
    have e : (fun k => jnTerm (n + 1 + 1) k x) = fun k => (2 * n + 3) / x * jnTerm (n + 1) (k + 1) x - jnTerm n (k + 1) x := by
      funext k
      unfold jnTerm
      have e1 := semifact_step n (k + 1)
      have e2 : ((2 * (n + 1 + 1) + 2 * k + 1).doubleFactorial : ℝ) = ((2 * (n + 1) + 2 * (k + 1) + 1).doubleFactorial : ℝ) := by
        congr 2
        ring
      have hd := dfac_ne (2 * n + 2 * (k + 1) + 1)
      rw [e2, e1]
      have hp : (2 * (n : ℝ) + 3) ≠ 0 := by positivity
      have hp2 : (2 * (n : ℝ) + 2 * ((k + 1 : ℕ) : ℝ) + 3) ≠ 0 := by positivity
      have hp3 : ((k : ℝ) + 1) ≠ 0 := by positivity
      have hk1 : ((k + 1).factorial : ℝ) = (k + 1) * (k.factorial : ℝ) := by
        rw [Nat.factorial_succ]
        push_cast
        ring
      have hk : (k.factorial : ℝ) ≠ 0 := by exact_mod_cast Nat.factorial_ne_zero _
      rw [hk1]
      have x1 : x ^ (n + 1 + 1 + 2 * k) = x ^ (n + 2 * (k + 1)) := by congr 1; ring
      have x2 : x ^ (n + 1 + 2 * (k + 1)) = x ^ (n + 2 * (k + 1)) * x := by rw [← pow_succ]; congr 1; ring
      rw [x1, x2, pow_succ (-1 : ℝ), pow_succ (2 : ℝ)]
      field_simp
      push_cast
      ring
    rw [e]
    exact h4

/-- Magnitude of the general term. -/
noncomputable def jnMag (n : ℕ) (x : ℝ) (k : ℕ) : ℝ :=
  x ^ (n + 2 * k) / (2 ^ k * k.factorial * (2 * n + 2 * k + 1).doubleFactorial)

theorem jnMag_antitone (n : ℕ) (x : ℝ) (hx : 0 ≤ x) (h2 : x ^ 2 ≤ 4 * n + 6) : Antitone (jnMag n x) := by
  apply antitone_nat_of_succ_le
  intro k
  unfold jnMag
  have e1 : ((2 * n + 2 * (k + 1) + 1).doubleFactorial : ℝ) = (2 * n + 2 * k + 3) * ((2 * n + 2 * k + 1).doubleFactorial : ℝ) := by
    rw [show 2 * n + 2 * (k + 1) + 1 = (2 * n + 2 * k + 1) + 2 from by ring, Nat.doubleFactorial_add_two]
    push_cast
    ring
  have hk1 : ((k + 1).factorial : ℝ) = (k + 1) * (k.factorial : ℝ) := by
    rw [Nat.factorial_succ]
    push_cast
    ring
  have hk : (0 : ℝ) < (k.factorial : ℝ) := by exact_mod_cast Nat.factorial_pos _
  have hd : (0 : ℝ) < ((2 * n + 2 * k + 1).doubleFactorial : ℝ) := by exact_mod_cast Nat.doubleFactorial_pos _
  rw [e1, hk1, show n + 2 * (k + 1) = n + 2 * k + 2 from by ring, pow_add, pow_succ (2 : ℝ)]
  have hq : x ^ 2 / ((2 * (k + 1)) * (2 * n + 2 * k + 3)) ≤ 1 := by
    rw [div_le_one (by positivity)]
    have hkn : (0 : ℝ) ≤ k := Nat.cast_nonneg k
    have hnn : (0 : ℝ) ≤ n := Nat.cast_nonneg n
    nlinarith [mul_nonneg hkn hnn, mul_nonneg hkn hkn]
  have hm : 0 ≤ x ^ (n + 2 * k) / (2 ^ k * k.factorial * ((2 * n + 2 * k + 1).doubleFactorial : ℝ)) := by positivity
  calc x ^ (n + 2 * k) * x ^ 2 / (2 ^ k * 2 * ((k + 1) * k.factorial) * ((2 * n + 2 * k + 3) * ((2 * n + 2 * k + 1).doubleFactorial : ℝ)))
      = x ^ (n + 2 * k) / (2 ^ k * k.factorial * ((2 * n + 2 * k + 1).doubleFactorial : ℝ))
        * (x ^ 2 / ((2 * (k + 1)) * (2 * n + 2 * k + 3))) := by
        field_simp
    _ ≤ _ := mul_le_of_le_one_right hm hq

theorem smallThr_bound (n : ℕ) (hn : n ≤ 6) : smallThr n ^ 2 ≤ 4 * n + 6 ∧ 0 < smallThr n := by
  unfold smallThr
  interval_cases n <;> norm_num

/-- **C77c.** On its whole range of use the truncated series overestimates the spherical Bessel function by at most its first
omitted term. -/
theorem C77_series_error (n : ℕ) (hn : n ≤ 6) (x : ℝ) (hx : 0 < x) (hthr : x ≤ smallThr n) :
    sphBessel n x ≤ jnSmall n x ∧
      jnSmall n x - sphBessel n x ≤ x ^ (n + 10) / (3840 * (2 * n + 11).doubleFactorial) := by
  have h2 : x ^ 2 ≤ 4 * n + 6 := (pow_le_pow_left₀ hx.le hthr 2).trans (smallThr_bound n hn).1
  have ha := jnMag_antitone n x hx.le h2
  have e : ∀ k, jnTerm n k x = (-1) ^ k * jnMag n x k := by
    intro k
    unfold jnTerm jnMag
    ring
  have ht := (hasSum_sphBessel x hx.ne' n).1.tendsto_sum_nat
  simp only [e] at ht
  have u := ha.tendsto_le_alternating_series ht 2
  have l := ha.alternating_series_le_tendsto ht 3
  rw [C77_small_is_truncated_series]
  simp only [e]
  refine ⟨u, ?_⟩
  rw [show 2 * 3 = 5 + 1 from rfl, Finset.sum_range_succ] at l
  have : (-1) ^ 5 * jnMag n x 5 = -(x ^ (n + 10) / (3840 * (2 * n + 11).doubleFactorial)) := by
    unfold jnMag
    norm_num [Nat.factorial]
  rw [this] at l
  linarith

/-- **C77.** `spherical_jn` for every implemented order and every positive argument: within `x^(n+10)/(3840 (2n+11)!!)` of the
spherical Bessel function below the threshold and equal to it above; orders above 6 are refused. -/
theorem C77_spherical_jn (n : ℕ) (x : ℝ) (hx : 0 < x) :
    (6 < n → sphericalJn n x = none) ∧
    (n ≤ 6 → ∃ v, sphericalJn n x = some v ∧ |v - sphBessel n x| ≤ x ^ (n + 10) / (3840 * (2 * n + 11).doubleFactorial) ∧
      (smallThr n < x → v = sphBessel n x)) := by
  constructor
  · intro h
    unfold sphericalJn
    rw [if_pos h]
  · intro h
    unfold sphericalJn
    rw [if_neg (by omega)]
    by_cases ht : x ≤ smallThr n
    · rw [if_pos ht]
      obtain ⟨a, b⟩ := C77_series_error n h x hx ht
      exact ⟨_, rfl, by rw [abs_of_nonneg (by linarith)]; exact b, fun h' => absurd ht (not_le.2 h')⟩
    · rw [if_neg ht, C77_closed_forms n x hx.ne', if_pos h]
      refine ⟨_, rfl, ?_, fun _ => rfl⟩
      rw [sub_self, abs_zero]
      positivity

/-- At the origin: `j_0(0) = 1`, `j_l(0) = 0` for `l > 0`. -/
theorem C77_at_zero (n : ℕ) (hn : n ≤ 6) : sphericalJn n 0 = some (if n = 0 then 1 else 0) := by
  unfold sphericalJn
  rw [if_neg (by omega), if_pos (smallThr_bound n hn).2.le]
  unfold jnSmall semifact
  by_cases h : n = 0
  · subst h
    simp
  · simp [h]

end Verif.Nonloc
