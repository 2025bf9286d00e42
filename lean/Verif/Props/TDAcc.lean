import Mathlib.Analysis.CStarAlgebra.Matrix
import Mathlib.Analysis.SpecialFunctions.Exp
import Verif.Props.TDNorm

/-!
# C195, C196: accuracy of the propagators of real-time TDDFT
-/

namespace Verif.TDDFT

open Matrix Asymptotics Filter
open scoped Topology
open Verif.FFT (Driver Dims DrvState ValidIdx)
open Verif.Nonloc (Proj)

/-- The remainder of the exponential series in a Banach algebra. -/
theorem exp_tail {A : Type*} [NormedRing A] [NormedAlgebra ℂ A] [CompleteSpace A] (x : A) (n : ℕ) :
    ‖NormedSpace.exp x - ∑ k ∈ Finset.range (n + 1), ((k.factorial : ℂ)⁻¹) • x ^ k‖ ≤ ‖x‖ ^ (n + 1) / (n + 1).factorial * Real.exp ‖x‖ := by
  have hs : HasSum (fun k : ℕ => ((k.factorial : ℂ)⁻¹) • x ^ k) (NormedSpace.exp x) := NormedSpace.exp_series_hasSum_exp' x
  have ht := (hasSum_nat_add_iff' (n + 1)).2 hs
  have he : HasSum (fun k : ℕ => ‖x‖ ^ (n + 1) / (n + 1).factorial * (‖x‖ ^ k / k.factorial)) (‖x‖ ^ (n + 1) / (n + 1).factorial * Real.exp ‖x‖) := by
    refine HasSum.mul_left _ ?_
    have := NormedSpace.expSeries_div_hasSum_exp (𝔸 := ℝ) ‖x‖
    rw [← Real.exp_eq_exp_ℝ] at this
    exact this
  rw [← ht.tsum_eq]
  refine tsum_of_norm_bounded he fun k => ?_
  rw [norm_smul, norm_inv, Complex.norm_natCast]
  have h1 : ‖x ^ (k + (n + 1))‖ ≤ ‖x‖ ^ (k + (n + 1)) := norm_pow_le' x (by omega)
  have h2 : (((n + 1).factorial * k.factorial : ℕ) : ℝ) ≤ ((k + (n + 1)).factorial : ℕ) := by
    have := Nat.factorial_mul_factorial_dvd_factorial_add k (n + 1)
    have := Nat.le_of_dvd (Nat.factorial_pos _) this
    exact_mod_cast (mul_comm _ _).trans_le this
  push_cast at h2
  calc _ ≤ ((n + 1).factorial * k.factorial : ℝ)⁻¹ * ‖x‖ ^ (k + (n + 1)) := by
        refine mul_le_mul (inv_anti₀ (by positivity) h2) h1 (norm_nonneg _) (by positivity)
    _ = _ := by
        rw [pow_add]
        field_simp

section L2

open scoped Matrix.Norms.L2Operator

theorem norm2_toLp {n : ℕ} (x : Fin n → ℂ) : norm2 x = ‖WithLp.toLp 2 x‖ ^ 2 := by
  rw [EuclideanSpace.norm_sq_eq]
  unfold norm2
  exact Finset.sum_congr rfl fun j _ => Complex.normSq_eq_norm_sq _

theorem opNorm_le {n : ℕ} (A : Matrix (Fin n) (Fin n) ℂ) (L : ℝ) (hL : 0 ≤ L) (h : ∀ x, norm2 (A *ᵥ x) ≤ L ^ 2 * norm2 x) : ‖A‖ ≤ L := by
  rw [Matrix.cstar_norm_def]
  refine ContinuousLinearMap.opNorm_le_bound _ hL fun x => ?_
  have := h x.ofLp
  rw [norm2_toLp, norm2_toLp, ← mul_pow] at this
  exact le_of_sq_le_sq this (by positivity)

theorem mulVec_le {n : ℕ} (A : Matrix (Fin n) (Fin n) ℂ) (x : Fin n → ℂ) : Real.sqrt (norm2 (A *ᵥ x)) ≤ ‖A‖ * Real.sqrt (norm2 x) := by
  rw [norm2_toLp, norm2_toLp, Real.sqrt_sq (norm_nonneg _), Real.sqrt_sq (norm_nonneg _)]
  exact Matrix.l2_opNorm_mulVec A (WithLp.toLp 2 x)

theorem sqrt_norm2_add {n : ℕ} (x y : Fin n → ℂ) : Real.sqrt (norm2 (x + y)) ≤ Real.sqrt (norm2 x) + Real.sqrt (norm2 y) := by
  rw [norm2_toLp, norm2_toLp, norm2_toLp, Real.sqrt_sq (norm_nonneg _), Real.sqrt_sq (norm_nonneg _), Real.sqrt_sq (norm_nonneg _)]
  exact norm_add_le _ _

/-- The exact evolution of a Hermitian matrix is unitary. -/
theorem evolution_unitary {n : ℕ} (H : Matrix (Fin n) (Fin n) ℂ) (hH : Hᴴ = H) (t : ℝ) (x : Fin n → ℂ) : norm2 (NormedSpace.exp ((-Complex.I * t) • H) *ᵥ x) = norm2 x := by
  have e : (NormedSpace.exp ((-Complex.I * t) • H))ᴴ = NormedSpace.exp (-((-Complex.I * t) • H)) := by
    rw [← Matrix.exp_conjTranspose, Matrix.conjTranspose_smul, hH, ← neg_smul]
    congr 2
    simp
  have : star (NormedSpace.exp ((-Complex.I * t) • H) *ᵥ x) ⬝ᵥ (NormedSpace.exp ((-Complex.I * t) • H) *ᵥ x) = star x ⬝ᵥ x := by
    rw [Matrix.star_mulVec, ← Matrix.dotProduct_mulVec, Matrix.mulVec_mulVec, e, exp_neg_mul, Matrix.one_mulVec]
  rw [norm2_dot, norm2_dot] at this
  exact_mod_cast this

theorem sqrt_norm2_zero {n : ℕ} : Real.sqrt (norm2 (0 : Fin n → ℂ)) = 0 := by simp [norm2]

/-- One step of the truncated series against the exact evolution. -/
theorem taylor_step {n : ℕ} (H : Matrix (Fin n) (Fin n) ℂ) (L : ℝ) (hL : 0 ≤ L) (h : ∀ x, norm2 (H *ᵥ x) ≤ L ^ 2 * norm2 x) (dt : ℝ) (order : ℕ) (x : Fin n → ℂ) :
    Real.sqrt (norm2 ((∑ k ∈ Finset.range (order + 1), ((-Complex.I * dt) ^ k / k.factorial : ℂ) • H ^ k) *ᵥ x - NormedSpace.exp ((-Complex.I * dt) • H) *ᵥ x))
      ≤ (L * |dt|) ^ (order + 1) / (order + 1).factorial * Real.exp (L * |dt|) * Real.sqrt (norm2 x) := by
  rw [← Matrix.sub_mulVec]
  refine (mulVec_le _ x).trans (mul_le_mul_of_nonneg_right ?_ (Real.sqrt_nonneg _))
  have hn : ‖(-Complex.I * dt) • H‖ ≤ L * |dt| := by
    rw [norm_smul, norm_mul, norm_neg, Complex.norm_I, one_mul, Complex.norm_real, Real.norm_eq_abs, mul_comm]
    exact mul_le_mul_of_nonneg_right (opNorm_le H L hL h) (abs_nonneg _)
  have he : ∑ k ∈ Finset.range (order + 1), ((-Complex.I * dt) ^ k / k.factorial : ℂ) • H ^ k = ∑ k ∈ Finset.range (order + 1), ((k.factorial : ℂ)⁻¹) • ((-Complex.I * dt) • H) ^ k := by
    refine Finset.sum_congr rfl fun k _ => ?_
    rw [smul_pow, smul_smul]
    congr 1
    ring
  rw [he, norm_sub_rev]
  refine (exp_tail _ order).trans ?_
  have h0 := norm_nonneg ((-Complex.I * dt) • H)
  refine mul_le_mul (div_le_div_of_nonneg_right (pow_le_pow_left₀ h0 hn _) (by positivity)) (Real.exp_le_exp.2 hn) (Real.exp_pos _).le (by positivity)

end L2

/-- The Kohn-Sham Hamiltonian matrix. -/
noncomputable abbrev hmat (d : Dims) (idx : List ℕ) (gk2 : Fin idx.length → ℝ) (V : Fin d.size → ℝ) (nl : List (Proj idx.length)) : Matrix (Fin idx.length) (Fin idx.length) ℂ := Matrix.of (Nonloc.hamMatrix d idx gk2 V nl)

theorem hmat_herm (d : Dims) (idx : List ℕ) (gk2 : Fin idx.length → ℝ) (V : Fin d.size → ℝ) (nl : List (Proj idx.length)) (hD : ∀ P ∈ nl, Nonloc.HermDij P) : (hmat d idx gk2 V nl)ᴴ = hmat d idx gk2 V nl := by
  ext i j
  rw [Matrix.conjTranspose_apply]
  exact Nonloc.hamMatrix_herm d idx gk2 V nl hD j i

theorem hPsi_mulVec (drv : Driver) (d : Dims) (idx : List ℕ) (hv : ValidIdx d idx) (st : DrvState ℂ) (gk2 : Fin idx.length → ℝ) (V : Fin d.size → ℝ) (nl : List (Proj idx.length)) (x : Fin idx.length → ℂ) :
    Nonloc.hPsi .gpu drv d idx st gk2 (fun r => (V r : ℂ) / d.size) nl x = hmat d idx gk2 V nl *ᵥ x := by
  funext j
  rw [Nonloc.C72_h_psi_is_hamiltonian drv d idx hv]
  rfl

/-- **C195.** Accuracy of the Taylor propagator, for every basis, real local potential and Hermitian non-local operators: if `L` bounds the Hamiltonian (`|Hx| ≤ L |x|` for all `x`), then with
`delta = (L |dt|)^(order+1) / (order+1)! * exp(L |dt|)`
* one step differs from the exact evolution `exp(-i dt H)` by at most `delta` times the norm of the state,
* the norm changes by at most that much (the exact evolution keeps it),
* `m` steps differ from the exact evolution over `m dt` by at most `(1 + delta)^m - 1` times the norm. -/
theorem C195_taylor_accuracy (drv : Driver) (d : Dims) (idx : List ℕ) (hv : ValidIdx d idx) (st : DrvState ℂ) (gk2 : Fin idx.length → ℝ) (V : Fin d.size → ℝ) (nl : List (Proj idx.length))
    (hD : ∀ P ∈ nl, Nonloc.HermDij P) (L : ℝ) (hL : 0 ≤ L) (h : ∀ x, norm2 (Nonloc.hPsi .gpu drv d idx st gk2 (fun r => (V r : ℂ) / d.size) nl x) ≤ L ^ 2 * norm2 x) (dt : ℝ) (order : ℕ)
    (step : (Fin idx.length → ℂ) → Fin idx.length → ℂ) (hstep : step = taylorProp (Nonloc.hPsi .gpu drv d idx st gk2 (fun r => (V r : ℂ) / d.size) nl) dt order)
    (delta : ℝ) (hdelta : delta = (L * |dt|) ^ (order + 1) / (order + 1).factorial * Real.exp (L * |dt|)) (psi : Fin idx.length → ℂ) :
    Real.sqrt (norm2 (step psi - NormedSpace.exp ((-Complex.I * dt) • hmat d idx gk2 V nl) *ᵥ psi)) ≤ delta * Real.sqrt (norm2 psi) ∧
    |Real.sqrt (norm2 (step psi)) - Real.sqrt (norm2 psi)| ≤ delta * Real.sqrt (norm2 psi) ∧
    ∀ m : ℕ, Real.sqrt (norm2 (step^[m] psi - NormedSpace.exp ((-Complex.I * ((m * dt : ℝ) : ℂ)) • hmat d idx gk2 V nl) *ᵥ psi)) ≤ ((1 + delta) ^ m - 1) * Real.sqrt (norm2 psi) := by
  have hH := hmat_herm d idx gk2 V nl hD
  have hb : ∀ x, norm2 (hmat d idx gk2 V nl *ᵥ x) ≤ L ^ 2 * norm2 x := fun x => by
    rw [← hPsi_mulVec drv d idx hv st]
    exact h x
  have h0 : 0 ≤ delta := by rw [hdelta]; positivity
  have one : ∀ x, Real.sqrt (norm2 (step x - NormedSpace.exp ((-Complex.I * dt) • hmat d idx gk2 V nl) *ᵥ x)) ≤ delta * Real.sqrt (norm2 x) := by
    intro x
    rw [hstep, C49_hamiltonian_matrix drv d idx hv, hdelta]
    exact taylor_step _ L hL hb dt order x
  have neg : ∀ x : Fin idx.length → ℂ, norm2 (-x) = norm2 x := fun x => by simp [norm2, Complex.normSq_neg]
  have drift : ∀ x, |Real.sqrt (norm2 (step x)) - Real.sqrt (norm2 x)| ≤ delta * Real.sqrt (norm2 x) := by
    intro x
    refine le_trans ?_ (one x)
    set y := NormedSpace.exp ((-Complex.I * dt) • hmat d idx gk2 V nl) *ᵥ x with hy
    have hyn : norm2 y = norm2 x := evolution_unitary _ hH dt x
    rw [abs_le]
    have a1 := sqrt_norm2_add (step x - y) y
    have a2 := sqrt_norm2_add (-(step x - y)) (step x)
    rw [sub_add_cancel] at a1
    rw [neg, show -(step x - y) + step x = y by abel] at a2
    rw [hyn] at a1 a2
    constructor <;> linarith
  refine ⟨one psi, drift psi, fun m => ?_⟩
  have hgrow : ∀ m : ℕ, Real.sqrt (norm2 (step^[m] psi)) ≤ (1 + delta) ^ m * Real.sqrt (norm2 psi) := by
    intro m
    induction m with
    | zero => simp
    | succ m ih =>
      rw [Function.iterate_succ_apply', pow_succ']
      have := (abs_le.1 (drift (step^[m] psi))).2
      nlinarith [mul_le_mul_of_nonneg_left ih (by linarith : 0 ≤ 1 + delta)]
  induction m with
  | zero =>
    simp [norm2]
  | succ m ih =>
    rw [Function.iterate_succ_apply']
    set U := NormedSpace.exp ((-Complex.I * dt) • hmat d idx gk2 V nl) with hU
    set W := NormedSpace.exp ((-Complex.I * ((m * dt : ℝ) : ℂ)) • hmat d idx gk2 V nl) with hW
    have hsplit : NormedSpace.exp ((-Complex.I * (((m + 1 : ℕ) * dt : ℝ) : ℂ)) • hmat d idx gk2 V nl) = U * W := by
      rw [hU, hW, ← Matrix.exp_add_of_commute _ _ (((Commute.refl _).smul_left _).smul_right _), ← add_smul]
      congr 2
      push_cast
      ring
    rw [hsplit, ← Matrix.mulVec_mulVec]
    have e : step (step^[m] psi) - U *ᵥ (W *ᵥ psi) = (step (step^[m] psi) - U *ᵥ step^[m] psi) + U *ᵥ (step^[m] psi - W *ᵥ psi) := by
      rw [Matrix.mulVec_sub]
      abel
    rw [e]
    refine (sqrt_norm2_add _ _).trans ?_
    have a1 := one (step^[m] psi)
    have a2 : norm2 (U *ᵥ (step^[m] psi - W *ᵥ psi)) = norm2 (step^[m] psi - W *ᵥ psi) := evolution_unitary _ hH dt _
    rw [a2]
    have a3 := mul_le_mul_of_nonneg_left (hgrow m) h0
    have a4 : ((1 + delta) ^ (m + 1) - 1) * Real.sqrt (norm2 psi) = delta * ((1 + delta) ^ m * Real.sqrt (norm2 psi)) + ((1 + delta) ^ m - 1) * Real.sqrt (norm2 psi) := by
      rw [pow_succ]
      ring
    rw [a4]
    exact add_le_add (a1.trans a3) ih

/-! ## C196: the split-operator step -/

/-- `f t = a + b t + c t² + O(t³)`. -/
def Quad (f : ℝ → ℂ) (a b c : ℂ) : Prop := (fun t : ℝ => f t - (a + b * t + c * t ^ 2)) =O[𝓝 0] fun t : ℝ => t ^ 3

theorem isBigO_pow_le {m n : ℕ} (h : m ≤ n) : (fun t : ℝ => t ^ n) =O[𝓝 0] fun t : ℝ => t ^ m := by
  obtain ⟨k, rfl⟩ := Nat.exists_eq_add_of_le h
  have : (fun t : ℝ => t ^ k) =O[𝓝 0] fun _ => (1 : ℝ) := ((continuous_pow k).tendsto 0).isBigO_one ℝ
  have h2 := (isBigO_refl (fun t : ℝ => t ^ m) (𝓝 0)).mul this
  refine (h2.congr_left fun t => ?_).congr_right fun t => ?_
  · rw [pow_add]
  · rw [mul_one]

theorem cpow_isBigO (c : ℂ) (n : ℕ) : (fun t : ℝ => c * (t : ℂ) ^ n) =O[𝓝 0] fun t : ℝ => t ^ n := by
  refine IsBigO.of_bound ‖c‖ (Eventually.of_forall fun t => ?_)
  rw [norm_mul, norm_pow, norm_pow, Complex.norm_real]

theorem Quad.bounded {f : ℝ → ℂ} {a b c : ℂ} (h : Quad f a b c) : f =O[𝓝 0] fun _ : ℝ => (1 : ℝ) := by
  have h1 : (fun t : ℝ => f t - (a + b * t + c * t ^ 2)) =O[𝓝 0] fun _ : ℝ => (1 : ℝ) := by
    refine IsBigO.trans h ?_
    have := isBigO_pow_le (Nat.zero_le 3)
    simpa using this
  have h2 : (fun t : ℝ => (a + b * t + c * t ^ 2 : ℂ)) =O[𝓝 0] fun _ : ℝ => (1 : ℝ) := by
    have : Continuous fun t : ℝ => (a + b * t + c * t ^ 2 : ℂ) := by fun_prop
    exact (this.tendsto 0).isBigO_one ℝ
  exact (h1.add h2).congr_left fun t => by ring

theorem Quad.mul {f g : ℝ → ℂ} {a b c a' b' c' : ℂ} (hf : Quad f a b c) (hg : Quad g a' b' c') : Quad (fun t => f t * g t) (a * a') (a * b' + b * a') (a * c' + b * b' + c * a') := by
  have h1 : (fun t : ℝ => (f t - (a + b * t + c * t ^ 2)) * g t) =O[𝓝 0] fun t : ℝ => t ^ 3 := (IsBigO.mul hf hg.bounded).congr_right fun t => mul_one _
  have hp : (fun t : ℝ => (a + b * t + c * t ^ 2 : ℂ)) =O[𝓝 0] fun _ : ℝ => (1 : ℝ) := by
    have : Continuous fun t : ℝ => (a + b * t + c * t ^ 2 : ℂ) := by fun_prop
    exact (this.tendsto 0).isBigO_one ℝ
  have h2 : (fun t : ℝ => (a + b * t + c * t ^ 2 : ℂ) * (g t - (a' + b' * t + c' * t ^ 2))) =O[𝓝 0] fun t : ℝ => t ^ 3 := (IsBigO.mul hp hg).congr_right fun t => one_mul _
  have h3 := cpow_isBigO (b * c' + c * b') 3
  have h4 := (cpow_isBigO (c * c') 4).trans (isBigO_pow_le (by norm_num : 3 ≤ 4))
  refine (((h1.add h2).add h3).add h4).congr_left fun t => ?_
  ring

theorem Quad.sum {n : ℕ} {f : Fin n → ℝ → ℂ} {a b c : Fin n → ℂ} (h : ∀ k, Quad (f k) (a k) (b k) (c k)) : Quad (fun t => ∑ k, f k t) (∑ k, a k) (∑ k, b k) (∑ k, c k) := by
  have := IsBigO.sum (s := Finset.univ) (fun k _ => h k)
  refine this.congr_left fun t => ?_
  rw [Finset.sum_apply]
  simp only [Finset.sum_sub_distrib, Finset.sum_add_distrib, Finset.sum_mul]

theorem Quad.const_mul {f : ℝ → ℂ} {a b c : ℂ} (z : ℂ) (h : Quad f a b c) : Quad (fun t => z * f t) (z * a) (z * b) (z * c) := by
  refine (IsBigO.const_mul_left h z).congr_left fun t => ?_
  ring

/-- Matrices that are `1 + t X + t² Y + O(t³)`. -/
def QuadM {n : ℕ} (F : ℝ → Matrix (Fin n) (Fin n) ℂ) (X Y : Matrix (Fin n) (Fin n) ℂ) : Prop := ∀ i j, Quad (fun t => F t i j) ((1 : Matrix (Fin n) (Fin n) ℂ) i j) (X i j) (Y i j)

theorem QuadM.mul {n : ℕ} {F G : ℝ → Matrix (Fin n) (Fin n) ℂ} {X Y X' Y' : Matrix (Fin n) (Fin n) ℂ} (hF : QuadM F X Y) (hG : QuadM G X' Y') : QuadM (fun t => F t * G t) (X + X') (Y + X * X' + Y') := by
  intro i j
  have := Quad.sum (fun k => (hF i k).mul (hG k j))
  have e1 : ∑ k, (1 : Matrix (Fin n) (Fin n) ℂ) i k * (1 : Matrix (Fin n) (Fin n) ℂ) k j = (1 : Matrix (Fin n) (Fin n) ℂ) i j := by rw [← Matrix.mul_apply, one_mul]
  have e2 : ∑ k, ((1 : Matrix (Fin n) (Fin n) ℂ) i k * X' k j + X i k * (1 : Matrix (Fin n) (Fin n) ℂ) k j) = (X + X') i j := by
    rw [Finset.sum_add_distrib, ← Matrix.mul_apply, ← Matrix.mul_apply, one_mul, mul_one, Matrix.add_apply, add_comm]
  have e3 : ∑ k, ((1 : Matrix (Fin n) (Fin n) ℂ) i k * Y' k j + X i k * X' k j + Y i k * (1 : Matrix (Fin n) (Fin n) ℂ) k j) = (Y + X * X' + Y') i j := by
    rw [Finset.sum_add_distrib, Finset.sum_add_distrib, ← Matrix.mul_apply, ← Matrix.mul_apply, ← Matrix.mul_apply, one_mul, mul_one, Matrix.add_apply, Matrix.add_apply]
    ring
  rw [e1, e2, e3] at this
  exact this

open scoped Matrix.Norms.Operator in
theorem entry_le {n : ℕ} (A : Matrix (Fin n) (Fin n) ℂ) (i j : Fin n) : ‖A i j‖ ≤ ‖A‖ := by
  have h1 := Matrix.linfty_opNorm_mulVec A (Pi.single j 1)
  rw [Matrix.mulVec_single_one] at h1
  have h2 := norm_le_pi_norm (A.col j) i
  have h3 : ‖(Pi.single j 1 : Fin n → ℂ)‖ = 1 := by
    rw [Pi.norm_single, norm_one]
  rw [h3, mul_one] at h1
  exact h2.trans h1

open scoped Matrix.Norms.Operator in
theorem quadM_exp {n : ℕ} (A : Matrix (Fin n) (Fin n) ℂ) : QuadM (fun t => NormedSpace.exp ((t : ℂ) • A)) A ((1 / 2 : ℂ) • (A * A)) := by
  intro i j
  refine IsBigO.of_bound (‖A‖ ^ 3 * Real.exp ‖A‖) ?_
  filter_upwards [Metric.ball_mem_nhds (0 : ℝ) one_pos] with t ht
  rw [Metric.mem_ball, dist_zero_right, Real.norm_eq_abs] at ht
  have h := exp_tail ((t : ℂ) • A) 2
  have e : NormedSpace.exp ((t : ℂ) • A) i j - ((1 : Matrix (Fin n) (Fin n) ℂ) i j + A i j * t + ((1 / 2 : ℂ) • (A * A)) i j * t ^ 2)
      = (NormedSpace.exp ((t : ℂ) • A) - ∑ k ∈ Finset.range (2 + 1), ((k.factorial : ℂ)⁻¹) • ((t : ℂ) • A) ^ k) i j := by
    rw [Finset.sum_range_succ, Finset.sum_range_succ, Finset.sum_range_one]
    simp only [pow_zero, pow_one, Nat.factorial_zero, Nat.factorial_one, Nat.cast_one, inv_one, one_smul, smul_pow, smul_smul, Nat.factorial_two, Matrix.sub_apply, Matrix.add_apply, Matrix.smul_apply, smul_eq_mul, pow_two, Matrix.smul_mul, Matrix.mul_smul]
    push_cast
    ring
  rw [e]
  refine (entry_le _ i j).trans (h.trans ?_)
  have hn : ‖(t : ℂ) • A‖ = |t| * ‖A‖ := by rw [norm_smul, Complex.norm_real, Real.norm_eq_abs]
  rw [hn, norm_pow, Real.norm_eq_abs]
  have hA := norm_nonneg A
  have h1 : Real.exp (|t| * ‖A‖) ≤ Real.exp ‖A‖ := Real.exp_le_exp.2 (by nlinarith [abs_nonneg t])
  have h2 : (|t| * ‖A‖) ^ (2 + 1) / ((2 + 1).factorial : ℕ) ≤ |t| ^ 3 * ‖A‖ ^ 3 := by
    rw [mul_pow]
    refine div_le_self (by positivity) ?_
    exact_mod_cast Nat.factorial_pos 3
  calc _ ≤ |t| ^ 3 * ‖A‖ ^ 3 * Real.exp ‖A‖ := mul_le_mul h2 h1 (Real.exp_pos _).le (by positivity)
    _ = _ := by ring

/-- Surrounding a factor by half steps: the second-order defect `Z` stays the same. -/
theorem QuadM.sandwich {n : ℕ} {F : ℝ → Matrix (Fin n) (Fin n) ℂ} {X Z : Matrix (Fin n) (Fin n) ℂ} (A : Matrix (Fin n) (Fin n) ℂ) (hF : QuadM F X ((1 / 2 : ℂ) • (X * X) + Z)) :
    QuadM (fun t => NormedSpace.exp ((t : ℂ) • ((1 / 2 : ℂ) • A)) * F t * NormedSpace.exp ((t : ℂ) • ((1 / 2 : ℂ) • A))) (X + A) ((1 / 2 : ℂ) • ((X + A) * (X + A)) + Z) := by
  have h := ((quadM_exp ((1 / 2 : ℂ) • A)).mul hF).mul (quadM_exp ((1 / 2 : ℂ) • A))
  have e1 : (1 / 2 : ℂ) • A + X + (1 / 2 : ℂ) • A = X + A := by
    have : (1 / 2 : ℂ) • A + (1 / 2 : ℂ) • A = A := by rw [← add_smul]; norm_num
    calc _ = X + ((1 / 2 : ℂ) • A + (1 / 2 : ℂ) • A) := by abel
      _ = _ := by rw [this]
  have e2 : (1 / 2 : ℂ) • ((1 / 2 : ℂ) • A * (1 / 2 : ℂ) • A) + (1 / 2 : ℂ) • A * X + ((1 / 2 : ℂ) • (X * X) + Z) + ((1 / 2 : ℂ) • A + X) * (1 / 2 : ℂ) • A + (1 / 2 : ℂ) • ((1 / 2 : ℂ) • A * (1 / 2 : ℂ) • A)
      = (1 / 2 : ℂ) • ((X + A) * (X + A)) + Z := by
    simp only [Matrix.smul_mul, Matrix.mul_smul, Matrix.add_mul, Matrix.mul_add, smul_add, smul_smul]
    module
  rw [e1, e2] at h
  exact h

/-- A function on the grid as an operator on the plane waves of a basis: its Fourier component at the difference of the two plane waves. -/
noncomputable def locM (d : Dims) (idx : List ℕ) (f : Fin d.size → ℂ) : Matrix (Fin idx.length) (Fin idx.length) ℂ :=
  Matrix.of fun j k => (1 / (d.size : ℂ)) * ∑ r, f r * Complex.exp (-(2 * Real.pi * Complex.I) * ((Nonloc.gridDot d idx[j] r - Nonloc.gridDot d idx[k] r : ℝ) : ℂ))

theorem locM_act (drv : Driver) (d : Dims) (idx : List ℕ) (hv : ValidIdx d idx) (hs : d.size ≠ 0) (st : DrvState ℂ) (f : Fin d.size → ℂ) (psi : Fin idx.length → ℂ) :
    Nonloc.wfG drv d idx st (fun r => Nonloc.wfR drv d idx st psi r * f r) = (d.size : ℂ) • (locM d idx f *ᵥ psi) := by
  have hN : (d.size : ℂ) ≠ 0 := by exact_mod_cast hs
  funext j
  rw [Nonloc.wfG_eq drv d idx hv, Pi.smul_apply, smul_eq_mul]
  unfold Matrix.mulVec dotProduct locM
  simp only [Nonloc.wfR_eq drv d idx hv, Finset.sum_mul, Finset.mul_sum, Matrix.of_apply]
  rw [Finset.sum_comm]
  refine Finset.sum_congr rfl fun k _ => Finset.sum_congr rfl fun r _ => ?_
  rw [← Nonloc.ker3_pair]
  simp only [Fin.getElem_fin]
  field_simp

theorem mat_ext {n : ℕ} (A B : Matrix (Fin n) (Fin n) ℂ) (h : ∀ x, A *ᵥ x = B *ᵥ x) : A = B := by
  ext i j
  have := congrFun (h (Pi.single j 1)) i
  rw [Matrix.mulVec_single_one, Matrix.mulVec_single_one] at this
  exact this

theorem locM_one (drv : Driver) (d : Dims) (idx : List ℕ) (hv : ValidIdx d idx) (hs : d.size ≠ 0) (st : DrvState ℂ) : locM d idx (fun _ => 1) = 1 := by
  have hN : (d.size : ℂ) ≠ 0 := by exact_mod_cast hs
  refine mat_ext _ _ fun x => ?_
  have h := locM_act drv d idx hv hs st (fun _ => 1) x
  simp only [mul_one] at h
  have h2 : Nonloc.wfG drv d idx st (Nonloc.wfR drv d idx st x) = (d.size : ℂ) • x := by
    funext j
    rw [wfG_wfR drv d idx hv, Pi.smul_apply, smul_eq_mul]
  rw [Matrix.one_mulVec]
  exact (smul_right_injective _ hN (h2.symm.trans h)).symm

theorem locM_mul_full (drv : Driver) (d : Dims) (idx : List ℕ) (hv : ValidIdx d idx) (hs : d.size ≠ 0) (hfull : idx.length = d.size) (st : DrvState ℂ) (f g : Fin d.size → ℂ) : locM d idx f * locM d idx g = locM d idx fun r => f r * g r := by
  have hN : (d.size : ℂ) ≠ 0 := by exact_mod_cast hs
  refine mat_ext _ _ fun x => ?_
  rw [← Matrix.mulVec_mulVec]
  have h1 := locM_act drv d idx hv hs st g x
  have h2 := locM_act drv d idx hv hs st f ((d.size : ℂ) • (locM d idx g *ᵥ x))
  rw [← h1] at h2
  have h3 : (fun r => Nonloc.wfR drv d idx st (Nonloc.wfG drv d idx st fun r => Nonloc.wfR drv d idx st x r * g r) r * f r) = fun r => (d.size : ℂ) * (Nonloc.wfR drv d idx st x r * (f r * g r)) := by
    funext r
    rw [wfR_wfG_full drv d idx hv hfull]
    ring
  have h4 : Nonloc.wfG drv d idx st (fun r => (d.size : ℂ) * (Nonloc.wfR drv d idx st x r * (f r * g r))) = (d.size : ℂ) • Nonloc.wfG drv d idx st (fun r => Nonloc.wfR drv d idx st x r * (f r * g r)) := by
    funext j
    rw [Pi.smul_apply, Nonloc.wfG_eq drv d idx hv, Nonloc.wfG_eq drv d idx hv, smul_eq_mul, Finset.mul_sum]
    exact Finset.sum_congr rfl fun r _ => by ring
  rw [h3, h4, locM_act drv d idx hv hs st, h1, Matrix.mulVec_smul] at h2
  exact (smul_right_injective _ hN (smul_right_injective _ hN h2)).symm

theorem quad_exp (z : ℂ) : Quad (fun t => Complex.exp (z * t)) 1 z (z ^ 2 / 2) := by
  refine IsBigO.of_bound (‖z‖ ^ 3 * Real.exp ‖z‖) ?_
  filter_upwards [Metric.ball_mem_nhds (0 : ℝ) one_pos] with t ht
  rw [Metric.mem_ball, dist_zero_right, Real.norm_eq_abs] at ht
  have h := exp_tail (z * t) 2
  have e : Complex.exp (z * t) - (1 + z * t + z ^ 2 / 2 * t ^ 2) = NormedSpace.exp (z * t) - ∑ k ∈ Finset.range (2 + 1), ((k.factorial : ℂ)⁻¹) • (z * t) ^ k := by
    rw [← Complex.exp_eq_exp_ℂ, Finset.sum_range_succ, Finset.sum_range_succ, Finset.sum_range_one]
    simp only [pow_zero, pow_one, Nat.factorial_zero, Nat.factorial_one, Nat.cast_one, inv_one, Nat.factorial_two, smul_eq_mul]
    push_cast
    ring
  rw [e]
  refine h.trans ?_
  have hn : ‖z * t‖ = |t| * ‖z‖ := by rw [norm_mul, Complex.norm_real, Real.norm_eq_abs, mul_comm]
  rw [hn, norm_pow, Real.norm_eq_abs]
  have hA := norm_nonneg z
  have h1 : Real.exp (|t| * ‖z‖) ≤ Real.exp ‖z‖ := Real.exp_le_exp.2 (by nlinarith [abs_nonneg t])
  have h2 : (|t| * ‖z‖) ^ (2 + 1) / ((2 + 1).factorial : ℕ) ≤ |t| ^ 3 * ‖z‖ ^ 3 := by
    rw [mul_pow]
    refine div_le_self (by positivity) ?_
    exact_mod_cast Nat.factorial_pos 3
  calc _ ≤ |t| ^ 3 * ‖z‖ ^ 3 * Real.exp ‖z‖ := mul_le_mul h2 h1 (Real.exp_pos _).le (by positivity)
    _ = _ := by ring

/-- What a basis smaller than the grid loses in second order: half of `(P V P)² - P V² P`. -/
noncomputable def defect (d : Dims) (idx : List ℕ) (V : Fin d.size → ℝ) : Matrix (Fin idx.length) (Fin idx.length) ℂ :=
  (1 / 2 : ℂ) • (locM d idx (fun r => (V r : ℂ)) * locM d idx (fun r => (V r : ℂ)) - locM d idx fun r => (V r : ℂ) ^ 2)

theorem quad_local (drv : Driver) (d : Dims) (idx : List ℕ) (hv : ValidIdx d idx) (hs : d.size ≠ 0) (st : DrvState ℂ) (V : Fin d.size → ℝ) :
    QuadM (fun t => locM d idx fun r => Complex.exp (-Complex.I * t * V r)) (-Complex.I • locM d idx fun r => (V r : ℂ))
      ((1 / 2 : ℂ) • ((-Complex.I • locM d idx fun r => (V r : ℂ)) * (-Complex.I • locM d idx fun r => (V r : ℂ))) + defect d idx V) := by
  intro j k
  set w : Fin d.size → ℂ := fun r => Complex.exp (-(2 * Real.pi * Complex.I) * ((Nonloc.gridDot d idx[j] r - Nonloc.gridDot d idx[k] r : ℝ) : ℂ)) with hw
  have h := (Quad.sum fun r => (quad_exp (-Complex.I * V r)).const_mul (w r)).const_mul (1 / (d.size : ℂ))
  have e1 : (1 / (d.size : ℂ)) * ∑ r, w r * 1 = (1 : Matrix (Fin idx.length) (Fin idx.length) ℂ) j k := by
    rw [← locM_one drv d idx hv hs st]
    simp only [locM, Matrix.of_apply, one_mul, mul_one, hw]
  have e2 : (1 / (d.size : ℂ)) * ∑ r, w r * (-Complex.I * V r) = (-Complex.I • locM d idx fun r => (V r : ℂ)) j k := by
    simp only [locM, Matrix.smul_apply, Matrix.of_apply, smul_eq_mul, hw, Finset.mul_sum]
    exact Finset.sum_congr rfl fun r _ => by ring
  have e3 : (1 / (d.size : ℂ)) * ∑ r, w r * ((-Complex.I * V r) ^ 2 / 2) = ((1 / 2 : ℂ) • ((-Complex.I • locM d idx fun r => (V r : ℂ)) * (-Complex.I • locM d idx fun r => (V r : ℂ))) + defect d idx V) j k := by
    have : ((1 / 2 : ℂ) • ((-Complex.I • locM d idx fun r => (V r : ℂ)) * (-Complex.I • locM d idx fun r => (V r : ℂ))) + defect d idx V) = (-(1 / 2) : ℂ) • locM d idx fun r => (V r : ℂ) ^ 2 := by
      unfold defect
      rw [Matrix.smul_mul, Matrix.mul_smul, smul_smul, smul_smul, smul_sub]
      have : (1 / 2 * (-Complex.I * -Complex.I) : ℂ) = -(1 / 2) := by
        rw [neg_mul_neg, Complex.I_mul_I]
        norm_num
      rw [← mul_assoc] at this
      rw [this]
      module
    rw [this]
    simp only [locM, Matrix.smul_apply, Matrix.of_apply, smul_eq_mul, hw, Finset.mul_sum]
    refine Finset.sum_congr rfl fun r _ => ?_
    rw [mul_pow, neg_sq, Complex.I_sq]
    ring
  rw [e1, e2, e3] at h
  refine IsBigO.congr_left h fun t => ?_
  congr 1
  simp only [locM, Matrix.of_apply, hw]
  congr 1
  refine Finset.sum_congr rfl fun r _ => ?_
  rw [mul_comm]
  congr 2
  ring

/-- Half steps around a factor, the first of the list outermost. -/
noncomputable def pal {n : ℕ} (C : ℝ → Matrix (Fin n) (Fin n) ℂ) : List (Matrix (Fin n) (Fin n) ℂ) → ℝ → Matrix (Fin n) (Fin n) ℂ
  | [], t => C t
  | A :: l, t => NormedSpace.exp ((t : ℂ) • ((1 / 2 : ℂ) • A)) * pal C l t * NormedSpace.exp ((t : ℂ) • ((1 / 2 : ℂ) • A))

theorem quad_pal {n : ℕ} {C : ℝ → Matrix (Fin n) (Fin n) ℂ} {X Z : Matrix (Fin n) (Fin n) ℂ} (h : QuadM C X ((1 / 2 : ℂ) • (X * X) + Z)) (l : List (Matrix (Fin n) (Fin n) ℂ)) :
    QuadM (pal C l) (X + l.sum) ((1 / 2 : ℂ) • ((X + l.sum) * (X + l.sum)) + Z) := by
  induction l with
  | nil =>
    rw [List.sum_nil, add_zero]
    exact h
  | cons A l ih =>
    have e : X + (A :: l).sum = X + l.sum + A := by
      rw [List.sum_cons]
      abel
    rw [e]
    exact ih.sandwich A

/-- The operator of one split-operator step, without the factor `N`. -/
noncomputable def stepM (d : Dims) (idx : List ℕ) (gk2 : Fin idx.length → ℝ) (V : Fin d.size → ℝ) (nl : List (Proj idx.length)) (t : ℝ) : Matrix (Fin idx.length) (Fin idx.length) ℂ :=
  pal (fun t => locM d idx fun r => Complex.exp (-Complex.I * t * V r))
    (Matrix.diagonal (fun j => -Complex.I * ((gk2 j / 2 : ℝ) : ℂ)) :: nl.map fun P => -Complex.I • Matrix.of (Nonloc.nlMatrix P)) t

theorem split_stepM (drv : Driver) (d : Dims) (idx : List ℕ) (hv : ValidIdx d idx) (hs : d.size ≠ 0) (st : DrvState ℂ) (gk2 : Fin idx.length → ℝ) (V : Fin d.size → ℝ) (nl : List (Proj idx.length))
    (F : (P : Proj idx.length) → ℝ → Matrix (Fin P.num) (Fin P.num) ℂ) (dt : ℝ) (hF : ∀ P ∈ nl, expDij P dt = .ok (F P dt)) (psi : Fin idx.length → ℂ) :
    splitProp drv d idx st (fun j => gk2 j / 2) dt (nl.map fun P => ⟨P, F P dt⟩) (fun r => (V r : ℂ) / d.size) psi = (d.size : ℂ) • (stepM d idx gk2 V nl dt *ᵥ psi) := by
  have hN : (d.size : ℂ) ≠ 0 := by exact_mod_cast hs
  have hke : ∀ x, operKe (fun j => gk2 j / 2) dt x = NormedSpace.exp ((dt : ℂ) • ((1 / 2 : ℂ) • Matrix.diagonal (fun j => -Complex.I * ((gk2 j / 2 : ℝ) : ℂ)))) *ᵥ x := by
    intro x
    rw [(C50_kinetic_factor (fun j => gk2 j / 2) dt x).1]
    congr 2
    rw [smul_smul, ← Matrix.diagonal_smul]
    congr 1
    funext j
    rw [Pi.smul_apply, smul_eq_mul]
    ring
  have hloc : ∀ x, operVloc drv d idx st dt (fun r => (V r : ℂ) / d.size) x = (d.size : ℂ) • ((locM d idx fun r => Complex.exp (-Complex.I * dt * V r)) *ᵥ x) := by
    intro x
    rw [← locM_act drv d idx hv hs st]
    unfold operVloc
    congr 1
    funext r
    rw [show (-Complex.I * dt * d.size * ((V r : ℂ) / d.size)) = -Complex.I * dt * V r by field_simp]
  have hch : ∀ (l : List (Proj idx.length)), (∀ P ∈ l, expDij P dt = .ok (F P dt)) → ∀ x,
      (l.map fun P => operNl P (F P dt)).reverse.foldl (fun x f => f x) (operVloc drv d idx st dt (fun r => (V r : ℂ) / d.size) ((l.map fun P => operNl P (F P dt)).foldl (fun x f => f x) x))
        = (d.size : ℂ) • (pal (fun t => locM d idx fun r => Complex.exp (-Complex.I * t * V r)) (l.map fun P => -Complex.I • Matrix.of (Nonloc.nlMatrix P)) dt *ᵥ x) := by
    intro l
    induction l with
    | nil =>
      intro _ x
      exact hloc x
    | cons P l ih =>
      intro hl x
      simp only [List.map_cons, List.reverse_cons, List.foldl_append, List.foldl_cons, List.foldl_nil]
      rw [ih (fun Q hQ => hl Q (List.mem_cons_of_mem _ hQ))]
      have hop : ∀ y, operNl P (F P dt) y = NormedSpace.exp ((dt : ℂ) • ((1 / 2 : ℂ) • (-Complex.I • Matrix.of (Nonloc.nlMatrix P)))) *ᵥ y := by
        intro y
        rw [operNl_eq P dt _ (hl P List.mem_cons_self)]
        congr 2
        rw [smul_smul, smul_smul]
        congr 1
        ring
      rw [hop, hop, Matrix.mulVec_smul, Matrix.mulVec_mulVec, Matrix.mulVec_mulVec]
      rfl
  unfold splitProp splitSeq
  simp only [List.map_map]
  rw [show ((fun pe : (P : Proj idx.length) × Matrix (Fin P.num) (Fin P.num) ℂ => operNl pe.1 pe.2) ∘ fun P => (⟨P, F P dt⟩ : (P : Proj idx.length) × Matrix (Fin P.num) (Fin P.num) ℂ)) = fun P => operNl P (F P dt) from rfl]
  rw [hch nl hF, hke, hke, Matrix.mulVec_smul, Matrix.mulVec_mulVec, Matrix.mulVec_mulVec]
  rfl

theorem stepM_quad (drv : Driver) (d : Dims) (idx : List ℕ) (hv : ValidIdx d idx) (hs : d.size ≠ 0) (st : DrvState ℂ) (gk2 : Fin idx.length → ℝ) (V : Fin d.size → ℝ) (nl : List (Proj idx.length)) :
    QuadM (stepM d idx gk2 V nl) (-Complex.I • hmat d idx gk2 V nl) ((1 / 2 : ℂ) • ((-Complex.I • hmat d idx gk2 V nl) * (-Complex.I • hmat d idx gk2 V nl)) + defect d idx V) := by
  have h := quad_pal (quad_local drv d idx hv hs st V) (Matrix.diagonal (fun j => -Complex.I * ((gk2 j / 2 : ℝ) : ℂ)) :: nl.map fun P => -Complex.I • Matrix.of (Nonloc.nlMatrix P))
  have e : (-Complex.I • locM d idx fun r => (V r : ℂ)) + (Matrix.diagonal (fun j => -Complex.I * ((gk2 j / 2 : ℝ) : ℂ)) :: nl.map fun P => -Complex.I • Matrix.of (Nonloc.nlMatrix P)).sum = -Complex.I • hmat d idx gk2 V nl := by
    ext j k
    have hsum : ∀ l : List (Proj idx.length), (l.map fun P => -Complex.I • Matrix.of (Nonloc.nlMatrix P)).sum j k = -Complex.I * (l.map fun P => Nonloc.nlMatrix P j k).sum := by
      intro l
      induction l with
      | nil => simp
      | cons P l ih =>
        rw [List.map_cons, List.sum_cons, Matrix.add_apply, ih, List.map_cons, List.sum_cons, Matrix.smul_apply, Matrix.of_apply, smul_eq_mul]
        ring
    rw [List.sum_cons, Matrix.add_apply, Matrix.add_apply, hsum, Matrix.smul_apply, Matrix.smul_apply]
    show -Complex.I * locM d idx (fun r => (V r : ℂ)) j k + _ = -Complex.I * Nonloc.hamMatrix d idx gk2 V nl j k
    unfold Nonloc.hamMatrix locM
    rw [Matrix.of_apply, Matrix.diagonal_apply]
    split
    · ring
    · ring
  rw [e] at h
  exact h

theorem QuadM.sub_mulVec {n : ℕ} {F G : ℝ → Matrix (Fin n) (Fin n) ℂ} {X Y Z : Matrix (Fin n) (Fin n) ℂ} (hF : QuadM F X (Y + Z)) (hG : QuadM G X Y) (x : Fin n → ℂ) (i : Fin n) :
    (fun t : ℝ => (F t *ᵥ x) i - (G t *ᵥ x) i - (Z *ᵥ x) i * t ^ 2) =O[𝓝 0] fun t : ℝ => t ^ 3 := by
  have h1 := Quad.sum fun k => (hF i k).const_mul (x k)
  have h2 := Quad.sum fun k => (hG i k).const_mul (x k)
  refine (h1.sub h2).congr_left fun t => ?_
  have e : ∑ k, x k * (Y + Z) i k = ∑ k, x k * Y i k + ∑ k, Z i k * x k := by
    rw [← Finset.sum_add_distrib]
    exact Finset.sum_congr rfl fun k _ => by rw [Matrix.add_apply]; ring
  have e1 : ∑ k, x k * F t i k = ∑ k, F t i k * x k := Finset.sum_congr rfl fun k _ => mul_comm _ _
  have e2 : ∑ k, x k * G t i k = ∑ k, G t i k * x k := Finset.sum_congr rfl fun k _ => mul_comm _ _
  show (∑ k, x k * F t i k) - _ - ((∑ k, x k * G t i k) - _) = (∑ k, F t i k * x k) - (∑ k, G t i k * x k) - (∑ k, Z i k * x k) * (t : ℂ) ^ 2
  rw [e, e1, e2]
  ring

/-- What one split-operator step makes of a state, divided by the number of grid points (the unnormalised transforms multiply by it), minus the exact evolution. -/
noncomputable def splitError (drv : Driver) (d : Dims) (idx : List ℕ) (st : DrvState ℂ) (gk2 : Fin idx.length → ℝ) (V : Fin d.size → ℝ) (nl : List (Proj idx.length))
    (F : (P : Proj idx.length) → ℝ → Matrix (Fin P.num) (Fin P.num) ℂ) (psi : Fin idx.length → ℂ) (dt : ℝ) (j : Fin idx.length) : ℂ :=
  splitProp drv d idx st (fun j => gk2 j / 2) dt (nl.map fun P => ⟨P, F P dt⟩) (fun r => (V r : ℂ) / d.size) psi j / d.size
    - (NormedSpace.exp ((-Complex.I * dt) • hmat d idx gk2 V nl) *ᵥ psi) j

/-- **C196.** The leading error of a split-operator step, for every basis, potential and set of non-local operators: `splitError = dt² * defect psi + O(dt³)`, where `defect = ((PVP)² - P V² P) / 2` compares the local potential applied twice in the basis with its square on the grid. -/
theorem C196_leading_error (drv : Driver) (d : Dims) (idx : List ℕ) (hv : ValidIdx d idx) (hs : d.size ≠ 0) (st : DrvState ℂ) (gk2 : Fin idx.length → ℝ) (V : Fin d.size → ℝ) (nl : List (Proj idx.length))
    (F : (P : Proj idx.length) → ℝ → Matrix (Fin P.num) (Fin P.num) ℂ) (hF : ∀ P ∈ nl, ∀ dt, expDij P dt = .ok (F P dt)) (psi : Fin idx.length → ℂ) (j : Fin idx.length) :
    (fun dt : ℝ => splitError drv d idx st gk2 V nl F psi dt j - (defect d idx V *ᵥ psi) j * dt ^ 2) =O[𝓝 0] fun dt : ℝ => dt ^ 3 := by
  have hN : (d.size : ℂ) ≠ 0 := by exact_mod_cast hs
  have h := (stepM_quad drv d idx hv hs st gk2 V nl).sub_mulVec (quadM_exp (-Complex.I • hmat d idx gk2 V nl)) psi j
  refine h.congr_left fun t => ?_
  unfold splitError
  rw [split_stepM drv d idx hv hs st gk2 V nl F t (fun P hP => hF P hP t), Pi.smul_apply, smul_eq_mul, mul_div_cancel_left₀ _ hN, smul_smul, mul_comm (t : ℂ)]

/-- **C196.** The split-operator step is accurate to first order on every basis. -/
theorem C196_first_order (drv : Driver) (d : Dims) (idx : List ℕ) (hv : ValidIdx d idx) (hs : d.size ≠ 0) (st : DrvState ℂ) (gk2 : Fin idx.length → ℝ) (V : Fin d.size → ℝ) (nl : List (Proj idx.length))
    (F : (P : Proj idx.length) → ℝ → Matrix (Fin P.num) (Fin P.num) ℂ) (hF : ∀ P ∈ nl, ∀ dt, expDij P dt = .ok (F P dt)) (psi : Fin idx.length → ℂ) (j : Fin idx.length) :
    (fun dt : ℝ => splitError drv d idx st gk2 V nl F psi dt j) =O[𝓝 0] fun dt : ℝ => dt ^ 2 := by
  have h := (C196_leading_error drv d idx hv hs st gk2 V nl F hF psi j).trans (isBigO_pow_le (by norm_num : 2 ≤ 3))
  exact (h.add (cpow_isBigO ((defect d idx V *ᵥ psi) j) 2)).congr_left fun t => by ring

theorem sq_not_cube {c : ℂ} (h : (fun t : ℝ => c * (t : ℂ) ^ 2) =O[𝓝 0] fun t : ℝ => t ^ 3) : c = 0 := by
  by_contra hc
  obtain ⟨C, hC, hb⟩ := h.exists_pos
  rw [IsBigOWith] at hb
  obtain ⟨e, he, hball⟩ := Metric.eventually_nhds_iff.1 hb
  have hn : 0 < ‖c‖ := norm_pos_iff.2 hc
  set t := min (e / 2) (‖c‖ / (2 * C)) with ht
  have ht0 : 0 < t := lt_min (by linarith) (by positivity)
  have := hball (y := t) (by
    rw [Real.dist_eq, sub_zero, abs_of_pos ht0]
    exact (min_le_left _ _).trans_lt (by linarith))
  rw [norm_mul, norm_pow, norm_pow, Complex.norm_real, Real.norm_eq_abs, abs_of_pos ht0] at this
  have h2 : t * C ≤ ‖c‖ / 2 := by
    have := (le_div_iff₀ (by positivity : (0 : ℝ) < 2 * C)).1 (min_le_right (e / 2) (‖c‖ / (2 * C)))
    rw [← ht] at this
    linarith
  have h3 : 0 < t ^ 2 := by positivity
  nlinarith

/-- **C196.** The error of a step is of third order in `dt` (a second-order method) for a state exactly when the leading error vanishes for it. -/
theorem C196_second_order_iff (drv : Driver) (d : Dims) (idx : List ℕ) (hv : ValidIdx d idx) (hs : d.size ≠ 0) (st : DrvState ℂ) (gk2 : Fin idx.length → ℝ) (V : Fin d.size → ℝ) (nl : List (Proj idx.length))
    (F : (P : Proj idx.length) → ℝ → Matrix (Fin P.num) (Fin P.num) ℂ) (hF : ∀ P ∈ nl, ∀ dt, expDij P dt = .ok (F P dt)) (psi : Fin idx.length → ℂ) (j : Fin idx.length) :
    ((fun dt : ℝ => splitError drv d idx st gk2 V nl F psi dt j) =O[𝓝 0] fun dt : ℝ => dt ^ 3) ↔ (defect d idx V *ᵥ psi) j = 0 := by
  have h := C196_leading_error drv d idx hv hs st gk2 V nl F hF psi j
  constructor
  · intro h1
    exact sq_not_cube ((h1.sub h).congr_left fun t => by ring)
  · intro h0
    rw [h0] at h
    exact h.congr_left fun t => by ring

/-- **C196.** On a basis that fills the grid the split-operator step is accurate to second order. -/
theorem C196_second_order_full (drv : Driver) (d : Dims) (idx : List ℕ) (hv : ValidIdx d idx) (hs : d.size ≠ 0) (hfull : idx.length = d.size) (st : DrvState ℂ) (gk2 : Fin idx.length → ℝ) (V : Fin d.size → ℝ) (nl : List (Proj idx.length))
    (F : (P : Proj idx.length) → ℝ → Matrix (Fin P.num) (Fin P.num) ℂ) (hF : ∀ P ∈ nl, ∀ dt, expDij P dt = .ok (F P dt)) (psi : Fin idx.length → ℂ) (j : Fin idx.length) :
    (fun dt : ℝ => splitError drv d idx st gk2 V nl F psi dt j) =O[𝓝 0] fun dt : ℝ => dt ^ 3 := by
  refine (C196_second_order_iff drv d idx hv hs st gk2 V nl F hF psi j).2 ?_
  have : defect d idx V = 0 := by
    unfold defect
    rw [locM_mul_full drv d idx hv hs hfull st]
    simp only [sq, sub_self, smul_zero]
  rw [this, Matrix.zero_mulVec]
  rfl

/-- **C196, violated on a truncated basis.** One plane wave on a grid of two points with the potential 0, 1: however small the step, the error is only of second order in `dt`, so the step is not a second-order method. -/
theorem C196_truncated_violated (drv : Driver) (st : DrvState ℂ) (gk2 : Fin 1 → ℝ) :
    ValidIdx ⟨2, 1, 1⟩ [0] ∧
    ¬ ((fun dt : ℝ => splitError drv ⟨2, 1, 1⟩ [0] st gk2 (fun r => (r.1 : ℝ)) [] (fun _ _ => 0) (fun _ => 1) dt 0) =O[𝓝 0] fun dt : ℝ => dt ^ 3) := by
  have hv : ValidIdx ⟨2, 1, 1⟩ [0] := by
    unfold ValidIdx
    decide
  refine ⟨hv, fun h => ?_⟩
  have h0 := (C196_second_order_iff drv ⟨2, 1, 1⟩ [0] hv (by decide) st gk2 (fun r => (r.1 : ℝ)) [] (fun _ _ => 0) (by simp) (fun _ => 1) 0).1 h
  have e : ∀ f : Fin (Dims.size ⟨2, 1, 1⟩) → ℂ, locM ⟨2, 1, 1⟩ [0] f 0 0 = (f (0 : Fin 2) + f (1 : Fin 2)) / 2 := by
    intro f
    unfold locM
    simp only [Matrix.of_apply, sub_self, Complex.ofReal_zero, mul_zero, Complex.exp_zero, mul_one]
    have : ∑ r : Fin 2, f r = f (0 : Fin 2) + f (1 : Fin 2) := Fin.sum_univ_two (fun r : Fin 2 => f r)
    rw [show ((Dims.size ⟨2, 1, 1⟩ : ℕ) : ℂ) = 2 by norm_num [Dims.size]]
    have h2 : ∑ r, f r = f (0 : Fin 2) + f (1 : Fin 2) := this
    rw [h2]
    ring
  have h1 : defect ⟨2, 1, 1⟩ [0] (fun r => (r.1 : ℝ)) 0 0 = -(1 / 8) := by
    unfold defect
    rw [Matrix.smul_apply, Matrix.sub_apply, Matrix.mul_apply]
    have : ∀ g : Fin ([0] : List ℕ).length → ℂ, ∑ k, g k = g 0 := fun g => Fin.sum_univ_one (fun k : Fin 1 => g k)
    rw [this, e, e, smul_eq_mul]
    norm_num
  have h2 : (defect ⟨2, 1, 1⟩ [0] (fun r => (r.1 : ℝ)) *ᵥ fun _ => 1) 0 = defect ⟨2, 1, 1⟩ [0] (fun r => (r.1 : ℝ)) 0 0 := by
    unfold Matrix.mulVec dotProduct
    have : ∀ g : Fin ([0] : List ℕ).length → ℂ, ∑ k, g k = g 0 := fun g => Fin.sum_univ_one (fun k : Fin 1 => g k)
    rw [this, mul_one]
  rw [h2, h1] at h0
  norm_num at h0

open scoped Matrix.Norms.L2Operator in
/-- The bound `L` of C195 exists for every Hamiltonian of the model. -/
theorem C195_bound_exists (drv : Driver) (d : Dims) (idx : List ℕ) (hv : ValidIdx d idx) (st : DrvState ℂ) (gk2 : Fin idx.length → ℝ) (V : Fin d.size → ℝ) (nl : List (Proj idx.length)) :
    ∃ L : ℝ, 0 ≤ L ∧ ∀ x, norm2 (Nonloc.hPsi .gpu drv d idx st gk2 (fun r => (V r : ℂ) / d.size) nl x) ≤ L ^ 2 * norm2 x := by
  refine ⟨‖hmat d idx gk2 V nl‖, norm_nonneg _, fun x => ?_⟩
  rw [hPsi_mulVec drv d idx hv st]
  have h := mulVec_le (hmat d idx gk2 V nl) x
  have h0 : ∀ y : Fin idx.length → ℂ, 0 ≤ norm2 y := fun y => Finset.sum_nonneg fun j _ => Complex.normSq_nonneg _
  have := pow_le_pow_left₀ (Real.sqrt_nonneg _) h 2
  rwa [mul_pow, Real.sq_sqrt (h0 _), Real.sq_sqrt (h0 _)] at this

/-- A non-local operator with one projector: its exponential exists for every time step, as C196 assumes. -/
example : ∃ F : ℝ → Matrix (Fin 1) (Fin 1) ℂ, ∀ dt, expDij (n := 2) { num := 1, vkb := fun _ j => if j = 0 then 1 else Complex.I, dij := fun _ _ => 3 } dt = .ok (F dt) := by
  suffices hx : ∀ dt, ∃ E : Matrix (Fin 1) (Fin 1) ℂ, expDij (n := 2) { num := 1, vkb := fun _ j => if j = 0 then 1 else Complex.I, dij := fun _ _ => 3 } dt = .ok E from
    ⟨fun dt => (hx dt).choose, fun dt => (hx dt).choose_spec⟩
  intro dt
  have h := C50_nonlocal_factor (n := 2) { num := 1, vkb := fun _ j => if j = 0 then 1 else Complex.I, dij := fun _ _ => 3 } dt
  split at h
  · rename_i E hE
    exact ⟨E, hE⟩
  · exfalso
    have h2 := h.2
    rw [Matrix.det_fin_one] at h2
    simp [Matrix.mul_apply, projMat, Fin.sum_univ_two] at h2

/-- The basis of both plane waves of a grid of two points fills the grid. -/
example : ValidIdx ⟨2, 1, 1⟩ [0, 1] ∧ ([0, 1] : List ℕ).length = Dims.size ⟨2, 1, 1⟩ := by
  constructor
  · unfold ValidIdx
    decide
  · rfl

end Verif.TDDFT
