import Mathlib.Analysis.Complex.Exponential
import Mathlib.Analysis.Complex.ExponentialBounds
import Mathlib.Tactic.Module
import Mathlib.Tactic.IntervalCases
import Verif.Model.TDDFT
import Verif.Props.Nonloc

/-!
# Properties C49, C50, C80, C81, C82, C83: real-time TDDFT
-/

namespace Verif.TDDFT

open scoped ComplexConjugate
open scoped Matrix
open Verif.FFT (Driver Dims DrvState ValidIdx)
open Verif.Nonloc (Proj wfR wfG)

/-! ## C49: Taylor propagator -/

section Taylor

variable {E : Type*} [AddCommGroup E] [Module ℂ E]

theorem taylor_fold (H : E → E) (dt : ℝ) (order : ℕ) (psi : E) :
    (List.range order).foldl (taylorIter H dt) { psi := psi, prop := psi, fac := 1 }
      = { psi := H^[order] psi
          prop := ∑ n ∈ Finset.range (order + 1), ((-Complex.I * dt) ^ n / n.factorial : ℂ) • H^[n] psi
          fac := (-Complex.I * dt) ^ order / order.factorial } := by
  induction order with
  | zero => simp
  | succ k ih =>
    rw [List.range_succ, List.foldl_append, ih, List.foldl_cons, List.foldl_nil]
    unfold taylorIter
    simp only
    have hf : (-Complex.I * dt : ℂ) ^ k / k.factorial * (-Complex.I * dt / (k + 1))
        = (-Complex.I * dt) ^ (k + 1) / (k + 1).factorial := by
      have h1 : (k.factorial : ℂ) ≠ 0 := by exact_mod_cast Nat.factorial_ne_zero k
      have h2 : (k + 1 : ℂ) ≠ 0 := by exact_mod_cast Nat.succ_ne_zero k
      rw [Nat.factorial_succ, pow_succ]
      push_cast
      field_simp
    rw [hf, ← Function.iterate_succ_apply' H k psi, Finset.sum_range_succ _ (k + 1)]

/-- **C49a.** For every operator `H`, step and order the Taylor propagator returns `Σ_{n ≤ order} (-i dt)^n / n! · H^n ψ`. -/
theorem C49_truncated_exponential (H : E → E) (dt : ℝ) (order : ℕ) (psi : E) :
    taylorProp H dt order psi = ∑ n ∈ Finset.range (order + 1), ((-Complex.I * dt) ^ n / n.factorial : ℂ) • H^[n] psi := by
  unfold taylorProp
  rw [taylor_fold]

/-- **C49b.** On an eigenstate of energy `e` the propagator multiplies by a factor within `|e dt|^(order+1) exp |e dt|` of the exact
phase `exp(-i e dt)`. -/
theorem C49_eigenstate_phase (H : E → E) (hH : ∀ (c : ℂ) (x : E), H (c • x) = c • H x) (dt e : ℝ) (order : ℕ) (psi : E)
    (he : H psi = (e : ℂ) • psi) :
    ∃ z : ℂ, taylorProp H dt order psi = z • psi ∧
      ‖Complex.exp (-Complex.I * dt * e) - z‖ ≤ |e * dt| ^ (order + 1) * Real.exp |e * dt| := by
  refine ⟨∑ n ∈ Finset.range (order + 1), (-Complex.I * dt * e) ^ n / n.factorial, ?_, ?_⟩
  · rw [C49_truncated_exponential, Finset.sum_smul]
    apply Finset.sum_congr rfl
    intro n hn0
    clear hn0
    have hn : H^[n] psi = ((e : ℂ) ^ n) • psi := by
      induction n with
      | zero => simp
      | succ n ih => rw [Function.iterate_succ_apply', ih, hH, he, smul_smul, pow_succ]
    rw [hn, smul_smul, mul_pow]
    congr 1
    ring
  · have h := Complex.norm_exp_sub_sum_le_norm_mul_exp (-Complex.I * dt * e) (order + 1)
    have hn : ‖(-Complex.I * dt * e : ℂ)‖ = |e * dt| := by
      rw [norm_mul, norm_mul, norm_neg, Complex.norm_I, one_mul, Complex.norm_real, Complex.norm_real, abs_mul, mul_comm]
      rfl
    rw [hn] at h
    exact h

/-- **C49c.** Orders below 1 are rejected and only those. -/
theorem C49_order_checked (order : ℤ) : (∃ o, taylorInit order = .ok o) ↔ 1 ≤ order := by
  unfold taylorInit
  split
  · constructor
    · rintro ⟨o, h⟩
      exact absurd h (by simp)
    · intro h; omega
  · constructor
    · intro _; omega
    · intro _; exact ⟨_, rfl⟩

/-- **C49d (violation).** A non-collinear run "succeeds" without propagating anything (the output is whatever was there), and a
spin-polarised run always raises. -/
theorem C49_unsupported_violated (H : E → E) (dt : ℝ) (order : ℕ) (isSpin : Bool) (psi out : E) :
    taylorPropPsi H dt order isSpin true psi out = .ok out ∧
    taylorPropPsi H dt order true false psi out = .error .runtime ∧
    taylorPropPsi H dt order false false psi out = .ok (taylorProp H dt order psi) := by
  unfold taylorPropPsi
  simp

end Taylor

/-- **C49e.** With the Kohn-Sham Hamiltonian of `KSHam` (on the GPU, where it is not rounded) the step applies the truncated exponential of the Hamiltonian matrix. -/
theorem C49_hamiltonian_matrix (drv : Driver) (d : Dims) (idx : List ℕ) (hv : ValidIdx d idx) (st : DrvState ℂ)
    (gk2 : Fin idx.length → ℝ) (V : Fin d.size → ℝ) (nl : List (Proj idx.length)) (dt : ℝ) (order : ℕ) (psi : Fin idx.length → ℂ) :
    taylorProp (Nonloc.hPsi .gpu drv d idx st gk2 (fun r => (V r : ℂ) / d.size) nl) dt order psi
      = (∑ n ∈ Finset.range (order + 1), ((-Complex.I * dt) ^ n / n.factorial : ℂ) •
          (Matrix.of (Nonloc.hamMatrix d idx gk2 V nl)) ^ n) *ᵥ psi := by
  rw [C49_truncated_exponential, Matrix.sum_mulVec]
  apply Finset.sum_congr rfl
  intro n hn0
  clear hn0
  rw [Matrix.smul_mulVec]
  congr 1
  induction n with
  | zero => simp
  | succ n ih =>
    rw [Function.iterate_succ_apply', ih, pow_succ', ← Matrix.mulVec_mulVec]
    funext j
    rw [Nonloc.C72_h_psi_is_hamiltonian drv d idx hv]
    rfl

example : taylorProp (E := ℂ) (fun x => 2 * x) 1 2 1 = -1 - 2 * Complex.I := by
  rw [C49_truncated_exponential]
  simp [Finset.sum_range_succ]
  ring_nf

/-! ## C50: split-operator propagator -/

section MatExp

variable {m n p : Type*} [Fintype m] [DecidableEq m] [Fintype n] [DecidableEq n] [Fintype p] [DecidableEq p]

theorem matExp_hasSum (A : Matrix m m ℂ) : HasSum (fun k : ℕ => ((k.factorial : ℂ)⁻¹) • A ^ k) (NormedSpace.exp A) :=
  open scoped Matrix.Norms.Operator in NormedSpace.exp_series_hasSum_exp' A

theorem pow_intertwine (W : Matrix p n ℂ) (X : Matrix n n ℂ) (Y : Matrix p p ℂ) (h : W * X = Y * W) (k : ℕ) :
    W * X ^ k = Y ^ k * W := by
  induction k with
  | zero => simp
  | succ k ih => rw [pow_succ, ← Matrix.mul_assoc, ih, Matrix.mul_assoc, h, ← Matrix.mul_assoc, ← pow_succ]

theorem exp_intertwine (W : Matrix p n ℂ) (X : Matrix n n ℂ) (Y : Matrix p p ℂ) (h : W * X = Y * W) :
    W * NormedSpace.exp X = NormedSpace.exp Y * W := by
  have h1 : HasSum (fun k : ℕ => W * (((k.factorial : ℂ)⁻¹) • X ^ k)) (W * NormedSpace.exp X) :=
    (matExp_hasSum X).map (⟨⟨fun M => W * M, by simp⟩, fun a b => Matrix.mul_add W a b⟩ : Matrix n n ℂ →+ Matrix p n ℂ)
      (by exact Continuous.matrix_mul continuous_const continuous_id)
  have h2 : HasSum (fun k : ℕ => (((k.factorial : ℂ)⁻¹) • Y ^ k) * W) (NormedSpace.exp Y * W) :=
    (matExp_hasSum Y).map (⟨⟨fun M => M * W, by simp⟩, fun a b => Matrix.add_mul a b W⟩ : Matrix p p ℂ →+ Matrix p n ℂ)
      (by exact Continuous.matrix_mul continuous_id continuous_const)
  have e : (fun k : ℕ => W * (((k.factorial : ℂ)⁻¹) • X ^ k)) = fun k : ℕ => (((k.factorial : ℂ)⁻¹) • Y ^ k) * W := by
    funext k
    rw [Matrix.mul_smul, Matrix.smul_mul, pow_intertwine W X Y h]
  rw [e] at h1
  exact h1.unique h2

/-- Exponential of a low-rank operator `C D Cᴴ` through the overlap `S = Cᴴ C`. -/
theorem exp_low_rank (C : Matrix n p ℂ) (D : Matrix p p ℂ) (z : ℂ) (hS : (Cᴴ * C).det ≠ 0) :
    1 + C * ((Cᴴ * C)⁻¹ * (NormedSpace.exp (z • (Cᴴ * C * D)) - 1)) * Cᴴ = NormedSpace.exp (z • (C * D * Cᴴ)) := by
  set S := Cᴴ * C with hSdef
  have hu : IsUnit S.det := isUnit_iff_ne_zero.2 hS
  set X := z • (C * D * Cᴴ) with hX
  set Y := z • (S * D) with hY
  have hi : Cᴴ * X = Y * Cᴴ := by
    rw [hX, hY, Matrix.mul_smul, Matrix.smul_mul, hSdef]
    simp only [Matrix.mul_assoc]
  have h1 := exp_intertwine Cᴴ X Y hi
  have hP : (1 - C * S⁻¹ * Cᴴ) * X = 0 * (1 - C * S⁻¹ * Cᴴ) := by
    rw [Matrix.zero_mul, hX, Matrix.mul_smul, Matrix.sub_mul, Matrix.one_mul]
    have : C * S⁻¹ * Cᴴ * (C * D * Cᴴ) = C * D * Cᴴ := by
      calc C * S⁻¹ * Cᴴ * (C * D * Cᴴ) = C * (S⁻¹ * (Cᴴ * C)) * D * Cᴴ := by simp only [Matrix.mul_assoc]
        _ = C * D * Cᴴ := by rw [← hSdef, Matrix.nonsing_inv_mul _ hu, Matrix.mul_one]
    rw [this, sub_self, smul_zero]
  have h2 := exp_intertwine (1 - C * S⁻¹ * Cᴴ) X 0 hP
  rw [NormedSpace.exp_zero, Matrix.one_mul, Matrix.sub_mul, Matrix.one_mul] at h2
  have h3 : C * S⁻¹ * Cᴴ * NormedSpace.exp X = C * S⁻¹ * NormedSpace.exp Y * Cᴴ := by
    rw [Matrix.mul_assoc (C * S⁻¹), h1, ← Matrix.mul_assoc]
  rw [h3] at h2
  have h4 : C * (S⁻¹ * (NormedSpace.exp Y - 1)) * Cᴴ = C * S⁻¹ * NormedSpace.exp Y * Cᴴ - C * S⁻¹ * Cᴴ := by
    rw [Matrix.mul_sub, Matrix.mul_one, Matrix.mul_sub, Matrix.sub_mul]
    simp only [Matrix.mul_assoc]
  rw [h4]
  have h5 : NormedSpace.exp X = 1 - C * S⁻¹ * Cᴴ + C * S⁻¹ * NormedSpace.exp Y * Cᴴ := by
    rw [← h2]
    abel
  rw [h5]
  abel

end MatExp

theorem projMat_nl {n : ℕ} (P : Proj n) :
    projMat P * dijMat P * (projMat P)ᴴ = Matrix.of (Nonloc.nlMatrix P) := by
  ext j k
  unfold Nonloc.nlMatrix
  simp only [Matrix.mul_apply, projMat, dijMat, Matrix.conjTranspose_apply, Matrix.of_apply, Finset.sum_mul]
  rw [Finset.sum_comm, Finset.sum_range]
  apply Finset.sum_congr rfl
  intro i _
  rw [Finset.sum_range]
  rfl

/-- **C50a.** For every set of linearly independent projectors the non-local half step is exactly the exponential
`exp(-i (dt/2) V_nl)` of the non-local operator; for dependent projectors the constructor raises `LinAlgError`. -/
theorem C50_nonlocal_factor {n : ℕ} (P : Proj n) (dt : ℝ) :
    match expDij P dt with
    | .ok E => ∀ psi, operNl P E psi = NormedSpace.exp ((-(1 / 2) * Complex.I * dt : ℂ) • Matrix.of (Nonloc.nlMatrix P)) *ᵥ psi
    | .error e => e = .linalg ∧ ((projMat P)ᴴ * projMat P).det = 0 := by
  unfold expDij
  simp only
  by_cases h : ((projMat P)ᴴ * projMat P).det = 0
  · rw [if_pos h]
    exact ⟨rfl, h⟩
  · rw [if_neg h]
    intro psi
    unfold operNl
    rw [← projMat_nl, ← exp_low_rank _ _ _ h, Matrix.add_mulVec, Matrix.one_mulVec, Matrix.mulVec_mulVec, Matrix.mulVec_mulVec]

/-- **C50b.** The kinetic half step is exactly `exp(-i (dt/2) T)`, undone by the opposite step. -/
theorem C50_kinetic_factor {n : ℕ} (ke : Fin n → ℝ) (dt : ℝ) (psi : Fin n → ℂ) :
    operKe ke dt psi = NormedSpace.exp (Matrix.diagonal fun j => (-(1 / 2) * Complex.I * dt * ke j : ℂ)) *ᵥ psi ∧
    operKe ke (-dt) (operKe ke dt psi) = psi ∧ (∀ j, ‖operKe ke dt psi j‖ = ‖psi j‖) := by
  refine ⟨?_, ?_, ?_⟩
  · rw [Matrix.exp_diagonal]
    funext j
    rw [Matrix.mulVec_diagonal, Pi.coe_exp, ← Complex.exp_eq_exp_ℂ]
    rfl
  · funext j
    unfold operKe
    rw [← mul_assoc, ← Complex.exp_add]
    rw [show (-(1 / 2) * Complex.I * ((-dt : ℝ) : ℂ) * ke j + -(1 / 2) * Complex.I * dt * ke j : ℂ) = 0 by push_cast; ring,
      Complex.exp_zero, one_mul]
  · intro j
    unfold operKe
    rw [norm_mul, show (-(1 / 2) * Complex.I * dt * ke j : ℂ) = ((-(1 / 2) * dt * ke j : ℝ) : ℂ) * Complex.I by push_cast; ring,
      Complex.norm_exp_ofReal_mul_I, one_mul]

/-- Left inverses of each other up to the list order. -/
def Undo {E : Type*} (f' f : E → E) : Prop := ∀ x, f' (f x) = x

theorem undo_chain {E : Type*} (l l' : List (E → E)) (h : List.Forall₂ Undo l' l) (x : E) :
    l'.foldl (fun x f => f x) (l.reverse.foldl (fun x f => f x) x) = x := by
  induction h generalizing x with
  | nil => rfl
  | cons hab _ ih =>
    rw [List.reverse_cons, List.foldl_append, List.foldl_cons, List.foldl_cons, List.foldl_nil, hab, ih]

theorem undo_chain' {E : Type*} (l l' : List (E → E)) (h : List.Forall₂ Undo l' l) (x : E) :
    l'.reverse.foldl (fun x f => f x) (l.foldl (fun x f => f x) x) = x := by
  have h2 : List.Forall₂ Undo l'.reverse l.reverse := List.forall₂_reverse_iff.2 h
  have := undo_chain l.reverse l'.reverse h2 x
  rwa [List.reverse_reverse] at this

theorem foldl_smul {E : Type*} [AddCommGroup E] [Module ℂ E] (l : List (E → E)) (hl : ∀ f ∈ l, ∀ (c : ℂ) (x : E), f (c • x) = c • f x)
    (c : ℂ) (x : E) : l.foldl (fun x f => f x) (c • x) = c • l.foldl (fun x f => f x) x := by
  induction l generalizing x with
  | nil => rfl
  | cons f l ih =>
    rw [List.foldl_cons, List.foldl_cons, hl f (by simp), ih (fun g hg => hl g (by simp [hg]))]

/-- **C50c.** The split-operator step applies its factors palindromically: if the factors with `-dt` undo those with `dt` (the
local one up to a constant), a step with `dt` followed by one with `-dt` returns the initial state up to that constant,
for any number of species. -/
theorem C50_palindromic_reversible {E : Type*} [AddCommGroup E] [Module ℂ E] (ke ke' : E → E) (nl nl' : List (E → E)) (v v' : E → E)
    (c : ℂ) (hke : Undo ke' ke) (hnl : List.Forall₂ Undo nl' nl) (hv : ∀ x, v' (v x) = c • x)
    (hk : ∀ (z : ℂ) (x : E), ke' (z • x) = z • ke' x) (hn : ∀ f ∈ nl', ∀ (z : ℂ) (x : E), f (z • x) = z • f x) (x : E) :
    splitSeq ke' nl' v' (splitSeq ke nl v x) = c • x := by
  unfold splitSeq
  simp only
  rw [hke, undo_chain nl nl' hnl, hv, foldl_smul _ (by simpa using hn), undo_chain' nl nl' hnl, hk, hke]

/-- **C50d.** The local step is multiplication by `exp(-i dt V)` in real space projected on the basis, times the number of grid
points (the factor that `compute_rho` normalises away). -/
theorem C50_local_factor (drv : Driver) (d : Dims) (idx : List ℕ) (hv : ValidIdx d idx) (st : DrvState ℂ) (dt : ℝ)
    (V : Fin d.size → ℝ) (psi : Fin idx.length → ℂ) (j : Fin idx.length) :
    operVloc drv d idx st dt (fun r => (V r : ℂ) / d.size) psi j
      = (d.size : ℂ) * ∑ k, (((1 : ℂ) / (d.size : ℂ)) * ∑ r, Complex.exp (-Complex.I * dt * V r) *
          Complex.exp (-((2 : ℂ) * Real.pi * Complex.I) * ((Nonloc.gridDot d idx[j] r - Nonloc.gridDot d idx[k] r : ℝ) : ℂ))) * psi k := by
  by_cases hs : d.size = 0
  · exact absurd (hv.2 _ (List.getElem_mem j.2)) (by omega)
  have hN : (d.size : ℂ) ≠ 0 := by exact_mod_cast hs
  unfold operVloc
  rw [Nonloc.wfG_eq drv d idx hv]
  simp only [Nonloc.wfR_eq drv d idx hv, Finset.sum_mul, Finset.mul_sum]
  rw [Finset.sum_comm]
  apply Finset.sum_congr rfl
  intro k _
  apply Finset.sum_congr rfl
  intro r _
  rw [← Nonloc.ker3_pair, show (-Complex.I * dt * d.size * ((V r : ℂ) / d.size)) = -Complex.I * dt * V r by field_simp]
  simp only [Fin.getElem_fin]
  field_simp

theorem sum_full (d : Dims) (idx : List ℕ) (hv : ValidIdx d idx) (hfull : idx.length = d.size) (F : ℕ → ℂ) :
    ∑ k : Fin idx.length, F idx[k] = ∑ f ∈ Finset.range d.size, F f := by
  have h1 : ∑ k : Fin idx.length, F idx[k] = ∑ f ∈ idx.toFinset, F f := by
    rw [List.sum_toFinset F hv.1, ← Fin.sum_univ_fun_getElem]
    rfl
  rw [h1]
  apply Finset.sum_congr _ (fun _ _ => rfl)
  apply Finset.eq_of_subset_of_card_le
  · intro f hf
    exact Finset.mem_range.2 (hv.2 f (List.mem_toFinset.1 hf))
  · rw [List.toFinset_card_of_nodup hv.1, Finset.card_range, hfull]

/-- With all plane waves of the grid in the basis, transforming to the basis and back multiplies by the number of points. -/
theorem wfR_wfG_full (drv : Driver) (d : Dims) (idx : List ℕ) (hv : ValidIdx d idx) (hfull : idx.length = d.size) (st st' : DrvState ℂ)
    (u : Fin d.size → ℂ) (r : Fin d.size) : wfR drv d idx st (wfG drv d idx st' u) r = d.size * u r := by
  rw [Nonloc.wfR_eq drv d idx hv]
  simp only [Nonloc.wfG_eq drv d idx hv, Finset.mul_sum]
  rw [Finset.sum_comm]
  have hsym : ∀ f g, FFT.ker3 d (FFT.dftKern false d) f g = FFT.ker3 d (FFT.dftKern false d) g f := by
    intro f g
    rw [FFT.dft_ker3_bwd, FFT.dft_ker3_bwd]
    congr 2
    ring
  have hsym' : ∀ f g, FFT.ker3 d (FFT.dftKern true d) f g = FFT.ker3 d (FFT.dftKern true d) g f := by
    intro f g
    rw [FFT.dft_ker3_fwd, FFT.dft_ker3_fwd]
    congr 2
    ring
  have e : ∀ r' : Fin d.size, ∑ k : Fin idx.length, FFT.ker3 d (FFT.dftKern false d) r idx[k] *
      (FFT.ker3 d (FFT.dftKern true d) idx[k] r' * u r') = if r' = r then d.size * u r else 0 := by
    intro r'
    rw [sum_full d idx hv hfull (fun f => FFT.ker3 d (FFT.dftKern false d) r f * (FFT.ker3 d (FFT.dftKern true d) f r' * u r'))]
    have h := FFT.ker3_orth d (FFT.dftKern true d) (FFT.dftKern false d) (FFT.dft_orth d.nx) (FFT.dft_orth d.ny) (FFT.dft_orth d.nz) r' r r'.2 r.2
    have h2 : ∑ f ∈ Finset.range d.size, FFT.ker3 d (FFT.dftKern false d) r f * (FFT.ker3 d (FFT.dftKern true d) f r' * u r')
        = (∑ f ∈ Finset.range d.size, FFT.ker3 d (FFT.dftKern true d) r' f * FFT.ker3 d (FFT.dftKern false d) f r) * u r' := by
      rw [Finset.sum_mul]
      apply Finset.sum_congr rfl
      intro f _
      rw [hsym r f, hsym' f r']
      ring
    rw [h2, h]
    by_cases hr : r' = r
    · subst hr
      simp
    · rw [if_neg hr, if_neg (fun h => hr (Fin.ext h)), zero_mul]
  rw [Finset.sum_congr rfl fun r' _ => e r', Finset.sum_ite_eq', if_pos (Finset.mem_univ _)]

theorem wfG_smul (drv : Driver) (d : Dims) (idx : List ℕ) (hv : ValidIdx d idx) (st : DrvState ℂ) (c : ℂ) (u : Fin d.size → ℂ)
    (j : Fin idx.length) : wfG drv d idx st (fun r => c * u r) j = c * wfG drv d idx st u j := by
  rw [Nonloc.wfG_eq drv d idx hv, Nonloc.wfG_eq drv d idx hv, Finset.mul_sum]
  apply Finset.sum_congr rfl
  intro r _
  ring

/-- Transforming to the grid and back multiplies by the number of points, for any basis. -/
theorem wfG_wfR (drv : Driver) (d : Dims) (idx : List ℕ) (hv : ValidIdx d idx) (st st' : DrvState ℂ)
    (psi : Fin idx.length → ℂ) (j : Fin idx.length) : wfG drv d idx st (wfR drv d idx st' psi) j = d.size * psi j := by
  rw [Nonloc.wfG_eq drv d idx hv]
  simp only [Nonloc.wfR_eq drv d idx hv, Finset.mul_sum]
  rw [Finset.sum_comm]
  have e : ∀ k : Fin idx.length, ∑ r : Fin d.size, FFT.ker3 d (FFT.dftKern true d) idx[j] r *
      (FFT.ker3 d (FFT.dftKern false d) r idx[k] * psi k) = if k = j then d.size * psi j else 0 := by
    intro k
    have h := FFT.ker3_orth d (FFT.dftKern true d) (FFT.dftKern false d) (FFT.dft_orth d.nx) (FFT.dft_orth d.ny) (FFT.dft_orth d.nz)
      idx[j] idx[k] (hv.2 _ (List.getElem_mem j.2)) (hv.2 _ (List.getElem_mem k.2))
    rw [Finset.sum_range] at h
    have h2 : ∑ r : Fin d.size, FFT.ker3 d (FFT.dftKern true d) idx[j] r * (FFT.ker3 d (FFT.dftKern false d) r idx[k] * psi k)
        = (∑ r : Fin d.size, FFT.ker3 d (FFT.dftKern true d) idx[j] r * FFT.ker3 d (FFT.dftKern false d) r idx[k]) * psi k := by
      rw [Finset.sum_mul]
      apply Finset.sum_congr rfl
      intro r _
      ring
    rw [h2, h]
    by_cases hk : k = j
    · subst hk
      simp
    · rw [if_neg hk, if_neg, zero_mul]
      intro hjk
      apply hk
      apply Fin.ext
      exact ((List.Nodup.getElem_inj_iff hv.1).1 hjk).symm
  rw [Finset.sum_congr rfl fun k _ => e k, Finset.sum_ite_eq', if_pos (Finset.mem_univ _)]

/-- On a full basis the local step with `-dt` undoes the one with `dt` up to the square of the number of grid points. -/
theorem vloc_undo_full (drv : Driver) (d : Dims) (idx : List ℕ) (hv : ValidIdx d idx) (hfull : idx.length = d.size) (st : DrvState ℂ)
    (dt : ℝ) (vloc : Fin d.size → ℂ) (psi : Fin idx.length → ℂ) :
    operVloc drv d idx st (-dt) vloc (operVloc drv d idx st dt vloc psi) = ((d.size : ℂ) ^ 2) • psi := by
  funext j
  unfold operVloc
  simp only [wfR_wfG_full drv d idx hv hfull]
  have e : (fun r : Fin d.size => (d.size : ℂ) * (wfR drv d idx st psi r * Complex.exp (-Complex.I * dt * d.size * vloc r))
      * Complex.exp (-Complex.I * ((-dt : ℝ) : ℂ) * d.size * vloc r)) = fun r => (d.size : ℂ) * wfR drv d idx st psi r := by
    funext r
    rw [mul_assoc, mul_assoc, ← Complex.exp_add]
    rw [show (-Complex.I * dt * d.size * vloc r + -Complex.I * ((-dt : ℝ) : ℂ) * d.size * vloc r : ℂ) = 0 by push_cast; ring,
      Complex.exp_zero, mul_one]
  rw [e, wfG_smul, wfG_wfR drv d idx hv, Pi.smul_apply, smul_eq_mul]
  · ring
  · exact hv

theorem operNl_eq {n : ℕ} (P : Proj n) (dt : ℝ) (E : Matrix (Fin P.num) (Fin P.num) ℂ) (h : expDij P dt = .ok E) (x : Fin n → ℂ) :
    operNl P E x = NormedSpace.exp ((-(1 / 2) * Complex.I * dt : ℂ) • Matrix.of (Nonloc.nlMatrix P)) *ᵥ x := by
  have a := C50_nonlocal_factor P dt
  rw [h] at a
  exact a x

theorem exp_neg_mul {n : ℕ} (A : Matrix (Fin n) (Fin n) ℂ) : NormedSpace.exp (-A) * NormedSpace.exp A = 1 := by
  rw [Matrix.exp_neg]
  exact Matrix.nonsing_inv_mul _ ((Matrix.isUnit_iff_isUnit_det _).1 (Matrix.isUnit_exp A))

/-- The non-local half step with `-dt` undoes the one with `dt`. -/
theorem nl_undo {n : ℕ} (P : Proj n) (dt : ℝ) (E E' : Matrix (Fin P.num) (Fin P.num) ℂ) (h : expDij P dt = .ok E)
    (h' : expDij P (-dt) = .ok E') : Undo (operNl P E') (operNl P E) := by
  intro x
  rw [operNl_eq P dt E h, operNl_eq P (-dt) E' h']
  generalize Matrix.of (Nonloc.nlMatrix P) = A
  have e : ((-(1 / 2) * Complex.I * ((-dt : ℝ) : ℂ) : ℂ) • A) = -((-(1 / 2) * Complex.I * (dt : ℂ) : ℂ) • A) := by
    rw [← neg_smul]
    congr 1
    push_cast
    ring
  rw [e, Matrix.mulVec_mulVec, exp_neg_mul, Matrix.one_mulVec]

theorem operNl_smul {n : ℕ} (P : Proj n) (E : Matrix (Fin P.num) (Fin P.num) ℂ) (c : ℂ) (x : Fin n → ℂ) :
    operNl P E (c • x) = c • operNl P E x := by
  unfold operNl
  rw [Matrix.mulVec_smul, Matrix.mulVec_smul, Matrix.mulVec_smul, smul_add]

/-- The split-operator propagation of one band for a fixed local potential; `Es` are the factors computed by the constructor. -/
noncomputable def splitProp (drv : Driver) (d : Dims) (idx : List ℕ) (st : DrvState ℂ) (gk2 : Fin idx.length → ℝ) (dt : ℝ)
    (nl : List ((P : Proj idx.length) × Matrix (Fin P.num) (Fin P.num) ℂ)) (vloc : Fin d.size → ℂ) : (Fin idx.length → ℂ) → (Fin idx.length → ℂ) :=
  splitSeq (operKe gk2 dt) (nl.map fun pe => operNl pe.1 pe.2) (operVloc drv d idx st dt vloc)

/-- **C50e.** Time reversibility of the implemented step on a full basis, for every grid, driver, potential, step length and any
list of species with independent projectors: `dt` followed by `-dt` gives back `N²` times the state (normalisation removes `N²`). -/
theorem C50_time_reversible (drv : Driver) (d : Dims) (idx : List ℕ) (hv : ValidIdx d idx) (hfull : idx.length = d.size)
    (st : DrvState ℂ) (gk2 : Fin idx.length → ℝ) (dt : ℝ)
    (nl nl' : List ((P : Proj idx.length) × Matrix (Fin P.num) (Fin P.num) ℂ))
    (hP : nl.map Sigma.fst = nl'.map Sigma.fst) (h : ∀ pe ∈ nl, expDij pe.1 dt = .ok pe.2)
    (h' : ∀ pe ∈ nl', expDij pe.1 (-dt) = .ok pe.2) (vloc : Fin d.size → ℂ) (psi : Fin idx.length → ℂ) :
    splitProp drv d idx st gk2 (-dt) nl' vloc (splitProp drv d idx st gk2 dt nl vloc psi) = ((d.size : ℂ) ^ 2) • psi := by
  unfold splitProp
  apply C50_palindromic_reversible
  · intro x
    exact (C50_kinetic_factor gk2 dt x).2.1
  · induction nl generalizing nl' with
    | nil =>
      cases nl' with
      | nil => exact List.Forall₂.nil
      | cons _ _ => simp at hP
    | cons p l ih =>
      cases nl' with
      | nil => simp at hP
      | cons p' l' =>
        simp only [List.map_cons, List.cons.injEq] at hP
        obtain ⟨P, E⟩ := p
        obtain ⟨P', E'⟩ := p'
        obtain ⟨hp, hl⟩ := hP
        simp only at hp
        subst hp
        refine List.Forall₂.cons ?_ (ih l' hl (fun q hq => h q (List.mem_cons_of_mem _ hq)) (fun q hq => h' q (List.mem_cons_of_mem _ hq)))
        exact nl_undo P dt E E' (h _ List.mem_cons_self) (h' _ List.mem_cons_self)
  · exact vloc_undo_full drv d idx hv hfull st dt vloc
  · intro z x
    funext j
    simp only [operKe, Pi.smul_apply, smul_eq_mul]
    ring
  · intro f hf z x
    obtain ⟨pe, _, rfl⟩ := List.mem_map.1 hf
    exact operNl_smul _ _ _ _

/-- **C50f.** The non-local half step preserves inner products (hence norms and orthogonality) when `D` is Hermitian. -/
theorem C50_nonlocal_unitary {n : ℕ} (P : Proj n) (hD : Nonloc.HermDij P) (dt : ℝ) (E : Matrix (Fin P.num) (Fin P.num) ℂ)
    (h : expDij P dt = .ok E) (x y : Fin n → ℂ) : star (operNl P E x) ⬝ᵥ operNl P E y = star x ⬝ᵥ y := by
  have hH : (Matrix.of (Nonloc.nlMatrix P))ᴴ = Matrix.of (Nonloc.nlMatrix P) := by
    ext j k
    simp only [Matrix.conjTranspose_apply, Matrix.of_apply]
    exact Nonloc.nlMatrix_conj P hD k j
  rw [operNl_eq P dt E h, operNl_eq P dt E h]
  generalize Matrix.of (Nonloc.nlMatrix P) = A at hH
  have e : ((-(1 / 2) * Complex.I * dt : ℂ) • A)ᴴ = -((-(1 / 2) * Complex.I * dt : ℂ) • A) := by
    rw [Matrix.conjTranspose_smul, hH, ← neg_smul]
    congr 1
    simp
  rw [Matrix.star_mulVec, ← Matrix.dotProduct_mulVec, Matrix.mulVec_mulVec, ← Matrix.exp_conjTranspose, e, exp_neg_mul,
    Matrix.one_mulVec]

/-- **C50g.** The self-consistent split-operator step (`tddft_prop_method = "splitoper"`) is time reversible: whenever the factors
with `-dt` undo those with `dt` up to positive constants and the local step does not change the normalised density, a step
followed by the step with `-dt` returns the normalised initial state — although the potential is recomputed from the density. -/
theorem C50_selfconsistent_reversible {E R V : Type*} [AddCommGroup E] [Module ℂ E] (nrm : E → E) (dens : E → R) (pot : R → V)
    (ke ke' : E → E) (nl nl' : List (E → E)) (v v' : V → E → E) (k : ℝ) (hk : 0 < k)
    (hn1 : ∀ x, ∃ r : ℝ, 0 < r ∧ nrm x = (r : ℂ) • x) (hn2 : ∀ (r : ℝ) x, 0 < r → nrm ((r : ℂ) • x) = nrm x)
    (hke : Undo ke' ke) (hnl : List.Forall₂ Undo nl' nl) (hv : ∀ V x, v' V (v V x) = (k : ℂ) • x)
    (hd : ∀ V x, dens (nrm (v V x)) = dens (nrm x))
    (lk : ∀ (z : ℂ) (x : E), ke' (z • x) = z • ke' x) (ln : ∀ f ∈ nl', ∀ (z : ℂ) (x : E), f (z • x) = z • f x)
    (lv : ∀ V (z : ℂ) (x : E), v' V (z • x) = z • v' V x) (x : E) :
    splitStep nrm dens pot ke' nl' v' (splitStep nrm dens pot ke nl v x) = nrm x := by
  unfold splitStep
  simp only
  set a0 := nl.foldl (fun x f => f x) (ke x) with ha0
  obtain ⟨r1, hr1, e1⟩ := hn1 a0
  set b := v (pot (dens (nrm a0))) (nrm a0) with hb
  obtain ⟨r2, hr2, e2⟩ := hn1 (ke (nl.reverse.foldl (fun x f => f x) b))
  have hback : nl'.foldl (fun x f => f x) (ke' (nrm (ke (nl.reverse.foldl (fun x f => f x) b)))) = (r2 : ℂ) • b := by
    rw [e2, lk, hke, foldl_smul _ ln, undo_chain nl nl' hnl]
  have hidem : nrm (nrm a0) = nrm a0 := by rw [e1, hn2 r1 _ hr1, e1]
  rw [hback, hn2 r2 _ hr2]
  have hdens : dens (nrm b) = dens (nrm a0) := by rw [hb, hd, hidem]
  rw [hdens]
  obtain ⟨r3, hr3, e3⟩ := hn1 b
  rw [e3, lv, hb, hv, e1, smul_smul, smul_smul, foldl_smul _ (by simpa using ln), ha0, undo_chain' nl nl' hnl, lk, hke]
  rw [show ((r3 : ℂ) * (k : ℂ) * (r1 : ℂ)) = ((r3 * k * r1 : ℝ) : ℂ) by push_cast; ring]
  exact hn2 _ _ (by positivity)

/-- The hypotheses of C50g are met by a one-component state with a potential that depends on the density. -/
example (x : ℂ) : splitStep (fun z : ℂ => if z = 0 then z else ((‖z‖⁻¹ : ℝ) : ℂ) • z) (fun z => ‖z‖ ^ 2) (fun r : ℝ => r)
    (fun z => Complex.exp (Complex.I) * z) [] (fun V z => Complex.exp ((V : ℂ) * Complex.I) * z)
    (splitStep (fun z : ℂ => if z = 0 then z else ((‖z‖⁻¹ : ℝ) : ℂ) • z) (fun z => ‖z‖ ^ 2) (fun r : ℝ => r)
      (fun z => Complex.exp (-Complex.I) * z) [] (fun V z => Complex.exp (-((V : ℂ) * Complex.I)) * z) x)
    = if x = 0 then x else ((‖x‖⁻¹ : ℝ) : ℂ) • x := by
  apply C50_selfconsistent_reversible (E := ℂ) (k := 1) (hk := one_pos)
  · intro z
    by_cases h : z = 0
    · exact ⟨1, one_pos, by simp [h]⟩
    · exact ⟨‖z‖⁻¹, by positivity, by rw [if_neg h]⟩
  · intro r z hr
    by_cases h : z = 0
    · simp [h]
    · have h1 : (r : ℂ) ≠ 0 := by exact_mod_cast hr.ne'
      have h2 : ‖z‖ ≠ 0 := by simpa using h
      have h3 : (‖z‖ : ℂ) ≠ 0 := by exact_mod_cast h2
      rw [if_neg h, if_neg (by simp [h, hr.ne'])]
      simp only [smul_eq_mul, norm_mul, Complex.norm_real, Real.norm_eq_abs, abs_of_pos hr]
      push_cast
      field_simp
  · intro z
    show Complex.exp Complex.I * (Complex.exp (-Complex.I) * z) = z
    rw [← mul_assoc, ← Complex.exp_add]
    simp
  · exact List.Forall₂.nil
  · intro V z
    rw [← mul_assoc, ← Complex.exp_add]
    simp
  · intro V z
    by_cases h : z = 0
    · simp [h]
    · have h0 : Complex.exp (-((V : ℂ) * Complex.I)) * z ≠ 0 := mul_ne_zero (Complex.exp_ne_zero _) h
      have h1 : ‖z‖ ≠ 0 := by simpa using h
      have h2 : ‖Complex.exp (-((V : ℂ) * Complex.I))‖ = 1 := by
        rw [← neg_mul, ← Complex.ofReal_neg, Complex.norm_exp_ofReal_mul_I]
      rw [if_neg h, if_neg h0]
      simp [h2]
  · intro z w
    simp only [smul_eq_mul]; ring
  · simp
  · intro V z w
    simp only [smul_eq_mul]; ring

/-- A species with one projector on a two-point grid meets the hypotheses of C50e. -/
example : ValidIdx ⟨2, 1, 1⟩ [0, 1] ∧ [0, 1].length = (⟨2, 1, 1⟩ : Dims).size ∧
    ∃ E, expDij (n := 2) { num := 1, vkb := fun _ j => if j = 0 then 1 else Complex.I, dij := fun _ _ => 3 } (1 / 10) = .ok E := by
  refine ⟨⟨by decide, by simp [Dims.size]⟩, rfl, ?_⟩
  have h := C50_nonlocal_factor (n := 2) { num := 1, vkb := fun _ j => if j = 0 then 1 else Complex.I, dij := fun _ _ => 3 } (1 / 10)
  split at h
  · rename_i E hE
    exact ⟨E, hE⟩
  · exfalso
    have h2 := h.2
    rw [Matrix.det_fin_one] at h2
    simp [Matrix.mul_apply, projMat, Fin.sum_univ_two] at h2

/-! ## C80: enforced time reversal step -/

section Etrs

variable {E R V : Type*}

/-- **C80a.** With the Taylor propagator one step sends the current state `ψ` to the normalised evolution of `ψ` itself over one
time step, with the potential of the mean of the density of `ψ` and that of the predicted state. -/
theorem C80_taylor_step (nrm : E → E) (dens : E → R) (pot : R → V) (avg : R → R → R) (evolve : V → E → E) (s : Objs E)
    (hs : s.cur < s.next) :
    let psi := s.heap s.cur
    let rho := dens (nrm psi)
    let pred := dens (nrm (evolve (pot rho) psi))
    let s' := etrsStep .taylor nrm dens pot avg evolve s
    s'.heap s'.cur = nrm (evolve (pot (avg rho pred)) psi) := by
  have h1 : s.cur ≠ s.next := by omega
  simp [etrsStep, computeRho, propPsi, Function.update_of_ne h1.symm, Function.update_of_ne h1]

/-- **C80b (violation).** With the split-operator propagator — an accepted combination — the second propagation starts from the
already propagated (and normalised) state: one "step" is two evolutions. -/
theorem C80_split_step_doubles (nrm : E → E) (dens : E → R) (pot : R → V) (avg : R → R → R) (evolve : V → E → E) (s : Objs E)
    (hs : s.cur < s.next) :
    let psi := s.heap s.cur
    let rho := dens (nrm psi)
    let pred := dens (nrm (evolve (pot rho) psi))
    let s' := etrsStep .split nrm dens pot avg evolve s
    s'.heap s'.cur = nrm (evolve (pot (avg rho pred)) (nrm (evolve (pot rho) psi))) := by
  have h1 : s.cur ≠ s.next := by omega
  simp [etrsStep, computeRho, propPsi, Function.update_of_ne h1.symm, Function.update_of_ne h1]

end Etrs

/-- **C80c (violation, concrete).** A free particle with phase evolution: after one accepted ETRS+split step of length 1 the phase
is that of two steps. -/
theorem C80_split_violated :
    selectMethods "splitoper" "etrs" = .ok (.split, true) ∧
    ∃ (evolve : Unit → ℂ → ℂ) (s : Objs ℂ), s.cur < s.next ∧
      (let s' := etrsStep .split id (fun _ => ()) id (fun a _ => a) evolve s; s'.heap s'.cur) ≠ evolve () (s.heap s.cur) := by
  refine ⟨by decide, fun _ z => Complex.I * z, { heap := fun _ => 1, next := 1, cur := 0 }, by simp, ?_⟩
  have h := C80_split_step_doubles (R := Unit) (id : ℂ → ℂ) (fun _ => ()) id (fun a _ => a) (fun (_ : Unit) z => Complex.I * z)
    { heap := fun _ => 1, next := 1, cur := 0 } (by simp)
  simp only [id_eq] at h ⊢
  rw [h]
  rw [← mul_assoc, Complex.I_mul_I]
  intro hc
  have := congrArg Complex.re hc
  norm_num at this

/-! ## C81: method selection and rows -/

/-- **C81a.** Exactly three combinations are accepted: Taylor with ETRS and the split operator with either propagator. -/
theorem C81_methods (e p : String) :
    (∃ r, selectMethods e p = .ok r) ↔
      (e = "taylor" ∧ p = "etrs") ∨ (e = "splitoper" ∧ p = "etrs") ∨ (e = "splitoper" ∧ p = "splitoper") := by
  unfold selectMethods
  by_cases h1 : e = "taylor"
  · subst h1
    by_cases h2 : p = "etrs"
    · simp [h2]
    · by_cases h3 : p = "splitoper"
      · simp [h3]
      · simp [h2, h3]
  · by_cases h2 : e = "splitoper"
    · subst h2
      by_cases h2 : p = "etrs"
      · simp [h2]
      · by_cases h3 : p = "splitoper"
        · simp [h3]
        · simp [h2, h3]
    · simp [h1, h2]

/-- Rejected combinations raise `ValueError`. -/
theorem C81_rejects_value (e p : String) (x : PyErr) (h : selectMethods e p = .error x) : x = .value := by
  unfold selectMethods at h
  simp only at h
  split at h
  · rename_i y hy
    split at hy
    · cases hy
    · split at hy
      · cases hy
      · cases hy; cases h; rfl
  · split at h
    · cases h
    · split at h
      · split at h
        · cases h; rfl
        · cases h
      · cases h; rfl

/-- **C81b.** For every number of steps each row `0 … numstep` of the dipole table is written exactly once, in order. -/
theorem C81_rows (numstep : ℕ) : rowsOf numstep = List.range (numstep + 1) := by
  unfold rowsOf
  rw [List.range_succ_eq_map]
  rfl

/-! ## C82: partial dipole files -/

/-- **C82a (violation).** `write_freq` has no effect on the files written while propagating: two positive or non-positive settings
other than 1 give the same writes. -/
theorem C82_write_freq_ignored (numstep : ℕ) (a b : ℤ) (ha : a ≠ 1) (hb : b ≠ 1) : savesOf numstep a = savesOf numstep b := by
  unfold savesOf
  simp only
  have key : ∀ w : ℤ, w ≠ 1 → ¬ (w > 0 ∧ (-1 : ℤ) % w = 0) := by
    rintro w hw ⟨h1, h2⟩
    have hd := Int.dvd_of_emod_eq_zero h2
    have := Int.le_of_dvd (by norm_num) ((Int.dvd_neg).1 hd)
    omega
  rw [if_neg (key a ha), if_neg (key b hb)]

/-- **C82b (violation).** `write_freq = 0`, documented as "no files", still writes one for every run with at least one step, and it
omits the row of the step at which it is written. -/
theorem C82_disable_violated (numstep : ℕ) (h : 0 < numstep) : (0, 1) ∈ savesOf numstep 0 ∧
    (∀ q ∈ savesOf numstep 0, ∃ i < numstep, q.1 = (i : ℤ) ∧ i % 10 = 0 ∧ q.2 = i + 1 ∧ (rowsOf numstep)[i + 1]? = some q.2) := by
  unfold savesOf
  simp only
  constructor
  · rw [if_neg (by omega), List.nil_append, List.mem_flatMap]
    exact ⟨0, by simpa using h, by simp⟩
  · intro q hq
    rw [if_neg (by omega), List.nil_append, List.mem_flatMap] at hq
    obtain ⟨i, hi, hq⟩ := hq
    have hi' : i < numstep := List.mem_range.1 hi
    by_cases hc : (10 : ℤ) > 0 ∧ ((i : ℤ)) % 10 = 0
    · rw [if_pos hc, List.mem_singleton] at hq
      subst hq
      refine ⟨i, hi', rfl, by omega, by omega, ?_⟩
      rw [C81_rows, List.getElem?_range (by omega)]
      simp only [Option.some.injEq]
      omega
    · rw [if_neg hc] at hq
      simp at hq

/-! ## C83: the spectrum -/

/-- **C83a (violation).** Without an explicit damping factor the requested damping function is ignored: `poly` is used whatever
the request, even an unknown name. -/
theorem C83_default_factor_violated (f : Option String) (T : ℝ) : dampChoice f none T = .ok ("poly", none) := by
  unfold dampChoice
  simp

/-- **C83b.** With an explicit factor exactly `poly`, `exp` and `gauss` are accepted, the latter two for non-negative factors. -/
theorem C83_explicit_factor (f : Option String) (x T : ℝ) :
    (∃ c, dampChoice f (some x) T = .ok c) ↔ f = some "poly" ∨ (f = some "exp" ∧ 0 ≤ x) ∨ (f = some "gauss" ∧ 0 ≤ x) := by
  unfold dampChoice
  simp only [Option.isNone_some, Bool.false_eq_true, if_false]
  split
  · simp
  · by_cases h : x < 0
    · simp [h]
    · simp [h, not_lt.1 h]
  · by_cases h : x < 0
    · simp [h]
    · simp [h, not_lt.1 h]
  · rename_i h1 h2 h3
    simp only [reduceCtorEq, exists_false, false_iff, not_or]
    exact ⟨h1, fun h => h2 h.1, fun h => h3 h.1⟩

/-- **C83c.** Every accepted damping starts at 1; the weights stay in `[0, 1]` over the recorded times, and `poly` ends at 0. -/
theorem C83_weights (f : Option String) (x : Option ℝ) (T t : ℝ) (c : String × Option ℝ) (h : dampChoice f x T = .ok c) (hT : 0 < T)
    (ht : 0 ≤ t) (ht' : t ≤ T) :
    dampWeight c T 0 = 1 ∧ 0 ≤ dampWeight c T t ∧ dampWeight c T t ≤ 1 ∧ (c.1 = "poly" → dampWeight c T T = 0) := by
  have hf : ∀ y, c.2 = some y → 0 ≤ y := by
    intro y hy
    unfold dampChoice at h
    simp only at h
    split at h
    · cases h; simp at hy
    · cases x with
      | none => simp at *
      | some x =>
        simp only at h
        split at h
        · cases h
        · cases h
          simp only [Option.some.injEq] at hy
          linarith
    · cases x with
      | none => simp at *
      | some x =>
        simp only at h
        split at h
        · cases h
        · cases h
          simp only [Option.some.injEq] at hy
          linarith
    · cases h
  have hg : 0 ≤ c.2.getD 0 := by
    cases hc : c.2 with
    | none => simp
    | some y => simpa using hf y hc
  have hu0 : 0 ≤ t / T := div_nonneg ht hT.le
  have hu1 : t / T ≤ 1 := (div_le_one hT).2 ht'
  refine ⟨?_, ?_, ?_, ?_⟩
  · unfold dampWeight
    split
    · simp
    · split <;> simp
  · unfold dampWeight
    split
    · nlinarith [mul_nonneg (sq_nonneg (1 - t / T)) (by linarith : (0 : ℝ) ≤ 1 + 2 * (t / T))]
    · split <;> exact (Real.exp_pos _).le
  · unfold dampWeight
    split
    · nlinarith [mul_nonneg (sq_nonneg (t / T)) (by linarith : (0 : ℝ) ≤ 3 - 2 * (t / T))]
    · split
      · rw [Real.exp_le_one_iff]
        have := mul_nonneg hg ht
        linarith
      · rw [Real.exp_le_one_iff]
        have := sq_nonneg (c.2.getD 0 * t)
        linarith
  · intro hc
    unfold dampWeight
    rw [if_pos hc, div_self hT.ne']
    norm_num

/-- **C83d.** For every linear quadrature the spectrum is linear in the dipole signal and vanishes at zero energy. -/
theorem C83_linear (quad : (ℕ → ℂ) →ₗ[ℂ] ℂ) (c : String × Option ℝ) (numstep : ℕ) (dt : ℝ) (d1 d2 : ℕ → ℂ) (a b : ℂ) (en : ℝ) :
    spectrumAt quad c numstep dt (fun i => a * d1 i + b * d2 i) en
      = a * spectrumAt quad c numstep dt d1 en + b * spectrumAt quad c numstep dt d2 en ∧
    spectrumAt quad c numstep dt d1 0 = 0 := by
  unfold spectrumAt
  constructor
  · rw [← smul_eq_mul a, ← smul_eq_mul b, ← map_smul, ← map_smul, ← map_add]
    congr 1
    funext i
    simp only [Pi.add_apply, Pi.smul_apply, smul_eq_mul]
    ring
  · simp only [zero_mul, Real.sin_zero, Complex.ofReal_zero, mul_zero]
    exact map_zero quad

end Verif.TDDFT
