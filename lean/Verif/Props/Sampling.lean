import Mathlib.Analysis.SpecialFunctions.Complex.Log
import Verif.Props.Symm

/-!
# C186: sampling inequivalent k-points and symmetrising gives the density of all k-points
-/

namespace Verif.Symm

open Matrix
open Verif.GSpace (GVec Shape)
open scoped ComplexConjugate

variable {n : ℕ} {ops : Fin (n + 1) → SymOp} {sh : Shape} {key : GVec → ℤ} {gs : List GVec}

theorem wave_periodic (g : GVec) (x : Fin 3 → ℝ) (m : Fin 3 → ℤ) : wave g (fun i => x i + m i) = wave g x := by
  unfold wave
  rw [Complex.exp_eq_exp_iff_exists_int]
  refine ⟨∑ i, m i * toV g i, ?_⟩
  push_cast
  simp only [add_mul, Finset.sum_add_distrib]
  ring

theorem realVal_periodic (f : ℕ → ℂ) (x : Fin 3 → ℝ) (m : Fin 3 → ℤ) : realVal gs f (fun i => x i + m i) = realVal gs f x := by
  unfold realVal
  exact Finset.sum_congr rfl fun j _ => by rw [wave_periodic]

/-- Averaging over the group absorbs an operation on the left. -/
theorem sum_left (hG : IsGroup ops) (f : ℕ → ℂ) (u : Fin (n + 1)) (x : Fin 3 → ℝ) :
    ∑ s, realVal gs f ((ops u).apply ((ops s).apply x)) = ∑ s, realVal gs f ((ops s).apply x) := by
  choose v hv using fun s => hG.closed u s
  have hinj : Function.Injective v := by
    intro s s' e
    apply hG.inj
    have h1 := (hv s).1
    have h2 := (hv s').1
    rw [e] at h1
    have h3 : (ops u).W * (ops s).W = (ops u).W * (ops s').W := h1.symm.trans h2
    have := congrArg (fun M => (ops u).W⁻¹ * M) h3
    simpa [← Matrix.mul_assoc, Matrix.nonsing_inv_mul _ (hG.unimod u)] using this
  have hbij : Function.Bijective v := Finite.injective_iff_bijective.1 hinj
  refine Eq.trans ?_ (Equiv.sum_comp (Equiv.ofBijective v hbij) fun s => realVal gs f ((ops s).apply x))
  refine Finset.sum_congr rfl fun s _ => ?_
  choose m hm using (hv s).2
  show _ = realVal gs f ((ops (v s)).apply x)
  have : (ops (v s)).apply x = fun i => (ops u).apply ((ops s).apply x) i + m i := by
    funext i
    have hmm : ((ops u).W * (ops s).W).map (Int.cast : ℤ → ℝ) = (ops u).W.map (Int.cast : ℤ → ℝ) * (ops s).W.map (Int.cast : ℤ → ℝ) := Matrix.map_mul (f := Int.castRingHom ℝ)
    unfold SymOp.apply
    rw [Pi.add_apply, Pi.add_apply, hm i, (hv s).1, Matrix.mulVec_add, Pi.add_apply, Matrix.mulVec_mulVec, hmm]
    ring
  rw [this, realVal_periodic]

/-- **C186.** Densities `f k` of the k-points of a whole mesh (summed over bands, in G-space), on any set of points that the operations map into itself (all points, or the grid points): the operations
permute the k-points with their densities (C184), and every k-point has a representative whose density its own is the image of (C184, C185). Then the density made of the representatives alone, each with the
number of k-points it stands for as its weight, symmetrised by the program, is the density of the whole mesh. -/
theorem C186_sampling (hG : IsGroup ops) (hB : Basis ops sh key gs) (garbage : ℕ → ℂ) (X : Set (Fin 3 → ℝ)) (hX : ∀ s, ∀ x ∈ X, (ops s).apply x ∈ X) {N : ℕ} (hN : 0 < N) (f : Fin N → ℕ → ℂ)
    (hsym : ∀ s, ∃ p : Equiv.Perm (Fin N), ∀ k, ∀ x ∈ X, realVal gs (f (p k)) ((ops s).apply x) = realVal gs (f k) x)
    (rep : Fin N → Fin N) (hrep : ∀ k, ∃ s, ∀ x ∈ X, realVal gs (f k) ((ops s).apply x) = realVal gs (f (rep k)) x)
    (w : Fin N → ℝ) (hw : ∀ k, w k = (Finset.univ.filter fun k' => rep k' = k).card / N) (x : Fin 3 → ℝ) (hx : x ∈ X) :
    realVal gs (symmetrize ops sh key gs garbage fun j => ∑ k, (w k : ℂ) * f k j) x = (∑ k, realVal gs (f k) x) / N := by
  have hn : ((n + 1 : ℕ) : ℂ) ≠ 0 := by exact_mod_cast Nat.succ_ne_zero n
  have hN' : ((N : ℕ) : ℂ) ≠ 0 := by exact_mod_cast hN.ne'
  have hlin : ∀ y, realVal gs (fun j => ∑ k, (w k : ℂ) * f k j) y = ∑ k, (w k : ℂ) * realVal gs (f k) y := by
    intro y
    unfold realVal
    simp only [Finset.sum_mul, Finset.mul_sum]
    rw [Finset.sum_comm]
    exact Finset.sum_congr rfl fun k _ => Finset.sum_congr rfl fun j _ => by ring
  have hA : ∀ k, ∑ s, realVal gs (f (rep k)) ((ops s).apply x) = ∑ s, realVal gs (f k) ((ops s).apply x) := by
    intro k
    obtain ⟨u, hu⟩ := hrep k
    rw [← sum_left hG (f k) u x]
    exact Finset.sum_congr rfl fun s _ => (hu _ (hX s x hx)).symm
  rw [C31_group_average hG hB, div_eq_div_iff hn hN']
  simp only [hlin]
  rw [Finset.sum_comm]
  simp only [← Finset.mul_sum, hw]
  have e1 : ∀ k, (((Finset.univ.filter fun k' => rep k' = k).card / N : ℝ) : ℂ) * ∑ s, realVal gs (f k) ((ops s).apply x)
      = (∑ k', if rep k' = k then ∑ s, realVal gs (f k') ((ops s).apply x) else 0) / N := by
    intro k
    have : ∀ k', (if rep k' = k then ∑ s, realVal gs (f k') ((ops s).apply x) else 0) = if rep k' = k then ∑ s, realVal gs (f k) ((ops s).apply x) else 0 := by
      intro k'
      split
      · next h => rw [← h, hA k']
      · rfl
    simp only [this]
    rw [← Finset.sum_filter, Finset.sum_const, nsmul_eq_mul]
    push_cast
    ring
  simp only [e1]
  rw [← Finset.sum_div, Finset.sum_comm]
  have e2 : ∀ k' : Fin N, (∑ k, if rep k' = k then ∑ s, realVal gs (f k') ((ops s).apply x) else 0) = ∑ s, realVal gs (f k') ((ops s).apply x) := by
    intro k'
    simp
  simp only [e2]
  rw [div_mul_cancel₀ _ hN', Finset.sum_comm]
  have e3 : ∀ s, ∑ k, realVal gs (f k) ((ops s).apply x) = ∑ k, realVal gs (f k) x := by
    intro s
    obtain ⟨p, hp⟩ := hsym s
    rw [← Equiv.sum_comp p]
    exact Finset.sum_congr rfl fun k _ => hp k x hx
  simp only [e3, Finset.sum_const, Finset.card_univ, Fintype.card_fin, nsmul_eq_mul]
  ring

/-- Two k-points `k` and `-k` of a crystal with the inversion about (1/4, 0, 0): densities that are the images of each other. -/
noncomputable def exF : Fin 2 → ℕ → ℂ := ![fun j => [1, 1, 2].getD j 0, fun j => [1, -2, -1].getD j 0]

theorem exF_image (x : Fin 3 → ℝ) : realVal [(0, 0, 0), (1, 0, 0), (-1, 0, 0)] (exF 1) ((exOps 1).apply x) = realVal [(0, 0, 0), (1, 0, 0), (-1, 0, 0)] (exF 0) x ∧
    realVal [(0, 0, 0), (1, 0, 0), (-1, 0, 0)] (exF 0) ((exOps 1).apply x) = realVal [(0, 0, 0), (1, 0, 0), (-1, 0, 0)] (exF 1) x := by
  have ha : (exOps 1).apply x 0 = -x 0 + 1 / 2 := by
    have : (-1 : Matrix (Fin 3) (Fin 3) ℤ).map (Int.cast : ℤ → ℝ) = -1 := by
      ext i j; fin_cases i <;> fin_cases j <;> simp
    show ((-1 : Matrix (Fin 3) (Fin 3) ℤ).map (Int.cast : ℤ → ℝ) *ᵥ x) 0 + (![1 / 2, 0, 0] : Fin 3 → ℝ) 0 = _
    rw [this, neg_mulVec, one_mulVec]
    simp
  have w0 : ∀ y : Fin 3 → ℝ, wave (0, 0, 0) y = 1 := by intro y; simp [wave, toV, Fin.sum_univ_three]
  have w1 : ∀ y : Fin 3 → ℝ, wave (1, 0, 0) y = Complex.exp (2 * Real.pi * Complex.I * (y 0 : ℂ)) := by intro y; simp [wave, toV, Fin.sum_univ_three]
  have w2 : ∀ y : Fin 3 → ℝ, wave (-1, 0, 0) y = Complex.exp (-(2 * Real.pi * Complex.I * (y 0 : ℂ))) := by intro y; simp [wave, toV, Fin.sum_univ_three]
  have hpi : Complex.exp (2 * Real.pi * Complex.I * (1 / 2)) = -1 := by
    rw [show (2 * Real.pi * Complex.I * (1 / 2) : ℂ) = Real.pi * Complex.I by ring, Complex.exp_pi_mul_I]
  have e1 : Complex.exp (2 * Real.pi * Complex.I * ((-x 0 + 1 / 2 : ℝ) : ℂ)) = -Complex.exp (-(2 * Real.pi * Complex.I * (x 0 : ℂ))) := by
    have : (2 * Real.pi * Complex.I * ((-x 0 + 1 / 2 : ℝ) : ℂ)) = -(2 * Real.pi * Complex.I * (x 0 : ℂ)) + 2 * Real.pi * Complex.I * (1 / 2) := by push_cast; ring
    rw [this, Complex.exp_add, hpi]
    ring
  have e2 : Complex.exp (-(2 * Real.pi * Complex.I * ((-x 0 + 1 / 2 : ℝ) : ℂ))) = -Complex.exp (2 * Real.pi * Complex.I * (x 0 : ℂ)) := by
    have : (-(2 * Real.pi * Complex.I * ((-x 0 + 1 / 2 : ℝ) : ℂ))) = 2 * Real.pi * Complex.I * (x 0 : ℂ) - 2 * Real.pi * Complex.I * (1 / 2) := by push_cast; ring
    rw [this, Complex.exp_sub, hpi]
    ring
  have hr : ∀ (f : ℕ → ℂ) (y : Fin 3 → ℝ), realVal [(0, 0, 0), (1, 0, 0), (-1, 0, 0)] f y = f 0 + f 1 * Complex.exp (2 * Real.pi * Complex.I * (y 0 : ℂ)) + f 2 * Complex.exp (-(2 * Real.pi * Complex.I * (y 0 : ℂ))) := by
    intro f y
    show ∑ j ∈ Finset.range 3, f j * wave (GSpace.at' [(0, 0, 0), (1, 0, 0), (-1, 0, 0)] j) y = _
    rw [Finset.sum_range_succ, Finset.sum_range_succ, Finset.sum_range_one]
    show f 0 * wave (0, 0, 0) y + f 1 * wave (1, 0, 0) y + f 2 * wave (-1, 0, 0) y = _
    rw [w0, w1, w2, mul_one]
  constructor
  · rw [hr, hr, ha, e1, e2]
    show (1 : ℂ) + -2 * _ + -1 * _ = 1 + 1 * _ + 2 * _
    ring
  · rw [hr, hr, ha, e1, e2]
    show (1 : ℂ) + 1 * _ + 2 * _ = 1 + -2 * _ + -1 * _
    ring

example : IsGroup exOps ∧ Basis exOps ⟨4, 1, 1⟩ (fun g => g.1 * g.1) [(0, 0, 0), (1, 0, 0), (-1, 0, 0)] ∧
    (∀ s, ∃ p : Equiv.Perm (Fin 2), ∀ k x, realVal [(0, 0, 0), (1, 0, 0), (-1, 0, 0)] (exF (p k)) ((exOps s).apply x) = realVal [(0, 0, 0), (1, 0, 0), (-1, 0, 0)] (exF k) x) ∧
    (∀ k, ∃ s, ∀ x, realVal [(0, 0, 0), (1, 0, 0), (-1, 0, 0)] (exF k) ((exOps s).apply x) = realVal [(0, 0, 0), (1, 0, 0), (-1, 0, 0)] (exF 0) x) := by
  have h0 : ∀ x, (exOps 0).apply x = x := by
    intro x
    show ((1 : Matrix (Fin 3) (Fin 3) ℤ).map (Int.cast : ℤ → ℝ) *ᵥ x) + 0 = x
    rw [Matrix.map_one _ Int.cast_zero Int.cast_one, one_mulVec, add_zero]
  refine ⟨exOps_ok.1, exOps_ok.2, fun s => ?_, fun k => ?_⟩
  · fin_cases s
    · exact ⟨1, fun k x => congrArg _ (h0 x)⟩
    · refine ⟨Equiv.swap 0 1, fun k x => ?_⟩
      fin_cases k
      · show realVal _ (exF (Equiv.swap 0 1 0)) ((exOps 1).apply x) = realVal _ (exF 0) x
        rw [Equiv.swap_apply_left]
        exact (exF_image x).1
      · show realVal _ (exF (Equiv.swap 0 1 1)) ((exOps 1).apply x) = realVal _ (exF 1) x
        rw [Equiv.swap_apply_right]
        exact (exF_image x).2
  · fin_cases k
    · exact ⟨0, fun x => congrArg _ (h0 x)⟩
    · exact ⟨1, fun x => (exF_image x).1⟩

end Verif.Symm
