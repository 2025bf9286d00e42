import Mathlib.Analysis.Complex.Basic
import Mathlib.Tactic.LinearCombination
import Mathlib.Tactic.IntervalCases
import Mathlib.Tactic.Linarith
import Mathlib.Data.List.GetD
import Verif.Model.Pot
import Verif.Props.Containers

/-!
# Property C33: gradient and divergence of fields in G-space
-/

namespace Verif.Pot

open Verif.Containers

theorem normIdx_neg (n k : ℕ) (hk : 0 < k) (h : k ≤ n) : normIdx n (-(k : ℤ)) = .ok (n - k) := by
  unfold normIdx
  have h1 : (-(k : ℤ)) < 0 := by omega
  simp only [h1, if_true]
  rw [if_pos (by omega)]
  congr 1
  omega

theorem normIdx_pos (n k : ℕ) (h : k < n) : normIdx n (k : ℤ) = .ok k := by
  unfold normIdx
  have h1 : ¬ ((k : ℤ) < 0) := by omega
  simp only [h1, if_false]
  rw [if_pos (by omega)]
  simp

theorem getLastD_snoc {α : Type*} (l : List α) (x d : α) : (l ++ [x]).getLastD d = x := by
  simp

theorem insertIdx_at (l t : List ℕ) (x : ℕ) : (l ++ t).insertIdx l.length x = l ++ x :: t := by
  induction l with
  | nil => simp
  | cons y l ih => simpa using ih

/-- The divergence over the default axis of a field of any leading shape ending in 3: the result's shape and entries. -/
theorem div_default (g : ℕ → ℕ → ℝ) (a : Arr ℂ) (lead : List ℕ) (n : ℕ) (h : a.shape = lead ++ [3, n]) :
    ∃ r, div g a (-1) = .ok r ∧ r.shape = lead ++ [n] ∧
      ∀ (i : List ℕ) (j : ℕ), i.length = lead.length →
        r.get (i ++ [j]) = ∑ c ∈ Finset.range 3, a.get (i ++ [c, j]) * (Complex.I * (g c j : ℂ)) := by
  have hs : a.shape = (lead ++ [3]) ++ [n] := by rw [h]; simp
  have hd : a.shape.dropLast = lead ++ [3] := by rw [hs]; simp
  have hl : a.shape.getLastD 0 = n := by rw [hs, getLastD_snoc]
  have hN : normIdx (lead ++ [3]).length (-1) = .ok lead.length := by
    have := normIdx_neg (lead ++ [3]).length 1 (by norm_num) (by simp)
    simpa using this
  have hN2 : normIdx a.shape.length (-1 - 1) = .ok lead.length := by
    have := normIdx_neg a.shape.length 2 (by norm_num) (by simp [h])
    simpa [h] using this
  unfold div
  simp only [hd, hl, hN]
  rw [if_neg (by simp), if_neg (by simp)]
  simp only [hN2]
  have he : a.shape.eraseIdx lead.length = lead ++ [n] := by
    rw [h, List.eraseIdx_append_of_length_le (le_refl _)]; simp
  rw [if_pos (by simp [reduceAx, he])]
  refine ⟨_, rfl, by simp [reduceAx, he], ?_⟩
  intro i j hi
  have h3 : a.shape.getD lead.length 0 = 3 := by rw [h]; simp
  have hins : ∀ c, (i ++ [j]).insertIdx lead.length c = i ++ [c, j] := by
    intro c; rw [← hi, insertIdx_at]
  have hd2 : ∀ c, (i ++ [c, j]).dropLast.getLastD 0 = c := by
    intro c
    have : i ++ [c, j] = (i ++ [c]) ++ [j] := by simp
    rw [this, List.dropLast_concat, getLastD_snoc]
  have hl2 : ∀ c, (i ++ [c, j]).getLastD 0 = j := by
    intro c
    have : i ++ [c, j] = (i ++ [c]) ++ [j] := by simp
    rw [this, getLastD_snoc]
  simp only [reduceAx, h3, hins, hd2, hl2]
  rw [Finset.sum_range_succ, Finset.sum_range_succ, Finset.sum_range_one]
  rfl

theorem grad_shape (g : ℕ → ℕ → ℝ) (a : Arr ℂ) (lead : List ℕ) (n : ℕ) (h : a.shape = lead ++ [n]) :
    (grad g a).shape = lead ++ [3, n] := by
  simp [grad, h]

theorem grad_get (g : ℕ → ℕ → ℝ) (a : Arr ℂ) (i : List ℕ) (c j : ℕ) :
    (grad g a).get (i ++ [c, j]) = a.get (i ++ [j]) * Complex.I * (g c j : ℂ) := by
  have : i ++ [c, j] = (i ++ [c]) ++ [j] := by simp
  simp only [grad, this, List.dropLast_concat, getLastD_snoc]

/-- **C33 (partial: default axis).** For every leading shape (none, spins, bands, ...), every G-set and every field:
the divergence of the gradient is defined, has the shape of the field, and multiplies the component at G by `-|G|²`.
Missing for the full property: explicit non-negative axes, for which it fails (`C33_axis_fails`). -/
theorem C33_div_grad_partial (g : ℕ → ℕ → ℝ) (a : Arr ℂ) (lead : List ℕ) (n : ℕ) (h : a.shape = lead ++ [n]) :
    ∃ r, div g (grad g a) (-1) = .ok r ∧ r.shape = a.shape ∧
      ∀ (i : List ℕ) (j : ℕ), InShape a.shape (i ++ [j]) →
        r.get (i ++ [j]) = -((g 0 j ^ 2 + g 1 j ^ 2 + g 2 j ^ 2 : ℝ) : ℂ) * a.get (i ++ [j]) := by
  obtain ⟨r, hr, hsh, hget⟩ := div_default g (grad g a) lead n (grad_shape g a lead n h)
  refine ⟨r, hr, by rw [hsh, h], ?_⟩
  intro i j hi
  have hlen : i.length = lead.length := by
    have := List.Forall₂.length_eq hi
    rw [h] at this
    simpa using this
  rw [hget i j hlen]
  simp only [grad_get]
  rw [Finset.sum_range_succ, Finset.sum_range_succ, Finset.sum_range_one]
  push_cast
  linear_combination (a.get (i ++ [j]) * ((g 0 j : ℂ) ^ 2 + (g 1 j : ℂ) ^ 2 + (g 2 j : ℂ) ^ 2)) * Complex.I_sq

/-- **C33 (adjoint).** Minus the divergence is the adjoint of the gradient: for every vector field `h` and scalar field
`f` on the same basis, `Σ_c ⟨h_c, (∇f)_c⟩ = -⟨∇·h, f⟩`, component by component of the leading shape. -/
theorem C33_adjoint (g : ℕ → ℕ → ℝ) (h f : Arr ℂ) (lead : List ℕ) (n : ℕ) (hh : h.shape = lead ++ [3, n])
    (hf : f.shape = lead ++ [n]) :
    ∃ r, div g h (-1) = .ok r ∧ r.shape = f.shape ∧ ∀ i : List ℕ, i.length = lead.length →
      ∑ c ∈ Finset.range 3, ∑ j ∈ Finset.range n, (starRingEnd ℂ) (h.get (i ++ [c, j])) * (grad g f).get (i ++ [c, j])
        = -∑ j ∈ Finset.range n, (starRingEnd ℂ) (r.get (i ++ [j])) * f.get (i ++ [j]) := by
  obtain ⟨r, hr, hsh, hget⟩ := div_default g h lead n hh
  refine ⟨r, hr, by rw [hsh, hf], ?_⟩
  intro i hi
  rw [Finset.sum_comm, ← Finset.sum_neg_distrib]
  apply Finset.sum_congr rfl
  intro j _
  rw [hget i j hi, map_sum, Finset.sum_mul, ← Finset.sum_neg_distrib]
  apply Finset.sum_congr rfl
  intro c _
  rw [grad_get]
  simp only [map_mul, Complex.conj_I, Complex.conj_ofReal]
  ring

/-- **C33 (violation).** Naming the vector axis by its non-negative position does not give the divergence: the code
sums over the axis before it. For every two-spin vector field (`shape = (2, 3)`) `axis = 1` — the same axis as `-1` —
returns an array of shape `(3, n)` instead of `(2, n)`, whose entries add the two spins; and for a field of shape
`(3,)` on a basis of other than 3 vectors, `axis = 0` raises `ValueError`. -/
theorem C33_axis_fails (g : ℕ → ℕ → ℝ) (a : Arr ℂ) (n : ℕ) :
    (a.shape = [2, 3, n] → ∃ r, div g a 1 = .ok r ∧ r.shape = [3, n] ∧
      ∀ c j, r.get [c, j] = (a.get [0, c, j] + a.get [1, c, j]) * (Complex.I * (g c j : ℂ))) ∧
    (a.shape = [3, n] → n ≠ 3 → div g a 0 = .error .value ∧ ∃ r, div g a (-1) = .ok r ∧ r.shape = [n]) := by
  constructor
  · intro h
    have h1 : normIdx 2 1 = .ok 1 := normIdx_pos 2 1 (by norm_num)
    have h2 : normIdx 3 (1 - 1) = .ok 0 := normIdx_pos 3 0 (by norm_num)
    unfold div
    simp only [h, List.dropLast, List.length_cons, List.length_nil, List.getLastD, h1, h2, List.getLast_cons_cons,
      List.getLast_singleton]
    norm_num [reduceAx, h]
    intro c j
    simp [List.range_succ, fold1, val, add_mul]
  · intro h hn
    constructor
    · have h1 : normIdx 1 0 = .ok 0 := normIdx_pos 1 0 (by norm_num)
      have h2 : normIdx 2 (0 - 1) = .ok 1 := normIdx_neg 2 1 (by norm_num) (by norm_num)
      unfold div
      simp only [h, List.dropLast, List.length_cons, List.length_nil, List.getLastD, h1, h2, List.getLast_cons_cons,
        List.getLast_singleton]
      simp [reduceAx, Ne.symm hn]
    · obtain ⟨r, hr, hs, _⟩ := div_default g a [] n (by simpa using h)
      exact ⟨r, hr, by simpa using hs⟩

example : ∃ r, div (fun c j => (c + j : ℝ)) (grad (fun c j => (c + j : ℝ)) ⟨[2, 4], fun _ => 1⟩) (-1) = .ok r ∧
    r.get [1, 3] = -(50 : ℂ) := by
  obtain ⟨r, hr, _, hg⟩ := C33_div_grad_partial (fun c j => (c + j : ℝ)) ⟨[2, 4], fun _ => 1⟩ [2] 4 rfl
  refine ⟨r, hr, ?_⟩
  have := hg [1] 3 (by unfold InShape; simp)
  rw [show ([1] ++ [3] : List ℕ) = [1, 3] from rfl] at this
  rw [this]
  norm_num

end Verif.Pot
