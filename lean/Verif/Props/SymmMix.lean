import Mathlib.Logic.Equiv.Fin.Basic
import Verif.Props.Mixing

/-!
# C180: charge mixing commutes with the symmetries of the crystal
-/

namespace Verif.Mixing

open scoped ComplexConjugate

variable {s n : ℕ}

/-- A symmetry acting on densities: the spin components are permuted by `π`, the coefficient at `G` becomes the one at `σ G` times the phase `ω G`. A translation by `t` has `σ = π = 1` and
`ω G = exp (-2πi t·G)`, a rotation permutes the G-vectors, exchanging spin up and down is `π`. -/
def act (ω : Fin n → ℂ) (σ : Equiv.Perm (Fin n)) (π : Equiv.Perm (Fin s)) (rho : Dens s n) : Dens s n := fun k i => ω i * rho (π k) (σ i)

/-- The symmetry is one of the lattice: phases have modulus one, `G` and `σ G` have the same length, `G = 0` stays. -/
structure Isometry (c : Cfg n) (ω : Fin n → ℂ) (σ : Equiv.Perm (Fin n)) : Prop where
  unit : ∀ i, conj (ω i) * ω i = 1
  g2 : ∀ i, c.g2 (σ i) = c.g2 i
  g0 : ∀ i, (σ i).val = 0 ↔ i.val = 0

/-- `act` as a linear map. -/
def actL (ω : Fin n → ℂ) (σ : Equiv.Perm (Fin n)) (π : Equiv.Perm (Fin s)) : Dens s n →ₗ[ℂ] Dens s n where
  toFun := act ω σ π
  map_add' a b := by funext k i; simp [act, mul_add]
  map_smul' r a := by funext k i; simp [act]; ring

theorem dot_act (c : Cfg n) (ω : Fin n → ℂ) (σ : Equiv.Perm (Fin n)) (π : Equiv.Perm (Fin s)) (h : Isometry c ω σ) (a b : Dens s n) :
    dot c (act ω σ π a) (act ω σ π b) = dot c a b := by
  have hs : ∀ (f : Dens s n) i, ∑ k, act ω σ π f k i = ω i * ∑ k, f k (σ i) := by
    intro f i
    unfold act
    rw [← Finset.mul_sum]
    congr 1
    exact Equiv.sum_comp π fun k => f k (σ i)
  have hmul : ∀ i (x y : ℂ), conj (ω i * x) * (ω i * y) = conj x * y := by
    intro i x y
    rw [map_mul]
    linear_combination (conj x * y) * h.unit i
  have h1 : (∑ i : Fin n, if c.hasG0 ∧ i.val = 0 then (0 : ℂ) else conj (∑ k, act ω σ π a k i) * (∑ k, act ω σ π b k i) / (c.g2 i : ℂ))
      = ∑ i : Fin n, if c.hasG0 ∧ i.val = 0 then (0 : ℂ) else conj (∑ k, a k i) * (∑ k, b k i) / (c.g2 i : ℂ) := by
    rw [← Equiv.sum_comp σ fun i : Fin n => if c.hasG0 ∧ i.val = 0 then (0 : ℂ) else conj (∑ k, a k i) * (∑ k, b k i) / (c.g2 i : ℂ)]
    refine Finset.sum_congr rfl fun i _ => ?_
    simp only [hs, hmul, h.g2, h.g0]
  unfold dot
  simp only [h1]
  split
  · next h2 =>
    subst h2
    congr 4
    refine Eq.trans ?_ (Equiv.sum_comp σ fun i : Fin n => conj (a ⟨0, by omega⟩ i - a ⟨1, by omega⟩ i) * (b ⟨0, by omega⟩ i - b ⟨1, by omega⟩ i))
    refine Finset.sum_congr rfl fun i _ => ?_
    unfold act
    rw [← mul_sub, ← mul_sub, hmul]
    have hp : (π ⟨0, by omega⟩ = ⟨0, by omega⟩ ∧ π ⟨1, by omega⟩ = ⟨1, by omega⟩) ∨ (π ⟨0, by omega⟩ = ⟨1, by omega⟩ ∧ π ⟨1, by omega⟩ = ⟨0, by omega⟩) := by
      have hne : π ⟨0, by omega⟩ ≠ π ⟨1, by omega⟩ := fun e => by simpa using π.injective e
      generalize π ⟨0, by omega⟩ = x at *
      generalize π ⟨1, by omega⟩ = y at *
      revert x y
      decide
    rcases hp with ⟨e1, e2⟩ | ⟨e1, e2⟩
    · rw [e1, e2]
    · rw [e1, e2]
      simp only [map_sub]
      ring
  · rfl

theorem computeError_lin (c : Cfg n) (T : Dens s n →ₗ[ℂ] Dens s n) (hT : ∀ a b, dot c (T a) (T b) = dot c a b) (a b : Dens s n) : computeError c (T a) (T b) = computeError c a b := by
  unfold computeError
  rw [← map_sub, hT]

theorem mixed_lin (c : Cfg n) (T : Dens s n →ₗ[ℂ] Dens s n) (hT : ∀ a b, dot c (T a) (T b) = dot c a b) (ins outs : ℕ → Dens s n) (k : ℕ) :
    gram c (fun j => T (ins j)) (fun j => T (outs j)) k = gram c ins outs k ∧
      mixed c (fun j => T (ins j)) (fun j => T (outs j)) k = T (mixed c ins outs k) := by
  have hrs : rs (fun j => T (ins j)) (fun j => T (outs j)) = fun j => T (rs ins outs j) := by
    funext j
    exact (map_sub T _ _).symm
  have hdF : ∀ f : ℕ → Dens s n, dF (fun j => T (f j)) = fun j => T (dF f j) := by
    intro f
    funext j
    exact (map_sub T _ _).symm
  have hg : gram c (fun j => T (ins j)) (fun j => T (outs j)) k = gram c ins outs k := by
    ext i i'
    simp only [gram, hrs, hdF, hT, Matrix.of_apply]
  have hr : rhs c (fun j => T (ins j)) (fun j => T (outs j)) k = rhs c ins outs k := by
    funext i
    simp only [rhs, hrs, hdF, hT]
  refine ⟨hg, ?_⟩
  have hc : coef c (fun j => T (ins j)) (fun j => T (outs j)) k = coef c ins outs k := by
    unfold coef
    rw [hg, hr]
  unfold mixed
  rw [hc, hrs, hdF, hdF]
  simp only [map_add, map_smul, map_sum]

/-- **C180.** Mixing commutes with every symmetry of the lattice, with translations and with the exchange of spin up and down: for both methods, all histories of calls on two new mixers whose densities
differ by such a symmetry, the errors that decide about convergence are the same, and either both histories fail with the same error or the mixed densities differ by that symmetry. -/
theorem C180_mixing_covariant (m : Method) (c : Cfg n) (hm : 1 < c.mixdim) (ω : Fin n → ℂ) (σ : Equiv.Perm (Fin n)) (π : Equiv.Perm (Fin s)) (h : Isometry c ω σ) (ins outs ins' outs' : ℕ → Dens s n)
    (hi : ∀ j, ins' j = act ω σ π (ins j)) (ho : ∀ j, outs' j = act ω σ π (outs j)) (st st' : St s n) (h0 : st.idx = 0) (h0' : st'.idx = 0) (k : ℕ) :
    (∀ j, computeError c (ins' j) (outs' j) = computeError c (ins j) (outs j)) ∧
    match run m c st ins outs k, run m c st' ins' outs' k with
    | .ok r, .ok r' => r'.2 = r.2.map (act ω σ π)
    | .error e, .error e' => e' = e
    | _, _ => False := by
  have hT : ∀ a b, dot c (actL ω σ π a) (actL ω σ π b) = dot c a b := dot_act c ω σ π h
  have ei : ins' = fun j => actL ω σ π (ins j) := funext hi
  have eo : outs' = fun j => actL ω σ π (outs j) := funext ho
  refine ⟨fun j => by rw [ei, eo]; exact computeError_lin c _ hT _ _, ?_⟩
  cases k with
  | zero => rfl
  | succ k =>
    have hl := mixed_lin c (actL ω σ π) hT ins outs
    have s1 := run_spec m c (by omega) ins outs st h0 k
    have s2 := run_spec m c (by omega) ins' outs' st' h0' k
    by_cases hd : ∀ j, 1 ≤ j → j ≤ k → (gram c ins outs j).det ≠ 0
    · obtain ⟨t1, e1, -⟩ := s1.1 hd
      obtain ⟨t2, e2, -⟩ := s2.1 fun j h1 h2 => by rw [ei, eo, (hl j).1]; exact hd j h1 h2
      rw [e1, e2]
      show _ = ((List.range (k + 1)).map (mixed c ins outs)).map (act ω σ π)
      rw [List.map_map]
      refine List.map_congr_left fun j _ => ?_
      rw [ei, eo, (hl j).2]
      rfl
    · push Not at hd
      obtain ⟨j, h1, h2, h3⟩ := hd
      rw [s1.2 ⟨j, h1, h2, h3⟩, s2.2 ⟨j, h1, h2, by rw [ei, eo, (hl j).1]; exact h3⟩]

/-- Translations are such symmetries: `ω G = exp (-2πi t·G)`. -/
theorem translation_isometry (c : Cfg n) (G : Fin n → Fin 3 → ℤ) (t : Fin 3 → ℝ) : Isometry c (fun i => Complex.exp (-(2 * Real.pi * Complex.I) * ((∑ a, t a * G i a : ℝ) : ℂ))) 1 := by
  refine ⟨fun i => ?_, fun _ => rfl, fun _ => Iff.rfl⟩
  rw [← Complex.exp_conj, ← Complex.exp_add, ← Complex.exp_zero]
  congr 1
  have h2 : (starRingEnd ℂ) 2 = 2 := Complex.conj_ofReal 2
  simp only [map_mul, map_neg, Complex.conj_ofReal, Complex.conj_I, h2]
  ring

/-- The exchange of spin up and down is one. -/
example : Isometry exCfg (fun _ => 1) 1 ∧ (1 < exCfg.mixdim) ∧ act (fun _ => 1) 1 (Equiv.swap 0 1) (![![1, 2], ![3, 4]] : Dens 2 2) = ![![3, 4], ![1, 2]] := by
  refine ⟨⟨fun _ => by simp, fun _ => rfl, fun _ => Iff.rfl⟩, by decide, ?_⟩
  funext k i
  fin_cases k <;> fin_cases i <;> simp [act]

end Verif.Mixing
