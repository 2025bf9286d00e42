import Mathlib.Data.Fin.VecNotation
import Mathlib.Data.Matrix.Mul
import Mathlib.Tactic.Linarith
import Mathlib.Tactic.Ring
import Mathlib.Tactic.FieldSimp
import Mathlib.Tactic.Positivity
import Mathlib.Tactic.LinearCombination
import Verif.Model.Mixing

/-!
# Properties C38, C39, C64, C65: charge mixing
-/

namespace Verif.Mixing

open scoped ComplexConjugate

variable {s n : ℕ}

/-! ## The scalar product -/

theorem dot_comm (c : Cfg n) (a b : Dens s n) : dot c a b = dot c b a := by
  have key : ∀ (f g : Fin n → ℂ) (w : Fin n → ℂ), (∀ i, (w i).im = 0) →
      (∑ i, conj (f i) * g i * w i).re = (∑ i, conj (g i) * f i * w i).re := by
    intro f g w hw
    rw [Complex.re_sum, Complex.re_sum]
    apply Finset.sum_congr rfl
    intro i _
    simp only [Complex.mul_re, Complex.mul_im, Complex.conj_re, Complex.conj_im, hw i]
    ring
  have h1 : ∀ (f g : Fin n → ℂ), (∑ i : Fin n, if c.hasG0 ∧ i.val = 0 then (0 : ℂ) else conj (f i) * g i / (c.g2 i : ℂ))
      = ∑ i : Fin n, conj (f i) * g i * (if c.hasG0 ∧ i.val = 0 then (0 : ℂ) else (((c.g2 i)⁻¹ : ℝ) : ℂ)) := by
    intro f g
    apply Finset.sum_congr rfl
    intro i _
    split
    · simp
    · push_cast; rw [div_eq_mul_inv]
  have hw : ∀ i : Fin n, (if c.hasG0 ∧ i.val = 0 then (0 : ℂ) else (((c.g2 i)⁻¹ : ℝ) : ℂ)).im = 0 := by
    intro i; split <;> simp
  unfold dot
  simp only [h1]
  rw [key _ _ _ hw]
  split
  · have := key (fun i => a ⟨0, by omega⟩ i - a ⟨1, by omega⟩ i) (fun i => b ⟨0, by omega⟩ i - b ⟨1, by omega⟩ i) (fun _ => 1)
      (by simp)
    simp only [mul_one] at this
    rw [this]
  · rfl

theorem dot_add_right (c : Cfg n) (a b b' : Dens s n) : dot c a (b + b') = dot c a b + dot c a b' := by
  have h1 : ∀ (f g g' : Fin n → ℂ), (∑ i : Fin n, if c.hasG0 ∧ i.val = 0 then (0 : ℂ) else conj (f i) * (g i + g' i) / (c.g2 i : ℂ))
      = (∑ i : Fin n, if c.hasG0 ∧ i.val = 0 then (0 : ℂ) else conj (f i) * g i / (c.g2 i : ℂ)) +
        ∑ i : Fin n, if c.hasG0 ∧ i.val = 0 then (0 : ℂ) else conj (f i) * g' i / (c.g2 i : ℂ) := by
    intro f g g'
    rw [← Finset.sum_add_distrib]
    apply Finset.sum_congr rfl
    intro i _
    split
    · simp
    · ring
  unfold dot
  simp only [Pi.add_apply, Finset.sum_add_distrib, h1, Complex.add_re]
  split
  · rename_i h
    have h2 : ∀ i, conj (a ⟨0, by omega⟩ i - a ⟨1, by omega⟩ i) * (b ⟨0, by omega⟩ i + b' ⟨0, by omega⟩ i - (b ⟨1, by omega⟩ i + b' ⟨1, by omega⟩ i))
        = conj (a ⟨0, by omega⟩ i - a ⟨1, by omega⟩ i) * (b ⟨0, by omega⟩ i - b ⟨1, by omega⟩ i) +
          conj (a ⟨0, by omega⟩ i - a ⟨1, by omega⟩ i) * (b' ⟨0, by omega⟩ i - b' ⟨1, by omega⟩ i) := fun i => by ring
    simp only [h2, Finset.sum_add_distrib, Complex.add_re]
    ring
  · ring

theorem dot_smul_right (c : Cfg n) (a b : Dens s n) (r : ℝ) : dot c a ((r : ℂ) • b) = r * dot c a b := by
  have h1 : ∀ (f g : Fin n → ℂ), (∑ i : Fin n, if c.hasG0 ∧ i.val = 0 then (0 : ℂ) else conj (f i) * ((r : ℂ) * g i) / (c.g2 i : ℂ))
      = (r : ℂ) * ∑ i : Fin n, if c.hasG0 ∧ i.val = 0 then (0 : ℂ) else conj (f i) * g i / (c.g2 i : ℂ) := by
    intro f g
    rw [Finset.mul_sum]
    apply Finset.sum_congr rfl
    intro i _
    split
    · simp
    · ring
  unfold dot
  simp only [Pi.smul_apply, smul_eq_mul, ← Finset.mul_sum, h1, Complex.re_ofReal_mul]
  split
  · rename_i h
    have h2 : ∀ i, conj (a ⟨0, by omega⟩ i - a ⟨1, by omega⟩ i) * ((r : ℂ) * b ⟨0, by omega⟩ i - (r : ℂ) * b ⟨1, by omega⟩ i)
        = (r : ℂ) * (conj (a ⟨0, by omega⟩ i - a ⟨1, by omega⟩ i) * (b ⟨0, by omega⟩ i - b ⟨1, by omega⟩ i)) := fun i => by ring
    simp only [h2, ← Finset.mul_sum, Complex.re_ofReal_mul]
    ring
  · ring

theorem dot_add_left (c : Cfg n) (a a' b : Dens s n) : dot c (a + a') b = dot c a b + dot c a' b := by
  rw [dot_comm, dot_add_right, dot_comm c b a, dot_comm c b a']

theorem dot_smul_left (c : Cfg n) (a b : Dens s n) (r : ℝ) : dot c ((r : ℂ) • a) b = r * dot c a b := by
  rw [dot_comm, dot_smul_right, dot_comm]

theorem dot_zero_right (c : Cfg n) (a : Dens s n) : dot c a 0 = 0 := by
  have := dot_smul_right c a 0 0
  simpa using this

theorem dot_neg_right (c : Cfg n) (a b : Dens s n) : dot c a (-b) = -dot c a b := by
  have := dot_smul_right c a b (-1)
  simpa using this

theorem dot_neg_left (c : Cfg n) (a b : Dens s n) : dot c (-a) b = -dot c a b := by
  rw [dot_comm, dot_neg_right, dot_comm]

theorem dot_sum_right {ι : Type*} (c : Cfg n) (a : Dens s n) (S : Finset ι) (f : ι → Dens s n) :
    dot c a (∑ i ∈ S, f i) = ∑ i ∈ S, dot c a (f i) := by
  classical
  induction S using Finset.induction_on with
  | empty => simpa using dot_zero_right c a
  | insert i S hi ih => rw [Finset.sum_insert hi, Finset.sum_insert hi, dot_add_right, ih]

theorem dot_sum_left {ι : Type*} (c : Cfg n) (a : Dens s n) (S : Finset ι) (f : ι → Dens s n) :
    dot c (∑ i ∈ S, f i) a = ∑ i ∈ S, dot c (f i) a := by
  rw [dot_comm, dot_sum_right]
  exact Finset.sum_congr rfl fun i _ => dot_comm c a (f i)

/-- A configuration of a real G-space: positive volume element and grid, and non-zero G-vectors have positive norm. -/
structure Cfg.Valid (c : Cfg n) : Prop where
  dv : 0 < c.dv
  npts : 0 < c.npts
  tpiba : 0 < c.tpiba
  g2 : ∀ i : Fin n, ¬ (c.hasG0 = true ∧ i.val = 0) → 0 < c.g2 i

theorem Cfg.Valid.fac {c : Cfg n} (h : c.Valid) : 0 < c.fac := by
  unfold Cfg.fac
  have := h.dv; have := h.npts; have := Real.pi_pos
  positivity

theorem conj_mul_self_re (z : ℂ) : (conj z * z).re = Complex.normSq z := by
  rw [Complex.normSq_eq_conj_mul_self.symm, Complex.ofReal_re]

theorem dot_self (c : Cfg n) (a : Dens s n) : dot c a a =
    c.fac * (∑ i : Fin n, if c.hasG0 ∧ i.val = 0 then 0 else Complex.normSq (∑ k, a k i) / c.g2 i) +
      if h : s = 2 then c.fac * (∑ i, Complex.normSq (a ⟨0, by omega⟩ i - a ⟨1, by omega⟩ i)) / c.tpiba ^ 2 else 0 := by
  unfold dot
  simp only [Complex.re_sum, conj_mul_self_re]
  have : ∀ i : Fin n, (if c.hasG0 ∧ i.val = 0 then (0 : ℂ) else conj (∑ k, a k i) * (∑ k, a k i) / (c.g2 i : ℂ)).re
      = if c.hasG0 ∧ i.val = 0 then 0 else Complex.normSq (∑ k, a k i) / c.g2 i := by
    intro i
    split
    · simp
    · rw [Complex.div_ofReal_re, conj_mul_self_re]
  simp only [this]
  split <;> simp

theorem dot_nonneg (c : Cfg n) (hc : c.Valid) (a : Dens s n) : 0 ≤ dot c a a := by
  rw [dot_self]
  have h0 := hc.fac
  have h1 : 0 ≤ ∑ i : Fin n, if c.hasG0 ∧ i.val = 0 then 0 else Complex.normSq (∑ k, a k i) / c.g2 i := by
    apply Finset.sum_nonneg
    intro i _
    split
    · exact le_rfl
    · rename_i h
      exact div_nonneg (Complex.normSq_nonneg _) (hc.g2 i h).le
  split
  · have h2 : 0 ≤ ∑ i, Complex.normSq (a ⟨0, by omega⟩ i - a ⟨1, by omega⟩ i) :=
      Finset.sum_nonneg fun i _ => Complex.normSq_nonneg _
    positivity
  · positivity

/-! ## The history -/

/-- The step stored in slot `i` when call number `k` runs: the only one of the last `mixdim` steps congruent to `i`. -/
def jOf (m k i : ℕ) : ℕ := i + m * ((k - 1 - i) / m)

theorem jOf_spec (m k i : ℕ) (hm : 0 < m) (hi : i < min k m) :
    k - min k m ≤ jOf m k i ∧ jOf m k i < k ∧ jOf m k i % m = i := by
  have h1 : i < k := lt_of_lt_of_le hi (min_le_left _ _)
  have h2 : i < m := lt_of_lt_of_le hi (min_le_right _ _)
  have h3 := Nat.div_add_mod (k - 1 - i) m
  have h4 := Nat.mod_lt (k - 1 - i) hm
  unfold jOf
  refine ⟨?_, ?_, ?_⟩
  · rcases Nat.le_total k m with h | h
    · rw [min_eq_left h]; omega
    · rw [min_eq_right h]; omega
  · omega
  · rw [Nat.add_mul_mod_self_left, Nat.mod_eq_of_lt h2]

theorem jOf_unique (m k j : ℕ) (hm : 0 < m) (h1 : k - min k m ≤ j) (h2 : j < k) :
    j % m < min k m ∧ jOf m k (j % m) = j := by
  have h3 := Nat.div_add_mod j m
  have h4 := Nat.mod_lt j hm
  have h5 := Nat.mod_le j m
  refine ⟨lt_min (by omega) h4, ?_⟩
  unfold jOf
  have h6 : (k - 1 - j % m) / m = j / m := by
    rw [Nat.div_eq_iff hm, mul_comm]
    constructor
    · omega
    · rcases Nat.le_total k m with h | h
      · rw [min_eq_left h] at h1; omega
      · rw [min_eq_right h] at h1; omega
  rw [h6]
  omega

theorem jOf_new (m k : ℕ) (hm : 0 < m) : k % m < min (k + 1) m ∧ jOf m (k + 1) (k % m) = k := by
  apply jOf_unique m (k + 1) k hm
  · have : 0 < min (k + 1) m := lt_min (by omega) hm
    omega
  · omega

theorem jOf_old (m k i : ℕ) (hm : 0 < m) (hi : i < min (k + 1) m) (hne : i ≠ k % m) :
    i < min k m ∧ jOf m (k + 1) i = jOf m k i := by
  have h1 : i < k + 1 := lt_of_lt_of_le hi (min_le_left _ _)
  have h2 : i < m := lt_of_lt_of_le hi (min_le_right _ _)
  have h3 : i < k := by
    rcases Nat.lt_or_ge i k with h | h
    · exact h
    · exfalso
      have : i = k := by omega
      subst this
      exact hne (Nat.mod_eq_of_lt h2).symm
  have hi' : i < min k m := lt_min h3 h2
  refine ⟨hi', ?_⟩
  obtain ⟨a, b, d⟩ := jOf_spec m k i hm hi'
  have : k + 1 - min (k + 1) m ≤ jOf m k i := by
    rcases Nat.lt_or_ge k m with h | h
    · rw [min_eq_left (by omega)]; omega
    · rw [min_eq_right h] at a
      rw [min_eq_right (by omega)]
      rcases Nat.eq_or_lt_of_le a with h5 | h5
      · exfalso
        rw [← h5] at d
        apply hne
        rw [← d, Nat.mod_eq_sub_mod h]
      · omega
  have h7 := (jOf_unique m (k + 1) _ hm this (by omega)).2
  rw [d] at h7
  exact h7

theorem fillOv_apply (isave d : ℕ) (D : ℕ → ℂ) (ov : ℕ → ℕ → ℂ) (a b : ℕ) :
    fillOv isave d D ov a b = if a = isave ∧ b < d then D b else if b = isave ∧ a < d then D a else ov a b := by
  induction d with
  | zero => simp [fillOv]
  | succ d ih =>
    unfold fillOv at ih ⊢
    rw [List.range_succ, List.foldl_append, List.foldl_cons, List.foldl_nil]
    generalize List.foldl _ ov (List.range d) = f at *
    simp only [upd2, and_self, if_true]
    by_cases h1 : a = d ∧ b = isave
    · rw [if_pos h1]
      obtain ⟨rfl, rfl⟩ := h1
      by_cases h2 : a = b
      · subst h2; simp
      · simp [h2]
    · rw [if_neg h1]
      by_cases h2 : a = isave ∧ b = d
      · rw [if_pos h2, if_pos (by omega)]
        rw [h2.2]
      · rw [if_neg h2, ih]
        have e1 : (a = isave ∧ b < d) ↔ (a = isave ∧ b < d + 1) := by omega
        have e2 : (b = isave ∧ a < d) ↔ (b = isave ∧ a < d + 1) := by omega
        simp only [e1, e2]

/-- Step `j` of a history: `f (j + 1) - f j`. -/
def dF (f : ℕ → Dens s n) (j : ℕ) : Dens s n := f (j + 1) - f j

/-- The residuals of a history of calls. -/
def rs (ins outs : ℕ → Dens s n) (j : ℕ) : Dens s n := outs j - ins j

/-- The state after `k + 1` calls, with differences stored up to the sign `σ`. -/
structure Inv (σ : ℝ) (c : Cfg n) (ins outs : ℕ → Dens s n) (k : ℕ) (st : St s n) : Prop where
  idx : st.idx = k + 1
  rho : st.rhoOld = ins k
  res : st.resOld = rs ins outs k
  dRho : ∀ i < min k c.mixdim, st.dRho i = (σ : ℂ) • dF ins (jOf c.mixdim k i)
  dRes : ∀ i < min k c.mixdim, st.dRes i = (σ : ℂ) • dF (rs ins outs) (jOf c.mixdim k i)
  ov : ∀ i < min k c.mixdim, ∀ i' < min k c.mixdim, st.ov i i' =
    (dot c (dF (rs ins outs) (jOf c.mixdim k i)) (dF (rs ins outs) (jOf c.mixdim k i')) : ℂ)

theorem tables (σ : ℝ) (hσ : σ * σ = 1) (c : Cfg n) (hm : 0 < c.mixdim) (ins outs : ℕ → Dens s n) (k : ℕ) (st : St s n)
    (h : Inv σ c ins outs k st) (nr ns : Dens s n) (hnr : nr = (σ : ℂ) • dF ins k)
    (hns : ns = (σ : ℂ) • dF (rs ins outs) k) (ov : ℕ → ℕ → ℂ)
    (hov : ∀ a b, ov a b = if a = k % c.mixdim ∧ b < min (k + 1) c.mixdim then
        (dot c (upd st.dRes (k % c.mixdim) ns b) (upd st.dRes (k % c.mixdim) ns (k % c.mixdim)) : ℂ)
      else if b = k % c.mixdim ∧ a < min (k + 1) c.mixdim then
        (dot c (upd st.dRes (k % c.mixdim) ns a) (upd st.dRes (k % c.mixdim) ns (k % c.mixdim)) : ℂ)
      else st.ov a b) :
    Inv σ c ins outs (k + 1) ⟨st.idx + 1, ins (k + 1), rs ins outs (k + 1), upd st.dRho (k % c.mixdim) nr,
      upd st.dRes (k % c.mixdim) ns, ov⟩ := by
  have hR : ∀ i < min (k + 1) c.mixdim, upd st.dRes (k % c.mixdim) ns i =
      (σ : ℂ) • dF (rs ins outs) (jOf c.mixdim (k + 1) i) := by
    intro i hi
    unfold upd
    by_cases he : i = k % c.mixdim
    · rw [if_pos he, he, (jOf_new c.mixdim k hm).2, hns]
    · obtain ⟨h1, h2⟩ := jOf_old c.mixdim k i hm hi he
      rw [if_neg he, h2, h.dRes i h1]
  refine ⟨by rw [h.idx], rfl, rfl, ?_, hR, ?_⟩
  · intro i hi
    simp only [upd]
    by_cases he : i = k % c.mixdim
    · rw [if_pos he, he, (jOf_new c.mixdim k hm).2, hnr]
    · obtain ⟨h1, h2⟩ := jOf_old c.mixdim k i hm hi he
      rw [if_neg he, h2, h.dRho i h1]
  · intro i hi i' hi'
    simp only [hov]
    obtain ⟨hn1, hn2⟩ := jOf_new c.mixdim k hm
    have hd : ∀ a < min (k + 1) c.mixdim,
        dot c (upd st.dRes (k % c.mixdim) ns a) (upd st.dRes (k % c.mixdim) ns (k % c.mixdim))
          = dot c (dF (rs ins outs) (jOf c.mixdim (k + 1) a)) (dF (rs ins outs) k) := by
      intro a ha
      rw [hR a ha, hR _ hn1, hn2, dot_smul_left, dot_smul_right, ← mul_assoc, hσ, one_mul]
    by_cases he : i = k % c.mixdim
    · rw [if_pos ⟨he, hi'⟩, hd i' hi', he, hn2, dot_comm]
    · rw [if_neg (by tauto)]
      by_cases he' : i' = k % c.mixdim
      · rw [if_pos ⟨he', hi⟩, hd i hi, he', hn2]
      · rw [if_neg (by tauto)]
        obtain ⟨h1, h2⟩ := jOf_old c.mixdim k i hm hi he
        obtain ⟨h3, h4⟩ := jOf_old c.mixdim k i' hm hi' he'
        rw [h.ov i h1 i' h3, h2, h4]

/-! ## The mixed density -/

/-- Products of the residual steps in the history of call `k`. -/
noncomputable def gram (c : Cfg n) (ins outs : ℕ → Dens s n) (k : ℕ) :
    Matrix (Fin (min k c.mixdim)) (Fin (min k c.mixdim)) ℝ :=
  .of fun i i' => dot c (dF (rs ins outs) (jOf c.mixdim k i)) (dF (rs ins outs) (jOf c.mixdim k i'))

/-- Products of the residual steps with the current residual. -/
noncomputable def rhs (c : Cfg n) (ins outs : ℕ → Dens s n) (k : ℕ) : Fin (min k c.mixdim) → ℝ :=
  fun i => dot c (dF (rs ins outs) (jOf c.mixdim k i)) (rs ins outs k)

/-- The coefficients of the history. -/
noncomputable def coef (c : Cfg n) (ins outs : ℕ → Dens s n) (k : ℕ) : Fin (min k c.mixdim) → ℝ :=
  -((gram c ins outs k)⁻¹.mulVec (rhs c ins outs k))

/-- The mixed density of call `k`. -/
noncomputable def mixed (c : Cfg n) (ins outs : ℕ → Dens s n) (k : ℕ) : Dens s n :=
  (ins k + ∑ i, (coef c ins outs k i : ℂ) • dF ins (jOf c.mixdim k i)) +
    (c.beta : ℂ) • (rs ins outs k + ∑ i, (coef c ins outs k i : ℂ) • dF (rs ins outs) (jOf c.mixdim k i))

theorem gram_symm (c : Cfg n) (ins outs : ℕ → Dens s n) (k : ℕ) : (gram c ins outs k).transpose = gram c ins outs k := by
  ext i j
  exact dot_comm _ _ _

theorem inv_real {d : ℕ} (A : Matrix (Fin d) (Fin d) ℝ) (ov : ℕ → ℕ → ℂ) (h : ∀ i j : Fin d, ov i j = (A i j : ℂ)) :
    inv d ov = if A.det = 0 then none else some (A⁻¹.map Complex.ofReal) := by
  classical
  have hM : (Matrix.of fun i j : Fin d => ov i j) = A.map Complex.ofReal := by
    ext i j; exact h i j
  have hdet : (A.map Complex.ofReal).det = (A.det : ℂ) := (RingHom.map_det Complex.ofRealHom A).symm
  unfold inv
  simp only [hM, hdet, Complex.ofReal_eq_zero]
  split
  · rfl
  · rename_i hne
    congr 1
    apply Matrix.inv_eq_right_inv
    have : A * A⁻¹ = 1 := Matrix.mul_nonsing_inv A (by rwa [isUnit_iff_ne_zero])
    have h2 : (A * A⁻¹).map Complex.ofReal = A.map Complex.ofReal * A⁻¹.map Complex.ofReal :=
      Matrix.map_mul (f := Complex.ofRealHom)
    rw [← h2, this]
    exact Matrix.map_one _ Complex.ofReal_zero Complex.ofReal_one

theorem foldl_sub_pair {d : ℕ} (l : List (Fin d)) (f g : Fin d → Dens s n) (p : Dens s n × Dens s n) :
    l.foldl (fun (p : Dens s n × Dens s n) i => (p.1 - f i, p.2 - g i)) p
      = (p.1 - (l.map f).sum, p.2 - (l.map g).sum) := by
  induction l generalizing p with
  | nil => simp
  | cons a l ih => rw [List.foldl_cons, ih]; simp [sub_sub]

theorem foldl_add {d : ℕ} (l : List (Fin d)) (f : Fin d → Dens s n) (p : Dens s n) :
    l.foldl (fun (p : Dens s n) i => p + f i) p = p + (l.map f).sum := by
  induction l generalizing p with
  | nil => simp
  | cons a l ih => rw [List.foldl_cons, ih]; simp [add_assoc]

theorem sum_finRange {d : ℕ} {M : Type*} [AddCommMonoid M] (f : Fin d → M) : ((List.finRange d).map f).sum = ∑ i, f i := by
  rw [← List.ofFn_eq_map, List.sum_ofFn]

theorem mulVec_real {d : ℕ} (A : Matrix (Fin d) (Fin d) ℝ) (v : Fin d → ℝ) (i : Fin d) :
    (A.map Complex.ofReal).mulVec (fun j => (v j : ℂ)) i = (A.mulVec v i : ℂ) := by
  simp [Matrix.mulVec, dotProduct]

theorem mirror_symm {d : ℕ} (A : Matrix (Fin d) (Fin d) ℝ) (h : A.transpose = A) :
    (mirror (A.map Complex.ofReal)).transpose = A.map Complex.ofReal := by
  ext i j
  have h1 : A j i = A i j := congrFun (congrFun h i) j
  simp only [mirror, Matrix.transpose_apply, Matrix.of_apply, Matrix.map_apply]
  split
  · rfl
  · rw [h1]

/-- The sign with which a method stores differences. -/
def Method.sign : Method → ℝ
  | .mod => -1
  | .gen => 1

/-- The error a method raises for a singular overlap table. -/
def Method.err : Method → PyErr
  | .mod => .runtime
  | .gen => .linalg

theorem step (m : Method) (c : Cfg n) (hm : 0 < c.mixdim) (ins outs : ℕ → Dens s n) (k : ℕ) (st : St s n)
    (h : Inv m.sign c ins outs k st) :
    ((gram c ins outs (k + 1)).det = 0 → mix1 m c st (ins (k + 1)) (outs (k + 1)) = .error m.err) ∧
    ((gram c ins outs (k + 1)).det ≠ 0 → ∃ r, mix1 m c st (ins (k + 1)) (outs (k + 1)) = .ok r ∧
      Inv m.sign c ins outs (k + 1) r.st ∧ r.rho = mixed c ins outs (k + 1) ∧
      r.caller = if m = .gen then r.rho else ins (k + 1)) := by
  obtain ⟨idx, ro, re, dr, ds, ov⟩ := st
  have hidx : idx = k + 1 := h.idx
  subst hidx
  have hro : ro = ins k := h.rho
  have hre : re = rs ins outs k := h.res
  have hpos : min (k + 1) c.mixdim ≠ 0 := by
    have : 0 < min (k + 1) c.mixdim := lt_min (by omega) hm
    omega
  have his : (k + 1 - 1) % c.mixdim = k % c.mixdim := rfl
  have hres : outs (k + 1) - ins (k + 1) = rs ins outs (k + 1) := rfl
  cases m with
  | mod =>
    have hnr : ro - ins (k + 1) = ((-1 : ℝ) : ℂ) • dF ins k := by
      rw [hro]; simp [dF]
    have hns : re - rs ins outs (k + 1) = ((-1 : ℝ) : ℂ) • dF (rs ins outs) k := by
      rw [hre]; simp [dF]
    have hT := tables (-1) (by norm_num) c hm ins outs k _ h _ _ hnr hns _ (fillOv_apply (k % c.mixdim) (min (k + 1) c.mixdim) (fun i =>
      (dot c (upd ds (k % c.mixdim) (re - rs ins outs (k + 1)) i)
        (upd ds (k % c.mixdim) (re - rs ins outs (k + 1)) (k % c.mixdim)) : ℂ)) ov)
    have hinv := inv_real (gram c ins outs (k + 1)) _ (fun i j => hT.ov i i.2 j j.2)
    simp only [mix1, modMix, hres, if_neg hpos, his]
    dsimp only at hinv
    rw [hinv]
    constructor
    · intro hd
      rw [if_pos hd]
      rfl
    · intro hd
      rw [if_neg hd]
      refine ⟨_, rfl, hT, ?_, rfl⟩
      dsimp only
      have hsymm : ((gram c ins outs (k + 1))⁻¹).transpose = (gram c ins outs (k + 1))⁻¹ := by
        rw [Matrix.transpose_nonsing_inv, gram_symm]
      rw [mirror_symm _ hsymm]
      have hl : (fun i : Fin (min (k + 1) c.mixdim) =>
          (dot c (upd ds (k % c.mixdim) (re - rs ins outs (k + 1)) i) (rs ins outs (k + 1)) : ℂ))
          = fun i => ((-(rhs c ins outs (k + 1) i) : ℝ) : ℂ) := by
        funext i
        have := hT.dRes i i.2
        dsimp only at this
        rw [this, dot_smul_left, rhs]
        simp
      rw [hl]
      have hc : ∀ i, (((gram c ins outs (k + 1))⁻¹).map Complex.ofReal).mulVec
          (fun i => ((-(rhs c ins outs (k + 1) i) : ℝ) : ℂ)) i = (coef c ins outs (k + 1) i : ℂ) := by
        intro i
        rw [mulVec_real]
        congr 1
        rw [coef, Pi.neg_apply, ← Pi.neg_apply, ← Matrix.mulVec_neg]
        rfl
      simp only [hc]
      rw [foldl_sub_pair, sum_finRange, sum_finRange]
      have e1 : ∀ i : Fin (min (k + 1) c.mixdim), upd dr (k % c.mixdim) (ro - ins (k + 1)) i
          = -dF ins (jOf c.mixdim (k + 1) i) := by
        intro i
        have := hT.dRho i i.2
        dsimp only at this
        rw [this]; simp
      have e2 : ∀ i : Fin (min (k + 1) c.mixdim), upd ds (k % c.mixdim) (re - rs ins outs (k + 1)) i
          = -dF (rs ins outs) (jOf c.mixdim (k + 1) i) := by
        intro i
        have := hT.dRes i i.2
        dsimp only at this
        rw [this]; simp
      simp only [e1, e2, smul_neg, Finset.sum_neg_distrib, sub_neg_eq_add]
      rfl
  | gen =>
    have hnr : ins (k + 1) - ro = ((1 : ℝ) : ℂ) • dF ins k := by
      rw [hro]; simp [dF]
    have hns : rs ins outs (k + 1) - re = ((1 : ℝ) : ℂ) • dF (rs ins outs) k := by
      rw [hre]; simp [dF]
    have hT := tables 1 (by norm_num) c hm ins outs k _ h _ _ hnr hns _ (fillOv_apply (k % c.mixdim) (min (k + 1) c.mixdim) (fun i =>
      (dot c (upd ds (k % c.mixdim) (rs ins outs (k + 1) - re) i)
        (upd ds (k % c.mixdim) (rs ins outs (k + 1) - re) (k % c.mixdim)) : ℂ)) ov)
    have hinv := inv_real (gram c ins outs (k + 1)) _ (fun i j => hT.ov i i.2 j j.2)
    have hsw : ∀ i, dot c (upd ds (k % c.mixdim) (rs ins outs (k + 1) - re) (k % c.mixdim))
        (upd ds (k % c.mixdim) (rs ins outs (k + 1) - re) i)
        = dot c (upd ds (k % c.mixdim) (rs ins outs (k + 1) - re) i)
        (upd ds (k % c.mixdim) (rs ins outs (k + 1) - re) (k % c.mixdim)) := fun i => dot_comm _ _ _
    simp only [mix1, genMix, hres, if_neg hpos, his, hsw]
    dsimp only at hinv
    rw [hinv]
    constructor
    · intro hd
      rw [if_pos hd]
      rfl
    · intro hd
      rw [if_neg hd]
      refine ⟨_, rfl, hT, ?_, rfl⟩
      dsimp only
      have hl : (fun i : Fin (min (k + 1) c.mixdim) =>
          (dot c (upd ds (k % c.mixdim) (rs ins outs (k + 1) - re) i) (-rs ins outs (k + 1)) : ℂ))
          = fun i => ((-(rhs c ins outs (k + 1) i) : ℝ) : ℂ) := by
        funext i
        have := hT.dRes i i.2
        dsimp only at this
        rw [this, dot_smul_left, dot_neg_right, rhs]
        simp
      rw [hl]
      have hc : ∀ i, (((gram c ins outs (k + 1))⁻¹).map Complex.ofReal).mulVec
          (fun i => ((-(rhs c ins outs (k + 1) i) : ℝ) : ℂ)) i = (coef c ins outs (k + 1) i : ℂ) := by
        intro i
        rw [mulVec_real]
        congr 1
        rw [coef, Pi.neg_apply, ← Pi.neg_apply, ← Matrix.mulVec_neg]
        rfl
      simp only [hc]
      rw [foldl_add, sum_finRange]
      have e1 : ∀ i : Fin (min (k + 1) c.mixdim), upd dr (k % c.mixdim) (ins (k + 1) - ro) i
          = dF ins (jOf c.mixdim (k + 1) i) := by
        intro i
        have := hT.dRho i i.2
        dsimp only at this
        rw [this]; simp
      have e2 : ∀ i : Fin (min (k + 1) c.mixdim), upd ds (k % c.mixdim) (rs ins outs (k + 1) - re) i
          = dF (rs ins outs) (jOf c.mixdim (k + 1) i) := by
        intro i
        have := hT.dRes i i.2
        dsimp only at this
        rw [this]; simp
      simp only [e1, e2, mixed, neg_smul, neg_neg, sub_neg_eq_add, smul_add, Finset.sum_add_distrib, Finset.smul_sum]
      simp only [smul_comm (c.beta : ℂ)]
      abel

theorem mixed_zero (c : Cfg n) (ins outs : ℕ → Dens s n) :
    mixed c ins outs 0 = ins 0 + (c.beta : ℂ) • (outs 0 - ins 0) := by
  have h : ∀ f : Fin (min 0 c.mixdim) → Dens s n, ∑ i, f i = 0 := by
    intro f
    apply Finset.sum_eq_zero
    intro i _
    have := i.2
    simp at this
  unfold mixed
  rw [h, h, add_zero, add_zero]
  rfl

theorem first (m : Method) (c : Cfg n) (ins outs : ℕ → Dens s n) (st : St s n) (h : st.idx = 0) :
    ∃ r, mix1 m c st (ins 0) (outs 0) = .ok r ∧ Inv m.sign c ins outs 0 r.st ∧ r.rho = mixed c ins outs 0 ∧
      r.caller = r.rho := by
  rw [mixed_zero]
  cases m <;>
  · simp only [mix1, modMix, genMix, h, Nat.zero_min, if_true]
    refine ⟨_, rfl, ⟨rfl, rfl, rfl, ?_, ?_, ?_⟩, rfl, rfl⟩ <;> intro i hi <;> simp at hi

/-- A history of calls succeeds exactly if no overlap table is singular, and then returns the mixed densities. -/
theorem run_spec (m : Method) (c : Cfg n) (hm : 0 < c.mixdim) (ins outs : ℕ → Dens s n) (st : St s n) (h0 : st.idx = 0)
    (k : ℕ) :
    ((∀ j, 1 ≤ j → j ≤ k → (gram c ins outs j).det ≠ 0) → ∃ st', run m c st ins outs (k + 1)
      = .ok (st', (List.range (k + 1)).map (mixed c ins outs)) ∧ Inv m.sign c ins outs k st') ∧
    ((∃ j, 1 ≤ j ∧ j ≤ k ∧ (gram c ins outs j).det = 0) → run m c st ins outs (k + 1) = .error m.err) := by
  induction k with
  | zero =>
    constructor
    · intro _
      obtain ⟨r, hr, hI, hrho, -⟩ := first m c ins outs st h0
      refine ⟨r.st, ?_, hI⟩
      show (mix1 m c st (ins 0) (outs 0) >>= _) = _
      rw [hr]
      simp [hrho, List.range_succ]
    · rintro ⟨j, h1, h2, -⟩; omega
  | succ k ih =>
    constructor
    · intro hd
      obtain ⟨st', hr, hI⟩ := ih.1 fun j h1 h2 => hd j h1 (by omega)
      obtain ⟨r, hr2, hI2, hrho, -⟩ := (step m c hm ins outs k st' hI).2 (hd (k + 1) (by omega) le_rfl)
      refine ⟨r.st, ?_, hI2⟩
      rw [run, hr]
      show (mix1 m c st' (ins (k + 1)) (outs (k + 1)) >>= _) = _
      rw [hr2, List.range_succ (n := k + 1), List.map_append, List.map_singleton, ← hrho]
      rfl
    · rintro ⟨j, h1, h2, h3⟩
      by_cases hex : ∃ j, 1 ≤ j ∧ j ≤ k ∧ (gram c ins outs j).det = 0
      · rw [run, ih.2 hex]
        rfl
      · have hall : ∀ j, 1 ≤ j → j ≤ k → (gram c ins outs j).det ≠ 0 := fun j h1 h2 h3 => hex ⟨j, h1, h2, h3⟩
        obtain ⟨st', hr, hI⟩ := ih.1 hall
        have hj : j = k + 1 := by
          by_contra hne
          exact hall j h1 (by omega) h3
        subst hj
        rw [run, hr]
        show (mix1 m c st' (ins (k + 1)) (outs (k + 1)) >>= _) = _
        rw [(step m c hm ins outs k st' hI).1 h3]
        rfl

theorem run_ok (m : Method) (c : Cfg n) (hm : 0 < c.mixdim) (ins outs : ℕ → Dens s n) (st : St s n) (h0 : st.idx = 0)
    (k : ℕ) (st' : St s n) (l : List (Dens s n)) (h : run m c st ins outs (k + 1) = .ok (st', l)) :
    (∀ j, 1 ≤ j → j ≤ k → (gram c ins outs j).det ≠ 0) ∧ l = (List.range (k + 1)).map (mixed c ins outs) ∧
      Inv m.sign c ins outs k st' := by
  have hs := run_spec m c hm ins outs st h0 k
  have hd : ∀ j, 1 ≤ j → j ≤ k → (gram c ins outs j).det ≠ 0 := by
    intro j h1 h2 h3
    rw [hs.2 ⟨j, h1, h2, h3⟩] at h
    cases h
  obtain ⟨st2, hr, hI⟩ := hs.1 hd
  rw [hr] at h
  injection h with h
  injection h with h1 h2
  subst h1
  exact ⟨hd, h2.symm, hI⟩

/-- **C38.** For both methods, all densities and every number `k + 1` of successful calls on a new mixer: the step
between calls `j` and `j + 1`, for each of the last `min k mixdim` steps, is in slot `j % mixdim` (as a difference of
input densities and of residuals, new minus old for `gen`, old minus new for `mod`); these slots are all the slots below
`min k mixdim`, each used once; and the overlap table holds the products of the residual steps. -/
theorem C38_history (m : Method) (c : Cfg n) (hm : 1 < c.mixdim) (ins outs : ℕ → Dens s n) (st : St s n)
    (h0 : st.idx = 0) (k : ℕ) (st' : St s n) (l : List (Dens s n))
    (h : run m c st ins outs (k + 1) = .ok (st', l)) :
    let sg : ℂ := match m with | .mod => -1 | .gen => 1
    let step : ℕ → Dens s n := fun j => (outs (j + 1) - ins (j + 1)) - (outs j - ins j)
    let J : Finset ℕ := Finset.Ico (k - min k c.mixdim) k
    (∀ j ∈ J, st'.dRho (j % c.mixdim) = sg • (ins (j + 1) - ins j) ∧ st'.dRes (j % c.mixdim) = sg • step j) ∧
    (∀ j ∈ J, ∀ j' ∈ J, st'.ov (j % c.mixdim) (j' % c.mixdim) = (dot c (step j) (step j') : ℂ)) ∧
    Set.BijOn (· % c.mixdim) (J : Set ℕ) (Set.Iio (min k c.mixdim)) := by
  intro sg step J
  have hm' : 0 < c.mixdim := by omega
  obtain ⟨-, -, hI⟩ := run_ok m c hm' ins outs st h0 k st' l h
  have hsg : (m.sign : ℂ) = sg := by cases m <;> simp [Method.sign, sg]
  have hJ : ∀ j ∈ J, j % c.mixdim < min k c.mixdim ∧ jOf c.mixdim k (j % c.mixdim) = j := by
    intro j hj
    rw [Finset.mem_Ico] at hj
    exact jOf_unique c.mixdim k j hm' hj.1 hj.2
  refine ⟨?_, ?_, ?_, ?_, ?_⟩
  · intro j hj
    obtain ⟨h1, h2⟩ := hJ j hj
    have e1 := hI.dRho _ h1
    have e2 := hI.dRes _ h1
    rw [h2, hsg] at e1 e2
    exact ⟨e1, e2⟩
  · intro j hj j' hj'
    obtain ⟨h1, h2⟩ := hJ j hj
    obtain ⟨h3, h4⟩ := hJ j' hj'
    have e := hI.ov _ h1 _ h3
    rw [h2, h4] at e
    exact e
  · intro j hj
    exact (hJ j hj).1
  · intro j hj j' hj' he
    have h1 := (hJ j hj).2
    have h2 := (hJ j' hj').2
    simp only at he
    rw [← h1, he, h2]
  · intro i hi
    obtain ⟨h1, h2, h3⟩ := jOf_spec c.mixdim k i hm' hi
    exact ⟨jOf c.mixdim k i, by simp [J]; omega, h3⟩

/-- **C39 (charge).** For both methods, every history of successful calls and every linear quantity `L` of a density
(the G = 0 component, i.e. the total charge; the charge of one spin; any Fourier component): if all input and output
densities have the same value of `L`, so has every mixed density. -/
theorem C39_linear_quantities (m : Method) (c : Cfg n) (hm : 1 < c.mixdim) (ins outs : ℕ → Dens s n) (st : St s n)
    (h0 : st.idx = 0) (k : ℕ) (st' : St s n) (l : List (Dens s n))
    (h : run m c st ins outs k = .ok (st', l)) (L : Dens s n →ₗ[ℂ] ℂ) (v : ℂ)
    (hi : ∀ j < k, L (ins j) = v) (ho : ∀ j < k, L (outs j) = v) : ∀ r ∈ l, L r = v := by
  cases k with
  | zero =>
    cases h
    simp
  | succ k =>
    have hm' : 0 < c.mixdim := by omega
    obtain ⟨-, rfl, -⟩ := run_ok m c hm' ins outs st h0 k st' l h
    intro r hr
    obtain ⟨j, hj, rfl⟩ := List.mem_map.1 hr
    rw [List.mem_range] at hj
    have e0 : ∀ i, i < k + 1 → L (rs ins outs i) = 0 := by
      intro i hik
      rw [rs, map_sub, hi i hik, ho i hik, sub_self]
    have e1 : ∀ i : Fin (min j c.mixdim), L (dF ins (jOf c.mixdim j i)) = 0 := by
      intro i
      have := (jOf_spec c.mixdim j i hm' i.2).2.1
      rw [dF, map_sub, hi _ (by omega), hi _ (by omega), sub_self]
    have e2 : ∀ i : Fin (min j c.mixdim), L (dF (rs ins outs) (jOf c.mixdim j i)) = 0 := by
      intro i
      have := (jOf_spec c.mixdim j i hm' i.2).2.1
      rw [dF, map_sub, e0 _ (by omega), e0 _ (by omega), sub_self]
    unfold mixed
    simp only [map_add, map_sum, map_smul, e1, e2, hi j hj, e0 j hj]
    simp

/-- **C39 (self-consistent density, first call).** On a new mixer a self-consistent density is returned unchanged. -/
theorem C39_fixed_point_first (m : Method) (c : Cfg n) (st : St s n) (h0 : st.idx = 0) (rho : Dens s n) :
    ∃ r, mix1 m c st rho rho = .ok r ∧ r.rho = rho := by
  obtain ⟨r, h1, -, h2, -⟩ := first m c (fun _ => rho) (fun _ => rho) st h0
  refine ⟨r, h1, ?_⟩
  rw [h2, mixed_zero]
  simp

/-- **C39 (violation).** If the residual repeats from one call to the next (in particular if two successive calls get a
self-consistent density), the second of these calls raises instead of returning a density: `RuntimeError` for `mod`,
`LinAlgError` for `gen`. -/
theorem C39_repeated_residual_fails (m : Method) (c : Cfg n) (hm : 1 < c.mixdim) (ins outs : ℕ → Dens s n) (st : St s n)
    (h0 : st.idx = 0) (k : ℕ) (j : ℕ) (hj : j < k) (hr : outs (j + 1) - ins (j + 1) = outs j - ins j) :
    run m c st ins outs (k + 1) = .error (match m with | .mod => .runtime | .gen => .linalg) := by
  have hm' : 0 < c.mixdim := by omega
  have := (run_spec m c hm' ins outs st h0 k).2 ⟨j + 1, by omega, by omega, ?_⟩
  · rw [this]; cases m <;> rfl
  · obtain ⟨h1, h2⟩ := jOf_new c.mixdim j hm'
    apply Matrix.det_eq_zero_of_row_eq_zero ⟨j % c.mixdim, h1⟩
    intro i
    simp only [gram, Matrix.of_apply, h2]
    have : dF (rs ins outs) j = 0 := by rw [dF, rs, rs, hr, sub_self]
    rw [this, dot_comm, dot_zero_right]

/-- **C65.** The two mixing methods are the same map: for all densities and histories, one succeeds exactly if the
other does, with the same mixed densities (in exact arithmetic). -/
theorem C65_methods_agree (c : Cfg n) (hm : 1 < c.mixdim) (ins outs : ℕ → Dens s n) (st₁ st₂ : St s n)
    (h₁ : st₁.idx = 0) (h₂ : st₂.idx = 0) (k : ℕ) (l : List (Dens s n)) :
    (∃ st', run .mod c st₁ ins outs k = .ok (st', l)) ↔ ∃ st', run .gen c st₂ ins outs k = .ok (st', l) := by
  have hm' : 0 < c.mixdim := by omega
  cases k with
  | zero =>
    constructor
    · rintro ⟨_, h⟩; cases h; exact ⟨_, rfl⟩
    · rintro ⟨_, h⟩; cases h; exact ⟨_, rfl⟩
  | succ k =>
    constructor
    · rintro ⟨st', h⟩
      obtain ⟨hd, rfl, -⟩ := run_ok .mod c hm' ins outs st₁ h₁ k st' l h
      obtain ⟨st2, hr, -⟩ := (run_spec .gen c hm' ins outs st₂ h₂ k).1 hd
      exact ⟨st2, hr⟩
    · rintro ⟨st', h⟩
      obtain ⟨hd, rfl, -⟩ := run_ok .gen c hm' ins outs st₂ h₂ k st' l h
      obtain ⟨st2, hr, -⟩ := (run_spec .mod c hm' ins outs st₁ h₁ k).1 hd
      exact ⟨st2, hr⟩

theorem sum_slots (m k : ℕ) (hm : 0 < m) {M : Type*} [AddCommMonoid M] (f : ℕ → M) :
    ∑ i : Fin (min k m), f (jOf m k i) = ∑ j ∈ Finset.Ico (k - min k m) k, f j := by
  rw [Fin.sum_univ_eq_sum_range (fun i => f (jOf m k i))]
  apply Finset.sum_bij (fun i _ => jOf m k i)
  · intro i hi
    obtain ⟨h1, h2, -⟩ := jOf_spec m k i hm (Finset.mem_range.1 hi)
    exact Finset.mem_Ico.2 ⟨h1, h2⟩
  · intro i hi i' hi' he
    have h1 := (jOf_spec m k i hm (Finset.mem_range.1 hi)).2.2
    have h2 := (jOf_spec m k i' hm (Finset.mem_range.1 hi')).2.2
    rw [← h1, ← h2, he]
  · intro j hj
    obtain ⟨h1, h2⟩ := Finset.mem_Ico.1 hj
    obtain ⟨h3, h4⟩ := jOf_unique m k j hm h1 h2
    exact ⟨j % m, Finset.mem_range.2 h3, h4⟩
  · intro i hi; rfl

/-- **C64.** For both methods and every history of successful calls, the density returned by call `k` is
`ρ + β r`, where `ρ = ins k + Σ x_j (ins (j+1) - ins j)` and `r = res k + Σ x_j (res (j+1) - res j)` are the same real
combination, over the last `min k mixdim` steps `j`, of input densities and of residuals, and the coefficients `x` make
the mixer's own error measure of `r` the least possible among all choices of coefficients. -/
theorem C64_least_residual (m : Method) (c : Cfg n) (hc : c.Valid) (hm : 1 < c.mixdim) (ins outs : ℕ → Dens s n)
    (st : St s n) (h0 : st.idx = 0) (K : ℕ) (st' : St s n) (l : List (Dens s n))
    (h : run m c st ins outs K = .ok (st', l)) (k : ℕ) (hk : k < K) :
    let res : ℕ → Dens s n := fun j => outs j - ins j
    let J : Finset ℕ := Finset.Ico (k - min k c.mixdim) k
    let R : (ℕ → ℝ) → Dens s n := fun y => res k + ∑ j ∈ J, (y j : ℂ) • (res (j + 1) - res j)
    ∃ x : ℕ → ℝ, l[k]? = some ((ins k + ∑ j ∈ J, (x j : ℂ) • (ins (j + 1) - ins j)) + (c.beta : ℂ) • R x) ∧
      ∀ y, dot c (R x) (R x) ≤ dot c (R y) (R y) := by
  intro res J R
  have hm' : 0 < c.mixdim := by omega
  obtain ⟨K', rfl⟩ : ∃ K', K = K' + 1 := ⟨K - 1, by omega⟩
  obtain ⟨hd, rfl, -⟩ := run_ok m c hm' ins outs st h0 K' st' l h
  let x : ℕ → ℝ := fun j => if hj : j % c.mixdim < min k c.mixdim then coef c ins outs k ⟨j % c.mixdim, hj⟩ else 0
  have hx : ∀ i : Fin (min k c.mixdim), x (jOf c.mixdim k i) = coef c ins outs k i := by
    intro i
    have h1 := (jOf_spec c.mixdim k i hm' i.2).2.2
    simp only [x]
    rw [dif_pos (by rw [h1]; exact i.2)]
    congr 1
    exact Fin.ext h1
  have hR : ∀ y, R y = rs ins outs k + ∑ i : Fin (min k c.mixdim), (y (jOf c.mixdim k i) : ℂ) • dF (rs ins outs) (jOf c.mixdim k i) := by
    intro y
    rw [sum_slots c.mixdim k hm' fun j => (y j : ℂ) • dF (rs ins outs) j]
    rfl
  refine ⟨x, ?_, ?_⟩
  · rw [List.getElem?_map, List.getElem?_range hk]
    simp only [Option.map_some, Option.some.injEq]
    have e1 : ∑ j ∈ J, (x j : ℂ) • (ins (j + 1) - ins j)
        = ∑ i : Fin (min k c.mixdim), (x (jOf c.mixdim k i) : ℂ) • dF ins (jOf c.mixdim k i) :=
      (sum_slots c.mixdim k hm' fun j => (x j : ℂ) • dF ins j).symm
    rw [e1, hR]
    simp only [hx]
    rfl
  · intro y
    -- the residual is orthogonal to every step
    have horth : ∀ i : Fin (min k c.mixdim), dot c (dF (rs ins outs) (jOf c.mixdim k i)) (R x) = 0 := by
      intro i
      rw [hR, dot_add_right, dot_sum_right]
      have : ∀ i' : Fin (min k c.mixdim), dot c (dF (rs ins outs) (jOf c.mixdim k i))
          ((x (jOf c.mixdim k i') : ℂ) • dF (rs ins outs) (jOf c.mixdim k i'))
          = gram c ins outs k i i' * coef c ins outs k i' := by
        intro i'
        rw [dot_smul_right, hx, mul_comm]
        rfl
      simp only [this]
      have hg : (gram c ins outs k).mulVec (coef c ins outs k) = -rhs c ins outs k := by
        have hdet : (gram c ins outs k).det ≠ 0 := by
          rcases Nat.eq_zero_or_pos k with h0 | h0
          · subst h0
            have : IsEmpty (Fin (min 0 c.mixdim)) := by
              constructor; intro i; have := i.2; simp at this
            rw [Matrix.det_isEmpty]
            exact one_ne_zero
          · exact hd k h0 (by omega)
        rw [coef, Matrix.mulVec_neg, Matrix.mulVec_mulVec, Matrix.mul_nonsing_inv _ (by rwa [isUnit_iff_ne_zero]),
          Matrix.one_mulVec]
      have hgi := congrFun hg i
      simp only [Matrix.mulVec, dotProduct, Pi.neg_apply] at hgi
      rw [hgi, rhs]
      ring
    have hE : R y = R x + ∑ i : Fin (min k c.mixdim), ((y (jOf c.mixdim k i) - x (jOf c.mixdim k i) : ℝ) : ℂ) •
        dF (rs ins outs) (jOf c.mixdim k i) := by
      rw [hR, hR, add_assoc, ← Finset.sum_add_distrib]
      congr 1
      apply Finset.sum_congr rfl
      intro i _
      rw [← add_smul]
      congr 1
      push_cast
      ring
    obtain ⟨E, hEd⟩ : ∃ E, E = ∑ i : Fin (min k c.mixdim), ((y (jOf c.mixdim k i) - x (jOf c.mixdim k i) : ℝ) : ℂ) •
        dF (rs ins outs) (jOf c.mixdim k i) := ⟨_, rfl⟩
    have hER : dot c E (R x) = 0 := by
      rw [hEd, dot_sum_left]
      apply Finset.sum_eq_zero
      intro i _
      rw [dot_smul_left, horth, mul_zero]
    rw [hE, ← hEd]
    have hn := dot_nonneg c hc E
    generalize R x = X at *
    rw [dot_add_left, dot_add_right, dot_add_right, dot_comm c X E, hER]
    linarith

/-- **C66.** What happens to the density object passed as `rho_in`: `gen` always overwrites it with the mixed density;
`mod` overwrites it in the first call of a mixer and leaves it unchanged in every later one. -/
theorem C66_caller_density (c : Cfg n) (hm : 1 < c.mixdim) (st : St s n) (rin rout : Dens s n) :
    (∀ r, mix1 .gen c st rin rout = .ok r → r.caller = r.rho) ∧
    (∀ r, mix1 .mod c st rin rout = .ok r → r.caller = if st.idx = 0 then r.rho else rin) := by
  constructor
  · intro r h
    simp only [mix1, genMix] at h
    split at h
    · cases h; rfl
    · split at h
      · cases h
      · cases h; rfl
  · intro r h
    simp only [mix1, modMix] at h
    split at h
    · rename_i h0
      have : st.idx = 0 := by
        rcases Nat.le_total st.idx c.mixdim with hle | hle
        · rwa [min_eq_left hle] at h0
        · rw [min_eq_right hle] at h0; omega
      cases h
      rw [if_pos this]
    · rename_i h0
      have : st.idx ≠ 0 := by
        intro h1; rw [h1] at h0; simp at h0
      split at h
      · cases h
      · cases h
        rw [if_neg this]

/-- All plane-wave groups get the root's result. -/
theorem C39_all_groups (m : Method) (c : Cfg n) (st : St s n) (i o : Dens s n) (ins outs : List (Dens s n))
    (st' : St s n) (l : List (Dens s n)) (h : mixAll m c st (i :: ins) (o :: outs) = .ok (st', l)) :
    l.length = ins.length + 1 ∧ ∃ r, mix1 m c st i o = .ok r ∧ st' = r.st ∧ ∀ x ∈ l, x = r.rho := by
  change (mix1 m c st i o >>= _) = _ at h
  cases hr : mix1 m c st i o with
  | error e => rw [hr] at h; cases h
  | ok r =>
    rw [hr] at h
    injection h with h
    injection h with h1 h2
    subst h1 h2
    refine ⟨by simp, r, rfl, rfl, ?_⟩
    intro x hx
    rcases List.mem_cons.1 hx with h | h
    · exact h
    · obtain ⟨_, _, rfl⟩ := List.mem_map.1 h; rfl

/-- **C67.** The error measure is never negative, and it is zero exactly if input and output agree: in the total density
at every G-vector other than zero and, for two spins, in the spin density at every G-vector. -/
theorem C67_error_measure (c : Cfg n) (hc : c.Valid) (rin rout : Dens s n) :
    0 ≤ computeError c rin rout ∧
    (computeError c rin rout = 0 ↔
      (∀ i : Fin n, ¬ (c.hasG0 = true ∧ i.val = 0) → ∑ k, rin k i = ∑ k, rout k i) ∧
      (∀ h : s = 2, ∀ i, rin ⟨0, by omega⟩ i - rin ⟨1, by omega⟩ i = rout ⟨0, by omega⟩ i - rout ⟨1, by omega⟩ i)) := by
  refine ⟨dot_nonneg c hc _, ?_⟩
  unfold computeError
  rw [dot_self]
  have hf := hc.fac
  have hterm : ∀ i : Fin n, 0 ≤ if c.hasG0 ∧ i.val = 0 then 0 else Complex.normSq (∑ k, (rin - rout) k i) / c.g2 i := by
    intro i
    split
    · exact le_rfl
    · rename_i h
      exact div_nonneg (Complex.normSq_nonneg _) (hc.g2 i h).le
  have hS : (∑ i : Fin n, if c.hasG0 ∧ i.val = 0 then 0 else Complex.normSq (∑ k, (rin - rout) k i) / c.g2 i) = 0 ↔
      ∀ i : Fin n, ¬ (c.hasG0 = true ∧ i.val = 0) → ∑ k, rin k i = ∑ k, rout k i := by
    rw [Finset.sum_eq_zero_iff_of_nonneg fun i _ => hterm i]
    constructor
    · intro h i hi
      have := h i (Finset.mem_univ _)
      rw [if_neg hi, div_eq_zero_iff, or_iff_left (hc.g2 i hi).ne', Complex.normSq_eq_zero] at this
      simp only [Pi.sub_apply, Finset.sum_sub_distrib] at this
      exact sub_eq_zero.1 this
    · intro h i _
      split
      · rfl
      · rename_i hi
        simp only [Pi.sub_apply, Finset.sum_sub_distrib, h i hi, sub_self, map_zero, zero_div]
  have hSn := Finset.sum_nonneg fun i (_ : i ∈ Finset.univ) => hterm i
  by_cases hs : s = 2
  · rw [dif_pos hs]
    have hT : (∑ i, Complex.normSq ((rin - rout) ⟨0, by omega⟩ i - (rin - rout) ⟨1, by omega⟩ i)) = 0 ↔
        ∀ i, rin ⟨0, by omega⟩ i - rin ⟨1, by omega⟩ i = rout ⟨0, by omega⟩ i - rout ⟨1, by omega⟩ i := by
      rw [Finset.sum_eq_zero_iff_of_nonneg fun i _ => Complex.normSq_nonneg _]
      constructor
      · intro h i
        have := h i (Finset.mem_univ _)
        rw [Complex.normSq_eq_zero] at this
        simp only [Pi.sub_apply] at this
        linear_combination this
      · intro h i _
        rw [Complex.normSq_eq_zero]
        simp only [Pi.sub_apply]
        linear_combination h i
    have hTn : 0 ≤ ∑ i, Complex.normSq ((rin - rout) ⟨0, by omega⟩ i - (rin - rout) ⟨1, by omega⟩ i) :=
      Finset.sum_nonneg fun i _ => Complex.normSq_nonneg _
    have ht := hc.tpiba
    rw [← hS]
    have hT' : (∀ h : s = 2, ∀ i, rin ⟨0, by omega⟩ i - rin ⟨1, by omega⟩ i = rout ⟨0, by omega⟩ i - rout ⟨1, by omega⟩ i) ↔
        (∑ i, Complex.normSq ((rin - rout) ⟨0, by omega⟩ i - (rin - rout) ⟨1, by omega⟩ i)) = 0 := by
      rw [hT]; exact ⟨fun h => h hs, fun h _ => h⟩
    rw [hT']
    generalize (∑ i : Fin n, if c.hasG0 ∧ i.val = 0 then 0 else Complex.normSq (∑ k, (rin - rout) k i) / c.g2 i) = A at *
    generalize (∑ i, Complex.normSq ((rin - rout) ⟨0, by omega⟩ i - (rin - rout) ⟨1, by omega⟩ i)) = B at *
    constructor
    · intro h
      have h1 : 0 ≤ c.fac * A := by positivity
      have h2 : 0 ≤ c.fac * B / c.tpiba ^ 2 := by positivity
      have h3 : c.fac * A = 0 := by linarith
      have h4 : c.fac * B / c.tpiba ^ 2 = 0 := by linarith
      refine ⟨(mul_eq_zero.1 h3).resolve_left hf.ne', ?_⟩
      rw [div_eq_zero_iff, or_iff_left (by positivity)] at h4
      exact (mul_eq_zero.1 h4).resolve_left hf.ne'
    · rintro ⟨rfl, rfl⟩; simp
  · rw [dif_neg hs, add_zero, mul_eq_zero, or_iff_right hf.ne', hS]
    exact ⟨fun h => ⟨h, fun h2 => absurd h2 hs⟩, fun h => h.1⟩

/-! ## Concrete case -/

/-- A G-space with two G-vectors. -/
noncomputable def exCfg : Cfg 2 := ⟨![0, 1], true, 1, 1, 1, 1 / 2, 2⟩

theorem exCfg_valid : exCfg.Valid :=
  ⟨one_pos, one_pos, one_pos, fun i hi => by
    fin_cases i
    · simp [exCfg] at hi
    · simp [exCfg]⟩

/-- Densities of a history: outputs `j + 1` at the second G-vector. -/
noncomputable def exOuts (j : ℕ) : Dens 1 2 := fun _ => ![0, (j : ℂ) + 1]

theorem det_one_of (d : ℕ) (hd : d = 1) (A : Matrix (Fin d) (Fin d) ℝ) (x : ℝ) (h : ∀ i j, A i j = x) : A.det = x := by
  subst hd
  rw [Matrix.det_fin_one]
  exact h _ _

/-- Two successful calls meeting the hypotheses of C38, C39 and C64. -/
example (m : Method) (st : St 1 2) (h0 : st.idx = 0) :
    ∃ st' l, run m exCfg st (fun _ => 0) exOuts 2 = .ok (st', l) ∧
      (∀ r ∈ l, LinearMap.proj (R := ℂ) (φ := fun _ : Fin 2 => ℂ) 0 (r 0) = 0) := by
  obtain ⟨st', h, -⟩ := (run_spec m exCfg (by norm_num [exCfg]) (fun _ => 0) exOuts st h0 1).1 (by
    intro j h1 h2
    obtain rfl : j = 1 := by omega
    have hd : dot exCfg (dF (rs (fun _ => 0) exOuts) 0) (dF (rs (fun _ => 0) exOuts) 0) ≠ 0 := by
      rw [dot_self]
      simp [exCfg, Cfg.fac, dF, rs, exOuts, Fin.sum_univ_two]
      norm_num
    rwa [det_one_of (min 1 exCfg.mixdim) (by simp [exCfg]) (gram exCfg (fun _ => 0) exOuts 1) _ fun i j => ?_]
    have hi : (i : ℕ) = 0 := by have := i.2; simp at this; omega
    have hj : (j : ℕ) = 0 := by have := j.2; simp at this; omega
    simp only [gram, Matrix.of_apply, hi, hj]
    rfl)
  refine ⟨st', _, h, ?_⟩
  have := C39_linear_quantities m exCfg (by norm_num [exCfg]) (fun _ => 0) exOuts st h0 2 st' _ h
    ((LinearMap.proj (R := ℂ) (φ := fun _ : Fin 2 => ℂ) 0).comp (LinearMap.proj (R := ℂ) (φ := fun _ : Fin 1 => Fin 2 → ℂ) 0)) 0
    (by simp) (by simp [exOuts])
  exact this

end Verif.Mixing
