import Mathlib.Analysis.SpecialFunctions.Pow.Real
import Mathlib.Algebra.BigOperators.Field
import Mathlib.Tactic.Ring
import Mathlib.Tactic.Linarith
import Mathlib.Tactic.FieldSimp
import Mathlib.Tactic.NormNum
import Mathlib.Data.List.GetD
import Verif.Model.Wavefun
import Verif.Props.Containers

/-!
# C136-C138: normalisation, densities and overlaps of wavefunctions
-/

namespace Verif.Wavefun

open Verif.Containers
open scoped ComplexConjugate

/-! ## Specification -/

/-- Squared norm of one wavefunction. -/
noncomputable def sqNorm (n : ℕ) (f : ℕ → ℂ) : ℝ := ∑ j ∈ Finset.range n, ‖f j‖ ^ 2

/-! ## Lemmas -/

theorem selectors_alls (l : List ℕ) : selectors (List.replicate l.length Item.all) l = .ok (l.map fun n => Sel.axis (List.range n)) := by
  induction l with
  | nil => rfl
  | cons n l ih =>
    rw [List.length_cons, List.replicate_succ]
    show selectors (.slice none none none :: _) _ = _
    rw [selectors, slicePos_all, ih]
    rfl

theorem source_alls (l : List ℕ) (i : List ℕ) (h : InShape l i) : source (l.map fun n => Sel.axis (List.range n)) i = i := by
  induction h with
  | nil => rfl
  | cons h1 _ ih =>
    rename_i a b t l' _
    rw [List.map_cons, source, ih]
    congr 1
    rw [List.getD_eq_getElem (l := List.range b) (n := a) (hn := by simpa using h1)]
    simp

theorem outShape_alls (l : List ℕ) : outShape (l.map fun n => Sel.axis (List.range n)) = l := by
  induction l with
  | nil => rfl
  | cons n l ih => rw [List.map_cons, outShape, ih, List.length_range]

/-- `a[:, np.newaxis]`: an axis of length one after the first; impossible for a zero-dimensional array. -/
theorem index_col (a : Arr ℂ) (m : ℕ) (rest : List ℕ) (ha : a.shape = m :: rest) : ∃ r, index a colKey = .ok r ∧ r.shape = m :: 1 :: rest ∧
    ∀ k < m, ∀ x, InShape rest x → r.get (k :: 0 :: x) = a.get (k :: x) := by
  have hk : keySel (m :: rest) colKey = .ok (Sel.axis (List.range m) :: Sel.new :: rest.map fun n => Sel.axis (List.range n)) := by
    have h1 : expand ((m :: rest).length - consumed colKey) colKey = Item.all :: .newaxis :: List.replicate rest.length Item.all := by
      simp [colKey, consumed, Item.all, Item.consumes, expand]
    unfold keySel
    rw [if_neg (by simp [colKey, Item.all, Item.isEllipsis]), if_neg (by simp [colKey, Item.all, Item.isFancy]),
      if_neg (by simp [colKey, consumed, Item.all, Item.consumes]), h1]
    show selectors (.slice none none none :: _) _ = _
    rw [selectors, slicePos_all, selectors, selectors_alls]
    rfl
  refine ⟨_, by unfold index; rw [ha, hk]; rfl, ?_, ?_⟩
  · show outShape _ = _
    rw [outShape, outShape, outShape_alls, List.length_range]
  · intro k hkm x hx
    show a.get (source _ _) = _
    rw [source, source, source_alls rest x hx]
    rw [List.getD_eq_getElem (l := List.range m) (n := k) (hn := by simpa using hkm)]
    simp

theorem index_col_scalar (a : Arr ℂ) (ha : a.shape = []) : index a colKey = .error .index := by
  unfold index keySel
  rw [ha]
  rfl

theorem conj_mul_norm (z : ℂ) : conj z * z = ((‖z‖ ^ 2 : ℝ) : ℂ) := by
  rw [mul_comm, Complex.mul_conj, Complex.normSq_eq_norm_sq]

theorem norm2_get (lead : List ℕ) (n : ℕ) (a : Arr ℂ) (i : List ℕ) : (norm2 lead n a).get i = ((sqNorm n fun j => a.get (i ++ [j]) : ℝ) : ℂ) := by
  unfold norm2 sqNorm
  simp only [conj_mul_norm]
  push_cast
  rfl

theorem sqNorm_nonneg (n : ℕ) (f : ℕ → ℂ) : 0 ≤ sqNorm n f := Finset.sum_nonneg fun _ _ => by positivity

theorem csqrt_get (lead : List ℕ) (n : ℕ) (a : Arr ℂ) (i : List ℕ) :
    (csqrt (norm2 lead n a)).get i = ((Real.sqrt (sqNorm n fun j => a.get (i ++ [j])) : ℝ) : ℂ) := by
  show (norm2 lead n a).get i ^ (1 / 2 : ℂ) = _
  rw [norm2_get, Real.sqrt_eq_rpow, Complex.ofReal_cpow (sqNorm_nonneg _ _)]
  norm_num

theorem sqNorm_div (n : ℕ) (f : ℕ → ℂ) (h : sqNorm n f ≠ 0) : sqNorm n (fun j => f j / ((Real.sqrt (sqNorm n f) : ℝ) : ℂ)) = 1 := by
  have hp : 0 < sqNorm n f := lt_of_le_of_ne (sqNorm_nonneg _ _) (Ne.symm h)
  have : ∀ j, ‖f j / ((Real.sqrt (sqNorm n f) : ℝ) : ℂ)‖ ^ 2 = ‖f j‖ ^ 2 / sqNorm n f := by
    intro j
    rw [norm_div, div_pow, Complex.norm_real, Real.norm_eq_abs, abs_of_nonneg (Real.sqrt_nonneg _), Real.sq_sqrt hp.le]
  show ∑ j ∈ Finset.range n, _ = _
  simp only [this]
  rw [← Finset.sum_div]
  exact div_self h

/-! ## C136: normalisation -/

/-- **C136a.** Normalising a list of wavefunctions (none of them zero) keeps the shape, multiplies each by a positive number and makes its norm one. -/
theorem C136_normalize (nb n : ℕ) (a : Arr ℂ) (ha : a.shape = [nb, n]) (hz : ∀ b < nb, sqNorm n (fun j => a.get [b, j]) ≠ 0) :
    ∃ r, normalize [nb] n a = .ok r ∧ r.shape = [nb, n] ∧ ∀ b < nb, sqNorm n (fun j => r.get [b, j]) = 1 ∧
      ∃ c : ℝ, 0 < c ∧ ∀ j < n, r.get [b, j] = c * a.get [b, j] := by
  obtain ⟨x, hx, hxs, hxg⟩ := index_col (csqrt (norm2 [nb] n a)) nb [] rfl
  have hbc : BcOk [nb, 1] [nb, n] := by simp [BcOk]
  have e : normalize [nb] n a = idiv a x := by
    unfold normalize
    rw [hx]; rfl
  have hget : ∀ b < nb, ∀ j, x.get (bcIdx [nb, 1] [b, j]) = ((Real.sqrt (sqNorm n fun j => a.get [b, j]) : ℝ) : ℂ) := by
    intro b hb j
    have : bcIdx [nb, 1] [b, j] = [b, 0] := by
      simp only [bcIdx, if_true]
      by_cases h1 : nb = 1
      · rw [if_pos h1, show b = 0 by omega]
      · rw [if_neg h1]
    rw [this, hxg b hb [] .nil, csqrt_get]
    rfl
  have hdef : idiv a x = .ok { shape := a.shape, get := fun i => a.get i / x.get (bcIdx [nb, 1] i) } := by
    unfold idiv
    rw [ha, hxs]
    simp only [List.length_cons, List.length_nil, lt_irrefl, if_false, Nat.sub_self, List.replicate_zero, List.nil_append, List.drop_zero, if_pos hbc]
  refine ⟨_, e.trans hdef, ha, fun b hb => ⟨?_, ?_⟩⟩
  · have : (fun j => a.get [b, j] / x.get (bcIdx [nb, 1] [b, j])) = fun j => a.get [b, j] / ((Real.sqrt (sqNorm n fun j => a.get [b, j]) : ℝ) : ℂ) := by
      funext j; rw [hget b hb]
    show sqNorm n (fun j => a.get [b, j] / x.get (bcIdx [nb, 1] [b, j])) = 1
    rw [this]
    exact sqNorm_div n (fun j => a.get [b, j]) (hz b hb)
  · have hp : 0 < sqNorm n fun j => a.get [b, j] := lt_of_le_of_ne (sqNorm_nonneg _ _) (Ne.symm (hz b hb))
    refine ⟨(Real.sqrt (sqNorm n fun j => a.get [b, j]))⁻¹, inv_pos.2 (Real.sqrt_pos.2 hp), fun j _ => ?_⟩
    show a.get [b, j] / x.get (bcIdx [nb, 1] [b, j]) = _
    rw [hget b hb, div_eq_mul_inv, mul_comm]
    push_cast
    rfl

/-- **C136b (violation).** A single wavefunction cannot be normalised. -/
theorem C136_single (n : ℕ) (a : Arr ℂ) : normalize [] n a = .error .index := by
  unfold normalize
  rw [index_col_scalar _ rfl]
  rfl

/-- **C136c (violation).** A block of several lists of wavefunctions cannot be normalised; if the length of the lists equals the size of the basis the wrong norms are
used: coefficient `j` is divided by the norm of wavefunction `j`. -/
theorem C136_blocks (m nb n : ℕ) (a : Arr ℂ) (ha : a.shape = [m, nb, n]) (hnb : nb ≠ 1) :
    (nb ≠ n → normalize [m, nb] n a = .error .value) ∧
    (nb = n → ∃ r, normalize [m, nb] n a = .ok r ∧ ∀ k < m, ∀ b < nb, ∀ j < n,
      r.get [k, b, j] = a.get [k, b, j] / ((Real.sqrt (sqNorm n fun g => a.get [k, j, g]) : ℝ) : ℂ)) := by
  obtain ⟨x, hx, hxs, hxg⟩ := index_col (csqrt (norm2 [m, nb] n a)) m [nb] rfl
  have e : normalize [m, nb] n a = idiv a x := by
    unfold normalize
    rw [hx]; rfl
  constructor
  · intro hne
    rw [e]
    unfold idiv
    rw [ha, hxs]
    have : ¬ BcOk [m, 1, nb] [m, nb, n] := by simp [BcOk, hnb, hne]
    simp only [List.length_cons, List.length_nil, lt_irrefl, if_false, Nat.sub_self, List.replicate_zero, List.nil_append, this]
  · intro hEq
    subst hEq
    have hbc : BcOk [m, 1, nb] [m, nb, nb] := by simp [BcOk]
    have hdef : idiv a x = .ok { shape := a.shape, get := fun i => a.get i / x.get (bcIdx [m, 1, nb] i) } := by
      unfold idiv
      rw [ha, hxs]
      simp only [List.length_cons, List.length_nil, lt_irrefl, if_false, Nat.sub_self, List.replicate_zero, List.nil_append, List.drop_zero, if_pos hbc]
    refine ⟨_, e.trans hdef, fun k hk b hb j hj => ?_⟩
    show a.get [k, b, j] / x.get (bcIdx [m, 1, nb] [k, b, j]) = _
    have hi : bcIdx [m, 1, nb] [k, b, j] = [k, 0, j] := by
      simp only [bcIdx, if_true, if_neg hnb]
      by_cases h1 : m = 1
      · rw [if_pos h1, show k = 0 by omega]
      · rw [if_neg h1]
    rw [hi, hxg k hk [j] (.cons hj .nil), csqrt_get]
    rfl

/-- **C136d.** Distributed coefficients have the same squared norms. -/
theorem C136_distributed (lead : List ℕ) (n P : ℕ) (st sz : ℕ → ℕ) (h0 : st 0 = 0) (hs : ∀ p < P, st (p + 1) = st p + sz p) (hP : st P = n) (a : Arr ℂ)
    (loc : ℕ → Arr ℂ) (hl : ∀ p < P, ∀ i j, j < sz p → (loc p).get (i ++ [j]) = a.get (i ++ [st p + j])) (i : List ℕ) :
    (distNorm2 lead P sz loc).get i = (norm2 lead n a).get i := by
  show ∑ p ∈ Finset.range P, (norm2 lead (sz p) (loc p)).get i = _
  simp only [norm2]
  rw [← hP]
  clear hP
  induction P with
  | zero => simp [h0]
  | succ P ih =>
    rw [Finset.sum_range_succ, ih (fun p hp => hs p (by omega)) (fun p hp => hl p (by omega)), hs P (by omega), Finset.sum_range_add]
    congr 1
    apply Finset.sum_congr rfl
    intro j hj
    rw [hl P (by omega) i j (Finset.mem_range.1 hj)]

example : ∃ a : Arr ℂ, a.shape = [2, 2] ∧ (∀ b < 2, sqNorm 2 (fun j => a.get [b, j]) ≠ 0) := by
  refine ⟨⟨[2, 2], fun _ => 1⟩, rfl, fun b _ => ?_⟩
  simp [sqNorm, Finset.sum_range_succ]

/-! ## C137: densities -/

theorem density_get (lead : List ℕ) (ns nr : ℕ) (a : Arr ℂ) (i : List ℕ) (hi : i.length = lead.length) (s r : ℕ) :
    (density lead ns nr a).get (i ++ [s, r]) = ((‖a.get (i ++ [s * nr + r])‖ ^ 2 : ℝ) : ℂ) := by
  show conj _ * _ = _
  have h1 : (i ++ [s, r]).take lead.length = i := by rw [← hi]; simp
  have h2 : (i ++ [s, r]).getD lead.length 0 = s := by rw [← hi]; simp
  have h3 : (i ++ [s, r]).getD (lead.length + 1) 0 = r := by rw [← hi]; simp
  simp only [h1, h2, h3, conj_mul_norm]

/-- Integral of the density of spin component `s`. -/
noncomputable def charge (nr : ℕ) (dv : ℝ) (f : ℕ → ℂ) : ℝ := sqNorm nr f * dv

theorem integrate_density (lead : List ℕ) (ns nr : ℕ) (dv : ℝ) (a : Arr ℂ) (i : List ℕ) (hi : i.length = lead.length) (s : ℕ) :
    (integrate (lead ++ [ns]) nr dv (density lead ns nr a)).get (i ++ [s]) = ((charge nr dv fun r => a.get (i ++ [s * nr + r]) : ℝ) : ℂ) := by
  show (∑ r ∈ Finset.range nr, (density lead ns nr a).get (i ++ [s] ++ [r])) * dv = _
  have : ∀ r, i ++ [s] ++ [r] = i ++ [s, r] := by intro r; simp
  simp only [this, density_get lead ns nr a i hi]
  unfold charge sqNorm
  push_cast
  rfl

/-- **C137a.** Without normalisation the density is `|psi|²` at every grid point, spin component by spin component. -/
theorem C137_density (lead : List ℕ) (ns nr : ℕ) (dv : ℝ) (a : Arr ℂ) : ∃ r, getDensity lead ns nr dv a false = .ok r ∧ r.shape = lead ++ [ns, nr] ∧
    ∀ i, i.length = lead.length → ∀ s x, r.get (i ++ [s, x]) = ((‖a.get (i ++ [s * nr + x])‖ ^ 2 : ℝ) : ℂ) :=
  ⟨_, rfl, rfl, fun i hi s x => density_get lead ns nr a i hi s x⟩

/-- **C137b.** The normalised density of a list of wavefunctions without spinor components integrates to one for each of them. -/
theorem C137_normalized_partial (nb nr : ℕ) (dv : ℝ) (a : Arr ℂ) (hz : ∀ b < nb, charge nr dv (fun x => a.get [b, x]) ≠ 0) :
    ∃ r, getDensity [nb] 1 nr dv a true = .ok r ∧ r.shape = [nb, 1, nr] ∧ ∀ b < nb,
      (∑ x ∈ Finset.range nr, r.get [b, 0, x]) * dv = 1 ∧
      ∀ x, r.get [b, 0, x] = ((‖a.get [b, x]‖ ^ 2 / charge nr dv (fun x => a.get [b, x]) : ℝ) : ℂ) := by
  obtain ⟨y, hy, hys, hyg⟩ := index_col (integrate ([nb] ++ [1]) nr dv (density [nb] 1 nr a)) nb [1] rfl
  have e : getDensity [nb] 1 nr dv a true = idiv (density [nb] 1 nr a) y := by
    unfold getDensity
    simp only [if_true]
    rw [hy]; rfl
  have hbc : BcOk [nb, 1, 1] [nb, 1, nr] := by simp [BcOk]
  have hdef : idiv (density [nb] 1 nr a) y
      = .ok { shape := [nb, 1, nr], get := fun i => (density [nb] 1 nr a).get i / y.get (bcIdx [nb, 1, 1] i) } := by
    unfold idiv
    rw [show (density [nb] 1 nr a).shape = [nb, 1, nr] from rfl, hys]
    simp only [List.length_cons, List.length_nil, lt_irrefl, if_false, Nat.sub_self, List.replicate_zero, List.nil_append, List.drop_zero, if_pos hbc]
  have hval : ∀ b < nb, ∀ x, (density [nb] 1 nr a).get [b, 0, x] / y.get (bcIdx [nb, 1, 1] [b, 0, x])
      = ((‖a.get [b, x]‖ ^ 2 / charge nr dv (fun x => a.get [b, x]) : ℝ) : ℂ) := by
    intro b hb x
    have hi : bcIdx [nb, 1, 1] [b, 0, x] = [b, 0, 0] := by
      simp only [bcIdx, if_true]
      by_cases h1 : nb = 1
      · rw [if_pos h1, show b = 0 by omega]
      · rw [if_neg h1]
    have h1 := density_get [nb] 1 nr a [b] rfl 0 x
    have h2 := integrate_density [nb] 1 nr dv a [b] rfl 0
    simp only [zero_mul, zero_add, List.cons_append, List.nil_append] at h1 h2
    rw [hi, hyg b hb [0] (.cons (by omega) .nil), h1]
    simp only [List.cons_append, List.nil_append]
    rw [h2]
    push_cast; rfl
  refine ⟨_, e.trans hdef, rfl, fun b hb => ⟨?_, hval b hb⟩⟩
  show (∑ x ∈ Finset.range nr, (density [nb] 1 nr a).get [b, 0, x] / y.get (bcIdx [nb, 1, 1] [b, 0, x])) * dv = 1
  simp only [hval b hb]
  rw [← Complex.ofReal_sum, ← Complex.ofReal_mul, ← Finset.sum_div, div_mul_eq_mul_div]
  have : (∑ x ∈ Finset.range nr, ‖a.get [b, x]‖ ^ 2) * dv = charge nr dv (fun x => a.get [b, x]) := rfl
  rw [this, div_self (hz b hb)]
  simp

/-- **C137c (violation).** The density of a single wavefunction with `ns` spinor components is normalised component by component: each integrates to one, so the
whole integrates to `ns` instead of one. -/
theorem C137_spinor (ns nr : ℕ) (dv : ℝ) (a : Arr ℂ) (hz : ∀ s < ns, charge nr dv (fun x => a.get [s * nr + x]) ≠ 0) :
    ∃ r, getDensity [] ns nr dv a true = .ok r ∧ r.shape = [ns, nr] ∧ (∀ s < ns, (∑ x ∈ Finset.range nr, r.get [s, x]) * dv = 1) ∧
      (∑ s ∈ Finset.range ns, ∑ x ∈ Finset.range nr, r.get [s, x]) * dv = ns := by
  obtain ⟨y, hy, hys, hyg⟩ := index_col (integrate ([] ++ [ns]) nr dv (density [] ns nr a)) ns [] rfl
  have e : getDensity [] ns nr dv a true = idiv (density [] ns nr a) y := by
    unfold getDensity
    simp only [if_true]
    rw [hy]; rfl
  have hbc : BcOk [ns, 1] [ns, nr] := by simp [BcOk]
  have hdef : idiv (density [] ns nr a) y = .ok { shape := [ns, nr], get := fun i => (density [] ns nr a).get i / y.get (bcIdx [ns, 1] i) } := by
    unfold idiv
    rw [show (density [] ns nr a).shape = [ns, nr] from rfl, hys]
    simp only [List.length_cons, List.length_nil, lt_irrefl, if_false, Nat.sub_self, List.replicate_zero, List.nil_append, List.drop_zero, if_pos hbc]
  have hval : ∀ s < ns, ∀ x, (density [] ns nr a).get [s, x] / y.get (bcIdx [ns, 1] [s, x])
      = ((‖a.get [s * nr + x]‖ ^ 2 / charge nr dv (fun x => a.get [s * nr + x]) : ℝ) : ℂ) := by
    intro s hs x
    have hi : bcIdx [ns, 1] [s, x] = [s, 0] := by
      simp only [bcIdx, if_true]
      by_cases h1 : ns = 1
      · rw [if_pos h1, show s = 0 by omega]
      · rw [if_neg h1]
    have h1 := density_get [] ns nr a [] rfl s x
    have h2 := integrate_density [] ns nr dv a [] rfl s
    simp only [List.nil_append] at h1 h2
    rw [hi, hyg s hs [] .nil, h1]
    simp only [List.nil_append]
    rw [h2]
    push_cast; rfl
  have hone : ∀ s < ns, (∑ x ∈ Finset.range nr, (density [] ns nr a).get [s, x] / y.get (bcIdx [ns, 1] [s, x])) * dv = 1 := by
    intro s hs
    simp only [hval s hs]
    rw [← Complex.ofReal_sum, ← Complex.ofReal_mul, ← Finset.sum_div, div_mul_eq_mul_div]
    have : (∑ x ∈ Finset.range nr, ‖a.get [s * nr + x]‖ ^ 2) * dv = charge nr dv (fun x => a.get [s * nr + x]) := rfl
    rw [this, div_self (hz s hs)]
    simp
  refine ⟨_, e.trans hdef, rfl, hone, ?_⟩
  show (∑ s ∈ Finset.range ns, ∑ x ∈ Finset.range nr, (density [] ns nr a).get [s, x] / y.get (bcIdx [ns, 1] [s, x])) * dv = ns
  rw [Finset.sum_mul, Finset.sum_congr rfl (fun s hs => hone s (Finset.mem_range.1 hs))]
  simp

/-- **C137d (violation).** For a list of wavefunctions with several spinor components normalisation fails. -/
theorem C137_spinor_list (nb ns nr : ℕ) (dv : ℝ) (a : Arr ℂ) (h1 : ns ≠ 1) (h2 : ns ≠ nr) : getDensity [nb] ns nr dv a true = .error .value := by
  obtain ⟨y, hy, hys, hyg⟩ := index_col (integrate ([nb] ++ [ns]) nr dv (density [nb] ns nr a)) nb [ns] rfl
  have e : getDensity [nb] ns nr dv a true = idiv (density [nb] ns nr a) y := by
    unfold getDensity
    simp only [if_true]
    rw [hy]; rfl
  rw [e]
  unfold idiv
  rw [show (density [nb] ns nr a).shape = [nb, ns, nr] from rfl, hys]
  have : ¬ BcOk [nb, 1, ns] [nb, ns, nr] := by simp [BcOk, h1, h2]
  simp only [List.length_cons, List.length_nil, lt_irrefl, if_false, Nat.sub_self, List.replicate_zero, List.nil_append, this]

example : ∃ a : Arr ℂ, (∀ b < 3, charge 2 (1 / 4) (fun x => a.get [b, x]) ≠ 0) ∧ ∀ s < 2, charge 2 (1 / 4) (fun x => a.get [s * 2 + x]) ≠ 0 := by
  refine ⟨⟨[3, 2], fun _ => 1⟩, fun b _ => ?_, fun s _ => ?_⟩ <;> simp [charge, sqNorm, Finset.sum_range_succ]

/-! ## C138: overlaps -/

theorem ravel_lt (s i : List ℕ) (h : InShape s i) : ravel s i < s.prod := by
  induction h with
  | nil => simp [ravel]
  | cons h1 _ ih =>
    rename_i a b t l' _
    rw [ravel, List.prod_cons]
    calc a * l'.prod + ravel l' t < a * l'.prod + l'.prod := by omega
      _ = (a + 1) * l'.prod := by ring
      _ ≤ b * l'.prod := Nat.mul_le_mul_right _ h1

theorem unravel_ravel (s i : List ℕ) (h : InShape s i) : unravel s (ravel s i) = i := by
  induction h with
  | nil => rfl
  | cons h1 h2 ih =>
    rename_i a b t l'
    have hlt := ravel_lt _ _ h2
    have hp : 0 < l'.prod := by omega
    rw [ravel, unravel]
    rw [show a * l'.prod + ravel l' t = ravel l' t + l'.prod * a by ring, Nat.add_mul_div_left _ _ hp, Nat.add_mul_mod_self_left,
      Nat.div_eq_of_lt hlt, Nat.mod_eq_of_lt hlt, ih, zero_add]

theorem ravel_append (s1 s2 i1 i2 : List ℕ) (h : InShape s1 i1) : ravel (s1 ++ s2) (i1 ++ i2) = ravel s1 i1 * s2.prod + ravel s2 i2 := by
  induction h with
  | nil => simp [ravel]
  | cons h1 _ ih =>
    rename_i a b t l' _
    simp only [List.cons_append, ravel, ih, List.prod_append]
    ring

/-- **C138.** The overlap of two arrays of wavefunctions has the shape of the first followed by that of the second, and holds every product
`⟨bra_i | ket_j⟩ = Σ_G conj(bra_i(G)) ket_j(G)` at index `(i, j)`. -/
theorem C138_vdot (lb lk : List ℕ) (n : ℕ) (bra ket : Arr ℂ) (hb : bra.shape = lb ++ [n]) (hk : ket.shape = lk ++ [n]) :
    (vdotArr lb lk n bra ket).shape = lb ++ lk ∧ ∀ i j, InShape lb i → InShape lk j →
      (vdotArr lb lk n bra ket).get (i ++ j) = ∑ g ∈ Finset.range n, conj (bra.get (i ++ [g])) * ket.get (j ++ [g]) := by
  have hs : (if lb = [] then lk else if lk = [] then lb else lb ++ lk) = lb ++ lk := by
    split_ifs with h1 h2
    · simp [h1]
    · simp [h2]
    · rfl
  refine ⟨hs, fun i j hi hj => ?_⟩
  unfold vdotArr
  simp only [reshape, hs]
  have hij : InShape [lb.prod, lk.prod] [ravel lb i, ravel lk j] := .cons (ravel_lt _ _ hi) (.cons (ravel_lt _ _ hj) .nil)
  have e1 : ravel (lb ++ lk) (i ++ j) = ravel [lb.prod, lk.prod] [ravel lb i, ravel lk j] := by
    rw [ravel_append _ _ _ _ hi]
    simp [ravel]
  rw [e1, unravel_ravel _ _ hij]
  apply Finset.sum_congr rfl
  intro g hg
  have hg := Finset.mem_range.1 hg
  have hflat : ∀ (l i : List ℕ), InShape l i → unravel (l ++ [n]) (ravel [l.prod, n] [ravel l i, g]) = i ++ [g] := by
    intro l i hi
    have hin : InShape (l ++ [n]) (i ++ [g]) := List.rel_append hi (.cons hg .nil)
    have : ravel [l.prod, n] [ravel l i, g] = ravel (l ++ [n]) (i ++ [g]) := by
      rw [ravel_append _ _ _ _ hi]
      simp [ravel]
    rw [this, unravel_ravel _ _ hin]
  rw [hb, hk]
  simp only [List.getD_cons_zero, List.getD_cons_succ]
  rw [hflat lb i hi, hflat lk j hj]

example : ∃ (bra ket : Arr ℂ), bra.shape = [2, 3] ++ [4] ∧ ket.shape = [] ++ [4] ∧ InShape [2, 3] [1, 2] ∧ InShape [] [] :=
  ⟨⟨[2, 3, 4], fun _ => 1⟩, ⟨[4], fun _ => 1⟩, rfl, rfl, .cons (by omega) (.cons (by omega) .nil), .nil⟩

end Verif.Wavefun
