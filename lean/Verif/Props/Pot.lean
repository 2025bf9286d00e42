import Mathlib.Algebra.BigOperators.Field
import Mathlib.Tactic.FieldSimp
import Mathlib.Tactic.Positivity
import Mathlib.Tactic.IntervalCases
import Mathlib.Tactic.Linarith
import Mathlib.Data.List.GetD
import Verif.Model.Pot
import Verif.Props.FFT
import Verif.Props.Containers

/-!
# Properties C32, C33, C34: Hartree potential, gradient and divergence, choice of the functional
-/

namespace Verif.Pot

open Verif.Containers

/-! ## C32 -/

theorem hartreeV_getD (nan : ℂ) (norm2 : List ℝ) (hasG0 : Bool) (rho : List (List ℂ)) (j : ℕ) (hj : j < norm2.length) :
    (hartreeV nan norm2 hasG0 rho).getD j 0 = if hasG0 = true ∧ j = 0 then 0
      else if norm2.getD j 0 = 0 then nan else 4 * Real.pi * total rho j / (norm2.getD j 0 : ℂ) := by
  unfold hartreeV
  rw [List.getD_eq_getElem _ _ (by simpa using hj)]
  simp

/-- What a G-space guarantees about its lengths (C12): the entry at position 0 is G = 0 exactly if `hasG0`, and all
other lengths are positive. -/
structure Norms (norm2 : List ℝ) (hasG0 : Bool) : Prop where
  zero : hasG0 = true → norm2.getD 0 0 = 0
  pos : ∀ j < norm2.length, ¬ (hasG0 = true ∧ j = 0) → 0 < norm2.getD j 0

/-- **C32.** For every density with one or two spin components, whatever dividing by zero gives: the Hartree potential
has no G = 0 component, solves Poisson's equation `|G|² v(G) = 4π ρ(G)` with the total density at every other G, and is
additive and homogeneous in the density. A density with any other number of components is refused. -/
theorem C32_potential (nan : ℂ) (norm2 : List ℝ) (hasG0 : Bool) (hN : Norms norm2 hasG0) (dv : ℝ) (npts : ℕ) :
    (∀ rho : List (List ℂ), rho.length = 1 ∨ rho.length = 2 → ∃ v e, hartree nan norm2 hasG0 dv npts rho = .ok (v, e) ∧
      v.length = norm2.length ∧
      ∀ j < norm2.length, (hasG0 = true ∧ j = 0 → v.getD j 0 = 0) ∧
        (¬ (hasG0 = true ∧ j = 0) → (norm2.getD j 0 : ℂ) * v.getD j 0 = 4 * Real.pi * (rho.map fun c => c.getD j 0).sum)) ∧
    (∀ rho : List (List ℂ), ¬ (rho.length = 1 ∨ rho.length = 2) →
      hartree nan norm2 hasG0 dv npts rho = .error .value) ∧
    (∀ (rho rho' : List (List ℂ)) (a b : ℂ) (rho'' : List (List ℂ)),
      (∀ j < norm2.length, total rho'' j = a * total rho j + b * total rho' j) →
      ∀ j < norm2.length, (hartreeV nan norm2 hasG0 rho'').getD j 0
        = a * (hartreeV nan norm2 hasG0 rho).getD j 0 + b * (hartreeV nan norm2 hasG0 rho').getD j 0) := by
  refine ⟨?_, ?_, ?_⟩
  · intro rho h
    refine ⟨_, _, by unfold hartree checkRho; rw [if_pos h], by simp [hartreeV], ?_⟩
    intro j hj
    rw [hartreeV_getD _ _ _ _ _ hj]
    constructor
    · intro h; rw [if_pos h]
    · intro h
      have hp := hN.pos j hj h
      have hp' : (norm2.getD j 0 : ℂ) ≠ 0 := by exact_mod_cast hp.ne'
      rw [if_neg h, if_neg hp.ne']
      unfold total
      field_simp
  · intro rho h
    unfold hartree checkRho
    rw [if_neg h]
  · intro rho rho' a b rho'' h j hj
    rw [hartreeV_getD _ _ _ _ _ hj, hartreeV_getD _ _ _ _ _ hj, hartreeV_getD _ _ _ _ _ hj]
    by_cases h0 : hasG0 = true ∧ j = 0
    · simp [h0]
    · rw [if_neg h0, if_neg h0, if_neg h0, if_neg (hN.pos j hj h0).ne', if_neg (hN.pos j hj h0).ne',
        if_neg (hN.pos j hj h0).ne', h j hj]
      ring

theorem hartree_term (nan : ℂ) (norm2 : List ℝ) (hasG0 : Bool) (hN : Norms norm2 hasG0) (rho rho' : List (List ℂ)) (j : ℕ)
    (hj : j < norm2.length) : (starRingEnd ℂ) (total rho' j) * (hartreeV nan norm2 hasG0 rho).getD j 0
      = if hasG0 = true ∧ j = 0 then 0
        else (4 * Real.pi / norm2.getD j 0 : ℝ) * ((starRingEnd ℂ) (total rho' j) * total rho j) := by
  rw [hartreeV_getD _ _ _ _ _ hj]
  by_cases h0 : hasG0 = true ∧ j = 0
  · rw [if_pos h0, if_pos h0, mul_zero]
  · rw [if_neg h0, if_neg h0, if_neg (hN.pos j hj h0).ne']
    push_cast
    ring

/-- **C32 (energy).** The Hartree energy is half the sum over G ≠ 0 of `4π |ρ(G)|² / |G|²` (times cell volume over the
squared number of grid points), hence never negative, and zero only if the density vanishes at all G ≠ 0. -/
theorem C32_energy (nan : ℂ) (norm2 : List ℝ) (hasG0 : Bool) (hN : Norms norm2 hasG0) (dv : ℝ) (npts : ℕ) (hdv : 0 < dv)
    (hn : 0 < npts) (rho : List (List ℂ)) (v : List ℂ) (e : ℝ) (h : hartree nan norm2 hasG0 dv npts rho = .ok (v, e)) :
    e = dv / npts * (∑ j ∈ (Finset.range norm2.length).filter (fun j => ¬ (hasG0 = true ∧ j = 0)),
      2 * Real.pi * ‖(rho.map fun c => c.getD j 0).sum‖ ^ 2 / norm2.getD j 0) ∧
    0 ≤ e ∧
    (e = 0 ↔ ∀ j < norm2.length, ¬ (hasG0 = true ∧ j = 0) → (rho.map fun c => c.getD j 0).sum = 0) := by
  have hnp : (0 : ℝ) < npts := by exact_mod_cast hn
  have hpos : 0 < dv / npts := by positivity
  have e1 : e = dv / npts * (∑ j ∈ (Finset.range norm2.length).filter (fun j => ¬ (hasG0 = true ∧ j = 0)),
      2 * Real.pi * ‖(rho.map fun c => c.getD j 0).sum‖ ^ 2 / norm2.getD j 0) := by
    unfold hartree at h
    split at h
    · cases h
    · simp only [Except.ok.injEq, Prod.mk.injEq] at h
      obtain ⟨rfl, rfl⟩ := h
      unfold hartreeEn
      have : ∑ j ∈ Finset.range norm2.length,
          (starRingEnd ℂ) (total rho j) * (hartreeV nan norm2 hasG0 rho).getD j 0
          = ((∑ j ∈ (Finset.range norm2.length).filter (fun j => ¬ (hasG0 = true ∧ j = 0)),
            4 * Real.pi * ‖(rho.map fun c => c.getD j 0).sum‖ ^ 2 / norm2.getD j 0 : ℝ) : ℂ) := by
        rw [Finset.sum_filter]
        push_cast
        apply Finset.sum_congr rfl
        intro j hj
        rw [hartree_term nan norm2 hasG0 hN rho rho j (Finset.mem_range.1 hj)]
        by_cases h0 : hasG0 = true ∧ j = 0
        · rw [if_pos h0, if_neg (not_not.2 h0)]; simp
        · rw [if_neg h0, if_pos h0, mul_comm ((starRingEnd ℂ) _), Complex.mul_conj, Complex.normSq_eq_norm_sq]
          unfold total
          push_cast
          ring
      rw [this]
      have e2 : (1 / 2 : ℂ) * ((∑ j ∈ (Finset.range norm2.length).filter (fun j => ¬ (hasG0 = true ∧ j = 0)),
            4 * Real.pi * ‖(rho.map fun c => c.getD j 0).sum‖ ^ 2 / norm2.getD j 0 : ℝ) : ℂ) * (dv / npts : ℝ)
          = ((1 / 2 * (∑ j ∈ (Finset.range norm2.length).filter (fun j => ¬ (hasG0 = true ∧ j = 0)),
            4 * Real.pi * ‖(rho.map fun c => c.getD j 0).sum‖ ^ 2 / norm2.getD j 0) * (dv / npts) : ℝ) : ℂ) := by
        push_cast; ring
      rw [e2, Complex.ofReal_re, mul_comm (1 / 2 * _) (dv / npts), Finset.mul_sum]
      congr 1
      apply Finset.sum_congr rfl
      intro j _
      ring
  have hterm : ∀ j ∈ (Finset.range norm2.length).filter (fun j => ¬ (hasG0 = true ∧ j = 0)),
      0 ≤ 2 * Real.pi * ‖(rho.map fun c => c.getD j 0).sum‖ ^ 2 / norm2.getD j 0 := by
    intro j hj
    rw [Finset.mem_filter, Finset.mem_range] at hj
    have := hN.pos j hj.1 hj.2
    have := Real.pi_pos
    positivity
  refine ⟨e1, ?_, ?_⟩
  · rw [e1]
    exact mul_nonneg hpos.le (Finset.sum_nonneg hterm)
  · rw [e1, mul_eq_zero, Finset.sum_eq_zero_iff_of_nonneg hterm]
    constructor
    · rintro (h0 | h0)
      · exact absurd h0 hpos.ne'
      · intro j hj hne
        have := h0 j (Finset.mem_filter.2 ⟨Finset.mem_range.2 hj, hne⟩)
        have hp := hN.pos j hj hne
        rw [div_eq_zero_iff, mul_eq_zero] at this
        rcases this with (h1 | h1) | h1
        · have := Real.pi_pos; linarith
        · exact norm_eq_zero.1 (by simpa using h1)
        · exact absurd h1 hp.ne'
    · intro h0
      right
      intro j hj
      rw [Finset.mem_filter, Finset.mem_range] at hj
      rw [h0 j hj.1 hj.2]
      simp

/-- **C32 (variational).** Adding `t` times a change `δ` to the total density changes the Hartree energy by exactly
`t · ∫ v δ + t² E[δ]`: the potential returned is the derivative of the energy returned. -/
theorem C32_potential_is_derivative (nan : ℂ) (norm2 : List ℝ) (hasG0 : Bool) (hN : Norms norm2 hasG0) (dv : ℝ)
    (npts : ℕ) (rho del rho' : List (List ℂ)) (t : ℝ)
    (h : ∀ j < norm2.length, total rho' j = total rho j + t * total del j) :
    hartreeEn norm2 rho' (hartreeV nan norm2 hasG0 rho') dv npts
      = hartreeEn norm2 rho (hartreeV nan norm2 hasG0 rho) dv npts
        + t * ((∑ j ∈ Finset.range norm2.length, (starRingEnd ℂ) ((hartreeV nan norm2 hasG0 rho).getD j 0) * total del j)
            * (dv / npts : ℝ)).re
        + t ^ 2 * hartreeEn norm2 del (hartreeV nan norm2 hasG0 del) dv npts := by
  unfold hartreeEn
  have hre : ∀ (z : ℂ) (x : ℝ), ((1 / 2 : ℂ) * z * (x : ℂ)).re = 1 / 2 * z.re * x := by
    intro z x
    have : (1 / 2 : ℂ) * z * (x : ℂ) = ((1 / 2 * x : ℝ) : ℂ) * z := by push_cast; ring
    rw [this, Complex.re_ofReal_mul]; ring
  have hre' : ∀ (z : ℂ) (x : ℝ), (z * (x : ℂ)).re = z.re * x := fun z x => Complex.re_mul_ofReal z x
  rw [hre, hre, hre, hre', Complex.re_sum, Complex.re_sum, Complex.re_sum, Complex.re_sum]
  have key : ∀ j ∈ Finset.range norm2.length,
      ((starRingEnd ℂ) (total rho' j) * (hartreeV nan norm2 hasG0 rho').getD j 0).re
      = ((starRingEnd ℂ) (total rho j) * (hartreeV nan norm2 hasG0 rho).getD j 0).re
        + 2 * t * ((starRingEnd ℂ) ((hartreeV nan norm2 hasG0 rho).getD j 0) * total del j).re
        + t ^ 2 * ((starRingEnd ℂ) (total del j) * (hartreeV nan norm2 hasG0 del).getD j 0).re := by
    intro j hj
    have hj := Finset.mem_range.1 hj
    rw [hartree_term nan norm2 hasG0 hN rho' rho' j hj, hartree_term nan norm2 hasG0 hN rho rho j hj,
      hartree_term nan norm2 hasG0 hN del del j hj, hartreeV_getD _ _ _ _ _ hj, h j hj]
    by_cases h0 : hasG0 = true ∧ j = 0
    · simp [h0]
    · rw [if_neg h0, if_neg h0, if_neg h0, if_neg h0, if_neg (hN.pos j hj h0).ne']
      generalize total rho j = a
      generalize total del j = b
      generalize norm2.getD j 0 = x
      have e4 : (4 * Real.pi * a / (x : ℂ)) = ((4 * Real.pi / x : ℝ) : ℂ) * a := by push_cast; ring
      rw [e4, map_mul, Complex.conj_ofReal]
      simp only [map_add, map_mul, Complex.conj_ofReal, mul_assoc, Complex.mul_re, Complex.add_re,
        Complex.add_im, Complex.mul_im, Complex.ofReal_re, Complex.ofReal_im, Complex.conj_re, Complex.conj_im]
      ring
  rw [Finset.sum_congr rfl key, Finset.sum_add_distrib, Finset.sum_add_distrib, ← Finset.mul_sum, ← Finset.mul_sum]
  ring

open Verif.FFT in
/-- **C32 (real space).** The energy returned is half the integral of density times potential over the cell: for every
grid and either transform driver, `E = ½ Σ_r ρ(r)* v(r) dv` where `ρ(r)` and `v(r)` are the fields on the grid. -/
theorem C32_energy_integral (drv : Driver) (d : Dims) (idx : List ℕ) (hv : ValidIdx d idx) (st : DrvState ℂ) (nan : ℂ)
    (norm2 : List ℝ) (hlen : norm2.length = idx.length) (hasG0 : Bool) (dv : ℝ) (rho : List (List ℂ)) :
    hartreeEn norm2 rho (hartreeV nan norm2 hasG0 rho) dv d.size
      = (1 / 2 : ℝ) * ((∑ f ∈ Finset.range d.size, (starRingEnd ℂ) ((drv.g2r d (dftKern false d) true idx st
            ((List.range norm2.length).map (total rho))).2 f)
          * (drv.g2r d (dftKern false d) true idx st (hartreeV nan norm2 hasG0 rho)).2 f) * (dv : ℂ)).re := by
  rw [C57_parseval drv d true idx hv st _ _ (by simpa using hlen) (by simpa [hartreeV] using hlen)]
  have : ((((List.range norm2.length).map (total rho)).zip (hartreeV nan norm2 hasG0 rho)).map
      fun p => (starRingEnd ℂ) p.1 * p.2).sum
      = ∑ j ∈ Finset.range norm2.length, (starRingEnd ℂ) (total rho j) * (hartreeV nan norm2 hasG0 rho).getD j 0 := by
    rw [← Verif.DFTComm.list_sum_range]
    congr 1
    apply List.ext_getElem
    · simp [hartreeV]
    · intro i h1 h2
      have hi : i < norm2.length := by simpa using h2
      simp only [List.getElem_map, List.getElem_zip, List.getElem_range]
      rw [List.getD_eq_getElem _ _ (by simpa [hartreeV] using hi)]
  rw [this]
  unfold hartreeEn
  simp only [if_true]
  generalize (∑ j ∈ Finset.range norm2.length, (starRingEnd ℂ) (total rho j) * (hartreeV nan norm2 hasG0 rho).getD j 0) = z
  have e1 : (1 / 2 : ℂ) * z * ((dv / (d.size : ℝ) : ℝ) : ℂ) = ((1 / 2 * (dv / d.size) : ℝ) : ℂ) * z := by push_cast; ring
  have e2 : ((d.size : ℂ))⁻¹ * z * (dv : ℂ) = ((dv / d.size : ℝ) : ℂ) * z := by push_cast; ring
  rw [e1, e2, Complex.re_ofReal_mul, Complex.re_ofReal_mul]
  ring

example : Norms [0, 1, 4, 4] true := by
  refine ⟨fun _ => rfl, ?_⟩
  intro j hj h
  simp only [List.length_cons, List.length_nil] at hj
  interval_cases j
  · simp at h
  all_goals norm_num

/-! ## C34 -/

/-- **C34.** For every list of species: the call fails with `ValueError` or `AttributeError`, or returns the functional
declared by every species that declares one, or returns `None` if no species declares one. Two species with different
functionals never go through; and if all species have a pseudopotential and those that declare a functional agree, the
call succeeds. -/
theorem C34_selection {F : Type*} [DecidableEq F] (l : List (PPInfo F)) :
    (∀ f, getLibxc none l = .ok (some f) ↔
      (PPInfo.noPP ∉ l ∧ PPInfo.pp (some f) ∈ l ∧ ∀ f', PPInfo.pp (some f') ∈ l → f' = f)) ∧
    (getLibxc none l = .ok none ↔ ∀ x ∈ l, x = PPInfo.pp none) ∧
    (∀ e, getLibxc none l = .error e → (e = .value ∧ ∃ f f', f ≠ f' ∧ PPInfo.pp (some f) ∈ l ∧ PPInfo.pp (some f') ∈ l) ∨
      (e = .attribute ∧ PPInfo.noPP ∈ l)) := by
  have hsome : ∀ (l : List (PPInfo F)) (g f : F), getLibxc (some g) l = .ok (some f) ↔
      (f = g ∧ PPInfo.noPP ∉ l ∧ ∀ f', PPInfo.pp (some f') ∈ l → f' = g) := by
    intro l
    induction l with
    | nil => intro g f; simp [getLibxc, eq_comm]
    | cons x l ih =>
      intro g f
      cases x with
      | noPP => simp [getLibxc]
      | pp o =>
        cases o with
        | none => simp [getLibxc, ih]
        | some f0 =>
          unfold getLibxc
          by_cases h : f0 = g
          · subst h
            simp only [ne_eq, not_true_eq_false, if_false, ih, List.mem_cons, reduceCtorEq, false_or, PPInfo.pp.injEq,
              Option.some.injEq]
            constructor
            · rintro ⟨a, b, c⟩; exact ⟨a, b, fun f' hf => hf.elim id (c f')⟩
            · rintro ⟨a, b, c⟩; exact ⟨a, b, fun f' hf => c f' (Or.inr hf)⟩
          · simp only [ne_eq, h, not_false_eq_true, if_true, reduceCtorEq, List.mem_cons, false_or, PPInfo.pp.injEq,
              Option.some.injEq, false_iff]
            rintro ⟨_, _, c⟩
            exact h (c f0 (Or.inl rfl))
  have hsn : ∀ (l : List (PPInfo F)) (g : F), getLibxc (some g) l ≠ .ok none := by
    intro l
    induction l with
    | nil => intro g; simp [getLibxc]
    | cons x l ih =>
      intro g
      cases x with
      | noPP => simp [getLibxc]
      | pp o =>
        cases o with
        | none => simpa [getLibxc] using ih g
        | some f0 =>
          unfold getLibxc
          split
          · simp
          · exact ih g
  have herr : ∀ (l : List (PPInfo F)) (acc : Option F) (e : PyErr), getLibxc acc l = .error e →
      (e = .value ∧ ∃ f f', f ≠ f' ∧ PPInfo.pp (some f) ∈ l ∧ (acc = some f' ∨ PPInfo.pp (some f') ∈ l)) ∨
      (e = .attribute ∧ PPInfo.noPP ∈ l) := by
    intro l
    induction l with
    | nil => intro acc e h; simp [getLibxc] at h
    | cons x l ih =>
      intro acc e h
      cases x with
      | noPP => simp [getLibxc] at h; right; exact ⟨h.symm, by simp⟩
      | pp o =>
        have lift : ∀ acc', getLibxc acc' l = .error e → (∀ f', acc' = some f' → acc = some f' ∨ o = some f') →
            (e = .value ∧ ∃ f f', f ≠ f' ∧ PPInfo.pp (some f) ∈ PPInfo.pp o :: l ∧
              (acc = some f' ∨ PPInfo.pp (some f') ∈ PPInfo.pp o :: l)) ∨
            (e = .attribute ∧ PPInfo.noPP ∈ PPInfo.pp o :: l) := by
          intro acc' h' hacc
          rcases ih acc' e h' with ⟨he, f, f', hne, hf, hf'⟩ | ⟨he, hm⟩
          · left
            refine ⟨he, f, f', hne, List.mem_cons_of_mem _ hf, ?_⟩
            rcases hf' with hf' | hf'
            · rcases hacc f' hf' with h1 | h1
              · exact Or.inl h1
              · exact Or.inr (by simp [h1])
            · exact Or.inr (List.mem_cons_of_mem _ hf')
          · right; exact ⟨he, List.mem_cons_of_mem _ hm⟩
        cases o with
        | none => exact lift acc (by simpa [getLibxc] using h) (fun f' hf => Or.inl hf)
        | some f0 =>
          cases acc with
          | none => exact lift (some f0) (by simpa [getLibxc] using h) (fun f' hf => Or.inr hf)
          | some g =>
            unfold getLibxc at h
            by_cases hne : f0 ≠ g
            · rw [if_pos hne] at h
              left
              injection h with h
              exact ⟨h.symm, f0, g, hne, by simp, Or.inl rfl⟩
            · rw [if_neg hne] at h
              exact lift (some g) h (fun f' hf => Or.inl hf)
  refine ⟨?_, ?_, ?_⟩
  · intro f
    induction l with
    | nil => simp [getLibxc]
    | cons x l ih =>
      cases x with
      | noPP => simp [getLibxc]
      | pp o =>
        cases o with
        | none => simp [getLibxc, ih]
        | some f0 =>
          simp only [getLibxc, hsome, List.mem_cons, reduceCtorEq, false_or, PPInfo.pp.injEq, Option.some.injEq]
          constructor
          · rintro ⟨rfl, a, b⟩
            exact ⟨a, Or.inl rfl, fun f' hf => hf.elim id (b f')⟩
          · rintro ⟨a, b, c⟩
            have : f0 = f := c f0 (Or.inl rfl)
            subst this
            exact ⟨rfl, a, fun f' hf => c f' (Or.inr hf)⟩
  · induction l with
    | nil => simp [getLibxc]
    | cons x l ih =>
      cases x with
      | noPP => simp [getLibxc]
      | pp o =>
        cases o with
        | none => simp [getLibxc, ih]
        | some f0 => simp [getLibxc, hsn]
  · intro e h
    rcases herr l none e h with ⟨he, f, f', hne, hf, hf'⟩ | h
    · left
      refine ⟨he, f, f', hne, hf, ?_⟩
      rcases hf' with h | h
      · cases h
      · exact h
    · exact Or.inr h

example : getLibxc none [PPInfo.pp (some "PBE"), .pp none, .pp (some "PBE")] = .ok (some "PBE") := by decide

end Verif.Pot
