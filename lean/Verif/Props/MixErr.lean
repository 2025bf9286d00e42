import Verif.Props.Mixing
import Verif.Model.Pot

/-!
# Property C226: what the error of the mixer measures
-/

namespace Verif.Mixing

open scoped ComplexConjugate

variable {s n : ℕ}

/-! ## Specification -/

/-- The data of a density, as the list of components that `hartree.compute` gets. -/
def Dens.data (a : Dens s n) : List (List ℂ) := List.ofFn fun k => List.ofFn (a k)

/-- The charge and the Hartree potential of a density at G-vector number `i`, in the caller's words: all components added; `4π ρ(G) / G²`, zero at `G = 0`. -/
noncomputable def charge (a : Dens s n) (i : Fin n) : ℂ := ∑ k, a k i

/-- See `charge`. -/
noncomputable def hartreePot (c : Cfg n) (a : Dens s n) (i : Fin n) : ℂ := if c.hasG0 = true ∧ i.val = 0 then 0 else 4 * Real.pi * charge a i / (c.g2 i : ℂ)

/-- The energy of the charge of `b` in the Hartree potential of `a`. -/
noncomputable def inPotentialOf (c : Cfg n) (a b : Dens s n) : ℝ := (∑ i, conj (charge b i) * hartreePot c a i).re * (c.dv / c.npts)

/-- Distance of the magnetisations of two spin densities: `2π/(2π/a)²` times the mean square. -/
noncomputable def spinError (c : Cfg n) (a b : Dens s n) : ℝ :=
  if h : s = 2 then 2 * Real.pi * (c.dv / c.npts) / c.tpiba ^ 2 * ∑ i, Complex.normSq ((a ⟨0, by omega⟩ i - a ⟨1, by omega⟩ i) - (b ⟨0, by omega⟩ i - b ⟨1, by omega⟩ i)) else 0

/-! ## Lemmas -/

theorem total_data (a : Dens s n) (i : Fin n) : Pot.total a.data i = charge a i := by
  unfold Pot.total Dens.data charge
  rw [List.map_ofFn, List.sum_ofFn]
  refine Finset.sum_congr rfl fun k _ => ?_
  simp [Function.comp, List.getD_eq_getElem?_getD]

theorem hartreeV_data (nan : ℂ) (c : Cfg n) (hc : c.Valid) (a : Dens s n) (i : Fin n) : (Pot.hartreeV nan (List.ofFn c.g2) c.hasG0 a.data).getD i 0 = hartreePot c a i := by
  unfold Pot.hartreeV hartreePot
  have hi : (i : ℕ) < ((List.range (List.ofFn c.g2).length).map fun j => if c.hasG0 = true ∧ j = 0 then (0 : ℂ) else if (List.ofFn c.g2).getD j 0 = 0 then nan else 4 * Real.pi * Pot.total a.data j / ((List.ofFn c.g2).getD j 0 : ℂ)).length := by simp
  rw [List.getD_eq_getElem?_getD, List.getElem?_eq_getElem hi, Option.getD_some, List.getElem_map, List.getElem_range, total_data]
  have hg : (List.ofFn c.g2).getD i 0 = c.g2 i := by simp [List.getD_eq_getElem?_getD]
  rw [hg]
  split_ifs with h1 h2
  · rfl
  · exact absurd h2 (hc.g2 i h1).ne'
  · rfl

theorem hartreeEn_data (nan : ℂ) (c : Cfg n) (hc : c.Valid) (a : Dens s n) (N : ℕ) (hN : c.npts = N) :
    Pot.hartreeEn (List.ofFn c.g2) a.data (Pot.hartreeV nan (List.ofFn c.g2) c.hasG0 a.data) c.dv N = 1 / 2 * inPotentialOf c a a := by
  unfold Pot.hartreeEn inPotentialOf
  rw [List.length_ofFn, Finset.sum_range]
  simp only [total_data, hartreeV_data nan c hc]
  rw [hN, Complex.re_mul_ofReal, show (1 / 2 : ℂ) = ((1 / 2 : ℝ) : ℂ) by push_cast; ring, Complex.re_ofReal_mul]
  ring

theorem hartree_data (nan : ℂ) (c : Cfg n) (hc : c.Valid) (hs : s = 1 ∨ s = 2) (a : Dens s n) (N : ℕ) (hN : c.npts = N) :
    ∃ v, Pot.hartree nan (List.ofFn c.g2) c.hasG0 c.dv N a.data = .ok (v, 1 / 2 * inPotentialOf c a a) ∧ v.length = n ∧ ∀ i : Fin n, v.getD i 0 = hartreePot c a i := by
  refine ⟨Pot.hartreeV nan (List.ofFn c.g2) c.hasG0 a.data, ?_, by simp [Pot.hartreeV], fun i => hartreeV_data nan c hc a i⟩
  unfold Pot.hartree Pot.checkRho
  have : a.data.length = s := by simp [Dens.data]
  rw [if_pos (by rwa [this])]
  simp only [hartreeEn_data nan c hc a N hN]

theorem spin_part (c : Cfg n) (a b : Dens s n) : (if h : s = 2 then c.fac * (∑ i, Complex.normSq ((a - b) ⟨0, by omega⟩ i - (a - b) ⟨1, by omega⟩ i)) / c.tpiba ^ 2 else 0) = spinError c a b := by
  unfold spinError
  split_ifs with h
  · unfold Cfg.fac
    have : ∀ i, (a - b) ⟨0, by omega⟩ i - (a - b) ⟨1, by omega⟩ i = (a ⟨0, by omega⟩ i - a ⟨1, by omega⟩ i) - (b ⟨0, by omega⟩ i - b ⟨1, by omega⟩ i) := fun i => by
      simp only [Pi.sub_apply]; ring
    simp only [this]
    ring
  · rfl

theorem error_eq (c : Cfg n) (a b : Dens s n) : computeError c a b = 1 / 2 * inPotentialOf c (a - b) (a - b) + spinError c a b := by
  unfold computeError
  rw [dot_self, spin_part]
  congr 1
  unfold inPotentialOf Cfg.fac
  rw [Complex.re_sum]
  have : ∀ i, (conj (charge (a - b) i) * hartreePot c (a - b) i).re = 4 * Real.pi * (if c.hasG0 ∧ i.val = 0 then 0 else Complex.normSq (∑ k, (a - b) k i) / c.g2 i) := by
    intro i
    unfold hartreePot charge
    split_ifs with h
    · simp
    · rw [show conj (∑ k, (a - b) k i) * (4 * Real.pi * (∑ k, (a - b) k i) / (c.g2 i : ℂ)) = ((4 * Real.pi / c.g2 i : ℝ) : ℂ) * (conj (∑ k, (a - b) k i) * ∑ k, (a - b) k i) by push_cast; ring, Complex.re_ofReal_mul, conj_mul_self_re]
      ring
  simp only [this, ← Finset.mul_sum]
  ring

theorem charge_sub (a b : Dens s n) (i : Fin n) : charge (a - b) i = charge a i - charge b i := by
  unfold charge
  simp [Finset.sum_sub_distrib]

/-- The Hartree energy is a quadratic form: symmetric in its two densities. -/
theorem inPotentialOf_comm (c : Cfg n) (a b : Dens s n) : inPotentialOf c a b = inPotentialOf c b a := by
  unfold inPotentialOf
  rw [Complex.re_sum, Complex.re_sum]
  congr 1
  refine Finset.sum_congr rfl fun i _ => ?_
  unfold hartreePot
  split_ifs with h
  · simp
  · rw [show conj (charge b i) * (4 * Real.pi * charge a i / (c.g2 i : ℂ)) = ((4 * Real.pi / c.g2 i : ℝ) : ℂ) * (conj (charge b i) * charge a i) by push_cast; ring,
      show conj (charge a i) * (4 * Real.pi * charge b i / (c.g2 i : ℂ)) = ((4 * Real.pi / c.g2 i : ℝ) : ℂ) * (conj (charge a i) * charge b i) by push_cast; ring, Complex.re_ofReal_mul, Complex.re_ofReal_mul,
      ← Complex.conj_re (conj (charge b i) * charge a i)]
    simp [mul_comm]

theorem inPotentialOf_sub_left (c : Cfg n) (a b d : Dens s n) : inPotentialOf c (a - b) d = inPotentialOf c a d - inPotentialOf c b d := by
  unfold inPotentialOf
  rw [← sub_mul, ← Complex.sub_re, ← Finset.sum_sub_distrib]
  congr 2
  refine Finset.sum_congr rfl fun i _ => ?_
  unfold hartreePot
  rw [charge_sub]
  split_ifs <;> ring

theorem inPotentialOf_sub_right (c : Cfg n) (a b d : Dens s n) : inPotentialOf c d (a - b) = inPotentialOf c d a - inPotentialOf c d b := by
  rw [inPotentialOf_comm, inPotentialOf_sub_left, inPotentialOf_comm c a, inPotentialOf_comm c b]

/-! ## The property -/

/-- **C226 (Hartree energy).** The error that the mixer reports is the energy that `hartree.compute` gives for the difference of the two densities, plus, for two spin components, the distance of the magnetisations. -/
theorem C226_hartree_energy (nan : ℂ) (c : Cfg n) (hc : c.Valid) (hs : s = 1 ∨ s = 2) (N : ℕ) (hN : c.npts = N) (rin rout : Dens s n) :
    ∃ v e, Pot.hartree nan (List.ofFn c.g2) c.hasG0 c.dv N (rin - rout).data = .ok (v, e) ∧ computeError c rin rout = e + spinError c rin rout := by
  obtain ⟨v, h, -, -⟩ := hartree_data nan c hc hs (rin - rout) N hN
  exact ⟨v, _, h, error_eq c rin rout⟩

/-- **C226 (second order).** It is what the Hartree energy of the output density differs by from its expansion to first order at the input density: the energy of the input density, and the change of the density in its potential. -/
theorem C226_second_order (nan : ℂ) (c : Cfg n) (hc : c.Valid) (hs : s = 1 ∨ s = 2) (N : ℕ) (hN : c.npts = N) (rin rout : Dens s n) :
    ∃ vin ein vout eout, Pot.hartree nan (List.ofFn c.g2) c.hasG0 c.dv N rin.data = .ok (vin, ein) ∧ Pot.hartree nan (List.ofFn c.g2) c.hasG0 c.dv N rout.data = .ok (vout, eout) ∧
      eout = ein + (∑ i : Fin n, conj (∑ k, (rout k i - rin k i)) * vin.getD i 0).re * (c.dv / N) + (computeError c rin rout - spinError c rin rout) := by
  obtain ⟨vi, hi, -, hv⟩ := hartree_data nan c hc hs rin N hN
  obtain ⟨vo, ho, -, -⟩ := hartree_data nan c hc hs rout N hN
  refine ⟨vi, _, vo, _, hi, ho, ?_⟩
  have e1 : (∑ i : Fin n, conj (∑ k, (rout k i - rin k i)) * vi.getD i 0).re * (c.dv / N) = inPotentialOf c rin (rout - rin) := by
    unfold inPotentialOf
    rw [hN]
    simp only [hv]
    rfl
  rw [e1, error_eq, inPotentialOf_sub_left, inPotentialOf_sub_right, inPotentialOf_sub_right, inPotentialOf_sub_right, inPotentialOf_comm c rout rin]
  ring

/-- **C226 (a distance).** The error does not depend on which density is called input, and vanishes exactly when the charges agree at every `G ≠ 0` and (for two components) the magnetisations agree everywhere: a different number of electrons alone is not seen. -/
theorem C226_distance (c : Cfg n) (hc : c.Valid) (a b : Dens s n) :
    computeError c a b = computeError c b a ∧ 0 ≤ computeError c a b ∧
    (computeError c a b = 0 ↔ (∀ i : Fin n, ¬ (c.hasG0 = true ∧ i.val = 0) → ∑ k, a k i = ∑ k, b k i) ∧
      ∀ h : s = 2, ∀ i, a ⟨0, by omega⟩ i - a ⟨1, by omega⟩ i = b ⟨0, by omega⟩ i - b ⟨1, by omega⟩ i) := by
  have hp := Real.pi_pos
  have hd := hc.dv
  have hn := hc.npts
  have ht := hc.tpiba
  have e0 : ∀ x y : Dens s n, computeError c x y = c.fac * (∑ i : Fin n, if c.hasG0 ∧ i.val = 0 then 0 else Complex.normSq (charge x i - charge y i) / c.g2 i) + spinError c x y := by
    intro x y
    unfold computeError
    rw [dot_self, spin_part]
    simp only [← charge_sub]
    rfl
  have hpos : ∀ i ∈ Finset.univ, 0 ≤ (if c.hasG0 ∧ i.val = 0 then (0 : ℝ) else Complex.normSq (charge a i - charge b i) / c.g2 i) := by
    intro i _
    split_ifs with h
    · exact le_rfl
    · exact div_nonneg (Complex.normSq_nonneg _) (hc.g2 i h).le
  have hspos : 0 ≤ spinError c a b := by
    unfold spinError
    split_ifs
    · exact mul_nonneg (by positivity) (Finset.sum_nonneg fun i _ => Complex.normSq_nonneg _)
    · exact le_rfl
  have hf := hc.fac
  refine ⟨?_, dot_nonneg c hc _, ?_⟩
  · rw [e0, e0]
    congr 1
    · congr 1
      refine Finset.sum_congr rfl fun i _ => ?_
      rw [← neg_sub, Complex.normSq_neg]
    · unfold spinError
      split_ifs
      · congr 1
        refine Finset.sum_congr rfl fun i _ => ?_
        rw [← neg_sub, Complex.normSq_neg]
      · rfl
  · rw [e0]
    have hS := mul_nonneg hf.le (Finset.sum_nonneg hpos)
    constructor
    · intro h
      have h1 : c.fac * (∑ i : Fin n, if c.hasG0 ∧ i.val = 0 then 0 else Complex.normSq (charge a i - charge b i) / c.g2 i) = 0 := by linarith
      have h2 : spinError c a b = 0 := by linarith
      have h3 := (Finset.sum_eq_zero_iff_of_nonneg hpos).1 ((mul_eq_zero.1 h1).resolve_left hf.ne')
      refine ⟨fun i hi => ?_, fun hs i => ?_⟩
      · have := h3 i (Finset.mem_univ i)
        rw [if_neg hi, div_eq_zero_iff, Complex.normSq_eq_zero] at this
        exact sub_eq_zero.1 (this.resolve_right (hc.g2 i hi).ne')
      · unfold spinError at h2
        rw [dif_pos hs, mul_eq_zero] at h2
        have h4 := h2.resolve_left (by positivity)
        have h5 := (Finset.sum_eq_zero_iff_of_nonneg fun i _ => Complex.normSq_nonneg _).1 h4 i (Finset.mem_univ i)
        exact sub_eq_zero.1 (Complex.normSq_eq_zero.1 h5)
    · rintro ⟨h1, h2⟩
      have : ∀ i ∈ Finset.univ, (if c.hasG0 ∧ i.val = 0 then (0 : ℝ) else Complex.normSq (charge a i - charge b i) / c.g2 i) = 0 := by
        intro i _
        split_ifs with h
        · rfl
        · unfold charge
          rw [h1 i h, sub_self, map_zero, zero_div]
      rw [Finset.sum_eq_zero this, mul_zero, zero_add]
      unfold spinError
      split_ifs with hs
      · rw [Finset.sum_eq_zero fun i _ => by rw [h2 hs i, sub_self, map_zero], mul_zero]
      · rfl

/-- A case: one component, two G-vectors; the error of densities that differ by 2 at the second G-vector is `2π · 4`. -/
example : computeError exCfg (s := 1) (fun _ => ![5, 3]) (fun _ => ![7, 1]) = 8 * Real.pi := by
  rw [error_eq]
  unfold inPotentialOf hartreePot spinError charge
  simp [exCfg, Fin.sum_univ_two]
  norm_num
  ring

example (nan : ℂ) : ∃ v e, Pot.hartree nan (List.ofFn exCfg.g2) true 1 1 (Dens.data (s := 1) ((fun _ => ![5, 3]) - fun _ => ![7, 1])) = .ok (v, e) ∧ computeError exCfg (s := 1) (fun _ => ![5, 3]) (fun _ => ![7, 1]) = e + spinError exCfg (s := 1) (fun _ => ![5, 3]) (fun _ => ![7, 1]) :=
  C226_hartree_energy nan exCfg exCfg_valid (.inl rfl) 1 (by simp [exCfg]) _ _

end Verif.Mixing
