import Verif.Props.RotScf
import Verif.Props.TDNorm
import Verif.Props.Pot
import Verif.Props.PotXC

/-!
# C197: the energy of a self-consistent solution is the Kohn-Sham energy of its orbitals
-/

namespace Verif.KSEn

open scoped ComplexConjugate
open Verif.FFT (Driver Dims DrvState ValidIdx)
open Verif.Nonloc Verif.Trans Verif.Pot Verif.Loc Verif.Rot
open Verif.Lattice (Lat Mat mkLat dotCart)

/-! ## Specification -/

/-- Orbitals: for every spin component, k-point and band the coefficients of the plane waves. -/
abbrev Orbs (R : Run) {nk : ℕ} (kp : Fin nk → KPoint) (nb : ℕ) : Type := Fin R.ns → (i : Fin nk) → Fin nb → Fin (kp i).idx.length → ℂ

/-- The electron density of orbitals on the grid. -/
noncomputable def density (R : Run) {nk nb : ℕ} (kp : Fin nk → KPoint) (occ : Fin R.ns → Fin nk → Fin nb → ℝ) (psi : Orbs R kp nb) (s : Fin R.ns) (r : Fin R.d.size) : ℝ :=
  ∑ i, (kp i).w * ∑ b, occ s i b * Complex.normSq (wfR R.drv R.d (kp i).idx R.st (psi s i b) r) / R.cellvol

/-- The kinetic energy of an orbital. -/
noncomputable def kinetic (R : Run) (q : KPoint) (psi : Fin q.idx.length → ℂ) : ℝ := ∑ j, R.L.norm2Cryst (gkv q.G q.k j) / 2 * Complex.normSq (psi j)

/-- The non-local energy of an orbital: `Σ <psi|beta_i> D_ii' <beta_i'|psi>` over the projectors of all species. -/
noncomputable def nonlocal (R : Run) (sp : List Species) (q : KPoint) (psi : Fin q.idx.length → ℂ) : ℝ :=
  ((sp.map fun x => let P := x.nl.proj R.L q.G q.k
    ∑ i ∈ Finset.range P.num, ∑ i' ∈ Finset.range P.num, conj (∑ j, conj (P.vkb i j) * psi j) * P.dij i i' * ∑ k, conj (P.vkb i' k) * psi k).sum).re

/-- The Kohn-Sham energy of orbitals with given occupations, without the energy of the ions among themselves: kinetic and non-local energy of the orbitals, energy of their density in the
ionic potential, and Hartree and exchange-correlation energy of their density (as the code computes them). -/
noncomputable def ksEnergy (R : Run) (sp : List Species) {nk nb : ℕ} (kp : Fin nk → KPoint) (occ : Fin R.ns → Fin nk → Fin nb → ℝ) (psi : Orbs R kp nb) : Except PyErr ℝ :=
  let rho := fun s => R.space.toG fun r => (density R kp occ psi s r : ℂ)
  match hartree R.nan R.norm2 true R.dv R.d.size (List.ofFn fun s => List.ofFn (rho s)), xcCompute R.space R.pos R.exch R.corr rho (R.core sp) with
  | .ok (_, eh), .ok (_, exc) =>
    .ok ((∑ s, ∑ i, (kp i).w * ∑ b, occ s i b * (kinetic R (kp i) (psi s i b) + nonlocal R sp (kp i) (psi s i b)))
      + R.dv * (∑ s, ∑ r, (R.space.toR (R.vion sp) r).re * density R kp occ psi s r) + eh + exc)
  | .error e, _ => .error e
  | .ok _, .error e => .error e

/-- The density's G-vectors hold the differences of the plane waves of every k-point. -/
def Fits (R : Run) {nk : ℕ} (kp : Fin nk → KPoint) : Prop := ∀ i a b, ∃ m, ∀ c, R.G m c = (kp i).G a c - (kp i).G b c

/-! ## Proof -/

theorem space_toR (R : Run) (hv : ValidIdx R.d R.idx) (f : Fin R.idx.length → ℂ) (r : Fin R.d.size) : R.space.toR f r = (R.d.size : ℂ)⁻¹ * ∑ k : Fin R.idx.length, conj (ex (gridDot R.d R.idx[k] r)) * f k := by
  show (R.drv.g2r R.d (FFT.dftKern false R.d) true R.idx R.st (List.ofFn f)).2 r = _
  rw [← wfR_ex R.drv R.d R.idx hv R.st, wfR_eq R.drv R.d R.idx hv, R.drv.g2r_eq R.d _ true R.idx hv R.st R.st.f _ (by simp) r r.2, FFT.fullG2r_eq R.d _ true R.idx hv R.st.f _ (by simp)]
  simp only [FFT.scale, if_true]
  congr 1
  rw [Finset.sum_range]
  refine Finset.sum_congr rfl fun k _ => ?_
  simp

theorem space_toG (R : Run) (hv : ValidIdx R.d R.idx) (u : Fin R.d.size → ℂ) (j : Fin R.idx.length) : R.space.toG u j = ∑ r : Fin R.d.size, ex (gridDot R.d R.idx[j] r) * u r := by
  show (R.drv.r2g R.d (FFT.dftKern true R.d) R.idx R.st _).2.getD j 0 = _
  rw [R.drv.r2g_eq R.d _ R.idx hv R.st R.st.f _ _ (fun _ _ => rfl), FFT.fullR2g_eq, FFT.getD_map _ _ _ j.2, Finset.sum_range]
  refine Finset.sum_congr rfl fun r _ => ?_
  rw [FFT.dft_ker3_fwd]
  simp only [r.2, dif_pos, ex]
  congr 2
  unfold gridDot
  push_cast
  rw [List.getD_eq_getElem (l := R.idx) (d := 0) j.2]
  simp only [Fin.getElem_fin]

theorem laws (R : Run) (hv : ValidIdx R.d R.idx) : R.space.Laws := fft_laws R.drv R.d R.idx hv R.st _ R.dv

theorem toR_smul_add (R : Run) (hv : ValidIdx R.d R.idx) (f g : Fin R.idx.length → ℂ) (a b : ℂ) (r : Fin R.d.size) : R.space.toR (fun j => a * f j + b * g j) r = a * R.space.toR f r + b * R.space.toR g r := by
  simp only [space_toR R hv, Finset.mul_sum, ← Finset.sum_add_distrib]
  exact Finset.sum_congr rfl fun k _ => by ring

/-- Fields on the grid that the density's G-vectors represent. -/
def InRange (R : Run) (u : Fin R.d.size → ℂ) : Prop := ∃ f, ∀ r, u r = R.space.toR f r

theorem InRange.add (R : Run) (hv : ValidIdx R.d R.idx) {u v : Fin R.d.size → ℂ} (a b : ℂ) (hu : InRange R u) (hw : InRange R v) : InRange R fun r => a * u r + b * v r := by
  obtain ⟨f, hf⟩ := hu
  obtain ⟨g, hg⟩ := hw
  exact ⟨fun j => a * f j + b * g j, fun r => by
    show a * u r + b * v r = _
    rw [toR_smul_add R hv, hf, hg]⟩

theorem InRange.zero (R : Run) (hv : ValidIdx R.d R.idx) : InRange R fun _ => 0 := ⟨fun _ => 0, fun r => by rw [space_toR R hv]; simp⟩

theorem InRange.sum (R : Run) (hv : ValidIdx R.d R.idx) {ι : Type*} (t : Finset ι) (c : ι → ℂ) (u : ι → Fin R.d.size → ℂ) (h : ∀ x ∈ t, InRange R (u x)) : InRange R fun r => ∑ x ∈ t, c x * u x r := by
  classical
  induction t using Finset.induction_on with
  | empty => simpa using InRange.zero R hv
  | insert x t hx ih =>
    have := InRange.add R hv (c x) 1 (h x (Finset.mem_insert_self _ _)) (ih fun y hy => h y (Finset.mem_insert_of_mem hy))
    simp only [Finset.sum_insert hx]
    simpa using this

theorem InRange.inv (R : Run) (hv : ValidIdx R.d R.idx) {u : Fin R.d.size → ℂ} (h : InRange R u) (r : Fin R.d.size) : R.space.toR (R.space.toG u) r = u r := by
  obtain ⟨f, hf⟩ := h
  have : u = R.space.toR f := funext hf
  rw [this, (laws R hv).inv]

/-- The product of two plane waves of a k-point. -/
theorem pair_inRange (R : Run) (hv : ValidIdx R.d R.idx) (hix : Indexes R.d R.idx R.G) (q : KPoint) (hq : Indexes R.d q.idx q.G) (a b : Fin q.idx.length) (m : Fin R.idx.length) (hm : ∀ c, R.G m c = q.G a c - q.G b c) :
    InRange R fun r => ex (gridDot R.d q.idx[b] r) * conj (ex (gridDot R.d q.idx[a] r)) := by
  refine ⟨fun j => if j = m then (R.d.size : ℂ) else 0, fun r => ?_⟩
  have hN : (R.d.size : ℂ) ≠ 0 := by
    have := r.2
    have : R.d.size ≠ 0 := by omega
    exact_mod_cast this
  rw [space_toR R hv]
  simp only [mul_ite, mul_zero, Finset.sum_ite_eq', Finset.mem_univ, if_true]
  obtain ⟨m1, h1⟩ := gridDot_pos R.d q.idx[a] r r.2 (q.G a) (hq a)
  obtain ⟨m2, h2⟩ := gridDot_pos R.d q.idx[b] r r.2 (q.G b) (hq b)
  obtain ⟨m3, h3⟩ := gridDot_pos R.d R.idx[m] r r.2 (R.G m) (hix m)
  rw [ex_conj, ex_conj, ← ex_add]
  have e : gridDot R.d q.idx[b] r + -gridDot R.d q.idx[a] r = -gridDot R.d R.idx[m] r + ((m2 - m1 + m3 : ℤ) : ℝ) := by
    rw [h1, h2, h3]
    have : ∑ c, (R.G m c : ℝ) * pos R.d r c = ∑ c, (q.G a c : ℝ) * pos R.d r c - ∑ c, (q.G b c : ℝ) * pos R.d r c := by
      rw [← Finset.sum_sub_distrib]
      refine Finset.sum_congr rfl fun c _ => ?_
      rw [hm c]
      push_cast
      ring
    rw [this]
    push_cast
    ring
  rw [e, ex_int]
  field_simp

theorem normSq_inRange (R : Run) (hv : ValidIdx R.d R.idx) (hix : Indexes R.d R.idx R.G) (q : KPoint) (hqv : ValidIdx R.d q.idx) (hq : Indexes R.d q.idx q.G) (hf : ∀ a b, ∃ m, ∀ c, R.G m c = q.G a c - q.G b c)
    (x y : Fin q.idx.length → ℂ) : InRange R fun r => conj (wfR R.drv R.d q.idx R.st x r) * wfR R.drv R.d q.idx R.st y r := by
  have e : (fun r => conj (wfR R.drv R.d q.idx R.st x r) * wfR R.drv R.d q.idx R.st y r)
      = fun r : Fin R.d.size => ∑ p ∈ (Finset.univ : Finset (Fin q.idx.length × Fin q.idx.length)), (conj (x p.2) * y p.1) * (ex (gridDot R.d q.idx[p.2] r) * conj (ex (gridDot R.d q.idx[p.1] r))) := by
    funext r
    rw [wfR_ex R.drv R.d q.idx hqv, wfR_ex R.drv R.d q.idx hqv, map_sum, Finset.sum_mul_sum, ← Finset.univ_product_univ, Finset.sum_product_right]
    refine Finset.sum_congr rfl fun a _ => Finset.sum_congr rfl fun b _ => ?_
    rw [map_mul, Complex.conj_conj]
    ring
  rw [e]
  refine InRange.sum R hv _ _ _ fun p _ => ?_
  obtain ⟨m, hm⟩ := hf p.1 p.2
  exact pair_inRange R hv hix q hq p.1 p.2 m hm

theorem density_inRange (R : Run) (hv : ValidIdx R.d R.idx) (hix : Indexes R.d R.idx R.G) {nk nb : ℕ} (kp : Fin nk → KPoint) (hqv : ∀ i, ValidIdx R.d (kp i).idx) (hq : ∀ i, Indexes R.d (kp i).idx (kp i).G) (hf : Fits R kp)
    (occ : Fin R.ns → Fin nk → Fin nb → ℝ) (psi : Orbs R kp nb) (s : Fin R.ns) : InRange R fun r => (density R kp occ psi s r : ℂ) := by
  have e : (fun r => (density R kp occ psi s r : ℂ)) = fun r => ∑ i ∈ Finset.univ, ((kp i).w : ℂ) * ∑ b ∈ Finset.univ, ((occ s i b / R.cellvol : ℝ) : ℂ) * (conj (wfR R.drv R.d (kp i).idx R.st (psi s i b) r) * wfR R.drv R.d (kp i).idx R.st (psi s i b) r) := by
    funext r
    unfold density
    push_cast
    refine Finset.sum_congr rfl fun i _ => ?_
    congr 1
    refine Finset.sum_congr rfl fun b _ => ?_
    rw [Complex.normSq_eq_conj_mul_self]
    ring
  rw [e]
  exact InRange.sum R hv _ _ _ fun i _ => InRange.sum R hv _ _ _ fun b _ => normSq_inRange R hv hix (kp i) (hqv i) (hq i) (hf i) _ _

/-- The energy of an orbital in the Hamiltonian: kinetic, non-local and local part. -/
theorem expectation (R : Run) (sp : List Species) (q : KPoint) (hqv : ValidIdx R.d q.idx) (V : Fin R.d.size → ℝ) (x y : Fin q.idx.length → ℂ) :
    ∑ j, conj (x j) * ham R.drv R.d q.idx R.st R.L q.G q.k V (sp.map Species.nl) y j
      = (∑ j, ((R.L.norm2Cryst (gkv q.G q.k j) / 2 : ℝ) : ℂ) * (conj (x j) * y j))
        + (1 / (R.d.size : ℂ)) * (∑ r, (V r : ℂ) * (conj (wfR R.drv R.d q.idx R.st x r) * wfR R.drv R.d q.idx R.st y r))
        + (sp.map fun s => let P := s.nl.proj R.L q.G q.k
            ∑ i ∈ Finset.range P.num, ∑ i' ∈ Finset.range P.num, conj (∑ j, conj (P.vkb i j) * x j) * P.dij i i' * ∑ k, conj (P.vkb i' k) * y k).sum := by
  have h1 : ∀ j, ham R.drv R.d q.idx R.st R.L q.G q.k V (sp.map Species.nl) y j = ∑ k, hamMatrix R.d q.idx (fun j => R.L.norm2Cryst (gkv q.G q.k j)) V ((sp.map Species.nl).map fun x => x.proj R.L q.G q.k) j k * y k := by
    intro j
    unfold ham
    rw [C72_h_psi_is_hamiltonian R.drv R.d q.idx hqv]
  simp only [h1, hamMatrix, add_mul, Finset.sum_add_distrib, mul_add]
  congr 1
  · congr 1
    · refine Finset.sum_congr rfl fun j _ => ?_
      simp only [ite_mul, zero_mul, Finset.sum_ite_eq, Finset.mem_univ, if_true]
      ring
    · have l : ∀ j, conj (x j) * ∑ k, (1 : ℂ) / (R.d.size : ℂ) * (∑ r, (V r : ℂ) * Complex.exp (-((2 : ℂ) * Real.pi * Complex.I) * ((gridDot R.d q.idx[j] r - gridDot R.d q.idx[k] r : ℝ) : ℂ))) * y k
          = ∑ r : Fin R.d.size, ∑ k, (1 : ℂ) / (R.d.size : ℂ) * ((V r : ℂ) * (ex (gridDot R.d q.idx[j] r) * conj (x j) * (conj (ex (gridDot R.d q.idx[k] r)) * y k))) := by
        intro j
        rw [Finset.sum_comm, Finset.mul_sum]
        refine Finset.sum_congr rfl fun k _ => ?_
        rw [Finset.mul_sum, Finset.sum_mul, Finset.mul_sum]
        refine Finset.sum_congr rfl fun r _ => ?_
        have : Complex.exp (-((2 : ℂ) * Real.pi * Complex.I) * ((gridDot R.d q.idx[j] r - gridDot R.d q.idx[k] r : ℝ) : ℂ)) = ex (gridDot R.d q.idx[j] r) * conj (ex (gridDot R.d q.idx[k] r)) := by
          rw [ex_conj, ← ex_add, ← sub_eq_add_neg]
          rfl
        rw [this]
        ring
      rw [Finset.sum_congr rfl fun j _ => l j, Finset.sum_comm, Finset.mul_sum]
      refine Finset.sum_congr rfl fun r _ => ?_
      rw [wfR_ex R.drv R.d q.idx hqv, wfR_ex R.drv R.d q.idx hqv, map_sum, Finset.sum_mul_sum, Finset.mul_sum, Finset.mul_sum]
      refine Finset.sum_congr rfl fun j _ => ?_
      rw [Finset.mul_sum, Finset.mul_sum]
      refine Finset.sum_congr rfl fun k _ => ?_
      rw [map_mul, Complex.conj_conj]
  · clear h1
    induction sp with
    | nil => simp
    | cons t l ih =>
      simp only [List.map_cons, List.sum_cons, add_mul, Finset.sum_add_distrib, mul_add] at ih ⊢
      rw [ih]
      congr 1
      simp only [nlMatrix, map_sum, map_mul, Complex.conj_conj, Finset.sum_mul, Finset.mul_sum]
      have c1 : ∀ j : Fin q.idx.length, ∑ k, ∑ i ∈ Finset.range (t.nl.proj R.L q.G q.k).num, ∑ i' ∈ Finset.range (t.nl.proj R.L q.G q.k).num, conj (x j) * ((t.nl.proj R.L q.G q.k).vkb i j * (t.nl.proj R.L q.G q.k).dij i i' * conj ((t.nl.proj R.L q.G q.k).vkb i' k) * y k)
          = ∑ i ∈ Finset.range (t.nl.proj R.L q.G q.k).num, ∑ i' ∈ Finset.range (t.nl.proj R.L q.G q.k).num, ∑ k, conj (x j) * ((t.nl.proj R.L q.G q.k).vkb i j * (t.nl.proj R.L q.G q.k).dij i i' * conj ((t.nl.proj R.L q.G q.k).vkb i' k) * y k) := by
        intro j
        rw [Finset.sum_comm]
        exact Finset.sum_congr rfl fun i _ => Finset.sum_comm
      simp only [c1]
      rw [Finset.sum_comm]
      refine Finset.sum_congr rfl fun i _ => ?_
      rw [Finset.sum_comm]
      refine Finset.sum_congr rfl fun i' _ => ?_
      refine (Finset.sum_comm).trans ?_
      refine Finset.sum_congr rfl fun k _ => Finset.sum_congr rfl fun j _ => ?_
      ring

theorem expectation_self (R : Run) (sp : List Species) (q : KPoint) (hqv : ValidIdx R.d q.idx) (V : Fin R.d.size → ℝ) (x : Fin q.idx.length → ℂ) :
    (∑ j, conj (x j) * ham R.drv R.d q.idx R.st R.L q.G q.k V (sp.map Species.nl) x j).re
      = kinetic R q x + nonlocal R sp q x + 1 / (R.d.size : ℝ) * ∑ r, V r * Complex.normSq (wfR R.drv R.d q.idx R.st x r) := by
  rw [expectation R sp q hqv V x x, Complex.add_re, Complex.add_re]
  have e1 : (∑ j, ((R.L.norm2Cryst (gkv q.G q.k j) / 2 : ℝ) : ℂ) * (conj (x j) * x j)).re = kinetic R q x := by
    unfold kinetic
    rw [Complex.re_sum]
    refine Finset.sum_congr rfl fun j _ => ?_
    rw [← Complex.normSq_eq_conj_mul_self, ← Complex.ofReal_mul, Complex.ofReal_re]
  have e2 : ((1 / (R.d.size : ℂ)) * (∑ r, (V r : ℂ) * (conj (wfR R.drv R.d q.idx R.st x r) * wfR R.drv R.d q.idx R.st x r))).re
      = 1 / (R.d.size : ℝ) * ∑ r, V r * Complex.normSq (wfR R.drv R.d q.idx R.st x r) := by
    have : (1 / (R.d.size : ℂ)) * (∑ r, (V r : ℂ) * (conj (wfR R.drv R.d q.idx R.st x r) * wfR R.drv R.d q.idx R.st x r)) = ((1 / (R.d.size : ℝ) * ∑ r, V r * Complex.normSq (wfR R.drv R.d q.idx R.st x r) : ℝ) : ℂ) := by
      push_cast
      congr 1
      refine Finset.sum_congr rfl fun r _ => ?_
      rw [← Complex.normSq_eq_conj_mul_self]
    rw [this, Complex.ofReal_re]
  rw [e1, e2]
  unfold nonlocal
  ring

theorem norm_wfR (R : Run) (q : KPoint) (hqv : ValidIdx R.d q.idx) (x : Fin q.idx.length → ℂ) :
    ∑ r, Complex.normSq (wfR R.drv R.d q.idx R.st x r) = R.d.size * ∑ j, Complex.normSq (x j) := by
  have h := TDDFT.dot_wfR R.drv R.d q.idx hqv R.st x x
  rw [TDDFT.norm2_dot, TDDFT.norm2_dot] at h
  unfold TDDFT.norm2 at h
  exact_mod_cast h

/-- The number of electrons in the density. -/
theorem density_charge (R : Run) (hdv : R.dv * R.d.size = R.cellvol) (hc : R.cellvol ≠ 0) {nk nb : ℕ} (kp : Fin nk → KPoint) (hqv : ∀ i, ValidIdx R.d (kp i).idx) (occ : Fin R.ns → Fin nk → Fin nb → ℝ) (psi : Orbs R kp nb) (s : Fin R.ns) :
    (∑ r, density R kp occ psi s r) * R.dv = ∑ i, (kp i).w * ∑ b, occ s i b * ∑ j, Complex.normSq (psi s i b j) := by
  unfold density
  rw [Finset.sum_comm, Finset.sum_mul]
  refine Finset.sum_congr rfl fun i _ => ?_
  rw [← Finset.mul_sum, mul_assoc, Finset.sum_comm, Finset.sum_mul]
  congr 1
  refine Finset.sum_congr rfl fun b _ => ?_
  rw [← Finset.sum_div, ← Finset.mul_sum, norm_wfR R (kp i) (hqv i)]
  rw [div_mul_eq_mul_div, div_eq_iff hc, ← hdv]
  ring

theorem toG_zero (R : Run) (hv : ValidIdx R.d R.idx) (hix : Indexes R.d R.idx R.G) (j0 : Fin R.idx.length) (h0 : R.G j0 = 0) (u : Fin R.d.size → ℂ) : R.space.toG u j0 = ∑ r, u r := by
  rw [space_toG R hv]
  refine Finset.sum_congr rfl fun r _ => ?_
  obtain ⟨m, hm⟩ := gridDot_pos R.d R.idx[j0] r r.2 (R.G j0) (hix j0)
  rw [hm, h0, ex_int]
  simp [ex]

/-- The local energy of the orbitals is the integral of the potential times the density. -/
theorem local_energy (R : Run) (hdv : R.dv * R.d.size = R.cellvol) (hc : R.cellvol ≠ 0) {nk nb : ℕ} (kp : Fin nk → KPoint) (occ : Fin R.ns → Fin nk → Fin nb → ℝ) (psi : Orbs R kp nb) (s : Fin R.ns) (V : Fin R.d.size → ℝ) :
    ∑ i, (kp i).w * ∑ b, occ s i b * (1 / (R.d.size : ℝ) * ∑ r, V r * Complex.normSq (wfR R.drv R.d (kp i).idx R.st (psi s i b) r)) = R.dv * ∑ r, V r * density R kp occ psi s r := by
  have hN : (R.d.size : ℝ) ≠ 0 := by
    intro h
    rw [h, mul_zero] at hdv
    exact hc hdv.symm
  have hs : 1 / (R.d.size : ℝ) = R.dv / R.cellvol := by
    rw [← hdv]
    have : R.dv ≠ 0 := by
      intro h
      rw [h, zero_mul] at hdv
      exact hc hdv.symm
    field_simp
  unfold density
  simp only [Finset.mul_sum, hs]
  have c1 : ∑ r : Fin R.d.size, ∑ i : Fin nk, ∑ b : Fin nb, R.dv * (V r * ((kp i).w * (occ s i b * Complex.normSq (wfR R.drv R.d (kp i).idx R.st (psi s i b) r) / R.cellvol)))
      = ∑ i : Fin nk, ∑ b : Fin nb, ∑ r : Fin R.d.size, R.dv * (V r * ((kp i).w * (occ s i b * Complex.normSq (wfR R.drv R.d (kp i).idx R.st (psi s i b) r) / R.cellvol))) := by
    rw [Finset.sum_comm]
    exact Finset.sum_congr rfl fun i _ => Finset.sum_comm
  rw [c1]
  refine Finset.sum_congr rfl fun i _ => Finset.sum_congr rfl fun b _ => Finset.sum_congr rfl fun r _ => ?_
  ring

/-- **C197.** Let the density's G-vectors hold the differences of the plane waves, and the orbitals be normalised with occupations that add up to the number of electrons. Then the energy of a self-consistent
solution (band energies minus the double counting, plus Hartree and exchange-correlation energy), is the Kohn-Sham energy of its orbitals: kinetic, non-local, ionic, Hartree and
exchange-correlation energy; and its density is that of the orbitals. -/
theorem C197_energy_is_kohn_sham (R : Run) (hv : ValidIdx R.d R.idx) (hix : Indexes R.d R.idx R.G) (hzero : ∀ j, j.1 = 0 → R.G j = 0) (hne : 0 < R.idx.length) (hdv : R.dv * R.d.size = R.cellvol) (hcell : R.cellvol ≠ 0) (sp : List Species)
    {nk nb : ℕ} (kp : Fin nk → KPoint) (hqv : ∀ i, ValidIdx R.d (kp i).idx) (hq : ∀ i, Indexes R.d (kp i).idx (kp i).G) (hf : Fits R kp) (X : Sol R kp nb)
    (hnorm : ∀ s i b, ∑ j, Complex.normSq (X.psi s i b j) = 1) (hel : ∑ s, ∑ i, (kp i).w * ∑ b, X.occ s i b = R.numel) (hn0 : R.numel ≠ 0) (h : SelfConsistent R sp kp X) :
    ksEnergy R sp kp X.occ X.psi = .ok X.en ∧ ∀ s r, R.space.toR (X.rho s) r = density R kp X.occ X.psi s r := by
  obtain ⟨vh, vxc, e1, e2, e3, e4, e5, e6⟩ := h
  have hd : ∀ s r, X.dens s r = (density R kp X.occ X.psi s r : ℂ) := by
    intro s r
    unfold Sol.dens density
    push_cast
    rfl
  have hd' : ∀ s, X.dens s = fun r => (density R kp X.occ X.psi s r : ℂ) := fun s => funext (hd s)
  have hsum : (∑ t, R.space.toG (X.dens t) ⟨0, hne⟩) * R.dv = R.numel := by
    simp only [hd', toG_zero R hv hix ⟨0, hne⟩ (hzero _ rfl)]
    rw [Finset.sum_mul, ← hel]
    push_cast
    refine Finset.sum_congr rfl fun s _ => ?_
    have := density_charge R hdv hcell kp hqv X.occ X.psi s
    simp only [hnorm, mul_one] at this
    exact_mod_cast this
  have hrho : ∀ s, X.rho s = R.space.toG fun r => (density R kp X.occ X.psi s r : ℂ) := by
    intro s
    funext j
    rw [e5 s j ⟨0, hne⟩ rfl, hsum, div_self (by exact_mod_cast hn0), one_mul, hd']
  have hback : ∀ s r, R.space.toR (X.rho s) r = density R kp X.occ X.psi s r := by
    intro s r
    rw [hrho]
    exact InRange.inv R hv (density_inRange R hv hix kp hqv hq hf X.occ X.psi s) r
  refine ⟨?_, hback⟩
  unfold ksEnergy
  simp only [← hrho, e1, e2]
  congr 1
  rw [e6]
  congr 2
  have hv3 : ∀ s r, (R.space.toR (fun j => vh.getD j 0) r + vxc s r).re = X.V s r - (R.space.toR (R.vion sp) r).re := by
    intro s r
    have := congrArg Complex.re (e3 s r)
    rw [Complex.ofReal_re, Complex.add_re, Complex.add_re] at this
    rw [Complex.add_re]
    linarith
  have h1 : ((∑ r, ∑ s, (R.space.toR (fun j => vh.getD j 0) r + vxc s r) * R.space.toR (X.rho s) r) * (R.dv : ℂ)).re = R.dv * ∑ s, ∑ r, (X.V s r - (R.space.toR (R.vion sp) r).re) * density R kp X.occ X.psi s r := by
    rw [Complex.re_mul_ofReal, Complex.re_sum, mul_comm, Finset.sum_comm]
    congr 1
    refine Finset.sum_congr rfl fun r _ => ?_
    rw [Complex.re_sum]
    refine Finset.sum_congr rfl fun s _ => ?_
    rw [hback, Complex.re_mul_ofReal, hv3]
  have h2 : (∑ s, ∑ i, ((kp i).w : ℂ) * ∑ b, ((X.eps s i b * X.occ s i b : ℝ) : ℂ)).re
      = (∑ s, ∑ i, (kp i).w * ∑ b, X.occ s i b * (kinetic R (kp i) (X.psi s i b) + nonlocal R sp (kp i) (X.psi s i b))) + R.dv * ∑ s, ∑ r, X.V s r * density R kp X.occ X.psi s r := by
    have eps : ∀ s i b, X.eps s i b = kinetic R (kp i) (X.psi s i b) + nonlocal R sp (kp i) (X.psi s i b) + 1 / (R.d.size : ℝ) * ∑ r, X.V s r * Complex.normSq (wfR R.drv R.d (kp i).idx R.st (X.psi s i b) r) := by
      intro s i b
      rw [← expectation_self R sp (kp i) (hqv i), e4]
      simp only [Pi.smul_apply, smul_eq_mul]
      have : ∑ j, conj (X.psi s i b j) * ((X.eps s i b : ℂ) * X.psi s i b j) = ((X.eps s i b * ∑ j, Complex.normSq (X.psi s i b j) : ℝ) : ℂ) := by
        push_cast
        rw [Finset.mul_sum]
        refine Finset.sum_congr rfl fun j _ => ?_
        rw [Complex.normSq_eq_conj_mul_self]
        ring
      rw [this, Complex.ofReal_re, hnorm, mul_one]
    have : (∑ s, ∑ i, ((kp i).w : ℂ) * ∑ b, ((X.eps s i b * X.occ s i b : ℝ) : ℂ)) = ((∑ s, ∑ i, (kp i).w * ∑ b, X.eps s i b * X.occ s i b : ℝ) : ℂ) := by
      push_cast
      rfl
    rw [this, Complex.ofReal_re, Finset.mul_sum, ← Finset.sum_add_distrib]
    refine Finset.sum_congr rfl fun s _ => ?_
    rw [← local_energy R hdv hcell kp X.occ X.psi s (X.V s), ← Finset.sum_add_distrib]
    refine Finset.sum_congr rfl fun i _ => ?_
    rw [← mul_add, ← Finset.sum_add_distrib]
    congr 1
    refine Finset.sum_congr rfl fun b _ => ?_
    rw [eps]
    ring
  rw [Complex.sub_re, h1, h2]
  simp only [sub_mul, Finset.sum_sub_distrib]
  ring

/-- **C197.** The differences are held when the density's G-vectors are all those up to four times the cutoff of the plane waves. -/
theorem C197_fits_of_cutoff (R : Run) (u : ℝ) (B : Mat) (hL : mkLat u B = .ok R.L) {nk : ℕ} (kp : Fin nk → KPoint) (E : ℝ) (hG : ∀ g : Fin 3 → ℤ, R.L.norm2Cryst (fun c => (g c : ℝ)) ≤ 4 * E → ∃ m, R.G m = g)
    (hk : ∀ i a, R.L.norm2Cryst (gkv (kp i).G (kp i).k a) ≤ E) : Fits R kp := by
  intro i a b
  suffices hle : R.L.norm2Cryst (fun c => (((kp i).G a c - (kp i).G b c : ℤ) : ℝ)) ≤ 4 * E by
    obtain ⟨m, hm⟩ := hG (fun c => (kp i).G a c - (kp i).G b c) hle
    exact ⟨m, fun c => by rw [hm]⟩
  set x := gkv (kp i).G (kp i).k a with hx
  set y := gkv (kp i).G (kp i).k b with hy
  have e : (fun c => (((kp i).G a c - (kp i).G b c : ℤ) : ℝ)) = x - y := by
    funext c
    rw [Pi.sub_apply, hx, hy]
    unfold gkv
    push_cast
    ring
  rw [e]
  have hn : ∀ v, R.L.norm2Cryst v = dotCart (R.L.cryst2cart v) (R.L.cryst2cart v) := fun v => (Lattice.C26_metric u B R.L hL v 0).2.1
  have hlin : ∀ v w c, R.L.cryst2cart (v - w) c = R.L.cryst2cart v c - R.L.cryst2cart w c := by
    intro v w c
    unfold Lat.cryst2cart
    rw [Matrix.mulVec_sub, Pi.sub_apply]
  have h1 := hk i a
  have h2 := hk i b
  rw [← hx] at h1
  rw [← hy] at h2
  rw [hn] at h1 h2 ⊢
  unfold dotCart dotProduct at *
  simp only [hlin, Fin.sum_univ_three] at *
  nlinarith [sq_nonneg (R.L.cryst2cart x 0 + R.L.cryst2cart y 0), sq_nonneg (R.L.cryst2cart x 1 + R.L.cryst2cart y 1), sq_nonneg (R.L.cryst2cart x 2 + R.L.cryst2cart y 2)]

theorem noXC_isLDA (m : ℕ) : IsLDA (noXC m) Set.univ fun _ => 0 where
  family := rfl
  zk := by
    intro ρ s r _
    simp [noXC]
  vrho := by
    intro ρ s r _
    exact ⟨0, hasFDerivAt_const _ _, by simp [noXC]⟩

/-- Two electrons in an empty cubic cell at the k-point (1/4, 0, 1/4): the hypotheses of C197, with a kinetic energy that is not zero. -/
theorem empty_cell (drv : Driver) (st : DrvState ℂ) : ∃ (R : Run) (kp : Fin 1 → KPoint) (X : Sol R kp 1), R.drv = drv ∧ ValidIdx R.d R.idx ∧ Indexes R.d R.idx R.G ∧ (∀ j, j.1 = 0 → R.G j = 0) ∧ 0 < R.idx.length ∧
    R.dv * R.d.size = R.cellvol ∧ R.cellvol ≠ 0 ∧ (∀ i, ValidIdx R.d (kp i).idx) ∧ (∀ i, Indexes R.d (kp i).idx (kp i).G) ∧ Fits R kp ∧ (∀ s i b, ∑ j, Complex.normSq (X.psi s i b j) = 1) ∧
    ∑ s, ∑ i, (kp i).w * ∑ b, X.occ s i b = R.numel ∧ R.numel ≠ 0 ∧ SelfConsistent R [] kp X ∧ (∀ s, kinetic R (kp 0) (X.psi s 0 0) = 1 / 16) ∧
    IsLDA R.exch Set.univ (fun _ => 0) ∧ IsLDA R.corr Set.univ (fun _ => 0) ∧ Norms R.norm2 true ∧ ∀ s r, density R kp X.occ X.psi s r = 1 / 4 := by
  have hd : (1 : Mat).det ≠ 0 := by simp
  obtain ⟨L, hL⟩ : ∃ L, mkLat 1 1 = .ok L := ⟨_, by unfold mkLat; rw [if_neg hd]⟩
  have hn : ∀ v, L.norm2Cryst v = v 0 ^ 2 + v 1 ^ 2 + v 2 ^ 2 := by
    intro v
    rw [(Lattice.C26_metric 1 _ L hL v 0).2.1]
    obtain ⟨-, e1, e2, -⟩ := Lattice.mkLat_ok hL
    unfold Lat.cryst2cart dotCart dotProduct
    rw [e2]
    simp [Fin.sum_univ_three]
    ring
  have hv : ValidIdx ⟨2, 2, 2⟩ [0] := by unfold ValidIdx; decide
  have hix : ∀ G : Fin ([0] : List ℕ).length → Fin 3 → ℤ, (∀ j, G j = 0) → Indexes ⟨2, 2, 2⟩ [0] G := by
    intro G hG j a
    change Fin 1 at j
    have : ∀ (j : Fin 1) (a : Fin 3), coord ⟨2, 2, 2⟩ (([0] : List ℕ)[j]) a = 0 := by decide
    exact ⟨0, by rw [hG, zero_mul, add_zero]; exact (congrArg (Nat.cast : ℕ → ℤ) (this j a)).symm⟩
  let R : Run := ⟨drv, st, L, ⟨2, 2, 2⟩, [0], fun _ => 0, 1, 8, 2, fun _ => 0, 0, 1, one_pos, noXC _, noXC _⟩
  let kp : Fin 1 → KPoint := fun _ => ⟨[0], fun _ => 0, ![1 / 4, 0, 1 / 4], 1⟩
  have hz : ∀ r, R.space.toR (fun _ => 0) r = 0 := by
    intro r
    rw [space_toR R hv]
    simp
  let X0 : Sol R kp 1 := ⟨fun _ _ => 0, fun _ _ => 0, fun _ _ _ _ => 1, fun _ _ _ => 1 / 16, fun _ _ _ => 2, 0, 0, 0⟩
  let rho : Fin 1 → Fin 1 → ℂ := fun s j => R.numel / ((∑ t, R.space.toG (X0.dens t) (0 : Fin 1)) * R.dv) * R.space.toG (X0.dens s) j
  have hxc : xcCompute R.space R.pos R.exch R.corr rho (R.core []) = .ok (fun _ _ => 0, 0) := by
    have e : R.exch.family = .lda := rfl
    have e' : R.corr.family = .lda := rfl
    unfold xcCompute xcAdd
    simp only [e, e', bind, Except.bind, pure, Except.pure]
    simp [R, noXC]
  obtain ⟨vh, eh, hh, hvh⟩ : ∃ vh eh, hartree R.nan R.norm2 true R.dv R.d.size (List.ofFn fun s => List.ofFn (rho s)) = .ok (vh, eh) ∧ ∀ j : Fin R.idx.length, vh.getD j 0 = 0 := by
    refine ⟨hartreeV R.nan R.norm2 true (List.ofFn fun s => List.ofFn (rho s)),
      hartreeEn R.norm2 (List.ofFn fun s => List.ofFn (rho s)) (hartreeV R.nan R.norm2 true (List.ofFn fun s => List.ofFn (rho s))) R.dv R.d.size, ?_, ?_⟩
    · unfold hartree checkRho
      simp
    · intro j
      have : (j : ℕ) = 0 := Nat.lt_one_iff.1 j.2
      rw [this]
      unfold hartreeV Run.norm2
      simp [R]
  have hz' : ∀ r, R.space.toR (fun j => vh.getD j 0) r = 0 := by
    intro r
    rw [show (fun j : Fin R.idx.length => vh.getD j 0) = fun _ => 0 from funext hvh]
    exact hz r
  let X : Sol R kp 1 := ⟨rho, fun _ _ => 0, fun _ _ _ _ => 1, fun _ _ _ => 1 / 16, fun _ _ _ => 2, eh, 0, ((∑ s : Fin R.ns, ∑ i, ((kp i).w : ℂ) * ∑ b : Fin 1, ((1 / 16 * 2 : ℝ) : ℂ)) - (∑ r, ∑ s, (R.space.toR (fun j => vh.getD j 0) r + 0) * R.space.toR (rho s) r) * R.dv).re + eh + 0⟩
  have h1 : ∀ (q : Fin ([0] : List ℕ).length → ℝ), ∑ j, q j = q 0 := fun q => Fin.sum_univ_one (fun j : Fin 1 => q j)
  refine ⟨R, kp, X, rfl, hv, hix _ fun _ => rfl, fun _ _ => rfl, Nat.one_pos, ?_, ?_, fun _ => hv, fun _ => hix _ fun _ => rfl, fun _ _ _ => ⟨(0 : Fin 1), fun c => ?_⟩, ?_, ?_, ?_, ⟨vh, _, hh, hxc, ?_, ?_, ?_, rfl⟩, ?_, noXC_isLDA _, noXC_isLDA _, ⟨fun _ => ?_, fun j hj hn0 => ?_⟩, fun s r => ?_⟩
  · norm_num [R, Dims.size]
  · norm_num [R]
  · show (0 : ℤ) = 0 - 0
    norm_num
  · intro s i b
    refine (h1 _).trans ?_
    simp [X]
  · simp [R, X, kp]
  · norm_num [R]
  · intro s r
    rw [hz']
    have : R.space.toR (R.vion []) r = 0 := hz r
    rw [this]
    simp [X]
  · intro s i b
    funext j
    have hw : ∀ u : Fin (⟨2, 2, 2⟩ : Dims).size → ℂ, (∀ r, u r = 0) → wfG drv ⟨2, 2, 2⟩ [0] st u j = 0 := by
      intro u hu
      rw [wfG_eq drv _ _ hv]
      simp [hu]
    show ((1 / 2 * L.norm2Cryst (gkv (kp i).G (kp i).k j) : ℝ) : ℂ) * 1 + wfG drv ⟨2, 2, 2⟩ [0] st (fun r => wfR drv ⟨2, 2, 2⟩ [0] st (fun _ => 1) r * (((0 : ℝ) : ℂ) / _)) j = ((1 / 16 : ℝ) : ℂ) • (1 : ℂ)
    rw [hw _ fun r => by simp, hn]
    simp [gkv, kp]
    norm_num
  · intro s j j0 hj0
    have : j0 = (0 : Fin 1) := Fin.ext hj0
    rw [this]
    rfl
  · intro s
    unfold kinetic
    refine (h1 _).trans ?_
    show L.norm2Cryst (gkv (kp 0).G (kp 0).k 0) / 2 * Complex.normSq 1 = 1 / 16
    rw [hn]
    simp [gkv, kp]
    norm_num
  · show (List.ofFn fun j : Fin 1 => L.norm2Cryst fun a => ((0 : ℤ) : ℝ)).getD 0 0 = 0
    simp [hn]
  · exact absurd ⟨rfl, by unfold Run.norm2 at hj; simp only [List.length_ofFn] at hj; exact Nat.lt_one_iff.1 hj⟩ hn0
  · unfold density
    rw [Fin.sum_univ_one, Fin.sum_univ_one]
    have : wfR R.drv R.d (kp 0).idx R.st (X.psi s 0 0) r = conj (ex (gridDot R.d 0 r)) * 1 := by
      rw [wfR_ex R.drv R.d (kp 0).idx hv]
      exact Fin.sum_univ_one fun j : Fin 1 => conj (ex (gridDot R.d ([0] : List ℕ)[j] r)) * 1
    rw [this, mul_one, Complex.normSq_conj, Complex.normSq_eq_norm_sq]
    have h2 : ‖ex (gridDot R.d 0 r)‖ = 1 := by
      unfold ex
      rw [Complex.norm_exp]
      simp
    rw [h2]
    show (1 : ℝ) * (2 * 1 ^ 2 / 8) = 1 / 4
    norm_num

end Verif.KSEn
