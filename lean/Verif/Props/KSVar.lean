import Verif.Props.KSEnergy
import Verif.Props.Pot
import Verif.Props.PotCurve

/-!
# C198: the Hamiltonian is the gradient of the energy; self-consistent solutions are stationary
-/

namespace Verif.KSEn

open scoped ComplexConjugate
open Verif.FFT (Driver Dims DrvState ValidIdx)
open Verif.Nonloc Verif.Trans Verif.Pot Verif.Loc Verif.Rot
open Verif.Lattice (Lat Mat mkLat dotCart)

/-- The change of the density in first order. -/
noncomputable def cross (R : Run) {nk nb : ℕ} (kp : Fin nk → KPoint) (occ : Fin R.ns → Fin nk → Fin nb → ℝ) (psi eta : Orbs R kp nb) (s : Fin R.ns) (r : Fin R.d.size) : ℝ :=
  ∑ i, (kp i).w * ∑ b, occ s i b * (2 * (conj (wfR R.drv R.d (kp i).idx R.st (eta s i b) r) * wfR R.drv R.d (kp i).idx R.st (psi s i b) r).re) / R.cellvol

/-- Orbitals moved along a direction. -/
def move {R : Run} {nk nb : ℕ} {kp : Fin nk → KPoint} (psi eta : Orbs R kp nb) (t : ℝ) : Orbs R kp nb := fun s i b j => psi s i b j + (t : ℂ) * eta s i b j

theorem wfR_move (R : Run) (q : KPoint) (hqv : ValidIdx R.d q.idx) (x y : Fin q.idx.length → ℂ) (t : ℂ) (r : Fin R.d.size) :
    wfR R.drv R.d q.idx R.st (fun j => x j + t * y j) r = wfR R.drv R.d q.idx R.st x r + t * wfR R.drv R.d q.idx R.st y r := by
  simp only [wfR_ex R.drv R.d q.idx hqv, Finset.mul_sum, ← Finset.sum_add_distrib]
  exact Finset.sum_congr rfl fun j _ => by ring

theorem normSq_move (x y : ℂ) (t : ℝ) : Complex.normSq (x + (t : ℂ) * y) = Complex.normSq x + t * (2 * (conj y * x).re) + t ^ 2 * Complex.normSq y := by
  rw [Complex.normSq_add, Complex.normSq_mul, Complex.normSq_ofReal, map_mul, Complex.conj_ofReal]
  have : (x * ((t : ℂ) * conj y)).re = t * (conj y * x).re := by
    rw [show x * ((t : ℂ) * conj y) = (t : ℂ) * (conj y * x) by ring, Complex.re_ofReal_mul]
  rw [this]
  ring

theorem density_move (R : Run) {nk nb : ℕ} (kp : Fin nk → KPoint) (hqv : ∀ i, ValidIdx R.d (kp i).idx) (occ : Fin R.ns → Fin nk → Fin nb → ℝ) (psi eta : Orbs R kp nb) (t : ℝ) (s : Fin R.ns) (r : Fin R.d.size) :
    density R kp occ (move psi eta t) s r = density R kp occ psi s r + t * cross R kp occ psi eta s r + t ^ 2 * density R kp occ eta s r := by
  unfold density cross
  simp only [Finset.mul_sum, ← Finset.sum_add_distrib]
  refine Finset.sum_congr rfl fun i _ => Finset.sum_congr rfl fun b _ => ?_
  have : wfR R.drv R.d (kp i).idx R.st (move psi eta t s i b) r = _ := wfR_move R (kp i) (hqv i) (psi s i b) (eta s i b) t r
  rw [this, normSq_move]
  ring

theorem cross_inRange (R : Run) (hv : ValidIdx R.d R.idx) (hix : Indexes R.d R.idx R.G) {nk nb : ℕ} (kp : Fin nk → KPoint) (hqv : ∀ i, ValidIdx R.d (kp i).idx) (hq : ∀ i, Indexes R.d (kp i).idx (kp i).G) (hf : Fits R kp)
    (occ : Fin R.ns → Fin nk → Fin nb → ℝ) (psi eta : Orbs R kp nb) (s : Fin R.ns) : InRange R fun r => (cross R kp occ psi eta s r : ℂ) := by
  have e : (fun r => (cross R kp occ psi eta s r : ℂ)) = fun r => (1 : ℂ) * (density R kp occ (move psi eta 1) s r : ℂ) + (-1) * ((1 : ℂ) * (density R kp occ psi s r : ℂ) + 1 * (density R kp occ eta s r : ℂ)) := by
    funext r
    rw [density_move R kp hqv]
    push_cast
    ring
  rw [e]
  have h := fun p => density_inRange R hv hix kp hqv hq hf occ p s
  exact InRange.add R hv 1 (-1) (h _) (InRange.add R hv 1 1 (h _) (h _))

theorem toG_lin (R : Run) (hv : ValidIdx R.d R.idx) (u v w : Fin R.d.size → ℂ) (a b : ℂ) (j : Fin R.idx.length) : R.space.toG (fun r => u r + a * v r + b * w r) j = R.space.toG u j + a * R.space.toG v j + b * R.space.toG w j := by
  simp only [space_toG R hv, Finset.mul_sum, ← Finset.sum_add_distrib]
  exact Finset.sum_congr rfl fun r _ => by ring

/-- The density in G-space along the direction. -/
theorem toG_move (R : Run) (hv : ValidIdx R.d R.idx) {nk nb : ℕ} (kp : Fin nk → KPoint) (hqv : ∀ i, ValidIdx R.d (kp i).idx) (occ : Fin R.ns → Fin nk → Fin nb → ℝ) (psi eta : Orbs R kp nb) (t : ℝ) (s : Fin R.ns) :
    (R.space.toG fun r => (density R kp occ (move psi eta t) s r : ℂ)) = fun j => (R.space.toG fun r => (density R kp occ psi s r : ℂ)) j + (t : ℂ) * (R.space.toG fun r => (cross R kp occ psi eta s r : ℂ)) j
      + (t : ℂ) ^ 2 * (R.space.toG fun r => (density R kp occ eta s r : ℂ)) j := by
  funext j
  rw [← toG_lin R hv]
  congr 1
  funext r
  rw [density_move R kp hqv]
  push_cast
  ring

/-- The energy of the orbitals in the Hamiltonian without local potential, along a direction. -/
theorem quad_form (R : Run) (sp : List Species) (hD : ∀ x ∈ sp, ∀ b b', x.nl.dij b b' = x.nl.dij b' b) (q : KPoint) (hqv : ValidIdx R.d q.idx) (V : Fin R.d.size → ℝ) (x y : Fin q.idx.length → ℂ) (t : ℝ) :
    (∑ j, conj (x j + (t : ℂ) * y j) * ham R.drv R.d q.idx R.st R.L q.G q.k V (sp.map Species.nl) (fun k => x k + (t : ℂ) * y k) j).re
      = (∑ j, conj (x j) * ham R.drv R.d q.idx R.st R.L q.G q.k V (sp.map Species.nl) x j).re
        + t * (2 * (∑ j, conj (y j) * ham R.drv R.d q.idx R.st R.L q.G q.k V (sp.map Species.nl) x j).re)
        + t ^ 2 * (∑ j, conj (y j) * ham R.drv R.d q.idx R.st R.L q.G q.k V (sp.map Species.nl) y j).re := by
  have hH : ∀ P ∈ (sp.map Species.nl).map fun x => x.proj R.L q.G q.k, HermDij P := by
    intro P hP
    rw [List.map_map, List.mem_map] at hP
    obtain ⟨x, hx, rfl⟩ := hP
    exact C74_hermitian _ _ _ _ _ _ _ (hD x hx)
  have hlin : ∀ j, ham R.drv R.d q.idx R.st R.L q.G q.k V (sp.map Species.nl) (fun k => x k + (t : ℂ) * y k) j = ham R.drv R.d q.idx R.st R.L q.G q.k V (sp.map Species.nl) x j + (t : ℂ) * ham R.drv R.d q.idx R.st R.L q.G q.k V (sp.map Species.nl) y j := by
    intro j
    have := C72_h_psi_linear R.drv R.drv R.d q.idx hqv R.st R.st (fun j => R.L.norm2Cryst (gkv q.G q.k j)) V ((sp.map Species.nl).map fun x => x.proj R.L q.G q.k) x y 1 t j
    simp only [one_mul] at this
    exact this
  have hherm : (∑ j, conj (x j) * ham R.drv R.d q.idx R.st R.L q.G q.k V (sp.map Species.nl) y j).re = (∑ j, conj (y j) * ham R.drv R.d q.idx R.st R.L q.G q.k V (sp.map Species.nl) x j).re := by
    have := C72_h_psi_hermitian R.drv R.d q.idx hqv R.st R.st (fun j => R.L.norm2Cryst (gkv q.G q.k j)) V ((sp.map Species.nl).map fun x => x.proj R.L q.G q.k) hH x y
    have h2 := congrArg Complex.re this
    rw [Complex.conj_re] at h2
    exact h2
  have e : ∑ j, conj (x j + (t : ℂ) * y j) * ham R.drv R.d q.idx R.st R.L q.G q.k V (sp.map Species.nl) (fun k => x k + (t : ℂ) * y k) j
      = ∑ j, conj (x j) * ham R.drv R.d q.idx R.st R.L q.G q.k V (sp.map Species.nl) x j
        + (t : ℂ) * (∑ j, conj (x j) * ham R.drv R.d q.idx R.st R.L q.G q.k V (sp.map Species.nl) y j + ∑ j, conj (y j) * ham R.drv R.d q.idx R.st R.L q.G q.k V (sp.map Species.nl) x j)
        + ((t ^ 2 : ℝ) : ℂ) * ∑ j, conj (y j) * ham R.drv R.d q.idx R.st R.L q.G q.k V (sp.map Species.nl) y j := by
    simp only [hlin, map_add, map_mul, Complex.conj_ofReal, Finset.mul_sum, ← Finset.sum_add_distrib]
    refine Finset.sum_congr rfl fun j _ => ?_
    push_cast
    ring
  rw [e, Complex.add_re, Complex.add_re, Complex.re_ofReal_mul, Complex.re_ofReal_mul, Complex.add_re, hherm]
  ring

theorem total_ofFn {ns n : ℕ} (rho : Fin ns → Fin n → ℂ) (j : Fin n) : total (List.ofFn fun s => List.ofFn (rho s)) j = ∑ s, rho s j := by
  unfold total
  rw [List.map_ofFn, List.sum_ofFn]
  refine Finset.sum_congr rfl fun s _ => ?_
  show (List.ofFn (rho s)).getD j 0 = _
  rw [List.getD_eq_getElem (l := List.ofFn (rho s)) (d := 0) (by simp)]
  simp

/-- The Hartree energy along a curve of densities. -/
theorem hartree_curve (R : Run) (hN : Norms R.norm2 true) (rho del del2 : Fin R.ns → Fin R.idx.length → ℂ) :
    HasDerivAt (fun t : ℝ => hartreeEn R.norm2 (List.ofFn fun s => List.ofFn fun j => rho s j + (t : ℂ) * del s j + (t : ℂ) ^ 2 * del2 s j)
        (hartreeV R.nan R.norm2 true (List.ofFn fun s => List.ofFn fun j => rho s j + (t : ℂ) * del s j + (t : ℂ) ^ 2 * del2 s j)) R.dv R.d.size)
      ((∑ j : Fin R.idx.length, conj ((hartreeV R.nan R.norm2 true (List.ofFn fun s => List.ofFn (rho s))).getD j 0) * ∑ s, del s j) * (R.dv / R.d.size : ℝ)).re 0 := by
  have hl : R.norm2.length = R.idx.length := by unfold Run.norm2; simp
  have hsum : ∀ f : ℕ → ℂ, ∑ j ∈ Finset.range R.norm2.length, f j = ∑ j : Fin R.idx.length, f j := by
    intro f
    rw [hl, Finset.sum_range]
  set rl := List.ofFn fun s => List.ofFn (rho s) with hrl
  set d1 := List.ofFn fun s => List.ofFn (del s) with hd1
  set d2 := List.ofFn fun s => List.ofFn (del2 s) with hd2
  set E := fun l : List (List ℂ) => hartreeEn R.norm2 l (hartreeV R.nan R.norm2 true l) R.dv R.d.size with hE
  have k1 : ∀ t : ℝ, E (List.ofFn fun s => List.ofFn fun j => rho s j + (t : ℂ) * del s j + (t : ℂ) ^ 2 * del2 s j)
      = E rl + t * ((∑ j ∈ Finset.range R.norm2.length, conj ((hartreeV R.nan R.norm2 true rl).getD j 0) * total (List.ofFn fun s => List.ofFn fun j => del s j + (t : ℂ) * del2 s j) j) * (R.dv / R.d.size : ℝ)).re
        + t ^ 2 * E (List.ofFn fun s => List.ofFn fun j => del s j + (t : ℂ) * del2 s j) := by
    intro t
    refine C32_potential_is_derivative R.nan R.norm2 true hN R.dv R.d.size rl _ _ t fun j hj => ?_
    rw [hl] at hj
    have a1 := total_ofFn (fun s j => rho s j + (t : ℂ) * del s j + (t : ℂ) ^ 2 * del2 s j) ⟨j, hj⟩
    have a2 := total_ofFn rho ⟨j, hj⟩
    have a3 := total_ofFn (fun s j => del s j + (t : ℂ) * del2 s j) ⟨j, hj⟩
    simp only at a1 a2 a3
    rw [a1, a2, a3, Finset.mul_sum, ← Finset.sum_add_distrib]
    exact Finset.sum_congr rfl fun s _ => by ring
  have k2 : ∀ t : ℝ, E (List.ofFn fun s => List.ofFn fun j => del s j + (t : ℂ) * del2 s j)
      = E d1 + t * ((∑ j ∈ Finset.range R.norm2.length, conj ((hartreeV R.nan R.norm2 true d1).getD j 0) * total d2 j) * (R.dv / R.d.size : ℝ)).re + t ^ 2 * E d2 := by
    intro t
    refine C32_potential_is_derivative R.nan R.norm2 true hN R.dv R.d.size d1 d2 _ t fun j hj => ?_
    rw [hl] at hj
    have a1 := total_ofFn (fun s j => del s j + (t : ℂ) * del2 s j) ⟨j, hj⟩
    have a2 := total_ofFn del ⟨j, hj⟩
    have a3 := total_ofFn del2 ⟨j, hj⟩
    simp only at a1 a2 a3
    rw [a1, a2, a3, Finset.mul_sum, ← Finset.sum_add_distrib]
  set A := ((∑ j : Fin R.idx.length, conj ((hartreeV R.nan R.norm2 true rl).getD j 0) * ∑ s, del s j) * (R.dv / R.d.size : ℝ)).re with hA
  set B := ((∑ j : Fin R.idx.length, conj ((hartreeV R.nan R.norm2 true rl).getD j 0) * ∑ s, del2 s j) * (R.dv / R.d.size : ℝ)).re with hB
  set C := ((∑ j ∈ Finset.range R.norm2.length, conj ((hartreeV R.nan R.norm2 true d1).getD j 0) * total d2 j) * (R.dv / R.d.size : ℝ)).re with hC
  have k3 : ∀ t : ℝ, ((∑ j ∈ Finset.range R.norm2.length, conj ((hartreeV R.nan R.norm2 true rl).getD j 0) * total (List.ofFn fun s => List.ofFn fun j => del s j + (t : ℂ) * del2 s j) j) * (R.dv / R.d.size : ℝ)).re = A + t * B := by
    intro t
    rw [hsum, hA, hB, ← Complex.re_ofReal_mul, ← Complex.add_re]
    congr 1
    rw [← mul_assoc, ← add_mul, Finset.mul_sum, ← Finset.sum_add_distrib]
    congr 1
    refine Finset.sum_congr rfl fun j _ => ?_
    rw [total_ofFn, Finset.sum_add_distrib, ← Finset.mul_sum]
    ring
  have hfun : (fun t : ℝ => E (List.ofFn fun s => List.ofFn fun j => rho s j + (t : ℂ) * del s j + (t : ℂ) ^ 2 * del2 s j)) = fun t => E rl + t * (A + t * B) + t ^ 2 * (E d1 + t * C + t ^ 2 * E d2) := by
    funext t
    rw [k1, k2, k3]
  show HasDerivAt (fun t : ℝ => E (List.ofFn fun s => List.ofFn fun j => rho s j + (t : ℂ) * del s j + (t : ℂ) ^ 2 * del2 s j)) A 0
  rw [hfun]
  have i0 := hasDerivAt_id (0 : ℝ)
  have h1 := (i0.mul ((i0.mul_const B).const_add A)).const_add (E rl)
  have h2 := (i0.pow 2).mul (((i0.mul_const C).const_add (E d1)).add ((i0.pow 2).mul_const (E d2)))
  refine (h1.add h2).congr_deriv ?_
  simp

/-- The integral of a potential times a real field, in G-space and on the grid. -/
theorem pair_grid (R : Run) (hv : ValidIdx R.d R.idx) (hs : R.d.size ≠ 0) (v : Fin R.idx.length → ℂ) (u : Fin R.d.size → ℝ) :
    ((∑ j, conj (v j) * R.space.toG (fun r => (u r : ℂ)) j) * (R.dv / R.d.size : ℝ)).re = R.dv * ∑ r, (R.space.toR v r).re * u r := by
  have hN : (R.d.size : ℂ) ≠ 0 := by exact_mod_cast hs
  have hN' : (R.d.size : ℝ) ≠ 0 := by exact_mod_cast hs
  have e : ∑ j, conj (v j) * R.space.toG (fun r => (u r : ℂ)) j = (R.d.size : ℂ) * ∑ r, conj (R.space.toR v r) * (u r : ℂ) := by
    simp only [space_toG R hv, space_toR R hv, map_mul, map_sum, Complex.conj_conj, map_inv₀, Complex.conj_natCast, Finset.mul_sum, Finset.sum_mul]
    rw [Finset.sum_comm]
    refine Finset.sum_congr rfl fun r _ => Finset.sum_congr rfl fun j _ => ?_
    field_simp
  rw [e, Complex.re_mul_ofReal, ← Complex.ofReal_natCast, Complex.re_ofReal_mul, Complex.re_sum]
  have : ∑ r, (conj (R.space.toR v r) * (u r : ℂ)).re = ∑ r, (R.space.toR v r).re * u r := by
    refine Finset.sum_congr rfl fun r _ => ?_
    rw [Complex.re_mul_ofReal, Complex.conj_re]
  rw [this]
  field_simp

/-- The local potential the driver makes of the density of the orbitals: ionic, Hartree and exchange-correlation potential. -/
def PotentialOf (R : Run) (sp : List Species) {nk nb : ℕ} (kp : Fin nk → KPoint) (occ : Fin R.ns → Fin nk → Fin nb → ℝ) (psi : Orbs R kp nb) (V : Fin R.ns → Fin R.d.size → ℝ) : Prop :=
  ∃ vh eh vxc exc, hartree R.nan R.norm2 true R.dv R.d.size (List.ofFn fun s => List.ofFn (R.space.toG fun r => (density R kp occ psi s r : ℂ))) = .ok (vh, eh) ∧
    xcCompute R.space R.pos R.exch R.corr (fun s => R.space.toG fun r => (density R kp occ psi s r : ℂ)) (R.core sp) = .ok (vxc, exc) ∧
    ∀ s r, V s r = (R.space.toR (R.vion sp) r + R.space.toR (fun j => vh.getD j 0) r + vxc s r).re

theorem gradient_of_xc (R : Run) (hv : ValidIdx R.d R.idx) (hN : Norms R.norm2 true) (hdv : R.dv * R.d.size = R.cellvol) (hcell : R.cellvol ≠ 0)
    (sp : List Species) (hD : ∀ x ∈ sp, ∀ b b', x.nl.dij b b' = x.nl.dij b' b) {nk nb : ℕ} (kp : Fin nk → KPoint) (hqv : ∀ i, ValidIdx R.d (kp i).idx)
    (occ : Fin R.ns → Fin nk → Fin nb → ℝ) (psi eta : Orbs R kp nb) (V : Fin R.ns → Fin R.d.size → ℝ) (hV : PotentialOf R sp kp occ psi V)
    (hxc : ∃ Exc : ℝ → ℝ, (∀ t : ℝ, ∃ v, xcCompute R.space R.pos R.exch R.corr (fun s j => (R.space.toG fun r => (density R kp occ psi s r : ℂ)) j + (t : ℂ) * (R.space.toG fun r => (cross R kp occ psi eta s r : ℂ)) j
        + (t : ℂ) ^ 2 * (R.space.toG fun r => (density R kp occ eta s r : ℂ)) j) (R.core sp) = .ok (v, Exc t)) ∧
      ∃ v, xcCompute R.space R.pos R.exch R.corr (fun s => R.space.toG fun r => (density R kp occ psi s r : ℂ)) (R.core sp) = .ok (v, Exc 0) ∧
        HasDerivAt Exc (R.dv * ∑ r, ∑ s, (v s r).re * cross R kp occ psi eta s r) 0) :
    ∃ E : ℝ → ℝ, (∀ t, ksEnergy R sp kp occ (move psi eta t) = .ok (E t)) ∧
      HasDerivAt E (2 * ∑ s, ∑ i, (kp i).w * ∑ b, occ s i b * (∑ j, conj (eta s i b j) * ham R.drv R.d (kp i).idx R.st R.L (kp i).G (kp i).k (V s) (sp.map Species.nl) (psi s i b) j).re) 0 := by
  obtain ⟨vh, eh, vxc, exc, e1, e2, e3⟩ := hV
  obtain ⟨Exc, hx1, v, hx2, hx3⟩ := hxc
  have hs : R.d.size ≠ 0 := by
    intro h
    rw [h, Nat.cast_zero, mul_zero] at hdv
    exact hcell hdv.symm
  rw [e2] at hx2
  have hvx : vxc = v := by
    cases hx2
    rfl
  subst hvx
  -- the number of spin components is one or two
  have hns : R.ns = 1 ∨ R.ns = 2 := by
    unfold hartree checkRho at e1
    by_contra hcon
    simp [hcon] at e1
  have hh : ∀ rho : Fin R.ns → Fin R.idx.length → ℂ, hartree R.nan R.norm2 true R.dv R.d.size (List.ofFn fun s => List.ofFn (rho s)) = .ok (hartreeV R.nan R.norm2 true (List.ofFn fun s => List.ofFn (rho s)),
      hartreeEn R.norm2 (List.ofFn fun s => List.ofFn (rho s)) (hartreeV R.nan R.norm2 true (List.ofFn fun s => List.ofFn (rho s))) R.dv R.d.size) := by
    intro rho
    unfold hartree checkRho
    simp [hns]
  have hvh : vh = hartreeV R.nan R.norm2 true (List.ofFn fun s => List.ofFn (R.space.toG fun r => (density R kp occ psi s r : ℂ))) := by
    rw [hh] at e1
    cases e1
    rfl
  set rho := fun s => R.space.toG fun r => (density R kp occ psi s r : ℂ) with hrho
  set del := fun s => R.space.toG fun r => (cross R kp occ psi eta s r : ℂ) with hdel
  set del2 := fun s => R.space.toG fun r => (density R kp occ eta s r : ℂ) with hdel2
  let EH : ℝ → ℝ := fun t => hartreeEn R.norm2 (List.ofFn fun s => List.ofFn fun j => rho s j + (t : ℂ) * del s j + (t : ℂ) ^ 2 * del2 s j)
    (hartreeV R.nan R.norm2 true (List.ofFn fun s => List.ofFn fun j => rho s j + (t : ℂ) * del s j + (t : ℂ) ^ 2 * del2 s j)) R.dv R.d.size
  let H0 := fun (i : Fin nk) (y : Fin (kp i).idx.length → ℂ) => ham R.drv R.d (kp i).idx R.st R.L (kp i).G (kp i).k (fun _ => 0) (sp.map Species.nl) y
  let E1 : ℝ → ℝ := fun t => ∑ s, ∑ i, (kp i).w * ∑ b, occ s i b * (∑ j, conj (move psi eta t s i b j) * H0 i (move psi eta t s i b) j).re
  let EI : ℝ → ℝ := fun t => R.dv * ∑ s, ∑ r, (R.space.toR (R.vion sp) r).re * density R kp occ (move psi eta t) s r
  refine ⟨fun t => E1 t + EI t + EH t + Exc t, fun t => ?_, ?_⟩
  · obtain ⟨vt, hvt⟩ := hx1 t
    unfold ksEnergy
    have hm : (fun s => R.space.toG fun r => (density R kp occ (move psi eta t) s r : ℂ)) = fun s j => rho s j + (t : ℂ) * del s j + (t : ℂ) ^ 2 * del2 s j := funext fun s => toG_move R hv kp hqv occ psi eta t s
    have hm' : ∀ s, (R.space.toG fun r => (density R kp occ (move psi eta t) s r : ℂ)) = fun j => rho s j + (t : ℂ) * del s j + (t : ℂ) ^ 2 * del2 s j := fun s => congrFun hm s
    simp only [hm']
    have hht := hh fun s j => rho s j + (t : ℂ) * del s j + (t : ℂ) ^ 2 * del2 s j
    have hvt' : xcCompute R.space R.pos R.exch R.corr (fun s j => rho s j + (t : ℂ) * del s j + (t : ℂ) ^ 2 * del2 s j) (R.core sp) = .ok (vt, Exc t) := hvt
    rw [hht, hvt']
    show Except.ok _ = Except.ok _
    congr 1
    congr 3
    refine Finset.sum_congr rfl fun s _ => Finset.sum_congr rfl fun i _ => ?_
    congr 1
    refine Finset.sum_congr rfl fun b _ => ?_
    congr 1
    have := expectation_self R sp (kp i) (hqv i) (fun _ => 0) (move psi eta t s i b)
    simp only [zero_mul, Finset.sum_const_zero, mul_zero, add_zero] at this
    exact this.symm
  · have d1 : HasDerivAt E1 (∑ s, ∑ i, (kp i).w * ∑ b, occ s i b * (2 * (∑ j, conj (eta s i b j) * H0 i (psi s i b) j).re)) 0 := by
      refine HasDerivAt.fun_sum fun s _ => HasDerivAt.fun_sum fun i _ => HasDerivAt.const_mul _ (HasDerivAt.fun_sum fun b _ => HasDerivAt.const_mul _ ?_)
      have hq : (fun t : ℝ => (∑ j, conj (move psi eta t s i b j) * H0 i (move psi eta t s i b) j).re) = fun t => _ := funext fun t => quad_form R sp hD (kp i) (hqv i) (fun _ => 0) (psi s i b) (eta s i b) t
      rw [hq]
      exact quadratic_deriv _ _ _
    have d2 : HasDerivAt EI (R.dv * ∑ s, ∑ r, (R.space.toR (R.vion sp) r).re * cross R kp occ psi eta s r) 0 := by
      refine HasDerivAt.const_mul _ (HasDerivAt.fun_sum fun s _ => HasDerivAt.fun_sum fun r _ => HasDerivAt.const_mul _ ?_)
      simp only [density_move R kp hqv]
      exact quadratic_deriv _ _ _
    have d3 : HasDerivAt EH (R.dv * ∑ s, ∑ r, (R.space.toR (fun j => vh.getD j 0) r).re * cross R kp occ psi eta s r) 0 := by
      refine (hartree_curve R hN rho del del2).congr_deriv ?_
      rw [hvh]
      have : ∀ j, ∑ s, del s j = R.space.toG (fun r => ((∑ s, cross R kp occ psi eta s r : ℝ) : ℂ)) j := by
        intro j
        simp only [hdel, space_toG R hv]
        rw [Finset.sum_comm]
        refine Finset.sum_congr rfl fun r _ => ?_
        push_cast
        rw [Finset.mul_sum]
      simp only [this]
      rw [pair_grid R hv hs (fun j => (hartreeV R.nan R.norm2 true (List.ofFn fun s => List.ofFn (rho s))).getD j 0)]
      rw [Finset.sum_comm]
      congr 1
      refine Finset.sum_congr rfl fun r _ => ?_
      rw [Finset.mul_sum]
    refine (((d1.add d2).add d3).add hx3).congr_deriv ?_
    have hloc : ∀ s, ∑ i, (kp i).w * ∑ b, occ s i b * (2 * (1 / (R.d.size : ℝ) * ∑ r, V s r * (conj (wfR R.drv R.d (kp i).idx R.st (eta s i b) r) * wfR R.drv R.d (kp i).idx R.st (psi s i b) r).re)) = R.dv * ∑ r, V s r * cross R kp occ psi eta s r := by
      intro s
      have hsz : 1 / (R.d.size : ℝ) = R.dv / R.cellvol := by
        have hN' : (R.d.size : ℝ) ≠ 0 := by exact_mod_cast hs
        rw [← hdv]
        have : R.dv ≠ 0 := by
          intro h
          rw [h, zero_mul] at hdv
          exact hcell hdv.symm
        field_simp
      unfold cross
      simp only [Finset.mul_sum, hsz]
      have c1 : ∑ r : Fin R.d.size, ∑ i : Fin nk, ∑ b : Fin nb, R.dv * (V s r * ((kp i).w * (occ s i b * (2 * (conj (wfR R.drv R.d (kp i).idx R.st (eta s i b) r) * wfR R.drv R.d (kp i).idx R.st (psi s i b) r).re) / R.cellvol)))
          = ∑ i : Fin nk, ∑ b : Fin nb, ∑ r : Fin R.d.size, R.dv * (V s r * ((kp i).w * (occ s i b * (2 * (conj (wfR R.drv R.d (kp i).idx R.st (eta s i b) r) * wfR R.drv R.d (kp i).idx R.st (psi s i b) r).re) / R.cellvol))) := by
        rw [Finset.sum_comm]
        exact Finset.sum_congr rfl fun i _ => Finset.sum_comm
      rw [c1]
      refine Finset.sum_congr rfl fun i _ => Finset.sum_congr rfl fun b _ => Finset.sum_congr rfl fun r _ => ?_
      ring
    have hsplit : ∀ s i b, (∑ j, conj (eta s i b j) * ham R.drv R.d (kp i).idx R.st R.L (kp i).G (kp i).k (V s) (sp.map Species.nl) (psi s i b) j).re
        = (∑ j, conj (eta s i b j) * H0 i (psi s i b) j).re + 1 / (R.d.size : ℝ) * ∑ r, V s r * (conj (wfR R.drv R.d (kp i).idx R.st (eta s i b) r) * wfR R.drv R.d (kp i).idx R.st (psi s i b) r).re := by
      intro s i b
      have a := expectation R sp (kp i) (hqv i) (V s) (eta s i b) (psi s i b)
      have a0 := expectation R sp (kp i) (hqv i) (fun _ => 0) (eta s i b) (psi s i b)
      simp only [Complex.ofReal_zero, zero_mul, Finset.sum_const_zero, mul_zero, add_zero] at a0
      have : ∑ j, conj (eta s i b j) * ham R.drv R.d (kp i).idx R.st R.L (kp i).G (kp i).k (V s) (sp.map Species.nl) (psi s i b) j
          = ∑ j, conj (eta s i b j) * H0 i (psi s i b) j + ((1 / (R.d.size : ℝ) : ℝ) : ℂ) * ∑ r, (V s r : ℂ) * (conj (wfR R.drv R.d (kp i).idx R.st (eta s i b) r) * wfR R.drv R.d (kp i).idx R.st (psi s i b) r) := by
        rw [a]
        simp only [H0]
        rw [a0]
        push_cast
        ring
      rw [this, Complex.add_re, Complex.re_ofReal_mul]
      congr 2
      rw [Complex.re_sum]
      exact Finset.sum_congr rfl fun r _ => Complex.re_ofReal_mul _ _
    have hVx : ∑ s, R.dv * ∑ r, V s r * cross R kp occ psi eta s r = R.dv * (∑ s, ∑ r, (R.space.toR (R.vion sp) r).re * cross R kp occ psi eta s r) + R.dv * (∑ s, ∑ r, (R.space.toR (fun j => vh.getD j 0) r).re * cross R kp occ psi eta s r)
        + R.dv * ∑ r, ∑ s, (vxc s r).re * cross R kp occ psi eta s r := by
      rw [Finset.sum_comm (s := (Finset.univ : Finset (Fin R.d.size))), ← Finset.mul_sum, ← mul_add, ← mul_add, ← Finset.sum_add_distrib, ← Finset.sum_add_distrib]
      congr 1
      refine Finset.sum_congr rfl fun s _ => ?_
      rw [← Finset.sum_add_distrib, ← Finset.sum_add_distrib]
      refine Finset.sum_congr rfl fun r _ => ?_
      rw [e3, Complex.add_re, Complex.add_re]
      ring
    simp only [hsplit, mul_add, Finset.sum_add_distrib]
    have hl2 : 2 * ∑ s, ∑ i, (kp i).w * ∑ b, occ s i b * (1 / (R.d.size : ℝ) * ∑ r, V s r * (conj (wfR R.drv R.d (kp i).idx R.st (eta s i b) r) * wfR R.drv R.d (kp i).idx R.st (psi s i b) r).re) = ∑ s, R.dv * ∑ r, V s r * cross R kp occ psi eta s r := by
      rw [Finset.mul_sum]
      refine Finset.sum_congr rfl fun s _ => ?_
      rw [← hloc, Finset.mul_sum]
      refine Finset.sum_congr rfl fun i _ => ?_
      rw [← mul_assoc, mul_comm (2 : ℝ), mul_assoc, Finset.mul_sum]
      congr 1
      exact Finset.sum_congr rfl fun b _ => by ring
    rw [hl2, hVx]
    have hk : ∑ s, ∑ i, (kp i).w * ∑ b, occ s i b * (2 * (∑ j, conj (eta s i b j) * H0 i (psi s i b) j).re) = 2 * ∑ s, ∑ i, (kp i).w * ∑ b, occ s i b * (∑ j, conj (eta s i b j) * H0 i (psi s i b) j).re := by
      rw [Finset.mul_sum]
      refine Finset.sum_congr rfl fun s _ => ?_
      rw [Finset.mul_sum]
      refine Finset.sum_congr rfl fun i _ => ?_
      have : ∑ b, occ s i b * (2 * (∑ j, conj (eta s i b j) * H0 i (psi s i b) j).re) = 2 * ∑ b, occ s i b * (∑ j, conj (eta s i b j) * H0 i (psi s i b) j).re := by
        rw [Finset.mul_sum]
        exact Finset.sum_congr rfl fun b _ => by ring
      rw [this]
      ring
    rw [hk]
    ring

/-- The density transformed to G-space and back. -/
theorem back (R : Run) (hv : ValidIdx R.d R.idx) (hix : Indexes R.d R.idx R.G) {nk nb : ℕ} (kp : Fin nk → KPoint) (hqv : ∀ i, ValidIdx R.d (kp i).idx) (hq : ∀ i, Indexes R.d (kp i).idx (kp i).G) (hf : Fits R kp)
    (occ : Fin R.ns → Fin nk → Fin nb → ℝ) (psi : Orbs R kp nb) (s : Fin R.ns) (r : Fin R.d.size) : R.space.toR (R.space.toG fun r => (density R kp occ psi s r : ℂ)) r = density R kp occ psi s r :=
  InRange.inv R hv (density_inRange R hv hix kp hqv hq hf occ psi s) r

/-- **C198.** For local functionals: along every straight path of orbitals with fixed occupations the Kohn-Sham energy is differentiable, and its derivative is `2 Re Σ w f <η|H ψ>` with the Hamiltonian (`KSHam.h_psi`)
whose local potential the driver makes of the density of the orbitals. -/
theorem C198_gradient_lda (R : Run) (hv : ValidIdx R.d R.idx) (hix : Indexes R.d R.idx R.G) (hN : Norms R.norm2 true) (hdv : R.dv * R.d.size = R.cellvol) (hcell : R.cellvol ≠ 0)
    (D : Set (Fin R.ns → ℝ)) (hDo : IsOpen D) (fx fc : (Fin R.ns → ℝ) → ℝ) (hx : IsLDA R.exch D fx) (hc : IsLDA R.corr D fc)
    (sp : List Species) (hD : ∀ x ∈ sp, ∀ b b', x.nl.dij b b' = x.nl.dij b' b) {nk nb : ℕ} (kp : Fin nk → KPoint) (hqv : ∀ i, ValidIdx R.d (kp i).idx) (hq : ∀ i, Indexes R.d (kp i).idx (kp i).G) (hf : Fits R kp)
    (occ : Fin R.ns → Fin nk → Fin nb → ℝ) (psi eta : Orbs R kp nb) (hpos : ∀ s r, 0 < density R kp occ psi s r) (hin : ∀ r, (fun s => density R kp occ psi s r) ∈ D)
    (V : Fin R.ns → Fin R.d.size → ℝ) (hV : PotentialOf R sp kp occ psi V) :
    ∃ E : ℝ → ℝ, (∀ t, ksEnergy R sp kp occ (move psi eta t) = .ok (E t)) ∧
      HasDerivAt E (2 * ∑ s, ∑ i, (kp i).w * ∑ b, occ s i b * (∑ j, conj (eta s i b j) * ham R.drv R.d (kp i).idx R.st R.L (kp i).G (kp i).k (V s) (sp.map Species.nl) (psi s i b) j).re) 0 := by
  have hb := back R hv hix kp hqv hq hf occ
  have hbc : ∀ s r, R.space.toR (R.space.toG fun r => (cross R kp occ psi eta s r : ℂ)) r = cross R kp occ psi eta s r := fun s r => InRange.inv R hv (cross_inRange R hv hix kp hqv hq hf occ psi eta s) r
  refine gradient_of_xc R hv hN hdv hcell sp hD kp hqv occ psi eta V hV ?_
  have := curve_lda R.space (laws R hv) R.pos R.exch R.corr D hDo fx fc hx hc (fun s => R.space.toG fun r => (density R kp occ psi s r : ℂ)) (fun s => R.space.toG fun r => (cross R kp occ psi eta s r : ℂ))
    (fun s => R.space.toG fun r => (density R kp occ eta s r : ℂ)) (R.core sp) (fun s r => by rw [hb, Complex.ofReal_im]) (fun s r => by rw [hb, Complex.ofReal_re]; exact hpos s r)
    (fun r => by simp only [hb, Complex.ofReal_re]; exact hin r) (fun s r => by rw [hbc, Complex.ofReal_im]) (fun s r => by rw [hb, Complex.ofReal_im])
  obtain ⟨E, h1, v, h2, h3⟩ := this
  refine ⟨E, h1, v, h2, h3.congr_deriv ?_⟩
  simp only [hbc, Complex.ofReal_re]
  rfl

/-- The G-vectors determine the grid points. -/
theorem g_inj (R : Run) (hv : ValidIdx R.d R.idx) (hix : Indexes R.d R.idx R.G) : Function.Injective R.G := by
  intro a b h
  have e : R.idx[b] = R.idx[a] := by
    refine eq_of_coord R.d (hv.2 _ (List.getElem_mem _)) (hv.2 _ (List.getElem_mem _)) fun c => ?_
    obtain ⟨m1, h1⟩ := hix a c
    obtain ⟨m2, h2⟩ := hix b c
    refine ⟨m1 - m2, ?_⟩
    rw [h] at h1
    rw [sub_mul]
    linarith
  exact Fin.ext ((List.Nodup.getElem_inj_iff hv.1).1 e).symm

/-- A real field has a real gradient when the G-vectors come in pairs `±G`. -/
theorem realField (R : Run) (hv : ValidIdx R.d R.idx) (hix : Indexes R.d R.idx R.G) (hneg : ∀ j, ∃ j', R.G j' = -R.G j) (u : Fin R.d.size → ℝ) (hu : InRange R fun r => (u r : ℂ)) :
    RealField R.space (R.space.toG fun r => (u r : ℂ)) := by
  choose ν hν using hneg
  have hinj : Function.Injective ν := by
    intro a b h
    have : R.G a = R.G b := by
      have h1 := hν a
      rw [h, hν b] at h1
      exact (neg_injective h1).symm
    exact g_inj R hv hix this
  let e : Equiv.Perm (Fin R.idx.length) := Equiv.ofBijective ν (Finite.injective_iff_bijective.1 hinj)
  have hex : ∀ j (r : Fin R.d.size), ex (gridDot R.d R.idx[ν j] r) = conj (ex (gridDot R.d R.idx[j] r)) := by
    intro j r
    obtain ⟨m1, h1⟩ := gridDot_pos R.d R.idx[ν j] r r.2 (R.G (ν j)) (hix (ν j))
    obtain ⟨m2, h2⟩ := gridDot_pos R.d R.idx[j] r r.2 (R.G j) (hix j)
    rw [ex_conj, h1, h2, ex_int, hν, neg_add, show -(m2 : ℝ) = ((-m2 : ℤ) : ℝ) by push_cast; rfl, ex_int]
    congr 1
    rw [← Finset.sum_neg_distrib]
    refine Finset.sum_congr rfl fun a _ => ?_
    rw [Pi.neg_apply]
    push_cast
    ring
  have hG : ∀ j, R.space.toG (fun r => (u r : ℂ)) (ν j) = conj (R.space.toG (fun r => (u r : ℂ)) j) := by
    intro j
    simp only [space_toG R hv, map_sum, map_mul, Complex.conj_ofReal, hex]
  refine ⟨fun r => ?_, fun c r => ?_⟩
  · rw [InRange.inv R hv hu, Complex.ofReal_im]
  · rw [← Complex.conj_eq_iff_im]
    unfold XCSpace.gradR
    rw [space_toR R hv, map_mul, map_inv₀, Complex.conj_natCast, map_sum]
    congr 1
    have : ∀ k, R.space.g c (ν k) = -R.space.g c k := by
      intro k
      show R.L.cryst2cart (fun a => R.G (ν k) a) c = -R.L.cryst2cart (fun a => R.G k a) c
      rw [hν]
      unfold Lat.cryst2cart
      rw [show (fun a => ((-R.G k) a : ℝ)) = -fun a => (R.G k a : ℝ) from funext fun a => by simp, Matrix.mulVec_neg, Pi.neg_apply]
    refine Eq.trans ?_ (Equiv.sum_comp e fun k : Fin R.idx.length => conj (ex (gridDot R.d R.idx[k] r)) * (R.space.toG (fun r => (u r : ℂ)) k * Complex.I * (R.space.g c k : ℂ)))
    refine Finset.sum_congr rfl fun k _ => ?_
    show _ = conj (ex (gridDot R.d R.idx[ν k] r)) * (R.space.toG (fun r => (u r : ℂ)) (ν k) * Complex.I * (R.space.g c (ν k) : ℂ))
    rw [hex, hG, this]
    simp only [map_mul, Complex.conj_I, Complex.conj_ofReal]
    push_cast
    ring

/-- **C198.** The same for gradient-corrected functionals, without core density. -/
theorem C198_gradient_gga (R : Run) (hv : ValidIdx R.d R.idx) (hix : Indexes R.d R.idx R.G) (hneg : ∀ j, ∃ j', R.G j' = -R.G j) (hN : Norms R.norm2 true) (hdv : R.dv * R.d.size = R.cellvol) (hcell : R.cellvol ≠ 0)
    (D : Set ((Fin R.ns → ℝ) × (Fin (2 * R.ns - 1) → ℝ))) (hDo : IsOpen D) (fx fc : (Fin R.ns → ℝ) × (Fin (2 * R.ns - 1) → ℝ) → ℝ) (hx : IsGGA R.exch D fx) (hc : IsGGA R.corr D fc)
    (sp : List Species) (hcore : ∀ j, R.core sp j = 0) (hD : ∀ x ∈ sp, ∀ b b', x.nl.dij b b' = x.nl.dij b' b) {nk nb : ℕ} (kp : Fin nk → KPoint) (hqv : ∀ i, ValidIdx R.d (kp i).idx) (hq : ∀ i, Indexes R.d (kp i).idx (kp i).G) (hf : Fits R kp)
    (occ : Fin R.ns → Fin nk → Fin nb → ℝ) (psi eta : Orbs R kp nb) (hpos : ∀ s r, 0 < density R kp occ psi s r)
    (hin : ∀ r, (fun s => density R kp occ psi s r, fun k : Fin (2 * R.ns - 1) => sigma R.space (fun s => R.space.toG fun r => (density R kp occ psi s r : ℂ)) R.pos k.1 r) ∈ D)
    (V : Fin R.ns → Fin R.d.size → ℝ) (hV : PotentialOf R sp kp occ psi V) :
    ∃ E : ℝ → ℝ, (∀ t, ksEnergy R sp kp occ (move psi eta t) = .ok (E t)) ∧
      HasDerivAt E (2 * ∑ s, ∑ i, (kp i).w * ∑ b, occ s i b * (∑ j, conj (eta s i b j) * ham R.drv R.d (kp i).idx R.st R.L (kp i).G (kp i).k (V s) (sp.map Species.nl) (psi s i b) j).re) 0 := by
  have hb := back R hv hix kp hqv hq hf occ
  have hci := cross_inRange R hv hix kp hqv hq hf occ psi eta
  have hbc : ∀ s r, R.space.toR (R.space.toG fun r => (cross R kp occ psi eta s r : ℂ)) r = cross R kp occ psi eta s r := fun s r => InRange.inv R hv (hci s) r
  have hdi := fun p s => density_inRange R hv hix kp hqv hq hf occ p s
  have hns : R.ns = 1 ∨ R.ns = 2 := by
    obtain ⟨vh, eh, vxc, exc, e1, -⟩ := hV
    unfold hartree checkRho at e1
    by_contra hcon
    simp [hcon] at e1
  refine gradient_of_xc R hv hN hdv hcell sp hD kp hqv occ psi eta V hV ?_
  have hc0 : R.core sp = fun _ => 0 := funext hcore
  rw [hc0]
  have := curve_gga hns R.space (laws R hv) R.pos R.exch R.corr D hDo fx fc hx hc (fun s => R.space.toG fun r => (density R kp occ psi s r : ℂ)) (fun s => R.space.toG fun r => (cross R kp occ psi eta s r : ℂ))
    (fun s => R.space.toG fun r => (density R kp occ eta s r : ℂ)) (fun s => realField R hv hix hneg _ (hdi psi s)) (fun s r => by rw [hb, Complex.ofReal_re]; exact hpos s r)
    (fun r => by simp only [hb, Complex.ofReal_re]; exact hin r) (fun s => realField R hv hix hneg _ (hci s)) (fun s => realField R hv hix hneg _ (hdi eta s))
  obtain ⟨E, h1, v, h2, h3⟩ := this
  refine ⟨E, fun t => ?_, v, h2, h3.congr_deriv ?_⟩
  · obtain ⟨⟨v', x⟩, h4, h5⟩ := h1 t
    exact ⟨v', by rw [h4, ← h5]⟩
  · simp only [hbc, Complex.ofReal_re]
    rfl

theorem of_self_consistent (R : Run) (hv : ValidIdx R.d R.idx) (sp : List Species) {nk nb : ℕ} (kp : Fin nk → KPoint) (X : Sol R kp nb) (h2 : ∀ s r, R.space.toR (X.rho s) r = density R kp X.occ X.psi s r) (h : SelfConsistent R sp kp X) :
    PotentialOf R sp kp X.occ X.psi X.V ∧ ∀ s, X.rho s = R.space.toG fun r => (density R kp X.occ X.psi s r : ℂ) := by
  have hrho : ∀ s, X.rho s = R.space.toG fun r => (density R kp X.occ X.psi s r : ℂ) := by
    intro s
    rw [← (laws R hv).inv (X.rho s)]
    exact congrArg R.space.toG (funext (h2 s))
  obtain ⟨vh, vxc, e1, e2, e3, e4, e5, e6⟩ := h
  refine ⟨⟨vh, X.eh, vxc, X.exc, ?_, ?_, fun s r => ?_⟩, hrho⟩
  · simp only [← hrho]
    exact e1
  · simp only [← hrho]
    exact e2
  · rw [← e3, Complex.ofReal_re]

theorem stationary (R : Run) (sp : List Species) {nk nb : ℕ} (kp : Fin nk → KPoint) (X : Sol R kp nb) (h : SelfConsistent R sp kp X) (h1 : ksEnergy R sp kp X.occ X.psi = .ok X.en)
    (eta : Orbs R kp nb) (hperp : ∀ s i b, (∑ j, conj (eta s i b j) * X.psi s i b j).re = 0)
    (hg : ∃ E : ℝ → ℝ, (∀ t, ksEnergy R sp kp X.occ (move X.psi eta t) = .ok (E t)) ∧
      HasDerivAt E (2 * ∑ s, ∑ i, (kp i).w * ∑ b, X.occ s i b * (∑ j, conj (eta s i b j) * ham R.drv R.d (kp i).idx R.st R.L (kp i).G (kp i).k (X.V s) (sp.map Species.nl) (X.psi s i b) j).re) 0) :
    ∃ E : ℝ → ℝ, (∀ t, ksEnergy R sp kp X.occ (move X.psi eta t) = .ok (E t)) ∧ E 0 = X.en ∧ HasDerivAt E 0 0 := by
  obtain ⟨vh, vxc, e1, e2, e3, e4, e5, e6⟩ := h
  obtain ⟨E, hE, hd⟩ := hg
  refine ⟨E, hE, ?_, hd.congr_deriv ?_⟩
  · have hm : move X.psi eta 0 = X.psi := by
      funext s i b j
      simp [move]
    have := hE 0
    rw [hm, h1] at this
    exact (Except.ok.inj this).symm
  · have : ∀ s i b, (∑ j, conj (eta s i b j) * ham R.drv R.d (kp i).idx R.st R.L (kp i).G (kp i).k (X.V s) (sp.map Species.nl) (X.psi s i b) j).re = 0 := by
      intro s i b
      rw [e4]
      simp only [Pi.smul_apply, smul_eq_mul]
      rw [show ∑ j, conj (eta s i b j) * ((X.eps s i b : ℂ) * X.psi s i b j) = (X.eps s i b : ℂ) * ∑ j, conj (eta s i b j) * X.psi s i b j by
        rw [Finset.mul_sum]
        exact Finset.sum_congr rfl fun j _ => by ring]
      rw [Complex.re_ofReal_mul, hperp, mul_zero]
    simp only [this, mul_zero, Finset.sum_const_zero]

/-- **C198.** A self-consistent solution is a stationary point of the Kohn-Sham energy (local functionals): a change of the orbitals, at fixed occupations, that keeps each orbital normalised in first order does not
change the energy in first order; and the energy there is the energy of the solution. -/
theorem C198_stationary_lda (R : Run) (hv : ValidIdx R.d R.idx) (hix : Indexes R.d R.idx R.G) (hzero : ∀ j, j.1 = 0 → R.G j = 0) (hne : 0 < R.idx.length) (hN : Norms R.norm2 true) (hdv : R.dv * R.d.size = R.cellvol) (hcell : R.cellvol ≠ 0)
    (D : Set (Fin R.ns → ℝ)) (hDo : IsOpen D) (fx fc : (Fin R.ns → ℝ) → ℝ) (hx : IsLDA R.exch D fx) (hc : IsLDA R.corr D fc)
    (sp : List Species) (hD : ∀ x ∈ sp, ∀ b b', x.nl.dij b b' = x.nl.dij b' b) {nk nb : ℕ} (kp : Fin nk → KPoint) (hqv : ∀ i, ValidIdx R.d (kp i).idx) (hq : ∀ i, Indexes R.d (kp i).idx (kp i).G) (hf : Fits R kp)
    (X : Sol R kp nb) (hnorm : ∀ s i b, ∑ j, Complex.normSq (X.psi s i b j) = 1) (hel : ∑ s, ∑ i, (kp i).w * ∑ b, X.occ s i b = R.numel) (hn0 : R.numel ≠ 0)
    (hpos : ∀ s r, 0 < (R.space.toR (X.rho s) r).re) (hin : ∀ r, (fun s => (R.space.toR (X.rho s) r).re) ∈ D) (h : SelfConsistent R sp kp X)
    (eta : Orbs R kp nb) (hperp : ∀ s i b, (∑ j, conj (eta s i b j) * X.psi s i b j).re = 0) :
    ∃ E : ℝ → ℝ, (∀ t, ksEnergy R sp kp X.occ (move X.psi eta t) = .ok (E t)) ∧ E 0 = X.en ∧ HasDerivAt E 0 0 := by
  obtain ⟨h1, h2⟩ := C197_energy_is_kohn_sham R hv hix hzero hne hdv hcell sp kp hqv hq hf X hnorm hel hn0 h
  refine stationary R sp kp X h h1 eta hperp ?_
  exact C198_gradient_lda R hv hix hN hdv hcell D hDo fx fc hx hc sp hD kp hqv hq hf X.occ X.psi eta (fun s r => by have := hpos s r; rwa [h2, Complex.ofReal_re] at this)
    (fun r => by have := hin r; simp only [h2, Complex.ofReal_re] at this; exact this) X.V (of_self_consistent R hv sp kp X h2 h).1

/-- **C198.** The same for gradient-corrected functionals without core density. -/
theorem C198_stationary_gga (R : Run) (hv : ValidIdx R.d R.idx) (hix : Indexes R.d R.idx R.G) (hneg : ∀ j, ∃ j', R.G j' = -R.G j) (hzero : ∀ j, j.1 = 0 → R.G j = 0) (hne : 0 < R.idx.length) (hN : Norms R.norm2 true)
    (hdv : R.dv * R.d.size = R.cellvol) (hcell : R.cellvol ≠ 0)
    (D : Set ((Fin R.ns → ℝ) × (Fin (2 * R.ns - 1) → ℝ))) (hDo : IsOpen D) (fx fc : (Fin R.ns → ℝ) × (Fin (2 * R.ns - 1) → ℝ) → ℝ) (hx : IsGGA R.exch D fx) (hc : IsGGA R.corr D fc)
    (sp : List Species) (hcore : ∀ j, R.core sp j = 0) (hD : ∀ x ∈ sp, ∀ b b', x.nl.dij b b' = x.nl.dij b' b) {nk nb : ℕ} (kp : Fin nk → KPoint) (hqv : ∀ i, ValidIdx R.d (kp i).idx) (hq : ∀ i, Indexes R.d (kp i).idx (kp i).G) (hf : Fits R kp)
    (X : Sol R kp nb) (hnorm : ∀ s i b, ∑ j, Complex.normSq (X.psi s i b j) = 1) (hel : ∑ s, ∑ i, (kp i).w * ∑ b, X.occ s i b = R.numel) (hn0 : R.numel ≠ 0)
    (hpos : ∀ s r, 0 < (R.space.toR (X.rho s) r).re) (hin : ∀ r, (fun s => (R.space.toR (X.rho s) r).re, fun k : Fin (2 * R.ns - 1) => sigma R.space X.rho R.pos k.1 r) ∈ D) (h : SelfConsistent R sp kp X)
    (eta : Orbs R kp nb) (hperp : ∀ s i b, (∑ j, conj (eta s i b j) * X.psi s i b j).re = 0) :
    ∃ E : ℝ → ℝ, (∀ t, ksEnergy R sp kp X.occ (move X.psi eta t) = .ok (E t)) ∧ E 0 = X.en ∧ HasDerivAt E 0 0 := by
  obtain ⟨h1, h2⟩ := C197_energy_is_kohn_sham R hv hix hzero hne hdv hcell sp kp hqv hq hf X hnorm hel hn0 h
  obtain ⟨h3, h4⟩ := of_self_consistent R hv sp kp X h2 h
  refine stationary R sp kp X h h1 eta hperp ?_
  refine C198_gradient_gga R hv hix hneg hN hdv hcell D hDo fx fc hx hc sp hcore hD kp hqv hq hf X.occ X.psi eta (fun s r => by have := hpos s r; rwa [h2, Complex.ofReal_re] at this) (fun r => ?_) X.V h3
  have := hin r
  simp only [h2, Complex.ofReal_re] at this
  simp only [← h4]
  exact this

/-- Two electrons in an empty cubic cell meet the hypotheses of C198, with a non-zero change of the orbital. -/
example (drv : Driver) (st : DrvState ℂ) : ∃ (R : Run) (kp : Fin 1 → KPoint) (X : Sol R kp 1) (eta : Orbs R kp 1) (E : ℝ → ℝ), R.drv = drv ∧ (∃ s i b j, eta s i b j ≠ 0) ∧
    (∀ t, ksEnergy R [] kp X.occ (move X.psi eta t) = .ok (E t)) ∧ E 0 = X.en ∧ HasDerivAt E 0 0 := by
  obtain ⟨R, kp, X, h1, h2, h3, h4, h5, h6, h7, h8, h9, h10, h11, h12, h13, h14, h15, hx, hc, hN, hden⟩ := empty_cell drv st
  have hb := (C197_energy_is_kohn_sham R h2 h3 h4 h5 h6 h7 [] kp h8 h9 h10 X h11 h12 h13 h14).2
  obtain ⟨E, e1, e2, e3⟩ := C198_stationary_lda R h2 h3 h4 h5 hN h6 h7 Set.univ isOpen_univ _ _ hx hc [] (by simp) kp h8 h9 h10 X h11 h12 h13 (fun s r => by rw [hb, Complex.ofReal_re, hden]; norm_num) (fun _ => trivial) h14
    (fun s i b j => Complex.I * X.psi s i b j) (fun s i b => by
      have : ∑ j, conj (Complex.I * X.psi s i b j) * X.psi s i b j = ((∑ j, Complex.normSq (X.psi s i b j) : ℝ) : ℂ) * -Complex.I := by
        push_cast
        rw [Finset.sum_mul]
        refine Finset.sum_congr rfl fun j _ => ?_
        rw [map_mul, Complex.conj_I, Complex.normSq_eq_conj_mul_self]
        ring
      rw [this, Complex.re_ofReal_mul]
      simp)
  refine ⟨R, kp, X, _, E, h1, ?_, e1, e2, e3⟩
  have hp := h11 ⟨0, R.pos⟩ 0 0
  by_contra hcon
  push Not at hcon
  have : ∀ j, X.psi ⟨0, R.pos⟩ 0 0 j = 0 := by
    intro j
    have := hcon ⟨0, R.pos⟩ 0 0 j
    simpa using this
  simp [this] at hp

end Verif.KSEn
