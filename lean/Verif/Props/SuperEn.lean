import Verif.Props.Super
import Verif.Model.Pot
import Mathlib.LinearAlgebra.LinearIndependent.Basic

/-!
# Property C202: energies of a supercell are multiples of those of the cell (size consistency)
-/

namespace Verif.Super

open Verif.Lattice Verif.Crystal Verif.Loc Verif.Pot
open scoped ComplexConjugate

/-! ## Specification -/

/-- The energy of a density with coefficients `f` in a potential with coefficients `v`: the integral over the cell of volume `vol`, by the coefficients on a grid of `N` points. -/
noncomputable def energyIn (vol : ℝ) (N n : ℕ) (f v : ℕ → ℂ) : ℂ := (∑ j ∈ Finset.range n, conj (f j) * v j) * ((vol / N / N : ℝ) : ℂ)

/-! ## Plane waves are independent -/

/-- The plane wave of an integer vector as a character. -/
noncomputable def wave (z : Fin 3 → ℤ) : Multiplicative (Fin 3 → ℝ) →* ℂ where
  toFun := fun x => conj (phase x.toAdd z)
  map_one' := by
    show conj (phase (0 : Fin 3 → ℝ) z) = 1
    simp [phase]
  map_mul' := fun x y => by
    show conj (phase (fun i => x.toAdd i + y.toAdd i) z) = _
    rw [phase_add, map_mul]

theorem wave_inj : Function.Injective wave := by
  intro z w h
  funext i
  by_contra hne
  have hd : ((z i - w i : ℤ) : ℝ) ≠ 0 := by
    exact_mod_cast sub_ne_zero.2 hne
  let x : Fin 3 → ℝ := Pi.single i (1 / (2 * ((z i - w i : ℤ) : ℝ)))
  have h1 : conj (phase x z) = conj (phase x w) := DFunLike.congr_fun h (Multiplicative.ofAdd x)
  have h2 : phase x z = phase x w := (starRingEnd ℂ).injective h1
  unfold phase at h2
  have hs : ∀ y : Fin 3 → ℤ, ∑ k, x k * (y k : ℝ) = 1 / (2 * ((z i - w i : ℤ) : ℝ)) * y i := fun y => by
    rw [Finset.sum_eq_single i]
    · simp [x]
    · intro b _ hb
      simp [x, hb]
    · intro hh
      exact absurd (Finset.mem_univ i) hh
  rw [hs, hs, Complex.exp_eq_exp_iff_exists_int] at h2
  obtain ⟨m, hm⟩ := h2
  have h3 : -(2 * Real.pi * Complex.I) * (((1 / (2 * ((z i - w i : ℤ) : ℝ)) * z i - 1 / (2 * ((z i - w i : ℤ) : ℝ)) * w i : ℝ)) : ℂ) = m * (2 * Real.pi * Complex.I) := by
    rw [Complex.ofReal_sub, mul_sub, hm]
    ring
  have h4 : 1 / (2 * ((z i - w i : ℤ) : ℝ)) * z i - 1 / (2 * ((z i - w i : ℤ) : ℝ)) * w i = 1 / 2 := by
    rw [← mul_sub, ← Int.cast_sub]
    field_simp
  rw [h4] at h3
  have h5 : (2 * Real.pi * Complex.I : ℂ) ≠ 0 := by
    simp [Real.pi_ne_zero]
  have h6 : ((-1 / 2 : ℝ) : ℂ) = (m : ℂ) := by
    refine mul_right_cancel₀ h5 ?_
    rw [← h3]
    push_cast
    ring
  have h7 : (-1 / 2 : ℝ) = (m : ℝ) := by exact_mod_cast h6
  have h8 : (-1 : ℤ) = 2 * m := by
    have : (-1 : ℝ) = 2 * (m : ℝ) := by linarith
    exact_mod_cast this
  omega

theorem wave_indep : LinearIndependent ℂ (M := Multiplicative (Fin 3 → ℝ) → ℂ) fun z => (wave z : Multiplicative (Fin 3 → ℝ) → ℂ) :=
  (linearIndependent_monoidHom (Multiplicative (Fin 3 → ℝ)) ℂ).comp wave wave_inj

/-- Two finite sums of plane waves that agree everywhere have the same coefficients. -/
theorem coeff_unique (n n' : ℕ) (G G' : ℕ → Fin 3 → ℤ) (f f' : ℕ → ℂ) (h : ∀ x, synth n' G' f' x = synth n G f x) (z : Fin 3 → ℤ) :
    ∑ j ∈ Finset.range n', (if G' j = z then f' j else 0) = ∑ j ∈ Finset.range n, (if G j = z then f j else 0) := by
  have key : (∑ j ∈ Finset.range n', Finsupp.single (G' j) (f' j) : (Fin 3 → ℤ) →₀ ℂ) = ∑ j ∈ Finset.range n, Finsupp.single (G j) (f j) := by
    refine wave_indep ?_
    rw [map_sum, map_sum]
    funext x
    simp only [Finsupp.linearCombination_single, Finset.sum_apply, Pi.smul_apply, smul_eq_mul]
    exact h x.toAdd
  have := DFunLike.congr_fun key z
  rw [Finsupp.finset_sum_apply, Finsupp.finset_sum_apply] at this
  simpa only [Finsupp.single_apply] using this

/-- Two fields that agree in space: coefficients. -/
structure Pair (n n' : ℕ) (G G' : ℕ → Fin 3 → ℤ) (m : Fin 3 → ℕ) (N N' : ℕ) (f f' : ℕ → ℂ) : Prop where
  on : ∀ j < n, ∀ j' < n', G' j' = scale m (G j) → f' j' / N' = f j / N
  off : ∀ j' < n', (∀ j < n, G' j' ≠ scale m (G j)) → f' j' = 0

theorem scale_inj (m : Fin 3 → ℕ) (hm : ∀ i, 0 < m i) {y z : Fin 3 → ℤ} (h : scale m y = scale m z) : y = z := by
  funext i
  have := congrFun h i
  simp only [scale] at this
  have p : ((m i : ℕ) : ℤ) ≠ 0 := by exact_mod_cast (hm i).ne'
  exact mul_left_cancel₀ p this

/-- Sums over the G-vectors of the two cells. -/
theorem sum_pair {n n' : ℕ} {G G' : ℕ → Fin 3 → ℤ} (hi : ∀ i < n, ∀ j < n, G i = G j → i = j) (hi' : ∀ i < n', ∀ j < n', G' i = G' j → i = j)
    (m : Fin 3 → ℕ) (hm : ∀ i, 0 < m i) (ex : ∀ j, j < n → ∃ j' < n', G' j' = scale m (G j)) (F F' : ℕ → ℂ)
    (on : ∀ j < n, ∀ j' < n', G' j' = scale m (G j) → F' j' = F j) (off : ∀ j' < n', (∀ j < n, G' j' ≠ scale m (G j)) → F' j' = 0) :
    ∑ j ∈ Finset.range n', F' j = ∑ j ∈ Finset.range n, F j := by
  have : ∃ e : ℕ → ℕ, ∀ j, j < n → e j < n' ∧ G' (e j) = scale m (G j) := by
    refine ⟨fun j => if hj : j < n then (ex j hj).choose else 0, fun j hj => ?_⟩
    simp only [dif_pos hj]
    exact (ex j hj).choose_spec
  obtain ⟨e, he⟩ := this
  symm
  refine Finset.sum_of_injOn e (fun i hii j hj h => ?_) (fun j hj => Finset.mem_coe.2 (Finset.mem_range.2 (he j (Finset.mem_range.1 hj)).1)) (fun j' hj' hnot => ?_) (fun j hj => ?_)
  · have hii := Finset.mem_range.1 hii
    have hj := Finset.mem_range.1 hj
    refine hi i hii j hj (scale_inj m hm ?_)
    rw [← (he i hii).2, ← (he j hj).2, h]
  · refine off j' (Finset.mem_range.1 hj') fun j hj hG => hnot ⟨j, Finset.mem_coe.2 (Finset.mem_range.2 hj), hi' _ (he j hj).1 _ (Finset.mem_range.1 hj') ?_⟩
    rw [(he j hj).2, hG]
  · have hj := Finset.mem_range.1 hj
    exact (on j hj _ (he j hj).1 (he j hj).2).symm

/-- Equal in space means equal coefficients. -/
theorem pair_of_space {n n' : ℕ} {G G' : ℕ → Fin 3 → ℤ} (hi : ∀ i < n, ∀ j < n, G i = G j → i = j) (hi' : ∀ i < n', ∀ j < n', G' i = G' j → i = j)
    (m : Fin 3 → ℕ) (hm : ∀ i, 0 < m i) (L L' : Lat) (hx : ∀ X : Vec, L'.cart2cryst X = fun i => L.cart2cryst X i / (m i : ℕ)) (hsurj : ∀ x, ∃ X : Vec, L.cart2cryst X = x)
    (N N' : ℕ) (hN' : N' ≠ 0) (f f' : ℕ → ℂ) (h : ∀ X : Vec, inSpace L' N' n' G' f' X = inSpace L N n G f X) : Pair n n' G G' m N N' f f' := by
  have hs : ∀ y : Fin 3 → ℝ, synth n' G' (fun j => f' j / N') y = synth n (fun j => scale m (G j)) (fun j => f j / N) y := by
    intro y
    obtain ⟨X, hX⟩ := hsurj fun i => m i * y i
    have hm' : ∀ i, (m i : ℝ) ≠ 0 := fun i => by exact_mod_cast (hm i).ne'
    have hy : L'.cart2cryst X = y := by
      rw [hx, hX]
      funext i
      have := hm' i
      field_simp
    have e := h X
    unfold inSpace synth at e
    rw [hy, hX, Finset.sum_div, Finset.sum_div] at e
    unfold synth
    refine Eq.trans (Finset.sum_congr rfl fun j _ => ?_) (e.trans (Finset.sum_congr rfl fun j _ => ?_))
    · ring
    · have : phase (fun i => (m i : ℝ) * y i) (G j) = phase y (scale m (G j)) := by
        have := phase_scale m hm (fun i => (m i : ℝ) * y i) (G j)
        rw [← this]
        congr 1
        funext i
        have := hm' i
        field_simp
      rw [this]
      ring
  have huniq := coeff_unique n n' (fun j => scale m (G j)) G' (fun j => f j / N) (fun j => f' j / N') hs
  have hN : (N' : ℂ) ≠ 0 := by exact_mod_cast hN'
  have left : ∀ j' < n', ∑ j ∈ Finset.range n', (if G' j = G' j' then f' j / N' else 0) = f' j' / N' := fun j' hj' => by
    rw [Finset.sum_eq_single j']
    · rw [if_pos rfl]
    · intro b hb hne
      rw [if_neg]
      exact fun e => hne (hi' b (Finset.mem_range.1 hb) j' hj' e)
    · intro hh
      exact absurd (Finset.mem_range.2 hj') hh
  refine ⟨fun j hj j' hj' hG => ?_, fun j' hj' hG => ?_⟩
  · rw [← left j' hj', huniq (G' j'), Finset.sum_eq_single j]
    · rw [if_pos hG.symm]
    · intro b hb hne
      rw [if_neg]
      exact fun e => hne (hi b (Finset.mem_range.1 hb) j hj (scale_inj m hm (e.trans hG)))
    · intro hh
      exact absurd (Finset.mem_range.2 hj) hh
  · have := left j' hj'
    rw [huniq (G' j'), Finset.sum_eq_zero] at this
    · exact (div_eq_zero_iff.1 this.symm).resolve_right hN
    · intro j hj
      rw [if_neg]
      exact fun e => hG j (Finset.mem_range.1 hj) e.symm

/-- From coefficients to values in space. -/
theorem space_of_pair {n n' : ℕ} {G G' : ℕ → Fin 3 → ℤ} (hi : ∀ i < n, ∀ j < n, G i = G j → i = j) (hi' : ∀ i < n', ∀ j < n', G' i = G' j → i = j)
    (m : Fin 3 → ℕ) (hm : ∀ i, 0 < m i) (ex : ∀ j, j < n → ∃ j' < n', G' j' = scale m (G j)) (L L' : Lat) (hx : ∀ X : Vec, L'.cart2cryst X = fun i => L.cart2cryst X i / (m i : ℕ))
    (N N' : ℕ) (f f' : ℕ → ℂ) (h : Pair n n' G G' m N N' f f') (X : Vec) : inSpace L' N' n' G' f' X = inSpace L N n G f X := by
  unfold inSpace synth
  rw [hx, Finset.sum_div, Finset.sum_div]
  refine sum_pair hi hi' m hm ex _ _ (fun j hj j' hj' hG => ?_) (fun j' hj' hG => ?_)
  · show f' j' * _ / (N' : ℂ) = f j * _ / (N : ℂ)
    rw [mul_div_right_comm, h.on j hj j' hj' hG, hG, phase_scale m hm, mul_div_right_comm]
  · show f' j' * _ / (N' : ℂ) = 0
    rw [h.off j' hj' hG]
    simp

theorem energy_of_pair {n n' : ℕ} {G G' : ℕ → Fin 3 → ℤ} (hi : ∀ i < n, ∀ j < n, G i = G j → i = j) (hi' : ∀ i < n', ∀ j < n', G' i = G' j → i = j)
    (m : Fin 3 → ℕ) (hm : ∀ i, 0 < m i) (ex : ∀ j, j < n → ∃ j' < n', G' j' = scale m (G j)) (N N' : ℕ) (f f' v v' : ℕ → ℂ)
    (h : Pair n n' G G' m N N' f f') (hv : Pair n n' G G' m N N' v v') (vol : ℝ) (M : ℕ) : energyIn (M * vol) N' n' f' v' = M * energyIn vol N n f v := by
  have key : ∑ j ∈ Finset.range n', conj (f' j / N') * (v' j / N') = ∑ j ∈ Finset.range n, conj (f j / N) * (v j / N) := by
    refine sum_pair hi hi' m hm ex _ _ (fun j hj j' hj' hG => ?_) (fun j' hj' hG => ?_)
    · show conj (f' j' / N') * (v' j' / N') = conj (f j / N) * (v j / N)
      rw [h.on j hj j' hj' hG, hv.on j hj j' hj' hG]
    · show conj (f' j' / N') * (v' j' / N') = 0
      rw [h.off j' hj' hG]
      simp
  have c : ∀ (k N : ℕ) (f v : ℕ → ℂ), ∑ j ∈ Finset.range k, conj (f j / N) * (v j / N) = (∑ j ∈ Finset.range k, conj (f j) * v j) * (1 / N / N) := fun k N f v => by
    rw [Finset.sum_mul]
    refine Finset.sum_congr rfl fun j _ => ?_
    rw [map_div₀, Complex.conj_natCast]
    ring
  rw [c, c] at key
  unfold energyIn
  have e1 : ∀ (vol : ℝ) (N : ℕ), ((vol / N / N : ℝ) : ℂ) = (1 / N / N) * (vol : ℂ) := fun vol N => by
    push_cast
    ring
  rw [e1, e1, ← mul_assoc, ← mul_assoc, key]
  push_cast
  ring

/-! ## The setting: a cell and a supercell -/

/-- A crystal, a supercell of it, and the G-vectors of the same cutoff for both. -/
structure Cells (c s : Cryst) (n1 n2 n3 : ℕ) (R R' : Lat) (K : ℝ) (n n' : ℕ) (G G' : ℕ → Fin 3 → ℤ) (N N' : ℕ) : Prop where
  lat : ∃ u A, mkLat u A = .ok c.lat
  gen : genSupercell c n1 n2 n3 = .ok s
  dual : fromReallat c.lat = .ok R
  dual' : fromReallat s.lat = .ok R'
  sph : Sphere R K n G
  sph' : Sphere R' K n' G'
  grid : N ≠ 0
  grid' : N' ≠ 0

theorem Cells.facts {c s : Cryst} {n1 n2 n3 : ℕ} {R R' : Lat} {K : ℝ} {n n' : ℕ} {G G' : ℕ → Fin 3 → ℤ} {N N' : ℕ} (H : Cells c s n1 n2 n3 R R' K n n' G G' N N') :
    (∀ i, 0 < reps n1 n2 n3 i) ∧ s.lat.cellvol = (n1 * n2 * n3 : ℕ) * c.lat.cellvol ∧
    (∀ X : Vec, s.lat.cart2cryst X = fun i => c.lat.cart2cryst X i / (reps n1 n2 n3 i : ℕ)) ∧ (∀ x, ∃ X : Vec, c.lat.cart2cryst X = x) ∧
    (∀ z : Fin 3 → ℤ, R'.norm2Cryst (fun i => (scale (reps n1 n2 n3) z i : ℝ)) = R.norm2Cryst (fun i => (z i : ℝ))) ∧
    (∀ j, j < n → ∃ j' < n', G' j' = scale (reps n1 n2 n3) (G j)) := by
  obtain ⟨u, A, hA⟩ := H.lat
  obtain ⟨hm, hv, hx, hn⟩ := sup_lattice hA H.gen
  refine ⟨hm, hv, hx, fun x => ⟨c.lat.cryst2cart x, ?_⟩, hn R R' H.dual H.dual', fun j hj => ?_⟩
  · obtain ⟨hd, e1, e2, e3, _, _⟩ := mkLat_ok hA
    simp only [Lat.cart2cryst, Lat.cryst2cart, e2, e3]
    rw [Matrix.mulVec_mulVec, Matrix.nonsing_inv_mul _ (isUnit_iff_ne_zero.2 hd), Matrix.one_mulVec]
  · rw [← H.sph'.mem, hn R R' H.dual H.dual', H.sph.mem]
    exact ⟨j, hj, rfl⟩

/-! ## The property -/

/-- **C202a.** Size consistency of energies: if a density and a potential of the supercell take the same values in space as those of the cell, the energy in the supercell is that of the cell times the number of
cells, whatever FFT grids are used for the two. -/
theorem C202_energy {c s : Cryst} {n1 n2 n3 : ℕ} {R R' : Lat} {K : ℝ} {n n' : ℕ} {G G' : ℕ → Fin 3 → ℤ} {N N' : ℕ} (H : Cells c s n1 n2 n3 R R' K n n' G G' N N') (f f' v v' : ℕ → ℂ)
    (hf : ∀ X : Vec, inSpace s.lat N' n' G' f' X = inSpace c.lat N n G f X) (hv : ∀ X : Vec, inSpace s.lat N' n' G' v' X = inSpace c.lat N n G v X) :
    energyIn s.lat.cellvol N' n' f' v' = (n1 * n2 * n3 : ℕ) * energyIn c.lat.cellvol N n f v := by
  obtain ⟨hm, hvol, hx, hsurj, hn, ex⟩ := H.facts
  rw [hvol]
  exact energy_of_pair H.sph.inj H.sph'.inj _ hm ex N N' f f' v v' (pair_of_space H.sph.inj H.sph'.inj _ hm _ _ hx hsurj N N' H.grid' f f' hf)
    (pair_of_space H.sph.inj H.sph'.inj _ hm _ _ hx hsurj N N' H.grid' v v' hv) c.lat.cellvol _

/-- **C202b.** Size consistency of the Hartree term: for every density of the supercell that takes the same values in space as the density of the cell (any number of spin components on either side), the computed
Hartree potential takes the same values in space, and the Hartree energy is multiplied by the number of cells. -/
theorem C202_hartree {c s : Cryst} {n1 n2 n3 : ℕ} {R R' : Lat} {K : ℝ} {n n' : ℕ} {G G' : ℕ → Fin 3 → ℤ} {N N' : ℕ} (H : Cells c s n1 n2 n3 R R' K n n' G G' N N')
    (rho rho' : List (List ℂ)) (hρ : ∀ X : Vec, inSpace s.lat N' n' G' (total rho') X = inSpace c.lat N n G (total rho) X) (nan nan' : ℂ) (norm2 norm2' : List ℝ)
    (hl : norm2.length = n) (hl' : norm2'.length = n') (h2 : ∀ j < n, norm2.getD j 0 = R.norm2Cryst fun i => (G j i : ℝ)) (h2' : ∀ j < n', norm2'.getD j 0 = R'.norm2Cryst fun i => (G' j i : ℝ))
    (v v' : List ℂ) (e e' : ℝ) (ho : hartree nan norm2 true (c.lat.cellvol / N) N rho = .ok (v, e)) (ho' : hartree nan' norm2' true (s.lat.cellvol / N') N' rho' = .ok (v', e')) :
    (∀ X : Vec, inSpace s.lat N' n' G' (fun j => v'.getD j 0) X = inSpace c.lat N n G (fun j => v.getD j 0) X) ∧ e' = (n1 * n2 * n3 : ℕ) * e := by
  obtain ⟨hm, hvol, hx, hsurj, hn, ex⟩ := H.facts
  have unf : ∀ {nan : ℂ} {norm2 : List ℝ} {dv : ℝ} {N : ℕ} {rho : List (List ℂ)} {v : List ℂ} {e : ℝ}, hartree nan norm2 true dv N rho = .ok (v, e) →
      v = hartreeV nan norm2 true rho ∧ e = hartreeEn norm2 rho v dv N := by
    intro nan norm2 dv N rho v e h
    unfold hartree at h
    cases hc : checkRho rho with
    | error er => rw [hc] at h; cases h
    | ok _ =>
      rw [hc] at h
      have := Prod.mk.inj (Except.ok.inj h)
      exact ⟨this.1.symm, by rw [← this.2, this.1]⟩
  obtain ⟨hv, he⟩ := unf ho
  obtain ⟨hv', he'⟩ := unf ho'
  have entry : ∀ (nan : ℂ) (norm2 : List ℝ) (rho : List (List ℂ)) (j : ℕ), j < norm2.length → (0 < j → norm2.getD j 0 ≠ 0) →
      (hartreeV nan norm2 true rho).getD j 0 = if j = 0 then 0 else 4 * Real.pi * total rho j / (norm2.getD j 0 : ℂ) := by
    intro nan norm2 rho j hj hne
    unfold hartreeV
    rw [List.getD_eq_getElem (d := 0) (hn := by simpa using hj), List.getElem_map, List.getElem_range]
    by_cases h0 : j = 0
    · rw [if_pos ⟨rfl, h0⟩, if_pos h0]
    · rw [if_neg (fun hh => h0 hh.2), if_neg (hne (Nat.pos_of_ne_zero h0)), if_neg h0]
  have pos : ∀ {B : Mat} {u : ℝ} {L : Lat} (_ : mkLat u B = .ok L) {n : ℕ} {G : ℕ → Fin 3 → ℤ} (_ : Sphere L K n G) (j : ℕ), j < n → 0 < j → L.norm2Cryst (fun i => (G j i : ℝ)) ≠ 0 := by
    intro B u L hL n G hS j hj h0 hh
    have := (C26_metric u B L hL (fun i => (G j i : ℝ)) 0).2.2.2.2.1 hh
    have hz : G j = G 0 := by
      rw [hS.zero]
      funext i
      have : (G j i : ℝ) = 0 := congrFun this i
      exact_mod_cast this
    have := hS.inj j hj 0 hS.pos hz
    omega
  have ent := fun j hj => entry nan norm2 rho j (hl ▸ hj) (fun h0 => by rw [h2 j hj]; exact pos H.dual H.sph j hj h0)
  have ent' := fun j hj => entry nan' norm2' rho' j (hl' ▸ hj) (fun h0 => by rw [h2' j hj]; exact pos H.dual' H.sph' j hj h0)
  have hp := pair_of_space H.sph.inj H.sph'.inj _ hm _ _ hx hsurj N N' H.grid' _ _ hρ
  have hpv : Pair n n' G G' (reps n1 n2 n3) N N' (fun j => v.getD j 0) (fun j => v'.getD j 0) := by
    refine ⟨fun j hj j' hj' hG => ?_, fun j' hj' hG => ?_⟩
    · show v'.getD j' 0 / (N' : ℂ) = v.getD j 0 / (N : ℂ)
      have hz : j' = 0 ↔ j = 0 := by
        constructor
        · intro h0
          refine H.sph.inj j hj 0 H.sph.pos (scale_inj _ hm ?_)
          rw [← hG, h0, H.sph'.zero, H.sph.zero]
          funext i
          simp [scale]
        · intro h0
          refine H.sph'.inj j' hj' 0 H.sph'.pos ?_
          rw [hG, h0, H.sph'.zero, H.sph.zero]
          funext i
          simp [scale]
      rw [hv, hv', ent j hj, ent' j' hj', if_congr hz rfl rfl, h2 j hj, h2' j' hj', hG, hn]
      by_cases h0 : j = 0
      · rw [if_pos h0, if_pos h0]
        simp
      · rw [if_neg h0, if_neg h0]
        have := hp.on j hj j' hj' hG
        rw [mul_div_assoc, mul_div_assoc, mul_div_assoc, mul_div_assoc, div_right_comm, this, div_right_comm]
    · show v'.getD j' 0 = 0
      rw [hv', ent' j' hj', hp.off j' hj' hG]
      split <;> simp
  refine ⟨space_of_pair H.sph.inj H.sph'.inj _ hm ex _ _ hx N N' _ _ hpv, ?_⟩
  have en : ∀ (norm2 : List ℝ) (rho : List (List ℂ)) (v : List ℂ) (vol : ℝ) (N : ℕ), hartreeEn norm2 rho v (vol / N) N = ((1 / 2 : ℂ) * energyIn vol N norm2.length (total rho) fun j => v.getD j 0).re := by
    intro norm2 rho v vol N
    unfold hartreeEn energyIn
    rw [mul_assoc]
  have k := energy_of_pair H.sph.inj H.sph'.inj _ hm ex N N' _ _ _ _ hp hpv c.lat.cellvol (n1 * n2 * n3)
  rw [he, he', en, en, hl, hl', hvol, k, mul_left_comm, ← Complex.ofReal_natCast, Complex.re_ofReal_mul]

/-- **C202d.** In particular the energy of the starting atomic density of one species in the local potential of another is, in the supercell, that of the cell times the number of cells. -/
theorem C202_local {c s : Cryst} {n1 n2 n3 : ℕ} {R R' : Lat} {K : ℝ} {n n' : ℕ} {G G' : ℕ → Fin 3 → ℤ} {N N' : ℕ} (H : Cells c s n1 n2 n3 R R' K n n' G G' N N')
    (k l : ℕ) (sp sp' sq sq' : Species) (hk : c.atoms[k]? = some sp) (hk' : s.atoms[k]? = some sp') (hl : c.atoms[l]? = some sq) (hl' : s.atoms[l]? = some sq')
    (erf : ℝ → ℝ) (D E : RadialData) :
    energyIn s.lat.cellvol N' n' (rhoAtomic D true (s.lat.cellvol / N') sp'.r G' (len R' G')) (vIon erf E true s.lat.cellvol N' sq'.r G' (len R' G'))
      = (n1 * n2 * n3 : ℕ) * energyIn c.lat.cellvol N n (rhoAtomic D true (c.lat.cellvol / N) sp.r G (len R G)) (vIon erf E true c.lat.cellvol N sq.r G (len R G)) := by
  obtain ⟨u, A, hA⟩ := H.lat
  refine C202_energy H _ _ _ _ (fun X => ?_) (fun X => ?_)
  · exact (C200_same_fields u A c s hA n1 n2 n3 H.gen R R' H.dual H.dual' K n n' G G' H.sph H.sph' N N' H.grid H.grid' k sp sp' hk hk' erf D X).2.2
  · exact (C200_same_fields u A c s hA n1 n2 n3 H.gen R R' H.dual H.dual' K n n' G G' H.sph H.sph' N N' H.grid H.grid' l sq sq' hl hl' erf E X).1

/-- **C202c.** The number of electrons in the supercell is that of the cell times the number of cells. -/
theorem C202_charge {c s : Cryst} {n1 n2 n3 : ℕ} {R R' : Lat} {K : ℝ} {n n' : ℕ} {G G' : ℕ → Fin 3 → ℤ} {N N' : ℕ} (H : Cells c s n1 n2 n3 R R' K n n' G G' N N') (f f' : ℕ → ℂ)
    (hf : ∀ X : Vec, inSpace s.lat N' n' G' f' X = inSpace c.lat N n G f X) :
    f' 0 * ((s.lat.cellvol / N' : ℝ) : ℂ) = (n1 * n2 * n3 : ℕ) * (f 0 * ((c.lat.cellvol / N : ℝ) : ℂ)) := by
  obtain ⟨hm, hvol, hx, hsurj, hn, ex⟩ := H.facts
  have hp := pair_of_space H.sph.inj H.sph'.inj _ hm _ _ hx hsurj N N' H.grid' _ _ hf
  have h0 := hp.on 0 H.sph.pos 0 H.sph'.pos (by
    rw [H.sph'.zero, H.sph.zero]
    funext i
    simp [scale])
  rw [hvol]
  push_cast
  calc f' 0 * ((n1 * n2 * n3) * c.lat.cellvol / N' : ℂ) = (f' 0 / N') * ((n1 * n2 * n3) * c.lat.cellvol) := by ring
    _ = _ := by rw [h0]; ring

/-- A two-atom cell repeated 2 × 3 × 1 with the G-vectors of any cutoff meets the hypotheses, with the starting atomic density as the density. -/
example (ecut : ℝ) (he : 0 < ecut) (D : RadialData) (erf : ℝ → ℝ) : ∃ c s R R' n n' G G', Cells c s 2 3 1 R R' (2 * ecut) n n' G G' 100 700 ∧ ∃ sp sp', c.atoms[0]? = some sp ∧ s.atoms[0]? = some sp' ∧ sp.r.length = 2 ∧
    ∀ X : Vec, inSpace s.lat 700 n' G' (rhoAtomic D true (s.lat.cellvol / (700 : ℕ)) sp'.r G' (len R' G')) X
      = inSpace c.lat 100 n G (rhoAtomic D true (c.lat.cellvol / (100 : ℕ)) sp.r G (len R G)) X := by
  obtain ⟨L, hL⟩ := ((C26_conversions_inverse 2 (Matrix.diagonal ![(2 : ℝ), 3, 4])).1).2 (by simp [Matrix.det_diagonal, Fin.prod_univ_three])
  obtain ⟨s, hs, _, _, _, _, hlen⟩ := (C30_supercell 2 _ ⟨L, [⟨"X", some 4, 4, [0, fun _ => 1 / 2]⟩]⟩ hL 2 3 1).1 (by decide)
  obtain ⟨R, hR, _⟩ := C27_duality _ _ _ hL
  have hsl : ∃ u B, mkLat u B = .ok s.lat := by
    have hs' := hs
    unfold genSupercell at hs'
    generalize hsup : mkLat _ _ = o at hs'
    cases o with
    | error e => cases hs'
    | ok sup => exact ⟨_, _, by rw [← Except.ok.inj hs']; exact hsup⟩
  obtain ⟨u', B', hl'⟩ := hsl
  obtain ⟨R', hR', _⟩ := C27_duality _ _ _ hl'
  obtain ⟨n, G, hS⟩ := sphere_exists _ _ R hR ecut he
  obtain ⟨n', G', hS'⟩ := sphere_exists _ _ R' hR' ecut he
  refine ⟨_, s, R, R', n, n', G, G', ⟨⟨_, _, hL⟩, hs, hR, hR', hS, hS', by norm_num, by norm_num⟩, ?_⟩
  cases ha : s.atoms with
  | nil => rw [ha] at hlen; simp at hlen
  | cons a tl =>
    have h0 : s.atoms[0]? = some a := by rw [ha]; rfl
    exact ⟨_, a, rfl, rfl, rfl, fun X => (C200_same_fields _ _ _ s hL 2 3 1 hs R R' hR hR' _ n n' G G' hS hS' 100 700 (by norm_num) (by norm_num) 0 _ a rfl h0 erf D X).2.2⟩

end Verif.Super
