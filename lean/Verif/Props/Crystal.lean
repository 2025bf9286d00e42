import Mathlib.LinearAlgebra.Matrix.ToLin
import Verif.Model.Crystal
import Verif.Props.Lattice

/-!
# Property C30: supercells
-/

namespace Verif.Crystal

open Verif.Lattice Matrix

/-- Cartesian positions of a species in a lattice — basis_atoms.py:139-142. -/
noncomputable def cartPos (L : Lat) (s : Species) : List Vec := s.r.map L.cryst2cart

theorem gridPts_length (n1 n2 n3 : ℕ) : (gridPts n1 n2 n3).length = n1 * n2 * n3 := by
  unfold gridPts
  simp only [List.length_flatMap, List.length_map, List.length_range, List.map_const', List.sum_replicate,
    smul_eq_mul]
  ring

theorem mem_gridPts (n1 n2 n3 : ℕ) (t : Vec) : t ∈ gridPts n1 n2 n3 ↔
    ∃ i < n1, ∃ j < n2, ∃ k < n3, t = ![(i : ℝ), (j : ℝ), (k : ℝ)] := by
  unfold gridPts
  simp only [List.mem_flatMap, List.mem_map, List.mem_range]
  constructor
  · rintro ⟨i, hi, j, hj, k, hk, rfl⟩; exact ⟨i, hi, j, hj, k, hk, rfl⟩
  · rintro ⟨i, hi, j, hj, k, hk, rfl⟩; exact ⟨i, hi, j, hj, k, hk, rfl⟩

theorem det_sup (A : Mat) (n1 n2 n3 : ℕ) :
    (A * Matrix.diagonal ![(n1 : ℝ), n2, n3]).det = A.det * (n1 * n2 * n3) := by
  rw [det_mul, det_diagonal, Fin.prod_univ_three]
  rfl

/-- **C30.** For every crystal and every positive numbers of repeats: the supercell exists, its lattice vector `i` is
`n_i` times the original one and its volume `n1 * n2 * n3` times the original volume; each species keeps its label and
its Cartesian positions are exactly the original positions displaced by every `i a1 + j a2 + k a3` with
`0 ≤ i < n1, 0 ≤ j < n2, 0 ≤ k < n3` (in this order: displacement by displacement, all atoms of the species each
time), so there are `n1 * n2 * n3` times as many atoms. With a repeat of zero the call raises `ValueError`. -/
theorem C30_supercell (u : ℝ) (A : Mat) (c : Cryst) (hc : mkLat u A = .ok c.lat) (n1 n2 n3 : ℕ) :
    (0 < n1 ∧ 0 < n2 ∧ 0 < n3 → ∃ s, genSupercell c n1 n2 n3 = .ok s ∧
      (∀ i, s.lat.axis i = (![(n1 : ℝ), n2, n3] i) • c.lat.axis i) ∧
      s.lat.cellvol = (n1 * n2 * n3 : ℕ) * c.lat.cellvol ∧
      s.atoms.map Species.label = c.atoms.map Species.label ∧
      s.atoms.map (fun sp => cartPos s.lat sp) = c.atoms.map (fun sp =>
        (gridPts n1 n2 n3).flatMap fun t => (cartPos c.lat sp).map fun x =>
          x + (t 0 • c.lat.axis 0 + t 1 • c.lat.axis 1 + t 2 • c.lat.axis 2)) ∧
      s.atoms.map (fun sp => sp.r.length) = c.atoms.map (fun sp => n1 * n2 * n3 * sp.r.length)) ∧
    (n1 = 0 ∨ n2 = 0 ∨ n3 = 0 → genSupercell c n1 n2 n3 = .error .value) := by
  obtain ⟨hd, e1, e2, e3, e4, e5⟩ := mkLat_ok hc
  constructor
  · rintro ⟨h1, h2, h3⟩
    have hn : ((n1 : ℝ) * n2 * n3) ≠ 0 := by positivity
    have hdet : (c.lat.primvec * Matrix.diagonal ![(n1 : ℝ), n2, n3]).det ≠ 0 := by
      rw [det_sup, e2]; exact mul_ne_zero hd hn
    obtain ⟨sup, hsup⟩ : ∃ sup, mkLat (n1 * c.lat.unit) (c.lat.primvec * Matrix.diagonal ![(n1 : ℝ), n2, n3]) = .ok sup :=
      ((C26_conversions_inverse _ _).1).2 hdet
    obtain ⟨_, f1, f2, f3, f4, f5⟩ := mkLat_ok hsup
    have hinv : ∀ v : Vec, sup.cryst2cart (sup.cart2cryst v) = v := by
      intro v
      unfold Lat.cryst2cart Lat.cart2cryst
      rw [mulVec_mulVec, f2, f3, mul_nonsing_inv _ (isUnit_iff_ne_zero.2 hdet), one_mulVec]
    refine ⟨_, by unfold genSupercell; rw [hsup], ?_, ?_, ?_, ?_, ?_⟩
    · intro i
      funext j
      simp only [Lat.axis, f2, mul_diagonal, Pi.smul_apply, smul_eq_mul]
      ring
    · show sup.cellvol = _
      rw [f5, e5, det_sup, e2, abs_mul, abs_of_nonneg (a := (n1 : ℝ) * n2 * n3) (by positivity)]
      push_cast; ring
    · rw [List.map_map]
      apply List.map_congr_left
      intro sp _
      simp only [Function.comp]
      cases sp.pp <;> simp [mkSpecies] <;> split <;> rfl
    · rw [List.map_map]
      apply List.map_congr_left
      intro sp _
      have hr : ∀ l p r, (mkSpecies l p r).r = r := by
        intro l p r; unfold mkSpecies; split <;> rfl
      simp only [Function.comp, cartPos, hr]
      rw [List.map_flatMap]
      congr 1
      funext t
      rw [List.map_map, List.map_map]
      apply List.map_congr_left
      intro r _
      simp only [Function.comp]
      rw [hinv]
      unfold Lat.cryst2cart
      rw [mulVec_add, add_comm]
      congr 1
      funext j
      simp only [mulVec, dotProduct, Fin.sum_univ_three, Lat.axis, Pi.add_apply, Pi.smul_apply, smul_eq_mul]
      ring
    · rw [List.map_map]
      apply List.map_congr_left
      intro sp _
      have hr : ∀ l p r, (mkSpecies l p r).r = r := by
        intro l p r; unfold mkSpecies; split <;> rfl
      simp only [Function.comp, hr, List.length_flatMap, List.length_map, List.map_const', List.sum_replicate,
        smul_eq_mul, gridPts_length]
  · intro h
    have hdet : (c.lat.primvec * Matrix.diagonal ![(n1 : ℝ), n2, n3]).det = 0 := by
      rw [det_sup]
      rcases h with rfl | rfl | rfl <;> simp
    unfold genSupercell mkLat
    rw [if_pos hdet]

/-- **C30 (electrons, partial).** If every species has a pseudopotential, the supercell has `n1 * n2 * n3` times the
electrons. Missing: species given by a plain valence number, see `C30_electrons_fail`. -/
theorem C30_electrons_partial (c s : Cryst) (n1 n2 n3 : ℕ) (h : genSupercell c n1 n2 n3 = .ok s)
    (hpp : ∀ sp ∈ c.atoms, sp.pp = some sp.valence) : s.numel = (n1 * n2 * n3 : ℕ) * c.numel := by
  unfold genSupercell at h
  split at h
  · cases h
  · injection h with h
    subst h
    unfold Cryst.numel
    simp only [List.map_map]
    rw [← List.sum_map_mul_left]
    congr 1
    apply List.map_congr_left
    intro sp hsp
    simp only [Function.comp, mkSpecies, Species.ppArg, hpp sp hsp, List.length_flatMap, List.length_map,
      List.map_const', List.sum_replicate, smul_eq_mul, gridPts_length]
    push_cast; ring

/-- **C30 (violation).** A species given by its number of valence electrons (the documented alternative to a
pseudopotential) gets valence -1 in every supercell: the electron count becomes minus the number of atoms. -/
theorem C30_electrons_fail (L : Lat) (v : ℤ) (r : List Vec) (n1 n2 n3 : ℕ) (s : Cryst)
    (h : genSupercell ⟨L, [mkSpecies "X" (.int v) r]⟩ n1 n2 n3 = .ok s) :
    s.numel = -((n1 * n2 * n3 * r.length : ℕ) : ℤ) := by
  unfold genSupercell at h
  split at h
  · cases h
  · injection h with h
    subst h
    simp only [Cryst.numel, mkSpecies, Species.ppArg, List.map_cons, List.map_nil, List.sum_cons, List.sum_nil,
      List.length_flatMap, List.length_map, List.map_const', List.sum_replicate, smul_eq_mul, gridPts_length]
    push_cast; ring

/-- **C30 (no atom is lost or doubled).** Every integer displacement is, up to supercell lattice vectors, exactly one
of the displacements used. -/
theorem C30_displacements_complete (n1 n2 n3 : ℕ) (h1 : 0 < n1) (h2 : 0 < n2) (h3 : 0 < n3) (z : Fin 3 → ℤ) :
    ∃! t : Vec, t ∈ gridPts n1 n2 n3 ∧ ∃ m : Fin 3 → ℤ, ∀ i, (z i : ℝ) = t i + (m i) * (![(n1 : ℝ), n2, n3] i) := by
  have key : ∀ (n : ℕ) (hn : 0 < n) (a : ℤ), ∃ r < n, ∃ m : ℤ, (a : ℝ) = (r : ℝ) + m * (n : ℝ) := by
    intro n hn a
    have hn' : (0 : ℤ) < n := by exact_mod_cast hn
    refine ⟨(a % n).toNat, by have := Int.emod_nonneg a hn'.ne'; have := Int.emod_lt_of_pos a hn'; omega, a / n, ?_⟩
    have e : a = ((a % n).toNat : ℤ) + (a / n) * n := by
      have := Int.emod_nonneg a hn'.ne'
      rw [Int.toNat_of_nonneg this]
      have := Int.emod_add_mul_ediv a n
      linarith
    exact_mod_cast e
  have uniq : ∀ (n : ℕ) (r r' : ℕ), r < n → r' < n → ∀ m m' : ℤ, (r : ℝ) + m * n = (r' : ℝ) + m' * n → r = r' := by
    intro n r r' hr hr' m m' h
    have h' : (r : ℤ) + m * n = r' + m' * n := by exact_mod_cast h
    have h2 : ((r : ℤ) + m * n) % n = (r' + m' * n) % n := by rw [h']
    rw [Int.add_mul_emod_self_right, Int.add_mul_emod_self_right, Int.emod_eq_of_lt (by omega) (by omega),
      Int.emod_eq_of_lt (by omega) (by omega)] at h2
    exact_mod_cast h2
  obtain ⟨a, ha, ma, ea⟩ := key n1 h1 (z 0)
  obtain ⟨b, hb, mb, eb⟩ := key n2 h2 (z 1)
  obtain ⟨c, hc, mc, ec⟩ := key n3 h3 (z 2)
  refine ⟨![(a : ℝ), b, c], ⟨(mem_gridPts _ _ _ _).2 ⟨a, ha, b, hb, c, hc, rfl⟩, ![ma, mb, mc], ?_⟩, ?_⟩
  · intro i; fin_cases i
    · exact ea
    · exact eb
    · exact ec
  · rintro t ⟨ht, m, hm⟩
    obtain ⟨i, hi, j, hj, k, hk, rfl⟩ := (mem_gridPts _ _ _ _).1 ht
    have g0 : (z 0 : ℝ) = i + m 0 * n1 := hm 0
    have g1 : (z 1 : ℝ) = j + m 1 * n2 := hm 1
    have g2 : (z 2 : ℝ) = k + m 2 * n3 := hm 2
    rw [uniq n1 i a hi ha (m 0) ma (by rw [← g0, ea]), uniq n2 j b hj hb (m 1) mb (by rw [← g1, eb]),
      uniq n3 k c hk hc (m 2) mc (by rw [← g2, ec])]

example : ∃ c : Cryst, mkLat 1 (1 : Mat) = .ok c.lat ∧ c.atoms.length = 2 := by
  obtain ⟨L, hL⟩ := ((C26_conversions_inverse 1 (1 : Mat)).1).2 (by simp)
  exact ⟨⟨L, [mkSpecies "A" (.file 4) [0], mkSpecies "B" (.file 3) [![1/2, 0, 0]]]⟩, hL, rfl⟩

end Verif.Crystal
