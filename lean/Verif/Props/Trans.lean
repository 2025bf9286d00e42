import Verif.Props.Nonloc
import Verif.Props.Loc

/-!
# C179: the Kohn–Sham Hamiltonian of a translated crystal
-/

namespace Verif.Trans

open scoped ComplexConjugate
open Verif.FFT (Driver Dims DrvState ValidIdx)
open Verif.Nonloc

/-- The three grid lengths. -/
def len (d : Dims) : Fin 3 → ℕ := ![d.nx, d.ny, d.nz]

/-- The three indices of a grid point. -/
def coord (d : Dims) (r : ℕ) : Fin 3 → ℕ := ![d.ix r, d.iy r, d.iz r]

/-- Grid point `r'` is grid point `r` moved by `s` grid steps, up to a lattice vector. -/
def Moved (d : Dims) (s : Fin 3 → ℤ) (r r' : ℕ) : Prop := ∀ a, ∃ m : ℤ, (coord d r' a : ℤ) = coord d r a + s a + m * len d a

/-- The move in crystal coordinates. -/
noncomputable def vec (d : Dims) (s : Fin 3 → ℤ) : Fin 3 → ℝ := fun a => s a / len d a

/-- The indices of a basis are those of the G-vectors `G` modulo the grid. -/
def Indexes (d : Dims) (idx : List ℕ) (G : Fin idx.length → Fin 3 → ℤ) : Prop := ∀ j a, ∃ m : ℤ, G j a = coord d idx[j] a + m * len d a

/-- `exp (-2πi t·G)` -/
noncomputable def phase (t : Fin 3 → ℝ) (G : Fin 3 → ℤ) : ℂ := Complex.exp (-(2 * Real.pi * Complex.I) * ((∑ a, t a * G a : ℝ) : ℂ))

theorem phase_unit (t : Fin 3 → ℝ) (G : Fin 3 → ℤ) : conj (phase t G) * phase t G = 1 := by
  unfold phase
  rw [gridDot_exp_conj, ← Complex.exp_add, ← Complex.exp_zero]
  congr 1
  push_cast
  ring

/-- The grid point `r` moved. -/
def mv (d : Dims) (s : Fin 3 → ℤ) (r : ℕ) : ℕ :=
  d.flat ((d.ix r + s 0) % (d.nx : ℤ)).toNat ((d.iy r + s 1) % (d.ny : ℤ)).toNat ((d.iz r + s 2) % (d.nz : ℤ)).toNat

theorem flat_lt (d : Dims) {x y z : ℕ} (hx : x < d.nx) (hy : y < d.ny) (hz : z < d.nz) : d.flat x y z < d.size := by
  rw [d.size_eq]
  unfold Dims.flat Dims.plane
  have h1 : y * d.nz + z < d.ny * d.nz := by nlinarith
  have h2 : (x + 1) * (d.ny * d.nz) ≤ d.nx * (d.ny * d.nz) := Nat.mul_le_mul_right _ hx
  rw [Nat.add_mul, Nat.one_mul] at h2
  omega

theorem modlt (n : ℕ) (h : 0 < n) (x : ℤ) : (x % (n : ℤ)).toNat < n := by
  have h1 := Int.emod_nonneg x (show (n : ℤ) ≠ 0 by omega)
  have h2 := Int.emod_lt_of_pos x (show (0 : ℤ) < n by omega)
  omega

theorem mv_spec (d : Dims) (s : Fin 3 → ℤ) (r : ℕ) (hr : r < d.size) : mv d s r < d.size ∧ Moved d s r (mv d s r) := by
  obtain ⟨hx, hy, hz⟩ := d.pos_of_lt hr
  have mx := modlt d.nx hx (d.ix r + s 0)
  have my := modlt d.ny hy (d.iy r + s 1)
  have mz := modlt d.nz hz (d.iz r + s 2)
  refine ⟨flat_lt d mx my mz, fun a => ?_⟩
  have key : ∀ (n : ℕ) (x : ℤ), 0 < n → ∃ m : ℤ, (((x % (n : ℤ)).toNat : ℕ) : ℤ) = x + m * n := by
    intro n x hn
    refine ⟨-(x / n), ?_⟩
    have h1 := Int.emod_nonneg x (show (n : ℤ) ≠ 0 by omega)
    rw [Int.toNat_of_nonneg h1, Int.emod_def]
    ring
  fin_cases a
  · show ∃ m : ℤ, (d.ix (mv d s r) : ℤ) = d.ix r + s 0 + m * d.nx
    unfold mv
    rw [d.ix_flat my mz]
    exact key _ _ hx
  · show ∃ m : ℤ, (d.iy (mv d s r) : ℤ) = d.iy r + s 1 + m * d.ny
    unfold mv
    rw [d.iy_flat my mz]
    exact key _ _ hy
  · show ∃ m : ℤ, (d.iz (mv d s r) : ℤ) = d.iz r + s 2 + m * d.nz
    unfold mv
    rw [d.iz_flat mz]
    exact key _ _ hz

theorem eq_of_coord (d : Dims) {r r' : ℕ} (hr : r < d.size) (hr' : r' < d.size) (h : ∀ a, ∃ m : ℤ, (coord d r' a : ℤ) = coord d r a + m * len d a) : r' = r := by
  obtain ⟨a1, a2, a3, a4⟩ := d.coords hr
  obtain ⟨b1, b2, b3, b4⟩ := d.coords hr'
  have key : ∀ (n x y : ℕ), x < n → y < n → (∃ m : ℤ, (y : ℤ) = x + m * n) → y = x := by
    rintro n x y hx hy ⟨m, h⟩
    have hm : m = 0 := by
      by_contra hne
      rcases lt_or_gt_of_ne hne with h1 | h1
      · have : m * (n : ℤ) ≤ -1 * n := Int.mul_le_mul_of_nonneg_right (by omega) (by omega)
        omega
      · have : 1 * (n : ℤ) ≤ m * n := Int.mul_le_mul_of_nonneg_right (by omega) (by omega)
        omega
    rw [hm] at h
    omega
  rw [← a4, ← b4, key _ _ _ a1 b1 (h 0), key _ _ _ a2 b2 (h 1), key _ _ _ a3 b3 (h 2)]

/-- Moving is a permutation of the grid points. -/
noncomputable def perm (d : Dims) (s : Fin 3 → ℤ) : Equiv.Perm (Fin d.size) :=
  Equiv.ofBijective (fun r => ⟨mv d s r, (mv_spec d s r r.2).1⟩) (by
    rw [← Finite.injective_iff_bijective]
    intro r r' h
    have hm : mv d s r = mv d s r' := congrArg Fin.val h
    apply Fin.ext
    refine eq_of_coord d r'.2 r.2 fun a => ?_
    obtain ⟨m1, h1⟩ := (mv_spec d s r r.2).2 a
    obtain ⟨m2, h2⟩ := (mv_spec d s r' r'.2).2 a
    rw [hm] at h1
    refine ⟨m2 - m1, ?_⟩
    rw [sub_mul]
    omega)

theorem perm_moved (d : Dims) (s : Fin 3 → ℤ) (r : Fin d.size) : Moved d s r (perm d s r) := (mv_spec d s r r.2).2

theorem gridDot_sum (d : Dims) (g r : ℕ) : gridDot d g r = ∑ a, (coord d g a * coord d r a : ℝ) / len d a := by
  unfold gridDot
  rw [Fin.sum_univ_three]
  rfl

theorem len_pos (d : Dims) (r : ℕ) (hr : r < d.size) (a : Fin 3) : (len d a : ℝ) ≠ 0 := by
  obtain ⟨hx, hy, hz⟩ := d.pos_of_lt hr
  fin_cases a
  · show (d.nx : ℝ) ≠ 0
    positivity
  · show (d.ny : ℝ) ≠ 0
    positivity
  · show (d.nz : ℝ) ≠ 0
    positivity

/-- Moving a grid point multiplies the plane wave by a phase. -/
theorem gridDot_moved (d : Dims) (s : Fin 3 → ℤ) (g r r' : ℕ) (hr : r < d.size) (h : Moved d s r r') (G : Fin 3 → ℤ) (hG : ∀ a, ∃ m : ℤ, G a = coord d g a + m * len d a) :
    ∃ m : ℤ, gridDot d g r' = gridDot d g r + ∑ a, vec d s a * G a + m := by
  choose m hm using h
  choose k hk using hG
  refine ⟨∑ a, (coord d g a * m a - s a * k a), ?_⟩
  rw [gridDot_sum, gridDot_sum]
  push_cast
  rw [← Finset.sum_add_distrib, ← Finset.sum_add_distrib]
  refine Finset.sum_congr rfl fun a _ => ?_
  have hl := len_pos d r hr a
  have e1 : ((coord d r' a : ℕ) : ℝ) = coord d r a + s a + m a * len d a := by exact_mod_cast hm a
  have e2 : (G a : ℝ) = coord d g a + k a * len d a := by exact_mod_cast hk a
  unfold vec
  rw [e1, e2]
  field_simp
  ring

/-- One species: the projectors' angular momenta, the atoms, angular and radial parts at the plane waves, the coefficients. -/
structure Species (n : ℕ) where
  beta_l : List ℕ
  nat : ℕ
  tau : ℕ → Fin 3 → ℝ
  Y : Fin n → ℕ → ℕ → ℂ
  F : ℕ → Fin n → ℝ
  dij : ℕ → ℕ → ℝ

/-- The projectors of a species at the plane waves `k + G`. -/
noncomputable def Species.proj {n : ℕ} (sp : Species n) (G : Fin n → Fin 3 → ℤ) (kpt : Fin 3 → ℝ) : Proj n :=
  speciesProj sp.beta_l sp.nat sp.tau (fun j c => G j c + kpt c) sp.Y sp.F sp.dij

/-- All atoms of the species moved by `t`. -/
def Species.move {n : ℕ} (sp : Species n) (t : Fin 3 → ℝ) : Species n := { sp with tau := fun a c => sp.tau a c + t c }

/-- **C179 (matrix).** Moving the crystal by grid steps multiplies the matrix element between `k + G` and `k + G'` by `exp (-2πi t·(G - G'))`. -/
theorem hamMatrix_moved (d : Dims) (idx : List ℕ) (gk2 : Fin idx.length → ℝ) (G : Fin idx.length → Fin 3 → ℤ) (hG : Indexes d idx G) (kpt : Fin 3 → ℝ) (s : Fin 3 → ℤ)
    (V V' : Fin d.size → ℝ) (hV : ∀ r r' : Fin d.size, Moved d s r r' → V' r' = V r) (sp : List (Species idx.length)) (j k : Fin idx.length) :
    hamMatrix d idx gk2 V' (sp.map fun x => (x.move (vec d s)).proj G kpt) j k
      = phase (vec d s) (G j) * conj (phase (vec d s) (G k)) * hamMatrix d idx gk2 V (sp.map fun x => x.proj G kpt) j k := by
  have hph : phase (vec d s) (G j) * conj (phase (vec d s) (G k)) = Complex.exp (-(2 * Real.pi * Complex.I) * ((∑ c, vec d s c * ((G j c + kpt c) - (G k c + kpt c)) : ℝ) : ℂ)) := by
    unfold phase
    rw [gridDot_exp_conj, ← Complex.exp_add]
    congr 1
    rw [← mul_add]
    congr 1
    rw [← Complex.ofReal_add, ← sub_eq_add_neg, ← Finset.sum_sub_distrib]
    congr 1
    refine Finset.sum_congr rfl fun c _ => ?_
    ring
  unfold hamMatrix
  rw [mul_add, mul_add]
  congr 1
  · congr 1
    · by_cases hjk : j = k
      · subst hjk
        simp only [if_true]
        have := phase_unit (vec d s) (G j)
        linear_combination -(((gk2 j / 2 : ℝ) : ℂ)) * this
      · simp only [if_neg hjk, mul_zero]
    · rw [show ∀ p q r : ℂ, p * (q * r) = q * (p * r) by intros; ring]
      congr 1
      rw [Finset.mul_sum]
      refine (Equiv.sum_comp (perm d s) fun r : Fin d.size => (V' r : ℂ) * Complex.exp (-(2 * Real.pi * Complex.I) * ((gridDot d idx[j] r - gridDot d idx[k] r : ℝ) : ℂ))).symm.trans ?_
      refine Finset.sum_congr rfl fun r _ => ?_
      rw [hV r (perm d s r) (perm_moved d s r)]
      obtain ⟨m1, h1⟩ := gridDot_moved d s idx[j] r (perm d s r) r.2 (perm_moved d s r) (G j) (hG j)
      obtain ⟨m2, h2⟩ := gridDot_moved d s idx[k] r (perm d s r) r.2 (perm_moved d s r) (G k) (hG k)
      rw [h1, h2, hph]
      have : gridDot d idx[j] r + ∑ a, vec d s a * (G j a : ℝ) + m1 - (gridDot d idx[k] r + ∑ a, vec d s a * (G k a : ℝ) + m2)
          = (gridDot d idx[j] r - gridDot d idx[k] r + ∑ c, vec d s c * ((G j c + kpt c) - (G k c + kpt c))) + ((m1 - m2 : ℤ) : ℝ) := by
        have e : ∑ c, vec d s c * ((G j c + kpt c) - (G k c + kpt c)) = ∑ a, vec d s a * (G j a : ℝ) - ∑ a, vec d s a * (G k a : ℝ) := by
          rw [← Finset.sum_sub_distrib]
          exact Finset.sum_congr rfl fun c _ => by ring
        rw [e]
        push_cast
        ring
      rw [this, exp_int_shift, Complex.ofReal_add, mul_add, Complex.exp_add]
      ring
  · rw [List.map_map, List.map_map, ← List.sum_map_mul_left, hph]
    congr 1
    refine List.map_congr_left fun x _ => ?_
    exact (C74_translation_relabelling x.beta_l x.nat x.tau (vec d s) (fun j c => G j c + kpt c) x.Y x.F x.dij j k 1).1

/-- **C179.** Moving all atoms by the same number of grid steps, and the local potential on the grid with them: for every k-point, driver and wavefunction, applying the new Hamiltonian to the moved wavefunction
gives the moved result. Hence an eigenfunction moves with the crystal and keeps its eigenvalue. Arithmetic is exact (for `zgemm` on the CPU see C72). -/
theorem C179_translation (drv : Driver) (d : Dims) (idx : List ℕ) (hv : ValidIdx d idx) (st : DrvState ℂ) (gk2 : Fin idx.length → ℝ) (G : Fin idx.length → Fin 3 → ℤ) (hG : Indexes d idx G)
    (kpt : Fin 3 → ℝ) (s : Fin 3 → ℤ) (V V' : Fin d.size → ℝ) (hV : ∀ r r' : Fin d.size, Moved d s r r' → V' r' = V r) (sp : List (Species idx.length)) :
    let T : (Fin idx.length → ℂ) → Fin idx.length → ℂ := fun psi j => phase (vec d s) (G j) * psi j
    let H := hPsi .gpu drv d idx st gk2 (fun r => (V r : ℂ) / d.size) (sp.map fun x => x.proj G kpt)
    let H' := hPsi .gpu drv d idx st gk2 (fun r => (V' r : ℂ) / d.size) (sp.map fun x => (x.move (vec d s)).proj G kpt)
    (∀ psi, H' (T psi) = T (H psi)) ∧ (∀ (e : ℂ) (psi : Fin idx.length → ℂ), H' (T psi) = e • T psi ↔ H psi = e • psi) ∧
      ∀ psi r r', Moved d s r r' → ∀ (h : r < d.size) (h' : r' < d.size), wfR drv d idx st (T psi) ⟨r', h'⟩ = wfR drv d idx st psi ⟨r, h⟩ := by
  intro T H H'
  have h1 : ∀ psi, H' (T psi) = T (H psi) := by
    intro psi
    funext j
    show hPsi .gpu drv d idx st gk2 _ _ _ j = phase (vec d s) (G j) * hPsi .gpu drv d idx st gk2 _ _ _ j
    rw [C72_h_psi_is_hamiltonian drv d idx hv, C72_h_psi_is_hamiltonian drv d idx hv, Finset.mul_sum]
    refine Finset.sum_congr rfl fun k _ => ?_
    rw [hamMatrix_moved d idx gk2 G hG kpt s V V' hV sp j k]
    show _ * (phase (vec d s) (G k) * psi k) = _
    have := phase_unit (vec d s) (G k)
    linear_combination phase (vec d s) (G j) * hamMatrix d idx gk2 V (sp.map fun x => x.proj G kpt) j k * psi k * this
  refine ⟨h1, fun e psi => ?_, fun psi r r' hm h h' => ?_⟩
  · rw [h1]
    constructor
    · intro h
      funext j
      have hj := congrFun h j
      have hu := phase_unit (vec d s) (G j)
      change phase (vec d s) (G j) * H psi j = e * (phase (vec d s) (G j) * psi j) at hj
      show H psi j = e * psi j
      linear_combination conj (phase (vec d s) (G j)) * hj - (H psi j - e * psi j) * hu
    · intro h
      rw [h]
      funext j
      show phase (vec d s) (G j) * (e * psi j) = e * (phase (vec d s) (G j) * psi j)
      ring
  · rw [wfR_eq drv d idx hv, wfR_eq drv d idx hv]
    refine Finset.sum_congr rfl fun k _ => ?_
    show _ * (phase (vec d s) (G k) * psi k) = _
    rw [← mul_assoc]
    congr 1
    obtain ⟨m, hm⟩ := gridDot_moved d s idx[k] r r' h hm (G k) (hG k)
    have hb : ∀ x : ℕ, FFT.ker3 d (FFT.dftKern false d) x idx[k] = conj (Complex.exp (-(2 * Real.pi * Complex.I) * ((gridDot d idx[k] x : ℝ) : ℂ))) := by
      intro x
      rw [FFT.dft_ker3_bwd, gridDot_exp_conj]
      congr 1
      unfold gridDot
      push_cast
      ring
    show FFT.ker3 d (FFT.dftKern false d) r' idx[k] * phase (vec d s) (G k) = FFT.ker3 d (FFT.dftKern false d) r idx[k]
    rw [hb, hb, hm, exp_int_shift, Complex.ofReal_add, mul_add, Complex.exp_add, map_mul]
    have := phase_unit (vec d s) (G k)
    unfold phase at this ⊢
    linear_combination conj (Complex.exp (-(2 * Real.pi * Complex.I) * ((gridDot d idx[k] r : ℝ) : ℂ))) * this

/-- **C179 (images, order).** Moving single atoms by lattice vectors changes nothing. -/
theorem C179_images (drv : Driver) (d : Dims) (idx : List ℕ) (hv : ValidIdx d idx) (st : DrvState ℂ) (gk2 : Fin idx.length → ℝ) (G : Fin idx.length → Fin 3 → ℤ)
    (kpt : Fin 3 → ℝ) (V : Fin d.size → ℝ) (sp sp' : List (Species idx.length))
    (h : List.Forall₂ (fun x x' : Species idx.length => ∃ tau', x' = { x with tau := tau' } ∧ ∀ a c, ∃ m : ℤ, tau' a c = x.tau a c + m) sp sp') (psi : Fin idx.length → ℂ) :
    hPsi .gpu drv d idx st gk2 (fun r => (V r : ℂ) / d.size) (sp'.map fun x => x.proj G kpt) psi
      = hPsi .gpu drv d idx st gk2 (fun r => (V r : ℂ) / d.size) (sp.map fun x => x.proj G kpt) psi := by
  funext j
  rw [C72_h_psi_is_hamiltonian drv d idx hv, C72_h_psi_is_hamiltonian drv d idx hv]
  refine Finset.sum_congr rfl fun k _ => ?_
  congr 1
  unfold hamMatrix
  congr 1
  rw [List.map_map, List.map_map]
  induction h with
  | nil => rfl
  | cons hx _ ih =>
    rw [List.map_cons, List.map_cons, List.sum_cons, List.sum_cons, ih]
    congr 1
    obtain ⟨tau', rfl, ht⟩ := hx
    exact C74_lattice_translation _ _ _ tau' ht G kpt _ _ _ j k

/-- A case: two grid points along x, the two plane waves of a chain, moved by one step. -/
example : let d : Dims := ⟨2, 1, 1⟩
    ValidIdx d [0, 1] ∧ Indexes d [0, 1] (fun j => ![(j : ℤ), 0, 0]) ∧ Moved d ![1, 0, 0] 0 1 ∧ Moved d ![1, 0, 0] 1 0 ∧ vec d ![1, 0, 0] = ![1 / 2, 0, 0] := by
  refine ⟨⟨by decide, by decide⟩, fun j a => ⟨0, ?_⟩, fun a => ?_, fun a => ?_, ?_⟩
  · fin_cases j <;> fin_cases a <;> rfl
  · fin_cases a <;> exact ⟨0, rfl⟩
  · fin_cases a
    · exact ⟨-1, rfl⟩
    · exact ⟨0, rfl⟩
    · exact ⟨0, rfl⟩
  · funext a
    fin_cases a <;> simp [vec, len]

end Verif.Trans
