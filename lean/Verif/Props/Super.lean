import Verif.Model.Crystal
import Verif.Props.Crystal
import Verif.Props.Loc
import Verif.Props.GWMel
import Mathlib.Data.List.GetD

/-!
# Property C200: a supercell has the same potential and densities in space
-/

namespace Verif.Super

open Verif.Lattice Verif.Crystal Verif.Loc
open scoped ComplexConjugate

/-! ## Specification -/

/-- `G 0, …, G (n-1)` are the G-vectors of squared length at most `K`, each once, `G = 0` first. -/
structure Sphere (R : Lat) (K : ℝ) (n : ℕ) (G : ℕ → Fin 3 → ℤ) : Prop where
  inj : ∀ i < n, ∀ j < n, G i = G j → i = j
  mem : ∀ z : Fin 3 → ℤ, R.norm2Cryst (fun i => (z i : ℝ)) ≤ K ↔ ∃ j < n, G j = z
  pos : 0 < n
  zero : G 0 = 0

/-- Lengths of the G-vectors. -/
noncomputable def len (R : Lat) (G : ℕ → Fin 3 → ℤ) (j : ℕ) : ℝ := Real.sqrt (R.norm2Cryst fun i => (G j i : ℝ))

/-- Value at the Cartesian point `X` of the field whose plane-wave coefficients are `f`, on a grid of `N` points. -/
noncomputable def inSpace (L : Lat) (N n : ℕ) (G : ℕ → Fin 3 → ℤ) (f : ℕ → ℂ) (X : Vec) : ℂ := synth n G f (L.cart2cryst X) / N

/-! ## Lemmas -/

/-- Integer vector with components multiplied by the repeats. -/
def scale (m : Fin 3 → ℕ) (z : Fin 3 → ℤ) : Fin 3 → ℤ := fun i => m i * z i

theorem sum_flatMap' {α : Type} (l : List α) (f : α → List ℂ) : (l.flatMap f).sum = (l.map fun a => (f a).sum).sum := by
  induction l with
  | nil => rfl
  | cons a l ih => rw [List.flatMap_cons, List.sum_append, ih, List.map_cons, List.sum_cons]

theorem exp_neg_root (n : ℕ) (z : ℤ) (t : ℕ) :
    Complex.exp (-(2 * Real.pi * Complex.I) * (((t : ℝ) / n * z : ℝ) : ℂ)) = GW.root n z t := by
  unfold GW.root
  congr 1
  push_cast
  ring

/-- Sum over the displacements of a supercell. -/
theorem sum_grid (n1 n2 n3 : ℕ) (h1 : 0 < n1) (h2 : 0 < n2) (h3 : 0 < n3) (z : Fin 3 → ℤ) :
    ((gridPts n1 n2 n3).map fun t => phase (fun i => t i / (![n1, n2, n3] i : ℕ)) z).sum
      = if (∀ i, ((![n1, n2, n3] i : ℕ) : ℤ) ∣ z i) then ((n1 * n2 * n3 : ℕ) : ℂ) else 0 := by
  have e : ∀ i j k : ℕ, phase (fun c => (![(i : ℝ), (j : ℝ), (k : ℝ)] : Vec) c / (![n1, n2, n3] c : ℕ)) z
      = GW.root n1 (z 0) i * GW.root n2 (z 1) j * GW.root n3 (z 2) k := by
    intro i j k
    unfold phase
    rw [Fin.sum_univ_three, ← exp_neg_root, ← exp_neg_root, ← exp_neg_root, ← Complex.exp_add, ← Complex.exp_add]
    congr 1
    simp
    ring
  have s3 : ∀ i j : ℕ, ((List.range n3).map fun k : ℕ => GW.root n1 (z 0) i * GW.root n2 (z 1) j * GW.root n3 (z 2) k).sum
      = GW.root n1 (z 0) i * GW.root n2 (z 1) j * (if (n3 : ℤ) ∣ z 2 then (n3 : ℂ) else 0) := by
    intro i j
    rw [List.sum_map_mul_left, ← GW.sum_root n3 h3, Finset.sum_range, ← List.sum_ofFn, List.ofFn_eq_map, ← List.map_coe_finRange_eq_range, List.map_map]
    rfl
  have lsum : ∀ (n : ℕ) (f : ℕ → ℂ), ((List.range n).map f).sum = ∑ x ∈ Finset.range n, f x := by
    intro n f
    rw [Finset.sum_range, ← List.sum_ofFn, List.ofFn_eq_map, ← List.map_coe_finRange_eq_range, List.map_map]
    rfl
  unfold gridPts
  rw [List.map_flatMap, sum_flatMap']
  simp only [List.map_flatMap, sum_flatMap', List.map_map, Function.comp_def, e, s3]
  rw [lsum]
  simp only [lsum]
  have s2 : ∀ i : ℕ, ∑ x ∈ Finset.range n2, GW.root n1 (z 0) i * GW.root n2 (z 1) x * (if (n3 : ℤ) ∣ z 2 then (n3 : ℂ) else 0)
      = GW.root n1 (z 0) i * ((if (n2 : ℤ) ∣ z 1 then (n2 : ℂ) else 0) * (if (n3 : ℤ) ∣ z 2 then (n3 : ℂ) else 0)) := by
    intro i
    rw [← Finset.sum_mul, ← Finset.mul_sum, GW.sum_root n2 h2]
    ring
  simp only [s2]
  rw [← Finset.sum_mul, GW.sum_root n1 h1]
  have hall : (∀ i, ((![n1, n2, n3] i : ℕ) : ℤ) ∣ z i) ↔ (n1 : ℤ) ∣ z 0 ∧ (n2 : ℤ) ∣ z 1 ∧ (n3 : ℤ) ∣ z 2 := by
    rw [Fin.forall_fin_succ, Fin.forall_fin_two]
    rfl
  rw [if_congr hall rfl rfl]
  by_cases a : (n1 : ℤ) ∣ z 0 <;> by_cases b : (n2 : ℤ) ∣ z 1 <;> by_cases c : (n3 : ℤ) ∣ z 2 <;> simp [a, b, c] <;> ring

theorem phase_add (a b : Fin 3 → ℝ) (z : Fin 3 → ℤ) : phase (fun i => a i + b i) z = phase a z * phase b z := by
  unfold phase
  rw [← Complex.exp_add]
  congr 1
  rw [← mul_add]
  congr 1
  rw [← Complex.ofReal_add, ← Finset.sum_add_distrib]
  congr 1
  refine Finset.sum_congr rfl fun i _ => ?_
  ring

theorem phase_scale (m : Fin 3 → ℕ) (hm : ∀ i, 0 < m i) (x : Fin 3 → ℝ) (z : Fin 3 → ℤ) :
    phase (fun i => x i / m i) (scale m z) = phase x z := by
  unfold phase scale
  congr 3
  refine Finset.sum_congr rfl fun i _ => ?_
  have : (m i : ℝ) ≠ 0 := by exact_mod_cast (hm i).ne'
  push_cast
  field_simp

/-- Structure factor of the supercell. -/
theorem structFac_super (n1 n2 n3 : ℕ) (h1 : 0 < n1) (h2 : 0 < n2) (h3 : 0 < n3) (tau : List Vec) (z : Fin 3 → ℤ) :
    structFac ((gridPts n1 n2 n3).flatMap fun t => tau.map fun r => fun i => (t i + r i) / (![n1, n2, n3] i : ℕ)) z
      = (if (∀ i, ((![n1, n2, n3] i : ℕ) : ℤ) ∣ z i) then ((n1 * n2 * n3 : ℕ) : ℂ) else 0)
        * structFac (tau.map fun r => fun i => r i / (![n1, n2, n3] i : ℕ)) z := by
  rw [structFac_eq, structFac_eq, List.map_flatMap, sum_flatMap', ← sum_grid n1 n2 n3 h1 h2 h3, ← List.sum_map_mul_right]
  congr 1
  refine List.map_congr_left fun t _ => ?_
  rw [← List.sum_map_mul_left]
  congr 1
  rw [List.map_map, List.map_map]
  refine List.map_congr_left fun r _ => ?_
  simp only [Function.comp]
  rw [← phase_add]
  congr 1
  funext i
  ring

theorem structFac_scale (m : Fin 3 → ℕ) (hm : ∀ i, 0 < m i) (tau : List Vec) (z : Fin 3 → ℤ) :
    structFac (tau.map fun r => fun i => r i / (m i : ℕ)) (scale m z) = structFac tau z := by
  rw [structFac_eq, structFac_eq, List.map_map]
  congr 1
  refine List.map_congr_left fun r _ => ?_
  exact phase_scale m hm r z

/-- The repeats as a function. -/
def reps (n1 n2 n3 : ℕ) : Fin 3 → ℕ := ![n1, n2, n3]

theorem sup_lattice {u : ℝ} {A : Mat} {c : Cryst} (hc : mkLat u A = .ok c.lat) {n1 n2 n3 : ℕ} {s : Cryst} (h : genSupercell c n1 n2 n3 = .ok s) :
    (∀ i, 0 < reps n1 n2 n3 i) ∧ s.lat.cellvol = (n1 * n2 * n3 : ℕ) * c.lat.cellvol ∧
    (∀ X : Vec, s.lat.cart2cryst X = fun i => c.lat.cart2cryst X i / (reps n1 n2 n3 i : ℕ)) ∧
    (∀ R R' : Lat, fromReallat c.lat = .ok R → fromReallat s.lat = .ok R' → ∀ z : Fin 3 → ℤ,
      R'.norm2Cryst (fun i => (scale (reps n1 n2 n3) z i : ℝ)) = R.norm2Cryst (fun i => (z i : ℝ))) := by
  obtain ⟨hd, e1, e2, e3, e4, e5⟩ := mkLat_ok hc
  have hpos : 0 < n1 ∧ 0 < n2 ∧ 0 < n3 := by
    by_contra hh
    have := (C30_supercell u A c hc n1 n2 n3).2 (by omega)
    rw [this] at h
    cases h
  obtain ⟨h1, h2, h3⟩ := hpos
  obtain ⟨s', hs', _, hv, _⟩ := (C30_supercell u A c hc n1 n2 n3).1 ⟨h1, h2, h3⟩
  rw [h] at hs'
  obtain rfl := Except.ok.inj hs'
  have hm : ∀ i, 0 < reps n1 n2 n3 i := by
    intro i
    fin_cases i <;> simpa [reps]
  have hm0 : ∀ i, ((reps n1 n2 n3 i : ℕ) : ℝ) ≠ 0 := fun i => by exact_mod_cast (hm i).ne'
  unfold genSupercell at h
  have hD : (![(n1 : ℝ), n2, n3] : Vec) = fun i => ((reps n1 n2 n3 i : ℕ) : ℝ) := by
    funext i
    fin_cases i <;> rfl
  rw [hD] at h
  generalize hsup : mkLat (n1 * c.lat.unit) (c.lat.primvec * Matrix.diagonal fun i => ((reps n1 n2 n3 i : ℕ) : ℝ)) = o at h
  cases o with
  | error e => cases h
  | ok sup =>
    have hl : s.lat = sup := by rw [← Except.ok.inj h]
    obtain ⟨_, f1, f2, f3, f4, f5⟩ := mkLat_ok hsup
    have hinv : sup.primvecInv = (Matrix.diagonal fun i => ((reps n1 n2 n3 i : ℕ) : ℝ)⁻¹) * c.lat.primvecInv := by
      rw [f3, Matrix.mul_inv_rev, e2, e3]
      congr 1
      apply Matrix.inv_eq_left_inv
      rw [Matrix.diagonal_mul_diagonal]
      simp only [inv_mul_cancel₀ (hm0 _)]
      exact Matrix.diagonal_one
    refine ⟨hm, hv, fun X => ?_, fun R R' hR hR' z => ?_⟩
    · rw [hl]
      unfold Lat.cart2cryst
      rw [hinv, ← Matrix.mulVec_mulVec]
      funext i
      rw [Matrix.mulVec_diagonal]
      field_simp [hm0 i]
    · have k := (C26_metric _ _ _ hR (fun i => (z i : ℝ)) 0).2.1
      have k' := (C26_metric _ _ _ hR' (fun i => (scale (reps n1 n2 n3) z i : ℝ)) 0).2.1
      obtain ⟨_, _, g2, _⟩ := mkLat_ok hR
      obtain ⟨_, _, g2', _⟩ := mkLat_ok hR'
      rw [k, k']
      have : R'.cryst2cart (fun i => (scale (reps n1 n2 n3) z i : ℝ)) = R.cryst2cart (fun i => (z i : ℝ)) := by
        unfold Lat.cryst2cart
        rw [g2, g2', hl, hinv, Matrix.transpose_mul, Matrix.diagonal_transpose, ← Matrix.smul_mul, ← Matrix.mulVec_mulVec]
        congr 1
        funext i
        rw [Matrix.mulVec_diagonal]
        simp only [scale]
        push_cast
        rw [← mul_assoc, inv_mul_cancel₀ (hm0 i), one_mul]
      rw [this]

/-- The superposition over the supercell, evaluated at a point, is the number of cells times that over the cell. -/
theorem core {R R' : Lat} {K : ℝ} {n n' : ℕ} {G G' : ℕ → Fin 3 → ℤ} (hS : Sphere R K n G) (hS' : Sphere R' K n' G')
    (n1 n2 n3 : ℕ) (hm : ∀ i, 0 < reps n1 n2 n3 i)
    (hn : ∀ z : Fin 3 → ℤ, R'.norm2Cryst (fun i => (scale (reps n1 n2 n3) z i : ℝ)) = R.norm2Cryst (fun i => (z i : ℝ)))
    (a : ℂ) (b : ℝ → ℂ) (tau : List Vec) (x : Vec) :
    ∑ j ∈ Finset.range n', ((if j = 0 then a else b (len R' G' j))
      * structFac ((gridPts n1 n2 n3).flatMap fun t => tau.map fun r => fun i => (t i + r i) / (reps n1 n2 n3 i : ℕ)) (G' j))
      * conj (phase (fun i => x i / (reps n1 n2 n3 i : ℕ)) (G' j))
    = ((n1 * n2 * n3 : ℕ) : ℂ) * ∑ j ∈ Finset.range n, ((if j = 0 then a else b (len R G j)) * structFac tau (G j)) * conj (phase x (G j)) := by
  have h1 : 0 < n1 := hm 0
  have h2 : 0 < n2 := hm 1
  have h3 : 0 < n3 := hm 2
  have ex : ∀ j, j < n → ∃ j' < n', G' j' = scale (reps n1 n2 n3) (G j) := by
    intro j hj
    rw [← hS'.mem, hn, hS.mem]
    exact ⟨j, hj, rfl⟩
  have : ∃ e : ℕ → ℕ, ∀ j, j < n → e j < n' ∧ G' (e j) = scale (reps n1 n2 n3) (G j) := by
    refine ⟨fun j => if hj : j < n then (ex j hj).choose else 0, fun j hj => ?_⟩
    simp only [dif_pos hj]
    exact (ex j hj).choose_spec
  obtain ⟨e, he⟩ := this
  have sinj : ∀ y z : Fin 3 → ℤ, scale (reps n1 n2 n3) y = scale (reps n1 n2 n3) z → y = z := by
    intro y z h
    funext i
    have := congrFun h i
    simp only [scale] at this
    have p : ((reps n1 n2 n3 i : ℕ) : ℤ) ≠ 0 := by exact_mod_cast (hm i).ne'
    exact mul_left_cancel₀ p this
  have einj : ∀ i < n, ∀ j < n, e i = e j → i = j := by
    intro i hi j hj h
    refine hS.inj i hi j hj (sinj _ _ ?_)
    rw [← (he i hi).2, ← (he j hj).2, h]
  have e0 : e 0 = 0 := by
    refine hS'.inj _ (he 0 hS.pos).1 _ hS'.pos ?_
    rw [(he 0 hS.pos).2, hS.zero, hS'.zero]
    funext i
    simp [scale]
  rw [Finset.mul_sum]
  symm
  refine Finset.sum_of_injOn e (fun i hi j hj h => einj i (Finset.mem_range.1 hi) j (Finset.mem_range.1 hj) h)
    (fun j hj => Finset.mem_coe.2 (Finset.mem_range.2 (he j (Finset.mem_range.1 hj)).1)) (fun j' hj' hnot => ?_) (fun j hj => ?_)
  · suffices hnd : ¬ ∀ i, ((![n1, n2, n3] i : ℕ) : ℤ) ∣ G' j' i by
      rw [show (fun t : Vec => tau.map fun r => fun i => (t i + r i) / ((reps n1 n2 n3 i : ℕ) : ℝ)) = (fun t : Vec => tau.map fun r => fun i => (t i + r i) / ((![n1, n2, n3] i : ℕ) : ℝ)) from rfl, structFac_super n1 n2 n3 h1 h2 h3, if_neg hnd, zero_mul, mul_zero, zero_mul]
    intro hdvd
    apply hnot
    choose z hz using hdvd
    have hz' : G' j' = scale (reps n1 n2 n3) z := funext hz
    have hin : R'.norm2Cryst (fun i => (G' j' i : ℝ)) ≤ K := (hS'.mem _).2 ⟨j', Finset.mem_range.1 hj', rfl⟩
    rw [hz', hn, hS.mem] at hin
    obtain ⟨j, hj, hGz⟩ := hin
    refine ⟨j, Finset.mem_coe.2 (Finset.mem_range.2 hj), hS'.inj _ (he j hj).1 _ (Finset.mem_range.1 hj') ?_⟩
    rw [(he j hj).2, hGz, hz']
  · have hj := Finset.mem_range.1 hj
    have hG := (he j hj).2
    have hlen : len R' G' (e j) = len R G j := by
      unfold len
      rw [hG, hn]
    have hz : (e j = 0) ↔ (j = 0) := ⟨fun h => einj j hj 0 hS.pos (h.trans e0.symm), fun h => by rw [h, e0]⟩
    rw [if_congr hz rfl rfl, hlen, hG, phase_scale _ hm, show (fun t : Vec => tau.map fun r => fun i => (t i + r i) / ((reps n1 n2 n3 i : ℕ) : ℝ)) = (fun t : Vec => tau.map fun r => fun i => (t i + r i) / ((![n1, n2, n3] i : ℕ) : ℝ)) from rfl, structFac_super n1 n2 n3 h1 h2 h3, if_pos (fun i => ⟨G j i, rfl⟩)]
    rw [show (fun r : Vec => fun i => r i / ((![n1, n2, n3] i : ℕ) : ℝ)) = (fun r : Vec => fun i => r i / ((reps n1 n2 n3 i : ℕ) : ℝ)) from rfl, structFac_scale _ hm]
    ring

/-- From the sums to the values in space; `C`, `C'` are the prefactors of the two cells. -/
theorem fields {R R' : Lat} {K : ℝ} {n n' : ℕ} {G G' : ℕ → Fin 3 → ℤ} (hS : Sphere R K n G) (hS' : Sphere R' K n' G')
    (n1 n2 n3 : ℕ) (hm : ∀ i, 0 < reps n1 n2 n3 i)
    (hn : ∀ z : Fin 3 → ℤ, R'.norm2Cryst (fun i => (scale (reps n1 n2 n3) z i : ℝ)) = R.norm2Cryst (fun i => (z i : ℝ)))
    (a : ℂ) (b : ℝ → ℂ) (tau : List Vec) (L L' : Lat) (hx : ∀ X : Vec, L'.cart2cryst X = fun i => L.cart2cryst X i / (reps n1 n2 n3 i : ℕ))
    (N N' : ℕ) (C C' : ℂ) (hC : C' / N' * ((n1 * n2 * n3 : ℕ) : ℂ) = C / N) (X : Vec) (f f' : ℕ → ℂ)
    (hf : ∀ j, f j = (if j = 0 then a else b (len R G j)) * structFac tau (G j) * C)
    (hf' : ∀ j, f' j = (if j = 0 then a else b (len R' G' j))
      * structFac ((gridPts n1 n2 n3).flatMap fun t => tau.map fun r => fun i => (t i + r i) / (reps n1 n2 n3 i : ℕ)) (G' j) * C') :
    inSpace L' N' n' G' f' X = inSpace L N n G f X := by
  have k := core hS hS' n1 n2 n3 hm hn a b tau (L.cart2cryst X)
  unfold inSpace synth
  rw [hx]
  simp only [hf, hf']
  have p : ∀ (u v w : ℂ), u * v * w = v * (u * w) := fun u v w => by ring
  have q : ∀ j, (if j = 0 then a else b (len R' G' j))
      * structFac ((gridPts n1 n2 n3).flatMap fun t => tau.map fun r => fun i => (t i + r i) / (reps n1 n2 n3 i : ℕ)) (G' j) * C'
      * conj (phase (fun i => L.cart2cryst X i / (reps n1 n2 n3 i : ℕ)) (G' j)) = C' * ((if j = 0 then a else b (len R' G' j))
      * structFac ((gridPts n1 n2 n3).flatMap fun t => tau.map fun r => fun i => (t i + r i) / (reps n1 n2 n3 i : ℕ)) (G' j)
      * conj (phase (fun i => L.cart2cryst X i / (reps n1 n2 n3 i : ℕ)) (G' j))) := fun j => by ring
  have q' : ∀ j, (if j = 0 then a else b (len R G j)) * structFac tau (G j) * C * conj (phase (L.cart2cryst X) (G j))
      = C * ((if j = 0 then a else b (len R G j)) * structFac tau (G j) * conj (phase (L.cart2cryst X) (G j))) := fun j => by ring
  simp only [q, q']
  rw [← Finset.mul_sum, ← Finset.mul_sum, k, mul_div_right_comm, ← mul_assoc, hC, mul_div_right_comm]

theorem sup_coords {u : ℝ} {A : Mat} {c : Cryst} (hc : mkLat u A = .ok c.lat) {n1 n2 n3 : ℕ} {s : Cryst} (h : genSupercell c n1 n2 n3 = .ok s)
    {k : ℕ} {sp sp' : Species} (hk : c.atoms[k]? = some sp) (hk' : s.atoms[k]? = some sp') :
    sp'.r = (gridPts n1 n2 n3).flatMap fun t => sp.r.map fun r => fun i => (t i + r i) / ((reps n1 n2 n3 i : ℕ) : ℝ) := by
  have hx := (sup_lattice hc h).2.2.1
  unfold genSupercell at h
  generalize mkLat (n1 * c.lat.unit) (c.lat.primvec * Matrix.diagonal ![(n1 : ℝ), n2, n3]) = o at h
  cases o with
  | error e => cases h
  | ok sup =>
    have hs := (Except.ok.inj h).symm
    rw [hs, List.getElem?_map, hk] at hk'
    have hk' := Option.some.inj hk'
    rw [← hk']
    have hr : ∀ l p r, (mkSpecies l p r).r = r := fun l p r => by unfold mkSpecies; split <;> rfl
    rw [hr]
    have hl : s.lat = sup := by rw [hs]
    congr 1
    funext t
    refine List.map_congr_left fun r _ => ?_
    rw [← hl, hx]
    have : c.lat.cart2cryst (c.lat.cryst2cart (t + r)) = t + r := by
      obtain ⟨hd, e1, e2, e3, e4, e5⟩ := mkLat_ok hc
      unfold Lat.cart2cryst Lat.cryst2cart
      rw [Matrix.mulVec_mulVec, e2, e3, Matrix.nonsing_inv_mul _ (isUnit_iff_ne_zero.2 hd), Matrix.one_mulVec]
    rw [this]
    rfl

/-- The `j`-th G-vector of a list. -/
def gvec (l : List GSpace.GVec) (j : ℕ) : Fin 3 → ℤ := fun i => ![(l.getD j (0, 0, 0)).1, (l.getD j (0, 0, 0)).2.1, (l.getD j (0, 0, 0)).2.2] i

theorem sphere_of_list (L : Lat) (K : ℝ) (l : List GSpace.GVec) (hmem : ∀ g, g ∈ l ↔ L.norm2Cryst (toVec g) ≤ K) (hnd : l.Nodup)
    (h0 : ((0, 0, 0) : GSpace.GVec) ∈ l) (hhead : l.getD 0 (0, 0, 0) = (0, 0, 0)) : Sphere L K l.length (gvec l) := by
  refine ⟨fun i hi j hj e => ?_, fun z => ?_, ?_, ?_⟩
  · unfold gvec at e
    rw [List.getD_eq_getElem (l := l) (d := (0, 0, 0)) hi, List.getD_eq_getElem (l := l) (d := (0, 0, 0)) hj] at e
    refine (List.Nodup.getElem_inj_iff hnd (hi := hi) (hj := hj)).1 ?_
    have e0 := congrFun e 0
    have e1 := congrFun e 1
    have e2 := congrFun e 2
    exact Prod.ext e0 (Prod.ext e1 e2)
  · have hz : (fun i => (z i : ℝ)) = toVec (z 0, z 1, z 2) := by
      funext i
      fin_cases i <;> rfl
    rw [hz, ← hmem, List.mem_iff_getElem]
    constructor
    · rintro ⟨j, hj, e⟩
      refine ⟨j, hj, ?_⟩
      unfold gvec
      rw [List.getD_eq_getElem (l := l) (d := (0, 0, 0)) hj, e]
      funext i
      fin_cases i <;> rfl
    · rintro ⟨j, hj, e⟩
      refine ⟨j, hj, ?_⟩
      rw [← e]
      unfold gvec
      rw [List.getD_eq_getElem (l := l) (d := (0, 0, 0)) hj]
      rfl
  · exact List.length_pos_of_mem h0
  · unfold gvec
    rw [hhead]
    funext i
    fin_cases i <;> rfl

/-- **C200 (hypothesis).** The G-space the code constructs by default is such a sphere. -/
theorem C200_gspace_is_sphere (u : ℝ) (B : Mat) (L : Lat) (h : mkLat u B = .ok L) (lenKey : GSpace.GVec → ℤ) (ecut : ℝ) (he : 0 < ecut)
    (fuel : ℕ) (b : GSpace.Base) (hb : defaultGSpace L lenKey ecut fuel = some (.ok b)) :
    Sphere L (2 * ecut) b.gCryst.length (gvec b.gCryst) := by
  obtain ⟨hmem, hnd⟩ := (C13_default_gspace u B L h lenKey ecut he).2 fuel b hb
  have h0 : ((0, 0, 0) : GSpace.GVec) ∈ b.gCryst := by
    rw [hmem]
    have : toVec (0, 0, 0) = 0 := by
      funext i
      fin_cases i <;> simp [toVec]
    rw [this, ((C26_metric u B L h 0 0).2.2.2.2).2 rfl]
    linarith
  have hpw : ∃ s : GSpace.Shape, s.Pos ∧ GSpace.mkGSpace (fun g => L.norm2Cryst (toVec g)) lenKey (2 * ecut) s = .ok b := by
    unfold defaultGSpace at hb
    rw [if_neg (by linarith)] at hb
    cases c0 : GSpace.optimalLen fuel (minGridLen L ecut 0) with
    | none => rw [c0] at hb; simp at hb
    | some n1 =>
    cases c1 : GSpace.optimalLen fuel (minGridLen L ecut 1) with
    | none => rw [c0, c1] at hb; simp at hb
    | some n2 =>
    cases c2 : GSpace.optimalLen fuel (minGridLen L ecut 2) with
    | none => rw [c0, c1, c2] at hb; simp at hb
    | some n3 =>
    rw [c0, c1, c2] at hb
    simp only [Option.bind_some, Option.map_some, Option.some.injEq] at hb
    refine ⟨_, ?_, hb⟩
    by_contra hp
    unfold GSpace.mkGSpace at hb
    simp only at hb
    split_ifs at hb
    unfold GSpace.mkBase GSpace.cryst2idxgrid GSpace.checkG at hb
    simp [hp] at hb
  obtain ⟨s, hs, hg⟩ := hpw
  obtain ⟨_, _, hcan, _⟩ := GSpace.C13_selects_sphere _ _ _ _ hs _ hg
  have hhead : b.gCryst.getD 0 (0, 0, 0) = (0, 0, 0) := by
    cases hG : b.gCryst with
    | nil => rfl
    | cons g tl =>
      rw [hG] at h0 hcan
      rw [List.getD_cons_zero]
      rcases List.mem_cons.1 h0 with h | h
      · exact h.symm
      · have hc := (List.pairwise_cons.1 hcan).1 _ h
        have hsel := GSpace.C13_selects_sphere _ _ _ _ hs _ hg
        have hgb : GSpace.inBounds s g = true := ((hsel.1 g).1 (by rw [hG]; simp)).1
        have h0b : GSpace.inBounds s (0, 0, 0) = true := ((hsel.1 (0, 0, 0)).1 (by rw [hG]; exact h0)).1
        refine GSpace.CanonLe.antisymm hs hgb h0b hc ?_
        rw [GSpace.inBounds_iff] at hgb
        have e1 := (GSpace.wrap_spec _ _ hgb.1).1
        have e2 := (GSpace.wrap_spec _ _ hgb.2.1).1
        have e3 := (GSpace.wrap_spec _ _ hgb.2.2).1
        rw [GSpace.wrap_eq_emod _ _ hgb.1] at e1
        rw [GSpace.wrap_eq_emod _ _ hgb.2.1] at e2
        rw [GSpace.wrap_eq_emod _ _ hgb.2.2] at e3
        simp only [GSpace.CanonLe, Int.zero_emod]
        omega
  exact sphere_of_list L (2 * ecut) b.gCryst hmem hnd h0 hhead

/-- For every lattice and cutoff there is such a sphere. -/
theorem sphere_exists (u : ℝ) (B : Mat) (L : Lat) (h : mkLat u B = .ok L) (ecut : ℝ) (he : 0 < ecut) : ∃ n G, Sphere L (2 * ecut) n G := by
  classical
  let s : GSpace.Shape := ⟨minGridLen L ecut 0, minGridLen L ecut 1, minGridLen L ecut 2⟩
  let l := (GSpace.gridPoints s).filter fun g => decide (L.norm2Cryst (toVec g) ≤ 2 * ecut)
  have hmem : ∀ g, g ∈ l ↔ L.norm2Cryst (toVec g) ≤ 2 * ecut := by
    intro g
    rw [List.mem_filter, GSpace.mem_gridPoints, decide_eq_true_eq]
    exact ⟨fun hh => hh.2, fun hh => ⟨C13_sphere_fits u B L h ecut s le_rfl le_rfl le_rfl g hh, hh⟩⟩
  have h0 : ((0, 0, 0) : GSpace.GVec) ∈ l := by
    rw [hmem]
    have : toVec (0, 0, 0) = 0 := by
      funext i
      fin_cases i <;> simp [toVec]
    rw [this, ((C26_metric u B L h 0 0).2.2.2.2).2 rfl]
    linarith
  have hp := List.perm_cons_erase h0
  have hnd : l.Nodup := (GSpace.gridPoints_nodup s).filter _
  exact ⟨_, _, sphere_of_list L (2 * ecut) ((0, 0, 0) :: l.erase (0, 0, 0)) (fun g => by rw [← hp.mem_iff, hmem]) (hp.nodup_iff.1 hnd) (by simp) rfl⟩


/-! ## The property -/

/-- **C200.** A supercell generated from a crystal is the same physical system: for every repeat, every species, every cutoff and every
choice of FFT grids, the local ionic potential, the core density and the starting atomic density generated for the supercell take, at
every Cartesian point of space, the same value as those generated for the original cell. -/
theorem C200_same_fields (u : ℝ) (A : Mat) (c s : Cryst) (hc : mkLat u A = .ok c.lat) (n1 n2 n3 : ℕ) (h : genSupercell c n1 n2 n3 = .ok s)
    (R R' : Lat) (hR : fromReallat c.lat = .ok R) (hR' : fromReallat s.lat = .ok R')
    (K : ℝ) (n n' : ℕ) (G G' : ℕ → Fin 3 → ℤ) (hS : Sphere R K n G) (hS' : Sphere R' K n' G')
    (N N' : ℕ) (hN : N ≠ 0) (hN' : N' ≠ 0) (k : ℕ) (sp sp' : Species) (hk : c.atoms[k]? = some sp) (hk' : s.atoms[k]? = some sp')
    (erf : ℝ → ℝ) (D : RadialData) (X : Vec) :
    inSpace s.lat N' n' G' (vIon erf D true s.lat.cellvol N' sp'.r G' (len R' G')) X
      = inSpace c.lat N n G (vIon erf D true c.lat.cellvol N sp.r G (len R G)) X ∧
    inSpace s.lat N' n' G' (rhoCore D true s.lat.cellvol N' sp'.r G' (len R' G')) X
      = inSpace c.lat N n G (rhoCore D true c.lat.cellvol N sp.r G (len R G)) X ∧
    inSpace s.lat N' n' G' (rhoAtomic D true (s.lat.cellvol / N') sp'.r G' (len R' G')) X
      = inSpace c.lat N n G (rhoAtomic D true (c.lat.cellvol / N) sp.r G (len R G)) X := by
  obtain ⟨hm, hv, hx, hn⟩ := sup_lattice hc h
  have hr := sup_coords hc h hk hk'
  have hn := hn R R' hR hR'
  have hNc : (N : ℂ) ≠ 0 := by exact_mod_cast hN
  have hNc' : (N' : ℂ) ≠ 0 := by exact_mod_cast hN'
  have hvol : (c.lat.cellvol : ℂ) ≠ 0 := by
    obtain ⟨hd, _, _, _, _, e5⟩ := mkLat_ok hc
    rw [e5]
    exact_mod_cast abs_ne_zero.2 hd
  have hcells : ((n1 * n2 * n3 : ℕ) : ℂ) ≠ 0 := by
    have : n1 * n2 * n3 ≠ 0 := mul_ne_zero (mul_ne_zero (hm 0).ne' (hm 1).ne') (hm 2).ne'
    exact_mod_cast this
  rw [hr]
  generalize hM : n1 * n2 * n3 = M at hv hcells
  refine ⟨?_, ?_, ?_⟩
  · refine fields hS hS' n1 n2 n3 hm hn (simpsonOld D.n (fun i => D.r i * (D.r i * D.vloc i + D.valence)) D.r_ab : ℝ)
      (fun g => (sph2pw D.n D.r D.r_ab (fun i => (D.vloc i * D.r i + D.valence * erf (D.r i)) * D.r i) g
        - D.valence * Real.exp (-g ^ 2 / 4) / g ^ 2 : ℝ)) sp.r c.lat s.lat hx N N' ((4 * Real.pi / c.lat.cellvol * N : ℝ) : ℂ)
      ((4 * Real.pi / s.lat.cellvol * N' : ℝ) : ℂ) ?_ X _ _ (fun j => ?_) (fun j => ?_)
    · rw [hM, hv]
      push_cast
      field_simp
    · unfold vIon
      simp only [true_and, apply_ite (Complex.ofReal)]
      ring
    · unfold vIon
      simp only [true_and, apply_ite (Complex.ofReal)]
      ring
  · refine fields hS hS' n1 n2 n3 hm hn ((match D.rho_atc with | some d => simpsonOld D.n (fun i => d i * D.r i ^ 2) D.r_ab | none => 0 : ℝ) : ℂ)
      (fun g => ((match D.rho_atc with | some d => sph2pw D.n D.r D.r_ab (fun i => d i * D.r i ^ 2) g | none => 0 : ℝ) : ℂ)) sp.r c.lat s.lat hx N N'
      ((4 * Real.pi / c.lat.cellvol * N : ℝ) : ℂ) ((4 * Real.pi / s.lat.cellvol * N' : ℝ) : ℂ) ?_ X _ _ (fun j => ?_) (fun j => ?_)
    · rw [hM, hv]
      push_cast
      field_simp
    · unfold rhoCore
      cases D.rho_atc with
      | none => simp
      | some d =>
        simp only [true_and, apply_ite (Complex.ofReal)]
        ring
    · unfold rhoCore
      cases D.rho_atc with
      | none => simp
      | some d =>
        simp only [true_and, apply_ite (Complex.ofReal)]
        ring
  · refine fields hS hS' n1 n2 n3 hm hn (simpsonOld D.n D.rhoatom D.r_ab : ℝ)
      (fun g => (sph2pw D.n D.r D.r_ab D.rhoatom g : ℝ)) sp.r c.lat s.lat hx N N' (1 / ((c.lat.cellvol / N : ℝ) : ℂ))
      (1 / ((s.lat.cellvol / N' : ℝ) : ℂ)) ?_ X _ _ (fun j => ?_) (fun j => ?_)
    · rw [hM, hv]
      push_cast
      field_simp
    · unfold rhoAtomic
      simp only [true_and, apply_ite (Complex.ofReal)]
      ring
    · unfold rhoAtomic
      simp only [true_and, apply_ite (Complex.ofReal)]
      ring

/-- A body-centred two-atom cell, repeated 2×3×1, with the G-vectors of any positive cutoff: the hypotheses hold together. -/
example (ecut : ℝ) (he : 0 < ecut) : ∃ c s R R' n n' G G', mkLat 2 (Matrix.diagonal ![(2 : ℝ), 3, 4]) = .ok c.lat ∧ genSupercell c 2 3 1 = .ok s ∧
    fromReallat c.lat = .ok R ∧ fromReallat s.lat = .ok R' ∧ Sphere R (2 * ecut) n G ∧ Sphere R' (2 * ecut) n' G' ∧
    c.atoms[0]? = some ⟨"X", some 4, 4, [0, fun _ => 1 / 2]⟩ ∧ ∃ sp', s.atoms[0]? = some sp' ∧ sp'.r.length = 12 := by
  obtain ⟨L, hL⟩ := ((C26_conversions_inverse 2 (Matrix.diagonal ![(2 : ℝ), 3, 4])).1).2 (by simp [Matrix.det_diagonal, Fin.prod_univ_three])
  obtain ⟨s, hs, _, _, _, _, hlen⟩ := (C30_supercell 2 _ ⟨L, [⟨"X", some 4, 4, [0, fun _ => 1 / 2]⟩]⟩ hL 2 3 1).1 (by decide)
  obtain ⟨R, hR, _⟩ := C27_duality _ _ _ hL
  have hsl : ∃ u B, mkLat u B = .ok s.lat := by
    have hs' := hs
    unfold genSupercell at hs'
    generalize hsup : mkLat _ _ = o at hs'
    cases o with
    | error e => cases hs'
    | ok sup => exact ⟨_, _, by rw [← Except.ok.inj hs']; exact hsup⟩
  obtain ⟨u', B', hl'⟩ := hsl
  obtain ⟨R', hR', _⟩ := C27_duality _ _ _ hl'
  obtain ⟨n, G, hS⟩ := sphere_exists _ _ R hR ecut he
  obtain ⟨n', G', hS'⟩ := sphere_exists _ _ R' hR' ecut he
  refine ⟨_, s, R, R', n, n', G, G', hL, hs, hR, hR', hS, hS', rfl, ?_⟩
  cases ha : s.atoms with
  | nil => rw [ha] at hlen; simp at hlen
  | cons a tl =>
    rw [ha] at hlen
    refine ⟨a, rfl, ?_⟩
    simp only [List.map_cons, List.cons.injEq] at hlen
    exact hlen.1

end Verif.Super
