import Verif.Props.RotScf
import Verif.Props.Symm

/-!
# Property C203: irreducible k-points and a symmetrised density are a full calculation
-/

namespace Verif.Rot

open scoped ComplexConjugate
open Verif.FFT (Driver Dims DrvState ValidIdx)
open Verif.Nonloc Verif.Trans Verif.Pot Verif.Loc
open Verif.Lattice (Lat Mat mkLat dotCart)
open Verif.Symm (SymOp IsGroup)
open Verif.GSpace (GVec Shape at')

/-! ## Specification -/

/-- The inverse of a symmetry operation `x ↦ W x + t`. -/
noncomputable def invOp (o : SymOp) (h : IsUnit o.W.det) : Op where
  W := o.W⁻¹
  S := o.W.transpose
  t := fun i => -app o.W⁻¹ o.t i
  inv := by
    rw [Matrix.transpose_transpose]
    exact Matrix.mul_nonsing_inv _ h

/-- It is the inverse. -/
theorem invOp_inverse (o : SymOp) (h : IsUnit o.W.det) (x : Fin 3 → ℝ) (i : Fin 3) : app (invOp o h).W (o.apply x) i + (invOp o h).t i = x i := by
  show app o.W⁻¹ (o.apply x) i + -app o.W⁻¹ o.t i = x i
  unfold SymOp.apply
  have hlin : app o.W⁻¹ ((o.W.map (Int.cast : ℤ → ℝ)).mulVec x + o.t) i = app o.W⁻¹ ((o.W.map (Int.cast : ℤ → ℝ)).mulVec x) i + app o.W⁻¹ o.t i := by
    rw [app_mulVec, app_mulVec, app_mulVec, Matrix.mulVec_add]
    rfl
  have hW : (o.W⁻¹.map (Int.cast : ℤ → ℝ)) * (o.W.map (Int.cast : ℤ → ℝ)) = 1 := by
    have e0 : (o.W⁻¹ * o.W).map (Int.cast : ℤ → ℝ) = o.W⁻¹.map (Int.cast : ℤ → ℝ) * o.W.map (Int.cast : ℤ → ℝ) := Matrix.map_mul (f := Int.castRingHom ℝ)
    rw [← e0, Matrix.nonsing_inv_mul _ h]
    exact Matrix.map_one _ Int.cast_zero Int.cast_one
  rw [hlin, app_mulVec, Matrix.mulVec_mulVec, hW, Matrix.one_mulVec]
  ring

/-- The density of states `psi` with occupations `occ` and the weights of the k-points, on the grid. -/
noncomputable def stateDens (R : Run) {nk nb : ℕ} (kp : Fin nk → KPoint) (occ : Fin nk → Fin nb → ℝ) (psi : (i : Fin nk) → Fin nb → Fin (kp i).idx.length → ℂ) (r : Fin R.d.size) : ℂ :=
  ∑ i, (kp i).w * ∑ b, (occ i b * Complex.normSq (wfR R.drv R.d (kp i).idx R.st (psi i b) r) / R.cellvol : ℝ)

/-- Coefficients by number. -/
noncomputable def byNumber {n : ℕ} (f : Fin n → ℂ) (j : ℕ) : ℂ := if h : j < n then f ⟨j, h⟩ else 0

/-- The symmetry group, as it acts on the run: the operations form a group; the G-vectors of the density are those of the list that the symmetriser uses, which contains all rotated vectors; rotations keep lengths,
and the FFT grid is mapped to itself. -/
structure Acts (R : Run) {n : ℕ} (ops : Fin (n + 1) → SymOp) (sh : Shape) (key : GVec → ℤ) (gs : List GVec) : Prop where
  group : IsGroup ops
  basis : Symm.Basis ops sh key gs
  lat : ∃ u B, mkLat u B = .ok R.L
  size : gs.length = R.idx.length
  g : ∀ j : Fin R.idx.length, Symm.toV (at' gs j) = R.G j
  valid : ValidIdx R.d R.idx
  ix : Indexes R.d R.idx R.G
  keeps : ∀ s, Keeps R.L (ops s).W.transpose
  grid : ∀ s, OnGrid R.d (invOp (ops s) (group.unimod s))

/-! ## Lemmas -/

theorem toG_linear (R : Run) (hv : ValidIdx R.d R.idx) {m : ℕ} (c : ℂ) (u : Fin m → Fin R.d.size → ℂ) (j : Fin R.idx.length) :
    R.space.toG (fun r => (∑ s, u s r) / c) j = (∑ s, R.space.toG (u s) j) / c := by
  have hT : ∀ (u : Fin R.d.size → ℂ), R.space.toG u j = ∑ r : Fin R.d.size, FFT.ker3 R.d (FFT.dftKern true R.d) R.idx[j] r * u r := by
    intro u
    show (R.drv.r2g R.d (FFT.dftKern true R.d) R.idx R.st _).2.getD j 0 = _
    rw [R.drv.r2g_eq R.d _ R.idx hv R.st R.st.f _ _ (fun _ _ => rfl), FFT.fullR2g_eq, FFT.getD_map _ _ _ j.2, Finset.sum_range]
    refine Finset.sum_congr rfl fun r _ => ?_
    have e : R.idx.getD j 0 = R.idx[j] := by simp
    rw [e]
    simp
  simp only [hT]
  have h1 : ∀ r : Fin R.d.size, FFT.ker3 R.d (FFT.dftKern true R.d) R.idx[j] r * ((∑ s, u s r) / c) = (∑ s, FFT.ker3 R.d (FFT.dftKern true R.d) R.idx[j] r * u s r) / c := fun r => by
    rw [← Finset.mul_sum, mul_div_assoc]
  simp only [h1]
  rw [← Finset.sum_div, Finset.sum_comm]

/-- The permutation of the G-vectors by an operation of the group. -/
theorem Acts.perm {R : Run} {n : ℕ} {ops : Fin (n + 1) → SymOp} {sh : Shape} {key : GVec → ℤ} {gs : List GVec} (H : Acts R ops sh key gs) (s : Fin (n + 1)) :
    ∃ ρ : Equiv.Perm (Fin R.idx.length), ∀ j, ((ρ j : Fin _) : ℕ) = gs.idxOf (Symm.rotG (ops s) (at' gs j)) ∧ at' gs (ρ j) = Symm.rotG (ops s) (at' gs j) := by
  have hin : ∀ j : Fin R.idx.length, at' gs j ∈ gs := fun j => by
    have hj : (j : ℕ) < gs.length := by rw [H.size]; exact j.2
    unfold at'
    rw [List.getD_eq_getElem _ _ hj]
    exact List.getElem_mem hj
  have hlt : ∀ j : Fin R.idx.length, gs.idxOf (Symm.rotG (ops s) (at' gs j)) < R.idx.length := fun j => by
    exact lt_of_lt_of_eq (List.idxOf_lt_length_of_mem (H.basis.closed s _ (hin j))) H.size
  have hb : Function.Bijective fun j : Fin R.idx.length => (⟨gs.idxOf (Symm.rotG (ops s) (at' gs j)), hlt j⟩ : Fin R.idx.length) := by
    rw [← Finite.injective_iff_bijective]
    intro i j e
    have e1 : gs.idxOf (Symm.rotG (ops s) (at' gs i)) = gs.idxOf (Symm.rotG (ops s) (at' gs j)) := congrArg Fin.val e
    have e2 := Symm.idxOf_inj' (H.basis.closed s _ (hin i)) (H.basis.closed s _ (hin j)) e1
    have e3 := Symm.rotG_inj H.group s e2
    have hi := Symm.idxOf_at' gs H.basis.nodup i (by rw [H.size]; exact i.2)
    have hj := Symm.idxOf_at' gs H.basis.nodup j (by rw [H.size]; exact j.2)
    exact Fin.ext (by rw [← hi, ← hj, e3])
  refine ⟨Equiv.ofBijective _ hb, fun j => ⟨rfl, ?_⟩⟩
  show at' gs (gs.idxOf (Symm.rotG (ops s) (at' gs j))) = _
  exact Symm.at'_idxOf gs _ (H.basis.closed s _ (hin j))

/-! ## The property -/

/-- **C203.** Irreducible k-points suffice. Let the potential and the crystal be invariant under a group of space-group operations, and let eigenstates be given at some k-points. Then there are eigenstates at the
images of these k-points under all operations of the group, with the same energies, the same occupations and the same inner products, such that symmetrising the density of the given states yields, coefficient for coefficient and
whatever the uninitialised memory contains, the density of all these states, each k-point's weight being shared equally among its images. -/
theorem C203_irreducible_wedge (R : Run) {n : ℕ} (ops : Fin (n + 1) → SymOp) (sh : Shape) (key : GVec → ℤ) (gs : List GVec) (H : Acts R ops sh key gs) (sp : List Sp)
    (hsp : ∀ s, List.Forall₂ (fun x x' => x.Good ∧ Image (invOp (ops s) (H.group.unimod s)) x x') sp sp) (V : Fin R.d.size → ℝ)
    (hV : ∀ s (r r' : Fin R.d.size), Carried R.d (invOp (ops s) (H.group.unimod s)) r r' → V r' = V r) {nk nb : ℕ} (kp : Fin nk → KPoint) (kp' : Fin (n + 1) → Fin nk → KPoint)
    (τ : ∀ s i, Fin (kp i).idx.length ≃ Fin (kp' s i).idx.length) (hk : ∀ s i, KImage R (invOp (ops s) (H.group.unimod s)) (kp i) (kp' s i) (τ s i)) (occ eps : Fin nk → Fin nb → ℝ)
    (psi : (i : Fin nk) → Fin nb → Fin (kp i).idx.length → ℂ) (hpsi : ∀ i b, ham R.drv R.d (kp i).idx R.st R.L (kp i).G (kp i).k V sp (psi i b) = (eps i b : ℂ) • psi i b) (garbage : ℕ → ℂ) :
    ∃ psi' : (s : Fin (n + 1)) → (i : Fin nk) → Fin nb → Fin (kp' s i).idx.length → ℂ,
      (∀ s i b, ham R.drv R.d (kp' s i).idx R.st R.L (kp' s i).G (kp' s i).k V sp (psi' s i b) = (eps i b : ℂ) • psi' s i b) ∧
      (∀ s i b c, ∑ j, conj (psi' s i b j) * psi' s i c j = ∑ j, conj (psi i b j) * psi i c j) ∧
      ∀ j : Fin R.idx.length, Symm.symmetrize ops sh key gs garbage (byNumber (R.space.toG (stateDens R kp occ psi))) j
        = R.space.toG (fun r => (∑ s, stateDens R (kp' s) occ (psi' s) r) / ((n + 1 : ℕ) : ℂ)) j := by
  obtain ⟨u, B, hL⟩ := H.lat
  have hC := fun s i => C184_equivalent_kpoints R.drv R.st R.st u B R.L hL (invOp (ops s) (H.group.unimod s)) (H.keeps s) R.d (H.grid s) (kp i).idx (kp' s i).idx (hk s i).valid (hk s i).valid' (kp i).G (hk s i).ix
    (kp' s i).G (hk s i).ix' (kp i).k (kp' s i).k (τ s i) (hk s i).gk (hk s i).away V V (hV s) sp sp (hsp s)
  refine ⟨fun s i b => carry (invOp (ops s) (H.group.unimod s)) (kp' s i).G (kp' s i).k (τ s i) (psi i b), fun s i b => ((hC s i).2.1 (eps i b) (psi i b)).2 (hpsi i b),
    fun s i b c => (hC s i).2.2.1 (psi i b) (psi i c), fun j => ?_⟩
  have hin : at' gs j ∈ gs := by
    have hj : (j : ℕ) < gs.length := by rw [H.size]; exact j.2
    unfold at'
    rw [List.getD_eq_getElem _ _ hj]
    exact List.getElem_mem hj
  have hidx := Symm.idxOf_at' gs H.basis.nodup j (by rw [H.size]; exact j.2)
  have key1 := Symm.symmetrize_eq_avg H.group H.basis garbage (byNumber (R.space.toG (stateDens R kp occ psi))) _ hin
  rw [hidx] at key1
  rw [key1, toG_linear R H.valid]
  unfold Symm.avg
  congr 1
  refine Finset.sum_congr rfl fun s _ => ?_
  obtain ⟨ρ, hρ⟩ := H.perm s
  have hgj : ∀ i a, ((R.G (ρ i) a : ℤ)) = ((ops s).R.mulVec (R.G i)) a := fun i a => by
    rw [← H.g, (hρ i).2, Symm.toV_rotG, H.g]
  have hσ : ∀ j a, (R.G (ρ.symm j) a : ℝ) = app (invOp (ops s) (H.group.unimod s)).S (fun b => R.G j b) a := by
    intro j a
    obtain ⟨i, rfl⟩ := ρ.surjective j
    rw [ρ.symm_apply_apply]
    show _ = app (ops s).W.transpose _ a
    have : R.G i = (ops s).W.transpose.mulVec (R.G (ρ i)) := by
      have e : R.G (ρ i) = (ops s).R.mulVec (R.G i) := funext (hgj i)
      rw [e, Matrix.mulVec_mulVec]
      have h1 : (ops s).W.transpose * (ops s).R = 1 := by
        unfold SymOp.R
        exact Matrix.mul_nonsing_inv _ (by rw [Matrix.det_transpose]; exact H.group.unimod s)
      rw [h1, Matrix.one_mulVec]
    have := congrFun this a
    rw [this]
    unfold app Matrix.mulVec dotProduct
    push_cast
    rfl
  have S := fft_rot R.drv u B R.L hL (invOp (ops s) (H.group.unimod s)) (H.keeps s) R.d (H.grid s) R.idx H.valid R.st R.dv R.G H.ix ρ.symm hσ
  have hdens : ∀ r, stateDens R (kp' s) occ (fun i b => carry (invOp (ops s) (H.group.unimod s)) (kp' s i).G (kp' s i).k (τ s i) (psi i b)) (gperm R.d (invOp (ops s) (H.group.unimod s)) (H.grid s) r)
      = stateDens R kp occ psi r := by
    intro r
    unfold stateDens
    refine Finset.sum_congr rfl fun i _ => ?_
    rw [(hk s i).w]
    have : ∀ b, Complex.normSq (wfR R.drv R.d (kp' s i).idx R.st (carry (invOp (ops s) (H.group.unimod s)) (kp' s i).G (kp' s i).k (τ s i) (psi i b)) (gperm R.d (invOp (ops s) (H.group.unimod s)) (H.grid s) r))
        = Complex.normSq (wfR R.drv R.d (kp i).idx R.st (psi i b) r) := fun b => (hC s i).2.2.2 (psi i b) r _ (gperm_carried R.d _ (H.grid s) r)
    simp only [this]
  have hG := S.toG _ _ hdens (ρ j)
  rw [ρ.symm_apply_apply] at hG
  refine Eq.trans ?_ hG.symm
  show byNumber (R.space.toG (stateDens R kp occ psi)) (gs.idxOf (Symm.rotG (ops s) (at' gs j))) * Symm.phase (ops s) (Symm.rotG (ops s) (at' gs j))
    = ex (∑ a, (invOp (ops s) (H.group.unimod s)).t a * (R.G j a : ℝ)) * R.space.toG (stateDens R kp occ psi) (ρ j)
  rw [← (hρ j).1]
  have hby : byNumber (R.space.toG (stateDens R kp occ psi)) (ρ j) = R.space.toG (stateDens R kp occ psi) (ρ j) := by
    unfold byNumber
    rw [dif_pos (ρ j).2]
  rw [hby, mul_comm]
  refine congrArg (· * _) ?_
  unfold Symm.phase ex
  congr 1
  have ht : ∑ a, (invOp (ops s) (H.group.unimod s)).t a * (R.G j a : ℝ) = -∑ i, (ops s).t i * (Symm.toV (Symm.rotG (ops s) (at' gs j)) i : ℝ) := by
    have e : Symm.toV (Symm.rotG (ops s) (at' gs j)) = R.G (ρ j) := by rw [← (hρ j).2, H.g]
    rw [e]
    have hj : ∀ a, (R.G j a : ℝ) = app (ops s).W.transpose (fun b => R.G (ρ j) b) a := fun a => by
      have := hσ (ρ j) a
      rw [ρ.symm_apply_apply] at this
      exact this
    show ∑ a, -app (ops s).W⁻¹ (ops s).t a * (R.G j a : ℝ) = _
    have p := (invOp (ops s) (H.group.unimod s)).pair (fun b => R.G (ρ j) b) (ops s).t
    simp only [hj, neg_mul]
    rw [Finset.sum_neg_distrib]
    congr 1
    refine Eq.trans (Finset.sum_congr rfl fun a _ => mul_comm _ _) (p.trans (Finset.sum_congr rfl fun a _ => mul_comm _ _))
  rw [ht]
  push_cast
  ring

/-! ## A case that meets the hypotheses -/

/-- The identity and a twofold screw axis. -/
noncomputable def exOps : Fin 2 → SymOp := ![⟨1, 0⟩, ⟨!![-1, 0, 0; 0, -1, 0; 0, 0, 1], ![0, 0, 1 / 2]⟩]

theorem exOps_sq (s : Fin 2) : (exOps s).W * (exOps s).W = 1 := by
  fin_cases s <;> simp [exOps] <;> decide

theorem exOps_group : IsGroup (n := 1) exOps where
  unimod := fun s => by
    have := congrArg Matrix.det (exOps_sq s)
    rw [Matrix.det_mul, Matrix.det_one] at this
    exact IsUnit.of_mul_eq_one _ this
  id_rot := rfl
  inj := fun s u h => by
    have h0 := congrFun (congrFun h 0) 0
    fin_cases s <;> fin_cases u <;> first | rfl | (simp [exOps] at h0)
  closed := fun s u => by
    refine ⟨s + u, ?_, fun i => ?_⟩
    · fin_cases s <;> fin_cases u <;> simp [exOps] <;> decide
    · refine ⟨if s = 1 ∧ u = 1 ∧ i = 2 then -1 else 0, ?_⟩
      fin_cases s <;> fin_cases u <;> fin_cases i <;> simp [exOps, Matrix.mulVec, dotProduct, Fin.sum_univ_three]
      norm_num

theorem exOps_inv (s : Fin 2) : (exOps s).W⁻¹ = (exOps s).W := Matrix.inv_eq_left_inv (exOps_sq s)

theorem exOps_R (s : Fin 2) : (exOps s).R = (exOps s).W := by
  unfold SymOp.R
  rw [← Matrix.transpose_nonsing_inv, exOps_inv]
  fin_cases s <;> simp [exOps]
  decide

/-- In an empty cubic cell, with the plane wave (0, 0, 1) in the density basis, the k-points (1/4, 0, 1/4) and (-1/4, 0, 1/4) that the screw axis exchanges, and the lowest plane wave as state: the hypotheses of C203. -/
example (drv : Driver) (st : DrvState ℂ) : ∃ (R : Run) (sh : Shape) (key : GVec → ℤ) (gs : List GVec) (H : Acts R (n := 1) exOps sh key gs) (kp : Fin 1 → KPoint) (kp' : Fin 2 → Fin 1 → KPoint)
    (τ : ∀ s i, Fin (kp i).idx.length ≃ Fin (kp' s i).idx.length) (psi : (i : Fin 1) → Fin 1 → Fin (kp i).idx.length → ℂ),
    R.drv = drv ∧ (0, 0, 1) ∈ gs ∧ (∀ s i, KImage R (invOp (exOps s) (H.group.unimod s)) (kp i) (kp' s i) (τ s i)) ∧ (kp' 1 0).k ≠ (kp 0).k ∧
    (∀ i b, ham R.drv R.d (kp i).idx R.st R.L (kp i).G (kp i).k (fun _ => 0) [] (psi i b) = ((1 / 16 : ℝ) : ℂ) • psi i b) ∧ psi 0 0 ≠ 0 := by
  obtain ⟨L, hL⟩ : ∃ L, mkLat 1 (1 : Mat) = .ok L := ⟨_, by unfold mkLat; rw [if_neg (by simp)]⟩
  have hn : ∀ v, L.norm2Cryst v = v 0 ^ 2 + v 1 ^ 2 + v 2 ^ 2 := by
    intro v
    rw [(Lattice.C26_metric 1 _ L hL v 0).2.1]
    obtain ⟨-, e1, e2, -⟩ := Lattice.mkLat_ok hL
    unfold Lat.cryst2cart dotCart dotProduct
    rw [e2]
    simp [Fin.sum_univ_three]
    ring
  let R : Run := ⟨drv, st, L, ⟨2, 2, 4⟩, [0, 1], ![0, ![0, 0, 1]], 1, 1, 2, fun _ => 0, 0, 1, one_pos, noXC _, noXC _⟩
  have hgr : ∀ s : Fin 2, OnGrid ⟨2, 2, 4⟩ (invOp (exOps s) (exOps_group.unimod s)) := by
    intro s r hr
    have hr : r < 16 := hr
    let W : Fin 2 → Matrix (Fin 3) (Fin 3) ℤ := ![1, !![-1, 0, 0; 0, -1, 0; 0, 0, 1]]
    have : ∀ (s : Fin 2) (r : Fin 16), ∃ r' : Fin 16, ∃ m : Fin 3 → Fin 3, ∀ a : Fin 3, (coord ⟨2, 2, 4⟩ r' a : ℤ) = ∑ b, (![1, !![-1, 0, 0; 0, -1, 0; 0, 0, 1]] : Fin 2 → Matrix (Fin 3) (Fin 3) ℤ) s a b * coord ⟨2, 2, 4⟩ r b
        - (![0, ![0, 0, 2]] : Fin 2 → Fin 3 → ℤ) s a + (((m a : ℕ) : ℤ) - 1) * (![2, 2, 4] : Fin 3 → ℤ) a := by
      decide
    obtain ⟨r', m, hm⟩ := this s ⟨r, hr⟩
    refine ⟨r', r'.2, fun a => ⟨((m a : ℕ) : ℤ) - 1, ?_⟩⟩
    have e : ((coord ⟨2, 2, 4⟩ r' a : ℤ) : ℝ) = _ := congrArg (Int.cast : ℤ → ℝ) (hm a)
    show pos ⟨2, 2, 4⟩ r' a = app (exOps s).W⁻¹ (pos ⟨2, 2, 4⟩ r) a + -app (exOps s).W⁻¹ (exOps s).t a + _
    rw [exOps_inv]
    unfold pos app
    fin_cases s <;> fin_cases a <;> simp [exOps, len, Fin.sum_univ_three] at e ⊢ <;> rw [e] <;> ring
  have hv : ValidIdx ⟨2, 2, 4⟩ [0, 1] := by unfold ValidIdx; decide
  have hv0 : ValidIdx ⟨2, 2, 4⟩ [0] := by unfold ValidIdx; decide
  have hix0 : ∀ G : Fin ([0] : List ℕ).length → Fin 3 → ℤ, (∀ j, G j = 0) → Indexes ⟨2, 2, 4⟩ [0] G := by
    intro G hG j a
    change Fin 1 at j
    have : ∀ (j : Fin 1) (a : Fin 3), coord ⟨2, 2, 4⟩ (([0] : List ℕ)[j]) a = 0 := by decide
    exact ⟨0, by rw [hG, zero_mul, add_zero]; exact (congrArg (Nat.cast : ℕ → ℤ) (this j a)).symm⟩
  have hK : ∀ s : Fin 2, Keeps L (exOps s).W.transpose := by
    intro s v
    rw [hn, hn]
    fin_cases s <;> simp [exOps, app, Fin.sum_univ_three, Matrix.one_apply]
  let gs : List GVec := [(0, 0, 0), (0, 0, 1)]
  have hrot : ∀ s : Fin 2, ∀ g ∈ gs, Symm.rotG (exOps s) g = g := by
    intro s g hg
    unfold Symm.rotG
    rw [exOps_R]
    have hg : g = (0, 0, 0) ∨ g = (0, 0, 1) := by simpa [gs] using hg
    rcases hg with rfl | rfl <;> fin_cases s <;> simp [exOps, Symm.ofV, Symm.toV, Matrix.mulVec, dotProduct, Fin.sum_univ_three]
  have H : Acts R (n := 1) exOps ⟨2, 2, 4⟩ (fun g => g.1 ^ 2 + g.2.1 ^ 2 + g.2.2 ^ 2) gs :=
    { group := exOps_group
      basis := ⟨by unfold GSpace.Shape.Pos; decide, by decide, by decide, fun s g hg => by rw [hrot s g hg]; exact hg, fun s g hg => by rw [hrot s g hg]⟩
      lat := ⟨1, 1, hL⟩
      size := rfl
      g := fun j => by
        change Fin 2 at j
        fin_cases j
        · funext a
          fin_cases a <;> rfl
        · funext a
          fin_cases a <;> rfl
      valid := hv
      ix := fun j a => by
        change Fin 2 at j
        have : ∀ (j : Fin 2) (a : Fin 3), (![0, ![0, 0, 1]] : Fin 2 → Fin 3 → ℤ) j a = (coord ⟨2, 2, 4⟩ (([0, 1] : List ℕ)[j]) a : ℤ) := by decide
        exact ⟨0, by rw [zero_mul, add_zero]; exact this j a⟩
      keeps := hK
      grid := hgr }
  refine ⟨R, ⟨2, 2, 4⟩, _, gs, H, fun _ => ⟨[0], fun _ => 0, ![1 / 4, 0, 1 / 4], 1⟩, fun s _ => ⟨[0], fun _ => 0, ![![1 / 4, 0, 1 / 4], ![-1 / 4, 0, 1 / 4]] s, 1⟩, fun _ _ => Equiv.refl _, fun _ _ _ => 1, rfl, by simp [gs],
    fun s i => ⟨hv0, hv0, hix0 _ fun _ => rfl, hix0 _ fun _ => rfl, rfl, fun j => ?_, fun j => .inr ?_⟩, ?_, ?_, ?_⟩
  · show gkv _ _ _ = app (exOps s).W.transpose _
    funext a
    fin_cases s <;> fin_cases a <;> simp [gkv, app, exOps, Fin.sum_univ_three, Matrix.one_apply] <;> norm_num
  · show _ < vlen (L.cryst2cart (gkv (fun _ => 0) ![1 / 4, 0, 1 / 4] j))
    rw [vlen_sq, dot_cart, ← (Lattice.C26_metric 1 _ L hL _ 0).2.1]
    refine Real.lt_sqrt_of_sq_lt ?_
    rw [hn]
    simp [gkv]
    norm_num
  · intro h
    have := congrFun h 0
    simp at this
    norm_num at this
  · intro i b
    funext j
    have hw : ∀ u : Fin (⟨2, 2, 4⟩ : Dims).size → ℂ, (∀ r, u r = 0) → wfG drv ⟨2, 2, 4⟩ [0] st u j = 0 := by
      intro u hu
      rw [wfG_eq drv _ _ hv0]
      simp [hu]
    show ((1 / 2 * L.norm2Cryst (gkv (fun _ => 0) ![1 / 4, 0, 1 / 4] j) : ℝ) : ℂ) * 1 + wfG drv ⟨2, 2, 4⟩ [0] st (fun r => wfR drv ⟨2, 2, 4⟩ [0] st (fun _ => 1) r * (((0 : ℝ) : ℂ) / _)) j = ((1 / 16 : ℝ) : ℂ) • (1 : ℂ)
    rw [hw _ fun r => by simp, hn]
    simp [gkv]
    norm_num
  · intro h
    have := congrFun h (0 : Fin 1)
    simp at this

end Verif.Rot
