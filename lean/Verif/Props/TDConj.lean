import Verif.Props.TDMoved

/-!
# Property C229: complex conjugate orbitals run backwards in time
-/

namespace Verif.TDDFT

open scoped ComplexConjugate
open Matrix
open Verif.FFT (Driver Dims DrvState ValidIdx)
open Verif.Nonloc (Proj wfR wfG gridDot)
open Verif.Mesh (normalise density)
open Verif.Trans (coord len)

variable {drv : Driver} {d : Dims} {idx : List ℕ} {st : DrvState ℂ} {nb : ℕ}

/-- `σ` takes every plane wave of the basis to the one with the opposite G-vector (on the grid). -/
def Opposite (d : Dims) (idx : List ℕ) (σ : Equiv.Perm (Fin idx.length)) : Prop := ∀ j a, ∃ m : ℤ, (coord d idx[σ j] a : ℤ) = -(coord d idx[j] a : ℤ) + m * len d a

/-- The projectors are real functions in space, and their coefficients are real. -/
def RealProj {n : ℕ} (σ : Equiv.Perm (Fin n)) (P : Proj n) : Prop := (∀ i j, P.vkb i (σ j) = conj (P.vkb i j)) ∧ ∀ i i', conj (P.dij i i') = P.dij i i'

/-- The complex conjugate (in space) of an orbital: `conj ψ` has the coefficient `conj c(-G)` at `G`. -/
noncomputable def conjOrb {n : ℕ} (σ : Equiv.Perm (Fin n)) (x : Fin n → ℂ) : Fin n → ℂ := fun j => conj (x (σ.symm j))

theorem conjOrb_at {n : ℕ} (σ : Equiv.Perm (Fin n)) (x : Fin n → ℂ) (j : Fin n) : conjOrb σ x (σ j) = conj (x j) := by
  unfold conjOrb
  rw [Equiv.symm_apply_apply]

theorem eq_conjOrb {n : ℕ} (σ : Equiv.Perm (Fin n)) (x y : Fin n → ℂ) (h : ∀ j, y (σ j) = conj (x j)) : y = conjOrb σ x := by
  funext j
  have := h (σ.symm j)
  rw [Equiv.apply_symm_apply] at this
  exact this

theorem gridDot_opp (σ : Equiv.Perm (Fin idx.length)) (hσ : Opposite d idx σ) (j : Fin idx.length) (r : ℕ) (hr : r < d.size) : ∃ m : ℤ, gridDot d idx[σ j] r = -gridDot d idx[j] r + m := by
  choose m hm using fun a => hσ j a
  refine ⟨∑ a, m a * coord d r a, ?_⟩
  rw [Trans.gridDot_sum, Trans.gridDot_sum, ← Finset.sum_neg_distrib]
  push_cast
  rw [← Finset.sum_add_distrib]
  refine Finset.sum_congr rfl fun a _ => ?_
  have h0 := Trans.len_pos d r hr a
  have e : (coord d idx[σ j] a : ℝ) = -(coord d idx[j] a : ℝ) + m a * len d a := by exact_mod_cast hm a
  rw [e]
  field_simp

theorem ker_fwd (j : Fin idx.length) (x : ℕ) : FFT.ker3 d (FFT.dftKern true d) idx[j] x = Complex.exp (-(2 * Real.pi * Complex.I) * ((gridDot d idx[j] x : ℝ) : ℂ)) := by
  rw [FFT.dft_ker3_fwd]
  congr 1
  unfold Nonloc.gridDot
  push_cast
  ring

theorem ker_bwd (j : Fin idx.length) (x : ℕ) : FFT.ker3 d (FFT.dftKern false d) x idx[j] = conj (Complex.exp (-(2 * Real.pi * Complex.I) * ((gridDot d idx[j] x : ℝ) : ℂ))) := by
  rw [FFT.dft_ker3_bwd, Nonloc.gridDot_exp_conj]
  congr 1
  unfold Nonloc.gridDot
  push_cast
  ring

theorem exp_opp (σ : Equiv.Perm (Fin idx.length)) (hσ : Opposite d idx σ) (j : Fin idx.length) (r : ℕ) (hr : r < d.size) :
    Complex.exp (-(2 * Real.pi * Complex.I) * ((gridDot d idx[σ j] r : ℝ) : ℂ)) = conj (Complex.exp (-(2 * Real.pi * Complex.I) * ((gridDot d idx[j] r : ℝ) : ℂ))) := by
  obtain ⟨m, hm⟩ := gridDot_opp σ hσ j r hr
  rw [hm, Nonloc.exp_int_shift, Nonloc.gridDot_exp_conj]

theorem conj_wfR (hv : ValidIdx d idx) (σ : Equiv.Perm (Fin idx.length)) (hσ : Opposite d idx σ) (x : Fin idx.length → ℂ) (r : Fin d.size) : wfR drv d idx st (conjOrb σ x) r = conj (wfR drv d idx st x r) := by
  rw [Nonloc.wfR_eq drv d idx hv, Nonloc.wfR_eq drv d idx hv, ← Equiv.sum_comp σ, map_sum]
  refine Finset.sum_congr rfl fun j _ => ?_
  rw [conjOrb_at, ker_bwd, ker_bwd, exp_opp σ hσ j r r.2, map_mul]

theorem conj_wfG (hv : ValidIdx d idx) (σ : Equiv.Perm (Fin idx.length)) (hσ : Opposite d idx σ) (f : Fin d.size → ℂ) : wfG drv d idx st (fun r => conj (f r)) = conjOrb σ (wfG drv d idx st f) := by
  refine eq_conjOrb σ _ _ fun j => ?_
  rw [Nonloc.wfG_eq drv d idx hv, Nonloc.wfG_eq drv d idx hv, map_sum]
  refine Finset.sum_congr rfl fun r _ => ?_
  rw [ker_fwd, ker_fwd, exp_opp σ hσ j r r.2, map_mul]

theorem conj_nrm {n : ℕ} (σ : Equiv.Perm (Fin n)) (x : Fin n → ℂ) : normalise (conjOrb σ x) = conjOrb σ (normalise x) := by
  refine eq_conjOrb σ _ _ fun j => ?_
  unfold normalise
  have e : ∑ i, Complex.normSq (conjOrb σ x i) = ∑ i, Complex.normSq (x i) := by
    rw [← Equiv.sum_comp σ]
    exact Finset.sum_congr rfl fun i _ => by rw [conjOrb_at, Complex.normSq_conj]
  rw [e, conjOrb_at, map_div₀, Complex.conj_ofReal]

theorem conj_dens (hv : ValidIdx d idx) (σ : Equiv.Perm (Fin idx.length)) (hσ : Opposite d idx σ) (kw vol : ℝ) (occ : Fin nb → ℝ) (x : Fin nb → Fin idx.length → ℂ) :
    density drv d idx st kw vol occ (fun b => conjOrb σ (x b)) = density drv d idx st kw vol occ x := by
  funext r
  unfold density
  simp only [conj_nrm, conj_wfR hv σ hσ, Complex.normSq_conj]

theorem conj_vloc (hv : ValidIdx d idx) (σ : Equiv.Perm (Fin idx.length)) (hσ : Opposite d idx σ) (dt : ℝ) (V : Fin d.size → ℝ) (x : Fin idx.length → ℂ) :
    operVloc drv d idx st (-dt) (fun r => (V r : ℂ) / d.size) (conjOrb σ x) = conjOrb σ (operVloc drv d idx st dt (fun r => (V r : ℂ) / d.size) x) := by
  unfold operVloc
  rw [← conj_wfG hv σ hσ]
  congr 1
  funext r
  rw [conj_wfR hv σ hσ, map_mul, ← Complex.exp_conj]
  congr 2
  simp [Complex.conj_ofReal]

theorem conj_ke {n : ℕ} (σ : Equiv.Perm (Fin n)) (ke : Fin n → ℝ) (hk : ∀ j, ke (σ j) = ke j) (dt : ℝ) (x : Fin n → ℂ) : operKe ke (-dt) (conjOrb σ x) = conjOrb σ (operKe ke dt x) := by
  refine eq_conjOrb σ _ _ fun j => ?_
  unfold operKe
  rw [conjOrb_at, hk, map_mul, ← Complex.exp_conj]
  congr 2
  simp only [map_mul, map_neg, map_div₀, map_one, Complex.conj_I, Complex.conj_ofReal, map_ofNat]
  push_cast
  ring

/-- Entrywise complex conjugate. -/
theorem map_conj_eq {m n : Type*} (A : Matrix m n ℂ) : A.map conj = Aᴴᵀ := by
  ext i j
  rfl

theorem conj_overlap {n : ℕ} (σ : Equiv.Perm (Fin n)) (P : Proj n) (h : RealProj σ P) : ((projMat P)ᴴ * projMat P).map conj = (projMat P)ᴴ * projMat P := by
  ext i i'
  rw [Matrix.map_apply, Matrix.mul_apply, map_sum, ← Equiv.sum_comp σ fun j => (projMat P)ᴴ i j * projMat P j i']
  refine Finset.sum_congr rfl fun j _ => ?_
  show conj (conj (P.vkb i j) * P.vkb i' j) = conj (P.vkb i (σ j)) * P.vkb i' (σ j)
  rw [h.1, h.1, map_mul]

/-- **C229 (factors).** The exponentials of the coefficients of real projectors for the time step `-dt` are the complex conjugates of those for `dt`; the refusals are the same. -/
theorem C229_factors {n : ℕ} (σ : Equiv.Perm (Fin n)) (P : Proj n) (h : RealProj σ P) (dt : ℝ) : expDij P (-dt) = (expDij P dt).map fun E => E.map conj := by
  have ho := conj_overlap σ P h
  unfold expDij
  simp only
  split_ifs with h0
  · rfl
  · simp only [Except.map]
    congr 1
    set O := (projMat P)ᴴ * projMat P with hO
    have hD : (dijMat P).map conj = dijMat P := by
      ext i i'
      exact h.2 i i'
    have e1 : (O⁻¹).map conj = O⁻¹ := by
      rw [map_conj_eq, Matrix.conjTranspose_nonsing_inv, Matrix.transpose_nonsing_inv, ← map_conj_eq, ho]
    have hm : ∀ A B : Matrix (Fin P.num) (Fin P.num) ℂ, (A * B).map conj = A.map conj * B.map conj := fun A B => Matrix.map_mul (f := starRingEnd ℂ)
    rw [hm, e1]
    congr 1
    have hs : ∀ A : Matrix (Fin P.num) (Fin P.num) ℂ, (A - 1).map conj = A.map conj - 1 := by
      intro A
      ext i j
      simp only [Matrix.map_apply, Matrix.sub_apply, map_sub, Matrix.one_apply]
      split_ifs <;> simp
    rw [hs]
    congr 1
    rw [map_conj_eq, ← Matrix.exp_conjTranspose, ← Matrix.exp_transpose, ← map_conj_eq]
    congr 1
    have hsm : ∀ (z : ℂ) (A : Matrix (Fin P.num) (Fin P.num) ℂ), (z • A).map conj = conj z • A.map conj := by
      intro z A
      ext i j
      simp
    rw [hsm, hm, ho, hD]
    congr 1
    simp only [map_mul, map_neg, map_div₀, map_one, Complex.conj_I, Complex.conj_ofReal, map_ofNat]
    push_cast
    ring

theorem conj_nl {n : ℕ} (σ : Equiv.Perm (Fin n)) (P : Proj n) (h : RealProj σ P) (E : Matrix (Fin P.num) (Fin P.num) ℂ) (x : Fin n → ℂ) : operNl P (E.map conj) (conjOrb σ x) = conjOrb σ (operNl P E x) := by
  have a : (projMat P)ᴴ *ᵥ conjOrb σ x = fun i => conj (((projMat P)ᴴ *ᵥ x) i) := by
    funext i
    show ∑ j, conj (P.vkb i j) * conjOrb σ x j = conj (∑ j, conj (P.vkb i j) * x j)
    rw [← Equiv.sum_comp σ, map_sum]
    refine Finset.sum_congr rfl fun j _ => ?_
    rw [conjOrb_at, h.1, map_mul]
  have b : ∀ y : Fin P.num → ℂ, (E.map conj) *ᵥ (fun i => conj (y i)) = fun i => conj ((E *ᵥ y) i) := by
    intro y
    funext i
    show ∑ k, conj (E i k) * conj (y k) = conj (∑ k, E i k * y k)
    rw [map_sum]
    exact Finset.sum_congr rfl fun k _ => (map_mul _ _ _).symm
  refine eq_conjOrb σ _ _ fun j => ?_
  unfold operNl
  rw [a, b]
  show conjOrb σ x (σ j) + ∑ i : Fin P.num, P.vkb i (σ j) * conj ((E *ᵥ ((projMat P)ᴴ *ᵥ x)) i) = conj (x j + ∑ i : Fin P.num, P.vkb i j * (E *ᵥ ((projMat P)ᴴ *ᵥ x)) i)
  rw [conjOrb_at, map_add, map_sum]
  congr 1
  refine Finset.sum_congr rfl fun i _ => ?_
  rw [h.1, map_mul]

theorem conj_ham (σ : Equiv.Perm (Fin idx.length)) (hσ : Opposite d idx σ) (gk2 : Fin idx.length → ℝ) (hg : ∀ j, gk2 (σ j) = gk2 j) (V : Fin d.size → ℝ) (nl : List (Proj idx.length)) (hnl : ∀ P ∈ nl, RealProj σ P) (j k : Fin idx.length) :
    Nonloc.hamMatrix d idx gk2 V nl (σ j) (σ k) = conj (Nonloc.hamMatrix d idx gk2 V nl j k) := by
  unfold Nonloc.hamMatrix
  rw [map_add, map_add]
  congr 1
  · congr 1
    · simp only [EmbeddingLike.apply_eq_iff_eq, hg]
      split_ifs
      · rw [Complex.conj_ofReal]
      · simp
    · rw [map_mul, map_sum]
      congr 1
      · simp
      · refine Finset.sum_congr rfl fun r _ => ?_
        rw [map_mul, Complex.conj_ofReal]
        congr 1
        have s : ∀ a b : ℝ, Complex.exp (-(2 * Real.pi * Complex.I) * ((a - b : ℝ) : ℂ)) = Complex.exp (-(2 * Real.pi * Complex.I) * (a : ℂ)) * conj (Complex.exp (-(2 * Real.pi * Complex.I) * (b : ℂ))) := by
          intro a b
          rw [Nonloc.gridDot_exp_conj, ← Complex.exp_add]
          congr 1
          push_cast
          ring
        rw [s, s, exp_opp σ hσ j r r.2, exp_opp σ hσ k r r.2, map_mul]
  · rw [map_list_sum, List.map_map]
    congr 1
    refine List.map_congr_left fun P hP => ?_
    show Nonloc.nlMatrix P (σ j) (σ k) = conj (Nonloc.nlMatrix P j k)
    unfold Nonloc.nlMatrix
    rw [map_sum]
    refine Finset.sum_congr rfl fun i _ => ?_
    rw [map_sum]
    refine Finset.sum_congr rfl fun i' _ => ?_
    rw [(hnl P hP).1, (hnl P hP).1, map_mul, map_mul, (hnl P hP).2]

theorem conj_taylor (hv : ValidIdx d idx) (σ : Equiv.Perm (Fin idx.length)) (hσ : Opposite d idx σ) (gk2 : Fin idx.length → ℝ) (hg : ∀ j, gk2 (σ j) = gk2 j) (V : Fin d.size → ℝ) (nl : List (Proj idx.length)) (hnl : ∀ P ∈ nl, RealProj σ P) (dt : ℝ) (order : ℕ) (x : Fin idx.length → ℂ) :
    taylorProp (Nonloc.hPsi .gpu drv d idx st gk2 (fun r => (V r : ℂ) / d.size) nl) (-dt) order (conjOrb σ x) = conjOrb σ (taylorProp (Nonloc.hPsi .gpu drv d idx st gk2 (fun r => (V r : ℂ) / d.size) nl) dt order x) := by
  have hH : ∀ y, Nonloc.hPsi .gpu drv d idx st gk2 (fun r => (V r : ℂ) / d.size) nl (conjOrb σ y) = conjOrb σ (Nonloc.hPsi .gpu drv d idx st gk2 (fun r => (V r : ℂ) / d.size) nl y) := by
    intro y
    refine eq_conjOrb σ _ _ fun j => ?_
    rw [Nonloc.C72_h_psi_is_hamiltonian drv d idx hv, Nonloc.C72_h_psi_is_hamiltonian drv d idx hv, ← Equiv.sum_comp σ, map_sum]
    refine Finset.sum_congr rfl fun k _ => ?_
    rw [conj_ham σ hσ gk2 hg V nl hnl, conjOrb_at, map_mul]
  have hit : ∀ m, (Nonloc.hPsi .gpu drv d idx st gk2 (fun r => (V r : ℂ) / d.size) nl)^[m] (conjOrb σ x) = conjOrb σ ((Nonloc.hPsi .gpu drv d idx st gk2 (fun r => (V r : ℂ) / d.size) nl)^[m] x) := by
    intro m
    induction m with
    | zero => rfl
    | succ m ih => rw [Function.iterate_succ_apply', ih, hH, Function.iterate_succ_apply']
  rw [C49_truncated_exponential, C49_truncated_exponential]
  simp only [hit]
  funext j
  unfold conjOrb
  simp only [Finset.sum_apply, Pi.smul_apply, smul_eq_mul, map_sum, map_mul, map_div₀, map_pow, map_neg, Complex.conj_I, Complex.conj_ofReal, map_natCast]
  refine Finset.sum_congr rfl fun m _ => ?_
  push_cast
  ring

/-- The species with the factors for the opposite time step (C229_factors). -/
noncomputable def conjFactors {n : ℕ} (nl : List ((P : Proj n) × Matrix (Fin P.num) (Fin P.num) ℂ)) : List ((P : Proj n) × Matrix (Fin P.num) (Fin P.num) ℂ) := nl.map fun pe => ⟨pe.1, pe.2.map conj⟩

/-- **C229.** At the Γ point with real projectors: propagating the complex conjugate orbitals with the time step `-dt` gives the complex conjugates of the orbitals propagated with `dt` and the same densities at every step, for every choice of methods, every order, basis, potential as a function of the density, occupation and number of steps. -/
theorem C229_conjugation (hv : ValidIdx d idx) (σ : Equiv.Perm (Fin idx.length)) (hσ : Opposite d idx σ) (expMethod propMethod : String) (ke gk2 : Fin idx.length → ℝ) (hk : ∀ j, ke (σ j) = ke j) (hg : ∀ j, gk2 (σ j) = gk2 j) (dt : ℝ) (order : ℕ) (kw vol : ℝ)
    (nl : List ((P : Proj idx.length) × Matrix (Fin P.num) (Fin P.num) ℂ)) (hnl : ∀ pe ∈ nl, RealProj σ pe.1) (pot nrmRho : (Fin d.size → ℝ) → Fin d.size → ℝ) (occ : Fin nb → ℝ) (numstep : ℕ) (r0 r0' : Fin d.size → ℝ) (psi : Fin nb → Fin idx.length → ℂ) :
    propagate (bandOps drv d idx st ke gk2 (-dt) order kw vol (conjFactors nl) pot nrmRho occ) expMethod propMethod numstep r0' (fun b => conjOrb σ (psi b))
      = (propagate (bandOps drv d idx st ke gk2 dt order kw vol nl pot nrmRho occ) expMethod propMethod numstep r0 psi).map fun a => (fun b => conjOrb σ (a.1 b), a.2) := by
  have := C227_image expMethod propMethod (fun _ => True) (fun (x : Fin nb → Fin idx.length → ℂ) b => conjOrb σ (x b)) id id (bandOps drv d idx st ke gk2 dt order kw vol nl pot nrmRho occ) (bandOps drv d idx st ke gk2 (-dt) order kw vol (conjFactors nl) pot nrmRho occ) (fun kind etrs _ => by
    refine { nrm := fun x _ => ⟨funext fun b => conj_nrm σ (x b), trivial⟩, dens := fun x _ => conj_dens hv σ hσ kw vol occ x, pot := fun r => rfl, avg := fun r r' => rfl, nrmRho := fun r => rfl, taylor := fun _ V x _ => ⟨funext fun b => ?_, trivial⟩, ke := fun _ x _ => ⟨funext fun b => conj_ke σ ke hk dt (x b), trivial⟩, nl := fun _ => ?_, vl := fun _ V x _ => ⟨funext fun b => conj_vloc hv σ hσ dt V (x b), trivial⟩ }
    · have := conj_taylor (drv := drv) (st := st) hv σ hσ gk2 hg V (nl.map (·.1)) (fun P hP => by
        obtain ⟨pe, hpe, rfl⟩ := List.mem_map.1 hP
        exact hnl pe hpe) dt order (x b)
      simp only [bandOps, conjFactors, List.map_map, Function.comp_def]
      exact this
    · simp only [bandOps, conjFactors, List.map_map]
      rw [List.forall₂_map_left_iff, List.forall₂_map_right_iff, List.forall₂_same]
      exact fun pe hpe x _ => ⟨funext fun b => conj_nl σ pe.1 (hnl pe hpe) pe.2 (x b), trivial⟩) numstep r0 r0' psi trivial
  simp only [List.map_id] at this
  exact this

/-- **C229 (projectors).** The projectors of a species are real functions in space at the Γ point when the angular and radial parts have the parity of their angular momentum. -/
theorem C229_real_projectors {n : ℕ} (σ : Equiv.Perm (Fin n)) (nat nv : ℕ) (tau : ℕ → Fin 3 → ℝ) (g : Fin n → Fin 3 → ℝ) (hg : ∀ j a, g (σ j) a = -g j a) (atom : ℕ → Fin n → ℂ) (l : ℕ → ℕ) (hat : ∀ i j, atom i (σ j) = (-1) ^ l i * conj (atom i j)) (dijA : ℕ → ℕ → ℝ) :
    RealProj σ (Nonloc.genVkbDij nat nv tau g atom l dijA) := by
  constructor
  · intro i j
    unfold Nonloc.genVkbDij
    simp only [hat, hg, mul_neg, Finset.sum_neg_distrib, map_mul, map_neg, map_pow, Complex.conj_I]
    rw [Nonloc.gridDot_exp_conj, neg_pow Complex.I]
    ring
  · intro i i'
    unfold Nonloc.genVkbDij
    simp only
    split_ifs
    · exact Complex.conj_ofReal _
    · simp

/-- The hypotheses are met: four points along one axis, the G-vectors 0, 1, -1, and one p projector that is odd. -/
example : ValidIdx ⟨4, 1, 1⟩ [0, 1, 3] ∧ Opposite ⟨4, 1, 1⟩ [0, 1, 3] (Equiv.swap (1 : Fin 3) 2) ∧
    RealProj (Equiv.swap (1 : Fin 3) 2) (Nonloc.genVkbDij 1 1 (fun _ _ => 1 / 3) (fun j a => if a = 0 then ![0, 1, -1] j else 0) (fun _ j => ![0, 1, -1] j) (fun _ => 1) fun _ _ => 1) := by
  refine ⟨by unfold ValidIdx; decide, ?_, ?_⟩
  · intro j a
    change Fin 3 at j
    fin_cases j <;> fin_cases a
    · exact ⟨0, by decide⟩
    · exact ⟨0, by decide⟩
    · exact ⟨0, by decide⟩
    · exact ⟨1, by decide⟩
    · exact ⟨0, by decide⟩
    · exact ⟨0, by decide⟩
    · exact ⟨1, by decide⟩
    · exact ⟨0, by decide⟩
    · exact ⟨0, by decide⟩
  · apply C229_real_projectors
    · intro j a
      fin_cases j <;> fin_cases a <;> simp [Equiv.swap_apply_def]
    · intro i j
      fin_cases j <;> simp [Equiv.swap_apply_def]

end Verif.TDDFT
