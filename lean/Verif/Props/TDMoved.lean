import Verif.Props.TDProp
import Verif.Props.TransPot

/-!
# Property C228: the zero of the potential and the place of the crystal in a time propagation
-/

namespace Verif.TDDFT

open scoped ComplexConjugate
open Matrix
open Verif.FFT (Driver Dims DrvState ValidIdx)
open Verif.Nonloc (Proj wfR wfG)
open Verif.Mesh (normalise density)
open Verif.Trans (Moved Indexes Species phase vec perm perm_moved phase_unit)

/-! ## A constant in the potential -/

section constant

variable {drv : Driver} {d : Dims} {idx : List ℕ} {st : DrvState ℂ} {nb : ℕ}

/-- Orbitals that differ by a phase each. -/
def upToPhases (nb n : ℕ) : Setoid (Fin nb → Fin n → ℂ) where
  r x y := ∃ z : Fin nb → ℂ, (∀ b, ‖z b‖ = 1) ∧ y = fun b j => z b * x b j
  iseqv := {
    refl := fun x => ⟨fun _ => 1, by simp, by simp⟩
    symm := by
      rintro x y ⟨z, hz, rfl⟩
      refine ⟨fun b => (z b)⁻¹, fun b => by rw [norm_inv, hz, inv_one], ?_⟩
      funext b j
      have : z b ≠ 0 := fun h => by have := hz b; rw [h, norm_zero] at this; exact zero_ne_one this
      field_simp
    trans := by
      rintro x y w ⟨z, hz, rfl⟩ ⟨z', hz', rfl⟩
      exact ⟨fun b => z' b * z b, fun b => by rw [norm_mul, hz, hz', one_mul], by funext b j; ring⟩ }

/-- Orbitals without their phases. -/
abbrev Rays (nb n : ℕ) := Quotient (upToPhases nb n)

/-- The orbitals without their phases. -/
def ray {n : ℕ} (x : Fin nb → Fin n → ℂ) : Rays nb n := Quotient.mk (upToPhases nb n) x

theorem ray_out {n : ℕ} (f : (Fin nb → Fin n → ℂ) → Fin nb → Fin n → ℂ) (hf : ∀ (z : Fin nb → ℂ), (∀ b, ‖z b‖ = 1) → ∀ x, f (relabel 1 z x) = relabel 1 z (f x)) (x : Fin nb → Fin n → ℂ) : ray (f (Quotient.out (ray x))) = ray (f x) := by
  obtain ⟨z, hz, h⟩ : (upToPhases nb n).r (Quotient.out (ray x)) x := Quotient.exact (Quotient.out_eq (ray x))
  refine Quotient.sound ⟨z, hz, ?_⟩
  have e : x = relabel 1 z (Quotient.out (ray x)) := h
  calc f x = f (relabel 1 z (Quotient.out (ray x))) := by rw [← e]
    _ = _ := hf z hz _

theorem shift_vloc (hv : ValidIdx d idx) (dt c : ℝ) (V : Fin d.size → ℝ) (x : Fin idx.length → ℂ) :
    operVloc drv d idx st dt (fun r => ((V r + c : ℝ) : ℂ) / d.size) x = fun j => Complex.exp (-Complex.I * dt * c) * operVloc drv d idx st dt (fun r => (V r : ℂ) / d.size) x j := by
  funext j
  unfold operVloc
  rw [Nonloc.wfG_eq drv d idx hv, Nonloc.wfG_eq drv d idx hv]
  simp only [Finset.mul_sum]
  refine Finset.sum_congr rfl fun r _ => ?_
  have hs : (d.size : ℂ) ≠ 0 := by exact_mod_cast (by have := r.2; omega : d.size ≠ 0)
  have e : -Complex.I * dt * d.size * (((V r + c : ℝ) : ℂ) / d.size) = -Complex.I * dt * c + -Complex.I * dt * d.size * ((V r : ℂ) / d.size) := by
    push_cast
    field_simp
    ring
  rw [e, Complex.exp_add]
  ring

/-- The operations on orbitals without phases. -/
noncomputable def rayOps {n : ℕ} {R V : Type*} (o : Ops (Fin nb → Fin n → ℂ) R V) : Ops (Rays nb n) R V where
  nrm q := ray (o.nrm q.out)
  dens q := o.dens q.out
  pot := o.pot
  avg := o.avg
  nrmRho := o.nrmRho
  taylor v q := ray (o.taylor v q.out)
  ke q := ray (o.ke q.out)
  nl := o.nl.map fun f q => ray (f q.out)
  vl v q := ray (o.vl v q.out)

variable (ke gk2 : Fin idx.length → ℝ) (dt : ℝ) (order : ℕ) (kw vol : ℝ) (nl : List ((P : Proj idx.length) × Matrix (Fin P.num) (Fin P.num) ℂ)) (pot nrmRho : (Fin d.size → ℝ) → Fin d.size → ℝ) (occ : Fin nb → ℝ)

/-- The potential without its mean. -/
noncomputable def centre (V : Fin d.size → ℝ) : Fin d.size → ℝ := fun i => V i - (∑ r, V r) / d.size

theorem centre_add (V V' : Fin d.size → ℝ) (c : ℝ) (h : ∀ i, V' i = V i + c) : centre V' = centre V := by
  funext i
  have hs : (d.size : ℝ) ≠ 0 := by exact_mod_cast (by have := i.2; omega : d.size ≠ 0)
  unfold centre
  simp only [h, Finset.sum_add_distrib, Finset.sum_const, Finset.card_univ, Fintype.card_fin, nsmul_eq_mul]
  field_simp
  ring

/-- Up to phases the operations are those of the potential without its mean. -/
theorem ray_image (hv : ValidIdx d idx) :
    Image .split (fun _ => True) (ray (nb := nb)) id centre (bandOps drv d idx st ke gk2 dt order kw vol nl pot nrmRho occ) (rayOps (bandOps drv d idx st ke gk2 dt order kw vol nl (fun r => centre (pot r)) nrmRho occ)) where
  nrm x _ := ⟨ray_out _ (fun z hz x => ((relabel_image (drv := drv) (st := st) hv .split ke gk2 dt order kw vol nl pot nrmRho occ 1 z hz).nrm x trivial).1) x, trivial⟩
  dens x _ := by
    obtain ⟨z, hz, h⟩ : (upToPhases nb idx.length).r (Quotient.out (ray x)) x := Quotient.exact (Quotient.out_eq (ray x))
    have e : x = relabel 1 z (Quotient.out (ray x)) := h
    have := (relabel_image (drv := drv) (st := st) hv .split ke gk2 dt order kw vol nl pot nrmRho occ 1 z hz).dens (Quotient.out (ray x)) trivial
    rw [← e] at this
    exact this.symm
  pot r := rfl
  avg r r' := rfl
  nrmRho r := rfl
  taylor q := by cases q
  ke q x _ := ⟨ray_out _ (fun z hz x => ((relabel_image (drv := drv) (st := st) hv .split ke gk2 dt order kw vol nl pot nrmRho occ 1 z hz).ke q x trivial).1) x, trivial⟩
  nl _ := by
    simp only [rayOps, bandOps, List.map_map]
    rw [List.forall₂_map_left_iff, List.forall₂_map_right_iff, List.forall₂_same]
    exact fun pe _ x _ => ⟨ray_out (fun x b => operNl pe.1 pe.2 (x b)) (fun z _ x => relabel_mat (isMat_operNl pe.1 pe.2) 1 z x) x, trivial⟩
  vl q v x _ := by
    refine ⟨(ray_out _ (fun z hz x => ((relabel_image (drv := drv) (st := st) hv .split ke gk2 dt order kw vol nl pot nrmRho occ 1 z hz).vl q _ x trivial).1) x).trans ?_, trivial⟩
    obtain ⟨c, hc⟩ : ∃ c : ℝ, c = (∑ r, v r) / d.size := ⟨_, rfl⟩
    refine Quotient.sound ⟨fun _ => Complex.exp (-Complex.I * dt * c), fun _ => ?_, ?_⟩
    · rw [show -Complex.I * dt * c = ((-(dt * c) : ℝ) : ℂ) * Complex.I by push_cast; ring]
      exact Complex.norm_exp_ofReal_mul_I _
    · funext b
      have := shift_vloc (drv := drv) (st := st) hv dt c (centre v) (x b)
      have e : (fun r => ((centre v r + c : ℝ) : ℂ) / d.size) = fun r => ((v r : ℝ) : ℂ) / d.size := by
        funext r
        unfold centre
        rw [hc, sub_add_cancel]
      rw [e] at this
      exact this

/-- **C228 (constant).** With the split operator, in either propagator, a potential that differs by a constant, which may depend on the density, changes no density of any step, and the final orbitals only by phases; a refused choice of methods is refused. -/
theorem C228_constant (hv : ValidIdx d idx) (pot' : (Fin d.size → ℝ) → Fin d.size → ℝ) (hpot : ∀ r, ∃ c : ℝ, ∀ i, pot' r i = pot r i + c) (propMethod : String) (numstep : ℕ) (r0 : Fin d.size → ℝ) (psi : Fin nb → Fin idx.length → ℂ) :
    (∀ a, propagate (bandOps drv d idx st ke gk2 dt order kw vol nl pot nrmRho occ) "splitoper" propMethod numstep r0 psi = .ok a →
      ∃ z : Fin nb → ℂ, (∀ b, ‖z b‖ = 1) ∧ propagate (bandOps drv d idx st ke gk2 dt order kw vol nl pot' nrmRho occ) "splitoper" propMethod numstep r0 psi = .ok (fun b j => z b * a.1 b j, a.2)) ∧
    ∀ e, propagate (bandOps drv d idx st ke gk2 dt order kw vol nl pot nrmRho occ) "splitoper" propMethod numstep r0 psi = .error e →
      propagate (bandOps drv d idx st ke gk2 dt order kw vol nl pot' nrmRho occ) "splitoper" propMethod numstep r0 psi = .error e := by
  have hk : ∀ kind etrs, selectMethods "splitoper" propMethod = .ok (kind, etrs) → kind = .split := by
    intro kind etrs hk
    unfold selectMethods at hk
    simp only at hk
    split_ifs at hk <;> simp_all
  have h0 := C227_image "splitoper" propMethod (fun _ => True) ray id centre _ _ (fun kind etrs h => (hk kind etrs h).symm ▸ ray_image (drv := drv) (st := st) ke gk2 dt order kw vol nl pot nrmRho occ hv) numstep r0 r0 psi trivial
  have h1 := C227_image "splitoper" propMethod (fun _ => True) ray id centre _ _ (fun kind etrs h => (hk kind etrs h).symm ▸ ray_image (drv := drv) (st := st) ke gk2 dt order kw vol nl pot' nrmRho occ hv) numstep r0 r0 psi trivial
  have e : (fun r => centre (pot' r)) = fun r => centre (pot r) := funext fun r => by
    obtain ⟨c, hc⟩ := hpot r
    exact centre_add _ _ c hc
  rw [e, h0] at h1
  simp only [List.map_id] at h1
  constructor
  · intro a ha
    rw [ha] at h1
    cases hb : propagate (bandOps drv d idx st ke gk2 dt order kw vol nl pot' nrmRho occ) "splitoper" propMethod numstep r0 psi with
    | error e => rw [hb] at h1; simp [Except.map] at h1
    | ok a' =>
      rw [hb] at h1
      simp only [Except.map, Except.ok.injEq, Prod.mk.injEq] at h1
      obtain ⟨z, hz, hx⟩ : (upToPhases nb idx.length).r a.1 a'.1 := Quotient.exact h1.1
      exact ⟨z, hz, by rw [← hx, h1.2]⟩
  · intro e he
    rw [he] at h1
    cases hb : propagate (bandOps drv d idx st ke gk2 dt order kw vol nl pot' nrmRho occ) "splitoper" propMethod numstep r0 psi with
    | error e' => rw [hb] at h1; simp only [Except.map, Except.error.injEq] at h1; rw [h1]
    | ok a' => rw [hb] at h1; simp [Except.map] at h1

end constant

/-- **C228 (violated: constant with the Taylor propagator).** On a grid of two points, one constant orbital and the potential 0, 1: one Taylor step of order 1 gives another density if 1 is added to the potential. -/
theorem C228_taylor_constant_violated (drv : Driver) (st : DrvState ℂ) : ∃ (psi : Fin 1 → Fin ([0, 1] : List ℕ).length → ℂ) (V : Fin (⟨2, 1, 1⟩ : Dims).size → ℝ), ValidIdx ⟨2, 1, 1⟩ [0, 1] ∧ Orthonormal psi ∧
    ∃ a a' rho rho', propagate (bandOps drv ⟨2, 1, 1⟩ [0, 1] st (fun _ => 0) (fun _ => 0) 1 1 1 1 [] (fun _ => V) id fun _ => 1) "taylor" "etrs" 1 (fun _ => 0) psi = .ok (a, [rho]) ∧
      propagate (bandOps drv ⟨2, 1, 1⟩ [0, 1] st (fun _ => 0) (fun _ => 0) 1 1 1 1 [] (fun _ i => V i + 1) id fun _ => 1) "taylor" "etrs" 1 (fun _ => 0) psi = .ok (a', [rho']) ∧ rho' ≠ rho := by
  refine ⟨fun b j => if j.1 = 0 then 1 else 0, fun r => if r.1 = 0 then 0 else 1, two_valid, ?_, ?_⟩
  · intro a b
    change ∑ j : Fin 2, _ = _
    rw [Fin.sum_univ_two]
    fin_cases a <;> fin_cases b <;> simp
  · obtain ⟨a, ha⟩ := one_step drv ⟨2, 1, 1⟩ [0, 1] two_valid rfl st 1 1 1 (fun r => if r.1 = 0 then 0 else 1) (fun _ : Fin 1 => 1) (fun _ => 0) (fun b j => if j.1 = 0 then 1 else 0)
    obtain ⟨a', ha'⟩ := one_step drv ⟨2, 1, 1⟩ [0, 1] two_valid rfl st 1 1 1 (fun r => (if r.1 = 0 then 0 else 1) + 1) (fun _ : Fin 1 => 1) (fun _ => 0) (fun b j => if j.1 = 0 then 1 else 0)
    refine ⟨a, a', _, _, ha, ha', fun h => ?_⟩
    have h0 := congrFun h ⟨0, by decide⟩
    have hsum : ∀ F : Fin (⟨2, 1, 1⟩ : Dims).size → ℝ, ∑ r, F r = F ⟨0, by decide⟩ + F ⟨1, by decide⟩ := fun F => Fin.sum_univ_two (fun i : Fin 2 => F i)
    simp only [hsum, two_wfR, Fin.sum_univ_one] at h0
    simp [Complex.normSq_apply] at h0
    have hsz : ((⟨2, 1, 1⟩ : Dims).size : ℝ) = 2 := by
      rw [show (⟨2, 1, 1⟩ : Dims).size = 2 by decide]
      norm_num
    rw [hsz] at h0
    norm_num at h0

/-! ## A moved crystal -/

section moved

variable {drv : Driver} {d : Dims} {idx : List ℕ} {st : DrvState ℂ} {nb : ℕ}

/-- The orbitals moved. -/
noncomputable def movedPsi {n : ℕ} (t : Fin 3 → ℝ) (G : Fin n → Fin 3 → ℤ) (x : Fin nb → Fin n → ℂ) : Fin nb → Fin n → ℂ := fun b j => phase t (G j) * x b j

/-- What lives on the grid, moved. -/
noncomputable def movedGrid (d : Dims) (s : Fin 3 → ℤ) (f : Fin d.size → ℝ) : Fin d.size → ℝ := fun r => f ((perm d s).symm r)

/-- `movedGrid` says what it should: the value at a moved point is the old value. -/
theorem movedGrid_iff (s : Fin 3 → ℤ) (f f' : Fin d.size → ℝ) : f' = movedGrid d s f ↔ ∀ r r' : Fin d.size, Moved d s r r' → f' r' = f r := by
  constructor
  · rintro rfl r r' h
    rw [Trans.perm_of_moved d s r r' h]
    simp [movedGrid]
  · intro h
    funext r
    have := h ((perm d s).symm r) r (by have := perm_moved d s ((perm d s).symm r); rwa [Equiv.apply_symm_apply] at this)
    exact this

theorem phase_norm (t : Fin 3 → ℝ) (G : Fin 3 → ℤ) : ‖phase t G‖ = 1 := by
  have h := phase_unit t G
  rw [← Complex.normSq_eq_conj_mul_self] at h
  have h2 : Complex.normSq (phase t G) = 1 := by exact_mod_cast h
  rw [Complex.normSq_eq_norm_sq] at h2
  nlinarith [norm_nonneg (phase t G)]

theorem moved_nrm {n : ℕ} (t : Fin 3 → ℝ) (G : Fin n → Fin 3 → ℤ) (f : Fin n → ℂ) : normalise (fun j => phase t (G j) * f j) = fun j => phase t (G j) * normalise f j := by
  funext j
  unfold normalise
  have : ∀ i, Complex.normSq (phase t (G i) * f i) = Complex.normSq (f i) := fun i => by rw [Complex.normSq_mul, Complex.normSq_eq_norm_sq (phase t (G i)), phase_norm]; ring
  simp only [this]
  ring

theorem moved_wfR (hv : ValidIdx d idx) (G : Fin idx.length → Fin 3 → ℤ) (hG : Indexes d idx G) (s : Fin 3 → ℤ) (f : Fin idx.length → ℂ) (r : Fin d.size) :
    wfR drv d idx st (fun j => phase (vec d s) (G j) * f j) (perm d s r) = wfR drv d idx st f r :=
  (Trans.C179_translation drv d idx hv st (fun _ => 0) G hG (fun _ => 0) s (fun _ => 0) (fun _ => 0) (fun _ _ _ => rfl) []).2.2 f r (perm d s r) (perm_moved d s r) r.2 (perm d s r).2

theorem moved_wfG (hv : ValidIdx d idx) (G : Fin idx.length → Fin 3 → ℤ) (hG : Indexes d idx G) (s : Fin 3 → ℤ) (f f' : Fin d.size → ℂ) (hf : ∀ r, f' (perm d s r) = f r) (j : Fin idx.length) :
    wfG drv d idx st f' j = phase (vec d s) (G j) * wfG drv d idx st f j := by
  rw [Nonloc.wfG_eq drv d idx hv, Nonloc.wfG_eq drv d idx hv, ← Equiv.sum_comp (perm d s), Finset.mul_sum]
  refine Finset.sum_congr rfl fun r _ => ?_
  rw [hf, ← mul_assoc]
  congr 1
  obtain ⟨m, hm⟩ := Trans.gridDot_moved d s idx[j] r (perm d s r) r.2 (perm_moved d s r) (G j) (hG j)
  have hk : ∀ x : ℕ, FFT.ker3 d (FFT.dftKern true d) idx[j] x = Complex.exp (-(2 * Real.pi * Complex.I) * ((Nonloc.gridDot d idx[j] x : ℝ) : ℂ)) := by
    intro x
    rw [FFT.dft_ker3_fwd]
    congr 1
    unfold Nonloc.gridDot
    push_cast
    ring
  rw [hk, hk, hm, Nonloc.exp_int_shift, Complex.ofReal_add, mul_add, Complex.exp_add]
  unfold phase
  ring

theorem moved_dens (hv : ValidIdx d idx) (G : Fin idx.length → Fin 3 → ℤ) (hG : Indexes d idx G) (s : Fin 3 → ℤ) (kw vol : ℝ) (occ : Fin nb → ℝ) (x : Fin nb → Fin idx.length → ℂ) :
    density drv d idx st kw vol occ (movedPsi (vec d s) G x) = movedGrid d s (density drv d idx st kw vol occ x) := by
  rw [movedGrid_iff]
  intro r r' h
  rw [Trans.perm_of_moved d s r r' h]
  unfold density movedPsi
  simp only [moved_nrm, moved_wfR hv G hG s]

theorem moved_vloc (hv : ValidIdx d idx) (G : Fin idx.length → Fin 3 → ℤ) (hG : Indexes d idx G) (s : Fin 3 → ℤ) (dt : ℝ) (V : Fin d.size → ℝ) (x : Fin idx.length → ℂ) :
    operVloc drv d idx st dt (fun r => (movedGrid d s V r : ℂ) / d.size) (fun j => phase (vec d s) (G j) * x j) = fun j => phase (vec d s) (G j) * operVloc drv d idx st dt (fun r => (V r : ℂ) / d.size) x j := by
  funext j
  unfold operVloc
  refine moved_wfG hv G hG s _ _ (fun r => ?_) j
  rw [moved_wfR hv G hG s]
  simp [movedGrid]

/-- The constant phase of the projectors of the moved atoms at the k-point `kpt`. -/
noncomputable def kphase (t kpt : Fin 3 → ℝ) : ℂ := Complex.exp (-(2 * Real.pi * Complex.I) * ((∑ c, t c * kpt c : ℝ) : ℂ))

theorem kphase_unit (t kpt : Fin 3 → ℝ) : conj (kphase t kpt) * kphase t kpt = 1 := by
  unfold kphase
  rw [Nonloc.gridDot_exp_conj, ← Complex.exp_add, ← Complex.exp_zero]
  congr 1
  push_cast
  ring

theorem moved_vkb {n : ℕ} (sp : Species n) (G : Fin n → Fin 3 → ℤ) (kpt t : Fin 3 → ℝ) (i : ℕ) (j : Fin n) :
    ((sp.move t).proj G kpt).vkb i j = kphase t kpt * phase t (G j) * (sp.proj G kpt).vkb i j := by
  have e : ∀ (τ : Fin 3 → ℝ), ∑ a, (τ a + t a) * ((G j a : ℝ) + kpt a) = ∑ a, t a * kpt a + ∑ a, t a * (G j a : ℝ) + ∑ a, τ a * ((G j a : ℝ) + kpt a) := by
    intro τ
    rw [← Finset.sum_add_distrib, ← Finset.sum_add_distrib]
    exact Finset.sum_congr rfl fun a _ => by ring
  unfold Species.proj Species.move Nonloc.speciesProj Nonloc.genVkbDij kphase phase
  simp only [e]
  rw [Complex.ofReal_add, Complex.ofReal_add, mul_add, mul_add, Complex.exp_add, Complex.exp_add]
  ring

/-- Projectors that differ by a unit factor at every plane wave. -/
theorem turned_exp {n : ℕ} (num : ℕ) (vkb vkb' : ℕ → Fin n → ℂ) (dij : ℕ → ℕ → ℂ) (w : Fin n → ℂ) (hw : ∀ j, conj (w j) * w j = 1) (h : ∀ i j, vkb' i j = w j * vkb i j) (dt : ℝ) : expDij ⟨num, vkb', dij⟩ dt = expDij ⟨num, vkb, dij⟩ dt := by
  have e : (projMat ⟨num, vkb', dij⟩)ᴴ * projMat ⟨num, vkb', dij⟩ = (projMat ⟨num, vkb, dij⟩)ᴴ * projMat ⟨num, vkb, dij⟩ := by
    ext i i'
    rw [Matrix.mul_apply, Matrix.mul_apply]
    refine Finset.sum_congr rfl fun j _ => ?_
    show conj (vkb' i j) * vkb' i' j = conj (vkb i j) * vkb i' j
    rw [h, h, map_mul]
    linear_combination (conj (vkb i j) * vkb i' j) * hw j
  unfold expDij
  simp only
  rw [e]
  rfl

theorem turned_nl {n : ℕ} (num : ℕ) (vkb vkb' : ℕ → Fin n → ℂ) (dij : ℕ → ℕ → ℂ) (κ : ℂ) (w : Fin n → ℂ) (hκ : conj κ * κ = 1) (hw : ∀ j, conj (w j) * w j = 1) (h : ∀ i j, vkb' i j = κ * w j * vkb i j) (M : Matrix (Fin num) (Fin num) ℂ) (x : Fin n → ℂ) :
    operNl ⟨num, vkb', dij⟩ M (fun j => w j * x j) = fun j => w j * operNl ⟨num, vkb, dij⟩ M x j := by
  have a : ((projMat ⟨num, vkb', dij⟩)ᴴ *ᵥ fun j => w j * x j) = conj κ • ((projMat ⟨num, vkb, dij⟩)ᴴ *ᵥ x) := by
    funext i
    show ∑ j, conj (vkb' i j) * (w j * x j) = conj κ * ∑ j, conj (vkb i j) * x j
    rw [Finset.mul_sum]
    refine Finset.sum_congr rfl fun j _ => ?_
    rw [h, map_mul, map_mul]
    linear_combination (conj κ * conj (vkb i j) * x j) * hw j
  unfold operNl
  rw [a, Matrix.mulVec_smul]
  funext j
  show w j * x j + ∑ i : Fin num, vkb' i j * (conj κ * (M *ᵥ ((projMat ⟨num, vkb, dij⟩)ᴴ *ᵥ x)) i) = w j * (x j + ∑ i : Fin num, vkb i j * (M *ᵥ ((projMat ⟨num, vkb, dij⟩)ᴴ *ᵥ x)) i)
  rw [mul_add, Finset.mul_sum]
  congr 1
  refine Finset.sum_congr rfl fun i _ => ?_
  rw [h]
  linear_combination (w j * vkb i j * (M *ᵥ ((projMat ⟨num, vkb, dij⟩)ᴴ *ᵥ x)) i) * hκ

/-- **C228 (factors).** The exponentials of the coefficients computed for the moved atoms are those of the atoms. -/
theorem C228_moved_factors {n : ℕ} (sp : Species n) (G : Fin n → Fin 3 → ℤ) (kpt t : Fin 3 → ℝ) (dt : ℝ) : expDij ((sp.move t).proj G kpt) dt = expDij (sp.proj G kpt) dt :=
  turned_exp _ (sp.proj G kpt).vkb ((sp.move t).proj G kpt).vkb _ (fun j => kphase t kpt * phase t (G j)) (fun j => by
    rw [map_mul]
    linear_combination (conj (phase t (G j)) * phase t (G j)) * kphase_unit t kpt + phase_unit t (G j)) (moved_vkb sp G kpt t) dt

theorem moved_nl {n : ℕ} (sp : Species n) (G : Fin n → Fin 3 → ℤ) (kpt t : Fin 3 → ℝ) (M : Matrix (Fin (sp.proj G kpt).num) (Fin (sp.proj G kpt).num) ℂ) (x : Fin n → ℂ) :
    operNl ((sp.move t).proj G kpt) M (fun j => phase t (G j) * x j) = fun j => phase t (G j) * operNl (sp.proj G kpt) M x j :=
  turned_nl _ (sp.proj G kpt).vkb ((sp.move t).proj G kpt).vkb _ (kphase t kpt) (fun j => phase t (G j)) (kphase_unit t kpt) (fun j => phase_unit t (G j)) (moved_vkb sp G kpt t) M x

theorem moved_taylor (hv : ValidIdx d idx) (gk2 : Fin idx.length → ℝ) (G : Fin idx.length → Fin 3 → ℤ) (hG : Indexes d idx G) (kpt : Fin 3 → ℝ) (s : Fin 3 → ℤ) (V : Fin d.size → ℝ) (sp : List (Species idx.length)) (dt : ℝ) (order : ℕ) (x : Fin idx.length → ℂ) :
    taylorProp (Nonloc.hPsi .gpu drv d idx st gk2 (fun r => (movedGrid d s V r : ℂ) / d.size) (sp.map fun y => (y.move (vec d s)).proj G kpt)) dt order (fun j => phase (vec d s) (G j) * x j)
      = fun j => phase (vec d s) (G j) * taylorProp (Nonloc.hPsi .gpu drv d idx st gk2 (fun r => (V r : ℂ) / d.size) (sp.map fun y => y.proj G kpt)) dt order x j := by
  have hH := (Trans.C179_translation drv d idx hv st gk2 G hG kpt s V (movedGrid d s V) ((movedGrid_iff s V _).1 rfl) sp).1
  simp only at hH
  rw [C49_truncated_exponential, C49_truncated_exponential]
  have hit : ∀ m, (Nonloc.hPsi .gpu drv d idx st gk2 (fun r => (movedGrid d s V r : ℂ) / d.size) (sp.map fun y => (y.move (vec d s)).proj G kpt))^[m] (fun j => phase (vec d s) (G j) * x j)
      = fun j => phase (vec d s) (G j) * (Nonloc.hPsi .gpu drv d idx st gk2 (fun r => (V r : ℂ) / d.size) (sp.map fun y => y.proj G kpt))^[m] x j := by
    intro m
    induction m with
    | zero => rfl
    | succ m ih => rw [Function.iterate_succ_apply', ih, hH, Function.iterate_succ_apply']
  simp only [hit]
  funext j
  simp only [Finset.sum_apply, Pi.smul_apply, smul_eq_mul, Finset.mul_sum]
  exact Finset.sum_congr rfl fun m _ => by ring

/-- Species with the factors of the split operator. -/
abbrev SpeciesExp {n : ℕ} (G : Fin n → Fin 3 → ℤ) (kpt : Fin 3 → ℝ) := (y : Species n) × Matrix (Fin (y.proj G kpt).num) (Fin (y.proj G kpt).num) ℂ

/-- Their projectors. -/
noncomputable def projs {n : ℕ} {G : Fin n → Fin 3 → ℤ} {kpt : Fin 3 → ℝ} (sp : List (SpeciesExp G kpt)) : List ((P : Proj n) × Matrix (Fin P.num) (Fin P.num) ℂ) := sp.map fun y => ⟨y.1.proj G kpt, y.2⟩

/-- The species moved, with the same factors (C228_moved_factors). -/
noncomputable def moveAll {n : ℕ} {G : Fin n → Fin 3 → ℤ} {kpt : Fin 3 → ℝ} (t : Fin 3 → ℝ) (sp : List (SpeciesExp G kpt)) : List (SpeciesExp G kpt) := sp.map fun y => ⟨y.1.move t, y.2⟩

/-- **C228 (translation).** Moving all atoms by a number of grid steps, with the orbitals and with a potential that moves with the density, moves the densities of every step and the final orbitals by the same steps: for every choice of methods, every order of the Taylor propagator, time step, basis and number of steps. -/
theorem C228_translation (hv : ValidIdx d idx) (G : Fin idx.length → Fin 3 → ℤ) (hG : Indexes d idx G) (kpt : Fin 3 → ℝ) (s : Fin 3 → ℤ) (expMethod propMethod : String) (ke gk2 : Fin idx.length → ℝ) (dt : ℝ) (order : ℕ) (kw vol : ℝ) (sp : List (SpeciesExp G kpt))
    (pot pot' nrmRho : (Fin d.size → ℝ) → Fin d.size → ℝ) (hpot : ∀ r, pot' (movedGrid d s r) = movedGrid d s (pot r)) (hnr : ∀ r, nrmRho (movedGrid d s r) = movedGrid d s (nrmRho r)) (occ : Fin nb → ℝ) (numstep : ℕ) (r0 r0' : Fin d.size → ℝ) (psi : Fin nb → Fin idx.length → ℂ) :
    propagate (bandOps drv d idx st ke gk2 dt order kw vol (projs (moveAll (vec d s) sp)) pot' nrmRho occ) expMethod propMethod numstep r0' (movedPsi (vec d s) G psi)
      = (propagate (bandOps drv d idx st ke gk2 dt order kw vol (projs sp) pot nrmRho occ) expMethod propMethod numstep r0 psi).map fun a => (movedPsi (vec d s) G a.1, a.2.map (movedGrid d s)) := by
  refine C227_image expMethod propMethod (fun _ => True) (movedPsi (vec d s) G) (movedGrid d s) (movedGrid d s) _ _ (fun kind etrs _ => ?_) numstep r0 r0' psi trivial
  refine { nrm := fun x _ => ⟨funext fun b => moved_nrm _ G (x b), trivial⟩, dens := fun x _ => moved_dens hv G hG s kw vol occ x, pot := hpot, avg := fun r r' => rfl, nrmRho := hnr, taylor := fun _ V x _ => ⟨?_, trivial⟩, ke := fun _ x _ => ⟨?_, trivial⟩, nl := fun _ => ?_, vl := fun _ V x _ => ⟨funext fun b => moved_vloc hv G hG s dt V (x b), trivial⟩ }
  · funext b
    have := moved_taylor (drv := drv) (st := st) hv gk2 G hG kpt s V (sp.map (·.1)) dt order (x b)
    simp only [List.map_map, Function.comp_def] at this
    simp only [bandOps, projs, moveAll, List.map_map, Function.comp_def]
    exact this
  · funext b j
    simp only [bandOps, movedPsi, operKe]
    ring
  · simp only [bandOps, projs, moveAll, List.map_map]
    rw [List.forall₂_map_left_iff, List.forall₂_map_right_iff, List.forall₂_same]
    exact fun y _ x _ => ⟨funext fun b => moved_nl y.1 G kpt (vec d s) y.2 (x b), trivial⟩

/-- The hypotheses of C228_translation are met: two plane waves on two grid points, one step along the first axis, a potential of atoms plus a function of the density at each point. -/
example : ValidIdx ⟨2, 1, 1⟩ [0, 1] ∧ Indexes ⟨2, 1, 1⟩ [0, 1] (fun j => ![-(j.1 : ℤ), 0, 0]) ∧ ∀ (V : Fin (⟨2, 1, 1⟩ : Dims).size → ℝ) (r : Fin (⟨2, 1, 1⟩ : Dims).size → ℝ),
    (fun (r : Fin (⟨2, 1, 1⟩ : Dims).size → ℝ) i => movedGrid ⟨2, 1, 1⟩ ![1, 0, 0] V i + (r i) ^ 2) (movedGrid ⟨2, 1, 1⟩ ![1, 0, 0] r) = movedGrid ⟨2, 1, 1⟩ ![1, 0, 0] ((fun r i => V i + (r i) ^ 2) r) := by
  refine ⟨two_valid, ?_, fun V r => rfl⟩
  intro j a
  fin_cases j <;> fin_cases a
  · exact ⟨0, by decide⟩
  · exact ⟨0, by decide⟩
  · exact ⟨0, by decide⟩
  · exact ⟨-1, by decide⟩
  · exact ⟨0, by decide⟩
  · exact ⟨0, by decide⟩

end moved

/-- The hypothesis of C228_constant is met by a constant that depends on the density. -/
example (pot : (Fin (⟨2, 1, 1⟩ : Dims).size → ℝ) → Fin (⟨2, 1, 1⟩ : Dims).size → ℝ) : ∀ r, ∃ c : ℝ, ∀ i, (fun r i => pot r i + ∑ k, r k) r i = pot r i + c := fun r => ⟨∑ k, r k, fun _ => rfl⟩

end Verif.TDDFT
