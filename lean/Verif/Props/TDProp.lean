import Verif.Model.TDProp
import Verif.Props.TDNorm
import Verif.Props.Mesh
import Mathlib.LinearAlgebra.UnitaryGroup

/-!
# Property C227: phases, order and mixing of the orbitals in a time propagation
-/

namespace Verif.TDDFT

open scoped ComplexConjugate
open Matrix
open Verif.FFT (Driver Dims DrvState ValidIdx)
open Verif.Nonloc (Proj wfR wfG)
open Verif.Mesh (normalise density)

section generic

variable {E R V E' R' V' : Type*}

/-! ## Two propagations of which one is the image of the other -/

/-- On the states in `P` (which they do not leave) the operations `o'` do to images under `T` (states), `S` (densities), `W` (potentials) what `o` does to the originals. -/
structure Image (kind : ExpKind) (P : E → Prop) (T : E → E') (S : R → R') (W : V → V') (o : Ops E R V) (o' : Ops E' R' V') : Prop where
  nrm : ∀ x, P x → o'.nrm (T x) = T (o.nrm x) ∧ P (o.nrm x)
  dens : ∀ x, P x → o'.dens (T x) = S (o.dens x)
  pot : ∀ r, o'.pot (S r) = W (o.pot r)
  avg : ∀ r r', o'.avg (S r) (S r') = S (o.avg r r')
  nrmRho : ∀ r, o'.nrmRho (S r) = S (o.nrmRho r)
  taylor : kind = .taylor → ∀ v x, P x → o'.taylor (W v) (T x) = T (o.taylor v x) ∧ P (o.taylor v x)
  ke : kind = .split → ∀ x, P x → o'.ke (T x) = T (o.ke x) ∧ P (o.ke x)
  nl : kind = .split → List.Forall₂ (fun f' f => ∀ x, P x → f' (T x) = T (f x) ∧ P (f x)) o'.nl o.nl
  vl : kind = .split → ∀ v x, P x → o'.vl (W v) (T x) = T (o.vl v x) ∧ P (o.vl v x)

variable {kind : ExpKind} {P : E → Prop} {T : E → E'} {S : R → R'} {W : V → V'} {o : Ops E R V} {o' : Ops E' R' V'}

theorem fold_image {l' : List (E' → E')} {l : List (E → E)} (h : List.Forall₂ (fun f' f => ∀ x, P x → f' (T x) = T (f x) ∧ P (f x)) l' l) (x : E) (hx : P x) :
    l'.foldl (fun x f => f x) (T x) = T (l.foldl (fun x f => f x) x) ∧ P (l.foldl (fun x f => f x) x) := by
  induction h generalizing x with
  | nil => exact ⟨rfl, hx⟩
  | cons hab _ ih =>
    rw [List.foldl_cons, List.foldl_cons, (hab x hx).1]
    exact ih _ (hab x hx).2

theorem evolve_image (h : Image kind P T S W o o') (v : V) (x : E) (hx : P x) : o'.evolve kind (W v) (T x) = T (o.evolve kind v x) ∧ P (o.evolve kind v x) := by
  cases kind with
  | taylor => exact h.taylor rfl v x hx
  | split =>
    unfold Ops.evolve splitSeq
    simp only
    obtain ⟨e1, p1⟩ := h.ke rfl x hx
    obtain ⟨e2, p2⟩ := fold_image (h.nl rfl) _ p1
    obtain ⟨e3, p3⟩ := h.vl rfl v _ p2
    obtain ⟨e4, p4⟩ := fold_image (List.rel_reverse (h.nl rfl)) _ p3
    obtain ⟨e5, p5⟩ := h.ke rfl _ p4
    rw [e1, e2, e3, e4, e5]
    exact ⟨rfl, p5⟩

theorem split_image (h : Image .split P T S W o o') (x : E) (hx : P x) :
    splitStep o'.nrm o'.dens (fun r => o'.pot (o'.nrmRho r)) o'.ke o'.nl o'.vl (T x) = T (splitStep o.nrm o.dens (fun r => o.pot (o.nrmRho r)) o.ke o.nl o.vl x) ∧
    P (splitStep o.nrm o.dens (fun r => o.pot (o.nrmRho r)) o.ke o.nl o.vl x) := by
  unfold splitStep
  simp only
  obtain ⟨e1, p1⟩ := h.ke rfl x hx
  obtain ⟨e2, p2⟩ := fold_image (h.nl rfl) _ p1
  obtain ⟨e3, p3⟩ := h.nrm _ p2
  have e4 := h.dens _ p3
  obtain ⟨e5, p5⟩ := h.vl rfl (o.pot (o.nrmRho (o.dens (o.nrm (o.nl.foldl (fun x f => f x) (o.ke x)))))) _ p3
  obtain ⟨e6, p6⟩ := fold_image (List.rel_reverse (h.nl rfl)) _ p5
  obtain ⟨e7, p7⟩ := h.ke rfl _ p6
  obtain ⟨e8, p8⟩ := h.nrm _ p7
  rw [e1, e2, e3, e4, h.nrmRho, h.pot, e5, e6, e7, e8]
  exact ⟨rfl, p8⟩

/-- The state after one step of `etrs.py`, whichever objects hold it. -/
def etrsNext (o : Ops E R V) (kind : ExpKind) (x : E) : E :=
  let p := o.nrm (o.evolve kind (o.pot (o.dens (o.nrm x))) x)
  o.nrm (o.evolve kind (o.pot (o.avg (o.dens (o.nrm x)) (o.dens p))) (match kind with | .taylor => x | .split => p))

theorem etrs_next (o : Ops E R V) (kind : ExpKind) (s : Objs E) (hs : s.cur < s.next) :
    (etrsStep kind o.nrm o.dens o.pot o.avg (o.evolve kind) s).heap (etrsStep kind o.nrm o.dens o.pot o.avg (o.evolve kind) s).cur = etrsNext o kind (s.heap s.cur) ∧
    (etrsStep kind o.nrm o.dens o.pot o.avg (o.evolve kind) s).cur < (etrsStep kind o.nrm o.dens o.pot o.avg (o.evolve kind) s).next := by
  constructor
  · cases kind with
    | taylor => exact C80_taylor_step o.nrm o.dens o.pot o.avg _ s hs
    | split => exact C80_split_step_doubles o.nrm o.dens o.pot o.avg _ s hs
  · cases kind <;> (simp [etrsStep, computeRho, propPsi]; try omega)

theorem next_image (h : Image kind P T S W o o') (x : E) (hx : P x) : etrsNext o' kind (T x) = T (etrsNext o kind x) ∧ P (etrsNext o kind x) := by
  unfold etrsNext
  simp only
  obtain ⟨e1, p1⟩ := h.nrm x hx
  obtain ⟨e2, p2⟩ := evolve_image h (o.pot (o.dens (o.nrm x))) x hx
  obtain ⟨e3, p3⟩ := h.nrm _ p2
  rw [e1, h.dens _ p1, h.pot, e2, e3, h.dens _ p3, h.avg, h.pot]
  cases kind with
  | taylor =>
    obtain ⟨e4, p4⟩ := evolve_image h (o.pot (o.avg (o.dens (o.nrm x)) (o.dens (o.nrm (o.evolve .taylor (o.pot (o.dens (o.nrm x))) x))))) x hx
    obtain ⟨e5, p5⟩ := h.nrm _ p4
    simp only
    rw [e4, e5]
    exact ⟨rfl, p5⟩
  | split =>
    obtain ⟨e4, p4⟩ := evolve_image h (o.pot (o.avg (o.dens (o.nrm x)) (o.dens (o.nrm (o.evolve .split (o.pot (o.dens (o.nrm x))) x))))) _ p3
    obtain ⟨e5, p5⟩ := h.nrm _ p4
    simp only
    rw [e4, e5]
    exact ⟨rfl, p5⟩

theorem etrsRun_image (h : Image kind P T S W o o') (n : ℕ) : ∀ (s : Objs E) (s' : Objs E'), s.cur < s.next → s'.cur < s'.next → s'.heap s'.cur = T (s.heap s.cur) → P (s.heap s.cur) →
    (etrsRun o' kind n s').1.heap (etrsRun o' kind n s').1.cur = T ((etrsRun o kind n s).1.heap (etrsRun o kind n s).1.cur) ∧ (etrsRun o' kind n s').2 = (etrsRun o kind n s).2.map S := by
  induction n with
  | zero => intro s s' _ _ e _; exact ⟨e, rfl⟩
  | succ n ih =>
    intro s s' hs hs' e hx
    obtain ⟨a1, a2⟩ := etrs_next o kind s hs
    obtain ⟨b1, b2⟩ := etrs_next o' kind s' hs'
    rw [e] at b1
    obtain ⟨c1, c2⟩ := next_image h _ hx
    obtain ⟨d1, d2⟩ := h.nrm _ c2
    unfold etrsRun
    simp only
    generalize etrsStep kind o.nrm o.dens o.pot o.avg (o.evolve kind) s = u at a1 a2 ⊢
    generalize etrsStep kind o'.nrm o'.dens o'.pot o'.avg (o'.evolve kind) s' = u' at b1 b2 ⊢
    unfold computeRho
    simp only [Function.update_self]
    rw [b1, c1, d1, a1, h.dens _ d2, List.map_cons]
    obtain ⟨i1, i2⟩ := ih { u with heap := Function.update u.heap u.cur (o.nrm (etrsNext o kind (s.heap s.cur))) } { u' with heap := Function.update u'.heap u'.cur (T (o.nrm (etrsNext o kind (s.heap s.cur)))) } a2 b2
      (by simp only [Function.update_self]) (by simp only [Function.update_self]; exact d2)
    exact ⟨i1, by rw [i2]⟩

theorem splitRun_image (h : Image .split P T S W o o') (n : ℕ) : ∀ x, P x → (splitRun o' n (T x)).1 = T (splitRun o n x).1 ∧ (splitRun o' n (T x)).2 = (splitRun o n x).2.map S := by
  induction n with
  | zero => intro x _; exact ⟨rfl, rfl⟩
  | succ n ih =>
    intro x hx
    obtain ⟨a1, a2⟩ := split_image h x hx
    obtain ⟨b1, b2⟩ := h.nrm _ a2
    unfold splitRun
    simp only
    rw [a1, b1, h.dens _ b2, List.map_cons]
    obtain ⟨i1, i2⟩ := ih _ b2
    exact ⟨i1, by rw [i2]⟩

/-- **C227 (images).** Whatever maps the states, densities and potentials of one propagation to those of another compatibly does so for the whole propagation: for every accepted choice of methods, every number of steps, whatever the starting densities handed over; the refused choices are the same. -/
theorem C227_image (expMethod propMethod : String) (P : E → Prop) (T : E → E') (S : R → R') (W : V → V') (o : Ops E R V) (o' : Ops E' R' V')
    (h : ∀ kind etrs, selectMethods expMethod propMethod = .ok (kind, etrs) → Image kind P T S W o o') (numstep : ℕ) (r0 : R) (r0' : R') (psi : E) (hx : P psi) :
    propagate o' expMethod propMethod numstep r0' (T psi) = (propagate o expMethod propMethod numstep r0 psi).map fun a => (T a.1, a.2.map S) := by
  unfold propagate
  cases hsel : selectMethods expMethod propMethod with
  | error e => rfl
  | ok ke =>
    obtain ⟨kind, etrs⟩ := ke
    have hi := h kind etrs hsel
    simp only
    cases etrs with
    | true =>
      obtain ⟨a, b⟩ := etrsRun_image hi numstep ⟨fun _ => psi, 1, 0⟩ ⟨fun _ => T psi, 1, 0⟩ (by simp) (by simp) rfl hx
      simp only [if_true, Except.map]
      rw [a, b]
    | false =>
      have hk : kind = .split := by
        unfold selectMethods at hsel
        simp only at hsel
        split_ifs at hsel <;> simp_all
      subst hk
      obtain ⟨a, b⟩ := splitRun_image hi numstep psi hx
      simp only [Bool.false_eq_true, if_false, Except.map]
      rw [← a, ← b]

/-- **C227 (starting density).** The starting density has no influence on the propagation. -/
theorem C227_starting_density (o : Ops E R V) (expMethod propMethod : String) (numstep : ℕ) (r0 r0' : R) (psi : E) : propagate o expMethod propMethod numstep r0' psi = propagate o expMethod propMethod numstep r0 psi := by
  unfold propagate
  rfl

/-- Every step hands over one density. -/
theorem C227_rows (o : Ops E R V) (expMethod propMethod : String) (numstep : ℕ) (r0 : R) (psi : E) (a : E × List R) (h : propagate o expMethod propMethod numstep r0 psi = .ok a) : a.2.length = numstep := by
  have h1 : ∀ kind n (s : Objs E), (etrsRun o kind n s).2.length = n := by
    intro kind n
    induction n with
    | zero => intro s; rfl
    | succ n ih => intro s; simp [etrsRun, ih]
  have h2 : ∀ n x, (splitRun o n x).2.length = n := by
    intro n
    induction n with
    | zero => intro s; rfl
    | succ n ih => intro s; simp [splitRun, ih]
  unfold propagate at h
  cases hsel : selectMethods expMethod propMethod with
  | error e => rw [hsel] at h; cases h
  | ok ke =>
    obtain ⟨kind, etrs⟩ := ke
    rw [hsel] at h
    cases etrs with
    | true => simp only [if_true] at h; cases h; exact h1 _ _ _
    | false => simp only [Bool.false_eq_true, if_false] at h; cases h; exact h2 _ _

end generic

/-! ## Orbitals on a plane-wave basis -/

section bands

variable (drv : Driver) (d : Dims) (idx : List ℕ) (st : DrvState ℂ) {nb : ℕ}

/-- The operations on orbitals: normalisation of every orbital, density with the occupations `occ`, Taylor propagation with the Hamiltonian, factors of the split operator (potentials are handed over divided by the number of grid points); `pot` and `nrmRho` are any functions of the density. -/
noncomputable def bandOps (ke gk2 : Fin idx.length → ℝ) (dt : ℝ) (order : ℕ) (kw vol : ℝ) (nl : List ((P : Proj idx.length) × Matrix (Fin P.num) (Fin P.num) ℂ)) (pot : (Fin d.size → ℝ) → Fin d.size → ℝ) (nrmRho : (Fin d.size → ℝ) → Fin d.size → ℝ)
    (occ : Fin nb → ℝ) : Ops (Fin nb → Fin idx.length → ℂ) (Fin d.size → ℝ) (Fin d.size → ℝ) where
  nrm x b := normalise (x b)
  dens x := density drv d idx st kw vol occ x
  pot := pot
  avg r r' i := 1 / 2 * (r i + r' i)
  nrmRho := nrmRho
  taylor V x b := taylorProp (Nonloc.hPsi .gpu drv d idx st gk2 (fun r => (V r : ℂ) / d.size) (nl.map (·.1))) dt order (x b)
  ke x b := operKe ke dt (x b)
  nl := nl.map fun pe x b => operNl pe.1 pe.2 (x b)
  vl V x b := operVloc drv d idx st dt (fun r => (V r : ℂ) / d.size) (x b)

/-- Orbital number `b` of the result is orbital number `s b` times the phase `z b`. -/
def relabel {n : ℕ} (s : Equiv.Perm (Fin nb)) (z : Fin nb → ℂ) (x : Fin nb → Fin n → ℂ) : Fin nb → Fin n → ℂ := fun b j => z b * x (s b) j

/-- Orbitals mixed by a matrix. -/
def mixed {n : ℕ} (U : Matrix (Fin nb) (Fin nb) ℂ) (x : Fin nb → Fin n → ℂ) : Fin nb → Fin n → ℂ := fun b j => ∑ c, U b c * x c j

variable {drv d idx st}

theorem normalise_smul {n : ℕ} (z : ℂ) (hz : ‖z‖ = 1) (f : Fin n → ℂ) : normalise (fun j => z * f j) = fun j => z * normalise f j := by
  funext j
  unfold normalise
  have : ∀ i, Complex.normSq (z * f i) = Complex.normSq (f i) := fun i => by rw [Complex.normSq_mul, Complex.normSq_eq_norm_sq z, hz]; ring
  simp only [this]
  ring

/-- The function is a matrix. -/
def IsMat {n : ℕ} (f : (Fin n → ℂ) → Fin n → ℂ) : Prop := ∃ M : Matrix (Fin n) (Fin n) ℂ, ∀ x, f x = M *ᵥ x

theorem isMat_smul {n : ℕ} {f : (Fin n → ℂ) → Fin n → ℂ} (h : IsMat f) (z : ℂ) (x : Fin n → ℂ) : f (fun j => z * x j) = fun j => z * f x j := by
  obtain ⟨M, hM⟩ := h
  rw [hM, hM]
  exact Matrix.mulVec_smul M z x

theorem isMat_sum {n : ℕ} {f : (Fin n → ℂ) → Fin n → ℂ} (h : IsMat f) (u : Fin nb → ℂ) (x : Fin nb → Fin n → ℂ) : f (fun j => ∑ c, u c * x c j) = fun j => ∑ c, u c * f (x c) j := by
  obtain ⟨M, hM⟩ := h
  simp only [hM]
  have e : (fun j => ∑ c, u c * x c j) = ∑ c, u c • x c := by funext j; simp [Finset.sum_apply]
  rw [e, Matrix.mulVec_sum]
  funext j
  simp [Finset.sum_apply, Matrix.mulVec_smul]

theorem isMat_operVloc (hv : ValidIdx d idx) (dt : ℝ) (v : Fin d.size → ℂ) : IsMat (operVloc drv d idx st dt v) := by
  refine ⟨fun j k => ∑ r : Fin d.size, FFT.ker3 d (FFT.dftKern true d) idx[j] r * (FFT.ker3 d (FFT.dftKern false d) r idx[k] * Complex.exp (-Complex.I * dt * d.size * v r)), fun x => ?_⟩
  funext j
  unfold operVloc Matrix.mulVec dotProduct
  simp only [Nonloc.wfG_eq drv d idx hv, Nonloc.wfR_eq drv d idx hv, Finset.mul_sum, Finset.sum_mul]
  rw [Finset.sum_comm]
  exact Finset.sum_congr rfl fun k _ => Finset.sum_congr rfl fun r _ => by ring

theorem isMat_operKe {n : ℕ} (ke : Fin n → ℝ) (dt : ℝ) : IsMat (operKe ke dt) := ⟨_, fun x => (C50_kinetic_factor ke dt x).1⟩

theorem isMat_operNl {n : ℕ} (P : Proj n) (E : Matrix (Fin P.num) (Fin P.num) ℂ) : IsMat (operNl P E) := by
  refine ⟨1 + projMat P * (E * (projMat P)ᴴ), fun x => ?_⟩
  unfold operNl
  rw [Matrix.add_mulVec, Matrix.one_mulVec, Matrix.mulVec_mulVec, Matrix.mulVec_mulVec, Matrix.mul_assoc]

theorem isMat_taylor (hv : ValidIdx d idx) (gk2 : Fin idx.length → ℝ) (V : Fin d.size → ℝ) (nl : List (Proj idx.length)) (dt : ℝ) (order : ℕ) :
    IsMat (taylorProp (Nonloc.hPsi .gpu drv d idx st gk2 (fun r => (V r : ℂ) / d.size) nl) dt order) := ⟨_, fun x => C49_hamiltonian_matrix drv d idx hv st gk2 V nl dt order x⟩

theorem relabel_mat {n : ℕ} {f : (Fin n → ℂ) → Fin n → ℂ} (h : IsMat f) (s : Equiv.Perm (Fin nb)) (z : Fin nb → ℂ) (x : Fin nb → Fin n → ℂ) : (fun b => f (relabel s z x b)) = relabel s z fun b => f (x b) :=
  funext fun b => isMat_smul h (z b) (x (s b))

theorem mixed_mat {n : ℕ} {f : (Fin n → ℂ) → Fin n → ℂ} (h : IsMat f) (U : Matrix (Fin nb) (Fin nb) ℂ) (x : Fin nb → Fin n → ℂ) : (fun b => f (mixed U x b)) = mixed U fun b => f (x b) :=
  funext fun b => isMat_sum h (U b) x

theorem relabel_dens (hv : ValidIdx d idx) (kw vol : ℝ) (occ : Fin nb → ℝ) (s : Equiv.Perm (Fin nb)) (z : Fin nb → ℂ) (hz : ∀ b, ‖z b‖ = 1) (x : Fin nb → Fin idx.length → ℂ) :
    density drv d idx st kw vol (fun b => occ (s b)) (relabel s z x) = density drv d idx st kw vol occ x := by
  funext r
  unfold density
  rw [← Equiv.sum_comp s fun b => occ b * Complex.normSq (wfR drv d idx st (normalise (x b)) r)]
  congr 2
  refine Finset.sum_congr rfl fun b _ => ?_
  show occ (s b) * Complex.normSq (wfR drv d idx st (normalise fun j => z b * x (s b) j) r) = _
  rw [normalise_smul (z b) (hz b), Mesh.wfR_smul drv d idx hv, Complex.normSq_mul, Complex.normSq_eq_norm_sq (z b), hz b]
  ring

theorem relabel_image (hv : ValidIdx d idx) (kind : ExpKind) (ke gk2 : Fin idx.length → ℝ) (dt : ℝ) (order : ℕ) (kw vol : ℝ) (nl : List ((P : Proj idx.length) × Matrix (Fin P.num) (Fin P.num) ℂ)) (pot nrmRho : (Fin d.size → ℝ) → Fin d.size → ℝ)
    (occ : Fin nb → ℝ) (s : Equiv.Perm (Fin nb)) (z : Fin nb → ℂ) (hz : ∀ b, ‖z b‖ = 1) :
    Image kind (fun _ => True) (relabel s z) id id (bandOps drv d idx st ke gk2 dt order kw vol nl pot nrmRho occ) (bandOps drv d idx st ke gk2 dt order kw vol nl pot nrmRho fun b => occ (s b)) where
  nrm x _ := ⟨funext fun b => normalise_smul (z b) (hz b) (x (s b)), trivial⟩
  dens x _ := relabel_dens hv kw vol occ s z hz x
  pot r := by simp only [bandOps, id]
  avg r r' := by simp only [bandOps, id]
  nrmRho r := by simp only [bandOps, id]
  taylor _ V x _ := ⟨by simp only [bandOps, id]; exact relabel_mat (isMat_taylor hv gk2 V _ dt order) s z x, trivial⟩
  ke _ x _ := ⟨by simp only [bandOps]; exact relabel_mat (isMat_operKe ke dt) s z x, trivial⟩
  nl _ := by
    simp only [bandOps]
    rw [List.forall₂_map_left_iff, List.forall₂_map_right_iff, List.forall₂_same]
    exact fun pe _ x _ => ⟨relabel_mat (isMat_operNl pe.1 pe.2) s z x, trivial⟩
  vl _ V x _ := ⟨by simp only [bandOps, id]; exact relabel_mat (isMat_operVloc hv dt _) s z x, trivial⟩

/-- **C227 (phases and order).** Multiplying the orbitals by phases and listing them in another order (with their occupations) gives the same densities at every step, whatever the methods, the potential as a function of the density, the basis and the number of steps; the final orbitals are the same up to these phases and order. -/
theorem C227_phases_order (hv : ValidIdx d idx) (expMethod propMethod : String) (ke gk2 : Fin idx.length → ℝ) (dt : ℝ) (order : ℕ) (kw vol : ℝ) (nl : List ((P : Proj idx.length) × Matrix (Fin P.num) (Fin P.num) ℂ)) (pot nrmRho : (Fin d.size → ℝ) → Fin d.size → ℝ)
    (occ : Fin nb → ℝ) (s : Equiv.Perm (Fin nb)) (z : Fin nb → ℂ) (hz : ∀ b, ‖z b‖ = 1) (numstep : ℕ) (r0 : Fin d.size → ℝ) (psi : Fin nb → Fin idx.length → ℂ) :
    propagate (bandOps drv d idx st ke gk2 dt order kw vol nl pot nrmRho fun b => occ (s b)) expMethod propMethod numstep r0 (fun b j => z b * psi (s b) j)
      = (propagate (bandOps drv d idx st ke gk2 dt order kw vol nl pot nrmRho occ) expMethod propMethod numstep r0 psi).map fun a => (fun b j => z b * a.1 (s b) j, a.2) := by
  have := C227_image expMethod propMethod (fun _ => True) (relabel s z) id id (bandOps drv d idx st ke gk2 dt order kw vol nl pot nrmRho occ) _ (fun kind _ _ => relabel_image hv kind ke gk2 dt order kw vol nl pot nrmRho occ s z hz) numstep r0 r0 psi trivial
  simp only [List.map_id] at this
  exact this

/-! ## Unitary mixing -/

/-- The orbitals are orthogonal and of the same length. -/
def Ortho {n : ℕ} (x : Fin nb → Fin n → ℂ) : Prop := ∃ c : ℝ, 0 < c ∧ ∀ a b, star (x a) ⬝ᵥ x b = if a = b then (c : ℂ) else 0

theorem mixed_ortho {n : ℕ} (U : Matrix (Fin nb) (Fin nb) ℂ) (hU : U ∈ Matrix.unitaryGroup (Fin nb) ℂ) (x : Fin nb → Fin n → ℂ) (c : ℝ) (h : ∀ a b, star (x a) ⬝ᵥ x b = if a = b then (c : ℂ) else 0) (a b : Fin nb) :
    star (mixed U x a) ⬝ᵥ mixed U x b = if a = b then (c : ℂ) else 0 := by
  have e : ∀ a, mixed U x a = ∑ k, U a k • x k := fun a => by funext j; simp [mixed, Finset.sum_apply]
  have hu := congrFun (congrFun (Matrix.mem_unitaryGroup_iff.1 hU) b) a
  rw [Matrix.mul_apply, Matrix.one_apply] at hu
  rw [e, e, star_sum, sum_dotProduct]
  simp only [dotProduct_sum, star_smul, smul_dotProduct, dotProduct_smul, h, smul_eq_mul, mul_ite, mul_zero, Finset.sum_ite_eq, Finset.mem_univ, if_true]
  calc ∑ k, U b k * (star (U a k) * (c : ℂ)) = (∑ k, U b k * star U k a) * c := by
        rw [Finset.sum_mul]
        exact Finset.sum_congr rfl fun k _ => by rw [Matrix.star_apply]; ring
    _ = _ := by rw [hu]; simp only [eq_comm (a := b)]; split_ifs <;> simp

theorem norm_of_ortho {n : ℕ} (x : Fin nb → Fin n → ℂ) (c : ℝ) (h : ∀ a b, star (x a) ⬝ᵥ x b = if a = b then (c : ℂ) else 0) (a : Fin nb) : normalise (x a) = fun j => (1 / Real.sqrt c : ℝ) * x a j := by
  have e : ∑ i, Complex.normSq (x a i) = c := by
    have := h a a
    rw [if_pos rfl, norm2_dot] at this
    exact_mod_cast this
  funext j
  unfold normalise
  rw [e]
  push_cast
  ring

theorem mixed_norm {n : ℕ} (U : Matrix (Fin nb) (Fin nb) ℂ) (hU : U ∈ Matrix.unitaryGroup (Fin nb) ℂ) (x : Fin nb → Fin n → ℂ) (h : Ortho x) : (fun b => normalise (mixed U x b)) = mixed U (fun b => normalise (x b)) ∧ Ortho fun b => normalise (x b) := by
  obtain ⟨c, hc, hx⟩ := h
  constructor
  · funext b j
    rw [norm_of_ortho _ c (mixed_ortho U hU x c hx) b]
    unfold mixed
    simp only [norm_of_ortho x c hx, Finset.mul_sum]
    exact Finset.sum_congr rfl fun k _ => by ring
  · exact ⟨1, one_pos, fun a b => by rw [Complex.ofReal_one]; exact nrmAll_dot x c hc hx a b⟩

theorem mixed_dens (hv : ValidIdx d idx) (kw vol : ℝ) (occ : Fin nb → ℝ) (U : Matrix (Fin nb) (Fin nb) ℂ) (hU : U ∈ Matrix.unitaryGroup (Fin nb) ℂ) (hocc : ∀ b c, U b c ≠ 0 → occ b = occ c) (x : Fin nb → Fin idx.length → ℂ) (h : Ortho x) :
    density drv d idx st kw vol occ (mixed U x) = density drv d idx st kw vol occ x := by
  funext r
  unfold density
  congr 2
  have e : ∀ b, wfR drv d idx st (normalise (mixed U x b)) r = ∑ c, U b c * wfR drv d idx st (normalise (x c)) r := by
    intro b
    rw [congrFun (mixed_norm U hU x h).1 b]
    unfold mixed
    simp only [Nonloc.wfR_eq drv d idx hv, Finset.mul_sum]
    rw [Finset.sum_comm]
    exact Finset.sum_congr rfl fun c _ => Finset.sum_congr rfl fun j _ => by ring
  obtain ⟨f, hf⟩ : ∃ f : Fin nb → ℂ, ∀ c, wfR drv d idx st (normalise (x c)) r = f c := ⟨_, fun _ => rfl⟩
  simp only [e, hf]
  have hu : ∀ c c', ∑ b, conj (U b c) * U b c' = if c = c' then (1 : ℂ) else 0 := by
    intro c c'
    have := congrFun (congrFun (Matrix.mem_unitaryGroup_iff'.1 hU) c) c'
    rw [Matrix.mul_apply, Matrix.one_apply] at this
    rw [← this]
    rfl
  have key : ∑ b, (occ b : ℂ) * (conj (∑ c, U b c * f c) * ∑ c', U b c' * f c') = ∑ b, (occ b : ℂ) * (conj (f b) * f b) := by
    have step : ∀ b, (occ b : ℂ) * (conj (∑ c, U b c * f c) * ∑ c', U b c' * f c') = ∑ c, ∑ c', conj (f c) * f c' * occ c' * (conj (U b c) * U b c') := by
      intro b
      rw [map_sum, Finset.sum_mul_sum, Finset.mul_sum]
      refine Finset.sum_congr rfl fun c _ => ?_
      rw [Finset.mul_sum]
      refine Finset.sum_congr rfl fun c' _ => ?_
      by_cases h0 : U b c' = 0
      · rw [h0]; ring
      · rw [hocc b c' h0, map_mul]; ring
    simp only [step]
    rw [Finset.sum_comm]
    refine Finset.sum_congr rfl fun c _ => ?_
    rw [Finset.sum_comm]
    simp only [← Finset.mul_sum, hu, mul_ite, mul_one, mul_zero, Finset.sum_ite_eq, Finset.mem_univ, if_true]
    ring
  simp only [← Complex.normSq_eq_conj_mul_self] at key
  exact_mod_cast key

theorem mixed_image (hv : ValidIdx d idx) (hfull : idx.length = d.size) (hN : d.size ≠ 0) (ke gk2 : Fin idx.length → ℝ) (dt : ℝ) (order : ℕ) (kw vol : ℝ) (nl : List ((P : Proj idx.length) × Matrix (Fin P.num) (Fin P.num) ℂ))
    (hnl : ∀ pe ∈ nl, expDij pe.1 dt = .ok pe.2 ∧ Nonloc.HermDij pe.1) (pot nrmRho : (Fin d.size → ℝ) → Fin d.size → ℝ) (occ : Fin nb → ℝ) (U : Matrix (Fin nb) (Fin nb) ℂ) (hU : U ∈ Matrix.unitaryGroup (Fin nb) ℂ) (hocc : ∀ b c, U b c ≠ 0 → occ b = occ c) :
    Image .split Ortho (mixed U) id id (bandOps drv d idx st ke gk2 dt order kw vol nl pot nrmRho occ) (bandOps drv d idx st ke gk2 dt order kw vol nl pot nrmRho occ) where
  nrm x hx := mixed_norm U hU x hx
  dens x hx := mixed_dens hv kw vol occ U hU hocc x hx
  pot r := by simp only [bandOps, id]
  avg r r' := by simp only [bandOps, id]
  nrmRho r := by simp only [bandOps, id]
  taylor q := by cases q
  ke _ x hx := ⟨by simp only [bandOps]; exact mixed_mat (isMat_operKe ke dt) U x, by
    obtain ⟨c, hc, h⟩ := hx
    exact ⟨c, hc, fun a b => by simp only [bandOps]; rw [ke_dot, h]⟩⟩
  nl _ := by
    simp only [bandOps]
    rw [List.forall₂_map_left_iff, List.forall₂_map_right_iff, List.forall₂_same]
    intro pe hpe x hx
    refine ⟨mixed_mat (isMat_operNl pe.1 pe.2) U x, ?_⟩
    obtain ⟨c, hc, h⟩ := hx
    exact ⟨c, hc, fun a b => by rw [C50_nonlocal_unitary pe.1 (hnl pe hpe).2 dt pe.2 (hnl pe hpe).1, h]⟩
  vl _ V x hx := ⟨by simp only [bandOps, id]; exact mixed_mat (isMat_operVloc hv dt _) U x, by
    obtain ⟨c, hc, h⟩ := hx
    have hp : (0 : ℝ) < d.size := by exact_mod_cast Nat.pos_of_ne_zero hN
    refine ⟨(d.size : ℝ) ^ 2 * c, by positivity, fun a b => ?_⟩
    simp only [bandOps]
    rw [vloc_dot_full drv d idx hv hfull, h]
    split_ifs
    · push_cast; ring
    · ring⟩

/-- **C227 (mixing).** On a basis as large as the grid, with the split operator (in either propagator), orthonormal orbitals may be mixed by any unitary matrix that only joins orbitals of equal occupation: the densities are the same at every step, and the final orbitals are mixed by that matrix. -/
theorem C227_mixing (hv : ValidIdx d idx) (hfull : idx.length = d.size) (hN : d.size ≠ 0) (propMethod : String) (ke gk2 : Fin idx.length → ℝ) (dt : ℝ) (order : ℕ) (kw vol : ℝ) (nl : List ((P : Proj idx.length) × Matrix (Fin P.num) (Fin P.num) ℂ))
    (hnl : ∀ pe ∈ nl, expDij pe.1 dt = .ok pe.2 ∧ Nonloc.HermDij pe.1) (pot nrmRho : (Fin d.size → ℝ) → Fin d.size → ℝ) (occ : Fin nb → ℝ) (U : Matrix (Fin nb) (Fin nb) ℂ) (hU : U ∈ Matrix.unitaryGroup (Fin nb) ℂ) (hocc : ∀ b c, U b c ≠ 0 → occ b = occ c)
    (numstep : ℕ) (r0 : Fin d.size → ℝ) (psi : Fin nb → Fin idx.length → ℂ) (h : Orthonormal psi) :
    propagate (bandOps drv d idx st ke gk2 dt order kw vol nl pot nrmRho occ) "splitoper" propMethod numstep r0 (fun b j => ∑ c, U b c * psi c j)
      = (propagate (bandOps drv d idx st ke gk2 dt order kw vol nl pot nrmRho occ) "splitoper" propMethod numstep r0 psi).map fun a => (fun b j => ∑ c, U b c * a.1 c j, a.2) := by
  have := C227_image "splitoper" propMethod Ortho (mixed U) id id (bandOps drv d idx st ke gk2 dt order kw vol nl pot nrmRho occ) _ (fun kind etrs hk => by
    have : kind = .split := by
      unfold selectMethods at hk
      simp only at hk
      split_ifs at hk <;> simp_all
    subst this
    exact mixed_image hv hfull hN ke gk2 dt order kw vol nl hnl pot nrmRho occ U hU hocc) numstep r0 r0 psi ⟨1, one_pos, fun a b => by rw [Complex.ofReal_one]; exact h a b⟩
  simp only [List.map_id] at this
  exact this

/-! ## The Taylor propagator and mixing -/

/-- The density on a full basis, without reference to the normalised orbitals. -/
theorem density_full (hv : ValidIdx d idx) (kw vol : ℝ) (occ : Fin nb → ℝ) (x : Fin nb → Fin idx.length → ℂ) (r : Fin d.size) :
    density drv d idx st kw vol occ x r = kw * ((∑ b, occ b * (Complex.normSq (wfR drv d idx st (x b) r) * d.size / norm2 (wfR drv d idx st (x b)))) / vol) := by
  unfold density
  congr 2
  refine Finset.sum_congr rfl fun b _ => ?_
  congr 1
  have e1 : norm2 (wfR drv d idx st (x b)) = d.size * norm2 (x b) := by
    have := dot_wfR drv d idx hv st (x b) (x b)
    rw [norm2_dot, norm2_dot] at this
    exact_mod_cast this
  have hpos : 0 ≤ norm2 (x b) := Finset.sum_nonneg fun j _ => Complex.normSq_nonneg _
  have hs : (0 : ℝ) < d.size := by exact_mod_cast (by have := r.2; omega : 0 < d.size)
  have e2 : normalise (x b) = fun j => ((1 / Real.sqrt (norm2 (x b)) : ℝ) : ℂ) * x b j := by
    funext j
    unfold normalise norm2
    push_cast
    ring
  rw [e2, Mesh.wfR_smul drv d idx hv, Complex.normSq_mul, Complex.normSq_ofReal, e1]
  by_cases h0 : norm2 (x b) = 0
  · rw [h0]; simp
  · have hp : 0 < norm2 (x b) := lt_of_le_of_ne hpos (Ne.symm h0)
    rw [div_mul_div_comm, one_mul, Real.mul_self_sqrt hpos]
    field_simp

/-- First order, no kinetic energy and no projectors: every value on the grid is multiplied by `1 - i dt V`. -/
theorem taylor_one (hv : ValidIdx d idx) (hfull : idx.length = d.size) (dt : ℝ) (V : Fin d.size → ℝ) (x : Fin idx.length → ℂ) (r : Fin d.size) :
    wfR drv d idx st (taylorProp (Nonloc.hPsi .gpu drv d idx st (fun _ => 0) (fun r => (V r : ℂ) / d.size) []) dt 1 x) r = (1 - Complex.I * dt * V r) * wfR drv d idx st x r := by
  have hs : (d.size : ℂ) ≠ 0 := by exact_mod_cast (by have := r.2; omega : d.size ≠ 0)
  rw [C49_truncated_exponential, Finset.sum_range_succ, Finset.sum_range_one]
  simp only [Function.iterate_zero, id, Function.iterate_one, pow_zero, Nat.factorial_zero, Nat.cast_one, div_one, one_smul, pow_one, Nat.factorial_one]
  have e : x + (-Complex.I * dt : ℂ) • Nonloc.hPsi .gpu drv d idx st (fun _ => 0) (fun r => (V r : ℂ) / d.size) [] x
      = fun j => ∑ c : Fin 2, ![1, -Complex.I * dt] c * (![x, wfG drv d idx st fun r => wfR drv d idx st x r * ((V r : ℂ) / d.size)] c) j := by
    funext j
    rw [Fin.sum_univ_two]
    simp [Nonloc.hPsi]
  have hl : ∀ (u : Fin 2 → ℂ) (f : Fin 2 → Fin idx.length → ℂ), wfR drv d idx st (fun j => ∑ c, u c * f c j) r = ∑ c, u c * wfR drv d idx st (f c) r := by
    intro u f
    simp only [Nonloc.wfR_eq drv d idx hv, Finset.mul_sum]
    rw [Finset.sum_comm]
    exact Finset.sum_congr rfl fun c _ => Finset.sum_congr rfl fun j _ => by ring
  rw [e, hl, Fin.sum_univ_two]
  simp only [Matrix.cons_val_zero, Matrix.cons_val_one]
  rw [wfR_wfG_full drv d idx hv hfull]
  field_simp
  ring

end bands

/-- Two grid points. -/
theorem two_valid : ValidIdx ⟨2, 1, 1⟩ [0, 1] := by unfold ValidIdx; decide

theorem two_wfR (drv : Driver) (st : DrvState ℂ) (f : Fin ([0, 1] : List ℕ).length → ℂ) : wfR drv ⟨2, 1, 1⟩ [0, 1] st f ⟨0, by decide⟩ = f ⟨0, by decide⟩ + f ⟨1, by decide⟩ ∧ wfR drv ⟨2, 1, 1⟩ [0, 1] st f ⟨1, by decide⟩ = f ⟨0, by decide⟩ - f ⟨1, by decide⟩ := by
  have e : Complex.exp (2 * Real.pi * Complex.I * 2⁻¹) = -1 := by
    rw [show 2 * (Real.pi : ℂ) * Complex.I * 2⁻¹ = Real.pi * Complex.I by ring, Complex.exp_pi_mul_I]
  constructor
  · rw [Nonloc.wfR_eq drv _ _ two_valid]
    refine (Fin.sum_univ_two (fun i : Fin 2 => _)).trans ?_
    simp only [FFT.dft_ker3_bwd]
    simp [FFT.Dims.ix, FFT.Dims.iy, FFT.Dims.iz]
  · rw [Nonloc.wfR_eq drv _ _ two_valid]
    refine (Fin.sum_univ_two (fun i : Fin 2 => _)).trans ?_
    simp only [FFT.dft_ker3_bwd]
    have hp : 1 / (⟨2, 1, 1⟩ : Dims).plane = 1 := by decide
    simp [FFT.Dims.ix, FFT.Dims.iy, FFT.Dims.iz, hp, e]
    ring

theorem normalise_idem {n : ℕ} (f : Fin n → ℂ) : normalise (normalise f) = normalise f := by
  have hpos : 0 ≤ norm2 f := Finset.sum_nonneg fun j _ => Complex.normSq_nonneg _
  have e : ∀ j, normalise f j = f j / (Real.sqrt (norm2 f) : ℂ) := fun j => rfl
  by_cases h0 : norm2 f = 0
  · funext j
    have : normalise f j = 0 := by rw [e, h0]; simp
    show normalise f j / _ = _
    rw [this, zero_div]
  · have h1 : ∑ i, Complex.normSq (normalise f i) = 1 := by
      simp only [e, Complex.normSq_div, Complex.normSq_ofReal, Real.mul_self_sqrt hpos, ← Finset.sum_div]
      exact div_self h0
    funext j
    show normalise f j / (Real.sqrt (∑ i, Complex.normSq (normalise f i)) : ℂ) = _
    rw [h1]
    simp

/-- The density recorded after one Taylor step, for a potential that does not depend on the density. -/
theorem one_step (drv : Driver) (d : Dims) (idx : List ℕ) (hv : ValidIdx d idx) (hfull : idx.length = d.size) (st : DrvState ℂ) {nb : ℕ} (dt kw vol : ℝ) (V : Fin d.size → ℝ) (occ : Fin nb → ℝ) (r0 : Fin d.size → ℝ) (psi : Fin nb → Fin idx.length → ℂ) :
    ∃ a, propagate (bandOps drv d idx st (fun _ => 0) (fun _ => 0) dt 1 kw vol [] (fun _ => V) id occ) "taylor" "etrs" 1 r0 psi = .ok (a, [fun r => kw * ((∑ b, occ b * (Complex.normSq ((1 - Complex.I * dt * V r) * wfR drv d idx st (psi b) r) * d.size
      / ∑ r', Complex.normSq ((1 - Complex.I * dt * V r') * wfR drv d idx st (psi b) r'))) / vol)]) := by
  set o := bandOps drv d idx st (fun _ => 0) (fun _ => 0) dt 1 kw vol [] (fun _ => V) id occ with ho
  have hn := etrs_next o .taylor ⟨fun _ => psi, 1, 0⟩ (by simp)
  have hd : ∀ x, o.dens (o.nrm x) = o.dens x := by
    intro x
    funext r
    show kw * ((∑ b, occ b * Complex.normSq (wfR drv d idx st (normalise (normalise (x b))) r)) / vol) = kw * ((∑ b, occ b * Complex.normSq (wfR drv d idx st (normalise (x b)) r)) / vol)
    simp only [normalise_idem]
  have hx : etrsNext o .taylor psi = o.nrm (o.taylor V psi) := rfl
  have key : o.dens (o.nrm (o.nrm (o.taylor V psi))) = fun r => kw * ((∑ b, occ b * (Complex.normSq ((1 - Complex.I * dt * V r) * wfR drv d idx st (psi b) r) * d.size
      / ∑ r', Complex.normSq ((1 - Complex.I * dt * V r') * wfR drv d idx st (psi b) r'))) / vol) := by
    rw [hd, hd]
    funext r
    show density drv d idx st kw vol occ (o.taylor V psi) r = _
    rw [density_full hv]
    congr 2
    refine Finset.sum_congr rfl fun b _ => ?_
    have hw : ∀ r, wfR drv d idx st (o.taylor V psi b) r = (1 - Complex.I * dt * V r) * wfR drv d idx st (psi b) r := fun r => taylor_one hv hfull dt V (psi b) r
    unfold norm2
    simp only [hw]
  refine ⟨o.nrm (o.nrm (o.taylor V psi)), ?_⟩
  rw [← key]
  unfold propagate
  rw [show selectMethods "taylor" "etrs" = .ok (.taylor, true) by decide]
  have h1 := hn.1
  change _ = etrsNext o .taylor psi at h1
  rw [hx] at h1
  simp only [if_true, etrsRun, computeRho, Function.update_self]
  rw [h1]

/-- **C227 (violated: mixing with the Taylor propagator).** On a grid of two points, two plane waves of occupation 1 and the potential 0, 1: one Taylor step of order 1 gives another density if the two waves are replaced by their normalised sum and difference. (The norms drift apart and every orbital is normalised separately.) -/
theorem C227_taylor_mixing_violated (drv : Driver) (st : DrvState ℂ) : ∃ (psi : Fin 2 → Fin ([0, 1] : List ℕ).length → ℂ) (U : Matrix (Fin 2) (Fin 2) ℂ) (V : Fin (⟨2, 1, 1⟩ : Dims).size → ℝ), ValidIdx ⟨2, 1, 1⟩ [0, 1] ∧ Orthonormal psi ∧ U ∈ Matrix.unitaryGroup (Fin 2) ℂ ∧
    ∃ a a' rho rho', propagate (bandOps drv ⟨2, 1, 1⟩ [0, 1] st (fun _ => 0) (fun _ => 0) 1 1 1 1 [] (fun _ => V) id fun _ => 1) "taylor" "etrs" 1 (fun _ => 0) psi = .ok (a, [rho]) ∧
      propagate (bandOps drv ⟨2, 1, 1⟩ [0, 1] st (fun _ => 0) (fun _ => 0) 1 1 1 1 [] (fun _ => V) id fun _ => 1) "taylor" "etrs" 1 (fun _ => 0) (fun b j => ∑ c, U b c * psi c j) = .ok (a', [rho']) ∧ rho' ≠ rho := by
  obtain ⟨c, hc⟩ : ∃ c : ℝ, c = 1 / Real.sqrt 2 := ⟨_, rfl⟩
  have hcc : c * c = 1 / 2 := by rw [hc, div_mul_div_comm, one_mul, Real.mul_self_sqrt (by norm_num)]
  have hcC : (c : ℂ) * c = 1 / 2 := by rw [← Complex.ofReal_mul, hcc]; push_cast; ring
  refine ⟨fun b j => if b.1 = j.1 then 1 else 0, !![(c : ℂ), c; c, -c], fun r => if r.1 = 0 then 0 else 1, two_valid, ?_, ?_, ?_⟩
  · intro a b
    change ∑ j : Fin 2, _ = _
    rw [Fin.sum_univ_two]
    fin_cases a <;> fin_cases b <;> simp
  · rw [Matrix.mem_unitaryGroup_iff]
    ext i j
    fin_cases i <;> fin_cases j <;> simp [Matrix.mul_apply, Fin.sum_univ_two, Matrix.star_apply, hcC] <;> norm_num
  · obtain ⟨a, ha⟩ := one_step drv ⟨2, 1, 1⟩ [0, 1] two_valid rfl st 1 1 1 (fun r => if r.1 = 0 then 0 else 1) (fun _ : Fin 2 => 1) (fun _ => 0) (fun b j => if b.1 = j.1 then 1 else 0)
    obtain ⟨a', ha'⟩ := one_step drv ⟨2, 1, 1⟩ [0, 1] two_valid rfl st 1 1 1 (fun r => if r.1 = 0 then 0 else 1) (fun _ : Fin 2 => 1) (fun _ => 0)
      (fun b j => ∑ k : Fin 2, (!![(c : ℂ), c; c, -c] : Matrix (Fin 2) (Fin 2) ℂ) b k * (if k.1 = j.1 then 1 else 0))
    refine ⟨a, a', _, _, ha, ha', fun h => ?_⟩
    have h0 := congrFun h ⟨0, by decide⟩
    have hsum : ∀ F : Fin (⟨2, 1, 1⟩ : Dims).size → ℝ, ∑ r, F r = F ⟨0, by decide⟩ + F ⟨1, by decide⟩ := fun F => Fin.sum_univ_two (fun i : Fin 2 => F i)
    simp only [hsum, two_wfR, Fin.sum_univ_two] at h0
    simp [Complex.normSq_apply] at h0
    have hsz : ((⟨2, 1, 1⟩ : Dims).size : ℝ) = 2 := by
      rw [show (⟨2, 1, 1⟩ : Dims).size = 2 by decide]
      norm_num
    rw [hsz, show (c + c) * (c + c) = 2 by linarith [hcc]] at h0
    norm_num at h0

/-- The hypotheses of C227_mixing are met: two plane waves on two grid points, mixed by a reflection. -/
example : ValidIdx ⟨2, 1, 1⟩ [0, 1] ∧ ([0, 1] : List ℕ).length = (⟨2, 1, 1⟩ : Dims).size ∧ (⟨2, 1, 1⟩ : Dims).size ≠ 0 ∧ Orthonormal (fun (b : Fin 2) (j : Fin ([0, 1] : List ℕ).length) => if b.1 = j.1 then (1 : ℂ) else 0)
    ∧ (!![(3 / 5 : ℂ), 4 / 5; 4 / 5, -(3 / 5)] : Matrix (Fin 2) (Fin 2) ℂ) ∈ Matrix.unitaryGroup (Fin 2) ℂ := by
  refine ⟨two_valid, rfl, by decide, ?_, ?_⟩
  · intro a b
    change ∑ j : Fin 2, _ = _
    rw [Fin.sum_univ_two]
    fin_cases a <;> fin_cases b <;> simp
  · rw [Matrix.mem_unitaryGroup_iff]
    ext i j
    fin_cases i <;> fin_cases j <;> simp [Matrix.mul_apply, Fin.sum_univ_two, Matrix.star_apply] <;> simp only [map_ofNat] <;> norm_num

end Verif.TDDFT
