import Verif.Props.TDConj

/-!
# Property C230: a run of the split-operator propagator can be retraced
-/

namespace Verif.TDDFT

open scoped ComplexConjugate
open Matrix
open Verif.FFT (Driver Dims DrvState ValidIdx)
open Verif.Nonloc (Proj wfR wfG)
open Verif.Mesh (normalise density)

variable {nb : ℕ}

/-- Every orbital multiplied by its own factor. -/
def scaled {n : ℕ} (c : Fin nb → ℝ) (x : Fin nb → Fin n → ℂ) : Fin nb → Fin n → ℂ := fun b j => (c b : ℂ) * x b j

theorem scaled_scaled {n : ℕ} (c c' : Fin nb → ℝ) (x : Fin nb → Fin n → ℂ) : scaled c (scaled c' x) = scaled (fun b => c b * c' b) x := by
  funext b j
  simp only [scaled]
  push_cast
  ring

/-- The operations `o'` undo `o`; both are linear on every orbital. -/
structure Undoes {n : ℕ} {R V : Type*} (o o' : Ops (Fin nb → Fin n → ℂ) R V) (k : ℝ) : Prop where
  pos : 0 < k
  nrm : o'.nrm = o.nrm
  dens : o'.dens = o.dens
  pot : o'.pot = o.pot
  nrmRho : o'.nrmRho = o.nrmRho
  scl : ∀ x, ∃ c : Fin nb → ℝ, (∀ b, 0 < c b) ∧ o.nrm x = scaled c x
  inv : ∀ (c : Fin nb → ℝ) x, (∀ b, 0 < c b) → o.nrm (scaled c x) = o.nrm x
  ke : Undo o'.ke o.ke
  nl : List.Forall₂ Undo o'.nl o.nl
  vl : ∀ v x, o'.vl v (o.vl v x) = scaled (fun _ => k) x
  keep : ∀ v x, o.dens (o.nrm (o.vl v x)) = o.dens (o.nrm x)
  lke : ∀ (c : Fin nb → ℝ) x, o'.ke (scaled c x) = scaled c (o'.ke x)
  lnl : ∀ f ∈ o'.nl, ∀ (c : Fin nb → ℝ) x, f (scaled c x) = scaled c (f x)
  lvl : ∀ v (c : Fin nb → ℝ) x, o'.vl v (scaled c x) = scaled c (o'.vl v x)

variable {n : ℕ} {R V : Type*} {o o' : Ops (Fin nb → Fin n → ℂ) R V} {k : ℝ}

theorem fold_scaled (l : List ((Fin nb → Fin n → ℂ) → Fin nb → Fin n → ℂ)) (hl : ∀ f ∈ l, ∀ (c : Fin nb → ℝ) x, f (scaled c x) = scaled c (f x)) (c : Fin nb → ℝ) (x : Fin nb → Fin n → ℂ) :
    l.foldl (fun x f => f x) (scaled c x) = scaled c (l.foldl (fun x f => f x) x) := by
  induction l generalizing x with
  | nil => rfl
  | cons f l ih => rw [List.foldl_cons, List.foldl_cons, hl f (by simp), ih (fun g hg => hl g (by simp [hg]))]

/-- One step with `prop/splitoper.py`. -/
def splitNext {E R V : Type*} (o : Ops E R V) (x : E) : E := splitStep o.nrm o.dens (fun r => o.pot (o.nrmRho r)) o.ke o.nl o.vl x

theorem Undoes.idem (h : Undoes o o' k) (x : Fin nb → Fin n → ℂ) : o.nrm (o.nrm x) = o.nrm x := by
  obtain ⟨c, hc, e⟩ := h.scl x
  rw [e, h.inv c x hc, e]

theorem Undoes.back (h : Undoes o o' k) (x : Fin nb → Fin n → ℂ) : splitNext o' (splitNext o x) = o.nrm x := by
  unfold splitNext splitStep
  simp only
  rw [h.nrm, h.dens, h.pot, h.nrmRho]
  set a0 := o.nl.foldl (fun x f => f x) (o.ke x) with ha0
  obtain ⟨r1, hr1, e1⟩ := h.scl a0
  set b := o.vl (o.pot (o.nrmRho (o.dens (o.nrm a0)))) (o.nrm a0) with hb
  obtain ⟨r2, hr2, e2⟩ := h.scl (o.ke (o.nl.reverse.foldl (fun x f => f x) b))
  have hback : o'.nl.foldl (fun x f => f x) (o'.ke (o.nrm (o.ke (o.nl.reverse.foldl (fun x f => f x) b)))) = scaled r2 b := by
    rw [e2, h.lke, h.ke, fold_scaled _ h.lnl, undo_chain o.nl o'.nl h.nl]
  rw [hback, h.inv r2 _ hr2]
  have hd : o.dens (o.nrm b) = o.dens (o.nrm a0) := by rw [hb, h.keep, h.idem]
  rw [hd]
  obtain ⟨r3, hr3, e3⟩ := h.scl b
  rw [e3, h.lvl, hb, h.vl, e1, scaled_scaled, scaled_scaled, fold_scaled _ (by simpa using h.lnl), ha0, undo_chain' o.nl o'.nl h.nl, h.lke, h.ke]
  refine h.inv _ _ fun b => ?_
  have := hr1 b
  have := hr3 b
  have := h.pos
  positivity

theorem splitNext_scaled (h : Undoes o o' k) (hlk : ∀ (c : Fin nb → ℝ) x, o.ke (scaled c x) = scaled c (o.ke x)) (hln : ∀ f ∈ o.nl, ∀ (c : Fin nb → ℝ) x, f (scaled c x) = scaled c (f x)) (x : Fin nb → Fin n → ℂ) : splitNext o (o.nrm x) = splitNext o x := by
  obtain ⟨c, hc, e⟩ := h.scl x
  unfold splitNext splitStep
  simp only
  rw [e, hlk, fold_scaled _ hln, h.inv c _ hc]

theorem splitNext_nrm (h : Undoes o o' k) (x : Fin nb → Fin n → ℂ) : o.nrm (splitNext o x) = splitNext o x := by
  unfold splitNext splitStep
  simp only
  exact h.idem _

theorem splitRun_append {E R V : Type*} (o : Ops E R V) (m p : ℕ) (x : E) : splitRun o (m + p) x = ((splitRun o p (splitRun o m x).1).1, (splitRun o m x).2 ++ (splitRun o p (splitRun o m x).1).2) := by
  induction m generalizing x with
  | zero => simp [splitRun]
  | succ m ih =>
    rw [show m + 1 + p = (m + p) + 1 by ring]
    have e : ∀ q y, splitRun o (q + 1) y = ((splitRun o q (o.nrm (splitNext o y))).1, o.dens (o.nrm (splitNext o y)) :: (splitRun o q (o.nrm (splitNext o y))).2) := fun _ _ => rfl
    rw [e, e, ih]
    rfl

theorem retrace (h : Undoes o o' k) (p : ℕ) : ∀ x, o.nrm x = x → o.nrm (splitRun o p x).1 = (splitRun o p x).1 ∧ (splitRun o' p (splitRun o p x).1).1 = x ∧
    (splitRun o' p (splitRun o p x).1).2 = ((o.dens x :: (splitRun o p x).2).dropLast).reverse := by
  induction p with
  | zero => intro x hx; exact ⟨hx, rfl, rfl⟩
  | succ p ih =>
    intro x hx
    have hy : o.nrm (splitNext o x) = splitNext o x := splitNext_nrm h x
    obtain ⟨i0, i1, i2⟩ := ih (splitNext o x) hy
    have e : splitRun o (p + 1) x = ((splitRun o p (splitNext o x)).1, o.dens (splitNext o x) :: (splitRun o p (splitNext o x)).2) := by
      have : o.nrm (splitStep o.nrm o.dens (fun r => o.pot (o.nrmRho r)) o.ke o.nl o.vl x) = splitNext o x := hy
      simp only [splitRun, this]
    have hb : o'.nrm (splitNext o' (splitNext o x)) = x := by rw [h.back, h.nrm, hx, hx]
    have e1 : splitRun o' 1 (splitNext o x) = (x, [o.dens x]) := by
      show (o'.nrm (splitNext o' (splitNext o x)), [o'.dens (o'.nrm (splitNext o' (splitNext o x)))]) = _
      rw [hb, h.dens]
    rw [e]
    simp only
    rw [splitRun_append o' p 1, i1, i2, e1]
    refine ⟨i0, rfl, ?_⟩
    have e2 : (o.dens x :: o.dens (splitNext o x) :: (splitRun o p (splitNext o x)).2).dropLast = o.dens x :: (o.dens (splitNext o x) :: (splitRun o p (splitNext o x)).2).dropLast := rfl
    rw [e2, List.reverse_cons]

section bands

variable {drv : Driver} {d : Dims} {idx : List ℕ} {st : DrvState ℂ}

/-- A species with its factors for the time steps `dt` and `-dt`. -/
abbrev TwoFactors (n : ℕ) := (P : Proj n) × (Matrix (Fin P.num) (Fin P.num) ℂ × Matrix (Fin P.num) (Fin P.num) ℂ)

theorem mat_real {m : ℕ} {f : (Fin m → ℂ) → Fin m → ℂ} (h : IsMat f) (c : Fin nb → ℝ) (x : Fin nb → Fin m → ℂ) : (fun b => f (scaled c x b)) = scaled c fun b => f (x b) :=
  funext fun b => isMat_smul h (c b) (x b)

theorem nrm_scale {m : ℕ} (f : Fin m → ℂ) : ∃ c : ℝ, 0 < c ∧ normalise f = fun j => (c : ℂ) * f j := by
  have hpos : 0 ≤ norm2 f := Finset.sum_nonneg fun j _ => Complex.normSq_nonneg _
  have e : ∀ j, normalise f j = f j / (Real.sqrt (norm2 f) : ℂ) := fun j => rfl
  by_cases h0 : norm2 f = 0
  · have hz : ∀ j, f j = 0 := fun j => Complex.normSq_eq_zero.1 ((Finset.sum_eq_zero_iff_of_nonneg fun j _ => Complex.normSq_nonneg (f j)).1 h0 j (Finset.mem_univ j))
    exact ⟨1, one_pos, funext fun j => by rw [e, hz j]; simp⟩
  · have hp : 0 < norm2 f := lt_of_le_of_ne hpos (Ne.symm h0)
    refine ⟨1 / Real.sqrt (norm2 f), by positivity, funext fun j => ?_⟩
    rw [e]
    push_cast
    ring

theorem nrm_pos {m : ℕ} (c : ℝ) (hc : 0 < c) (f : Fin m → ℂ) : normalise (fun j => (c : ℂ) * f j) = normalise f := by
  funext j
  show (c : ℂ) * f j / (Real.sqrt (∑ i, Complex.normSq ((c : ℂ) * f i)) : ℂ) = f j / (Real.sqrt (∑ i, Complex.normSq (f i)) : ℂ)
  have : ∑ i, Complex.normSq ((c : ℂ) * f i) = c ^ 2 * ∑ i, Complex.normSq (f i) := by
    rw [Finset.mul_sum]
    exact Finset.sum_congr rfl fun i _ => by rw [Complex.normSq_mul, Complex.normSq_ofReal]; ring
  rw [this, Real.sqrt_mul (sq_nonneg c), Real.sqrt_sq hc.le]
  have : (c : ℂ) ≠ 0 := by exact_mod_cast hc.ne'
  push_cast
  rw [mul_div_mul_left _ _ this]

theorem vloc_dens (hv : ValidIdx d idx) (hfull : idx.length = d.size) (hN : d.size ≠ 0) (kw vol : ℝ) (occ : Fin nb → ℝ) (dt : ℝ) (v : Fin d.size → ℝ) (x : Fin nb → Fin idx.length → ℂ) :
    density drv d idx st kw vol occ (fun b => normalise (operVloc drv d idx st dt (fun r => (v r : ℂ) / d.size) (x b))) = density drv d idx st kw vol occ (fun b => normalise (x b)) := by
  have hd : ∀ y, density drv d idx st kw vol occ (fun b => normalise (y b)) = density drv d idx st kw vol occ y := by
    intro y
    unfold density
    simp only [normalise_idem]
  rw [hd, hd]
  have hw : ∀ b r, Complex.normSq (wfR drv d idx st (operVloc drv d idx st dt (fun r => (v r : ℂ) / d.size) (x b)) r) = (d.size : ℝ) ^ 2 * Complex.normSq (wfR drv d idx st (x b) r) := by
    intro b r
    unfold operVloc
    rw [wfR_wfG_full drv d idx hv hfull, Complex.normSq_mul, Complex.normSq_mul, Complex.normSq_natCast]
    have hs : (d.size : ℂ) ≠ 0 := by exact_mod_cast hN
    rw [show -Complex.I * dt * d.size * ((v r : ℂ) / d.size) = ((-(dt * v r) : ℝ) : ℂ) * Complex.I by push_cast; field_simp, Complex.normSq_eq_norm_sq (Complex.exp _), Complex.norm_exp_ofReal_mul_I]
    ring
  funext r
  rw [density_full hv, density_full hv]
  congr 2
  refine Finset.sum_congr rfl fun b _ => ?_
  congr 1
  unfold norm2
  simp only [hw]
  rw [← Finset.mul_sum, mul_assoc]
  have : ((d.size : ℝ) ^ 2) ≠ 0 := by positivity
  rw [mul_div_mul_left _ _ this]

theorem bands_undo (hv : ValidIdx d idx) (hfull : idx.length = d.size) (hN : d.size ≠ 0) (ke gk2 : Fin idx.length → ℝ) (dt : ℝ) (order : ℕ) (kw vol : ℝ) (nl : List (TwoFactors idx.length)) (hnl : ∀ p ∈ nl, expDij p.1 dt = .ok p.2.1 ∧ expDij p.1 (-dt) = .ok p.2.2)
    (pot nrmRho : (Fin d.size → ℝ) → Fin d.size → ℝ) (occ : Fin nb → ℝ) :
    Undoes (bandOps drv d idx st ke gk2 dt order kw vol (nl.map fun p => ⟨p.1, p.2.1⟩) pot nrmRho occ) (bandOps drv d idx st ke gk2 (-dt) order kw vol (nl.map fun p => ⟨p.1, p.2.2⟩) pot nrmRho occ) ((d.size : ℝ) ^ 2) where
  pos := by
    have : (0 : ℝ) < d.size := by exact_mod_cast Nat.pos_of_ne_zero hN
    positivity
  nrm := by simp only [bandOps]
  dens := by simp only [bandOps]
  pot := by simp only [bandOps]
  nrmRho := by simp only [bandOps]
  scl x := by
    choose c hc e using fun b => nrm_scale (x b)
    exact ⟨c, hc, by simp only [bandOps]; exact funext fun b => e b⟩
  inv c x hc := by
    simp only [bandOps]
    exact funext fun b => nrm_pos (c b) (hc b) (x b)
  ke x := by
    simp only [bandOps]
    exact funext fun b => (C50_kinetic_factor ke dt (x b)).2.1
  nl := by
    simp only [bandOps, List.map_map]
    rw [List.forall₂_map_left_iff, List.forall₂_map_right_iff, List.forall₂_same]
    exact fun p hp x => funext fun b => nl_undo p.1 dt p.2.1 p.2.2 (hnl p hp).1 (hnl p hp).2 (x b)
  vl v x := by
    funext b j
    have := congrFun (vloc_undo_full drv d idx hv hfull st dt (fun r => (v r : ℂ) / d.size) (x b)) j
    simp only [bandOps, scaled]
    rw [this]
    push_cast
    rfl
  keep v x := by
    simp only [bandOps]
    exact vloc_dens hv hfull hN kw vol occ dt v x
  lke c x := by
    simp only [bandOps]
    exact mat_real (isMat_operKe ke (-dt)) c x
  lnl f hf c x := by
    simp only [bandOps, List.map_map, List.mem_map] at hf
    obtain ⟨p, _, rfl⟩ := hf
    exact mat_real (isMat_operNl p.1 p.2.2) c x
  lvl v c x := by
    simp only [bandOps]
    exact mat_real (isMat_operVloc (st := st) (drv := drv) hv (-dt) fun r => (v r : ℂ) / d.size) c x

/-- **C230.** On a basis as large as the grid, with the split-operator propagator: a run from normalised orbitals, followed by a run of as many steps with `-dt`, ends with the orbitals it started from, and the densities come in the opposite order (the density of the start is the last one) — although the potential is recomputed from the density in every step. -/
theorem C230_retrace (hv : ValidIdx d idx) (hfull : idx.length = d.size) (hN : d.size ≠ 0) (ke gk2 : Fin idx.length → ℝ) (dt : ℝ) (order : ℕ) (kw vol : ℝ) (nl : List (TwoFactors idx.length)) (hnl : ∀ p ∈ nl, expDij p.1 dt = .ok p.2.1 ∧ expDij p.1 (-dt) = .ok p.2.2)
    (pot nrmRho : (Fin d.size → ℝ) → Fin d.size → ℝ) (occ : Fin nb → ℝ) (numstep : ℕ) (r0 r0' : Fin d.size → ℝ) (psi : Fin nb → Fin idx.length → ℂ) (hpsi : ∀ b, ∑ j, Complex.normSq (psi b j) = 1) :
    ∃ a, propagate (bandOps drv d idx st ke gk2 dt order kw vol (nl.map fun p => ⟨p.1, p.2.1⟩) pot nrmRho occ) "splitoper" "splitoper" numstep r0 psi = .ok a ∧
      propagate (bandOps drv d idx st ke gk2 (-dt) order kw vol (nl.map fun p => ⟨p.1, p.2.2⟩) pot nrmRho occ) "splitoper" "splitoper" numstep r0' a.1 = .ok (psi, ((density drv d idx st kw vol occ psi :: a.2).dropLast).reverse) := by
  have hsel : selectMethods "splitoper" "splitoper" = .ok (.split, false) := by decide
  have hn : (fun b => normalise (psi b)) = psi := by
    funext b j
    show psi b j / (Real.sqrt (∑ i, Complex.normSq (psi b i)) : ℂ) = psi b j
    rw [hpsi b]
    simp
  obtain ⟨_, h1, h2⟩ := retrace (bands_undo (drv := drv) (st := st) hv hfull hN ke gk2 dt order kw vol nl hnl pot nrmRho occ) numstep psi hn
  refine ⟨splitRun (bandOps drv d idx st ke gk2 dt order kw vol (nl.map fun p => ⟨p.1, p.2.1⟩) pot nrmRho occ) numstep psi, ?_, ?_⟩
  · unfold propagate
    rw [hsel]
    rfl
  · unfold propagate
    rw [hsel]
    simp only [Bool.false_eq_true, if_false]
    exact congrArg Except.ok (Prod.ext h1 h2)

/-- **C230 (microreversibility).** Without leaving the time step `dt`: conjugating the orbitals after a run and running again as many steps ends with the complex conjugates of the orbitals at the start. -/
theorem C230_microreversibility (hv : ValidIdx d idx) (hfull : idx.length = d.size) (hN : d.size ≠ 0) (σ : Equiv.Perm (Fin idx.length)) (hσ : Opposite d idx σ) (ke gk2 : Fin idx.length → ℝ) (hk : ∀ j, ke (σ j) = ke j) (hg : ∀ j, gk2 (σ j) = gk2 j) (dt : ℝ) (order : ℕ) (kw vol : ℝ)
    (nl : List ((P : Proj idx.length) × Matrix (Fin P.num) (Fin P.num) ℂ)) (hnl : ∀ p ∈ nl, RealProj σ p.1 ∧ expDij p.1 dt = .ok p.2)
    (pot nrmRho : (Fin d.size → ℝ) → Fin d.size → ℝ) (occ : Fin nb → ℝ) (numstep : ℕ) (r0 r0' : Fin d.size → ℝ) (psi : Fin nb → Fin idx.length → ℂ) (hpsi : ∀ b, ∑ j, Complex.normSq (psi b j) = 1) :
    ∃ a, propagate (bandOps drv d idx st ke gk2 dt order kw vol nl pot nrmRho occ) "splitoper" "splitoper" numstep r0 psi = .ok a ∧
      propagate (bandOps drv d idx st ke gk2 dt order kw vol nl pot nrmRho occ) "splitoper" "splitoper" numstep r0' (fun b => conjOrb σ (a.1 b)) = .ok (fun b => conjOrb σ (psi b), ((density drv d idx st kw vol occ psi :: a.2).dropLast).reverse) := by
  have hpair := C230_retrace (drv := drv) (st := st) hv hfull hN ke gk2 dt order kw vol (nl.map fun p => (⟨p.1, p.2, p.2.map conj⟩ : TwoFactors idx.length)) (fun q hq => by
    obtain ⟨p, hp, rfl⟩ := List.mem_map.1 hq
    refine ⟨(hnl p hp).2, ?_⟩
    rw [C229_factors σ p.1 (hnl p hp).1, (hnl p hp).2]
    rfl) pot nrmRho occ numstep r0 r0' psi hpsi
  simp only [List.map_map, Function.comp_def] at hpair
  obtain ⟨a, h1, h2⟩ := hpair
  have hid : (nl.map fun p => (⟨p.1, p.2⟩ : (P : Proj idx.length) × Matrix (Fin P.num) (Fin P.num) ℂ)) = nl := by simp
  have hcc : conjFactors (nl.map fun p => (⟨p.1, p.2.map conj⟩ : (P : Proj idx.length) × Matrix (Fin P.num) (Fin P.num) ℂ)) = nl := by
    unfold conjFactors
    rw [List.map_map]
    conv_rhs => rw [← hid]
    refine List.map_congr_left fun p _ => ?_
    simp only [Function.comp]
    congr 1
    ext i i'
    simp
  refine ⟨a, by rw [← h1, hid], ?_⟩
  have hc := C229_conjugation (drv := drv) (st := st) hv σ hσ "splitoper" "splitoper" ke gk2 hk hg (-dt) order kw vol (nl.map fun p => ⟨p.1, p.2.map conj⟩) (fun q hq => by
    obtain ⟨p, hp, rfl⟩ := List.mem_map.1 hq
    exact (hnl p hp).1) pot nrmRho occ numstep r0' r0' a.1
  rw [neg_neg, hcc, h2] at hc
  exact hc

end bands

/-- The hypotheses of C230 are met: two plane waves on two grid points, both their own opposites; an orbital that is not real. -/
example : ValidIdx ⟨2, 1, 1⟩ [0, 1] ∧ ([0, 1] : List ℕ).length = (⟨2, 1, 1⟩ : Dims).size ∧ Opposite ⟨2, 1, 1⟩ [0, 1] 1 ∧ ∑ j, Complex.normSq ((![3 / 5, 4 / 5 * Complex.I] : Fin 2 → ℂ) j) = 1 := by
  refine ⟨two_valid, rfl, ?_, ?_⟩
  · intro j a
    change Fin 2 at j
    fin_cases j <;> fin_cases a
    · exact ⟨0, by decide⟩
    · exact ⟨0, by decide⟩
    · exact ⟨0, by decide⟩
    · exact ⟨1, by decide⟩
    · exact ⟨0, by decide⟩
    · exact ⟨0, by decide⟩
  · rw [Fin.sum_univ_two]
    simp [Complex.normSq_apply]
    norm_num

end Verif.TDDFT
