import Mathlib.LinearAlgebra.UnitaryGroup
import Mathlib.Tactic.IntervalCases
import Verif.Props.KSWfn

/-!
# C183: the density does not depend on the choice of degenerate orbitals
-/

namespace Verif.KSWfn

open Verif.FFT (Dims Driver DrvState ValidIdx)
open scoped ComplexConjugate

/-- The bands of `K` are orthonormal. -/
def Orthonormal (K : KS) : Prop := ∀ b < K.nb, ∀ c < K.nb, ∑ i ∈ Finset.range K.basis, conj (K.evc b i) * K.evc c i = if b = c then 1 else 0

/-- `K'` has the bands of `K` mixed by the matrix `U`, and the same occupations. -/
structure Rotated (K K' : KS) (U : Matrix (Fin K.nb) (Fin K.nb) ℂ) : Prop where
  nb : K'.nb = K.nb
  nspin : K'.nspin = K.nspin
  numg : K'.numg = K.numg
  occ : ∀ b < K.nb, K'.occ b = K.occ b
  evc : ∀ (b : Fin K.nb) (i : ℕ), K'.evc b i = ∑ c : Fin K.nb, U b c * K.evc c i

theorem unitary_cols {n : ℕ} {U : Matrix (Fin n) (Fin n) ℂ} (h : U ∈ Matrix.unitaryGroup (Fin n) ℂ) (c c' : Fin n) : ∑ b, conj (U b c) * U b c' = if c = c' then 1 else 0 := by
  have := congrFun (congrFun (Matrix.mem_unitaryGroup_iff'.1 h) c) c'
  rw [Matrix.mul_apply, Matrix.one_apply] at this
  exact this

theorem unitary_rows {n : ℕ} {U : Matrix (Fin n) (Fin n) ℂ} (h : U ∈ Matrix.unitaryGroup (Fin n) ℂ) (b b' : Fin n) : ∑ c, U b c * conj (U b' c) = if b = b' then 1 else 0 := by
  have := congrFun (congrFun (Matrix.mem_unitaryGroup_iff.1 h) b) b'
  rw [Matrix.mul_apply, Matrix.one_apply] at this
  exact this

theorem rotated_orthonormal {K K' : KS} {U : Matrix (Fin K.nb) (Fin K.nb) ℂ} (hU : U ∈ Matrix.unitaryGroup (Fin K.nb) ℂ) (h : Orthonormal K) (hr : Rotated K K' U) : Orthonormal K' := by
  intro b hb c hc
  rw [hr.nb] at hb hc
  have hbas : K'.basis = K.basis := by unfold KS.basis; rw [hr.nspin, hr.numg]
  have e1 := hr.evc ⟨b, hb⟩
  have e2 := hr.evc ⟨c, hc⟩
  simp only at e1 e2
  rw [hbas]
  simp only [e1, e2, map_sum, map_mul, Finset.sum_mul, Finset.mul_sum]
  have : ∀ x y : Fin K.nb, ∑ i ∈ Finset.range K.basis, conj (U ⟨b, hb⟩ x) * conj (K.evc x i) * (U ⟨c, hc⟩ y * K.evc y i) = if x = y then conj (U ⟨b, hb⟩ x) * U ⟨c, hc⟩ y else 0 := by
    intro x y
    have ho := h x x.2 y y.2
    have : ∑ i ∈ Finset.range K.basis, conj (U ⟨b, hb⟩ x) * conj (K.evc x i) * (U ⟨c, hc⟩ y * K.evc y i) = conj (U ⟨b, hb⟩ x) * U ⟨c, hc⟩ y * ∑ i ∈ Finset.range K.basis, conj (K.evc x i) * K.evc y i := by
      rw [Finset.mul_sum]
      exact Finset.sum_congr rfl fun i _ => by ring
    rw [this, ho]
    by_cases hxy : x = y
    · rw [if_pos hxy, if_pos (congrArg Fin.val hxy), mul_one]
    · rw [if_neg hxy, if_neg (fun e => hxy (Fin.ext e)), mul_zero]
  rw [Finset.sum_comm]
  have step : ∀ x : Fin K.nb, ∑ i ∈ Finset.range K.basis, ∑ y : Fin K.nb, conj (U ⟨b, hb⟩ y) * conj (K.evc y i) * (U ⟨c, hc⟩ x * K.evc x i) = conj (U ⟨b, hb⟩ x) * U ⟨c, hc⟩ x := by
    intro x
    rw [Finset.sum_comm]
    simp only [this]
    simp
  simp only [step]
  have hrow := unitary_rows hU ⟨c, hc⟩ ⟨b, hb⟩
  have : ∑ x : Fin K.nb, conj (U ⟨b, hb⟩ x) * U ⟨c, hc⟩ x = if (⟨c, hc⟩ : Fin K.nb) = ⟨b, hb⟩ then 1 else 0 := by
    rw [← hrow]
    exact Finset.sum_congr rfl fun x _ => mul_comm _ _
  rw [this]
  by_cases hbc : b = c
  · subst hbc; simp
  · rw [if_neg hbc, if_neg (fun e => hbc (congrArg Fin.val e).symm)]

theorem normalize_id {K : KS} (h : Orthonormal K) (sel : ℕ → Bool) (b : ℕ) (hb : b < K.nb) (i : ℕ) : (K.normalize sel).evc b i = K.evc b i := by
  have hn : K.norm2 b = 1 := by
    have := h b hb b hb
    rw [if_pos rfl] at this
    unfold KS.norm2
    have e : ((∑ i ∈ Finset.range K.basis, Complex.normSq (K.evc b i) : ℝ) : ℂ) = 1 := by
      rw [← this]
      push_cast
      exact Finset.sum_congr rfl fun i _ => Complex.normSq_eq_conj_mul_self
    exact_mod_cast e
  unfold KS.normalize
  simp only [hn, Real.sqrt_one, Complex.ofReal_one, div_one, ite_self]

/-- The orbital on the grid. -/
noncomputable def orb (drv : Driver) (d : Dims) (idx : List ℕ) (st : DrvState ℂ) (K : KS) (b s r : ℕ) : ℂ :=
  (drv.g2r d (FFT.dftKern false d) false idx st ((List.range K.numg).map fun i => K.evc b (s * K.numg + i))).2 r

theorem orb_eq (drv : Driver) (d : Dims) (idx : List ℕ) (hv : ValidIdx d idx) (st : DrvState ℂ) (K : KS) (hl : K.numg = idx.length) (b s r : ℕ) (hr : r < d.size) :
    orb drv d idx st K b s r = ∑ k ∈ Finset.range idx.length, FFT.ker3 d (FFT.dftKern false d) r (idx.getD k 0) * K.evc b (s * K.numg + k) := by
  unfold orb
  rw [drv.g2r_eq d _ false idx hv st st.f _ (by simp [hl]) r hr, FFT.fullG2r_eq d _ false idx hv st.f _ (by simp [hl])]
  simp only [FFT.scale, Bool.false_eq_true, if_false, one_mul]
  refine Finset.sum_congr rfl fun k hk => ?_
  rw [List.getD_eq_getElem (l := (List.range K.numg).map fun i => K.evc b (s * K.numg + i)) _ (by simpa [hl] using hk), List.getElem_map, List.getElem_range]

/-- **C183.** Mixing orthonormal bands of the same occupation by any unitary matrix (another choice of degenerate orbitals, other phases, another order of them) does not change the density `compute_rho()`
returns, in any spin component, at any grid point. -/
theorem C183_gauge_invariant (drv : Driver) (d : Dims) (idx : List ℕ) (hv : ValidIdx d idx) (st st' : DrvState ℂ) (vol : ℝ) (K K' : KS) (hl : K.numg = idx.length) (h1 : 0 < K.nb)
    (U : Matrix (Fin K.nb) (Fin K.nb) ℂ) (hU : U ∈ Matrix.unitaryGroup (Fin K.nb) ℂ) (h : Orthonormal K) (hr : Rotated K K' U) (hocc : ∀ b c : Fin K.nb, U b c ≠ 0 → K.occ b = K.occ c) :
    ∃ K1 rho K1' rho', computeRho drv d idx st vol K (.slice 0 K.nb) = .ok (K1, rho) ∧ computeRho drv d idx st' vol K' (.slice 0 K'.nb) = .ok (K1', rho') ∧
      ∀ s r, r < d.size → rho' s r = rho s r := by
  have hb : ∀ L : KS, (Sel.slice 0 L.nb).bands L.nb = List.range L.nb := by
    intro L
    simp [Sel.bands, pySlice]
  have hall : ∀ L : KS, ((List.range L.nb).all fun b => decide (b < L.nb)) = true := by
    intro L
    rw [List.all_eq_true]
    intro b hb
    simpa using hb
  have hne : List.range K.nb ≠ [] := by simp; omega
  have hne' : List.range K'.nb ≠ [] := by rw [hr.nb]; exact hne
  refine ⟨_, _, _, _, by unfold computeRho; simp only [hb, hall, Bool.true_eq_false, if_false, hne]; rfl, by unfold computeRho; simp only [hb, hall, Bool.true_eq_false, if_false, hne']; rfl, ?_⟩
  intro s r hrs
  have ho' := rotated_orthonormal hU h hr
  have hd : ∀ (L : KS) (sel : ℕ → Bool) (t : DrvState ℂ), Orthonormal L → L.numg = idx.length → ∀ b < L.nb, density drv d idx t (L.normalize sel) b s r = conj (orb drv d idx st L b s r) * orb drv d idx st L b s r := by
    intro L sel t hL hln b hbl
    have e : orb drv d idx t (L.normalize sel) b s r = orb drv d idx st L b s r := by
      rw [orb_eq drv d idx hv t (L.normalize sel) hln b s r hrs, orb_eq drv d idx hv st L hln b s r hrs]
      refine Finset.sum_congr rfl fun k _ => ?_
      rw [normalize_id hL sel b hbl]
      rfl
    show conj (orb drv d idx t (L.normalize sel) b s r) * orb drv d idx t (L.normalize sel) b s r = _
    rw [e]
  have hln' : K'.numg = idx.length := by rw [hr.numg, hl]
  have horb : ∀ b : Fin K.nb, orb drv d idx st K' b s r = ∑ c : Fin K.nb, U b c * orb drv d idx st K c s r := by
    intro b
    rw [orb_eq drv d idx hv st K' hln' b s r hrs]
    simp only [orb_eq drv d idx hv st K hl _ s r hrs, hr.evc b, hr.numg, Finset.mul_sum]
    rw [Finset.sum_comm]
    refine Finset.sum_congr rfl fun c _ => Finset.sum_congr rfl fun k _ => ?_
    ring
  congr 1
  rw [DFTComm.list_sum_range, DFTComm.list_sum_range, hr.nb]
  have A : ∀ b ∈ Finset.range K.nb, (K.occ b : ℂ) * (conj (orb drv d idx st K' b s r) * orb drv d idx st K' b s r) = (K'.occ b : ℂ) * density drv d idx st' (K'.normalize fun b => decide (b ∈ List.range K.nb)) b s r := fun b hbm => by
    rw [hd K' _ st' ho' hln' b (by rw [hr.nb]; exact Finset.mem_range.1 hbm), hr.occ b (Finset.mem_range.1 hbm)]
  have B : ∀ b ∈ Finset.range K.nb, (K.occ b : ℂ) * density drv d idx st (K.normalize fun b => decide (b ∈ List.range K.nb)) b s r = (K.occ b : ℂ) * (conj (orb drv d idx st K b s r) * orb drv d idx st K b s r) := fun b hbm => by
    rw [hd K _ st h hl b (Finset.mem_range.1 hbm)]
  refine (Finset.sum_congr rfl A).symm.trans (Eq.trans ?_ (Finset.sum_congr rfl B).symm)
  rw [Finset.sum_range, Finset.sum_range]
  simp only [horb, map_sum, map_mul, Finset.sum_mul, Finset.mul_sum]
  have swap : ∀ b x y : Fin K.nb, (K.occ b : ℂ) * (conj (U b x) * conj (orb drv d idx st K x s r) * (U b y * orb drv d idx st K y s r))
      = (K.occ y : ℂ) * conj (orb drv d idx st K x s r) * orb drv d idx st K y s r * (conj (U b x) * U b y) := by
    intro b x y
    by_cases hu : U b y = 0
    · rw [hu]; ring
    · rw [hocc b y hu]; ring
  simp only [swap]
  rw [Finset.sum_comm]
  refine Finset.sum_congr rfl fun x _ => ?_
  rw [Finset.sum_comm]
  have fin : ∀ y : Fin K.nb, ∑ b : Fin K.nb, (K.occ x : ℂ) * conj (orb drv d idx st K y s r) * orb drv d idx st K x s r * (conj (U b y) * U b x)
      = if y = x then (K.occ x : ℂ) * (conj (orb drv d idx st K y s r) * orb drv d idx st K x s r) else 0 := by
    intro y
    rw [← Finset.mul_sum, unitary_cols hU]
    split
    · ring
    · ring
  simp only [fin]
  simp

/-- Two degenerate bands on two plane waves. -/
noncomputable def gK : KS where
  nb := 2
  nspin := 1
  numg := 2
  evc := fun b i => if b = i then 1 else 0
  evl := fun _ => 0
  occ := fun _ => 2

/-- The rotation by the angle of the 3-4-5 triangle. -/
noncomputable def gU : Matrix (Fin gK.nb) (Fin gK.nb) ℂ := fun b c => if b.1 = c.1 then 3 / 5 else if b.1 < c.1 then 4 / 5 else -(4 / 5)

/-- The rotated bands. -/
noncomputable def gK' : KS := { gK with evc := fun b i => if h : b < gK.nb then ∑ c : Fin gK.nb, gU ⟨b, h⟩ c * gK.evc c i else 0 }

example : gU ∈ Matrix.unitaryGroup (Fin gK.nb) ℂ ∧ Orthonormal gK ∧ Rotated gK gK' gU ∧ (∀ b c : Fin gK.nb, gU b c ≠ 0 → gK.occ b = gK.occ c) ∧ gK'.evc ≠ gK.evc ∧
    ValidIdx ⟨3, 1, 1⟩ [0, 1] ∧ gK.numg = [0, 1].length := by
  refine ⟨?_, ?_, ⟨rfl, rfl, rfl, fun _ _ => rfl, fun b i => ?_⟩, fun _ _ _ => rfl, ?_, ?_, rfl⟩
  · rw [Matrix.mem_unitaryGroup_iff]
    ext b c
    rw [Matrix.mul_apply, Matrix.one_apply]
    show ∑ j : Fin 2, gU b j * conj (gU c j) = _
    rw [Fin.sum_univ_two]
    have h3 : (starRingEnd ℂ) (3 / 5) = 3 / 5 := by
      have := Complex.conj_ofReal (3 / 5); push_cast at this; exact this
    have h4 : (starRingEnd ℂ) (4 / 5) = 4 / 5 := by
      have := Complex.conj_ofReal (4 / 5); push_cast at this; exact this
    obtain ⟨b, hb⟩ := b
    obtain ⟨c, hc⟩ := c
    have hb' : b < 2 := hb
    have hc' : c < 2 := hc
    have q0 : gU ⟨b, hb⟩ (0 : Fin 2) = (if b = 0 then 3 / 5 else if b < 0 then 4 / 5 else -(4 / 5)) := rfl
    have q1 : gU ⟨b, hb⟩ (1 : Fin 2) = (if b = 1 then 3 / 5 else if b < 1 then 4 / 5 else -(4 / 5)) := rfl
    have q2 : gU ⟨c, hc⟩ (0 : Fin 2) = (if c = 0 then 3 / 5 else if c < 0 then 4 / 5 else -(4 / 5)) := rfl
    have q3 : gU ⟨c, hc⟩ (1 : Fin 2) = (if c = 1 then 3 / 5 else if c < 1 then 4 / 5 else -(4 / 5)) := rfl
    rw [q0, q1, q2, q3]
    simp only [Fin.mk.injEq]
    interval_cases b <;> interval_cases c <;> norm_num [h3, h4]
  · intro b hb c hc
    change b < 2 at hb
    change c < 2 at hc
    show ∑ i ∈ Finset.range 2, _ = _
    rw [Finset.sum_range_succ, Finset.sum_range_one]
    simp only [gK]
    interval_cases b <;> interval_cases c <;> simp
  · show (if h : b.1 < gK.nb then _ else _) = _
    rw [dif_pos b.2]
  · intro h
    have := congrFun (congrFun h 0) 0
    change (if h : 0 < 2 then ∑ c : Fin 2, gU ⟨0, h⟩ c * gK.evc c 0 else 0) = _ at this
    rw [dif_pos (by decide), Fin.sum_univ_two] at this
    simp [gU, gK] at this
    norm_num at this
  · exact ⟨by decide, by decide⟩

end Verif.KSWfn
