import Verif.Props.TDDFT

/-!
# C188: the split-operator propagation keeps norms and orthogonality
-/

namespace Verif.TDDFT

open scoped ComplexConjugate
open Matrix
open Verif.FFT (Driver Dims DrvState ValidIdx)
open Verif.Nonloc (Proj wfR wfG)

theorem ker3_conj (d : Dims) (f g : ℕ) : conj (FFT.ker3 d (FFT.dftKern true d) f g) = FFT.ker3 d (FFT.dftKern false d) g f := by
  rw [FFT.dft_ker3_fwd, FFT.dft_ker3_bwd, ← Complex.exp_conj]
  congr 1
  simp only [map_mul, map_neg, Complex.conj_I, Complex.conj_ofReal, map_add, map_div₀, map_natCast, map_ofNat]
  ring

/-- The transforms are adjoint to each other. -/
theorem adj (drv : Driver) (d : Dims) (idx : List ℕ) (hv : ValidIdx d idx) (st : DrvState ℂ) (u : Fin d.size → ℂ) (f : Fin idx.length → ℂ) :
    star (wfG drv d idx st u) ⬝ᵥ f = star u ⬝ᵥ wfR drv d idx st f := by
  simp only [dotProduct, Pi.star_apply, Nonloc.wfG_eq drv d idx hv, Nonloc.wfR_eq drv d idx hv, star_sum, Finset.sum_mul, Finset.mul_sum]
  rw [Finset.sum_comm]
  refine Finset.sum_congr rfl fun r _ => Finset.sum_congr rfl fun j _ => ?_
  rw [star_mul', Complex.star_def, ker3_conj]
  ring

theorem dot_wfR (drv : Driver) (d : Dims) (idx : List ℕ) (hv : ValidIdx d idx) (st : DrvState ℂ) (x y : Fin idx.length → ℂ) :
    star (wfR drv d idx st x) ⬝ᵥ wfR drv d idx st y = d.size * (star x ⬝ᵥ y) := by
  rw [← adj drv d idx hv st]
  have : wfG drv d idx st (wfR drv d idx st x) = (d.size : ℂ) • x := by
    funext j
    rw [wfG_wfR drv d idx hv, Pi.smul_apply, smul_eq_mul]
  rw [this, star_smul, smul_dotProduct, smul_eq_mul, Complex.star_def, map_natCast]

/-- The squared norm of a vector, and what is meant by orthonormal orbitals. -/
noncomputable def norm2 {n : ℕ} (x : Fin n → ℂ) : ℝ := ∑ j, Complex.normSq (x j)

def Orthonormal {nb n : ℕ} (x : Fin nb → Fin n → ℂ) : Prop := ∀ a b, ∑ j, conj (x a j) * x b j = if a = b then 1 else 0

theorem norm2_dot {n : ℕ} (x : Fin n → ℂ) : star x ⬝ᵥ x = (norm2 x : ℂ) := by
  unfold dotProduct norm2
  push_cast
  refine Finset.sum_congr rfl fun j _ => ?_
  rw [Pi.star_apply, Complex.star_def, Complex.normSq_eq_conj_mul_self]

/-- Bessel: the plane waves of the basis hold at most the whole field. -/
theorem wfG_bessel (drv : Driver) (d : Dims) (idx : List ℕ) (hv : ValidIdx d idx) (st : DrvState ℂ) (u : Fin d.size → ℂ) : norm2 (wfG drv d idx st u) ≤ d.size * norm2 u := by
  by_cases hs : d.size = 0
  · have : idx = [] := by
      cases idx with
      | nil => rfl
      | cons a l => exact absurd (hv.2 a List.mem_cons_self) (by omega)
    subst this
    simp [norm2, hs]
  have hN : (0 : ℝ) < d.size := by exact_mod_cast Nat.pos_of_ne_zero hs
  have hNc : (d.size : ℂ) ≠ 0 := by exact_mod_cast hs
  set f := wfG drv d idx st u with hf
  set v : Fin d.size → ℂ := fun r => u r - wfR drv d idx st f r / d.size with hvv
  have e1 : star u ⬝ᵥ wfR drv d idx st f = (norm2 f : ℂ) := by rw [← adj drv d idx hv st, ← hf, norm2_dot]
  have e2 : star (wfR drv d idx st f) ⬝ᵥ wfR drv d idx st f = d.size * (norm2 f : ℂ) := by rw [dot_wfR drv d idx hv st, norm2_dot]
  have e3 : star (wfR drv d idx st f) ⬝ᵥ u = (norm2 f : ℂ) := by
    have := congrArg conj e1
    rw [Complex.conj_ofReal] at this
    rw [← this]
    unfold dotProduct
    rw [map_sum]
    refine Finset.sum_congr rfl fun r _ => ?_
    rw [map_mul, Pi.star_apply, Pi.star_apply, Complex.star_def, Complex.conj_conj, mul_comm]
  have e4 : v = u - (1 / (d.size : ℂ)) • wfR drv d idx st f := by
    funext r
    rw [hvv, Pi.sub_apply, Pi.smul_apply, smul_eq_mul]
    ring
  have key : (norm2 v : ℂ) = (norm2 u - norm2 f / d.size : ℝ) := by
    rw [← norm2_dot, e4, star_sub, star_smul, sub_dotProduct, dotProduct_sub, dotProduct_sub, smul_dotProduct, smul_dotProduct, dotProduct_smul, dotProduct_smul, e1, e2, e3, norm2_dot]
    have hc : star (1 / (d.size : ℂ)) = 1 / (d.size : ℂ) := by
      rw [Complex.star_def, map_div₀, map_one, map_natCast]
    rw [hc]
    simp only [smul_eq_mul]
    push_cast
    field_simp
    ring
  have key' : norm2 v = norm2 u - norm2 f / d.size := by exact_mod_cast key
  have h0 : 0 ≤ norm2 v := Finset.sum_nonneg fun _ _ => Complex.normSq_nonneg _
  rw [key', sub_nonneg, div_le_iff₀ hN] at h0
  linarith

/-- Multiplying by the phases of a real potential. -/
theorem phase_unit' (dt : ℝ) (N : ℕ) (hN : N ≠ 0) (V : ℝ) : Complex.normSq (Complex.exp (-Complex.I * dt * N * ((V : ℂ) / N))) = 1 ∧
    conj (Complex.exp (-Complex.I * dt * N * ((V : ℂ) / N))) * Complex.exp (-Complex.I * dt * N * ((V : ℂ) / N)) = 1 := by
  have hNc : (N : ℂ) ≠ 0 := by exact_mod_cast hN
  have e : (-Complex.I * dt * N * ((V : ℂ) / N)) = ((-(dt * V) : ℝ) : ℂ) * Complex.I := by
    push_cast
    field_simp
  have h : ‖Complex.exp (-Complex.I * dt * N * ((V : ℂ) / N))‖ = 1 := by rw [e, Complex.norm_exp_ofReal_mul_I]
  have h1 : Complex.normSq (Complex.exp (-Complex.I * dt * N * ((V : ℂ) / N))) = 1 := by rw [Complex.normSq_eq_norm_sq, h, one_pow]
  exact ⟨h1, by rw [← Complex.normSq_eq_conj_mul_self, h1, Complex.ofReal_one]⟩

theorem vloc_norm (drv : Driver) (d : Dims) (idx : List ℕ) (hv : ValidIdx d idx) (st : DrvState ℂ) (dt : ℝ) (V : Fin d.size → ℝ) (x : Fin idx.length → ℂ) :
    norm2 (operVloc drv d idx st dt (fun r => (V r : ℂ) / d.size) x) ≤ d.size ^ 2 * norm2 x := by
  unfold operVloc
  refine (wfG_bessel drv d idx hv st _).trans ?_
  have e : norm2 (fun r => wfR drv d idx st x r * Complex.exp (-Complex.I * dt * d.size * ((V r : ℂ) / d.size))) = norm2 (wfR drv d idx st x) := by
    unfold norm2
    refine Finset.sum_congr rfl fun r _ => ?_
    rw [Complex.normSq_mul, (phase_unit' dt d.size (by have := r.2; omega) (V r)).1, mul_one]
  have e2 : norm2 (wfR drv d idx st x) = d.size * norm2 x := by
    have := dot_wfR drv d idx hv st x x
    rw [norm2_dot, norm2_dot] at this
    exact_mod_cast this
  rw [e, e2]
  apply le_of_eq
  ring

theorem vloc_dot_full (drv : Driver) (d : Dims) (idx : List ℕ) (hv : ValidIdx d idx) (hfull : idx.length = d.size) (st : DrvState ℂ) (dt : ℝ) (V : Fin d.size → ℝ) (x y : Fin idx.length → ℂ) :
    star (operVloc drv d idx st dt (fun r => (V r : ℂ) / d.size) x) ⬝ᵥ operVloc drv d idx st dt (fun r => (V r : ℂ) / d.size) y = (d.size : ℂ) ^ 2 * (star x ⬝ᵥ y) := by
  unfold operVloc
  rw [adj drv d idx hv st]
  have : ∀ u : Fin d.size → ℂ, wfR drv d idx st (wfG drv d idx st u) = (d.size : ℂ) • u := by
    intro u
    funext r
    rw [wfR_wfG_full drv d idx hv hfull, Pi.smul_apply, smul_eq_mul]
  rw [this, dotProduct_smul, smul_eq_mul, pow_two, mul_assoc (d.size : ℂ) (d.size : ℂ), ← dot_wfR drv d idx hv st x y]
  congr 1
  unfold dotProduct
  refine Finset.sum_congr rfl fun r _ => ?_
  rw [Pi.star_apply, Pi.star_apply, Complex.star_def, map_mul]
  linear_combination conj (wfR drv d idx st x r) * wfR drv d idx st y r * (phase_unit' dt d.size (by have := r.2; omega) (V r)).2

theorem ke_dot {n : ℕ} (ke : Fin n → ℝ) (dt : ℝ) (x y : Fin n → ℂ) : star (operKe ke dt x) ⬝ᵥ operKe ke dt y = star x ⬝ᵥ y := by
  unfold dotProduct operKe
  refine Finset.sum_congr rfl fun j _ => ?_
  rw [Pi.star_apply, Pi.star_apply, Complex.star_def, map_mul]
  have e : (-(1 / 2) * Complex.I * dt * ke j : ℂ) = ((-(1 / 2 * dt * ke j) : ℝ) : ℂ) * Complex.I := by push_cast; ring
  have h : ‖Complex.exp (-(1 / 2) * Complex.I * dt * ke j)‖ = 1 := by rw [e, Complex.norm_exp_ofReal_mul_I]
  have h1 : conj (Complex.exp (-(1 / 2) * Complex.I * dt * ke j)) * Complex.exp (-(1 / 2) * Complex.I * dt * ke j) = 1 := by
    rw [← Complex.normSq_eq_conj_mul_self, Complex.normSq_eq_norm_sq, h]
    simp
  linear_combination conj (x j) * y j * h1

theorem chain_dot {n : ℕ} (l : List ((Fin n → ℂ) → (Fin n → ℂ))) (h : ∀ f ∈ l, ∀ x y, star (f x) ⬝ᵥ f y = star x ⬝ᵥ y) (x y : Fin n → ℂ) :
    star (l.foldl (fun x f => f x) x) ⬝ᵥ l.foldl (fun x f => f x) y = star x ⬝ᵥ y := by
  induction l generalizing x y with
  | nil => rfl
  | cons f l ih =>
    rw [List.foldl_cons, List.foldl_cons, ih (fun g hg => h g (List.mem_cons_of_mem _ hg)), h f List.mem_cons_self]

/-- **C188a.** On every basis and for every real potential (handed over divided by the number of grid points, as propagate does), the propagation of one time step multiplies no squared norm by more than the square
of the number of grid points, the constant that normalisation removes: propagation never makes a state grow. -/
theorem C188_contraction (drv : Driver) (d : Dims) (idx : List ℕ) (hv : ValidIdx d idx) (st : DrvState ℂ) (gk2 : Fin idx.length → ℝ) (dt : ℝ)
    (nl : List ((P : Proj idx.length) × Matrix (Fin P.num) (Fin P.num) ℂ)) (hnl : ∀ pe ∈ nl, expDij pe.1 dt = .ok pe.2 ∧ Nonloc.HermDij pe.1) (V : Fin d.size → ℝ) (psi : Fin idx.length → ℂ) :
    norm2 (splitProp drv d idx st gk2 dt nl (fun r => (V r : ℂ) / d.size) psi) ≤ d.size ^ 2 * norm2 psi := by
  have hl : ∀ f ∈ nl.map (fun pe => operNl pe.1 pe.2), ∀ x y, star (f x) ⬝ᵥ f y = star x ⬝ᵥ y := by
    intro f hf x y
    obtain ⟨pe, hpe, rfl⟩ := List.mem_map.1 hf
    exact C50_nonlocal_unitary pe.1 (hnl pe hpe).2 dt pe.2 (hnl pe hpe).1 x y
  have hn : ∀ x y : Fin idx.length → ℂ, star x ⬝ᵥ x = star y ⬝ᵥ y → norm2 x = norm2 y := by
    intro x y h
    rw [norm2_dot, norm2_dot] at h
    exact_mod_cast h
  unfold splitProp splitSeq
  simp only
  rw [hn _ _ (ke_dot gk2 dt _ _), hn _ _ (chain_dot _ (by simpa using hl) _ _)]
  refine (vloc_norm drv d idx hv st dt V _).trans (le_of_eq ?_)
  rw [hn _ _ (chain_dot _ hl _ _), hn _ _ (ke_dot gk2 dt _ _)]

/-- `compute_rho` normalises every band. -/
noncomputable def nrmAll {nb n : ℕ} (x : Fin nb → Fin n → ℂ) : Fin nb → Fin n → ℂ := fun b j => x b j / (Real.sqrt (norm2 (x b)) : ℂ)

/-- One self-consistent step of all bands: every factor acts on all bands, the potential comes from the density of the normalised bands. -/
noncomputable def bandStep {nb : ℕ} {R : Type*} (drv : Driver) (d : Dims) (idx : List ℕ) (st : DrvState ℂ) (gk2 : Fin idx.length → ℝ) (dt : ℝ)
    (nl : List ((P : Proj idx.length) × Matrix (Fin P.num) (Fin P.num) ℂ)) (dens : (Fin nb → Fin idx.length → ℂ) → R) (pot : R → Fin d.size → ℝ) : (Fin nb → Fin idx.length → ℂ) → (Fin nb → Fin idx.length → ℂ) :=
  splitStep nrmAll dens pot (fun x b => operKe gk2 dt (x b)) (nl.map fun pe x b => operNl pe.1 pe.2 (x b)) (fun V x b => operVloc drv d idx st dt (fun r => (V r : ℂ) / d.size) (x b))

theorem nrmAll_dot {nb n : ℕ} (x : Fin nb → Fin n → ℂ) (c : ℝ) (hc : 0 < c) (h : ∀ a b, star (x a) ⬝ᵥ x b = if a = b then (c : ℂ) else 0) (a b : Fin nb) :
    star (nrmAll x a) ⬝ᵥ nrmAll x b = if a = b then 1 else 0 := by
  have hn : ∀ a, norm2 (x a) = c := by
    intro a
    have := h a a
    rw [norm2_dot, if_pos rfl] at this
    exact_mod_cast this
  have e : ∀ a, nrmAll x a = ((1 / Real.sqrt c : ℝ) : ℂ) • x a := by
    intro a
    funext j
    unfold nrmAll
    rw [hn, Pi.smul_apply, smul_eq_mul]
    push_cast
    ring
  rw [e, e, star_smul, smul_dotProduct, dotProduct_smul, h, Complex.star_def, Complex.conj_ofReal]
  split
  · have : ((1 / Real.sqrt c : ℝ) * ((1 / Real.sqrt c : ℝ) * c) : ℝ) = 1 := by
      have hs : Real.sqrt c ≠ 0 := (Real.sqrt_pos.2 hc).ne'
      field_simp
      exact (Real.sq_sqrt hc.le).symm
    simp only [smul_eq_mul]
    exact_mod_cast this
  · simp

/-- **C188b.** If the plane waves of the basis are those of the grid, orthonormal orbitals are orthonormal after any number of steps, whatever density and real potentials are used on the way. -/
theorem C188_orthonormal {nb : ℕ} {R : Type*} (drv : Driver) (d : Dims) (idx : List ℕ) (hv : ValidIdx d idx) (hfull : idx.length = d.size) (hN : d.size ≠ 0) (st : DrvState ℂ) (gk2 : Fin idx.length → ℝ) (dt : ℝ)
    (nl : List ((P : Proj idx.length) × Matrix (Fin P.num) (Fin P.num) ℂ)) (hnl : ∀ pe ∈ nl, expDij pe.1 dt = .ok pe.2 ∧ Nonloc.HermDij pe.1)
    (dens : (Fin nb → Fin idx.length → ℂ) → R) (pot : R → Fin d.size → ℝ) (psi : Fin nb → Fin idx.length → ℂ) (h : Orthonormal psi) (steps : ℕ) :
    Orthonormal ((bandStep drv d idx st gk2 dt nl dens pot)^[steps] psi) := by
  have hl : ∀ f ∈ nl.map (fun pe => operNl pe.1 pe.2), ∀ x y, star (f x) ⬝ᵥ f y = star x ⬝ᵥ y := by
    intro f hf x y
    obtain ⟨pe, hpe, rfl⟩ := List.mem_map.1 hf
    exact C50_nonlocal_unitary pe.1 (hnl pe hpe).2 dt pe.2 (hnl pe hpe).1 x y
  have hmap : ∀ (l : List ((P : Proj idx.length) × Matrix (Fin P.num) (Fin P.num) ℂ)) (x : Fin nb → Fin idx.length → ℂ) (b : Fin nb),
      (l.map fun pe (x : Fin nb → Fin idx.length → ℂ) b => operNl pe.1 pe.2 (x b)).foldl (fun x f => f x) x b = (l.map fun pe => operNl pe.1 pe.2).foldl (fun x f => f x) (x b) := by
    intro l
    induction l with
    | nil => intro x b; rfl
    | cons p l ih => intro x b; rw [List.map_cons, List.map_cons, List.foldl_cons, List.foldl_cons, ih]
  have hd : ∀ x : Fin nb → Fin idx.length → ℂ, Orthonormal x ↔ ∀ a b, star (x a) ⬝ᵥ x b = if a = b then 1 else 0 := by
    intro x
    rfl
  have step : ∀ x, Orthonormal x → Orthonormal (bandStep drv d idx st gk2 dt nl dens pot x) := by
    intro x hx
    rw [hd] at hx ⊢
    unfold bandStep splitStep
    simp only
    set a := nrmAll ((nl.map fun pe (x : Fin nb → Fin idx.length → ℂ) b => operNl pe.1 pe.2 (x b)).foldl (fun x f => f x) fun b => operKe gk2 dt (x b)) with ha
    have h1 : ∀ i j, star (a i) ⬝ᵥ a j = if i = j then 1 else 0 := by
      rw [ha]
      refine nrmAll_dot _ 1 one_pos fun i j => ?_
      rw [hmap, hmap, chain_dot _ hl, ke_dot, hx]
      push_cast
      rfl
    have hsz : (0 : ℝ) < (d.size : ℝ) ^ 2 := by
      have : (0 : ℝ) < d.size := by exact_mod_cast Nat.pos_of_ne_zero hN
      positivity
    refine nrmAll_dot _ ((d.size : ℝ) ^ 2) hsz fun i j => ?_
    rw [ke_dot, ← List.map_reverse, hmap, hmap, chain_dot _ (by
      intro f hf
      rw [List.map_reverse] at hf
      exact hl f (List.mem_reverse.1 hf)), vloc_dot_full drv d idx hv hfull, h1]
    push_cast
    split <;> simp
  induction steps generalizing psi with
  | zero => exact h
  | succ n ih => exact ih _ (step psi h)

/-- **C188c (violation).** A basis smaller than the grid, as it is used in practice, loses orthogonality: two plane waves on the 2×2 grid with a potential at one point overlap after one step. -/
theorem C188_truncated_violated (drv : Driver) (st : DrvState ℂ) : ∃ (psi : Fin 2 → Fin ([0, 2] : List ℕ).length → ℂ) (V : Fin (⟨2, 2, 1⟩ : Dims).size → ℝ), ValidIdx ⟨2, 2, 1⟩ [0, 2] ∧ Orthonormal psi ∧
    ¬ Orthonormal (bandStep drv ⟨2, 2, 1⟩ [0, 2] st (fun _ => 0) Real.pi [] (fun _ => ()) (fun _ => V) psi) := by
  have hv : ValidIdx ⟨2, 2, 1⟩ [0, 2] := by unfold ValidIdx; decide
  refine ⟨fun a j => if a.1 = j.1 then 1 else 0, fun r => if r.1 = 3 then 1 else 0, hv, ?_, ?_⟩
  · intro a b
    change ∑ j : Fin 2, _ = _
    rw [Fin.sum_univ_two]
    fin_cases a <;> fin_cases b <;> simp
  intro h
  set z : Fin 2 → Fin ([0, 2] : List ℕ).length → ℂ := fun a => operVloc drv ⟨2, 2, 1⟩ [0, 2] st Real.pi (fun r => ((if r.1 = 3 then (1 : ℝ) else 0 : ℝ) : ℂ) / (⟨2, 2, 1⟩ : Dims).size) (fun j => if a.1 = j.1 then 1 else 0) with hz
  have hke : ∀ x : Fin ([0, 2] : List ℕ).length → ℂ, operKe (fun _ => 0) Real.pi x = x := by
    intro x
    funext j
    unfold operKe
    simp
  have hn : nrmAll (fun (a : Fin 2) (j : Fin ([0, 2] : List ℕ).length) => if a.1 = j.1 then (1 : ℂ) else 0) = fun a j => if a.1 = j.1 then (1 : ℂ) else 0 := by
    funext a j
    have : norm2 (fun j : Fin ([0, 2] : List ℕ).length => if a.1 = j.1 then (1 : ℂ) else 0) = 1 := by
      unfold norm2
      change ∑ j : Fin 2, _ = _
      rw [Fin.sum_univ_two]
      fin_cases a <;> simp
    unfold nrmAll
    rw [this]
    simp
  have hstep : bandStep drv ⟨2, 2, 1⟩ [0, 2] st (fun _ => 0) Real.pi [] (fun _ => ()) (fun _ => fun r => if r.1 = 3 then (1 : ℝ) else 0) (fun (a : Fin 2) (j : Fin ([0, 2] : List ℕ).length) => if a.1 = j.1 then (1 : ℂ) else 0) = nrmAll z := by
    unfold bandStep splitStep
    simp only [List.map_nil, List.foldl_nil, List.reverse_nil, hke, hn]
    rfl
  rw [hstep] at h
  have hrec : ∀ a j, z a j = (Real.sqrt (norm2 (z a)) : ℂ) * nrmAll z a j := by
    intro a j
    unfold nrmAll
    by_cases h0 : norm2 (z a) = 0
    · have : z a j = 0 := by
        have := (Finset.sum_eq_zero_iff_of_nonneg (fun j _ => Complex.normSq_nonneg (z a j))).1 h0 j (Finset.mem_univ _)
        exact Complex.normSq_eq_zero.1 this
      rw [this]
      simp
    · have hp : 0 < norm2 (z a) := lt_of_le_of_ne (Finset.sum_nonneg fun _ _ => Complex.normSq_nonneg _) (Ne.symm h0)
      have : (Real.sqrt (norm2 (z a)) : ℂ) ≠ 0 := by exact_mod_cast (Real.sqrt_pos.2 hp).ne'
      field_simp
  have hdot : star (z 0) ⬝ᵥ z 1 = 0 := by
    have h01 := h 0 1
    rw [if_neg (by decide)] at h01
    have e : star (z 0) ⬝ᵥ z 1 = (Real.sqrt (norm2 (z 0)) : ℂ) * (Real.sqrt (norm2 (z 1)) : ℂ) * ∑ j, conj (nrmAll z 0 j) * nrmAll z 1 j := by
      unfold dotProduct
      rw [Finset.mul_sum]
      refine Finset.sum_congr rfl fun j _ => ?_
      rw [Pi.star_apply, hrec 0 j, hrec 1 j, Complex.star_def, map_mul, Complex.conj_ofReal]
      ring
    rw [e, h01, mul_zero]
  have hpi : Complex.exp (-Complex.I * Real.pi * 1) = -1 := by
    rw [show (-Complex.I * Real.pi * 1 : ℂ) = -(Real.pi * Complex.I) by ring, Complex.exp_neg, Complex.exp_pi_mul_I]
    norm_num
  have hg0 : ∀ r : ℕ, Nonloc.gridDot ⟨2, 2, 1⟩ 0 r = 0 := by
    intro r
    simp [Nonloc.gridDot, FFT.Dims.ix, FFT.Dims.iy, FFT.Dims.iz]
  have hg2 : ∀ r : ℕ, Nonloc.gridDot ⟨2, 2, 1⟩ 2 r = ((⟨2, 2, 1⟩ : Dims).ix r : ℝ) / 2 := by
    intro r
    have e1 : (⟨2, 2, 1⟩ : Dims).ix 2 = 1 := by decide
    have e2 : (⟨2, 2, 1⟩ : Dims).iy 2 = 0 := by decide
    have e3 : (⟨2, 2, 1⟩ : Dims).iz 2 = 0 := by decide
    unfold Nonloc.gridDot
    rw [e1, e2, e3]
    simp
  have hix : (⟨2, 2, 1⟩ : Dims).ix 0 = 0 ∧ (⟨2, 2, 1⟩ : Dims).ix 1 = 0 ∧ (⟨2, 2, 1⟩ : Dims).ix 2 = 1 ∧ (⟨2, 2, 1⟩ : Dims).ix 3 = 1 := by decide
  have hm : Complex.exp (-((2 : ℂ) * Real.pi * Complex.I) * ((1 / 2 : ℝ) : ℂ)) = -1 := by
    rw [show (-((2 : ℂ) * Real.pi * Complex.I) * ((1 / 2 : ℝ) : ℂ)) = -Complex.I * Real.pi * 1 by push_cast; ring, hpi]
  have hm' : Complex.exp (-((2 : ℂ) * Real.pi * Complex.I) * ((-(1 / 2) : ℝ) : ℂ)) = -1 := by
    rw [show (-((2 : ℂ) * Real.pi * Complex.I) * ((-(1 / 2) : ℝ) : ℂ)) = Real.pi * Complex.I by push_cast; ring, Complex.exp_pi_mul_I]
  have hval : ∀ a j : Fin 2, z a j = 2 := by
    intro a j
    rw [hz]
    refine (C50_local_factor drv ⟨2, 2, 1⟩ [0, 2] hv st Real.pi (fun r => if r.1 = 3 then (1 : ℝ) else 0) _ j).trans ?_
    have hs : ((⟨2, 2, 1⟩ : Dims).size : ℂ) = 4 := by
      have : (⟨2, 2, 1⟩ : Dims).size = 4 := by decide
      rw [this]
      norm_num
    rw [hs]
    have hsum : ∀ p q : ℕ, (∑ r : Fin (⟨2, 2, 1⟩ : Dims).size, Complex.exp (-Complex.I * Real.pi * ((if r.1 = 3 then (1 : ℝ) else 0 : ℝ) : ℂ)) *
        Complex.exp (-(2 * Real.pi * Complex.I) * ((Nonloc.gridDot ⟨2, 2, 1⟩ p r.1 - Nonloc.gridDot ⟨2, 2, 1⟩ q r.1 : ℝ) : ℂ))) =
        Complex.exp (-(2 * Real.pi * Complex.I) * ((Nonloc.gridDot ⟨2, 2, 1⟩ p 0 - Nonloc.gridDot ⟨2, 2, 1⟩ q 0 : ℝ) : ℂ)) +
        Complex.exp (-(2 * Real.pi * Complex.I) * ((Nonloc.gridDot ⟨2, 2, 1⟩ p 1 - Nonloc.gridDot ⟨2, 2, 1⟩ q 1 : ℝ) : ℂ)) +
        Complex.exp (-(2 * Real.pi * Complex.I) * ((Nonloc.gridDot ⟨2, 2, 1⟩ p 2 - Nonloc.gridDot ⟨2, 2, 1⟩ q 2 : ℝ) : ℂ)) -
        Complex.exp (-(2 * Real.pi * Complex.I) * ((Nonloc.gridDot ⟨2, 2, 1⟩ p 3 - Nonloc.gridDot ⟨2, 2, 1⟩ q 3 : ℝ) : ℂ)) := by
      intro p q
      refine (Fin.sum_univ_four (fun r : Fin 4 => Complex.exp (-Complex.I * Real.pi * ((if r.1 = 3 then (1 : ℝ) else 0 : ℝ) : ℂ)) *
        Complex.exp (-(2 * Real.pi * Complex.I) * ((Nonloc.gridDot ⟨2, 2, 1⟩ p r.1 - Nonloc.gridDot ⟨2, 2, 1⟩ q r.1 : ℝ) : ℂ)))).trans ?_
      have v0 : ((0 : Fin 4) : ℕ) = 0 := rfl
      have v1 : ((1 : Fin 4) : ℕ) = 1 := rfl
      have v2 : ((2 : Fin 4) : ℕ) = 2 := rfl
      have v3 : ((3 : Fin 4) : ℕ) = 3 := rfl
      simp only [v0, v1, v2, v3]
      rw [if_neg (by decide), if_neg (by decide), if_neg (by decide), if_pos True.intro, Complex.ofReal_zero, Complex.ofReal_one, hpi, mul_zero, Complex.exp_zero]
      ring
    have hsum2 : ∀ F : Fin 2 → ℂ, ∑ r : Fin ([0, 2] : List ℕ).length, F r = F 0 + F 1 := fun F => Fin.sum_univ_two F
    rw [hsum2]
    refine (congrArg (fun w : ℂ => (4 : ℂ) * w) (congrArg₂ (· + ·) (congrArg (fun w : ℂ => 1 / 4 * w * _) (hsum _ _)) (congrArg (fun w : ℂ => 1 / 4 * w * _) (hsum _ _)))).trans ?_
    obtain ⟨i0, i1, i2, i3⟩ := hix
    have g2 : ([0, 2] : List ℕ)[(0 : Fin 2)] = 0 := rfl
    have g3 : ([0, 2] : List ℕ)[(1 : Fin 2)] = 2 := rfl
    have v0 : ((0 : Fin 4) : ℕ) = 0 := rfl
    have v1 : ((1 : Fin 4) : ℕ) = 1 := rfl
    have v2 : ((2 : Fin 4) : ℕ) = 2 := rfl
    have v3 : ((3 : Fin 4) : ℕ) = 3 := rfl
    fin_cases j <;> fin_cases a
    all_goals
      simp only [Fin.zero_eta, Fin.mk_one, g2, g3, v0, v1, v2, v3, hg0, hg2, i0, i1, i2, i3]
      norm_num [hpi, hm, hm']
  have : star (z 0) ⬝ᵥ z 1 = 8 := by
    have e : star (z 0) ⬝ᵥ z 1 = star (z 0 (0 : Fin 2)) * z 1 (0 : Fin 2) + star (z 0 (1 : Fin 2)) * z 1 (1 : Fin 2) := Fin.sum_univ_two (fun j : Fin 2 => star (z 0 j) * z 1 j)
    rw [e, hval, hval, hval, hval]
    have h2 : (starRingEnd ℂ) 2 = 2 := Complex.conj_ofReal 2
    rw [Complex.star_def, h2]
    norm_num
  rw [hdot] at this
  norm_num at this

/-- Two orbitals on the full two-point grid with a non-local species: the hypotheses of C188b. -/
example : ValidIdx ⟨2, 1, 1⟩ [0, 1] ∧ [0, 1].length = (⟨2, 1, 1⟩ : Dims).size ∧ Orthonormal (fun (a : Fin 2) (j : Fin 2) => if a = j then (1 : ℂ) else 0) ∧
    ∃ E, expDij (n := 2) { num := 1, vkb := fun _ j => if j = 0 then 1 else Complex.I, dij := fun _ _ => 3 } (1 / 10) = .ok E ∧
      Nonloc.HermDij (n := 2) { num := 1, vkb := fun _ j => if j = 0 then 1 else Complex.I, dij := fun _ _ => 3 } := by
  refine ⟨⟨by decide, by simp [Dims.size]⟩, rfl, ?_, ?_⟩
  · intro a b
    rw [Fin.sum_univ_two]
    fin_cases a <;> fin_cases b <;> simp
  have h := C50_nonlocal_factor (n := 2) { num := 1, vkb := fun _ j => if j = 0 then 1 else Complex.I, dij := fun _ _ => 3 } (1 / 10)
  split at h
  · rename_i E hE
    exact ⟨E, hE, fun i _ i' _ => (Complex.conj_ofReal 3).symm⟩
  · exfalso
    have h2 := h.2
    rw [Matrix.det_fin_one] at h2
    simp [Matrix.mul_apply, projMat, Fin.sum_univ_two] at h2

end Verif.TDDFT
