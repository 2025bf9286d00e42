import Verif.Model.VxcOut
import Verif.Props.Wavefun
import Verif.Props.TDDFT
import Verif.Props.SCF

/-!
# C162: the exchange-correlation matrix elements of `scf(..., ret_vxc=True)`
-/

namespace Verif.VxcOut

open Verif.FFT Verif.Nonloc Verif.Wavefun Verif.Containers Verif.SCF
open scoped ComplexConjugate

/-! ## Specification -/

/-- Expectation value `⟨c| A c⟩ / ⟨c|c⟩` of an operator on plane-wave coefficients. -/
noncomputable def expect {n : ℕ} (A : (Fin n → ℂ) → Fin n → ℂ) (c : Fin n → ℂ) : ℂ :=
  (∑ j, conj (c j) * A c j) / ((∑ j, ‖c j‖ ^ 2 : ℝ) : ℂ)

/-- The potential `v` in the plane-wave basis as the Kohn-Sham Hamiltonian applies it: `KSHam.h_psi` with no kinetic and no non-local part. The
driver divides the potential by the number of grid points (scf.py:346) since the transforms are not normalised. -/
noncomputable def potOp (drv : Driver) (d : Dims) (idx : List ℕ) (st : DrvState ℂ) (v : Fin d.size → ℝ) (c : Fin idx.length → ℂ) : Fin idx.length → ℂ :=
  hPsi .cpu drv d idx st (fun _ => 0) (fun r => ((v r / d.size : ℝ) : ℂ)) [] c

/-- The returned energies add up (specification; compare `freeEnergy`). -/
def AddsUp (en : Energy) : Prop := en.total = en.oneEl + en.ewald + en.hartree + en.xc + en.smear.getD 0

/-! ## Lemmas -/

/-- Multiplying on the grid and projecting: the inner product with `c` is an integral over the grid. -/
theorem inner_wfG (drv : Driver) (d : Dims) (idx : List ℕ) (hv : ValidIdx d idx) (st : DrvState ℂ) (c : Fin idx.length → ℂ) (u : Fin d.size → ℂ) :
    ∑ j, conj (c j) * wfG drv d idx st u j = ∑ r : Fin d.size, conj (wfR drv d idx st c r) * u r := by
  simp only [Nonloc.wfG_eq drv d idx hv, Nonloc.wfR_eq drv d idx hv, map_sum, map_mul, Finset.sum_mul, Finset.mul_sum]
  rw [Finset.sum_comm]
  refine Finset.sum_congr rfl fun r _ => Finset.sum_congr rfl fun j _ => ?_
  have : conj (ker3 d (dftKern false d) r idx[j]) = ker3 d (dftKern true d) idx[j] r := by
    rw [FFT.dft_ker3_fwd, FFT.dft_ker3_bwd, ← Complex.exp_conj]
    congr 1
    have h2 : conj (2 : ℂ) = 2 := by rw [show (2 : ℂ) = ((2 : ℝ) : ℂ) by norm_num, Complex.conj_ofReal]
    simp [Complex.conj_ofReal, h2]
  rw [this]
  ring

theorem normR (drv : Driver) (d : Dims) (idx : List ℕ) (hv : ValidIdx d idx) (st : DrvState ℂ) (c : Fin idx.length → ℂ) :
    ∑ r : Fin d.size, ‖wfR drv d idx st c r‖ ^ 2 = d.size * ∑ j, ‖c j‖ ^ 2 := by
  have h := inner_wfG drv d idx hv st c (wfR drv d idx st c)
  simp only [TDDFT.wfG_wfR drv d idx hv] at h
  have e1 : ∀ j, conj (c j) * (d.size * c j) = ((d.size * ‖c j‖ ^ 2 : ℝ) : ℂ) := by
    intro j
    rw [mul_left_comm, mul_comm (conj (c j)), Complex.mul_conj, Complex.normSq_eq_norm_sq]
    push_cast; rfl
  have e2 : ∀ r, conj (wfR drv d idx st c r) * wfR drv d idx st c r = ((‖wfR drv d idx st c r‖ ^ 2 : ℝ) : ℂ) := by
    intro r
    rw [mul_comm, Complex.mul_conj, Complex.normSq_eq_norm_sq]
  simp only [e1, e2] at h
  rw [← Complex.ofReal_sum, ← Complex.ofReal_sum, Complex.ofReal_inj] at h
  rw [← h, Finset.mul_sum]

theorem charge_band (drv : Driver) (d : Dims) (idx : List ℕ) (hv : ValidIdx d idx) (st : DrvState ℂ) (dv : ℝ) (c : Fin idx.length → ℂ) :
    charge d.size dv (fun x => (bandR drv d idx st c).get [0 * d.size + x]) = d.size * (∑ j, ‖c j‖ ^ 2) * dv := by
  unfold charge sqNorm
  rw [← normR drv d idx hv st c, Finset.sum_range]
  congr 1
  refine Finset.sum_congr rfl fun r _ => ?_
  simp [bandR]

/-- The value of an entry: the potential averaged over the probability density of the band. -/
theorem entry_eq (drv : Driver) (d : Dims) (idx : List ℕ) (hv : ValidIdx d idx) (st : DrvState ℂ) (dv : ℝ) (hdv : dv ≠ 0) (ns : ℕ)
    (vxc : Fin ns → Fin d.size → ℝ) (c : Fin idx.length → ℂ) (hs : d.size ≠ 0) (hc : c ≠ 0) :
    entry drv d idx st dv ns vxc c
      = .ok ((∑ r, (∑ s, vxc s r) * ‖wfR drv d idx st c r‖ ^ 2) / (d.size * ∑ j, ‖c j‖ ^ 2)) := by
  have hn : (∑ j, ‖c j‖ ^ 2) ≠ 0 := by
    intro h0
    apply hc
    funext j
    have := (Finset.sum_eq_zero_iff_of_nonneg (fun j _ => by positivity)).1 h0 j (Finset.mem_univ _)
    simpa using this
  have hs' : (d.size : ℝ) ≠ 0 := by exact_mod_cast hs
  have hch : charge d.size dv (fun x => (bandR drv d idx st c).get [0 * d.size + x]) ≠ 0 := by
    rw [charge_band drv d idx hv]
    exact mul_ne_zero (mul_ne_zero hs' hn) hdv
  obtain ⟨y, hy, hys, hyg⟩ := index_col (integrate ([] ++ [1]) d.size dv (density [] 1 d.size (bandR drv d idx st c))) 1 [] rfl
  have hden : ∃ den, getDensity [] 1 d.size dv (bandR drv d idx st c) true = .ok den ∧
      ∀ r : Fin d.size, den.get [0, (r : ℕ)] = ((‖wfR drv d idx st c r‖ ^ 2 / (d.size * (∑ j, ‖c j‖ ^ 2) * dv) : ℝ) : ℂ) := by
    have e : getDensity [] 1 d.size dv (bandR drv d idx st c) true = idiv (density [] 1 d.size (bandR drv d idx st c)) y := by
      unfold getDensity
      simp only [if_true]
      rw [hy]; rfl
    have hbc : BcOk [1, 1] [1, d.size] := by simp [BcOk]
    have hdef : idiv (density [] 1 d.size (bandR drv d idx st c)) y
        = .ok { shape := [1, d.size], get := fun i => (density [] 1 d.size (bandR drv d idx st c)).get i / y.get (bcIdx [1, 1] i) } := by
      unfold idiv
      rw [show (density [] 1 d.size (bandR drv d idx st c)).shape = [1, d.size] from rfl, hys]
      simp only [List.length_cons, List.length_nil, lt_irrefl, if_false, Nat.sub_self, List.replicate_zero, List.nil_append, List.drop_zero, if_pos hbc]
    refine ⟨_, e.trans hdef, fun r => ?_⟩
    show (density [] 1 d.size (bandR drv d idx st c)).get [0, (r : ℕ)] / y.get (bcIdx [1, 1] [0, (r : ℕ)]) = _
    have hi : bcIdx [1, 1] [0, (r : ℕ)] = [0, 0] := by simp [bcIdx]
    have h1 := density_get [] 1 d.size (bandR drv d idx st c) [] rfl 0 r
    have h2 := integrate_density [] 1 d.size dv (bandR drv d idx st c) [] rfl 0
    simp only [List.nil_append] at h1 h2
    rw [hi, hyg 0 (by omega) [] .nil, h1]
    simp only [List.nil_append]
    rw [h2, charge_band drv d idx hv]
    have : (bandR drv d idx st c).get [0 * d.size + (r : ℕ)] = wfR drv d idx st c r := by simp [bandR]
    rw [this]
    push_cast; rfl
  obtain ⟨den, h1, h2⟩ := hden
  unfold entry
  rw [h1]
  show Except.ok _ = Except.ok _
  congr 1
  simp only [h2]
  have e3 : ∀ r : Fin d.size, ∑ s, (vxc s r : ℂ) * ((‖wfR drv d idx st c r‖ ^ 2 / (d.size * (∑ j, ‖c j‖ ^ 2) * dv) : ℝ) : ℂ)
      = (((∑ s, vxc s r) * ‖wfR drv d idx st c r‖ ^ 2 / (d.size * (∑ j, ‖c j‖ ^ 2) * dv) : ℝ) : ℂ) := by
    intro r
    rw [← Finset.sum_mul]
    push_cast; ring
  simp only [e3]
  rw [← Complex.ofReal_sum, ← Complex.ofReal_mul, Complex.ofReal_re, ← Finset.sum_div]
  field_simp

/-- What the entry is in every case: the expectation value, in the band's state, of the *sum* of the components of the potential. -/
theorem C162_entry (drv : Driver) (d : Dims) (idx : List ℕ) (hv : ValidIdx d idx) (st : DrvState ℂ) (dv : ℝ) (hdv : dv ≠ 0) (ns : ℕ)
    (vxc : Fin ns → Fin d.size → ℝ) (c : Fin idx.length → ℂ) (hs : d.size ≠ 0) (hc : c ≠ 0) :
    ∃ x, entry drv d idx st dv ns vxc c = .ok x ∧ (x : ℂ) = expect (potOp drv d idx st fun r => ∑ s, vxc s r) c := by
  refine ⟨_, entry_eq drv d idx hv st dv hdv ns vxc c hs hc, ?_⟩
  unfold expect potOp hPsi
  have h := inner_wfG drv d idx hv st c (fun r => wfR drv d idx st c r * (((∑ s, vxc s r) / d.size : ℝ) : ℂ))
  have e : ∀ j, conj (c j) * (List.foldl (fun h P => applyProj Device.cpu P c h) (fun j => ((1 / 2 * (0 : ℝ) : ℝ) : ℂ) * c j
      + wfG drv d idx st (fun r => wfR drv d idx st c r * (((∑ s, vxc s r) / d.size : ℝ) : ℂ)) j) ([] : List (Proj idx.length))) j
      = conj (c j) * wfG drv d idx st (fun r => wfR drv d idx st c r * (((∑ s, vxc s r) / d.size : ℝ) : ℂ)) j := by
    intro j
    simp
  simp only [e]
  rw [h]
  have e2 : ∀ r : Fin d.size, conj (wfR drv d idx st c r) * (wfR drv d idx st c r * (((∑ s, vxc s r) / d.size : ℝ) : ℂ))
      = (((∑ s, vxc s r) * ‖wfR drv d idx st c r‖ ^ 2 / d.size : ℝ) : ℂ) := by
    intro r
    rw [← mul_assoc, mul_comm (conj _), Complex.mul_conj, Complex.normSq_eq_norm_sq]
    push_cast; ring
  simp only [e2]
  rw [← Complex.ofReal_sum, ← Finset.sum_div, ← Complex.ofReal_div]
  congr 1
  rw [div_div]

/-- **C162a.** Without spin, every number returned by `ret_vxc=True` is `⟨ψ|v_xc|ψ⟩ / ⟨ψ|ψ⟩` of its band, with `v_xc` acting as in the Kohn-Sham Hamiltonian:
for every FFT backend, every basis, every potential, whether or not the stored coefficients are normalised. -/
theorem C162_matrix_element_partial (drv : Driver) (d : Dims) (idx : List ℕ) (hv : ValidIdx d idx) (st : DrvState ℂ) (dv : ℝ) (hdv : dv ≠ 0)
    (vxc : Fin 1 → Fin d.size → ℝ) (c : Fin idx.length → ℂ) (hs : d.size ≠ 0) (hc : c ≠ 0) :
    ∃ x, entry drv d idx st dv 1 vxc c = .ok x ∧ (x : ℂ) = expect (potOp drv d idx st (vxc 0)) c := by
  obtain ⟨x, h1, h2⟩ := C162_entry drv d idx hv st dv hdv 1 vxc c hs hc
  exact ⟨x, h1, by simpa using h2⟩

/-- **C162b (violation).** With spin the potential of the *down* electrons is added: the numbers, all of them for spin-up states, are off by its
expectation value. -/
theorem C162_spin_violated (drv : Driver) (d : Dims) (idx : List ℕ) (hv : ValidIdx d idx) (st : DrvState ℂ) (dv : ℝ) (hdv : dv ≠ 0)
    (vxc : Fin 2 → Fin d.size → ℝ) (c : Fin idx.length → ℂ) (hs : d.size ≠ 0) (hc : c ≠ 0) :
    ∃ x, entry drv d idx st dv 2 vxc c = .ok x ∧
      (x : ℂ) - expect (potOp drv d idx st (vxc 0)) c = expect (potOp drv d idx st (vxc 1)) c := by
  obtain ⟨x, h1, h2⟩ := C162_entry drv d idx hv st dv hdv 2 vxc c hs hc
  obtain ⟨a, ha, ha2⟩ := C162_matrix_element_partial drv d idx hv st dv hdv (fun _ => vxc 0) c hs hc
  obtain ⟨b, hb, hb2⟩ := C162_matrix_element_partial drv d idx hv st dv hdv (fun _ => vxc 1) c hs hc
  rw [entry_eq drv d idx hv st dv hdv _ _ c hs hc] at h1 ha hb
  injection h1 with h1; injection ha with ha; injection hb with hb
  refine ⟨x, ?_, ?_⟩
  · rw [entry_eq drv d idx hv st dv hdv _ _ c hs hc, h1]
  · rw [← ha2, ← hb2, ← h1, ← ha, ← hb, ← Complex.ofReal_sub]
    congr 1
    simp only [Fin.sum_univ_two, Finset.univ_unique, Finset.sum_singleton, add_mul, Finset.sum_add_distrib]
    ring

/-- **C162c.** The array has one row for each k-point of the process' own k-group and one column for each band of the first spin component; nothing is
said about the other groups' k-points or about the second spin component. -/
theorem C162_rows (drv : Driver) (d : Dims) (dv : ℝ) (ns : ℕ) (vxc : Fin ns → Fin d.size → ℝ) (kgrp : List KWfn) (rows : List (List ℝ))
    (h : vxcData drv d dv ns vxc kgrp = .ok rows) :
    List.Forall₂ (fun k row => ∃ up rest, k.evc = up :: rest ∧
      List.Forall₂ (fun c x => entry drv d k.idx k.st dv ns vxc c = .ok x) up row) kgrp rows := by
  have gen : ∀ {α β : Type} (f : α → Except PyErr β) (l : List α) (r : List β), l.mapM f = .ok r → List.Forall₂ (fun a b => f a = .ok b) l r := by
    intro α β f l
    induction l with
    | nil =>
      intro r hr
      simp only [List.mapM_nil, pure, Except.pure] at hr
      injection hr with hr; subst hr; exact .nil
    | cons a l ih =>
      intro r hr
      rw [List.mapM_cons] at hr
      cases ha : f a with
      | error e => rw [ha] at hr; cases hr
      | ok b =>
        rw [ha] at hr
        cases hl : l.mapM f with
        | error e => rw [hl] at hr; cases hr
        | ok bs =>
          rw [hl] at hr
          injection hr with hr; subst hr
          exact .cons ha (ih _ hl)
  have := gen _ _ _ h
  refine this.imp fun k row hk => ?_
  cases he : k.evc with
  | nil => rw [he] at hk; cases hk
  | cons up rest =>
    rw [he] at hk
    exact ⟨up, rest, rfl, gen _ _ _ hk⟩

/-- **C162d.** In a converged run asking for the matrix elements changes no energy: the returned energies add up, and the exchange-correlation energy is that
of the returned density. -/
theorem C162_energies_partial {s n : ℕ} {W V M : Type} (e : Env s n W V M) (maxiter : ℕ) (rho : Dens s (n + 1)) (w : W) (mx : M) (res : Res s n W M)
    (h : scf e maxiter rho w mx = .ok res) (hc : res.converged = true) :
    enOut e true res = enOut e false res ∧ AddsUp (enOut e true res) ∧ (enOut e true res).xc = e.xc res.st.rho := by
  obtain ⟨-, -, hl⟩ := scf_path _ _ _ _ _ _ h
  obtain ⟨p, -, hi, -⟩ := loop_path _ _ _ _ _ hl
  have hex := hi.1 hc
  clear hl h hi
  have key : res.st.en = e.energy res.st.w res.st.rho res.st.rho := by
    generalize (⟨rho, rho, true, w, mx, e.diagoInit, e.en0⟩ : St s n W M) = st0 at p
    generalize res.st = st1 at p
    generalize res.trace = tr at p hex
    generalize (0 : ℕ) = i0 at p
    clear hc
    induction p with
    | nil => obtain ⟨r, hr, -⟩ := hex; simp at hr
    | last idx st st' r' hs hc =>
      obtain ⟨-, hp⟩ := step_spec e idx st st' r' hs
      cases hp with
      | conv _ _ _ _ hen => exact hen
      | again hr => rw [hc] at hr; cases hr
      | mixed hr => rw [hc] at hr; cases hr
    | cons idx st st' st'' r' rs hs hc _ ih =>
      apply ih
      obtain ⟨r, hr, hrc⟩ := hex
      rcases List.mem_cons.1 hr with rfl | hr
      · rw [hc] at hrc; cases hrc
      · exact ⟨r, hr, hrc⟩
  have hx : res.st.en.xc = e.xc res.st.rho := by
    rw [key]; unfold Env.energy; cases e.isSmear <;> rfl
  have h1 : enOut e true res = res.st.en := by
    unfold enOut
    rw [if_pos rfl, ← hx]
  refine ⟨h1.trans rfl, ?_, by rw [h1, hx]⟩
  rw [h1, key]
  unfold AddsUp Env.energy
  cases e.isSmear <;> simp

/-- A run that does not converge in its single iteration and whose densities have different exchange-correlation energies. -/
noncomputable def badEnv : Env 1 1 ℕ Unit ℕ :=
  { seqEnv (fun _ => 5) 1 1 true true with xc := fun r => (r 0 1).re }

/-- **C162e (violation).** In a run that ends without convergence the exchange-correlation energy is replaced by that of the next, mixed density while the
total energy is kept: the returned energies no longer add up, though they do without `ret_vxc`. -/
theorem C162_unconverged_violated : ∃ (rho : Dens 1 2) (res : Res 1 1 ℕ ℕ), scf badEnv 1 rho 0 0 = .ok res ∧ res.converged = false ∧
    AddsUp (enOut badEnv false res) ∧ ¬ AddsUp (enOut badEnv true res) := by
  have hr : badEnv.rhoOut 1 = fun _ i => if i = 0 then 1 else (1 : ℂ) := by
    have h1 := seqEnv_rhoOut (fun _ => 5) 1 1 true true 1
    rw [show badEnv.rhoOut 1 = (seqEnv (fun _ => 5) 1 1 true true).rhoOut 1 from rfl, h1]
    simp
  have hp : badEnv.prep (fun _ i => if i = 0 then 1 else (7 : ℂ)) = fun _ i => if i = 0 then 1 else (7 : ℂ) := by
    funext k i
    simp [Env.prep, Env.sym, badEnv, seqEnv, SCF.normalize, g0]
  have hs : step badEnv 0 ⟨fun _ i => if i = 0 then 1 else (7 : ℂ), fun _ i => if i = 0 then 1 else (7 : ℂ), true, 0, 0, 1, badEnv.en0⟩
      = .ok (⟨fun _ i => if i = 0 then 1 else (1 : ℂ), fun _ i => if i = 0 then 1 else (7 : ℂ), false, 1, 1, max (min 1 (0.1 * 5 / 1)) 0.5e-13,
          badEnv.energy 1 (fun _ i => if i = 0 then 1 else (7 : ℂ)) (badEnv.rhoOut 1)⟩,
        ⟨0, false, 5, max (min 1 (0.1 * 5 / 1)) 0.5e-13, badEnv.energy 1 (fun _ i => if i = 0 then 1 else (7 : ℂ)) (badEnv.rhoOut 1)⟩) := by
    unfold step
    simp only [hp]
    have e1 : badEnv.solve 0 (badEnv.pot fun _ i => if i = 0 then 1 else (7 : ℂ)) 1 = 1 := rfl
    have e2 : ∀ a b, badEnv.err a b = 5 := fun _ _ => rfl
    have e3 : badEnv.convThr = 1 := rfl
    have e4 : badEnv.numel = 1 := rfl
    have e5 : ∀ m a b, badEnv.mix m a b = .ok ⟨m + 1, b, b, true⟩ := fun _ _ _ => rfl
    have e6 : badEnv.symmRho = true := rfl
    have e7 : ∀ a, badEnv.sym a = a := fun _ => rfl
    simp only [e1, e2, e3, e4, e5, e6, e7]
    rw [if_neg (by norm_num), if_neg (by norm_num)]
    simp [hr]
  have hrun : ∃ tr, scf badEnv 1 (fun _ i => if i = 0 then 1 else (7 : ℂ)) 0 0 = .ok ⟨false,
      ⟨fun _ i => if i = 0 then 1 else (1 : ℂ), fun _ i => if i = 0 then 1 else (7 : ℂ), false, 1, 1, max (min 1 (0.1 * 5 / 1)) 0.5e-13,
          badEnv.energy 1 (fun _ i => if i = 0 then 1 else (7 : ℂ)) (badEnv.rhoOut 1)⟩, tr⟩ := by
    unfold scf
    rw [if_neg (by simp [badEnv, seqEnv]), if_neg (by simp [badEnv, seqEnv])]
    simp only [loop]
    rw [show badEnv.diagoInit = 1 from rfl, hs]
    exact ⟨_, rfl⟩
  obtain ⟨tr, hrun⟩ := hrun
  refine ⟨_, _, hrun, rfl, ?_, ?_⟩
  · simp [enOut, AddsUp, Env.energy, badEnv, seqEnv]
  · simp [enOut, AddsUp, Env.energy, badEnv, seqEnv]

/-- The hypotheses of C162a-c are met: a 2×1×1 grid, both plane waves, a non-constant potential. -/
example : ValidIdx ⟨2, 1, 1⟩ [0, 1] ∧ (⟨2, 1, 1⟩ : Dims).size ≠ 0 ∧ (fun i : Fin [0, 1].length => (i : ℂ)) ≠ 0 := by
  refine ⟨⟨by decide, by decide⟩, by decide, fun h => ?_⟩
  have := congrFun h ⟨1, by decide⟩
  simp at this

end Verif.VxcOut
