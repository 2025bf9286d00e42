import Verif.Props.Trans
import Verif.Props.PotXC

/-!
# C181: potentials and energies of a translated density
-/

namespace Verif.Trans

open scoped ComplexConjugate
open Verif.FFT (Driver Dims DrvState ValidIdx)
open Verif.Pot Verif.Loc

/-- The transforms turn the phases `ω` in G-space into the permutation `p` of the grid points. -/
structure Covariant {m n : ℕ} (S : XCSpace m n) (ω : Fin n → ℂ) (p : Equiv.Perm (Fin m)) : Prop where
  toR : ∀ f r, S.toR (fun j => ω j * f j) (p r) = S.toR f r
  toG : ∀ (u u' : Fin m → ℂ), (∀ r, u' (p r) = u r) → ∀ j, S.toG u' j = ω j * S.toG u j

/-- A functional acts point by point: permuting the grid points permutes what it returns. libxc functionals do. -/
def PointByPoint {ns m : ℕ} (f : XCFunc ns m) : Prop :=
  ∀ (p : Equiv.Perm (Fin m)) (rho rho' : Fin m → Fin ns → ℝ) (sg sg' : Option (ℕ → Fin m → ℝ)), (∀ r, rho' (p r) = rho r) →
    (match sg, sg' with
      | none, none => True
      | some g, some g' => ∀ k r, g' k (p r) = g k r
      | _, _ => False) →
    (∀ r, (f.run rho' sg').zk (p r) = (f.run rho sg).zk r) ∧ (∀ s r, (f.run rho' sg').vrho s (p r) = (f.run rho sg).vrho s r) ∧
      match (f.run rho sg).vsigma, (f.run rho' sg').vsigma with
      | none, none => True
      | some g, some g' => ∀ k r, g' k (p r) = g k r
      | _, _ => False

theorem fft_covariant (drv : Driver) (d : Dims) (idx : List ℕ) (hv : ValidIdx d idx) (st : DrvState ℂ) (g : Fin 3 → Fin idx.length → ℝ) (dv : ℝ) (G : Fin idx.length → Fin 3 → ℤ)
    (hG : Indexes d idx G) (s : Fin 3 → ℤ) : Covariant (fftSpace drv d idx st g dv) (fun j => phase (vec d s) (G j)) (perm d s) := by
  have hb : ∀ (k : Fin idx.length) (x : ℕ), FFT.ker3 d (FFT.dftKern false d) x idx[k] = conj (Complex.exp (-(2 * Real.pi * Complex.I) * ((Nonloc.gridDot d idx[k] x : ℝ) : ℂ))) := by
    intro k x
    rw [FFT.dft_ker3_bwd, Nonloc.gridDot_exp_conj]
    congr 1
    unfold Nonloc.gridDot
    push_cast
    ring
  have hf : ∀ (k : Fin idx.length) (x : ℕ), FFT.ker3 d (FFT.dftKern true d) idx[k] x = Complex.exp (-(2 * Real.pi * Complex.I) * ((Nonloc.gridDot d idx[k] x : ℝ) : ℂ)) := by
    intro k x
    rw [FFT.dft_ker3_fwd]
    congr 1
    unfold Nonloc.gridDot
    push_cast
    ring
  have hm : ∀ (k : Fin idx.length) (r : Fin d.size), Complex.exp (-(2 * Real.pi * Complex.I) * ((Nonloc.gridDot d idx[k] (perm d s r) : ℝ) : ℂ))
      = phase (vec d s) (G k) * Complex.exp (-(2 * Real.pi * Complex.I) * ((Nonloc.gridDot d idx[k] r : ℝ) : ℂ)) := by
    intro k r
    obtain ⟨m, h⟩ := gridDot_moved d s idx[k] r (perm d s r) r.2 (perm_moved d s r) (G k) (hG k)
    rw [h, Nonloc.exp_int_shift, Complex.ofReal_add, mul_add, Complex.exp_add, mul_comm]
    rfl
  constructor
  · intro f r
    show (drv.g2r d (FFT.dftKern false d) true idx st (List.ofFn _)).2 (perm d s r) = (drv.g2r d (FFT.dftKern false d) true idx st (List.ofFn _)).2 r
    rw [drv.g2r_eq d _ true idx hv st st.f _ (by simp) _ (perm d s r).2, FFT.fullG2r_eq d _ true idx hv st.f _ (by simp),
      drv.g2r_eq d _ true idx hv st st.f _ (by simp) r r.2, FFT.fullG2r_eq d _ true idx hv st.f _ (by simp)]
    congr 1
    rw [Finset.sum_range, Finset.sum_range]
    refine Finset.sum_congr rfl fun k _ => ?_
    have e : idx.getD k 0 = idx[k] := by simp
    rw [e, hb, hb, hm, map_mul]
    have hu := phase_unit (vec d s) (G k)
    have e1 : (List.ofFn fun j => phase (vec d s) (G j) * f j).getD k 0 = phase (vec d s) (G k) * f k := by simp
    have e2 : (List.ofFn f).getD k 0 = f k := by simp
    rw [e1, e2]
    linear_combination conj (Complex.exp (-(2 * Real.pi * Complex.I) * ((Nonloc.gridDot d idx[k] r : ℝ) : ℂ))) * f k * hu
  · intro u u' hu j
    have hG' : ∀ (u : Fin d.size → ℂ) (j : Fin idx.length), (fftSpace drv d idx st g dv).toG u j = ∑ r : Fin d.size, FFT.ker3 d (FFT.dftKern true d) (idx[j]) r * u r := by
      intro u j
      show (drv.r2g d (FFT.dftKern true d) idx st _).2.getD j 0 = _
      rw [drv.r2g_eq d _ idx hv st st.f _ _ (fun _ _ => rfl), FFT.fullR2g_eq, FFT.getD_map _ _ _ j.2, Finset.sum_range]
      refine Finset.sum_congr rfl fun r _ => ?_
      simp
    rw [hG', hG', Finset.mul_sum]
    refine (Equiv.sum_comp (perm d s) fun r : Fin d.size => FFT.ker3 d (FFT.dftKern true d) (idx[j]) r * u' r).symm.trans ?_
    refine Finset.sum_congr rfl fun r _ => ?_
    rw [hu, hf, hf, hm]
    ring

section
variable {ns m n : ℕ} {S : XCSpace m n} {ω : Fin n → ℂ} {p : Equiv.Perm (Fin m)}

theorem gradR_cov (hS : Covariant S ω p) (f : Fin n → ℂ) (c : Fin 3) (r : Fin m) : S.gradR (fun j => ω j * f j) c (p r) = S.gradR f c r := by
  unfold XCSpace.gradR
  refine Eq.trans (congrArg (fun x => S.toR x (p r)) (funext fun j => ?_)) (hS.toR _ r)
  ring

theorem divR_cov (hS : Covariant S ω p) (h h' : Fin 3 → Fin m → ℂ) (hh : ∀ c r, h' c (p r) = h c r) (r : Fin m) : S.divR h' (p r) = S.divR h r := by
  unfold XCSpace.divR
  refine Eq.trans (congrArg (fun x => S.toR x (p r)) (funext fun j => ?_)) (hS.toR _ r)
  rw [Finset.mul_sum]
  refine Finset.sum_congr rfl fun c _ => ?_
  rw [hS.toG (h c) (h' c) (hh c)]
  ring

theorem xcAdd_cov (hS : Covariant S ω p) (rho : Fin ns → Fin n → ℂ) (ng : Bool) (out out' : XCOut ns m) (hz : ∀ r, out'.zk (p r) = out.zk r) (hvr : ∀ s r, out'.vrho s (p r) = out.vrho s r)
    (hvs : match out.vsigma, out'.vsigma with
      | none, none => True
      | some g, some g' => ∀ k r, g' k (p r) = g k r
      | _, _ => False) (acc acc' : (Fin ns → Fin m → ℂ) × ℂ) (ha : ∀ s r, acc'.1 s (p r) = acc.1 s r) (he : acc'.2 = acc.2) :
    match xcAdd S rho ng out acc, xcAdd S (fun s j => ω j * rho s j) ng out' acc' with
    | .ok a, .ok a' => (∀ s r, a'.1 s (p r) = a.1 s r) ∧ a'.2 = a.2
    | .error e, .error e' => e' = e
    | _, _ => False := by
  have hen : (∑ r, ∑ s, S.toR (fun j => ω j * rho s j) r * (out'.zk r : ℂ)) = ∑ r, ∑ s, S.toR (rho s) r * (out.zk r : ℂ) := by
    refine (Equiv.sum_comp p fun r : Fin m => ∑ s, S.toR (fun j => ω j * rho s j) r * (out'.zk r : ℂ)).symm.trans ?_
    refine Finset.sum_congr rfl fun r _ => Finset.sum_congr rfl fun s _ => ?_
    rw [hS.toR, hz]
  unfold xcAdd
  cases ng with
  | false =>
    simp only [Bool.false_eq_true, if_false]
    refine ⟨fun s r => ?_, ?_⟩
    · rw [ha, hvr]
    · rw [he, hen]
  | true =>
    simp only [if_true]
    cases h1 : out.vsigma with
    | none =>
      cases h2 : out'.vsigma with
      | none => rfl
      | some g' => rw [h1, h2] at hvs; exact hvs.elim
    | some g =>
      cases h2 : out'.vsigma with
      | none => rw [h1, h2] at hvs; exact hvs.elim
      | some g' =>
        rw [h1, h2] at hvs
        refine ⟨fun s r => ?_, ?_⟩
        · show acc'.1 s (p r) + (out'.vrho s (p r) : ℂ) - S.divR _ (p r) = acc.1 s r + (out.vrho s r : ℂ) - S.divR _ r
          rw [ha, hvr, divR_cov hS (xcH S rho g s) _ ?_ r]
          intro c r
          unfold xcH
          split
          · rw [gradR_cov hS, hvs]
          · rw [gradR_cov hS, gradR_cov hS, hvs, hvs]
        · show acc'.2 + _ = acc.2 + _
          rw [he, hen]

theorem xcCompute_cov (hS : Covariant S ω p) (h0 : 0 < ns) (exch corr : XCFunc ns m) (hx : PointByPoint exch) (hc : PointByPoint corr) (rho : Fin ns → Fin n → ℂ) (core : Fin n → ℂ) :
    match xcCompute S h0 exch corr rho core, xcCompute S h0 exch corr (fun s j => ω j * rho s j) (fun j => ω j * core j) with
    | .ok a, .ok a' => (∀ s r, a'.1 s (p r) = a.1 s r) ∧ a'.2 = a.2
    | .error e, .error e' => e' = e
    | _, _ => False := by
  have hin : ∀ r, xcRho S (fun s j => ω j * rho s j) (p r) = xcRho S rho r := by
    intro r
    funext s
    unfold xcRho
    rw [hS.toR]
  have haux : rhoaux (fun s j => ω j * rho s j) (fun j => ω j * core j) = fun s j => ω j * rhoaux rho core s j := by
    funext s j
    unfold rhoaux
    ring
  have hsig : ∀ k r, sigma S (rhoaux (fun s j => ω j * rho s j) (fun j => ω j * core j)) h0 k (p r) = sigma S (rhoaux rho core) h0 k r := by
    intro k r
    rw [haux]
    have hg : ∀ s : Fin ns, ∀ c, S.gradR (fun j => ω j * rhoaux rho core s j) c (p r) = S.gradR (rhoaux rho core s) c r := fun s c => gradR_cov hS _ c r
    unfold sigma
    simp only [hg]
  unfold xcCompute
  simp only [bind, Except.bind, pure, Except.pure]
  generalize decide (exch.family = .gga ∨ corr.family = .gga) = ng
  have hsg : match (if ng then some (sigma S (rhoaux rho core) h0) else none), (if ng then some (sigma S (rhoaux (fun s j => ω j * rho s j) (fun j => ω j * core j)) h0) else none) with
      | none, none => True
      | some g, some g' => ∀ k r, g' k (p r) = g k r
      | _, _ => False := by
    cases ng with
    | false => exact True.intro
    | true => exact hsig
  obtain ⟨x1, x2, x3⟩ := hx p _ _ _ _ hin hsg
  obtain ⟨c1, c2, c3⟩ := hc p _ _ _ _ hin hsg
  have A := xcAdd_cov hS rho ng _ _ x1 x2 x3 (fun _ _ => 0, 0) (fun _ _ => 0, 0) (fun _ _ => rfl) rfl
  revert A
  generalize xcAdd S rho ng _ (fun _ _ => 0, 0) = a
  generalize xcAdd S (fun s j => ω j * rho s j) ng _ (fun _ _ => 0, 0) = a'
  intro A
  cases a with
  | error e =>
    cases a' with
    | error e' => exact A
    | ok _ => exact A.elim
  | ok a =>
    cases a' with
    | error e' => exact A.elim
    | ok a' =>
      have B := xcAdd_cov hS rho ng _ _ c1 c2 c3 a a' A.1 A.2
      revert B
      dsimp only
      generalize xcAdd S rho ng _ a = b
      generalize xcAdd S (fun s j => ω j * rho s j) ng _ a' = b'
      intro B
      cases b with
      | error e =>
        cases b' with
        | error e' => exact B
        | ok _ => exact B.elim
      | ok b =>
        cases b' with
        | error e' => exact B.elim
        | ok b' => exact ⟨B.1, congrArg Complex.re B.2⟩
end

theorem perm_of_moved (d : Dims) (s : Fin 3 → ℤ) (r r' : Fin d.size) (h : Moved d s r r') : r' = perm d s r := by
  apply Fin.ext
  refine eq_of_coord d (perm d s r).2 r'.2 fun a => ?_
  obtain ⟨m1, h1⟩ := h a
  obtain ⟨m2, h2⟩ := perm_moved d s r a
  refine ⟨m1 - m2, ?_⟩
  rw [sub_mul]
  omega

/-- **C181a.** Moving density and core density by grid steps moves the exchange-correlation potential and leaves the energy, for local and gradient functionals, one or two spins, either FFT driver; the
failures are the same. -/
theorem C181_xc (drv : Driver) (d : Dims) (idx : List ℕ) (hv : ValidIdx d idx) (st : DrvState ℂ) (g : Fin 3 → Fin idx.length → ℝ) (dv : ℝ) (G : Fin idx.length → Fin 3 → ℤ)
    (hG : Indexes d idx G) (s : Fin 3 → ℤ) {ns : ℕ} (h0 : 0 < ns) (exch corr : XCFunc ns d.size) (hx : PointByPoint exch) (hc : PointByPoint corr) (rho : Fin ns → Fin idx.length → ℂ)
    (core : Fin idx.length → ℂ) :
    match xcCompute (fftSpace drv d idx st g dv) h0 exch corr rho core,
      xcCompute (fftSpace drv d idx st g dv) h0 exch corr (fun a j => phase (vec d s) (G j) * rho a j) (fun j => phase (vec d s) (G j) * core j) with
    | .ok a, .ok a' => (∀ (c : Fin ns) (r r' : Fin d.size), Moved d s r r' → a'.1 c r' = a.1 c r) ∧ a'.2 = a.2
    | .error e, .error e' => e' = e
    | _, _ => False := by
  have h := xcCompute_cov (fft_covariant drv d idx hv st g dv G hG s) h0 exch corr hx hc rho core
  revert h
  generalize xcCompute (fftSpace drv d idx st g dv) h0 exch corr rho core = a
  generalize xcCompute (fftSpace drv d idx st g dv) h0 exch corr _ _ = a'
  intro h
  cases a with
  | error e =>
    cases a' with
    | error e' => exact h
    | ok _ => exact h.elim
  | ok a =>
    cases a' with
    | error e' => exact h.elim
    | ok a' =>
      refine ⟨fun c r r' hm => ?_, h.2⟩
      rw [perm_of_moved d s r r' hm]
      exact h.1 c r

/-- **C181b.** Moving the density by any vector `t` moves the Hartree potential and leaves the Hartree energy. -/
theorem C181_hartree (nan : ℂ) (norm2 : List ℝ) (hasG0 : Bool) (dv : ℝ) (npts : ℕ) (G : ℕ → Fin 3 → ℤ) (t : Fin 3 → ℝ)
    (hpos : ∀ j < norm2.length, ¬ (hasG0 = true ∧ j = 0) → norm2.getD j 0 ≠ 0) (rho rho' : List (List ℂ))
    (h : List.Forall₂ (fun c c' => ∀ j, c'.getD j 0 = phase t (G j) * c.getD j 0) rho rho') :
    match hartree nan norm2 hasG0 dv npts rho, hartree nan norm2 hasG0 dv npts rho' with
    | .ok a, .ok a' => (∀ j, a'.1.getD j 0 = phase t (G j) * a.1.getD j 0) ∧ a'.2 = a.2
    | .error e, .error e' => e' = e
    | _, _ => False := by
  have ht : ∀ j, total rho' j = phase t (G j) * total rho j := by
    intro j
    unfold total
    induction h with
    | nil => simp
    | cons hx _ ih =>
      rw [List.map_cons, List.map_cons, List.sum_cons, List.sum_cons, ih, hx j]
      ring
  have hl : rho'.length = rho.length := h.length_eq.symm
  have hV : ∀ j, (hartreeV nan norm2 hasG0 rho').getD j 0 = phase t (G j) * (hartreeV nan norm2 hasG0 rho).getD j 0 := by
    intro j
    unfold hartreeV
    by_cases hj : j < norm2.length
    · rw [List.getD_eq_getElem _ _ (by simpa using hj), List.getD_eq_getElem _ _ (by simpa using hj), List.getElem_map, List.getElem_map, List.getElem_range]
      by_cases h0 : hasG0 = true ∧ j = 0
      · rw [if_pos h0, if_pos h0, mul_zero]
      · rw [if_neg h0, if_neg h0, if_neg (hpos j hj h0), if_neg (hpos j hj h0), ht]
        ring
    · rw [List.getD_eq_default _ _ (by simpa using hj), List.getD_eq_default _ _ (by simpa using hj), mul_zero]
  unfold hartree checkRho
  rw [hl]
  by_cases hc : rho.length = 1 ∨ rho.length = 2
  · simp only [if_pos hc]
    refine ⟨hV, ?_⟩
    unfold hartreeEn
    congr 3
    refine Finset.sum_congr rfl fun j _ => ?_
    rw [hV, ht, map_mul]
    have hu := phase_unit t (G j)
    linear_combination conj (total rho j) * (hartreeV nan norm2 hasG0 rho).getD j 0 * hu
  · simp only [if_neg hc]

/-- **C181c.** Moving the atoms by any vector `t` moves atomic density, ionic potential and core density. -/
theorem C181_atoms (erf : ℝ → ℝ) (D : RadialData) (hasG0 : Bool) (dv cellvol : ℝ) (N : ℕ) (gnorm : ℕ → ℝ) (tau : List (Fin 3 → ℝ)) (G : ℕ → Fin 3 → ℤ) (t : Fin 3 → ℝ) (j : ℕ) :
    rhoAtomic D hasG0 dv (tau.map fun a c => a c + t c) G gnorm j = phase t (G j) * rhoAtomic D hasG0 dv tau G gnorm j ∧
    vIon erf D hasG0 cellvol N (tau.map fun a c => a c + t c) G gnorm j = phase t (G j) * vIon erf D hasG0 cellvol N tau G gnorm j ∧
    rhoCore D hasG0 cellvol N (tau.map fun a c => a c + t c) G gnorm j = phase t (G j) * rhoCore D hasG0 cellvol N tau G gnorm j := by
  have h2 : structFac (tau.map fun a c => a c + t c) (G j) = structFac tau (G j) * phase t (G j) := by
    rw [structFac_eq, structFac_eq, List.map_map, ← List.sum_map_mul_right]
    congr 1
    exact List.map_congr_left fun a _ => phase_shift a t (G j)
  obtain ⟨⟨f1, -, e1⟩, ⟨f2, -, e2⟩, ⟨f3, -, e3⟩⟩ := C79_superpositions erf D hasG0 dv cellvol N gnorm
  refine ⟨?_, ?_, ?_⟩
  · have a := e1 (tau.map fun a c => a c + t c) G j
    have b := e1 tau G j
    rw [a, b, h2]
    ring
  · have a := e2 (tau.map fun a c => a c + t c) G j
    have b := e2 tau G j
    rw [a, b, h2]
    ring
  · have a := e3 (tau.map fun a c => a c + t c) G j
    have b := e3 tau G j
    rw [a, b, h2]
    ring

/-- **C181d.** What has the phases `exp (-2πi t·G)` in G-space, with `t` a number of grid steps, is moved by these steps on the grid. -/
theorem C181_grid (drv : Driver) (d : Dims) (idx : List ℕ) (hv : ValidIdx d idx) (st : DrvState ℂ) (G : Fin idx.length → Fin 3 → ℤ) (hG : Indexes d idx G) (s : Fin 3 → ℤ) (f : Fin idx.length → ℂ)
    (r r' : Fin d.size) (h : Moved d s r r') :
    (drv.g2r d (FFT.dftKern false d) true idx st (List.ofFn fun j => phase (vec d s) (G j) * f j)).2 r' = (drv.g2r d (FFT.dftKern false d) true idx st (List.ofFn f)).2 r := by
  rw [perm_of_moved d s r r' h]
  exact (fft_covariant drv d idx hv st (fun _ _ => 0) 1 G hG s).toR f r

/-- A functional that acts point by point: an LDA functional with energy `-ρ`. -/
example : PointByPoint (⟨.lda, fun rho _ => ⟨fun r => -rho r 0, fun _ r => -2 * rho r 0, none⟩, fun _ _ => by simp⟩ : XCFunc 1 2) := by
  intro p rho rho' sg sg' h _
  exact ⟨fun r => by simp only [h], fun s r => by simp only [h], True.intro⟩

end Verif.Trans
