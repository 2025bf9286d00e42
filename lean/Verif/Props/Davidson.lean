import Mathlib.Analysis.InnerProductSpace.Basic
import Mathlib.LinearAlgebra.Dimension.Constructions
import Mathlib.LinearAlgebra.FiniteDimensional.Lemmas
import Mathlib.Analysis.Complex.Basic
import Mathlib.Analysis.InnerProductSpace.PiL2
import Mathlib.Tactic.IntervalCases
import Mathlib.Tactic.Ring
import Mathlib.Tactic.Linarith
import Mathlib.Tactic.NormNum
import Verif.Model.Davidson

/-!
# Properties of the Davidson eigen-solver: C43, C44, C71
-/

namespace Verif.Davidson

open scoped ComplexConjugate

variable {E : Type*} [NormedAddCommGroup E] [InnerProductSpace ℂ E]

/-! ## Specification -/

/-- The span of the first `n` vectors. -/
def sub (psi : ℕ → E) (n : ℕ) : Submodule ℂ E := Submodule.span ℂ (psi '' {i | i < n})

/-- `u 0, ..., u (p-1)` with values `lam` are the `p` lowest Ritz pairs of `H` in the subspace `S`: orthonormal vectors
of `S`, residuals orthogonal to `S`, and `lam m` the least expectation value in `S` orthogonally to the pairs before. -/
structure IsRitz (H : E → E) (S : Submodule ℂ E) (p : ℕ) (u : ℕ → E) (lam : ℕ → ℝ) : Prop where
  mem : ∀ m < p, u m ∈ S
  orth : ∀ m < p, ∀ k < p, (inner ℂ (u m) (u k) : ℂ) = if m = k then 1 else 0
  galerkin : ∀ m < p, ∀ v ∈ S, (inner ℂ v (H (u m) - (lam m : ℂ) • u m) : ℂ) = 0
  lowest : ∀ m < p, ∀ v ∈ S, (∀ k < m, (inner ℂ (u k) v : ℂ) = 0) → lam m * ‖v‖ ^ 2 ≤ (inner ℂ v (H v) : ℂ).re

/-- `C`, `lam` are the `p` lowest eigenpairs of the Hermitian pencil whose lower triangles are `a` and `b` (order `n`),
normalised with respect to `b`, lowest first. -/
def EighGood (p n : ℕ) (a b : ℕ → ℕ → ℂ) (C : ℕ → ℕ → ℂ) (lam : ℕ → ℝ) : Prop :=
  (∀ m < p, ∀ i < n, ∑ j ∈ Finset.range n, hermL a i j * C m j =
    (lam m : ℂ) * ∑ j ∈ Finset.range n, hermL b i j * C m j) ∧
  (∀ m < p, ∀ k < p, ∑ i ∈ Finset.range n, ∑ j ∈ Finset.range n, conj (C m i) * hermL b i j * C k j =
    if m = k then 1 else 0) ∧
  (∀ m < p, ∀ x : ℕ → ℂ,
    (∀ k < m, ∑ i ∈ Finset.range n, ∑ j ∈ Finset.range n, conj (C k i) * hermL b i j * x j = 0) →
    lam m * (∑ i ∈ Finset.range n, ∑ j ∈ Finset.range n, conj (x i) * hermL b i j * x j).re ≤
      (∑ i ∈ Finset.range n, ∑ j ∈ Finset.range n, conj (x i) * hermL a i j * x j).re)

/-- What LAPACK promises of `eigh`: if it returns, it returns the lowest eigenpairs. -/
def EighSpec (p : ℕ) (eigh : ℕ → (ℕ → ℕ → ℂ) → (ℕ → ℕ → ℂ) → Except PyErr ((ℕ → ℕ → ℂ) × (ℕ → ℝ))) : Prop :=
  ∀ n a b C lam, p ≤ n → eigh n a b = .ok (C, lam) → EighGood p n a b C lam

/-- The Hamiltonian is a Hermitian linear map. -/
structure HermLin (H : E → E) : Prop where
  add : ∀ x y, H (x + y) = H x + H y
  smul : ∀ (a : ℂ) x, H (a • x) = a • H x
  symm : ∀ x y, (inner ℂ (H x) y : ℂ) = inner ℂ x (H y)

/-! ## C43 -/

/-- Sizes that fit the buffers. -/
def Fits (c : Cfg E) (s : St E) : Prop :=
  c.numeig ≤ s.ndim ∧ s.nun ≤ c.numeig ∧ s.ndim + s.nun ≤ c.numwork * c.numeig

theorem unconvRows_length_le (n : ℕ) (f : ℕ → Bool) : (unconvRows n f).length ≤ n := by
  unfold unconvRows
  exact le_trans (List.length_filter_le _ _) (by simp)

theorem expand_ok (c : Cfg E) (s s1 : St E) (h : expandPsi c s = .ok s1) :
    s.ndim + s.nun ≤ c.numwork * c.numeig ∧ ∃ new : ℕ → E,
      s1 = { s with
        psi := fun i => if s.ndim ≤ i ∧ i < s.ndim + s.nun then new i else s.psi i
        hpsi := fun i => if s.ndim ≤ i ∧ i < s.ndim + s.nun then c.H (new i) else s.hpsi i
        ndim := s.ndim + s.nun } := by
  unfold expandPsi at h
  split at h
  · cases h
  · next hle =>
    injection h with h
    refine ⟨not_lt.mp hle, fun i => c.norm (c.precond (comb s.ndim s.evcR s.hpsi (i - s.ndim) -
      (s.evlR (i - s.ndim) : ℂ) • comb s.ndim s.evcR s.psi (i - s.ndim)) (s.evlR (i - s.ndim))), ?_⟩
    rw [← h]
    congr 1
    funext i
    split
    · next hi => simp only [if_pos hi]
    · rfl

theorem solveRed_ok (c : Cfg E) (s s' : St E) (h : solveRed c s = .ok s') :
    ∃ C lam, c.eigh s.ndim s.ham s.ovl = .ok (C, lam) ∧
      s' = { s with evcR := fun m j => if j < s.ndim then C m j else s.evcR m j, evlR := lam } := by
  unfold solveRed at h
  split at h
  · cases h
  · next C lam hc => injection h with h; exact ⟨C, lam, hc, h.symm⟩

theorem solveRed_err (c : Cfg E) (s : St E) (x : PyErr) (h : solveRed c s = .error x) :
    c.eigh s.ndim s.ham s.ovl = .error x := by
  unfold solveRed at h
  split at h
  · next hc => injection h with h; rw [hc, h]
  · cases h

theorem body_ok (c : Cfg E) (s s' : St E) (h : body c s = .ok s') :
    ∃ s1 s2, expandPsi c (moveUnconv c s) = .ok s1 ∧ solveRed c (updateRed s1) = .ok s2 ∧ s' = checkConv c s2 := by
  unfold body at h
  split at h
  · cases h
  · next s1 h1 =>
    split at h
    · cases h
    · next s2 h2 => injection h with h; exact ⟨s1, s2, h1, h2, h.symm⟩

theorem body_sizes (c : Cfg E) (s s' : St E) (hf : Fits c s) (h : body c s = .ok s') :
    c.numeig ≤ s'.ndim ∧ s'.ndim ≤ c.numwork * c.numeig ∧ s'.nun ≤ c.numeig ∧ s'.ndim = s.ndim + s.nun := by
  obtain ⟨h1, h2, h3⟩ := hf
  obtain ⟨s1, s2, e1, e2, rfl⟩ := body_ok c s s' h
  obtain ⟨-, new, rfl⟩ := expand_ok _ _ _ e1
  obtain ⟨C, lam, -, rfl⟩ := solveRed_ok _ _ _ e2
  simp only [checkConv, updateRed, moveUnconv]
  exact ⟨by omega, by omega, unconvRows_length_le _ _, trivial⟩

theorem body_no_value (c : Cfg E) (s : St E) (hf : Fits c s)
    (he : ∀ n a b, c.numeig ≤ n → n ≤ c.numwork * c.numeig → c.eigh n a b ≠ .error .value) :
    body c s ≠ .error .value := by
  obtain ⟨h1, h2, h3⟩ := hf
  intro h
  unfold body at h
  split at h
  · next x hx =>
    unfold expandPsi at hx
    rw [if_neg (by simp only [moveUnconv]; omega)] at hx
    cases hx
  · next s1 hs1 =>
    obtain ⟨-, new, rfl⟩ := expand_ok _ _ _ hs1
    split at h
    · next x hx =>
      injection h with h; subst h
      exact he _ _ _ (by simp only [updateRed, moveUnconv]; omega) (by simp only [updateRed, moveUnconv]; omega)
        (solveRed_err _ _ _ hx)
    · cases h

theorem fits_next (c : Cfg E) (hw : 2 ≤ c.numwork) (s : St E) (h1 : c.numeig ≤ s.ndim) (h3 : s.nun ≤ c.numeig) :
    (c.numwork * c.numeig < s.ndim + s.nun → Fits c (restart c (rotate s))) ∧
      (¬ c.numwork * c.numeig < s.ndim + s.nun → Fits c s) := by
  constructor
  · intro _
    refine ⟨le_rfl, h3, ?_⟩
    have : 2 * c.numeig ≤ c.numwork * c.numeig := Nat.mul_le_mul_right _ hw
    simp only [restart, rotate]
    omega
  · intro h
    exact ⟨h1, h3, by omega⟩

theorem loop_no_value (c : Cfg E) (hw : 2 ≤ c.numwork)
    (he : ∀ n a b, c.numeig ≤ n → n ≤ c.numwork * c.numeig → c.eigh n a b ≠ .error .value) (fuel k : ℕ) (s : St E)
    (hf : Fits c s) : loop c fuel k s ≠ .error .value := by
  induction fuel generalizing k s with
  | zero => simp [loop]
  | succ f ih =>
    intro h
    simp only [loop] at h
    split at h
    · next x hx => injection h with h; subst h; exact body_no_value c s hf he hx
    · next s' hs' =>
      obtain ⟨h1, h2, h3, -⟩ := body_sizes c s s' hf hs'
      obtain ⟨fa, fb⟩ := fits_next c hw s' h1 h3
      split at h
      · cases h
      · split at h
        · next hlt => exact ih _ _ (fa hlt) h
        · next hlt => exact ih _ _ (fb hlt) h

/-- C43: the subspace never outgrows its buffers. The solver fails with neither a buffer overflow nor a subspace smaller
than the number of requested bands: the eigen-problem is only ever posed with between `numeig` and `numwork * numeig`
vectors. -/
theorem solve_fits (c : Cfg E) (evc psi0 hpsi0 : ℕ → E)
    (he : ∀ n a b, c.numeig ≤ n → n ≤ c.numwork * c.numeig → c.eigh n a b ≠ .error .value) :
    solve c evc psi0 hpsi0 ≠ .error .value := by
  intro h
  unfold solve at h
  split at h
  · cases h
  · next hc =>
    push Not at hc
    have hw : 2 ≤ c.numwork := hc.2.1
    have h2 : 2 * c.numeig ≤ c.numwork * c.numeig := Nat.mul_le_mul_right _ hw
    split at h
    · next x hx =>
      injection h with h; subst h
      exact he _ _ _ le_rfl (show c.numeig ≤ _ by omega) (solveRed_err _ _ _ hx)
    · next s hs =>
      obtain ⟨C, lam, -, rfl⟩ := solveRed_ok _ _ _ hs
      refine loop_no_value c hw he _ _ _ ⟨le_rfl, le_rfl, ?_⟩ h
      simp only [initSt, updateRed]; omega

theorem loop_iters (c : Cfg E) (fuel k : ℕ) (s : St E) (o : Out E) (h : loop c fuel k s = .ok o) :
    o.iters ≤ k + fuel ∧ (o.converged = false → o.iters = k + fuel) := by
  induction fuel generalizing k s with
  | zero => simp only [loop] at h; injection h with h; subst h; simp
  | succ f ih =>
    simp only [loop] at h
    split at h
    · cases h
    · split at h
      · injection h with h; subst h; exact ⟨show k + 1 ≤ _ by omega, by simp⟩
      · split at h
        · obtain ⟨a, b⟩ := ih _ _ h; exact ⟨by omega, fun hh => by have := b hh; omega⟩
        · obtain ⟨a, b⟩ := ih _ _ h; exact ⟨by omega, fun hh => by have := b hh; omega⟩

theorem solve_loop (c : Cfg E) (evc psi0 hpsi0 : ℕ → E) (o : Out E) (h : solve c evc psi0 hpsi0 = .ok o) :
    0 < c.thr ∧ 2 ≤ c.numwork ∧ 2 ≤ c.maxiter ∧ ∃ s, solveRed c (initSt c evc psi0 hpsi0) = .ok s ∧
      loop c c.maxiter 0 { s with evl := s.evlR } = .ok o := by
  unfold solve at h
  split at h
  · cases h
  · next hc =>
    push Not at hc
    split at h
    · cases h
    · next s hs => exact ⟨hc.1, hc.2.1, hc.2.2, s, hs, h⟩

/-- C43: at most `maxiter` iterations, exactly `maxiter` if the solver did not converge. -/
theorem solve_iters (c : Cfg E) (evc psi0 hpsi0 : ℕ → E) (o : Out E) (h : solve c evc psi0 hpsi0 = .ok o) :
    o.iters ≤ c.maxiter ∧ (o.converged = false → o.iters = c.maxiter) := by
  obtain ⟨-, -, -, s, -, hl⟩ := solve_loop _ _ _ _ _ h
  simpa using loop_iters _ _ _ _ _ hl

/-! ## The invariant behind C44 -/

/-- The reduced matrices are those of the Hamiltonian in the current subspace. -/
structure RedOK (c : Cfg E) (s : St E) : Prop where
  hpsi : ∀ i < s.ndim, s.hpsi i = c.H (s.psi i)
  ham : ∀ i < s.ndim, ∀ j < s.ndim, hermL s.ham i j = inner ℂ (s.psi i) (c.H (s.psi j))
  ovl : ∀ i < s.ndim, ∀ j < s.ndim, hermL s.ovl i j = inner ℂ (s.psi i) (s.psi j)

theorem hermL_inner {f : ℕ → ℕ → ℂ} {g : ℕ → ℕ → ℂ} (hg : ∀ i j, conj (g j i) = g i j) {n : ℕ} (i j : ℕ)
    (hi : i < n) (hj : j < n) (h : ∀ i j, i < n → j ≤ i → f i j = g i j) : hermL f i j = g i j := by
  unfold hermL
  split
  · next hlt => exact h i j hi hlt.le
  · split
    · next h1 h2 => rw [h j i hj h2.le, hg]
    · next h1 h2 =>
      have : i = j := by omega
      subst this
      rw [h i i hi le_rfl]
      exact Complex.conj_eq_iff_re.mp (hg i i)

theorem HermLin.map_sum {H : E → E} (hH : HermLin H) (n : ℕ) (x : ℕ → ℂ) (psi : ℕ → E) :
    H (∑ j ∈ Finset.range n, x j • psi j) = ∑ j ∈ Finset.range n, x j • H (psi j) := by
  have h0 : H 0 = 0 := by simpa using hH.smul 0 0
  induction n with
  | zero => simpa using h0
  | succ n ih => rw [Finset.sum_range_succ, Finset.sum_range_succ, hH.add, hH.smul, ih]

theorem mem_sub_iff (psi : ℕ → E) (n : ℕ) (v : E) : v ∈ sub psi n ↔ ∃ x : ℕ → ℂ, v = ∑ j ∈ Finset.range n, x j • psi j := by
  constructor
  · intro hv
    unfold sub at hv
    induction hv using Submodule.span_induction with
    | mem v hv =>
      obtain ⟨i, hi, rfl⟩ := hv
      refine ⟨fun j => if j = i then 1 else 0, ?_⟩
      simp only [ite_smul, one_smul, zero_smul]
      rw [Finset.sum_ite_eq' (Finset.range n) i psi, if_pos (Finset.mem_range.mpr hi)]
    | zero => exact ⟨0, by simp⟩
    | add v w _ _ h1 h2 =>
      obtain ⟨x, rfl⟩ := h1
      obtain ⟨y, rfl⟩ := h2
      exact ⟨x + y, by simp [add_smul, Finset.sum_add_distrib]⟩
    | smul a v _ h1 =>
      obtain ⟨x, rfl⟩ := h1
      exact ⟨a • x, by simp [Finset.smul_sum, mul_smul]⟩
  · rintro ⟨x, rfl⟩
    exact Submodule.sum_mem _ fun j hj => Submodule.smul_mem _ _ (Submodule.subset_span ⟨j, Finset.mem_range.mp hj, rfl⟩)

theorem inner_comb (n : ℕ) (x y : ℕ → ℂ) (psi phi : ℕ → E) :
    (inner ℂ (∑ i ∈ Finset.range n, x i • psi i) (∑ j ∈ Finset.range n, y j • phi j) : ℂ) =
      ∑ i ∈ Finset.range n, ∑ j ∈ Finset.range n, conj (x i) * inner ℂ (psi i) (phi j) * y j := by
  rw [sum_inner]
  refine Finset.sum_congr rfl fun i _ => ?_
  rw [inner_sum]
  refine Finset.sum_congr rfl fun j _ => ?_
  rw [inner_smul_left, inner_smul_right]; ring

/-- Solving the reduced problem yields the Ritz pairs of the subspace. -/
theorem ritz_of_eigh (c : Cfg E) (hH : HermLin c.H) (hE : EighSpec c.numeig c.eigh) (s s' : St E) (hr : RedOK c s)
    (hn : c.numeig ≤ s.ndim) (h : solveRed c s = .ok s') :
    IsRitz c.H (sub s'.psi s'.ndim) c.numeig (comb s'.ndim s'.evcR s'.psi) s'.evlR ∧ RedOK c s' ∧
      s'.psi = s.psi ∧ s'.ndim = s.ndim ∧ s'.nun = s.nun ∧ s'.evl = s.evl ∧ s'.evc = s.evc := by
  · obtain ⟨C, lam, hc, rfl⟩ := solveRed_ok _ _ _ h
    obtain ⟨e1, e2, e3⟩ := hE _ _ _ _ _ hn hc
    have hcomb : ∀ m, comb s.ndim (fun m j => if j < s.ndim then C m j else s.evcR m j) s.psi m =
        ∑ j ∈ Finset.range s.ndim, C m j • s.psi j := fun m =>
      Finset.sum_congr rfl fun j hj => by simp only [if_pos (Finset.mem_range.mp hj)]
    have hov : ∀ x y : ℕ → ℂ, (inner ℂ (∑ i ∈ Finset.range s.ndim, x i • s.psi i)
        (∑ j ∈ Finset.range s.ndim, y j • s.psi j) : ℂ) =
        ∑ i ∈ Finset.range s.ndim, ∑ j ∈ Finset.range s.ndim, conj (x i) * hermL s.ovl i j * y j := by
      intro x y
      rw [inner_comb]
      refine Finset.sum_congr rfl fun i hi => Finset.sum_congr rfl fun j hj => ?_
      rw [hr.ovl i (Finset.mem_range.mp hi) j (Finset.mem_range.mp hj)]
    have hha : ∀ x y : ℕ → ℂ, (inner ℂ (∑ i ∈ Finset.range s.ndim, x i • s.psi i)
        (c.H (∑ j ∈ Finset.range s.ndim, y j • s.psi j)) : ℂ) =
        ∑ i ∈ Finset.range s.ndim, ∑ j ∈ Finset.range s.ndim, conj (x i) * hermL s.ham i j * y j := by
      intro x y
      rw [hH.map_sum, inner_comb]
      refine Finset.sum_congr rfl fun i hi => Finset.sum_congr rfl fun j hj => ?_
      rw [hr.ham i (Finset.mem_range.mp hi) j (Finset.mem_range.mp hj)]
    refine ⟨⟨fun m _ => ?_, fun m hm k hk => ?_, fun m hm v hv => ?_, fun m hm v hv hk => ?_⟩, ⟨hr.hpsi, hr.ham, hr.ovl⟩,
      rfl, rfl, rfl, rfl, rfl⟩
    · exact (mem_sub_iff _ _ _).mpr ⟨fun j => if j < s.ndim then C m j else s.evcR m j, rfl⟩
    · simp only [hcomb, hov, e2 m hm k hk]
    · obtain ⟨x, rfl⟩ := (mem_sub_iff _ _ _).mp hv
      simp only [hcomb]
      rw [inner_sub_right, inner_smul_right, hha, hov, Finset.mul_sum, ← Finset.sum_sub_distrib]
      refine Finset.sum_eq_zero fun i hi => ?_
      have := e1 m hm i (Finset.mem_range.mp hi)
      have h1 : ∑ j ∈ Finset.range s.ndim, conj (x i) * hermL s.ham i j * C m j =
          conj (x i) * ∑ j ∈ Finset.range s.ndim, hermL s.ham i j * C m j := by
        rw [Finset.mul_sum]; exact Finset.sum_congr rfl fun j _ => by ring
      have h2 : ∑ j ∈ Finset.range s.ndim, conj (x i) * hermL s.ovl i j * C m j =
          conj (x i) * ∑ j ∈ Finset.range s.ndim, hermL s.ovl i j * C m j := by
        rw [Finset.mul_sum]; exact Finset.sum_congr rfl fun j _ => by ring
      rw [h1, h2, this]; ring
    · obtain ⟨x, rfl⟩ := (mem_sub_iff _ _ _).mp hv
      have := e3 m hm x (fun k hkm => by
        have := hk k hkm
        simp only [hcomb, hov] at this
        exact this)
      rw [← hov, ← hha, inner_self_eq_norm_sq_to_K] at this
      simpa [← Complex.ofReal_pow] using this

/-- The state at the head of the loop. -/
structure Inv (c : Cfg E) (s : St E) : Prop where
  red : RedOK c s
  dim : c.numeig ≤ s.ndim
  ritz : IsRitz c.H (sub s.psi s.ndim) c.numeig (comb s.ndim s.evcR s.psi) s.evl

theorem redOK_expand (c : Cfg E) (hH : HermLin c.H) (s s1 : St E) (hr : RedOK c s)
    (h : expandPsi c s = .ok s1) :
    RedOK c (updateRed s1) ∧ (∀ i < s.ndim, s1.psi i = s.psi i) ∧ s1.ndim = s.ndim + s.nun ∧ s1.evl = s.evl ∧
      s1.evc = s.evc ∧ s1.nun = s.nun := by
  obtain ⟨-, new, rfl⟩ := expand_ok _ _ _ h
  refine ⟨?_, fun i hi => if_neg (by omega), rfl, rfl, rfl, rfl⟩
  generalize hpsi : (fun i => if s.ndim ≤ i ∧ i < s.ndim + s.nun then new i else s.psi i) = psi'
  have hold : ∀ i < s.ndim, psi' i = s.psi i := by
    intro i hi; rw [← hpsi]; exact if_neg (by omega)
  have hhp : ∀ i < s.ndim + s.nun,
      (if s.ndim ≤ i ∧ i < s.ndim + s.nun then c.H (new i) else s.hpsi i) = c.H (psi' i) := by
    intro i hi
    split
    · next hy => rw [← hpsi]; simp only [if_pos hy]
    · next hn => rw [hold i (by omega)]; exact hr.hpsi i (by omega)
  have cH : ∀ i j, conj (inner ℂ (psi' j) (c.H (psi' i)) : ℂ) = inner ℂ (psi' i) (c.H (psi' j)) := by
    intro i j; rw [inner_conj_symm, hH.symm]
  have cO : ∀ i j, conj (inner ℂ (psi' j) (psi' i) : ℂ) = inner ℂ (psi' i) (psi' j) := by
    intro i j; rw [inner_conj_symm]
  have key : ∀ (f g : ℕ → ℕ → ℂ) (hg : ∀ i j, conj (g j i) = g i j)
      (hfo : ∀ i < s.ndim, ∀ j < s.ndim, hermL f i j = g i j) (i j : ℕ), i < s.ndim + s.nun → j < s.ndim + s.nun →
      hermL (fun i j => if s.ndim + s.nun - s.nun ≤ i ∧ i < s.ndim + s.nun ∧ j < s.ndim + s.nun then g i j else f i j)
        i j = g i j := by
    intro f g hg hfo i j hi hj
    by_cases hij : i < s.ndim ∧ j < s.ndim
    · rw [← hfo i hij.1 j hij.2]
      simp only [hermL]
      rw [if_neg (show ¬ (s.ndim + s.nun - s.nun ≤ i ∧ i < s.ndim + s.nun ∧ j < s.ndim + s.nun) by omega),
        if_neg (show ¬ (s.ndim + s.nun - s.nun ≤ j ∧ j < s.ndim + s.nun ∧ i < s.ndim + s.nun) by omega),
        if_neg (show ¬ (s.ndim + s.nun - s.nun ≤ i ∧ i < s.ndim + s.nun ∧ i < s.ndim + s.nun) by omega)]
    · simp only [hermL]
      split
      · next hlt => rw [if_pos (by omega)]
      · split
        · next h1 h2 => rw [if_pos (by omega), hg]
        · next h1 h2 =>
          have : i = j := by omega
          subst this
          rw [if_pos (by omega)]
          exact Complex.conj_eq_iff_re.mp (hg i i)
  refine ⟨fun i hi => hhp i hi, fun i hi j hj => ?_, fun i hi j hj => ?_⟩
  · simp only [updateRed] at hi hj ⊢
    rw [← key s.ham (fun i j => inner ℂ (psi' i) (c.H (psi' j))) cH (fun i hi j hj => by
      rw [hold i hi, hold j hj]; exact hr.ham i hi j hj) i j hi hj]
    congr 1
    funext a b
    split
    · next hab => rw [hhp b hab.2.2]
    · rfl
  · simp only [updateRed] at hi hj ⊢
    exact key s.ovl (fun i j => inner ℂ (psi' i) (psi' j)) cO (fun i hi j hj => by
      rw [hold i hi, hold j hj]; exact hr.ovl i hi j hj) i j hi hj

theorem redOK_update (c : Cfg E) (hH : HermLin c.H) (s s1 : St E) (hr : RedOK c s)
    (h : expandPsi c (moveUnconv c s) = .ok s1) :
    RedOK c (updateRed s1) ∧ (∀ i < s.ndim, s1.psi i = s.psi i) ∧ s1.ndim = s.ndim + s.nun ∧ s1.evl = s.evl ∧
      s1.evc = s.evc ∧ s1.nun = s.nun :=
  redOK_expand c hH (moveUnconv c s) s1 ⟨hr.hpsi, hr.ham, hr.ovl⟩ h

theorem sub_mono (psi psi' : ℕ → E) (n n' : ℕ) (hn : n ≤ n') (h : ∀ i < n, psi' i = psi i) : sub psi n ≤ sub psi' n' := by
  refine Submodule.span_le.mpr ?_
  rintro _ ⟨i, hi, rfl⟩
  exact Submodule.subset_span ⟨i, lt_of_lt_of_le hi hn, h i hi⟩

/-- An iteration keeps the reduced matrices right, enlarges the subspace and solves it. -/
theorem body_inv (c : Cfg E) (hH : HermLin c.H) (hE : EighSpec c.numeig c.eigh) (s s' : St E) (hi : Inv c s)
    (h : body c s = .ok s') :
    Inv c s' ∧ sub s.psi s.ndim ≤ sub s'.psi s'.ndim ∧ s'.evlR = s'.evl ∧ s'.evc = s.evc ∧
      (s'.nun = 0 → ∀ m < c.numeig, |s'.evl m - s.evl m| ≤ c.thr) := by
  obtain ⟨s1, s2, e1, e2, rfl⟩ := body_ok c s s' h
  obtain ⟨r1, p1, n1, v1, w1, u1⟩ := redOK_update c hH s s1 hi.red e1
  have hd : c.numeig ≤ (updateRed s1).ndim := by simp only [updateRed, n1]; have := hi.dim; omega
  obtain ⟨z1, z2, z3, z4, z5, z6, z7⟩ := ritz_of_eigh c hH hE _ _ r1 hd e2
  refine ⟨⟨⟨z2.hpsi, z2.ham, z2.ovl⟩, by simp only [checkConv, z4]; exact hd, z1⟩, ?_, rfl, ?_, fun h0 m hm => ?_⟩
  · simp only [checkConv]
    refine sub_mono _ _ _ _ (by rw [z4]; simp only [updateRed, n1]; omega) fun i hil => ?_
    rw [z3]; exact p1 i hil
  · simp only [checkConv, z7, updateRed, w1]
  · by_contra hlt
    simp only [checkConv, z6, updateRed, v1] at h0 hlt
    have := List.length_eq_zero_iff.mp h0
    unfold unconvRows at this
    rw [List.filter_eq_nil_iff] at this
    exact this m (List.mem_range.mpr hm) (by simpa using hlt)

theorem comb_id (n p : ℕ) (hp : p ≤ n) (psi : ℕ → E) (m : ℕ) (hm : m < p) :
    comb n (fun i j => if i = j ∧ i < p then (1 : ℂ) else 0) psi m = psi m := by
  unfold comb
  rw [Finset.sum_eq_single m]
  · simp [hm]
  · intro b _ hb; simp only []; rw [if_neg (by omega), zero_smul]
  · intro hh; exact absurd (Finset.mem_range.mpr (by omega)) hh

theorem IsRitz.congr {H : E → E} {S : Submodule ℂ E} {p : ℕ} {u u' : ℕ → E} {lam : ℕ → ℝ} (h : IsRitz H S p u lam)
    (hu : ∀ m < p, u' m = u m) : IsRitz H S p u' lam where
  mem m hm := by rw [hu m hm]; exact h.mem m hm
  orth m hm k hk := by rw [hu m hm, hu k hk]; exact h.orth m hm k hk
  galerkin m hm v hv := by rw [hu m hm]; exact h.galerkin m hm v hv
  lowest m hm v hv hk := h.lowest m hm v hv fun k hkm => by rw [← hu k (by omega)]; exact hk k hkm

theorem IsRitz.mono {H : E → E} {S S' : Submodule ℂ E} {p : ℕ} {u : ℕ → E} {lam : ℕ → ℝ} (h : IsRitz H S p u lam)
    (hS : S' ≤ S) (hm : ∀ m < p, u m ∈ S') : IsRitz H S' p u lam where
  mem := hm
  orth := h.orth
  galerkin m hm v hv := h.galerkin m hm v (hS hv)
  lowest m hm v hv hk := h.lowest m hm v (hS hv) hk

theorem IsRitz.diag {H : E → E} {S : Submodule ℂ E} {p : ℕ} {u : ℕ → E} {lam : ℕ → ℝ} (h : IsRitz H S p u lam)
    (m : ℕ) (hm : m < p) (k : ℕ) (hk : k < p) : (inner ℂ (u k) (H (u m)) : ℂ) = if k = m then (lam m : ℂ) else 0 := by
  have := h.galerkin m hm (u k) (h.mem k hk)
  rw [inner_sub_right, inner_smul_right, h.orth k hk m hm, sub_eq_zero] at this
  rw [this]; split <;> simp

/-- The restart keeps everything: same Ritz pairs, now in their own span. -/
theorem restart_inv (c : Cfg E) (hH : HermLin c.H) (s : St E) (hi : Inv c s) :
    Inv c (restart c (rotate s)) ∧ ∀ m < c.numeig, (restart c (rotate s)).psi m = comb s.ndim s.evcR s.psi m := by
  have hpsi : ∀ m < c.numeig, (restart c (rotate s)).psi m = comb s.ndim s.evcR s.psi m := by
    intro m hm; simp only [restart, rotate, if_pos hm]
  have hp' : ∀ m < c.numeig, comb (restart c (rotate s)).ndim (restart c (rotate s)).evcR (restart c (rotate s)).psi m =
      comb s.ndim s.evcR s.psi m := by
    intro m hm
    rw [← hpsi m hm]
    exact comb_id _ _ le_rfl _ m hm
  refine ⟨⟨⟨fun i hil => ?_, fun i hil j hjl => ?_, fun i hil j hjl => ?_⟩, le_rfl, ?_⟩, hpsi⟩
  · have hil' : i < c.numeig := hil
    rw [hpsi i hil']
    simp only [restart, rotate, if_pos hil']
    unfold comb
    rw [hH.map_sum]
    exact Finset.sum_congr rfl fun j hj => by rw [hi.red.hpsi j (Finset.mem_range.mp hj)]
  · have hil' : i < c.numeig := hil
    have hjl' : j < c.numeig := hjl
    rw [hpsi i hil', hpsi j hjl', hi.ritz.diag j hjl' i hil']
    simp only [restart, rotate, hermL]
    split
    · rw [if_neg (by omega), if_neg (by omega)]
    · split
      · rw [if_neg (by omega), if_neg (by omega), map_zero]
      · next h1 h2 =>
        have : i = j := by omega
        subst this
        simp [hil']
  · have hil' : i < c.numeig := hil
    have hjl' : j < c.numeig := hjl
    rw [hpsi i hil', hpsi j hjl', hi.ritz.orth i hil' j hjl']
    simp only [restart, rotate, hermL]
    split
    · rw [if_neg (by omega), if_neg (by omega)]
    · split
      · rw [if_neg (by omega), if_neg (by omega), map_zero]
      · next h1 h2 =>
        have : i = j := by omega
        subst this
        simp [hil']
  · refine IsRitz.congr (IsRitz.mono hi.ritz ?_ ?_) hp'
    · refine Submodule.span_le.mpr ?_
      rintro _ ⟨i, hil, rfl⟩
      rw [hpsi i hil]
      exact hi.ritz.mem i hil
    · intro m hm
      rw [← hpsi m hm]
      exact Submodule.subset_span ⟨m, hm, rfl⟩

/-! ## Comparing Ritz values -/

theorem IsRitz.sorted {H : E → E} {S : Submodule ℂ E} {p : ℕ} {u : ℕ → E} {lam : ℕ → ℝ} (h : IsRitz H S p u lam)
    (k m : ℕ) (hkm : k ≤ m) (hm : m < p) : lam k ≤ lam m := by
  have := h.lowest k (by omega) (u m) (h.mem m hm) fun j hj => by
    rw [h.orth j (by omega) m hm, if_neg (by omega)]
  rw [h.diag m hm m hm, if_pos rfl] at this
  have hn : ‖u m‖ ^ 2 = 1 := by
    have h1 := h.orth m hm m hm
    rw [if_pos rfl, inner_self_eq_norm_sq_to_K] at h1
    have h2 : ((‖u m‖ ^ 2 : ℝ) : ℂ) = ((1 : ℝ) : ℂ) := by push_cast; exact h1
    exact Complex.ofReal_injective h2
  rw [hn] at this
  simpa using this

/-- Courant and Fischer: a number below all expectation values in `S` orthogonal to some `m` vectors is below the
`m`-th Ritz value. -/
theorem IsRitz.minmax {H : E → E} (hH : HermLin H) {S S' : Submodule ℂ E} {p : ℕ} {u : ℕ → E} {lam : ℕ → ℝ}
    (h : IsRitz H S p u lam) (hS : S ≤ S') (m : ℕ) (hm : m < p) (w : ℕ → E) (mu : ℝ)
    (hmu : ∀ v ∈ S', (∀ k < m, (inner ℂ (w k) v : ℂ) = 0) → mu * ‖v‖ ^ 2 ≤ (inner ℂ v (H v) : ℂ).re) :
    mu ≤ lam m := by
  let f : (Fin (m + 1) → ℂ) →ₗ[ℂ] (Fin m → ℂ) :=
    { toFun := fun a k => inner ℂ (w k) (∑ j, a j • u j)
      map_add' := fun a b => by funext k; simp [add_smul, Finset.sum_add_distrib, inner_add_right]
      map_smul' := fun r a => by
        funext k
        simp only [Pi.smul_apply, smul_eq_mul, RingHom.id_apply, mul_smul, ← Finset.smul_sum, inner_smul_right] }
  have hker : LinearMap.ker f ≠ ⊥ := LinearMap.ker_ne_bot_of_finrank_lt (by simp)
  obtain ⟨a, ha, hne⟩ := Submodule.exists_mem_ne_zero_of_ne_bot hker
  have hfa : ∀ k < m, (inner ℂ (w k) (∑ j, a j • u j) : ℂ) = 0 := by
    intro k hk
    exact congrFun (LinearMap.mem_ker.mp ha) ⟨k, hk⟩
  have hmem : (∑ j : Fin (m + 1), a j • u j) ∈ S' :=
    Submodule.sum_mem _ fun j _ => Submodule.smul_mem _ _ (hS (h.mem j (by omega)))
  have h1 := hmu _ hmem hfa
  have hHs : H (∑ j : Fin (m + 1), a j • u j) = ∑ j : Fin (m + 1), a j • H (u j) := by
    have h0 : H 0 = 0 := by simpa using hH.smul 0 0
    let Hl : E →ₗ[ℂ] E := { toFun := H, map_add' := hH.add, map_smul' := hH.smul }
    change Hl _ = _
    rw [map_sum]
    exact Finset.sum_congr rfl fun j _ => hH.smul _ _
  have hex : (inner ℂ (∑ j : Fin (m + 1), a j • u j) (H (∑ j : Fin (m + 1), a j • u j)) : ℂ) =
      ((∑ j : Fin (m + 1), ‖a j‖ ^ 2 * lam j : ℝ) : ℂ) := by
    rw [hHs, sum_inner]
    push_cast
    refine Finset.sum_congr rfl fun i _ => ?_
    rw [inner_sum, Finset.sum_eq_single i]
    · rw [inner_smul_left, inner_smul_right, h.diag i (by omega) i (by omega), if_pos rfl, ← mul_assoc,
        Complex.conj_mul']
    · intro b _ hb
      rw [inner_smul_left, inner_smul_right, h.diag b (by omega) i (by omega),
        if_neg (fun hh => hb (Fin.ext hh.symm)), mul_zero, mul_zero]
    · intro hh; exact absurd (Finset.mem_univ _) hh
  have hnorm : ‖∑ j : Fin (m + 1), a j • u j‖ ^ 2 = ∑ j : Fin (m + 1), ‖a j‖ ^ 2 := by
    have : ((‖∑ j : Fin (m + 1), a j • u j‖ ^ 2 : ℝ) : ℂ) = ((∑ j : Fin (m + 1), ‖a j‖ ^ 2 : ℝ) : ℂ) := by
      have e := inner_self_eq_norm_sq_to_K (𝕜 := ℂ) (∑ j : Fin (m + 1), a j • u j)
      push_cast
      refine Eq.trans e.symm ?_
      rw [sum_inner]
      refine Finset.sum_congr rfl fun i _ => ?_
      rw [inner_sum, Finset.sum_eq_single i]
      · rw [inner_smul_left, inner_smul_right, h.orth i (by omega) i (by omega), if_pos rfl, mul_one, Complex.conj_mul']
      · intro b _ hb
        rw [inner_smul_left, inner_smul_right, h.orth i (by omega) b (by omega),
          if_neg (fun hh => hb (Fin.ext hh.symm)), mul_zero, mul_zero]
      · intro hh; exact absurd (Finset.mem_univ _) hh
    exact_mod_cast this
  rw [hex, hnorm, Complex.ofReal_re] at h1
  have hpos : 0 < ∑ j : Fin (m + 1), ‖a j‖ ^ 2 := by
    obtain ⟨i, hi⟩ := Function.ne_iff.mp hne
    refine Finset.sum_pos' (fun _ _ => by positivity) ⟨i, Finset.mem_univ _, ?_⟩
    have : 0 < ‖a i‖ := norm_pos_iff.mpr hi
    positivity
  have hle : ∑ j : Fin (m + 1), ‖a j‖ ^ 2 * lam j ≤ lam m * ∑ j : Fin (m + 1), ‖a j‖ ^ 2 := by
    rw [Finset.mul_sum]
    refine Finset.sum_le_sum fun j _ => ?_
    have := h.sorted j m (by omega) hm
    nlinarith [sq_nonneg ‖a j‖]
  exact le_of_mul_le_mul_right (le_trans h1 hle) hpos

/-! ## C44 and C71 -/

theorem redOK_init (c : Cfg E) (hH : HermLin c.H) (evc psi0 hpsi0 : ℕ → E) : RedOK c (initSt c evc psi0 hpsi0) := by
  have cH : ∀ x y : E, conj (inner ℂ y (c.H x) : ℂ) = inner ℂ x (c.H y) := by
    intro x y; rw [inner_conj_symm, hH.symm]
  refine ⟨fun i hi => ?_, fun i hi j hj => ?_, fun i hi j hj => ?_⟩
  · have hi' : i < c.numeig := hi
    simp [initSt, updateRed, hi']
  · have hi' : i < c.numeig := hi
    have hj' : j < c.numeig := hj
    simp only [initSt, updateRed, hermL, Nat.sub_self, Nat.zero_le, hi', hj', true_and, and_self, if_true]
    split
    · rfl
    · split
      · exact cH _ _
      · have : i = j := by omega
        subst this
        exact Complex.conj_eq_iff_re.mp (cH _ _)
  · have hi' : i < c.numeig := hi
    have hj' : j < c.numeig := hj
    simp only [initSt, updateRed, hermL, Nat.sub_self, Nat.zero_le, hi', hj', true_and, and_self, if_true]
    split
    · rfl
    · split
      · rw [inner_conj_symm]
      · have : i = j := by omega
        subst this
        exact Complex.conj_eq_iff_re.mp (inner_conj_symm _ _)

/-- The state at the head of the loop after the first diagonalisation. -/
theorem init_inv (c : Cfg E) (hH : HermLin c.H) (hE : EighSpec c.numeig c.eigh) (evc psi0 hpsi0 : ℕ → E) (s : St E)
    (h : solveRed c (initSt c evc psi0 hpsi0) = .ok s) : Inv c { s with evl := s.evlR } ∧ s.evc = evc := by
  have hr := redOK_init c hH evc psi0 hpsi0
  obtain ⟨z1, z2, z3, z4, z5, z6, z7⟩ := ritz_of_eigh c hH hE _ _ hr le_rfl h
  refine ⟨⟨⟨z2.hpsi, z2.ham, z2.ovl⟩, ?_, z1⟩, ?_⟩
  · simp only [z4]; exact le_rfl
  · rw [z7]; rfl

/-- The loop invariants transported to the result. -/
theorem loop_result (c : Cfg E) (hH : HermLin c.H) (hE : EighSpec c.numeig c.eigh) (fuel k : ℕ) (s : St E)
    (hi : Inv c s) (o : Out E) (h : loop c fuel k s = .ok o) :
    (∀ m < c.numeig, o.evl m ≤ s.evl m) ∧
    (∃ u, IsRitz c.H (sub o.last.psi o.last.ndim) c.numeig u o.evl) ∧
    (o.converged = true → IsRitz c.H (sub o.last.psi o.last.ndim) c.numeig o.evc o.evl ∧
      ∃ S u lam, IsRitz c.H S c.numeig u lam ∧ S ≤ sub o.last.psi o.last.ndim ∧
        ∀ m < c.numeig, |o.evl m - lam m| ≤ c.thr) ∧
    (o.converged = false → o.evc = s.evc ∨ ∃ S lam, IsRitz c.H S c.numeig o.evc lam ∧ ∀ m < c.numeig, o.evl m ≤ lam m) := by
  induction fuel generalizing k s with
  | zero =>
    simp only [loop] at h; injection h with h; subst h
    exact ⟨fun _ _ => le_rfl, ⟨_, hi.ritz⟩, by simp, fun _ => .inl rfl⟩
  | succ f ih =>
    simp only [loop] at h
    split at h
    · cases h
    · next s' hs' =>
      obtain ⟨b1, b2, b3, b4, b5⟩ := body_inv c hH hE s s' hi hs'
      have hmono : ∀ m < c.numeig, s'.evl m ≤ s.evl m := fun m hm =>
        hi.ritz.minmax hH b2 m hm (comb s'.ndim s'.evcR s'.psi) _ (b1.ritz.lowest m hm)
      split at h
      · next h0 =>
        injection h with h; subst h
        exact ⟨hmono, ⟨_, b1.ritz⟩, fun _ => ⟨b1.ritz, _, _, _, hi.ritz, b2, b5 h0⟩, by simp⟩
      · split at h
        · obtain ⟨r1, r2⟩ := restart_inv c hH s' b1
          obtain ⟨i1, i2, i3, i4⟩ := ih _ _ r1 h
          refine ⟨fun m hm => le_trans (i1 m hm) (hmono m hm), i2, i3, fun hc => ?_⟩
          rcases i4 hc with he | he
          · exact .inr ⟨_, s'.evl, by rw [he]; exact b1.ritz, i1⟩
          · exact .inr he
        · obtain ⟨i1, i2, i3, i4⟩ := ih _ _ b1 h
          refine ⟨fun m hm => le_trans (i1 m hm) (hmono m hm), i2, i3, fun hc => ?_⟩
          rcases i4 hc with he | he
          · exact .inl (he.trans b4)
          · exact .inr he

/-- C44: when the solver stops because the bands converged, the returned vectors and values belong together: they are
the lowest Ritz pairs of the Hamiltonian in the final subspace (orthonormal, residuals orthogonal to the subspace), and
each value differs by at most the threshold from its predecessor, the Ritz value in a smaller subspace. -/
theorem solve_converged (c : Cfg E) (hH : HermLin c.H) (hE : EighSpec c.numeig c.eigh) (evc psi0 hpsi0 : ℕ → E)
    (o : Out E) (h : solve c evc psi0 hpsi0 = .ok o) (hc : o.converged = true) :
    IsRitz c.H (sub o.last.psi o.last.ndim) c.numeig o.evc o.evl ∧
      ∃ S u lam, IsRitz c.H S c.numeig u lam ∧ S ≤ sub o.last.psi o.last.ndim ∧
        ∀ m < c.numeig, |o.evl m - lam m| ≤ c.thr := by
  obtain ⟨-, -, -, s, hs, hl⟩ := solve_loop _ _ _ _ _ h
  exact (loop_result c hH hE _ _ _ (init_inv c hH hE _ _ _ _ hs).1 _ hl).2.2.1 hc

/-- C44: hence the returned vectors are orthonormal and each value is its vector's expectation value. -/
theorem solve_converged_expectation (c : Cfg E) (hH : HermLin c.H) (hE : EighSpec c.numeig c.eigh)
    (evc psi0 hpsi0 : ℕ → E) (o : Out E) (h : solve c evc psi0 hpsi0 = .ok o) (hc : o.converged = true) :
    (∀ m < c.numeig, ∀ k < c.numeig, (inner ℂ (o.evc m) (o.evc k) : ℂ) = if m = k then 1 else 0) ∧
      (∀ m < c.numeig, ∀ k < c.numeig, (inner ℂ (o.evc m) (c.H (o.evc k)) : ℂ) = if m = k then (o.evl k : ℂ) else 0) ∧
      ∀ m k, m ≤ k → k < c.numeig → o.evl m ≤ o.evl k := by
  obtain ⟨hr, -⟩ := solve_converged c hH hE evc psi0 hpsi0 o h hc
  exact ⟨hr.orth, fun m hm k hk => hr.diag k hk m hm, hr.sorted⟩

/-- C44, what is left when the iteration limit is reached: the values are Ritz values of the last subspace, the vectors
are either the unchanged input or the Ritz vectors of an *earlier* subspace, with values no smaller. -/
theorem solve_unconverged_partial (c : Cfg E) (hH : HermLin c.H) (hE : EighSpec c.numeig c.eigh)
    (evc psi0 hpsi0 : ℕ → E) (o : Out E) (h : solve c evc psi0 hpsi0 = .ok o) (hc : o.converged = false) :
    (∃ u, IsRitz c.H (sub o.last.psi o.last.ndim) c.numeig u o.evl) ∧
      (o.evc = evc ∨ ∃ S lam, IsRitz c.H S c.numeig o.evc lam ∧ ∀ m < c.numeig, o.evl m ≤ lam m) := by
  obtain ⟨-, -, -, s, hs, hl⟩ := solve_loop _ _ _ _ _ h
  obtain ⟨h1, h2⟩ := init_inv c hH hE _ _ _ _ hs
  obtain ⟨-, a, -, b⟩ := loop_result c hH hE _ _ _ h1 _ hl
  exact ⟨a, by rw [← h2]; exact b hc⟩

theorem loop_stale (c : Cfg E) (fuel k : ℕ) (s : St E) (o : Out E) (h : loop c fuel k s = .ok o)
    (hn : s.nun ≤ c.numeig) (hd : s.ndim + (fuel + 1) * c.numeig ≤ c.numwork * c.numeig)
    (hc : o.converged = false) (hd0 : c.numeig ≤ s.ndim) : o.evc = s.evc := by
  induction fuel generalizing k s with
  | zero => simp only [loop] at h; injection h with h; subst h; rfl
  | succ f ih =>
    have he : (f + 1 + 1) * c.numeig = (f + 1) * c.numeig + c.numeig := Nat.succ_mul _ _
    have he' : (f + 1) * c.numeig = f * c.numeig + c.numeig := Nat.succ_mul _ _
    simp only [loop] at h
    split at h
    · cases h
    · next s' hs' =>
      obtain ⟨a1, a2, a3, a4⟩ := body_sizes c s s' ⟨hd0, hn, by omega⟩ hs'
      obtain ⟨s1, s2, e1, e2, e3⟩ := body_ok c s s' hs'
      have hevc : s'.evc = s.evc := by
        obtain ⟨-, new, rfl⟩ := expand_ok _ _ _ e1
        obtain ⟨C, lam, -, rfl⟩ := solveRed_ok _ _ _ e2
        rw [e3]; rfl
      split at h
      · injection h with h; subst h; simp at hc
      · split at h
        · next h1 h2 => exfalso; omega
        · rw [← hevc]
          exact ih _ _ h a3 (by omega) a1

/-- C44, violated part: with a workspace large enough for the whole run, a solver that hits its iteration limit returns
the input vectors untouched, next to the new values. -/
theorem solve_unconverged_stale (c : Cfg E) (evc psi0 hpsi0 : ℕ → E) (o : Out E)
    (h : solve c evc psi0 hpsi0 = .ok o) (hc : o.converged = false) (hw : c.maxiter + 2 ≤ c.numwork) :
    o.evc = evc := by
  obtain ⟨-, -, -, s, hs, hl⟩ := solve_loop _ _ _ _ _ h
  obtain ⟨C, lam, -, rfl⟩ := solveRed_ok _ _ _ hs
  have h1 : (c.maxiter + 2) * c.numeig ≤ c.numwork * c.numeig := Nat.mul_le_mul_right _ hw
  have h2 : (c.maxiter + 2) * c.numeig = c.numeig + (c.maxiter + 1) * c.numeig := by ring
  exact loop_stale c _ _ _ _ hl le_rfl (show c.numeig + _ ≤ _ by omega) hc le_rfl

/-- C71: the eigenvalue estimates never rise: those returned are at most those of the initial vectors' span, band by
band. -/
theorem solve_monotone (c : Cfg E) (hH : HermLin c.H) (hE : EighSpec c.numeig c.eigh) (evc psi0 hpsi0 : ℕ → E)
    (o : Out E) (h : solve c evc psi0 hpsi0 = .ok o) :
    ∃ u lam, IsRitz c.H (sub (fun i => c.norm (evc i)) c.numeig) c.numeig u lam ∧ ∀ m < c.numeig, o.evl m ≤ lam m := by
  obtain ⟨-, -, -, s, hs, hl⟩ := solve_loop _ _ _ _ _ h
  obtain ⟨h1, h2⟩ := init_inv c hH hE _ _ _ _ hs
  obtain ⟨C, lam, -, rfl⟩ := solveRed_ok _ _ _ hs
  refine ⟨_, lam, IsRitz.mono h1.ritz ?_ ?_, fun m hm => (loop_result c hH hE _ _ _ h1 _ hl).1 m hm⟩
  · exact sub_mono _ _ _ _ le_rfl fun i hi => by simp [initSt, updateRed, hi]
  · intro m hm
    have := h1.ritz.mem m hm
    exact sub_mono _ _ _ _ (le_of_eq rfl) (fun i hi => by
      have hi' : i < c.numeig := hi
      simp [initSt, updateRed, hi']) this

/-- C71: nor do they fall below the true spectrum: if the Hamiltonian is at least `mu` on everything orthogonal to some
`m` vectors (so its `m`-th eigenvalue is at least `mu`), the `m`-th returned value is at least `mu`. -/
theorem solve_lower_bound (c : Cfg E) (hH : HermLin c.H) (hE : EighSpec c.numeig c.eigh) (evc psi0 hpsi0 : ℕ → E)
    (o : Out E) (h : solve c evc psi0 hpsi0 = .ok o) (m : ℕ) (hm : m < c.numeig) (w : ℕ → E) (mu : ℝ)
    (hmu : ∀ v, (∀ k < m, (inner ℂ (w k) v : ℂ) = 0) → mu * ‖v‖ ^ 2 ≤ (inner ℂ v (c.H v) : ℂ).re) :
    mu ≤ o.evl m := by
  obtain ⟨-, -, -, s, hs, hl⟩ := solve_loop _ _ _ _ _ h
  obtain ⟨h1, h2⟩ := init_inv c hH hE _ _ _ _ hs
  obtain ⟨-, ⟨u, hu⟩, -⟩ := loop_result c hH hE _ _ _ h1 _ hl
  exact hu.minmax hH le_top m hm w mu fun v _ hk => hmu v hk

/-! ## A concrete run

Three orthonormal vectors with energies 0, -1, -3; each iteration adds the next one. -/

section Example

open Classical in
/-- An `eigh` that meets its specification: any right answer, or an error if there is none. -/
noncomputable def someEigh (p n : ℕ) (a b : ℕ → ℕ → ℂ) : Except PyErr ((ℕ → ℕ → ℂ) × (ℕ → ℝ)) :=
  if h : ∃ r : (ℕ → ℕ → ℂ) × (ℕ → ℝ), EighGood p n a b r.1 r.2 then .ok h.choose else .error .linalg

theorem someEigh_spec (p : ℕ) : EighSpec p (someEigh p) := by
  intro n a b C lam _ h
  unfold someEigh at h
  split at h
  · next hx => injection h with h; have := hx.choose_spec; rwa [h] at this
  · cases h

abbrev E3 := EuclideanSpace ℂ (Fin 3)

noncomputable def ev (i : ℕ) : E3 := if h : i < 3 then EuclideanSpace.single ⟨i, h⟩ 1 else 0

noncomputable def dd (i : ℕ) : ℝ := if i = 0 then 0 else if i = 1 then -1 else -3

noncomputable def exH (v : E3) : E3 := WithLp.toLp 2 fun i => (dd i : ℂ) * v i

theorem exH_herm : HermLin exH where
  add x y := by ext i; simp [exH, mul_add]
  smul a x := by ext i; simp [exH]; ring
  symm x y := by
    simp only [exH, PiLp.inner_apply, RCLike.inner_apply]
    refine Finset.sum_congr rfl fun i _ => ?_
    simp only [map_mul, Complex.conj_ofReal]; ring

theorem ev_orth (i j : ℕ) (hi : i < 3) (hj : j < 3) : (inner ℂ (ev i) (ev j) : ℂ) = if i = j then 1 else 0 := by
  simp only [ev, hi, hj, dif_pos]
  rw [EuclideanSpace.inner_single_left]
  simp [Fin.ext_iff]

theorem exH_ev (i : ℕ) (hi : i < 3) : exH (ev i) = (dd i : ℂ) • ev i := by
  ext k
  simp only [exH, ev, hi, dif_pos, PiLp.smul_apply, smul_eq_mul]
  by_cases h : k = ⟨i, hi⟩
  · subst h; simp
  · simp [h]

noncomputable def exCfg (t : ℝ) : Cfg E3 where
  numeig := 1
  numwork := 4
  maxiter := 2
  thr := t
  H := exH
  norm := id
  precond := fun _ lam => if lam = 0 then ev 1 else ev 2
  eigh := someEigh 1

theorem ex_good (n : ℕ) (h1 : 1 ≤ n) (h3 : n ≤ 3) (a b : ℕ → ℕ → ℂ)
    (ha : ∀ i < n, ∀ j < n, hermL a i j = if i = j then (dd j : ℂ) else 0)
    (hb : ∀ i < n, ∀ j < n, hermL b i j = if i = j then 1 else 0) :
    (∃ r : (ℕ → ℕ → ℂ) × (ℕ → ℝ), EighGood 1 n a b r.1 r.2) ∧
      ∀ C lam, EighGood 1 n a b C lam → lam 0 = dd (n - 1) := by
  have sa : ∀ x : ℕ → ℂ, ∀ i < n, ∑ j ∈ Finset.range n, hermL a i j * x j = (dd i : ℂ) * x i := by
    intro x i hi
    rw [Finset.sum_eq_single i]
    · rw [ha i hi i hi, if_pos rfl]
    · intro j hj hne; rw [ha i hi j (Finset.mem_range.mp hj), if_neg (Ne.symm hne), zero_mul]
    · intro hh; exact absurd (Finset.mem_range.mpr hi) hh
  have sb : ∀ x : ℕ → ℂ, ∀ i < n, ∑ j ∈ Finset.range n, hermL b i j * x j = x i := by
    intro x i hi
    rw [Finset.sum_eq_single i]
    · rw [hb i hi i hi, if_pos rfl, one_mul]
    · intro j hj hne; rw [hb i hi j (Finset.mem_range.mp hj), if_neg (Ne.symm hne), zero_mul]
    · intro hh; exact absurd (Finset.mem_range.mpr hi) hh
  have qa : ∀ y x : ℕ → ℂ, ∑ i ∈ Finset.range n, ∑ j ∈ Finset.range n, conj (y i) * hermL a i j * x j =
      ∑ i ∈ Finset.range n, conj (y i) * ((dd i : ℂ) * x i) := by
    intro y x
    refine Finset.sum_congr rfl fun i hi => ?_
    rw [← sa x i (Finset.mem_range.mp hi), Finset.mul_sum]
    exact Finset.sum_congr rfl fun j _ => by ring
  have qb : ∀ y x : ℕ → ℂ, ∑ i ∈ Finset.range n, ∑ j ∈ Finset.range n, conj (y i) * hermL b i j * x j =
      ∑ i ∈ Finset.range n, conj (y i) * x i := by
    intro y x
    refine Finset.sum_congr rfl fun i hi => ?_
    rw [← sb x i (Finset.mem_range.mp hi), Finset.mul_sum]
    exact Finset.sum_congr rfl fun j _ => by ring
  have hdd : ∀ i < n, dd (n - 1) ≤ dd i := by
    intro i hi
    interval_cases n <;> interval_cases i <;> norm_num [dd]
  have hsum : ∀ x : ℕ → ℂ, (∑ i ∈ Finset.range n, conj (x i) * x i).re = ∑ i ∈ Finset.range n, ‖x i‖ ^ 2 := by
    intro x
    rw [Complex.re_sum]
    refine Finset.sum_congr rfl fun i _ => ?_
    rw [Complex.conj_mul', ← Complex.ofReal_pow, Complex.ofReal_re]
  have hsuma : ∀ x : ℕ → ℂ, (∑ i ∈ Finset.range n, conj (x i) * ((dd i : ℂ) * x i)).re =
      ∑ i ∈ Finset.range n, dd i * ‖x i‖ ^ 2 := by
    intro x
    rw [Complex.re_sum]
    refine Finset.sum_congr rfl fun i _ => ?_
    rw [mul_left_comm, Complex.conj_mul', ← Complex.ofReal_pow, ← Complex.ofReal_mul, Complex.ofReal_re]
  have hmem : n - 1 ∈ Finset.range n := Finset.mem_range.mpr (by omega)
  refine ⟨⟨(fun _ j => if j = n - 1 then 1 else 0, fun _ => dd (n - 1)), fun m hm i hi => ?_, fun m hm k hk => ?_,
    fun m hm x _ => ?_⟩, fun C lam hg => ?_⟩
  · rw [sa _ i hi, sb _ i hi]
    simp only
    split
    · next h => rw [h]
    · simp
  · rw [qb, Finset.sum_eq_single (n - 1)]
    · have : m = k := by omega
      simp [this]
    · intro j _ hne; simp [hne]
    · intro hh; exact absurd hmem hh
  · rw [qb, qa, hsum, hsuma, Finset.mul_sum]
    refine Finset.sum_le_sum fun i hi => ?_
    exact mul_le_mul_of_nonneg_right (hdd i (Finset.mem_range.mp hi)) (by positivity)
  · obtain ⟨g1, g2, g3⟩ := hg
    refine le_antisymm ?_ ?_
    · have := g3 0 (by omega) (fun j => if j = n - 1 then 1 else 0) (by simp)
      rw [qb, qa, hsum, hsuma, Finset.sum_eq_single (n - 1), Finset.sum_eq_single (n - 1)] at this
      · simpa using this
      · intro j _ hne; simp [hne]
      · intro hh; exact absurd hmem hh
      · intro j _ hne; simp [hne]
      · intro hh; exact absurd hmem hh
    · have hne : ∃ i ∈ Finset.range n, C 0 i ≠ 0 := by
        by_contra hall
        push Not at hall
        have := g2 0 (by omega) 0 (by omega)
        rw [qb, Finset.sum_eq_zero (fun i hi => by rw [hall i hi, mul_zero])] at this
        simp at this
      obtain ⟨i, hi, hCi⟩ := hne
      have := g1 0 (by omega) i (Finset.mem_range.mp hi)
      rw [sa _ i (Finset.mem_range.mp hi), sb _ i (Finset.mem_range.mp hi)] at this
      have h2 := mul_right_cancel₀ hCi this
      have h3 : dd i = lam 0 := by exact_mod_cast h2
      rw [← h3]
      exact hdd i (Finset.mem_range.mp hi)

/-- State of the example with `n` vectors. -/
structure ExSt (t : ℝ) (n : ℕ) (s : St E3) : Prop where
  red : RedOK (exCfg t) s
  ndim : s.ndim = n
  nun : s.nun = 1
  flag : s.flag 0 = true
  psi : ∀ i < n, s.psi i = ev i

theorem ex_red (t : ℝ) (n : ℕ) (h1 : 1 ≤ n) (h3 : n ≤ 3) (s : St E3) (hr : RedOK (exCfg t) s) (hn : s.ndim = n)
    (hp : ∀ i < n, s.psi i = ev i) : ∃ s', solveRed (exCfg t) s = .ok s' ∧ s'.evlR 0 = dd (n - 1) := by
  subst hn
  obtain ⟨g1, g2⟩ := ex_good s.ndim h1 h3 s.ham s.ovl
    (fun i hi j hj => by
      rw [hr.ham i hi j hj, hp i hi, hp j hj]
      change (inner ℂ (ev i) (exH (ev j)) : ℂ) = _
      rw [exH_ev j (by omega), inner_smul_right, ev_orth i j (by omega) (by omega)]
      split <;> simp)
    (fun i hi j hj => by rw [hr.ovl i hi j hj, hp i hi, hp j hj, ev_orth i j (by omega) (by omega)])
  have he : (exCfg t).eigh s.ndim s.ham s.ovl = .ok g1.choose := by
    change someEigh 1 _ _ _ = _
    unfold someEigh
    rw [dif_pos g1]
  obtain ⟨s', hs⟩ : ∃ s', solveRed (exCfg t) s = .ok s' := by
    unfold solveRed
    rw [he]
    exact ⟨_, rfl⟩
  obtain ⟨C, lam, hC, rfl⟩ := solveRed_ok _ _ _ hs
  rw [he] at hC
  injection hC with hC
  have := g2 _ _ g1.choose_spec
  rw [hC] at this
  exact ⟨_, hs, this⟩

theorem ex_body (t : ℝ) (n : ℕ) (h1 : 1 ≤ n) (h3 : n ≤ 2) (s : St E3) (hs : ExSt t n s) (hl : s.evlR 0 = dd (n - 1))
    (hv : s.evl 0 = dd (n - 1)) :
    ∃ s2, body (exCfg t) s = .ok (checkConv (exCfg t) s2) ∧ RedOK (exCfg t) s2 ∧ s2.ndim = n + 1 ∧
      (∀ i < n + 1, s2.psi i = ev i) ∧ s2.evlR 0 = dd n ∧ s2.evl 0 = dd (n - 1) := by
  have hrows : (unconvRows (exCfg t).numeig s.flag).getD 0 0 = 0 := by
    simp [unconvRows, exCfg, hs.flag]
  have hle : ¬ (exCfg t).numwork * (exCfg t).numeig < (moveUnconv (exCfg t) s).ndim + (moveUnconv (exCfg t) s).nun := by
    simp only [moveUnconv, exCfg, hs.ndim, hs.nun]; omega
  obtain ⟨s1, hs1⟩ : ∃ s1, expandPsi (exCfg t) (moveUnconv (exCfg t) s) = .ok s1 := by
    unfold expandPsi; rw [if_neg hle]; exact ⟨_, rfl⟩
  have hpsi : s1.psi n = ev n := by
    have h := hs1
    unfold expandPsi at h
    rw [if_neg hle] at h
    injection h with h
    rw [← h]
    simp only [moveUnconv, hs.ndim, hs.nun, exCfg, id]
    rw [if_pos (by omega)]
    simp only [Nat.sub_self, Nat.lt_one_iff, if_true]
    have : s.evlR ((unconvRows 1 s.flag).getD 0 0) = dd (n - 1) := by
      have : (unconvRows 1 s.flag).getD 0 0 = 0 := hrows
      rw [this, hl]
    rw [this]
    interval_cases n <;> norm_num [dd]
  obtain ⟨r1, p1, n1, v1, w1, u1⟩ := redOK_update (exCfg t) exH_herm s s1 hs.red hs1
  have hn1 : (updateRed s1).ndim = n + 1 := by simp only [updateRed, n1, hs.ndim, hs.nun]
  have hp1 : ∀ i < n + 1, (updateRed s1).psi i = ev i := by
    intro i hi
    change s1.psi i = ev i
    by_cases h : i < n
    · rw [p1 i (by rw [hs.ndim]; exact h), hs.psi i h]
    · have : i = n := by omega
      rw [this, hpsi]
  obtain ⟨s2, hs2, hv2⟩ := ex_red t (n + 1) (by omega) (by omega) _ r1 hn1 hp1
  obtain ⟨C, lam, hC, hs2'⟩ := solveRed_ok _ _ _ hs2
  have hb : body (exCfg t) s = .ok (checkConv (exCfg t) s2) := by
    unfold body
    rw [hs1]
    simp only
    rw [hs2]
  have e2 : s2.evl 0 = dd (n - 1) := by rw [hs2']; simp only [updateRed]; rw [v1, hv]
  refine ⟨s2, hb, ?_, ?_, ?_, hv2, e2⟩
  · rw [hs2']; exact ⟨r1.hpsi, r1.ham, r1.ovl⟩
  · rw [hs2']; exact hn1
  · rw [hs2']; exact hp1

theorem ex_body_unconv (n : ℕ) (h1 : 1 ≤ n) (h3 : n ≤ 2) (s : St E3) (hs : ExSt (1 / 2) n s)
    (hl : s.evlR 0 = dd (n - 1)) (hv : s.evl 0 = dd (n - 1)) :
    ∃ s', body (exCfg (1 / 2)) s = .ok s' ∧ ExSt (1 / 2) (n + 1) s' ∧ s'.evlR 0 = dd n ∧ s'.evl 0 = dd n := by
  obtain ⟨s2, hb, r2, n2, p2, l2, v2⟩ := ex_body (1 / 2) n h1 h3 s hs hl hv
  have hflag : (1 / 2 : ℝ) < |s2.evlR 0 - s2.evl 0| := by
    rw [l2, v2]
    interval_cases n <;> norm_num [dd, abs_of_neg]
  refine ⟨_, hb, ⟨⟨r2.hpsi, r2.ham, r2.ovl⟩, n2, ?_, ?_, p2⟩, l2, l2⟩
  · simp only [checkConv, unconvRows, exCfg]
    rw [List.range_one, List.filter_cons_of_pos (by simpa using hflag)]
    rfl
  · simpa [checkConv, exCfg] using hflag

theorem ex_init (t : ℝ) : ∃ s0, solveRed (exCfg t) (initSt (exCfg t) (fun _ => ev 0) (fun _ => 0) (fun _ => 0)) = .ok s0 ∧
    ExSt t 1 { s0 with evl := s0.evlR } ∧ s0.evlR 0 = dd 0 := by
  have hr := redOK_init (exCfg t) exH_herm (fun _ => ev 0) (fun _ => 0) (fun _ => 0)
  obtain ⟨s0, h0, hv0⟩ := ex_red t 1 le_rfl (by omega) _ hr rfl (fun i hi => by
    have : i = 0 := by omega
    subst this
    simp [initSt, updateRed, exCfg])
  obtain ⟨C, lam, hC, hs0⟩ := solveRed_ok _ _ _ h0
  refine ⟨s0, h0, ?_, hv0⟩
  rw [hs0]
  exact ⟨⟨hr.hpsi, hr.ham, hr.ovl⟩, rfl, rfl, rfl, fun i hi => by
    have : i = 0 := by omega
    subst this
    simp [initSt, updateRed, exCfg]⟩

/-- C44, C71: the hypotheses are met by a run that converges. -/
example : HermLin (exCfg 5).H ∧ EighSpec (exCfg 5).numeig (exCfg 5).eigh ∧
    ∃ o, solve (exCfg 5) (fun _ => ev 0) (fun _ => 0) (fun _ => 0) = .ok o ∧ o.converged = true ∧ o.evl 0 = -1 := by
  refine ⟨exH_herm, someEigh_spec 1, ?_⟩
  obtain ⟨s0, h0, hst, hv0⟩ := ex_init 5
  obtain ⟨s2, hb, -, -, -, l2, v2⟩ := ex_body 5 1 le_rfl (by omega) _ hst hv0 hv0
  have h0' : (checkConv (exCfg 5) s2).nun = 0 := by
    simp only [checkConv, unconvRows, exCfg]
    rw [List.range_one, List.filter_cons_of_neg]
    · rfl
    · rw [l2, v2]; norm_num [dd, abs_of_neg]
  have hsolve : solve (exCfg 5) (fun _ => ev 0) (fun _ => 0) (fun _ => 0) =
      .ok ⟨(rotate (checkConv (exCfg 5) s2)).evc, (rotate (checkConv (exCfg 5) s2)).evl, 1, true,
        rotate (checkConv (exCfg 5) s2)⟩ := by
    unfold solve
    rw [if_neg (by norm_num [exCfg]), h0]
    change loop (exCfg 5) (1 + 1) 0 _ = _
    simp only [loop]
    rw [hb]
    simp only
    rw [if_pos h0']
  refine ⟨_, hsolve, rfl, ?_⟩
  change s2.evlR 0 = -1
  rw [l2]; norm_num [dd]

/-- C44, violated part, concrete: a Hermitian problem and a correct `eigh` for which the solver, at its iteration limit,
returns the value -3 with a vector whose expectation value is 0. -/
theorem solve_mismatch_violated : HermLin (exCfg (1 / 2)).H ∧ EighSpec (exCfg (1 / 2)).numeig (exCfg (1 / 2)).eigh ∧
    ∃ o, solve (exCfg (1 / 2)) (fun _ => ev 0) (fun _ => 0) (fun _ => 0) = .ok o ∧ o.converged = false ∧ o.evl 0 = -3 ∧
      o.evc 0 = ev 0 ∧ (inner ℂ (o.evc 0) ((exCfg (1 / 2)).H (o.evc 0)) : ℂ) = 0 := by
  refine ⟨exH_herm, someEigh_spec 1, ?_⟩
  obtain ⟨s0, h0, hst, hv0⟩ := ex_init (1 / 2)
  obtain ⟨s1, hb1, hs1, hl1, hv1⟩ := ex_body_unconv 1 le_rfl (by omega) _ hst hv0 hv0
  obtain ⟨s2, hb2, hs2, hl2, hv2⟩ := ex_body_unconv 2 (by omega) le_rfl _ hs1 hl1 hv1
  have hloop : loop (exCfg (1 / 2)) 2 0 { s0 with evl := s0.evlR } = .ok ⟨s2.evc, s2.evl, 2, false, s2⟩ := by
    simp only [loop]
    rw [hb1]
    simp only
    rw [if_neg (by rw [hs1.nun]; omega), if_neg (by rw [hs1.nun, hs1.ndim]; simp [exCfg]), hb2]
    simp only
    rw [if_neg (by rw [hs2.nun]; omega), if_neg (by rw [hs2.nun, hs2.ndim]; simp [exCfg])]
  have hsolve : solve (exCfg (1 / 2)) (fun _ => ev 0) (fun _ => 0) (fun _ => 0) = .ok ⟨s2.evc, s2.evl, 2, false, s2⟩ := by
    unfold solve
    rw [if_neg (by norm_num [exCfg]), h0]
    exact hloop
  have hevc : s2.evc = fun _ => ev 0 := solve_unconverged_stale _ _ _ _ _ hsolve rfl (by simp [exCfg])
  refine ⟨_, hsolve, rfl, show s2.evl 0 = -3 by rw [hv2]; norm_num [dd], by rw [hevc], ?_⟩
  simp only [hevc]
  change (inner ℂ (ev 0) (exH (ev 0)) : ℂ) = 0
  rw [exH_ev 0 (by omega)]
  simp [dd]

end Example

end Verif.Davidson
