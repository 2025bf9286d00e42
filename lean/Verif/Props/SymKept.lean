import Verif.Props.TransScf
import Verif.Props.SCF

/-!
# Property C217: a symmetric start stays symmetric
-/

namespace Verif.TransScf

open Verif.Mixing (St Cfg Method Isometry act)
open Verif.SCF (Env)

variable {s n : ℕ} {W V M : Type}

/-- A density is unchanged by a symmetry: `G`-component `σ j` of component `π k` is `ω` times component `j` of `k`. -/
def Symmetric (ω : Fin (n + 1) → ℂ) (σ : Equiv.Perm (Fin (n + 1))) (π : Equiv.Perm (Fin s)) (rho : Dens s n) : Prop :=
  act ω σ π rho = rho

/-- **C217.** If the operation is a symmetry of the crystal and the settings (each thing the driver calls does on transformed arguments what it did
on the original ones), a run from a symmetric density with wavefunctions that are their own image ends, for every iteration limit - so in every
iteration -, with a symmetric density, both the one used and the caller's, and with wavefunctions that are their own image. -/
theorem C217_symmetry_kept {ω : Fin (n + 1) → ℂ} {σ : Equiv.Perm (Fin (n + 1))} {π : Equiv.Perm (Fin s)} {RW : W → W → Prop} {RV : V → V → Prop}
    {RM : M → M → Prop} {e : Env s n W V M} (t : Twin ω σ π RW RV RM e e) (h0 : FixesG0 ω σ) (maxiter : ℕ) (rho : Dens s n)
    (hr : Symmetric ω σ π rho) (w : W) (hw : RW w w) (mx : M) (hm : RM mx mx) (r) (h : SCF.scf e maxiter rho w mx = .ok r) :
    Symmetric ω σ π r.st.rho ∧ Symmetric ω σ π r.st.caller ∧ RW r.st.w r.st.w := by
  have k := C182_scf_covariant t h0 maxiter rho w w hw mx mx hm
  rw [show act ω σ π rho = rho from hr, h] at k
  exact ⟨k.2.2.2.1.symm, k.2.2.2.2.1.symm, k.2.2.2.2.2⟩

theorem loop_prefix (e : Env s n W V M) : ∀ (m idx : ℕ) (st : SCF.St s n W M) (r : SCF.Res s n W M), SCF.loop e m idx st = .ok r →
    ∀ k ≤ m, ∃ r', SCF.loop e k idx st = .ok r' ∧ r'.trace = r.trace.take k ∧ (r'.converged = true ↔ r.converged = true ∧ r.trace.length ≤ k) ∧
      (r.trace.length ≤ k → r' = r)
  | 0, idx, st, r, h, k, hk => by
    obtain rfl : k = 0 := by omega
    obtain rfl := Except.ok.inj h
    exact ⟨_, rfl, rfl, by simp, fun _ => rfl⟩
  | m + 1, idx, st, r, h, 0, hk => by
    refine ⟨⟨false, st, []⟩, rfl, by simp, ?_, ?_⟩
    all_goals
      unfold SCF.loop at h
      split at h
      · cases h
      · split at h
        · obtain rfl := Except.ok.inj h
          simp
        · split at h
          · cases h
          · obtain rfl := Except.ok.inj h
            simp
  | m + 1, idx, st, r, h, k + 1, hk => by
    unfold SCF.loop at h ⊢
    split at h
    · cases h
    · next st' rep hs =>

      split at h
      · next hc =>
        obtain rfl := Except.ok.inj h
        rw [if_pos hc]
        exact ⟨_, rfl, by simp, by simp, fun _ => rfl⟩
      · next hc =>
        rw [if_neg hc]
        split at h
        · cases h
        · next res hl =>
          obtain rfl := Except.ok.inj h
          obtain ⟨r', q1, q2, q3, q4⟩ := loop_prefix e m (idx + 1) st' res hl k (by omega)
          rw [q1]
          refine ⟨_, rfl, by simp [q2], by simpa using q3, fun hlen => ?_⟩
          rw [q4 (by simpa using hlen)]

/-- **C217 (iteration limit).** With a smaller iteration limit `k` the same run stops earlier: it succeeds, its reports are the first `k` ones, and if the
longer run needed no more than `k` iterations the result is the same. -/
theorem C217_prefix (e : Env s n W V M) (m : ℕ) (rho : Dens s n) (w : W) (mx : M) (r) (h : SCF.scf e m rho w mx = .ok r) (k : ℕ) (hk : k ≤ m) :
    ∃ r', SCF.scf e k rho w mx = .ok r' ∧ r'.trace = r.trace.take k ∧ (r'.converged = true ↔ r.converged = true ∧ r.trace.length ≤ k) ∧
      (r.trace.length ≤ k → r' = r) := by
  obtain ⟨h1, h2, h3⟩ := SCF.scf_path e m rho w mx r h
  obtain ⟨r', q⟩ := loop_prefix e m 0 _ r h3 k hk
  refine ⟨r', ?_, q.2⟩
  unfold SCF.scf
  rw [if_neg (not_not.2 h1), if_neg (not_not.2 h2)]
  exact q.1

/-- **C217 (every iteration).** In a run of `m` iterations from a symmetric density, the run stopped after any `k ≤ m` iterations has made the same first
`k` reports and holds a symmetric density. -/
theorem C217_each_iteration {ω : Fin (n + 1) → ℂ} {σ : Equiv.Perm (Fin (n + 1))} {π : Equiv.Perm (Fin s)} {RW : W → W → Prop} {RV : V → V → Prop}
    {RM : M → M → Prop} {e : Env s n W V M} (t : Twin ω σ π RW RV RM e e) (h0 : FixesG0 ω σ) (rho : Dens s n)
    (hr : Symmetric ω σ π rho) (w : W) (hw : RW w w) (mx : M) (hm : RM mx mx) (m : ℕ) (r) (h : SCF.scf e m rho w mx = .ok r) :
    ∀ k ≤ m, ∃ r', SCF.scf e k rho w mx = .ok r' ∧ r'.trace = r.trace.take k ∧ Symmetric ω σ π r'.st.rho := by
  intro k hk
  obtain ⟨r', q1, q2, _⟩ := C217_prefix e m rho w mx r h k hk
  exact ⟨r', q1, q2, (C217_symmetry_kept t h0 k rho hr w hw mx hm r' q1).1⟩

/-- **C217 (mixers).** Both mixers are their own image from the beginning, for every symmetry of the lattice, spin exchange included. -/
theorem C217_mixers (m : Method) (c : Cfg (n + 1)) (hm : 1 < c.mixdim) (ω : Fin (n + 1) → ℂ) (σ : Equiv.Perm (Fin (n + 1))) (π : Equiv.Perm (Fin s))
    (h : Isometry c ω σ) (st : St s (n + 1)) (h0 : st.idx = 0) : SameHistory m c ω σ π st st :=
  (C182_mixers m c hm ω σ π h).1 st st h0 h0

/-- The environment of the example: densities on two G-vectors, moved by half a lattice vector; the density of the states has only the first. -/
noncomputable def exEnv : Env 1 1 Unit Unit (St 1 2) :=
  ⟨false, 1, 1, 1, 1, false, 0, id, fun _ => (), fun _ => 0, fun _ => 0, fun _ _ => 0, fun _ _ _ => (), fun _ => 0, fun _ => 0,
    fun _ _ i => if i = 0 then 1 else 0, Mixing.computeError Mixing.exCfg, mixer .mod Mixing.exCfg⟩

/-- The hypotheses of C217 hold for it with a start of two electrons and nothing else, which the operation keeps; a density with another component is
not kept. -/
example : FixesG0 (n := 1) ![1, -1] 1 ∧ Symmetric (s := 1) (n := 1) ![1, -1] 1 1 (fun _ => ![2, 0]) ∧
    ¬ Symmetric (s := 1) (n := 1) ![1, -1] 1 1 (fun _ => ![2, 1]) ∧
    Twin (s := 1) (n := 1) ![1, -1] 1 1 (fun _ _ : Unit => True) (fun _ _ : Unit => True) (SameHistory .mod Mixing.exCfg ![1, -1] 1 1) exEnv exEnv := by
  refine ⟨⟨rfl, rfl⟩, ?_, ?_, ?_⟩
  · funext k i
    fin_cases i <;> simp [act]
  · intro h
    have := congrFun (congrFun h 0) 1
    simp [act] at this
    norm_num [Complex.ext_iff] at this
  have hi : Isometry Mixing.exCfg ![1, -1] 1 := ⟨fun i => by fin_cases i <;> simp, fun _ => rfl, fun _ => Iff.rfl⟩
  obtain ⟨-, h2, h3⟩ := C182_mixers (s := 1) .mod Mixing.exCfg (by decide) ![1, -1] 1 1 hi
  refine ⟨⟨rfl, rfl, rfl, rfl, rfl, rfl⟩, rfl, fun _ => rfl, fun _ => trivial, fun _ => rfl, fun _ => rfl, fun _ _ _ _ => rfl,
    fun _ _ _ _ _ _ _ => trivial, fun _ _ _ => rfl, fun _ _ _ => rfl, fun _ _ _ => ?_, h2, fun mx mx' a b hh => ?_⟩
  · funext k i
    fin_cases i <;> simp [act, exEnv]
  · have q := h3 mx mx' a b hh
    dsimp only [exEnv]
    revert q
    generalize mixer .mod Mixing.exCfg mx a b = o
    generalize mixer .mod Mixing.exCfg mx' _ _ = o'
    cases o <;> cases o' <;> exact id

end Verif.TransScf
