import Verif.Props.SymmMix
import Verif.Model.SCF

/-!
# C182: the self-consistent-field run of a translated (or otherwise equivalent) crystal
-/

namespace Verif.TransScf

open scoped ComplexConjugate
open Verif.SCF (Env Energy Report Res MixOut)

variable {s n : ℕ}

/-- Densities with a first G-vector. -/
abbrev Dens (s n : ℕ) := Fin s → Fin (n + 1) → ℂ

/-- Two calculations, `e'` the one of the crystal moved so that a density `rho` becomes `act ω σ π rho`: `RW` relates wavefunctions (with eigenvalues and occupations), `RV` potentials, `RM` mixers of the two.
The settings are the same, and each of the things the driver calls does on the moved arguments what it did on the original ones. (C179: the Hamiltonian, hence an exact eigen-solver; C180: the mixer,
C181: the potentials; C84: the Ewald energy; C31: the symmetriser.) -/
structure Twin {W W' V V' M M' : Type} (ω : Fin (n + 1) → ℂ) (σ : Equiv.Perm (Fin (n + 1))) (π : Equiv.Perm (Fin s)) (RW : W → W' → Prop) (RV : V → V' → Prop) (RM : M → M' → Prop)
    (e : Env s n W V M) (e' : Env s n W' V' M') : Prop where
  set : e'.symmRho = e.symmRho ∧ e'.numel = e.numel ∧ e'.dv = e.dv ∧ e'.convThr = e.convThr ∧ e'.diagoInit = e.diagoInit ∧ e'.isSmear = e.isSmear
  ewald : e'.ewald = e.ewald
  symm : ∀ rho, e'.symm (Mixing.act ω σ π rho) = Mixing.act ω σ π (e.symm rho)
  pot : ∀ rho, RV (e.pot rho) (e'.pot (Mixing.act ω σ π rho))
  hartree : ∀ rho, e'.hartree (Mixing.act ω σ π rho) = e.hartree rho
  xc : ∀ rho, e'.xc (Mixing.act ω σ π rho) = e.xc rho
  pair : ∀ v v' rho, RV v v' → e'.pair v' (Mixing.act ω σ π rho) = e.pair v rho
  solve : ∀ w w' v v' thr, RW w w' → RV v v' → RW (e.solve w v thr) (e'.solve w' v' thr)
  eig : ∀ w w', RW w w' → e'.eig w' = e.eig w
  smear : ∀ w w', RW w w' → e'.smear w' = e.smear w
  rhoWfn : ∀ w w', RW w w' → e'.rhoWfn w' = Mixing.act ω σ π (e.rhoWfn w)
  err : ∀ a b, e'.err (Mixing.act ω σ π a) (Mixing.act ω σ π b) = e.err a b
  mix : ∀ mx mx' a b, RM mx mx' → match e.mix mx a b, e'.mix mx' (Mixing.act ω σ π a) (Mixing.act ω σ π b) with
    | .ok o, .ok o' => RM o.mx o'.mx ∧ o'.rho = Mixing.act ω σ π o.rho ∧ o'.arg = Mixing.act ω σ π o.arg ∧ o'.same = o.same
    | .error x, .error x' => x' = x
    | _, _ => False

/-- `G = 0` is the first G-vector and does not move. -/
def FixesG0 (ω : Fin (n + 1) → ℂ) (σ : Equiv.Perm (Fin (n + 1))) : Prop := ω 0 = 1 ∧ σ 0 = 0

section
variable {W W' V V' M M' : Type} {ω : Fin (n + 1) → ℂ} {σ : Equiv.Perm (Fin (n + 1))} {π : Equiv.Perm (Fin s)} {RW : W → W' → Prop} {RV : V → V' → Prop} {RM : M → M' → Prop}
  {e : Env s n W V M} {e' : Env s n W' V' M'}

theorem normalize_act (h : FixesG0 ω σ) (numel dv : ℝ) (rho : Dens s n) : SCF.normalize numel dv (Mixing.act ω σ π rho) = Mixing.act ω σ π (SCF.normalize numel dv rho) := by
  have hs : ∑ j, SCF.g0 (Mixing.act ω σ π rho) j = ∑ j, SCF.g0 rho j := by
    unfold SCF.g0 Mixing.act
    simp only [h.1, h.2, one_mul]
    exact Equiv.sum_comp π fun j => rho j 0
  funext k i
  unfold SCF.normalize
  rw [hs]
  unfold Mixing.act
  ring

theorem sym_act (t : Twin ω σ π RW RV RM e e') (rho : Dens s n) : e'.sym (Mixing.act ω σ π rho) = Mixing.act ω σ π (e.sym rho) := by
  unfold Env.sym
  rw [t.set.1]
  split
  · exact t.symm rho
  · rfl

theorem energy_act (t : Twin ω σ π RW RV RM e e') (w : W) (w' : W') (hw : RW w w') (a b : Dens s n) : e'.energy w' (Mixing.act ω σ π a) (Mixing.act ω σ π b) = e.energy w a b := by
  unfold Env.energy
  simp only [t.pair _ _ _ (t.pot a), t.hartree, t.xc, t.ewald, t.eig w w' hw, t.smear w w' hw, t.set.2.2.2.2.2]

/-- The loop variables of the two runs. -/
structure Rel (ω : Fin (n + 1) → ℂ) (σ : Equiv.Perm (Fin (n + 1))) (π : Equiv.Perm (Fin s)) (RW : W → W' → Prop) (RM : M → M' → Prop) (a : SCF.St s n W M) (a' : SCF.St s n W' M') : Prop where
  rho : a'.rho = Mixing.act ω σ π a.rho
  caller : a'.caller = Mixing.act ω σ π a.caller
  own : a'.own = a.own
  w : RW a.w a'.w
  mx : RM a.mx a'.mx
  thr : a'.thr = a.thr
  en : a'.en = a.en

theorem step_act (t : Twin ω σ π RW RV RM e e') (h0 : FixesG0 ω σ) (idx : ℕ) (a : SCF.St s n W M) (a' : SCF.St s n W' M') (h : Rel ω σ π RW RM a a') :
    match SCF.step e idx a, SCF.step e' idx a' with
    | .ok r, .ok r' => Rel ω σ π RW RM r.1 r'.1 ∧ r'.2 = r.2
    | .error x, .error x' => x' = x
    | _, _ => False := by
  have hthr := h.thr
  have hprep : e'.prep a'.rho = Mixing.act ω σ π (e.prep a.rho) := by
    unfold Env.prep
    rw [h.rho, sym_act t, t.set.2.1, t.set.2.2.1, normalize_act h0]
  have hw : RW (e.solve a.w (e.pot (e.prep a.rho)) a.thr) (e'.solve a'.w (e'.pot (e'.prep a'.rho)) a'.thr) := by
    rw [hprep, h.thr]
    exact t.solve _ _ _ _ _ h.w (t.pot _)
  have hout : e'.rhoOut (e'.solve a'.w (e'.pot (e'.prep a'.rho)) a'.thr) = Mixing.act ω σ π (e.rhoOut (e.solve a.w (e.pot (e.prep a.rho)) a.thr)) := by
    unfold Env.rhoOut
    rw [t.rhoWfn _ _ hw, t.set.2.1, t.set.2.2.1, normalize_act h0, sym_act t]
  have herr : e'.err (e'.prep a'.rho) (e'.rhoOut (e'.solve a'.w (e'.pot (e'.prep a'.rho)) a'.thr)) = e.err (e.prep a.rho) (e.rhoOut (e.solve a.w (e.pot (e.prep a.rho)) a.thr)) := by
    rw [hout, hprep]
    exact t.err _ _
  have hcaller : (if (a'.own && !e'.symmRho) = true then e'.prep a'.rho else a'.caller) = Mixing.act ω σ π (if (a.own && !e.symmRho) = true then e.prep a.rho else a.caller) := by
    rw [h.own, t.set.1, hprep, h.caller]
    split <;> rfl
  have hown : (a'.own && !e'.symmRho) = (a.own && !e.symmRho) := by rw [h.own, t.set.1]
  unfold SCF.step
  simp only [herr, t.set.2.2.2.1]
  by_cases hc : e.err (e.prep a.rho) (e.rhoOut (e.solve a.w (e.pot (e.prep a.rho)) a.thr)) < e.convThr
  · simp only [hc, if_true]
    have he := energy_act t _ _ hw (e.prep a.rho) (e.prep a.rho)
    rw [← hprep] at he
    refine ⟨⟨hprep, hcaller, hown, hw, h.mx, h.thr, he⟩, ?_⟩
    rw [he, h.thr]
  · simp only [hc, if_false]
    have he := energy_act t _ _ hw (e.prep a.rho) (e.rhoOut (e.solve a.w (e.pot (e.prep a.rho)) a.thr))
    rw [← hprep, ← hout] at he
    simp only [he, t.set.2.1]
    by_cases hi : idx = 0 ∧ e.err (e.prep a.rho) (e.rhoOut (e.solve a.w (e.pot (e.prep a.rho)) a.thr)) < a.thr * e.numel
    · simp only [hthr, hi, and_self, if_true]
      refine ⟨⟨hprep, hcaller, hown, ?_, h.mx, rfl, rfl⟩, True.intro⟩
      rw [hthr] at hw
      exact hw
    · have hi' : ¬ (idx = 0 ∧ e.err (e.prep a.rho) (e.rhoOut (e.solve a.w (e.pot (e.prep a.rho)) a.thr)) < a'.thr * e.numel) := by rw [hthr]; exact hi
      rw [if_neg hi, if_neg hi']
      have hm := t.mix _ _ (e.prep a.rho) (e.rhoOut (e.solve a.w (e.pot (e.prep a.rho)) a.thr)) h.mx
      rw [← hprep, ← hout] at hm
      revert hm
      generalize e.mix a.mx _ _ = o
      generalize e'.mix a'.mx _ _ = o'
      intro hm
      cases o with
      | error x =>
        cases o' with
        | error x' => exact hm
        | ok _ => exact hm.elim
      | ok o =>
        cases o' with
        | error x' => exact hm.elim
        | ok o' =>
          obtain ⟨m1, m2, m3, m4⟩ := hm
          refine ⟨⟨?_, ?_, ?_, hw, m1, by rw [hthr], rfl⟩, by rw [hthr]⟩
          · show e'.sym o'.rho = _
            rw [m2, sym_act t]
          · show (if (a'.own && !e'.symmRho) = true then o'.arg else _) = _
            rw [hcaller, hown, m3]
            show _ = Mixing.act ω σ π (if (a.own && !e.symmRho) = true then o.arg else _)
            split <;> rfl
          · show (a'.own && !e'.symmRho && o'.same && !e'.symmRho) = (a.own && !e.symmRho && o.same && !e.symmRho)
            rw [hown, m4, t.set.1]

theorem loop_act (t : Twin ω σ π RW RV RM e e') (h0 : FixesG0 ω σ) : ∀ (fuel idx : ℕ) (a : SCF.St s n W M) (a' : SCF.St s n W' M'), Rel ω σ π RW RM a a' →
    match SCF.loop e fuel idx a, SCF.loop e' fuel idx a' with
    | .ok r, .ok r' => r'.converged = r.converged ∧ r'.trace = r.trace ∧ Rel ω σ π RW RM r.st r'.st
    | .error x, .error x' => x' = x
    | _, _ => False
  | 0, _, _, _, h => ⟨rfl, rfl, h⟩
  | fuel + 1, idx, a, a', h => by
    have hs := step_act t h0 idx a a' h
    unfold SCF.loop
    revert hs
    generalize SCF.step e idx a = r
    generalize SCF.step e' idx a' = r'
    intro hs
    cases r with
    | error x =>
      cases r' with
      | error x' => exact hs
      | ok _ => exact hs.elim
    | ok r =>
      cases r' with
      | error x' => exact hs.elim
      | ok r' =>
        obtain ⟨st, rep⟩ := r
        obtain ⟨st', rep'⟩ := r'
        obtain ⟨hr, he⟩ := hs
        simp only at hr he
        subst he
        dsimp only
        by_cases hc : rep'.converged = true
        · rw [if_pos hc, if_pos hc]
          exact ⟨rfl, rfl, hr⟩
        · rw [if_neg hc, if_neg hc]
          have ih := loop_act t h0 fuel (idx + 1) st st' hr
          revert ih
          generalize SCF.loop e fuel (idx + 1) st = q
          generalize SCF.loop e' fuel (idx + 1) st' = q'
          intro ih
          cases q with
          | error x =>
            cases q' with
            | error x' => exact ih
            | ok _ => exact ih.elim
          | ok q =>
            cases q' with
            | error x' => exact ih.elim
            | ok q' => exact ⟨ih.1, by rw [ih.2.1], ih.2.2⟩

/-- **C182.** A crystal moved (rotated, with spin up and down exchanged) as a whole, started from the moved density: the run makes the same reports — the same errors, thresholds and energies in every
iteration, hence the same total energy — converges or not in the same iteration, or fails with the same error, and the densities it ends with (the one used and the caller's) are the moved ones. -/
theorem C182_scf_covariant (t : Twin ω σ π RW RV RM e e') (h0 : FixesG0 ω σ) (maxiter : ℕ) (rho : Dens s n) (w : W) (w' : W') (hw : RW w w') (mx : M) (mx' : M') (hm : RM mx mx') :
    match SCF.scf e maxiter rho w mx, SCF.scf e' maxiter (Mixing.act ω σ π rho) w' mx' with
    | .ok r, .ok r' => r'.converged = r.converged ∧ r'.trace = r.trace ∧ r'.st.en = r.st.en ∧ r'.st.rho = Mixing.act ω σ π r.st.rho ∧ r'.st.caller = Mixing.act ω σ π r.st.caller ∧ RW r.st.w r'.st.w
    | .error x, .error x' => x' = x
    | _, _ => False := by
  unfold SCF.scf
  rw [t.set.2.2.2.1, t.set.2.2.2.2.1]
  by_cases h1 : 0 < e.convThr
  · by_cases h2 : 0 < e.diagoInit
    · simp only [h1, h2, not_true, if_false]
      have hen : e'.en0 = e.en0 := by
        unfold Env.en0
        rw [t.ewald, t.set.2.2.2.2.2]
      have hl := loop_act t h0 maxiter 0 ⟨rho, rho, true, w, mx, e.diagoInit, e.en0⟩ ⟨Mixing.act ω σ π rho, Mixing.act ω σ π rho, true, w', mx', e.diagoInit, e'.en0⟩ ⟨rfl, rfl, rfl, hw, hm, rfl, hen⟩
      revert hl
      generalize SCF.loop e maxiter 0 _ = q
      generalize SCF.loop e' maxiter 0 _ = q'
      intro hl
      cases q with
      | error x =>
        cases q' with
        | error x' => exact hl
        | ok _ => exact hl.elim
      | ok q =>
        cases q' with
        | error x' => exact hl.elim
        | ok q' => exact ⟨hl.1, hl.2.1, hl.2.2.en, hl.2.2.rho, hl.2.2.caller, hl.2.2.w⟩
    · simp only [h1, h2, not_true, not_false_iff, if_false, if_true]
  · simp only [h1, not_false_iff, if_true]
end

/-! ## The mixers -/

open Verif.Mixing (Method Cfg run mix1 act Isometry)

/-- The mixers of `Verif.Mixing` as the driver sees them — /repo/src/qtm/dft/mixing/base.py:60-67, modbro.py:29-73, genbro.py:33-72: `gen` always, `mod` in its first call returns the array it was given. -/
noncomputable def mixer (m : Method) (c : Cfg (n + 1)) (mx : Mixing.St s (n + 1)) (a b : Dens s n) : Except PyErr (MixOut (Dens s n) (Mixing.St s (n + 1))) :=
  match mix1 m c mx a b with
  | .error x => .error x
  | .ok o => .ok ⟨o.st, o.rho, o.caller, decide (m = .gen ∨ mx.idx = 0)⟩

/-- Two mixers after histories of calls that differ by the symmetry, from new mixers. -/
def SameHistory (m : Method) (c : Cfg (n + 1)) (ω : Fin (n + 1) → ℂ) (σ : Equiv.Perm (Fin (n + 1))) (π : Equiv.Perm (Fin s)) (mx mx' : Mixing.St s (n + 1)) : Prop :=
  ∃ (k : ℕ) (ins outs : ℕ → Dens s n) (st st' : Mixing.St s (n + 1)) (l l' : List (Dens s n)), st.idx = 0 ∧ st'.idx = 0 ∧ run m c st ins outs k = .ok (mx, l) ∧
    run m c st' (fun j => act ω σ π (ins j)) (fun j => act ω σ π (outs j)) k = .ok (mx', l')

theorem run_congr (m : Method) (c : Cfg (n + 1)) (st : Mixing.St s (n + 1)) (ins outs ins' outs' : ℕ → Dens s n) : ∀ k, (∀ j < k, ins' j = ins j ∧ outs' j = outs j) →
    run m c st ins' outs' k = run m c st ins outs k
  | 0, _ => rfl
  | k + 1, h => by
    rw [run, run, run_congr m c st ins outs ins' outs' k fun j hj => h j (by omega), (h k (by omega)).1, (h k (by omega)).2]

theorem run_idx (m : Method) (c : Cfg (n + 1)) (hm : 0 < c.mixdim) (st : Mixing.St s (n + 1)) (ins outs : ℕ → Dens s n) (h0 : st.idx = 0) (k : ℕ) (mx : Mixing.St s (n + 1)) (l : List (Dens s n))
    (h : run m c st ins outs k = .ok (mx, l)) : mx.idx = k := by
  cases k with
  | zero =>
    injection h with h
    injection h with h1 h2
    rw [← h1, h0]
  | succ k => exact (Mixing.run_ok m c hm ins outs st h0 k mx l h).2.2.idx

theorem mix1_caller (m : Method) (c : Cfg (n + 1)) (st : Mixing.St s (n + 1)) (a b : Dens s n) (o : Mixing.Out s (n + 1)) (h : mix1 m c st a b = .ok o) :
    o.caller = if m = .gen ∨ min st.idx c.mixdim = 0 then o.rho else a := by
  cases m with
  | mod =>
    simp only [mix1, Mixing.modMix] at h
    by_cases hn : min st.idx c.mixdim = 0
    · rw [if_pos hn] at h
      injection h with h
      rw [if_pos (Or.inr hn), ← h]
    · rw [if_neg hn] at h
      rw [if_neg (by simp [hn])]
      split at h
      · cases h
      · injection h with h
        rw [← h]
  | gen =>
    simp only [mix1, Mixing.genMix] at h
    rw [if_pos (Or.inl rfl)]
    by_cases hn : min st.idx c.mixdim = 0
    · rw [if_pos hn] at h
      injection h with h
      rw [← h]
    · rw [if_neg hn] at h
      split at h
      · cases h
      · injection h with h
        rw [← h]

/-- **C182 (mixers).** Both mixers satisfy what C182 asks of the mixer, for every symmetry of the lattice; new mixers have the same history. -/
theorem C182_mixers (m : Method) (c : Cfg (n + 1)) (hm : 1 < c.mixdim) (ω : Fin (n + 1) → ℂ) (σ : Equiv.Perm (Fin (n + 1))) (π : Equiv.Perm (Fin s)) (h : Isometry c ω σ) :
    (∀ st st' : Mixing.St s (n + 1), st.idx = 0 → st'.idx = 0 → SameHistory m c ω σ π st st') ∧
    (∀ a b : Dens s n, Mixing.computeError c (act ω σ π a) (act ω σ π b) = Mixing.computeError c a b) ∧
    ∀ (mx mx' : Mixing.St s (n + 1)) (a b : Dens s n), SameHistory m c ω σ π mx mx' →
      match mixer m c mx a b, mixer m c mx' (act ω σ π a) (act ω σ π b) with
      | .ok o, .ok o' => SameHistory m c ω σ π o.mx o'.mx ∧ o'.rho = act ω σ π o.rho ∧ o'.arg = act ω σ π o.arg ∧ o'.same = o.same
      | .error x, .error x' => x' = x
      | _, _ => False := by
  refine ⟨fun st st' h0 h0' => ⟨0, fun _ => 0, fun _ => 0, st, st', [], [], h0, h0', rfl, rfl⟩, ?_, ?_⟩
  · exact fun a b => Mixing.computeError_lin c (Mixing.actL ω σ π) (Mixing.dot_act c ω σ π h) a b
  · rintro mx mx' a b ⟨k, ins, outs, st, st', l, l', h0, h0', hr, hr'⟩
    have i1 := run_idx m c (by omega) st ins outs h0 k mx l hr
    have i2 := run_idx m c (by omega) st' _ _ h0' k mx' l' hr'
    let ins2 : ℕ → Dens s n := fun j => if j < k then ins j else a
    let outs2 : ℕ → Dens s n := fun j => if j < k then outs j else b
    have q1 : run m c st ins2 outs2 k = .ok (mx, l) := by
      rw [← hr]
      exact run_congr m c st _ _ _ _ k fun j hj => by simp [ins2, outs2, hj]
    have q2 : run m c st' (fun j => act ω σ π (ins2 j)) (fun j => act ω σ π (outs2 j)) k = .ok (mx', l') := by
      rw [← hr']
      exact run_congr m c st' _ _ _ _ k fun j hj => by simp [ins2, outs2, hj]
    have ek : ins2 k = a ∧ outs2 k = b := by simp [ins2, outs2]
    have cov := (Mixing.C180_mixing_covariant m c hm ω σ π h ins2 outs2 _ _ (fun _ => rfl) (fun _ => rfl) st st' h0 h0' (k + 1)).2
    have r1 : run m c st ins2 outs2 (k + 1) = (mix1 m c mx a b >>= fun r => pure (r.st, l ++ [r.rho])) := by
      rw [run, q1, ek.1, ek.2]
      rfl
    have r2 : run m c st' (fun j => act ω σ π (ins2 j)) (fun j => act ω σ π (outs2 j)) (k + 1) = (mix1 m c mx' (act ω σ π a) (act ω σ π b) >>= fun r => pure (r.st, l' ++ [r.rho])) := by
      rw [run, q2]
      simp only [ek.1, ek.2]
      rfl
    unfold mixer
    cases e1 : mix1 m c mx a b with
    | error x =>
      cases e2 : mix1 m c mx' (act ω σ π a) (act ω σ π b) with
      | error x' =>
        rw [r1, r2, e1, e2] at cov
        exact cov
      | ok o' =>
        rw [r1, r2, e1, e2] at cov
        exact cov.elim
    | ok o =>
      cases e2 : mix1 m c mx' (act ω σ π a) (act ω σ π b) with
      | error x' =>
        rw [r1, r2, e1, e2] at cov
        exact cov.elim
      | ok o' =>
        rw [r1, r2, e1, e2] at cov
        change l' ++ [o'.rho] = (l ++ [o.rho]).map (act ω σ π) at cov
        rw [List.map_append, List.map_singleton] at cov
        have hrho : o'.rho = act ω σ π o.rho := by
          have := congrArg List.getLast? cov
          simpa using this
        refine ⟨⟨k + 1, ins2, outs2, st, st', l ++ [o.rho], l' ++ [o'.rho], h0, h0', ?_, ?_⟩, hrho, ?_, ?_⟩
        · rw [r1, e1]; rfl
        · rw [r2, e2]; rfl
        · show o'.caller = act ω σ π o.caller
          rw [mix1_caller m c mx a b o e1, mix1_caller m c mx' _ _ o' e2, i1, i2, hrho]
          split <;> rfl
        · show decide (m = .gen ∨ mx'.idx = 0) = decide (m = .gen ∨ mx.idx = 0)
          rw [i1, i2]

/-- A case of C182: no electrons' potential (`V = W = Unit`), densities of one spin on two G-vectors, moved by half a lattice vector, mixed by `mod`; the moved run is the same environment. -/
example : Twin (s := 1) (n := 1) ![1, -1] 1 1 (fun _ _ : Unit => True) (fun _ _ : Unit => True) (SameHistory .mod Mixing.exCfg ![1, -1] 1 1)
    ⟨false, 1, 1, 1, 1, false, 0, id, fun _ => (), fun _ => 0, fun _ => 0, fun _ _ => 0, fun _ _ _ => (), fun _ => 0, fun _ => 0, fun _ _ i => if i = 0 then 1 else 0, Mixing.computeError Mixing.exCfg, mixer .mod Mixing.exCfg⟩
    ⟨false, 1, 1, 1, 1, false, 0, id, fun _ => (), fun _ => 0, fun _ => 0, fun _ _ => 0, fun _ _ _ => (), fun _ => 0, fun _ => 0, fun _ _ i => if i = 0 then 1 else 0, Mixing.computeError Mixing.exCfg, mixer .mod Mixing.exCfg⟩ := by
  have hi : Isometry Mixing.exCfg ![1, -1] 1 := ⟨fun i => by fin_cases i <;> simp, fun _ => rfl, fun _ => Iff.rfl⟩
  obtain ⟨-, h2, h3⟩ := C182_mixers (s := 1) .mod Mixing.exCfg (by decide) ![1, -1] 1 1 hi
  refine ⟨⟨rfl, rfl, rfl, rfl, rfl, rfl⟩, rfl, fun _ => rfl, fun _ => trivial, fun _ => rfl, fun _ => rfl, fun _ _ _ _ => rfl, fun _ _ _ _ _ _ _ => trivial, fun _ _ _ => rfl, fun _ _ _ => rfl, fun _ _ _ => ?_, h2, fun mx mx' a b hh => ?_⟩
  · funext k i
    fin_cases i <;> simp [act]
  · have q := h3 mx mx' a b hh
    dsimp only
    revert q
    generalize mixer .mod Mixing.exCfg mx a b = o
    generalize mixer .mod Mixing.exCfg mx' _ _ = o'
    cases o <;> cases o' <;> exact id

end Verif.TransScf
