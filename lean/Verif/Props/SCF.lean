import Mathlib.Tactic.Ring
import Mathlib.Tactic.FieldSimp
import Mathlib.Tactic.Linarith
import Mathlib.Tactic.NormNum
import Mathlib.Tactic.Positivity
import Verif.Model.SCF
import Verif.Props.Scatter

/-!
# Properties of the self-consistent-field driver: C40, C41, C42, C68, C69, C70
-/

namespace Verif.SCF

variable {s n : ℕ} {W V M : Type}

/-! ## C42: normalisation -/

/-- Electron count of a density: the zero-frequency entries of all spin components times the volume element. -/
noncomputable def electrons {s n : ℕ} (dv : ℝ) (rho : Dens s (n + 1)) : ℂ := (∑ k, rho k 0) * (dv : ℂ)

/-- C42: after normalisation the density holds exactly `numel` electrons (provided it held any). -/
theorem normalize_electrons (numel dv : ℝ) (rho : Dens s (n + 1)) (h : electrons dv rho ≠ 0) :
    electrons dv (normalize numel dv rho) = numel := by
  have h' : (∑ k, rho k 0) * (dv : ℂ) ≠ 0 := h
  unfold electrons normalize g0
  rw [← Finset.sum_mul]
  have h1 : (∑ k, rho k 0) ≠ 0 := left_ne_zero_of_mul h'
  have h2 : (dv : ℂ) ≠ 0 := right_ne_zero_of_mul h'
  field_simp

/-- C42: all entries of all spin components are multiplied by one common factor, so ratios between spins and between
Fourier components are kept. -/
theorem normalize_common_factor (numel dv : ℝ) (rho : Dens s (n + 1)) :
    ∃ c : ℂ, (∀ k i, normalize numel dv rho k i = c * rho k i) ∧ c * electrons dv rho = if electrons dv rho = 0 then 0 else (numel : ℂ) := by
  refine ⟨(numel : ℂ) / electrons dv rho, fun k i => by unfold normalize electrons g0; ring, ?_⟩
  split
  · next h => simp [h]
  · next h => field_simp

/-- C42: normalising a density that already holds `numel` electrons changes nothing. -/
theorem normalize_fix (numel dv : ℝ) (rho : Dens s (n + 1)) (hn : numel ≠ 0) (h : electrons dv rho = numel) :
    normalize numel dv rho = rho := by
  funext k i
  have h' : (∑ k, rho k 0) * (dv : ℂ) = numel := h
  unfold normalize g0
  rw [h', div_self (by exact_mod_cast hn), mul_one]

/-- C42: normalisation is idempotent. -/
theorem normalize_idem (numel dv : ℝ) (rho : Dens s (n + 1)) (hn : numel ≠ 0) (h : electrons dv rho ≠ 0) :
    normalize numel dv (normalize numel dv rho) = normalize numel dv rho :=
  normalize_fix _ _ _ hn (normalize_electrons _ _ _ h)

/-- C42: real-valuedness in real space (Hermitian symmetry of the coefficients) and the sign of an entry relative to
the total are kept: for a density with positive electron count the factor is a positive real number. -/
theorem normalize_factor_pos (numel dv : ℝ) (rho : Dens s (n + 1)) (hn : 0 < numel) (q : ℝ) (hq : 0 < q)
    (h : electrons dv rho = q) : ∃ c : ℝ, 0 < c ∧ ∀ k i, normalize numel dv rho k i = (c : ℂ) * rho k i := by
  refine ⟨numel / q, by positivity, fun k i => ?_⟩
  have h' : (∑ k, rho k 0) * (dv : ℂ) = q := h
  unfold normalize g0
  rw [h']; push_cast; ring

example : electrons (s := 2) (n := 0) 2 (normalize 8 2 fun k _ => if k = 0 then 3 else 1) = 8 := by
  simpa using normalize_electrons (s := 2) (n := 0) 8 2 (fun k _ => if k = 0 then 3 else 1)
    (by simp [electrons, Fin.sum_univ_two]; norm_num)

/-! ## One iteration -/

/-- The three ways an iteration can end, read off the driver's documented behaviour. -/
inductive StepSpec (e : Env s n W V M) (idx : ℕ) (st st' : St s n W M) (r : Report) : Prop
  /-- converged -/
  | conv (hr : r.converged = true) (hlt : r.err < e.convThr) (hrho : st'.rho = e.prep st.rho)
      (hthr : st'.thr = st.thr) (hen : st'.en = e.energy st'.w st'.rho st'.rho)
  /-- first iteration, diagonalisation too coarse for the error: same density again, finer threshold -/
  | again (hr : r.converged = false) (hge : e.convThr ≤ r.err) (hidx : idx = 0) (hlt : r.err < st.thr * e.numel)
      (hrho : st'.rho = e.prep st.rho) (hthr : st'.thr = 0.1 * r.err / e.numel)
      (hen : st'.en = e.energy st'.w (e.prep st.rho) (e.rhoOut st'.w))
  /-- ordinary iteration: mixing -/
  | mixed (hr : r.converged = false) (hge : e.convThr ≤ r.err) (hno : idx = 0 → st.thr * e.numel ≤ r.err)
      (hmix : ∃ o, e.mix st.mx (e.prep st.rho) (e.rhoOut st'.w) = .ok o ∧ st'.rho = e.sym o.rho ∧ st'.mx = o.mx)
      (hthr : st'.thr = max (min st.thr (0.1 * r.err / e.numel)) 0.5e-13)
      (hen : st'.en = e.energy st'.w (e.prep st.rho) (e.rhoOut st'.w))

/-- What holds of an iteration in all cases. -/
structure StepCommon (e : Env s n W V M) (idx : ℕ) (st st' : St s n W M) (r : Report) : Prop where
  w : st'.w = e.solve st.w (e.pot (e.prep st.rho)) st.thr
  err : r.err = e.err (e.prep st.rho) (e.rhoOut st'.w)
  idx : r.idx = idx
  thr : r.thr = st'.thr
  en : r.en = st'.en

theorem step_spec (e : Env s n W V M) (idx : ℕ) (st st' : St s n W M) (r : Report)
    (h : step e idx st = .ok (st', r)) : StepCommon e idx st st' r ∧ StepSpec e idx st st' r := by
  unfold step at h
  simp only at h
  split at h
  · next hlt =>
    injection h with h; injection h with h1 h2; subst h1; subst h2
    exact ⟨⟨rfl, rfl, rfl, rfl, rfl⟩, .conv rfl hlt rfl rfl rfl⟩
  · next hge =>
    split at h
    · next h0 =>
      injection h with h; injection h with h1 h2; subst h1; subst h2
      exact ⟨⟨rfl, rfl, rfl, rfl, rfl⟩, .again rfl (not_lt.mp hge) h0.1 h0.2 rfl rfl rfl⟩
    · next h0 =>
      split at h
      · cases h
      · next o ho =>
        injection h with h; injection h with h1 h2; subst h1; subst h2
        refine ⟨⟨rfl, rfl, rfl, rfl, rfl⟩, .mixed rfl (not_lt.mp hge) (fun hi => ?_) ⟨o, ho, rfl, rfl⟩ rfl rfl⟩
        by_contra hc
        exact h0 ⟨hi, not_le.mp hc⟩

/-- A run as a sequence of iterations, each but the last unconverged. -/
inductive Path (e : Env s n W V M) : ℕ → St s n W M → List Report → St s n W M → Prop
  | nil (idx st) : Path e idx st [] st
  | last (idx st st' r) : step e idx st = .ok (st', r) → r.converged = true → Path e idx st [r] st'
  | cons (idx st st' st'' r rs) : step e idx st = .ok (st', r) → r.converged = false →
      Path e (idx + 1) st' rs st'' → Path e idx st (r :: rs) st''

theorem loop_path (e : Env s n W V M) (fuel idx : ℕ) (st : St s n W M) (res : Res s n W M)
    (h : loop e fuel idx st = .ok res) :
    Path e idx st res.trace res.st ∧ res.trace.length ≤ fuel ∧
      (res.converged = true ↔ ∃ r ∈ res.trace, r.converged = true) ∧
      (res.converged = false → res.trace.length = fuel) := by
  induction fuel generalizing idx st res with
  | zero =>
    simp only [loop] at h
    injection h with h; subst h
    exact ⟨.nil _ _, by simp, by simp, by simp⟩
  | succ f ih =>
    simp only [loop] at h
    split at h
    · cases h
    · next st' r hs =>
      split at h
      · next hc =>
        injection h with h; subst h
        exact ⟨.last _ _ _ _ hs hc, by simp, by simp [hc], by simp⟩
      · next hc =>
        split at h
        · cases h
        · next res' hr =>
          injection h with h; subst h
          obtain ⟨p, hl, hi, hn⟩ := ih _ _ _ hr
          refine ⟨.cons _ _ _ _ _ _ hs (by simpa using hc) p, by simpa using hl, ?_, fun hf => by simpa using hn hf⟩
          simp only [List.mem_cons, exists_eq_or_imp, hc]
          simpa using hi

theorem scf_path (e : Env s n W V M) (maxiter : ℕ) (rho : Dens s (n + 1)) (w : W) (mx : M) (res : Res s n W M)
    (h : scf e maxiter rho w mx = .ok res) :
    0 < e.convThr ∧ 0 < e.diagoInit ∧ loop e maxiter 0 ⟨rho, rho, true, w, mx, e.diagoInit, e.en0⟩ = .ok res := by
  unfold scf at h
  split at h
  · cases h
  · split at h
    · cases h
    · next h1 h2 => exact ⟨not_not.mp h1, not_not.mp h2, h⟩

theorem step_conv_iff (e : Env s n W V M) (idx : ℕ) (st st' : St s n W M) (r : Report)
    (h : step e idx st = .ok (st', r)) : r.converged = true ↔ r.err < e.convThr := by
  obtain ⟨-, hs⟩ := step_spec e idx st st' r h
  cases hs with
  | conv hr hlt => simp [hr, hlt]
  | again hr hge => simp [hr, not_lt.mpr hge]
  | mixed hr hge => simp [hr, not_lt.mpr hge]

theorem path_reports (e : Env s n W V M) (idx : ℕ) (st st' : St s n W M) (rs : List Report) (p : Path e idx st rs st') :
    (∀ r ∈ rs, r.converged = true ↔ r.err < e.convThr) ∧ (∀ (i : ℕ) (h : i < rs.length), rs[i].idx = idx + i) ∧
      ∀ (i : ℕ) (h : i < rs.length), rs[i].err < e.convThr → i + 1 = rs.length := by
  induction p with
  | nil => simp
  | last idx st st' r hs hc =>
    refine ⟨by simpa using by rw [← step_conv_iff e idx st st' r hs], fun i h => ?_, fun i h _ => ?_⟩
    · have : i = 0 := by simpa using h
      subst this; simpa using (step_spec e idx st st' r hs).1.idx
    · have : i = 0 := by simpa using h
      subst this; simp
  | cons idx st st' st'' r rs hs hc _ ih =>
    refine ⟨?_, fun i h => ?_, fun i h hlt => ?_⟩
    · intro r' hr'
      rcases List.mem_cons.mp hr' with rfl | hr'
      · exact step_conv_iff e idx st st' _ hs
      · exact ih.1 r' hr'
    · cases i with
      | zero => simpa using (step_spec e idx st st' r hs).1.idx
      | succ i =>
        have := ih.2.1 i (by simpa using h)
        simp only [List.getElem_cons_succ, this]; omega
    · cases i with
      | zero =>
        have := (step_conv_iff e idx st st' r hs).mpr (by simpa using hlt)
        simp [hc] at this
      | succ i =>
        have := ih.2.2 i (by simpa using h) (by simpa using hlt)
        simp [this]

/-! ## C40 -/

/-- C40: at most `maxiter` iterations, reported with indices 0, 1, 2, ... -/
theorem scf_iterations (e : Env s n W V M) (maxiter : ℕ) (rho : Dens s (n + 1)) (w : W) (mx : M) (res : Res s n W M)
    (h : scf e maxiter rho w mx = .ok res) :
    res.trace.length ≤ maxiter ∧ ∀ (i : ℕ) (hi : i < res.trace.length), res.trace[i].idx = i := by
  obtain ⟨-, -, hl⟩ := scf_path _ _ _ _ _ _ h
  obtain ⟨p, hle, -, -⟩ := loop_path _ _ _ _ _ hl
  exact ⟨hle, fun i hi => by simpa using (path_reports _ _ _ _ _ p).2.1 i hi⟩

/-- C40: the run reports convergence exactly when the error of one of its iterations was below the threshold, stops at
the first such iteration, and otherwise performs all `maxiter` iterations. -/
theorem scf_converged_iff (e : Env s n W V M) (maxiter : ℕ) (rho : Dens s (n + 1)) (w : W) (mx : M)
    (res : Res s n W M) (h : scf e maxiter rho w mx = .ok res) :
    (res.converged = true ↔ ∃ r ∈ res.trace, r.err < e.convThr) ∧
      (∀ (i : ℕ) (hi : i < res.trace.length), res.trace[i].err < e.convThr → i + 1 = res.trace.length) ∧
      (∀ r ∈ res.trace, r.converged = true ↔ r.err < e.convThr) ∧
      (res.converged = false → res.trace.length = maxiter) := by
  obtain ⟨-, -, hl⟩ := scf_path _ _ _ _ _ _ h
  obtain ⟨p, -, hi, hn⟩ := loop_path _ _ _ _ _ hl
  obtain ⟨h1, -, h3⟩ := path_reports _ _ _ _ _ p
  refine ⟨?_, h3, h1, hn⟩
  rw [hi]
  exact ⟨fun ⟨r, hr, hc⟩ => ⟨r, hr, (h1 r hr).mp hc⟩, fun ⟨r, hr, hc⟩ => ⟨r, hr, (h1 r hr).mpr hc⟩⟩

theorem path_converged (e : Env s n W V M) (idx : ℕ) (st st' : St s n W M) (rs : List Report)
    (p : Path e idx st rs st') (hc : ∃ r ∈ rs, r.converged = true) :
    ∃ stl j r, step e j stl = .ok (st', r) ∧ r.converged = true ∧ rs.getLast? = some r := by
  induction p with
  | nil => simp at hc
  | last idx st st' r hs hc' => exact ⟨st, idx, r, hs, hc', rfl⟩
  | cons idx st st' st'' r rs hs hf p ih =>
    obtain ⟨r', hr', hc'⟩ := hc
    rcases List.mem_cons.mp hr' with rfl | hr'
    · simp [hf] at hc'
    · obtain ⟨stl, j, rl, h1, h2, h3⟩ := ih ⟨r', hr', hc'⟩
      refine ⟨stl, j, rl, h1, h2, ?_⟩
      rw [List.getLast?_cons, h3]; rfl

/-- C40: a converged run is self-consistent. The returned wavefunctions solve the problem for the potential of the
returned density; the density they generate differs from the returned one by less than the threshold (that is the last
reported error); the returned energies are those of that pair, so the total and the Harris-Weinert-Foulkes energies
agree. -/
theorem scf_converged_consistent (e : Env s n W V M) (maxiter : ℕ) (rho : Dens s (n + 1)) (w : W) (mx : M)
    (res : Res s n W M) (h : scf e maxiter rho w mx = .ok res) (hc : res.converged = true) :
    (∃ w0 thr, res.st.w = e.solve w0 (e.pot res.st.rho) thr) ∧
      e.err res.st.rho (e.rhoOut res.st.w) < e.convThr ∧
      (∃ r, res.trace.getLast? = some r ∧ r.err = e.err res.st.rho (e.rhoOut res.st.w) ∧ r.en = res.st.en) ∧
      res.st.en = e.energy res.st.w res.st.rho res.st.rho ∧ res.st.en.total = res.st.en.hwf := by
  obtain ⟨-, -, hl⟩ := scf_path _ _ _ _ _ _ h
  obtain ⟨p, -, hi, -⟩ := loop_path _ _ _ _ _ hl
  obtain ⟨stl, j, r, hs, hrc, hlast⟩ := path_converged _ _ _ _ _ p (hi.mp hc)
  obtain ⟨hcm, hsp⟩ := step_spec _ _ _ _ _ hs
  cases hsp with
  | again hr => simp [hr] at hrc
  | mixed hr => simp [hr] at hrc
  | conv hr hlt hrho hthr hen =>
    have herr : r.err = e.err res.st.rho (e.rhoOut res.st.w) := by rw [hcm.err, hrho]
    refine ⟨⟨stl.w, stl.thr, by rw [hrho]; exact hcm.w⟩, herr ▸ hlt, ⟨r, hlast, herr, hcm.en⟩, hen, ?_⟩
    rw [hen]; unfold Env.energy; simp only
    split <;> simp

/-- C40: the total energy of a converged run, term by term. -/
theorem scf_converged_energy (e : Env s n W V M) (maxiter : ℕ) (rho : Dens s (n + 1)) (w : W) (mx : M)
    (res : Res s n W M) (h : scf e maxiter rho w mx = .ok res) (hc : res.converged = true) :
    res.st.en.total = e.eig res.st.w - e.pair (e.pot res.st.rho) res.st.rho + e.ewald + e.hartree res.st.rho
      + e.xc res.st.rho + (if e.isSmear then e.smear res.st.w else 0) ∧
    (e.isSmear = true → res.st.en.internal = some (res.st.en.total - e.smear res.st.w)) := by
  obtain ⟨-, -, -, hen, -⟩ := scf_converged_consistent e maxiter rho w mx res h hc
  rw [hen]; unfold Env.energy; simp only
  constructor
  · split <;> simp
  · intro hs; simp [hs]

/-- C40/C42: the density a converged run returns holds exactly the crystal's electrons (unless the last density before
normalisation held none at all). -/
theorem scf_converged_electrons (e : Env s n W V M) (maxiter : ℕ) (rho : Dens s (n + 1)) (w : W) (mx : M)
    (res : Res s n W M) (h : scf e maxiter rho w mx = .ok res) (hc : res.converged = true) :
    ∃ r0, res.st.rho = normalize e.numel e.dv r0 ∧ (electrons e.dv r0 ≠ 0 → electrons e.dv res.st.rho = e.numel) := by
  obtain ⟨-, -, hl⟩ := scf_path _ _ _ _ _ _ h
  obtain ⟨p, -, hi, -⟩ := loop_path _ _ _ _ _ hl
  obtain ⟨stl, j, r, hs, hrc, hlast⟩ := path_converged _ _ _ _ _ p (hi.mp hc)
  obtain ⟨hcm, hsp⟩ := step_spec _ _ _ _ _ hs
  cases hsp with
  | again hr => simp [hr] at hrc
  | mixed hr => simp [hr] at hrc
  | conv hr hlt hrho hthr hen =>
    exact ⟨e.sym stl.rho, hrho, fun h0 => by rw [hrho]; exact normalize_electrons _ _ _ h0⟩

theorem path_unconverged (e : Env s n W V M) (idx : ℕ) (st st' : St s n W M) (rs : List Report)
    (p : Path e idx st rs st') (hne : rs ≠ []) (hc : ∀ r ∈ rs, r.converged = false) :
    ∃ stl j r, step e j stl = .ok (st', r) ∧ r.converged = false ∧ rs.getLast? = some r ∧ (idx < j ∨ j = idx ∧ stl = st) := by
  induction p with
  | nil => simp at hne
  | last idx st st' r hs hc' => simp [hc'] at hc
  | cons idx st st' st'' r rs hs hf p ih =>
    by_cases hr : rs = []
    · subst hr
      cases p
      exact ⟨st, idx, r, hs, hf, rfl, .inr ⟨rfl, rfl⟩⟩
    · obtain ⟨stl, j, rl, h1, h2, h3, h4⟩ := ih hr (fun r' h' => hc r' (by simp [h']))
      refine ⟨stl, j, rl, h1, h2, ?_, ?_⟩
      · rw [List.getLast?_cons, h3]; rfl
      · omega

/-- C40: an unconverged run with at least one iteration returns the wavefunctions and energies of its last iteration
(whose input density is `rin`); the returned density is the *next* input (mixed from `rin`, or `rin` itself when a lone
first iteration asked for a finer diagonalisation), so it is not the density the returned energies belong to. -/
theorem scf_unconverged_result (e : Env s n W V M) (maxiter : ℕ) (rho : Dens s (n + 1)) (w : W) (mx : M)
    (res : Res s n W M) (h : scf e maxiter rho w mx = .ok res) (hc : res.converged = false) (hm : maxiter ≠ 0) :
    ∃ rin w0 thr, res.st.w = e.solve w0 (e.pot rin) thr ∧ res.st.en = e.energy res.st.w rin (e.rhoOut res.st.w) ∧
      e.convThr ≤ e.err rin (e.rhoOut res.st.w) ∧
      (res.st.rho = rin ∨ ∃ m o, e.mix m rin (e.rhoOut res.st.w) = .ok o ∧ res.st.rho = e.sym o.rho) := by
  obtain ⟨-, -, hl⟩ := scf_path _ _ _ _ _ _ h
  obtain ⟨p, -, hi, hn⟩ := loop_path _ _ _ _ _ hl
  have hlen := hn hc
  have hne : res.trace ≠ [] := by intro h0; rw [h0] at hlen; simp at hlen; omega
  have hall : ∀ r ∈ res.trace, r.converged = false := by
    intro r hr
    by_contra h1
    have := hi.mpr ⟨r, hr, by simpa using h1⟩
    simp [hc] at this
  obtain ⟨stl, j, r, hs, hrc, -, -⟩ := path_unconverged _ _ _ _ _ p hne hall
  obtain ⟨hcm, hsp⟩ := step_spec _ _ _ _ _ hs
  refine ⟨e.prep stl.rho, stl.w, stl.thr, hcm.w, ?_⟩
  rw [← hcm.err]
  cases hsp with
  | conv hr => simp [hr] at hrc
  | again hr hge hidx hlt hrho hthr hen => exact ⟨hen, hge, .inl hrho⟩
  | mixed hr hge hno hmix hthr hen =>
    obtain ⟨o, ho, hrho, -⟩ := hmix
    exact ⟨hen, hge, .inr ⟨stl.mx, o, ho, hrho⟩⟩

/-- C40: with `maxiter = 0` nothing is computed: not converged, the starting density and wavefunctions come back as
they are (not even normalised), and of the energies only the Ewald term is set. -/
theorem scf_maxiter_zero (e : Env s n W V M) (rho : Dens s (n + 1)) (w : W) (mx : M)
    (hc : 0 < e.convThr) (hd : 0 < e.diagoInit) :
    scf e 0 rho w mx = .ok ⟨false, ⟨rho, rho, true, w, mx, e.diagoInit, e.en0⟩, []⟩ ∧ e.en0.total = 0 ∧
      e.en0.ewald = e.ewald := by
  simp [scf, hc, hd, loop, Env.en0]

/-- C40: the only failures are rejected thresholds and failures of the mixer; if the mixer never fails the run returns. -/
theorem scf_total (e : Env s n W V M) (maxiter : ℕ) (rho : Dens s (n + 1)) (w : W) (mx : M)
    (hc : 0 < e.convThr) (hd : 0 < e.diagoInit) (hmix : ∀ m a b, ∃ o, e.mix m a b = .ok o) :
    ∃ res, scf e maxiter rho w mx = .ok res := by
  have key : ∀ fuel idx st, ∃ res, loop e fuel idx st = .ok res := by
    intro fuel
    induction fuel with
    | zero => intro idx st; exact ⟨_, rfl⟩
    | succ f ih =>
      intro idx st
      have hst : ∃ p, step e idx st = .ok p := by
        unfold step; simp only
        split
        · exact ⟨_, rfl⟩
        · split
          · exact ⟨_, rfl⟩
          · obtain ⟨o, ho⟩ := hmix st.mx (e.prep st.rho) (e.rhoOut (e.solve st.w (e.pot (e.prep st.rho)) st.thr))
            rw [ho]; exact ⟨_, rfl⟩
      obtain ⟨⟨st', r⟩, hst⟩ := hst
      obtain ⟨res, hres⟩ := ih (idx + 1) st'
      simp only [loop, hst, hres]
      split
      · exact ⟨_, rfl⟩
      · exact ⟨_, rfl⟩
  simpa [scf, hc, hd] using key maxiter 0 _

/-! ## C41: the threshold schedule -/

/-- The threshold used by iteration `i`: the initial one, then the one last reported. -/
noncomputable def thrUsed (e : Env s n W V M) (tr : List Report) : ℕ → ℝ
  | 0 => e.diagoInit
  | i + 1 => (tr[i]?.map Report.thr).getD 0

theorem path_thr (e : Env s n W V M) (idx : ℕ) (st st' : St s n W M) (rs : List Report) (p : Path e idx st rs st') :
    ∀ (i : ℕ) (h : i < rs.length), ∃ t, (i = 0 → t = st.thr) ∧ (∀ (j : ℕ) (hj : j < rs.length), j + 1 = i → t = rs[j].thr) ∧
      rs[i].thr = if rs[i].err < e.convThr then t
        else if idx + i = 0 ∧ rs[i].err < t * e.numel then 0.1 * rs[i].err / e.numel
        else max (min t (0.1 * rs[i].err / e.numel)) 0.5e-13 := by
  have one : ∀ idx st st' r, step e idx st = .ok (st', r) → r.thr = if r.err < e.convThr then st.thr
        else if idx = 0 ∧ r.err < st.thr * e.numel then 0.1 * r.err / e.numel
        else max (min st.thr (0.1 * r.err / e.numel)) 0.5e-13 := by
    intro idx st st' r hs
    obtain ⟨hcm, hsp⟩ := step_spec _ _ _ _ _ hs
    rw [hcm.thr]
    cases hsp with
    | conv hr hlt hrho hthr => rw [if_pos hlt, hthr]
    | again hr hge hidx hlt hrho hthr => rw [if_neg (not_lt.mpr hge), if_pos ⟨hidx, hlt⟩, hthr]
    | mixed hr hge hno hmix hthr =>
      rw [if_neg (not_lt.mpr hge), if_neg (fun hh => absurd (hno hh.1) (not_le.mpr hh.2)), hthr]
  induction p with
  | nil => simp
  | last idx st st' r hs hc =>
    intro i hi
    have : i = 0 := by simpa using hi
    subst this
    exact ⟨st.thr, fun _ => rfl, fun j _ hj => by omega, by simpa using one _ _ _ _ hs⟩
  | cons idx st st' st'' r rs hs hf p ih =>
    intro i hi
    cases i with
    | zero => exact ⟨st.thr, fun _ => rfl, fun j _ hj => by omega, by simpa using one _ _ _ _ hs⟩
    | succ i =>
      obtain ⟨t, h0, h1, h2⟩ := ih i (by simpa using hi)
      refine ⟨t, by simp, fun j hj hji => ?_, ?_⟩
      · have hji' : j = i := by omega
        subst hji'
        cases j with
        | zero => simpa [h0 rfl] using (step_spec _ _ _ _ _ hs).1.thr.symm
        | succ j => simpa using h1 j (by simp at hj; omega) rfl
      · rw [List.getElem_cons_succ, h2]
        congr 2
        rw [show idx + 1 + i = idx + (i + 1) by omega]

/-- C41: the rule of the schedule. Iteration `i` used threshold `t`; afterwards it is left alone if the iteration
converged, set to a tenth of the error per electron if this is the first iteration and the error is below `t` per
electron, and otherwise lowered to a tenth of the error per electron but not below `0.5e-13`. -/
theorem thr_rule (e : Env s n W V M) (maxiter : ℕ) (rho : Dens s (n + 1)) (w : W) (mx : M) (res : Res s n W M)
    (h : scf e maxiter rho w mx = .ok res) (i : ℕ) (hi : i < res.trace.length) :
    let t := thrUsed e res.trace i
    res.trace[i].thr = if res.trace[i].err < e.convThr then t
      else if i = 0 ∧ res.trace[i].err < t * e.numel then 0.1 * res.trace[i].err / e.numel
      else max (min t (0.1 * res.trace[i].err / e.numel)) 0.5e-13 := by
  obtain ⟨-, -, hl⟩ := scf_path _ _ _ _ _ _ h
  obtain ⟨p, -, -, -⟩ := loop_path _ _ _ _ _ hl
  obtain ⟨t, h0, h1, h2⟩ := path_thr _ _ _ _ _ p i hi
  have ht : thrUsed e res.trace i = t := by
    cases i with
    | zero => exact (h0 rfl).symm
    | succ i =>
      have hi' : i < res.trace.length := by omega
      simp [thrUsed, List.getElem?_eq_getElem hi', h1 i hi' rfl]
  simp only [ht, h2]
  congr 2
  rw [Nat.zero_add]

/-- C41: the threshold stays positive. -/
theorem thr_pos (e : Env s n W V M) (maxiter : ℕ) (rho : Dens s (n + 1)) (w : W) (mx : M) (res : Res s n W M)
    (h : scf e maxiter rho w mx = .ok res) (hn : 0 < e.numel) (i : ℕ) (hi : i ≤ res.trace.length) :
    0 < thrUsed e res.trace i := by
  obtain ⟨hcv, hdi, -⟩ := scf_path _ _ _ _ _ _ h
  induction i with
  | zero => exact hdi
  | succ i ih =>
    have hi' : i < res.trace.length := by omega
    have hr := thr_rule e maxiter rho w mx res h i hi'
    have ht := ih (by omega)
    simp only [thrUsed, List.getElem?_eq_getElem hi', Option.map_some, Option.getD_some]
    simp only at hr
    rw [hr]
    split
    · exact ht
    · next h1 =>
      split
      · have : 0 < res.trace[i].err := lt_of_lt_of_le hcv (not_lt.mp h1)
        positivity
      · exact lt_of_lt_of_le (by norm_num) (le_max_right _ _)

/-- C41: from the second iteration on the threshold is at least the floor after every unconverged iteration, and it
never increases as long as it was not below the floor before. -/
theorem thr_after_first (e : Env s n W V M) (maxiter : ℕ) (rho : Dens s (n + 1)) (w : W) (mx : M) (res : Res s n W M)
    (h : scf e maxiter rho w mx = .ok res) (i : ℕ) (hi : i < res.trace.length) (h1 : 1 ≤ i)
    (hu : res.trace[i].converged = false) :
    (0.5e-13 : ℝ) ≤ thrUsed e res.trace (i + 1) ∧
      (0.5e-13 ≤ thrUsed e res.trace i → thrUsed e res.trace (i + 1) ≤ thrUsed e res.trace i) ∧
      (thrUsed e res.trace (i + 1) ≤ max (0.1 * res.trace[i].err / e.numel) 0.5e-13) := by
  have hr := thr_rule e maxiter rho w mx res h i hi
  have hcv := (scf_converged_iff e maxiter rho w mx res h).2.2.1 res.trace[i] (List.getElem_mem hi)
  have hnl : ¬ res.trace[i].err < e.convThr := by
    intro hlt; simp [hcv.mpr hlt] at hu
  have hu2 : thrUsed e res.trace (i + 1) = res.trace[i].thr := by
    simp [thrUsed, List.getElem?_eq_getElem hi]
  simp only at hr
  rw [if_neg hnl, if_neg (by omega)] at hr
  rw [hu2, hr]
  exact ⟨le_max_right _ _, fun hf => max_le (min_le_left _ _) hf, max_le_max (min_le_right _ _) le_rfl⟩

/-- C41: once at or above the floor after the first iteration, the thresholds of all later iterations form a
non-increasing sequence bounded below by the floor. -/
theorem thr_antitone (e : Env s n W V M) (maxiter : ℕ) (rho : Dens s (n + 1)) (w : W) (mx : M) (res : Res s n W M)
    (h : scf e maxiter rho w mx = .ok res) (hf : (0.5e-13 : ℝ) ≤ thrUsed e res.trace 1) (i j : ℕ) (h1 : 1 ≤ i)
    (hij : i ≤ j) (hj : j ≤ res.trace.length) :
    (0.5e-13 : ℝ) ≤ thrUsed e res.trace j ∧ thrUsed e res.trace j ≤ thrUsed e res.trace i := by
  have step1 : ∀ k, 1 ≤ k → k < res.trace.length → (0.5e-13 : ℝ) ≤ thrUsed e res.trace k →
      (0.5e-13 : ℝ) ≤ thrUsed e res.trace (k + 1) ∧ thrUsed e res.trace (k + 1) ≤ thrUsed e res.trace k := by
    intro k hk hkl hfk
    cases hcv : res.trace[k].converged with
    | false =>
      obtain ⟨a, b, -⟩ := thr_after_first e maxiter rho w mx res h k hkl hk hcv
      exact ⟨a, b hfk⟩
    | true =>
      have hlt := ((scf_converged_iff e maxiter rho w mx res h).2.2.1 _ (List.getElem_mem hkl)).mp hcv
      have hr := thr_rule e maxiter rho w mx res h k hkl
      simp only at hr
      rw [if_pos hlt] at hr
      have hu2 : thrUsed e res.trace (k + 1) = res.trace[k].thr := by simp [thrUsed, List.getElem?_eq_getElem hkl]
      rw [hu2, hr]
      exact ⟨hfk, le_rfl⟩
  have floor : ∀ k, 1 ≤ k → k ≤ res.trace.length → (0.5e-13 : ℝ) ≤ thrUsed e res.trace k := by
    intro k hk
    induction k, hk using Nat.le_induction with
    | base => intro _; exact hf
    | succ k hk ih => intro hkl; exact (step1 k hk (by omega) (ih (by omega))).1
  refine ⟨floor j (by omega) hj, ?_⟩
  induction j, hij using Nat.le_induction with
  | base => exact le_rfl
  | succ k hk ih => exact le_trans (step1 k (by omega) (by omega) (floor k (by omega) (by omega))).2 (ih (by omega))

/-! ## Every error sequence occurs -/

/-- A run whose iterations have the errors `g 0, g 1, g 2, ...`: wavefunctions are the number of diagonalisations done,
the density carries that number in its second coefficient. -/
noncomputable def seqEnv (g : ℕ → ℝ) (conv diago : ℝ) (symm same : Bool) : Env 1 1 ℕ Unit ℕ where
  symmRho := symm
  numel := 1
  dv := 1
  convThr := conv
  diagoInit := diago
  isSmear := false
  ewald := 0
  symm := id
  pot := fun _ => ()
  hartree := fun _ => 0
  xc := fun _ => 0
  pair := fun _ _ => 0
  solve := fun w _ _ => w + 1
  eig := fun _ => 0
  smear := fun _ => 0
  rhoWfn := fun w _ i => if i = 0 then 1 else (w : ℂ)
  err := fun _ b => g (⌊(b 0 1).re⌋₊ - 1)
  mix := fun m _ b => .ok ⟨m + 1, b, b, same⟩

theorem seqEnv_rhoOut (g : ℕ → ℝ) (c d : ℝ) (sy sa : Bool) (w : ℕ) :
    (seqEnv g c d sy sa).rhoOut w = fun _ i => if i = 0 then 1 else (w : ℂ) := by
  have : normalize 1 1 (fun (_ : Fin 1) (i : Fin 2) => if i = 0 then (1 : ℂ) else (w : ℂ)) =
      fun _ i => if i = 0 then 1 else (w : ℂ) := by
    funext k i; simp [normalize, g0]
  unfold Env.rhoOut Env.sym
  simp only [seqEnv, this, id]
  split <;> rfl

theorem seqEnv_err (g : ℕ → ℝ) (c d : ℝ) (sy sa : Bool) (a : Dens 1 2) (w : ℕ) :
    (seqEnv g c d sy sa).err a ((seqEnv g c d sy sa).rhoOut (w + 1)) = g w := by
  rw [seqEnv_rhoOut]
  simp only [seqEnv]
  norm_num
  congr
  rw [show ((w : ℝ) + 1) = ((w + 1 : ℕ) : ℝ) by push_cast; ring, Nat.floor_natCast]
  omega

/-- The errors such a run reports are the prescribed ones. -/
theorem seqEnv_errors (g : ℕ → ℝ) (c d : ℝ) (sy sa : Bool) (maxiter : ℕ) (rho : Dens 1 2) (m : ℕ) (res : Res 1 1 ℕ ℕ)
    (h : scf (seqEnv g c d sy sa) maxiter rho 0 m = .ok res) (i : ℕ) (hi : i < res.trace.length) :
    res.trace[i].err = g i := by
  obtain ⟨-, -, hl⟩ := scf_path _ _ _ _ _ _ h
  obtain ⟨p, -⟩ := loop_path _ _ _ _ _ hl
  have key : ∀ idx st rs st', Path (seqEnv g c d sy sa) idx st rs st' → st.w = idx →
      ∀ (i : ℕ) (hi : i < rs.length), rs[i].err = g (idx + i) := by
    have one : ∀ idx st st' r, step (seqEnv g c d sy sa) idx st = .ok (st', r) → st.w = idx →
        r.err = g idx ∧ st'.w = idx + 1 := by
      intro idx st st' r hs hw
      obtain ⟨hcm, -⟩ := step_spec _ _ _ _ _ hs
      have hw' : st'.w = idx + 1 := by rw [hcm.w, hw]; rfl
      exact ⟨by rw [hcm.err, hw', seqEnv_err], hw'⟩
    intro idx st rs st' p
    induction p with
    | nil => simp
    | last idx st st' r hs hc =>
      intro hw i hi
      have : i = 0 := by simpa using hi
      subst this
      simpa using (one _ _ _ _ hs hw).1
    | cons idx st st' st'' r rs hs hf p ih =>
      intro hw i hi
      obtain ⟨h1, h2⟩ := one _ _ _ _ hs hw
      cases i with
      | zero => simpa using h1
      | succ i =>
        rw [List.getElem_cons_succ, ih h2 i (by simpa using hi)]
        congr 1; omega
  simpa using key _ _ _ _ p rfl i hi

theorem seqEnv_ok (g : ℕ → ℝ) (c d : ℝ) (sy sa : Bool) (maxiter : ℕ) (rho : Dens 1 2) (m : ℕ) (hc : 0 < c)
    (hd : 0 < d) : ∃ res, scf (seqEnv g c d sy sa) maxiter rho 0 m = .ok res :=
  scf_total _ _ _ _ _ hc hd fun _ _ _ => ⟨_, rfl⟩

/-- C40, concrete: errors 5, 3, 1, ... against the threshold 2 converge in the third of ten iterations. -/
example (rho : Dens 1 2) : ∃ res, scf (seqEnv (fun i => 5 - 2 * i) 2 1 true true) 10 rho 0 0 = .ok res ∧
    res.converged = true ∧ res.trace.length = 3 := by
  obtain ⟨res, h⟩ := seqEnv_ok (fun i => 5 - 2 * i) 2 1 true true 10 rho 0 (by norm_num) (by norm_num)
  have he := seqEnv_errors _ _ _ _ _ _ _ _ _ h
  obtain ⟨h1, h2, h3, h4⟩ := scf_converged_iff _ _ _ _ _ _ h
  have hle := (scf_iterations _ _ _ _ _ _ h).1
  have hlen : res.trace.length = 3 := by
    by_contra hne
    rcases lt_or_gt_of_ne hne with hlt | hgt
    · cases hcv : res.converged with
      | false => have := h4 hcv; omega
      | true =>
        obtain ⟨r, hr, hlt'⟩ := h1.mp hcv
        obtain ⟨i, hi, rfl⟩ := List.mem_iff_getElem.mp hr
        rw [he i hi] at hlt'
        have hi2 : (i : ℝ) ≤ 1 := by exact_mod_cast (by omega : i ≤ 1)
        simp only [seqEnv] at hlt'
        linarith
    · have := h2 2 (by omega) (by rw [he 2 (by omega)]; simp only [seqEnv]; norm_num)
      omega
  refine ⟨res, h, h1.mpr ⟨res.trace[2], List.getElem_mem _, ?_⟩, hlen⟩
  rw [he 2 (by omega)]; simp only [seqEnv]; norm_num

/-- C41, violated part: the floor does not bind in the first iteration, and the threshold then goes *up*. There are
runs whose threshold after the first iteration is `1e-16`, below the floor `0.5e-13`, and after the second is the
floor. -/
theorem thr_floor_violated (rho : Dens 1 2) :
    ∃ (g : ℕ → ℝ) (c d : ℝ) (res : Res 1 1 ℕ ℕ), scf (seqEnv g c d true true) 2 rho 0 0 = .ok res ∧
      res.trace.length = 2 ∧ thrUsed (seqEnv g c d true true) res.trace 1 = 1e-16 ∧
      thrUsed (seqEnv g c d true true) res.trace 2 = 0.5e-13 := by
  obtain ⟨res, h⟩ := seqEnv_ok (fun _ => 1e-15) 1e-20 1e-5 true true 2 rho 0 (by norm_num) (by norm_num)
  have he := seqEnv_errors _ _ _ _ _ _ _ _ _ h
  obtain ⟨h1, h2, h3, h4⟩ := scf_converged_iff _ _ _ _ _ _ h
  have hcv : res.converged = false := by
    by_contra hc
    obtain ⟨r, hr, hlt⟩ := h1.mp (by simpa using hc)
    obtain ⟨i, hi, rfl⟩ := List.mem_iff_getElem.mp hr
    rw [he i hi] at hlt
    simp only [seqEnv] at hlt
    norm_num at hlt
  have hlen := h4 hcv
  have r0 := thr_rule _ _ _ _ _ _ h 0 (by omega)
  have r1 := thr_rule _ _ _ _ _ _ h 1 (by omega)
  simp only [he] at r0 r1
  have u1 : thrUsed (seqEnv (fun _ => 1e-15) 1e-20 1e-5 true true) res.trace 1 = res.trace[0].thr := by
    simp [thrUsed, List.getElem?_eq_getElem (show 0 < res.trace.length by omega)]
  have u2 : thrUsed (seqEnv (fun _ => 1e-15) 1e-20 1e-5 true true) res.trace 2 = res.trace[1].thr := by
    simp [thrUsed, List.getElem?_eq_getElem (show 1 < res.trace.length by omega)]
  have v1 : res.trace[0].thr = 1e-16 := by
    rw [r0]; simp only [thrUsed, seqEnv]; norm_num
  refine ⟨_, _, _, res, h, hlen, u1.trans v1, u2.trans ?_⟩
  rw [r1, u1, v1]; simp only [seqEnv]; norm_num

/-! ## C68: the caller's starting density -/

theorem step_caller_symm (e : Env s n W V M) (hs : e.symmRho = true) (idx : ℕ) (st st' : St s n W M) (r : Report)
    (h : step e idx st = .ok (st', r)) : st'.caller = st.caller := by
  unfold step at h
  simp only [hs] at h
  split at h
  · injection h with h; injection h with h1 h2; subst h1; simp
  · split at h
    · injection h with h; injection h with h1 h2; subst h1; simp
    · split at h
      · cases h
      · injection h with h; injection h with h1 h2; subst h1; simp

/-- C68: with `symm_rho = True` the array the caller passed as `rho_start` still holds its values afterwards. -/
theorem scf_caller_kept (e : Env s n W V M) (maxiter : ℕ) (rho : Dens s (n + 1)) (w : W) (mx : M) (res : Res s n W M)
    (h : scf e maxiter rho w mx = .ok res) (hs : e.symmRho = true) : res.st.caller = rho := by
  obtain ⟨-, -, hl⟩ := scf_path _ _ _ _ _ _ h
  obtain ⟨p, -⟩ := loop_path _ _ _ _ _ hl
  have key : ∀ idx st rs st', Path e idx st rs st' → st'.caller = st.caller := by
    intro idx st rs st' p
    induction p with
    | nil => rfl
    | last _ _ _ _ h1 _ => exact step_caller_symm e hs _ _ _ _ h1
    | cons _ _ _ _ _ _ h1 _ _ ih => rw [ih, step_caller_symm e hs _ _ _ _ h1]
  exact key _ _ _ _ p

/-- C68, violated part: with `symm_rho = False` and a mixer that works in place (as `GenBroyden` always does), the array
passed as `rho_start` is overwritten: after the run it is the returned density. -/
theorem scf_caller_overwritten (e : Env s n W V M) (maxiter : ℕ) (rho : Dens s (n + 1)) (w : W) (mx : M)
    (res : Res s n W M) (h : scf e maxiter rho w mx = .ok res) (hs : e.symmRho = false)
    (hm : ∀ m a b o, e.mix m a b = .ok o → o.same = true ∧ o.arg = o.rho) : res.st.caller = res.st.rho := by
  obtain ⟨-, -, hl⟩ := scf_path _ _ _ _ _ _ h
  obtain ⟨p, -⟩ := loop_path _ _ _ _ _ hl
  have one : ∀ idx st st' r, step e idx st = .ok (st', r) → st.own = true → st'.own = true ∧ st'.caller = st'.rho := by
    intro idx st st' r h1 ho
    unfold step at h1
    simp only [hs, ho] at h1
    split at h1
    · injection h1 with h1; injection h1 with h2 h3; subst h2; simp
    · split at h1
      · injection h1 with h1; injection h1 with h2 h3; subst h2; simp
      · split at h1
        · cases h1
        · next o hmo =>
          injection h1 with h1; injection h1 with h2 h3; subst h2
          obtain ⟨ha, hb⟩ := hm _ _ _ _ hmo
          simp [ha, hb, Env.sym, hs]
  have key : ∀ idx st rs st', Path e idx st rs st' → st.own = true → st.caller = st.rho → st'.caller = st'.rho := by
    intro idx st rs st' p
    induction p with
    | nil => intro _ h; exact h
    | last _ _ _ _ h1 _ => intro ho _; exact (one _ _ _ _ h1 ho).2
    | cons _ _ _ _ _ _ h1 _ _ ih => intro ho _; exact ih (one _ _ _ _ h1 ho).1 (one _ _ _ _ h1 ho).2
  exact key _ _ _ _ p rfl rfl

/-- C68: with `symm_rho = False`, whatever the mixer, a run that converges in its first iteration leaves the normalised
density in the caller's array — so an array not holding exactly `numel` electrons is changed. -/
theorem scf_caller_normalized (e : Env s n W V M) (maxiter : ℕ) (rho : Dens s (n + 1)) (w : W) (mx : M)
    (res : Res s n W M) (h : scf e maxiter rho w mx = .ok res) (hs : e.symmRho = false) (hc : res.converged = true)
    (h1 : res.trace.length = 1) :
    res.st.caller = normalize e.numel e.dv rho ∧
      (electrons e.dv rho ≠ 0 → electrons e.dv rho ≠ e.numel → res.st.caller ≠ rho) := by
  obtain ⟨-, -, hl⟩ := scf_path _ _ _ _ _ _ h
  obtain ⟨p, -, hi, -⟩ := loop_path _ _ _ _ _ hl
  have hcal : res.st.caller = normalize e.numel e.dv rho := by
    obtain ⟨cv, stf, tr⟩ := res
    simp only at p h1 hi hc ⊢
    cases p with
    | nil => simp at h1
    | last _ _ _ r hstep hcv =>
      unfold step at hstep
      simp only [hs] at hstep
      split at hstep
      · injection hstep with h2; injection h2 with h3 h4; subst h3; simp [Env.prep, Env.sym, hs]
      · split at hstep
        · injection hstep with h2; injection h2 with h3 h4; subst h4; simp at hcv
        · split at hstep
          · cases hstep
          · injection hstep with h2; injection h2 with h3 h4; subst h4; simp at hcv
    | cons _ _ _ _ r rs hstep hcv p' =>
      have : rs = [] := by simpa using h1
      subst this
      obtain ⟨r', hr', hcr⟩ := hi.mp hc
      have : r' = r := by simpa using hr'
      subst this
      simp [hcv] at hcr
  refine ⟨hcal, fun h0 hne heq => hne ?_⟩
  rw [hcal] at heq
  have := normalize_electrons e.numel e.dv rho h0
  rwa [heq] at this

/-- C68: a concrete run that changes the caller's array. -/
example : ∃ (rho : Dens 1 2) (res : Res 1 1 ℕ ℕ), scf (seqEnv (fun _ => 0) 1 1 false true) 1 rho 0 0 = .ok res ∧
    res.st.caller ≠ rho := by
  obtain ⟨res, h⟩ := seqEnv_ok (fun _ => 0) 1 1 false true 1 (fun _ _ => 3) 0 (by norm_num) (by norm_num)
  have he := seqEnv_errors _ _ _ _ _ _ _ _ _ h
  obtain ⟨h1, h2, h3, h4⟩ := scf_converged_iff _ _ _ _ _ _ h
  have hl := (scf_iterations _ _ _ _ _ _ h).1
  have hlen : res.trace.length = 1 := by
    cases hcv : res.converged with
    | false => exact h4 hcv
    | true =>
      obtain ⟨r, hr, -⟩ := h1.mp hcv
      have := List.length_pos_of_mem hr
      omega
  have hc : res.converged = true := h1.mpr ⟨res.trace[0], List.getElem_mem _, by rw [he]; simp [seqEnv]⟩
  refine ⟨_, res, h, (scf_caller_normalized _ _ _ _ _ _ h rfl hc hlen).2 ?_ ?_⟩
  · simp [electrons, seqEnv]
  · simp [electrons, seqEnv]

/-! ## C69: starting magnetisation -/

theorem startSpin_foldl {n : ℕ} (l : List ((Fin n → ℂ) × ℝ)) (p : (Fin n → ℂ) × (Fin n → ℂ)) :
    l.foldl (fun p am =>
      let m := clampMag am.2
      (p.1 + (((1 + m) / 2 : ℝ) : ℂ) • am.1, p.2 + (((1 - m) / 2 : ℝ) : ℂ) • am.1)) p =
    (p.1 + (l.map fun am => (((1 + clampMag am.2) / 2 : ℝ) : ℂ) • am.1).sum,
      p.2 + (l.map fun am => (((1 - clampMag am.2) / 2 : ℝ) : ℂ) • am.1).sum) := by
  induction l generalizing p with
  | nil => simp
  | cons a l ih => simp only [List.foldl_cons, ih, List.map_cons, List.sum_cons]; simp only [add_assoc]

theorem startSpin_eq {n : ℕ} (atomic : List (Fin n → ℂ)) (mags : List ℝ) :
    startSpin atomic mags = (((atomic.zip mags).map fun am => (((1 + clampMag am.2) / 2 : ℝ) : ℂ) • am.1).sum,
      ((atomic.zip mags).map fun am => (((1 - clampMag am.2) / 2 : ℝ) : ℂ) • am.1).sum) := by
  rw [startSpin, startSpin_foldl]; simp

/-- C69: the polarisation used is the requested one where it lies between -1 and 1, the nearer bound elsewhere. -/
theorem clampMag_spec (m : ℝ) :
    (-1 ≤ m → m ≤ 1 → clampMag m = m) ∧ (1 ≤ m → clampMag m = 1) ∧ (m ≤ -1 → clampMag m = -1) ∧
      -1 ≤ clampMag m ∧ clampMag m ≤ 1 := by
  unfold clampMag
  refine ⟨fun h1 h2 => by rw [min_eq_left h2, max_eq_left h1], fun h => by rw [min_eq_right h]; norm_num, fun h => ?_,
    le_max_right _ _, max_le (min_le_right _ _) (by norm_num)⟩
  rw [min_eq_left (by linarith), max_eq_right h]

/-- C69: the spin components add up to the superposition of the atomic charges of the species that were given a
magnetisation; the others are silently left out. -/
theorem startSpin_total {n : ℕ} (atomic : List (Fin n → ℂ)) (mags : List ℝ) :
    (startSpin atomic mags).1 + (startSpin atomic mags).2 = (atomic.take mags.length).sum := by
  rw [startSpin_eq]
  induction atomic generalizing mags with
  | nil => simp
  | cons a atomic ih =>
    cases mags with
    | nil => simp
    | cons m mags =>
      simp only [List.zip_cons_cons, List.map_cons, List.sum_cons, List.length_cons, List.take_succ_cons, ← ih mags]
      funext i
      simp only [Pi.add_apply, Pi.smul_apply, smul_eq_mul]
      push_cast; ring

/-- C69: with one magnetisation per species the total density is that of the unpolarised start. -/
theorem startSpin_total_full {n : ℕ} (atomic : List (Fin n → ℂ)) (mags : List ℝ)
    (h : atomic.length ≤ mags.length) :
    (startSpin atomic mags).1 + (startSpin atomic mags).2 = startUnpol atomic := by
  rw [startSpin_total, List.take_of_length_le h, startUnpol, ← List.sum_eq_foldl]

/-- C69: the spin density is the sum of the atomic charges weighted with the clamped magnetisations. -/
theorem startSpin_spin {n : ℕ} (atomic : List (Fin n → ℂ)) (mags : List ℝ) :
    (startSpin atomic mags).1 - (startSpin atomic mags).2 =
      ((atomic.zip mags).map fun am => ((clampMag am.2 : ℝ) : ℂ) • am.1).sum := by
  rw [startSpin_eq]
  induction atomic.zip mags with
  | nil => simp
  | cons a l ih =>
    simp only [List.map_cons, List.sum_cons, ← ih]
    funext i
    simp only [Pi.add_apply, Pi.sub_apply, Pi.smul_apply, smul_eq_mul]
    push_cast; ring

/-- C69: neither spin component has more (or a negative number of) electrons than there are, if every species has a
non-negative charge `q`. -/
theorem startSpin_nonneg {n : ℕ} (atomic : List (Fin (n + 1) → ℂ)) (mags : List ℝ)
    (h : ∀ a ∈ atomic, ∃ q : ℝ, 0 ≤ q ∧ a 0 = q) :
    (∃ u : ℝ, 0 ≤ u ∧ (startSpin atomic mags).1 0 = u) ∧ ∃ d : ℝ, 0 ≤ d ∧ (startSpin atomic mags).2 0 = d := by
  rw [startSpin_eq]
  have h' : ∀ am ∈ atomic.zip mags, ∃ q : ℝ, 0 ≤ q ∧ am.1 0 = q := fun am ham =>
    h am.1 (List.of_mem_zip ham).1
  generalize atomic.zip mags = z at h' ⊢
  induction z with
  | nil => exact ⟨⟨0, le_rfl, by simp⟩, ⟨0, le_rfl, by simp⟩⟩
  | cons am l ih =>
    obtain ⟨⟨u, hu, hu'⟩, d, hd, hd'⟩ := ih (fun a ha => h' a (by simp [ha]))
    obtain ⟨q, hq, hq'⟩ := h' am (by simp)
    obtain ⟨-, -, -, c1, c2⟩ := clampMag_spec am.2
    simp only at hu' hd'
    refine ⟨⟨(1 + clampMag am.2) / 2 * q + u, by have : 0 ≤ 1 + clampMag am.2 := by linarith
                                                 positivity, ?_⟩,
      ⟨(1 - clampMag am.2) / 2 * q + d, by have : 0 ≤ 1 - clampMag am.2 := by linarith
                                           positivity, ?_⟩⟩
    · simp only [List.map_cons, List.sum_cons, Pi.add_apply, Pi.smul_apply, smul_eq_mul, hu', hq']; push_cast; ring
    · simp only [List.map_cons, List.sum_cons, Pi.add_apply, Pi.smul_apply, smul_eq_mul, hd', hq']; push_cast; ring

/-- C69, violated part: with a magnetisation missing, the charge of the last species is missing from the start. -/
theorem startSpin_short_violated :
    ∃ (atomic : List (Fin 1 → ℂ)) (mags : List ℝ), mags.length < atomic.length ∧
      (startSpin atomic mags).1 + (startSpin atomic mags).2 ≠ startUnpol atomic := by
  refine ⟨[fun _ => 1, fun _ => 4], [0.5], by simp, fun h => ?_⟩
  rw [startSpin_total] at h
  have := congrFun h 0
  simp [startUnpol] at this

/-! ## C70: who takes part in the sum of the densities -/

theorem enters_iff (numbnd nb i : ℕ) :
    entersAllreduce numbnd nb i = true ↔ 1 ≤ numbnd / nb ∨ i < numbnd % nb := by
  unfold entersAllreduce
  rw [decide_eq_true_eq, Verif.Scatter.sliceStop]
  generalize numbnd / nb = q, numbnd % nb = r, Verif.Scatter.sliceStart numbnd nb i = a
  split <;> omega

/-- C70: every band group reaches the collective sum iff there are at least as many bands as band groups. -/
theorem allreduce_all_iff (numbnd nb : ℕ) (h : 0 < nb) :
    (∀ i < nb, entersAllreduce numbnd nb i = true) ↔ nb ≤ numbnd := by
  simp only [enters_iff]
  constructor
  · intro hall
    by_contra hlt
    have := hall (nb - 1) (by omega)
    have h1 : numbnd / nb = 0 := Nat.div_eq_of_lt (by omega)
    have h2 : numbnd % nb = numbnd := Nat.mod_eq_of_lt (by omega)
    omega
  · intro hle i _
    exact .inl ((Nat.one_le_div_iff h).mpr hle)

/-- C70, violated part: with fewer bands than band groups some groups enter the collective call and some do not, so
the ranks wait for one another forever. -/
theorem allreduce_split_violated (numbnd nb : ℕ) (h0 : 0 < numbnd) (h : numbnd < nb) :
    entersAllreduce numbnd nb 0 = true ∧ entersAllreduce numbnd nb (nb - 1) = false := by
  have h1 : numbnd / nb = 0 := Nat.div_eq_of_lt h
  have h2 : numbnd % nb = numbnd := Nat.mod_eq_of_lt h
  refine ⟨(enters_iff _ _ _).mpr (by omega), ?_⟩
  have := enters_iff numbnd nb (nb - 1)
  cases hb : entersAllreduce numbnd nb (nb - 1) with
  | false => rfl
  | true => have := this.mp hb; omega

example : (∀ i < 3, entersAllreduce 8 3 i = true) ∧ entersAllreduce 2 3 2 = false := by decide

/-! ## C90: the energies of every iteration -/

/-- The energy functional: with band energy `B`, potential functional pairing `P = ∫ v ρ`, Ewald, Hartree and exchange-correlation energy and
smearing term `-TS` (specification; `none` for fixed occupations). -/
noncomputable def freeEnergy (B P ew ha xc : ℝ) (ts : Option ℝ) : ℝ := B - P + ew + ha + xc + ts.getD 0

/-- **C90.** In every iteration of every run the reported energies belong to that iteration's own densities: with `rin` the input density of the
iteration, `w` its wavefunctions and `rout` their density, Hartree and xc energy are those of `rin`; the Harris–Weinert–Foulkes energy is the
functional with `∫ v[rin] rin`; the total energy the one with `∫ v[rin] rout` (with `rin` in the converging iteration), so the two differ exactly
by `∫ v[rin] (rout - rin)`; the internal energy is the total energy without the smearing term; the one-electron energy is the band
energy less the same pairing as in the total energy. -/
theorem C90_reported_energies (e : Env s n W V M) (maxiter : ℕ) (rho : Dens s (n + 1)) (w0 : W) (mx : M) (res : Res s n W M)
    (h : scf e maxiter rho w0 mx = .ok res) : ∀ r ∈ res.trace, ∃ (rin : Dens s (n + 1)) (w : W), r.err = e.err rin (e.rhoOut w) ∧
      r.en.ewald = e.ewald ∧ r.en.hartree = e.hartree rin ∧ r.en.xc = e.xc rin ∧
      r.en.smear = (if e.isSmear then some (e.smear w) else none) ∧
      r.en.hwf = freeEnergy (e.eig w) (e.pair (e.pot rin) rin) e.ewald (e.hartree rin) (e.xc rin) r.en.smear ∧
      r.en.total = freeEnergy (e.eig w) (e.pair (e.pot rin) (if r.converged then rin else e.rhoOut w)) e.ewald (e.hartree rin) (e.xc rin) r.en.smear ∧
      r.en.internal = r.en.smear.map (r.en.total - ·) ∧
      r.en.oneEl = e.eig w - e.pair (e.pot rin) (if r.converged then rin else e.rhoOut w) := by
  have key : ∀ (w : W) (rin rout : Dens s (n + 1)),
      (e.energy w rin rout).ewald = e.ewald ∧ (e.energy w rin rout).hartree = e.hartree rin ∧ (e.energy w rin rout).xc = e.xc rin ∧
      (e.energy w rin rout).smear = (if e.isSmear then some (e.smear w) else none) ∧
      (e.energy w rin rout).hwf = freeEnergy (e.eig w) (e.pair (e.pot rin) rin) e.ewald (e.hartree rin) (e.xc rin) (e.energy w rin rout).smear ∧
      (e.energy w rin rout).total = freeEnergy (e.eig w) (e.pair (e.pot rin) rout) e.ewald (e.hartree rin) (e.xc rin) (e.energy w rin rout).smear ∧
      (e.energy w rin rout).internal = (e.energy w rin rout).smear.map ((e.energy w rin rout).total - ·) ∧
      (e.energy w rin rout).oneEl = e.eig w - e.pair (e.pot rin) rout := by
    intro w rin rout
    unfold Env.energy freeEnergy
    cases e.isSmear <;> simp
  obtain ⟨-, -, hl⟩ := scf_path _ _ _ _ _ _ h
  obtain ⟨p, -, -, -⟩ := loop_path _ _ _ _ _ hl
  clear hl h
  have one : ∀ (idx : ℕ) (st st' : St s n W M) (r : Report), step e idx st = .ok (st', r) →
      ∃ (rin : Dens s (n + 1)) (w : W), r.err = e.err rin (e.rhoOut w) ∧
      r.en.ewald = e.ewald ∧ r.en.hartree = e.hartree rin ∧ r.en.xc = e.xc rin ∧
      r.en.smear = (if e.isSmear then some (e.smear w) else none) ∧
      r.en.hwf = freeEnergy (e.eig w) (e.pair (e.pot rin) rin) e.ewald (e.hartree rin) (e.xc rin) r.en.smear ∧
      r.en.total = freeEnergy (e.eig w) (e.pair (e.pot rin) (if r.converged then rin else e.rhoOut w)) e.ewald (e.hartree rin) (e.xc rin) r.en.smear ∧
      r.en.internal = r.en.smear.map (r.en.total - ·) ∧
      r.en.oneEl = e.eig w - e.pair (e.pot rin) (if r.converged then rin else e.rhoOut w) := by
    intro idx st st' r hs
    obtain ⟨hc, hp⟩ := step_spec e idx st st' r hs
    refine ⟨e.prep st.rho, st'.w, hc.err, ?_⟩
    rw [hc.en]
    cases hp with
    | conv hr _ hrho _ hen =>
      rw [hr, if_pos rfl, hen, hrho]
      exact key _ _ _
    | again hr _ _ _ _ _ hen =>
      rw [hr, hen, show (if false = true then e.prep st.rho else e.rhoOut st'.w) = e.rhoOut st'.w from rfl]
      exact key _ _ _
    | mixed hr _ _ _ _ hen =>
      rw [hr, hen, show (if false = true then e.prep st.rho else e.rhoOut st'.w) = e.rhoOut st'.w from rfl]
      exact key _ _ _
  generalize (⟨rho, rho, true, w0, mx, e.diagoInit, e.en0⟩ : St s n W M) = st0 at p
  generalize res.st = st1 at p
  generalize res.trace = tr at p
  generalize (0 : ℕ) = i0 at p
  intro r hr
  induction p with
  | nil => simp at hr
  | last idx st st' r' hs hc =>
    rw [List.mem_singleton] at hr
    subst hr
    exact one _ _ _ _ hs
  | cons idx st st' st'' r' rs hs hc _ ih =>
    rcases List.mem_cons.1 hr with rfl | hr
    · exact one _ _ _ _ hs
    · exact ih hr

end Verif.SCF
