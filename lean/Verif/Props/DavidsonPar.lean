import Verif.Model.DavidsonPar
import Verif.Props.Davidson

/-!
# C139: the band-parallel Davidson solver computes what the serial one computes
-/

namespace Verif.Davidson

variable {E : Type*} [NormedAddCommGroup E] [InnerProductSpace ℂ E] {m : ℕ}

theorem blkStart_succ (len P r : ℕ) : blkStart len P (r + 1) = blkStart len P r + bufspec len P r := by
  unfold blkStart bufspec
  have : (r + 1) * (len / P) = r * (len / P) + len / P := by ring
  split <;> omega

theorem blkStop_eq (len P r : ℕ) : blkStop len P r = blkStart len P (r + 1) := by
  rw [blkStart_succ]; unfold blkStop bufspec; omega

/-- The displacements mpi4py computes from `gen_bufspec` are the starts of `scatter_slice`. -/
theorem displ_eq (len P r : ℕ) : displ len P r = blkStart len P r := by
  induction r with
  | zero => simp [displ, blkStart]
  | succ r ih => rw [blkStart_succ, ← ih]; simp [displ, Finset.sum_range_succ]

theorem blkStart_mono (len P : ℕ) {r s : ℕ} (h : r ≤ s) : blkStart len P r ≤ blkStart len P s := by
  induction s, h using Nat.le_induction with
  | base => exact le_rfl
  | succ s _ ih => rw [blkStart_succ]; omega

theorem blkStart_last (len m : ℕ) : blkStart len (m + 1) (m + 1) = len := by
  unfold blkStart
  have h1 : len % (m + 1) < m + 1 := Nat.mod_lt len (Nat.succ_pos m)
  have h2 := Nat.div_add_mod len (m + 1)
  rw [Nat.min_eq_right (by omega)]; omega

theorem blk_cover (len P x n : ℕ) (h : x < blkStart len P n) : ∃ r < n, blkStart len P r ≤ x ∧ x < blkStart len P (r + 1) := by
  induction n with
  | zero => simp [blkStart] at h
  | succ n ih =>
    by_cases hx : x < blkStart len P n
    · obtain ⟨r, h1, h2⟩ := ih hx; exact ⟨r, by omega, h2⟩
    · exact ⟨n, by omega, by omega, h⟩

theorem gather_in {α : Type*} (start len : ℕ) (bufs : Fin (m + 1) → ℕ → α) (q : Fin (m + 1)) (i : ℕ) (v : α)
    (h1 : start ≤ i) (h2 : i < start + len) (h : ∀ r : Fin (m + 1), own start len (m + 1) r.val i → bufs r i = v) :
    gather start len bufs q i = v := by
  unfold gather
  split
  · next r hr =>
    have := List.find?_some hr
    simp only [decide_eq_true_eq, displ_eq] at this
    exact h r ⟨this.1, by rw [blkStop_eq, blkStart_succ]; omega⟩
  · next hr =>
    exfalso
    rw [List.find?_eq_none] at hr
    obtain ⟨r, hr1, hr2, hr3⟩ := blk_cover len (m + 1) (i - start) (m + 1) (by rw [blkStart_last]; omega)
    apply hr ⟨r, hr1⟩ (List.mem_finRange _)
    rw [blkStart_succ] at hr3
    simp only [decide_eq_true_eq, displ_eq]; omega

theorem gather_out {α : Type*} (start len : ℕ) (bufs : Fin (m + 1) → ℕ → α) (q : Fin (m + 1)) (i : ℕ)
    (h : ¬ (start ≤ i ∧ i < start + len)) : gather start len bufs q i = bufs q i := by
  unfold gather
  split
  · next r hr =>
    exfalso
    have := List.find?_some hr
    simp only [decide_eq_true_eq, displ_eq] at this
    have h2 := blkStart_mono len (m + 1) (show r.val + 1 ≤ m + 1 from r.isLt)
    rw [blkStart_last, blkStart_succ] at h2
    omega
  · rfl

theorem own_range (start len : ℕ) (r : Fin (m + 1)) (i : ℕ) (h : own start len (m + 1) r.val i) : start ≤ i ∧ i < start + len := by
  obtain ⟨h1, h2⟩ := h
  have h3 := blkStart_mono len (m + 1) (show r.val + 1 ≤ m + 1 from r.isLt)
  rw [blkStart_last] at h3
  rw [blkStop_eq] at h2
  omega

/-- Two processes agree: the numbers and small matrices are the same, the vectors where they have been assigned. -/
structure Agree (c : Cfg E) (s t : St E) : Prop where
  ndim : s.ndim = t.ndim
  nun : s.nun = t.nun
  flag : s.flag = t.flag
  ham : s.ham = t.ham
  ovl : s.ovl = t.ovl
  evcR : s.evcR = t.evcR
  evlR : s.evlR = t.evlR
  evl : s.evl = t.evl
  psi : ∀ i < t.ndim, s.psi i = t.psi i
  hpsi : ∀ i < t.ndim, s.hpsi i = t.hpsi i
  evc : ∀ i < c.numeig, s.evc i = t.evc i

theorem comb_congr (n : ℕ) (C : ℕ → ℕ → ℂ) (u v : ℕ → E) (h : ∀ i < n, u i = v i) : comb n C u = comb n C v := by
  funext k; unfold comb
  exact Finset.sum_congr rfl fun j hj => by rw [h j (Finset.mem_range.1 hj)]

theorem agree_move (c : Cfg E) (s t : St E) (h : Agree c s t) : Agree c (moveUnconv c s) (moveUnconv c t) := by
  obtain ⟨h1, h2, h3, h4, h5, h6, h7, h8, h9, h10, h11⟩ := h
  constructor <;> simp only [moveUnconv] <;> first | assumption | (rw [h2, h3, h6]) | (rw [h2, h3, h7])

theorem agree_update (c : Cfg E) (S : Fin (m + 1) → St E) (t : St E) (hle : t.nun ≤ t.ndim) (h : ∀ q, Agree c (S q) t) (q : Fin (m + 1)) :
    Agree c (parUpdateRed S q) (updateRed t) := by
  have key : ∀ (f : St E → ℕ → ℕ → ℂ) (g : St E → ℕ → ℕ → ℂ) (hfg : ∀ r i, i < t.ndim → ∀ j < t.ndim, f (S r) i j = f t i j)
      (hg : ∀ r, g (S r) = g t),
      gather ((S q).ndim - (S q).nun) (S q).nun (fun r i => if own ((S r).ndim - (S r).nun) (S r).nun (m + 1) r i then
        (fun j => if j < (S r).ndim then f (S r) i j else g (S r) i j) else g (S r) i) q =
      fun i j => if t.ndim - t.nun ≤ i ∧ i < t.ndim ∧ j < t.ndim then f t i j else g t i j := by
    intro f g hfg hg
    funext i
    rw [(h q).ndim, (h q).nun]
    by_cases hi : t.ndim - t.nun ≤ i ∧ i < t.ndim - t.nun + t.nun
    · apply gather_in _ _ _ _ _ _ hi.1 hi.2
      intro r hr
      simp only [(h r).ndim, (h r).nun, hr, if_true]
      funext j
      by_cases hj : j < t.ndim
      · rw [if_pos hj, if_pos ⟨hi.1, by omega, hj⟩, hfg r i (by omega) j hj]
      · rw [if_neg hj, if_neg (by tauto), hg]
    · rw [gather_out _ _ _ _ _ hi]
      have : ¬ own ((S q).ndim - (S q).nun) (S q).nun (m + 1) q i := by
        intro ho; rw [(h q).ndim, (h q).nun] at ho; exact hi (own_range _ _ q i ho)
      simp only [this, if_false]
      funext j
      rw [if_neg (by omega), hg]
  obtain ⟨h1, h2, h3, h4, h5, h6, h7, h8, h9, h10, h11⟩ := h q
  constructor
  · exact h1
  · exact h2
  · exact h3
  · exact key (fun s i j => inner ℂ (s.psi i) (s.hpsi j)) (fun s => s.ham)
      (fun r i hi j hj => by simp only [(h r).psi i hi, (h r).hpsi j hj]) (fun r => (h r).ham)
  · exact key (fun s i j => inner ℂ (s.psi i) (s.psi j)) (fun s => s.ovl)
      (fun r i hi j hj => by simp only [(h r).psi i hi, (h r).psi j hj]) (fun r => (h r).ovl)
  · exact h6
  · exact h7
  · exact h8
  · exact h9
  · exact h10
  · exact h11

/-- What a distributed update of rows amounts to. -/
theorem gather_rows {α : Type*} (start len : ℕ) (St Le : Fin (m + 1) → ℕ) (hS : ∀ r, St r = start) (hL : ∀ r, Le r = len)
    (new old : Fin (m + 1) → ℕ → α) (f : ℕ → α) (hn : ∀ r i, start ≤ i → i < start + len → new r i = f i) (q : Fin (m + 1)) (i : ℕ) :
    gather (St q) (Le q) (fun r i => if own (St r) (Le r) (m + 1) r i then new r i else old r i) q i =
      if start ≤ i ∧ i < start + len then f i else old q i := by
  rw [hS, hL]
  by_cases hi : start ≤ i ∧ i < start + len
  · rw [if_pos hi]
    apply gather_in _ _ _ _ _ _ hi.1 hi.2
    intro r hr
    simp only [hS, hL, hr, if_true]
    exact hn r i hi.1 hi.2
  · rw [if_neg hi, gather_out _ _ _ _ _ hi]
    have : ¬ own (St q) (Le q) (m + 1) q i := by
      rw [hS, hL]; exact fun ho => hi (own_range _ _ q i ho)
    simp only [this, if_false]

/-- Rows of `compute_hpsi`. -/
theorem parHpsi_row (c : Cfg E) (start len : ℕ) (S : Fin (m + 1) → St E) (psi : ℕ → E)
    (h : ∀ r i, start ≤ i → i < start + len → (S r).psi i = psi i) (q : Fin (m + 1)) (i : ℕ) :
    (parHpsi c start len S q).hpsi i = if start ≤ i ∧ i < start + len then c.H (psi i) else (S q).hpsi i :=
  gather_rows start len (fun _ => start) (fun _ => len) (fun _ => rfl) (fun _ => rfl) (fun r i => c.H ((S r).psi i)) (fun r => (S r).hpsi)
    (fun i => c.H (psi i)) (fun r i h1 h2 => by simp only [h r i h1 h2]) q i

theorem agree_expand (c : Cfg E) (S : Fin (m + 1) → St E) (t : St E) (h : ∀ q, Agree c (S q) t) :
    match parExpand c S, expandPsi c t with
    | .ok S', .ok t' => (∀ q, Agree c (S' q) t') ∧ t'.nun ≤ t'.ndim
    | .error x, .error y => x = y
    | _, _ => False := by
  by_cases hv : c.numwork * c.numeig < t.ndim + t.nun
  · have : ∃ r, c.numwork * c.numeig < (S r).ndim + (S r).nun := ⟨0, by rw [(h 0).ndim, (h 0).nun]; exact hv⟩
    simp only [parExpand, expandPsi, hv, this, if_true]
  · have hn : ¬ ∃ r, c.numwork * c.numeig < (S r).ndim + (S r).nun := by
      rintro ⟨r, hr⟩; rw [(h r).ndim, (h r).nun] at hr; exact hv hr
    simp only [parExpand, expandPsi, hv, hn, if_false]
    set S1 : Fin (m + 1) → St E := fun q =>
      { S q with
        psi := gather (S q).ndim (S q).nun (fun r i => if own (S r).ndim (S r).nun (m + 1) r i then comb (S r).ndim (S r).evcR (S r).psi (i - (S r).ndim) else (S r).psi i) q
        hpsi := gather (S q).ndim (S q).nun (fun r i => if own (S r).ndim (S r).nun (m + 1) r i then comb (S r).ndim (S r).evcR (S r).hpsi (i - (S r).ndim) else (S r).hpsi i) q } with hS1
    set S2 : Fin (m + 1) → St E := fun q =>
      { S1 q with
        psi := gather (S1 q).ndim (S1 q).nun (fun r i => if own (S1 r).ndim (S1 r).nun (m + 1) r i then
          c.norm (c.precond ((S1 r).hpsi i - ((S1 r).evlR (i - (S1 r).ndim) : ℂ) • (S1 r).psi i) ((S1 r).evlR (i - (S1 r).ndim))) else (S1 r).psi i) q } with hS2
    have e1 : ∀ q i, (S1 q).psi i = if t.ndim ≤ i ∧ i < t.ndim + t.nun then comb t.ndim t.evcR t.psi (i - t.ndim) else (S q).psi i := by
      intro q i
      refine gather_rows t.ndim t.nun (fun r => (S r).ndim) (fun r => (S r).nun) (fun r => (h r).ndim) (fun r => (h r).nun)
        (fun r i => comb (S r).ndim (S r).evcR (S r).psi (i - (S r).ndim)) (fun r => (S r).psi) (fun i => comb t.ndim t.evcR t.psi (i - t.ndim)) ?_ q i
      intro r i _ _
      simp only [(h r).ndim, (h r).evcR, comb_congr t.ndim t.evcR _ _ (h r).psi]
    have e2 : ∀ q i, (S1 q).hpsi i = if t.ndim ≤ i ∧ i < t.ndim + t.nun then comb t.ndim t.evcR t.hpsi (i - t.ndim) else (S q).hpsi i := by
      intro q i
      refine gather_rows t.ndim t.nun (fun r => (S r).ndim) (fun r => (S r).nun) (fun r => (h r).ndim) (fun r => (h r).nun)
        (fun r i => comb (S r).ndim (S r).evcR (S r).hpsi (i - (S r).ndim)) (fun r => (S r).hpsi) (fun i => comb t.ndim t.evcR t.hpsi (i - t.ndim)) ?_ q i
      intro r i _ _
      simp only [(h r).ndim, (h r).evcR, comb_congr t.ndim t.evcR _ _ (h r).hpsi]
    let new : ℕ → E := fun k => c.norm (c.precond (comb t.ndim t.evcR t.hpsi k - (t.evlR k : ℂ) • comb t.ndim t.evcR t.psi k) (t.evlR k))
    have e3 : ∀ q i, (S2 q).psi i = if t.ndim ≤ i ∧ i < t.ndim + t.nun then new (i - t.ndim) else (S1 q).psi i := by
      intro q i
      refine gather_rows t.ndim t.nun (fun r => (S1 r).ndim) (fun r => (S1 r).nun) (fun r => (h r).ndim) (fun r => (h r).nun)
        (fun r i => c.norm (c.precond ((S1 r).hpsi i - ((S1 r).evlR (i - (S1 r).ndim) : ℂ) • (S1 r).psi i) ((S1 r).evlR (i - (S1 r).ndim))))
        (fun r => (S1 r).psi) (fun i => new (i - t.ndim)) ?_ q i
      intro r i h1 h2
      have a1 : (S1 r).evlR = t.evlR := (h r).evlR
      have a2 : (S1 r).ndim = t.ndim := (h r).ndim
      simp only [a1, a2, e1 r i, e2 r i, h1, h2, and_self, if_true, new]
    have e4 : ∀ q i, (parHpsi c (S2 q).ndim (S2 q).nun S2 q).hpsi i =
        if t.ndim ≤ i ∧ i < t.ndim + t.nun then c.H (new (i - t.ndim)) else (S2 q).hpsi i := by
      intro q i
      have a2 : (S2 q).ndim = t.ndim := (h q).ndim
      have a3 : (S2 q).nun = t.nun := (h q).nun
      rw [a2, a3]
      refine parHpsi_row c t.ndim t.nun S2 (fun i => new (i - t.ndim)) ?_ q i
      intro r i h1 h2
      rw [e3, if_pos ⟨h1, h2⟩]
    refine ⟨fun q => ?_, by omega⟩
    obtain ⟨h1, h2, h3, h4, h5, h6, h7, h8, h9, h10, h11⟩ := h q
    constructor
    · show (S q).ndim + (S q).nun = t.ndim + t.nun
      rw [h1, h2]
    · exact h2
    · exact h3
    · exact h4
    · exact h5
    · exact h6
    · exact h7
    · exact h8
    · intro i hi
      show (S2 q).psi i = if t.ndim ≤ i ∧ i < t.ndim + t.nun then new (i - t.ndim) else t.psi i
      have hi' : i < t.ndim + t.nun := hi
      rw [e3, e1]
      by_cases hc : t.ndim ≤ i ∧ i < t.ndim + t.nun
      · rw [if_pos hc, if_pos hc]
      · rw [if_neg hc, if_neg hc, if_neg hc, h9 i (by omega)]
    · intro i hi
      have hi' : i < t.ndim + t.nun := hi
      show (parHpsi c (S2 q).ndim (S2 q).nun S2 q).hpsi i = if t.ndim ≤ i ∧ i < t.ndim + t.nun then
        c.H (if t.ndim ≤ i ∧ i < t.ndim + t.nun then new (i - t.ndim) else t.psi i) else t.hpsi i
      rw [e4]
      by_cases hc : t.ndim ≤ i ∧ i < t.ndim + t.nun
      · simp only [hc, and_self, if_true]
      · simp only [hc, if_false]
        rw [show (S2 q).hpsi i = (S1 q).hpsi i from rfl, e2, if_neg hc, h10 i (by omega)]
    · exact h11

theorem agree_solveRed (c : Cfg E) (S : Fin (m + 1) → St E) (t : St E) (h : ∀ q, Agree c (S q) t) :
    match parSolveRed c S, solveRed c t with
    | .ok S', .ok t' => (∀ q, Agree c (S' q) t') ∧ t'.ndim = t.ndim ∧ t'.nun = t.nun
    | .error x, .error y => x = y
    | _, _ => False := by
  have h0 := h 0
  simp only [parSolveRed, solveRed, h0.ndim, h0.ham, h0.ovl]
  cases c.eigh t.ndim t.ham t.ovl with
  | error x => rfl
  | ok p =>
    obtain ⟨C, lam⟩ := p
    refine ⟨fun q => ?_, rfl, rfl⟩
    obtain ⟨h1, h2, h3, h4, h5, h6, h7, h8, h9, h10, h11⟩ := h q
    constructor <;> first | assumption | rfl | (simp only [h0.evcR])

theorem agree_check (c : Cfg E) (S : Fin (m + 1) → St E) (t : St E) (h : ∀ q, Agree c (S q) t) (q : Fin (m + 1)) :
    Agree c (parCheckConv c S q) (checkConv c t) := by
  have h0 := h 0
  obtain ⟨h1, h2, h3, h4, h5, h6, h7, h8, h9, h10, h11⟩ := h q
  constructor <;> first | assumption | (simp only [parCheckConv, checkConv, h0.evlR, h0.evl])

theorem agree_body (c : Cfg E) (S : Fin (m + 1) → St E) (t : St E) (h : ∀ q, Agree c (S q) t) :
    match parBody c S, body c t with
    | .ok S', .ok t' => (∀ q, Agree c (S' q) t')
    | .error x, .error y => x = y
    | _, _ => False := by
  have a1 := agree_expand c (fun q => moveUnconv c (S q)) (moveUnconv c t) fun q => agree_move c _ _ (h q)
  unfold parBody body
  revert a1
  cases parExpand c fun q => moveUnconv c (S q) with
  | error x =>
    cases expandPsi c (moveUnconv c t) with
    | error y => exact id
    | ok t' => exact False.elim
  | ok S1 =>
    cases expandPsi c (moveUnconv c t) with
    | error y => exact False.elim
    | ok t1 =>
      rintro ⟨a1, hle⟩
      have a2 := agree_solveRed c _ _ fun q => agree_update c S1 t1 hle a1 q
      revert a2
      simp only
      cases parSolveRed c (parUpdateRed S1) with
      | error x =>
        cases solveRed c (updateRed t1) with
        | error y => exact id
        | ok t' => exact False.elim
      | ok S2 =>
        cases solveRed c (updateRed t1) with
        | error y => exact False.elim
        | ok t2 => rintro ⟨a2, -, -⟩; exact agree_check c S2 t2 a2

theorem agree_rotate (c : Cfg E) (S : Fin (m + 1) → St E) (t : St E) (h : ∀ q, Agree c (S q) t) (q : Fin (m + 1)) :
    Agree c (parRotate c S q) (rotate t) := by
  obtain ⟨h1, h2, h3, h4, h5, h6, h7, h8, h9, h10, h11⟩ := h q
  constructor <;> first | assumption | skip
  intro i hi
  have := gather_rows 0 c.numeig (fun _ => 0) (fun _ => c.numeig) (fun _ => rfl) (fun _ => rfl)
    (fun r i => comb (S r).ndim (S r).evcR (S r).psi i) (fun r => (S r).evc) (fun i => comb t.ndim t.evcR t.psi i)
    (by intro r i _ _; simp only [(h r).ndim, (h r).evcR, comb_congr t.ndim t.evcR _ _ (h r).psi]) q i
  rw [if_pos (by omega)] at this
  exact this

theorem agree_restart (c : Cfg E) (S : Fin (m + 1) → St E) (t : St E) (h : ∀ q, Agree c (S q) t) (q : Fin (m + 1)) :
    Agree c (parRestart c S q) (restart c t) := by
  obtain ⟨h1, h2, h3, h4, h5, h6, h7, h8, h9, h10, h11⟩ := h q
  have key := fun i => gather_rows 0 c.numeig (fun _ => 0) (fun _ => c.numeig) (fun _ => rfl) (fun _ => rfl)
    (fun r i => comb (S r).ndim (S r).evcR (S r).hpsi i) (fun r => (S r).psi) (fun i => comb t.ndim t.evcR t.hpsi i)
    (by intro r i _ _; simp only [(h r).ndim, (h r).evcR, comb_congr t.ndim t.evcR _ _ (h r).hpsi]) q i
  constructor <;> first | assumption | rfl | skip
  · simp only [parRestart, restart, h8]
  · intro i hi
    have hi' : i < c.numeig := hi
    simp only [parRestart, restart, hi', if_true, h11 i hi']
  · intro i hi
    have hi' : i < c.numeig := hi
    simp only [parRestart, restart, hi', if_true]
    have := key i
    rw [if_pos (by omega)] at this
    exact this

/-- Outcome of a run of all processes against the outcome of the serial run. -/
def SameRun (c : Cfg E) (p : Except PyErr (Fin (m + 1) → POut E)) (s : Except PyErr (Out E)) : Prop :=
  match p, s with
  | .ok P, .ok o => ∀ q, (∀ i < c.numeig, (P q).evc i = o.evc i) ∧ (P q).evl = o.evl ∧ (P q).iters = o.iters ∧ (P q).converged = o.converged
  | .error x, .error y => x = y
  | _, _ => False

theorem agree_loop (c : Cfg E) (fuel k : ℕ) (S : Fin (m + 1) → St E) (t : St E) (h : ∀ q, Agree c (S q) t) :
    SameRun c (parLoop c fuel k S) (loop c fuel k t) := by
  induction fuel generalizing k S t with
  | zero => exact fun q => ⟨(h q).evc, (h q).evl, rfl, rfl⟩
  | succ fuel ih =>
    have hb := agree_body c S t h
    unfold parLoop loop
    revert hb
    cases parBody c S with
    | error x =>
      cases body c t with
      | error y => exact id
      | ok t' => exact False.elim
    | ok S1 =>
      cases body c t with
      | error y => exact False.elim
      | ok t1 =>
        intro hb
        replace hb : ∀ q, Agree c (S1 q) t1 := hb
        have hnun : ∀ q, (S1 q).nun = t1.nun := fun q => (hb q).nun
        have hndim : ∀ q, (S1 q).ndim = t1.ndim := fun q => (hb q).ndim
        simp only [hnun, hndim, forall_const, exists_const]
        by_cases h0 : t1.nun = 0
        · simp only [h0, if_true]
          exact fun q => ⟨(agree_rotate c S1 t1 hb q).evc, (agree_rotate c S1 t1 hb q).evl, rfl, rfl⟩
        · simp only [h0, if_false]
          by_cases h1 : c.numwork * c.numeig < t1.ndim + t1.nun
          · simp only [h1, if_true]
            exact ih _ _ _ (agree_restart c _ _ (agree_rotate c S1 t1 hb))
          · simp only [h1, if_false]
            exact ih _ _ _ hb

theorem agree_init (c : Cfg E) (evc psi0 hpsi0 : Fin (m + 1) → ℕ → E) (psi1 hpsi1 : ℕ → E) (q : Fin (m + 1)) :
    Agree c (parInit c evc psi0 hpsi0 q) (initSt c (evc 0) psi1 hpsi1) := by
  unfold parInit initSt
  apply agree_update c _ _ le_rfl
  intro q
  constructor <;> first | rfl | skip
  · intro i hi
    have hi' : i < c.numeig := hi
    simp only [parHpsi, hi', if_true]
  · intro i hi
    have hi' : i < c.numeig := hi
    simp only [hi', if_true]
    rw [parHpsi_row c 0 c.numeig _ (fun i => c.norm (evc 0 i))]
    · simp only [Nat.zero_le, Nat.zero_add, hi', and_self, if_true]
    · intro r j _ hj
      have hj' : j < c.numeig := by omega
      simp only [hj', if_true]
  · intro i _; rfl

/-- C139: for every number of band groups, every process ends the diagonalisation with the bands, eigenvalues and iteration count of the serial solver started from the
root's wave functions, whatever its own wave functions and uninitialised work arrays held; if the serial solver fails, so does the parallel one, with the same error. -/
theorem C139_band_parallel (c : Cfg E) (evc psi0 hpsi0 : Fin (m + 1) → ℕ → E) (psi1 hpsi1 : ℕ → E) :
    SameRun c (parSolve c evc psi0 hpsi0) (solve c (evc 0) psi1 hpsi1) := by
  unfold parSolve solve
  by_cases ha : ¬ 0 < c.thr ∨ ¬ 1 < c.numwork ∨ ¬ 1 < c.maxiter
  · simp only [ha, if_true]; exact rfl
  · simp only [ha, if_false]
    have hi := agree_solveRed c _ _ (agree_init c evc psi0 hpsi0 psi1 hpsi1)
    revert hi
    cases parSolveRed c (parInit c evc psi0 hpsi0) with
    | error x =>
      cases solveRed c (initSt c (evc 0) psi1 hpsi1) with
      | error y => exact id
      | ok t' => exact False.elim
    | ok S1 =>
      cases solveRed c (initSt c (evc 0) psi1 hpsi1) with
      | error y => exact False.elim
      | ok t1 =>
        rintro ⟨hi, -, -⟩
        apply agree_loop
        intro q
        obtain ⟨h1, h2, h3, h4, h5, h6, h7, h8, h9, h10, h11⟩ := hi q
        constructor <;> assumption

/-- The rows the processes work on are a partition of every slice, in the order of the ranks. -/
theorem C139_rows (start len : ℕ) (i : ℕ) : (start ≤ i ∧ i < start + len) ↔ ∃! r : Fin (m + 1), own start len (m + 1) r.val i := by
  constructor
  · rintro ⟨h1, h2⟩
    obtain ⟨r, hr1, hr2, hr3⟩ := blk_cover len (m + 1) (i - start) (m + 1) (by rw [blkStart_last]; omega)
    refine ⟨⟨r, hr1⟩, ⟨show start + blkStart len (m + 1) r ≤ i by omega, show i < start + blkStop len (m + 1) r by rw [blkStop_eq]; omega⟩, ?_⟩
    rintro ⟨s, hs⟩ ⟨h3, h4⟩
    rw [blkStop_eq] at h4
    simp only at h3 h4
    ext
    simp only
    rcases lt_trichotomy s r with hl | hl | hl
    · have := blkStart_mono len (m + 1) (show s + 1 ≤ r from hl); omega
    · exact hl
    · have := blkStart_mono len (m + 1) (show r + 1 ≤ s from hl); omega
  · rintro ⟨r, hr, -⟩; exact own_range start len r i hr

/-- The run exists: three band groups, garbage in the work arrays, the example of `solve_mismatch_violated`. -/
example : ∃ P : Fin 3 → POut E3, parSolve (exCfg (1 / 2)) (fun q _ => if q = 0 then ev 0 else ev 1) (fun _ _ => ev 2) (fun q _ => (q.val : ℂ) • ev 0) = .ok P ∧
    ∀ q, (P q).evl 0 = -3 ∧ (P q).evc 0 = ev 0 := by
  obtain ⟨-, -, o, ho, -, h2, h3, -⟩ := solve_mismatch_violated
  have h := C139_band_parallel (m := 2) (exCfg (1 / 2)) (fun q _ => if q = 0 then ev 0 else ev 1) (fun _ _ => ev 2) (fun q _ => (q.val : ℂ) • ev 0)
    (fun _ => 0) (fun _ => 0)
  simp only [if_true, ho] at h
  revert h
  cases parSolve (exCfg (1 / 2)) (fun (q : Fin 3) _ => if q = 0 then ev 0 else ev 1) (fun _ _ => ev 2) (fun q _ => (q.val : ℂ) • ev 0) with
  | error x => exact False.elim
  | ok P =>
    intro h
    refine ⟨P, rfl, fun q => ?_⟩
    obtain ⟨a1, a2, -, -⟩ := h q
    exact ⟨by rw [a2, h2], by rw [a1 0 (by decide), h3]⟩

/-- Two band groups and one band, the example of `solve_mismatch_violated`: the second process gets the band although it owns no row. -/
example : own 0 1 2 0 0 ∧ ¬ own 0 1 2 1 0 ∧ own 5 5 2 1 8 ∧ ¬ own 5 5 2 1 7 := by decide

end Verif.Davidson
