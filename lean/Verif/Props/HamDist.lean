import Verif.Model.HamDist
import Verif.Props.PotDist
import Verif.Props.Nonloc
import Verif.Props.KSWfn

/-!
# C206, C207: Hamiltonian, density and eigen-solver do not depend on how the plane waves are distributed
-/

namespace Verif.HamDist

open Verif.Davidson

section iso

variable {E F : Type*} [NormedAddCommGroup E] [InnerProductSpace ℂ E] [NormedAddCommGroup F] [InnerProductSpace ℂ F]

/-- Two solvers that differ by an isometry of the wavefunctions. -/
structure Conj (U : E →ₗᵢ[ℂ] F) (c : Cfg E) (c' : Cfg F) : Prop where
  numeig : c'.numeig = c.numeig
  numwork : c'.numwork = c.numwork
  maxiter : c'.maxiter = c.maxiter
  thr : c'.thr = c.thr
  eigh : c'.eigh = c.eigh
  H : ∀ f, c'.H (U f) = U (c.H f)
  norm : ∀ f, c'.norm (U f) = U (c.norm f)
  precond : ∀ f e, c'.precond (U f) e = U (c.precond f e)

/-- Corresponding states; unused rows of the work arrays are arbitrary. -/
structure SRel (U : E →ₗᵢ[ℂ] F) (s : St E) (s' : St F) : Prop where
  ndim : s'.ndim = s.ndim
  nun : s'.nun = s.nun
  flag : s'.flag = s.flag
  ham : s'.ham = s.ham
  ovl : s'.ovl = s.ovl
  evcR : s'.evcR = s.evcR
  evlR : s'.evlR = s.evlR
  evl : s'.evl = s.evl
  psi : ∀ i < s.ndim, s'.psi i = U (s.psi i)
  hpsi : ∀ i < s.ndim, s'.hpsi i = U (s.hpsi i)
  evc : ∀ i, s'.evc i = U (s.evc i)

variable {U : E →ₗᵢ[ℂ] F} {c : Cfg E} {c' : Cfg F}

theorem comb_iso (n : ℕ) (C : ℕ → ℕ → ℂ) (v : ℕ → E) (v' : ℕ → F) (h : ∀ i < n, v' i = U (v i)) (m : ℕ) : comb n C v' m = U (comb n C v m) := by
  unfold comb
  rw [map_sum]
  refine Finset.sum_congr rfl fun j hj => ?_
  rw [h j (Finset.mem_range.1 hj), map_smul]

theorem move_iso (hc : Conj U c c') {s : St E} {s' : St F} (h : SRel U s s') : SRel U (moveUnconv c s) (moveUnconv c' s') := by
  unfold moveUnconv
  refine ⟨h.ndim, h.nun, h.flag, h.ham, h.ovl, ?_, ?_, h.evl, h.psi, h.hpsi, h.evc⟩
  · simp only [h.nun, h.evcR, h.flag, hc.numeig]
  · simp only [h.nun, h.evlR, h.flag, hc.numeig]

theorem expand_iso (hc : Conj U c c') {s : St E} {s' : St F} (h : SRel U s s') :
    match expandPsi c s, expandPsi c' s' with
    | .ok t, .ok t' => SRel U t t'
    | .error a, .error b => a = b
    | _, _ => False := by
  unfold expandPsi
  rw [hc.numeig, hc.numwork, h.ndim, h.nun]
  by_cases hh : c.numwork * c.numeig < s.ndim + s.nun
  · rw [if_pos hh, if_pos hh]
  · rw [if_neg hh, if_neg hh]
    have hnew : ∀ m, c'.norm (c'.precond (comb s.ndim s'.evcR s'.hpsi m - (s'.evlR m : ℂ) • comb s.ndim s'.evcR s'.psi m) (s'.evlR m)) =
        U (c.norm (c.precond (comb s.ndim s.evcR s.hpsi m - (s.evlR m : ℂ) • comb s.ndim s.evcR s.psi m) (s.evlR m))) := by
      intro m
      rw [h.evcR, h.evlR, comb_iso _ _ _ _ h.hpsi, comb_iso _ _ _ _ h.psi, ← map_smul, ← map_sub, hc.precond, hc.norm]
    refine ⟨rfl, rfl, h.flag, h.ham, h.ovl, h.evcR, h.evlR, h.evl, fun i hi => ?_, fun i hi => ?_, h.evc⟩
    · show (if s.ndim ≤ i ∧ i < s.ndim + s.nun then _ else s'.psi i) = U (if s.ndim ≤ i ∧ i < s.ndim + s.nun then _ else s.psi i)
      by_cases hi2 : s.ndim ≤ i
      · rw [if_pos ⟨hi2, hi⟩, if_pos ⟨hi2, hi⟩]
        exact hnew _
      · rw [if_neg (fun hx => hi2 hx.1), if_neg (fun hx => hi2 hx.1)]
        exact h.psi i (by omega)
    · show (if s.ndim ≤ i ∧ i < s.ndim + s.nun then c'.H (if s.ndim ≤ i ∧ i < s.ndim + s.nun then _ else s'.psi i) else s'.hpsi i) =
        U (if s.ndim ≤ i ∧ i < s.ndim + s.nun then c.H (if s.ndim ≤ i ∧ i < s.ndim + s.nun then _ else s.psi i) else s.hpsi i)
      by_cases hi2 : s.ndim ≤ i
      · rw [if_pos ⟨hi2, hi⟩, if_pos ⟨hi2, hi⟩, if_pos ⟨hi2, hi⟩, if_pos ⟨hi2, hi⟩]
        exact (congrArg c'.H (hnew _)).trans (hc.H _)
      · rw [if_neg (fun hx => hi2 hx.1), if_neg (fun hx => hi2 hx.1)]
        exact h.hpsi i (by omega)

theorem update_iso {s : St E} {s' : St F} (h : SRel U s s') : SRel U (updateRed s) (updateRed s') := by
  unfold updateRed
  refine ⟨h.ndim, h.nun, h.flag, ?_, ?_, h.evcR, h.evlR, h.evl, h.psi, h.hpsi, h.evc⟩
  · funext i j
    show (if s'.ndim - s'.nun ≤ i ∧ i < s'.ndim ∧ j < s'.ndim then inner ℂ (s'.psi i) (s'.hpsi j) else s'.ham i j) = if s.ndim - s.nun ≤ i ∧ i < s.ndim ∧ j < s.ndim then inner ℂ (s.psi i) (s.hpsi j) else s.ham i j
    rw [h.ndim, h.nun, h.ham]
    by_cases hh : s.ndim - s.nun ≤ i ∧ i < s.ndim ∧ j < s.ndim
    · rw [if_pos hh, if_pos hh, h.psi i hh.2.1, h.hpsi j hh.2.2, LinearIsometry.inner_map_map]
    · rw [if_neg hh, if_neg hh]
  · funext i j
    show (if s'.ndim - s'.nun ≤ i ∧ i < s'.ndim ∧ j < s'.ndim then inner ℂ (s'.psi i) (s'.psi j) else s'.ovl i j) = if s.ndim - s.nun ≤ i ∧ i < s.ndim ∧ j < s.ndim then inner ℂ (s.psi i) (s.psi j) else s.ovl i j
    rw [h.ndim, h.nun, h.ovl]
    by_cases hh : s.ndim - s.nun ≤ i ∧ i < s.ndim ∧ j < s.ndim
    · rw [if_pos hh, if_pos hh, h.psi i hh.2.1, h.psi j hh.2.2, LinearIsometry.inner_map_map]
    · rw [if_neg hh, if_neg hh]

theorem red_iso (hc : Conj U c c') {s : St E} {s' : St F} (h : SRel U s s') :
    match solveRed c s, solveRed c' s' with
    | .ok t, .ok t' => SRel U t t'
    | .error a, .error b => a = b
    | _, _ => False := by
  unfold solveRed
  rw [hc.eigh, h.ndim, h.ham, h.ovl]
  cases c.eigh s.ndim s.ham s.ovl with
  | error e => rfl
  | ok x =>
    obtain ⟨C, lam⟩ := x
    exact ⟨rfl, h.nun, h.flag, rfl, rfl, by simp only [h.evcR], rfl, h.evl, h.psi, h.hpsi, h.evc⟩

theorem check_iso (hc : Conj U c c') {s : St E} {s' : St F} (h : SRel U s s') : SRel U (checkConv c s) (checkConv c' s') := by
  unfold checkConv
  refine ⟨h.ndim, ?_, ?_, h.ham, h.ovl, h.evcR, h.evlR, h.evlR, h.psi, h.hpsi, h.evc⟩
  · simp only [hc.numeig, hc.thr, h.evlR, h.evl]
  · simp only [hc.thr, h.evlR, h.evl]

theorem rotate_iso {s : St E} {s' : St F} (h : SRel U s s') : SRel U (rotate s) (rotate s') := by
  refine ⟨h.ndim, h.nun, h.flag, h.ham, h.ovl, h.evcR, h.evlR, h.evl, h.psi, h.hpsi, fun i => ?_⟩
  show comb s'.ndim s'.evcR s'.psi i = U (comb s.ndim s.evcR s.psi i)
  rw [h.ndim, h.evcR]
  exact comb_iso _ _ _ _ h.psi i

theorem restart_iso (hc : Conj U c c') {s : St E} {s' : St F} (h : SRel U s s') : SRel U (restart c s) (restart c' s') := by
  unfold restart
  rw [hc.numeig]
  refine ⟨rfl, h.nun, h.flag, by simp only [h.evl], rfl, rfl, h.evlR, h.evl, fun i hi => ?_, fun i hi => ?_, h.evc⟩
  · show (if i < c.numeig then _ else _) = U (if i < c.numeig then _ else _)
    rw [if_pos hi, if_pos hi, h.evc]
  · show (if i < c.numeig then _ else _) = U (if i < c.numeig then _ else _)
    rw [if_pos hi, if_pos hi, h.ndim, h.evcR]
    exact comb_iso _ _ _ _ h.hpsi i

theorem body_iso (hc : Conj U c c') {s : St E} {s' : St F} (h : SRel U s s') :
    match body c s, body c' s' with
    | .ok t, .ok t' => SRel U t t'
    | .error a, .error b => a = b
    | _, _ => False := by
  unfold body
  have h1 := expand_iso hc (move_iso hc h)
  revert h1
  generalize expandPsi c (moveUnconv c s) = a
  generalize expandPsi c' (moveUnconv c' s') = b
  intro h1
  cases a with
  | error a => cases b with
    | error b => exact h1
    | ok b => exact h1.elim
  | ok a => cases b with
    | error b => exact h1.elim
    | ok b =>
      have h2 := red_iso hc (update_iso h1)
      dsimp only
      revert h2
      generalize solveRed c (updateRed a) = x
      generalize solveRed c' (updateRed b) = y
      intro h2
      cases x with
      | error a => cases y with
        | error b => exact h2
        | ok b => exact h2.elim
      | ok a => cases y with
        | error b => exact h2.elim
        | ok b => exact check_iso hc h2

/-- The results correspond. -/
def ORel (U : E →ₗᵢ[ℂ] F) (r : Except PyErr (Out E)) (r' : Except PyErr (Out F)) : Prop :=
  match r, r' with
  | .ok o, .ok o' => (∀ i, o'.evc i = U (o.evc i)) ∧ o'.evl = o.evl ∧ o'.iters = o.iters ∧ o'.converged = o.converged
  | .error a, .error b => a = b
  | _, _ => False

theorem loop_iso (hc : Conj U c c') (fuel k : ℕ) {s : St E} {s' : St F} (h : SRel U s s') : ORel U (loop c fuel k s) (loop c' fuel k s') := by
  induction fuel generalizing k s s' with
  | zero => exact ⟨h.evc, h.evl, rfl, rfl⟩
  | succ fuel ih =>
    have h1 := body_iso hc h
    simp only [loop]
    revert h1
    generalize body c s = a
    generalize body c' s' = b
    intro h1
    cases a with
    | error a => cases b with
      | error b => exact h1
      | ok b => exact h1.elim
    | ok a => cases b with
      | error b => exact h1.elim
      | ok b =>
        have h1' : SRel U a b := h1
        dsimp only
        rw [h1'.nun, h1'.ndim, hc.numwork, hc.numeig]
        by_cases h2 : a.nun = 0
        · rw [if_pos h2, if_pos h2]
          exact ⟨(rotate_iso h1').evc, (rotate_iso h1').evl, rfl, rfl⟩
        · rw [if_neg h2, if_neg h2]
          by_cases h3 : c.numwork * c.numeig < a.ndim + a.nun
          · rw [if_pos h3, if_pos h3]
            exact ih _ (restart_iso hc (rotate_iso h1'))
          · rw [if_neg h3, if_neg h3]
            exact ih _ h1'

/-- The solver commutes with isometries of the wavefunctions; what the uninitialised work arrays hold does not matter. -/
theorem solve_iso (hc : Conj U c c') (evc psi0 hpsi0 : ℕ → E) (evc' psi0' hpsi0' : ℕ → F) (he : ∀ i, evc' i = U (evc i)) : ORel U (solve c evc psi0 hpsi0) (solve c' evc' psi0' hpsi0') := by
  unfold solve
  rw [hc.thr, hc.numwork, hc.maxiter]
  by_cases hh : ¬ 0 < c.thr ∨ ¬ 1 < c.numwork ∨ ¬ 1 < c.maxiter
  · rw [if_pos hh, if_pos hh]
    rfl
  · rw [if_neg hh, if_neg hh]
    have h0 : SRel U (initSt c evc psi0 hpsi0) (initSt c' evc' psi0' hpsi0') := by
      unfold initSt
      rw [hc.numeig]
      refine update_iso ⟨rfl, rfl, rfl, rfl, rfl, rfl, rfl, rfl, fun i hi => ?_, fun i hi => ?_, he⟩
      · show (if i < c.numeig then _ else _) = U (if i < c.numeig then _ else _)
        rw [if_pos hi, if_pos hi, he, hc.norm]
      · show (if i < c.numeig then c'.H (if i < c.numeig then _ else _) else _) = U (if i < c.numeig then c.H (if i < c.numeig then _ else _) else _)
        rw [if_pos hi, if_pos hi, if_pos hi, if_pos hi, he, hc.norm, hc.H]
    have h1 := red_iso hc h0
    revert h1
    generalize solveRed c (initSt c evc psi0 hpsi0) = a
    generalize solveRed c' (initSt c' evc' psi0' hpsi0') = b
    intro h1
    cases a with
    | error a => cases b with
      | error b => exact h1
      | ok b => exact h1.elim
    | ok a => cases b with
      | error b => exact h1.elim
      | ok b =>
        have h1' : SRel U a b := h1
        exact loop_iso hc _ _ ⟨h1'.ndim, h1'.nun, h1'.flag, h1'.ham, h1'.ovl, h1'.evcR, h1'.evlR, h1'.evlR, h1'.psi, h1'.hpsi, h1'.evc⟩

end iso

/-! ## Transforms and products on parts -/

section parts

open Verif.Dist Verif.PotDist Verif.FFT

variable {S : Setup}

theorem wfR_sim (hS : S.Ok) (st : ℕ → Dist.St ℂ) (hinv : ∀ p < S.P, Inv S p (st p)) (drv : Driver) (sst : DrvState ℂ) (f : Fin S.idx.length → ℂ) (p : Fin S.P) (r : Fin (lm S p)) :
    wfR S st (fun p j => f (eG S hS p j)) p r = Nonloc.wfR drv S.d S.idx sst f (eR S hS p r) := by
  have harr : ∀ q < S.P, (if h : q < S.P then List.ofFn (fun j => f (eG S hS ⟨q, h⟩ j)) else []) = S.cutG q (List.ofFn f) := by
    intro q hq
    rw [dif_pos hq]
    exact ofFn_cutG S hS f ⟨q, hq⟩
  obtain ⟨st', out, e1, _, e3⟩ := Dist.g2r_eq S hS (dftKern false S.d) false st hinv (List.ofFn f) (by simp) _ harr
  show (match Dist.g2r S (dftKern false S.d) false st (fun q => if h : q < S.P then List.ofFn (fun j => f (eG S hS ⟨q, h⟩ j)) else []) with
    | some (_, out) => out p r
    | none => 0) = (drv.g2r S.d (dftKern false S.d) false S.idx sst (List.ofFn f)).2 (eR S hS p r)
  rw [e1]
  show out p r = _
  rw [e3 p p.2 r r.2, drv.g2r_eq S.d _ false S.idx hS.valid sst sst.f (List.ofFn f) (by simp) _ (eR S hS p r).2, FFT.fullG2r_eq S.d _ false S.idx hS.valid _ (List.ofFn f) (by simp)]
  rfl

theorem wfG_sim (hS : S.Ok) (st : ℕ → Dist.St ℂ) (drv : Driver) (sst : DrvState ℂ) (u : Fin S.d.size → ℂ) (p : Fin S.P) (j : Fin (ln S p)) :
    wfG S st (fun p r => u (eR S hS p r)) p j = Nonloc.wfG drv S.d S.idx sst u (eG S hS p j) := by
  have harr : ∀ q < S.P, ∀ k < S.nxl q * S.d.plane, (if h : q < S.P then (if hk : k < S.nxl q * S.d.plane then u (eR S hS ⟨q, h⟩ ⟨k, hk⟩) else 0) else 0)
      = (fun k => if h : k < S.d.size then u ⟨k, h⟩ else 0) (S.x0 q * S.d.plane + k) := by
    intro q hq k hk
    rw [dif_pos hq, dif_pos hk]
    show _ = if h : S.x0 q * S.d.plane + k < S.d.size then u ⟨_, h⟩ else 0
    rw [dif_pos (plane_lt S hS q hq k hk)]
    rfl
  obtain ⟨st', out, e1, _, e3⟩ := Dist.r2g_eq S hS (dftKern true S.d) st (fun k => if h : k < S.d.size then u ⟨k, h⟩ else 0) _ harr
  show (match Dist.r2g S (dftKern true S.d) st (fun q k => if h : q < S.P then (if hk : k < S.nxl q * S.d.plane then u (eR S hS ⟨q, h⟩ ⟨k, hk⟩) else 0) else 0) with
    | some (_, out) => (out p).getD j 0
    | none => 0) = (drv.r2g S.d (dftKern true S.d) S.idx sst (fun k => if h : k < S.d.size then u ⟨k, h⟩ else 0)).2.getD (eG S hS p j) 0
  rw [e1]
  show (out p).getD j 0 = _
  rw [e3 p p.2, drv.r2g_eq S.d _ S.idx hS.valid sst sst.f _ _ (fun _ _ => rfl), FFT.fullR2g_eq]
  refine Eq.trans ?_ (cutG_get S hS _ (by simp) p p.2 j (lt_of_lt_of_eq j.2 (lenG S _ (by simp) p).symm) 0)
  unfold Setup.cutG pySlice
  rw [← List.map_drop, ← List.map_take]

/-- The projectors of every process: its plane waves of the serial ones, the same coefficients. -/
def projPart (S : Setup) (Q : Nonloc.Proj S.idx.length) (p : Fin S.P) : Nonloc.Proj (ln S p) := ⟨Q.num, fun i => part S (Q.vkb i) p, Q.dij⟩

theorem applyProj_sim (hS : S.Ok) (dev : Nonloc.Device) (Q : Nonloc.Proj S.idx.length) (psi hpsi : Fin S.idx.length → ℂ) :
    applyProj dev (projPart S Q) (fun p j => psi (eG S hS p j)) (fun p j => hpsi (eG S hS p j)) = fun p j => Nonloc.applyProj dev Q psi hpsi (eG S hS p j) := by
  funext p j
  unfold applyProj Nonloc.applyProj projPart vdot
  simp only [part_eq S hS]
  have : ∀ i, (∑ q : Fin S.P, ∑ k, (starRingEnd ℂ) (Q.vkb i (eG S hS q k)) * psi (eG S hS q k)) = ∑ k, (starRingEnd ℂ) (Q.vkb i k) * psi k := fun i => sum_eG S hS fun k => (starRingEnd ℂ) (Q.vkb i k) * psi k
  simp only [this]

theorem hPsi_sim (hS : S.Ok) (st : ℕ → Dist.St ℂ) (hinv : ∀ p < S.P, Inv S p (st p)) (drv : Driver) (sst : DrvState ℂ) (dev : Nonloc.Device) (gk2 : Fin S.idx.length → ℝ) (vloc : Fin S.d.size → ℂ)
    (nl : List (Nonloc.Proj S.idx.length)) (psi : Fin S.idx.length → ℂ) :
    hPsi dev S st (part S gk2) (planes S vloc) (nl.map (projPart S)) (fun p j => psi (eG S hS p j)) = fun p j => Nonloc.hPsi dev drv S.d S.idx sst gk2 vloc nl psi (eG S hS p j) := by
  have key : ∀ (l : List (Nonloc.Proj S.idx.length)) (h : Fin S.idx.length → ℂ),
      (l.map (projPart S)).foldl (fun h Q => applyProj dev Q (fun p j => psi (eG S hS p j)) h) (fun p j => h (eG S hS p j)) =
        fun p j => l.foldl (fun h P => Nonloc.applyProj dev P psi h) h (eG S hS p j) := by
    intro l
    induction l with
    | nil => intro h; rfl
    | cons Q l ih =>
      intro h
      rw [List.map_cons, List.foldl_cons, List.foldl_cons, applyProj_sim hS dev Q psi h]
      exact ih _
  have e0 : (fun (p : Fin S.P) (j : Fin (ln S p)) => ((1 / 2 * part S gk2 p j : ℝ) : ℂ) * psi (eG S hS p j) + wfG S st (fun p r => wfR S st (fun p j => psi (eG S hS p j)) p r * planes S vloc p r) p j) =
      fun p j => (fun j => ((1 / 2 * gk2 j : ℝ) : ℂ) * psi j + Nonloc.wfG drv S.d S.idx sst (fun r => Nonloc.wfR drv S.d S.idx sst psi r * vloc r) j) (eG S hS p j) := by
    funext p j
    simp only [part_eq S hS, planes_eq S hS, wfR_sim hS st hinv drv sst]
    rw [← wfG_sim hS st drv sst (fun r => Nonloc.wfR drv S.d S.idx sst psi r * vloc r) p j]
  unfold hPsi Nonloc.hPsi
  rw [← key]
  exact congrArg (fun x => List.foldl (fun h Q => applyProj dev Q (fun p j => psi (eG S hS p j)) h) x (List.map (projPart S) nl)) e0

/-! ## The properties -/

/-- **C206, Hamiltonian.** For every distribution of the plane waves of a k-point, whatever was transformed before: `h_psi` gives every process its part of the serial result. -/
theorem C206_hamiltonian (hS : S.Ok) (garbage : ℕ → Dist.St ℂ) (hist : List (Dist.DCall ℂ)) (hok : ∀ c ∈ hist, c.Ok S) (drv : Driver) (sst : DrvState ℂ) (dev : Nonloc.Device) :
    ∃ st, Dist.runHist S (dftKern true S.d) (dftKern false S.d) false hist (fun p => (garbage p).fresh) = some st ∧
      ∀ (gk2 : Fin S.idx.length → ℝ) (vloc : Fin S.d.size → ℂ) (nl : List (Nonloc.Proj S.idx.length)) (psi : Fin S.idx.length → ℂ),
        hPsi dev S st (part S gk2) (planes S vloc) (nl.map (projPart S)) (part S psi) = part S (Nonloc.hPsi dev drv S.d S.idx sst gk2 vloc nl psi) := by
  obtain ⟨st, h1, h2⟩ := Dist.runHist_ok S hS (dftKern true S.d) (dftKern false S.d) false hist hok (fun p => (garbage p).fresh) (fun p _ => Dist.inv_fresh S p _)
  refine ⟨st, h1, fun gk2 vloc nl psi => ?_⟩
  rw [part_eq S hS psi, part_eq S hS (Nonloc.hPsi _ _ _ _ _ _ _ _ _)]
  exact hPsi_sim hS st h2 drv sst dev gk2 vloc nl psi

/-- **C206, projectors.** `gen_vkb_dij` on the plane waves of one process (its `gk_cryst`, angles and radial values) gives the part of the serial projectors and of their diagonal, and the same coefficients. -/
theorem C206_projectors (hS : S.Ok) (beta_l : List ℕ) (nat : ℕ) (tau : ℕ → Fin 3 → ℝ) (gk : Fin S.idx.length → Fin 3 → ℝ) (Y : Fin S.idx.length → ℕ → ℕ → ℂ) (F : ℕ → Fin S.idx.length → ℝ) (dij : ℕ → ℕ → ℝ) (p : Fin S.P) :
    Nonloc.speciesProj beta_l nat tau (part S gk p) (part S Y p) (fun b => part S (F b) p) dij = projPart S (Nonloc.speciesProj beta_l nat tau gk Y F dij) p ∧
      Nonloc.vkbDiag nat (Nonloc.vkbL beta_l).length (Nonloc.speciesProj beta_l nat tau (part S gk p) (part S Y p) (fun b => part S (F b) p) dij) (Nonloc.dijAtom beta_l dij) =
        part S (Nonloc.vkbDiag nat (Nonloc.vkbL beta_l).length (Nonloc.speciesProj beta_l nat tau gk Y F dij) (Nonloc.dijAtom beta_l dij)) p := by
  have h1 : Nonloc.speciesProj beta_l nat tau (part S gk p) (part S Y p) (fun b => part S (F b) p) dij = projPart S (Nonloc.speciesProj beta_l nat tau gk Y F dij) p := by
    unfold projPart Nonloc.speciesProj Nonloc.genVkbDij
    simp only [part_eq S hS]
  refine ⟨h1, ?_⟩
  rw [h1, part_eq S hS]
  funext j
  unfold Nonloc.vkbDiag projPart
  simp only [part_eq S hS]

/-- **C206, products.** `vdot` and `norm2` of distributed wavefunctions are those of the whole ones. -/
theorem C206_products (hS : S.Ok) (f g : Fin S.idx.length → ℂ) :
    vdot (part S f) (part S g) = ∑ j, (starRingEnd ℂ) (f j) * g j ∧ norm2 (part S f) = ∑ j, Complex.normSq (f j) := by
  simp only [part_eq S hS]
  exact ⟨sum_eG S hS fun j => (starRingEnd ℂ) (f j) * g j, sum_eG S hS fun j => Complex.normSq (f j)⟩

/-- Distributed Kohn-Sham wavefunctions: the same bands, spin components and occupations; every process holds its plane waves of every spin component. -/
structure KPart (S : Setup) (K : KSWfn.KS) (Kp : Fin S.P → KSWfn.KS) : Prop where
  nb : ∀ p, (Kp p).nb = K.nb
  nspin : ∀ p, (Kp p).nspin = K.nspin
  occ : ∀ p, (Kp p).occ = K.occ
  numg : ∀ p, (Kp p).numg = ln S p
  evc : ∀ p b, ∀ s < K.nspin, ∀ j : Fin (ln S p), (Kp p).evc b (s * ln S p + j) = part S (fun i : Fin S.idx.length => K.evc b (s * S.idx.length + i)) p j

theorem sum_spin {M : Type} [AddCommMonoid M] (n s : ℕ) (F : ℕ → M) : ∑ i ∈ Finset.range (s * n), F i = ∑ k ∈ Finset.range s, ∑ j : Fin n, F (k * n + j) := by
  induction s with
  | zero => simp
  | succ s ih =>
    rw [Finset.sum_range_succ, ← ih, Nat.succ_mul, Finset.sum_range_add, Finset.sum_range (fun x => F (s * n + x))]

theorem ksNorm2_sim (hS : S.Ok) (K : KSWfn.KS) (hn : K.numg = S.idx.length) (Kp : Fin S.P → KSWfn.KS) (h : KPart S K Kp) (b : ℕ) : ksNorm2 Kp b = K.norm2 b := by
  have e0 : K.norm2 b = ∑ k ∈ Finset.range K.nspin, ∑ j : Fin S.idx.length, Complex.normSq (K.evc b (k * S.idx.length + j)) := by
    unfold KSWfn.KS.norm2 KSWfn.KS.basis
    rw [hn, sum_spin]
  have e1 : ∀ p, (Kp p).norm2 b = ∑ k ∈ Finset.range K.nspin, ∑ j : Fin (ln S p), Complex.normSq (K.evc b (k * S.idx.length + eG S hS p j)) := by
    intro p
    unfold KSWfn.KS.norm2 KSWfn.KS.basis
    rw [h.numg, h.nspin, sum_spin]
    refine Finset.sum_congr rfl fun k hk => Finset.sum_congr rfl fun j _ => ?_
    rw [h.evc p b k (Finset.mem_range.1 hk) j, part_eq S hS]
  unfold ksNorm2
  simp only [e1, e0]
  rw [Finset.sum_comm]
  exact Finset.sum_congr rfl fun k _ => sum_eG S hS fun j => Complex.normSq (K.evc b (k * S.idx.length + j))

theorem density_sim (hS : S.Ok) (st : ℕ → Dist.St ℂ) (hinv : ∀ p < S.P, Inv S p (st p)) (drv : Driver) (sst : DrvState ℂ) (K : KSWfn.KS) (hn : K.numg = S.idx.length) (Kp : Fin S.P → KSWfn.KS)
    (h : KPart S K Kp) (b s : ℕ) (hs : s < K.nspin) (p : Fin S.P) (r : Fin (lm S p)) : density S st Kp b s p r = KSWfn.density drv S.d S.idx sst K b s (eR S hS p r) := by
  have e1 : (fun (q : Fin S.P) (i : Fin (ln S q)) => (Kp q).evc b (s * (Kp q).numg + i)) = fun q i => (fun i : Fin S.idx.length => K.evc b (s * S.idx.length + i)) (eG S hS q i) := by
    funext q i
    rw [h.numg, h.evc q b s hs i, part_eq S hS]
  have e2 : (List.range K.numg).map (fun i => K.evc b (s * K.numg + i)) = List.ofFn fun i : Fin S.idx.length => K.evc b (s * S.idx.length + i) := by
    rw [hn]
    refine List.ext_getElem (by simp) fun i h1 h2 => ?_
    simp
  have e3 := wfR_sim hS st hinv drv sst (fun i : Fin S.idx.length => K.evc b (s * S.idx.length + i)) p r
  unfold density KSWfn.density
  simp only [e1, e2]
  rw [e3]
  rfl

/-- **C206, density.** `compute_rho` of distributed wavefunctions, for any selection of bands and any number of spin components: every process gets its grid points of the serial density, and the wavefunctions left behind
are again the parts of the serial ones; it fails on every process, with the serial error, exactly when the serial call does. -/
theorem C206_density (hS : S.Ok) (garbage : ℕ → Dist.St ℂ) (hist : List (Dist.DCall ℂ)) (hok : ∀ c ∈ hist, c.Ok S) (drv : Driver) (sst : DrvState ℂ) (vol : ℝ) :
    ∃ st, Dist.runHist S (dftKern true S.d) (dftKern false S.d) false hist (fun p => (garbage p).fresh) = some st ∧
      ∀ (K : KSWfn.KS) (_ : K.numg = S.idx.length) (Kp : Fin S.P → KSWfn.KS) (_ : KPart S K Kp) (sel : KSWfn.Sel),
        (∀ e, KSWfn.computeRho drv S.d S.idx sst vol K sel = .error e → ∀ p, computeRho S st vol Kp sel p = .error e) ∧
        ∀ K' rho, KSWfn.computeRho drv S.d S.idx sst vol K sel = .ok (K', rho) →
          ∃ Kp' : Fin S.P → KSWfn.KS, KPart S K' Kp' ∧ ∀ p, ∃ rp, computeRho S st vol Kp sel p = .ok (Kp' p, rp) ∧ ∀ s < K.nspin, rp s = planes S (fun r : Fin S.d.size => rho s r) p := by
  obtain ⟨st, h1, h2⟩ := Dist.runHist_ok S hS (dftKern true S.d) (dftKern false S.d) false hist hok (fun p => (garbage p).fresh) (fun p _ => Dist.inv_fresh S p _)
  refine ⟨st, h1, fun K hn Kp hK sel => ?_⟩
  have hnorm : ∀ f : ℕ → Bool, KPart S (K.normalize f) (ksNormalize Kp f) := by
    intro f
    refine ⟨hK.nb, hK.nspin, hK.occ, hK.numg, fun p b s hs j => ?_⟩
    show (if f b then (Kp p).evc b (s * ln S p + j) / (Real.sqrt (ksNorm2 Kp b) : ℂ) else (Kp p).evc b (s * ln S p + j)) = _
    rw [hK.evc p b s hs j, ksNorm2_sim hS K hn Kp hK, part_eq S hS, part_eq S hS]
    rfl
  have G : ∀ (bands : List ℕ) (K1 : KSWfn.KS) (Kp1 : Fin S.P → KSWfn.KS), KPart S K1 Kp1 → K1.numg = S.idx.length → K1.nspin = K.nspin →
      (∀ e, (if bands.all (fun b => decide (b < K.nb)) = false then .error .index else if bands = [] then .error .attribute
          else .ok (K1, fun s r => (bands.map fun b => (K.occ b : ℂ) * KSWfn.density drv S.d S.idx sst K1 b s r).sum / (vol : ℂ)) : Except PyErr (KSWfn.KS × (ℕ → ℕ → ℂ))) = .error e →
        ∀ p, (if bands.all (fun b => decide (b < K.nb)) = false then .error .index else if bands = [] then .error .attribute
          else .ok (Kp1 p, fun s r => (bands.map fun b => (K.occ b : ℂ) * density S st Kp1 b s p r).sum / (vol : ℂ)) : Except PyErr (KSWfn.KS × (ℕ → Fin (lm S p) → ℂ))) = .error e) ∧
      ∀ K' rho, (if bands.all (fun b => decide (b < K.nb)) = false then .error .index else if bands = [] then .error .attribute
          else .ok (K1, fun s r => (bands.map fun b => (K.occ b : ℂ) * KSWfn.density drv S.d S.idx sst K1 b s r).sum / (vol : ℂ)) : Except PyErr (KSWfn.KS × (ℕ → ℕ → ℂ))) = .ok (K', rho) →
        ∃ Kp' : Fin S.P → KSWfn.KS, KPart S K' Kp' ∧ ∀ p, ∃ rp, (if bands.all (fun b => decide (b < K.nb)) = false then .error .index else if bands = [] then .error .attribute
          else .ok (Kp1 p, fun s r => (bands.map fun b => (K.occ b : ℂ) * density S st Kp1 b s p r).sum / (vol : ℂ)) : Except PyErr (KSWfn.KS × (ℕ → Fin (lm S p) → ℂ))) = .ok (Kp' p, rp) ∧
          ∀ s < K.nspin, rp s = planes S (fun r : Fin S.d.size => rho s r) p := by
    intro bands K1 Kp1 hK' hn' hs'
    by_cases c1 : bands.all (fun b => decide (b < K.nb)) = false
    · simp only [if_pos c1]
      refine ⟨fun e he p => ?_, fun K' rho h => ?_⟩
      · rw [← Except.error.inj he]
      · cases h
    · simp only [if_neg c1]
      by_cases c2 : bands = []
      · simp only [if_pos c2]
        refine ⟨fun e he p => ?_, fun K' rho h => ?_⟩
        · rw [← Except.error.inj he]
        · cases h
      · simp only [if_neg c2]
        refine ⟨fun e he p => (by cases he), fun K' rho h => ?_⟩
        have h' := Except.ok.inj h
        obtain ⟨rfl, rfl⟩ := Prod.mk.inj h'
        refine ⟨Kp1, hK', fun p => ⟨_, rfl, fun s hs => ?_⟩⟩
        rw [planes_eq S hS]
        funext r
        simp only [density_sim hS st h2 drv sst K1 hn' Kp1 hK' _ s (hs' ▸ hs) p r]
  unfold KSWfn.computeRho computeRho
  simp only [hK.nb, hK.occ]
  cases sel with
  | slice a b => exact G _ _ _ (hnorm fun b' => decide (b' ∈ KSWfn.Sel.bands K.nb (.slice a b))) hn rfl
  | index l => exact G _ _ _ hK hn rfl

/-- Distributing a wavefunction is an isometry. -/
noncomputable def spread (hS : S.Ok) : EuclideanSpace ℂ (Fin S.idx.length) →ₗᵢ[ℂ] DWf S where
  toFun f := DWf.mk fun p j => f (eG S hS p j)
  map_add' f g := rfl
  map_smul' c f := rfl
  norm_map' f := by
    show ‖DWf.mk fun p j => f (eG S hS p j)‖ = ‖f‖
    rw [PiLp.norm_eq_of_L2, EuclideanSpace.norm_eq]
    congr 1
    rw [← sum_eG S hS fun i => ‖f i‖ ^ 2]
    refine Finset.sum_congr rfl fun p _ => ?_
    rw [EuclideanSpace.norm_sq_eq]
    rfl

/-- **C207.** The Davidson solver run by the processes of a plane-wave group on the parts of the starting wavefunctions, with the Hamiltonian, preconditioner and products of distributed wavefunctions, whatever the work arrays
hold: the returned wavefunctions are the parts of those of the serial solver, eigenvalues, iteration count and convergence status are the same, and it fails exactly when the serial solver does, with the same error. -/
theorem C207_solver (hS : S.Ok) (garbage : ℕ → Dist.St ℂ) (hist : List (Dist.DCall ℂ)) (hok : ∀ c ∈ hist, c.Ok S) (drv : Driver) (sst : DrvState ℂ) (dev : Nonloc.Device) :
    ∃ st, Dist.runHist S (dftKern true S.d) (dftKern false S.d) false hist (fun p => (garbage p).fresh) = some st ∧
      ∀ (gk2 : Fin S.idx.length → ℝ) (vloc : Fin S.d.size → ℂ) (nl : List (Nonloc.Proj S.idx.length)) (diag : Fin S.idx.length → ℝ) (numeig numwork maxiter : ℕ) (thr : ℝ)
        (eigh : ℕ → (ℕ → ℕ → ℂ) → (ℕ → ℕ → ℂ) → Except PyErr ((ℕ → ℕ → ℂ) × (ℕ → ℝ))) (evc psi0 hpsi0 : ℕ → EuclideanSpace ℂ (Fin S.idx.length)) (psiD hpsiD : ℕ → DWf S),
        match solve (serCfg dev drv S.d S.idx sst gk2 vloc nl diag numeig numwork maxiter thr eigh) evc psi0 hpsi0,
          solve (davCfg dev S st (part S gk2) (planes S vloc) (nl.map (projPart S)) (part S diag) numeig numwork maxiter thr eigh) (fun i => DWf.mk (part S fun j => evc i j)) psiD hpsiD with
        | .ok o, .ok o' => (∀ i, (o'.evc i).parts = part S fun j => o.evc i j) ∧ o'.evl = o.evl ∧ o'.iters = o.iters ∧ o'.converged = o.converged
        | .error a, .error b => a = b
        | _, _ => False := by
  obtain ⟨st, h1, h2⟩ := Dist.runHist_ok S hS (dftKern true S.d) (dftKern false S.d) false hist hok (fun p => (garbage p).fresh) (fun p _ => Dist.inv_fresh S p _)
  refine ⟨st, h1, fun gk2 vloc nl diag numeig numwork maxiter thr eigh evc psi0 hpsi0 psiD hpsiD => ?_⟩
  have hc : Conj (spread hS) (serCfg dev drv S.d S.idx sst gk2 vloc nl diag numeig numwork maxiter thr eigh)
      (davCfg dev S st (part S gk2) (planes S vloc) (nl.map (projPart S)) (part S diag) numeig numwork maxiter thr eigh) := by
    refine ⟨rfl, rfl, rfl, rfl, rfl, fun f => ?_, fun f => ?_, fun f e => ?_⟩
    · exact congrArg DWf.mk (hPsi_sim hS st h2 drv sst dev gk2 vloc nl fun j => f j)
    · have : norm2 (fun (p : Fin S.P) (j : Fin (ln S p)) => f (eG S hS p j)) = ∑ j, Complex.normSq (f j) := sum_eG S hS fun j => Complex.normSq (f j)
      show DWf.mk (normalize fun (p : Fin S.P) (j : Fin (ln S p)) => f (eG S hS p j)) = DWf.mk fun p j => f (eG S hS p j) / (Real.sqrt (∑ j, Complex.normSq (f j)) : ℂ)
      unfold normalize
      rw [this]
    · show DWf.mk (fun p j => gPsi (part S diag p j) e (f (eG S hS p j))) = DWf.mk fun p j => gPsi (diag (eG S hS p j)) e (f (eG S hS p j))
      rw [part_eq S hS]
  have := solve_iso hc evc psi0 hpsi0 (fun i => DWf.mk (part S fun j => evc i j)) psiD hpsiD (fun i => by rw [part_eq S hS]; rfl)
  revert this
  generalize solve (serCfg dev drv S.d S.idx sst gk2 vloc nl diag numeig numwork maxiter thr eigh) evc psi0 hpsi0 = a
  generalize solve (davCfg dev S st (part S gk2) (planes S vloc) (nl.map (projPart S)) (part S diag) numeig numwork maxiter thr eigh) (fun i => DWf.mk (part S fun j => evc i j)) psiD hpsiD = b
  intro this
  cases a <;> cases b
  · exact this
  · exact this.elim
  · exact this.elim
  · refine ⟨fun i => ?_, this.2⟩
    rw [this.1 i, part_eq S hS]
    rfl

end parts

/-! ## Non-vacuity -/

/-- Two processes, two spin components, three bands. -/
example : KPart PotDist.exS ⟨3, 2, PotDist.exS.idx.length, fun b i => b + if i < 4 then 1 else 2, fun b => b, fun _ => 0⟩
    (fun p => ⟨3, 2, ln PotDist.exS p, fun b i => b + if i < ln PotDist.exS p then 1 else 2, fun b => b, fun _ => 0⟩) := by
  refine ⟨fun _ => rfl, fun _ => rfl, fun _ => rfl, fun _ => rfl, fun p b s hs j => ?_⟩
  rw [PotDist.part_eq _ PotDist.exS_ok]
  have h4 : PotDist.exS.idx.length = 4 := rfl
  have hj := j.2
  have he := (PotDist.eG PotDist.exS PotDist.exS_ok p j).2
  have hs2 : s < 2 := hs
  show (b : ℂ) + (if s * ln PotDist.exS p + j.1 < ln PotDist.exS p then 1 else 2) = b + if s * PotDist.exS.idx.length + (PotDist.eG PotDist.exS PotDist.exS_ok p j).1 < 4 then 1 else 2
  generalize (PotDist.eG PotDist.exS PotDist.exS_ok p j).1 = x at he ⊢
  rw [h4] at he ⊢
  rcases s with _ | _ | s
  · rw [if_pos (by omega), if_pos (by omega)]
  · rw [if_neg (by omega), if_neg (by omega)]
  · omega

/-- A run of the serial solver that succeeds (with a reduced solver that returns the unit vectors and zero eigenvalues). -/
example (dev : Nonloc.Device) (drv : FFT.Driver) (sst : FFT.DrvState ℂ) (evc psi0 hpsi0 : ℕ → EuclideanSpace ℂ (Fin PotDist.exS.idx.length)) :
    ∃ o, Davidson.solve (serCfg dev drv PotDist.exS.d PotDist.exS.idx sst (fun _ => 1) (fun _ => 1) [] (fun _ => 1) 1 2 2 1 fun _ _ _ => .ok (fun m j => if m = j then 1 else 0, fun _ => 0)) evc psi0 hpsi0 = .ok o ∧
      o.converged = true := by
  simp [Davidson.solve, serCfg, Davidson.solveRed, Davidson.initSt, Davidson.updateRed, Davidson.loop, Davidson.body, Davidson.moveUnconv, Davidson.expandPsi, Davidson.checkConv, Davidson.unconvRows]

end Verif.HamDist
