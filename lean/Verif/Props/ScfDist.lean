import Verif.Model.ScfDist
import Verif.Props.PotDist
import Verif.Props.SCF

/-!
# C209: a whole SCF run on distributed plane waves
-/

namespace Verif.ScfDist

open Verif.Dist (Setup Inv)
open Verif.HamDist (ln lm DWf davCfg serCfg KPart)
open Verif.FFT (Driver Dims DrvState dftKern)
open Verif.PotDist (PointFunc distSpace GList eG eR part_eq planes_eq)
open Verif.Pot (fftSpace)
open Verif.Mixing (Dens)

/-! ## The loop, simulated -/

/-- Two outcomes correspond: values that do, or the same exception. -/
def ERel {α β : Type} (R : α → β → Prop) (x : Except PyErr α) (y : Except PyErr β) : Prop :=
  match x, y with
  | .ok a, .ok b => R a b
  | .error e, .error e' => e' = e
  | _, _ => False

theorem ERel.bind {α β γ δ : Type} {R : α → β → Prop} {Q : γ → δ → Prop} {x : Except PyErr α} {y : Except PyErr β} {f : α → Except PyErr γ} {g : β → Except PyErr δ} (h : ERel R x y)
    (hf : ∀ a b, R a b → ERel Q (f a) (g b)) : ERel Q (x >>= f) (y >>= g) := by
  cases x <;> cases y
  · exact h
  · exact h.elim
  · exact h.elim
  · exact hf _ _ h

theorem ERel.mono {α β : Type} {R Q : α → β → Prop} {x : Except PyErr α} {y : Except PyErr β} (h : ERel R x y) (hf : ∀ a b, R a b → Q a b) : ERel Q x y := by
  cases x <;> cases y
  · exact h
  · exact h.elim
  · exact h.elim
  · exact hf _ _ h

theorem ERel.of_eq {α β : Type} {R : α → β → Prop} {x x' : Except PyErr α} {y y' : Except PyErr β} (hx : x = x') (hy : y = y') (h : ERel R x' y') : ERel R x y := by
  rw [hx, hy]
  exact h

section loop

variable {D D' W W' V V' M M' : Type}

/-- The second set of calls does on the densities `φ rho` and related states what the first does. -/
structure Sim (φ : D → D') (RW : W → W' → Prop) (RV : V → V' → Prop) (RM : M → M' → Prop) (e : Ops D W V M) (e' : Ops D' W' V' M') : Prop where
  set : e'.symmRho = e.symmRho ∧ e'.numel = e.numel ∧ e'.convThr = e.convThr ∧ e'.diagoInit = e.diagoInit ∧ e'.isSmear = e.isSmear ∧ e'.ewald = e.ewald
  normalize : ∀ rho, e'.normalize (φ rho) = φ (e.normalize rho)
  symm : ∀ rho, e'.symm (φ rho) = φ (e.symm rho)
  pot : ∀ rho, ERel (fun a b => RV a.1 b.1 ∧ b.2 = a.2) (e.pot rho) (e'.pot (φ rho))
  pair : ∀ v v' rho, RV v v' → e'.pair v' (φ rho) = e.pair v rho
  solve : ∀ w w' v v' thr, RW w w' → RV v v' → ERel RW (e.solve w v thr) (e'.solve w' v' thr)
  occ : ∀ w w', RW w w' → ERel (fun a b => RW a.1 b.1 ∧ b.2 = a.2) (e.occ w) (e'.occ w')
  eig : ∀ w w', RW w w' → e'.eig w' = e.eig w
  rhoWfn : ∀ w w', RW w w' → ERel (fun a b => RW a.1 b.1 ∧ b.2 = φ a.2) (e.rhoWfn w) (e'.rhoWfn w')
  err : ∀ a b, e'.err (φ a) (φ b) = e.err a b
  mix : ∀ mx mx' a b, RM mx mx' → ERel (fun o o' => RM o.mx o'.mx ∧ o'.rho = φ o.rho ∧ o'.arg = φ o.arg ∧ o'.same = o.same) (e.mix mx a b) (e'.mix mx' (φ a) (φ b))

variable {φ : D → D'} {RW : W → W' → Prop} {RV : V → V' → Prop} {RM : M → M' → Prop} {e : Ops D W V M} {e' : Ops D' W' V' M'}

theorem sym_sim (t : Sim φ RW RV RM e e') (rho : D) : e'.sym (φ rho) = φ (e.sym rho) := by
  unfold Ops.sym
  rw [t.set.1]
  split
  · exact t.symm rho
  · rfl

/-- The halves of an iteration correspond. -/
structure HRel (φ : D → D') (RW : W → W' → Prop) (RV : V → V' → Prop) (h : Half D W V) (h' : Half D' W' V') : Prop where
  w : RW h.w h'.w
  rout : h'.rout = φ h.rout
  v : RV h.v h'.v
  num : h'.eh = h.eh ∧ h'.exc = h.exc ∧ h'.smear = h.smear

theorem half_sim (t : Sim φ RW RV RM e e') (w : W) (w' : W') (hw : RW w w') (rin : D) (thr : ℝ) : ERel (HRel φ RW RV) (e.half w rin thr) (e'.half w' (φ rin) thr) := by
  unfold Ops.half
  refine (t.pot rin).bind fun v v' hv => (t.solve w w' v.1 v'.1 thr hw hv.1).bind fun w1 w1' h1 => (t.occ w1 w1' h1).bind fun w2 w2' h2 => (t.rhoWfn w2.1 w2'.1 h2.1).bind fun w3 w3' h3 => ?_
  refine ⟨h3.1, ?_, hv.1, ?_, ?_, h2.2⟩
  · show e'.sym (e'.normalize w3'.2) = φ (e.sym (e.normalize w3.2))
    rw [h3.2, t.normalize, sym_sim t]
  · show v'.2.1 = v.2.1
    rw [hv.2]
  · show v'.2.2 = v.2.2
    rw [hv.2]

theorem energy_sim (t : Sim φ RW RV RM e e') {h : Half D W V} {h' : Half D' W' V'} (hh : HRel φ RW RV h h') (a b : D) : e'.energy h' (φ a) (φ b) = e.energy h a b := by
  unfold Ops.energy
  rw [t.set.2.2.2.2.1, t.set.2.2.2.2.2, t.eig _ _ hh.w, t.pair _ _ a hh.v, t.pair _ _ b hh.v, hh.num.1, hh.num.2.1, hh.num.2.2]

/-- The variables of the loop correspond. -/
structure SRel (φ : D → D') (RW : W → W' → Prop) (RM : M → M' → Prop) (st : St D W M) (st' : St D' W' M') : Prop where
  rho : st'.rho = φ st.rho
  caller : st'.caller = φ st.caller
  own : st'.own = st.own
  w : RW st.w st'.w
  mx : RM st.mx st'.mx
  thr : st'.thr = st.thr
  en : st'.en = st.en

theorem caller_sim (c : Bool) (a b : D) : (if c = true then φ a else φ b) = φ (if c = true then a else b) := by cases c <;> rfl

theorem finish_sim (t : Sim φ RW RV RM e e') (idx : ℕ) {st : St D W M} {st' : St D' W' M'} (hs : SRel φ RW RM st st') (rin : D) {h : Half D W V} {h' : Half D' W' V'} (hh : HRel φ RW RV h h') :
    ERel (fun a b => SRel φ RW RM a.1 b.1 ∧ b.2 = a.2) (e.finish idx st rin h) (e'.finish idx st' (φ rin) h') := by
  have her : e'.err (φ rin) h'.rout = e.err rin h.rout := by rw [hh.rout, t.err]
  have he1 := energy_sim t hh rin rin
  have he2 : e'.energy h' (φ rin) h'.rout = e.energy h rin h.rout := by rw [hh.rout]; exact energy_sim t hh rin h.rout
  unfold Ops.finish
  simp only [her, he1, he2, t.set.1, t.set.2.1, t.set.2.2.1, hs.own, hs.thr, hs.caller, caller_sim]
  by_cases c1 : e.err rin h.rout < e.convThr
  · rw [if_pos c1, if_pos c1]
    exact ⟨⟨rfl, rfl, rfl, hh.w, hs.mx, rfl, rfl⟩, rfl⟩
  · rw [if_neg c1, if_neg c1]
    by_cases c2 : idx = 0 ∧ e.err rin h.rout < st.thr * e.numel
    · rw [if_pos c2, if_pos c2]
      exact ⟨⟨rfl, rfl, rfl, hh.w, hs.mx, rfl, rfl⟩, rfl⟩
    · rw [if_neg c2, if_neg c2, hh.rout]
      refine (t.mix _ _ rin h.rout hs.mx).bind fun o o' ho => ?_
      refine ⟨⟨?_, ?_, ?_, hh.w, ho.1, rfl, rfl⟩, rfl⟩
      · show e'.sym o'.rho = φ (e.sym o.rho)
        rw [ho.2.1, sym_sim t]
      · dsimp only
        rw [ho.2.2.1]
        exact caller_sim _ _ _
      · dsimp only
        rw [ho.2.2.2]

theorem step_sim (t : Sim φ RW RV RM e e') (idx : ℕ) {st : St D W M} {st' : St D' W' M'} (hs : SRel φ RW RM st st') : ERel (fun a b => SRel φ RW RM a.1 b.1 ∧ b.2 = a.2) (e.step idx st) (e'.step idx st') := by
  unfold Ops.step
  have : e'.normalize (e'.sym st'.rho) = φ (e.normalize (e.sym st.rho)) := by rw [hs.rho, sym_sim t, t.normalize]
  rw [this, hs.thr]
  exact (half_sim t _ _ hs.w _ _).bind fun h h' hh => finish_sim t idx hs _ hh

theorem loop_sim (t : Sim φ RW RV RM e e') (fuel idx : ℕ) {st : St D W M} {st' : St D' W' M'} (hs : SRel φ RW RM st st') :
    ERel (fun a b => b.converged = a.converged ∧ b.trace = a.trace ∧ SRel φ RW RM a.st b.st) (e.loop fuel idx st) (e'.loop fuel idx st') := by
  induction fuel generalizing idx st st' with
  | zero => exact ⟨rfl, rfl, hs⟩
  | succ fuel ih =>
    refine (step_sim t idx hs).bind fun x x' hx => ?_
    rw [hx.2]
    by_cases c : x.2.converged = true
    · rw [if_pos c, if_pos c]
      exact ⟨rfl, rfl, hx.1⟩
    · rw [if_neg c, if_neg c]
      refine (ih (idx + 1) hx.1).bind fun r r' hr => ⟨hr.1, ?_, hr.2.2⟩
      show x.2 :: r'.trace = x.2 :: r.trace
      rw [hr.2.1]

theorem scf_sim (t : Sim φ RW RV RM e e') (maxiter : ℕ) (rho : D) (w : W) (w' : W') (hw : RW w w') (mx : M) (mx' : M') (hm : RM mx mx') :
    ERel (fun a b => b.converged = a.converged ∧ b.trace = a.trace ∧ SRel φ RW RM a.st b.st) (e.scf maxiter rho w mx) (e'.scf maxiter (φ rho) w' mx') := by
  have hen : e'.en0 = e.en0 := by
    unfold Ops.en0
    rw [t.set.2.2.2.2.1, t.set.2.2.2.2.2]
  unfold Ops.scf
  rw [t.set.2.2.1, t.set.2.2.2.1, hen]
  split
  · rfl
  · split
    · rfl
    · exact loop_sim t maxiter 0 ⟨rfl, rfl, rfl, hw, hm, rfl, rfl⟩

end loop

/-! ## The loop is that of `Verif.SCF` -/

/-- The variables, as `SCF.St`. -/
def St.env {s n : ℕ} {W M : Type} (st : St (SCF.Dens s (n + 1)) W M) : SCF.St s n W M := ⟨st.rho, st.caller, st.own, st.w, st.mx, st.thr, st.en⟩

theorem loop_env {s n : ℕ} {W V M : Type} (e : SCF.Env s n W V M) (fuel idx : ℕ) (st : St (SCF.Dens s (n + 1)) W M) :
    ERel (fun a b => b.converged = a.converged ∧ b.trace = a.trace ∧ b.st = a.st.env) ((ofEnv e).loop fuel idx st) (SCF.loop e fuel idx st.env) := by
  have hstep : ∀ idx (st : St (SCF.Dens s (n + 1)) W M), ERel (fun a b => b.1 = a.1.env ∧ b.2 = a.2) ((ofEnv e).step idx st) (SCF.step e idx st.env) := by
    intro idx st
    have L : (ofEnv e).step idx st = (ofEnv e).finish idx st (e.prep st.rho) ⟨e.solve st.w (e.pot (e.prep st.rho)) st.thr, e.rhoOut (e.solve st.w (e.pot (e.prep st.rho)) st.thr), e.pot (e.prep st.rho),
        e.hartree (e.prep st.rho), e.xc (e.prep st.rho), e.smear (e.solve st.w (e.pot (e.prep st.rho)) st.thr)⟩ := rfl
    rw [L]
    by_cases c1 : e.err (e.prep st.rho) (e.rhoOut (e.solve st.w (e.pot (e.prep st.rho)) st.thr)) < e.convThr
    · exact ERel.of_eq (if_pos c1) (if_pos c1) ⟨rfl, rfl⟩
    · by_cases c2 : idx = 0 ∧ e.err (e.prep st.rho) (e.rhoOut (e.solve st.w (e.pot (e.prep st.rho)) st.thr)) < st.thr * e.numel
      · exact ERel.of_eq ((if_neg c1).trans (if_pos c2)) ((if_neg c1).trans (if_pos c2)) ⟨rfl, rfl⟩
      · refine ERel.of_eq ((if_neg c1).trans (if_neg c2)) ((if_neg c1).trans (if_neg c2)) ?_
        show ERel _ (e.mix st.mx (e.prep st.rho) (e.rhoOut (e.solve st.w (e.pot (e.prep st.rho)) st.thr)) >>= _)
          (match e.mix st.mx (e.prep st.rho) (e.rhoOut (e.solve st.w (e.pot (e.prep st.rho)) st.thr)) with | .error _ => _ | .ok _ => _)
        cases e.mix st.mx (e.prep st.rho) (e.rhoOut (e.solve st.w (e.pot (e.prep st.rho)) st.thr)) with
        | error x => rfl
        | ok o => exact ⟨rfl, rfl⟩
  induction fuel generalizing idx st with
  | zero => exact ⟨rfl, rfl, rfl⟩
  | succ fuel ih =>
    have h := hstep idx st
    simp only [Ops.loop, SCF.loop, bind, Except.bind]
    revert h
    generalize (ofEnv e).step idx st = x
    generalize SCF.step e idx st.env = y
    intro h
    cases x with
    | error x => cases y with
      | error y => exact h
      | ok y => exact h.elim
    | ok x => cases y with
      | error y => exact h.elim
      | ok y =>
        obtain ⟨y1, y2⟩ := y
        obtain ⟨h1, h2⟩ := h
        dsimp only at h1 h2 ⊢
        rw [h1, h2]
        by_cases c : x.2.converged = true
        · rw [if_pos c, if_pos c]
          exact ⟨rfl, rfl, rfl⟩
        · rw [if_neg c, if_neg c]
          have hi := ih (idx + 1) x.1
          revert hi
          generalize (ofEnv e).loop fuel (idx + 1) x.1 = a
          generalize SCF.loop e fuel (idx + 1) x.1.env = b
          intro hi
          cases a with
          | error a => cases b with
            | error b => exact hi
            | ok b => exact hi.elim
          | ok a => cases b with
            | error b => exact hi.elim
            | ok b =>
              refine ⟨hi.1, ?_, hi.2.2⟩
              show x.2 :: b.trace = x.2 :: a.trace
              rw [hi.2.1]

/-- The loop used here is the one of `Verif.SCF` (C40–C42 and others): on calls that never raise, both give the same reports, result and arrays. -/
theorem C209_same_driver {s n : ℕ} {W V M : Type} (e : SCF.Env s n W V M) (maxiter : ℕ) (rho : SCF.Dens s (n + 1)) (w : W) (mx : M) :
    match (ofEnv e).scf maxiter rho w mx, SCF.scf e maxiter rho w mx with
    | .ok a, .ok b => b.converged = a.converged ∧ b.trace = a.trace ∧ b.st.rho = a.st.rho ∧ b.st.caller = a.st.caller ∧ b.st.w = a.st.w ∧ b.st.en = a.st.en
    | .error x, .error y => y = x
    | _, _ => False := by
  have h : ERel (fun a b => b.converged = a.converged ∧ b.trace = a.trace ∧ b.st = a.st.env) ((ofEnv e).scf maxiter rho w mx) (SCF.scf e maxiter rho w mx) := by
    unfold Ops.scf SCF.scf
    show ERel _ (if ¬ 0 < e.convThr then _ else if ¬ 0 < e.diagoInit then _ else _) _
    split
    · rfl
    · split
      · rfl
      · exact loop_env e maxiter 0 _
  revert h
  generalize (ofEnv e).scf maxiter rho w mx = a
  generalize SCF.scf e maxiter rho w mx = b
  intro h
  cases a with
  | error a => cases b with
    | error b => exact h
    | ok b => exact h.elim
  | ok a => cases b with
    | error b => exact h.elim
    | ok b =>
      refine ⟨h.1, h.2.1, ?_⟩
      rw [h.2.2]
      exact ⟨rfl, rfl, rfl, rfl⟩

/-! ## The pieces -/

theorem seqF_rel {α β : Type} : ∀ (n : ℕ) (f : Fin n → Except PyErr α) (f' : Fin n → Except PyErr β) (R : Fin n → α → β → Prop), (∀ i, ERel (R i) (f i) (f' i)) →
    ERel (fun a b => ∀ i, R i (a i) (b i)) (seqF n f) (seqF n f')
  | 0, _, _, _, _ => fun i => i.elim0
  | n + 1, f, f', R, h => by
    refine (h 0).bind fun a b hab => (seqF_rel n (fun i => f i.succ) (fun i => f' i.succ) (fun i => R i.succ) fun i => h i.succ).bind fun t t' ht => ?_
    intro i
    refine Fin.cases ?_ (fun i => ?_) i
    · exact hab
    · exact ht i

/-- The FFT buffers of the processes after some history of transforms. -/
def Reached (S : Setup) (norm : Bool) (st : ℕ → Dist.St ℂ) : Prop :=
  ∃ (garbage : ℕ → Dist.St ℂ) (hist : List (Dist.DCall ℂ)), (∀ c ∈ hist, c.Ok S) ∧ Dist.runHist S (dftKern true S.d) (dftKern false S.d) norm hist (fun p => (garbage p).fresh) = some st

section pieces

variable {S : Setup} {ns : ℕ}

theorem Reached.inv {norm : Bool} {st : ℕ → Dist.St ℂ} (hS : S.Ok) (h : Reached S norm st) : ∀ p < S.P, Inv S p (st p) := by
  obtain ⟨g, hist, hok, e⟩ := h
  obtain ⟨st', h1, h2⟩ := Dist.runHist_ok S hS (dftKern true S.d) (dftKern false S.d) norm hist hok (fun p => (g p).fresh) (fun p _ => Dist.inv_fresh S p _)
  obtain rfl : st = st' := Option.some.inj (e.symm.trans h1)
  exact h2

theorem densPart_eq (hS : S.Ok) (rho : Dens ns S.idx.length) : MixDist.densPart S rho = fun p k j => rho k (eG S hS p j) := by
  funext p k
  show PotDist.part S (rho k) p = _
  rw [part_eq S hS]

theorem first_nonempty (hS : S.Ok) : 0 < (S.cutG 0 S.idx).length ∧ PotDist.g0pos S 0 = 0 ∧ 0 < S.idx.length := by
  have hn : 0 < S.stk.length := lt_of_lt_of_le hS.pos hS.sticks
  have hidx : S.idx ≠ [] := by
    intro e
    have := (S.mem_stk _).1 (List.getElem_mem hn)
    unfold Dist.Setup.iyz at this
    rw [e] at this
    simp at this
  have h1 := (Dist.C12_first_process_owns S hS).1 S.idx rfl
  refine ⟨?_, ?_, List.length_pos_iff.2 hidx⟩
  · rw [List.length_pos_iff]
    intro e
    rw [e] at h1
    exact hidx (List.head?_eq_none_iff.1 h1.symm)
  · unfold PotDist.g0pos
    rw [Scatter.sliceStart_zero, Dist.cutAt_zero]

theorem norm_sim (hS : S.Ok) (numel dv : ℝ) (rho : Dens ns S.idx.length) : normD S numel dv (MixDist.densPart S rho) = MixDist.densPart S (normS numel dv rho) := by
  obtain ⟨h1, h2, h3⟩ := first_nonempty hS
  have hg : ∀ s, g0D S (MixDist.densPart S rho) s = if h : 0 < S.idx.length then rho s ⟨0, h⟩ else 0 := by
    intro s
    unfold g0D
    have h1' : 0 < ln S ⟨0, hS.pos⟩ := h1
    rw [dif_pos hS.pos, dif_pos h1', dif_pos h3, densPart_eq hS]
    exact congrArg (rho s) (Fin.ext (by show PotDist.g0pos S 0 + 0 = 0; omega))
  unfold normD
  simp only [hg]
  rw [densPart_eq hS, densPart_eq hS]
  rfl

theorem symm_sim (hS : S.Ok) (garbage : ℕ → List ℂ) (hgb : ∀ r, (garbage r).length = S.idx.length) (symm : Dens ns S.idx.length → Dens ns S.idx.length) (rho : Dens ns S.idx.length) :
    symmD S garbage symm (MixDist.densPart S rho) = MixDist.densPart S (symm rho) := by
  unfold symmD
  have : (fun (s : Fin ns) (i : Fin S.idx.length) => (Dist.allgatherG S garbage (List.ofFn fun p => List.ofFn (MixDist.densPart S rho p s))).getD i 0) = rho := by
    funext s i
    have hp : (List.ofFn fun p : Fin S.P => List.ofFn (MixDist.densPart S rho p s)) = (List.range S.P).map fun p => S.cutG p (List.ofFn (rho s)) := by
      rw [densPart_eq hS, List.ofFn_eq_map, ← List.map_coe_finRange_eq_range, List.map_map]
      refine List.map_congr_left fun p _ => ?_
      exact PotDist.ofFn_cutG S hS (rho s) p
    have hl : ((List.range S.P).map fun p => S.cutG p (List.ofFn (rho s))).map List.length = S.gSpec := by
      have h1 := ((Dist.C23_scatter_gather (α := ℂ) S hS).1 (List.ofFn (rho s)) (by simp)).2
      by_contra hc
      unfold Dist.gatherv at h1
      rw [if_neg hc] at h1
      cases h1
    obtain ⟨l, e1, _, e3⟩ := (Dist.C23_scatter_gather (α := ℂ) S hS).2.2.1 _ hl
    have e2 := ((Dist.C23_scatter_gather (α := ℂ) S hS).1 (List.ofFn (rho s)) (by simp)).2
    obtain rfl : l = List.ofFn (rho s) := Option.some.inj (e1.symm.trans e2)
    rw [hp, e3 garbage hgb]
    rw [List.getD_eq_getElem (l := List.ofFn (rho s)) (hn := by rw [List.length_ofFn]; exact i.2), List.getElem_ofFn]
  rw [this]

/-- Potentials, every process with its planes. -/
structure RV (hS : S.Ok) (v : Pots ns S.d.size) (v' : DPots S ns) : Prop where
  hxc : ∀ s p r, v'.hxc s p r = v.hxc s (eR S hS p r)
  vloc : ∀ s p r, v'.vloc s p r = v.vloc s (eR S hS p r)
  g0 : v'.g0 = v.g0

theorem hartree_congr (P : ℕ) (nan : ℂ) (norm2 : ℕ → List ℝ) (g0 : ℕ → Bool) (dv : ℝ) (npts : ℕ) (rho rho' : ℕ → List (List ℂ)) (h : ∀ p < P, rho p = rho' p) :
    ERel (fun a b => (∀ p < P, b.1 p = a.1 p) ∧ b.2 = a.2) (PotDist.hartree P nan norm2 g0 dv npts rho) (PotDist.hartree P nan norm2 g0 dv npts rho') := by
  have h1 : ((List.range P).mapM fun p => Pot.checkRho (rho p)) = (List.range P).mapM fun p => Pot.checkRho (rho' p) := by
    have : ∀ l : List ℕ, (∀ p ∈ l, p < P) → (l.mapM fun p => Pot.checkRho (rho p)) = l.mapM fun p => Pot.checkRho (rho' p) := by
      intro l
      induction l with
      | nil => intro _; rfl
      | cons a t ih =>
        intro hl
        rw [List.mapM_cons, List.mapM_cons, ih fun p hp => hl p (List.mem_cons_of_mem _ hp), h a (hl a List.mem_cons_self)]
    exact this _ fun p hp => List.mem_range.1 hp
  unfold PotDist.hartree
  rw [h1]
  cases (List.range P).mapM fun p => Pot.checkRho (rho' p) with
  | error e => rfl
  | ok u =>
    refine ⟨fun p hp => ?_, ?_⟩
    · dsimp only
      rw [h p hp]
    · dsimp only
      have : ∀ p ∈ Finset.range P, (∑ j ∈ Finset.range (norm2 p).length, (starRingEnd ℂ) (Pot.total (rho' p) j) * (Pot.hartreeV nan (norm2 p) (g0 p) (rho' p)).getD j 0) =
          ∑ j ∈ Finset.range (norm2 p).length, (starRingEnd ℂ) (Pot.total (rho p) j) * (Pot.hartreeV nan (norm2 p) (g0 p) (rho p)).getD j 0 := by
        intro p hp
        rw [h p (Finset.mem_range.1 hp)]
      rw [Finset.sum_congr rfl this]

variable (hS : S.Ok) (C : Calc S.d S.idx ns) (h0 : 0 < ns)

theorem pot_sim (hg : GList S C.gs) (hn : C.norm2.length = S.idx.length) (drv : Driver) (sst : DrvState ℂ) (st : ℕ → Dist.St ℂ) (hst : Reached S true st) (rho : Dens ns S.idx.length) :
    ERel (fun a b => RV hS a.1 b.1 ∧ b.2 = a.2) (potS C h0 (fftSpace drv S.d S.idx sst C.g C.dv) rho)
      (potD S C h0 (distSpace S st (fun p c => PotDist.part S (C.g c) p) C.dv) (MixDist.densPart S rho)) := by
  have hD := PotDist.distSpace_distributes S hS st (hst.inv hS) drv sst C.g C.dv
  unfold potS potD
  refine ERel.bind (R := fun a b => (∀ p : Fin S.P, ∀ j : Fin (ln S p), (b.1 p).getD j 0 = a.1.getD (eG S hS p j) 0) ∧ b.2 = a.2) ?_ fun a b hab => ?_
  · have hc := hartree_congr S.P C.nan (fun p => S.cutG p C.norm2) (PotDist.hasG0 S C.gs) C.dv S.d.size
      (fun p => (List.ofFn fun s => List.ofFn (rho s)).map fun c => S.cutG p c)
      (fun p => if h : p < S.P then List.ofFn fun s => List.ofFn (MixDist.densPart S rho ⟨p, h⟩ s) else []) (fun p hp => by
        rw [dif_pos hp, densPart_eq hS, List.map_ofFn]
        exact congrArg List.ofFn (funext fun s => (PotDist.ofFn_cutG S hS (rho s) ⟨p, hp⟩).symm))
    obtain ⟨k1, k2⟩ := PotDist.C204_hartree S hS C.nan C.gs hg C.norm2 hn C.dv S.d.size (List.ofFn fun s => List.ofFn (rho s)) (by
      intro c hc
      obtain ⟨s, rfl⟩ := (List.mem_ofFn' _ _).1 hc
      simp)
    cases hh : Pot.hartree C.nan C.norm2 (decide (C.gs.head? = some 0)) C.dv S.d.size (List.ofFn fun s => List.ofFn (rho s)) with
    | error e =>
      rw [k1 e hh] at hc
      revert hc
      generalize PotDist.hartree S.P C.nan _ _ C.dv S.d.size _ = y
      intro hc
      cases y with
      | error y => exact hc
      | ok y => exact hc.elim
    | ok a =>
      obtain ⟨v', e1, e2, _⟩ := k2 a.1 a.2 hh
      rw [e1] at hc
      revert hc
      generalize PotDist.hartree S.P C.nan _ _ C.dv S.d.size _ = y
      intro hc
      cases y with
      | error y => exact hc.elim
      | ok y =>
        refine ⟨fun p j => ?_, hc.2⟩
        have hla : a.1.length = S.idx.length := by
          unfold Pot.hartree at hh
          cases hk : Pot.checkRho (List.ofFn fun s => List.ofFn (rho s)) with
          | error e => rw [hk] at hh; cases hh
          | ok u =>
            rw [hk] at hh
            have := Except.ok.inj hh
            rw [← this]
            simp [Pot.hartreeV, hn]
        rw [hc.1 p p.2]
        dsimp only
        rw [e2 p p.2, PotDist.cutG_get S hS a.1 hla p p.2 j (lt_of_lt_of_eq j.2 (PotDist.lenG S _ hla p).symm)]
        rfl
  · have hx := PotDist.xc_sim hD hS.pos h0 C.exch C.corr rho C.core
    rw [densPart_eq hS, part_eq S hS]
    have hx' : ERel (fun a b => (∀ s p r, b.1 s p r = a.1 s (eR S hS p r)) ∧ b.2 = a.2)
        (Pot.xcCompute (fftSpace drv S.d S.idx sst C.g C.dv) h0 (C.exch.on S.d.size) (C.corr.on S.d.size) rho C.core)
        (PotDist.xcCompute (distSpace S st (fun p c => PotDist.part S (C.g c) p) C.dv) h0 C.exch C.corr (fun s p j => rho s (eG S hS p j)) (fun p j => C.core (eG S hS p j))) := by
      rw [hx]
      cases Pot.xcCompute (fftSpace drv S.d S.idx sst C.g C.dv) h0 (C.exch.on S.d.size) (C.corr.on S.d.size) rho C.core with
      | error e => rfl
      | ok a => exact ⟨fun _ _ _ => rfl, rfl⟩
    refine hx'.bind fun x y hxy => ?_
    have e1 : ∀ p r, (distSpace S st (fun p c => PotDist.part S (C.g c) p) C.dv).toR (fun p j => (b.1 p).getD j 0) p r = (fftSpace drv S.d S.idx sst C.g C.dv).toR (fun j => a.1.getD j 0) (eR S hS p r) := by
      intro p r
      rw [← hD.toR]
      congr 1
      funext p j
      exact hab.1 p j
    have e2 : ∀ p r, (distSpace S st (fun p c => PotDist.part S (C.g c) p) C.dv).toR (PotDist.part S C.vion) p r = (fftSpace drv S.d S.idx sst C.g C.dv).toR C.vion (eR S hS p r) := by
      intro p r
      rw [← hD.toR, part_eq S hS]
    refine ⟨⟨fun s p r => ?_, fun s p r => ?_, ?_⟩, ?_⟩
    · show _ + _ = _ + _
      rw [e1, hxy.1]
    · show (_ + _ + _) / _ = (_ + _ + _) / _
      rw [e1, e2, hxy.1]
    · dsimp only
      simp only [e1, e2, hxy.1]
      rw [hD.sum fun r => ((fftSpace drv S.d S.idx sst C.g C.dv).toR C.vion r + (fftSpace drv S.d S.idx sst C.g C.dv).toR (fun j => a.1.getD j 0) r + x.1 ⟨0, h0⟩ r) / (S.d.size : ℂ)]
    · dsimp only
      rw [hab.2, hxy.2]

/-- One state of a k-point and spin: the process hold the parts of the plane waves of the k-point, and the same bands, occupations and eigenvalues. -/
structure RK (S : Setup) (l : List ℕ) (K : KSWfn.KS) (Kp : Fin S.P → KSWfn.KS) : Prop where
  part : KPart (kS S l) K Kp
  spin : K.nspin = 1
  numg : K.numg = l.length
  evl : ∀ p, (Kp p).evl = K.evl

theorem solve_sim (k : KPt) (hk : (kS S k.idx).Ok) (drv : Driver) (kst : DrvState ℂ) (junk : ℕ → EuclideanSpace ℂ (Fin k.idx.length)) (kstD : ℕ → Dist.St ℂ) (hst : Reached (kS S k.idx) false kstD)
    (junkD : ℕ → DWf (kS S k.idx)) (v : Fin S.d.size → ℂ) (v' : ∀ p : Fin S.P, Fin (lm S p) → ℂ) (hv : ∀ p r, v' p r = v (eR S hS p r)) (g0 thr : ℝ) (K : KSWfn.KS) (Kp : Fin S.P → KSWfn.KS) (hK : RK S k.idx K Kp) :
    ERel (RK S k.idx) (solveS C drv k kst junk v g0 thr K) (solveD S C k kstD junkD v' g0 thr Kp) := by
  obtain ⟨gb, hist, hok, e⟩ := hst
  obtain ⟨st', h1, h2⟩ := HamDist.C207_solver hk gb hist hok drv kst C.dev
  obtain rfl : kstD = st' := Option.some.inj (e.symm.trans h1)
  have h3 := h2 k.gk2 v k.nl (fun j => 1 / 2 * k.gk2 j + k.vnl j + g0) C.nb C.numwork C.maxiter thr C.eigh (fun b => WithLp.toLp 2 fun j => K.evc b j) junk junk junkD junkD
  have hv' : PotDist.planes (kS S k.idx) v = v' := by
    rw [planes_eq (kS S k.idx) hk]
    funext p r
    exact (hv p r).symm
  have hev : (fun b => DWf.mk (PotDist.part (kS S k.idx) fun j => (WithLp.toLp 2 fun j : Fin k.idx.length => K.evc b j : EuclideanSpace ℂ (Fin k.idx.length)) j)) =
      fun b => DWf.mk (S := kS S k.idx) fun p j => (Kp p).evc b j := by
    funext b
    congr 1
    funext p j
    have := hK.part.evc p b 0 (by rw [hK.spin]; exact Nat.one_pos) j
    simp only [Nat.zero_mul, Nat.zero_add] at this
    exact this.symm
  rw [hv', hev] at h3
  unfold solveS solveD
  refine ERel.bind (R := fun o o' => (∀ i, (o'.evc i).parts = PotDist.part (kS S k.idx) fun j => o.evc i j) ∧ o'.evl = o.evl) ?_ fun o o' ho => ?_
  · revert h3
    generalize Davidson.solve (serCfg C.dev drv S.d k.idx kst k.gk2 v k.nl (fun j => 1 / 2 * k.gk2 j + k.vnl j + g0) C.nb C.numwork C.maxiter thr C.eigh) (fun b => WithLp.toLp 2 fun j => K.evc b j) junk junk = a
    generalize Davidson.solve (davCfg C.dev (kS S k.idx) kstD (PotDist.part (kS S k.idx) k.gk2) v' (k.nl.map (HamDist.projPart (kS S k.idx))) (PotDist.part (kS S k.idx) fun j => 1 / 2 * k.gk2 j + k.vnl j + g0) C.nb C.numwork
      C.maxiter thr C.eigh) (fun b => DWf.mk fun p j => (Kp p).evc b j) junkD junkD = b
    intro h3
    cases a <;> cases b
    · exact h3.symm
    · exact h3.elim
    · exact h3.elim
    · exact ⟨h3.1, h3.2.1⟩
  · refine ⟨⟨hK.part.nb, hK.part.nspin, hK.part.occ, hK.part.numg, fun p b s hs j => ?_⟩, hK.spin, hK.numg, fun p => ho.2⟩
    have hs0 : s = 0 := by
      have : s < K.nspin := hs
      rw [hK.spin] at this
      omega
    subst hs0
    simp only [Nat.zero_mul, Nat.zero_add]
    rw [dif_pos j.2]
    have := congrFun (congrFun (ho.1 b) p) j
    refine Eq.trans this ?_
    rw [part_eq (kS S k.idx) hk, part_eq (kS S k.idx) hk]
    show o.evc b _ = if h : (eG (kS S k.idx) hk p j).1 < k.idx.length then _ else _
    rw [dif_pos (eG (kS S k.idx) hk p j).2]

theorem occ_sim {nk : ℕ} (hP : 0 < S.P) (kp : Fin nk → KPt) (F : (Fin nk → Fin ns → ℕ → ℝ) → Except PyErr ((Fin nk → Fin ns → ℕ → ℝ) × ℝ)) (w : Fin nk → Fin ns → KSWfn.KS) (w' : Fin nk → Fin ns → Fin S.P → KSWfn.KS)
    (hw : ∀ i s, RK S (kp i).idx (w i s) (w' i s)) :
    ERel (fun a b => (∀ i s, RK S (kp i).idx (a.1 i s) (b.1 i s)) ∧ b.2 = a.2)
      (F (fun i s => (w i s).evl) >>= fun o => .ok ((fun i s => { w i s with occ := o.1 i s } : Fin nk → Fin ns → KSWfn.KS), o.2))
      (MixDist.collect (fun p : Fin S.P => F fun i s => (w' i s p).evl) >>= fun o =>
        .ok ((fun i s p => { w' i s p with occ := (o p).1 i s } : Fin nk → Fin ns → Fin S.P → KSWfn.KS), if h : 0 < S.P then (o ⟨0, h⟩).2 else 0)) := by
  have h1 : ∀ p : Fin S.P, F (fun i s => (w' i s p).evl) = F fun i s => (w i s).evl := by
    intro p
    congr 1
    funext i s
    exact (hw i s).evl p
  refine ERel.bind (R := fun o o' => ∀ p, o' p = o) ?_ fun o o' ho => ?_
  · cases hF : F fun i s => (w i s).evl with
    | error e => rw [MixDist.collect_err _ e hP fun p => (h1 p).trans hF]; rfl
    | ok o => rw [MixDist.collect_ok _ (fun _ => o) fun p => (h1 p).trans hF]; exact fun _ => rfl
  · refine ⟨fun i s => ⟨⟨(hw i s).part.nb, (hw i s).part.nspin, fun p => ?_, (hw i s).part.numg, (hw i s).part.evc⟩, (hw i s).spin, (hw i s).numg, (hw i s).evl⟩, ?_⟩
    · show (o' p).1 i s = o.1 i s
      rw [ho]
    · dsimp only
      rw [dif_pos hP, ho]

theorem rho_sim1 (k : KPt) (hk : (kS S k.idx).Ok) (drv : Driver) (kst : DrvState ℂ) (kstD : ℕ → Dist.St ℂ) (hst : Reached (kS S k.idx) false kstD) (vol : ℝ) (lo hi : ℕ) (K : KSWfn.KS) (Kp : Fin S.P → KSWfn.KS)
    (hK : RK S k.idx K Kp) :
    ERel (fun a b => RK S k.idx a.1 (fun p => (b p).1) ∧ ∀ p r, (b p).2 0 r = a.2 0 (eR S hS p r)) (KSWfn.computeRho drv S.d k.idx kst vol K (.slice lo hi))
      (MixDist.collect (α := fun p => KSWfn.KS × (ℕ → Fin (lm S p) → ℂ)) fun p : Fin S.P => HamDist.computeRho (kS S k.idx) kstD vol Kp (.slice lo hi) p) := by
  obtain ⟨gb, hist, hok, e⟩ := hst
  obtain ⟨st', h1, h2⟩ := HamDist.C206_density hk gb hist hok drv kst vol
  obtain rfl : kstD = st' := Option.some.inj (e.symm.trans h1)
  obtain ⟨k1, k2⟩ := h2 K hK.numg Kp hK.part (.slice lo hi)
  have hsp : K.nspin = 1 := hK.spin
  cases hr : KSWfn.computeRho drv S.d k.idx kst vol K (.slice lo hi) with
  | error x =>
    exact ERel.of_eq rfl (MixDist.collect_err _ x hS.pos fun p => k1 x hr p) rfl
  | ok a =>
    obtain ⟨Kp', hp', hp⟩ := k2 a.1 a.2 hr
    have hex : ∀ p : Fin S.P, ∃ rp : ℕ → Fin (lm S p) → ℂ, HamDist.computeRho (kS S k.idx) kstD vol Kp (.slice lo hi) p = .ok (Kp' p, rp) ∧ ∀ s < K.nspin, rp s = PotDist.planes (kS S k.idx) (fun r : Fin S.d.size => a.2 s r) p :=
      fun p => hp p
    have hc := MixDist.collect_ok (α := fun p => KSWfn.KS × (ℕ → Fin (lm S p) → ℂ)) (fun p : Fin S.P => HamDist.computeRho (kS S k.idx) kstD vol Kp (.slice lo hi) p)
      (fun p => (Kp' p, (hex p).choose)) fun p => (hex p).choose_spec.1
    refine ERel.of_eq rfl hc ?_
    have ha : a.1.nspin = K.nspin ∧ a.1.numg = K.numg ∧ a.1.evl = K.evl := by
      unfold KSWfn.computeRho at hr
      dsimp only at hr
      repeat' split at hr
      all_goals first | (cases hr; done) | skip
      all_goals
        have := congrArg Prod.fst (Except.ok.inj hr)
        rw [← this]
        exact ⟨rfl, rfl, rfl⟩
    have hb : ∀ p, (Kp' p).evl = (Kp p).evl := by
      intro p
      have hr := (hex p).choose_spec.1
      unfold HamDist.computeRho at hr
      dsimp only at hr
      repeat' split at hr
      all_goals first | (cases hr; done) | skip
      all_goals exact (congrArg KSWfn.KS.evl (congrArg Prod.fst (Except.ok.inj hr))).symm
    refine ⟨⟨hp', ha.1.trans hsp, ha.2.1.trans hK.numg, fun p => ?_⟩, fun p r => ?_⟩
    · show (Kp' p).evl = a.1.evl
      rw [hb, ha.2.2, hK.evl]
    · have := (hex p).choose_spec.2 0 (by omega)
      show (hex p).choose 0 r = _
      rw [this, planes_eq (kS S k.idx) hk]
      rfl

theorem mix_sim (hg : GList S C.gs) (hc : C.mix.hasG0 = decide (C.gs.head? = some 0)) (hm : 1 < C.mix.mixdim) (mx : Mixing.St ns S.idx.length) (mxd : ∀ p : Fin S.P, Mixing.St ns (ln S p))
    (hR : MixDist.Rel (eG S hS) C.mix.mixdim mx mxd) (a b : Dens ns S.idx.length) :
    ERel (fun o o' => MixDist.Rel (eG S hS) C.mix.mixdim o.mx o'.mx ∧ o'.rho = MixDist.densPart S o.rho ∧ o'.arg = MixDist.densPart S o.arg ∧ o'.same = o.same)
      (Mixing.mix1 C.method C.mix mx a b >>= fun o => .ok (⟨o.st, o.rho, o.caller, decide (C.method = .gen ∨ mx.idx = 0)⟩ : SCF.MixOut _ _))
      (MixDist.collect (MixDist.mix1 C.method (MixDist.cfgPart S C.gs C.mix) mxd (MixDist.densPart S a) (MixDist.densPart S b)) >>= fun o =>
        .ok (⟨fun p => (o p).st, fun p => (o p).rho, fun p => (o p).caller, decide (C.method = .gen ∨ ∀ p, (mxd p).idx = 0)⟩ : SCF.MixOut (∀ p : Fin S.P, Dens ns (ln S p)) (∀ p : Fin S.P, Mixing.St ns (ln S p)))) := by
  have hcut : ∀ r : Dens ns S.idx.length, MixDist.densPart S r = MixDist.cut (eG S hS) r := fun r => densPart_eq hS r
  have h := MixDist.step_sim C.method (eG S hS) C.mix (MixDist.cfgPart S C.gs C.mix) hS.pos rfl rfl (by omega) (fun a b => by
    have := PotDist.C204_metric S hS C.gs hg C.mix hc a b
    simp only [part_eq S hS] at this
    unfold MixDist.DCfg.dot MixDist.cfgPart MixDist.cut
    simp only [part_eq S hS]
    exact this) mx mxd hR a b
  rw [← hcut, ← hcut] at h
  refine ERel.bind (R := fun o od => MixDist.Rel (eG S hS) C.mix.mixdim o.st (fun p => (od p).st) ∧ (∀ p, (od p).rho = MixDist.cut (eG S hS) o.rho p) ∧ ∀ p, (od p).caller = MixDist.cut (eG S hS) o.caller p) ?_ fun o o' ho => ?_
  · revert h
    generalize Mixing.mix1 C.method C.mix mx a b = x
    generalize MixDist.collect (MixDist.mix1 C.method (MixDist.cfgPart S C.gs C.mix) mxd (MixDist.densPart S a) (MixDist.densPart S b)) = y
    intro h
    cases x <;> cases y
    · exact h.symm
    · exact h.elim
    · exact h.elim
    · exact h
  · refine ⟨ho.1, ?_, ?_, ?_⟩
    · rw [hcut]
      exact funext ho.2.1
    · rw [hcut]
      exact funext ho.2.2
    · have : (∀ p, (mxd p).idx = 0) ↔ mx.idx = 0 := ⟨fun h => by rw [← hR.idx ⟨0, hS.pos⟩]; exact h _, fun h p => by rw [hR.idx, h]⟩
      simp only [this]

/-- The calls of the distributed run do what the serial ones do. -/
theorem ops_sim (hg : GList S C.gs) (hn : C.norm2.length = S.idx.length) (hc : C.mix.hasG0 = decide (C.gs.head? = some 0)) (hm : 1 < C.mix.mixdim) (hk : ∀ i, (kS S (C.kp i).idx).Ok) (drv : Driver) (sst : DrvState ℂ)
    (kst : Fin C.nk → DrvState ℂ) (junk : ∀ i, ℕ → EuclideanSpace ℂ (Fin (C.kp i).idx.length)) (st : ℕ → Dist.St ℂ) (hst : Reached S true st) (kstD : Fin C.nk → ℕ → Dist.St ℂ)
    (hkst : ∀ i, Reached (kS S (C.kp i).idx) false (kstD i)) (junkD : ∀ i, ℕ → DWf (kS S (C.kp i).idx)) (garbage : ℕ → List ℂ) (hgb : ∀ r, (garbage r).length = S.idx.length) :
    Sim (MixDist.densPart S) (fun w w' => ∀ i s, RK S (C.kp i).idx (w i s) (w' i s)) (RV hS) (MixDist.Rel (eG S hS) C.mix.mixdim) (serOps C h0 drv sst kst junk) (distOps S C h0 st kstD junkD garbage) where
  set := ⟨rfl, rfl, rfl, rfl, rfl, rfl⟩
  normalize rho := norm_sim hS C.numel C.dv rho
  symm rho := symm_sim hS garbage hgb C.symm rho
  pot rho := pot_sim hS C h0 hg hn drv sst st hst rho
  pair v v' rho hv := by
    have hD := PotDist.distSpace_distributes S hS st (hst.inv hS) drv sst C.g C.dv
    show ((∑ p, ∑ r, ∑ s, v'.hxc s p r * (distSpace S st (fun p c => PotDist.part S (C.g c) p) C.dv).toR (fun p => MixDist.densPart S rho p s) p r) * (C.dv : ℂ)).re =
      ((∑ r, ∑ s, v.hxc s r * (fftSpace drv S.d S.idx sst C.g C.dv).toR (rho s) r) * (C.dv : ℂ)).re
    rw [← hD.sum]
    have : ∀ s p r, (distSpace S st (fun p c => PotDist.part S (C.g c) p) C.dv).toR (fun p => MixDist.densPart S rho p s) p r = (fftSpace drv S.d S.idx sst C.g C.dv).toR (rho s) (eR S hS p r) := by
      intro s p r
      rw [← hD.toR, densPart_eq hS]
    simp only [this, hv.hxc]
  solve w w' v v' thr hw hv := by
    show ERel _ (seqF C.nk fun i => seqF ns fun s => solveS C drv (C.kp i) (kst i) (junk i) (v.vloc s) v.g0 thr (w i s))
      (seqF C.nk fun i => seqF ns fun s => solveD S C (C.kp i) (kstD i) (junkD i) (v'.vloc s) v'.g0 thr (w' i s))
    refine seqF_rel C.nk _ _ (fun i (a : Fin ns → KSWfn.KS) (b : Fin ns → Fin S.P → KSWfn.KS) => ∀ s, RK S (C.kp i).idx (a s) (b s)) fun i => seqF_rel ns _ _ (fun _ (a : KSWfn.KS) (b : Fin S.P → KSWfn.KS) => RK S (C.kp i).idx a b) fun s => ?_
    rw [hv.g0]
    exact solve_sim hS C (C.kp i) (hk i) drv (kst i) (junk i) (kstD i) (hkst i) (junkD i) (v.vloc s) (v'.vloc s) (hv.vloc s) v.g0 thr (w i s) (w' i s) (hw i s)
  occ w w' hw := occ_sim hS.pos C.kp C.occ w w' hw
  eig w w' hw := by
    show (if h : 0 < S.P then ∑ i, ∑ s, (C.kp i).weight * ∑ b ∈ Finset.range C.nb, (w' i s ⟨0, h⟩).evl b * (w' i s ⟨0, h⟩).occ b else 0) = ∑ i, ∑ s, (C.kp i).weight * ∑ b ∈ Finset.range C.nb, (w i s).evl b * (w i s).occ b
    rw [dif_pos hS.pos]
    refine Finset.sum_congr rfl fun i _ => Finset.sum_congr rfl fun s _ => ?_
    rw [(hw i s).evl, (hw i s).part.occ]
  rhoWfn w w' hw := by
    have hD := PotDist.distSpace_distributes S hS st (hst.inv hS) drv sst C.g C.dv
    refine ERel.bind (R := fun a b => ∀ i s, RK S (C.kp i).idx (a i s).1 (fun p => (b i s p).1) ∧ ∀ p r, (b i s p).2 0 r = (a i s).2 0 (eR S hS p r)) ?_ fun a b hab => ?_
    · exact seqF_rel C.nk _ _ (fun i (a : Fin ns → KSWfn.KS × (ℕ → ℕ → ℂ)) (b : Fin ns → ∀ p : Fin S.P, KSWfn.KS × (ℕ → Fin (lm S p) → ℂ)) => ∀ s, RK S (C.kp i).idx (a s).1 (fun p => (b s p).1) ∧ ∀ p r, (b s p).2 0 r = (a s).2 0 (eR S hS p r)) fun i =>
        seqF_rel ns _ _ (fun _ (a : KSWfn.KS × (ℕ → ℕ → ℂ)) (b : ∀ p : Fin S.P, KSWfn.KS × (ℕ → Fin (lm S p) → ℂ)) => RK S (C.kp i).idx a.1 (fun p => (b p).1) ∧ ∀ p r, (b p).2 0 r = a.2 0 (eR S hS p r)) fun s =>
          rho_sim1 hS (C.kp i) (hk i) drv (kst i) (kstD i) (hkst i) C.vol 0 C.nb (w i s) (w' i s) (hw i s)
    · refine ⟨fun i s => (hab i s).1, ?_⟩
      rw [densPart_eq hS]
      funext p s j
      show ∑ i, ((C.kp i).weight : ℂ) * (distSpace S st (fun p c => PotDist.part S (C.g c) p) C.dv).toG (fun p x => (b i s p).2 0 x) p j =
        ∑ i, ((C.kp i).weight : ℂ) * (fftSpace drv S.d S.idx sst C.g C.dv).toG (fun x => (a i s).2 0 x) (eG S hS p j)
      refine Finset.sum_congr rfl fun i _ => ?_
      rw [← hD.toG]
      have : (fun (p : Fin S.P) (x : Fin (lm S p)) => (b i s p).2 0 x) = fun p x => (a i s).2 0 (eR S hS p x) := by
        funext p x
        exact (hab i s).2 p x
      rw [this]
  err a b := MixDist.C205_error S hS C.gs hg C.mix hc a b
  mix mx mx' a b hR := mix_sim hS C hg hc hm mx mx' hR a b

end pieces

/-! ## The property -/

/-- The processes hold the states of a serial run: for every k-point and spin the parts of the plane waves (`KPart`), and the same bands, occupations and eigenvalues. -/
def Shared (S : Setup) {ns nk : ℕ} (kp : Fin nk → KPt) (w : Fin nk → Fin ns → KSWfn.KS) (w' : Fin nk → Fin ns → Fin S.P → KSWfn.KS) : Prop :=
  ∀ i s, RK S (kp i).idx (w i s) (w' i s)

/-- **C209.** A whole SCF run — symmetrisation, potentials, eigen-solver at all k-points and spins, occupations, density, mixing, energies, thresholds — on any number of processes that share the plane waves, from the parts of the
starting density and states, whatever the FFT buffers, work arrays and mixers of the processes hold: it makes the same reports (errors, thresholds, energies) in every iteration as the serial run, converges in the same
iteration or not at all, ends with the parts of the serial density and states, or fails with the same exception. -/
theorem C209_scf (S : Setup) (hS : S.Ok) {ns : ℕ} (h0 : 0 < ns) (C : Calc S.d S.idx ns) (hg : GList S C.gs) (hn : C.norm2.length = S.idx.length) (hc : C.mix.hasG0 = decide (C.gs.head? = some 0)) (hm : 1 < C.mix.mixdim)
    (hk : ∀ i, (kS S (C.kp i).idx).Ok) (drv : Driver) (sst : DrvState ℂ) (kst : Fin C.nk → DrvState ℂ) (junk : ∀ i, ℕ → EuclideanSpace ℂ (Fin (C.kp i).idx.length))
    (st : ℕ → Dist.St ℂ) (hst : Reached S true st) (kstD : Fin C.nk → ℕ → Dist.St ℂ) (hkst : ∀ i, Reached (kS S (C.kp i).idx) false (kstD i)) (junkD : ∀ i, ℕ → DWf (kS S (C.kp i).idx))
    (garbage : ℕ → List ℂ) (hgb : ∀ r, (garbage r).length = S.idx.length) (maxiter : ℕ) (rho : Dens ns S.idx.length) (w : Fin C.nk → Fin ns → KSWfn.KS) (w' : Fin C.nk → Fin ns → Fin S.P → KSWfn.KS)
    (hw : Shared S C.kp w w') (mx : Mixing.St ns S.idx.length) (hmx : mx.idx = 0) (mxd : ∀ p : Fin S.P, Mixing.St ns (ln S p)) (hmxd : ∀ p, (mxd p).idx = 0) :
    match (serOps C h0 drv sst kst junk).scf maxiter rho w mx, (distOps S C h0 st kstD junkD garbage).scf maxiter (MixDist.densPart S rho) w' mxd with
    | .ok r, .ok r' => r'.converged = r.converged ∧ r'.trace = r.trace ∧ r'.st.en = r.st.en ∧ r'.st.rho = MixDist.densPart S r.st.rho ∧ r'.st.caller = MixDist.densPart S r.st.caller ∧ Shared S C.kp r.st.w r'.st.w
    | .error e, .error e' => e' = e
    | _, _ => False := by
  have t := ops_sim hS C h0 hg hn hc hm hk drv sst kst junk st hst kstD hkst junkD garbage hgb
  have hR : MixDist.Rel (eG S hS) C.mix.mixdim mx mxd := ⟨fun p => by rw [hmxd, hmx], fun h => by omega, fun i hi => by simp [hmx] at hi, fun a ha => by simp [hmx] at ha⟩
  have h := scf_sim t maxiter rho w w' hw mx mxd hR
  revert h
  generalize (serOps C h0 drv sst kst junk).scf maxiter rho w mx = a
  generalize (distOps S C h0 st kstD junkD garbage).scf maxiter (MixDist.densPart S rho) w' mxd = b
  intro h
  cases a with
  | error a => cases b with
    | error b => exact h
    | ok b => exact h.elim
  | ok a => cases b with
    | error b => exact h.elim
    | ok b => exact ⟨h.1, h.2.1, h.2.2.en, h.2.2.rho, h.2.2.caller, h.2.2.w⟩

/-- **C209.** The loop over k-points (and spins) does every item, in order, and stops at the first that raises. -/
theorem C209_every_kpoint {α : Type} (n : ℕ) (f : Fin n → Except PyErr α) :
    (∀ t, seqF n f = .ok t ↔ ∀ i, f i = .ok (t i)) ∧ ∀ e, seqF n f = .error e ↔ ∃ i, f i = .error e ∧ ∀ j < i, ∃ a, f j = .ok a := by
  induction n with
  | zero =>
    refine ⟨fun t => ⟨fun _ i => i.elim0, fun _ => congrArg Except.ok (funext fun i => i.elim0)⟩, fun e => ⟨fun h => (by cases h), fun ⟨i, _⟩ => i.elim0⟩⟩
  | succ n ih =>
    obtain ⟨h1, h2⟩ := ih fun i => f i.succ
    cases h0 : f 0 with
    | error x =>
      have hs : seqF (n + 1) f = .error x := by simp only [seqF, h0, bind, Except.bind]
      rw [hs]
      refine ⟨fun t => ⟨fun h => (by cases h), fun h => absurd (h0.symm.trans (h 0)) (by simp)⟩, fun e => ⟨fun h => ⟨0, by rw [h0, Except.error.inj h], fun j hj => absurd hj (Fin.not_lt_zero j)⟩, fun ⟨i, hi, hj⟩ => ?_⟩⟩
      cases i using Fin.cases with
      | zero => exact congrArg Except.error (Except.error.inj (h0.symm.trans hi))
      | succ i =>
        obtain ⟨a, ha⟩ := hj 0 (Fin.succ_pos i)
        exact absurd (h0.symm.trans ha) (by simp)
    | ok a =>
      cases hr : seqF n fun i => f i.succ with
      | error x =>
        have hs : seqF (n + 1) f = .error x := by simp only [seqF, h0, hr, bind, Except.bind]
        rw [hs]
        refine ⟨fun t => ⟨fun h => (by cases h), fun h => ?_⟩, fun e => ?_⟩
        · have := (h1 fun i => t i.succ).2 fun i => h i.succ
          rw [hr] at this
          cases this
        · have h2 := h2 e
          rw [hr] at h2
          rw [Except.error.injEq] at h2 ⊢
          rw [h2]
          constructor
          · rintro ⟨i, hi, hj⟩
            refine ⟨i.succ, hi, fun j hj' => ?_⟩
            cases j using Fin.cases with
            | zero => exact ⟨a, h0⟩
            | succ j => exact hj j (Fin.succ_lt_succ_iff.1 hj')
          · rintro ⟨i, hi, hj⟩
            cases i using Fin.cases with
            | zero => exact absurd (h0.symm.trans hi) (by simp)
            | succ i => exact ⟨i, hi, fun j hj' => hj j.succ (Fin.succ_lt_succ_iff.2 hj')⟩
      | ok u =>
        have hs : seqF (n + 1) f = .ok (Fin.cons (α := fun _ => α) a u) := by simp only [seqF, h0, hr, bind, Except.bind]
        rw [hs]
        have hu := (h1 u).1 hr
        refine ⟨fun t => ⟨fun h => ?_, fun h => congrArg Except.ok (funext fun i => ?_)⟩, fun e => ⟨fun h => (by cases h), fun ⟨i, hi, _⟩ => ?_⟩⟩
        · obtain rfl := Except.ok.inj h
          intro i
          cases i using Fin.cases with
          | zero => exact h0
          | succ i => exact hu i
        · cases i using Fin.cases with
          | zero => exact Except.ok.inj (h0.symm.trans (h 0))
          | succ i => exact Except.ok.inj ((hu i).symm.trans (h i.succ))
        · cases i using Fin.cases with
          | zero => exact absurd (h0.symm.trans hi) (by simp)
          | succ i => exact absurd ((hu i).symm.trans hi) (by simp)

/-! ## The hypotheses are met: two processes, four G-vectors, one k-point with a reduced solver that always returns zero eigenvalues -/

/-- The G-vectors of `PotDist.exS`. -/
def exG : List (Fin 3 → ℤ) := [0, ![1, 0, 0], ![0, 0, 1], ![0, 1, 0]]

theorem exG_list : GList PotDist.exS exG := by
  refine ⟨rfl, fun i hi => ?_⟩
  unfold exG at hi
  rcases i with _ | _ | _ | _ | i
  · rfl
  all_goals exfalso; revert hi; simp [funext_iff, Fin.forall_fin_succ]

/-- A local functional. -/
noncomputable def exF : PointFunc 1 := ⟨.lda, fun r _ => r 0, fun r _ s => r s, fun _ _ _ => 0⟩

/-- A calculation. -/
noncomputable def exCalc (dev : Nonloc.Device) (m : Mixing.Method) : Calc PotDist.exS.d PotDist.exS.idx 1 where
  gs := exG
  norm2 := [0, 1, 1, 1]
  g _ _ := 1
  dv := 1
  vol := 8
  numel := 2
  nan := 0
  exch := exF
  corr := exF
  core _ := 0
  vion _ := 1
  ewald := -1
  isSmear := false
  symmRho := false
  symm := id
  convThr := 1 / 1000
  diagoInit := 1 / 100
  nk := 1
  kp _ := ⟨PotDist.exS.idx, fun _ => 1, [], fun _ => 0, 2⟩
  nb := 1
  numwork := 2
  maxiter := 2
  eigh _ _ _ := .ok (fun m j => if m = j then 1 else 0, fun _ => 0)
  occ _ := .ok (fun _ _ _ => 1, 0)
  method := m
  mix := MixDist.exC
  dev := dev

theorem exReached (norm : Bool) (garbage : ℕ → Dist.St ℂ) : Reached PotDist.exS norm fun p => (garbage p).fresh :=
  ⟨garbage, [], fun c hc => by simp at hc, rfl⟩

/-- One band, the same coefficient for every plane wave. -/
noncomputable def exK (n : ℕ) : KSWfn.KS := ⟨1, 1, n, fun _ _ => 1, fun _ => 1, fun _ => 0⟩

theorem exShared (dev : Nonloc.Device) (m : Mixing.Method) :
    Shared PotDist.exS (exCalc dev m).kp (fun _ (_ : Fin 1) => exK PotDist.exS.idx.length) (fun _ _ p => exK (ln PotDist.exS p)) := by
  intro i s
  refine ⟨⟨fun _ => rfl, fun _ => rfl, fun _ => rfl, fun _ => rfl, fun p b s hs j => ?_⟩, rfl, rfl, fun _ => rfl⟩
  show (1 : ℂ) = PotDist.part PotDist.exS (fun _ => 1) p j
  rw [part_eq _ PotDist.exS_ok]

/-- The serial run of the example makes its iteration. -/
theorem exRun (dev : Nonloc.Device) (m : Mixing.Method) (drv : Driver) (sst : DrvState ℂ) (kst : Fin 1 → DrvState ℂ) (junk : Fin 1 → ℕ → EuclideanSpace ℂ (Fin PotDist.exS.idx.length)) (rho : Dens 1 PotDist.exS.idx.length)
    (w : Fin 1 → Fin 1 → KSWfn.KS) (hw : (w 0 0).nb = 1) (mx : Mixing.St 1 PotDist.exS.idx.length) (hmx : mx.idx = 0) :
    ∃ r, (serOps (exCalc dev m) Nat.one_pos drv sst kst junk).scf 1 rho w mx = .ok r ∧ r.trace.length = 1 := by
  have hp : ∀ rho, ∃ v, (serOps (exCalc dev m) Nat.one_pos drv sst kst junk).pot rho = .ok v := fun rho => ⟨_, rfl⟩
  have hs : ∀ (w : Fin 1 → Fin 1 → KSWfn.KS) v thr, 0 < thr → ∃ w' : Fin 1 → Fin 1 → KSWfn.KS, (serOps (exCalc dev m) Nat.one_pos drv sst kst junk).solve w v thr = .ok w' ∧ (w' 0 0).nb = (w 0 0).nb := by
    intro w v thr ht
    have h1 : ∀ (kst : DrvState ℂ) (junk : ℕ → EuclideanSpace ℂ (Fin PotDist.exS.idx.length)) v g0 thr K, 0 < thr → ∃ K', solveS (exCalc dev m) drv ⟨PotDist.exS.idx, fun _ => 1, [], fun _ => 0, 2⟩ kst junk v g0 thr K = .ok K' ∧ K'.nb = K.nb := by
      intro kst junk v g0 thr K ht
      unfold solveS
      obtain ⟨o, ho⟩ : ∃ o, Davidson.solve (serCfg (exCalc dev m).dev drv PotDist.exS.d PotDist.exS.idx kst (fun _ => 1) v [] (fun j => 1 / 2 * 1 + 0 + g0) (exCalc dev m).nb (exCalc dev m).numwork (exCalc dev m).maxiter thr
          (exCalc dev m).eigh) (fun b => WithLp.toLp 2 fun j => K.evc b j) junk junk = .ok o := by
        simp [exCalc, Davidson.solve, serCfg, Davidson.solveRed, Davidson.initSt, Davidson.updateRed, Davidson.loop, Davidson.body, Davidson.moveUnconv, Davidson.expandPsi, Davidson.checkConv, Davidson.unconvRows, not_le.2 ht, not_lt.2 ht.le]
      refine ⟨_, (congrArg (· >>= _) ho).trans rfl, rfl⟩
    obtain ⟨K, hK, hn⟩ := h1 (kst 0) (junk 0) (v.vloc 0) v.g0 thr (w 0 0) ht
    refine ⟨fun _ _ => K, ?_, hn⟩
    show (seqF 1 fun i => seqF 1 fun s => solveS (exCalc dev m) drv ⟨PotDist.exS.idx, fun _ => 1, [], fun _ => 0, 2⟩ (kst i) (junk i) (v.vloc s) v.g0 thr (w i s)) = _
    simp only [seqF, hK, bind, Except.bind]
    refine congrArg Except.ok (funext fun i => funext fun s => ?_)
    fin_cases i
    fin_cases s
    rfl
  have hr : ∀ w : Fin 1 → Fin 1 → KSWfn.KS, (w 0 0).nb = 1 → ∃ a, (serOps (exCalc dev m) Nat.one_pos drv sst kst junk).rhoWfn w = .ok a := by
    intro w hw
    obtain ⟨a, ha⟩ : ∃ a, KSWfn.computeRho drv PotDist.exS.d PotDist.exS.idx (kst 0) 8 (w 0 0) (.slice 0 1) = .ok a := by
      simp [KSWfn.computeRho, KSWfn.Sel.bands, hw, pySlice]
    have : (seqF 1 fun i => seqF 1 fun s => KSWfn.computeRho drv PotDist.exS.d PotDist.exS.idx (kst i) 8 (w i s) (.slice 0 1)) = .ok fun _ _ => a := by
      simp only [seqF, ha, bind, Except.bind]
      refine congrArg Except.ok (funext fun i => funext fun s => ?_)
      fin_cases i
      fin_cases s
      rfl
    exact ⟨_, (congrArg (· >>= _) this).trans rfl⟩
  have hh : ∀ rin thr, 0 < thr → ∃ h, (serOps (exCalc dev m) Nat.one_pos drv sst kst junk).half w rin thr = .ok h := by
    intro rin thr ht
    obtain ⟨v, hv⟩ := hp rin
    obtain ⟨w1, h1, hn⟩ := hs w v.1 thr ht
    obtain ⟨a, ha⟩ := hr (fun i s => { w1 i s with occ := fun _ => 1 }) (hn.trans hw)
    refine ⟨⟨a.1, (serOps (exCalc dev m) Nat.one_pos drv sst kst junk).sym ((serOps (exCalc dev m) Nat.one_pos drv sst kst junk).normalize a.2), v.1, v.2.1, v.2.2, 0⟩, ?_⟩
    · unfold Ops.half
      rw [hv]
      show ((serOps (exCalc dev m) Nat.one_pos drv sst kst junk).solve w v.1 thr >>= _) = _
      rw [h1]
      show ((serOps (exCalc dev m) Nat.one_pos drv sst kst junk).rhoWfn (fun i s => { w1 i s with occ := fun _ => 1 }) >>= _) = _
      exact (congrArg (· >>= _) ha).trans rfl
  have hf : ∀ st : St _ _ _, st.mx = mx → ∀ idx rin h, ∃ x, (serOps (exCalc dev m) Nat.one_pos drv sst kst junk).finish idx st rin h = .ok x := by
    intro st he idx rin h
    obtain ⟨o, ho, _⟩ := Mixing.first m MixDist.exC (fun _ => rin) (fun _ => h.rout) mx hmx
    unfold Ops.finish
    dsimp only
    split
    · exact ⟨_, rfl⟩
    · split
      · exact ⟨_, rfl⟩
      · rw [he]
        have : ∃ o, (serOps (exCalc dev m) Nat.one_pos drv sst kst junk).mix mx rin h.rout = .ok o := ⟨_, (congrArg (· >>= _) ho).trans rfl⟩
        obtain ⟨o, ho⟩ := this
        rw [ho]
        exact ⟨_, rfl⟩
  have c1 : (serOps (exCalc dev m) Nat.one_pos drv sst kst junk).convThr = 1 / 1000 := rfl
  have c2 : (serOps (exCalc dev m) Nat.one_pos drv sst kst junk).diagoInit = 1 / 100 := rfl
  unfold Ops.scf
  rw [if_neg (by rw [c1]; norm_num), if_neg (by rw [c2]; norm_num)]
  unfold Ops.loop Ops.step
  obtain ⟨h, hh⟩ := hh ((serOps (exCalc dev m) Nat.one_pos drv sst kst junk).normalize ((serOps (exCalc dev m) Nat.one_pos drv sst kst junk).sym rho)) (serOps (exCalc dev m) Nat.one_pos drv sst kst junk).diagoInit (by rw [c2]; norm_num)
  dsimp only
  rw [hh]
  obtain ⟨x, hx⟩ := hf ⟨rho, rho, true, w, mx, (serOps (exCalc dev m) Nat.one_pos drv sst kst junk).diagoInit, (serOps (exCalc dev m) Nat.one_pos drv sst kst junk).en0⟩ rfl 0
    ((serOps (exCalc dev m) Nat.one_pos drv sst kst junk).normalize ((serOps (exCalc dev m) Nat.one_pos drv sst kst junk).sym rho)) h
  simp only [bind, Except.bind, hx, Ops.loop]
  split <;> exact ⟨_, rfl, rfl⟩

/-- The two processes make the same iteration. -/
example (dev : Nonloc.Device) (m : Mixing.Method) (sst : DrvState ℂ) (g1 g2 : ℕ → Dist.St ℂ) (junkD : ℕ → DWf PotDist.exS) (rho : Dens 1 PotDist.exS.idx.length) (mxd : ∀ p : Fin PotDist.exS.P, Mixing.St 1 (ln PotDist.exS p)) (hmxd : ∀ p, (mxd p).idx = 0) :
    ∃ r', (distOps PotDist.exS (exCalc dev m) Nat.one_pos (fun p => (g1 p).fresh) (fun _ p => (g2 p).fresh) (fun _ => junkD) (fun _ => [0, 0, 0, 0])).scf 1 (MixDist.densPart PotDist.exS rho) (fun _ _ p => exK (ln PotDist.exS p)) mxd =
      .ok r' ∧ r'.trace.length = 1 := by
  have hk : (kS PotDist.exS PotDist.exS.idx).Ok := PotDist.exS_ok
  obtain ⟨r, hr, hl⟩ := exRun dev m .sticks sst (fun _ => sst) (fun _ _ => 0) rho (fun _ _ => exK PotDist.exS.idx.length) rfl ⟨0, 0, 0, 0, 0, 0⟩ rfl
  have := C209_scf PotDist.exS PotDist.exS_ok Nat.one_pos (exCalc dev m) exG_list rfl rfl (by norm_num [exCalc, MixDist.exC]) (fun _ => hk) .sticks sst (fun _ => sst) (fun _ _ => 0) _ (exReached true g1) (fun _ => fun p => (g2 p).fresh)
    (fun _ => exReached false g2) (fun _ => junkD) (fun _ => [0, 0, 0, 0]) (fun _ => rfl) 1 rho _ _ (exShared dev m) ⟨0, 0, 0, 0, 0, 0⟩ rfl mxd hmxd
  revert this
  generalize Ops.scf _ 1 (MixDist.densPart PotDist.exS rho) _ mxd = b
  generalize hx : Ops.scf _ 1 rho _ _ = x
  obtain rfl : x = .ok r := hx.symm.trans hr
  intro this
  cases b with
  | error e => exact this.elim
  | ok b => exact ⟨b, rfl, by rw [this.2.1, hl]⟩

end Verif.ScfDist
