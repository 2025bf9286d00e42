import Verif.Model.KMap
import Verif.Props.ScfGrp
import Verif.Props.Occup

/-!
# C212: the order and the repetition of k-points do not matter
-/

namespace Verif.KMap

open Verif.FFT (Driver Dims DrvState)
open Verif.ScfDist (Calc KPt ERel Sim serOps Pots seqF Ops)
open Verif.Mixing (Dens)
open Verif.Pot (fftSpace)

/-! ## Which exception is forgotten -/

/-- Any exception is one. -/
def blur {α : Type} : Except PyErr α → Except PyErr α
  | .ok a => .ok a
  | .error _ => .error .runtime

theorem blur_bind {α β : Type} (x : Except PyErr α) (f : α → Except PyErr β) : blur (x >>= f) = (blur x >>= fun a => blur (f a)) := by cases x <;> rfl

section ops

variable {D W V M : Type}

/-- The calls with exceptions forgotten. -/
def blurOps (e : Ops D W V M) : Ops D W V M :=
  { e with pot := fun r => blur (e.pot r), solve := fun w v t => blur (e.solve w v t), occ := fun w => blur (e.occ w), rhoWfn := fun w => blur (e.rhoWfn w), mix := fun m a b => blur (e.mix m a b) }

theorem half_blur (e : Ops D W V M) (w : W) (rin : D) (thr : ℝ) : (blurOps e).half w rin thr = blur (e.half w rin thr) := by
  unfold Ops.half
  simp only [blur_bind]
  rfl

theorem finish_blur (e : Ops D W V M) (i : ℕ) (st : ScfDist.St D W M) (rin : D) (h : ScfDist.Half D W V) : (blurOps e).finish i st rin h = blur (e.finish i st rin h) := by
  unfold Ops.finish
  dsimp only
  by_cases c1 : e.err rin h.rout < e.convThr
  · rw [if_pos c1, if_pos (show (blurOps e).err rin h.rout < (blurOps e).convThr from c1)]
    rfl
  · rw [if_neg c1, if_neg (show ¬ (blurOps e).err rin h.rout < (blurOps e).convThr from c1)]
    by_cases c2 : i = 0 ∧ e.err rin h.rout < st.thr * e.numel
    · rw [if_pos c2, if_pos (show i = 0 ∧ (blurOps e).err rin h.rout < st.thr * (blurOps e).numel from c2)]
      rfl
    · rw [if_neg c2, if_neg (show ¬ (i = 0 ∧ (blurOps e).err rin h.rout < st.thr * (blurOps e).numel) from c2), blur_bind]
      rfl

theorem step_blur (e : Ops D W V M) (i : ℕ) (st : ScfDist.St D W M) : (blurOps e).step i st = blur (e.step i st) := by
  unfold Ops.step
  dsimp only
  rw [blur_bind, half_blur]
  congr 1
  funext h
  exact finish_blur e i st _ h

theorem loop_blur (e : Ops D W V M) (fuel i : ℕ) (st : ScfDist.St D W M) : (blurOps e).loop fuel i st = blur (e.loop fuel i st) := by
  induction fuel generalizing i st with
  | zero => rfl
  | succ fuel ih =>
    unfold Ops.loop
    rw [blur_bind, step_blur]
    congr 1
    funext x
    by_cases c : x.2.converged = true
    · rw [if_pos c, if_pos c]
      rfl
    · rw [if_neg c, if_neg c, blur_bind, ih]
      rfl

theorem scf_blur (e : Ops D W V M) (maxiter : ℕ) (rho : D) (w : W) (mx : M) : blur ((blurOps e).scf maxiter rho w mx) = blur (e.scf maxiter rho w mx) := by
  unfold Ops.scf
  by_cases c1 : ¬ 0 < e.convThr
  · rw [if_pos c1, if_pos (show ¬ 0 < (blurOps e).convThr from c1)]
  · rw [if_neg c1, if_neg (show ¬ ¬ 0 < (blurOps e).convThr from c1)]
    by_cases c2 : ¬ 0 < e.diagoInit
    · rw [if_pos c2, if_pos (show ¬ 0 < (blurOps e).diagoInit from c2)]
    · rw [if_neg c2, if_neg (show ¬ ¬ 0 < (blurOps e).diagoInit from c2), loop_blur]
      show blur (blur (e.loop maxiter 0 ⟨rho, rho, true, w, mx, e.diagoInit, e.en0⟩)) = blur (e.loop maxiter 0 ⟨rho, rho, true, w, mx, e.diagoInit, e.en0⟩)
      cases e.loop maxiter 0 ⟨rho, rho, true, w, mx, e.diagoInit, e.en0⟩ <;> rfl

end ops

/-! ## Loops and sums over the two lists -/

section lists

variable {n m : ℕ} (π : Fin m → Fin n) (hπ : Function.Surjective π)

include hπ in
theorem seq_map {α : Type} (f : Fin n → Except PyErr α) (f' : Fin m → Except PyErr α) (h : ∀ i, f' i = f (π i)) : ERel (fun a b => ∀ i, b i = a (π i)) (blur (seqF n f)) (blur (seqF m f')) := by
  have h1 := ScfDist.C209_every_kpoint n f
  have h2 := ScfDist.C209_every_kpoint m f'
  cases hx : seqF n f with
  | ok t =>
    have : seqF m f' = .ok fun i => t (π i) := (h2.1 _).2 fun i => (h i).trans ((h1.1 t).1 hx (π i))
    rw [this]
    exact fun i => rfl
  | error e =>
    obtain ⟨i, hi, -⟩ := (h1.2 e).1 hx
    obtain ⟨j, rfl⟩ := hπ i
    cases hy : seqF m f' with
    | error e' => exact rfl
    | ok t =>
      have := (h2.1 t).1 hy j
      rw [h, hi] at this
      cases this

theorem sum_map {K : Type} [CommSemiring K] (a : Fin n → K) (b : Fin m → K) (h : ∀ i, ∑ j with π j = i, b j = a i) (g : Fin n → K) : ∑ j, b j * g (π j) = ∑ i, a i * g i := by
  rw [← Finset.sum_fiberwise (s := Finset.univ) (g := π)]
  refine Finset.sum_congr rfl fun i _ => ?_
  rw [← h i, Finset.sum_mul]
  refine Finset.sum_congr rfl fun j hj => ?_
  rw [(Finset.mem_filter.1 hj).2]

end lists

/-! ## The run -/

variable {d : Dims} {idx : List ℕ} {ns : ℕ}

/-- The occupations for the second list: every point those of the point of the first list, and the same `-TS`; or both fail. -/
def OccMap {n m : ℕ} (π : Fin m → Fin n) (occ : (Fin n → Fin ns → ℕ → ℝ) → Except PyErr ((Fin n → Fin ns → ℕ → ℝ) × ℝ)) (occ' : (Fin m → Fin ns → ℕ → ℝ) → Except PyErr ((Fin m → Fin ns → ℕ → ℝ) × ℝ)) : Prop :=
  ∀ ev, match occ ev, occ' (fun i => ev (π i)) with
    | .ok o, .ok o' => (∀ i s, o'.1 i s = o.1 (π i) s) ∧ o'.2 = o.2
    | .error _, .error _ => True
    | _, _ => False

theorem eqE {α : Type} (x : Except PyErr α) : ERel (fun a b => b = a) x x := by
  cases x <;> exact rfl

theorem occ_map {n m : ℕ} (π : Fin m → Fin n) (F : (Fin n → Fin ns → ℕ → ℝ) → Except PyErr ((Fin n → Fin ns → ℕ → ℝ) × ℝ)) (F' : (Fin m → Fin ns → ℕ → ℝ) → Except PyErr ((Fin m → Fin ns → ℕ → ℝ) × ℝ))
    (ho : OccMap π F F') (w : Fin n → Fin ns → KSWfn.KS) (w' : Fin m → Fin ns → KSWfn.KS) (hR : ∀ i, w' i = w (π i)) :
    ERel (fun a b => (∀ i, b.1 i = a.1 (π i)) ∧ b.2 = a.2) (blur (F (fun i s => (w i s).evl) >>= fun o => .ok (fun i s => { w i s with occ := o.1 i s }, o.2)))
      (blur (F' (fun i s => (w' i s).evl) >>= fun o => .ok (fun i s => { w' i s with occ := o.1 i s }, o.2))) := by
  have h := ho fun i s => (w i s).evl
  have e : (fun i s => (w' i s).evl) = fun i s => (w (π i) s).evl := by
    funext i
    rw [hR i]
  rw [e]
  revert h
  generalize F (fun i s => (w i s).evl) = x
  generalize F' (fun i s => (w (π i) s).evl) = y
  intro h
  cases x <;> cases y
  · exact rfl
  · exact h.elim
  · exact h.elim
  · refine ⟨fun i => funext fun s => ?_, h.2⟩
    dsimp only
    rw [hR i, h.1 i s]

theorem eig_map {n m : ℕ} (π : Fin m → Fin n) (a : Fin n → ℝ) (b : Fin m → ℝ) (hw : ∀ i, ∑ j with π j = i, b j = a i) (nb : ℕ) (w : Fin n → Fin ns → KSWfn.KS) (w' : Fin m → Fin ns → KSWfn.KS) (hR : ∀ i, w' i = w (π i)) :
    (∑ i, ∑ s, b i * ∑ k ∈ Finset.range nb, (w' i s).evl k * (w' i s).occ k) = ∑ i, ∑ s, a i * ∑ k ∈ Finset.range nb, (w i s).evl k * (w i s).occ k := by
  simp only [hR, ← Finset.mul_sum]
  exact sum_map π _ _ hw fun i => ∑ s, ∑ k ∈ Finset.range nb, (w i s).evl k * (w i s).occ k

theorem rho_map {n m l : ℕ} (π : Fin m → Fin n) (hπ : Function.Surjective π) (a : Fin n → ℝ) (b : Fin m → ℝ) (hw : ∀ i, ∑ j with π j = i, b j = a i) {β : Type} (R : Fin n → KSWfn.KS → Except PyErr (KSWfn.KS × β))
    (T : β → Fin l → ℂ) (w : Fin n → Fin ns → KSWfn.KS) (w' : Fin m → Fin ns → KSWfn.KS) (hR : ∀ i, w' i = w (π i)) :
    ERel (fun x y => (∀ i, y.1 i = x.1 (π i)) ∧ y.2 = id x.2)
      (blur ((seqF n fun i => seqF ns fun s => R i (w i s)) >>= fun r => .ok (fun i s => (r i s).1, fun (s : Fin ns) j => ∑ i, (a i : ℂ) * T (r i s).2 j)))
      (blur ((seqF m fun i => seqF ns fun s => R (π i) (w' i s)) >>= fun r => .ok (fun i s => (r i s).1, fun (s : Fin ns) j => ∑ i, (b i : ℂ) * T (r i s).2 j))) := by
  have h := seq_map π hπ (fun i => seqF ns fun s => R i (w i s)) (fun i => seqF ns fun s => R (π i) (w' i s)) fun i => by rw [hR i]
  rw [blur_bind, blur_bind]
  refine h.bind fun r r' hr => ⟨fun i => ?_, ?_⟩
  · funext s
    show (r' i s).1 = (r (π i) s).1
    rw [hr]
  · funext s j
    show (∑ i, (b i : ℂ) * T (r' i s).2 j) = ∑ i, (a i : ℂ) * T (r i s).2 j
    simp only [hr]
    refine sum_map π (fun i => (a i : ℂ)) (fun i => (b i : ℂ)) (fun i => ?_) fun i => T (r i s).2 j
    rw [← hw i]
    push_cast
    rfl

theorem ops_sim (C : Calc d idx ns) (h0 : 0 < ns) (m : ℕ) (π : Fin m → Fin C.nk) (hπ : Function.Surjective π) (weight : Fin m → ℝ) (hw : ∀ i, ∑ j with π j = i, weight j = (C.kp i).weight)
    (occ : (Fin m → Fin ns → ℕ → ℝ) → Except PyErr ((Fin m → Fin ns → ℕ → ℝ) × ℝ)) (ho : OccMap π C.occ occ) (drv : Driver) (sst : DrvState ℂ) (kst : Fin C.nk → DrvState ℂ)
    (junk : ∀ i, ℕ → EuclideanSpace ℂ (Fin (C.kp i).idx.length)) :
    Sim id (fun w w' => ∀ i, w' i = w (π i)) (fun v v' => v' = v) (fun x x' => x' = x) (blurOps (serOps C h0 drv sst kst junk))
      (blurOps (serOps (remap C m π weight occ) h0 drv sst (fun i => kst (π i)) (fun i => junk (π i)))) where
  set := ⟨rfl, rfl, rfl, rfl, rfl, rfl⟩
  normalize _ := rfl
  symm _ := rfl
  pot rho := (eqE (blur ((serOps C h0 drv sst kst junk).pot rho))).mono fun a b h => ⟨congrArg Prod.fst h, congrArg Prod.snd h⟩
  pair v v' rho h := by
    subst h
    rfl
  solve w w' v v' thr hR h := by
    subst h
    refine seq_map π hπ _ _ fun i => ?_
    show (seqF ns fun s => ScfDist.solveS C drv (C.kp (π i)) (kst (π i)) (junk (π i)) (v'.vloc s) v'.g0 thr (w' i s)) = _
    rw [hR i]
  occ w w' hR := occ_map π C.occ occ ho w w' hR
  eig w w' hR := eig_map π _ _ hw C.nb w w' hR
  rhoWfn w w' hR := rho_map π hπ _ _ hw (fun i K => KSWfn.computeRho drv d (C.kp i).idx (kst i) C.vol K (.slice 0 C.nb)) (fun r => (fftSpace drv d idx sst C.g C.dv).toG (fun x => r 0 x)) w w' hR
  err _ _ := rfl
  mix mx mx' a b h := by
    subst h
    exact (eqE (blur ((serOps C h0 drv sst kst junk).mix mx' a b))).mono fun o o' h => by
      subst h
      exact ⟨rfl, rfl, rfl, rfl⟩

/-- **C212.** The order of the k-points, and whether a point is given once or several times with parts of its weight, has no influence on a run: with a list that holds every k-point at least once and whose weights add up, for every
point, to the weight in the first list, from the same states at equal points, `scf` makes the same reports (errors, thresholds, energies) in every iteration, converges in the same iteration or not at all, ends with the same
density and the same states at equal points; or both runs raise an exception. -/
theorem C212_scf (C : Calc d idx ns) (h0 : 0 < ns) (m : ℕ) (π : Fin m → Fin C.nk) (hπ : Function.Surjective π) (weight : Fin m → ℝ) (hw : ∀ i, ∑ j with π j = i, weight j = (C.kp i).weight)
    (occ : (Fin m → Fin ns → ℕ → ℝ) → Except PyErr ((Fin m → Fin ns → ℕ → ℝ) × ℝ)) (ho : OccMap π C.occ occ) (drv : Driver) (sst : DrvState ℂ) (kst : Fin C.nk → DrvState ℂ)
    (junk : ∀ i, ℕ → EuclideanSpace ℂ (Fin (C.kp i).idx.length)) (maxiter : ℕ) (rho : Dens ns idx.length) (w : Fin C.nk → Fin ns → KSWfn.KS) (mx : Mixing.St ns idx.length) :
    match (serOps C h0 drv sst kst junk).scf maxiter rho w mx, (serOps (remap C m π weight occ) h0 drv sst (fun i => kst (π i)) (fun i => junk (π i))).scf maxiter rho (fun i => w (π i)) mx with
    | .ok r, .ok r' => r'.converged = r.converged ∧ r'.trace = r.trace ∧ r'.st.en = r.st.en ∧ r'.st.rho = r.st.rho ∧ r'.st.caller = r.st.caller ∧ ∀ i, r'.st.w i = r.st.w (π i)
    | .error _, .error _ => True
    | _, _ => False := by
  have t := ops_sim C h0 m π hπ weight hw occ ho drv sst kst junk
  have h := ScfDist.scf_sim t maxiter rho w (fun i => w (π i)) (fun i => rfl) mx mx rfl
  have b1 := scf_blur (serOps C h0 drv sst kst junk) maxiter rho w mx
  have b2 := scf_blur (serOps (remap C m π weight occ) h0 drv sst (fun i => kst (π i)) (fun i => junk (π i))) maxiter rho (fun i => w (π i)) mx
  revert h b1 b2
  show ERel _ _ ((blurOps (serOps (remap C m π weight occ) h0 drv sst (fun i => kst (π i)) (fun i => junk (π i)))).scf maxiter rho (fun i => w (π i)) mx) → _
  generalize (blurOps (serOps C h0 drv sst kst junk)).scf maxiter rho w mx = x
  generalize (blurOps (serOps (remap C m π weight occ) h0 drv sst (fun i => kst (π i)) (fun i => junk (π i)))).scf maxiter rho (fun i => w (π i)) mx = y
  generalize (serOps C h0 drv sst kst junk).scf maxiter rho w mx = a
  generalize (serOps (remap C m π weight occ) h0 drv sst (fun i => kst (π i)) (fun i => junk (π i))).scf maxiter rho (fun i => w (π i)) mx = b
  intro h b1 b2
  cases a with
  | error a => cases b with
    | error b => trivial
    | ok b =>
      cases x with
      | ok x => cases b1
      | error x => cases y with
        | error y => cases b2
        | ok y => exact h.elim
  | ok a => cases x with
    | error x => cases b1
    | ok x => cases y with
      | error y => exact h.elim
      | ok y => cases b with
        | error b => cases b2
        | ok b =>
          obtain rfl := Except.ok.inj b1
          obtain rfl := Except.ok.inj b2
          exact ⟨h.1, h.2.1, h.2.2.en, h.2.2.rho, h.2.2.caller, h.2.2.w⟩

theorem scf_ok (C : Calc d idx ns) (h0 : 0 < ns) (m : ℕ) (π : Fin m → Fin C.nk) (hπ : Function.Surjective π) (weight : Fin m → ℝ) (hw : ∀ i, ∑ j with π j = i, weight j = (C.kp i).weight)
    (occ : (Fin m → Fin ns → ℕ → ℝ) → Except PyErr ((Fin m → Fin ns → ℕ → ℝ) × ℝ)) (ho : OccMap π C.occ occ) (drv : Driver) (sst : DrvState ℂ) (kst : Fin C.nk → DrvState ℂ)
    (junk : ∀ i, ℕ → EuclideanSpace ℂ (Fin (C.kp i).idx.length)) (maxiter : ℕ) (rho : Dens ns idx.length) (w : Fin C.nk → Fin ns → KSWfn.KS) (mx : Mixing.St ns idx.length) (r)
    (hr : (serOps C h0 drv sst kst junk).scf maxiter rho w mx = .ok r) :
    ∃ r', (serOps (remap C m π weight occ) h0 drv sst (fun i => kst (π i)) (fun i => junk (π i))).scf maxiter rho (fun i => w (π i)) mx = .ok r' ∧ r'.trace.length = r.trace.length := by
  have h := C212_scf C h0 m π hπ weight hw occ ho drv sst kst junk maxiter rho w mx
  rw [hr] at h
  revert h
  generalize (serOps (remap C m π weight occ) h0 drv sst (fun i => kst (π i)) (fun i => junk (π i))).scf maxiter rho (fun i => w (π i)) mx = b
  intro h
  cases b with
  | error e => exact h.elim
  | ok b => exact ⟨b, rfl, by rw [h.2.1]⟩

/-! ## Occupations -/

theorem sum_finRange {n : ℕ} (f : Fin n → ℝ) : ((List.finRange n).map f).sum = ∑ i, f i := by
  rw [← List.ofFn_eq_map, List.sum_ofFn]

theorem getD_block {α β : Type} (l : List α) (ns : ℕ) (f : α → Fin ns → β) (x : β) (k : ℕ) (hk : k < l.length) (s : Fin ns) : (l.flatMap fun i => (List.finRange ns).map (f i)).getD (k * ns + s.1) x = f l[k] s := by
  induction l generalizing k with
  | nil => simp at hk
  | cons a l ih =>
    rw [List.flatMap_cons]
    cases k with
    | zero =>
      rw [Nat.zero_mul, Nat.zero_add, List.getD_append _ _ _ _ (by simp), List.getD_eq_getElem (l := (List.finRange ns).map (f a)) (hn := by simp)]
      simp
    | succ k =>
      have e : (k + 1) * ns + s.1 = ((List.finRange ns).map (f a)).length + (k * ns + s.1) := by
        simp
        ring
      rw [e, List.getD_append_right _ _ _ _ (by simp), Nat.add_sub_cancel_left]
      exact ih k (by simpa using hk)

theorem smear_eq {nk : ℕ} (hk : 0 < nk) (hs : 0 < ns) (t : Occup.Typ) (deg numel : ℝ) (fuel nb : ℕ) (hb : 0 < nb) (weight : Fin nk → ℝ) (evl : Fin nk → Fin ns → ℕ → ℝ) :
    ∃ lo hi, IsLeast {e | ∃ i s, ∃ b < nb, evl i s b = e} lo ∧ IsGreatest {e | ∃ i s, ∃ b < nb, evl i s b = e} hi ∧
      ScfGrp.smearOcc 0 t deg numel fuel nb weight evl =
        match Occup.bisect (fun mu => ∑ i, weight i * ∑ s, (((List.range nb).map (evl i s)).map (Occup.levelOcc t deg mu)).sum) numel fuel lo hi with
        | none => .error .runtime
        | some mu => .ok (fun i s b => (((List.range nb).map (evl i s)).map (Occup.levelOcc t deg mu)).getD b 0, ∑ i, weight i * ∑ s, Occup.wfnEn t deg mu ((List.range nb).map (evl i s))) := by
  have hone : ScfGrp.groups 0 nb weight evl = [(List.finRange nk).flatMap fun i => (List.finRange ns).map fun s => ⟨weight i, (List.range nb).map (evl i s)⟩] := by
    have h := Scatter.C01_blocks_concat (List.finRange nk) 1 one_pos
    have h' : Scatter.block (List.finRange nk) (0 + 1) 0 = List.finRange nk := by simpa using h
    show [(Scatter.block (List.finRange nk) (0 + 1) 0).flatMap _] = _
    rw [h']
  have hall : Occup.allEvl (ScfGrp.groups 0 nb weight evl) = {e | ∃ i s, ∃ b < nb, evl i s b = e} := by
    rw [hone]
    ext e
    simp only [Occup.allEvl, List.mem_singleton, exists_eq_left, List.mem_flatMap, List.mem_finRange, true_and, List.mem_map, List.mem_range, Set.mem_setOf_eq]
    constructor
    · rintro ⟨w, ⟨i, s, rfl⟩, hb⟩
      simp only [List.mem_map, List.mem_range] at hb
      obtain ⟨b, hb, rfl⟩ := hb
      exact ⟨i, s, b, hb, rfl⟩
    · rintro ⟨i, s, b, hb, rfl⟩
      exact ⟨_, ⟨i, s, rfl⟩, by simpa using ⟨b, hb, rfl⟩⟩
  obtain ⟨lo, hi, h1, h2, h3⟩ := Occup.smear_bounds t deg (ScfGrp.groups 0 nb weight evl) numel fuel (by rw [hone]; simp) (by
    rw [hone]
    intro g hg
    obtain rfl := List.mem_singleton.1 hg
    refine ⟨_, List.mem_flatMap.2 ⟨⟨0, hk⟩, List.mem_finRange _, List.mem_map.2 ⟨⟨0, hs⟩, List.mem_finRange _, rfl⟩⟩, ?_⟩
    intro e
    have := congrArg List.length e
    simp at this
    omega)
  rw [hall] at h1 h2
  refine ⟨lo, hi, h1, h2, ?_⟩
  have hsum : ∀ f : Occup.Wfn → ℝ, (((ScfGrp.groups 0 nb weight evl).map fun g => (g.map f).sum).sum) = ∑ i, ∑ s, f ⟨weight i, (List.range nb).map (evl i s)⟩ := by
    intro f
    rw [hone]
    simp only [List.map_cons, List.map_nil, List.sum_cons, List.sum_nil, add_zero, List.map_flatMap, List.map_map]
    rw [← sum_finRange, List.flatMap_def, List.sum_flatten, List.map_map]
    refine congrArg List.sum (List.map_congr_left fun i _ => ?_)
    exact sum_finRange _
  have hcount : Occup.count t deg (ScfGrp.groups 0 nb weight evl) = fun mu => ∑ i, weight i * ∑ s, (((List.range nb).map (evl i s)).map (Occup.levelOcc t deg mu)).sum := by
    funext mu
    unfold Occup.count
    rw [hsum]
    simp only [Finset.mul_sum]
  unfold ScfGrp.smearOcc
  rw [h3, hcount]
  generalize Occup.bisect _ numel fuel lo hi = o
  cases o with
  | none => rfl
  | some mu =>
    refine congrArg Except.ok (Prod.ext ?_ ?_)
    · funext i s b
      show ((((ScfGrp.groups 0 nb weight evl).map fun g => g.map fun w => w.evl.map (Occup.levelOcc t deg mu)).flatten).getD (i.1 * ns + s.1) []).getD b 0 = _
      have e : ((ScfGrp.groups 0 nb weight evl).map fun g => g.map fun w => w.evl.map (Occup.levelOcc t deg mu)).flatten
          = (List.finRange nk).flatMap fun i => (List.finRange ns).map fun s => ((List.range nb).map (evl i s)).map (Occup.levelOcc t deg mu) := by
        rw [hone]
        simp [List.map_flatMap, Function.comp_def]
      rw [e, getD_block (List.finRange nk) ns (fun i s => (((List.range nb).map (evl i s)).map (Occup.levelOcc t deg mu))) [] i.1 (by simp) s, List.getElem_finRange]
      rfl
    · show ((ScfGrp.groups 0 nb weight evl).map fun g => (g.map fun w => w.weight * Occup.wfnEn t deg mu w.evl).sum).sum = _
      rw [hsum]
      simp only [Finset.mul_sum]

/-- **C212, occupations.** The smearing routine gives equal points equal occupations, and the same smearing energy, for both lists, on any numbers of k-point groups none of which is empty. -/
theorem C212_occupations {n m : ℕ} (π : Fin m → Fin n) (hπ : Function.Surjective π) (κ κ' : ℕ) (hκ : κ + 1 ≤ n) (hκ' : κ' + 1 ≤ m) (hs : 0 < ns) (t : Occup.Typ) (deg numel : ℝ) (fuel nb : ℕ) (hb : 0 < nb) (a : Fin n → ℝ)
    (b : Fin m → ℝ) (hw : ∀ i, ∑ j with π j = i, b j = a i) : OccMap (ns := ns) π (ScfGrp.smearOcc κ t deg numel fuel nb a) (ScfGrp.smearOcc κ' t deg numel fuel nb b) := by
  intro ev
  rw [ScfGrp.C210_occupations κ hκ hs t deg numel fuel nb hb, ScfGrp.C210_occupations κ' hκ' hs t deg numel fuel nb hb]
  obtain ⟨lo, hi, h1, h2, h3⟩ := smear_eq (by omega) hs t deg numel fuel nb hb a ev
  obtain ⟨lo', hi', h1', h2', h3'⟩ := smear_eq (by omega) hs t deg numel fuel nb hb b fun i => ev (π i)
  have hset : {e | ∃ i s, ∃ b < nb, ev (π i) s b = e} = {e | ∃ i s, ∃ b < nb, ev i s b = e} := by
    ext e
    constructor
    · rintro ⟨i, s, b, hb, he⟩
      exact ⟨π i, s, b, hb, he⟩
    · rintro ⟨i, s, b, hb, he⟩
      obtain ⟨j, rfl⟩ := hπ i
      exact ⟨j, s, b, hb, he⟩
  rw [hset] at h1' h2'
  obtain rfl := h1'.unique h1
  obtain rfl := h2'.unique h2
  rw [h3, h3']
  have hc : (fun mu => ∑ i, b i * ∑ s, (((List.range nb).map (ev (π i) s)).map (Occup.levelOcc t deg mu)).sum) = fun mu => ∑ i, a i * ∑ s, (((List.range nb).map (ev i s)).map (Occup.levelOcc t deg mu)).sum := by
    funext mu
    exact sum_map π a b hw fun i => ∑ s, (((List.range nb).map (ev i s)).map (Occup.levelOcc t deg mu)).sum
  rw [hc]
  generalize Occup.bisect _ numel fuel lo' hi' = o
  cases o with
  | none => trivial
  | some mu => exact ⟨fun i s => rfl, sum_map π a b hw fun i => ∑ s, Occup.wfnEn t deg mu ((List.range nb).map (ev i s))⟩

/-! ## Concrete cases -/

/-- A point given three times, in another order: points `1, 0, 1, 1` with weights `1/4, 1, 1/2, 1/4` instead of `0, 1` with weights 1, 1. -/
example : Function.Surjective (![1, 0, 1, 1] : Fin 4 → Fin 2) ∧ ∀ i : Fin 2, ∑ j with (![1, 0, 1, 1] : Fin 4 → Fin 2) j = i, (![1 / 4, 1, 1 / 2, 1 / 4] : Fin 4 → ℝ) j = 1 := by
  refine ⟨by decide, fun i => ?_⟩
  fin_cases i
  · simp [Finset.sum_filter, Fin.sum_univ_four]
  · simp [Finset.sum_filter, Fin.sum_univ_four]
    norm_num

/-- The single k-point of the example of C209 given twice: the run makes its iteration, with the same report. -/
example (dev : Nonloc.Device) (m : Mixing.Method) (sst : DrvState ℂ) (rho : Dens 1 PotDist.exS.idx.length) :
    ∃ r', (serOps (remap (ScfDist.exCalc dev m) 2 (fun _ => (0 : Fin 1)) ![3 / 2, 1 / 2] fun _ => .ok (fun _ _ _ => 1, 0)) Nat.one_pos .sticks sst (fun _ => sst) (fun _ _ => 0)).scf 1 rho (fun _ _ => ScfDist.exK PotDist.exS.idx.length)
      ⟨0, 0, 0, 0, 0, 0⟩ = .ok r' ∧ r'.trace.length = 1 := by
  obtain ⟨r, hr, hl⟩ := ScfDist.exRun dev m .sticks sst (fun _ => sst) (fun _ _ => 0) rho (fun _ _ => ScfDist.exK PotDist.exS.idx.length) rfl ⟨0, 0, 0, 0, 0, 0⟩ rfl
  have := scf_ok (ScfDist.exCalc dev m) Nat.one_pos 2 (fun _ => (0 : Fin 1)) (fun i => ⟨0, (Subsingleton.elim (α := Fin 1) _ _)⟩) ![3 / 2, 1 / 2] (fun i => by
      obtain rfl : i = (0 : Fin 1) := Subsingleton.elim (α := Fin 1) _ _
      show ∑ j with (0 : Fin 1) = 0, (![3 / 2, 1 / 2] : Fin 2 → ℝ) j = 2
      simp
      norm_num) (fun _ => .ok (fun _ _ _ => 1, 0)) (fun _ => ⟨fun _ _ => rfl, rfl⟩) .sticks sst (fun _ => sst) (fun _ _ => 0) 1 rho (fun _ _ => ScfDist.exK PotDist.exS.idx.length) ⟨0, 0, 0, 0, 0, 0⟩ r hr
  exact ⟨_, this.choose_spec.1, this.choose_spec.2.trans hl⟩

end Verif.KMap
