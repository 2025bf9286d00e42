import Verif.Model.GwRun
import Verif.Props.GWEps

/-!
# Property C214: a self-energy calculation on any number of processes
-/

namespace Verif.GwRun

open Verif.GW

/-! ## Schedules -/

section
variable {V α β γ : Type} {n : ℕ}

/-- **C214 (schedules).** There is never a choice: with one communicator at most one call can complete,
and completing it leaves exactly one state. -/
theorem C214_schedule {s t u : Fin n → Prog V α} (h1 : Step s t) (h2 : Step s u) : t = u := by
  cases h1 with
  | bar hn h =>
    cases h2 with
    | bar _ h' => exact funext fun r => Prog.bar.inj ((h r).symm.trans (h' r))
    | gather _ v nx h' _ => exact absurd ((h ⟨0, hn⟩).symm.trans (h' ⟨0, hn⟩)) (by simp)
  | gather hn v nx h ht =>
    cases h2 with
    | bar _ h' => exact absurd ((h ⟨0, hn⟩).symm.trans (h' ⟨0, hn⟩)) (by simp)
    | gather _ v' nx' h' ht' =>
      have e1 : v = v' := funext fun r => (Prog.gather.inj ((h r).symm.trans (h' r))).1
      have e2 : nx = nx' := funext fun r => (Prog.gather.inj ((h r).symm.trans (h' r))).2
      funext r
      rw [ht, ht', e1, e2]

/-- No call completes any more once one process has finished or died. -/
theorem no_step {s : Fin n → Prog V α} (r : Fin n) (h : (∃ a, s r = .ret a) ∨ ∃ e, s r = .abort e)
    (t : Fin n → Prog V α) : ¬ Step s t := by
  intro hs
  cases hs with
  | bar hn hh => rcases h with ⟨a, h⟩ | ⟨a, h⟩ <;> exact absurd (h.symm.trans (hh r)) (by simp)
  | gather hn v nx hh _ => rcases h with ⟨a, h⟩ | ⟨a, h⟩ <;> exact absurd (h.symm.trans (hh r)) (by simp)

theorem Reach.trans {s t u : Fin n → Prog V α} (h : Reach s t) (h' : Reach t u) : Reach s u := by
  induction h with
  | refl => exact h'
  | cons a _ ih => exact .cons a (ih h')

/-- **C214 (outcome).** If some run ends — in a state where nothing can complete any more — then every run
of the same processes can only be on its way to that same end. -/
theorem C214_outcome {s t f : Fin n → Prog V α} (hf : Reach s f) (hstop : ∀ u, ¬ Step f u)
    (ht : Reach s t) : Reach t f := by
  induction ht with
  | refl => exact hf
  | cons a _ ih =>
    cases hf with
    | refl => exact absurd a (hstop _)
    | cons b hb => exact ih (C214_schedule a b ▸ hb)

/-! ## Programs that run in step -/

/-- every process executes its `P r` to the end and gets `a r`, whatever it does next -/
def Run (P : Fin n → Prog V α) (a : Fin n → α) : Prop :=
  ∀ (δ : Type) (K : Fin n → α → Prog V δ), Reach (fun r => (P r).bind (K r)) fun r => K r (a r)

theorem Prog.bind_assoc (p : Prog V α) (f : α → Prog V β) (g : β → Prog V γ) :
    (p.bind f).bind g = p.bind fun a => (f a).bind g := by
  induction p with
  | ret a => rfl
  | abort e => rfl
  | bar k ih => exact congrArg Prog.bar ih
  | gather v k ih => exact congrArg (Prog.gather v) (funext ih)

theorem Run.ret (a : Fin n → α) : Run (V := V) (fun r => .ret (a r)) a := fun _ _ => .refl _

theorem Run.lift {P : Fin n → Except PyErr α} {a : Fin n → α} (h : ∀ r, P r = .ok (a r)) :
    Run (V := V) (fun r => GwRun.lift (P r)) a := by
  have : (fun r => GwRun.lift (V := V) (P r)) = fun r => .ret (a r) := funext fun r => by rw [h]; rfl
  rw [this]
  exact Run.ret a

theorem Run.bind {P : Fin n → Prog V α} {a : Fin n → α} {Q : Fin n → α → Prog V β} {b : Fin n → β}
    (hP : Run P a) (hQ : Run (fun r => Q r (a r)) b) : Run (fun r => (P r).bind (Q r)) b := by
  intro δ K
  have e : (fun r => ((P r).bind (Q r)).bind (K r)) = fun r => (P r).bind fun x => (Q r x).bind (K r) :=
    funext fun r => Prog.bind_assoc _ _ _
  rw [e]
  exact (hP δ fun r x => (Q r x).bind (K r)).trans (hQ δ K)

theorem Run.go {P : Fin n → Prog V α} {a : Fin n → α} {Q : Fin n → α → Prog V β} {f : Fin n → Prog V β}
    (hP : Run P a) (h : Reach (fun r => Q r (a r)) f) : Reach (fun r => (P r).bind (Q r)) f :=
  (hP β Q).trans h

theorem Run.goEx {P : Fin n → Prog V α} {a : Fin n → α} {Q : Fin n → α → Prog V β}
    {φ : (Fin n → Prog V β) → Prop} (hP : Run P a) (h : ∃ s, Reach (fun r => Q r (a r)) s ∧ φ s) :
    ∃ s, Reach (fun r => (P r).bind (Q r)) s ∧ φ s :=
  h.imp fun _ hs => ⟨hP.go hs.1, hs.2⟩

theorem Run.bar (hn : 0 < n) {P : Fin n → Prog V α} {a : Fin n → α} (h : Run P a) :
    Run (fun r => .bar (P r)) a := fun δ K => .cons (.bar hn fun _ => rfl) (h δ K)

theorem Run.gather (hn : 0 < n) (v : Fin n → V) {P : Fin n → List V → Prog V α} {a : Fin n → α}
    (h : Run (fun r => P r (List.ofFn v)) a) : Run (fun r => .gather (v r) (P r)) a :=
  fun δ K => .cons (.gather hn v (fun r l => (P r l).bind (K r)) (fun _ => rfl) fun _ => rfl) (h δ K)

end

/-! ## The parts of the calculation -/

/-- What the local computations return when none of them fails. -/
structure Values (T D ι : Type) where
  vq : Bool → ℕ → T × ℝ
  d : D
  x : ℕ → ι → ℂ
  sx : ℕ → ι → ℂ
  ch : ℕ → ι → ℂ
  chx : ℕ → ι → ℂ
  sxg : Bool → ℕ → ι → ℂ
  chg : Bool → ℕ → (ι → ℂ) × (ι → ℂ)

section
variable {T D ι : Type} {n : ℕ}

/-- the table of the averaged Coulomb interaction over all q-points, in order -/
def Values.tabs (W : Values T D ι) (numq : ℕ) : List T := (List.range numq).map fun q => (W.vq false q).1

/-- the averages over all q-points, in order -/
def Values.nums (W : Values T D ι) (numq : ℕ) : List ℝ := (List.range numq).map fun q => (W.vq false q).2

/-- No local computation fails up to and including the dielectric matrices, and they return `W`. -/
structure Starts (I : Inp T D ι) (W : Values T D ι) : Prop where
  vq : ∀ b, ∀ q < I.numq, I.vq b q = .ok (W.vq b q)
  eps : I.eps (W.tabs I.numq) (W.nums I.numq) = .ok W.d

/-- No local computation fails, and they return `W`. -/
structure Computes (I : Inp T D ι) (W : Values T D ι) : Prop extends Starts I W where
  x : ∀ q < I.numq, I.x (W.tabs I.numq) W.d q = .ok (W.x q)
  sx : ∀ q < I.numq, I.sx (W.tabs I.numq) W.d q = .ok (W.sx q)
  ch : ∀ q < I.numq, I.ch (W.tabs I.numq) W.d q = .ok (W.ch q)
  chx : ∀ q < I.numq, I.chx (W.tabs I.numq) W.d q = .ok (W.chx q)
  sxg : ∀ b, ∀ q < I.numq, I.sxg b (W.tabs I.numq) W.d q = .ok (W.sxg b q)
  chg : ∀ b, ∀ q < I.numq, I.chg b (W.tabs I.numq) W.d q = .ok (W.chg b q)

theorem mem_procQ {numq r q : ℕ} (hn : 0 < n) (hr : r < n) (h : q ∈ procQ numq n r) : q < numq := by
  unfold procQ at h
  split at h
  · exact List.mem_range.1 h
  · have : q ∈ ((List.range n).map (arraySplit numq n)).flatten :=
      List.mem_flatten.2 ⟨_, List.mem_map.2 ⟨r, List.mem_range.2 hr, rfl⟩, h⟩
    rw [C55_split numq n hn] at this
    exact List.mem_range.1 this

theorem mapM_ok {α β : Type} (f : α → Except PyErr β) (g : α → β) : ∀ l : List α, (∀ a ∈ l, f a = .ok (g a)) →
    l.mapM f = .ok (l.map g)
  | [], _ => rfl
  | a :: l, h => by
    rw [List.mapM_cons, h a List.mem_cons_self, mapM_ok f g l fun b hb => h b (List.mem_cons_of_mem _ hb)]
    rfl

theorem ofFn_eq {α : Type} (f : ℕ → α) : List.ofFn (fun r : Fin n => f r) = (List.range n).map f := by
  exact List.ext_getElem (by simp) fun i h1 h2 => by simp

theorem run_vcoul (hn : 0 < n) (I : Inp T D ι) (b : Bool) (f : ℕ → T × ℝ)
    (h : ∀ q < I.numq, I.vq b q = .ok (f q)) :
    Run (n := n) (fun r => calcVcoul I b n r.1)
      fun _ => ((List.range I.numq).map fun q => (f q).1, (List.range I.numq).map fun q => (f q).2) := by
  refine Run.bind (Run.lift (a := fun r : Fin n => (procQ I.numq n r.1).map f) fun r => ?_) ?_
  · exact mapM_ok _ _ _ fun q hq => h q (mem_procQ hn r.2 hq)
  · by_cases h1 : n ≤ 1
    · have e : (fun r : Fin n => if n ≤ 1 then Prog.ret (V := Val T ι)
            (((procQ I.numq n r.1).map f).map Prod.fst, ((procQ I.numq n r.1).map f).map Prod.snd)
          else .bar (.gather (.nums (((procQ I.numq n r.1).map f).map Prod.snd)) fun go =>
            .gather (.tabs (((procQ I.numq n r.1).map f).map Prod.fst)) fun gv =>
              .bar (.ret ((gv.map Val.toTabs).flatten, (go.map Val.toNums).flatten))))
          = fun _ => .ret ((List.range I.numq).map fun q => (f q).1, (List.range I.numq).map fun q => (f q).2) := by
        funext r
        rw [if_pos h1, procQ, if_pos h1, List.map_map, List.map_map]
        rfl
      rw [e]
      exact Run.ret _
    · simp only [if_neg h1]
      refine Run.bar hn (Run.gather hn _ (Run.gather hn _ (Run.bar hn ?_)))
      have e1 : ((List.ofFn fun r : Fin n => Val.tabs (ι := ι) (((procQ I.numq n r.1).map f).map Prod.fst)).map
          Val.toTabs).flatten = (List.range I.numq).map fun q => (f q).1 := by
        rw [ofFn_eq fun r => Val.tabs (ι := ι) (((procQ I.numq n r).map f).map Prod.fst), List.map_map,
          ← C55_split I.numq n hn, List.map_flatten, List.map_map]
        congr 1
        refine List.map_congr_left fun r _ => ?_
        simp only [Function.comp, Val.toTabs, procQ, if_neg h1, List.map_map]
        rfl
      have e2 : ((List.ofFn fun r : Fin n => Val.nums (T := T) (ι := ι) (((procQ I.numq n r.1).map f).map Prod.snd)).map
          Val.toNums).flatten = (List.range I.numq).map fun q => (f q).2 := by
        rw [ofFn_eq fun r => Val.nums (T := T) (ι := ι) (((procQ I.numq n r).map f).map Prod.snd), List.map_map,
          ← C55_split I.numq n hn, List.map_flatten, List.map_map]
        congr 1
        refine List.map_congr_left fun r _ => ?_
        simp only [Function.comp, Val.toNums, procQ, if_neg h1, List.map_map]
        rfl
      rw [e1, e2]
      exact Run.ret _

theorem accumulate_ok (f : ℕ → Except PyErr (ι → ℂ)) (g : ℕ → ι → ℂ) : ∀ (l : List ℕ) (acc : ι → ℂ),
    (∀ q ∈ l, f q = .ok (g q)) → accumulate f l acc = .ok fun i => acc i + (l.map fun q => g q i).sum
  | [], acc, _ => by simp [accumulate]
  | q :: l, acc, h => by
    rw [accumulate, h q List.mem_cons_self]
    show accumulate f l _ = _
    rw [accumulate_ok f g l _ fun p hp => h p (List.mem_cons_of_mem _ hp)]
    refine congrArg Except.ok (funext fun i => ?_)
    rw [List.map_cons, List.sum_cons, add_assoc]

theorem accumulate2_ok (f : ℕ → Except PyErr ((ι → ℂ) × (ι → ℂ))) (g : ℕ → (ι → ℂ) × (ι → ℂ)) :
    ∀ (l : List ℕ) (a b : ι → ℂ), (∀ q ∈ l, f q = .ok (g q)) →
      accumulate2 f l a b = .ok (fun i => a i + (l.map fun q => (g q).1 i).sum,
        fun i => b i + (l.map fun q => (g q).2 i).sum)
  | [], a, b, _ => by simp [accumulate2]
  | q :: l, a, b, h => by
    rw [accumulate2, h q List.mem_cons_self]
    show accumulate2 f l _ _ = _
    rw [accumulate2_ok f g l _ _ fun p hp => h p (List.mem_cons_of_mem _ hp)]
    refine congrArg Except.ok (Prod.ext (funext fun i => ?_) (funext fun i => ?_)) <;>
    · simp only [List.map_cons, List.sum_cons]
      rw [add_assoc]

theorem foldl_add (l : List (ι → ℂ)) : ∀ (a : ι → ℂ) (i : ι),
    l.foldl (fun a b i => a i + b i) a i = a i + (l.map fun f => f i).sum := by
  induction l with
  | nil => intro a i; simp
  | cons f l ih => intro a i; rw [List.foldl_cons, ih, List.map_cons, List.sum_cons, add_assoc]

/-- Gathering the partial sums of the processes and adding them is the sum over all q-points. -/
theorem run_sum (hn : 0 < n) (numq : ℕ) (g : ℕ → ι → ℂ) :
    Run (V := Val T ι) (n := n) (fun r => sumAll n fun i => 0 + ((procQ numq n r.1).map fun q => g q i).sum)
      fun _ i => ∑ q ∈ Finset.range numq, g q i := by
  by_cases h1 : n ≤ 1
  · have e : (fun r : Fin n => sumAll (T := T) n fun i => 0 + ((procQ numq n r.1).map fun q => g q i).sum)
        = fun _ => .ret fun i => ∑ q ∈ Finset.range numq, g q i := by
      funext r
      simp only [sumAll, if_pos h1, procQ, zero_add, DFTComm.list_sum_range]
    rw [e]
    exact Run.ret _
  · simp only [sumAll, if_neg h1]
    refine Run.gather hn _ ?_
    have e : ((List.ofFn fun r : Fin n => Val.mat (T := T) fun i => 0 + ((procQ numq n r.1).map fun q => g q i).sum).map
        Val.toMat).foldl (fun a b i => a i + b i) (fun _ => 0) = fun i => ∑ q ∈ Finset.range numq, g q i := by
      funext i
      rw [foldl_add, ofFn_eq fun r => Val.mat (T := T) fun i => 0 + ((procQ numq n r).map fun q => g q i).sum,
        List.map_map, List.map_map, zero_add, ← C55_sum numq n hn fun q => g q i, ← DFTComm.list_sum_range n]
      congr 1
      refine List.map_congr_left fun r _ => ?_
      simp only [Function.comp, Val.toMat, procQ, if_neg h1, zero_add]
    rw [e]
    exact Run.ret _

theorem run_self (hn : 0 < n) (I : Inp T D ι) (f : ℕ → Except PyErr (ι → ℂ)) (g : ℕ → ι → ℂ) (c : ℂ)
    (h : ∀ q < I.numq, f q = .ok (g q)) :
    Run (n := n) (fun r => selfEnergy I f c n r.1) fun _ i => (∑ q ∈ Finset.range I.numq, g q i) * c :=
  Run.bind (Run.lift (a := fun r : Fin n => fun i => 0 + ((procQ I.numq n r.1).map fun q => g q i).sum)
      fun r => accumulate_ok f g _ _ fun q hq => h q (mem_procQ hn r.2 hq))
    (Run.bind (run_sum hn I.numq g) (Run.ret _))

theorem run_chg (hn : 0 < n) (I : Inp T D ι) (b : Bool) (v : List T) (d : D) (g : ℕ → (ι → ℂ) × (ι → ℂ))
    (h : ∀ q < I.numq, I.chg b v d q = .ok (g q)) :
    Run (n := n) (fun r => sigmaChg I b v d n r.1) fun _ =>
      (fun i => (∑ q ∈ Finset.range I.numq, (g q).1 i) * (1 / 2 * I.factor),
        fun i => (∑ q ∈ Finset.range I.numq, (g q).2 i) * (1 / 2 * I.factor)) :=
  Run.bind (Run.lift (a := fun r : Fin n => (fun i => 0 + ((procQ I.numq n r.1).map fun q => (g q).1 i).sum,
        fun i => 0 + ((procQ I.numq n r.1).map fun q => (g q).2 i).sum))
      fun r => accumulate2_ok _ g _ _ _ fun q hq => h q (mem_procQ hn r.2 hq))
    (Run.bind (run_sum hn I.numq fun q => (g q).1)
      (Run.bind (run_sum hn I.numq fun q => (g q).2) (Run.ret _)))

theorem run_barrier (hn : 0 < n) : Run (V := Val T ι) (n := n) (fun _ => barrier n) fun _ => () := by
  unfold barrier
  split
  · exact Run.ret _
  · exact Run.bar hn (Run.ret _)

theorem run_save (I : Inp T D ι) (h : I.autosave = true → ∀ r : Fin n, procQ I.numq n r.1 ≠ []) :
    Run (n := n) (fun r => savePoint I n r.1) fun _ => () := by
  have e : (fun r : Fin n => savePoint I n r.1) = fun _ => .ret () := by
    funext r
    exact if_neg fun hh => h hh.1 r hh.2
  rw [e]
  exact Run.ret _

theorem run_create (hn : 0 < n) (I : Inp T D ι) (W : Values T D ι) (h : Starts I W) :
    Run (n := n) (fun r => create I n r.1) fun _ => (W.tabs I.numq, W.d) :=
  Run.bind (run_vcoul hn I true _ (h.vq true))
    (Run.bind (run_vcoul hn I false _ (h.vq false)) (Run.bind (Run.lift fun _ => h.eps) (Run.ret _)))

theorem procQ_ne {numq r : ℕ} (hr : r < n) (h : n ≤ numq) : procQ numq n r ≠ [] := by
  unfold procQ arraySplit
  split
  · intro e
    have := congrArg List.length e
    rw [List.length_range] at this
    simp at this
    omega
  · intro e
    have := congrArg List.length e
    rw [List.length_range'] at this
    have : 0 < numq / n := Nat.div_pos h (by omega)
    simp at *
    omega

theorem run_x (hn : 0 < n) (I : Inp T D ι) (v : List T) (d : D) (g : ℕ → ι → ℂ)
    (h : ∀ q < I.numq, I.x v d q = .ok (g q)) (hs : I.autosave = true → n ≤ I.numq) :
    Run (n := n) (fun r => sigmaX I v d n r.1) fun _ i => (∑ q ∈ Finset.range I.numq, -g q i) * I.factor :=
  Run.bind (run_self hn I _ (fun q i => -g q i) _ fun q hq => by rw [h q hq]; rfl)
    (Run.bind (run_save I fun ha r => procQ_ne r.2 (hs ha)) (Run.ret _))

theorem run_sx (hn : 0 < n) (I : Inp T D ι) (v : List T) (d : D) (g : ℕ → ι → ℂ)
    (h : ∀ q < I.numq, I.sx v d q = .ok (g q)) (hs : I.autosave = true → n ≤ I.numq) :
    Run (n := n) (fun r => sigmaSx I v d n r.1) fun _ i => (∑ q ∈ Finset.range I.numq, g q i) * (-1 * I.factor) :=
  Run.bind (run_self hn I _ g _ h) (Run.bind (run_save I fun ha r => procQ_ne r.2 (hs ha)) (Run.ret _))

/-! ## The tables, as sums over the q-points -/

/-- the terms of the COHSEX table -/
noncomputable def cohsexTerms (I : Inp T D ι) (W : Values T D ι) (i : ι) : Terms where
  emf := I.emf i
  vxc := I.vxc i
  x := -I.factor * ∑ q ∈ Finset.range I.numq, W.x q i
  sx := -I.factor * ∑ q ∈ Finset.range I.numq, W.sx q i
  ch := I.factor / 2 * ∑ q ∈ Finset.range I.numq, W.ch q i
  chExact := I.factor / 2 * ∑ q ∈ Finset.range I.numq, W.chx q i

/-- the terms of the plasmon-pole table -/
noncomputable def gppTerms (I : Inp T D ι) (W : Values T D ι) (i : ι) : Terms where
  emf := I.emf i
  vxc := I.vxc i
  x := -I.factor * ∑ q ∈ Finset.range I.numq, W.x q i
  sx := -I.factor * ∑ q ∈ Finset.range I.numq, W.sxg false q i
  ch := I.factor / 2 * ∑ q ∈ Finset.range I.numq, (W.chg false q).1 i
  chExact := I.factor / 2 * ∑ q ∈ Finset.range I.numq, W.chx q i

/-- the plasmon-pole table -/
noncomputable def gppTable (I : Inp T D ι) (W : Values T D ι) (i : ι) : Row :=
  gppRow (gppTerms I W i) (I.factor / 2 * ∑ q ∈ Finset.range I.numq, W.ch q i)
    (-I.factor * ∑ q ∈ Finset.range I.numq, W.sxg true q i)
    (I.factor / 2 * ∑ q ∈ Finset.range I.numq, (W.chg true q).1 i)

theorem mul_neg_factor (c : ℂ) (s : Finset ℕ) (g : ℕ → ℂ) : (∑ q ∈ s, -g q) * c = -c * ∑ q ∈ s, g q := by
  rw [Finset.sum_neg_distrib]
  ring

theorem done {V α : Type} {P : Fin n → Prog V α} {a : Fin n → α} (h : Run P a) :
    Reach P fun r => .ret (a r) := by
  have e : ∀ p : Prog V α, p.bind .ret = p := by
    intro p
    induction p with
    | ret a => rfl
    | abort e => rfl
    | bar k ih => exact congrArg Prog.bar ih
    | gather v k ih => exact congrArg (Prog.gather v) (funext ih)
  have := h α fun _ => .ret
  simp only [e] at this
  exact this

/-- **C214 (COHSEX).** If no local computation fails, a COHSEX calculation on any number of processes runs
to the end on all of them, and all of them get the same table: the one whose terms are the sums over all
q-points, each taken once. With automatic saves there must be no more processes than q-points. -/
theorem C214_cohsex_partial (hn : 0 < n) (I : Inp T D ι) (W : Values T D ι) (h : Computes I W)
    (hs : I.autosave = true → n ≤ I.numq) :
    Reach (fun r : Fin n => cohsex I n r.1) fun _ => .ret fun i => cohsexRow (cohsexTerms I W i) := by
  have e : (fun i => cohsexRow (cohsexTerms I W i)) = fun i => cohsexRow
      ⟨I.emf i, I.vxc i, (∑ q ∈ Finset.range I.numq, -W.x q i) * I.factor,
        (∑ q ∈ Finset.range I.numq, W.sx q i) * (-1 * I.factor),
        (∑ q ∈ Finset.range I.numq, W.ch q i) * (1 / 2 * I.factor),
        (∑ q ∈ Finset.range I.numq, W.chx q i) * (1 / 2 * I.factor)⟩ := by
    funext i
    unfold cohsexTerms
    congr 2
    · exact (mul_neg_factor _ _ _).symm
    all_goals ring
  rw [e]
  exact done (Run.bind (run_create hn I W h.toStarts) (Run.bind (run_x hn I _ _ _ h.x hs)
    (Run.bind (run_sx hn I _ _ _ h.sx hs) (Run.bind (run_self hn I _ _ _ h.ch)
      (Run.bind (run_self hn I _ _ _ h.chx) (Run.bind (run_barrier hn) (Run.ret _)))))))

/-- **C214 (plasmon-pole model).** All collective calls of a plasmon-pole calculation on any number of
processes are completed. Process 0 gets the table whose terms are the sums over all q-points. Missing:
every other process dies with a `NameError` after the last of them (`result` is created by process 0
only). -/
theorem C214_gpp_partial (hn : 0 < n) (I : Inp T D ι) (W : Values T D ι) (h : Computes I W)
    (hs : I.autosave = true → n ≤ I.numq) (hk : I.nk ≠ 0) :
    Reach (fun r : Fin n => gpp I n r.1) fun r =>
      if r.1 = 0 then .ret (gppTable I W) else .abort .unboundLocal := by
  have e : gppTable I W = fun i => gppRow
      ⟨I.emf i, I.vxc i, (∑ q ∈ Finset.range I.numq, -W.x q i) * I.factor,
        (∑ q ∈ Finset.range I.numq, W.sxg false q i) * (-1 * I.factor),
        (∑ q ∈ Finset.range I.numq, (W.chg false q).1 i) * (1 / 2 * I.factor),
        (∑ q ∈ Finset.range I.numq, W.chx q i) * (1 / 2 * I.factor)⟩
      ((∑ q ∈ Finset.range I.numq, W.ch q i) * (1 / 2 * I.factor))
      ((∑ q ∈ Finset.range I.numq, W.sxg true q i) * (-1 * I.factor))
      ((∑ q ∈ Finset.range I.numq, (W.chg true q).1 i) * (1 / 2 * I.factor)) := by
    funext i
    unfold gppTable gppTerms
    congr 1
    · congr 1
      · exact (mul_neg_factor _ _ _).symm
      all_goals ring
    all_goals ring
  have hb := run_barrier (T := T) (ι := ι) hn
  refine Run.go (run_create hn I W h.toStarts) ?_
  refine Run.go (run_x hn I _ _ _ h.x hs) (Run.go hb ?_)
  refine Run.go (run_self hn I _ _ _ h.ch) (Run.go hb ?_)
  refine Run.go (run_self hn I _ _ _ h.chx) (Run.go hb ?_)
  refine Run.go (run_self hn I _ _ _ (h.sxg false)) (Run.go hb ?_)
  refine Run.go (run_chg hn I false _ _ _ (h.chg false)) (Run.go hb (Run.go hb ?_))
  refine Run.go (run_chg hn I true _ _ _ (h.chg true)) ?_
  refine Run.go (run_self hn I _ _ _ (h.sxg true)) ?_
  have e2 : (fun r : Fin n => if r.1 = 0 then Prog.ret (V := Val T ι) (gppTable I W) else .abort .unboundLocal)
      = fun r : Fin n => result (T := T) I r.1 (gppTable I W) := by
    funext r
    unfold result
    by_cases h0 : r.1 = 0
    · rw [if_pos h0, if_pos ⟨h0, hk⟩]
    · rw [if_neg h0, if_neg fun hh => h0 hh.1]
  rw [e2, e]
  exact Reach.refl _

/-! ## Processes that die leave the others waiting -/

/-- nothing completes any more, process `r` died with `e`, and process `p` is still inside a call -/
structure Hang {V α : Type} (s : Fin n → Prog V α) (r : Fin n) (e : PyErr) (p : Fin n) : Prop where
  dead : s r = .abort e
  waiting : (∃ k, s p = .bar k) ∨ ∃ v k, s p = .gather v k
  stopped : ∀ t, ¬ Step s t

theorem hang {V α : Type} {s : Fin n → Prog V α} {r p : Fin n} {e : PyErr} (h : s r = .abort e)
    (hw : (∃ k, s p = .bar k) ∨ ∃ v k, s p = .gather v k) : Hang s r e p :=
  ⟨h, hw, no_step r (.inr ⟨e, h⟩)⟩

theorem lift_waits {V α β : Type} (x : Except PyErr α) (a : α) (h : x = .ok a) (f : α → Prog V β) :
    (lift x : Prog V α).bind f = f a := by rw [h]; rfl

theorem self_waits (h1 : 1 < n) (I : Inp T D ι) (f : ℕ → Except PyErr (ι → ℂ)) (g : ℕ → ι → ℂ) (c : ℂ) (p : ℕ)
    (h : ∀ q ∈ procQ I.numq n p, f q = .ok (g q)) {β : Type} (K : (ι → ℂ) → Prog (Val T ι) β) :
    ∃ v k, (selfEnergy I f c n p).bind K = .gather v k := by
  unfold selfEnergy
  rw [lift_waits _ _ (accumulate_ok f g _ _ h)]
  simp only [sumAll, if_neg (show ¬ n ≤ 1 by omega)]
  exact ⟨_, _, rfl⟩

theorem save_dead (I : Inp T D ι) {p : ℕ} (ha : I.autosave = true) (hp : procQ I.numq n p = []) :
    savePoint (T := T) I n p = .abort .index := if_pos ⟨ha, hp⟩

theorem save_live (I : Inp T D ι) {p : ℕ} (hp : procQ I.numq n p ≠ []) :
    savePoint (T := T) I n p = .ret () := if_neg fun h => hp h.2

theorem accumulate_err (f : ℕ → Except PyErr (ι → ℂ)) (e : PyErr) (q0 : ℕ) (h0 : f q0 = .error e)
    (g : ℕ → ι → ℂ) : ∀ (l : List ℕ) (acc : ι → ℂ), q0 ∈ l → (∀ q ∈ l, q ≠ q0 → f q = .ok (g q)) →
      accumulate f l acc = .error e
  | q :: l, acc, hm, h => by
    rw [accumulate]
    by_cases hq : q = q0
    · rw [hq, h0]
    · rw [h q List.mem_cons_self hq]
      exact accumulate_err f e q0 h0 g l _ ((List.mem_cons.1 hm).resolve_left fun a => hq a.symm)
        fun p hp => h p (List.mem_cons_of_mem _ hp)

/-- **C214 (violated: more processes than q-points, automatic saves).** A process without q-points dies in
`sigma_x` — after the sum over the processes — on `proc_q_indices[0]`; process 0 waits forever in the next
call. The same calculation on one process succeeds (`C214_cohsex_partial`). -/
theorem C214_idle_autosave (I : Inp T D ι) (W : Values T D ι) (h : Computes I W) (ha : I.autosave = true)
    (hq : 0 < I.numq) (hlt : I.numq < n) :
    (∃ s, Reach (fun r : Fin n => cohsex I n r.1) s ∧ Hang s ⟨n - 1, by omega⟩ .index ⟨0, by omega⟩)
    ∧ ∃ s, Reach (fun r : Fin n => gpp I n r.1) s ∧ Hang s ⟨n - 1, by omega⟩ .index ⟨0, by omega⟩ := by
  have hn : 0 < n := by omega
  have h1 : ¬ n ≤ 1 := by omega
  have hempty : procQ I.numq n (n - 1) = [] := by
    unfold procQ arraySplit
    rw [if_neg h1, Nat.div_eq_of_lt hlt, Nat.mod_eq_of_lt hlt, if_neg (by omega)]
    rfl
  have hfull : procQ I.numq n 0 ≠ [] := by
    unfold procQ arraySplit
    rw [if_neg h1, Nat.div_eq_of_lt hlt, Nat.mod_eq_of_lt hlt, if_pos hq]
    simp
  have hx := run_self hn I (fun q => (I.x (W.tabs I.numq) W.d q).map fun s i => -s i) (fun q i => -W.x q i)
    I.factor fun q hq => by rw [h.x q hq]; rfl
  constructor
  · refine Run.goEx (run_create hn I W h.toStarts) ?_
    simp only [sigmaX, Prog.bind_assoc]
    refine Run.goEx hx ⟨_, Reach.refl _, ?_⟩
    · refine hang ?_ (.inr ?_)
      · rw [save_dead I ha hempty]; rfl
      · simp only [save_live (T := T) I hfull, sigmaSx, Prog.bind_assoc]
        exact self_waits (by omega) I _ W.sx _ 0 (fun q hq => h.sx q (mem_procQ hn hn hq)) _
  · refine Run.goEx (run_create hn I W h.toStarts) ?_
    simp only [sigmaX, Prog.bind_assoc]
    refine Run.goEx hx ⟨_, Reach.refl _, ?_⟩
    · refine hang ?_ (.inl ?_)
      · rw [save_dead I ha hempty]; rfl
      · simp only [save_live (T := T) I hfull, barrier, if_neg h1]
        exact ⟨_, rfl⟩

/-- **C214 (violated: one failing q-point).** If the exchange contribution of one q-point raises an
exception (and no other computation does), a single process reports it; with several processes only the
process that has this q-point dies, and any process that does not have it waits forever. -/
theorem C214_failing_q (I : Inp T D ι) (W : Values T D ι) (h : Starts I W) (q0 : ℕ) (e : PyErr)
    (h0 : I.x (W.tabs I.numq) W.d q0 = .error e)
    (hx : ∀ q < I.numq, q ≠ q0 → I.x (W.tabs I.numq) W.d q = .ok (W.x q)) (hn : 0 < n) (r p : Fin n)
    (hr : q0 ∈ procQ I.numq n r.1) :
    ∃ s, Reach (fun r : Fin n => cohsex I n r.1) s ∧ s r = .abort e
      ∧ (q0 ∉ procQ I.numq n p.1 → Hang s r e p) := by
  have hxe := accumulate_err (fun q => (I.x (W.tabs I.numq) W.d q).map fun s i => -s i) e q0
    (by rw [h0]; rfl) (fun q i => -W.x q i) (procQ I.numq n r.1) (fun _ => 0) hr
    fun q hq hne => by simp only [hx q (mem_procQ hn r.2 hq) hne]; rfl
  refine ⟨_, Run.go (run_create hn I W h) (Reach.refl _), ?_, fun hp => hang ?_ (.inr ?_)⟩
  · simp only [sigmaX, selfEnergy, hxe]; rfl
  · simp only [sigmaX, selfEnergy, hxe]; rfl
  · simp only [sigmaX, Prog.bind_assoc]
    have h1 : 1 < n := by
      rcases Nat.lt_or_ge 1 n with h1 | h1
      · exact h1
      · have e1 : p.1 = r.1 := by omega
        exact absurd (e1 ▸ hr) hp
    exact self_waits h1 I _ (fun q i => -W.x q i) _ p.1 (fun q hq => by
      rw [hx q (mem_procQ hn p.2 hq) fun e => hp (e ▸ hq)]; rfl) _

end

/-! ## Examples -/

/-- three q-points, one k-point and band -/
def exInp : Inp ℕ Unit Unit where
  numq := 3
  nk := 1
  factor := 2
  emf := fun _ => 1
  vxc := fun _ => 0
  autosave := true
  vq := fun b q => .ok (if b then q else q + 1, 1)
  eps := fun l m => if l = [1, 2, 3] ∧ m.length = 3 then .ok () else .error .value
  x := fun l _ q => .ok fun _ => ((l.getD q 0 : ℕ) : ℂ)
  sx := fun _ _ q => .ok fun _ => (q : ℂ)
  ch := fun _ _ _ => .ok fun _ => 1
  chx := fun _ _ _ => .ok fun _ => 1
  sxg := fun _ _ _ _ => .ok fun _ => 1
  chg := fun _ _ _ _ => .ok (fun _ => 1, fun _ => 2)

/-- its values -/
def exVal : Values ℕ Unit Unit where
  vq := fun b q => (if b then q else q + 1, 1)
  d := ()
  x := fun q _ => ((q + 1 : ℕ) : ℂ)
  sx := fun q _ => (q : ℂ)
  ch := fun _ _ => 1
  chx := fun _ _ => 1
  sxg := fun _ _ _ => 1
  chg := fun _ _ => (fun _ => 1, fun _ => 2)

theorem ex_computes : Computes exInp exVal where
  vq := fun _ _ _ => rfl
  eps := by
    have : exVal.tabs exInp.numq = [1, 2, 3] ∧ (exVal.nums exInp.numq).length = 3 := ⟨rfl, rfl⟩
    show (if exVal.tabs exInp.numq = [1, 2, 3] ∧ (exVal.nums exInp.numq).length = 3 then Except.ok () else .error .value) = _
    rw [if_pos this]
  x := fun q hq => by
    change q < 3 at hq
    interval_cases q <;> rfl
  sx := fun _ _ => rfl
  ch := fun _ _ => rfl
  chx := fun _ _ => rfl
  sxg := fun _ _ _ => rfl
  chg := fun _ _ _ => rfl

/-- on two processes it runs through -/
example : Reach (fun r : Fin 2 => cohsex exInp 2 r.1) fun _ => .ret fun i => cohsexRow (cohsexTerms exInp exVal i) :=
  C214_cohsex_partial (by norm_num) exInp exVal ex_computes fun _ => by decide

/-- on four it hangs -/
example : ∃ s, Reach (fun r : Fin 4 => cohsex exInp 4 r.1) s ∧ Hang s 3 .index 0 :=
  (C214_idle_autosave exInp exVal ex_computes rfl (by decide) (by decide)).1

end Verif.GwRun
