import Mathlib.Tactic.Common
import Mathlib.Data.Finset.Union
import Mathlib.Data.Finset.Max
import Verif.Model.Coll
import Verif.Props.DFTComm

/-!
# Property C213: the collective calls of a whole run match, so no process waits forever
-/

namespace Verif.Coll

/-! ## Schedules -/

section
variable {R α : Type} [DecidableEq R] {mem : Cm → Finset R} {res : Cm → Op → (R → Val) → R → Val}

theorem disjoint_of_enabled {s : R → Prog α} {c c' : Cm} {o o' : Op} (h : Enabled mem s c o)
    (h' : Enabled mem s c' o') (hne : ¬ (c = c' ∧ o = o')) : ∀ r, r ∈ mem c → r ∉ mem c' := by
  intro r hr hr'
  have := (h.2 r hr).symm.trans (h'.2 r hr')
  simp only [Option.some.injEq, Prod.mk.injEq] at this
  exact hne this

theorem enabled_fire {s : R → Prog α} {c c' : Cm} {o o' : Op} (h' : Enabled mem s c' o')
    (hd : ∀ r, r ∈ mem c → r ∉ mem c') : Enabled mem (fire mem res s c o) c' o' := by
  refine ⟨h'.1, fun r hr => ?_⟩
  have : r ∉ mem c := fun hc => hd r hc hr
  simp only [fire, if_neg this]
  exact h'.2 r hr

theorem fire_pos {s : R → Prog α} {c : Cm} {o : Op} {r : R} (h : r ∈ mem c) :
    fire mem res s c o r
      = recv (s r) (res c o (fun q => if q ∈ mem c then sent (s q) else .none) r) := if_pos h

theorem fire_neg {s : R → Prog α} {c : Cm} {o : Op} {r : R} (h : r ∉ mem c) :
    fire mem res s c o r = s r := if_neg h

theorem fire_comm {s : R → Prog α} {c c' : Cm} {o o' : Op}
    (hd : ∀ r, r ∈ mem c → r ∉ mem c') :
    fire mem res (fire mem res s c o) c' o' = fire mem res (fire mem res s c' o') c o := by
  funext r
  by_cases h1 : r ∈ mem c
  · have h2 := hd r h1
    have e : (fun q => if q ∈ mem c then sent (fire mem res s c' o' q) else Val.none)
        = fun q => if q ∈ mem c then sent (s q) else Val.none := by
      funext q
      by_cases hq : q ∈ mem c
      · simp only [if_pos hq, fire, if_neg (hd q hq)]
      · simp only [if_neg hq]
    have a : fire mem res s c' o' r = s r := by simp only [fire, if_neg h2]
    have b : fire mem res (fire mem res s c' o') c o r
        = recv (s r) (res c o (fun q => if q ∈ mem c then sent (s q) else .none) r) := by
      rw [fire_pos h1, a, e]
    rw [b, fire_neg h2, fire_pos h1]
  · by_cases h2 : r ∈ mem c'
    · have e : (fun q => if q ∈ mem c' then sent (fire mem res s c o q) else Val.none)
          = fun q => if q ∈ mem c' then sent (s q) else Val.none := by
        funext q
        by_cases hq : q ∈ mem c'
        · have : q ∉ mem c := fun hc => hd q hc hq
          simp only [if_pos hq, fire, if_neg this]
        · simp only [if_neg hq]
      have a : fire mem res s c o r = s r := by simp only [fire, if_neg h1]
      have b : fire mem res (fire mem res s c o) c' o' r
          = recv (s r) (res c' o' (fun q => if q ∈ mem c' then sent (s q) else .none) r) := by
        rw [fire_pos h2, a, e]
      rw [b, fire_neg h1, fire_pos h2]
    · simp only [fire, if_neg h1, if_neg h2]

theorem diamond {s t u : R → Prog α} (h1 : Step mem res s t) (h2 : Step mem res s u) :
    t = u ∨ ∃ v, Step mem res t v ∧ Step mem res u v := by
  obtain ⟨c, o, e1, rfl⟩ := h1
  obtain ⟨c', o', e2, rfl⟩ := h2
  by_cases hc : c = c' ∧ o = o'
  · obtain ⟨rfl, rfl⟩ := hc; exact .inl rfl
  · have hd := disjoint_of_enabled e1 e2 hc
    refine .inr ⟨_, ⟨c', o', enabled_fire e2 hd, rfl⟩, ⟨c, o, enabled_fire e1 fun r a b => hd r b a, ?_⟩⟩
    exact fire_comm hd

/-- Nobody can move. -/
def Stuck (mem : Cm → Finset R) (res : Cm → Op → (R → Val) → R → Val) (s : R → Prog α) : Prop :=
  ∀ t, ¬ Step mem res s t

theorem Steps.one {n : ℕ} {s t f : R → Prog α} (h : Steps mem res n s f) (hf : Stuck mem res f)
    (hs : Step mem res s t) : ∃ m, n = m + 1 ∧ Steps mem res m t f := by
  induction n generalizing s t with
  | zero => cases h; exact (hf _ hs).elim
  | succ n ih =>
    cases h with
    | cons h1 h2 =>
      rcases diamond h1 hs with rfl | ⟨v, a, b⟩
      · exact ⟨n, rfl, h2⟩
      · obtain ⟨m, rfl, h3⟩ := ih h2 a
        exact ⟨m + 1, rfl, .cons b h3⟩

/-- **C213 (the schedule does not matter).** If one schedule ends in a state where nobody can move any
more, then every schedule can be continued to that very state, and all of them have the same length. -/
theorem C213_schedules {n k : ℕ} {s t f : R → Prog α} (h : Steps mem res n s f)
    (hf : Stuck mem res f) (ht : Steps mem res k s t) : ∃ m, n = k + m ∧ Steps mem res m t f := by
  induction ht generalizing n with
  | refl => exact ⟨n, (Nat.zero_add n).symm, h⟩
  | cons h1 _ ih =>
    obtain ⟨m, rfl, h2⟩ := h.one hf h1
    obtain ⟨m', rfl, h3⟩ := ih h2
    exact ⟨m', by omega, h3⟩

theorem Steps.trans {n k : ℕ} {s t u : R → Prog α} (h : Steps mem res n s t)
    (h' : Steps mem res k t u) : Steps mem res (n + k) s u := by
  induction h with
  | refl => simpa using h'
  | cons h1 _ ih => exact Nat.succ_add _ _ ▸ .cons h1 (ih h')

def Reach (mem : Cm → Finset R) (res : Cm → Op → (R → Val) → R → Val) (s t : R → Prog α) : Prop :=
  ∃ n, Steps mem res n s t

theorem Reach.refl (s : R → Prog α) : Reach mem res s s := ⟨0, .refl s⟩
theorem Reach.trans {s t u : R → Prog α} (h : Reach mem res s t) (h' : Reach mem res t u) :
    Reach mem res s u := by
  obtain ⟨n, h⟩ := h; obtain ⟨k, h'⟩ := h'; exact ⟨_, h.trans h'⟩

/-! ## Running a group of processes -/

theorem Prog.bind_assoc {α β γ : Type} (p : Prog α) (f : α → Prog β) (g : β → Prog γ) :
    (p.bind f).bind g = p.bind fun a => (f a).bind g := by
  induction p with
  | ret a => rfl
  | abort => rfl
  | call c o v k ih => simp only [Prog.bind, Prog.call.injEq, true_and, heq_eq_eq]; funext x; exact ih x

/-- the processes of `S`, running `P`, can be driven to the results `a` whatever the others do -/
def Runs (mem : Cm → Finset R) (res : Cm → Op → (R → Val) → R → Val) (S : Finset R)
    (P : R → Prog α) (a : R → α) : Prop :=
  ∀ (β : Type) (s : R → Prog β) (F : R → α → Prog β), (∀ r ∈ S, s r = (P r).bind (F r)) →
    Reach mem res s fun r => if r ∈ S then F r (a r) else s r

variable (mem res) in
def Ok (S : Finset R) (P : R → Prog α) (post : (R → α) → Prop) : Prop :=
  ∃ a, Runs mem res S P a ∧ post a

variable {β : Type} {S : Finset R}

theorem Ok.congr {P P' : R → Prog α} {post : (R → α) → Prop} (h : ∀ r ∈ S, P r = P' r)
    (hk : Ok mem res S P' post) : Ok mem res S P post := by
  obtain ⟨a, ha, hp⟩ := hk
  exact ⟨a, fun β s F hs => ha β s F fun r hr => (hs r hr).trans (by rw [h r hr]), hp⟩

theorem Ok.mono {P : R → Prog α} {post post' : (R → α) → Prop} (hk : Ok mem res S P post)
    (h : ∀ a, post a → post' a) : Ok mem res S P post' := by
  obtain ⟨a, ha, hp⟩ := hk; exact ⟨a, ha, h a hp⟩

theorem Ok.ret (a : R → α) {post : (R → α) → Prop} (hp : post a) :
    Ok mem res S (fun r => .ret (a r)) post := by
  refine ⟨a, fun β s F hs => ?_, hp⟩
  have : (fun r => if r ∈ S then F r (a r) else s r) = s := by
    funext r
    by_cases hr : r ∈ S
    · rw [if_pos hr, hs r hr]; rfl
    · rw [if_neg hr]
  rw [this]; exact .refl s

theorem Ok.bind {P : R → Prog α} {Q : R → α → Prog β} {q : (R → α) → Prop}
    {post : (R → β) → Prop} (h : Ok mem res S P q)
    (h' : ∀ a, q a → Ok mem res S (fun r => Q r (a r)) post) :
    Ok mem res S (fun r => (P r).bind (Q r)) post := by
  obtain ⟨a, ha, hq⟩ := h
  obtain ⟨b, hb, hp⟩ := h' a hq
  refine ⟨b, fun γ s F hs => ?_, hp⟩
  have h1 := ha γ s (fun r x => (Q r x).bind (F r)) fun r hr => by rw [hs r hr, Prog.bind_assoc]
  refine h1.trans ?_
  have h2 := hb γ (fun r => if r ∈ S then (Q r (a r)).bind (F r) else s r) F
    (fun r hr => by simp only [if_pos hr])
  have e : (fun r => if r ∈ S then F r (b r)
      else (fun r => if r ∈ S then (Q r (a r)).bind (F r) else s r) r)
      = fun r => if r ∈ S then F r (b r) else s r := by
    funext r
    by_cases hr : r ∈ S
    · simp only [if_pos hr]
    · simp only [if_neg hr]
  rw [e] at h2
  exact h2

theorem Ok.empty (P : R → Prog α) [Inhabited α] : Ok mem res ∅ P fun _ => True := by
  refine ⟨fun _ => default, fun β s F _ => ?_, trivial⟩
  simp only [Finset.notMem_empty, if_false]
  exact .refl s

theorem Ok.call {c : Cm} (o : Op) (v : R → Val) (k : R → Val → α) (hS : mem c = S)
    {post : (R → α) → Prop}
    (hp : post fun r => k r (res c o (fun q => if q ∈ mem c then v q else .none) r)) :
    Ok mem res S (fun r => .call c o (v r) fun x => .ret (k r x)) post := by
  refine ⟨_, fun β s F hs => ?_, hp⟩
  subst hS
  by_cases hne : (mem c).Nonempty
  · refine ⟨1, .cons ⟨c, o, ⟨hne, fun r hr => ?_⟩, rfl⟩ ?_⟩
    · rw [hs r hr]; rfl
    · have : (fun r => if r ∈ mem c then
          F r (k r (res c o (fun q => if q ∈ mem c then v q else .none) r)) else s r)
          = fire mem res s c o := by
        funext r
        by_cases hr : r ∈ mem c
        · have e : (fun q => if q ∈ mem c then sent (s q) else Val.none)
              = fun q => if q ∈ mem c then v q else .none := by
            funext q
            by_cases hq : q ∈ mem c
            · simp only [if_pos hq, hs q hq]; rfl
            · simp only [if_neg hq]
          simp only [fire, if_pos hr, e]
          rw [hs r hr]; rfl
        · simp only [fire, if_neg hr]
      rw [this]
      exact .refl _
  · have : (fun r => if r ∈ mem c then
        F r (k r (res c o (fun q => if q ∈ mem c then v q else .none) r)) else s r) = s := by
      funext r
      rw [if_neg fun hr => hne ⟨r, hr⟩]
    rw [this]; exact .refl s

theorem Ok.union {T : Finset R} {P : R → Prog α} {q : R → α → Prop}
    (h : Ok mem res S P fun a => ∀ r ∈ S, q r (a r))
    (h' : Ok mem res T P fun a => ∀ r ∈ T, q r (a r)) (hd : Disjoint S T) :
    Ok mem res (S ∪ T) P fun a => ∀ r ∈ S ∪ T, q r (a r) := by
  obtain ⟨a, ha, hqa⟩ := h
  obtain ⟨b, hb, hqb⟩ := h'
  have hd' : ∀ r, r ∈ S → r ∉ T := fun r h1 h2 => Finset.disjoint_left.1 hd h1 h2
  refine ⟨fun r => if r ∈ S then a r else b r, fun β s F hs => ?_, ?_⟩
  · have h1 := ha β s F fun r hr => hs r (Finset.mem_union_left _ hr)
    have h2 := hb β (fun r => if r ∈ S then F r (a r) else s r) F fun r hr => by
      have : r ∉ S := fun h => hd' r h hr
      simp only [if_neg this]
      exact hs r (Finset.mem_union_right _ hr)
    refine h1.trans ?_
    have e : (fun r => if r ∈ T then F r (b r)
        else (fun r => if r ∈ S then F r (a r) else s r) r)
        = fun r => if r ∈ S ∪ T then F r (if r ∈ S then a r else b r) else s r := by
      funext r
      by_cases h1 : r ∈ S
      · simp only [if_pos h1, if_neg (hd' r h1), Finset.mem_union, true_or, if_true, h1]
      · by_cases h2 : r ∈ T
        · simp only [if_neg h1, if_pos h2, Finset.mem_union, or_true, if_true, h2]
        · simp only [if_neg h1, if_neg h2, Finset.mem_union, or_self, h1, h2, if_false]
    rw [e] at h2
    exact h2
  · intro r hr
    by_cases h1 : r ∈ S
    · simp only [if_pos h1]; exact hqa r h1
    · simp only [if_neg h1]
      exact hqb r ((Finset.mem_union.1 hr).resolve_left h1)

/-- Groups of processes that do not interact can be driven one after the other. -/
theorem Ok.groups [Inhabited α] {ι : Type} [DecidableEq ι] (g : R → ι) {P : R → Prog α}
    {q : R → α → Prop}
    (h : ∀ i, Ok mem res (S.filter fun r => g r = i) P
      fun a => ∀ r ∈ S.filter (fun r => g r = i), q r (a r)) :
    Ok mem res S P fun a => ∀ r ∈ S, q r (a r) := by
  have key : ∀ T : Finset ι, Ok mem res (S.filter fun r => g r ∈ T) P
      fun a => ∀ r ∈ S.filter (fun r => g r ∈ T), q r (a r) := by
    intro T
    induction T using Finset.induction_on with
    | empty =>
      have : (S.filter fun r => g r ∈ (∅ : Finset ι)) = ∅ := by
        ext r; simp
      rw [this]
      exact (Ok.empty P).mono fun _ _ r hr => absurd hr (Finset.notMem_empty r)
    | insert i T hi ih =>
      have e : (S.filter fun r => g r ∈ insert i T)
          = (S.filter fun r => g r = i) ∪ S.filter fun r => g r ∈ T := by
        ext r; simp only [Finset.mem_filter, Finset.mem_insert, Finset.mem_union]; tauto
      rw [e]
      refine Ok.union (h i) ih ?_
      rw [Finset.disjoint_left]
      intro r h1 h2
      simp only [Finset.mem_filter] at h1 h2
      exact hi (h1.2 ▸ h2.2)
  have e : (S.filter fun r => g r ∈ S.image g) = S := by
    ext r; simp only [Finset.mem_filter, Finset.mem_image]
    exact ⟨fun h => h.1, fun h => ⟨h, r, h, rfl⟩⟩
  have := key (S.image g)
  rwa [e] at this

end

end Verif.Coll

namespace Verif.Coll

open Verif.Scatter

/-! ## The layout -/

/-- What MPI guarantees about a broadcast: every member receives what the member of lowest rank sent.
Nothing is assumed about reductions — not even that all members receive the same number. -/
def Broadcasts (L : Lay) (res : Cm → Op → (Fin L.size → Val) → Fin L.size → Val) : Prop :=
  ∀ c vs r q, r ∈ L.mem c → q ∈ L.mem c → (∀ q' ∈ L.mem c, q ≤ q') → res c .bcast vs r = vs q

variable {σ : Type} [Inhabited σ] {E : Env σ} {L : Lay}
  {res : Cm → Op → (Fin L.size → Val) → Fin L.size → Val} {S : Finset (Fin L.size)}

abbrev OkT (L : Lay) (res : Cm → Op → (Fin L.size → Val) → Fin L.size → Val) {α : Type}
    (S : Finset (Fin L.size)) (P : Fin L.size → Prog α) : Prop := Ok L.mem res S P fun _ => True

/-- `S` consists of whole communicators `cm r` -/
def Cover (L : Lay) (S : Finset (Fin L.size)) (cm : Fin L.size → Cm) : Prop :=
  ∀ r ∈ S, ∀ q, q ∈ L.mem (cm r) ↔ q ∈ S ∧ cm q = cm r

theorem okb {α β : Type} {P : Fin L.size → Prog α} {Q : Fin L.size → α → Prog β}
    {post : (Fin L.size → β) → Prop} (h : OkT L res S P)
    (h' : ∀ a : Fin L.size → α, Ok L.mem res S (fun r => Q r (a r)) post) :
    Ok L.mem res S (fun r => P r >>= Q r) post :=
  Ok.bind h fun a _ => h' a

theorem okp {α : Type} (a : Fin L.size → α) : OkT L res S fun r => (pure (a r) : Prog α) :=
  Ok.ret a trivial

theorem okGroups {α ι : Type} [Inhabited α] [DecidableEq ι] (g : Fin L.size → ι)
    {P : Fin L.size → Prog α} (h : ∀ i, OkT L res (S.filter fun r => g r = i) P) : OkT L res S P :=
  (Ok.groups g (q := fun _ _ => True) fun i => (h i).mono fun _ _ _ _ => trivial).mono
    fun _ _ => trivial

theorem okCall {α : Type} [Inhabited α] {cm : Fin L.size → Cm} (hc : Cover L S cm) (o : Op)
    (v : Fin L.size → Val) (k : Fin L.size → Val → α) :
    OkT L res S fun r => .call (cm r) o (v r) fun x => .ret (k r x) := by
  refine okGroups cm fun c => ?_
  rcases (S.filter fun r => cm r = c).eq_empty_or_nonempty with h | ⟨r0, h0⟩
  · rw [h]; exact Ok.empty _
  · have e : L.mem c = S.filter fun r => cm r = c := by
      obtain ⟨h1, h2⟩ := Finset.mem_filter.1 h0
      ext q
      rw [Finset.mem_filter, ← h2]
      exact hc r0 h1 q
    exact Ok.congr (fun r hr => by rw [(Finset.mem_filter.1 hr).2]) (Ok.call o v k e trivial)

theorem okBar {cm : Fin L.size → Cm} (hc : Cover L S cm) (m : Fin L.size → σ) :
    OkT L res S fun r => bar (cm r) (m r) := okCall hc _ _ fun r _ => m r

variable (hE : ∀ site r m, E.raises site r m = false)
include hE

theorem okSend {cm : Fin L.size → Cm} (hc : Cover L S cm) (o : Op) (site : String)
    (v : Fin L.size → Val) (m : Fin L.size → σ) :
    OkT L res S fun r => send E r.1 (cm r) o site (v r) (m r) := by
  haveI : Inhabited (Val × σ) := ⟨(.none, default)⟩
  refine Ok.congr (fun r _ => ?_) (okCall hc o v fun r x => (x, E.inp site r.1 x (m r)))
  simp only [send, hE, Bool.false_eq_true, if_false]

theorem okAct {cm : Fin L.size → Cm} (hc : Cover L S cm) (o : Op) (site : String)
    (m : Fin L.size → σ) : OkT L res S fun r => act E r.1 (cm r) o site (m r) :=
  okb (okSend hE hc o site _ m) fun a => okp fun r => (a r).2

/-- a broadcast whose value steers the control flow: all members go on with the same value, which is
the one sent by the member of lowest rank -/
theorem okSendB (hres : Broadcasts L res) {cm : Fin L.size → Cm} {c : Cm} (hcm : ∀ r ∈ S, cm r = c)
    (hS : L.mem c = S) (site : String) (v : Fin L.size → Val) (m : Fin L.size → σ) {β : Type}
    {Q : Fin L.size → Val × σ → Prog β} {post : (Fin L.size → β) → Prop}
    (h : ∀ (x : Val) (m' : Fin L.size → σ), (∀ q ∈ S, (∀ q' ∈ S, q ≤ q') → x = v q) →
      Ok L.mem res S (fun r => Q r (x, m' r)) post) :
    Ok L.mem res S (fun r => send E r.1 (cm r) .bcast site (v r) (m r) >>= Q r) post := by
  rcases S.eq_empty_or_nonempty with he | hne
  · obtain ⟨a, ha, hp⟩ := h .none m fun q hq => absurd hq (he ▸ Finset.notMem_empty q)
    exact ⟨a, fun β s F hs => ha β s F fun r hr => absurd hr (he ▸ Finset.notMem_empty r), hp⟩
  · have hmin : ∀ q' ∈ S, S.min' hne ≤ q' := fun q' hq => S.min'_le q' hq
    refine Ok.bind (q := fun a => ∀ r ∈ S, (a r).1 = v (S.min' hne))
      (Ok.congr (P' := fun r => .call c .bcast (v r) fun x => .ret (x, E.inp site r.1 x (m r)))
        (fun r hr => ?_) (Ok.call .bcast v (fun r x => (x, E.inp site r.1 x (m r))) hS ?_))
      fun a ha => ?_
    · simp only [send, hE, Bool.false_eq_true, if_false, hcm r hr]
    · intro r hr
      show res c .bcast _ r = _
      rw [hres c _ r (S.min' hne) (hS ▸ hr) (hS ▸ S.min'_mem hne) (hS ▸ hmin)]
      exact if_pos (hS ▸ S.min'_mem hne)
    · refine Ok.congr (P' := fun r => Q r (v (S.min' hne), (a r).2)) (fun r hr => ?_)
        (h _ (fun r => (a r).2) fun q hq hle => ?_)
      · rw [← ha r hr]
      · rw [le_antisymm (hle _ (S.min'_mem hne)) (hmin q hq)]

theorem okOpB (hres : Broadcasts L res) {cm : Fin L.size → Cm} {c : Cm} (hcm : ∀ r ∈ S, cm r = c)
    (hS : L.mem c = S) (site : String) (m : Fin L.size → σ) {β : Type}
    {Q : Fin L.size → Val × σ → Prog β} {post : (Fin L.size → β) → Prop}
    (h : ∀ (x : Val) (m' : Fin L.size → σ),
      (∀ q ∈ S, (∀ q' ∈ S, q ≤ q') → x = E.out site q.1 (m q)) →
      Ok L.mem res S (fun r => Q r (x, m' r)) post) :
    Ok L.mem res S (fun r => op E r.1 (cm r) .bcast site (m r) >>= Q r) post :=
  okSendB hE hres hcm hS site _ m h

omit hE in
theorem okRep (f : Fin L.size → σ → Prog σ)
    (h : ∀ m : Fin L.size → σ, OkT L res S fun r => f r (m r)) (n : ℕ) :
    ∀ m : Fin L.size → σ, OkT L res S fun r => rep n (f r) (m r) := by
  induction n with
  | zero => exact fun m => okp m
  | succ n ih => exact fun m => okb (h m) fun a => ih a

theorem okBcasts {cm : Fin L.size → Cm} (hc : Cover L S cm) (l : List String) :
    ∀ m : Fin L.size → σ, OkT L res S fun r => bcasts E r.1 (cm r) l (m r) := by
  induction l with
  | nil => exact fun m => okp m
  | cons x l ih => exact fun m => okb (okAct hE hc _ x m) fun a => ih a

/-- plane-wave groups of `S` -/
abbrev PwCover (L : Lay) (S : Finset (Fin L.size)) : Prop := Cover L S fun r => .pwgrp (r.1 / L.P)

omit hE in
theorem okByPw {α : Type} [Inhabited α] (hc : PwCover L S) {P : Fin L.size → Prog α}
    (h : ∀ (c : ℕ) (T : Finset (Fin L.size)), PwCover L T → (∀ r ∈ T, r.1 / L.P = c) →
      OkT L res T P) : OkT L res S P := by
  refine okGroups (fun r : Fin L.size => r.1 / L.P) fun c =>
    h c _ ?_ fun r hr => (Finset.mem_filter.1 hr).2
  intro r hr q
  obtain ⟨h1, h2⟩ := Finset.mem_filter.1 hr
  rw [hc r h1 q, Finset.mem_filter]
  simp only [Cm.pwgrp.injEq]
  constructor
  · rintro ⟨a, b⟩; exact ⟨⟨a, b.trans h2⟩, b⟩
  · rintro ⟨⟨a, _⟩, b⟩; exact ⟨a, b⟩

/-- a section of calls on the plane-wave groups: every group may make its own number of them -/
theorem okPw (hc : PwCover L S) (site : String) (n : ℕ → ℕ) (m : Fin L.size → σ) :
    OkT L res S fun r => pwSec E L r.1 site (n (r.1 / L.P)) (m r) := by
  refine okByPw hc fun c T hT hr => ?_
  refine Ok.congr (P' := fun r => pwSec E L r.1 site (n c) (m r))
    (fun r h => by rw [hr r h]) ?_
  exact okRep _ (fun m => okAct hE hT _ site m) _ m

theorem okPwIf (hc : PwCover L S) (site : String) (n : ℕ → ℕ) (b : ℕ → Prop) [DecidablePred b]
    (m : Fin L.size → σ) :
    OkT L res S fun r => whenP (b (r.1 / L.P)) (pwSec E L r.1 site (n (r.1 / L.P))) (m r) := by
  refine okByPw hc fun c T hT hr => ?_
  by_cases hb : b c
  · exact Ok.congr (fun r h => if_pos ((hr r h).symm ▸ hb)) (okPw hE hT site n m)
  · exact Ok.congr (fun r h => if_neg ((hr r h).symm ▸ hb)) (okp m)

/-! ### Which sets are unions of which communicators -/

omit hE [Inhabited σ]
theorem coverImage : Cover L Finset.univ fun _ => .image := by
  intro r _ q; simp [Lay.mem]

theorem coverInter : Cover L Finset.univ fun r => .inter (L.iP r.1) := by
  intro r _ q; simp [Lay.mem]

theorem coverPw : PwCover L Finset.univ := by
  intro r _ q; simp [Lay.mem]

theorem coverKg : Cover L Finset.univ fun r => kg L r.1 := by
  intro r _ q; simp [Lay.mem, kg]

theorem coverBg : Cover L Finset.univ fun r => bg L r.1 := by
  intro r _ q; simp [Lay.mem, bg]

theorem coverKroot : Cover L (L.mem .kroot) fun _ => .kroot := by
  intro r _ q; simp

theorem coverKgK (k : ℕ) : Cover L (L.mem (.kgrp k)) fun r => kg L r.1 := by
  intro r hr q
  simp only [Lay.mem, Finset.mem_filter, Finset.mem_univ, true_and] at hr
  simp only [Lay.mem, kg, Finset.mem_filter, Finset.mem_univ, true_and, Cm.kgrp.injEq, hr]
  tauto

theorem coverBgK (k : ℕ) : Cover L (L.mem (.kgrp k)) fun r => bg L r.1 := by
  intro r hr q
  simp only [Lay.mem, Finset.mem_filter, Finset.mem_univ, true_and] at hr
  simp only [Lay.mem, bg, Finset.mem_filter, Finset.mem_univ, true_and, Cm.band.injEq, hr]
  tauto

theorem iK_eq (L : Lay) (r : ℕ) : L.iK r = r / L.P / L.nB := by
  rw [Nat.div_div_eq_div_mul, Nat.mul_comm]; rfl

theorem coverPwK (k : ℕ) : PwCover L (L.mem (.kgrp k)) := by
  intro r hr q
  simp only [Lay.mem, Finset.mem_filter, Finset.mem_univ, true_and, iK_eq] at hr
  simp only [Lay.mem, Finset.mem_filter, Finset.mem_univ, true_and, Cm.pwgrp.injEq, iK_eq]
  constructor
  · intro h; exact ⟨by rw [h]; exact hr, h⟩
  · exact fun h => h.2

/-! ### The pieces of the run -/

variable [Inhabited σ] (hE : ∀ site r m, E.raises site r m = false)
include hE

section kgroup
variable (k : ℕ)

theorem okHpsi (n : ℕ) (m : Fin L.size → σ) :
    OkT L res (L.mem (.kgrp k)) fun r => computeHpsi E L r.1 n (m r) := by
  unfold computeHpsi
  refine okb (okBar (coverBgK k) m) fun m => ?_
  refine okb ?_ fun m => ?_
  · exact okPwIf hE (coverPwK k) "h_psi" (fun c => share n L.nB (c % L.nB))
      (fun c => 0 < share n L.nB (c % L.nB)) m
  refine okb (okBar (coverBgK k) m) fun m => ?_
  refine okb (okAct hE (coverBgK k) _ _ m) fun m => ?_
  exact okBar (coverBgK k) m

theorem okExpand (n : ℕ) (m : Fin L.size → σ) :
    OkT L res (L.mem (.kgrp k)) fun r => expandPsi E L r.1 n (m r) := by
  unfold expandPsi
  refine okb (okBar (coverBgK k) m) fun m => ?_
  refine okb (okAct hE (coverBgK k) _ _ m) fun m => ?_
  refine okb (okAct hE (coverBgK k) _ _ m) fun m => ?_
  refine okb (okBar (coverBgK k) m) fun m => ?_
  refine okb (okBar (coverBgK k) m) fun m => ?_
  refine okb (okPw hE (coverPwK k) "normalize" (fun c => share n L.nB (c % L.nB)) m) fun m => ?_
  refine okb (okAct hE (coverBgK k) _ _ m) fun m => ?_
  refine okb (okBar (coverBgK k) m) fun m => ?_
  exact okHpsi hE k n m

theorem okRed (n : ℕ) (m : Fin L.size → σ) :
    OkT L res (L.mem (.kgrp k)) fun r => updateRed E L r.1 n (m r) := by
  unfold updateRed
  refine okb (okBar (coverBgK k) m) fun m => ?_
  refine okb ?_ fun m => ?_
  · exact okPwIf hE (coverPwK k) "vdot" (fun c => share n L.nB (c % L.nB)) (fun _ => 0 < n) m
  refine okb (okBar (coverBgK k) m) fun m => ?_
  refine okb (okAct hE (coverBgK k) _ _ m) fun m => ?_
  refine okb (okAct hE (coverBgK k) _ _ m) fun m => ?_
  exact okBar (coverBgK k) m

theorem okSolve (m : Fin L.size → σ) :
    OkT L res (L.mem (.kgrp k)) fun r => solveRed E L r.1 (m r) := by
  unfold solveRed
  refine okb (okBar (coverKgK k) m) fun m => ?_
  refine okb (okAct hE (coverKgK k) _ _ m) fun m => ?_
  refine okb (okAct hE (coverKgK k) _ _ m) fun m => ?_
  exact okBar (coverKgK k) m

omit hE [Inhabited σ] in
theorem kg_eq : ∀ r ∈ L.mem (.kgrp k), kg L r.1 = .kgrp k := by
  intro r hr
  simp only [Lay.mem, Finset.mem_filter, Finset.mem_univ, true_and] at hr
  rw [kg, hr]

theorem okDavLoop (hres : Broadcasts L res) (numeig ndimMax left : ℕ) :
    ∀ (ndim nu : ℕ) (m : Fin L.size → σ),
      OkT L res (L.mem (.kgrp k)) fun r => davLoop E L r.1 numeig ndimMax left ndim nu (m r) := by
  induction left with
  | zero => exact fun _ _ m => okp m
  | succ left ih =>
    intro ndim nu m
    unfold davLoop
    refine okb (okExpand hE k nu m) fun m => ?_
    refine okb (okRed hE k nu m) fun m => ?_
    refine okb (okSolve hE k m) fun m => ?_
    refine okb (okBar (coverKgK k) m) fun m => ?_
    refine okOpB hE hres (kg_eq k) rfl _ m fun x m _ => ?_
    refine okb (okBar (coverKgK k) m) fun m => ?_
    by_cases h0 : x.count = 0
    · simp only [h0, if_true]
      refine okb (okBar (coverBgK k) m) fun m => ?_
      refine okb (okAct hE (coverBgK k) _ _ m) fun m => ?_
      exact okBar (coverBgK k) m
    · simp only [h0, if_false]
      by_cases h1 : ndim + nu + x.count > ndimMax
      · simp only [h1, if_true]
        refine okb (okBar (coverBgK k) m) fun m => ?_
        refine okb (okAct hE (coverBgK k) _ _ m) fun m => ?_
        refine okb (okAct hE (coverBgK k) _ _ m) fun m => ?_
        refine okb (okBar (coverBgK k) m) fun m => ?_
        exact ih _ _ m
      · simp only [h1, if_false]
        exact ih _ _ m

theorem okDavidson (hres : Broadcasts L res) (numeig : ℕ) (m : Fin L.size → σ) :
    OkT L res (L.mem (.kgrp k)) fun r => davidson E L r.1 numeig (m r) := by
  unfold davidson
  refine okb (okBar (coverKgK k) m) fun m => ?_
  refine okb (okAct hE (coverKgK k) _ _ m) fun m => ?_
  refine okb (okAct hE (coverKgK k) _ _ m) fun m => ?_
  refine okOpB hE hres (kg_eq k) rfl _ m fun nw m _ => ?_
  refine okOpB hE hres (kg_eq k) rfl _ m fun mx m _ => ?_
  refine okb (okBar (coverKgK k) m) fun m => ?_
  refine okb (okBar (coverKgK k) m) fun m => ?_
  refine okb (okAct hE (coverKgK k) _ _ m) fun m => ?_
  refine okb (okBar (coverKgK k) m) fun m => ?_
  refine okb (okBar (coverBgK k) m) fun m => ?_
  refine okb (okAct hE (coverBgK k) _ _ m) fun m => ?_
  refine okb (okBar (coverBgK k) m) fun m => ?_
  refine okb (okPw hE (coverPwK k) "normalize" (fun _ => numeig) m) fun m => ?_
  refine okb (okHpsi hE k numeig m) fun m => ?_
  refine okb (okRed hE k numeig m) fun m => ?_
  refine okb (okSolve hE k m) fun m => ?_
  exact okDavLoop hE k hres numeig (nw.toNat * numeig) mx.toNat numeig numeig m

end kgroup

/-- every k-group diagonalises its own number of k-points -/
theorem okSolveAll (hres : Broadcasts L res) (numeig ns : ℕ) (nk : ℕ → ℕ) (m : Fin L.size → σ) :
    OkT L res Finset.univ fun r =>
      rep (nk (L.iK r.1)) (rep ns (davidson E L r.1 numeig)) (m r) := by
  refine okGroups (fun r : Fin L.size => L.iK r.1) fun k => ?_
  have e : (Finset.univ.filter fun r : Fin L.size => L.iK r.1 = k) = L.mem (.kgrp k) := rfl
  rw [e]
  refine Ok.congr (P' := fun r => rep (nk k) (rep ns (davidson E L r.1 numeig)) (m r))
    (fun r hr => ?_) ?_
  · simp only [Lay.mem, Finset.mem_filter, Finset.mem_univ, true_and] at hr
    rw [hr]
  · exact okRep _ (fun m => okRep _ (fun m => okDavidson hE k hres numeig m) ns m) _ m

omit hE in
theorem okKroot (body : Fin L.size → σ → Prog σ)
    (h : ∀ m : Fin L.size → σ, OkT L res (L.mem .kroot) fun r => body r (m r))
    (m : Fin L.size → σ) :
    OkT L res Finset.univ fun r => krootBlock L r.1 (body r) (m r) := by
  have e : ∀ r : Fin L.size, krootBlock L r.1 (body r) (m r)
      = (if L.isKroot r.1 = true then bar .kroot (m r) >>= fun m => body r m >>= fun m => bar .kroot m
          else pure (m r)) >>= bar .image := by
    intro r
    unfold krootBlock
    split
    · show Prog.bind _ _ = Prog.bind (Prog.bind _ _) _
      rw [Prog.bind_assoc]
      congr 1; funext a
      show Prog.bind _ _ = Prog.bind (Prog.bind _ _) _
      rw [Prog.bind_assoc]
      rfl
    · rfl
  refine Ok.congr (fun r _ => e r) ?_
  refine okb ?_ fun m => okBar coverImage m
  refine okGroups (fun r : Fin L.size => L.isKroot r.1) fun b => ?_
  cases b with
  | true =>
    have e : (Finset.univ.filter fun r : Fin L.size => L.isKroot r.1 = true) = L.mem .kroot := rfl
    rw [e]
    refine Ok.congr (P' := fun r => bar .kroot (m r) >>= fun m => body r m >>= fun m => bar .kroot m)
      (fun r hr => ?_) ?_
    · simp only [Lay.mem, Finset.mem_filter, Finset.mem_univ, true_and] at hr
      rw [if_pos hr]
    · refine okb (okBar coverKroot m) fun m => ?_
      refine okb (h m) fun m => ?_
      exact okBar coverKroot m
  | false =>
    refine Ok.congr (P' := fun r => pure (m r)) (fun r hr => ?_) (okp m)
    have := (Finset.mem_filter.1 hr).2
    rw [if_neg (by rw [this]; exact Bool.false_ne_true)]

theorem okBisect (hres : Broadcasts L res) (numel : ℝ) (fuel : ℕ) :
    ∀ m : Fin L.size → σ, OkT L res (L.mem .kroot) fun r => bisect E r.1 numel fuel (m r) := by
  induction fuel with
  | zero => exact fun m => okp m
  | succ fuel ih =>
    intro m
    unfold bisect
    refine okb (okAct hE coverKroot _ _ m) fun m => ?_
    refine okOpB hE hres (fun _ _ => rfl) rfl _ m fun x m _ => ?_
    by_cases h : abs (numel - x.toReal) > 1 / 10 ^ 10
    · simp only [h, if_true]
      refine okb (okAct hE coverKroot _ _ m) fun m => ?_
      refine okb (okAct hE coverKroot _ _ m) fun m => ?_
      exact ih m
    · simp only [h, if_false]
      exact okp m

theorem okSmear (hres : Broadcasts L res) (I : Inp) (nw : ℕ → ℕ) (m : Fin L.size → σ) :
    OkT L res Finset.univ fun r => smearOcc E L r.1 I (nw (L.iK r.1)) (m r) := by
  unfold smearOcc
  refine okb (okBar coverImage m) fun m => ?_
  refine okb (okBcasts hE coverImage _ m) fun m => ?_
  refine okb (okBar coverImage m) fun m => ?_
  refine okb (okKroot _ (fun m => ?_) m) fun m => ?_
  · refine okb (okAct hE coverKroot _ _ m) fun m => ?_
    refine okb (okAct hE coverKroot _ _ m) fun m => ?_
    refine okOpB hE hres (fun _ _ => rfl) rfl _ m fun x m _ => ?_
    refine okb (okBisect hE hres x.toReal I.fuel m) fun m => ?_
    exact okAct hE coverKroot _ _ m
  refine okb (okBar coverKg m) fun m => ?_
  refine okb ?_ fun m => ?_
  · refine okGroups (fun r : Fin L.size => L.iK r.1) fun k => ?_
    have e : (Finset.univ.filter fun r : Fin L.size => L.iK r.1 = k) = L.mem (.kgrp k) := rfl
    rw [e]
    refine Ok.congr (P' := fun r => rep (nw k) (act E r.1 (kg L r.1) .bcast "occ") (m r))
      (fun r hr => ?_) ?_
    · simp only [Lay.mem, Finset.mem_filter, Finset.mem_univ, true_and] at hr
      rw [hr]
    · exact okRep _ (fun m => okAct hE (coverKgK k) _ _ m) _ m
  refine okb (okBcasts hE coverKg _ m) fun m => ?_
  exact okBar coverKg m

theorem okFixed (hres : Broadcasts L res) (numbnd : ℕ) (m : Fin L.size → σ) :
    OkT L res Finset.univ fun r => fixedOcc E L r.1 numbnd (m r) := by
  unfold fixedOcc
  refine okb (okBar coverImage m) fun m => ?_
  refine okb (okAct hE coverImage _ _ m) fun m => ?_
  refine okb (okBar coverImage m) fun m => ?_
  refine okb (okBar coverImage m) fun m => ?_
  refine okOpB hE hres (c := .image) (fun _ _ => rfl) rfl _ m fun x m _ => ?_
  refine okb (okKroot _ (fun m => ?_) m) fun m => ?_
  · refine okb (okAct hE coverKroot _ _ m) fun m => ?_
    refine okb ?_ fun m => okBcasts hE coverKroot _ m
    by_cases h : x.toNat / 2 < numbnd
    · exact Ok.congr (fun r _ => if_pos h) (okAct hE coverKroot _ _ m)
    · exact Ok.congr (fun r _ => if_neg h) (okp m)
  exact okBar coverImage m

theorem okSymm (b : Bool) (m : Fin L.size → σ) :
    OkT L res Finset.univ fun r => whenP (b = true) (pwSec E L r.1 "symmetrize" 0) (m r) :=
  okPwIf hE coverPw "symmetrize" (fun _ => 0) (fun _ => b = true) m

theorem okIterHead (hres : Broadcasts L res) (I : Inp) (A : Args) (m : Fin L.size → σ) :
    OkT L res Finset.univ fun r => iterHead E L r.1 I A (m r) := by
  unfold iterHead
  refine okb (okSymm hE A.symm m) fun m => ?_
  refine okb (okPw hE coverPw _ (fun _ => 0) m) fun m => ?_
  refine okb (okPw hE coverPw _ (fun _ => 0) m) fun m => ?_
  refine okb (okAct hE coverBg _ _ m) fun m => ?_
  refine okb (okAct hE coverImage _ _ m) fun m => ?_
  refine okb (okPw hE coverPw _ (fun _ => 0) m) fun m => ?_
  refine okb (okSolveAll hE hres A.numbnd _ (fun k => share I.numk L.nK k) m) fun m => ?_
  by_cases h : A.smear = true
  · simp only [h, if_true]
    exact okSmear hE hres I (fun k => share I.numk L.nK k * nspin A) m
  · simp only [h]
    exact okFixed hE hres _ m

theorem okRho (A : Args) (nw : ℕ → ℕ) (hb : L.nB ≤ A.numbnd) (hB : 0 < L.nB)
    (m : Fin L.size → σ) :
    OkT L res Finset.univ fun r => updateRho E L r.1 A (nw (L.iK r.1)) (m r) := by
  unfold updateRho
  have pos : ∀ r : Fin L.size, sliceStart A.numbnd L.nB (L.iB r.1)
      < sliceStop A.numbnd L.nB (L.iB r.1) := by
    intro r
    have h2 : 0 < A.numbnd / L.nB := Nat.div_pos hb hB
    unfold sliceStop
    omega
  refine okb ?_ fun m => okb (okPw hE coverPw _ (fun _ => 0) m) fun m => okSymm hE A.symm m
  refine Ok.congr (fun r _ => if_pos (pos r)) ?_
  refine okb ?_ fun m => ?_
  · refine okByPw coverPw fun c T hT hr => ?_
    refine Ok.congr (P' := fun r => rep (nw (c / L.nB))
      (pwSec E L r.1 "compute_rho" (share A.numbnd L.nB (c % L.nB))) (m r)) (fun r h => ?_) ?_
    · rw [iK_eq, Lay.iB, hr r h]
    · exact okRep _ (fun m => okPw hE hT _ (fun _ => share A.numbnd L.nB (c % L.nB)) m) _ m
  refine okb (okBar coverInter m) fun m => ?_
  refine okb (okAct hE coverInter _ _ m) fun m => ?_
  exact okBar coverInter m

theorem okEn (m : Fin L.size → σ) : OkT L res Finset.univ fun r => computeEn E L r.1 (m r) := by
  unfold computeEn
  refine okb (okKroot _ (fun m => okAct hE coverKroot _ _ m) m) fun m => ?_
  refine okb (okAct hE coverImage _ _ m) fun m => ?_
  exact okPw hE coverPw _ (fun _ => 0) m

theorem okMix (m : Fin L.size → σ) : OkT L res Finset.univ fun r => mix E L r.1 (m r) := by
  unfold mix
  refine okb ?_ fun m => okAct hE coverInter _ _ m
  exact okPwIf hE coverPw "_mix" (fun _ => 0) (fun c => c = 0) m

end Verif.Coll

namespace Verif.Coll

open Verif.Scatter

variable {σ : Type} [Inhabited σ] {E : Env σ} {L : Lay}
  {res : Cm → Op → (Fin L.size → Val) → Fin L.size → Val}
  (hE : ∀ site r m, E.raises site r m = false)
include hE

theorem okBD {α β : Type} {S : Finset (Fin L.size)} {P : Fin L.size → Prog (α × σ)}
    {Q : Fin L.size → α × σ → Prog β} {p : α → Prop}
    {post : (Fin L.size → β) → Prop}
    (h : Ok L.mem res S P fun a => ∃ v, p v ∧ ∀ r ∈ S, (a r).1 = v)
    (h' : ∀ v (m : Fin L.size → σ), p v → Ok L.mem res S (fun r => Q r (v, m r)) post) :
    Ok L.mem res S (fun r => P r >>= Q r) post := by
  refine Ok.bind h ?_
  rintro a ⟨v, hp, hv⟩
  exact Ok.congr (fun r hr => by rw [← hv r hr]) (h' v (fun r => (a r).2) hp)

theorem okDecision (I : Inp) (A : Args) (idx : ℕ) (thr e : ℝ) (m : Fin L.size → σ) :
    Ok L.mem res Finset.univ (fun r => decision E L r.1 I A idx thr e (m r))
      fun a => ∃ v, True ∧ ∀ r ∈ Finset.univ, (a r).1 = v := by
  unfold decision
  by_cases h : e < A.convThr
  · simp only [h, if_true]
    exact okb (okEn hE m) fun m => Ok.ret _ ⟨(true, thr), trivial, fun _ _ => rfl⟩
  · simp only [h, if_false]
    by_cases h2 : idx = 0 ∧ e < thr * I.numel
    · simp only [h2, if_true]
      exact Ok.ret _ ⟨_, trivial, fun _ _ => rfl⟩
    · simp only [h2, if_false]
      refine okb (okMix hE m) fun m => ?_
      refine okb (okSymm hE A.symm m) fun m => ?_
      exact Ok.ret _ ⟨_, trivial, fun _ _ => rfl⟩

/-- the arguments every process works with are those of the root of `image_comm` -/
def FromRoot (E : Env σ) (A : Args) : Prop :=
  (∃ x, A.numbnd = (E.out "numbnd" 0 x).toNat) ∧ (∃ x, A.spin = (E.out "scf:is_spin" 0 x).toBool) ∧
  (∃ x, A.convThr = (E.out "conv_thr" 0 x).toReal) ∧ ∃ x, A.maxiter = (E.out "maxiter" 0 x).toNat

theorem okReadArgs (hres : Broadcasts L res) (I : Inp) (m : Fin L.size → σ) {β : Type}
    {Q : Fin L.size → Args × σ → Prog β} {post : (Fin L.size → β) → Prop}
    (h : ∀ (A : Args) (m' : Fin L.size → σ),
      (0 < L.size → FromRoot E A) →
      Ok L.mem res Finset.univ (fun r => Q r (A, m' r)) post) :
    Ok L.mem res Finset.univ (fun r => readArgs E L r.1 I (m r) >>= Q r) post := by
  refine okBD hE (p := fun A : Args => 0 < L.size → FromRoot E A)
    ?_ fun A m hA => h A m hA
  unfold readArgs
  refine okb (okBar coverImage m) fun m => ?_
  refine okb ?_ fun m => ?_
  · unfold checkSystem
    refine okb (okBar coverImage m) fun m => ?_
    refine okb (okBcasts hE coverImage _ m) fun m => ?_
    exact okBar coverImage m
  refine okOpB hE hres (c := .image) (fun _ _ => rfl) rfl _ m fun nb m1 hnb => ?_
  refine okOpB hE hres (c := .image) (fun _ _ => rfl) rfl _ m1 fun sp m2 hsp => ?_
  refine okb (okAct hE coverImage _ _ m2) fun m => ?_
  refine okOpB hE hres (c := .image) (fun _ _ => rfl) rfl _ m fun sy m _ => ?_
  refine okb (okPw hE coverPw _ (fun _ => 0) m) fun m => ?_
  refine okb (okAct hE coverImage _ _ m) fun m => ?_
  refine okOpB hE hres (c := .image) (fun _ _ => rfl) rfl _ m fun oc m _ => ?_
  refine okb (okBcasts hE coverImage _ m) fun m => ?_
  refine okOpB hE hres (c := .image) (fun _ _ => rfl) rfl _ m fun ct m hct => ?_
  refine okOpB hE hres (c := .image) (fun _ _ => rfl) rfl _ m fun mx m hmx => ?_
  refine okOpB hE hres (c := .image) (fun _ _ => rfl) rfl _ m fun th m _ => ?_
  refine okb (okBcasts hE coverImage _ m) fun m => ?_
  refine okb (okBar coverImage m) fun m => ?_
  refine Ok.ret _ ⟨{ numbnd := nb.toNat, spin := sp.toBool, symm := sy.toBool, smear := oc.toBool,
                     convThr := ct.toReal, maxiter := mx.toNat, thr0 := th.toReal }, fun h0 => ⟨?_, ?_, ?_, ?_⟩, fun _ _ => rfl⟩
  · exact ⟨_, congrArg Val.toNat (hnb ⟨0, h0⟩ (Finset.mem_univ _) fun q _ => Nat.zero_le q.1)⟩
  · exact ⟨_, congrArg Val.toBool (hsp ⟨0, h0⟩ (Finset.mem_univ _) fun q _ => Nat.zero_le q.1)⟩
  · exact ⟨_, congrArg Val.toReal (hct ⟨0, h0⟩ (Finset.mem_univ _) fun q _ => Nat.zero_le q.1)⟩
  · exact ⟨_, congrArg Val.toNat (hmx ⟨0, h0⟩ (Finset.mem_univ _) fun q _ => Nat.zero_le q.1)⟩

theorem okSetup (A : Args) (m : Fin L.size → σ) :
    OkT L res Finset.univ fun r => setup E L r.1 A (m r) := by
  unfold setup
  refine okb (okBar coverImage m) fun m => ?_
  refine okb (okPw hE coverPw _ (fun _ => A.numbnd) m) fun m => ?_
  refine okb (okAct hE coverImage _ _ m) fun m => ?_
  refine okb (okSymm hE A.symm m) fun m => ?_
  exact okBar coverImage m

theorem okLoop (hres : Broadcasts L res) (I : Inp) (A : Args) (hB : 0 < L.nB)
    (hb : L.nB ≤ A.numbnd) (hmag : A.spin = true → E.pw "magnetization" 0 = 0) (left : ℕ) :
    ∀ (idx : ℕ) (thr : ℝ) (m : Fin L.size → σ),
      Ok L.mem res Finset.univ (fun r => scfLoop E L r.1 I A left idx thr (m r))
        fun a => ∃ v, True ∧ ∀ r ∈ Finset.univ, (a r).1 = v := by
  induction left with
  | zero => exact fun idx thr m => Ok.ret _ ⟨_, trivial, fun _ _ => rfl⟩
  | succ left ih =>
    intro idx thr m
    unfold scfLoop
    refine okb (okIterHead hE hres I A m) fun m => ?_
    refine okb (okRho hE A (fun k => share I.numk L.nK k * nspin A) hb hB m) fun m => ?_
    refine okb (okEn hE m) fun m => ?_
    refine okb (okPw hE coverPw _ (fun _ => 0) m) fun m => ?_
    refine okOpB hE hres (c := .image) (fun _ _ => rfl) rfl _ m fun e m _ => ?_
    refine okBD hE (okDecision hE I A idx thr e.toReal m) fun d m _ => ?_
    refine okSendB hE hres (c := .image) (fun _ _ => rfl) rfl _ _ _ fun c m _ => ?_
    refine okSendB hE hres (c := .image) (fun _ _ => rfl) rfl _ _ _ fun t m _ => ?_
    refine okb (okBar coverImage m) fun m => ?_
    by_cases hc : c.toBool = true
    · simp only [hc, if_true]
      have e : ∀ r : Fin L.size, report E L r.1 A (m r) = pure (m r) := by
        intro r
        unfold report whenP
        split
        · rename_i hh
          rw [pwSec, hmag hh.2]; rfl
        · rfl
      refine Ok.congr (P' := fun r => pure ((true, idx), m r)) (fun r _ => by rw [e r]; rfl) ?_
      exact Ok.ret _ ⟨_, trivial, fun _ _ => rfl⟩
    · simp only [hc]
      exact ih _ _ m

theorem okScf (hres : Broadcasts L res) (I : Inp) (hB : 0 < L.nB)
    (hb : ∀ x, L.nB ≤ (E.out "numbnd" 0 x).toNat)
    (hmag : (∀ x, (E.out "scf:is_spin" 0 x).toBool = false) ∨ E.pw "magnetization" 0 = 0)
    (m : Fin L.size → σ) :
    Ok L.mem res Finset.univ (fun r => scf E L r.1 I (m r))
      fun a => ∃ v, True ∧ ∀ r ∈ Finset.univ, (a r).1 = v := by
  unfold scf
  refine okReadArgs hE hres I m fun A m hA => ?_
  refine okb (okSetup hE A m) fun m => ?_
  by_cases h0 : 0 < L.size
  · obtain ⟨⟨x, hx⟩, ⟨y, hy⟩, _⟩ := hA h0
    refine okBD hE (okLoop hE hres I A hB (hx ▸ hb x) (fun h => ?_) A.maxiter 0 A.thr0 m)
      fun v m _ => ?_
    · rcases hmag with h' | h'
      · rw [hy, h' y] at h; exact absurd h Bool.false_ne_true
      · exact h'
    refine okb (okPwIf hE coverPw "vxc" (fun _ => A.numbnd) (fun _ => I.retVxc = true) m) fun m => ?_
    refine okb (okBar coverImage m) fun m => ?_
    exact Ok.ret _ ⟨v, trivial, fun _ _ => rfl⟩
  · have : Inhabited ((Bool × ℕ) × σ) := ⟨((false, 0), default)⟩
    have hempty : (Finset.univ : Finset (Fin L.size)) = ∅ := by
      ext r; exact ⟨fun _ => absurd (Nat.lt_of_le_of_lt (Nat.zero_le _) r.2) h0, fun h => absurd h (Finset.notMem_empty r)⟩
    rw [hempty]
    exact (Ok.empty _).mono fun a _ => ⟨(false, 0), trivial, fun r hr => absurd hr (Finset.notMem_empty r)⟩

omit hE

/-! ## C213: nobody waits forever -/

/-- The processes at the start of `scf`, each with its own memory. -/
noncomputable def start {σ : Type} (E : Env σ) (L : Lay) (I : Inp) (m : Fin L.size → σ) :
    Fin L.size → Prog ((Bool × ℕ) × σ) := fun r => scf E L r.1 I (m r)

theorem bind_ret {α : Type} (p : Prog α) : p.bind .ret = p := by
  induction p with
  | ret a => rfl
  | abort => rfl
  | call c o v k ih => simp only [Prog.bind, ih]

theorem stuck_of_ret {R α : Type} [DecidableEq R] {mem : Cm → Finset R}
    {res : Cm → Op → (R → Val) → R → Val} {f : R → Prog α} (h : ∀ r, head (f r) = none) :
    Stuck mem res f := by
  rintro t ⟨c, o, ⟨⟨r, hr⟩, h2⟩, _⟩
  exact absurd ((h r).symm.trans (h2 r hr)) (by simp)

theorem finishes {α : Type} {P : Fin L.size → Prog α} {post : (Fin L.size → α) → Prop}
    (h : Ok L.mem res Finset.univ P post) :
    ∃ n a, post a ∧ Steps L.mem res n P fun r => .ret (a r) := by
  obtain ⟨a, ha, hp⟩ := h
  obtain ⟨n, hn⟩ := ha α P (fun _ => .ret) fun r _ => (bind_ret (P r)).symm
  simp only [Finset.mem_univ, if_true] at hn
  exact ⟨n, a, hp, hn⟩

/-- **C213 (no process waits forever).** Take any number of k-groups, band groups and plane-wave groups,
any local arithmetic (different on every process), any starting memories and any behaviour of the
reductions, and let every band group have at least one band and no process raise. Unless the run is both
spin-polarised and distributed over plane waves: whatever the order in which the collective calls
complete, the run never gets stuck — every partial schedule can be continued, all complete schedules have
the same length and end in the same state, in which every process has returned from `scf`; and all
processes agree on whether it converged and after how many iterations. -/
theorem C213_no_deadlock_partial (E : Env σ) (L : Lay) (I : Inp)
    (res : Cm → Op → (Fin L.size → Val) → Fin L.size → Val) (hres : Broadcasts L res)
    (hE : ∀ site r m, E.raises site r m = false) (hB : 0 < L.nB)
    (hb : ∀ x, L.nB ≤ (E.out "numbnd" 0 x).toNat)
    (hmag : (∀ x, (E.out "scf:is_spin" 0 x).toBool = false) ∨ E.pw "magnetization" 0 = 0)
    (m : Fin L.size → σ) :
    ∃ (n : ℕ) (converged : Bool) (iters : ℕ) (m' : Fin L.size → σ),
      ∀ k t, Steps L.mem res k (start E L I m) t →
        ∃ j, n = k + j ∧ Steps L.mem res j t fun r => .ret ((converged, iters), m' r) := by
  obtain ⟨n, a, ⟨⟨c, i⟩, _, hv⟩, hn⟩ := finishes (okScf hE hres I hB hb hmag m)
  refine ⟨n, c, i, fun r => (a r).2, fun k t hk => ?_⟩
  have e : (fun r => Prog.ret (a r)) = fun r => (.ret ((c, i), (a r).2) : Prog ((Bool × ℕ) × σ)) := by
    funext r
    rw [← hv r (Finset.mem_univ r)]
  rw [e] at hn
  exact C213_schedules hn (stuck_of_ret fun r => rfl) hk

/-- In particular no reachable state is a deadlock. -/
theorem C213_progress_partial (E : Env σ) (L : Lay) (I : Inp)
    (res : Cm → Op → (Fin L.size → Val) → Fin L.size → Val) (hres : Broadcasts L res)
    (hE : ∀ site r m, E.raises site r m = false) (hB : 0 < L.nB)
    (hb : ∀ x, L.nB ≤ (E.out "numbnd" 0 x).toNat)
    (hmag : (∀ x, (E.out "scf:is_spin" 0 x).toBool = false) ∨ E.pw "magnetization" 0 = 0)
    (m : Fin L.size → σ) (k : ℕ) (t : Fin L.size → Prog ((Bool × ℕ) × σ))
    (hk : Steps L.mem res k (start E L I m) t) :
    (∀ r, ∃ a, t r = .ret a) ∨ ∃ u, Step L.mem res t u := by
  obtain ⟨n, c, i, m', h⟩ := C213_no_deadlock_partial E L I res hres hE hB hb hmag m
  obtain ⟨j, _, hj⟩ := h k t hk
  cases hj with
  | refl => exact .inl fun r => ⟨_, rfl⟩
  | cons h1 _ => exact .inr ⟨_, h1⟩

end Verif.Coll

namespace Verif.Coll

open Verif.Scatter

/-! ## Runs that jam -/

variable {σ : Type} [Inhabited σ] {E : Env σ} {L : Lay}
  {res : Cm → Op → (Fin L.size → Val) → Fin L.size → Val}

/-- some schedule leads to a state in which nobody can move and `bad` holds -/
def Jam (L : Lay) (res : Cm → Op → (Fin L.size → Val) → Fin L.size → Val) {β : Type}
    (bad : (Fin L.size → Prog β) → Prop) (s : Fin L.size → Prog β) : Prop :=
  ∃ t, Reach L.mem res s t ∧ Stuck L.mem res t ∧ bad t

theorem jamB {α β : Type} {bad : (Fin L.size → Prog β) → Prop} {P : Fin L.size → Prog α}
    {Q : Fin L.size → α → Prog β} {q : (Fin L.size → α) → Prop}
    (h : Ok L.mem res Finset.univ P q)
    (h' : ∀ a, q a → Jam L res bad fun r => Q r (a r)) : Jam L res bad fun r => P r >>= Q r := by
  obtain ⟨a, ha, hq⟩ := h
  obtain ⟨t, ht, hs⟩ := h' a hq
  have := ha β (fun r => P r >>= Q r) Q fun r _ => rfl
  simp only [Finset.mem_univ, if_true] at this
  exact ⟨t, this.trans ht, hs⟩

theorem jamT {α β : Type} {bad : (Fin L.size → Prog β) → Prop} {P : Fin L.size → Prog α}
    {Q : Fin L.size → α → Prog β} (h : OkT L res Finset.univ P)
    (h' : ∀ a : Fin L.size → α, Jam L res bad fun r => Q r (a r)) :
    Jam L res bad fun r => P r >>= Q r := jamB h fun a _ => h' a

theorem jamA {α β γ : Type} {bad : (Fin L.size → Prog γ) → Prop} {P : Fin L.size → Prog α}
    {Q : Fin L.size → α → Prog β} {F : Fin L.size → β → Prog γ}
    (h : Jam L res bad fun r => P r >>= fun a => Q r a >>= F r) :
    Jam L res bad fun r => (P r >>= Q r) >>= F r := by
  have : (fun r => (P r >>= Q r) >>= F r) = fun r => P r >>= fun a => Q r a >>= F r := by
    funext r; exact Prog.bind_assoc _ _ _
  rw [this]; exact h

theorem jamV {α β : Type} {bad : (Fin L.size → Prog β) → Prop} {P : Fin L.size → Prog (α × σ)}
    {Q : Fin L.size → α × σ → Prog β} {p : α → Prop}
    (h : Ok L.mem res Finset.univ P fun a => ∃ v, p v ∧ ∀ r ∈ Finset.univ, (a r).1 = v)
    (h' : ∀ v (m : Fin L.size → σ), p v → Jam L res bad fun r => Q r (v, m r)) :
    Jam L res bad fun r => P r >>= Q r := by
  refine jamB h ?_
  rintro a ⟨v, hp, hv⟩
  have : (fun r => Q r (a r)) = fun r => Q r (v, (a r).2) := by
    funext r; rw [← hv r (Finset.mem_univ r)]
  rw [this]; exact h' v _ hp

theorem okSendV (hE : ∀ site r m, E.raises site r m = false) (hres : Broadcasts L res)
    (site : String) (v : Fin L.size → Val) (m : Fin L.size → σ) :
    Ok L.mem res Finset.univ (fun r => send E r.1 .image .bcast site (v r) (m r))
      fun a => ∃ x, (∀ h0 : 0 < L.size, x = v ⟨0, h0⟩) ∧ ∀ r ∈ Finset.univ, (a r).1 = x := by
  refine Ok.congr (fun r _ => (bind_ret _).symm) ?_
  refine okSendB hE hres (c := .image) (Q := fun _ => .ret) (fun _ _ => rfl) rfl site v m
    fun x m' hx => ?_
  exact Ok.ret _ ⟨x, fun h0 => hx ⟨0, h0⟩ (Finset.mem_univ _) fun q _ => Nat.zero_le q.1, fun _ _ => rfl⟩

theorem okReadV (hE : ∀ site r m, E.raises site r m = false) (hres : Broadcasts L res) (I : Inp)
    (m : Fin L.size → σ) :
    Ok L.mem res Finset.univ (fun r => readArgs E L r.1 I (m r))
      fun a => ∃ A, (0 < L.size → FromRoot E A) ∧ ∀ r ∈ Finset.univ, (a r).1 = A := by
  refine Ok.congr (fun r _ => (bind_ret _).symm) ?_
  exact okReadArgs hE hres I m (Q := fun _ => .ret) fun A m' hA =>
    Ok.ret _ ⟨A, hA, fun _ _ => rfl⟩

/-- every schedule of a run that jams ends in the same jam -/
theorem jam_all {β : Type} {bad : (Fin L.size → Prog β) → Prop} {s : Fin L.size → Prog β}
    (h : Jam L res bad s) : ∃ f, Stuck L.mem res f ∧ bad f ∧
      ∃ n, ∀ k t, Steps L.mem res k s t → ∃ j, n = k + j ∧ Steps L.mem res j t f := by
  obtain ⟨f, ⟨n, hn⟩, hs, hb⟩ := h
  exact ⟨f, hs, hb, n, fun k t ht => C213_schedules hn hs ht⟩

theorem pwSec_zero {r : ℕ} {site : String} {n : ℕ} (h : E.pw site n = 0) (m : σ) :
    pwSec E L r site n m = .ret m := by rw [pwSec, h]; rfl

theorem rep_pure (n : ℕ) (f : σ → Prog σ) (h : ∀ m, f m = .ret m) (m : σ) : rep n f m = .ret m := by
  induction n with
  | zero => rfl
  | succ n ih => rw [rep, h]; exact ih

/-! ## C213: where the code does jam -/

/-- **C213 (violated: spin-polarised and distributed).** A spin-polarised run distributed over plane
waves (at least two processes per group) whose first iteration meets the threshold never returns: rank 0
alone computes the magnetisation, whose transforms are collective on its plane-wave group. Every schedule
ends in the same state, where rank 0 waits in that call for ever and all the others wait for it. -/
theorem C213_magnetisation_deadlock (E : Env σ) (L : Lay) (I : Inp)
    (res : Cm → Op → (Fin L.size → Val) → Fin L.size → Val) (hres : Broadcasts L res)
    (hE : ∀ site r m, E.raises site r m = false) (hB : 0 < L.nB) (hK : 0 < L.nK) (hP : 2 ≤ L.P)
    (hb : ∀ x, L.nB ≤ (E.out "numbnd" 0 x).toNat)
    (hspin : ∀ x, (E.out "scf:is_spin" 0 x).toBool = true) (hmag : 0 < E.pw "magnetization" 0)
    (hit : ∀ x, 0 < (E.out "maxiter" 0 x).toNat)
    (hconv : ∀ x y, (E.out "e_error" 0 x).toReal < (E.out "conv_thr" 0 y).toReal)
    (hvxc : I.retVxc = false) (m : Fin L.size → σ) :
    ∃ f, Stuck L.mem res f ∧
      (∀ r : Fin L.size, head (f r)
        = some (if r.1 = 0 then (.pwgrp 0, .inner) else (.image, .barrier))) ∧
      ∃ n, ∀ k t, Steps L.mem res k (start E L I m) t → ∃ j, n = k + j ∧ Steps L.mem res j t f := by
  have hsize : 1 < L.size := by
    have : 1 ≤ L.nK * L.nB := Nat.mul_pos hK hB
    calc 1 < L.P := hP
      _ ≤ L.nK * L.nB * L.P := Nat.le_mul_of_pos_left _ this
  have h0 : 0 < L.size := by omega
  refine jam_all ?_
  show Jam L res _ fun r => scf E L r.1 I (m r)
  unfold scf
  refine jamV (okReadV hE hres I m) fun A m hA => ?_
  obtain ⟨⟨x1, hnb⟩, ⟨x2, hsp⟩, ⟨x3, hct⟩, ⟨x4, hmx⟩⟩ := hA h0
  refine jamT (okSetup hE A m) fun m => ?_
  obtain ⟨left, hl⟩ : ∃ left, A.maxiter = left + 1 := ⟨A.maxiter - 1, by have := hit x4; omega⟩
  simp only [hl]
  unfold scfLoop
  refine jamA (jamT (okIterHead hE hres I A m) fun m => ?_)
  refine jamA (jamT (okRho hE A (fun k => share I.numk L.nK k * nspin A) (hnb ▸ hb x1) hB m)
    fun m => ?_)
  refine jamA (jamT (okEn hE m) fun m => ?_)
  refine jamA (jamT (okPw hE coverPw _ (fun _ => 0) m) fun m1 => ?_)
  refine jamA (jamV (okSendV hE hres _ _ m1) fun e m he => ?_)
  have hlt : e.toReal < A.convThr := by rw [he h0, hct]; exact hconv _ _
  have hdec : Ok L.mem res Finset.univ (fun r => decision E L r.1 I A 0 A.thr0 e.toReal (m r))
      fun a => ∃ v : Bool × ℝ, v.1 = true ∧ ∀ r ∈ Finset.univ, (a r).1 = v := by
    unfold decision
    simp only [hlt, if_true]
    exact okb (okEn hE m) fun m => Ok.ret _ ⟨(true, A.thr0), rfl, fun _ _ => rfl⟩
  refine jamA (jamV hdec fun d m hd => ?_)
  refine jamA (jamV (okSendV hE hres _ _ m) fun c m hc => ?_)
  refine jamA (jamV (okSendV hE hres _ _ m) fun t m _ => ?_)
  refine jamA (jamT (okBar coverImage m) fun m => ?_)
  have hct : c.toBool = true := by rw [hc h0]; exact hd
  simp only [hct, if_true]
  obtain ⟨p, hp⟩ : ∃ p, E.pw "magnetization" 0 = p + 1 := ⟨_, (Nat.sub_add_cancel hmag).symm⟩
  have hspin' : A.spin = true := hsp.trans (hspin x2)
  generalize hs : (fun r : Fin L.size => _ : Fin L.size → Prog ((Bool × ℕ) × σ)) = s
  have hh : ∀ r : Fin L.size, head (s r)
      = some (if r.1 = 0 then (.pwgrp 0, .inner) else (.image, .barrier)) := by
    intro r
    rw [← hs]
    by_cases hr : r.1 = 0
    · simp only [report, whenP, hr, hspin', pwSec, hp, rep, act, op, send, hE, Bool.false_eq_true,
        if_false, and_self, if_true, Nat.zero_div]
      rfl
    · simp only [report, whenP, hr, false_and, if_false, hvxc, Bool.false_eq_true]
      rfl
  refine ⟨s, .refl s, ?_, hh⟩
  rintro t ⟨c', o, ⟨⟨r, hr⟩, hm⟩, _⟩
  have hr' := (hh r).symm.trans (hm r hr)
  by_cases h : r.1 = 0
  · rw [if_pos h, Option.some.injEq, Prod.mk.injEq] at hr'
    have h1 : (⟨1, hsize⟩ : Fin L.size) ∈ L.mem c' := by
      rw [← hr'.1]
      simp only [Lay.mem, Finset.mem_filter, Finset.mem_univ, true_and]
      exact Nat.div_eq_of_lt hP
    have h2 := (hh ⟨1, hsize⟩).symm.trans (hm _ h1)
    rw [if_neg (by simp), ← hr'.1] at h2
    simp at h2
  · rw [if_neg h, Option.some.injEq, Prod.mk.injEq] at hr'
    have h1 : (⟨0, h0⟩ : Fin L.size) ∈ L.mem c' := by
      rw [← hr'.1]; exact Finset.mem_univ _
    have h2 := (hh ⟨0, h0⟩).symm.trans (hm _ h1)
    rw [if_pos rfl, ← hr'.1] at h2
    simp at h2

/-- **C213 (violated: a band group without bands).** If there are fewer bands than band groups, a run
(here not distributed over plane waves) never gets past its first iteration: the band groups without bands
skip the reduction of the density that the others wait in. Every schedule ends in the same jam: the
processes of a band group `b < numbnd` wait in `pwgrp_inter_image`, the others on `image_comm`. -/
theorem C213_idle_band_group_deadlock (E : Env σ) (L : Lay) (I : Inp)
    (res : Cm → Op → (Fin L.size → Val) → Fin L.size → Val) (hres : Broadcasts L res)
    (hE : ∀ site r m, E.raises site r m = false) (hK : 0 < L.nK) (hP : 0 < L.P)
    (numbnd : ℕ) (h1 : 0 < numbnd) (h2 : numbnd < L.nB)
    (hnb : ∀ x, (E.out "numbnd" 0 x).toNat = numbnd) (hpw : ∀ site n, E.pw site n = 0)
    (hit : ∀ x, 0 < (E.out "maxiter" 0 x).toNat) (m : Fin L.size → σ) :
    ∃ f, Stuck L.mem res f ∧
      (∀ r : Fin L.size, head (f r)
        = some (if L.iB r.1 < numbnd then .inter (L.iP r.1) else .image, .barrier)) ∧
      ∃ n, ∀ k t, Steps L.mem res k (start E L I m) t → ∃ j, n = k + j ∧ Steps L.mem res j t f := by
  have hle : L.nB * L.P ≤ L.size := by
    have : L.nB * L.P ≤ L.nK * (L.nB * L.P) := Nat.le_mul_of_pos_left _ hK
    rwa [← Nat.mul_assoc] at this
  have hlt : ∀ p < L.P, numbnd * L.P + p < L.size := fun p hp =>
    calc numbnd * L.P + p < numbnd * L.P + L.P := by omega
      _ = (numbnd + 1) * L.P := by rw [Nat.succ_mul]
      _ ≤ L.nB * L.P := Nat.mul_le_mul_right _ h2
      _ ≤ L.size := hle
  have h0 : 0 < L.size := Nat.lt_of_le_of_lt (Nat.zero_le _) (hlt 0 hP)
  refine jam_all ?_
  show Jam L res _ fun r => scf E L r.1 I (m r)
  unfold scf
  refine jamV (okReadV hE hres I m) fun A m hA => ?_
  obtain ⟨⟨x1, hnb1⟩, ⟨x2, hsp⟩, ⟨x3, hct⟩, ⟨x4, hmx⟩⟩ := hA h0
  rw [hnb x1] at hnb1
  refine jamT (okSetup hE A m) fun m => ?_
  obtain ⟨left, hl⟩ : ∃ left, A.maxiter = left + 1 := ⟨A.maxiter - 1, by have := hit x4; omega⟩
  simp only [hl]
  unfold scfLoop
  refine jamA (jamT (okIterHead hE hres I A m) fun m => ?_)
  have hsl : ∀ b, sliceStart numbnd L.nB b < sliceStop numbnd L.nB b ↔ b < numbnd := by
    intro b
    unfold sliceStop sliceStart
    rw [Nat.div_eq_of_lt h2, Nat.mod_eq_of_lt h2]
    split <;> omega
  generalize hs : (fun r : Fin L.size => _ : Fin L.size → Prog ((Bool × ℕ) × σ)) = s
  have hh : ∀ r : Fin L.size, head (s r)
      = some (if L.iB r.1 < numbnd then .inter (L.iP r.1) else .image, .barrier) := by
    intro r
    rw [← hs]
    have hz : ∀ site n (m : σ), pwSec E L r.1 site n m = .ret m := fun site n m =>
      pwSec_zero (hpw site n) m
    by_cases hr : L.iB r.1 < numbnd
    · have : updateRho E L r.1 A (share I.numk L.nK (L.iK r.1) * nspin A) (m r)
          = .call (.inter (L.iP r.1)) .barrier .none fun _ => (do
              let m ← act E r.1 (.inter (L.iP r.1)) .reduce "rho_wfn" (m r)
              let m ← bar (.inter (L.iP r.1)) m
              let m ← pwSec E L r.1 "normalize_rho" 0 m
              whenP (A.symm = true) (pwSec E L r.1 "symmetrize" 0) m) := by
        have hc : sliceStart A.numbnd L.nB (L.iB r.1) < sliceStop A.numbnd L.nB (L.iB r.1) := by
          rw [hnb1]; exact (hsl _).2 hr
        unfold updateRho
        rw [whenP, if_pos hc, rep_pure _ _ (hz _ _)]
        show Prog.bind (Prog.bind (Prog.call _ _ _ _) _) _ = _
        simp only [Prog.bind]
        congr 1
        funext x
        exact Prog.bind_assoc _ _ _
      simp only [this, if_pos hr]
      rfl
    · have : updateRho E L r.1 A (share I.numk L.nK (L.iK r.1) * nspin A) (m r) = .ret (m r) := by
        have hc : ¬ sliceStart A.numbnd L.nB (L.iB r.1) < sliceStop A.numbnd L.nB (L.iB r.1) := by
          rw [hnb1]; exact fun h => hr ((hsl _).1 h)
        unfold updateRho
        rw [whenP, if_neg hc]
        show Prog.bind (pwSec E L r.1 "normalize_rho" 0 (m r)) _ = _
        rw [hz]
        show whenP _ _ _ = _
        unfold whenP
        split
        · exact hz _ _ _
        · rfl
      have hk : ¬ L.isKroot r.1 = true := by
        intro hk
        simp only [Lay.isKroot, decide_eq_true_eq, List.mem_map, List.mem_range] at hk
        obtain ⟨i, _, hi⟩ := hk
        apply hr
        have : L.iB r.1 = 0 := by
          rw [Lay.iB, ← hi, ← Nat.mul_assoc, Nat.mul_div_cancel _ hP, Nat.mul_mod_left]
        omega
      have hen : ∀ m : σ, computeEn E L r.1 m = .call .image .barrier .none fun _ =>
          (act E r.1 .image .bcast "e_eigen_bcast" m >>= pwSec E L r.1 "compute_en" 0) := by
        intro m
        unfold computeEn
        rw [krootBlock, if_neg hk]; rfl
      simp only [this, if_neg hr]
      show head (Prog.bind (Prog.bind (computeEn E L r.1 (m r)) _) _) = _
      rw [hen]
      rfl
  refine ⟨s, .refl s, ?_, hh⟩
  rintro t ⟨c', o, ⟨⟨r, hr⟩, hm⟩, _⟩
  have hr' := (hh r).symm.trans (hm r hr)
  rw [Option.some.injEq, Prod.mk.injEq] at hr'
  by_cases h : L.iB r.1 < numbnd
  · rw [if_pos h] at hr'
    have hp : L.iP r.1 < L.P := Nat.mod_lt _ hP
    let q : Fin L.size := ⟨numbnd * L.P + L.iP r.1, hlt _ hp⟩
    have e1 : L.iP q.1 = L.iP r.1 := by
      show (numbnd * L.P + L.iP r.1) % L.P = _
      rw [Nat.mul_comm, Nat.mul_add_mod, Nat.mod_eq_of_lt hp]
    have e2 : L.iB q.1 = numbnd := by
      show (numbnd * L.P + L.iP r.1) / L.P % L.nB = _
      rw [Nat.mul_comm, Nat.mul_add_div hP, Nat.div_eq_of_lt hp, Nat.add_zero, Nat.mod_eq_of_lt h2]
    have hq : q ∈ L.mem c' := by
      rw [← hr'.1]
      simp only [Lay.mem, Finset.mem_filter, Finset.mem_univ, true_and]
      exact e1
    have := (hh q).symm.trans (hm q hq)
    rw [e2, if_neg (Nat.lt_irrefl _), ← hr'.1] at this
    simp at this
  · rw [if_neg h] at hr'
    have hq : (⟨0, h0⟩ : Fin L.size) ∈ L.mem c' := by
      rw [← hr'.1]; exact Finset.mem_univ _
    have := (hh ⟨0, h0⟩).symm.trans (hm _ hq)
    have e : L.iB 0 = 0 := by rw [Lay.iB, Nat.zero_div, Nat.zero_mod]
    rw [if_pos (by show L.iB 0 < numbnd; omega), ← hr'.1] at this
    simp at this

/-- **C213 (a dead process).** If a process has died with an exception, then whatever the schedule, every
process that waits in a collective on a communicator containing the dead one waits for ever. -/
theorem C213_dead_process {R α : Type} [DecidableEq R] (mem : Cm → Finset R)
    (res : Cm → Op → (R → Val) → R → Val) (s t : R → Prog α) (k : ℕ) (dead : R)
    (hd : s dead = .abort) (hk : Steps mem res k s t) :
    t dead = .abort ∧
    ∀ q c o, head (s q) = some (c, o) → dead ∈ mem c → t q = s q := by
  induction hk with
  | refl => exact ⟨hd, fun _ _ _ _ _ => rfl⟩
  | cons h1 _ ih =>
    obtain ⟨c', o', ⟨_, hm⟩, rfl⟩ := h1
    have hc : dead ∉ mem c' := fun h => by have := hm dead h; rw [hd] at this; simp [head] at this
    obtain ⟨a, b⟩ := ih ((fire_neg hc).trans hd)
    refine ⟨a, fun q c o hq hdc => ?_⟩
    have hqc : q ∉ mem c' := by
      intro h
      have := hq.symm.trans (hm q h)
      rw [Option.some.injEq, Prod.mk.injEq] at this
      exact hc (this.1 ▸ hdc)
    rw [b q c o (by rw [fire_neg hqc]; exact hq) hdc, fire_neg hqc]

omit [Inhabited σ] in
/-- **C213 (a failing diagonalisation).** When `eigh` raises on the root of a k-group (and the others do
not raise), the barrier completes, the root dies, and all other members of the k-group wait in the
broadcast of the eigenvectors for ever, under every continuation. -/
theorem C213_eigh_failure_deadlock (E : Env σ) (L : Lay) (k : ℕ)
    (res : Cm → Op → (Fin L.size → Val) → Fin L.size → Val) {β : Type}
    (s : Fin L.size → Prog β) (F : Fin L.size → σ → Prog β) (m : Fin L.size → σ)
    (hs : ∀ r ∈ L.mem (.kgrp k), s r = (solveRed E L r.1 (m r)).bind (F r))
    (root : Fin L.size) (hroot : root ∈ L.mem (.kgrp k))
    (hfail : E.raises "eigh" root.1 (m root) = true)
    (hok : ∀ r ∈ L.mem (.kgrp k), r ≠ root → E.raises "eigh" r.1 (m r) = false) :
    ∃ t, Step L.mem res s t ∧ t root = .abort ∧
      ∀ j u, Steps L.mem res j t u → u root = .abort ∧
        ∀ r ∈ L.mem (.kgrp k), r ≠ root → head (u r) = some (.kgrp k, .bcast) := by
  have hkg := kg_eq (L := L) k
  have en : Enabled L.mem s (.kgrp k) .barrier := by
    refine ⟨⟨root, hroot⟩, fun r hr => ?_⟩
    rw [hs r hr, solveRed, hkg r hr]
    rfl
  have hf : ∀ r ∈ L.mem (.kgrp k), ∀ x, recv (s r) x
      = Prog.bind (Prog.bind (act E r.1 (.kgrp k) .bcast "eigh" (m r)) fun m =>
          act E r.1 (.kgrp k) .bcast "evl_red" m >>= fun m => bar (.kgrp k) m) (F r) := by
    intro r hr x
    rw [hs r hr, solveRed, hkg r hr]
    rfl
  refine ⟨_, ⟨_, _, en, rfl⟩, ?_, fun j u hu => ?_⟩
  · rw [fire_pos hroot, hf root hroot, act, op, send, if_pos hfail]; rfl
  · have hd : fire L.mem res s (.kgrp k) .barrier root = .abort := by
      rw [fire_pos hroot, hf root hroot, act, op, send, if_pos hfail]; rfl
    obtain ⟨a, b⟩ := C213_dead_process L.mem res _ u j root hd hu
    refine ⟨a, fun r hr hne => ?_⟩
    have hh : head (fire L.mem res s (.kgrp k) .barrier r) = some (.kgrp k, .bcast) := by
      rw [fire_pos hr, hf r hr, act, op, send, hok r hr hne, if_neg Bool.false_ne_true]; rfl
    rw [b r _ _ hh hroot]
    exact hh

/-! ## C213: the communicators are those of `DFTCommMod` -/

/-- The group indices and k-group roots used here are the ones `DFTCommMod` computes on every process. -/
theorem C213_layout (L : Lay) (hK : 0 < L.nK) (hB : 0 < L.nB) (hP : 0 < L.P) (r : Fin L.size) :
    ∃ l, DFTComm.dftComm L.size (some L.nK) L.P r.1 = .ok l ∧ l.nKgrp = L.nK ∧ l.nBgrp = L.nB ∧
      l.iKgrp = L.iK r.1 ∧ l.iBgrp = L.iB r.1 ∧ l.pwRank = L.iP r.1 ∧ l.isKroot = L.isKroot r.1 := by
  refine ⟨_, DFTComm.dftComm_eq L.nK L.nB L.P r.1 hK hB hP r.2, rfl, rfl, rfl, rfl, rfl, ?_⟩
  refine decide_eq_decide.2 ?_
  rw [List.mem_map]
  constructor
  · intro h
    refine ⟨r.1 / (L.nB * L.P), ?_, Nat.div_mul_cancel (Nat.dvd_of_mod_eq_zero h)⟩
    rw [List.mem_range, Nat.div_lt_iff_lt_mul (Nat.mul_pos hB hP), ← Nat.mul_assoc]
    exact r.2
  · rintro ⟨i, _, hi⟩
    rw [← hi]; exact Nat.mul_mod_left _ _

/-! ## The hypotheses are met -/

/-- root's value for broadcasts, nothing for the others -/
noncomputable def exRes (L : Lay) : Cm → Op → (Fin L.size → Val) → Fin L.size → Val := fun c o vs r =>
  open Classical in
  if h : o = .bcast ∧ (L.mem c).Nonempty then vs ((L.mem c).min' h.2) else .int r.1

theorem exRes_lawful (L : Lay) : Broadcasts L (exRes L) := by
  intro c vs r q hr hq hle
  have hne : (L.mem c).Nonempty := ⟨r, hr⟩
  rw [exRes, dif_pos ⟨rfl, hne⟩]
  congr 1
  exact le_antisymm (Finset.min'_le _ q hq) (hle _ (Finset.min'_mem _ hne))

/-- eight bands, spin as given, one iteration allowed, error 1 against threshold 2 -/
noncomputable def exEnv (spin : Bool) (bands : ℕ) (pw : ℕ) : Env ℕ where
  raises := fun _ _ _ => false
  out := fun site r m =>
    if site = "numbnd" then .int bands
    else if site = "scf:is_spin" then .flag spin
    else if site = "maxiter" then .int 1
    else if site = "e_error" then .num 1
    else if site = "conv_thr" then .num 2
    else .int (r + m)
  inp := fun _ r v m => m + r + v.toNat
  pw := fun _ _ => pw

/-- 12 processes: 2 k-groups of 3 band groups of 2 plane-wave processes, 5 k-points, distributed,
unpolarised -/
example : ∃ (n : ℕ) (converged : Bool) (iters : ℕ) (m' : Fin (Lay.size ⟨2, 3, 2⟩) → ℕ),
    ∀ k t, Steps (Lay.mem ⟨2, 3, 2⟩) (exRes ⟨2, 3, 2⟩) k
      (start (exEnv false 8 3) ⟨2, 3, 2⟩ ⟨[true, false], 5, 8, true, 40⟩ fun r => r.1) t →
      ∃ j, n = k + j ∧ Steps (Lay.mem ⟨2, 3, 2⟩) (exRes ⟨2, 3, 2⟩) j t
        fun r => .ret ((converged, iters), m' r) :=
  C213_no_deadlock_partial _ _ _ _ (exRes_lawful _) (fun _ _ _ => rfl) (by decide)
    (fun x => by simp [exEnv, Val.toNat]) (.inl fun x => by simp [exEnv, Val.toBool]) _

/-- the same layout, spin-polarised: jams -/
example : ∃ f, Stuck (Lay.mem ⟨2, 3, 2⟩) (exRes ⟨2, 3, 2⟩) f ∧
    (∀ r : Fin (Lay.size ⟨2, 3, 2⟩), head (f r)
      = some (if r.1 = 0 then (.pwgrp 0, .inner) else (.image, .barrier))) ∧
    ∃ n, ∀ k t, Steps (Lay.mem ⟨2, 3, 2⟩) (exRes ⟨2, 3, 2⟩) k
      (start (exEnv true 8 3) ⟨2, 3, 2⟩ ⟨[true, false], 5, 8, false, 40⟩ fun r => r.1) t →
      ∃ j, n = k + j ∧ Steps (Lay.mem ⟨2, 3, 2⟩) (exRes ⟨2, 3, 2⟩) j t f :=
  C213_magnetisation_deadlock _ _ _ _ (exRes_lawful _) (fun _ _ _ => rfl) (by decide) (by decide)
    (by decide) (fun x => by simp [exEnv, Val.toNat]) (fun x => by simp [exEnv, Val.toBool])
    (by simp [exEnv]) (fun x => by simp [exEnv, Val.toNat])
    (fun x y => by simp [exEnv, Val.toReal]) rfl _

/-- two bands on three band groups: jams -/
example : ∃ f, Stuck (Lay.mem ⟨2, 3, 2⟩) (exRes ⟨2, 3, 2⟩) f ∧
    (∀ r : Fin (Lay.size ⟨2, 3, 2⟩), head (f r)
      = some (if Lay.iB ⟨2, 3, 2⟩ r.1 < 2 then .inter (Lay.iP ⟨2, 3, 2⟩ r.1) else .image, .barrier)) ∧
    ∃ n, ∀ k t, Steps (Lay.mem ⟨2, 3, 2⟩) (exRes ⟨2, 3, 2⟩) k
      (start (exEnv false 2 0) ⟨2, 3, 2⟩ ⟨[true, false], 5, 8, false, 40⟩ fun r => r.1) t →
      ∃ j, n = k + j ∧ Steps (Lay.mem ⟨2, 3, 2⟩) (exRes ⟨2, 3, 2⟩) j t f :=
  C213_idle_band_group_deadlock _ _ _ _ (exRes_lawful _) (fun _ _ _ => rfl) (by decide) (by decide)
    2 (by decide) (by decide) (fun x => by simp [exEnv, Val.toNat]) (fun _ _ => rfl)
    (fun x => by simp [exEnv, Val.toNat]) _

end Verif.Coll
