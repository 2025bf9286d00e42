import Verif.Model.Ufunc
import Mathlib.Tactic.Common
import Mathlib.Tactic.Linarith
import Mathlib.Data.List.Forall2

/-!
# Property C216: arithmetic with fields and wavefunctions
-/

namespace Verif.Ufunc

open Verif.Containers (Arr isBuffer reduceAx fold1 val)

variable {α : Type*}

/-! ## Specification -/

/-- `u` is the common shape of the given shapes by numpy's rule, axes counted from the end: the length of each shape on each of its axes is that of
`u` or 1, and each length of `u` is the length of one of the shapes. -/
def Broadcast (shapes : List (List ℕ)) (u : List ℕ) : Prop :=
  (∀ s ∈ shapes, ∀ k n : ℕ, s.reverse[k]? = some n → ∃ m, u.reverse[k]? = some m ∧ (n = 1 ∨ n = m)) ∧
  ∀ k m : ℕ, u.reverse[k]? = some m → ∃ s ∈ shapes, s.reverse[k]? = some m

/-- An operand a container of class `c` can be combined with. -/
def Usable (c : Cls) : Opd α → Prop
  | .num _ => True
  | .arr _ => True
  | .buf c' _ => c' = c
  | .other => False

/-- The shape of an operand. -/
def shapeOf : Opd α → List ℕ
  | .num _ => []
  | .arr a => a.shape
  | .buf _ a => a.shape
  | .other => []

/-- The value of an operand at an index of the result: missing leading axes and axes of length 1 are repeated. -/
def valueAt [Inhabited α] (idx : List ℕ) : Opd α → α
  | .num x => x
  | .arr a => a.get (bsel a.shape idx)
  | .buf _ a => a.get (bsel a.shape idx)
  | .other => default

/-! ## Broadcasting -/

/-- Combination of one axis. -/
theorem bcast2_ok : ∀ (s t u : List ℕ), bcast2 s t = .ok u →
    (∀ (k n : ℕ), s[k]? = some n → ∃ m, u[k]? = some m ∧ (n = 1 ∨ n = m)) ∧
    (∀ (k n : ℕ), t[k]? = some n → ∃ m, u[k]? = some m ∧ (n = 1 ∨ n = m)) ∧
    (∀ (k m : ℕ), u[k]? = some m → s[k]? = some m ∨ t[k]? = some m)
  | [], t, u, h => by
    obtain rfl : t = u := by simpa [bcast2] using h
    exact ⟨by simp, fun k n hn => ⟨n, hn, Or.inr rfl⟩, fun k m hm => Or.inr hm⟩
  | a :: s, [], u, h => by
    obtain rfl : a :: s = u := by simpa [bcast2] using h
    exact ⟨fun k n hn => ⟨n, hn, Or.inr rfl⟩, by simp, fun k m hm => Or.inl hm⟩
  | a :: s, b :: t, u, h => by
    unfold bcast2 at h
    have key : ∀ x u', bcast2 s t = .ok u' → u = x :: u' → (a = 1 ∨ a = x) → (b = 1 ∨ b = x) → (a = x ∨ b = x) →
        (∀ (k n : ℕ), (a :: s)[k]? = some n → ∃ m, u[k]? = some m ∧ (n = 1 ∨ n = m)) ∧
        (∀ (k n : ℕ), (b :: t)[k]? = some n → ∃ m, u[k]? = some m ∧ (n = 1 ∨ n = m)) ∧
        (∀ (k m : ℕ), u[k]? = some m → (a :: s)[k]? = some m ∨ (b :: t)[k]? = some m) := by
      intro x u' hu e ha hb hab
      subst e
      obtain ⟨h1, h2, h3⟩ := bcast2_ok s t u' hu
      refine ⟨?_, ?_, ?_⟩
      · intro k n hn
        cases k with
        | zero => simp only [List.getElem?_cons_zero, Option.some.injEq] at hn ⊢; subst hn; exact ⟨x, rfl, ha⟩
        | succ k => simp only [List.getElem?_cons_succ] at hn ⊢; exact h1 k n hn
      · intro k n hn
        cases k with
        | zero => simp only [List.getElem?_cons_zero, Option.some.injEq] at hn ⊢; subst hn; exact ⟨x, rfl, hb⟩
        | succ k => simp only [List.getElem?_cons_succ] at hn ⊢; exact h2 k n hn
      · intro k m hm
        cases k with
        | zero => simp only [List.getElem?_cons_zero, Option.some.injEq] at hm ⊢; subst hm; exact hab
        | succ k => simp only [List.getElem?_cons_succ] at hm ⊢; exact h3 k m hm
    by_cases c1 : a = b ∨ b = 1
    · rw [if_pos c1] at h
      cases hr : bcast2 s t with
      | error e => rw [hr] at h; cases h
      | ok u' =>
        rw [hr] at h
        refine key a u' hr (Except.ok.inj h).symm (Or.inr rfl) ?_ (Or.inl rfl)
        rcases c1 with c1 | c1
        · exact Or.inr c1.symm
        · exact Or.inl c1
    · rw [if_neg c1] at h
      by_cases c2 : a = 1
      · rw [if_pos c2] at h
        cases hr : bcast2 s t with
        | error e => rw [hr] at h; cases h
        | ok u' =>
          rw [hr] at h
          exact key b u' hr (Except.ok.inj h).symm (Or.inl c2) (Or.inr rfl) (Or.inr rfl)
      · rw [if_neg c2] at h; cases h

/-- A failure names an axis whose lengths do not fit. -/
theorem bcast2_error : ∀ (s t : List ℕ) (e : PyErr), bcast2 s t = .error e →
    e = .value ∧ ∃ (k a b : ℕ), s[k]? = some a ∧ t[k]? = some b ∧ a ≠ b ∧ a ≠ 1 ∧ b ≠ 1
  | [], t, e, h => by simp [bcast2] at h
  | a :: s, [], e, h => by simp [bcast2] at h
  | a :: s, b :: t, e, h => by
    unfold bcast2 at h
    have hrec : ∀ e', bcast2 s t = .error e' → e' = .value ∧ ∃ (k x y : ℕ), (a :: s)[k]? = some x ∧ (b :: t)[k]? = some y ∧ x ≠ y ∧ x ≠ 1 ∧ y ≠ 1 := by
      intro e' he
      obtain ⟨h1, k, x, y, h2⟩ := bcast2_error s t e' he
      exact ⟨h1, k + 1, x, y, by simpa using h2⟩
    by_cases c1 : a = b ∨ b = 1
    · rw [if_pos c1] at h
      cases hr : bcast2 s t with
      | error e' => rw [hr] at h; obtain rfl := Except.error.inj h; exact hrec _ hr
      | ok u' => rw [hr] at h; cases h
    · rw [if_neg c1] at h
      by_cases c2 : a = 1
      · rw [if_pos c2] at h
        cases hr : bcast2 s t with
        | error e' => rw [hr] at h; obtain rfl := Except.error.inj h; exact hrec _ hr
        | ok u' => rw [hr] at h; cases h
      · rw [if_neg c2] at h
        push Not at c1
        exact ⟨(Except.error.inj h).symm, 0, a, b, rfl, rfl, c1.1, c2, c1.2⟩

/-- `Broadcast` for shapes written last axis first. -/
def BRev (l : List (List ℕ)) (u : List ℕ) : Prop :=
  (∀ s ∈ l, ∀ k n : ℕ, s[k]? = some n → ∃ m, u[k]? = some m ∧ (n = 1 ∨ n = m)) ∧
  ∀ k m : ℕ, u[k]? = some m → ∃ s ∈ l, s[k]? = some m

theorem bcastRev_iff : ∀ (l p : List (List ℕ)) (u : List ℕ), BRev p u → ∀ r,
    (bcastRev u l = .ok r → BRev (p ++ l) r) ∧ (∀ e, bcastRev u l = .error e → e = .value ∧ ∀ w, ¬ BRev (p ++ l) w)
  | [], p, u, hp, r => by
    refine ⟨fun h => ?_, fun e h => by cases h⟩
    obtain rfl := Except.ok.inj h
    simpa using hp
  | s :: l, p, u, hp, r => by
    unfold bcastRev
    cases hb : bcast2 u s with
    | error e =>
      obtain ⟨he, k, a, b, ha, hs, hab, ha1, hb1⟩ := bcast2_error _ _ _ hb
      refine ⟨fun h => (by cases h), fun e' h => ⟨(Except.error.inj h) ▸ he, fun w hw => ?_⟩⟩
      obtain ⟨s', hs', es'⟩ := hp.2 k a ha
      obtain ⟨m1, q1, r1⟩ := hw.1 s' (List.mem_append_left _ hs') k a es'
      obtain ⟨m2, q2, r2⟩ := hw.1 s (by simp) k b hs
      rw [q1] at q2
      obtain rfl := Option.some.inj q2
      exact hab ((r1.resolve_left ha1).trans (r2.resolve_left hb1).symm)
    | ok u' =>
      obtain ⟨h1, h2, h3⟩ := bcast2_ok _ _ _ hb
      have hp' : BRev (p ++ [s]) u' := by
        constructor
        · intro t ht k n hn
          rcases List.mem_append.1 ht with ht | ht
          · obtain ⟨m, q1, q2⟩ := hp.1 t ht k n hn
            obtain ⟨m', q3, q4⟩ := h1 k m q1
            refine ⟨m', q3, ?_⟩
            rcases q2 with q2 | q2
            · exact Or.inl q2
            · rw [q2]; exact q4
          · obtain rfl := List.mem_singleton.1 ht
            exact h2 k n hn
        · intro k m hm
          rcases h3 k m hm with q | q
          · obtain ⟨t, ht, et⟩ := hp.2 k m q
            exact ⟨t, List.mem_append_left _ ht, et⟩
          · exact ⟨s, by simp, q⟩
      have := bcastRev_iff l (p ++ [s]) u' hp' r
      rw [List.append_assoc] at this
      exact this

theorem BRev_unique {l : List (List ℕ)} {u w : List ℕ} (hu : BRev l u) (hw : BRev l w) : u = w := by
  have one : ∀ {u w : List ℕ}, BRev l u → BRev l w → ∀ k m : ℕ, u[k]? = some m → ∃ m', w[k]? = some m' ∧ (m = 1 ∨ m = m') := by
    intro u w hu hw k m hm
    obtain ⟨s, hs, es⟩ := hu.2 k m hm
    exact hw.1 s hs k m es
  apply List.ext_getElem?
  intro k
  cases h : u[k]? with
  | none =>
    cases h' : w[k]? with
    | none => rfl
    | some m =>
      obtain ⟨m', q, _⟩ := one hw hu k m h'
      rw [h] at q; cases q
  | some m =>
    obtain ⟨m', q1, q2⟩ := one hu hw k m h
    obtain ⟨m'', q3, q4⟩ := one hw hu k m' q1
    rw [h] at q3
    obtain rfl := Option.some.inj q3
    rw [q1]
    congr 1
    rcases q2 with q2 | q2
    · rcases q4 with q4 | q4
      · rw [q2, q4]
      · exact q4.symm
    · exact q2

theorem Broadcast_iff (l : List (List ℕ)) (u : List ℕ) : Broadcast l u ↔ BRev (l.map List.reverse) u.reverse := by
  unfold Broadcast BRev
  rw [List.forall_mem_map]
  simp only [List.mem_map, exists_exists_and_eq_and]

/-- The model's broadcasting is the rule of the specification. -/
theorem bcast_ok (l : List (List ℕ)) (u : List ℕ) : bcast l = .ok u ↔ Broadcast l u := by
  have h0 : BRev [] [] := ⟨by simp, by simp⟩
  rw [Broadcast_iff]
  unfold bcast
  cases h : bcastRev [] (l.map List.reverse) with
  | error e =>
    have := ((bcastRev_iff _ _ _ h0 []).2 e h).2 u.reverse
    exact ⟨fun hh => (by cases hh), fun hh => absurd hh this⟩
  | ok r =>
    have hr := (bcastRev_iff _ _ _ h0 r).1 h
    constructor
    · intro hh
      obtain rfl := Except.ok.inj hh
      simpa using hr
    · intro hh
      have := BRev_unique hr hh
      show Except.ok r.reverse = _
      rw [this, List.reverse_reverse]

theorem bcast_error (l : List (List ℕ)) (h : ∀ u, ¬ Broadcast l u) : bcast l = .error .value := by
  have h0 : BRev [] [] := ⟨by simp, by simp⟩
  cases hb : bcast l with
  | ok u => exact absurd ((bcast_ok l u).1 hb) (h u)
  | error e =>
    unfold bcast at hb
    cases hr : bcastRev [] (l.map List.reverse) with
    | ok r => rw [hr] at hb; cases hb
    | error e' =>
      rw [hr] at hb
      obtain rfl := Except.error.inj hb
      rw [((bcastRev_iff _ _ _ h0 []).2 _ hr).1]

/-! ## Dispatch -/

/-- The arrays of the operands. -/
def toArr [Inhabited α] : Opd α → Arr α
  | .num x => { shape := [], get := fun _ => x }
  | .arr a => a
  | .buf _ a => a
  | .other => { shape := [], get := fun _ => default }

theorem castAll_usable [Inhabited α] (c : Cls) (l : List (Opd α)) (h : ∀ o ∈ l, Usable c o) : castAll c l = some (l.map toArr) := by
  unfold castAll
  induction l with
  | nil => rfl
  | cons o l ih =>
    rw [List.mapM_cons, ih fun x hx => h x (List.mem_cons_of_mem _ hx)]
    have := h o List.mem_cons_self
    cases o with
    | num x => rfl
    | arr a => rfl
    | buf c' a => simp only [Usable] at this; simp [cast1, this, toArr]
    | other => exact this.elim

theorem castAll_none (c : Cls) (l : List (Opd α)) (h : ∃ o ∈ l, ¬ Usable c o) : castAll c l = none := by
  unfold castAll
  induction l with
  | nil => obtain ⟨o, ho, _⟩ := h; cases ho
  | cons o l ih =>
    rw [List.mapM_cons]
    by_cases hu : Usable c o
    · have : ∃ o ∈ l, ¬ Usable c o := by
        obtain ⟨x, hx, nx⟩ := h
        rcases List.mem_cons.1 hx with rfl | hx
        · exact absurd hu nx
        · exact ⟨x, hx, nx⟩
      rw [ih this]
      cases cast1 c o <;> rfl
    · have : cast1 c o = none := by
        cases o with
        | num x => exact absurd trivial hu
        | arr a => exact absurd trivial hu
        | buf c' a => exact if_neg hu
        | other => rfl
      rw [this]; rfl

theorem mem_overrides (c : Cls) : ∀ (l : List (Opd α)), c ∈ overrides l ↔ ∃ a, Opd.buf c a ∈ l
  | [] => by simp [overrides]
  | o :: l => by
    have ih := mem_overrides c l
    cases o with
    | num x => simp [overrides, ih]
    | arr a => simp [overrides, ih]
    | other => simp [overrides, ih]
    | buf c' a =>
      simp only [overrides, List.mem_cons, ih, Opd.buf.injEq]
      constructor
      · rintro (rfl | ⟨b, hb⟩)
        · exact ⟨a, Or.inl ⟨rfl, rfl⟩⟩
        · exact ⟨b, Or.inr hb⟩
      · rintro ⟨b, hb | hb⟩
        · exact Or.inl hb.1
        · exact Or.inr ⟨b, hb⟩

theorem dispatch_all (f : Cls → Except PyErr (Out α)) : ∀ (l : List Cls), (∀ c ∈ l, f c = .ok .notImplemented) → dispatch f l = .error .type
  | [], _ => rfl
  | c :: l, h => by
    unfold dispatch
    rw [h c List.mem_cons_self]
    exact dispatch_all f l fun x hx => h x (List.mem_cons_of_mem _ hx)

theorem dispatch_first (f : Cls → Except PyErr (Out α)) (c : Cls) (l : List Cls) (h : f c ≠ .ok .notImplemented) :
    dispatch f (c :: l) = f c := by
  unfold dispatch
  split
  · next e => exact absurd e h
  · rfl

theorem overrides_same (c : Cls) (l : List (Opd α)) (h : ∀ o ∈ l, Usable c o) (hb : ∃ a, Opd.buf c a ∈ l) :
    ∃ t, overrides l = c :: t := by
  cases e : overrides l with
  | nil =>
    have := (mem_overrides c l).2 hb
    rw [e] at this; cases this
  | cons c' t =>
    have : c' ∈ overrides l := by rw [e]; exact List.mem_cons_self
    obtain ⟨a, ha⟩ := (mem_overrides c' l).1 this
    have hu : c' = c := h _ ha
    exact ⟨t, by rw [hu]⟩

/-! ## C216 -/

/-- **C216 (refused).** An operation on containers of different spaces or kinds, or on a container and an object that is neither a number nor an
array, raises `TypeError`. -/
theorem C216_refused (op : List α → α) (l : List (Opd α))
    (h : (∃ c c' a a', Opd.buf c a ∈ l ∧ Opd.buf c' a' ∈ l ∧ c ≠ c') ∨ Opd.other ∈ l) : ufunc op l = .error .type := by
  refine dispatch_all _ _ fun c hc => ?_
  have : castAll c l = none := by
    refine castAll_none c l ?_
    rcases h with ⟨c1, c2, a1, a2, h1, h2, hn⟩ | h
    · by_cases e : c1 = c
      · exact ⟨_, h2, fun hu => hn (e.trans (show c2 = c from hu).symm)⟩
      · exact ⟨_, h1, e⟩
    · exact ⟨_, h, fun hu => hu⟩
  unfold arrayUfunc
  rw [this]

theorem shape_toArr [Inhabited α] (l : List (Opd α)) : (l.map toArr).map Arr.shape = l.map shapeOf := by
  rw [List.map_map]
  refine List.map_congr_left fun o _ => ?_
  cases o <;> rfl

theorem value_toArr [Inhabited α] (c : Cls) (l : List (Opd α)) (h : ∀ o ∈ l, Usable c o) (i : List ℕ) :
    ((l.map toArr).map fun a => a.get (bsel a.shape i)) = l.map (valueAt i) := by
  rw [List.map_map]
  refine List.map_congr_left fun o ho => ?_
  have := h o ho
  cases o with
  | other => exact this.elim
  | _ => rfl

/-- **C216 (elementwise).** Containers of one class, numbers and arrays whose shapes fit are combined element by element; the result is a
container of the class exactly when its last axis has the length of the basis, otherwise an array. -/
theorem C216_elementwise [Inhabited α] (op : List α → α) (c : Cls) (l : List (Opd α)) (u : List ℕ)
    (hu : ∀ o ∈ l, Usable c o) (hb : ∃ a, Opd.buf c a ∈ l) (hs : Broadcast (l.map shapeOf) u) :
    ∃ r : Arr α, r.shape = u ∧ (∀ i, r.get i = op (l.map (valueAt i))) ∧
      ufunc op l = .ok (if u.getLast? = some c.basis then .buf c r else .arr r) := by
  obtain ⟨t, ht⟩ := overrides_same c l hu hb
  refine ⟨{ shape := u, get := fun i => op (l.map (valueAt i)) }, rfl, fun _ => rfl, ?_⟩
  have e : arrayUfunc c op l = .ok (wrap c { shape := u, get := fun i => op (l.map (valueAt i)) }) := by
    unfold arrayUfunc
    rw [castAll_usable c l hu]
    show (call op (l.map toArr)).map (wrap c) = _
    unfold call
    rw [shape_toArr, (bcast_ok _ _).2 hs]
    exact congrArg (fun g : List ℕ → α => Except.ok (wrap c { shape := u, get := g }))
      (funext fun i => congrArg op (value_toArr c l hu i))
  have e2 : wrap c ({ shape := u, get := fun i => op (l.map (valueAt i)) } : Arr α)
      = if u.getLast? = some c.basis then .buf c { shape := u, get := fun i => op (l.map (valueAt i)) }
        else .arr { shape := u, get := fun i => op (l.map (valueAt i)) } := by
    unfold wrap isBuffer
    by_cases hc : u.getLast? = some c.basis <;> simp [hc]
  unfold ufunc
  rw [ht, dispatch_first _ _ _ ?_]
  · rw [e, e2]
  · show arrayUfunc c op l ≠ _
    rw [e, e2]
    intro hh
    have := Except.ok.inj hh
    split at this <;> cases this

/-- **C216 (shapes that do not fit).** Otherwise `ValueError`. -/
theorem C216_shapes [Inhabited α] (op : List α → α) (c : Cls) (l : List (Opd α))
    (hu : ∀ o ∈ l, Usable c o) (hb : ∃ a, Opd.buf c a ∈ l) (hs : ∀ u, ¬ Broadcast (l.map shapeOf) u) :
    ufunc op l = .error .value := by
  obtain ⟨t, ht⟩ := overrides_same c l hu hb
  have e : arrayUfunc c op l = .error .value := by
    unfold arrayUfunc
    rw [castAll_usable c l hu]
    show (call op (l.map toArr)).map (wrap c) = _
    unfold call
    rw [shape_toArr, bcast_error _ hs]
    rfl
  unfold ufunc
  rw [ht, dispatch_first _ _ _ ?_]
  · exact e
  · show arrayUfunc c op l ≠ _
    rw [e]; intro hh; cases hh

/-- **C216 (closed).** With a basis of more than one element the result of combining containers is a container again, with the complete basis
axis. -/
theorem C216_closed [Inhabited α] (op : List α → α) (c : Cls) (l : List (Opd α)) (u : List ℕ) (hc : c.basis ≠ 1)
    (hu : ∀ o ∈ l, Usable c o) (hb : ∃ a, Opd.buf c a ∈ l ∧ a.shape.getLast? = some c.basis) (hs : Broadcast (l.map shapeOf) u) :
    ∃ r : Arr α, r.shape = u ∧ u.getLast? = some c.basis ∧ (∀ i, r.get i = op (l.map (valueAt i))) ∧ ufunc op l = .ok (.buf c r) := by
  obtain ⟨a, ha, hl⟩ := hb
  obtain ⟨r, h1, h2, h3⟩ := C216_elementwise op c l u hu ⟨a, ha⟩ hs
  have hlast : u.getLast? = some c.basis := by
    obtain ⟨m, q1, q2⟩ := hs.1 a.shape (List.mem_map.2 ⟨_, ha, rfl⟩) 0 c.basis (by
      rw [← List.head?_eq_getElem?, List.head?_reverse]; exact hl)
    rw [← List.head?_eq_getElem?, List.head?_reverse] at q1
    rw [q1, ← q2.resolve_left hc]
  rw [if_pos hlast] at h3
  exact ⟨r, h1, hlast, h2, h3⟩

/-- **C216 (in place).** `a += b` and `ufunc(…, out=a)` return `a`, with its shape, holding the elementwise result computed from the old contents. -/
theorem C216_in_place [Inhabited α] (op : List α → α) (c : Cls) (l : List (Opd α)) (a : Arr α) (hu : ∀ o ∈ l, Usable c o)
    (hs : Broadcast (l.map shapeOf ++ [a.shape]) a.shape) :
    ∃ r : Arr α, r.shape = a.shape ∧ (∀ i, r.get i = op (l.map (valueAt i))) ∧ ufuncOut op l (.buf c a) = .ok (.buf c r) := by
  obtain ⟨t, ht⟩ := overrides_same c (l ++ [.buf c a])
    (fun o ho => (List.mem_append.1 ho).elim (hu o) fun h => by rw [List.mem_singleton.1 h]; rfl) ⟨a, by simp⟩
  refine ⟨{ shape := a.shape, get := fun i => op (l.map (valueAt i)) }, rfl, fun _ => rfl, ?_⟩
  have e : arrayUfuncOut c op l (.buf c a) = .ok (.buf c { shape := a.shape, get := fun i => op (l.map (valueAt i)) }) := by
    unfold arrayUfuncOut
    rw [castAll_usable c l hu]
    show (if c = c then (callOut op (l.map toArr) a).map (Out.buf c) else _) = _
    rw [if_pos rfl]
    unfold callOut
    rw [shape_toArr, (bcast_ok _ _).2 hs]
    show (if a.shape = a.shape then _ else _ : Except PyErr (Arr α)).map (Out.buf c) = _
    rw [if_pos rfl]
    exact congrArg (fun g : List ℕ → α => Except.ok (Out.buf c { shape := a.shape, get := g }))
      (funext fun i => congrArg op (value_toArr c l hu i))
  unfold ufuncOut
  rw [ht, dispatch_first _ _ _ ?_]
  · exact e
  · show arrayUfuncOut c op l (.buf c a) ≠ _
    rw [e]; intro hh; cases hh

/-- **C216 (in place, refused).** If the operation would need another shape than that of `a`, `ValueError`. -/
theorem C216_in_place_refused [Inhabited α] (op : List α → α) (c : Cls) (l : List (Opd α)) (a : Arr α) (hu : ∀ o ∈ l, Usable c o)
    (hs : ¬ Broadcast (l.map shapeOf ++ [a.shape]) a.shape) : ufuncOut op l (.buf c a) = .error .value := by
  obtain ⟨t, ht⟩ := overrides_same c (l ++ [.buf c a])
    (fun o ho => (List.mem_append.1 ho).elim (hu o) fun h => by rw [List.mem_singleton.1 h]; rfl) ⟨a, by simp⟩
  have e : arrayUfuncOut c op l (.buf c a) = .error .value := by
    unfold arrayUfuncOut
    rw [castAll_usable c l hu]
    show (if c = c then (callOut op (l.map toArr) a).map (Out.buf c) else _) = _
    rw [if_pos rfl]
    unfold callOut
    rw [shape_toArr]
    by_cases hx : ∃ u, Broadcast (l.map shapeOf ++ [a.shape]) u
    · obtain ⟨u, hx⟩ := hx
      rw [(bcast_ok _ _).2 hx]
      show (if u = a.shape then _ else _ : Except PyErr (Arr α)).map (Out.buf c) = _
      rw [if_neg fun he : u = a.shape => hs (he ▸ hx)]
      rfl
    · rw [bcast_error _ fun u hu => hx ⟨u, hu⟩]
      rfl
  unfold ufuncOut
  rw [ht, dispatch_first _ _ _ ?_]
  · exact e
  · show arrayUfuncOut c op l (.buf c a) ≠ _
    rw [e]; intro hh; cases hh

/-! ## Distributed containers -/

/-- `ap` is the part of `a` that a process holds: entries `lo, …, lo + n - 1` of the last axis, of length `N`. -/
def Cut (lo n N : ℕ) (a ap : Arr α) : Prop :=
  ∃ lead, a.shape = lead ++ [N] ∧ ap.shape = lead ++ [n] ∧
    ∀ i k, i.length = lead.length → k < n → ap.get (i ++ [k]) = a.get (i ++ [lo + k])

/-- What a process holds of an operand: its part of a container or of an array along the basis; a number, or an array without basis axis, as it is. -/
inductive IsPart (c cp : Cls) (lo n N : ℕ) : Opd α → Opd α → Prop
  | num (x : α) : IsPart c cp lo n N (.num x) (.num x)
  | same (a : Arr α) (h : a.shape = [] ∨ a.shape.getLast? = some 1) : IsPart c cp lo n N (.arr a) (.arr a)
  | cutArr (a ap : Arr α) (h : Cut lo n N a ap) : IsPart c cp lo n N (.arr a) (.arr ap)
  | buf (a ap : Arr α) (h : Cut lo n N a ap) : IsPart c cp lo n N (.buf c a) (.buf cp ap)

theorem bsel_snoc (lead : List ℕ) (m : ℕ) (i : List ℕ) (x : ℕ) (h : lead.length ≤ i.length) :
    bsel (lead ++ [m]) (i ++ [x]) = bsel lead i ++ [if m = 1 then 0 else x] := by
  unfold bsel
  rw [List.length_append, List.length_append, List.length_singleton, List.length_singleton,
    Nat.add_sub_add_right, List.drop_append_of_le_length (by omega), List.zipWith_append (by rw [List.length_drop]; omega)]
  rfl

theorem bsel_length (lead i : List ℕ) (h : lead.length ≤ i.length) : (bsel lead i).length = lead.length := by
  unfold bsel
  rw [List.length_zipWith, List.length_drop]; omega

theorem Cut.value {lo n N : ℕ} {a ap : Arr α} (h : Cut lo n N a ap) (hb : lo + n ≤ N) (i : List ℕ) (k : ℕ) (hk : k < n)
    (hl : a.shape.length ≤ i.length + 1) : ap.get (bsel ap.shape (i ++ [k])) = a.get (bsel a.shape (i ++ [lo + k])) := by
  obtain ⟨lead, e1, e2, e3⟩ := h
  rw [e1, List.length_append, List.length_singleton] at hl
  rw [e1, e2, bsel_snoc _ _ _ _ (by omega), bsel_snoc _ _ _ _ (by omega)]
  have f1 : (if n = 1 then 0 else k) = k := by split <;> omega
  have f2 : (if N = 1 then 0 else lo + k) = lo + k := by split <;> omega
  rw [f1, f2]
  exact e3 _ _ (bsel_length _ _ (by omega)) hk

theorem IsPart.value [Inhabited α] {c cp : Cls} {lo n N : ℕ} {g p : Opd α} (h : IsPart c cp lo n N g p) (hb : lo + n ≤ N) (i : List ℕ)
    (k : ℕ) (hk : k < n) (hl : (shapeOf g).length ≤ i.length + 1) : valueAt (i ++ [k]) p = valueAt (i ++ [lo + k]) g := by
  cases h with
  | num x => rfl
  | same a h =>
    show a.get _ = a.get _
    rcases h with h | h
    · rw [h]; rfl
    · obtain ⟨lead, e⟩ : ∃ lead, a.shape = lead ++ [1] := by
        obtain ⟨lead, e⟩ := List.getLast?_eq_some_iff.1 h
        exact ⟨lead, e⟩
      have hl' : a.shape.length ≤ i.length + 1 := hl
      rw [e, List.length_append, List.length_singleton] at hl'
      rw [e, bsel_snoc _ _ _ _ (by omega), bsel_snoc _ _ _ _ (by omega)]
      rfl
  | cutArr a ap h => exact h.value hb i k hk hl
  | buf a ap h => exact h.value hb i k hk hl

/-- Length of the last axis and the other axes of an operand and of its part. -/
theorem IsPart.shape {c cp : Cls} {lo n N : ℕ} {g p : Opd α} (h : IsPart c cp lo n N g p) :
    (shapeOf g = [] ∧ shapeOf p = []) ∨ ∃ lead m mp, shapeOf g = lead ++ [m] ∧ shapeOf p = lead ++ [mp] ∧ ((m = 1 ∧ mp = 1) ∨ (m = N ∧ mp = n)) := by
  cases h with
  | num x => exact Or.inl ⟨rfl, rfl⟩
  | same a h =>
    rcases h with h | h
    · exact Or.inl ⟨h, h⟩
    · obtain ⟨lead, e⟩ := List.getLast?_eq_some_iff.1 h
      exact Or.inr ⟨lead, 1, 1, e, e, Or.inl ⟨rfl, rfl⟩⟩
  | cutArr a ap h => obtain ⟨lead, e1, e2, _⟩ := h; exact Or.inr ⟨lead, N, n, e1, e2, Or.inr ⟨rfl, rfl⟩⟩
  | buf a ap h => obtain ⟨lead, e1, e2, _⟩ := h; exact Or.inr ⟨lead, N, n, e1, e2, Or.inr ⟨rfl, rfl⟩⟩

theorem forall2_right {A B : Type*} {R : A → B → Prop} {l : List A} {l' : List B} (h : List.Forall₂ R l l') {b : B} (hb : b ∈ l') :
    ∃ a ∈ l, R a b := by
  induction h with
  | nil => cases hb
  | cons h1 _ ih =>
    rcases List.mem_cons.1 hb with rfl | hb
    · exact ⟨_, List.mem_cons_self, h1⟩
    · obtain ⟨a, ha, hr⟩ := ih hb
      exact ⟨a, List.mem_cons_of_mem _ ha, hr⟩

theorem forall2_left {A B : Type*} {R : A → B → Prop} {l : List A} {l' : List B} (h : List.Forall₂ R l l') {a : A} (ha : a ∈ l) :
    ∃ b ∈ l', R a b := by
  induction h with
  | nil => cases ha
  | cons h1 _ ih =>
    rcases List.mem_cons.1 ha with rfl | ha
    · exact ⟨_, List.mem_cons_self, h1⟩
    · obtain ⟨b, hb, hr⟩ := ih ha
      exact ⟨b, List.mem_cons_of_mem _ hb, hr⟩

theorem Broadcast.parts {c cp : Cls} {lo n N : ℕ} {lg lp : List (Opd α)} {u : List ℕ} (h : List.Forall₂ (IsPart c cp lo n N) lg lp)
    (hb : ∃ a, Opd.buf c a ∈ lg) (hs : Broadcast (lg.map shapeOf) u) :
    ∃ ul, u = ul ++ [N] ∧ Broadcast (lp.map shapeOf) (ul ++ [n]) := by
  obtain ⟨a, ha⟩ := hb
  obtain ⟨pa, hpa, hra⟩ := forall2_left h ha
  obtain ⟨lead0, e0, e0'⟩ : ∃ lead, shapeOf (Opd.buf c a : Opd α) = lead ++ [N] ∧ shapeOf pa = lead ++ [n] := by
    cases hra with
    | buf _ ap hc => obtain ⟨lead, e1, e2, _⟩ := hc; exact ⟨lead, e1, e2⟩
  have hu0 : u.reverse[0]? = some N := by
    obtain ⟨m, q1, q2⟩ := hs.1 _ (List.mem_map.2 ⟨_, ha, rfl⟩) 0 N (by rw [e0]; simp)
    rcases q2 with q2 | q2
    · obtain ⟨s, hm, es⟩ := hs.2 0 m q1
      obtain ⟨g, hg, rfl⟩ := List.mem_map.1 hm
      obtain ⟨p, hp, hr⟩ := forall2_left h hg
      rcases hr.shape with ⟨z, _⟩ | ⟨lead, m', mp, z1, z2, z3⟩
      · rw [z] at es; simp at es
      · rw [z1] at es
        have : m' = m := by simpa using es
        subst this
        rcases z3 with z3 | z3
        · rw [q1, z3.1, q2]
        · rw [q1, z3.1]
    · rw [q1, q2]
  obtain ⟨ul, eu⟩ : ∃ ul, u = ul ++ [N] := by
    rw [← List.head?_eq_getElem?, List.head?_reverse] at hu0
    exact List.getLast?_eq_some_iff.1 hu0
  refine ⟨ul, eu, ?_, ?_⟩
  · intro s hm k m hk
    obtain ⟨p, hp, rfl⟩ := List.mem_map.1 hm
    obtain ⟨g, hg, hr⟩ := forall2_right h hp
    rcases hr.shape with ⟨_, z⟩ | ⟨lead, m', mp, z1, z2, z3⟩
    · rw [z] at hk; simp at hk
    · rw [z2, List.reverse_append] at hk
      rw [List.reverse_append]
      cases k with
      | zero =>
        have : mp = m := by simpa using hk
        subst this
        refine ⟨n, by simp, ?_⟩
        rcases z3 with z3 | z3
        · exact Or.inl z3.2
        · exact Or.inr z3.2
      | succ k =>
        have hk' : lead.reverse[k]? = some m := by simpa using hk
        obtain ⟨m2, q1, q2⟩ := hs.1 _ (List.mem_map.2 ⟨g, hg, rfl⟩) (k + 1) m (by rw [z1, List.reverse_append]; simpa using hk')
        rw [eu, List.reverse_append] at q1
        exact ⟨m2, by simpa using q1, q2⟩
  · intro k m hk
    rw [List.reverse_append] at hk
    cases k with
    | zero =>
      have : n = m := by simpa using hk
      subst this
      exact ⟨_, List.mem_map.2 ⟨_, hpa, rfl⟩, by rw [e0']; simp⟩
    | succ k =>
      have hk' : ul.reverse[k]? = some m := by simpa using hk
      obtain ⟨s, hm, es⟩ := hs.2 (k + 1) m (by rw [eu, List.reverse_append]; simpa using hk')
      obtain ⟨g, hg, rfl⟩ := List.mem_map.1 hm
      obtain ⟨p, hp, hr⟩ := forall2_left h hg
      refine ⟨_, List.mem_map.2 ⟨p, hp, rfl⟩, ?_⟩
      rcases hr.shape with ⟨z, _⟩ | ⟨lead, m', mp, z1, z2, z3⟩
      · rw [z] at es; simp at es
      · rw [z1, List.reverse_append] at es
        rw [z2, List.reverse_append]
        simpa using es

theorem IsPart.usable {c cp : Cls} {lo n N : ℕ} {g p : Opd α} (h : IsPart c cp lo n N g p) : Usable c g ∧ Usable cp p := by
  cases h <;> exact ⟨by first | trivial | rfl, by first | trivial | rfl⟩

theorem Broadcast.length_le {l : List (List ℕ)} {u : List ℕ} (h : Broadcast l u) {s : List ℕ} (hs : s ∈ l) : s.length ≤ u.length := by
  by_contra hc
  obtain ⟨m, q, _⟩ := h.1 s hs u.length (s.reverse[u.length]'(by rw [List.length_reverse]; omega)) (List.getElem?_eq_getElem _)
  rw [List.getElem?_eq_none (by rw [List.length_reverse])] at q
  cases q

/-- What a process does when it combines containers. -/
theorem distLocal_none [Inhabited α] (op : List α → α) (c : Cls) (l : List (Opd α)) (u : List ℕ)
    (hu : ∀ o ∈ l, Usable c o) (hb : ∃ a, Opd.buf c a ∈ l) (hs : Broadcast (l.map shapeOf) u) (hl : u.getLast? = some c.basis) :
    distLocal op l none = .done (.ok (.buf c { shape := u, get := fun i => op (l.map (valueAt i)) })) := by
  obtain ⟨t, ht⟩ := overrides_same c l hu hb
  have e : arrayUfunc c op l = .ok (.buf c { shape := u, get := fun i => op (l.map (valueAt i)) }) := by
    unfold arrayUfunc
    rw [castAll_usable c l hu]
    show (call op (l.map toArr)).map (wrap c) = _
    unfold call
    rw [shape_toArr, (bcast_ok _ _).2 hs]
    have : isBuffer c.basis u = true := by unfold isBuffer; rw [hl]; simp
    refine (congrArg (fun g : List ℕ → α => Except.ok (wrap c { shape := u, get := g }))
      (funext fun i => congrArg op (value_toArr c l hu i))).trans ?_
    unfold wrap
    rw [if_pos this]
  unfold distLocal
  rw [ht]
  show afterwards (arrayUfunc c op l) = _
  rw [e]; rfl

/-- **C216 (distributed).** Combining distributed containers of one class with each other, with numbers and with arrays needs no communication:
every process ends with its part of the result for the whole containers. -/
theorem C216_distributed [Inhabited α] (mop : α → α → α) (op : List α → α) (P N : ℕ) (c : Cls) (cp : ℕ → Cls) (lo n : ℕ → ℕ)
    (lg : List (Opd α)) (lp : ℕ → List (Opd α)) (u : List ℕ) (hc : c.basis = N) (hcp : ∀ p < P, (cp p).basis = n p)
    (hlo : ∀ p < P, lo p + n p ≤ N) (hp : ∀ p < P, List.Forall₂ (IsPart c (cp p) (lo p) (n p) N) lg (lp p))
    (hP : 0 < P) (hb : ∃ a, Opd.buf c a ∈ lg) (hs : Broadcast (lg.map shapeOf) u) :
    ∃ r : Arr α, ufunc op lg = .ok (.buf c r) ∧ r.shape = u ∧ (∀ i, r.get i = op (lg.map (valueAt i))) ∧
      ∃ res, distUfunc mop op P lp (fun _ => none) = some res ∧
        ∀ p < P, ∃ rp, res p = .ok (.buf (cp p) rp) ∧ Cut (lo p) (n p) N r rp := by
  have hug : ∀ o ∈ lg, Usable c o := fun o ho => by
    obtain ⟨q, _, hr⟩ := forall2_left (hp 0 hP) ho
    exact hr.usable.1
  obtain ⟨ul, eu, _⟩ := Broadcast.parts (hp 0 hP) hb hs
  have hlast : u.getLast? = some c.basis := by rw [eu, hc]; simp
  obtain ⟨r, h1, h2, h3⟩ := C216_elementwise op c lg u hug hb hs
  rw [if_pos hlast] at h3
  have hloc : ∀ p < P, distLocal op (lp p) none
      = .done (.ok (.buf (cp p) { shape := ul ++ [n p], get := fun i => op ((lp p).map (valueAt i)) })) := by
    intro p hpP
    obtain ⟨ul', eu', hs'⟩ := Broadcast.parts (hp p hpP) hb hs
    obtain rfl : ul = ul' := List.append_cancel_right (eu.symm.trans eu')
    refine distLocal_none op (cp p) (lp p) _ ?_ ?_ hs' (by rw [hcp p hpP]; simp)
    · intro o ho
      obtain ⟨q, _, hr⟩ := forall2_right (hp p hpP) ho
      exact hr.usable.2
    · obtain ⟨a, ha⟩ := hb
      obtain ⟨q, hq, hr⟩ := forall2_left (hp p hpP) ha
      cases hr with
      | buf _ ap _ => exact ⟨ap, hq⟩
  refine ⟨r, h3, h1, h2, fun p => (distLocal op (lp p) none).result, ?_, ?_⟩
  · unfold distUfunc
    refine if_pos (List.all_eq_true.2 fun p hpm => ?_)
    show (!(distLocal op (lp p) none).waits) = true
    rw [hloc p (List.mem_range.1 hpm)]; rfl
  · intro p hpP
    refine ⟨_, congrArg Local.result (hloc p hpP), ul, h1.trans eu, rfl, ?_⟩
    intro i k hi hk
    show op _ = _
    rw [h2]
    congr 1
    have hlen : ∀ g ∈ lg, (shapeOf g).length ≤ i.length + 1 := fun g hg => by
      have := hs.length_le (List.mem_map.2 ⟨g, hg, rfl⟩)
      rw [eu, List.length_append, List.length_singleton] at this
      omega
    have key : ∀ {a b : List (Opd α)}, List.Forall₂ (IsPart c (cp p) (lo p) (n p) N) a b → (∀ g ∈ a, (shapeOf g).length ≤ i.length + 1) →
        b.map (valueAt (i ++ [k])) = a.map (valueAt (i ++ [lo p + k])) := by
      intro a b hab
      induction hab with
      | nil => intro _; rfl
      | cons h _ ih =>
        intro hx
        rw [List.map_cons, List.map_cons, h.value (hlo p hpP) i k hk (hx _ List.mem_cons_self),
          ih fun g hg => hx g (List.mem_cons_of_mem _ hg)]
    exact key (hp p hpP) hlen

/-- **C216 (distributed, refused).** Distributed containers of different classes are refused on every process - with `AttributeError`, not with
the `TypeError` of serial containers. -/
theorem C216_distributed_refused [Inhabited α] (mop : α → α → α) (op : List α → α) (P : ℕ) (lp : ℕ → List (Opd α))
    (h : ∀ p < P, ∃ c c' a a', Opd.buf c a ∈ lp p ∧ Opd.buf c' a' ∈ lp p ∧ c ≠ c') :
    ∃ res, distUfunc mop op P lp (fun _ => none) = some res ∧ ∀ p < P, res p = .error .attribute := by
  have hloc : ∀ p < P, distLocal op (lp p) none = .done (.error .attribute) := by
    intro p hp
    obtain ⟨c1, c2, a1, a2, h1, h2, hn⟩ := h p hp
    unfold distLocal
    cases e : overrides (lp p) with
    | nil =>
      have := (mem_overrides c1 _).2 ⟨a1, h1⟩
      rw [e] at this; cases this
    | cons c t =>
      show afterwards (arrayUfunc c op (lp p)) = _
      have : castAll c (lp p) = none := by
        refine castAll_none c _ ?_
        by_cases e : c1 = c
        · exact ⟨_, h2, fun hu => hn (e.trans (show c2 = c from hu).symm)⟩
        · exact ⟨_, h1, e⟩
      unfold arrayUfunc
      rw [this]; rfl
  refine ⟨fun p => (distLocal op (lp p) none).result, ?_, fun p hp => congrArg Local.result (hloc p hp)⟩
  unfold distUfunc
  refine if_pos (List.all_eq_true.2 fun p hpm => ?_)
  show (!(distLocal op (lp p) none).waits) = true
  rw [hloc p (List.mem_range.1 hpm)]; rfl

/-- **C216 (violated).** With a plain array as `out` the processes do communicate: `out` receives the element-wise results of all processes combined
with one another, although each of them belongs to other basis elements. -/
theorem C216_distributed_out [Inhabited α] (mop : α → α → α) (op : List α → α) (P : ℕ) (hP : 0 < P) (cp : ℕ → Cls)
    (lp : ℕ → List (Opd α)) (o : ℕ → Arr α) (hu : ∀ p < P, ∀ x ∈ lp p, Usable (cp p) x) (hb : ∀ p < P, ∃ a, Opd.buf (cp p) a ∈ lp p)
    (hs : ∀ p < P, Broadcast ((lp p).map shapeOf ++ [(o p).shape]) (o p).shape) :
    ∃ res, distUfunc mop op P lp (fun p => some (.arr (o p))) = some res ∧
      ∀ p < P, ∃ r, res p = .ok (.arr r) ∧ r.shape = (o p).shape ∧
        ∀ i, r.get i = val (fold1 mop ((List.range P).map fun q => op ((lp q).map (valueAt i)))) := by
  have hloc : ∀ p < P, distLocal op (lp p) (some (.arr (o p)))
      = .allreduce { shape := (o p).shape, get := fun i => op ((lp p).map (valueAt i)) } := by
    intro p hp
    obtain ⟨t, ht⟩ := overrides_same (cp p) (lp p ++ [.arr (o p)])
      (fun x hx => (List.mem_append.1 hx).elim (hu p hp x) fun h => by rw [List.mem_singleton.1 h]; trivial)
      (by obtain ⟨a, ha⟩ := hb p hp; exact ⟨a, List.mem_append_left _ ha⟩)
    unfold distLocal
    simp only [ht]
    show afterwards (arrayUfuncOut (cp p) op (lp p) (.arr (o p))) = _
    unfold arrayUfuncOut
    rw [castAll_usable (cp p) (lp p) (hu p hp)]
    show afterwards ((callOut op ((lp p).map toArr) (o p)).map Out.arr) = _
    unfold callOut
    rw [shape_toArr, (bcast_ok _ _).2 (hs p hp)]
    show afterwards ((if (o p).shape = (o p).shape then _ else _ : Except PyErr (Arr α)).map Out.arr) = _
    rw [if_pos rfl]
    exact congrArg (fun g : List ℕ → α => Local.allreduce { shape := (o p).shape, get := g })
      (funext fun i => congrArg op (value_toArr (cp p) (lp p) (hu p hp) i))
  refine ⟨fun p => .ok (.arr
      { shape := (distLocal op (lp p) (some (.arr (o p)))).buffer.shape
        get := fun i => val (fold1 mop ((List.range P).map fun q => (distLocal op (lp q) (some (.arr (o q)))).buffer.get i)) }), ?_, ?_⟩
  · unfold distUfunc
    refine (if_neg ?_).trans (if_pos (List.all_eq_true.2 fun p hpm => ?_))
    · intro hall
      have : (!(distLocal op (lp 0) (some (.arr (o 0)))).waits) = true := List.all_eq_true.1 hall 0 (List.mem_range.2 hP)
      rw [hloc 0 hP] at this
      cases this
    · show (distLocal op (lp p) (some (.arr (o p)))).waits = true
      rw [hloc p (List.mem_range.1 hpm)]; rfl
  · intro p hp
    refine ⟨_, rfl, congrArg (fun x : Local α => x.buffer.shape) (hloc p hp), fun i => ?_⟩
    show val (fold1 mop _) = _
    congr 2
    refine List.map_congr_left fun q hq => ?_
    rw [hloc q (List.mem_range.1 hq)]; rfl

/-! ## Concrete cases -/

/-- A class with a basis of three elements. -/
def cF : Cls := ⟨0, 3⟩

/-- Another one, of the same size. -/
def cG : Cls := ⟨1, 3⟩

/-- A field `(1, 2, 3)`. -/
def fld : Arr ℤ := { shape := [3], get := fun i => i.getD 0 0 + 1 }

/-- A column of two numbers `(10), (20)`. -/
def col : Arr ℤ := { shape := [2, 1], get := fun i => 10 * (i.getD 0 0 + 1) }

/-- Non-trivial instances of the hypotheses: a field and a column give two fields; values computed by the theorem. -/
example : Broadcast (([.buf cF fld, .arr col] : List (Opd ℤ)).map shapeOf) [2, 3] :=
  (bcast_ok _ _).1 rfl

example : ∃ r : Arr ℤ, ufunc List.sum [.buf cF fld, .arr col] = .ok (.buf cF r) ∧ r.get [1, 2] = 23 := by
  obtain ⟨r, h1, _, h2, h3⟩ := C216_closed List.sum cF [.buf cF fld, .arr col] [2, 3] (by decide)
    (by intro o ho; rcases List.mem_cons.1 ho with rfl | ho
        · rfl
        · rw [List.mem_singleton.1 ho]; trivial)
    ⟨fld, List.mem_cons_self, rfl⟩ ((bcast_ok _ _).1 rfl)
  exact ⟨r, h3, by rw [h2]; rfl⟩

/-- Fields of different spaces with equal sizes. -/
example : ufunc List.sum [.buf cF fld, .buf cG fld] = .error .type :=
  C216_refused _ _ (Or.inl ⟨cF, cG, fld, fld, by simp, by simp, by decide⟩)

/-- A basis of one element: adding an array of three numbers gives an array, not a container. -/
theorem C216_single : ∃ r : Arr ℤ, r.shape = [3] ∧
    ufunc List.sum [.buf ⟨0, 1⟩ { shape := [1], get := fun _ => (1 : ℤ) }, .arr fld] = .ok (.arr r) := by
  obtain ⟨r, h1, _, h3⟩ := C216_elementwise List.sum ⟨0, 1⟩ [.buf ⟨0, 1⟩ { shape := [1], get := fun _ => (1 : ℤ) }, .arr fld] [3]
    (by intro o ho; rcases List.mem_cons.1 ho with rfl | ho
        · rfl
        · rw [List.mem_singleton.1 ho]; trivial)
    ⟨_, List.mem_cons_self⟩ ((bcast_ok _ _).1 rfl)
  exact ⟨r, h1, h3.trans (congrArg Except.ok (if_neg (by decide)))⟩

/-- One element of the basis on each of two processes. -/
def one (x : ℤ) : Arr ℤ := { shape := [1], get := fun _ => x }

/-- **C216 (violated, witness).** A field `(1, 2)` on two processes multiplied by 10 with an array as `out`: process 0 gets 30 instead of 10. -/
theorem C216_out_violated : ∃ res, distUfunc (· + ·) List.prod 2 (fun p => [.buf ⟨0, 1⟩ (one (p + 1)), .num 10]) (fun _ => some (.arr (one 0)))
      = some res ∧ ∃ r, res 0 = .ok (.arr r) ∧ r.get [0] = (30 : ℤ) := by
  obtain ⟨res, h1, h2⟩ := C216_distributed_out (α := ℤ) (· + ·) List.prod 2 (by decide) (fun _ => ⟨0, 1⟩)
    (fun p => [.buf ⟨0, 1⟩ (one (p + 1)), .num 10]) (fun _ => one 0)
    (by intro p _ o ho; rcases List.mem_cons.1 ho with rfl | ho
        · rfl
        · rw [List.mem_singleton.1 ho]; trivial)
    (fun p _ => ⟨one (p + 1), List.mem_cons_self⟩)
    (fun p _ => (bcast_ok _ _).1 rfl)
  obtain ⟨r, h3, _, h4⟩ := h2 0 (by decide)
  exact ⟨res, h1, r, h3, by rw [h4]; rfl⟩

/-- The field `(1, 2, 3)` on two processes, two elements and one. -/
def part (p : ℕ) : Arr ℤ := { shape := [if p = 0 then 2 else 1], get := fun i => i.getD 0 0 + 1 + 2 * p }

/-- Non-trivial instance of the hypotheses of `C216_distributed`: a field on two processes plus a column. -/
example : ∃ res, distUfunc (· + ·) List.sum 2 (fun p => [.buf ⟨5, if p = 0 then 2 else 1⟩ (part p), .arr col]) (fun _ => none) = some res ∧
    ∃ r, res 1 = .ok (.buf ⟨5, 1⟩ r) ∧ r.get [1, 0] = 23 := by
  obtain ⟨r, _, h1, h2, res, h3, h4⟩ := C216_distributed (α := ℤ) (· + ·) List.sum 2 3 cF (fun p => ⟨5, if p = 0 then 2 else 1⟩) (fun p => 2 * p)
    (fun p => if p = 0 then 2 else 1) [.buf cF fld, .arr col] (fun p => [.buf ⟨5, if p = 0 then 2 else 1⟩ (part p), .arr col]) [2, 3] rfl
    (fun _ _ => rfl) (fun p hp => by show 2 * p + (if p = 0 then 2 else 1) ≤ 3; split <;> omega)
    (fun p hp => by
      refine .cons (.buf _ _ ⟨[], rfl, rfl, ?_⟩) (.cons (.same _ (Or.inr rfl)) .nil)
      intro i k hi hk
      obtain rfl := List.eq_nil_of_length_eq_zero hi
      show ((k : ℤ) + 1 + 2 * p) = ((2 * p + k : ℕ) : ℤ) + 1
      push_cast; omega)
    (by decide) ⟨fld, List.mem_cons_self⟩ ((bcast_ok _ _).1 rfl)
  obtain ⟨rp, h5, lead, e1, e2, h6⟩ := h4 1 (by decide)
  refine ⟨res, h3, rp, h5, ?_⟩
  have hl : lead.length = 1 := by
    have := congrArg List.length (h1.symm.trans e1)
    simpa using this.symm
  have := h6 [1] 0 hl.symm (by decide)
  rw [show ([1, 0] : List ℕ) = [1] ++ [0] from rfl, this, h2]
  rfl

end Verif.Ufunc
