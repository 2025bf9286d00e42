import Mathlib.Topology.UniformSpace.HeineCantor
import Mathlib.Analysis.SpecificLimits.Basic
import Mathlib.Analysis.Complex.ExponentialBounds
import Mathlib.Analysis.Real.Pi.Bounds
import Verif.Props.OccupFn

/-!
# Properties C35, C36: fixed occupations and the search for the Fermi level
-/

namespace Verif.Occup

open Set

/-! ## Minima and maxima of lists -/

theorem foldl_min_spec (l : List ℝ) (x : ℝ) : l.foldl min x ∈ x :: l ∧ ∀ y ∈ x :: l, l.foldl min x ≤ y := by
  induction l generalizing x with
  | nil => simp
  | cons a l ih =>
    obtain ⟨h1, h2⟩ := ih (min x a)
    refine ⟨?_, ?_⟩
    · rw [List.foldl_cons]
      rcases List.mem_cons.1 h1 with h | h
      · rw [h]
        rcases min_choice x a with h | h <;> simp [h]
      · exact List.mem_cons_of_mem _ (List.mem_cons_of_mem _ h)
    · intro y hy
      rw [List.foldl_cons]
      rcases List.mem_cons.1 hy with rfl | hy
      · exact (h2 (min y a) (by simp)).trans (min_le_left _ _)
      · rcases List.mem_cons.1 hy with rfl | hy
        · exact (h2 (min x y) (by simp)).trans (min_le_right _ _)
        · exact h2 _ (List.mem_cons_of_mem _ hy)

theorem foldl_max_spec (l : List ℝ) (x : ℝ) : l.foldl max x ∈ x :: l ∧ ∀ y ∈ x :: l, y ≤ l.foldl max x := by
  induction l generalizing x with
  | nil => simp
  | cons a l ih =>
    obtain ⟨h1, h2⟩ := ih (max x a)
    refine ⟨?_, ?_⟩
    · rw [List.foldl_cons]
      rcases List.mem_cons.1 h1 with h | h
      · rw [h]
        rcases max_choice x a with h | h <;> simp [h]
      · exact List.mem_cons_of_mem _ (List.mem_cons_of_mem _ h)
    · intro y hy
      rw [List.foldl_cons]
      rcases List.mem_cons.1 hy with rfl | hy
      · exact (le_max_left _ _).trans (h2 (max y a) (by simp))
      · rcases List.mem_cons.1 hy with rfl | hy
        · exact (le_max_right _ _).trans (h2 (max x y) (by simp))
        · exact h2 _ (List.mem_cons_of_mem _ hy)

/-- `amin` succeeds exactly on non-empty lists and returns the least element. -/
theorem amin_iff (l : List ℝ) (m : ℝ) : amin l = .ok m ↔ IsLeast {x | x ∈ l} m := by
  cases l with
  | nil => simp [amin, IsLeast]
  | cons x t =>
    obtain ⟨h1, h2⟩ := foldl_min_spec t x
    have hl : IsLeast {y | y ∈ x :: t} (t.foldl min x) := ⟨h1, h2⟩
    simp only [amin, Except.ok.injEq]
    exact ⟨fun h => h ▸ hl, fun h => hl.unique h⟩

theorem amax_iff (l : List ℝ) (m : ℝ) : amax l = .ok m ↔ IsGreatest {x | x ∈ l} m := by
  cases l with
  | nil => simp [amax, IsGreatest]
  | cons x t =>
    obtain ⟨h1, h2⟩ := foldl_max_spec t x
    have hl : IsGreatest {y | y ∈ x :: t} (t.foldl max x) := ⟨h1, h2⟩
    simp only [amax, Except.ok.injEq]
    exact ⟨fun h => h ▸ hl, fun h => hl.unique h⟩

theorem amin_ok (l : List ℝ) (h : l ≠ []) : ∃ m, amin l = .ok m := by
  cases l with
  | nil => exact absurd rfl h
  | cons x t => exact ⟨_, rfl⟩

theorem amax_ok (l : List ℝ) (h : l ≠ []) : ∃ m, amax l = .ok m := by
  cases l with
  | nil => exact absurd rfl h
  | cons x t => exact ⟨_, rfl⟩

theorem mapM_ok {α β : Type*} (f : α → Except PyErr β) (l : List α) (r : List β) :
    l.mapM f = .ok r ↔ List.Forall₂ (fun a b => f a = .ok b) l r := by
  induction l generalizing r with
  | nil =>
    rw [List.mapM_nil]
    constructor
    · intro h; cases h; exact List.Forall₂.nil
    · intro h; cases h; rfl
  | cons a l ih =>
    rw [List.mapM_cons]
    constructor
    · intro h
      cases ha : f a with
      | error e => rw [ha] at h; cases h
      | ok b =>
        rw [ha] at h
        cases hl : l.mapM f with
        | error e => rw [hl] at h; cases h
        | ok bs =>
          rw [hl] at h
          cases h
          exact List.Forall₂.cons ha ((ih bs).1 hl)
    · intro h
      cases h with
      | cons ha hl =>
        rw [ha, (ih _).2 hl]
        rfl

theorem forall2_of_forall {α β : Type*} (R : α → β → Prop) (l : List α) (h : ∀ a ∈ l, ∃ b, R a b) :
    ∃ r, List.Forall₂ R l r := by
  induction l with
  | nil => exact ⟨[], List.Forall₂.nil⟩
  | cons a l ih =>
    obtain ⟨b, hb⟩ := h a (by simp)
    obtain ⟨r, hr⟩ := ih fun a ha => h a (List.mem_cons_of_mem _ ha)
    exact ⟨b :: r, List.Forall₂.cons hb hr⟩

theorem forall2_mem_left {α β : Type*} {R : α → β → Prop} {l : List α} {r : List β} (h : List.Forall₂ R l r)
    (a : α) (ha : a ∈ l) : ∃ b ∈ r, R a b := by
  induction h with
  | nil => cases ha
  | cons hab _ ih =>
    rcases List.mem_cons.1 ha with rfl | ha
    · exact ⟨_, by simp, hab⟩
    · obtain ⟨b, hb, hr⟩ := ih ha; exact ⟨b, List.mem_cons_of_mem _ hb, hr⟩

theorem forall2_mem_right {α β : Type*} {R : α → β → Prop} {l : List α} {r : List β} (h : List.Forall₂ R l r)
    (b : β) (hb : b ∈ r) : ∃ a ∈ l, R a b := by
  induction h with
  | nil => cases hb
  | cons hab _ ih =>
    rcases List.mem_cons.1 hb with rfl | hb
    · exact ⟨_, by simp, hab⟩
    · obtain ⟨a, ha, hr⟩ := ih hb; exact ⟨a, List.mem_cons_of_mem _ ha, hr⟩

/-- The least of the groups' least elements is the least of all. -/
theorem amin_groups {α : Type*} (f : α → List ℝ) (gs : List α) (ms : List ℝ) (m : ℝ)
    (h : List.Forall₂ (fun g b => amin (f g) = .ok b) gs ms) (hm : amin ms = .ok m) :
    IsLeast {x | ∃ g ∈ gs, x ∈ f g} m := by
  rw [amin_iff] at hm
  constructor
  · obtain ⟨g, hg, hb⟩ := forall2_mem_right h m hm.1
    exact ⟨g, hg, ((amin_iff _ _).1 hb).1⟩
  · rintro x ⟨g, hg, hx⟩
    obtain ⟨b, hb, hr⟩ := forall2_mem_left h g hg
    exact (hm.2 hb).trans (((amin_iff _ _).1 hr).2 hx)

theorem amax_groups {α : Type*} (f : α → List ℝ) (gs : List α) (ms : List ℝ) (m : ℝ)
    (h : List.Forall₂ (fun g b => amax (f g) = .ok b) gs ms) (hm : amax ms = .ok m) :
    IsGreatest {x | ∃ g ∈ gs, x ∈ f g} m := by
  rw [amax_iff] at hm
  constructor
  · obtain ⟨g, hg, hb⟩ := forall2_mem_right h m hm.1
    exact ⟨g, hg, ((amax_iff _ _).1 hb).1⟩
  · rintro x ⟨g, hg, hx⟩
    obtain ⟨b, hb, hr⟩ := forall2_mem_left h g hg
    exact (((amax_iff _ _).1 hr).2 hx).trans (hm.2 hb)

/-! ## C35: fixed occupations -/

theorem fixedOcc_sum (nb nf : ℕ) (h : nf ≤ nb) : (fixedOcc nb nf).sum = nf := by
  have : fixedOcc nb nf = List.replicate nf 1 ++ List.replicate (nb - nf) 0 := by
    apply List.ext_getElem
    · simp [fixedOcc]; omega
    · intro i h1 h2
      simp only [fixedOcc, List.getElem_map, List.getElem_range]
      by_cases hi : i < nf
      · rw [if_pos hi, List.getElem_append_left (by simpa using hi)]; simp
      · rw [if_neg hi, List.getElem_append_right (by simpa using hi)]; simp
  rw [this]
  simp

theorem fixedOcc_sum_le (nb nf : ℕ) (h : nb ≤ nf) : (fixedOcc nb nf).sum = nb := by
  have : fixedOcc nb nf = fixedOcc nb nb := by
    unfold fixedOcc
    apply List.map_congr_left
    intro i hi
    have := List.mem_range.1 hi
    rw [if_pos (by omega), if_pos this]
  rw [this, fixedOcc_sum nb nb le_rfl]

/-- The electrons held by the occupations: sum over k-points of weight times occupations. -/
noncomputable def electrons (groups : List (List (List Wfn))) (occ : List (List (List ℝ))) : ℝ :=
  ((groups.zip occ).map fun p => ((p.1.zip p.2).map fun q => (q.1.map fun w => w.weight * q.2.sum).sum).sum).sum

/-- Total weight of the k-points. -/
noncomputable def totalWeight (groups : List (List (List Wfn))) : ℝ :=
  (groups.map fun g => (g.map fun k => (k.map Wfn.weight).sum).sum).sum

theorem zip_self {α : Type*} (l : List α) : l.zip l = l.map fun x => (x, x) := by
  induction l with
  | nil => rfl
  | cons a l ih => simp [ih]

theorem electrons_const (groups : List (List (List Wfn))) (numfill nb : ℕ) (c : ℝ)
    (hone : ∀ g ∈ groups, ∀ k ∈ g, k.length = 1) (hnb : ∀ g ∈ groups, ∀ k ∈ g, ∀ w ∈ k, w.evl.length = nb)
    (hc : (fixedOcc nb numfill).sum = c) :
    electrons groups (groups.map fun g => g.map fun k => fixedOcc (k.headD ⟨0, []⟩).evl.length numfill)
      = totalWeight groups * c := by
  unfold electrons totalWeight
  rw [← List.sum_map_mul_right]
  congr 1
  rw [List.zip_map_right, List.map_map]
  have hz : groups.zip groups = groups.map fun g => (g, g) := zip_self _
  rw [hz, List.map_map]
  apply List.map_congr_left
  intro g hg
  simp only [Function.comp, Prod.map]
  rw [← List.sum_map_mul_right]
  congr 1
  rw [id, List.zip_map_right]
  have hz : g.zip g = g.map fun g => (g, g) := zip_self _
  rw [hz, List.map_map, List.map_map]
  apply List.map_congr_left
  intro k hk
  have h1 := hone g hg k hk
  match k, h1 with
  | [w], _ =>
    have := hnb g hg [w] hk w (by simp)
    simp [this, hc]

/-- **C35.** For every list of k-points in any distribution over groups, with `nb` bands each and
weights adding to 2: if the electron number is even and there are enough bands, the call stores occupation 1 in the
first `numel / 2` bands of every k-point and 0 in the others, these hold exactly `numel` electrons, and the levels
returned are the highest filled eigenvalue and (if some band is empty) the lowest empty one of all groups together.
Odd or non-integer electron numbers and spin-polarised calculations are refused. For too few bands
see `C35_too_few_bands`. -/
theorem C35_fixed (groups : List (List (List Wfn))) (n nb : ℕ)
    (hnb : ∀ g ∈ groups, ∀ k ∈ g, ∀ w ∈ k, w.evl.length = nb) :
    (n % 2 = 1 → fixed groups (.int n) = .error .assertion) ∧
    (∀ x, fixed groups (.float x) = .error .assertion) ∧
    ((∃ g ∈ groups, ∃ k ∈ g, k.length ≠ 1) → fixed groups (.int n) = .error .assertion) ∧
    (n % 2 = 0 → 0 < n → n / 2 ≤ nb → (∀ g ∈ groups, ∀ k ∈ g, k.length = 1) → groups ≠ [] → (∀ g ∈ groups, g ≠ []) →
      totalWeight groups = 2 →
      ∃ occ hi lo, fixed groups (.int n) = .ok (occ, hi, lo) ∧
        occ = (groups.map fun g => g.map fun _ => (List.range nb).map fun i => if i < n / 2 then (1 : ℝ) else 0) ∧
        electrons groups occ = n ∧
        IsGreatest {e | ∃ g ∈ groups, ∃ k ∈ g, ∃ w ∈ k, e ∈ w.evl.take (n / 2)} hi ∧
        (n / 2 = nb → lo = none) ∧
        (n / 2 < nb → ∃ l, lo = some l ∧ IsLeast {e | ∃ g ∈ groups, ∃ k ∈ g, ∃ w ∈ k, e ∈ w.evl.drop (n / 2)} l)) := by
  refine ⟨?_, fun _ => rfl, ?_, ?_⟩
  · intro h; unfold fixed; simp [h]
  · rintro ⟨g, hg, k, hk, h1⟩
    unfold fixed
    split
    · rename_i h; cases h
    · rename_i n' h
      cases h
      split
      · rfl
      · rw [if_pos]
        intro hall
        exact h1 (hall g hg k hk)
  · intro heven hpos hle hone hne hgne hw
    have hocc : (groups.map fun g => g.map fun k => fixedOcc (k.headD ⟨0, []⟩).evl.length (n / 2))
        = groups.map fun g => g.map fun _ => (List.range nb).map fun i => if i < n / 2 then (1 : ℝ) else 0 := by
      apply List.map_congr_left
      intro g hg
      apply List.map_congr_left
      intro k hk
      match k, hone g hg k hk with
      | [w], _ =>
        have := hnb g hg [w] hk w (by simp)
        simp [this, fixedOcc]
    have hhead : ∀ g ∈ groups, ∀ k ∈ g, (k.headD ⟨0, []⟩).evl.length = nb ∧ (k.headD ⟨0, []⟩) ∈ k ∧
        ∀ w ∈ k, w = k.headD ⟨0, []⟩ := by
      intro g hg k hk
      match k, hone g hg k hk with
      | [w], _ => exact ⟨hnb g hg [w] hk w (by simp), by simp, by simp⟩
    -- the levels
    let E := groups.map fun g => g.map fun k => (k.headD ⟨0, []⟩).evl
    have hE : ∀ (P : List ℝ → List ℝ), ({e | ∃ g ∈ E, e ∈ g.flatMap P} : Set ℝ)
        = {e | ∃ g ∈ groups, ∃ k ∈ g, ∃ w ∈ k, e ∈ P w.evl} := by
      intro P
      ext e
      simp only [E, List.mem_map, mem_ofPred_eq, List.mem_flatMap]
      constructor
      · rintro ⟨_, ⟨g, hg, rfl⟩, l, hl, he⟩
        obtain ⟨k, hk, rfl⟩ := List.mem_map.1 hl
        exact ⟨g, hg, k, hk, _, (hhead g hg k hk).2.1, he⟩
      · rintro ⟨g, hg, k, hk, w, hw, he⟩
        refine ⟨_, ⟨g, hg, rfl⟩, w.evl, ?_, he⟩
        rw [List.mem_map]
        exact ⟨k, hk, by rw [← (hhead g hg k hk).2.2 w hw]⟩
    have hmax : ∃ maxs hi, E.mapM (fun (g : List (List ℝ)) => do
        let l ← g.mapM fun evl : List ℝ => amax (evl.take (n / 2))
        amax l) = .ok maxs ∧ amax maxs = .ok hi ∧
        IsGreatest {e | ∃ g ∈ groups, ∃ k ∈ g, ∃ w ∈ k, e ∈ w.evl.take (n / 2)} hi := by
      have hg1 : ∀ g ∈ E, ∃ b, (do
          let l ← g.mapM fun evl : List ℝ => amax (evl.take (n / 2))
          amax l) = .ok b ∧ IsGreatest {e | e ∈ g.flatMap fun evl : List ℝ => evl.take (n / 2)} b := by
        intro g hg
        obtain ⟨g0, hg0, rfl⟩ := List.mem_map.1 hg
        have h2 : ∀ evl ∈ (g0.map fun k => (k.headD ⟨0, []⟩).evl), ∃ b, amax (evl.take (n / 2)) = .ok b := by
          intro evl hevl
          obtain ⟨k, hk, rfl⟩ := List.mem_map.1 hevl
          apply amax_ok
          intro h0
          have := congrArg List.length h0
          rw [List.length_take, (hhead g0 hg0 k hk).1] at this
          simp at this
          omega
        obtain ⟨l, hl⟩ := forall2_of_forall _ _ h2
        have hlne : l ≠ [] := by
          intro h0
          have := hl.length_eq
          rw [h0] at this
          simp at this
          exact hgne g0 hg0 this
        obtain ⟨b, hb⟩ := amax_ok l hlne
        refine ⟨b, ?_, ?_⟩
        · rw [(mapM_ok _ _ _).2 hl]; exact hb
        · have := amax_groups (fun evl : List ℝ => evl.take (n / 2)) _ _ _ hl hb
          convert this using 1
          ext e
          simp [List.mem_flatMap]
      obtain ⟨maxs, hmaxs⟩ := forall2_of_forall _ _ (fun g hg => (hg1 g hg).imp fun b hb => hb.1)
      have hne' : maxs ≠ [] := by
        intro h0
        have := hmaxs.length_eq
        rw [h0] at this
        simp [E] at this
        exact hne this
      obtain ⟨hi, hhi⟩ := amax_ok maxs hne'
      refine ⟨maxs, hi, (mapM_ok _ _ _).2 hmaxs, hhi, ?_⟩
      rw [← hE]
      have h3 : List.Forall₂ (fun g b => amax (g.flatMap fun evl : List ℝ => evl.take (n / 2)) = .ok b) E maxs := by
        rw [List.forall₂_iff_get] at hmaxs ⊢
        refine ⟨hmaxs.1, fun i h1 h2 => ?_⟩
        obtain ⟨b, hb1, hb2⟩ := hg1 (E.get ⟨i, h1⟩) (List.get_mem _ _)
        have := hmaxs.2 i h1 h2
        rw [hb1] at this
        injection this with this
        rw [amax_iff, ← this]
        exact hb2
      exact amax_groups _ _ _ _ h3 hhi
    obtain ⟨maxs, hi, hm1, hm2, hm3⟩ := hmax
    have hnumbnd : ((E.headD []).headD []).length = nb := by
      obtain ⟨g, gs, hgs⟩ := List.exists_cons_of_ne_nil hne
      have hgm : g ∈ groups := by rw [hgs]; simp
      obtain ⟨k, ks, hks⟩ := List.exists_cons_of_ne_nil (hgne g hgm)
      have hkm : k ∈ g := by rw [hks]; simp
      have := (hhead g hgm k hkm).1
      simp only [E, hgs, hks, List.map_cons, List.headD_cons]
      exact this
    have hlev : ∃ lo, fixedLevels (n / 2) E = .ok (hi, lo) ∧ (n / 2 = nb → lo = none) ∧
        (n / 2 < nb → ∃ l, lo = some l ∧ IsLeast {e | ∃ g ∈ groups, ∃ k ∈ g, ∃ w ∈ k, e ∈ w.evl.drop (n / 2)} l) := by
      unfold fixedLevels
      rw [hm1]
      show ∃ lo, (amax maxs >>= _) = _ ∧ _
      rw [hm2]
      by_cases hlt : n / 2 < nb
      · have hg1 : ∀ g ∈ E, ∃ b, (do
            let l ← g.mapM fun evl : List ℝ => amin (evl.drop (n / 2))
            amin l) = .ok b ∧ IsLeast {e | e ∈ g.flatMap fun evl : List ℝ => evl.drop (n / 2)} b := by
          intro g hg
          obtain ⟨g0, hg0, rfl⟩ := List.mem_map.1 hg
          have h2 : ∀ evl ∈ (g0.map fun k => (k.headD ⟨0, []⟩).evl), ∃ b, amin (evl.drop (n / 2)) = .ok b := by
            intro evl hevl
            obtain ⟨k, hk, rfl⟩ := List.mem_map.1 hevl
            apply amin_ok
            intro h0
            have := congrArg List.length h0
            rw [List.length_drop, (hhead g0 hg0 k hk).1] at this
            simp at this
            omega
          obtain ⟨l, hl⟩ := forall2_of_forall _ _ h2
          have hlne : l ≠ [] := by
            intro h0
            have := hl.length_eq
            rw [h0] at this
            simp at this
            exact hgne g0 hg0 this
          obtain ⟨b, hb⟩ := amin_ok l hlne
          refine ⟨b, ?_, ?_⟩
          · rw [(mapM_ok _ _ _).2 hl]; exact hb
          · have := amin_groups (fun evl : List ℝ => evl.drop (n / 2)) _ _ _ hl hb
            convert this using 1
            ext e
            simp [List.mem_flatMap]
        obtain ⟨mins, hmins⟩ := forall2_of_forall _ _ (fun g hg => (hg1 g hg).imp fun b hb => hb.1)
        have hne' : mins ≠ [] := by
          intro h0
          have := hmins.length_eq
          rw [h0] at this
          simp [E] at this
          exact hne this
        obtain ⟨l, hlo⟩ := amin_ok mins hne'
        refine ⟨some l, ?_, fun h => by omega, fun _ => ⟨l, rfl, ?_⟩⟩
        · show (if n / 2 < ((E.headD []).headD []).length then _ else _) = _
          rw [hnumbnd, if_pos hlt, (mapM_ok _ _ _).2 hmins]
          show (amin mins >>= _) = _
          rw [hlo]
          rfl
        · rw [← hE]
          have h3 : List.Forall₂ (fun g b => amin (g.flatMap fun evl : List ℝ => evl.drop (n / 2)) = .ok b) E mins := by
            rw [List.forall₂_iff_get] at hmins ⊢
            refine ⟨hmins.1, fun i h1 h2 => ?_⟩
            obtain ⟨b, hb1, hb2⟩ := hg1 (E.get ⟨i, h1⟩) (List.get_mem _ _)
            have := hmins.2 i h1 h2
            rw [hb1] at this
            injection this with this
            rw [amin_iff, ← this]
            exact hb2
          exact amin_groups _ _ _ _ h3 hlo
      · refine ⟨none, ?_, fun _ => rfl, fun h => absurd h hlt⟩
        show (if n / 2 < ((E.headD []).headD []).length then _ else _) = _
        rw [hnumbnd, if_neg hlt]
        rfl
    obtain ⟨lo, hl1, hl2, hl3⟩ := hlev
    refine ⟨_, hi, lo, ?_, hocc, ?_, hm3, hl2, hl3⟩
    · unfold fixed
      simp only [heven, ne_eq, not_true_eq_false, if_false]
      rw [if_neg (not_not.2 hone)]
      show (match fixedLevels (n / 2) E with | .error e => _ | .ok (hi, lo) => _) = _
      rw [hl1]
    · rw [electrons_const groups (n / 2) nb _ hone hnb (fixedOcc_sum nb (n / 2) hle), hw]
      have : (2 : ℝ) * ((n / 2 : ℕ) : ℝ) = ((2 * (n / 2) : ℕ) : ℝ) := by push_cast; ring
      rw [this]
      congr 1
      omega

/-- **C35 (violation).** With fewer bands than electron pairs the call does not fail: it fills all `nb` bands and
returns, holding only `2 nb` electrons. Stated for one k-point of weight 2 and any eigenvalues. -/
theorem C35_too_few_bands (evl : List ℝ) (n : ℕ) (heven : n % 2 = 0) (hne : evl ≠ []) (hfew : evl.length < n / 2) :
    ∃ occ hi lo, fixed [[[⟨2, evl⟩]]] (.int n) = .ok (occ, hi, lo) ∧
      electrons [[[⟨2, evl⟩]]] occ = 2 * evl.length ∧ (2 * evl.length : ℝ) < n := by
  have htake : evl.take (n / 2) = evl := List.take_of_length_le (by omega)
  obtain ⟨m, hm⟩ := amax_ok evl hne
  refine ⟨[[fixedOcc evl.length (n / 2)]], m, none, ?_, ?_, ?_⟩
  · unfold fixed
    simp only [heven, ne_eq, not_true_eq_false, if_false]
    rw [if_neg (by simp)]
    have : fixedLevels (n / 2) [[evl]] = .ok (m, none) := by
      unfold fixedLevels
      have hm1 : [[evl]].mapM (fun (g : List (List ℝ)) => do
          let l ← g.mapM fun evl : List ℝ => amax (evl.take (n / 2))
          amax l) = .ok [m] := by
        rw [mapM_ok]
        refine List.Forall₂.cons ?_ List.Forall₂.nil
        have : [evl].mapM (fun evl : List ℝ => amax (evl.take (n / 2))) = .ok [m] := by
          rw [mapM_ok]
          refine List.Forall₂.cons ?_ List.Forall₂.nil
          rw [htake]; exact hm
        rw [this]
        rfl
      rw [hm1]
      show (if n / 2 < evl.length then _ else _) = _
      rw [if_neg (by omega)]
      rfl
    show (match fixedLevels (n / 2) [[evl]] with | .error e => _ | .ok (hi, lo) => _) = _
    rw [this]
    rfl
  · simp [electrons, fixedOcc_sum_le _ _ hfew.le]
  · have : 2 * evl.length < n := by omega
    exact_mod_cast this

/-! ## C36: the search for the Fermi level -/

theorem bisect_sound (N : ℝ → ℝ) (numel : ℝ) (fuel : ℕ) (lo hi mu : ℝ) (hle : lo ≤ hi)
    (h : bisect N numel fuel lo hi = some mu) : lo ≤ mu ∧ mu ≤ hi ∧ |numel - N mu| ≤ eps := by
  induction fuel generalizing lo hi with
  | zero =>
    simp only [bisect] at h
    split at h
    · cases h
    · rename_i hn
      injection h with h
      subst h
      exact ⟨by linarith, by linarith, not_lt.1 hn⟩
  | succ fuel ih =>
    simp only [bisect] at h
    split at h
    · split at h
      · obtain ⟨h1, h2, h3⟩ := ih _ _ (by linarith) h
        exact ⟨by linarith, h2, h3⟩
      · obtain ⟨h1, h2, h3⟩ := ih _ _ (by linarith) h
        exact ⟨h1, by linarith, h3⟩
    · rename_i hn
      injection h with h
      subst h
      exact ⟨by linarith, by linarith, not_lt.1 hn⟩

/-- The search ends if the counting function is close to a uniformly continuous one. -/
theorem bisect_ends (N G : ℝ → ℝ) (numel δ w : ℝ) (a b : ℝ)
    (hNG : ∀ x, |N x - G x| ≤ δ)
    (hw : ∀ x ∈ Icc a b, ∀ y ∈ Icc a b, |x - y| ≤ w → |G x - G y| ≤ eps - 2 * δ)
    (fuel : ℕ) (lo hi : ℝ) (ha : a ≤ lo) (hle : lo ≤ hi) (hb : hi ≤ b)
    (hlo : N lo ≤ numel) (hhi : numel ≤ N hi) (hf : (hi - lo) ≤ w * 2 ^ (fuel + 1)) :
    ∃ mu, bisect N numel fuel lo hi = some mu := by
  have key : ∀ lo hi, a ≤ lo → lo ≤ hi → hi ≤ b → N lo ≤ numel → numel ≤ N hi → (hi - lo) / 2 ≤ w →
      ¬ eps < |numel - N ((lo + hi) / 2)| := by
    intro lo hi ha hle hb hlo hhi hw2 hlt
    have hg : (lo + hi) / 2 ∈ Icc a b := ⟨by linarith, by linarith⟩
    have h0 := abs_le.1 (hNG ((lo + hi) / 2))
    rcases le_or_gt 0 (numel - N ((lo + hi) / 2)) with hs | hs
    · rw [abs_of_nonneg hs] at hlt
      have h1 := hw hi ⟨by linarith, hb⟩ _ hg (by rw [abs_of_nonneg] <;> linarith)
      have h2 := abs_le.1 (hNG hi)
      have h3 := (abs_le.1 h1).2
      linarith [h0.1, h0.2, h2.1, h2.2]
    · rw [abs_of_neg hs] at hlt
      have h1 := hw lo ⟨ha, by linarith⟩ _ hg (by rw [abs_of_nonpos] <;> linarith)
      have h2 := abs_le.1 (hNG lo)
      have h3 := (abs_le.1 h1).1
      linarith [h0.1, h0.2, h2.1, h2.2]
  induction fuel generalizing lo hi with
  | zero =>
    refine ⟨(lo + hi) / 2, ?_⟩
    simp only [bisect]
    rw [if_neg (key lo hi ha hle hb hlo hhi (by norm_num at hf; linarith))]
  | succ fuel ih =>
    simp only [bisect]
    split
    · split
      · rename_i hpos
        apply ih _ _ (by linarith) (by linarith) hb (by linarith) hhi
        rw [pow_succ] at hf
        linarith
      · rename_i hpos
        apply ih _ _ ha (by linarith) (by linarith) hlo (by linarith)
        rw [pow_succ] at hf
        linarith
    · exact ⟨_, rfl⟩

theorem bisect_never (N : ℝ → ℝ) (numel : ℝ) (fuel : ℕ) (lo hi : ℝ) (hle : lo ≤ hi)
    (h : ∀ x, lo ≤ x → x ≤ hi → eps < |numel - N x|) : bisect N numel fuel lo hi = none := by
  induction fuel generalizing lo hi with
  | zero => simp only [bisect]; rw [if_pos (h _ (by linarith) (by linarith))]
  | succ fuel ih =>
    simp only [bisect]
    rw [if_pos (h _ (by linarith) (by linarith))]
    split
    · exact ih _ _ (by linarith) fun x h1 h2 => h x (by linarith) h2
    · exact ih _ _ (by linarith) fun x h1 h2 => h x h1 (by linarith)

/-- All eigenvalues of a calculation. -/
def allEvl (groups : List (List Wfn)) : Set ℝ := {e | ∃ g ∈ groups, ∃ w ∈ g, e ∈ w.evl}

/-- The electrons held by occupations stored in the layout of `groups`: sum over all wavefunctions of weight times the
sum of its occupations. -/
noncomputable def stored (groups : List (List Wfn)) (occ : List (List (List ℝ))) : ℝ :=
  ((groups.zip occ).map fun p => ((p.1.zip p.2).map fun q => q.1.weight * q.2.sum).sum).sum

theorem stored_eq (t : Typ) (deg : ℝ) (groups : List (List Wfn)) (mu : ℝ) :
    stored groups (groups.map fun g => g.map fun w => w.evl.map (levelOcc t deg mu)) = count t deg groups mu := by
  unfold stored count
  rw [List.zip_map_right, zip_self, List.map_map, List.map_map]
  congr 1
  apply List.map_congr_left
  intro g hg
  simp only [Function.comp, Prod.map, id]
  rw [List.zip_map_right, zip_self, List.map_map, List.map_map]
  rfl

/-- The bounds of the search: the least and the greatest eigenvalue of all groups; the call fails only if some group
has no eigenvalue at all. -/
theorem smear_bounds (t : Typ) (deg : ℝ) (groups : List (List Wfn)) (numel : ℝ) (fuel : ℕ)
    (hne : groups ≠ []) (hg : ∀ g ∈ groups, ∃ w ∈ g, w.evl ≠ []) :
    ∃ lo hi, IsLeast (allEvl groups) lo ∧ IsGreatest (allEvl groups) hi ∧
      smear t deg groups numel fuel = .ok ((bisect (count t deg groups) numel fuel lo hi).map fun mu =>
        { fermi := mu
          smear := (groups.map fun g => (g.map fun w => w.weight * wfnEn t deg mu w.evl).sum).sum
          occ := groups.map fun g => g.map fun w => w.evl.map (levelOcc t deg mu) }) := by
  have hfm : ∀ g ∈ groups, g.flatMap (·.evl) ≠ [] := by
    intro g hgm h0
    obtain ⟨w, hw, hwe⟩ := hg g hgm
    rw [List.flatMap_eq_nil_iff] at h0
    exact hwe (h0 w hw)
  obtain ⟨mins, hmins⟩ := forall2_of_forall (fun (g : List Wfn) b => amin (g.flatMap (·.evl)) = .ok b) groups
    fun g hgm => amin_ok _ (hfm g hgm)
  obtain ⟨maxs, hmaxs⟩ := forall2_of_forall (fun (g : List Wfn) b => amax (g.flatMap (·.evl)) = .ok b) groups
    fun g hgm => amax_ok _ (hfm g hgm)
  have h1 : mins ≠ [] := by
    intro h0; rw [h0] at hmins; exact hne (List.forall₂_nil_right_iff.1 hmins)
  have h2 : maxs ≠ [] := by
    intro h0; rw [h0] at hmaxs; exact hne (List.forall₂_nil_right_iff.1 hmaxs)
  obtain ⟨lo, hlo⟩ := amin_ok mins h1
  obtain ⟨hi, hhi⟩ := amax_ok maxs h2
  have hset : (allEvl groups) = {x | ∃ g ∈ groups, x ∈ g.flatMap (·.evl)} := by
    ext x; simp [allEvl, List.mem_flatMap]
  refine ⟨lo, hi, ?_, ?_, ?_⟩
  · rw [hset]; exact amin_groups (fun g : List Wfn => g.flatMap (·.evl)) _ _ _ hmins hlo
  · rw [hset]; exact amax_groups (fun g : List Wfn => g.flatMap (·.evl)) _ _ _ hmaxs hhi
  · unfold smear
    rw [(mapM_ok _ _ _).2 hmins, (mapM_ok _ _ _).2 hmaxs]
    show (amin mins >>= _) = _
    rw [hlo]
    show (amax maxs >>= _) = _
    rw [hhi]
    show (match bisect (count t deg groups) numel fuel lo hi with | none => _ | some mu => _) = _
    cases bisect (count t deg groups) numel fuel lo hi <;> rfl

/-- **C36 (soundness).** Whenever the call returns, for every smearing type, width, list of wavefunctions in any number
of groups and electron number: the occupations stored hold the electron number to within 1e-10, they are the smeared
occupations at the Fermi level returned, and that level lies between the least and the greatest eigenvalue. -/
theorem C36_result (t : Typ) (deg : ℝ) (groups : List (List Wfn)) (numel : ℝ) (fuel : ℕ) (out : SmearOut)
    (hne : groups ≠ []) (hg : ∀ g ∈ groups, ∃ w ∈ g, w.evl ≠ [])
    (h : smear t deg groups numel fuel = .ok (some out)) :
    |numel - stored groups out.occ| ≤ 1e-10 ∧
    out.occ = (groups.map fun g => g.map fun w => w.evl.map (levelOcc t deg out.fermi)) ∧
    (∃ e ∈ allEvl groups, e ≤ out.fermi) ∧ (∃ e ∈ allEvl groups, out.fermi ≤ e) ∧
    out.smear = (groups.map fun g => (g.map fun w => w.weight * wfnEn t deg out.fermi w.evl).sum).sum := by
  obtain ⟨lo, hi, hlo, hhi, he⟩ := smear_bounds t deg groups numel fuel hne hg
  rw [he] at h
  injection h with h
  cases hb : bisect (count t deg groups) numel fuel lo hi with
  | none => rw [hb] at h; cases h
  | some mu =>
    rw [hb] at h
    injection h with h
    subst h
    obtain ⟨h1, h2, h3⟩ := bisect_sound _ _ _ _ _ _ (hlo.2 hhi.1) hb
    refine ⟨?_, rfl, ⟨lo, hlo.1, h1⟩, ⟨hi, hhi.1, h2⟩, rfl⟩
    simp only [stored_eq]
    exact h3

/-! ### Termination -/

/-- The smooth counting function. -/
noncomputable def smooth (t : Typ) (deg : ℝ) (groups : List (List Wfn)) (mu : ℝ) : ℝ :=
  (groups.map fun g => (g.map fun w => w.weight * (w.evl.map fun e => t.occ ((e - mu) / deg)).sum).sum).sum

theorem continuous_list_sum {α : Type*} (l : List α) (f : α → ℝ → ℝ) (h : ∀ a ∈ l, Continuous (f a)) :
    Continuous fun x => (l.map fun a => f a x).sum := by
  induction l with
  | nil => simpa using continuous_const
  | cons a l ih =>
    simp only [List.map_cons, List.sum_cons]
    exact (h a (by simp)).add (ih fun b hb => h b (List.mem_cons_of_mem _ hb))

theorem smooth_continuous (t : Typ) (deg : ℝ) (groups : List (List Wfn)) : Continuous (smooth t deg groups) := by
  unfold smooth
  apply continuous_list_sum
  intro g hg
  apply continuous_list_sum
  intro w hw
  apply Continuous.mul continuous_const
  apply continuous_list_sum
  intro e he
  apply (occ_continuous t).comp
  fun_prop

/-- Every smearing type is within `2 e^{-49}` of the step function beyond the threshold. -/
theorem occ_tail (t : Typ) (f : ℝ) :
    |(if f < -50 then (1 : ℝ) else if |f| ≤ 50 then t.occ f else 0) - t.occ f| ≤ 2 * Real.exp (-49) := by
  have hpos := Real.exp_pos (-49)
  by_cases h1 : f < -50
  · rw [if_pos h1]
    cases t with
    | fd =>
      have h2 := occ_symm .fd trivial f
      have h3 := (fd_pos (-f))
      have h4 : Typ.fd.occ (-f) ≤ Real.exp (-49) := by
        simp only [Typ.occ]
        rw [div_le_iff₀ (by positivity), mul_add, ← Real.exp_add]
        have : (1 : ℝ) ≤ Real.exp (-49 + -f) := Real.one_le_exp (by linarith)
        linarith
      rw [abs_of_nonneg] <;> linarith
    | gauss =>
      have h2 := occ_symm .gauss trivial f
      have h3 := (gauss_pos (-f))
      have h4 : Typ.gauss.occ (-f) ≤ Real.exp (-49) := by
        have := erfc_tail (-f) (by linarith)
        have h5 : Real.exp (- -f) ≤ Real.exp (-49) := Real.exp_le_exp.2 (by linarith)
        simp only [Typ.occ, erfc]
        linarith
      rw [abs_of_nonneg] <;> linarith
    | mv =>
      have hs : 1 / √2 ≤ 1 := by
        rw [div_le_one (Real.sqrt_pos.2 (by norm_num))]
        exact Real.one_le_sqrt.2 (by norm_num)
      have hs0 : 0 < 1 / √2 := by positivity
      obtain ⟨g, hgd⟩ : ∃ g, g = -(f + 1 / √2) := ⟨_, rfl⟩
      have hg : 49 < g := by linarith
      have h2 := erfc_tail g (by linarith)
      have h3 : Real.exp (-g) ≤ Real.exp (-49) := Real.exp_le_exp.2 (by linarith)
      have h4 : Real.exp (-g ^ 2) ≤ Real.exp (-49) := Real.exp_le_exp.2 (by nlinarith)
      have h5 : 1 / √(2 * Real.pi) ≤ 1 := by
        rw [div_le_one (Real.sqrt_pos.2 (by positivity))]
        exact Real.one_le_sqrt.2 (by linarith [Real.pi_gt_three])
      have h6 : 0 ≤ 1 / √(2 * Real.pi) * Real.exp (-g ^ 2) := by positivity
      have h7 : 1 / √(2 * Real.pi) * Real.exp (-g ^ 2) ≤ Real.exp (-49) := by
        calc _ ≤ 1 * Real.exp (-g ^ 2) := by gcongr
          _ ≤ _ := by linarith
      have h8 := erf_lt_one g
      have he : Typ.mv.occ f = 0.5 * (erf g + 1) + 1 / √(2 * Real.pi) * Real.exp (-g ^ 2) := by rw [hgd]; rfl
      rw [he, abs_le]
      constructor <;> linarith
  · rw [if_neg h1]
    by_cases h2 : |f| ≤ 50
    · rw [if_pos h2, sub_self, abs_zero]; positivity
    · rw [if_neg h2]
      have hf : 50 < f := by
        by_contra h3
        exact h2 (abs_le.2 ⟨by linarith, by linarith⟩)
      rw [zero_sub, abs_neg]
      cases t with
      | fd =>
        have h3 := (fd_pos f)
        have h4 : Typ.fd.occ f ≤ Real.exp (-49) := by
          simp only [Typ.occ]
          rw [div_le_iff₀ (by positivity), mul_add, ← Real.exp_add]
          have : (1 : ℝ) ≤ Real.exp (-49 + f) := Real.one_le_exp (by linarith)
          linarith
        rw [abs_of_pos h3.1]
        linarith
      | gauss =>
        have h3 := (gauss_pos f)
        have h4 : Typ.gauss.occ f ≤ Real.exp (-49) := by
          have := erfc_tail f (by linarith)
          have h5 : Real.exp (-f) ≤ Real.exp (-49) := Real.exp_le_exp.2 (by linarith)
          simp only [Typ.occ, erfc]
          linarith
        rw [abs_of_pos h3.1]
        linarith
      | mv =>
        have hs0 : 0 < 1 / √2 := by positivity
        obtain ⟨g, hgd⟩ : ∃ g, g = -(f + 1 / √2) := ⟨_, rfl⟩
        have hg : g < -50 := by linarith
        have h2 := erfc_tail (-g) (by linarith)
        rw [erf_neg] at h2
        have h3 : Real.exp (- -g) ≤ Real.exp (-49) := Real.exp_le_exp.2 (by linarith)
        have h4 : Real.exp (-g ^ 2) ≤ Real.exp (-49) := Real.exp_le_exp.2 (by nlinarith)
        have h5 : 1 / √(2 * Real.pi) ≤ 1 := by
          rw [div_le_one (Real.sqrt_pos.2 (by positivity))]
          exact Real.one_le_sqrt.2 (by linarith [Real.pi_gt_three])
        have h6 : 0 ≤ 1 / √(2 * Real.pi) * Real.exp (-g ^ 2) := by positivity
        have h7 : 1 / √(2 * Real.pi) * Real.exp (-g ^ 2) ≤ Real.exp (-49) := by
          calc _ ≤ 1 * Real.exp (-g ^ 2) := by gcongr
            _ ≤ _ := by linarith
        have h8 := neg_one_lt_erf g
        have he : Typ.mv.occ f = 0.5 * (erf g + 1) + 1 / √(2 * Real.pi) * Real.exp (-g ^ 2) := by rw [hgd]; rfl
        rw [he, abs_le]
        constructor <;> linarith

/-- The number of electrons the bands can hold: sum over wavefunctions of weight times number of bands. -/
noncomputable def capacity (groups : List (List Wfn)) : ℝ :=
  (groups.map fun g => (g.map fun w => w.weight * (w.evl.length : ℝ)).sum).sum

theorem abs_sum_sub_le {α : Type*} (l : List α) (f g : α → ℝ) (c : α → ℝ) (h : ∀ a ∈ l, |f a - g a| ≤ c a) :
    |(l.map f).sum - (l.map g).sum| ≤ (l.map c).sum := by
  induction l with
  | nil => simp
  | cons a l ih =>
    simp only [List.map_cons, List.sum_cons]
    have h1 := h a (by simp)
    have h2 := ih fun b hb => h b (List.mem_cons_of_mem _ hb)
    calc _ = |(f a - g a) + ((l.map f).sum - (l.map g).sum)| := by congr 1; ring
      _ ≤ _ := (abs_add_le _ _).trans (add_le_add h1 h2)

theorem count_smooth (t : Typ) (deg : ℝ) (groups : List (List Wfn)) (hw : ∀ g ∈ groups, ∀ w ∈ g, 0 ≤ w.weight)
    (mu : ℝ) : |count t deg groups mu - smooth t deg groups mu| ≤ capacity groups * (2 * Real.exp (-49)) := by
  unfold count smooth capacity
  rw [← List.sum_map_mul_right]
  apply abs_sum_sub_le
  intro g hg
  rw [← List.sum_map_mul_right]
  apply abs_sum_sub_le
  intro w hwm
  have h0 := hw g hg w hwm
  rw [← mul_sub, abs_mul, abs_of_nonneg h0, mul_assoc]
  apply mul_le_mul_of_nonneg_left _ h0
  have := abs_sum_sub_le w.evl (levelOcc t deg mu) (fun e => t.occ ((e - mu) / deg)) (fun _ => 2 * Real.exp (-49))
    (fun e _ => by rw [levelOcc_eq]; exact occ_tail t _)
  simpa using this

theorem exp_small : (10 : ℝ) ^ 10 * (2 * Real.exp (-49)) * 2 < 1e-10 := by
  have h1 : (2.7 : ℝ) ^ 49 ≤ Real.exp 49 := by
    have : Real.exp 49 = Real.exp 1 ^ 49 := by rw [← Real.exp_nat_mul]; norm_num
    rw [this]
    exact pow_le_pow_left₀ (by norm_num) (by linarith [Real.exp_one_gt_d9]) _
  rw [Real.exp_neg]
  have h2 : (Real.exp 49)⁻¹ ≤ ((2.7 : ℝ) ^ 49)⁻¹ := inv_anti₀ (by positivity) h1
  calc _ ≤ (10 : ℝ) ^ 10 * (2 * ((2.7 : ℝ) ^ 49)⁻¹) * 2 := by gcongr
    _ < _ := by norm_num

/-- **C36 (termination).** For every smearing type, positive width, list of wavefunctions with nonnegative weights (total
capacity up to 10^10 electrons) and electron number that lies between the electrons held with the Fermi level at the
lowest and at the highest eigenvalue, the search ends: there is a number of iterations after which the call returns. -/
theorem C36_terminates (t : Typ) (deg : ℝ) (groups : List (List Wfn)) (numel : ℝ) (_hd : 0 < deg)
    (hne : groups ≠ []) (hg : ∀ g ∈ groups, ∃ w ∈ g, w.evl ≠ [])
    (hw : ∀ g ∈ groups, ∀ w ∈ g, 0 ≤ w.weight) (hcap : capacity groups ≤ 10 ^ 10)
    (hlow : ∀ e, IsLeast (allEvl groups) e → count t deg groups e ≤ numel)
    (hhigh : ∀ e, IsGreatest (allEvl groups) e → numel ≤ count t deg groups e) :
    ∃ F, ∀ fuel, F ≤ fuel → ∃ out, smear t deg groups numel fuel = .ok (some out) := by
  obtain ⟨lo, hi, hlo, hhi, -⟩ := smear_bounds t deg groups numel 0 hne hg
  have hle : lo ≤ hi := hlo.2 hhi.1
  have hδ : capacity groups * (2 * Real.exp (-49)) * 2 < eps := by
    have : capacity groups * (2 * Real.exp (-49)) * 2 ≤ (10 : ℝ) ^ 10 * (2 * Real.exp (-49)) * 2 := by gcongr
    exact this.trans_lt exp_small
  have huc := (isCompact_Icc (a := lo) (b := hi)).uniformContinuousOn_of_continuous
    (smooth_continuous t deg groups).continuousOn
  rw [Metric.uniformContinuousOn_iff] at huc
  obtain ⟨w, hw0, hwc⟩ := huc (eps - 2 * (capacity groups * (2 * Real.exp (-49)))) (by linarith)
  obtain ⟨F, hF⟩ := pow_unbounded_of_one_lt ((hi - lo) / (w / 2)) (by norm_num : (1 : ℝ) < 2)
  refine ⟨F, fun fuel hfuel => ?_⟩
  obtain ⟨lo', hi', hlo', hhi', he⟩ := smear_bounds t deg groups numel fuel hne hg
  obtain rfl : lo' = lo := hlo'.unique hlo
  obtain rfl : hi' = hi := hhi'.unique hhi
  obtain ⟨mu, hmu⟩ := bisect_ends (count t deg groups) (smooth t deg groups) numel _ (w / 2) lo' hi'
    (count_smooth t deg groups hw)
    (fun x hx y hy hxy => by
      have := hwc x hx y hy (by rw [Real.dist_eq]; linarith)
      rw [Real.dist_eq] at this
      exact this.le)
    fuel lo' hi' le_rfl hle le_rfl (hlow _ hlo) (hhigh _ hhi) (by
      rw [div_lt_iff₀ (by positivity)] at hF
      have : (2 : ℝ) ^ F ≤ 2 ^ (fuel + 1) := pow_le_pow_right₀ (by norm_num) (by omega)
      have h2 : 2 ^ F * (w / 2) ≤ 2 ^ (fuel + 1) * (w / 2) := by gcongr
      linarith)
  rw [he, hmu]
  exact ⟨_, rfl⟩

theorem list_sum_mono {α : Type*} (l : List α) (f g : α → ℝ) (h : ∀ a ∈ l, f a ≤ g a) :
    (l.map f).sum ≤ (l.map g).sum := by
  induction l with
  | nil => simp
  | cons a l ih =>
    simp only [List.map_cons, List.sum_cons]
    exact add_le_add (h a (by simp)) (ih fun b hb => h b (List.mem_cons_of_mem _ hb))

theorem count_mono (t : Typ) (ht : t = .gauss ∨ t = .fd) (deg : ℝ) (hd : 0 < deg) (groups : List (List Wfn))
    (hw : ∀ g ∈ groups, ∀ w ∈ g, 0 ≤ w.weight) {mu mu' : ℝ} (h : mu ≤ mu') :
    count t deg groups mu ≤ count t deg groups mu' := by
  unfold count
  apply list_sum_mono
  intro g hg
  apply list_sum_mono
  intro w hwm
  apply mul_le_mul_of_nonneg_left _ (hw g hg w hwm)
  apply list_sum_mono
  intro e he
  exact (C37_occupations t ht deg hd).2.2.1 mu mu' e h

/-- **C36 (violation).** For Gaussian and Fermi–Dirac smearing an electron number above what the bands hold with the
Fermi level at the highest eigenvalue (or below what they hold with it at the lowest) is not an error: the search goes
on forever. -/
theorem C36_never_returns (t : Typ) (ht : t = .gauss ∨ t = .fd) (deg : ℝ) (groups : List (List Wfn)) (numel : ℝ)
    (hd : 0 < deg) (hne : groups ≠ []) (hg : ∀ g ∈ groups, ∃ w ∈ g, w.evl ≠ [])
    (hw : ∀ g ∈ groups, ∀ w ∈ g, 0 ≤ w.weight)
    (h : (∀ e, IsGreatest (allEvl groups) e → count t deg groups e + 1e-10 < numel) ∨
      (∀ e, IsLeast (allEvl groups) e → numel + 1e-10 < count t deg groups e)) (fuel : ℕ) :
    smear t deg groups numel fuel = .ok none := by
  obtain ⟨lo, hi, hlo, hhi, he⟩ := smear_bounds t deg groups numel fuel hne hg
  rw [he, bisect_never]
  · rfl
  · exact hlo.2 hhi.1
  · intro x h1 h2
    have hx1 := count_mono t ht deg hd groups hw h1
    have hx2 := count_mono t ht deg hd groups hw h2
    rcases h with h | h
    · have h3 := h hi hhi
      rw [abs_of_nonneg (by linarith)]; unfold eps; linarith
    · have h3 := h lo hlo
      rw [abs_of_nonpos (by linarith)]; unfold eps; linarith

/-- **C36 (violation, instance).** Exactly filled bands: with one k-point of weight 2 and as many electron pairs as
bands, for every list of eigenvalues the call never returns. -/
theorem C36_full_bands (t : Typ) (ht : t = .gauss ∨ t = .fd) (deg : ℝ) (hd : 0 < deg) (evl : List ℝ)
    (hne : evl ≠ []) (fuel : ℕ) : smear t deg [[⟨2, evl⟩]] (2 * evl.length) fuel = .ok none := by
  apply C36_never_returns t ht deg _ _ hd (by simp) (by simpa using hne) (by simp)
  left
  intro e he
  have hmem : e ∈ evl := by
    obtain ⟨g, hg, w, hw, hew⟩ := he.1
    simp only [List.mem_singleton] at hg
    subst hg
    simp only [List.mem_singleton] at hw
    subst hw
    exact hew
  have hC := C37_occupations t ht deg hd
  have hle : ∀ l : List ℝ, e ∈ l → (l.map (levelOcc t deg e)).sum ≤ l.length - 1 / 2 := by
    intro l hl
    obtain ⟨s, r, rfl⟩ := List.append_of_mem hl
    have hb : ∀ l : List ℝ, (l.map (levelOcc t deg e)).sum ≤ l.length := by
      intro l
      have := list_sum_mono l (levelOcc t deg e) (fun _ => 1) fun a _ => (hC.1 e a).2
      simpa using this
    have h1 := hb s
    have h2 := hb r
    have h3 := hC.2.2.2.1 e
    simp only [List.map_append, List.map_cons, List.sum_append, List.sum_cons, List.length_append, List.length_cons]
    rw [h3]
    push_cast
    linarith
  have := hle evl hmem
  simp only [count, List.map_cons, List.map_nil, List.sum_cons, List.sum_nil]
  norm_num
  linarith

/-- **C36 (layout).** The Fermi level, the smearing energy and the stored occupations do not depend on how the k-points
are distributed over the groups: two distributions of the same list of wavefunctions give the same results after every
number of iterations. -/
theorem C36_layout (t : Typ) (deg : ℝ) (gs gs' : List (List Wfn)) (numel : ℝ) (fuel : ℕ)
    (hne : gs ≠ []) (hg : ∀ g ∈ gs, ∃ w ∈ g, w.evl ≠ []) (hne' : gs' ≠ []) (hg' : ∀ g ∈ gs', ∃ w ∈ g, w.evl ≠ [])
    (h : gs.flatten = gs'.flatten) :
    ∃ r r', smear t deg gs numel fuel = .ok r ∧ smear t deg gs' numel fuel = .ok r' ∧
      (r.map fun o => (o.fermi, o.smear, o.occ.flatten)) = r'.map fun o => (o.fermi, o.smear, o.occ.flatten) := by
  have hcount : ∀ gs : List (List Wfn), count t deg gs
      = fun mu => ((gs.flatten).map fun w => w.weight * (w.evl.map (levelOcc t deg mu)).sum).sum := by
    intro gs; funext mu
    rw [List.map_flatten, List.sum_flatten, List.map_map]; rfl
  have hen : ∀ (gs : List (List Wfn)) mu, (gs.map fun g => (g.map fun w => w.weight * wfnEn t deg mu w.evl).sum).sum
      = ((gs.flatten).map fun w => w.weight * wfnEn t deg mu w.evl).sum := by
    intro gs mu
    rw [List.map_flatten, List.sum_flatten, List.map_map]; rfl
  have hall : allEvl gs = allEvl gs' := by
    have : ∀ gs : List (List Wfn), allEvl gs = {e | ∃ w ∈ gs.flatten, e ∈ w.evl} := by
      intro gs; ext e; simp only [allEvl, List.mem_flatten, mem_ofPred_eq]
      constructor
      · rintro ⟨g, hg, w, hw, he⟩; exact ⟨w, ⟨g, hg, hw⟩, he⟩
      · rintro ⟨w, ⟨g, hg, hw⟩, he⟩; exact ⟨g, hg, w, hw, he⟩
    rw [this, this, h]
  obtain ⟨lo, hi, hlo, hhi, he⟩ := smear_bounds t deg gs numel fuel hne hg
  obtain ⟨lo', hi', hlo', hhi', he'⟩ := smear_bounds t deg gs' numel fuel hne' hg'
  rw [← hall] at hlo' hhi'
  obtain rfl := hlo'.unique hlo
  obtain rfl := hhi'.unique hhi
  refine ⟨_, _, he, he', ?_⟩
  rw [hcount gs, hcount gs', h]
  cases bisect (fun mu => ((gs'.flatten).map fun w => w.weight * (w.evl.map (levelOcc t deg mu)).sum).sum) numel fuel
    lo' hi' with
  | none => rfl
  | some mu =>
    simp only [Option.map_some, hen, h]
    have : (gs.map fun g => g.map fun w => w.evl.map (levelOcc t deg mu)).flatten
        = (gs'.map fun g => g.map fun w => w.evl.map (levelOcc t deg mu)).flatten := by
      rw [← List.map_flatten, h, List.map_flatten]
    rw [this]

/-! ## Concrete cases -/

/-- C35: two k-points (in two groups) of weight 1, three bands, four electrons. -/
example : ∃ occ hi lo, fixed [[[⟨1, [0, 1, 5]⟩]], [[⟨1, [0, 2, 4]⟩]]] (.int 4) = .ok (occ, hi, lo) ∧
    electrons [[[⟨1, [0, 1, 5]⟩]], [[⟨1, [0, 2, 4]⟩]]] occ = (4 : ℕ) := by
  have h := (C35_fixed [[[⟨1, [0, 1, 5]⟩]], [[⟨1, [0, 2, 4]⟩]]] 4 3 (by simp)).2.2.2
    (by norm_num) (by norm_num) (by norm_num) (by simp) (by simp) (by simp) (by simp [totalWeight]; norm_num)
  obtain ⟨occ, hi, lo, h1, _, h2, _⟩ := h
  exact ⟨occ, hi, lo, h1, h2⟩

/-- C36: one k-point of weight 2 with bands 0 and 1 and two electrons meets the conditions of termination and hence of
soundness. -/
example (t : Typ) (ht : t = .gauss ∨ t = .fd) :
    ∃ fuel out, smear t 1 [[⟨2, [0, 1]⟩]] 2 fuel = .ok (some out) ∧ |2 - stored [[⟨2, [0, 1]⟩]] out.occ| ≤ 1e-10 := by
  have hC := C37_occupations t ht 1 one_pos
  have hall : allEvl [[⟨2, [0, 1]⟩]] = {0, 1} := by ext e; simp [allEvl]
  have hl : IsLeast (allEvl [[⟨2, [0, 1]⟩]]) 0 := by
    rw [hall]; constructor
    · simp
    · rintro x (rfl | rfl) <;> norm_num
  have hh : IsGreatest (allEvl [[⟨2, [0, 1]⟩]]) 1 := by
    rw [hall]; constructor
    · simp
    · rintro x (rfl | rfl) <;> norm_num
  obtain ⟨F, hF⟩ := C36_terminates t 1 [[⟨2, [0, 1]⟩]] 2 one_pos (by simp) (by simp) (by simp)
    (by simp [capacity]; norm_num)
    (by
      intro e he
      obtain rfl := he.unique hl
      simp only [count, List.map_cons, List.map_nil, List.sum_cons, List.sum_nil]
      have h1 := hC.2.2.2.1 0
      have h2 := hC.2.1 0 0 1 (by norm_num)
      rw [h1] at h2 ⊢
      linarith)
    (by
      intro e he
      obtain rfl := he.unique hh
      simp only [count, List.map_cons, List.map_nil, List.sum_cons, List.sum_nil]
      have h1 := hC.2.2.2.1 1
      have h2 := hC.2.1 1 0 1 (by norm_num)
      rw [h1] at h2 ⊢
      linarith)
  obtain ⟨out, ho⟩ := hF F le_rfl
  exact ⟨F, out, ho, (C36_result t 1 _ 2 F out (by simp) (by simp) ho).1⟩

end Verif.Occup
