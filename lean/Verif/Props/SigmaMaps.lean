import Verif.Props.SigmaStatic

/-!
# C115 (density lookup), C116 (-q and -G), C121 (order of the dielectric matrix)
-/

namespace Verif.GW

open Verif.Lattice (Vec)
open Verif.GSpace (GVec Shape at' argsort)
open scoped ComplexConjugate

/-! ## C115 -/

/-- The box on which the address function is one-to-one: `-(n/2) ≤ g < n - n/2`. -/
def InBox (s : Shape) (g : GVec) : Prop :=
  (0 ≤ g.1 + ((s.n1 / 2 : ℕ) : ℤ) ∧ g.1 + ((s.n1 / 2 : ℕ) : ℤ) < s.n1)
  ∧ (0 ≤ g.2.1 + ((s.n2 / 2 : ℕ) : ℤ) ∧ g.2.1 + ((s.n2 / 2 : ℕ) : ℤ) < s.n2)
  ∧ (0 ≤ g.2.2 + ((s.n3 / 2 : ℕ) : ℤ) ∧ g.2.2 + ((s.n3 / 2 : ℕ) : ℤ) < s.n3)

/-- Mixed-radix digits are unique. -/
theorem digits (n : ℤ) (a b x y : ℤ) (ha : 0 ≤ a ∧ a < n) (hb : 0 ≤ b ∧ b < n) (h : a + x * n = b + y * n) : a = b ∧ x = y := by
  have hx : x = y := by
    by_contra hne
    rcases lt_or_gt_of_ne hne with hlt | hgt
    · have : (y - x) * n ≥ 1 * n := by
        apply Int.mul_le_mul_of_nonneg_right <;> omega
      have e : (y - x) * n = y * n - x * n := by ring
      omega
    · have : (x - y) * n ≥ 1 * n := by
        apply Int.mul_le_mul_of_nonneg_right <;> omega
      have e : (x - y) * n = x * n - y * n := by ring
      omega
  subst hx
  exact ⟨by omega, rfl⟩

/-- **C115 (addresses).** Two G-vectors inside the box have different addresses. -/
theorem C115_injective (s : Shape) (g h : GVec) (hg : InBox s g) (hh : InBox s h) (e : rhohash s g = rhohash s h) : g = h := by
  obtain ⟨g1, g2, g3⟩ := hg
  obtain ⟨h1, h2, h3⟩ := hh
  unfold rhohash at e
  have e' : (g.1 + ((s.n1 / 2 : ℕ) : ℤ)) + ((g.2.1 + ((s.n2 / 2 : ℕ) : ℤ)) + (g.2.2 + ((s.n3 / 2 : ℕ) : ℤ)) * s.n2) * s.n1
      = (h.1 + ((s.n1 / 2 : ℕ) : ℤ)) + ((h.2.1 + ((s.n2 / 2 : ℕ) : ℤ)) + (h.2.2 + ((s.n3 / 2 : ℕ) : ℤ)) * s.n2) * s.n1 := by
    linear_combination e
  obtain ⟨a, b⟩ := digits _ _ _ _ _ g1 h1 e'
  obtain ⟨c, d⟩ := digits _ _ _ _ _ g2 h2 b
  exact Prod.ext (by omega) (Prod.ext (by omega) (by omega))

/-- **C115 (density lookup; partial).** If the stored density and the requested `G - G'` are inside the box, the entry found is the one
of that vector, and a vector without density raises `KeyError`. Missing: the documented behaviour for the latter (skip the pair). -/
theorem C115_lookup_partial (s : Shape) (gs : List GVec) (hnd : gs.Nodup) (hgs : ∀ g ∈ gs, InBox s g) (g : GVec) (hg : InBox s g) :
    (∀ i < gs.length, gs.getD i (0, 0, 0) = g → rhoLookup s gs g = .ok i)
    ∧ (g ∉ gs → rhoLookup s gs g = .error .key) := by
  have hmem : ∀ i < gs.length, gs.getD i (0, 0, 0) ∈ gs := by
    intro i hi
    rw [List.getD_eq_getElem _ _ hi]
    exact List.getElem_mem hi
  constructor
  · intro i hi hig
    unfold rhoLookup
    have hf : ∃ j, ((List.range gs.length).reverse.find? fun i => decide (rhohash s (gs.getD i (0, 0, 0)) = rhohash s g)) = some j := by
      rw [← Option.isSome_iff_exists, List.find?_isSome]
      exact ⟨i, by simpa using hi, by simp only [hig, decide_true]⟩
    obtain ⟨j, hj⟩ := hf
    have hjl : j < gs.length := by
      have := List.mem_of_find?_eq_some hj
      simpa using this
    have hje := List.find?_some hj
    simp only [decide_eq_true_eq] at hje
    have := C115_injective s _ _ (hgs _ (hmem j hjl)) hg hje
    have hji : j = i := by
      rw [← hig, List.getD_eq_getElem _ _ hjl, List.getD_eq_getElem _ _ hi] at this
      exact (List.Nodup.getElem_inj_iff hnd).1 this
    rw [hj, hji]
  · intro hno
    unfold rhoLookup
    have hf : ((List.range gs.length).reverse.find? fun i => decide (rhohash s (gs.getD i (0, 0, 0)) = rhohash s g)) = none := by
      rw [List.find?_eq_none]
      intro i hi
      have hi' : i < gs.length := by simpa using hi
      simp only [decide_eq_true_eq]
      intro e
      have := C115_injective s _ _ (hgs _ (hmem i hi')) hg e
      exact hno (this ▸ hmem i hi')
    rw [hf]

/-- **C115 (differences).** G-vectors in a quarter of the grid have their differences inside the box. -/
theorem C115_quarter (s : Shape) (g h : GVec)
    (hg : 4 * |g.1| < s.n1 ∧ 4 * |g.2.1| < s.n2 ∧ 4 * |g.2.2| < s.n3) (hh : 4 * |h.1| < s.n1 ∧ 4 * |h.2.1| < s.n2 ∧ 4 * |h.2.2| < s.n3) :
    InBox s (g.1 - h.1, g.2.1 - h.2.1, g.2.2 - h.2.2) := by
  have key : ∀ (n : ℕ) (a b : ℤ), 4 * |a| < n → 4 * |b| < n →
      0 ≤ (a - b) + ((n / 2 : ℕ) : ℤ) ∧ (a - b) + ((n / 2 : ℕ) : ℤ) < n := by
    intro n a b ha hb
    have := abs_lt.1 (show |a| < |a| + 1 by omega)
    have h1 := le_abs_self a
    have h2 := neg_abs_le a
    have h3 := le_abs_self b
    have h4 := neg_abs_le b
    generalize |a| = A at *
    generalize |b| = B at *
    push_cast
    omega
  exact ⟨key _ _ _ hg.1 hh.1, key _ _ _ hg.2.1 hh.2.1, key _ _ _ hg.2.2 hh.2.2⟩

/-- **C115 (violated).** Outside the box the address wraps: on a 4×4×4 grid with density at `(-2, 1, 0)`, asking for the difference
`(1,0,0) - (-1,0,0) = (2,0,0)` of two vectors on the grid — a vector without density — returns the density at `(-2, 1, 0)`. -/
theorem C115_wraps : InBox ⟨4, 4, 4⟩ (1, 0, 0) ∧ InBox ⟨4, 4, 4⟩ (-1, 0, 0) ∧ InBox ⟨4, 4, 4⟩ (-2, 1, 0)
    ∧ rhoLookup ⟨4, 4, 4⟩ [(0, 0, 0), (-2, 1, 0)] (2, 0, 0) = .ok 1 := by
  refine ⟨?_, ?_, ?_, ?_⟩
  · unfold InBox; decide
  · unfold InBox; decide
  · unfold InBox; decide
  · decide

example : rhoLookup ⟨4, 4, 4⟩ [(0, 0, 0), (-2, 1, 0)] (-2, 1, 0) = .ok 1
    ∧ rhoLookup ⟨4, 4, 4⟩ [(0, 0, 0), (-2, 1, 0)] (1, 1, 0) = .error .key := by decide

/-! ## C116 -/

theorem sq_nonneg' (v : Vec) : 0 ≤ sq v := by unfold sq; positivity

theorem sq_eq_zero (v : Vec) : sq v = 0 ↔ v = 0 := by
  constructor
  · intro h
    unfold sq at h
    have h0 : v 0 ^ 2 = 0 := by nlinarith [_root_.sq_nonneg (v 0), _root_.sq_nonneg (v 1), _root_.sq_nonneg (v 2)]
    have h1 : v 1 ^ 2 = 0 := by nlinarith [_root_.sq_nonneg (v 0), _root_.sq_nonneg (v 1), _root_.sq_nonneg (v 2)]
    have h2 : v 2 ^ 2 = 0 := by nlinarith [_root_.sq_nonneg (v 0), _root_.sq_nonneg (v 1), _root_.sq_nonneg (v 2)]
    funext c
    fin_cases c
    · simpa using h0
    · simpa using h1
    · simpa using h2
  · rintro rfl
    simp [sq]

/-- `argmin` returns the position of a smallest entry. -/
theorem argmin_spec (l : List ℝ) (h : l ≠ []) : ∀ y ∈ l, l.getD (argmin l) 0 ≤ y := by
  classical
  have hlt := argmin_lt l h
  rw [List.getD_eq_getElem _ _ hlt]
  unfold argmin at hlt ⊢
  have := List.findIdx_getElem (w := hlt)
  simpa using this

/-- Nearest entry when some entry fits exactly. -/
theorem argmin_exact {α : Type*} (l : List α) (d : α) (f : α → Vec) (h : ∃ a ∈ l, f a = 0) :
    argmin (l.map fun a => sq (f a)) < l.length ∧ f (l.getD (argmin (l.map fun a => sq (f a))) d) = 0 := by
  obtain ⟨a, ha, e⟩ := h
  have hne : l.map (fun a => sq (f a)) ≠ [] := by
    intro hh
    rw [List.map_eq_nil_iff.1 hh] at ha
    simp at ha
  have hlt := argmin_lt _ hne
  have hmin := argmin_spec _ hne (sq (f a)) (List.mem_map.2 ⟨a, ha, rfl⟩)
  have hlt' : argmin (l.map fun a => sq (f a)) < l.length := by simpa using hlt
  refine ⟨hlt', ?_⟩
  rw [List.getD_eq_getElem _ _ hlt, List.getElem_map, e] at hmin
  rw [List.getD_eq_getElem _ _ hlt', ← sq_eq_zero]
  have h0 : sq (0 : Vec) = 0 := by simp [sq]
  rw [h0] at hmin
  exact le_antisymm hmin (sq_nonneg' _)

/-- **C116 (index of -q).** If the q-point list contains `1 - q` (componentwise, `0` where `q` vanishes), `index_minusq` returns its
position, and that point is `-q` up to a reciprocal lattice vector. -/
theorem C116_index (S : SigIn) (iq : ℕ) (hbig : (1 / 100000 : ℝ) ^ 2 ≤ sq (S.qs.getD iq 0)) (h0 : S.q0 ≠ iq)
    (hcomp : ∀ c, S.qs.getD iq 0 c = 0 ∨ 1 / 100000 < |S.qs.getD iq 0 c|)
    (hin : ∃ p ∈ S.qs, ∀ c, p c = if S.qs.getD iq 0 c = 0 then 0 else 1 - S.qs.getD iq 0 c) :
    indexMinusQ S iq < S.qs.length ∧ ∀ c, ∃ z : ℤ, S.qs.getD iq 0 c + S.qs.getD (indexMinusQ S iq) 0 c = z := by
  have ht : ∀ c, minusTarget (S.qs.getD iq 0) c = if S.qs.getD iq 0 c = 0 then 0 else 1 - S.qs.getD iq 0 c := by
    intro c
    unfold minusTarget
    rcases hcomp c with h | h
    · rw [h]; norm_num
    · have : S.qs.getD iq 0 c ≠ 0 := by
        intro e
        rw [e] at h
        norm_num at h
      rw [if_pos h, if_neg this]
  have hI : indexMinusQ S iq = argmin (S.qs.map fun q => sq (fun c => q c - minusTarget (S.qs.getD iq 0) c)) := by
    unfold indexMinusQ
    rw [if_neg]
    rintro (h | h)
    · linarith
    · exact h0 h
  obtain ⟨p, hp, hpc⟩ := hin
  obtain ⟨h1, h2⟩ := argmin_exact S.qs (0 : Vec) (fun q => fun c => q c - minusTarget (S.qs.getD iq 0) c)
    ⟨p, hp, by funext c; rw [ht c, hpc c, sub_self]; rfl⟩
  rw [hI]
  refine ⟨h1, ?_⟩
  intro c
  have h3 := congrFun h2 c
  simp only [Pi.zero_apply] at h3
  have h4 : S.qs.getD (argmin (S.qs.map fun q => sq (fun c => q c - minusTarget (S.qs.getD iq 0) c))) 0 c
      = minusTarget (S.qs.getD iq 0) c := by linarith
  rw [h4, ht c]
  by_cases e : S.qs.getD iq 0 c = 0
  · exact ⟨0, by rw [if_pos e, e]; simp⟩
  · exact ⟨1, by rw [if_neg e]; push_cast; ring⟩

/-- A vector along x. -/
def ex (x : ℝ) : Vec := fun c => if c = 0 then x else 0

/-- The hypotheses of `C116_index` are met: `q = 1/4` in a mesh of four points. -/
example (S : SigIn) (hS : S.qs = [ex 0, ex (1 / 4), ex (1 / 2), ex (3 / 4)]) (h0 : S.q0 = 0) :
    (1 / 100000 : ℝ) ^ 2 ≤ sq (S.qs.getD 1 0) ∧ S.q0 ≠ 1 ∧ (∀ c, S.qs.getD 1 0 c = 0 ∨ 1 / 100000 < |S.qs.getD 1 0 c|)
    ∧ ∃ p ∈ S.qs, ∀ c, p c = if S.qs.getD 1 0 c = 0 then 0 else 1 - S.qs.getD 1 0 c := by
  rw [hS, h0]
  refine ⟨?_, by omega, ?_, ex (3 / 4), by simp, ?_⟩
  · simp [sq, ex]; norm_num
  · intro c
    by_cases e : c = 0
    · right; subst e; simp [ex]; norm_num
    · left; simp [ex, e]
  · intro c
    by_cases e : c = 0
    · subst e; simp [ex]; norm_num
    · simp [ex, e]

/-- **C116 (violated).** With the equivalent mesh `0, 1/4, -1/4, 1/2` the point returned for `q = 1/4` is not `-q`, although `-q` is in
the list. -/
theorem C116_negative_component (S : SigIn) (hS : S.qs = [ex 0, ex (1 / 4), ex (-(1 / 4)), ex (1 / 2)]) (h0 : S.q0 = 0) :
    ¬ ∃ z : ℤ, S.qs.getD 1 0 0 + S.qs.getD (indexMinusQ S 1) 0 0 = z := by
  have hI : indexMinusQ S 1 = argmin (S.qs.map fun q => sq (fun c => q c - minusTarget (S.qs.getD 1 0) c)) := by
    unfold indexMinusQ
    rw [if_neg]
    rintro (h | h)
    · rw [hS] at h
      simp [sq, ex] at h
      norm_num at h
    · omega
  have ht : minusTarget (S.qs.getD 1 0) = ex (3 / 4) := by
    funext c
    unfold minusTarget
    rw [hS]
    by_cases e : c = 0
    · subst e; simp [ex]; norm_num
    · simp [ex, e]
  have hl : S.qs.map (fun q => sq (fun c => q c - minusTarget (S.qs.getD 1 0) c)) = [9 / 16, 1 / 4, 1, 1 / 16] := by
    rw [ht, hS]
    simp [sq, ex]
    norm_num
  have ha : argmin ([9 / 16, 1 / 4, 1, 1 / 16] : List ℝ) = 3 := by
    unfold argmin
    simp only [List.findIdx_cons, List.findIdx_nil, List.mem_cons, List.not_mem_nil, or_false, forall_eq_or_imp, forall_eq]
    norm_num
  rw [hI, hl, ha, hS]
  rintro ⟨z, hz⟩
  simp [ex] at hz
  have h1 : (4 * z : ℝ) = 3 := by rw [← hz]; norm_num
  have h2 : 4 * z = 3 := by exact_mod_cast h1
  omega

/-- **C116 (partner of G).** If the sphere at `-q` contains the partner of `G` (`G' + q' = -(G + q)`), the mapped vector is that partner. -/
theorem C116_partner (g gm : List GVec) (q mq : Vec) (i : ℕ) (hi : i < g.length)
    (h : ∃ y ∈ gm, ∀ c, gv y c + mq c = -(gv (g.getD i (0, 0, 0)) c + q c)) :
    (mapG g gm q mq).getD i 0 < gm.length
    ∧ ∀ c, gv (gm.getD ((mapG g gm q mq).getD i 0) (0, 0, 0)) c + mq c = -(gv (g.getD i (0, 0, 0)) c + q c) := by
  have e : (mapG g gm q mq).getD i 0
      = argmin (gm.map fun y => sq (fun c => (gv y c + mq c) - (-1 * (gv (g.getD i (0, 0, 0)) c + q c)))) := by
    unfold mapG
    rw [List.getD_eq_getElem _ _ (by simpa using hi), List.getElem_map, List.getD_eq_getElem _ _ hi]
  obtain ⟨y, hy, hyc⟩ := h
  obtain ⟨h1, h2⟩ := argmin_exact gm (0, 0, 0) (fun y => fun c => (gv y c + mq c) - (-1 * (gv (g.getD i (0, 0, 0)) c + q c)))
    ⟨y, hy, by funext c; simp [hyc c]⟩
  rw [e]
  refine ⟨h1, ?_⟩
  intro c
  have := congrFun h2 c
  simp only [Pi.zero_apply] at this
  linarith

theorem gv_sub (a b : GVec) (u : Fin 3 → ℤ) (c : Fin 3) :
    gv (a.1 + (b.1 - u 0), a.2.1 + (b.2.1 - u 1), a.2.2 + (b.2.2 - u 2)) c = gv a c + gv b c - u c := by
  unfold gv
  fin_cases c <;> simp <;> ring

/-- **C116 (momentum).** A matrix element used for `(q, G)` joins plane waves whose wave vectors differ by exactly `q + G`: the plane wave
`G' + X` of the bra (at `k_bra`, the first-cell image of `k - q`) has wave vector `k + G' - (q + G)`. -/
theorem C116_momentum (k q mq : Vec) (G Gm G' : GVec) (hG : ∀ c, gv Gm c + mq c = -(gv G c + q c)) (c : Fin 3) :
    kPlusQ k mq c + gv (G'.1 + (Gm.1 - umklapp k mq 0), G'.2.1 + (Gm.2.1 - umklapp k mq 1), G'.2.2 + (Gm.2.2 - umklapp k mq 2)) c
      = (k c + gv G' c) - (q c + gv G c) := by
  rw [gv_sub]
  unfold kPlusQ
  have := hG c
  linarith

/-! ## Matching of k-points -/

/-- **C116 (matching).** The k-points that `Sigma` pairs also match by the criterion of `Epsilon`. -/
theorem C116_same_partner (a b : Vec) (h : IsCloseRel a b) : IsClose a b := by
  intro c
  have := h c
  have hb := abs_nonneg (b c)
  linarith

/-- **C116 (violated).** The converse fails near zero: `np.isclose(…, TOLERANCE)` sets the relative tolerance, so a component that should
vanish may differ by at most 1e-8 where `Epsilon` allows 1e-5. -/
theorem C116_tolerance : IsClose (ex (1 / 1000000)) (ex 0) ∧ ¬ IsCloseRel (ex (1 / 1000000)) (ex 0) := by
  constructor
  · intro c
    by_cases e : c = 0
    · subst e; simp [ex]; norm_num [abs_of_pos]
    · simp [ex, e]
  · intro h
    have := h 0
    simp [ex] at this
    norm_num [abs_of_pos] at this

/-! ## C121: order of the dielectric matrix -/

theorem argsort_inv (p : List ℕ) (hp : p.Perm (List.range p.length)) : ∀ k < p.length, at' p (at' (argsort p) k) = k ∧ at' (argsort p) k < p.length := by
  have h := GSpace.gather_argsort p hp
  have hl : (argsort p).length = p.length := by simpa using (GSpace.argsort_perm p).length_eq
  intro k hk
  constructor
  · have := GSpace.at'_gather p (argsort p) k (by rw [hl]; exact hk)
    rw [h] at this
    rw [← this]
    unfold at'
    simp [hk]
  · have hm : at' (argsort p) k ∈ argsort p := by
      unfold at'
      rw [List.getD_eq_getElem _ _ (by rw [hl]; exact hk)]
      exact List.getElem_mem _
    have := (GSpace.argsort_perm p).mem_iff.1 hm
    simpa using this

/-- **C121 (order of ε⁻¹).** `Sigma` undoes BerkeleyGW's ordering of the G-vectors. A matrix passed to it in the order `p` (a permutation of
the G-vectors) ends up in the native order for every possible matrix **iff** `p` is the order of `sort_cryst_like_BGW` on `q + G`. -/
theorem C121_order (gk : List (Vec × ℝ)) (p : List ℕ) (hp : p.Perm (List.range gk.length)) :
    (∀ mat : ℕ → ℕ → ℂ, ∀ i < gk.length, ∀ j < gk.length,
      initEpsI (reorder mat p) gk i j = mat i j - if i = j then 1 else 0) ↔ p = sortBGW gk := by
  have hlen : p.length = gk.length := by simpa using hp.length_eq
  have hs := (C56_sorts gk).1
  have hsl : (sortBGW gk).length = gk.length := by simpa using hs.length_eq
  have hinv := argsort_inv (sortBGW gk) (by rw [hsl]; exact hs)
  rw [hsl] at hinv
  have hinit : ∀ (mat : ℕ → ℕ → ℂ) (i j : ℕ), initEpsI (reorder mat p) gk i j
      = mat (at' p (at' (argsort (sortBGW gk)) i)) (at' p (at' (argsort (sortBGW gk)) j))
        - if at' (argsort (sortBGW gk)) i = at' (argsort (sortBGW gk)) j then 1 else 0 := fun _ _ _ => rfl
  constructor
  · intro h
    have hdiag := h (fun i j => if i = j then (i : ℂ) else 0)
    have hid : ∀ i < gk.length, at' p (at' (argsort (sortBGW gk)) i) = i := by
      intro i hi
      have := hdiag i hi i hi
      rw [hinit] at this
      simp only [if_true] at this
      have h2 : ((at' p (at' (argsort (sortBGW gk)) i) : ℕ) : ℂ) = (i : ℂ) := by linear_combination this
      exact_mod_cast h2
    apply List.ext_getElem (by omega)
    intro k h1 h2
    have hk : k < gk.length := by omega
    -- `k` is hit by the inverse permutation
    have hsk : at' (sortBGW gk) k < gk.length := by
      have hm : at' (sortBGW gk) k ∈ sortBGW gk := by
        unfold at'
        rw [List.getD_eq_getElem _ _ h2]
        exact List.getElem_mem _
      simpa using hs.mem_iff.1 hm
    have e1 := (hinv _ hsk).1
    have e2 : at' (argsort (sortBGW gk)) (at' (sortBGW gk) k) = k := by
      have hlt := (hinv _ hsk).2
      have hnd : (sortBGW gk).Nodup := hs.nodup_iff.2 List.nodup_range
      generalize at' (argsort (sortBGW gk)) (at' (sortBGW gk) k) = w at e1 hlt ⊢
      unfold at' at e1
      rw [List.getD_eq_getElem _ _ (by rw [hsl]; exact hlt), List.getD_eq_getElem _ _ h2] at e1
      exact (List.Nodup.getElem_inj_iff hnd).1 e1
    have e3 := hid _ hsk
    rw [e2] at e3
    unfold at' at e3
    rwa [List.getD_eq_getElem _ _ h1, List.getD_eq_getElem _ _ h2] at e3
  · rintro rfl
    intro mat i hi j hj
    rw [hinit, (hinv i hi).1, (hinv j hj).1]
    congr 1
    by_cases e : i = j
    · rw [if_pos e, if_pos (by rw [e])]
    · rw [if_neg e, if_neg]
      intro e2
      apply e
      rw [← (hinv i hi).1, ← (hinv j hj).1, e2]

/-- `sort_cryst_like_BGW` of a list already in order. -/
theorem sort_id_iff (l : List (Vec × ℝ)) (h : sortBGW l = List.range l.length) : l.Pairwise BGWOrder := by
  have := (C56_sorts l).2.2
  unfold sorted at this
  rw [h] at this
  have e : (List.range l.length).map (fun i => l.getD i ((0, 0) : Vec × ℝ)) = l := by
    apply List.ext_getElem
    · simp
    · intro i h1 h2
      simp only [List.getElem_map, List.getElem_range]
      exact List.getD_eq_getElem _ _ h2
  rwa [e] at this

/-- **C121 (violated).** `Epsilon.epsilon_inverse` stores its matrices in the native G-order and `Sigma.from_qtm_scf` passes them on
unchanged; the native order is not BerkeleyGW's: with `G = 0, 1, -1` along x some matrix is scrambled. -/
theorem C121_native_order : ∃ (gk : List (Vec × ℝ)) (mat : ℕ → ℕ → ℂ) (i j : ℕ), i < gk.length ∧ j < gk.length
    ∧ gk = [(ex 0, 0), (ex 1, 1), (ex (-1), 1)]
    ∧ initEpsI (reorder mat (List.range gk.length)) gk i j ≠ mat i j - if i = j then 1 else 0 := by
  by_contra hno
  push Not at hno
  have h := (C121_order [(ex 0, 0), (ex 1, 1), (ex (-1), 1)] (List.range 3) (List.Perm.refl _)).1
    (fun mat i hi j hj => hno _ mat i j hi hj rfl)
  have hp := sort_id_iff _ h.symm
  simp only [List.pairwise_cons, List.mem_cons, List.not_mem_nil, or_false, forall_eq_or_imp, forall_eq] at hp
  have := hp.2.1
  unfold BGWOrder at this
  rcases this with h | ⟨_, h⟩
  · simp at h
  · simp [ex] at h
    norm_num at h

theorem around_int (nd : ℕ) (z : ℤ) : around nd ((z : ℝ) / 10 ^ nd) = (z : ℝ) / 10 ^ nd := by
  unfold around Nonloc.rint
  rw [div_mul_cancel₀ _ (by positivity)]
  simp

/-- **C121 (violated).** The example script and `epsilon_script.py` sort the q0 matrix by `|G|²`, `Sigma` undoes the order of `|q0 + G|²`: two
G-vectors of equal length whose shifted lengths differ the other way are exchanged. -/
theorem C121_q0_order : ∃ (gk g0 : List (Vec × ℝ)) (mat : ℕ → ℕ → ℂ) (i j : ℕ), i < gk.length ∧ j < gk.length
    ∧ g0 = [(ex (-1), 1), (ex 1, 1)] ∧ gk = [(ex (-1 - 1 / 10), 121 / 100), (ex (1 - 1 / 10), 81 / 100)]
    ∧ initEpsI (reorder mat (sortBGW g0)) gk i j ≠ mat i j - if i = j then 1 else 0 := by
  by_contra hno
  push Not at hno
  have hs0 := (C56_sorts [(ex (-1), 1), (ex 1, 1)]).1
  have h := (C121_order [(ex (-1 - 1 / 10), 121 / 100), (ex (1 - 1 / 10), 81 / 100)] (sortBGW [(ex (-1), 1), (ex 1, 1)]) hs0).1
    (fun mat i hi j hj => hno _ _ mat i j hi hj rfl rfl)
  have p0 := (C56_sorts [(ex (-1), 1), (ex 1, 1)]).2.2
  have p1 := (C56_sorts [(ex (-1 - 1 / 10), 121 / 100), (ex (1 - 1 / 10), 81 / 100)]).2.2
  unfold sorted at p0 p1
  rw [← h] at p1
  have hcase : sortBGW [(ex (-1), 1), (ex 1, 1)] = [0, 1] ∨ sortBGW [(ex (-1), 1), (ex 1, 1)] = [1, 0] := by
    have hr : List.range [(ex (-1), (1 : ℝ)), (ex 1, 1)].length = [0, 1] := rfl
    rw [hr] at hs0
    generalize sortBGW [(ex (-1), 1), (ex 1, 1)] = q at hs0
    have := List.mem_permutations.2 hs0
    simpa [List.permutations, List.permutationsAux, List.permutationsAux.rec, List.permutationsAux2] using this
  have a1 : around 10 (121 / 100) = 121 / 100 := by
    have := around_int 10 12100000000
    norm_num at this
    convert this
  have a2 : around 10 (81 / 100) = 81 / 100 := by
    have := around_int 10 8100000000
    norm_num at this
    convert this
  rcases hcase with hc | hc
  · rw [hc] at p1
    simp [BGWOrder] at p1
    rw [a1, a2] at p1
    norm_num at p1
  · rw [hc] at p0
    simp [BGWOrder, ex] at p0
    norm_num at p0

end Verif.GW
