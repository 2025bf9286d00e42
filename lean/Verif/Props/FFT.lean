import Mathlib.Algebra.BigOperators.Ring.Finset
import Mathlib.Algebra.BigOperators.Intervals
import Mathlib.Algebra.Field.GeomSum
import Mathlib.Analysis.SpecialFunctions.Complex.Log
import Mathlib.Data.List.Dedup
import Mathlib.Data.Complex.BigOperators
import Mathlib.Tactic.FieldSimp
import Mathlib.Tactic.LinearCombination
import Mathlib.Tactic.Ring
import Verif.Model.FFT
import Verif.Props.DFTComm

/-!
# Properties C17–C20, C57: the serial FFT drivers
-/

namespace Verif.FFT

variable {K : Type*} [Field K]

/-! ## Helper lemmas: `put` -/

theorem put_not_mem {α : Type*} (buf : ℕ → α) (idx : List ℕ) (vals : List α) (i : ℕ) (h : i ∉ idx) :
    put buf idx vals i = buf i := by
  unfold put
  induction idx generalizing buf vals with
  | nil => simp
  | cons a t ih =>
    cases vals with
    | nil => simp
    | cons v vs =>
      simp only [List.mem_cons, not_or] at h
      simp only [List.zip_cons_cons, List.foldl_cons]
      rw [ih _ _ h.2, Function.update_of_ne h.1]

theorem put_getElem {α : Type*} (buf : ℕ → α) (idx : List ℕ) (vals : List α) (hn : idx.Nodup)
    (hl : vals.length = idx.length) (k : ℕ) (hk : k < idx.length) :
    put buf idx vals idx[k] = vals[k] := by
  induction idx generalizing buf vals k with
  | nil => simp at hk
  | cons a t ih =>
    cases vals with
    | nil => simp at hl
    | cons v vs =>
      have hn' := List.nodup_cons.1 hn
      cases k with
      | zero =>
        have := put_not_mem (Function.update buf a v) t vs a hn'.1
        simp only [put, List.zip_cons_cons, List.foldl_cons, List.getElem_cons_zero] at this ⊢
        rw [this]; simp
      | succ k =>
        have := ih (Function.update buf a v) vs hn'.2 (by simpa using hl) k (by simpa using hk)
        simpa [put] using this

theorem sum_put (n : ℕ) (idx : List ℕ) (vals : List K) (hn : idx.Nodup)
    (hl : vals.length = idx.length) (hb : ∀ i ∈ idx, i < n) (h : ℕ → K) :
    ∑ i ∈ Finset.range n, h i * put (fun _ => 0) idx vals i
      = ∑ k ∈ Finset.range idx.length, h (idx.getD k 0) * vals.getD k 0 := by
  symm
  apply Finset.sum_bij_ne_zero (fun k _ _ => idx.getD k 0)
  · intro k hk _
    have hk := Finset.mem_range.1 hk
    rw [List.getD_eq_getElem _ _ hk]
    exact Finset.mem_range.2 (hb _ (List.getElem_mem hk))
  · intro a ha _ b hb' _ hab
    have ha := Finset.mem_range.1 ha
    have hb' := Finset.mem_range.1 hb'
    rw [List.getD_eq_getElem _ _ ha, List.getD_eq_getElem _ _ hb'] at hab
    exact (List.Nodup.getElem_inj_iff hn).1 hab
  · intro i hi hne
    have hm : i ∈ idx := by
      by_contra hc
      rw [put_not_mem _ _ _ _ hc] at hne; simp at hne
    obtain ⟨k, hk, rfl⟩ := List.getElem_of_mem hm
    refine ⟨k, Finset.mem_range.2 hk, ?_, ?_⟩
    · rw [List.getD_eq_getElem _ _ hk, List.getD_eq_getElem _ _ (by omega)]
      rwa [put_getElem _ _ _ hn hl k hk] at hne
    · rw [List.getD_eq_getElem _ _ hk]
  · intro k hk _
    have hk := Finset.mem_range.1 hk
    rw [List.getD_eq_getElem _ _ hk, List.getD_eq_getElem _ _ (by omega),
      put_getElem _ _ _ hn hl k hk]

/-! ## Helper lemmas: flat positions -/

theorem Dims.ix_flat (d : Dims) {x y z : ℕ} (hy : y < d.ny) (hz : z < d.nz) :
    d.ix (d.flat x y z) = x := by
  unfold Dims.ix Dims.flat Dims.plane
  have h : y * d.nz + z < d.ny * d.nz := by nlinarith
  rw [Nat.mul_comm x, Nat.mul_add_div (by omega), Nat.div_eq_of_lt h, add_zero]

theorem Dims.iy_flat (d : Dims) {x y z : ℕ} (hy : y < d.ny) (hz : z < d.nz) :
    d.iy (d.flat x y z) = y := by
  unfold Dims.iy Dims.flat Dims.plane
  have : x * (d.ny * d.nz) + (y * d.nz + z) = d.nz * (d.ny * x + y) + z := by ring
  rw [this, Nat.mul_add_div (by omega), Nat.div_eq_of_lt hz, add_zero, Nat.mul_add_mod,
    Nat.mod_eq_of_lt hy]

theorem Dims.iz_flat (d : Dims) {x y z : ℕ} (hz : z < d.nz) :
    d.iz (d.flat x y z) = z := by
  unfold Dims.iz Dims.flat Dims.plane
  have : x * (d.ny * d.nz) + (y * d.nz + z) = d.nz * (d.ny * x + y) + z := by ring
  rw [this, Nat.mul_add_mod, Nat.mod_eq_of_lt hz]

theorem Dims.pos_of_lt (d : Dims) {f : ℕ} (h : f < d.size) : 0 < d.nx ∧ 0 < d.ny ∧ 0 < d.nz := by
  have : 0 < d.nx * d.ny * d.nz := by unfold Dims.size at h; omega
  have h1 := Nat.pos_of_mul_pos_right this
  exact ⟨Nat.pos_of_mul_pos_right h1, Nat.pos_of_mul_pos_left h1, Nat.pos_of_mul_pos_left this⟩

theorem Dims.size_eq (d : Dims) : d.size = d.nx * d.plane := by
  unfold Dims.size Dims.plane; ring

theorem Dims.coords (d : Dims) {f : ℕ} (h : f < d.size) :
    d.ix f < d.nx ∧ d.iy f < d.ny ∧ d.iz f < d.nz ∧ d.flat (d.ix f) (d.iy f) (d.iz f) = f := by
  obtain ⟨hx, hy, hz⟩ := d.pos_of_lt h
  refine ⟨?_, Nat.mod_lt _ hy, Nat.mod_lt _ hz, ?_⟩
  · unfold Dims.ix
    exact (Nat.div_lt_iff_lt_mul (Nat.mul_pos hy hz)).2 (by rw [d.size_eq] at h; exact h)
  · unfold Dims.flat Dims.ix Dims.iy Dims.iz Dims.plane
    have h1 := Nat.div_add_mod f d.nz
    have h2 := Nat.div_add_mod (f / d.nz) d.ny
    rw [Nat.mul_comm d.ny, ← Nat.div_div_eq_div_mul]
    nlinarith

/-- triple sum over the grid as a single sum over flat positions -/
theorem sum_grid {M : Type*} [AddCommMonoid M] (d : Dims) (F : ℕ → M) :
    ∑ x ∈ Finset.range d.nx, ∑ y ∈ Finset.range d.ny, ∑ z ∈ Finset.range d.nz, F (d.flat x y z)
      = ∑ f ∈ Finset.range d.size, F f := by
  rw [d.size_eq, DFTComm.sum_range_mul]
  refine Finset.sum_congr rfl fun x _ => ?_
  unfold Dims.plane
  rw [DFTComm.sum_range_mul]
  rfl

theorem sum_plane {M : Type*} [AddCommMonoid M] (d : Dims) (x : ℕ) (F : ℕ → M) :
    ∑ y ∈ Finset.range d.ny, ∑ z ∈ Finset.range d.nz, F (d.flat x y z)
      = ∑ p ∈ Finset.range d.plane, F (x * d.plane + p) := by
  unfold Dims.plane
  rw [DFTComm.sum_range_mul]
  rfl

/-- the 3D kernel -/
def ker3 (d : Dims) (w : Kern K) (f g : ℕ) : K :=
  w.wx (d.ix f) (d.ix g) * (w.wy (d.iy f) (d.iy g) * w.wz (d.iz f) (d.iz g))

theorem xform3_eq (d : Dims) (w : Kern K) (buf : ℕ → K) (f : ℕ) :
    xform3 d w buf f = ∑ g ∈ Finset.range d.size, ker3 d w f g * buf g := by
  rw [← sum_grid]
  unfold xform3 ker3
  refine Finset.sum_congr rfl fun x hx => Finset.sum_congr rfl fun y hy =>
    Finset.sum_congr rfl fun z hz => ?_
  have hy := Finset.mem_range.1 hy
  have hz := Finset.mem_range.1 hz
  rw [d.ix_flat hy hz, d.iy_flat hy hz, d.iz_flat hz]

theorem fullG2r_eq (d : Dims) (w : Kern K) (norm : Bool) (idx : List ℕ) (hv : ValidIdx d idx)
    (st : FullState K) (c : List K) (hl : c.length = idx.length) (f : ℕ) :
    (fullG2r d w norm idx st c).2 f
      = scale norm d.size * ∑ k ∈ Finset.range idx.length, ker3 d w f (idx.getD k 0) * c.getD k 0 := by
  unfold fullG2r
  simp only
  rw [xform3_eq, sum_put _ _ _ hv.1 hl hv.2]

theorem fullR2g_eq (d : Dims) (w : Kern K) (idx : List ℕ) (st : FullState K) (a : ℕ → K) :
    (fullR2g d w idx st a).2
      = idx.map fun f => ∑ g ∈ Finset.range d.size, ker3 d w f g * a g := by
  unfold fullR2g take
  simp only
  exact List.map_congr_left fun f _ => xform3_eq d w a f

/-! ## Helper lemmas: sticks -/

theorem stickOf_eq (d : Dims) (f : ℕ) : stickOf d f = f % d.plane := by
  unfold stickOf Dims.iy Dims.iz Dims.plane
  rw [Nat.mul_comm d.ny, Nat.mod_mul]; ring

theorem sticks_nodup (d : Dims) (idx : List ℕ) : (sticks d idx).Nodup := List.nodup_dedup _

theorem mem_sticks (d : Dims) (idx : List ℕ) (s : ℕ) :
    s ∈ sticks d idx ↔ ∃ f ∈ idx, f % d.plane = s := by
  unfold sticks
  rw [List.mem_dedup, List.mem_mergeSort, List.mem_map]
  simp only [stickOf_eq]

theorem sticks_sorted (d : Dims) (idx : List ℕ) : (sticks d idx).Pairwise (· < ·) := by
  have h1 : (sticks d idx).Pairwise (· ≤ ·) := by
    have h := (List.pairwise_mergeSort (le := fun a b : ℕ => decide (a ≤ b))
      (fun a b c h1 h2 => by simp at *; omega) (fun a b => by simp; omega)
      (idx.map (stickOf d))).imp (S := (· ≤ ·)) (fun h => by simpa using h)
    exact h.sublist (List.dedup_sublist _)
  have h2 := sticks_nodup d idx
  exact (h1.and h2).imp fun h => lt_of_le_of_ne h.1 h.2

theorem sticks2full_eq (d : Dims) (idx : List ℕ) : sticks2full d idx = sticks d idx := by
  unfold sticks2full
  conv_rhs => rw [← List.map_id (sticks d idx)]
  exact List.map_congr_left fun s _ => by simp only [id]; rw [Nat.mul_comm]; exact Nat.div_add_mod _ _

theorem searchsorted_getElem (l : List ℕ) (h : l.Pairwise (· < ·)) (i : ℕ) (hi : i < l.length) :
    searchsorted l l[i] = i := by
  unfold searchsorted
  induction l generalizing i with
  | nil => simp at hi
  | cons a t ih =>
    rw [List.pairwise_cons] at h
    cases i with
    | zero =>
      simp only [List.getElem_cons_zero, lt_self_iff_false, decide_false, Bool.false_eq_true,
        not_false_eq_true, List.filter_cons_of_neg, List.length_eq_zero_iff, List.filter_eq_nil_iff]
      intro b hb; have := h.1 b hb; simp; omega
    | succ i =>
      have hi' : i < t.length := by simpa using hi
      have := h.1 _ (List.getElem_mem hi')
      simp only [List.getElem_cons_succ]
      rw [List.filter_cons_of_pos (by simpa using this), List.length_cons, ih h.2 i hi']

theorem searchsorted_mem (l : List ℕ) (h : l.Pairwise (· < ·)) (v : ℕ) (hv : v ∈ l) :
    searchsorted l v < l.length ∧ l.getD (searchsorted l v) 0 = v := by
  obtain ⟨i, hi, rfl⟩ := List.getElem_of_mem hv
  rw [searchsorted_getElem l h i hi]
  exact ⟨hi, List.getD_eq_getElem _ _ hi⟩

theorem searchsorted_getD (l : List ℕ) (h : l.Pairwise (· < ·)) (i : ℕ) (hi : i < l.length) :
    searchsorted l (l.getD i 0) = i := by
  rw [List.getD_eq_getElem _ _ hi, searchsorted_getElem l h i hi]

theorem g2sticks_facts (d : Dims) (idx : List ℕ) (hv : ValidIdx d idx) :
    (g2sticks d idx).Nodup ∧ (∀ j ∈ g2sticks d idx, j < (sticks d idx).length * d.nx) := by
  have key : ∀ f ∈ idx, searchsorted (sticks d idx) (stickOf d f) < (sticks d idx).length ∧
      (sticks d idx).getD (searchsorted (sticks d idx) (stickOf d f)) 0 = f % d.plane ∧
      d.ix f < d.nx ∧ f = d.ix f * d.plane + f % d.plane := by
    intro f hf
    have h1 := searchsorted_mem _ (sticks_sorted d idx) (stickOf d f)
      ((mem_sticks d idx _).2 ⟨f, hf, (stickOf_eq d f).symm⟩)
    refine ⟨h1.1, by rw [h1.2, stickOf_eq], (d.coords (hv.2 f hf)).1, ?_⟩
    unfold Dims.ix
    rw [Nat.mul_comm]; exact (Nat.div_add_mod _ _).symm
  constructor
  · unfold g2sticks
    refine List.Nodup.map_on ?_ hv.1
    intro f hf g hg h
    obtain ⟨a1, a2, a3, a4⟩ := key f hf
    obtain ⟨b1, b2, b3, b4⟩ := key g hg
    have hx : d.ix f = d.ix g := by
      have := congrArg (· % d.nx) h
      simpa [Nat.mul_add_mod, Nat.mod_eq_of_lt a3, Nat.mod_eq_of_lt b3] using this
    have hs : searchsorted (sticks d idx) (stickOf d f) = searchsorted (sticks d idx) (stickOf d g) := by
      have := congrArg (· / d.nx) h
      simpa [Nat.mul_add_div (show 0 < d.nx by omega), Nat.div_eq_of_lt a3, Nat.div_eq_of_lt b3] using this
    rw [hs, b2] at a2
    rw [a4, b4, hx, a2]
  · intro j hj
    unfold g2sticks at hj
    obtain ⟨f, hf, rfl⟩ := List.mem_map.1 hj
    obtain ⟨a1, a2, a3, a4⟩ := key f hf
    nlinarith

/-! ## The stick driver computes the same sums -/

theorem foldl_cols {α : Type*} (N : ℕ) (s2f : ℕ → ℕ) (hinj : ∀ i < N, ∀ j < N, s2f i = s2f j → i = j)
    (cond : ℕ → Prop) [DecidablePred cond] (key : ℕ → ℕ) (val : ℕ → ℕ → α) (b0 : ℕ → α) (f : ℕ) :
    ((List.range N).foldl (fun b s => fun f => if key f = s2f s ∧ cond f then val s f else b f) b0 f
      = b0 f ∨ True) ∧
    (∀ s < N, key f = s2f s → cond f →
      (List.range N).foldl (fun b s => fun f => if key f = s2f s ∧ cond f then val s f else b f) b0 f
        = val s f) ∧
    ((∀ s < N, key f ≠ s2f s) →
      (List.range N).foldl (fun b s => fun f => if key f = s2f s ∧ cond f then val s f else b f) b0 f
        = b0 f) := by
  refine ⟨Or.inr trivial, ?_, ?_⟩
  · induction N with
    | zero => intro s hs; omega
    | succ N ih =>
      intro s hs h1 h2
      rw [List.range_succ, List.foldl_append]
      simp only [List.foldl_cons, List.foldl_nil]
      by_cases hN : s = N
      · subst hN; rw [if_pos ⟨h1, h2⟩]
      · rw [if_neg]
        · exact ih (fun i hi j hj => hinj i (by omega) j (by omega)) s (by omega) h1 h2
        · rintro ⟨h3, _⟩
          exact hN (hinj s hs N (by omega) (h1.symm.trans h3))
  · induction N with
    | zero => intro _; simp
    | succ N ih =>
      intro h
      rw [List.range_succ, List.foldl_append]
      simp only [List.foldl_cons, List.foldl_nil]
      rw [if_neg (fun hc => h N (by omega) hc.1)]
      exact ih (fun i hi j hj => hinj i (by omega) j (by omega)) (fun s hs => h s (by omega))

theorem stickG2r_eq_full (d : Dims) (w : Kern K) (norm : Bool) (idx : List ℕ) (hv : ValidIdx d idx)
    (st : StickState K) (st' : FullState K) (c : List K) (hl : c.length = idx.length) (f : ℕ)
    (hf : f < d.size) :
    (stickG2r d w norm idx st c).2 f = (fullG2r d w norm idx st' c).2 f := by
  rw [fullG2r_eq d w norm idx hv st' c hl f]
  obtain ⟨hx, hy, hz⟩ := d.pos_of_lt hf
  have hpl : 0 < d.plane := Nat.mul_pos hy hz
  have hsort := sticks_sorted d idx
  obtain ⟨hgn, hgb⟩ := g2sticks_facts d idx hv
  have hixf := (d.coords hf).1
  unfold stickG2r
  simp only [sticks2full_eq]
  set S := sticks d idx with hS
  -- the y-z transform reads only the stick columns
  have hbuf : ∀ p < d.plane, ∀ ws : ℕ → K,
      ((List.range S.length).foldl (fun b s => fun f =>
        if f % d.plane = S.getD s 0 ∧ f / d.plane < d.nx
        then ws (s * d.nx + f / d.plane) else b f) (fun _ => (0:K))) (d.ix f * d.plane + p)
      = ∑ s ∈ Finset.range S.length, if p = S.getD s 0 then ws (s * d.nx + d.ix f) else 0 := by
    intro p hp ws
    have hdiv : (d.ix f * d.plane + p) / d.plane = d.ix f := by
      rw [Nat.mul_comm, Nat.mul_add_div hpl, Nat.div_eq_of_lt hp, add_zero]
    have hmod : (d.ix f * d.plane + p) % d.plane = p := by
      rw [Nat.mul_comm, Nat.mul_add_mod, Nat.mod_eq_of_lt hp]
    have hinj : ∀ i < S.length, ∀ j < S.length, S.getD i 0 = S.getD j 0 → i = j := by
      intro i hi j hj h
      rw [List.getD_eq_getElem _ _ hi, List.getD_eq_getElem _ _ hj] at h
      exact (List.Nodup.getElem_inj_iff (sticks_nodup d idx)).1 h
    have hF := foldl_cols S.length (fun s => S.getD s 0) hinj (fun f => f / d.plane < d.nx)
      (fun f => f % d.plane) (fun s f => ws (s * d.nx + f / d.plane)) (fun _ => (0 : K))
      (d.ix f * d.plane + p)
    by_cases hex : ∃ s < S.length, p = S.getD s 0
    · obtain ⟨s, hs, hps⟩ := hex
      rw [hF.2.1 s hs (by simp only [hmod]; exact hps) (by simp only [hdiv]; exact hixf)]
      simp only [hdiv]
      rw [Finset.sum_eq_single_of_mem s (Finset.mem_range.2 hs)]
      · rw [if_pos hps]
      · intro b hb hbs
        rw [if_neg]
        intro h
        exact hbs (hinj b (Finset.mem_range.1 hb) s hs (h.symm.trans hps))
    · push Not at hex
      rw [hF.2.2 (by intro s hs; simp only [hmod]; exact hex s hs)]
      rw [Finset.sum_eq_zero]
      intro s hs
      rw [if_neg (hex s (Finset.mem_range.1 hs))]
  have hSlt : ∀ s < S.length, S.getD s 0 < d.plane := by
    intro s hs
    rw [List.getD_eq_getElem _ _ hs]
    obtain ⟨g, hg, hgs⟩ := (mem_sticks d idx _).1 (List.getElem_mem hs)
    rw [← hgs]; exact Nat.mod_lt _ hpl
  unfold xformYZ
  have hstep : ∀ B : ℕ → K, ∑ y ∈ Finset.range d.ny, ∑ z ∈ Finset.range d.nz,
      w.wy (d.iy f) y * w.wz (d.iz f) z * B (d.flat (d.ix f) y z)
      = ∑ p ∈ Finset.range d.plane, w.wy (d.iy f) (p / d.nz) * w.wz (d.iz f) (p % d.nz)
          * B (d.ix f * d.plane + p) := by
    intro B
    unfold Dims.plane
    rw [DFTComm.sum_range_mul]
    refine Finset.sum_congr rfl fun y hy => Finset.sum_congr rfl fun z hz => ?_
    have hz := Finset.mem_range.1 hz
    have h1 : (y * d.nz + z) / d.nz = y := by
      rw [Nat.mul_comm, Nat.mul_add_div (by omega), Nat.div_eq_of_lt hz, add_zero]
    have h2 : (y * d.nz + z) % d.nz = z := by
      rw [Nat.mul_comm, Nat.mul_add_mod, Nat.mod_eq_of_lt hz]
    rw [h1, h2]
    rfl
  rw [hstep]
  rw [Finset.sum_congr rfl (fun p hp => by
    rw [hbuf p (Finset.mem_range.1 hp) (fun j => scale norm d.nx * xformX d w (put (fun _ => 0) (g2sticks d idx) c) j)])]
  -- exchange sums
  have e1 : ∀ p ∈ Finset.range d.plane,
      w.wy (d.iy f) (p / d.nz) * w.wz (d.iz f) (p % d.nz) *
        (∑ s ∈ Finset.range S.length, if p = S.getD s 0 then
          scale norm d.nx * xformX d w (put (fun _ => 0) (g2sticks d idx) c) (s * d.nx + d.ix f) else 0)
      = ∑ s ∈ Finset.range S.length, if p = S.getD s 0 then
          w.wy (d.iy f) (S.getD s 0 / d.nz) * w.wz (d.iz f) (S.getD s 0 % d.nz) *
          (scale norm d.nx * xformX d w (put (fun _ => 0) (g2sticks d idx) c) (s * d.nx + d.ix f)) else 0 := by
    intro p _
    rw [Finset.mul_sum]
    refine Finset.sum_congr rfl fun s _ => ?_
    split_ifs with h
    · rw [h]
    · simp
  rw [Finset.sum_congr rfl e1, Finset.sum_comm]
  obtain ⟨H, hH⟩ : ∃ H : ℕ → K, ∀ j, H j = scale norm d.nx *
      (w.wx (d.ix f) (j % d.nx) * (w.wy (d.iy f) (S.getD (j / d.nx) 0 / d.nz) *
        w.wz (d.iz f) (S.getD (j / d.nx) 0 % d.nz))) := ⟨_, fun _ => rfl⟩
  have e2 : ∀ s ∈ Finset.range S.length,
      (∑ p ∈ Finset.range d.plane, if p = S.getD s 0 then
          w.wy (d.iy f) (S.getD s 0 / d.nz) * w.wz (d.iz f) (S.getD s 0 % d.nz) *
          (scale norm d.nx * xformX d w (put (fun _ => 0) (g2sticks d idx) c) (s * d.nx + d.ix f)) else 0)
      = ∑ x ∈ Finset.range d.nx,
          H (s * d.nx + x) * put (fun _ => 0) (g2sticks d idx) c (s * d.nx + x) := by
    intro s hs
    have hs := Finset.mem_range.1 hs
    rw [Finset.sum_ite_eq' , if_pos (Finset.mem_range.2 (hSlt s hs))]
    unfold xformX
    have h1 : (s * d.nx + d.ix f) % d.nx = d.ix f := by
      rw [Nat.mul_comm, Nat.mul_add_mod, Nat.mod_eq_of_lt hixf]
    have h2 : (s * d.nx + d.ix f) / d.nx = s := by
      rw [Nat.mul_comm, Nat.mul_add_div hx, Nat.div_eq_of_lt hixf, add_zero]
    rw [h1, h2, Finset.mul_sum, Finset.mul_sum]
    refine Finset.sum_congr rfl fun x hx' => ?_
    have hx' := Finset.mem_range.1 hx'
    have h3 : (s * d.nx + x) % d.nx = x := by
      rw [Nat.mul_comm, Nat.mul_add_mod, Nat.mod_eq_of_lt hx']
    have h4 : (s * d.nx + x) / d.nx = s := by
      rw [Nat.mul_comm, Nat.mul_add_div hx, Nat.div_eq_of_lt hx', add_zero]
    rw [hH]
    simp only [h3, h4]
    ring
  rw [Finset.sum_congr rfl e2,
    ← DFTComm.sum_range_mul S.length d.nx (fun j => H j * put (fun _ => 0) (g2sticks d idx) c j),
    sum_put _ _ _ hgn (by rw [hl]; simp [g2sticks]) hgb]
  have hlen : (g2sticks d idx).length = idx.length := by simp [g2sticks]
  rw [hlen, Finset.mul_sum, Finset.mul_sum]
  refine Finset.sum_congr rfl fun k hk => ?_
  have hk := Finset.mem_range.1 hk
  rw [List.getD_eq_getElem (g2sticks d idx) _ (by rw [hlen]; exact hk), List.getD_eq_getElem idx _ hk]
  have hg := hv.2 _ (List.getElem_mem hk)
  have hix := (d.coords hg).1
  have hss := searchsorted_mem S hsort (stickOf d idx[k])
    ((mem_sticks d idx _).2 ⟨_, List.getElem_mem hk, (stickOf_eq d _).symm⟩)
  have hgk : (g2sticks d idx)[k]'(by rw [hlen]; exact hk)
      = d.nx * searchsorted S (stickOf d idx[k]) + d.ix idx[k] := by
    simp [g2sticks, hS]
  rw [hgk, hH, Nat.mul_add_mod, Nat.mod_eq_of_lt hix, Nat.mul_add_div hx, Nat.div_eq_of_lt hix, add_zero,
    hss.2]
  have hzl : d.iz idx[k] < d.nz := Nat.mod_lt _ hz
  have hiy : stickOf d idx[k] / d.nz = d.iy idx[k] := by
    unfold stickOf
    rw [Nat.mul_comm, Nat.mul_add_div hz, Nat.div_eq_of_lt hzl, add_zero]
  have hiz : stickOf d idx[k] % d.nz = d.iz idx[k] := by
    unfold stickOf
    rw [Nat.mul_comm, Nat.mul_add_mod, Nat.mod_eq_of_lt hzl]
  rw [hiy, hiz]
  unfold ker3
  have hsc : (scale norm d.size : K) = scale norm d.plane * scale norm d.nx := by
    unfold scale
    cases norm with
    | false => simp
    | true => simp [d.size_eq, mul_comm]
  rw [hsc]
  ring

theorem stickR2g_eq_full (d : Dims) (w : Kern K) (idx : List ℕ) (hv : ValidIdx d idx)
    (st : StickState K) (st' : FullState K) (a : ℕ → K) :
    (stickR2g d w idx st a).2 = (fullR2g d w idx st' a).2 := by
  rw [fullR2g_eq]
  unfold stickR2g take g2sticks
  simp only [sticks2full_eq, List.map_map]
  refine List.map_congr_left fun f hf => ?_
  have hfs := hv.2 f hf
  obtain ⟨hx, hy, hz⟩ := d.pos_of_lt hfs
  have hpl : 0 < d.plane := Nat.mul_pos hy hz
  have hixf := (d.coords hfs).1
  set S := sticks d idx with hS
  have hss := searchsorted_mem S (sticks_sorted d idx) (stickOf d f)
    ((mem_sticks d idx _).2 ⟨_, hf, (stickOf_eq d _).symm⟩)
  simp only [Function.comp]
  unfold xformX
  rw [Nat.mul_add_mod, Nat.mod_eq_of_lt hixf, Nat.mul_add_div hx, Nat.div_eq_of_lt hixf, add_zero,
    d.size_eq, DFTComm.sum_range_mul]
  refine Finset.sum_congr rfl fun x hx' => ?_
  have hx' := Finset.mem_range.1 hx'
  have h3 : (searchsorted S (stickOf d f) * d.nx + x) % d.nx = x := by
    rw [Nat.mul_comm, Nat.mul_add_mod, Nat.mod_eq_of_lt hx']
  have h4 : (searchsorted S (stickOf d f) * d.nx + x) / d.nx = searchsorted S (stickOf d f) := by
    rw [Nat.mul_comm, Nat.mul_add_div hx, Nat.div_eq_of_lt hx', add_zero]
  have h5 : searchsorted S (stickOf d f) * d.nx + x < S.length * d.nx := by
    nlinarith [hss.1]
  beta_reduce
  rw [if_pos h5, h3, h4, hss.2]
  unfold xformYZ
  have hst : stickOf d f = d.iy f * d.nz + d.iz f := rfl
  have hiy : d.iy f < d.ny := Nat.mod_lt _ hy
  have hiz : d.iz f < d.nz := Nat.mod_lt _ hz
  have q1 := d.ix_flat (x := x) hiy hiz
  have q2 := d.iy_flat (x := x) hiy hiz
  have q3 := d.iz_flat (x := x) (y := d.iy f) hiz
  unfold Dims.flat at q1 q2 q3
  rw [hst, q1, q2, q3, Finset.mul_sum]
  unfold Dims.plane
  rw [DFTComm.sum_range_mul]
  refine Finset.sum_congr rfl fun y hy' => ?_
  rw [Finset.mul_sum]
  refine Finset.sum_congr rfl fun z hz' => ?_
  have hy' := Finset.mem_range.1 hy'
  have hz' := Finset.mem_range.1 hz'
  have r1 := d.ix_flat (x := x) hy' hz'
  have r2 := d.iy_flat (x := x) hy' hz'
  have r3 := d.iz_flat (x := x) (y := y) hz'
  unfold ker3
  unfold Dims.flat Dims.plane at *
  rw [r1, r2, r3]
  ring

/-- **C19.** For every grid, every valid set of basis points, every 1D kernels (in particular the
Fourier ones), both normalisation modes and every content of the work arrays, the stick driver and
the full driver give the same result, on every grid point and every coefficient. -/
theorem C19_sticks_eq_full (d : Dims) (fwd bwd : Kern K) (norm : Bool) (idx : List ℕ)
    (hv : ValidIdx d idx) (st : StickState K) (st' : FullState K) :
    (∀ c : List K, c.length = idx.length → ∀ f < d.size,
      (stickG2r d bwd norm idx st c).2 f = (fullG2r d bwd norm idx st' c).2 f) ∧
    (∀ a : ℕ → K, (stickR2g d fwd idx st a).2 = (fullR2g d fwd idx st' a).2) :=
  ⟨fun c hl f hf => stickG2r_eq_full d bwd norm idx hv st st' c hl f hf,
   fun a => stickR2g_eq_full d fwd idx hv st st' a⟩

/-! ## Round trip -/

/-- 1D kernels of length `n` are inverse up to the factor `n`. -/
def Orth (n : ℕ) (wf wb : ℕ → ℕ → K) : Prop :=
  ∀ k < n, ∀ k' < n, ∑ x ∈ Finset.range n, wf k x * wb x k' = if k = k' then (n : K) else 0

theorem ker3_orth (d : Dims) (fwd bwd : Kern K) (ox : Orth d.nx fwd.wx bwd.wx)
    (oy : Orth d.ny fwd.wy bwd.wy) (oz : Orth d.nz fwd.wz bwd.wz) (f g : ℕ) (hf : f < d.size)
    (hg : g < d.size) :
    ∑ r ∈ Finset.range d.size, ker3 d fwd f r * ker3 d bwd r g = if f = g then (d.size : K) else 0 := by
  obtain ⟨f1, f2, f3, f4⟩ := d.coords hf
  obtain ⟨g1, g2, g3, g4⟩ := d.coords hg
  rw [← sum_grid]
  have e : ∀ x ∈ Finset.range d.nx, (∑ y ∈ Finset.range d.ny, ∑ z ∈ Finset.range d.nz,
      ker3 d fwd f (d.flat x y z) * ker3 d bwd (d.flat x y z) g)
      = (fwd.wx (d.ix f) x * bwd.wx x (d.ix g)) *
        ((∑ y ∈ Finset.range d.ny, fwd.wy (d.iy f) y * bwd.wy y (d.iy g)) *
         (∑ z ∈ Finset.range d.nz, fwd.wz (d.iz f) z * bwd.wz z (d.iz g))) := by
    intro x _
    rw [Finset.sum_mul_sum, Finset.mul_sum]
    refine Finset.sum_congr rfl fun y hy => ?_
    rw [Finset.mul_sum]
    refine Finset.sum_congr rfl fun z hz => ?_
    have hy := Finset.mem_range.1 hy
    have hz := Finset.mem_range.1 hz
    unfold ker3
    rw [d.ix_flat hy hz, d.iy_flat hy hz, d.iz_flat hz]
    ring
  rw [Finset.sum_congr rfl e, ← Finset.sum_mul, ox _ f1 _ g1, oy _ f2 _ g2, oz _ f3 _ g3]
  by_cases h : f = g
  · subst h; simp [Dims.size]; ring
  · rw [if_neg h]
    by_cases h1 : d.ix f = d.ix g
    · by_cases h2 : d.iy f = d.iy g
      · by_cases h3 : d.iz f = d.iz g
        · exact absurd (by rw [← f4, ← g4, h1, h2, h3]) h
        · rw [if_neg h3]; ring
      · rw [if_neg h2]; ring
    · rw [if_neg h1]; ring

/-- `exp(2πi m/n)` is 1 only when `n` divides `m`. -/
theorem exp_root_ne_one (n : ℕ) (hn : 0 < n) (m : ℤ) (h0 : m ≠ 0) (h1 : -(n : ℤ) < m) (h2 : m < n) :
    Complex.exp (2 * Real.pi * Complex.I * m / n) ≠ 1 := by
  intro h
  rw [Complex.exp_eq_one_iff] at h
  obtain ⟨q, hq⟩ := h
  have hpi : (2 * (Real.pi : ℂ) * Complex.I) ≠ 0 := by
    simp [Real.pi_ne_zero, Complex.I_ne_zero]
  have hnc : (n : ℂ) ≠ 0 := by exact_mod_cast hn.ne'
  rw [mul_div_assoc, mul_comm (q : ℂ)] at hq
  have h3 := mul_left_cancel₀ hpi hq
  rw [div_eq_iff hnc] at h3
  have h4 : m = q * n := by exact_mod_cast h3
  rcases lt_trichotomy q 0 with hq0 | hq0 | hq0
  · have : q * (n : ℤ) ≤ (-1) * n := by nlinarith
    omega
  · rw [hq0] at h4; simp at h4; exact h0 h4
  · have : (1 : ℤ) * n ≤ q * n := by nlinarith
    omega

theorem dft_orth (n : ℕ) : Orth n (dftKer true n) (dftKer false n) := by
  intro k hk k' hk'
  have hn : 0 < n := by omega
  have hnc : (n : ℂ) ≠ 0 := by exact_mod_cast hn.ne'
  set r := Complex.exp (2 * Real.pi * Complex.I * ((k' : ℤ) - (k : ℤ) : ℤ) / n) with hr
  have e : ∀ x ∈ Finset.range n, dftKer true n k x * dftKer false n x k' = r ^ x := by
    intro x _
    unfold dftKer
    rw [← Complex.exp_add, hr, ← Complex.exp_nat_mul]
    congr 1
    push_cast
    simp
    field_simp
    ring
  rw [Finset.sum_congr rfl e]
  by_cases h : k = k'
  · subst h
    rw [if_pos rfl]
    have : r = 1 := by rw [hr]; simp
    simp [this]
  · rw [if_neg h]
    have hne : r ≠ 1 := exp_root_ne_one n hn _ (by omega) (by omega) (by omega)
    have hpow : r ^ n = 1 := by
      rw [hr, ← Complex.exp_nat_mul, Complex.exp_eq_one_iff]
      refine ⟨(k' : ℤ) - k, ?_⟩
      push_cast
      field_simp
    rw [geom_sum_eq hne, hpow]
    simp

theorem getD_map {α : Type*} (l : List ℕ) (F : ℕ → α) (k : ℕ) (hk : k < l.length) (z : α) :
    (l.map F).getD k z = F (l.getD k 0) := by
  rw [List.getD_eq_getElem _ _ (by simpa using hk), List.getD_eq_getElem _ _ hk, List.getElem_map]

theorem list_eq_map_getD {α : Type*} (c : List α) (z : α) (n : ℕ) (h : c.length = n) :
    c = (List.range n).map fun k => c.getD k z := by
  apply List.ext_getElem
  · simp [h]
  · intro i h1 h2
    simp [h1]

/-- round trip for arbitrary inverse kernels -/
theorem round_trip (d : Dims) (fwd bwd : Kern K) (ox : Orth d.nx fwd.wx bwd.wx)
    (oy : Orth d.ny fwd.wy bwd.wy) (oz : Orth d.nz fwd.wz bwd.wz) (norm : Bool) (idx : List ℕ)
    (hv : ValidIdx d idx) (st st' : FullState K) (c : List K) (hl : c.length = idx.length) :
    (fullR2g d fwd idx st (fullG2r d bwd norm idx st' c).2).2
      = c.map fun v => scale norm d.size * (d.size : K) * v := by
  rw [fullR2g_eq]
  apply List.ext_getElem
  · simp [hl]
  intro i h1 h2
  have hi : i < idx.length := by simpa using h1
  rw [List.getElem_map, List.getElem_map]
  have hf := hv.2 _ (List.getElem_mem hi)
  have e : ∀ g ∈ Finset.range d.size, ker3 d fwd idx[i] g * (fullG2r d bwd norm idx st' c).2 g
      = ∑ k ∈ Finset.range idx.length, scale norm d.size * c.getD k 0 *
          (ker3 d fwd idx[i] g * ker3 d bwd g (idx.getD k 0)) := by
    intro g _
    rw [fullG2r_eq d bwd norm idx hv st' c hl, Finset.mul_sum, Finset.mul_sum]
    exact Finset.sum_congr rfl fun k _ => by ring
  rw [Finset.sum_congr rfl e, Finset.sum_comm]
  rw [Finset.sum_eq_single_of_mem i (Finset.mem_range.2 hi)]
  · rw [← Finset.mul_sum, List.getD_eq_getElem _ _ hi, ker3_orth d fwd bwd ox oy oz _ _ hf hf,
      if_pos rfl, List.getD_eq_getElem _ _ (by omega)]
    ring
  · intro k hk hki
    have hk := Finset.mem_range.1 hk
    rw [← Finset.mul_sum, List.getD_eq_getElem _ _ hk,
      ker3_orth d fwd bwd ox oy oz _ _ hf (hv.2 _ (List.getElem_mem hk)), if_neg, mul_zero]
    intro h
    exact hki ((List.Nodup.getElem_inj_iff hv.1).1 h.symm)

/-! ## Statements for the driver objects -/

theorem Driver.g2r_eq (drv : Driver) (d : Dims) (w : Kern K) (norm : Bool) (idx : List ℕ)
    (hv : ValidIdx d idx) (st : DrvState K) (st' : FullState K) (c : List K)
    (hl : c.length = idx.length) (f : ℕ) (hf : f < d.size) :
    (drv.g2r d w norm idx st c).2 f = (fullG2r d w norm idx st' c).2 f := by
  cases drv with
  | full =>
    show (fullG2r d w norm idx st.f c).2 f = _
    rw [fullG2r_eq d w norm idx hv _ c hl, fullG2r_eq d w norm idx hv _ c hl]
  | sticks => exact stickG2r_eq_full d w norm idx hv st.s st' c hl f hf

theorem Driver.r2g_eq (drv : Driver) (d : Dims) (w : Kern K) (idx : List ℕ)
    (hv : ValidIdx d idx) (st : DrvState K) (st' : FullState K) (a a' : ℕ → K)
    (h : ∀ f < d.size, a f = a' f) :
    (drv.r2g d w idx st a).2 = (fullR2g d w idx st' a').2 := by
  have hc : (fullR2g d w idx st' a).2 = (fullR2g d w idx st' a').2 := by
    rw [fullR2g_eq, fullR2g_eq]
    refine List.map_congr_left fun f _ => Finset.sum_congr rfl fun g hg => ?_
    rw [h g (Finset.mem_range.1 hg)]
  rw [← hc]
  cases drv with
  | full =>
    show (fullR2g d w idx st.f a).2 = _
    rw [fullR2g_eq, fullR2g_eq]
  | sticks => exact stickR2g_eq_full d w idx hv st.s st' a

/-- Textbook 3D discrete Fourier coefficient at frequency `(h, k, l)`. -/
noncomputable def dftSpec (d : Dims) (a : ℕ → ℕ → ℕ → ℂ) (h k l : ℕ) : ℂ :=
  ∑ x ∈ Finset.range d.nx, ∑ y ∈ Finset.range d.ny, ∑ z ∈ Finset.range d.nz,
    Complex.exp (-(2 * Real.pi * Complex.I) * ((h * x : ℂ) / d.nx + (k * y : ℂ) / d.ny + (l * z : ℂ) / d.nz))
      * a x y z

/-- Textbook synthesis at grid point `(x, y, z)` of plane waves with integer frequencies `freqs` and
coefficients `c`. -/
noncomputable def synthSpec (d : Dims) (waves : List ((ℕ × ℕ × ℕ) × ℂ)) (x y z : ℕ) : ℂ :=
  (waves.map fun w => Complex.exp ((2 * Real.pi * Complex.I) *
    ((w.1.1 * x : ℂ) / d.nx + (w.1.2.1 * y : ℂ) / d.ny + (w.1.2.2 * z : ℂ) / d.nz)) * w.2).sum

theorem dft_ker3_fwd (d : Dims) (f g : ℕ) : ker3 d (dftKern true d) f g
    = Complex.exp (-(2 * Real.pi * Complex.I) *
      ((d.ix f * d.ix g : ℂ) / d.nx + (d.iy f * d.iy g : ℂ) / d.ny + (d.iz f * d.iz g : ℂ) / d.nz)) := by
  unfold ker3 dftKern dftKer
  simp only
  rw [← Complex.exp_add, ← Complex.exp_add]
  congr 1
  simp
  ring

theorem dft_ker3_bwd (d : Dims) (f g : ℕ) : ker3 d (dftKern false d) f g
    = Complex.exp ((2 * Real.pi * Complex.I) *
      ((d.ix g * d.ix f : ℂ) / d.nx + (d.iy g * d.iy f : ℂ) / d.ny + (d.iz g * d.iz f : ℂ) / d.nz)) := by
  unfold ker3 dftKern dftKer
  simp only
  rw [← Complex.exp_add, ← Complex.exp_add]
  congr 1
  simp
  ring

/-- **C17a.** Both drivers compute the textbook Fourier sums: `r2g` the coefficients of the grid data at
the basis frequencies, `g2r` the synthesis of the basis plane waves (divided by the number of grid
points if and only if normalisation is on). -/
theorem C17_drivers_compute_dft (drv : Driver) (d : Dims) (norm : Bool) (idx : List ℕ)
    (hv : ValidIdx d idx) (st : DrvState ℂ) :
    (∀ a : ℕ → ℂ, (drv.r2g d (dftKern true d) idx st a).2
      = idx.map fun f => dftSpec d (fun x y z => a (d.flat x y z)) (d.ix f) (d.iy f) (d.iz f)) ∧
    (∀ c : List ℂ, c.length = idx.length → ∀ x < d.nx, ∀ y < d.ny, ∀ z < d.nz,
      (drv.g2r d (dftKern false d) norm idx st c).2 (d.flat x y z)
        = (if norm then ((d.nx * d.ny * d.nz : ℂ))⁻¹ else 1) *
          synthSpec d ((idx.map fun f => (d.ix f, d.iy f, d.iz f)).zip c) x y z) := by
  constructor
  · intro a
    rw [drv.r2g_eq d _ idx hv st st.f a a (fun _ _ => rfl), fullR2g_eq]
    refine List.map_congr_left fun f _ => ?_
    rw [← sum_grid]
    unfold dftSpec
    refine Finset.sum_congr rfl fun x _ => Finset.sum_congr rfl fun y hy =>
      Finset.sum_congr rfl fun z hz => ?_
    have hy := Finset.mem_range.1 hy
    have hz := Finset.mem_range.1 hz
    rw [dft_ker3_fwd, d.ix_flat hy hz, d.iy_flat hy hz, d.iz_flat hz]
  · intro c hl x hx y hy z hz
    have hf : d.flat x y z < d.size := by
      unfold Dims.flat; rw [d.size_eq]
      have : y * d.nz + z < d.plane := by unfold Dims.plane; nlinarith
      nlinarith
    rw [drv.g2r_eq d _ norm idx hv st st.f c hl _ hf, fullG2r_eq d _ norm idx hv _ c hl]
    congr 1
    · unfold scale Dims.size; push_cast; rfl
    · unfold synthSpec
      rw [← DFTComm.list_sum_range]
      congr 1
      apply List.ext_getElem
      · simp [hl]
      · intro i h1 h2
        have hi : i < idx.length := by simpa using h1
        have hic : i < c.length := by omega
        simp only [List.getElem_map, List.getElem_range, List.getElem_zip]
        rw [dft_ker3_bwd, d.ix_flat hy hz, d.iy_flat hy hz, d.iz_flat hz,
          List.getD_eq_getElem _ _ hi, List.getD_eq_getElem _ _ hic]

/-- **C17b.** For every grid, every valid basis, both drivers and whatever was in the work arrays,
transforming an array of basis coefficients to the grid and back returns the array when normalisation is
on, and `nx*ny*nz` times the array when it is off. -/
theorem C17_round_trip (drv : Driver) (d : Dims) (norm : Bool) (idx : List ℕ) (hv : ValidIdx d idx)
    (st st' : DrvState ℂ) (c : List ℂ) (hl : c.length = idx.length) :
    (drv.r2g d (dftKern true d) idx st' (drv.g2r d (dftKern false d) norm idx st c).2).2
      = if norm then c else c.map fun v => ((d.nx * d.ny * d.nz : ℕ) : ℂ) * v := by
  rw [drv.r2g_eq d _ idx hv st' st.f _ (fullG2r d (dftKern false d) norm idx st.f c).2
    (fun f hf => drv.g2r_eq d _ norm idx hv st st.f c hl f hf),
    round_trip d _ _ (dft_orth _) (dft_orth _) (dft_orth _) norm idx hv st.f st.f c hl]
  cases norm with
  | false =>
    simp only [scale, Bool.false_eq_true, if_false, one_mul]
    rfl
  | true =>
    simp only [scale, if_true]
    by_cases hz : idx = []
    · subst hz
      have : c = [] := List.length_eq_zero_iff.1 (by simpa using hl)
      simp [this]
    · obtain ⟨f, hf⟩ := List.exists_mem_of_ne_nil _ hz
      have : (d.size : ℂ) ≠ 0 := by
        have := hv.2 f hf
        exact_mod_cast (by omega : d.size ≠ 0)
      simp [inv_mul_cancel₀ this]

/-- **C18.** With normalisation on, "to the basis and back to the grid" is a projection: applying it
twice is the same as once, and it leaves every grid function built from the basis unchanged. -/
theorem C18_projection (drv : Driver) (d : Dims) (idx : List ℕ) (hv : ValidIdx d idx)
    (st : DrvState ℂ) :
    let P : (ℕ → ℂ) → (ℕ → ℂ) := fun a =>
      (drv.g2r d (dftKern false d) true idx st (drv.r2g d (dftKern true d) idx st a).2).2
    (∀ a, ∀ f < d.size, P (P a) f = P a f) ∧
    (∀ c : List ℂ, c.length = idx.length → ∀ f < d.size,
      P (drv.g2r d (dftKern false d) true idx st c).2 f
        = (drv.g2r d (dftKern false d) true idx st c).2 f) := by
  intro P
  have h2 : ∀ c : List ℂ, c.length = idx.length →
      P (drv.g2r d (dftKern false d) true idx st c).2 = (drv.g2r d (dftKern false d) true idx st c).2 := by
    intro c hl
    show (drv.g2r d (dftKern false d) true idx st _).2 = _
    rw [C17_round_trip drv d true idx hv st st c hl, if_pos rfl]
  refine ⟨fun a f _ => ?_, fun c hl f _ => by rw [h2 c hl]⟩
  exact congrFun (h2 _ (by rw [drv.r2g_eq d _ idx hv st st.f a a (fun _ _ => rfl), fullR2g_eq]; simp)) f

/-- Two results are the same data: equal coefficient arrays, or grid arrays equal on the grid. -/
def SameResult (d : Dims) : Result K → Result K → Prop
  | .coeffs c, .coeffs c' => c = c'
  | .grid a, .grid a' => ∀ f < d.size, a f = a' f
  | _, _ => False

/-- An acceptable argument: a G-space array has one entry per basis vector. -/
def Call.Ok (idx : List ℕ) : Call K → Prop
  | .r2g _ => True
  | .g2r c => c.length = idx.length

/-- **C20.** The result of any call depends only on its argument: not on the (uninitialised) contents of
the work arrays, not on any history of earlier calls in either direction — and not even on which of the
two drivers is used. -/
theorem C20_history_independent (drv drv' : Driver) (d : Dims) (fwd bwd : Kern K) (norm : Bool)
    (idx : List ℕ) (hv : ValidIdx d idx) (st st' : DrvState K) (hist hist' : List (Call K))
    (call : Call K) (hc : call.Ok idx) :
    SameResult d (drv.exec d fwd bwd norm idx (drv.after d fwd bwd norm idx st hist) call).2
      (drv'.exec d fwd bwd norm idx (drv'.after d fwd bwd norm idx st' hist') call).2 := by
  generalize drv.after d fwd bwd norm idx st hist = s
  generalize drv'.after d fwd bwd norm idx st' hist' = s'
  cases call with
  | r2g a =>
    show (drv.r2g d fwd idx s a).2 = (drv'.r2g d fwd idx s' a).2
    rw [drv.r2g_eq d fwd idx hv s s.f a a (fun _ _ => rfl),
      drv'.r2g_eq d fwd idx hv s' s.f a a (fun _ _ => rfl)]
  | g2r c =>
    intro f hf
    show (drv.g2r d bwd norm idx s c).2 f = (drv'.g2r d bwd norm idx s' c).2 f
    rw [drv.g2r_eq d bwd norm idx hv s s.f c hc f hf, drv'.g2r_eq d bwd norm idx hv s' s.f c hc f hf]

theorem conj_ker3 (d : Dims) (f g : ℕ) :
    (starRingEnd ℂ) (ker3 d (dftKern false d) f g) = ker3 d (dftKern true d) g f := by
  rw [dft_ker3_bwd, dft_ker3_fwd, ← Complex.exp_conj]
  congr 1
  simp [Complex.conj_ofReal]
  left; exact map_ofNat _ 2

/-- **C57 (Parseval).** Inner products on the grid are proportional to inner products of coefficients:
unnormalised, the grid sum is `nx*ny*nz` times the coefficient sum (so averaging over the grid — how the
code integrates — gives the coefficient inner product); normalised, it is `1/(nx*ny*nz)` times. -/
theorem C57_parseval (drv : Driver) (d : Dims) (norm : Bool) (idx : List ℕ) (hv : ValidIdx d idx)
    (st : DrvState ℂ) (c c' : List ℂ) (hl : c.length = idx.length) (hl' : c'.length = idx.length) :
    ∑ f ∈ Finset.range d.size, (starRingEnd ℂ) ((drv.g2r d (dftKern false d) norm idx st c).2 f)
        * (drv.g2r d (dftKern false d) norm idx st c').2 f
      = (if norm then ((d.size : ℂ))⁻¹ else (d.size : ℂ)) *
        ((c.zip c').map fun p => (starRingEnd ℂ) p.1 * p.2).sum := by
  have e : ∀ f ∈ Finset.range d.size,
      (starRingEnd ℂ) ((drv.g2r d (dftKern false d) norm idx st c).2 f)
        * (drv.g2r d (dftKern false d) norm idx st c').2 f
      = ∑ k ∈ Finset.range idx.length, ∑ k' ∈ Finset.range idx.length,
          scale norm d.size * scale norm d.size * ((starRingEnd ℂ) (c.getD k 0) * c'.getD k' 0) *
          (ker3 d (dftKern true d) (idx.getD k 0) f * ker3 d (dftKern false d) f (idx.getD k' 0)) := by
    intro f hf
    have hf := Finset.mem_range.1 hf
    rw [drv.g2r_eq d _ norm idx hv st st.f c hl f hf, drv.g2r_eq d _ norm idx hv st st.f c' hl' f hf,
      fullG2r_eq d _ norm idx hv _ c hl, fullG2r_eq d _ norm idx hv _ c' hl', map_mul, map_sum,
      mul_mul_mul_comm, Finset.sum_mul_sum, Finset.mul_sum]
    refine Finset.sum_congr rfl fun k _ => ?_
    rw [Finset.mul_sum]
    refine Finset.sum_congr rfl fun k' _ => ?_
    have hs : (starRingEnd ℂ) (scale norm d.size) = scale norm d.size := by
      unfold scale; cases norm <;> simp
    rw [map_mul, conj_ker3, hs]
    ring
  rw [Finset.sum_congr rfl e, Finset.sum_comm]
  rw [Finset.sum_congr rfl (fun k _ => Finset.sum_comm)]
  have e2 : ∀ k ∈ Finset.range idx.length,
      (∑ k' ∈ Finset.range idx.length, ∑ f ∈ Finset.range d.size,
        scale norm d.size * scale norm d.size * ((starRingEnd ℂ) (c.getD k 0) * c'.getD k' 0) *
          (ker3 d (dftKern true d) (idx.getD k 0) f * ker3 d (dftKern false d) f (idx.getD k' 0)))
      = scale norm d.size * scale norm d.size * (d.size : ℂ) *
          ((starRingEnd ℂ) (c.getD k 0) * c'.getD k 0) := by
    intro k hk
    have hk' := Finset.mem_range.1 hk
    rw [Finset.sum_eq_single_of_mem k hk]
    · rw [← Finset.mul_sum, List.getD_eq_getElem idx _ hk',
        ker3_orth d _ _ (dft_orth _) (dft_orth _) (dft_orth _) _ _ (hv.2 _ (List.getElem_mem hk'))
          (hv.2 _ (List.getElem_mem hk')), if_pos rfl]
      ring
    · intro j hj hjk
      have hj := Finset.mem_range.1 hj
      rw [← Finset.mul_sum, List.getD_eq_getElem idx _ hk', List.getD_eq_getElem idx _ hj,
        ker3_orth d _ _ (dft_orth _) (dft_orth _) (dft_orth _) _ _ (hv.2 _ (List.getElem_mem hk'))
          (hv.2 _ (List.getElem_mem hj)), if_neg, mul_zero]
      intro h
      exact hjk ((List.Nodup.getElem_inj_iff hv.1).1 h.symm)
  rw [Finset.sum_congr rfl e2, ← Finset.mul_sum]
  by_cases hidx : idx = []
  · subst hidx
    have h1 : c = [] := List.length_eq_zero_iff.1 (by simpa using hl)
    simp [h1]
  obtain ⟨f, hf⟩ := List.exists_mem_of_ne_nil _ hidx
  have hne : (d.size : ℂ) ≠ 0 := by
    have := hv.2 f hf
    exact_mod_cast (by omega : d.size ≠ 0)
  congr 1
  · unfold scale; cases norm
    · simp
    · simp [hne]
  · rw [← DFTComm.list_sum_range]
    congr 1
    apply List.ext_getElem
    · simp [hl, hl']
    · intro i h1 h2
      have hi : i < idx.length := by simpa using h1
      simp only [List.getElem_map, List.getElem_range, List.getElem_zip]
      rw [List.getD_eq_getElem c _ (by omega), List.getD_eq_getElem c' _ (by omega)]

/-! ## The hypotheses are met by concrete cases -/

/-- A 3×4×5 grid with four basis points on three sticks (indices not sorted). -/
example : ValidIdx ⟨3, 4, 5⟩ [7, 0, 27, 59] := by
  refine ⟨by decide, ?_⟩
  decide

example : (fullG2r (K := ℚ) ⟨2, 1, 1⟩ ⟨fun _ _ => 1, fun _ _ => 1, fun _ _ => 1⟩ false [1]
    ⟨fun _ => 0, fun _ => 5⟩ [3]).2 0 = 3 := by
  simp [fullG2r_eq _ _ _ _ (show ValidIdx ⟨2, 1, 1⟩ [1] from ⟨by decide, by decide⟩), scale, ker3]

end Verif.FFT
