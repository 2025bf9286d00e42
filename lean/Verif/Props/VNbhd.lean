import Verif.Props.VcoulFold

/-!
# Property C201: the neighbourhood of q = 0 used to fold the samples
-/

namespace Verif.Vcoul

open Verif Metric Set

/-- **C201a.** The neighbourhood is chosen among all sign images of the q-points, with q0 replaced by zero. -/
theorem C201_images (I : Inp) (p : Fin 3 → ℝ) : p ∈ fullQ I ↔ ∃ q ∈ I.qs.set I.q0 0, ∀ i, p i = q i ∨ p i = -q i := by
  have hs : ∀ s : Fin 3 → ℝ, s ∈ signs ↔ ∀ i, s i = 1 ∨ s i = -1 := by
    intro s
    constructor
    · intro h i
      simp only [signs, List.mem_flatMap, List.mem_map, List.mem_cons, List.not_mem_nil, or_false] at h
      obtain ⟨a, ha, b, hb, c, hc, rfl⟩ := h
      fin_cases i
      · exact ha
      · exact hb
      · exact hc
    · intro h
      simp only [signs, List.mem_flatMap, List.mem_map, List.mem_cons, List.not_mem_nil, or_false]
      refine ⟨s 0, h 0, s 1, h 1, s 2, h 2, ?_⟩
      funext i
      fin_cases i <;> rfl
  simp only [fullQ, List.mem_flatMap, List.mem_map]
  constructor
  · rintro ⟨s, hsm, q, hq, rfl⟩
    refine ⟨q, hq, fun i => ?_⟩
    rcases (hs s).1 hsm i with h | h <;> simp [h]
  · rintro ⟨q, hq, h⟩
    classical
    refine ⟨fun i => if p i = q i then 1 else -1, (hs _).2 fun i => ?_, q, hq, ?_⟩
    · by_cases e : p i = q i <;> simp [e]
    · funext i
      by_cases e : p i = q i
      · simp [e]
      · simp only [if_neg e]
        rw [(h i).resolve_left e]
        ring

open Classical in
/-- **C201b.** The radius is half the length of the shortest image that is not (nearly) zero, and the neighbourhood is exactly the images within four times that length. -/
theorem C201_neighbourhood (I : Inp) (Q : ℝ) (nb : List E3) (h : gammaNbhd I = .ok (Q, nb)) :
    (∃ q ∈ fullQ I, 1 / 100000 < ‖cart I q‖ ^ 2 ∧ ‖cart I q‖ = 2 * Q) ∧
    (∀ q ∈ fullQ I, 1 / 100000 < ‖cart I q‖ ^ 2 → 2 * Q ≤ ‖cart I q‖) ∧
    ∀ p : E3, p ∈ nb ↔ (∃ q ∈ fullQ I, cart I q = p) ∧ ‖p‖ ≤ 8 * Q := by
  simp only [gammaNbhd] at h
  cases hm : (((fullQ I).map fun q => ‖cart I q‖ ^ 2).filter fun x => decide (1 / 100000 < x)).min? with
  | none => simp only [hm] at h; cases h
  | some m =>
    simp only [hm, Except.ok.injEq, Prod.mk.injEq] at h
    rw [List.min?_eq_some_iff] at hm
    obtain ⟨hm1, hm2⟩ := hm
    obtain ⟨hm3, hm4⟩ := List.mem_filter.1 hm1
    rw [decide_eq_true_eq] at hm4
    obtain ⟨q0, hq0, rfl⟩ := List.mem_map.1 hm3
    rw [Real.sqrt_sq (norm_nonneg _)] at h
    obtain ⟨h1, h2⟩ := h
    refine ⟨⟨q0, hq0, hm4, by rw [← h1]; ring⟩, fun q hq hl => ?_, fun p => ?_⟩
    · have := hm2 _ (List.mem_filter.2 ⟨List.mem_map.2 ⟨q, hq, rfl⟩, by simpa using hl⟩)
      rw [sq_le_sq₀ (norm_nonneg _) (norm_nonneg _)] at this
      rw [← h1]
      linarith
    · have hQ : 0 ≤ Q := by rw [← h1]; positivity
      rw [← h2, List.mem_filter, List.mem_map, h1, decide_eq_true_eq, sq_le_sq₀ (norm_nonneg _) (by positivity)]

/-- An orthogonal cell with edges `l i` and the `n × n × n` mesh of q-points. -/
structure Ortho (I : Inp) (l : Fin 3 → ℝ) (n : ℕ) : Prop where
  b : ∀ i, I.b i = EuclideanSpace.single i (l i)
  pos : ∀ i, 0 < l i
  two : 2 ≤ n
  mesh : ∀ q : Fin 3 → ℝ, q ∈ I.qs.set I.q0 0 ↔ ∃ k : Fin 3 → ℕ, (∀ i, k i < n) ∧ q = fun i => (k i : ℝ) / n
  long : ∀ i, 1 / 100000 < (l i / n) ^ 2

/-- The points of the mesh, repeated periodically. -/
def meshPts (l : Fin 3 → ℝ) (n : ℕ) : Set E3 := {p | ∃ z : Fin 3 → ℤ, ∀ i, p i = z i * (l i / n)}

/-- `near p` is a point of `nb` nearest to `p` among those of `nb` (what the search tree returns). -/
def NearestOf (nb : List E3) (near : E3 → E3) : Prop := ∀ p, near p ∈ nb ∧ ∀ a ∈ nb, ‖p - near p‖ ≤ ‖p - a‖

theorem Ortho.cart_apply {I : Inp} {l : Fin 3 → ℝ} {n : ℕ} (H : Ortho I l n) (c : Fin 3 → ℝ) (i : Fin 3) : cart I c i = c i * l i := by
  simp only [cart, H.b, Fin.sum_univ_three]
  fin_cases i <;> simp

theorem Ortho.mem_full {I : Inp} {l : Fin 3 → ℝ} {n : ℕ} (H : Ortho I l n) (p : Fin 3 → ℝ) :
    p ∈ fullQ I ↔ ∃ z : Fin 3 → ℤ, (∀ i, |z i| < n) ∧ p = fun i => (z i : ℝ) / n := by
  rw [C201_images]
  constructor
  · rintro ⟨q, hq, h⟩
    obtain ⟨k, hk, rfl⟩ := (H.mesh q).1 hq
    classical
    refine ⟨fun i => if p i = (k i : ℝ) / n then (k i : ℤ) else -(k i : ℤ), fun i => ?_, ?_⟩
    · have := hk i
      by_cases e : p i = (k i : ℝ) / n <;> simp [e, this]
    · funext i
      by_cases e : p i = (k i : ℝ) / n
      · simp [e]
      · simp only [if_neg e]
        rw [(h i).resolve_left e]
        push_cast
        ring
  · rintro ⟨z, hz, rfl⟩
    refine ⟨_, (H.mesh _).2 ⟨fun i => (z i).natAbs, fun i => ?_, rfl⟩, fun i => ?_⟩
    · have := hz i
      rw [Int.abs_eq_natAbs] at this
      show (z i).natAbs < n
      omega
    · rcases le_total 0 (z i) with h | h
      · left
        show (z i : ℝ) / n = (((z i).natAbs : ℕ) : ℝ) / n
        rw [Nat.cast_natAbs, abs_of_nonneg h]
      · right
        show (z i : ℝ) / n = -((((z i).natAbs : ℕ) : ℝ) / n)
        rw [Nat.cast_natAbs, abs_of_nonpos h]
        push_cast
        ring

/-- The radius of the ball is half the shortest edge of the mesh. -/
theorem Ortho.radius {I : Inp} {l : Fin 3 → ℝ} {n : ℕ} (H : Ortho I l n) {Q : ℝ} {nb : List E3} (h : gammaNbhd I = .ok (Q, nb)) :
    (∀ i, 2 * Q ≤ l i / n) ∧ ∃ i, 2 * Q = l i / n := by
  obtain ⟨⟨q, hq, hl, he⟩, hmin, _⟩ := C201_neighbourhood I Q nb h
  have hn0 : (0 : ℝ) < n := by
    have := H.two
    exact_mod_cast (by omega : 0 < n)
  have hp : ∀ i, 0 < l i / n := fun i => div_pos (H.pos i) hn0
  have hle : ∀ i, 2 * Q ≤ l i / n := by
    intro i
    have hm : (fun j => (((Pi.single i 1 : Fin 3 → ℤ) j : ℤ) : ℝ) / n) ∈ fullQ I := (H.mem_full _).2 ⟨_, fun j => by
      have := H.two
      by_cases e : j = i
      · subst e
        rw [Pi.single_eq_same]
        simp only [abs_one]
        exact_mod_cast (by omega : 1 < n)
      · rw [Pi.single_eq_of_ne e]
        simp only [abs_zero]
        exact_mod_cast (by omega : 0 < n), rfl⟩
    have hc : cart I (fun j => (((Pi.single i 1 : Fin 3 → ℤ) j : ℤ) : ℝ) / n) = EuclideanSpace.single i (l i / n) := by
      ext j
      rw [H.cart_apply]
      by_cases e : j = i
      · subst e
        rw [Pi.single_eq_same, PiLp.single_apply]
        simp only [if_true]
        push_cast
        ring
      · rw [Pi.single_eq_of_ne e, PiLp.single_apply, if_neg e]
        simp
    have hnorm : ‖cart I (fun j => (((Pi.single i 1 : Fin 3 → ℤ) j : ℤ) : ℝ) / n)‖ = l i / n := by
      rw [hc, EuclideanSpace.norm_single, Real.norm_eq_abs, abs_of_pos (hp i)]
    rw [← hnorm]
    refine hmin _ hm ?_
    rw [hnorm]
    exact H.long i
  refine ⟨hle, ?_⟩
  obtain ⟨z, hz, rfl⟩ := (H.mem_full q).1 hq
  have hne : ∃ i, z i ≠ 0 := by
    by_contra hcon
    push Not at hcon
    have : ‖cart I (fun i => (z i : ℝ) / n)‖ ^ 2 = 0 := by
      rw [EuclideanSpace.real_norm_sq_eq]
      refine Finset.sum_eq_zero fun i _ => ?_
      rw [H.cart_apply, hcon i]
      simp
    rw [this] at hl
    norm_num at hl
  obtain ⟨i, hi⟩ := hne
  refine ⟨i, le_antisymm (hle i) ?_⟩
  rw [← he]
  have h1 : |cart I (fun i => (z i : ℝ) / n) i| ≤ ‖cart I (fun i => (z i : ℝ) / n)‖ := by
    have := PiLp.norm_apply_le (cart I (fun i => (z i : ℝ) / n)) i
    rwa [Real.norm_eq_abs] at this
  refine le_trans ?_ h1
  rw [H.cart_apply, div_mul_eq_mul_div, mul_div_assoc, abs_mul, abs_of_pos (hp i)]
  have : (1 : ℝ) ≤ |(z i : ℝ)| := by exact_mod_cast Int.one_le_abs hi
  exact le_mul_of_one_le_left (hp i).le this

/-- In one dimension the nearer end of an interval is the nearest multiple of its length. -/
theorem coord_nearest (x L : ℝ) (hL : 0 < L) (hx : 0 ≤ x ∧ x ≤ L) (w : ℤ) : (x - ((if x ≤ L / 2 then 0 else 1 : ℤ) : ℝ) * L) ^ 2 ≤ (x - w * L) ^ 2 := by
  obtain ⟨h0, h1⟩ := hx
  have hw : w ≤ 0 ∨ 1 ≤ w := by omega
  have hw' : (w : ℝ) * L ≤ 0 ∨ L ≤ w * L := by
    rcases hw with h | h
    · left
      have : (w : ℝ) ≤ 0 := by exact_mod_cast h
      exact mul_nonpos_of_nonpos_of_nonneg this hL.le
    · right
      have : (1 : ℝ) ≤ w := by exact_mod_cast h
      exact le_mul_of_one_le_left hL.le this
  generalize (w : ℝ) * L = y at hw'
  rw [sq_le_sq]
  by_cases c : x ≤ L / 2
  · rw [if_pos c, Int.cast_zero, zero_mul, sub_zero, abs_of_nonneg h0]
    rcases hw' with h | h
    · exact le_trans (by linarith) (le_abs_self _)
    · exact le_trans (by linarith) (neg_le_abs _)
  · rw [if_neg c, Int.cast_one, one_mul, abs_of_nonpos (by linarith)]
    rcases hw' with h | h
    · exact le_trans (by linarith) (le_abs_self _)
    · exact le_trans (by linarith) (neg_le_abs _)

/-- **C201c.** In an orthogonal cell that is not too elongated (the squares of the edges add up to at most sixteen times the square of each), the neighbourhood suffices: every sample of
the parallelepiped of the mesh is folded by a mesh vector into the cell of the origin of the whole, infinite mesh. -/
theorem C201_sufficient_partial (I : Inp) (l : Fin 3 → ℝ) (n : ℕ) (H : Ortho I l n) (hl : ∀ i, l 0 ^ 2 + l 1 ^ 2 + l 2 ^ 2 ≤ 16 * l i ^ 2) (Q : ℝ) (nb : List E3)
    (h : gammaNbhd I = .ok (Q, nb)) (near : E3 → E3) (hn : NearestOf nb near) (p : E3) (hp : ∀ i, 0 ≤ p i ∧ p i ≤ l i / n) :
    fold near p ∈ Cell (meshPts l n) ∧ p - fold near p ∈ meshPts l n := by
  obtain ⟨hle, i0, hi0⟩ := H.radius h
  have hn0 : (0 : ℝ) < n := by
    have := H.two
    exact_mod_cast (by omega : 0 < n)
  have hpos : ∀ i, 0 < l i / n := fun i => div_pos (H.pos i) hn0
  have hmem := (C201_neighbourhood I Q nb h).2.2
  classical
  let z : Fin 3 → ℤ := fun i => if p i ≤ l i / n / 2 then 0 else 1
  let a : E3 := cart I fun i => (z i : ℝ) / n
  have ha : ∀ i, a i = z i * (l i / n) := fun i => by
    show cart I _ i = _
    rw [H.cart_apply]
    ring
  have hz : ∀ i, z i = 0 ∨ z i = 1 := fun i => by
    by_cases e : p i ≤ l i / n / 2 <;> simp [z, e]
  have hQ0 : 0 ≤ 8 * Q := by
    have := hpos i0
    linarith
  have hanb : a ∈ nb := by
    rw [hmem]
    refine ⟨⟨_, (H.mem_full _).2 ⟨z, fun i => ?_, rfl⟩, rfl⟩, ?_⟩
    · have := H.two
      rcases hz i with e | e
      · rw [e, abs_zero]; exact_mod_cast (by omega : 0 < n)
      · rw [e, abs_one]; exact_mod_cast (by omega : 1 < n)
    · rw [← sq_le_sq₀ (norm_nonneg _) hQ0, EuclideanSpace.real_norm_sq_eq, Fin.sum_univ_three]
      have h1 : ∀ i, (a i) ^ 2 ≤ (l i / n) ^ 2 := fun i => by
        rw [ha]
        rcases hz i with e | e
        · rw [e]; simpa using sq_nonneg (l i / n)
        · rw [e]; simp
      have e8 : 8 * Q = 4 * (l i0 / n) := by linarith
      rw [e8]
      have h2 := hl i0
      have h3 : (l 0 / n) ^ 2 + (l 1 / n) ^ 2 + (l 2 / n) ^ 2 ≤ (4 * (l i0 / n)) ^ 2 := by
        rw [div_pow, div_pow, div_pow, mul_pow, div_pow, ← add_div, ← add_div, ← mul_div_assoc]
        exact div_le_div_of_nonneg_right (by linarith) (by positivity)
      linarith [h1 0, h1 1, h1 2]
  have key : ∀ c ∈ meshPts l n, ‖p - near p‖ ≤ ‖p - c‖ := by
    rintro c ⟨w, hw⟩
    refine le_trans ((hn p).2 a hanb) ?_
    rw [← sq_le_sq₀ (norm_nonneg _) (norm_nonneg _), EuclideanSpace.real_norm_sq_eq, EuclideanSpace.real_norm_sq_eq]
    refine Finset.sum_le_sum fun i _ => ?_
    rw [PiLp.sub_apply, PiLp.sub_apply, ha, hw]
    exact coord_nearest (p i) (l i / n) (hpos i) (hp i) (w i)
  have hnl : near p ∈ meshPts l n := by
    obtain ⟨⟨q, hq, he⟩, _⟩ := (hmem _).1 (hn p).1
    obtain ⟨w, _, rfl⟩ := (H.mem_full q).1 hq
    refine ⟨w, fun i => ?_⟩
    rw [← he, H.cart_apply]
    ring
  refine ⟨fun c hc => ?_, by simpa [fold] using hnl⟩
  obtain ⟨w, hw⟩ := hnl
  obtain ⟨w', hw'⟩ := hc
  have := key (near p + c) ⟨fun i => w i + w' i, fun i => by rw [PiLp.add_apply, hw, hw']; push_cast; ring⟩
  simpa [fold, sub_sub] using this

/-- **C201d (violation).** In an orthogonal cell one of whose edges is more than four times another, no point of the neighbourhood leads along the long edge: a sample in the farther half of that edge
stays outside the cell of the origin, whatever the search tree does. -/
theorem C201_elongated_violated (I : Inp) (l : Fin 3 → ℝ) (n : ℕ) (H : Ortho I l n) (i j : Fin 3) (hl : 4 * l j < l i) (Q : ℝ) (nb : List E3) (h : gammaNbhd I = .ok (Q, nb)) (near : E3 → E3)
    (hn : ∀ p, near p ∈ nb) (p : E3) (hp : l i / n / 2 < p i) : fold near p ∉ Cell (meshPts l n) := by
  obtain ⟨hle, -⟩ := H.radius h
  have hn0 : (0 : ℝ) < n := by
    have := H.two
    exact_mod_cast (by omega : 0 < n)
  have hpi : 0 < l i / n := div_pos (H.pos i) hn0
  obtain ⟨⟨q, hq, he⟩, hnorm⟩ := ((C201_neighbourhood I Q nb h).2.2 _).1 (hn p)
  obtain ⟨w, _, rfl⟩ := (H.mem_full q).1 hq
  have hc : near p i = w i * (l i / n) := by
    rw [← he, H.cart_apply]
    ring
  have hw : w i = 0 := by
    by_contra hw
    have h1 : |near p i| ≤ ‖near p‖ := by
      have := PiLp.norm_apply_le (near p) i
      rwa [Real.norm_eq_abs] at this
    have h2 : l i / n ≤ |near p i| := by
      rw [hc, abs_mul, abs_of_pos hpi]
      exact le_mul_of_one_le_left hpi.le (by exact_mod_cast Int.one_le_abs hw)
    have h3 := hle j
    have h4 : 4 * (l j / n) < l i / n := by
      rw [← mul_div_assoc]
      exact div_lt_div_of_pos_right hl hn0
    linarith
  have hf : fold near p i = p i := by
    show p i - near p i = p i
    rw [hc, hw]
    simp
  intro hcell
  have hm : EuclideanSpace.single i (l i / n) ∈ meshPts l n := ⟨Pi.single i 1, fun k => by
    by_cases e : k = i
    · subst e
      simp
    · simp [e]⟩
  have := hcell _ hm
  rw [← sq_le_sq₀ (norm_nonneg _) (norm_nonneg _), EuclideanSpace.real_norm_sq_eq, EuclideanSpace.real_norm_sq_eq,
    ← Finset.add_sum_erase _ _ (Finset.mem_univ i), ← Finset.add_sum_erase (a := i) _ (fun k => (fold near p - EuclideanSpace.single i (l i / n)) k ^ 2) (Finset.mem_univ i)] at this
  have hr : ∑ k ∈ Finset.univ.erase i, (fold near p - EuclideanSpace.single i (l i / n)) k ^ 2 = ∑ k ∈ Finset.univ.erase i, fold near p k ^ 2 :=
    Finset.sum_congr rfl fun k hk => by
      rw [PiLp.sub_apply, PiLp.single_apply, if_neg (Finset.ne_of_mem_erase hk), sub_zero]
  rw [hr, PiLp.sub_apply, PiLp.single_apply, if_pos rfl, hf] at this
  have h5 : (l i / n) * (2 * p i - l i / n) ≤ 0 := by linarith
  have h6 : 0 < (l i / n) * (2 * p i - l i / n) := mul_pos hpi (by linarith)
  linarith

/-- **C201e (violation).** So it is for every sample drawn by the program whose 32-bit integer for the long edge exceeds 2³¹, half of all of them. -/
theorem C201_half_of_samples_violated (I : Inp) (l : Fin 3 → ℝ) (n : ℕ) (H : Ortho I l n) (hlen : I.qs.length = n ^ 3) (i j : Fin 3) (hl : 4 * l j < l i) (Q : ℝ) (nb : List E3)
    (h : gammaNbhd I = .ok (Q, nb)) (near : E3 → E3) (hn : ∀ p, near p ∈ nb) (raw : ℕ → ℕ) (k : ℕ) (hr : 2 ^ 31 < raw (3 * k + i)) :
    fold near (sample I raw k) ∉ Cell (meshPts l n) := by
  refine C201_elongated_violated I l n H i j hl Q nb h near hn _ ?_
  have hn0 : (0 : ℝ) < n := by
    have := H.two
    exact_mod_cast (by omega : 0 < n)
  have hroot : ((I.qs.length : ℝ)) ^ (1 / 3 : ℝ) = n := by
    rw [hlen, Nat.cast_pow, ← Real.rpow_natCast, ← Real.rpow_mul hn0.le]
    norm_num
  unfold sample
  rw [H.cart_apply, hroot]
  have hr' : (2 : ℝ) ^ 31 < raw (3 * k + i) := by exact_mod_cast hr
  have : (raw (3 * k + i) : ℝ) * (1 / (2 ^ 32 * (n : ℝ))) * l i = raw (3 * k + i) / 2 ^ 32 * (l i / n) := by
    field_simp
  rw [this, div_eq_mul_one_div (l i / n) 2, mul_comm (l i / n) (1 / 2)]
  refine mul_lt_mul_of_pos_right ?_ (div_pos (H.pos i) hn0)
  rw [lt_div_iff₀ (by positivity)]
  norm_num at hr' ⊢
  linarith

/-- **C201f.** A shift of length below 1e-5 is treated as zero (the ball around the origin is integrated analytically); from 1e-5 on it is added to the samples. Without a q-point other than zero the
estimate cannot be made. -/
theorem C201_hybrid_cases (I : Inp) (raw : ℕ → ℕ) (near : List E3 → E3 → E3) (shift : Fin 3 → ℝ) (Q : ℝ) (nb : List E3) (h : gammaNbhd I = .ok (Q, nb)) :
    (‖cart I shift‖ < 1e-5 → hybrid I raw near shift =
      .ok (some (combineZero I.cellvol I.qs.length Q 2500000 fun i => fold (near nb) (sample I raw i)).1, (combineZero I.cellvol I.qs.length Q 2500000 fun i => fold (near nb) (sample I raw i)).2)) ∧
    (1e-5 ≤ ‖cart I shift‖ → hybrid I raw near shift =
      .ok (combineShift (vSphereShifted Q ‖cart I shift‖) (cart I shift) (nSamples Q ‖cart I shift‖) fun i => fold (near nb) (sample I raw i))) := by
  have e : (1e-5 : ℝ) = 1 / 100000 := by norm_num
  rw [e]
  unfold hybrid
  rw [h]
  exact ⟨fun c => if_pos c, fun c => if_neg (not_lt.2 c)⟩

/-! ## Cases that meet the hypotheses -/

/-- An orthogonal cell with the 2 × 2 × 2 mesh of q-points. -/
noncomputable def box (l : Fin 3 → ℝ) : Inp where
  b := fun i => EuclideanSpace.single i (l i)
  qs := [0, 1].flatMap fun a => [0, 1].flatMap fun b => [0, 1].map fun c => ![(a : ℝ) / 2, b / 2, c / 2]
  q0 := 0
  cellvol := 1

theorem box_ortho (l : Fin 3 → ℝ) (h : ∀ i, 1 ≤ l i) : Ortho (box l) l 2 where
  b := fun _ => rfl
  pos := fun i => lt_of_lt_of_le one_pos (h i)
  two := le_refl 2
  mesh := fun q => by
    have e : (box l).qs.set (box l).q0 0 = (box l).qs := by
      have : (0 : Fin 3 → ℝ) = ![(0 : ℝ) / 2, 0 / 2, 0 / 2] := by
        funext i
        fin_cases i <;> simp
      rw [this]
      rfl
    rw [e]
    simp only [box, List.mem_flatMap, List.mem_map, List.mem_cons, List.not_mem_nil, or_false]
    constructor
    · rintro ⟨a, ha, b, hb, c, hc, rfl⟩
      have hd : ∀ x : ℝ, x = 0 ∨ x = 1 → ∃ m : ℕ, m < 2 ∧ x = m := by
        rintro x (rfl | rfl)
        · exact ⟨0, by norm_num, by simp⟩
        · exact ⟨1, by norm_num, by simp⟩
      obtain ⟨m0, g0, rfl⟩ := hd a ha
      obtain ⟨m1, g1, rfl⟩ := hd b hb
      obtain ⟨m2, g2, rfl⟩ := hd c hc
      refine ⟨![m0, m1, m2], fun i => ?_, funext fun i => ?_⟩
      · fin_cases i <;> assumption
      · fin_cases i <;> simp
    · rintro ⟨k, hk, rfl⟩
      have hd : ∀ i, (k i : ℝ) = 0 ∨ (k i : ℝ) = 1 := fun i => by
        have := hk i
        have : k i = 0 ∨ k i = 1 := by omega
        rcases this with e | e <;> simp [e]
      refine ⟨_, hd 0, _, hd 1, _, hd 2, funext fun i => ?_⟩
      fin_cases i <;> simp
  long := fun i => by
    have h1 := h i
    have : (1 / 2 : ℝ) ≤ l i / (2 : ℕ) := by
      push_cast
      linarith
    have h2 : (1 / 2 : ℝ) ^ 2 ≤ (l i / (2 : ℕ)) ^ 2 := pow_le_pow_left₀ (by norm_num) this 2
    exact lt_of_lt_of_le (by norm_num) h2

/-- The neighbourhood exists for such a mesh. -/
theorem box_nbhd (l : Fin 3 → ℝ) (h : ∀ i, 1 ≤ l i) : ∃ Q nb, gammaNbhd (box l) = .ok (Q, nb) := by
  cases e : gammaNbhd (box l) with
  | ok r => exact ⟨r.1, r.2, rfl⟩
  | error er =>
    exfalso
    have H := box_ortho l h
    unfold gammaNbhd at e
    simp only at e
    split at e
    · rename_i hnone
      rw [List.min?_eq_none_iff, List.filter_eq_nil_iff] at hnone
      have hm : (fun j => (((Pi.single 0 1 : Fin 3 → ℤ) j : ℤ) : ℝ) / (2 : ℕ)) ∈ fullQ (box l) := (H.mem_full _).2 ⟨_, fun j => by
        by_cases c : j = 0
        · subst c; simp
        · simp [c], rfl⟩
      have := hnone _ (List.mem_map.2 ⟨_, hm, rfl⟩)
      refine this ?_
      rw [decide_eq_true_eq]
      refine lt_of_lt_of_le (H.long 0) ?_
      rw [EuclideanSpace.real_norm_sq_eq]
      refine le_trans (le_of_eq ?_) (Finset.single_le_sum (f := fun i => (cart (box l) _ i) ^ 2) (fun i _ => sq_nonneg _) (Finset.mem_univ 0))
      rw [H.cart_apply, Pi.single_eq_same]
      push_cast
      ring
    · cases e

/-- Non-vacuity: a cube is not too elongated; a cell with edges 1, 1, 5 is. Both have a neighbourhood, and the mesh has 2³ points. -/
example : (∃ Q nb, gammaNbhd (box fun _ => 1) = .ok (Q, nb)) ∧ (∃ Q nb, gammaNbhd (box ![1, 1, 5]) = .ok (Q, nb)) ∧ Ortho (box fun _ => 1) (fun _ => 1) 2 ∧ Ortho (box ![1, 1, 5]) ![1, 1, 5] 2 ∧
    (box ![1, 1, 5]).qs.length = 2 ^ 3 ∧ (4 * (![1, 1, 5] : Fin 3 → ℝ) 0 < (![1, 1, 5] : Fin 3 → ℝ) 2) := by
  have h5 : ∀ i, 1 ≤ (![1, 1, 5] : Fin 3 → ℝ) i := fun i => by fin_cases i <;> simp
  refine ⟨box_nbhd _ fun _ => le_refl _, box_nbhd _ h5, box_ortho _ fun _ => le_refl _, box_ortho _ h5, rfl, ?_⟩
  simp
  norm_num

end Verif.Vcoul
