import Verif.Model.RandInit
import Verif.Props.PotDist

/-!
# C208: random starting wavefunctions
-/

namespace Verif.RandInit

theorem chunk_le (b : ℕ) : chunk b ≤ b := Nat.div_mul_le_self b 10

theorem chunk_lt (b : ℕ) : b < chunk b + 10 := by unfold chunk; omega

theorem pos_lt (a w r j : ℕ) (hr : a < r) (hj : j < w) : a * w + j < r * w := by
  have : (a + 1) * w ≤ r * w := Nat.mul_le_mul_right _ hr
  rw [Nat.add_mul, Nat.one_mul] at this
  omega

theorem rad_inj (w a a' j j' : ℕ) (hj : j < w) (hj' : j' < w) (h : a * w + j = a' * w + j') : a = a' ∧ j = j' := by
  have h0 : 0 < w := by omega
  have e1 : (a * w + j) / w = a := by rw [Nat.mul_comm, Nat.mul_add_div h0, Nat.div_eq_of_lt hj, Nat.add_zero]
  have e2 : (a' * w + j') / w = a' := by rw [Nat.mul_comm, Nat.mul_add_div h0, Nat.div_eq_of_lt hj', Nat.add_zero]
  have : a = a' := by rw [← e1, ← e2, h]
  subst this
  exact ⟨rfl, by omega⟩

theorem row_lt (nb b : ℕ) (hb : b < nb) : b - chunk b < rows nb b := by
  unfold rows
  have := chunk_le b
  have := chunk_lt b
  omega

/-- Positions as multiples of the row length. -/
theorem posR_eq (w b j : ℕ) : posR w b j = (2 * chunk b + (b - chunk b)) * w + j := by unfold posR; ring

theorem posI_eq (nb w b j : ℕ) : posI nb w b j = (2 * chunk b + rows nb b + (b - chunk b)) * w + j := by unfold posI; ring

/-- **C208, independent numbers.** No number of the generator is used twice: the modulus and phase of all coefficients of all bands come from different draws, and no more than `2 * nb * w` numbers are drawn. -/
theorem C208_fresh_numbers (nb w : ℕ) (b b' : ℕ) (hb : b < nb) (hb' : b' < nb) (j j' : ℕ) (hj : j < w) (hj' : j' < w) :
    (posR w b j = posR w b' j' → b = b' ∧ j = j') ∧ (posI nb w b j = posI nb w b' j' → b = b' ∧ j = j') ∧ posR w b j ≠ posI nb w b' j' ∧ posR w b j < 2 * nb * w ∧ posI nb w b j < 2 * nb * w := by
  rw [posR_eq, posR_eq, posI_eq, posI_eq]
  have h1 := row_lt nb b hb
  have h2 := row_lt nb b' hb'
  have c1 := chunk_le b
  have c2 := chunk_le b'
  have d1 := chunk_lt b
  have d2 := chunk_lt b'
  have m1 : ∃ m, chunk b = m * 10 := ⟨_, rfl⟩
  have m2 : ∃ m, chunk b' = m * 10 := ⟨_, rfl⟩
  have r1 : rows nb b = min 10 (nb - chunk b) := rfl
  have r2 : rows nb b' = min 10 (nb - chunk b') := rfl
  generalize chunk b = x at *
  generalize chunk b' = x' at *
  generalize rows nb b = r at *
  generalize rows nb b' = r' at *
  obtain ⟨m, rfl⟩ := m1
  obtain ⟨m', rfl⟩ := m2
  refine ⟨fun h => ?_, fun h => ?_, fun h => ?_, pos_lt _ _ _ _ (by omega) hj, pos_lt _ _ _ _ (by omega) hj⟩
  · obtain ⟨h, rfl⟩ := rad_inj w _ _ j j' hj hj' h
    exact ⟨by omega, rfl⟩
  · obtain ⟨h, rfl⟩ := rad_inj w _ _ j j' hj hj' h
    exact ⟨by omega, rfl⟩
  · obtain ⟨h, rfl⟩ := rad_inj w _ _ j j' hj hj' h
    omega

/-- The starting wavefunctions, when the call succeeds. -/
theorem initRandom_ok (u : ℕ → ℝ) (nb n : ℕ) (gk2 : ℕ → ℝ) : initRandom u nb n n gk2 =
    .ok fun b j => (u (posR n b j) : ℂ) * Complex.exp (2 * Real.pi * Complex.I * (u (posI nb n b j) : ℂ)) / ((1 + gk2 (if n = 1 then 0 else j) : ℝ) : ℂ) := by
  unfold initRandom
  rw [if_neg (by simp)]

theorem norm_coeff (x y z : ℝ) (hx : 0 ≤ x) (hz : 0 ≤ z) : ‖(x : ℂ) * Complex.exp (2 * Real.pi * Complex.I * (y : ℂ)) / ((1 + z : ℝ) : ℂ)‖ = x / (1 + z) := by
  rw [norm_div, norm_mul, Complex.norm_real, Complex.norm_real, Real.norm_of_nonneg hx, Real.norm_of_nonneg (by linarith)]
  have : (2 * Real.pi * Complex.I * (y : ℂ)) = ((2 * Real.pi * y : ℝ) : ℂ) * Complex.I := by push_cast; ring
  rw [this, Complex.norm_exp_ofReal_mul_I, mul_one]

/-- **C208, size.** For collinear wavefunctions the call succeeds for every k-point, seed and number of bands; the modulus of the coefficient of plane wave `j` in band `b` is one draw of the generator over `1 + |k+G|²`: below
`1 / (1 + |k+G|²)`. -/
theorem C208_size (rng : Rng) (hr : ∀ k seed n, 0 ≤ rng k seed n ∧ rng k seed n < 1) (seed : ℕ) (k : List ℕ) (nb n : ℕ) (gk2 : ℕ → ℝ) (hg : ∀ j, 0 ≤ gk2 j) :
    ∃ evc, start rng seed k nb 1 n gk2 = .ok evc ∧ ∀ b < nb, ∀ j < n, ‖evc b j‖ = rng k seed (posR n b j) / (1 + gk2 j) ∧ ‖evc b j‖ < 1 / (1 + gk2 j) := by
  unfold start
  rw [Nat.one_mul, initRandom_ok]
  refine ⟨_, rfl, fun b _ j hj => ?_⟩
  have hj1 : gk2 (if n = 1 then 0 else j) = gk2 j := by
    by_cases h : n = 1
    · rw [if_pos h, show j = 0 by omega]
    · rw [if_neg h]
  have e : ‖(rng k seed (posR n b j) : ℂ) * Complex.exp (2 * Real.pi * Complex.I * (rng k seed (posI nb n b j) : ℂ)) / ((1 + gk2 (if n = 1 then 0 else j) : ℝ) : ℂ)‖ = rng k seed (posR n b j) / (1 + gk2 j) := by
    rw [norm_coeff _ _ _ (hr k seed _).1 (hg _), hj1]
  refine ⟨e, ?_⟩
  show ‖(rng k seed (posR n b j) : ℂ) * Complex.exp (2 * Real.pi * Complex.I * (rng k seed (posI nb n b j) : ℂ)) / ((1 + gk2 (if n = 1 then 0 else j) : ℝ) : ℂ)‖ < _
  rw [e]
  exact div_lt_div_of_pos_right (hr k seed _).2 (by have := hg j; linarith)

/-- **C208, more bands.** The starting vectors of all complete groups of ten bands do not change when more bands are asked for. Missing: the bands of the last, incomplete group change (`C208_more_bands_violated`). -/
theorem C208_more_bands_partial (rng : Rng) (seed : ℕ) (k : List ℕ) (nb nb' n : ℕ) (gk2 : ℕ → ℝ) (h : nb ≤ nb') (evc evc' : ℕ → ℕ → ℂ) (h1 : start rng seed k nb 1 n gk2 = .ok evc)
    (h2 : start rng seed k nb' 1 n gk2 = .ok evc') (b : ℕ) (hb : b < nb / 10 * 10) (j : ℕ) : evc b j = evc' b j := by
  unfold start at h1 h2
  rw [Nat.one_mul, initRandom_ok] at h1 h2
  rw [← Except.ok.inj h1, ← Except.ok.inj h2]
  have : posI nb n b j = posI nb' n b j := by
    unfold posI rows chunk
    rw [Nat.min_eq_left (by omega), Nat.min_eq_left (by omega)]
  simp only [this]

/-- **C208, violation.** Already the first band changes when a second one is asked for: for one plane wave the phase is the second draw of the generator with one band and the third with two. -/
theorem C208_more_bands_violated : ∃ (rng : Rng) (evc evc' : ℕ → ℕ → ℂ), (∀ k seed n, 0 ≤ rng k seed n ∧ rng k seed n < 1) ∧ start rng 0 [] 1 1 1 (fun _ => 0) = .ok evc ∧
    start rng 0 [] 2 1 1 (fun _ => 0) = .ok evc' ∧ evc 0 0 ≠ evc' 0 0 := by
  refine ⟨fun _ _ n => if n = 1 then 0 else 1 / 2, _, _, fun k seed n => ?_, (initRandom_ok _ 1 1 _ : _), (initRandom_ok _ 2 1 _ : _), ?_⟩
  · by_cases h : n = 1 <;> simp only [h, if_true, if_false] <;> norm_num
  · have p1 : posR 1 0 0 = 0 := rfl
    have p2 : posI 1 1 0 0 = 1 := rfl
    have p3 : posI 2 1 0 0 = 2 := rfl
    simp only [p1, p2, p3]
    have e : Complex.exp (2 * Real.pi * Complex.I * ((1 / 2 : ℝ) : ℂ)) = -1 := by
      have : (2 * Real.pi * Complex.I * ((1 / 2 : ℝ) : ℂ)) = Real.pi * Complex.I := by push_cast; ring
      rw [this, Complex.exp_pi_mul_I]
    have q1 : (if (1 : ℕ) = 1 then (0 : ℝ) else 1 / 2) = 0 := if_pos rfl
    have q2 : (if (2 : ℕ) = 1 then (0 : ℝ) else 1 / 2) = 1 / 2 := if_neg (by norm_num)
    have q3 : (if (0 : ℕ) = 1 then (0 : ℝ) else 1 / 2) = 1 / 2 := if_neg (by norm_num)
    show ((if (0 : ℕ) = 1 then (0 : ℝ) else 1 / 2 : ℝ) : ℂ) * Complex.exp (2 * Real.pi * Complex.I * ((if (1 : ℕ) = 1 then (0 : ℝ) else 1 / 2 : ℝ) : ℂ)) / ((1 + 0 : ℝ) : ℂ) ≠
      ((if (0 : ℕ) = 1 then (0 : ℝ) else 1 / 2 : ℝ) : ℂ) * Complex.exp (2 * Real.pi * Complex.I * ((if (2 : ℕ) = 1 then (0 : ℝ) else 1 / 2 : ℝ) : ℂ)) / ((1 + 0 : ℝ) : ℂ)
    rw [q1, q2, q3, e]
    norm_num

/-- **C208, violation.** Non-collinear wavefunctions cannot be started: with two spin components the call raises `ValueError` for every k-point with more than one plane wave. -/
theorem C208_noncollinear_fails (rng : Rng) (seed : ℕ) (k : List ℕ) (nb n : ℕ) (gk2 : ℕ → ℝ) (hn : 1 < n) : start rng seed k nb 2 n gk2 = .error .value := by
  unfold start initRandom
  rw [if_pos ⟨by omega, by omega⟩]

/-- Every process but the first starts after the first plane wave. -/
theorem g0pos_pos (S : Dist.Setup) (hS : S.Ok) (p : ℕ) (h : 0 < p) : 0 < PotDist.g0pos S p := by
  have hn : 0 < S.stk.length := lt_of_lt_of_le hS.pos hS.sticks
  have hidx : S.idx ≠ [] := by
    intro e
    have := (S.mem_stk _).1 (List.getElem_mem hn)
    unfold Dist.Setup.iyz at this
    rw [e] at this
    simp at this
  have h1 := (Dist.C12_first_process_owns S hS).1 S.idx rfl
  have h2 : 0 < (S.cutG 0 S.idx).length := by
    rw [List.length_pos_iff]
    intro e
    rw [e] at h1
    exact hidx (List.head?_eq_none_iff.1 h1.symm)
  have h3 := PotDist.cutG_length S hS S.idx rfl 0 hS.pos
  have h4 : PotDist.g0pos S 1 ≤ PotDist.g0pos S p := Dist.cutAt_mono S (Scatter.sliceStart_mono _ _ h)
  rw [Nat.zero_add] at h3
  omega

/-- **C208, violation.** The start depends on how the plane waves are distributed: every process seeds its generator alike, so that in the first band the `j`-th plane wave of every process starts with the same draw, and with
more than one process the parts are those of the serial start only if the generator repeats itself. -/
theorem C208_distribution_violated (S : Dist.Setup) (hS : S.Ok) (rng : Rng) (hr : ∀ k seed n, 0 ≤ rng k seed n) (seed : ℕ) (k : List ℕ) (hinj : Function.Injective (rng k seed)) (nb : ℕ)
    (gk2 : ℕ → ℝ) (hg : ∀ j, 0 ≤ gk2 j) (p : Fin S.P) (hp : 0 < p.1) (hlen : 0 < (S.cutG p S.idx).length) (evc evcP : ℕ → ℕ → ℂ) (h1 : start rng seed k nb 1 S.idx.length gk2 = .ok evc)
    (h2 : start rng seed k nb 1 (S.cutG p S.idx).length (fun j => gk2 (PotDist.g0pos S p + j)) = .ok evcP) : evcP 0 0 ≠ evc 0 (PotDist.g0pos S p) := by
  have hpos := g0pos_pos S hS p.1 hp
  have hlt : PotDist.g0pos S p + 0 < S.idx.length := by
    have := (PotDist.eG S hS p ⟨0, hlen⟩).2
    exact this
  unfold start at h1 h2
  rw [Nat.one_mul, initRandom_ok] at h1 h2
  rw [← Except.ok.inj h1, ← Except.ok.inj h2]
  intro h
  have h' := congrArg norm h
  rw [norm_coeff _ _ _ (hr _ _ _) (hg _), norm_coeff _ _ _ (hr _ _ _) (hg _)] at h'
  have e1 : (if (S.cutG p S.idx).length = 1 then 0 else 0) = 0 := by split <;> rfl
  have e2 : (if S.idx.length = 1 then 0 else PotDist.g0pos S p) = PotDist.g0pos S p := by rw [if_neg (by omega)]
  rw [e1, e2, Nat.add_zero] at h'
  have hz : (1 + gk2 (PotDist.g0pos S p)) ≠ 0 := by have := hg (PotDist.g0pos S p); linarith
  have h3 := hinj ((div_left_inj' hz).1 h')
  have : posR (S.cutG p S.idx).length 0 0 = 0 := by simp [posR, chunk]
  rw [this] at h3
  have : posR S.idx.length 0 (PotDist.g0pos S p) = PotDist.g0pos S p := by simp [posR, chunk]
  omega

/-- The hypotheses are met: twelve bands of three plane waves; the last group has two rows, its phases follow its six moduli. -/
example : posR 3 11 2 = 65 ∧ posI 12 3 11 2 = 71 ∧ posR 3 9 0 = 27 ∧ posI 12 3 9 0 = 57 ∧ posI 12 3 10 0 = 66 := by decide

example : 0 < PotDist.g0pos PotDist.exS 1 := g0pos_pos _ PotDist.exS_ok 1 (by decide)

/-- A generator as in `C208_distribution_violated`: numbers in `[0, 1)` without repetition. -/
example : ∃ rng : Rng, (∀ k seed n, 0 ≤ rng k seed n ∧ rng k seed n < 1) ∧ ∀ k seed, Function.Injective (rng k seed) := by
  refine ⟨fun _ _ n => 1 / ((n : ℝ) + 2), fun _ _ n => ⟨by positivity, ?_⟩, fun _ _ a b h => ?_⟩
  · rw [div_lt_one (by positivity)]
    have : (0 : ℝ) ≤ n := Nat.cast_nonneg n
    linarith
  · have h1 : (0 : ℝ) < (a : ℝ) + 2 := by positivity
    have h2 : (0 : ℝ) < (b : ℝ) + 2 := by positivity
    have h' : 1 / ((a : ℝ) + 2) = 1 / ((b : ℝ) + 2) := h
    rw [div_eq_div_iff h1.ne' h2.ne'] at h'
    have : (a : ℝ) = b := by linarith
    exact_mod_cast this

end Verif.RandInit
