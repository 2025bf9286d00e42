import Mathlib.Tactic.Linarith
import Mathlib.Algebra.BigOperators.Field
import Verif.Model.Loc
import Verif.Props.Nonloc

/-!
# Properties C78, C79: local pseudopotential, atomic density
-/

namespace Verif.Loc

open scoped ComplexConjugate

/-! ## C78: radial integrals -/

theorem foldl_add_range (n : ℕ) (f : ℕ → ℝ) (a : ℝ) : (List.range n).foldl (fun acc i => acc + f i) a = a + ∑ i ∈ Finset.range n, f i := by
  induction n with
  | zero => simp
  | succ n ih => rw [List.range_succ, List.foldl_append, ih, Finset.sum_range_succ]; simp [add_assoc]

/-- The weights of an odd mesh are those of the composite Simpson rule. -/
theorem weights_simpson (m : ℕ) (f : ℕ → ℝ) (hm : 1 ≤ m) :
    ∑ i ∈ Finset.range (2 * m + 1), f i * meshWeight (2 * m + 1) i = Nonloc.simpsonSpec f m := by
  have key : ∀ M, M ≤ m → ∑ i ∈ Finset.range (2 * M), f i * meshWeight (2 * m + 1) i
      = Nonloc.simpsonSpec f M - (if M = 0 then 0 else f (2 * M) / 3) := by
    intro M
    induction M with
    | zero => intro _; simp [Nonloc.simpsonSpec]
    | succ M ih =>
      intro hM
      rw [show 2 * (M + 1) = 2 * M + 1 + 1 from by ring, Finset.sum_range_succ, Finset.sum_range_succ, ih (by omega)]
      unfold Nonloc.simpsonSpec
      rw [Finset.sum_range_succ, if_neg (by omega : ¬ M + 1 = 0)]
      have h1 : meshWeight (2 * m + 1) (2 * M + 1) = 4 / 3 := by
        unfold meshWeight
        rw [if_pos (by omega), if_neg (by omega)]
        norm_num
      rw [h1]
      by_cases h0 : M = 0
      · subst h0
        have h2 : meshWeight (2 * m + 1) (2 * 0) = 1 / 3 := by
          unfold meshWeight
          rw [if_neg (by omega), if_neg (by omega)]
          norm_num
        rw [h2, if_pos rfl]
        ring
      · have h2 : meshWeight (2 * m + 1) (2 * M) = 2 / 3 := by
          unfold meshWeight
          rw [if_neg (by omega), if_pos (by omega)]
          norm_num
        rw [h2, if_neg h0]
        ring
  rw [Finset.sum_range_succ, key m le_rfl, if_neg (by omega)]
  have h1 : meshWeight (2 * m + 1) (2 * m) = 1 / 3 := by
    unfold meshWeight
    rw [if_neg (by omega), if_neg (by omega)]
    norm_num
  rw [h1]
  ring

/-- **C78a (violation).** For every odd mesh (`2m+1 ≥ 3` points) the plane-wave transform is the composite Simpson integral of
`sinc(G r) f r²` **plus a second copy of the first sample's contribution**. -/
theorem C78_sph2pw_value (m : ℕ) (hm : 1 ≤ m) (r r_ab f : ℕ → ℝ) (g : ℝ) :
    sph2pw (2 * m + 1) r r_ab f g
      = Nonloc.simpsonSpec (fun i => Real.sinc (g * r i) * f i * r_ab i) m + Real.sinc (g * r 0) * f 0 * r_ab 0 / 3 := by
  unfold sph2pw
  rw [foldl_add_range (2 * m + 1) (fun i => Real.sinc (g * r i) * f i * (r_ab i * meshWeight (2 * m + 1) i)),
    ← weights_simpson m _ hm]
  have h0 : meshWeight (2 * m + 1) 0 = 1 / 3 := by
    unfold meshWeight
    rw [if_neg (by omega), if_neg (by omega)]
    norm_num
  rw [h0, add_comm]
  congr 1
  · apply Finset.sum_congr rfl
    intro i _
    ring
  · ring

/-- **C78b.** It is the Simpson integral exactly when the first sample of `f r²` (or its weight) vanishes or `G r₀` is a zero of
`sinc` — in particular for meshes starting at `r = 0`, where `f r² = 0`. -/
theorem C78_sph2pw_simpson_partial (m : ℕ) (hm : 1 ≤ m) (r r_ab f : ℕ → ℝ) (g : ℝ) :
    sph2pw (2 * m + 1) r r_ab f g = Nonloc.simpsonSpec (fun i => Real.sinc (g * r i) * f i * r_ab i) m
      ↔ Real.sinc (g * r 0) = 0 ∨ f 0 = 0 ∨ r_ab 0 = 0 := by
  rw [C78_sph2pw_value m hm]
  constructor
  · intro h
    have : Real.sinc (g * r 0) * f 0 * r_ab 0 = 0 := by linarith
    rcases mul_eq_zero.1 this with h | h
    · rcases mul_eq_zero.1 h with h | h
      · exact .inl h
      · exact .inr (.inl h)
    · exact .inr (.inr h)
  · rintro (h | h | h) <;> simp [h]

/-- **C78c.** The `G = 0` integrals use the composite Simpson rule over the first `2⌊(n-1)/2⌋+1` points: right for odd meshes, last
point dropped for even ones. -/
theorem C78_simpson_old (n : ℕ) (f rab : ℕ → ℝ) :
    simpsonOld n f rab = Nonloc.simpsonSpec (fun i => f i * rab i) ((n - 1) / 2) := by
  unfold simpsonOld Nonloc.simpsonSpec
  rw [← Finset.sum_div, one_div, div_eq_inv_mul]
  by_cases h : 2 ≤ n
  · rw [show (n - 2 + 1) / 2 = (n - 1) / 2 by omega]
  · rw [show (n - 2 + 1) / 2 = 0 by omega, show (n - 1) / 2 = 0 by omega]

/-- **C78e (violation).** For an even mesh (`2m+2 ≥ 4` points) the result is neither the Simpson integral of the shorter odd mesh
nor one of the full mesh: the two last samples enter with a stray third each (and the first is counted twice). -/
theorem C78_sph2pw_even_mesh (m : ℕ) (hm : 1 ≤ m) (r r_ab f : ℕ → ℝ) (g : ℝ) :
    sph2pw (2 * m + 2) r r_ab f g
      = Nonloc.simpsonSpec (fun i => Real.sinc (g * r i) * f i * r_ab i) m + Real.sinc (g * r 0) * f 0 * r_ab 0 / 3
        + Real.sinc (g * r (2 * m)) * f (2 * m) * r_ab (2 * m) / 3
        + Real.sinc (g * r (2 * m + 1)) * f (2 * m + 1) * r_ab (2 * m + 1) / 3 := by
  rw [← C78_sph2pw_value m hm]
  unfold sph2pw
  rw [foldl_add_range (2 * m + 1) (fun i => Real.sinc (g * r i) * f i * (r_ab i * meshWeight (2 * m + 1) i)),
    foldl_add_range (2 * m + 2) (fun i => Real.sinc (g * r i) * f i * (r_ab i * meshWeight (2 * m + 2) i)),
    Finset.sum_range_succ, Finset.sum_range_succ, Finset.sum_range_succ]
  have h0 : meshWeight (2 * m + 1) 0 = meshWeight (2 * m + 2) 0 := by
    unfold meshWeight
    rw [if_neg (by omega), if_neg (by omega), if_neg (by omega), if_neg (by omega)]
  have h1 : meshWeight (2 * m + 1) (2 * m) = 1 / 3 := by
    unfold meshWeight
    rw [if_neg (by omega), if_neg (by omega)]
    norm_num
  have h2 : meshWeight (2 * m + 2) (2 * m) = 2 / 3 := by
    unfold meshWeight
    rw [if_neg (by omega), if_pos (by omega)]
    norm_num
  have h3 : meshWeight (2 * m + 2) (2 * m + 1) = 1 / 3 := by
    unfold meshWeight
    rw [if_neg (by omega), if_neg (by omega)]
    norm_num
  have hs : ∀ i ∈ Finset.range (2 * m), Real.sinc (g * r i) * f i * (r_ab i * meshWeight (2 * m + 2) i)
      = Real.sinc (g * r i) * f i * (r_ab i * meshWeight (2 * m + 1) i) := by
    intro i hi
    have hi := Finset.mem_range.1 hi
    congr 2
    unfold meshWeight
    congr 2
    · congr 1
      apply propext
      constructor <;> intro h <;> omega
    · apply propext
      constructor <;> intro h <;> omega
  rw [Finset.sum_congr rfl hs, h0, h1, h2, h3]
  ring

/-- **C78d (violation, concrete).** On the three-point mesh with samples `f r² = 1` the transform at `G = 0` would be `2`
(Simpson); the function returns `7/3`. -/
theorem C78_sph2pw_witness :
    sph2pw 3 (fun i => i) (fun _ => 1) (fun _ => 1) 0 = 7 / 3 ∧
      Nonloc.simpsonSpec (fun _ => Real.sinc 0 * 1 * 1) 1 = 2 := by
  constructor
  · rw [show 3 = 2 * 1 + 1 from rfl, C78_sph2pw_value 1 le_rfl]
    simp [Nonloc.simpsonSpec]
    norm_num
  · simp [Nonloc.simpsonSpec]
    norm_num

/-! ## C79: superposition over atoms -/

theorem structFac_eq (tau : List (Fin 3 → ℝ)) (G : Fin 3 → ℤ) : structFac tau G = (tau.map fun t => phase t G).sum := by
  unfold structFac
  have : ∀ a : ℂ, tau.foldl (fun acc t => acc + phase t G) a = a + (tau.map fun t => phase t G).sum := by
    induction tau with
    | nil => simp
    | cons t l ih => intro a; rw [List.foldl_cons, ih]; simp [add_assoc]
  rw [this, zero_add]

/-- What all three generators have in common: a real radial factor depending only on `|G|` (and on being the `G = 0` entry)
times the structure factor. -/
structure IsSuperposition (hasG0 : Bool) (gnorm : ℕ → ℝ) (F : List (Fin 3 → ℝ) → (ℕ → Fin 3 → ℤ) → ℕ → ℂ) : Prop where
  ex : ∃ form : ℕ → ℝ, (∀ i j, (i = 0 ↔ j = 0) ∨ hasG0 = false → gnorm i = gnorm j → form i = form j) ∧
    ∀ tau G j, F tau G j = (form j : ℂ) * structFac tau (G j)

/-- **C79a.** Atomic density, ionic potential and core density of a species are superpositions. -/
theorem C79_superpositions (erf : ℝ → ℝ) (D : RadialData) (hasG0 : Bool) (dv cellvol : ℝ) (N : ℕ) (gnorm : ℕ → ℝ) :
    IsSuperposition hasG0 gnorm (fun tau G => rhoAtomic D hasG0 dv tau G gnorm) ∧
    IsSuperposition hasG0 gnorm (fun tau G => vIon erf D hasG0 cellvol N tau G gnorm) ∧
    IsSuperposition hasG0 gnorm (fun tau G => rhoCore D hasG0 cellvol N tau G gnorm) := by
  have hc : ∀ i j : ℕ, (i = 0 ↔ j = 0) ∨ hasG0 = false → ((hasG0 = true ∧ i = 0) ↔ (hasG0 = true ∧ j = 0)) := by
    rintro i j (h | h)
    · rw [h]
    · simp [h]
  refine ⟨⟨⟨fun j => (if hasG0 = true ∧ j = 0 then simpsonOld D.n D.rhoatom D.r_ab else sph2pw D.n D.r D.r_ab D.rhoatom (gnorm j)) / dv, ?_, ?_⟩⟩,
    ⟨⟨fun j => (if hasG0 = true ∧ j = 0 then simpsonOld D.n (fun i => D.r i * (D.r i * D.vloc i + D.valence)) D.r_ab
    else sph2pw D.n D.r D.r_ab (fun i => (D.vloc i * D.r i + D.valence * erf (D.r i)) * D.r i) (gnorm j)
      - D.valence * Real.exp (-(gnorm j) ^ 2 / 4) / gnorm j ^ 2) * (4 * Real.pi / cellvol * N), ?_, ?_⟩⟩,
    ⟨⟨fun j => (match D.rho_atc with
    | some c => (if hasG0 = true ∧ j = 0 then simpsonOld D.n (fun i => c i * D.r i ^ 2) D.r_ab
        else sph2pw D.n D.r D.r_ab (fun i => c i * D.r i ^ 2) (gnorm j))
    | none => 0) * (4 * Real.pi / cellvol * N), ?_, ?_⟩⟩⟩
  · intro i j h1 h2
    simp only [h2, hc i j h1]
  · intro tau G j
    simp only [rhoAtomic]
    push_cast
    ring
  · intro i j h1 h2
    simp only [h2, hc i j h1]
  · intro tau G j
    simp only [vIon]
    push_cast
    ring
  · intro i j h1 h2
    simp only [h2, hc i j h1]
  · intro tau G j
    simp only [rhoCore]
    cases D.rho_atc with
    | none => simp
    | some c =>
      push_cast
      ring

theorem phase_shift (t s : Fin 3 → ℝ) (G : Fin 3 → ℤ) : phase (fun c => t c + s c) G = phase t G * phase s G := by
  unfold phase
  rw [← Complex.exp_add]
  congr 1
  simp only [add_mul, Finset.sum_add_distrib]
  push_cast
  ring

theorem phase_lattice (t : Fin 3 → ℝ) (n : Fin 3 → ℤ) (G : Fin 3 → ℤ) : phase (fun c => t c + n c) G = phase t G := by
  rw [phase_shift]
  have : phase (fun c => (n c : ℝ)) G = 1 := by
    unfold phase
    have := Nonloc.exp_int_shift 0 (∑ c, n c * G c)
    push_cast at this ⊢
    simpa using this
  rw [this, mul_one]

theorem phase_neg (t : Fin 3 → ℝ) (G : Fin 3 → ℤ) : phase t (fun c => -G c) = conj (phase t G) := by
  unfold phase
  rw [Nonloc.gridDot_exp_conj]
  congr 3
  simp

/-- **C79b.** The generated field is unchanged when atoms are listed in another order or replaced by periodic images. -/
theorem C79_images_and_order (hasG0 : Bool) (gnorm : ℕ → ℝ) (F : List (Fin 3 → ℝ) → (ℕ → Fin 3 → ℤ) → ℕ → ℂ)
    (hF : IsSuperposition hasG0 gnorm F) (tau tau' : List (Fin 3 → ℝ)) (G : ℕ → Fin 3 → ℤ) (j : ℕ)
    (h : ∃ tau'' : List (Fin 3 → ℝ), tau''.Perm tau' ∧ List.Forall₂ (fun a b : Fin 3 → ℝ => ∃ n : Fin 3 → ℤ, b = fun c => a c + n c) tau tau'') :
    F tau' G j = F tau G j := by
  obtain ⟨form, _, hf⟩ := hF.ex
  obtain ⟨tau'', hp, h2⟩ := h
  rw [hf, hf, structFac_eq, structFac_eq]
  congr 1
  rw [← (hp.map _).sum_eq]
  induction h2 generalizing tau' with
  | nil => rfl
  | cons hab _ ih =>
    obtain ⟨n, rfl⟩ := hab
    rw [List.map_cons, List.sum_cons, List.map_cons, List.sum_cons, phase_lattice, ih _ (List.Perm.refl _)]

/-- **C79c.** The field of a set of atoms is the sum of the fields of the single atoms, and at `G = 0` it is the number of atoms
times the radial integral. -/
theorem C79_additive (hasG0 : Bool) (gnorm : ℕ → ℝ) (F : List (Fin 3 → ℝ) → (ℕ → Fin 3 → ℤ) → ℕ → ℂ)
    (hF : IsSuperposition hasG0 gnorm F) (tau tau' : List (Fin 3 → ℝ)) (G : ℕ → Fin 3 → ℤ) (j : ℕ) :
    F (tau ++ tau') G j = F tau G j + F tau' G j ∧ F [] G j = 0 ∧
    (G j = 0 → ∀ t, F tau G j = tau.length * F [t] G j) := by
  obtain ⟨form, _, hf⟩ := hF.ex
  refine ⟨?_, ?_, ?_⟩
  · simp only [hf, structFac_eq, List.map_append, List.sum_append]
    ring
  · simp [hf, structFac_eq]
  · intro h0 t
    have hp : ∀ t, phase t (G j) = 1 := by
      intro t
      rw [h0]
      unfold phase
      simp
    simp only [hf, structFac_eq, hp, List.map_const', List.sum_replicate]
    simp
    ring

/-- **C79d.** The number of electrons of the superposed atomic density (`data[0]·dv`) is the number of atoms times the integral of
the atomic density over the mesh. -/
theorem C79_total_charge (D : RadialData) (dv : ℝ) (hdv : dv ≠ 0) (tau : List (Fin 3 → ℝ)) (G : ℕ → Fin 3 → ℤ) (gnorm : ℕ → ℝ)
    (h0 : G 0 = 0) :
    rhoAtomic D true dv tau G gnorm 0 * dv
      = tau.length * (Nonloc.simpsonSpec (fun i => D.rhoatom i * D.r_ab i) ((D.n - 1) / 2) : ℝ) := by
  unfold rhoAtomic
  rw [if_pos ⟨rfl, rfl⟩, C78_simpson_old, structFac_eq, h0]
  have hp : ∀ t, phase t 0 = 1 := by
    intro t
    unfold phase
    simp
  have hd : (dv : ℂ) ≠ 0 := by exact_mod_cast hdv
  simp only [hp, List.map_const', List.sum_replicate, nsmul_eq_mul, mul_one]
  field_simp

/-- Value at crystal point `x` of the field with plane-wave coefficients `f` on the first `n` G-vectors. -/
noncomputable def synth (n : ℕ) (G : ℕ → Fin 3 → ℤ) (f : ℕ → ℂ) (x : Fin 3 → ℝ) : ℂ :=
  ∑ j ∈ Finset.range n, f j * conj (phase x (G j))

/-- **C79e.** The generated fields are real everywhere in real space, for every G-set closed under `G ↦ -G` with `G = 0` (only)
first. -/
theorem C79_real (hasG0 : Bool) (gnorm : ℕ → ℝ) (F : List (Fin 3 → ℝ) → (ℕ → Fin 3 → ℤ) → ℕ → ℂ)
    (hF : IsSuperposition hasG0 gnorm F) (tau : List (Fin 3 → ℝ)) (n : ℕ) (G : ℕ → Fin 3 → ℤ)
    (neg : ℕ → ℕ) (hneg : ∀ j < n, neg j < n ∧ (∀ c, G (neg j) c = -G j c) ∧ gnorm (neg j) = gnorm j ∧ neg (neg j) = j
      ∧ (neg j = 0 ↔ j = 0)) (x : Fin 3 → ℝ) :
    conj (synth n G (F tau G) x) = synth n G (F tau G) x := by
  obtain ⟨form, hform, hf⟩ := hF.ex
  unfold synth
  rw [map_sum]
  have hphase : ∀ t j, j < n → phase t (G (neg j)) = conj (phase t (G j)) := by
    intro t j hj
    rw [← phase_neg]
    congr 1
    funext c
    exact (hneg j hj).2.1 c
  have hS : ∀ j < n, conj (structFac tau (G j)) = structFac tau (G (neg j)) := by
    intro j hj
    rw [structFac_eq, structFac_eq, map_list_sum, List.map_map]
    congr 1
    apply List.map_congr_left
    intro t _
    exact (hphase t j hj).symm
  refine Finset.sum_nbij neg ?_ ?_ ?_ ?_
  · intro j hj
    exact Finset.mem_range.2 (hneg j (Finset.mem_range.1 hj)).1
  · intro i hi j hj h
    have hi := Finset.mem_range.1 (Finset.mem_coe.1 hi)
    have hj := Finset.mem_range.1 (Finset.mem_coe.1 hj)
    have h : neg i = neg j := h
    rw [← (hneg i hi).2.2.2.1, h, (hneg j hj).2.2.2.1]
  · intro j hj
    have hj := Finset.mem_range.1 (Finset.mem_coe.1 hj)
    exact ⟨neg j, Finset.mem_coe.2 (Finset.mem_range.2 (hneg j hj).1), (hneg j hj).2.2.2.1⟩
  · intro j hj
    have hj := Finset.mem_range.1 hj
    rw [hf, hf, map_mul, map_mul, Complex.conj_ofReal, hS j hj, Complex.conj_conj, hphase x j hj, Complex.conj_conj,
      hform (neg j) j (.inl (hneg j hj).2.2.2.2) (hneg j hj).2.2.1]

/-- **C79f.** Moving every atom by `t` moves the field by `t`. -/
theorem C79_translation (hasG0 : Bool) (gnorm : ℕ → ℝ) (F : List (Fin 3 → ℝ) → (ℕ → Fin 3 → ℤ) → ℕ → ℂ)
    (hF : IsSuperposition hasG0 gnorm F) (tau : List (Fin 3 → ℝ)) (n : ℕ) (G : ℕ → Fin 3 → ℤ) (t x : Fin 3 → ℝ) :
    synth n G (F (tau.map fun a c => a c + t c) G) (fun c => x c + t c) = synth n G (F tau G) x := by
  obtain ⟨form, _, hf⟩ := hF.ex
  unfold synth
  apply Finset.sum_congr rfl
  intro j _
  have h1 : phase t (G j) * conj (phase t (G j)) = 1 := by
    unfold phase
    rw [Nonloc.gridDot_exp_conj, ← Complex.exp_add]
    rw [← Complex.exp_zero]
    congr 1
    push_cast
    ring
  have h2 : structFac (tau.map fun a c => a c + t c) (G j) = structFac tau (G j) * phase t (G j) := by
    rw [structFac_eq, structFac_eq, List.map_map, ← List.sum_map_mul_right]
    congr 1
    apply List.map_congr_left
    intro a _
    exact phase_shift a t (G j)
  rw [hf, hf, h2, phase_shift, map_mul]
  linear_combination (form j : ℂ) * structFac tau (G j) * conj (phase x (G j)) * h1

/-- A mesh and a two-atom species to which the hypotheses apply: the charge of two atoms on a three-point mesh. -/
example : rhoAtomic ⟨3, fun i => i, fun _ => 1, fun i => i, fun _ => 0, 1, none⟩ true 1 [0, 0] (fun _ => 0) (fun _ => 0) 0 = 4 := by
  have := C79_total_charge ⟨3, fun i => i, fun _ => 1, fun i => i, fun _ => 0, 1, none⟩ 1 one_ne_zero [0, 0] (fun _ => 0) (fun _ => 0) rfl
  rw [Complex.ofReal_one, mul_one] at this
  rw [this]
  simp [Nonloc.simpsonSpec]
  norm_num

end Verif.Loc
