import Mathlib.Tactic.Ring
import Mathlib.Tactic.Linarith
import Mathlib.Tactic.Positivity
import Mathlib.Tactic.FieldSimp
import Mathlib.Tactic.FinCases
import Mathlib.Tactic.Tauto
import Mathlib.Data.Nat.Log
import Mathlib.Data.Nat.Prime.Basic
import Mathlib.LinearAlgebra.Matrix.Determinant.Basic
import Mathlib.LinearAlgebra.Span.Basic
import Verif.Model.QECell

/-!
# Bravais lattices of the QE interface (C51, C86, C87, C88)

The specification is crystallographic and independent of the code: a lattice is of a given Bravais type if it is generated by a conventional cell
with the prescribed lengths and angles together with the centring translations of that type.
-/

namespace Verif.QECell

open Matrix

/-! ## Specification -/

/-- Lengths and angle cosines of a conventional cell (`ca` is the angle between the second and third vector, and so on). -/
structure Params where
  a : ℝ
  b : ℝ
  c : ℝ
  ca : ℝ
  cb : ℝ
  cg : ℝ

inductive Centring
  | P | F | I | A | B | C

/-- Centring translations in units of the conventional vectors (International Tables, table 2.1.1.2). -/
noncomputable def centring : Centring → List (Fin 3 → ℝ)
  | .P => []
  | .F => [![0, 1 / 2, 1 / 2], ![1 / 2, 0, 1 / 2], ![1 / 2, 1 / 2, 0]]
  | .I => [![1 / 2, 1 / 2, 1 / 2]]
  | .A => [![0, 1 / 2, 1 / 2]]
  | .B => [![1 / 2, 0, 1 / 2]]
  | .C => [![1 / 2, 1 / 2, 0]]

/-- The three vectors have the prescribed lengths and angles. -/
def HasMetric (K : Fin 3 → Fin 3 → ℝ) (p : Params) : Prop :=
  K 0 ⬝ᵥ K 0 = p.a ^ 2 ∧ K 1 ⬝ᵥ K 1 = p.b ^ 2 ∧ K 2 ⬝ᵥ K 2 = p.c ^ 2 ∧
  K 1 ⬝ᵥ K 2 = p.b * p.c * p.ca ∧ K 0 ⬝ᵥ K 2 = p.a * p.c * p.cb ∧ K 0 ⬝ᵥ K 1 = p.a * p.b * p.cg

/-- Such a (non-degenerate) cell exists. -/
def Params.Valid (p : Params) : Prop :=
  0 < p.a ∧ 0 < p.b ∧ 0 < p.c ∧ p.ca ^ 2 < 1 ∧ p.cb ^ 2 < 1 ∧ p.cg ^ 2 < 1 ∧
  0 < 1 + 2 * p.ca * p.cb * p.cg - p.ca ^ 2 - p.cb ^ 2 - p.cg ^ 2

/-- The vectors `v 0, v 1, v 2` generate the lattice with conventional cell `p` and centring `t`. -/
def IsBravais (t : Centring) (p : Params) (v : Fin 3 → Fin 3 → ℝ) : Prop :=
  ∃ K : Fin 3 → Fin 3 → ℝ, HasMetric K p ∧
    Submodule.span ℤ (Set.range v) = Submodule.span ℤ (Set.range K ∪ {w | ∃ q ∈ centring t, w = ∑ i, q i • K i})

/-- The `celldm` entries each `ibrav` needs (QE documentation, INPUT_PW). -/
def required (ibrav : ℤ) : List ℕ :=
  if ibrav ∈ [1, 2, 3, -3] then [1]
  else if ibrav ∈ [4, 6, 7] then [1, 3]
  else if ibrav ∈ [5, -5] then [1, 4]
  else if ibrav ∈ [8, 9, -9, 91, 10, 11] then [1, 2, 3]
  else if ibrav ∈ [12, 13] then [1, 2, 3, 4]
  else if ibrav ∈ [-12, -13] then [1, 2, 3, 5]
  else [1, 2, 3, 4, 5, 6]

/-- The lattice each `ibrav` stands for, from `celldm(1) = a`, `celldm(2) = b/a`, `celldm(3) = c/a` and the cosines (QE documentation). -/
noncomputable def latticeOf (ibrav : ℤ) (x : ℕ → ℝ) : Option (Centring × Params) :=
  if ibrav = 1 then some (.P, ⟨x 1, x 1, x 1, 0, 0, 0⟩)
  else if ibrav = 2 then some (.F, ⟨x 1, x 1, x 1, 0, 0, 0⟩)
  else if ibrav = 3 then some (.I, ⟨x 1, x 1, x 1, 0, 0, 0⟩)
  else if ibrav = -3 then some (.I, ⟨x 1, x 1, x 1, 0, 0, 0⟩)
  else if ibrav = 4 then some (.P, ⟨x 1, x 1, x 3 * x 1, 0, 0, -1 / 2⟩)
  else if ibrav = 5 then some (.P, ⟨x 1, x 1, x 1, x 4, x 4, x 4⟩)
  else if ibrav = -5 then some (.P, ⟨x 1, x 1, x 1, x 4, x 4, x 4⟩)
  else if ibrav = 6 then some (.P, ⟨x 1, x 1, x 3 * x 1, 0, 0, 0⟩)
  else if ibrav = 7 then some (.I, ⟨x 1, x 1, x 3 * x 1, 0, 0, 0⟩)
  else if ibrav = 8 then some (.P, ⟨x 1, x 2 * x 1, x 3 * x 1, 0, 0, 0⟩)
  else if ibrav = 9 then some (.C, ⟨x 1, x 2 * x 1, x 3 * x 1, 0, 0, 0⟩)
  else if ibrav = -9 then some (.C, ⟨x 1, x 2 * x 1, x 3 * x 1, 0, 0, 0⟩)
  else if ibrav = 91 then some (.A, ⟨x 1, x 2 * x 1, x 3 * x 1, 0, 0, 0⟩)
  else if ibrav = 10 then some (.F, ⟨x 1, x 2 * x 1, x 3 * x 1, 0, 0, 0⟩)
  else if ibrav = 11 then some (.I, ⟨x 1, x 2 * x 1, x 3 * x 1, 0, 0, 0⟩)
  else if ibrav = 12 then some (.P, ⟨x 1, x 2 * x 1, x 3 * x 1, 0, 0, x 4⟩)
  else if ibrav = -12 then some (.P, ⟨x 1, x 2 * x 1, x 3 * x 1, 0, x 5, 0⟩)
  else if ibrav = 13 then some (.B, ⟨x 1, x 2 * x 1, x 3 * x 1, 0, 0, x 4⟩)
  else if ibrav = -13 then some (.C, ⟨x 1, x 2 * x 1, x 3 * x 1, 0, x 5, 0⟩)
  else if ibrav = 14 then some (.P, ⟨x 1, x 2 * x 1, x 3 * x 1, x 4, x 5, x 6⟩)
  else none

/-! ## Tools -/

theorem span_mem (v : Fin 3 → Fin 3 → ℝ) (n : Fin 3 → ℤ) {w : Fin 3 → ℝ} (h : w = n 0 • v 0 + n 1 • v 1 + n 2 • v 2) :
    w ∈ Submodule.span ℤ (Set.range v) := by
  rw [h]
  refine Submodule.add_mem _ (Submodule.add_mem _ ?_ ?_) ?_ <;>
    exact Submodule.smul_mem _ _ (Submodule.subset_span ⟨_, rfl⟩)

theorem gens_mem (K : Fin 3 → Fin 3 → ℝ) {t : Centring} {q : Fin 3 → ℝ} (hq : q ∈ centring t) (n : Fin 3 → ℤ) (m : ℤ) {w : Fin 3 → ℝ}
    (h : w = n 0 • K 0 + n 1 • K 1 + n 2 • K 2 + m • ∑ i, q i • K i) :
    w ∈ Submodule.span ℤ (Set.range K ∪ {w | ∃ q ∈ centring t, w = ∑ i, q i • K i}) := by
  rw [h]
  refine Submodule.add_mem _ (Submodule.add_mem _ (Submodule.add_mem _ ?_ ?_) ?_) ?_
  · exact Submodule.smul_mem _ _ (Submodule.subset_span (Or.inl ⟨_, rfl⟩))
  · exact Submodule.smul_mem _ _ (Submodule.subset_span (Or.inl ⟨_, rfl⟩))
  · exact Submodule.smul_mem _ _ (Submodule.subset_span (Or.inl ⟨_, rfl⟩))
  · exact Submodule.smul_mem _ _ (Submodule.subset_span (Or.inr ⟨q, hq, rfl⟩))

theorem isBravais_of {t : Centring} {p : Params} {v : Fin 3 → Fin 3 → ℝ} (K : Fin 3 → Fin 3 → ℝ) (hm : HasMetric K p)
    (h1 : ∀ i, v i ∈ Submodule.span ℤ (Set.range K ∪ {w | ∃ q ∈ centring t, w = ∑ i, q i • K i}))
    (h2 : ∀ i, K i ∈ Submodule.span ℤ (Set.range v)) (h3 : ∀ q ∈ centring t, ∑ i, q i • K i ∈ Submodule.span ℤ (Set.range v)) :
    IsBravais t p v := by
  refine ⟨K, hm, le_antisymm ?_ ?_⟩
  · rw [Submodule.span_le]
    rintro _ ⟨i, rfl⟩
    exact h1 i
  · rw [Submodule.span_le]
    rintro w (⟨i, rfl⟩ | ⟨q, hq, rfl⟩)
    · exact h2 i
    · exact h3 q hq

theorem isBravais_P {p : Params} {v : Fin 3 → Fin 3 → ℝ} (hm : HasMetric v p) : IsBravais .P p v := by
  refine ⟨v, hm, ?_⟩
  congr 1
  ext w
  simp [centring]

/-- Componentwise check of a vector identity with numerals. -/
macro "vec" : tactic => `(tactic| (
  ext j
  fin_cases j <;> simp [Fin.sum_univ_three] <;> ring))

/-- Orthogonal conventional cell. -/
def boxK (a b c : ℝ) : Fin 3 → Fin 3 → ℝ := ![![a, 0, 0], ![0, b, 0], ![0, 0, c]]

theorem boxK_metric (a b c : ℝ) : HasMetric (boxK a b c) ⟨a, b, c, 0, 0, 0⟩ := by
  refine ⟨?_, ?_, ?_, ?_, ?_, ?_⟩ <;> simp [boxK, dotProduct, Fin.sum_univ_three] <;> ring

theorem cubicF_bravais (a : ℝ) :
    IsBravais .F ⟨a, a, a, 0, 0, 0⟩ ![![-(a / 2), 0, a / 2], ![0, a / 2, a / 2], ![-(a / 2), a / 2, 0]] :=
  isBravais_of (boxK a a a) (boxK_metric _ _ _)
    (fun i => by
      fin_cases i
      · exact gens_mem _ (q := ![1 / 2, 0, 1 / 2]) (by simp [centring]) ![(-1), 0, 0] 1 (by unfold boxK; vec)
      · exact gens_mem _ (q := ![0, 1 / 2, 1 / 2]) (by simp [centring]) ![0, 0, 0] 1 (by unfold boxK; vec)
      · exact gens_mem _ (q := ![1 / 2, 1 / 2, 0]) (by simp [centring]) ![(-1), 0, 0] 1 (by unfold boxK; vec))
    (fun i => by
      fin_cases i
      · exact span_mem _ ![(-1), 1, (-1)] (by unfold boxK; vec)
      · exact span_mem _ ![(-1), 1, 1] (by unfold boxK; vec)
      · exact span_mem _ ![1, 1, (-1)] (by unfold boxK; vec))
    (by
      intro q hq
      simp only [centring, List.mem_cons, List.not_mem_nil, or_false] at hq
      rcases hq with h | h | h <;> subst h
      · exact span_mem _ ![0, 1, 0] (by unfold boxK; vec)
      · exact span_mem _ ![0, 1, (-1)] (by unfold boxK; vec)
      · exact span_mem _ ![(-1), 1, 0] (by unfold boxK; vec))

theorem cubicI_bravais (a : ℝ) :
    IsBravais .I ⟨a, a, a, 0, 0, 0⟩ ![![a / 2, a / 2, a / 2], ![-(a / 2), a / 2, a / 2], ![-(a / 2), -(a / 2), a / 2]] :=
  isBravais_of (boxK a a a) (boxK_metric _ _ _)
    (fun i => by
      fin_cases i
      · exact gens_mem _ (q := ![1 / 2, 1 / 2, 1 / 2]) (by simp [centring]) ![0, 0, 0] 1 (by unfold boxK; vec)
      · exact gens_mem _ (q := ![1 / 2, 1 / 2, 1 / 2]) (by simp [centring]) ![(-1), 0, 0] 1 (by unfold boxK; vec)
      · exact gens_mem _ (q := ![1 / 2, 1 / 2, 1 / 2]) (by simp [centring]) ![(-1), (-1), 0] 1 (by unfold boxK; vec))
    (fun i => by
      fin_cases i
      · exact span_mem _ ![1, (-1), 0] (by unfold boxK; vec)
      · exact span_mem _ ![0, 1, (-1)] (by unfold boxK; vec)
      · exact span_mem _ ![1, 0, 1] (by unfold boxK; vec))
    (by
      intro q hq
      simp only [centring, List.mem_cons, List.not_mem_nil, or_false] at hq
      subst hq
      exact span_mem _ ![1, 0, 0] (by unfold boxK; vec))

theorem cubicISymm_bravais (a : ℝ) :
    IsBravais .I ⟨a, a, a, 0, 0, 0⟩ ![![-(a / 2), a / 2, a / 2], ![a / 2, -(a / 2), a / 2], ![a / 2, a / 2, -(a / 2)]] :=
  isBravais_of (boxK a a a) (boxK_metric _ _ _)
    (fun i => by
      fin_cases i
      · exact gens_mem _ (q := ![1 / 2, 1 / 2, 1 / 2]) (by simp [centring]) ![(-1), 0, 0] 1 (by unfold boxK; vec)
      · exact gens_mem _ (q := ![1 / 2, 1 / 2, 1 / 2]) (by simp [centring]) ![0, (-1), 0] 1 (by unfold boxK; vec)
      · exact gens_mem _ (q := ![1 / 2, 1 / 2, 1 / 2]) (by simp [centring]) ![0, 0, (-1)] 1 (by unfold boxK; vec))
    (fun i => by
      fin_cases i
      · exact span_mem _ ![0, 1, 1] (by unfold boxK; vec)
      · exact span_mem _ ![1, 0, 1] (by unfold boxK; vec)
      · exact span_mem _ ![1, 1, 0] (by unfold boxK; vec))
    (by
      intro q hq
      simp only [centring, List.mem_cons, List.not_mem_nil, or_false] at hq
      subst hq
      exact span_mem _ ![1, 1, 1] (by unfold boxK; vec))

theorem tetragonalI_bravais (a c : ℝ) :
    IsBravais .I ⟨a, a, c, 0, 0, 0⟩ ![![a / 2, -a / 2, c / 2], ![a / 2, a / 2, c / 2], ![-a / 2, -a / 2, c / 2]] :=
  isBravais_of (boxK a a c) (boxK_metric _ _ _)
    (fun i => by
      fin_cases i
      · exact gens_mem _ (q := ![1 / 2, 1 / 2, 1 / 2]) (by simp [centring]) ![0, (-1), 0] 1 (by unfold boxK; vec)
      · exact gens_mem _ (q := ![1 / 2, 1 / 2, 1 / 2]) (by simp [centring]) ![0, 0, 0] 1 (by unfold boxK; vec)
      · exact gens_mem _ (q := ![1 / 2, 1 / 2, 1 / 2]) (by simp [centring]) ![(-1), (-1), 0] 1 (by unfold boxK; vec))
    (fun i => by
      fin_cases i
      · exact span_mem _ ![1, 0, (-1)] (by unfold boxK; vec)
      · exact span_mem _ ![(-1), 1, 0] (by unfold boxK; vec)
      · exact span_mem _ ![0, 1, 1] (by unfold boxK; vec))
    (by
      intro q hq
      simp only [centring, List.mem_cons, List.not_mem_nil, or_false] at hq
      subst hq
      exact span_mem _ ![0, 1, 0] (by unfold boxK; vec))

theorem orthoBco_bravais (a b c : ℝ) :
    IsBravais .C ⟨a, b, c, 0, 0, 0⟩ ![![a / 2, b / 2, 0], ![-a / 2, b / 2, 0], ![0, 0, c]] :=
  isBravais_of (boxK a b c) (boxK_metric _ _ _)
    (fun i => by
      fin_cases i
      · exact gens_mem _ (q := ![1 / 2, 1 / 2, 0]) (by simp [centring]) ![0, 0, 0] 1 (by unfold boxK; vec)
      · exact gens_mem _ (q := ![1 / 2, 1 / 2, 0]) (by simp [centring]) ![(-1), 0, 0] 1 (by unfold boxK; vec)
      · exact gens_mem _ (q := ![1 / 2, 1 / 2, 0]) (by simp [centring]) ![0, 0, 1] 0 (by unfold boxK; vec))
    (fun i => by
      fin_cases i
      · exact span_mem _ ![1, (-1), 0] (by unfold boxK; vec)
      · exact span_mem _ ![1, 1, 0] (by unfold boxK; vec)
      · exact span_mem _ ![0, 0, 1] (by unfold boxK; vec))
    (by
      intro q hq
      simp only [centring, List.mem_cons, List.not_mem_nil, or_false] at hq
      subst hq
      exact span_mem _ ![1, 0, 0] (by unfold boxK; vec))

theorem orthoBcoAlt_bravais (a b c : ℝ) :
    IsBravais .C ⟨a, b, c, 0, 0, 0⟩ ![![a / 2, -b / 2, 0], ![a / 2, b / 2, 0], ![0, 0, c]] :=
  isBravais_of (boxK a b c) (boxK_metric _ _ _)
    (fun i => by
      fin_cases i
      · exact gens_mem _ (q := ![1 / 2, 1 / 2, 0]) (by simp [centring]) ![0, (-1), 0] 1 (by unfold boxK; vec)
      · exact gens_mem _ (q := ![1 / 2, 1 / 2, 0]) (by simp [centring]) ![0, 0, 0] 1 (by unfold boxK; vec)
      · exact gens_mem _ (q := ![1 / 2, 1 / 2, 0]) (by simp [centring]) ![0, 0, 1] 0 (by unfold boxK; vec))
    (fun i => by
      fin_cases i
      · exact span_mem _ ![1, 1, 0] (by unfold boxK; vec)
      · exact span_mem _ ![(-1), 1, 0] (by unfold boxK; vec)
      · exact span_mem _ ![0, 0, 1] (by unfold boxK; vec))
    (by
      intro q hq
      simp only [centring, List.mem_cons, List.not_mem_nil, or_false] at hq
      subst hq
      exact span_mem _ ![0, 1, 0] (by unfold boxK; vec))

theorem orthoBca_bravais (a b c : ℝ) :
    IsBravais .A ⟨a, b, c, 0, 0, 0⟩ ![![a, 0, 0], ![0, b / 2, -c / 2], ![0, b / 2, c / 2]] :=
  isBravais_of (boxK a b c) (boxK_metric _ _ _)
    (fun i => by
      fin_cases i
      · exact gens_mem _ (q := ![0, 1 / 2, 1 / 2]) (by simp [centring]) ![1, 0, 0] 0 (by unfold boxK; vec)
      · exact gens_mem _ (q := ![0, 1 / 2, 1 / 2]) (by simp [centring]) ![0, 0, (-1)] 1 (by unfold boxK; vec)
      · exact gens_mem _ (q := ![0, 1 / 2, 1 / 2]) (by simp [centring]) ![0, 0, 0] 1 (by unfold boxK; vec))
    (fun i => by
      fin_cases i
      · exact span_mem _ ![1, 0, 0] (by unfold boxK; vec)
      · exact span_mem _ ![0, 1, 1] (by unfold boxK; vec)
      · exact span_mem _ ![0, (-1), 1] (by unfold boxK; vec))
    (by
      intro q hq
      simp only [centring, List.mem_cons, List.not_mem_nil, or_false] at hq
      subst hq
      exact span_mem _ ![0, 0, 1] (by unfold boxK; vec))

theorem orthoFace_bravais (a b c : ℝ) :
    IsBravais .F ⟨a, b, c, 0, 0, 0⟩ ![![a / 2, 0, c / 2], ![a / 2, b / 2, 0], ![0, b / 2, c / 2]] :=
  isBravais_of (boxK a b c) (boxK_metric _ _ _)
    (fun i => by
      fin_cases i
      · exact gens_mem _ (q := ![1 / 2, 0, 1 / 2]) (by simp [centring]) ![0, 0, 0] 1 (by unfold boxK; vec)
      · exact gens_mem _ (q := ![1 / 2, 1 / 2, 0]) (by simp [centring]) ![0, 0, 0] 1 (by unfold boxK; vec)
      · exact gens_mem _ (q := ![0, 1 / 2, 1 / 2]) (by simp [centring]) ![0, 0, 0] 1 (by unfold boxK; vec))
    (fun i => by
      fin_cases i
      · exact span_mem _ ![1, 1, (-1)] (by unfold boxK; vec)
      · exact span_mem _ ![(-1), 1, 1] (by unfold boxK; vec)
      · exact span_mem _ ![1, (-1), 1] (by unfold boxK; vec))
    (by
      intro q hq
      simp only [centring, List.mem_cons, List.not_mem_nil, or_false] at hq
      rcases hq with h | h | h <;> subst h
      · exact span_mem _ ![0, 0, 1] (by unfold boxK; vec)
      · exact span_mem _ ![1, 0, 0] (by unfold boxK; vec)
      · exact span_mem _ ![0, 1, 0] (by unfold boxK; vec))

theorem orthoBody_bravais (a b c : ℝ) :
    IsBravais .I ⟨a, b, c, 0, 0, 0⟩ ![![a / 2, b / 2, c / 2], ![-a / 2, b / 2, c / 2], ![-a / 2, -b / 2, c / 2]] :=
  isBravais_of (boxK a b c) (boxK_metric _ _ _)
    (fun i => by
      fin_cases i
      · exact gens_mem _ (q := ![1 / 2, 1 / 2, 1 / 2]) (by simp [centring]) ![0, 0, 0] 1 (by unfold boxK; vec)
      · exact gens_mem _ (q := ![1 / 2, 1 / 2, 1 / 2]) (by simp [centring]) ![(-1), 0, 0] 1 (by unfold boxK; vec)
      · exact gens_mem _ (q := ![1 / 2, 1 / 2, 1 / 2]) (by simp [centring]) ![(-1), (-1), 0] 1 (by unfold boxK; vec))
    (fun i => by
      fin_cases i
      · exact span_mem _ ![1, (-1), 0] (by unfold boxK; vec)
      · exact span_mem _ ![0, 1, (-1)] (by unfold boxK; vec)
      · exact span_mem _ ![1, 0, 1] (by unfold boxK; vec))
    (by
      intro q hq
      simp only [centring, List.mem_cons, List.not_mem_nil, or_false] at hq
      subst hq
      exact span_mem _ ![1, 0, 0] (by unfold boxK; vec))

theorem monoBaseC_bravais (a b c g : ℝ) (hg : g ^ 2 < 1) :
    IsBravais .B ⟨a, b, c, 0, 0, g⟩ ![![a / 2, 0, -c / 2], ![b * g, b * Real.sqrt (1 - g ^ 2), 0], ![a / 2, 0, c / 2]] :=
  isBravais_of ![![a, 0, 0], ![b * g, b * Real.sqrt (1 - g ^ 2), 0], ![0, 0, c]] (by
      have hs : Real.sqrt (1 - g ^ 2) * Real.sqrt (1 - g ^ 2) = 1 - g ^ 2 := Real.mul_self_sqrt (by linarith)
      refine ⟨?_, ?_, ?_, ?_, ?_, ?_⟩ <;> simp [dotProduct, Fin.sum_univ_three] <;> first | ring1 | linear_combination b ^ 2 * hs)
    (fun i => by
      fin_cases i
      · exact gens_mem _ (q := ![1 / 2, 0, 1 / 2]) (by simp [centring]) ![0, 0, (-1)] 1 (by vec)
      · exact gens_mem _ (q := ![1 / 2, 0, 1 / 2]) (by simp [centring]) ![0, 1, 0] 0 (by vec)
      · exact gens_mem _ (q := ![1 / 2, 0, 1 / 2]) (by simp [centring]) ![0, 0, 0] 1 (by vec))
    (fun i => by
      fin_cases i
      · exact span_mem _ ![1, 0, 1] (by vec)
      · exact span_mem _ ![0, 1, 0] (by vec)
      · exact span_mem _ ![(-1), 0, 1] (by vec))
    (by
      intro q hq
      simp only [centring, List.mem_cons, List.not_mem_nil, or_false] at hq
      subst hq
      exact span_mem _ ![0, 0, 1] (by vec))

theorem monoBaseB_bravais (a b c g : ℝ) (hg : g ^ 2 < 1) :
    IsBravais .C ⟨a, b, c, 0, g, 0⟩ ![![a / 2, b / 2, 0], ![-a / 2, b / 2, 0], ![c * g, 0, c * Real.sqrt (1 - g ^ 2)]] :=
  isBravais_of ![![a, 0, 0], ![0, b, 0], ![c * g, 0, c * Real.sqrt (1 - g ^ 2)]] (by
      have hs : Real.sqrt (1 - g ^ 2) * Real.sqrt (1 - g ^ 2) = 1 - g ^ 2 := Real.mul_self_sqrt (by linarith)
      refine ⟨?_, ?_, ?_, ?_, ?_, ?_⟩ <;> simp [dotProduct, Fin.sum_univ_three] <;> first | ring1 | linear_combination c ^ 2 * hs)
    (fun i => by
      fin_cases i
      · exact gens_mem _ (q := ![1 / 2, 1 / 2, 0]) (by simp [centring]) ![0, 0, 0] 1 (by vec)
      · exact gens_mem _ (q := ![1 / 2, 1 / 2, 0]) (by simp [centring]) ![(-1), 0, 0] 1 (by vec)
      · exact gens_mem _ (q := ![1 / 2, 1 / 2, 0]) (by simp [centring]) ![0, 0, 1] 0 (by vec))
    (fun i => by
      fin_cases i
      · exact span_mem _ ![1, (-1), 0] (by vec)
      · exact span_mem _ ![1, 1, 0] (by vec)
      · exact span_mem _ ![0, 0, 1] (by vec))
    (by
      intro q hq
      simp only [centring, List.mem_cons, List.not_mem_nil, or_false] at hq
      subst hq
      exact span_mem _ ![1, 0, 0] (by vec))

/-! ## C51: the Bravais-lattice table -/

theorem num_ok {d : Celldm} {k : ℕ} {x : ℝ} (h : d k = some (some x)) : d.num k = .ok x := by
  unfold Celldm.num
  rw [h]

theorem get_ok {d : Celldm} {k : ℕ} {x : ℝ} (h : d k = some (some x)) : d.get k = .ok (some x) := by
  unfold Celldm.get
  rw [h]

theorem ibrav2latvec_of {ibrav : ℤ} {d : Celldm} {x : ℝ} {f : Celldm → Except PyErr Rows} {v : Rows} (h1 : d 1 = some (some x))
    (hf : ibravFn ibrav = some f) (hv : f d = .ok v) : ibrav2latvec ibrav d = .ok (some (some x, (Matrix.of v)ᵀ)) := by
  unfold ibrav2latvec
  rw [get_ok h1, hf]
  simp only
  rw [hv]

theorem det_rows (v : Rows) : (Matrix.of v)ᵀ.det = v 0 0 * v 1 1 * v 2 2 - v 0 0 * v 1 2 * v 2 1 - v 0 1 * v 1 0 * v 2 2 +
    v 0 1 * v 1 2 * v 2 0 + v 0 2 * v 1 0 * v 2 1 - v 0 2 * v 1 1 * v 2 0 := by
  rw [Matrix.det_transpose, Matrix.det_fin_three]
  simp only [Matrix.of_apply]

theorem finish {ibrav : ℤ} {d : Celldm} {x : ℝ} {f : Celldm → Except PyErr Rows} {v : Rows} {t : Centring} {p : Params} (h1 : d 1 = some (some x))
    (hf : ibravFn ibrav = some f) (hv : f d = .ok v) (hb : IsBravais t p v)
    (hd : 0 < v 0 0 * v 1 1 * v 2 2 - v 0 0 * v 1 2 * v 2 1 - v 0 1 * v 1 0 * v 2 2 +
    v 0 1 * v 1 2 * v 2 0 + v 0 2 * v 1 0 * v 2 1 - v 0 2 * v 1 1 * v 2 0) :
    ∃ L : Lattice.Mat, ibrav2latvec ibrav d = .ok (some (some x, L)) ∧ IsBravais t p (fun i j => L j i) ∧ 0 < L.det :=
  ⟨_, ibrav2latvec_of h1 hf hv, hb, by rw [det_rows]; exact hd⟩

theorem hexagonal_bravais (a c : ℝ) : IsBravais .P ⟨a, a, c, 0, 0, -1 / 2⟩ ![![a, 0, 0], ![-a / 2, a * Real.sqrt 3 / 2, 0], ![0, 0, c]] := by
  have hs : Real.sqrt 3 * Real.sqrt 3 = 3 := Real.mul_self_sqrt (by norm_num)
  apply isBravais_P
  refine ⟨?_, ?_, ?_, ?_, ?_, ?_⟩ <;> simp [dotProduct, Fin.sum_univ_three] <;> first | ring1 | linear_combination a ^ 2 / 4 * hs

theorem trigonal_dom {a g : ℝ} (h : Params.Valid ⟨a, a, a, g, g, g⟩) : 0 < 1 - g ∧ 0 < 1 + 2 * g := by
  obtain ⟨-, -, -, h1, -, -, h2⟩ := h
  simp only at h1 h2
  have hg : g < 1 := by nlinarith
  refine ⟨by linarith, ?_⟩
  have e : 1 + 2 * g * g * g - g ^ 2 - g ^ 2 - g ^ 2 = (1 - g) ^ 2 * (1 + 2 * g) := by ring
  rw [e] at h2
  exact (mul_pos_iff_of_pos_left (by positivity)).1 h2

theorem trigonalC_bravais (a g : ℝ) (h1 : 0 < 1 - g) (h2 : 0 < 1 + 2 * g) : IsBravais .P ⟨a, a, a, g, g, g⟩
    ![![a * Real.sqrt ((1 - g) / 2), -a * Real.sqrt ((1 - g) / 6), a * Real.sqrt ((1 + 2 * g) / 3)],
      ![0, 2 * a * Real.sqrt ((1 - g) / 6), a * Real.sqrt ((1 + 2 * g) / 3)],
      ![-a * Real.sqrt ((1 - g) / 2), -a * Real.sqrt ((1 - g) / 6), a * Real.sqrt ((1 + 2 * g) / 3)]] := by
  have hx : Real.sqrt ((1 - g) / 2) * Real.sqrt ((1 - g) / 2) = (1 - g) / 2 := Real.mul_self_sqrt (by positivity)
  have hy : Real.sqrt ((1 - g) / 6) * Real.sqrt ((1 - g) / 6) = (1 - g) / 6 := Real.mul_self_sqrt (by positivity)
  have hz : Real.sqrt ((1 + 2 * g) / 3) * Real.sqrt ((1 + 2 * g) / 3) = (1 + 2 * g) / 3 := Real.mul_self_sqrt (by positivity)
  generalize Real.sqrt ((1 - g) / 2) = x at *
  generalize Real.sqrt ((1 - g) / 6) = y at *
  generalize Real.sqrt ((1 + 2 * g) / 3) = z at *
  apply isBravais_P
  refine ⟨?_, ?_, ?_, ?_, ?_, ?_⟩ <;> simp [dotProduct, Fin.sum_univ_three]
  · linear_combination a ^ 2 * hx + a ^ 2 * hy + a ^ 2 * hz
  · linear_combination 4 * a ^ 2 * hy + a ^ 2 * hz
  · linear_combination a ^ 2 * hx + a ^ 2 * hy + a ^ 2 * hz
  · linear_combination -2 * a ^ 2 * hy + a ^ 2 * hz
  · linear_combination -a ^ 2 * hx + a ^ 2 * hy + a ^ 2 * hz
  · linear_combination -2 * a ^ 2 * hy + a ^ 2 * hz

theorem trigonal111_bravais (a g aa u v : ℝ) (h1 : 0 < 1 - g) (h2 : 0 < 1 + 2 * g) (haa : aa = a / Real.sqrt 3)
    (hu : u = Real.sqrt ((1 + 2 * g) / 3) - 2 * Real.sqrt 2 * Real.sqrt ((1 - g) / 6))
    (hv : v = Real.sqrt ((1 + 2 * g) / 3) + Real.sqrt 2 * Real.sqrt ((1 - g) / 6)) :
    IsBravais .P ⟨a, a, a, g, g, g⟩ ![![aa * u, aa * v, aa * v], ![aa * v, aa * u, aa * v], ![aa * v, aa * v, aa * u]] ∧
    0 < (u - v) ^ 2 * (u + 2 * v) := by
  have h3 : aa * aa = a ^ 2 / 3 := by
    rw [haa, div_mul_div_comm, Real.mul_self_sqrt (by norm_num)]
    ring
  have h2' : Real.sqrt 2 * Real.sqrt 2 = 2 := Real.mul_self_sqrt (by norm_num)
  have hy : Real.sqrt ((1 - g) / 6) * Real.sqrt ((1 - g) / 6) = (1 - g) / 6 := Real.mul_self_sqrt (by positivity)
  have hz : Real.sqrt ((1 + 2 * g) / 3) * Real.sqrt ((1 + 2 * g) / 3) = (1 + 2 * g) / 3 := Real.mul_self_sqrt (by positivity)
  have y0 : 0 < Real.sqrt ((1 - g) / 6) := Real.sqrt_pos.2 (by positivity)
  have z0 : 0 < Real.sqrt ((1 + 2 * g) / 3) := Real.sqrt_pos.2 (by positivity)
  have s0 : 0 < Real.sqrt 2 := Real.sqrt_pos.2 (by norm_num)
  generalize Real.sqrt ((1 - g) / 6) = y at *
  generalize Real.sqrt ((1 + 2 * g) / 3) = z at *
  generalize Real.sqrt 2 = s at *
  have e1 : u * u + 2 * (v * v) = 3 := by rw [hu, hv]; linear_combination 6 * y * y * h2' + 12 * hy + 3 * hz
  have e2 : 2 * (u * v) + v * v = 3 * g := by rw [hu, hv]; linear_combination -3 * y * y * h2' - 6 * hy + 3 * hz
  constructor
  · apply isBravais_P
    refine ⟨?_, ?_, ?_, ?_, ?_, ?_⟩ <;> simp [dotProduct, Fin.sum_univ_three]
    · linear_combination aa * aa * e1 + 3 * h3
    · linear_combination aa * aa * e1 + 3 * h3
    · linear_combination aa * aa * e1 + 3 * h3
    · linear_combination aa * aa * e2 + 3 * g * h3
    · linear_combination aa * aa * e2 + 3 * g * h3
    · linear_combination aa * aa * e2 + 3 * g * h3
  · rw [hu, hv, show (z - 2 * s * y - (z + s * y)) ^ 2 * (z - 2 * s * y + 2 * (z + s * y)) = 27 * (s * y) ^ 2 * z by ring]
    positivity

theorem monoPC_bravais (a b c g : ℝ) (hg : g ^ 2 < 1) :
    IsBravais .P ⟨a, b, c, 0, 0, g⟩ ![![a, 0, 0], ![b * g, b * Real.sqrt (1 - g ^ 2), 0], ![0, 0, c]] := by
  have hs : Real.sqrt (1 - g ^ 2) * Real.sqrt (1 - g ^ 2) = 1 - g ^ 2 := Real.mul_self_sqrt (by linarith)
  apply isBravais_P
  refine ⟨?_, ?_, ?_, ?_, ?_, ?_⟩ <;> simp [dotProduct, Fin.sum_univ_three] <;> first | ring1 | linear_combination b ^ 2 * hs

theorem monoPB_bravais (a b c g : ℝ) (hg : g ^ 2 < 1) :
    IsBravais .P ⟨a, b, c, 0, g, 0⟩ ![![a, 0, 0], ![0, b, 0], ![c * g, 0, c * Real.sqrt (1 - g ^ 2)]] := by
  have hs : Real.sqrt (1 - g ^ 2) * Real.sqrt (1 - g ^ 2) = 1 - g ^ 2 := Real.mul_self_sqrt (by linarith)
  apply isBravais_P
  refine ⟨?_, ?_, ?_, ?_, ?_, ?_⟩ <;> simp [dotProduct, Fin.sum_univ_three] <;> first | ring1 | linear_combination c ^ 2 * hs

/-- Sign of the determinant: expand and use positivity. -/
macro "detpos" e:term : tactic => `(tactic| (
  refine lt_of_lt_of_eq (b := $e) (by positivity) ?_
  (simp [boxK]) <;> ring))

theorem latticeOf_mem {ibrav : ℤ} {x : ℕ → ℝ} {r : Centring × Params} (h : latticeOf ibrav x = some r) :
    ibrav = 1 ∨ ibrav = 2 ∨ ibrav = 3 ∨ ibrav = -3 ∨ ibrav = 4 ∨ ibrav = 5 ∨ ibrav = -5 ∨ ibrav = 6 ∨ ibrav = 7 ∨ ibrav = 8 ∨ ibrav = 9 ∨
    ibrav = -9 ∨ ibrav = 91 ∨ ibrav = 10 ∨ ibrav = 11 ∨ ibrav = 12 ∨ ibrav = -12 ∨ ibrav = 13 ∨ ibrav = -13 ∨ ibrav = 14 := by
  by_contra hn
  simp only [not_or] at hn
  obtain ⟨h1, h2, h3, h4, h5, h6, h7, h8, h9, h10, h11, h12, h13, h14, h15, h16, h17, h18, h19, h20⟩ := hn
  unfold latticeOf at h
  rw [if_neg h1, if_neg h2, if_neg h3, if_neg h4, if_neg h5, if_neg h6, if_neg h7, if_neg h8, if_neg h9, if_neg h10, if_neg h11, if_neg h12,
    if_neg h13, if_neg h14, if_neg h15, if_neg h16, if_neg h17, if_neg h18, if_neg h19, if_neg h20] at h
  exact absurd h (by simp)

set_option maxHeartbeats 1000000 in
/-- **C51a (partial: all entries but `ibrav = 14`).** For every supported `ibrav` except 14 and every valid choice of the parameters, the
returned vectors are a right-handed basis of the Bravais lattice that the QE documentation prescribes, and `alat` is `celldm(1)`. -/
theorem C51_bravais_partial (ibrav : ℤ) (hne : ibrav ≠ 14) (x : ℕ → ℝ) (d : Celldm) (hd : ∀ k ∈ required ibrav, d k = some (some (x k)))
    (t : Centring) (p : Params) (hs : latticeOf ibrav x = some (t, p)) (hv : p.Valid) :
    ∃ L : Lattice.Mat, ibrav2latvec ibrav d = .ok (some (some (x 1), L)) ∧ IsBravais t p (fun i j => L j i) ∧ 0 < L.det := by
  rcases latticeOf_mem hs with h | h | h | h | h | h | h | h | h | h | h | h | h | h | h | h | h | h | h | h
  all_goals first | exact absurd h hne | skip
  all_goals subst h
  all_goals
    have hs := Option.some.inj hs
    rw [Prod.mk.injEq] at hs
    obtain ⟨rfl, rfl⟩ := hs
    simp only [required, List.mem_cons, List.not_mem_nil, or_false, Int.reduceNeg, Int.reduceEq, reduceIte, or_self,
      neg_eq_iff_eq_neg, forall_eq_or_imp, forall_eq, or_true, true_or, Nat.reduceEqDiff, false_or, reduceCtorEq] at hd
  · have ha := hv.1
    dsimp only at ha
    exact finish (f := cubicP) hd rfl (by simp only [cubicP, num_ok hd]; rfl) (isBravais_P (boxK_metric _ _ _)) (by detpos (x 1 ^ 3))
  · have ha := hv.1
    dsimp only at ha
    exact finish (f := cubicF) hd rfl (by simp only [cubicF, num_ok hd]; rfl) (cubicF_bravais _) (by detpos (x 1 ^ 3 / 4))
  · have ha := hv.1
    dsimp only at ha
    exact finish (f := cubicI) hd rfl (by simp only [cubicI, num_ok hd]; rfl) (cubicI_bravais _) (by detpos (x 1 ^ 3 / 2))
  · have ha := hv.1
    dsimp only at ha
    exact finish (f := cubicISymm) hd rfl (by simp only [cubicISymm, num_ok hd]; rfl) (cubicISymm_bravais _) (by detpos (x 1 ^ 3 / 2))
  · obtain ⟨h1, h3⟩ := hd
    obtain ⟨ha, -, hc, -⟩ := hv
    dsimp only at ha hc
    have := hexagonal_bravais (x 1) (x 3 * x 1)
    exact finish (f := hexagonal) h1 rfl (by simp only [hexagonal, num_ok h1, num_ok h3]; rw [mul_comm (x 3)]; rfl) this
      (by detpos (x 1 * (x 1 * Real.sqrt 3 / 2) * (x 3 * x 1)))
  · obtain ⟨h1, h4⟩ := hd
    have hdom := trigonal_dom hv
    obtain ⟨ha, -⟩ := hv
    dsimp only at ha
    have hx : 0 < Real.sqrt ((1 - x 4) / 2) := Real.sqrt_pos.2 (by linarith)
    have hy : 0 < Real.sqrt ((1 - x 4) / 6) := Real.sqrt_pos.2 (by linarith)
    have hz : 0 < Real.sqrt ((1 + 2 * x 4) / 3) := Real.sqrt_pos.2 (by linarith)
    exact finish (f := trigonalC) h1 rfl (by simp only [trigonalC, num_ok h1, num_ok h4]; rfl) (trigonalC_bravais _ _ hdom.1 hdom.2)
      (by detpos (6 * x 1 ^ 3 * Real.sqrt ((1 - x 4) / 2) * Real.sqrt ((1 - x 4) / 6) * Real.sqrt ((1 + 2 * x 4) / 3)))
  · obtain ⟨h1, h4⟩ := hd
    have hdom := trigonal_dom hv
    obtain ⟨ha, -⟩ := hv
    dsimp only at ha
    have hb := trigonal111_bravais (x 1) (x 4) _ _ _ hdom.1 hdom.2 rfl rfl rfl
    refine finish (f := trigonal111) h1 rfl (by simp only [trigonal111, num_ok h1, num_ok h4]; rfl) hb.1 ?_
    have h0 := hb.2
    have hs3 : 0 < x 1 / Real.sqrt 3 := by positivity
    generalize x 1 / Real.sqrt 3 = aa at *
    generalize Real.sqrt ((1 + 2 * x 4) / 3) - 2 * Real.sqrt 2 * Real.sqrt ((1 - x 4) / 6) = u at *
    generalize Real.sqrt ((1 + 2 * x 4) / 3) + Real.sqrt 2 * Real.sqrt ((1 - x 4) / 6) = v at *
    refine lt_of_lt_of_eq (b := aa ^ 3 * ((u - v) ^ 2 * (u + 2 * v))) (mul_pos (by positivity) h0) ?_
    simp
    ring
  · obtain ⟨h1, h3⟩ := hd
    obtain ⟨ha, -, hc, -⟩ := hv
    dsimp only at ha hc
    exact finish (f := tetragonalP) h1 rfl (by simp only [tetragonalP, num_ok h1, num_ok h3]; rfl) (isBravais_P (boxK_metric _ _ _))
      (by detpos (x 1 * x 1 * (x 3 * x 1)))
  · obtain ⟨h1, h3⟩ := hd
    obtain ⟨ha, -, hc, -⟩ := hv
    dsimp only at ha hc
    exact finish (f := tetragonalI) h1 rfl (by simp only [tetragonalI, num_ok h1, num_ok h3]; rfl) (tetragonalI_bravais _ _)
      (by detpos (x 1 * x 1 * (x 3 * x 1) / 2))
  · obtain ⟨h1, h2, h3⟩ := hd
    obtain ⟨ha, hb, hc, -⟩ := hv
    dsimp only at ha hb hc
    exact finish (f := orthoP) h1 rfl (by simp only [orthoP, num_ok h1, num_ok h2, num_ok h3]; rfl) (isBravais_P (boxK_metric _ _ _))
      (by detpos (x 1 * (x 2 * x 1) * (x 3 * x 1)))
  · obtain ⟨h1, h2, h3⟩ := hd
    obtain ⟨ha, hb, hc, -⟩ := hv
    dsimp only at ha hb hc
    exact finish (f := orthoBco) h1 rfl (by simp only [orthoBco, num_ok h1, num_ok h2, num_ok h3]; rfl) (orthoBco_bravais _ _ _)
      (by detpos (x 1 * (x 2 * x 1) * (x 3 * x 1) / 2))
  · obtain ⟨h1, h2, h3⟩ := hd
    obtain ⟨ha, hb, hc, -⟩ := hv
    dsimp only at ha hb hc
    exact finish (f := orthoBcoAlt) h1 rfl (by simp only [orthoBcoAlt, num_ok h1, num_ok h2, num_ok h3]; rfl) (orthoBcoAlt_bravais _ _ _)
      (by detpos (x 1 * (x 2 * x 1) * (x 3 * x 1) / 2))
  · obtain ⟨h1, h2, h3⟩ := hd
    obtain ⟨ha, hb, hc, -⟩ := hv
    dsimp only at ha hb hc
    exact finish (f := orthoBca) h1 rfl (by simp only [orthoBca, num_ok h1, num_ok h2, num_ok h3]; rfl) (orthoBca_bravais _ _ _)
      (by detpos (x 1 * (x 2 * x 1) * (x 3 * x 1) / 2))
  · obtain ⟨h1, h2, h3⟩ := hd
    obtain ⟨ha, hb, hc, -⟩ := hv
    dsimp only at ha hb hc
    exact finish (f := orthoFace) h1 rfl (by simp only [orthoFace, num_ok h1, num_ok h2, num_ok h3]; rfl) (orthoFace_bravais _ _ _)
      (by detpos (x 1 * (x 2 * x 1) * (x 3 * x 1) / 4))
  · obtain ⟨h1, h2, h3⟩ := hd
    obtain ⟨ha, hb, hc, -⟩ := hv
    dsimp only at ha hb hc
    exact finish (f := orthoBody) h1 rfl (by simp only [orthoBody, num_ok h1, num_ok h2, num_ok h3]; rfl) (orthoBody_bravais _ _ _)
      (by detpos (x 1 * (x 2 * x 1) * (x 3 * x 1) / 2))
  · obtain ⟨h1, h2, h3, h4⟩ := hd
    obtain ⟨ha, hb, hc, -, -, hg, -⟩ := hv
    dsimp only at ha hb hc hg
    have hq : 0 < Real.sqrt (1 - x 4 ^ 2) := Real.sqrt_pos.2 (by linarith)
    exact finish (f := monoPC) h1 rfl (by simp only [monoPC, num_ok h1, num_ok h2, num_ok h3, num_ok h4]; rfl) (monoPC_bravais _ _ _ _ hg)
      (by detpos (x 1 * (x 2 * x 1) * (x 3 * x 1) * Real.sqrt (1 - x 4 ^ 2)))
  · obtain ⟨h1, h2, h3, h4⟩ := hd
    obtain ⟨ha, hb, hc, -, hg, -⟩ := hv
    dsimp only at ha hb hc hg
    have hq : 0 < Real.sqrt (1 - x 5 ^ 2) := Real.sqrt_pos.2 (by linarith)
    exact finish (f := monoPB) h1 rfl (by simp only [monoPB, num_ok h1, num_ok h2, num_ok h3, num_ok h4]; rfl) (monoPB_bravais _ _ _ _ hg)
      (by detpos (x 1 * (x 2 * x 1) * (x 3 * x 1) * Real.sqrt (1 - x 5 ^ 2)))
  · obtain ⟨h1, h2, h3, h4⟩ := hd
    obtain ⟨ha, hb, hc, -, -, hg, -⟩ := hv
    dsimp only at ha hb hc hg
    have hq : 0 < Real.sqrt (1 - x 4 ^ 2) := Real.sqrt_pos.2 (by linarith)
    exact finish (f := monoBaseC) h1 rfl (by simp only [monoBaseC, num_ok h1, num_ok h2, num_ok h3, num_ok h4]; rfl) (monoBaseC_bravais _ _ _ _ hg)
      (by detpos (x 1 * (x 2 * x 1) * (x 3 * x 1) * Real.sqrt (1 - x 4 ^ 2) / 2))
  · obtain ⟨h1, h2, h3, h4⟩ := hd
    obtain ⟨ha, hb, hc, -, hg, -⟩ := hv
    dsimp only at ha hb hc hg
    have hq : 0 < Real.sqrt (1 - x 5 ^ 2) := Real.sqrt_pos.2 (by linarith)
    exact finish (f := monoBaseB) h1 rfl (by simp only [monoBaseB, num_ok h1, num_ok h2, num_ok h3, num_ok h4]; rfl) (monoBaseB_bravais _ _ _ _ hg)
      (by detpos (x 1 * (x 2 * x 1) * (x 3 * x 1) * Real.sqrt (1 - x 5 ^ 2) / 2))

/-- The triclinic entry of the code, computed: everything is as documented except the length of the third vector. -/
theorem triclinic_metric (a b c ca cb cg : ℝ) (hg : cg ^ 2 < 1) (hr : 0 ≤ 1 + 2 * ca * cb * cg - cg ^ 2 - cb ^ 2 - cg ^ 2) (v : Rows)
    (hv : v = ![![a, 0, 0], ![b * cg, b * Real.sqrt (1 - cg ^ 2), 0],
      ![c * cb, c * (ca - cb * cg) / Real.sqrt (1 - cg ^ 2),
        c * Real.sqrt (1 + 2 * ca * cb * cg - cg ^ 2 - cb ^ 2 - cg ^ 2) / Real.sqrt (1 - cg ^ 2)]]) :
    v 0 ⬝ᵥ v 0 = a ^ 2 ∧ v 1 ⬝ᵥ v 1 = b ^ 2 ∧ v 2 ⬝ᵥ v 2 = c ^ 2 + c ^ 2 * (ca ^ 2 - cg ^ 2) / (1 - cg ^ 2) ∧
    v 1 ⬝ᵥ v 2 = b * c * ca ∧ v 0 ⬝ᵥ v 2 = a * c * cb ∧ v 0 ⬝ᵥ v 1 = a * b * cg := by
  have hs : Real.sqrt (1 - cg ^ 2) ^ 2 = 1 - cg ^ 2 := Real.sq_sqrt (by linarith)
  have hq : Real.sqrt (1 + 2 * ca * cb * cg - cg ^ 2 - cb ^ 2 - cg ^ 2) ^ 2 = 1 + 2 * ca * cb * cg - cg ^ 2 - cb ^ 2 - cg ^ 2 := Real.sq_sqrt hr
  have s0 : 0 < Real.sqrt (1 - cg ^ 2) := Real.sqrt_pos.2 (by linarith)
  generalize Real.sqrt (1 - cg ^ 2) = s at *
  generalize Real.sqrt (1 + 2 * ca * cb * cg - cg ^ 2 - cb ^ 2 - cg ^ 2) = z at *
  rw [← hs]
  subst hv
  refine ⟨?_, ?_, ?_, ?_, ?_, ?_⟩ <;> simp [dotProduct, Fin.sum_univ_three]
  · ring
  · linear_combination b ^ 2 * hs
  · field_simp
    linear_combination c ^ 2 * hq + c ^ 2 * (cb ^ 2 - 1) * hs
  · field_simp
    ring
  · ring
  · ring

theorem triclinic_value (x : ℕ → ℝ) (d : Celldm) (hd : ∀ k ∈ required 14, d k = some (some (x k))) :
    ibrav2latvec 14 d = .ok (some (some (x 1), (Matrix.of ![![x 1, 0, 0], ![x 2 * x 1 * x 6, x 2 * x 1 * Real.sqrt (1 - x 6 ^ 2), 0],
      ![x 3 * x 1 * x 5, x 3 * x 1 * (x 4 - x 5 * x 6) / Real.sqrt (1 - x 6 ^ 2),
        x 3 * x 1 * Real.sqrt (1 + 2 * x 4 * x 5 * x 6 - x 6 ^ 2 - x 5 ^ 2 - x 6 ^ 2) / Real.sqrt (1 - x 6 ^ 2)]])ᵀ)) := by
  have h1 := hd 1 (by decide)
  have h2 := hd 2 (by decide)
  have h3 := hd 3 (by decide)
  have h4 := hd 4 (by decide)
  have h5 := hd 5 (by decide)
  have h6 := hd 6 (by decide)
  refine ibrav2latvec_of (f := triclinic) h1 rfl ?_
  simp only [triclinic, num_ok h1, num_ok h2, num_ok h3, num_ok h4, num_ok h5, num_ok h6]
  rfl

/-- **C51b (partial, `ibrav = 14`).** The triclinic entry gives the documented lattice when `cos² bc = cos² ab`. -/
theorem C51_triclinic_partial (x : ℕ → ℝ) (d : Celldm) (hd : ∀ k ∈ required 14, d k = some (some (x k)))
    (hv : Params.Valid ⟨x 1, x 2 * x 1, x 3 * x 1, x 4, x 5, x 6⟩) (he : x 4 ^ 2 = x 6 ^ 2) :
    ∃ L : Lattice.Mat, ibrav2latvec 14 d = .ok (some (some (x 1), L)) ∧
      IsBravais .P ⟨x 1, x 2 * x 1, x 3 * x 1, x 4, x 5, x 6⟩ (fun i j => L j i) := by
  refine ⟨_, triclinic_value x d hd, isBravais_P ?_⟩
  obtain ⟨ha, hb, hc, h1, h2, h3, h4⟩ := hv
  dsimp only at ha hb hc h1 h2 h3 h4
  obtain ⟨m1, m2, m3, m4, m5, m6⟩ := triclinic_metric (x 1) (x 2 * x 1) (x 3 * x 1) (x 4) (x 5) (x 6) h3 (by linarith) _ rfl
  refine ⟨m1, m2, ?_, m4, m5, m6⟩
  refine m3.trans ?_
  rw [he]
  simp

/-- **C51c (violation, `ibrav = 14`).** For all other valid triclinic cells (for which the root taken by the code is real) the third vector
has the wrong length: the returned vectors have the documented lengths and angles exactly when `cos² bc = cos² ab`. -/
theorem C51_triclinic_violated (x : ℕ → ℝ) (d : Celldm) (hd : ∀ k ∈ required 14, d k = some (some (x k)))
    (hv : Params.Valid ⟨x 1, x 2 * x 1, x 3 * x 1, x 4, x 5, x 6⟩)
    (hr : 0 ≤ 1 + 2 * x 4 * x 5 * x 6 - x 6 ^ 2 - x 5 ^ 2 - x 6 ^ 2) :
    ∃ L : Lattice.Mat, ibrav2latvec 14 d = .ok (some (some (x 1), L)) ∧
      (HasMetric (fun i j => L j i) ⟨x 1, x 2 * x 1, x 3 * x 1, x 4, x 5, x 6⟩ ↔ x 4 ^ 2 = x 6 ^ 2) := by
  refine ⟨_, triclinic_value x d hd, ?_⟩
  obtain ⟨ha, hb, hc, h1, h2, h3, h4⟩ := hv
  dsimp only at ha hb hc h1 h2 h3 h4
  obtain ⟨m1, m2, m3, m4, m5, m6⟩ := triclinic_metric (x 1) (x 2 * x 1) (x 3 * x 1) (x 4) (x 5) (x 6) h3 hr _ rfl
  have h0 : 0 < 1 - x 6 ^ 2 := by linarith
  constructor
  · rintro ⟨-, -, h, -⟩
    have e := m3.symm.trans h
    dsimp only at e
    have e2 : (x 3 * x 1) ^ 2 * (x 4 ^ 2 - x 6 ^ 2) / (1 - x 6 ^ 2) = 0 := by linarith
    rw [div_eq_zero_iff, mul_eq_zero] at e2
    rcases e2 with (e2 | e2) | e2
    · exact absurd e2 (by positivity)
    · linarith
    · linarith
  · intro he
    refine ⟨m1, m2, ?_, m4, m5, m6⟩
    refine m3.trans ?_
    rw [he]
    simp

/-- A monoclinic cell entered through `ibrav = 14` (cos bc = 1/2) satisfies the hypotheses and is wrong. -/
example : Params.Valid ⟨1, 1, 1, 1 / 2, 0, 0⟩ ∧ (0 : ℝ) ≤ 1 + 2 * (1 / 2) * 0 * 0 - 0 ^ 2 - 0 ^ 2 - 0 ^ 2 ∧ ((1 : ℝ) / 2) ^ 2 ≠ 0 ^ 2 := by
  refine ⟨?_, ?_, ?_⟩
  · unfold Params.Valid
    norm_num
  · norm_num
  · norm_num

/-- A trigonal cell with 60° angles (hypotheses of C51a). -/
example : latticeOf (-5) (fun k => if k = 4 then 1 / 2 else 3) = some (.P, ⟨3, 3, 3, 1 / 2, 1 / 2, 1 / 2⟩) ∧
    Params.Valid ⟨3, 3, 3, 1 / 2, 1 / 2, 1 / 2⟩ := by
  constructor
  · simp [latticeOf]
  · unfold Params.Valid
    norm_num

theorem ibravFn_mem {ibrav : ℤ} {f : Celldm → Except PyErr Rows} (h : ibravFn ibrav = some f) :
    (ibrav = 1 ∧ f = cubicP) ∨ (ibrav = 2 ∧ f = cubicF) ∨ (ibrav = 3 ∧ f = cubicI) ∨ (ibrav = -3 ∧ f = cubicISymm) ∨ (ibrav = 4 ∧ f = hexagonal) ∨ (ibrav = 5 ∧ f = trigonalC) ∨ (ibrav = -5 ∧ f = trigonal111) ∨ (ibrav = 6 ∧ f = tetragonalP) ∨ (ibrav = 7 ∧ f = tetragonalI) ∨ (ibrav = 8 ∧ f = orthoP) ∨ (ibrav = 9 ∧ f = orthoBco) ∨ (ibrav = -9 ∧ f = orthoBcoAlt) ∨ (ibrav = 91 ∧ f = orthoBca) ∨ (ibrav = 10 ∧ f = orthoFace) ∨ (ibrav = 11 ∧ f = orthoBody) ∨ (ibrav = 12 ∧ f = monoPC) ∨ (ibrav = -12 ∧ f = monoPB) ∨ (ibrav = 13 ∧ f = monoBaseC) ∨ (ibrav = -13 ∧ f = monoBaseB) ∨ (ibrav = 14 ∧ f = triclinic) := by
  unfold ibravFn at h
  by_cases h0 : ibrav = 1
  · rw [if_pos h0] at h
    have h := (Option.some.inj h).symm
    exact Or.inl ⟨h0, h⟩
  rw [if_neg h0] at h
  clear h0
  by_cases h0 : ibrav = 2
  · rw [if_pos h0] at h
    have h := (Option.some.inj h).symm
    exact Or.inr (Or.inl ⟨h0, h⟩)
  rw [if_neg h0] at h
  clear h0
  by_cases h0 : ibrav = 3
  · rw [if_pos h0] at h
    have h := (Option.some.inj h).symm
    exact Or.inr (Or.inr (Or.inl ⟨h0, h⟩))
  rw [if_neg h0] at h
  clear h0
  by_cases h0 : ibrav = -3
  · rw [if_pos h0] at h
    have h := (Option.some.inj h).symm
    exact Or.inr (Or.inr (Or.inr (Or.inl ⟨h0, h⟩)))
  rw [if_neg h0] at h
  clear h0
  by_cases h0 : ibrav = 4
  · rw [if_pos h0] at h
    have h := (Option.some.inj h).symm
    exact Or.inr (Or.inr (Or.inr (Or.inr (Or.inl ⟨h0, h⟩))))
  rw [if_neg h0] at h
  clear h0
  by_cases h0 : ibrav = 5
  · rw [if_pos h0] at h
    have h := (Option.some.inj h).symm
    exact Or.inr (Or.inr (Or.inr (Or.inr (Or.inr (Or.inl ⟨h0, h⟩)))))
  rw [if_neg h0] at h
  clear h0
  by_cases h0 : ibrav = -5
  · rw [if_pos h0] at h
    have h := (Option.some.inj h).symm
    exact Or.inr (Or.inr (Or.inr (Or.inr (Or.inr (Or.inr (Or.inl ⟨h0, h⟩))))))
  rw [if_neg h0] at h
  clear h0
  by_cases h0 : ibrav = 6
  · rw [if_pos h0] at h
    have h := (Option.some.inj h).symm
    exact Or.inr (Or.inr (Or.inr (Or.inr (Or.inr (Or.inr (Or.inr (Or.inl ⟨h0, h⟩)))))))
  rw [if_neg h0] at h
  clear h0
  by_cases h0 : ibrav = 7
  · rw [if_pos h0] at h
    have h := (Option.some.inj h).symm
    exact Or.inr (Or.inr (Or.inr (Or.inr (Or.inr (Or.inr (Or.inr (Or.inr (Or.inl ⟨h0, h⟩))))))))
  rw [if_neg h0] at h
  clear h0
  by_cases h0 : ibrav = 8
  · rw [if_pos h0] at h
    have h := (Option.some.inj h).symm
    exact Or.inr (Or.inr (Or.inr (Or.inr (Or.inr (Or.inr (Or.inr (Or.inr (Or.inr (Or.inl ⟨h0, h⟩)))))))))
  rw [if_neg h0] at h
  clear h0
  by_cases h0 : ibrav = 9
  · rw [if_pos h0] at h
    have h := (Option.some.inj h).symm
    exact Or.inr (Or.inr (Or.inr (Or.inr (Or.inr (Or.inr (Or.inr (Or.inr (Or.inr (Or.inr (Or.inl ⟨h0, h⟩))))))))))
  rw [if_neg h0] at h
  clear h0
  by_cases h0 : ibrav = -9
  · rw [if_pos h0] at h
    have h := (Option.some.inj h).symm
    exact Or.inr (Or.inr (Or.inr (Or.inr (Or.inr (Or.inr (Or.inr (Or.inr (Or.inr (Or.inr (Or.inr (Or.inl ⟨h0, h⟩)))))))))))
  rw [if_neg h0] at h
  clear h0
  by_cases h0 : ibrav = 91
  · rw [if_pos h0] at h
    have h := (Option.some.inj h).symm
    exact Or.inr (Or.inr (Or.inr (Or.inr (Or.inr (Or.inr (Or.inr (Or.inr (Or.inr (Or.inr (Or.inr (Or.inr (Or.inl ⟨h0, h⟩))))))))))))
  rw [if_neg h0] at h
  clear h0
  by_cases h0 : ibrav = 10
  · rw [if_pos h0] at h
    have h := (Option.some.inj h).symm
    exact Or.inr (Or.inr (Or.inr (Or.inr (Or.inr (Or.inr (Or.inr (Or.inr (Or.inr (Or.inr (Or.inr (Or.inr (Or.inr (Or.inl ⟨h0, h⟩)))))))))))))
  rw [if_neg h0] at h
  clear h0
  by_cases h0 : ibrav = 11
  · rw [if_pos h0] at h
    have h := (Option.some.inj h).symm
    exact Or.inr (Or.inr (Or.inr (Or.inr (Or.inr (Or.inr (Or.inr (Or.inr (Or.inr (Or.inr (Or.inr (Or.inr (Or.inr (Or.inr (Or.inl ⟨h0, h⟩))))))))))))))
  rw [if_neg h0] at h
  clear h0
  by_cases h0 : ibrav = 12
  · rw [if_pos h0] at h
    have h := (Option.some.inj h).symm
    exact Or.inr (Or.inr (Or.inr (Or.inr (Or.inr (Or.inr (Or.inr (Or.inr (Or.inr (Or.inr (Or.inr (Or.inr (Or.inr (Or.inr (Or.inr (Or.inl ⟨h0, h⟩)))))))))))))))
  rw [if_neg h0] at h
  clear h0
  by_cases h0 : ibrav = -12
  · rw [if_pos h0] at h
    have h := (Option.some.inj h).symm
    exact Or.inr (Or.inr (Or.inr (Or.inr (Or.inr (Or.inr (Or.inr (Or.inr (Or.inr (Or.inr (Or.inr (Or.inr (Or.inr (Or.inr (Or.inr (Or.inr (Or.inl ⟨h0, h⟩))))))))))))))))
  rw [if_neg h0] at h
  clear h0
  by_cases h0 : ibrav = 13
  · rw [if_pos h0] at h
    have h := (Option.some.inj h).symm
    exact Or.inr (Or.inr (Or.inr (Or.inr (Or.inr (Or.inr (Or.inr (Or.inr (Or.inr (Or.inr (Or.inr (Or.inr (Or.inr (Or.inr (Or.inr (Or.inr (Or.inr (Or.inl ⟨h0, h⟩)))))))))))))))))
  rw [if_neg h0] at h
  clear h0
  by_cases h0 : ibrav = -13
  · rw [if_pos h0] at h
    have h := (Option.some.inj h).symm
    exact Or.inr (Or.inr (Or.inr (Or.inr (Or.inr (Or.inr (Or.inr (Or.inr (Or.inr (Or.inr (Or.inr (Or.inr (Or.inr (Or.inr (Or.inr (Or.inr (Or.inr (Or.inr (Or.inl ⟨h0, h⟩))))))))))))))))))
  rw [if_neg h0] at h
  clear h0
  by_cases h0 : ibrav = 14
  · rw [if_pos h0] at h
    have h := (Option.some.inj h).symm
    exact Or.inr (Or.inr (Or.inr (Or.inr (Or.inr (Or.inr (Or.inr (Or.inr (Or.inr (Or.inr (Or.inr (Or.inr (Or.inr (Or.inr (Or.inr (Or.inr (Or.inr (Or.inr (Or.inr (⟨h0, h⟩)))))))))))))))))))
  rw [if_neg h0] at h
  clear h0
  exact absurd h (by simp)

/-- Everything the functions read is needed: success means that every required entry is a number. -/
theorem fn_ok_required (ibrav : ℤ) (f : Celldm → Except PyErr Rows) (hf : ibravFn ibrav = some f) (d : Celldm) (v : Rows) (hv : f d = .ok v) :
    ∀ k ∈ required ibrav, ∃ x, d k = some (some x) := by
  have key : ∀ k (F : ℝ → Except PyErr Rows), (d.num k >>= F) = .ok v → (∃ x, d k = some (some x)) ∧ ∃ x, F x = .ok v := by
    intro k F h
    unfold Celldm.num at h
    rcases hk : d k with _ | _ | y
    · rw [hk] at h; exact absurd h (by rintro ⟨⟩)
    · rw [hk] at h; exact absurd h (by rintro ⟨⟩)
    · rw [hk] at h
      exact ⟨⟨y, rfl⟩, ⟨y, h⟩⟩
  rcases ibravFn_mem hf with ⟨h, h'⟩ | ⟨h, h'⟩ | ⟨h, h'⟩ | ⟨h, h'⟩ | ⟨h, h'⟩ | ⟨h, h'⟩ | ⟨h, h'⟩ | ⟨h, h'⟩ | ⟨h, h'⟩ | ⟨h, h'⟩ | ⟨h, h'⟩ | ⟨h, h'⟩ | ⟨h, h'⟩ | ⟨h, h'⟩ | ⟨h, h'⟩ | ⟨h, h'⟩ | ⟨h, h'⟩ | ⟨h, h'⟩ | ⟨h, h'⟩ | ⟨h, h'⟩
  all_goals (subst h; subst h'; clear hf)
  · obtain ⟨h1, y1, hv⟩ := key 1 _ hv
    intro k hk
    have hk : k ∈ [1] := hk
    simp only [List.mem_cons, List.not_mem_nil, or_false] at hk
    subst hk; exact h1
  · obtain ⟨h1, y1, hv⟩ := key 1 _ hv
    intro k hk
    have hk : k ∈ [1] := hk
    simp only [List.mem_cons, List.not_mem_nil, or_false] at hk
    subst hk; exact h1
  · obtain ⟨h1, y1, hv⟩ := key 1 _ hv
    intro k hk
    have hk : k ∈ [1] := hk
    simp only [List.mem_cons, List.not_mem_nil, or_false] at hk
    subst hk; exact h1
  · obtain ⟨h1, y1, hv⟩ := key 1 _ hv
    intro k hk
    have hk : k ∈ [1] := hk
    simp only [List.mem_cons, List.not_mem_nil, or_false] at hk
    subst hk; exact h1
  · obtain ⟨h1, y1, hv⟩ := key 1 _ hv
    obtain ⟨h3, y3, hv⟩ := key 3 _ hv
    intro k hk
    have hk : k ∈ [1, 3] := hk
    simp only [List.mem_cons, List.not_mem_nil, or_false] at hk
    rcases hk with rfl | rfl
    · exact h1
    · exact h3
  · obtain ⟨h1, y1, hv⟩ := key 1 _ hv
    obtain ⟨h4, y4, hv⟩ := key 4 _ hv
    intro k hk
    have hk : k ∈ [1, 4] := hk
    simp only [List.mem_cons, List.not_mem_nil, or_false] at hk
    rcases hk with rfl | rfl
    · exact h1
    · exact h4
  · obtain ⟨h1, y1, hv⟩ := key 1 _ hv
    obtain ⟨h4, y4, hv⟩ := key 4 _ hv
    intro k hk
    have hk : k ∈ [1, 4] := hk
    simp only [List.mem_cons, List.not_mem_nil, or_false] at hk
    rcases hk with rfl | rfl
    · exact h1
    · exact h4
  · obtain ⟨h1, y1, hv⟩ := key 1 _ hv
    obtain ⟨h3, y3, hv⟩ := key 3 _ hv
    intro k hk
    have hk : k ∈ [1, 3] := hk
    simp only [List.mem_cons, List.not_mem_nil, or_false] at hk
    rcases hk with rfl | rfl
    · exact h1
    · exact h3
  · obtain ⟨h1, y1, hv⟩ := key 1 _ hv
    obtain ⟨h3, y3, hv⟩ := key 3 _ hv
    intro k hk
    have hk : k ∈ [1, 3] := hk
    simp only [List.mem_cons, List.not_mem_nil, or_false] at hk
    rcases hk with rfl | rfl
    · exact h1
    · exact h3
  · obtain ⟨h1, y1, hv⟩ := key 1 _ hv
    obtain ⟨h2, y2, hv⟩ := key 2 _ hv
    obtain ⟨h3, y3, hv⟩ := key 3 _ hv
    intro k hk
    have hk : k ∈ [1, 2, 3] := hk
    simp only [List.mem_cons, List.not_mem_nil, or_false] at hk
    rcases hk with rfl | rfl | rfl
    · exact h1
    · exact h2
    · exact h3
  · obtain ⟨h1, y1, hv⟩ := key 1 _ hv
    obtain ⟨h2, y2, hv⟩ := key 2 _ hv
    obtain ⟨h3, y3, hv⟩ := key 3 _ hv
    intro k hk
    have hk : k ∈ [1, 2, 3] := hk
    simp only [List.mem_cons, List.not_mem_nil, or_false] at hk
    rcases hk with rfl | rfl | rfl
    · exact h1
    · exact h2
    · exact h3
  · obtain ⟨h1, y1, hv⟩ := key 1 _ hv
    obtain ⟨h2, y2, hv⟩ := key 2 _ hv
    obtain ⟨h3, y3, hv⟩ := key 3 _ hv
    intro k hk
    have hk : k ∈ [1, 2, 3] := hk
    simp only [List.mem_cons, List.not_mem_nil, or_false] at hk
    rcases hk with rfl | rfl | rfl
    · exact h1
    · exact h2
    · exact h3
  · obtain ⟨h1, y1, hv⟩ := key 1 _ hv
    obtain ⟨h2, y2, hv⟩ := key 2 _ hv
    obtain ⟨h3, y3, hv⟩ := key 3 _ hv
    intro k hk
    have hk : k ∈ [1, 2, 3] := hk
    simp only [List.mem_cons, List.not_mem_nil, or_false] at hk
    rcases hk with rfl | rfl | rfl
    · exact h1
    · exact h2
    · exact h3
  · obtain ⟨h1, y1, hv⟩ := key 1 _ hv
    obtain ⟨h2, y2, hv⟩ := key 2 _ hv
    obtain ⟨h3, y3, hv⟩ := key 3 _ hv
    intro k hk
    have hk : k ∈ [1, 2, 3] := hk
    simp only [List.mem_cons, List.not_mem_nil, or_false] at hk
    rcases hk with rfl | rfl | rfl
    · exact h1
    · exact h2
    · exact h3
  · obtain ⟨h1, y1, hv⟩ := key 1 _ hv
    obtain ⟨h2, y2, hv⟩ := key 2 _ hv
    obtain ⟨h3, y3, hv⟩ := key 3 _ hv
    intro k hk
    have hk : k ∈ [1, 2, 3] := hk
    simp only [List.mem_cons, List.not_mem_nil, or_false] at hk
    rcases hk with rfl | rfl | rfl
    · exact h1
    · exact h2
    · exact h3
  · obtain ⟨h1, y1, hv⟩ := key 1 _ hv
    obtain ⟨h2, y2, hv⟩ := key 2 _ hv
    obtain ⟨h3, y3, hv⟩ := key 3 _ hv
    obtain ⟨h4, y4, hv⟩ := key 4 _ hv
    intro k hk
    have hk : k ∈ [1, 2, 3, 4] := hk
    simp only [List.mem_cons, List.not_mem_nil, or_false] at hk
    rcases hk with rfl | rfl | rfl | rfl
    · exact h1
    · exact h2
    · exact h3
    · exact h4
  · obtain ⟨h1, y1, hv⟩ := key 1 _ hv
    obtain ⟨h2, y2, hv⟩ := key 2 _ hv
    obtain ⟨h3, y3, hv⟩ := key 3 _ hv
    obtain ⟨h5, y5, hv⟩ := key 5 _ hv
    intro k hk
    have hk : k ∈ [1, 2, 3, 5] := hk
    simp only [List.mem_cons, List.not_mem_nil, or_false] at hk
    rcases hk with rfl | rfl | rfl | rfl
    · exact h1
    · exact h2
    · exact h3
    · exact h5
  · obtain ⟨h1, y1, hv⟩ := key 1 _ hv
    obtain ⟨h2, y2, hv⟩ := key 2 _ hv
    obtain ⟨h3, y3, hv⟩ := key 3 _ hv
    obtain ⟨h4, y4, hv⟩ := key 4 _ hv
    intro k hk
    have hk : k ∈ [1, 2, 3, 4] := hk
    simp only [List.mem_cons, List.not_mem_nil, or_false] at hk
    rcases hk with rfl | rfl | rfl | rfl
    · exact h1
    · exact h2
    · exact h3
    · exact h4
  · obtain ⟨h1, y1, hv⟩ := key 1 _ hv
    obtain ⟨h2, y2, hv⟩ := key 2 _ hv
    obtain ⟨h3, y3, hv⟩ := key 3 _ hv
    obtain ⟨h5, y5, hv⟩ := key 5 _ hv
    intro k hk
    have hk : k ∈ [1, 2, 3, 5] := hk
    simp only [List.mem_cons, List.not_mem_nil, or_false] at hk
    rcases hk with rfl | rfl | rfl | rfl
    · exact h1
    · exact h2
    · exact h3
    · exact h5
  · obtain ⟨h1, y1, hv⟩ := key 1 _ hv
    obtain ⟨h2, y2, hv⟩ := key 2 _ hv
    obtain ⟨h3, y3, hv⟩ := key 3 _ hv
    obtain ⟨h4, y4, hv⟩ := key 4 _ hv
    obtain ⟨h5, y5, hv⟩ := key 5 _ hv
    obtain ⟨h6, y6, hv⟩ := key 6 _ hv
    intro k hk
    have hk : k ∈ [1, 2, 3, 4, 5, 6] := hk
    simp only [List.mem_cons, List.not_mem_nil, or_false] at hk
    rcases hk with rfl | rfl | rfl | rfl | rfl | rfl
    · exact h1
    · exact h2
    · exact h3
    · exact h4
    · exact h5
    · exact h6

theorem ibravFn_isSome (ibrav : ℤ) (x : ℕ → ℝ) : (ibravFn ibrav).isSome = (latticeOf ibrav x).isSome := by
  by_cases h : (ibravFn ibrav).isSome
  · obtain ⟨f, hf⟩ := Option.isSome_iff_exists.1 h
    rcases ibravFn_mem hf with ⟨h, -⟩ | ⟨h, -⟩ | ⟨h, -⟩ | ⟨h, -⟩ | ⟨h, -⟩ | ⟨h, -⟩ | ⟨h, -⟩ | ⟨h, -⟩ | ⟨h, -⟩ | ⟨h, -⟩ | ⟨h, -⟩ | ⟨h, -⟩ | ⟨h, -⟩ | ⟨h, -⟩ | ⟨h, -⟩ | ⟨h, -⟩ | ⟨h, -⟩ | ⟨h, -⟩ | ⟨h, -⟩ | ⟨h, -⟩ <;> subst h <;> rfl
  · by_cases h2 : (latticeOf ibrav x).isSome
    · obtain ⟨r, hr⟩ := Option.isSome_iff_exists.1 h2
      rcases latticeOf_mem hr with h3 | h3 | h3 | h3 | h3 | h3 | h3 | h3 | h3 | h3 | h3 | h3 | h3 | h3 | h3 | h3 | h3 | h3 | h3 | h3 <;> subst h3 <;> rfl
    · simp only [Bool.not_eq_true] at h h2
      rw [h, h2]

/-- **C51d.** A missing `celldm` entry is always reported: with some required entry absent the call raises `KeyError` (and not the intended
`ValueError`), and it succeeds only if all required entries are numbers. -/
theorem C51_missing_entry (ibrav : ℤ) (x : ℕ → ℝ) (hi : (latticeOf ibrav x).isSome) (d : Celldm) :
    ((∃ k ∈ required ibrav, d k = none) → ibrav2latvec ibrav d = .error .key) ∧
    (∀ r, ibrav2latvec ibrav d = .ok r → ∀ k ∈ required ibrav, ∃ y, d k = some (some y)) := by
  rw [← ibravFn_isSome] at hi
  obtain ⟨f, hf⟩ := Option.isSome_iff_exists.1 hi
  constructor
  · rintro ⟨k, hk, hn⟩
    unfold ibrav2latvec Celldm.get
    rcases h1 : d 1 with _ | a
    · rfl
    · simp only [hf]
      rcases hv : f d with e | v
      · simp only
        congr 1
        have hk6 : k ∈ [1, 2, 3, 4, 5, 6] := by
          rcases ibravFn_mem hf with ⟨h, -⟩ | ⟨h, -⟩ | ⟨h, -⟩ | ⟨h, -⟩ | ⟨h, -⟩ | ⟨h, -⟩ | ⟨h, -⟩ | ⟨h, -⟩ | ⟨h, -⟩ | ⟨h, -⟩ | ⟨h, -⟩ | ⟨h, -⟩ | ⟨h, -⟩ | ⟨h, -⟩ | ⟨h, -⟩ | ⟨h, -⟩ | ⟨h, -⟩ | ⟨h, -⟩ | ⟨h, -⟩ | ⟨h, -⟩ <;> subst h <;>
            exact (show ∀ k ∈ required _, k ∈ [1, 2, 3, 4, 5, 6] by decide) k hk
        unfold badCell
        simp only [List.mem_cons, List.not_mem_nil, or_false] at hk6
        rcases hk6 with rfl | rfl | rfl | rfl | rfl | rfl
        · rw [hn]
        · rw [hn]
          split
          · simp_all
          · rfl
        · rw [hn]
          split
          · simp_all
          · rfl
        · rw [hn]
          split
          · simp_all
          · rfl
        · rw [hn]
          split
          · simp_all
          · rfl
        · rw [hn]
          split
          · simp_all
          · rfl
      · obtain ⟨y, hy⟩ := fn_ok_required ibrav f hf d v hv k hk
        rw [hn] at hy
        exact absurd hy (by simp)
  · intro r hr
    unfold ibrav2latvec at hr
    rcases h1 : d.get 1 with e | a
    · rw [h1] at hr
      exact absurd hr (by simp)
    · rw [h1, hf] at hr
      simp only at hr
      rcases hv : f d with e | v
      · rw [hv] at hr
        exact absurd hr (by simp)
      · exact fn_ok_required ibrav f hf d v hv

/-! ## C86, C87: the cell of an input file -/

/-- The dictionary of a fresh process: `System.celldm` defaults to `{}`. -/
def emptyDict : Celldm := fun _ => none

/-- **C87a.** `trad2celldm` translates the traditional parameters correctly: every `celldm` entry that the lattice needs gets its documented
value (`a` in Bohr, ratios `b/a`, `c/a`, and the cosine the entry stands for). -/
theorem C87_trad2celldm (ibrav : ℤ) (x : ℕ → ℝ) (hi : (latticeOf ibrav x).isSome) (a b c cosab cosbc cosac : ℝ) :
    ∃ d, trad2celldm ibrav (some a) (some b) (some c) (some cosab) (some cosbc) (some cosac) = .ok d ∧
      ∀ k ∈ required ibrav, d k = some (some (match k with
        | 1 => a * angstrom
        | 2 => b / a
        | 3 => c / a
        | 4 => if ibrav = 14 then cosbc else cosab
        | 5 => cosac
        | _ => cosab)) := by
  obtain ⟨r, hr⟩ := Option.isSome_iff_exists.1 hi
  rcases latticeOf_mem hr with h | h | h | h | h | h | h | h | h | h | h | h | h | h | h | h | h | h | h | h
  all_goals
    subst h
    refine ⟨_, rfl, ?_⟩
    intro k hk
    simp only [required, List.mem_cons, List.not_mem_nil, or_false, Int.reduceNeg, Int.reduceEq, reduceIte, or_self, or_true,
      reduceCtorEq] at hk
    first
    | (subst hk; simp [Celldm.set])
    | (rcases hk with rfl | rfl | rfl | rfl | rfl | rfl <;> simp [Celldm.set])
    | (rcases hk with rfl | rfl | rfl | rfl <;> simp [Celldm.set])
    | (rcases hk with rfl | rfl | rfl <;> simp [Celldm.set])
    | (rcases hk with rfl | rfl <;> simp [Celldm.set])

/-- **C87b.** A needed traditional parameter that is absent is rejected with `ValueError`. -/
theorem C87_trad_missing (a : ℝ) (b c cosab cosbc cosac : Option ℝ) (ibrav : ℤ) (x : ℕ → ℝ) (hi : (latticeOf ibrav x).isSome)
    (h : (2 ∈ required ibrav ∧ b = none) ∨ (3 ∈ required ibrav ∧ c = none) ∨
      (4 ∈ required ibrav ∧ ibrav ≠ 14 ∧ cosab = none) ∨ (ibrav = 14 ∧ (cosab = none ∨ cosbc = none)) ∨ (5 ∈ required ibrav ∧ cosac = none)) :
    trad2celldm ibrav (some a) b c cosab cosbc cosac = .error .value := by
  obtain ⟨r, hr⟩ := Option.isSome_iff_exists.1 hi
  rcases latticeOf_mem hr with h0 | h0 | h0 | h0 | h0 | h0 | h0 | h0 | h0 | h0 | h0 | h0 | h0 | h0 | h0 | h0 | h0 | h0 | h0 | h0
  all_goals
    subst h0
    simp [required] at h
  all_goals
    rcases b with _ | b <;> rcases c with _ | c <;> rcases cosab with _ | cosab <;> rcases cosbc with _ | cosbc <;>
      rcases cosac with _ | cosac <;> simp at h <;> rfl

/-- **C87c (violation).** In a fresh process the traditional parameters never work: an input file with `ibrav ≠ 0` and without `celldm`
raises `KeyError`, whatever `A`, `B`, `C` and cosines it gives. -/
theorem C87_trad_violated (s : CellIn) (x : ℕ → ℝ) (hi : (latticeOf s.ibrav x).isSome) (h0 : s.celldm = none) :
    (resolveCell emptyDict s).2 = .error .key := by
  have hz : s.ibrav ≠ 0 := by
    intro h
    rw [h] at hi
    exact absurd hi (by simp [latticeOf])
  rw [← ibravFn_isSome] at hi
  obtain ⟨f, hf⟩ := Option.isSome_iff_exists.1 hi
  unfold resolveCell
  rw [if_neg hz, hf, h0]
  rfl

/-- **C87d (violation).** The same holds for `CELL_PARAMETERS alat` with `A` instead of `celldm(1)`. -/
theorem C87_alat_violated (s : CellIn) (hz : s.ibrav = 0) (ho : s.option = "alat") (h0 : s.celldm = none) :
    (resolveCell emptyDict s).2 = .error .key := by
  unfold resolveCell
  rw [if_pos hz, h0, ho]
  rfl

/-- Full statement of history independence: the last file of every sequence of files gives the result it gives in a fresh process. -/
def HistoryFree (s : CellIn) : Prop := ∀ hist : List CellIn, (parseAll emptyDict (hist ++ [s])).getLast? = some (resolveCell emptyDict s).2

theorem parseAll_last (d : Celldm) (hist : List CellIn) (s : CellIn) : ∃ d', (parseAll d (hist ++ [s])).getLast? = some (resolveCell d' s).2 := by
  induction hist generalizing d with
  | nil => exact ⟨d, rfl⟩
  | cons a t ih =>
    obtain ⟨d', h⟩ := ih (resolveCell d a).1
    refine ⟨d', ?_⟩
    rw [List.cons_append, parseAll]
    rw [List.getLast?_cons, h]
    rfl

/-- **C86a (partial).** A file that gives `celldm` explicitly, or `CELL_PARAMETERS` in units other than `alat`, is resolved independently of the
files parsed before. -/
theorem C86_history_free_partial (s : CellIn) (h : s.celldm.isSome ∨ (s.ibrav = 0 ∧ s.option ≠ "alat")) : HistoryFree s := by
  intro hist
  obtain ⟨d', hd⟩ := parseAll_last emptyDict hist s
  rw [hd]
  congr 1
  rcases h with h | ⟨h1, h2⟩
  · obtain ⟨c, hc⟩ := Option.isSome_iff_exists.1 h
    unfold resolveCell
    rw [hc]
    simp only [Option.getD_some]
    split
    · split <;> rfl
    · split
      · rfl
      · split
        · rfl
        · split
          · rfl
          · split <;> rfl
        · split <;> rfl
  · unfold resolveCell
    rw [if_pos h1, if_pos h1]
    unfold cellparam2latvec
    rw [if_neg h2, if_neg h2]

/-- An input with `ibrav = 0` and the cell given in Bohr. -/
noncomputable def fileBohr : CellIn :=
  { ibrav := 0, celldm := none, a := none, b := none, c := none, cosab := none, cosac := none, cosbc := none, option := "bohr",
    cellparam := boxK 10 10 10 }

/-- An input with `ibrav = 1` and `A = 5.43`. -/
noncomputable def fileTrad : CellIn :=
  { ibrav := 1, celldm := none, a := some 5.43, b := none, c := none, cosab := none, cosac := none, cosbc := none, option := "None",
    cellparam := fun _ => 0 }

/-- **C86b (violation).** Parsing a file leaks the lattice parameter into the next one: a cubic cell with `A = 5.43` (which a fresh process
rejects) silently gets the 10 Bohr lattice of the file parsed before it, because all inputs without `celldm` share one dictionary object. -/
theorem C86_leak_violated : (resolveCell emptyDict fileTrad).2 = .error .key ∧
    (∃ L, parseAll emptyDict [fileBohr, fileTrad] = [Lattice.mkLat 10 L, Lattice.mkLat 10 L] ∧ L = Matrix.diagonal fun _ => 10) ∧
    ¬ HistoryFree fileTrad := by
  have h1 : (resolveCell emptyDict fileTrad).2 = .error .key := C87_trad_violated _ (fun _ => 0) rfl rfl
  have hL : (Matrix.of (boxK 10 10 10))ᵀ = Matrix.diagonal fun _ => (10 : ℝ) := by
    ext i j
    fin_cases i <;> fin_cases j <;> simp [boxK, Matrix.diagonal]
  have hn : Lattice.norm (boxK 10 10 10 0) = 10 := by
    unfold Lattice.norm
    rw [show boxK 10 10 10 0 ⬝ᵥ boxK 10 10 10 0 = 10 * 10 by simp [boxK, dotProduct, Fin.sum_univ_three]]
    exact Real.sqrt_mul_self (by norm_num)
  have hb : resolveCell emptyDict fileBohr = (fillZeros (emptyDict.set 1 10), Lattice.mkLat 10 (Matrix.diagonal fun _ => 10)) := by
    have hc : cellparam2latvec "bohr" (boxK 10 10 10) emptyDict none = .ok (10, Matrix.diagonal fun _ => 10) := by
      unfold cellparam2latvec
      rw [if_neg (by decide)]
      simp only [show ("bohr" = "angstrom") = False by decide, if_false, hn, hL]
    simp only [resolveCell, fileBohr, if_true, Option.getD_none, hc, Option.isNone_none]
  have ht : (resolveCell (fillZeros (emptyDict.set 1 10)) fileTrad).2 = Lattice.mkLat 10 (Matrix.diagonal fun _ => 10) := by
    have hd1 : fillZeros (emptyDict.set 1 10) 1 = some (some 10) := by simp [fillZeros, Celldm.set]
    have hi : ibrav2latvec 1 (fillZeros (emptyDict.set 1 10)) = .ok (some (some 10, Matrix.diagonal fun _ => 10)) := by
      rw [ibrav2latvec_of (f := cubicP) (v := boxK 10 10 10) hd1 rfl (by simp only [cubicP, num_ok hd1]; rfl), hL]
    have hf : ibravFn 1 = some cubicP := rfl
    simp only [resolveCell, fileTrad, one_ne_zero, if_false, Option.getD_none, hf, get_ok hd1, hi]
  refine ⟨h1, ⟨_, ?_, rfl⟩, ?_⟩
  · simp only [parseAll, hb, ht]
  · intro h
    have h2 := h [fileBohr]
    simp only [List.cons_append, List.nil_append, parseAll, hb, ht, h1, List.getLast?_cons_cons, List.getLast?_singleton] at h2
    have h3 := Option.some.inj h2
    unfold Lattice.mkLat at h3
    rw [if_neg (by rw [Matrix.det_diagonal]; simp)] at h3
    exact absurd h3 (by simp)

/-! ## C89: explicit cells -/

/-- **C89a.** The lines of the `CELL_PARAMETERS` card are the lattice vectors (columns), in the unit named by the option. -/
theorem C89_cell_parameters (cp : Rows) (d : Celldm) (a : Option ℝ) (x : ℝ) (hx : d 1 = some (some x)) :
    (∃ L, cellparam2latvec "bohr" cp d a = .ok (Lattice.norm (cp 0), L) ∧ ∀ i j, L j i = cp i j) ∧
    (∃ L, cellparam2latvec "angstrom" cp d a = .ok (Lattice.norm (fun j => angstrom * cp 0 j), L) ∧ ∀ i j, L j i = angstrom * cp i j) ∧
    (∃ L, cellparam2latvec "alat" cp d a = .ok (x, L) ∧ ∀ i j, L j i = x * cp i j) := by
  refine ⟨⟨(Matrix.of cp)ᵀ, ?_, fun _ _ => rfl⟩, ⟨(Matrix.of fun i => angstrom • cp i)ᵀ, ?_, fun _ _ => rfl⟩, ⟨x • (Matrix.of cp)ᵀ, ?_, fun _ _ => rfl⟩⟩
  · unfold cellparam2latvec
    rw [if_neg (by decide)]
    simp only [show ("bohr" = "angstrom") = False by decide, if_false]
  · unfold cellparam2latvec
    rw [if_neg (by decide)]
    simp only [if_true]
    rfl
  · unfold cellparam2latvec
    rw [if_pos rfl, get_ok hx]

/-- **C89b (violation).** An unknown or misspelt unit is not rejected: the numbers are taken as Bohr. -/
theorem C89_unknown_unit_violated (option : String) (h1 : option ≠ "alat") (h2 : option ≠ "angstrom") (cp : Rows) (d : Celldm) (a : Option ℝ) :
    cellparam2latvec option cp d a = cellparam2latvec "bohr" cp d a := by
  unfold cellparam2latvec
  simp only [show ("bohr" = "angstrom") = False by decide, show ("bohr" = "alat") = False by decide, if_false, h1, h2]

/-! ## C88: the FFT grid -/

/-- The product of powers of 2, 3 and 5 (specification). -/
def Smooth (n : ℕ) : Prop := ∃ i j k, n = 2 ^ i * 3 ^ j * 5 ^ k

theorem strip_spec (p : ℕ) (hp : 1 < p) (n : ℕ) (hn : 0 < n) : ∃ k, n = p ^ k * strip p n ∧ ¬ p ∣ strip p n ∧ 0 < strip p n := by
  induction n using Nat.strong_induction_on with
  | _ n ih =>
    unfold strip
    split
    · rename_i h
      have hlt := Nat.div_lt_self hn hp
      have hdvd : p ∣ n := Nat.dvd_of_mod_eq_zero h.2.2
      have hpos : 0 < n / p := Nat.div_pos (Nat.le_of_dvd hn hdvd) (by omega)
      obtain ⟨k, h1, h2, h3⟩ := ih (n / p) hlt hpos
      refine ⟨k + 1, ?_, h2, h3⟩
      rw [pow_succ, mul_right_comm, ← h1, Nat.div_mul_cancel hdvd]
    · rename_i h
      refine ⟨0, by simp, ?_, hn⟩
      intro hd
      exact h ⟨hp, hn, Nat.mod_eq_zero_of_dvd hd⟩

theorem isGood_iff (n : ℕ) (hn : 0 < n) : isGood n = true ↔ Smooth n := by
  obtain ⟨i, h1, n1, p1⟩ := strip_spec 2 (by norm_num) n hn
  obtain ⟨j, h2, n2, p2⟩ := strip_spec 3 (by norm_num) _ p1
  obtain ⟨k, h3, n3, p3⟩ := strip_spec 5 (by norm_num) _ p2
  unfold isGood
  rw [beq_iff_eq]
  constructor
  · intro h
    refine ⟨i, j, k, ?_⟩
    rw [h1, h2, h3, h]
    ring
  · rintro ⟨i', j', k', h⟩
    set m := strip 5 (strip 3 (strip 2 n)) with hm
    have e : n = 2 ^ i * (3 ^ j * (5 ^ k * m)) := by rw [← h3, ← h2, ← h1]
    have hmn : m ∣ n := ⟨2 ^ i * (3 ^ j * 5 ^ k), by rw [e]; ring⟩
    have d5 : ¬ 5 ∣ m := n3
    have d3 : ¬ 3 ∣ m := fun hd => n2 (h3 ▸ Dvd.dvd.mul_left hd _)
    have d2 : ¬ 2 ∣ m := fun hd => n1 (h2 ▸ Dvd.dvd.mul_left (h3 ▸ Dvd.dvd.mul_left hd _) _)
    have c2 : Nat.Coprime m 2 := ((Nat.Prime.coprime_iff_not_dvd Nat.prime_two).2 d2).symm
    have c3 : Nat.Coprime m 3 := ((Nat.Prime.coprime_iff_not_dvd Nat.prime_three).2 d3).symm
    have c5 : Nat.Coprime m 5 := ((Nat.Prime.coprime_iff_not_dvd Nat.prime_five).2 d5).symm
    have hc : Nat.Coprime m n := by
      rw [h]
      exact Nat.Coprime.mul_right (Nat.Coprime.mul_right (c2.pow_right _) (c3.pow_right _)) (c5.pow_right _)
    exact Nat.Coprime.eq_one_of_dvd hc hmn

theorem search_spec (fuel n m : ℕ) (hn : 0 < n) (hm : Smooth m) (h1 : n ≤ m) (h2 : m < n + fuel) :
    ∃ r, search fuel n = some r ∧ n ≤ r ∧ Smooth r ∧ ∀ r', n ≤ r' → Smooth r' → r ≤ r' := by
  induction fuel generalizing n with
  | zero => omega
  | succ f ih =>
    unfold search
    split
    · rename_i h
      exact ⟨n, rfl, le_refl _, (isGood_iff n hn).1 h, fun r' hr _ => hr⟩
    · rename_i h
      have hns : ¬ Smooth n := fun hs => h ((isGood_iff n hn).2 hs)
      have hlt : n < m := lt_of_le_of_ne h1 (fun e => hns (e ▸ hm))
      obtain ⟨r, e1, e2, e3, e4⟩ := ih (n + 1) (by omega) hlt (by omega)
      refine ⟨r, e1, by omega, e3, fun r' hr hs => e4 r' ?_ hs⟩
      exact lt_of_le_of_ne hr (fun e => hns (e ▸ hs))

/-- **C88.** For every cell with non-zero lattice vectors and every positive cutoff the grid search terminates, and each grid dimension is the
smallest integer with only the prime factors 2, 3 and 5 that is at least `2·√(2·ecut)/π·|aᵢ|`. -/
theorem C88_grid_shape (latvec : Lattice.Mat) (ecut : ℝ) (hpos : 0 < ecut) (i : Fin 3) (hnz : 0 < Lattice.norm (latvecᵀ i)) :
    ∃ n, genGridShape latvec ecut i = some n ∧ Smooth n ∧ 2 * Real.sqrt (2 * ecut) / Real.pi * Lattice.norm (latvecᵀ i) ≤ n ∧
      ∀ n', Smooth n' → 2 * Real.sqrt (2 * ecut) / Real.pi * Lattice.norm (latvecᵀ i) ≤ n' → n ≤ n' := by
  have h0 : 0 < 2 * Real.sqrt (2 * ecut) / Real.pi * Lattice.norm (latvecᵀ i) := by positivity
  have hc : ∀ n' : ℕ, 2 * Real.sqrt (2 * ecut) / Real.pi * Lattice.norm (latvecᵀ i) ≤ n' ↔ gridMin latvec ecut i ≤ n' := by
    intro n'
    unfold gridMin
    rw [Int.toNat_le, Int.ceil_le]
    simp
  unfold genGridShape
  have hg : 0 < gridMin latvec ecut i := by
    unfold gridMin
    have := Int.ceil_pos.2 h0
    omega
  generalize gridMin latvec ecut i = g at *
  obtain ⟨m, hm1, hm2, hm3⟩ : ∃ m, Smooth m ∧ g ≤ m ∧ m < g + (g + 1) := by
    refine ⟨2 ^ Nat.clog 2 g, ⟨Nat.clog 2 g, 0, 0, by simp⟩, Nat.le_pow_clog (by norm_num) g, ?_⟩
    rcases Nat.lt_or_ge 1 g with h | h
    · have := Nat.pow_pred_clog_lt_self (b := 2) (by norm_num) h
      have hcl : 0 < Nat.clog 2 g := Nat.clog_pos (by norm_num) h
      have e : 2 ^ Nat.clog 2 g = 2 * 2 ^ (Nat.clog 2 g).pred := by
        rw [mul_comm, ← pow_succ, ← Nat.succ_eq_add_one, Nat.succ_pred_eq_of_pos hcl]
      omega
    · have : g = 1 := by omega
      subst this
      simp
  obtain ⟨r, e1, e2, e3, e4⟩ := search_spec (g + 1) g m hg hm1 hm2 hm3
  exact ⟨r, e1, e3, (hc r).2 e2, fun n' hs hle => e4 n' ((hc n').1 hle) hs⟩

/-- Silicon-like numbers: the search skips 7 (hypotheses of C88 are met by any real cell; here the loop itself). -/
example : search 8 7 = some 8 := by decide +kernel

end Verif.QECell
