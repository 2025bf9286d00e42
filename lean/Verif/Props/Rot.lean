import Mathlib.Analysis.SpecialFunctions.Trigonometric.Inverse
import Verif.Model.Angles
import Verif.Props.Trans
import Verif.Props.GkCoords

/-!
# C184, C185: equivalent k-points have the same energies and densities

Space-group operations (C184) and time reversal (C185) of the Kohn–Sham Hamiltonian.
-/

namespace Verif.Rot

open scoped ComplexConjugate
open Verif.FFT (Driver Dims DrvState ValidIdx)
open Verif.Nonloc Verif.Trans

/-! ## Angular parts -/

/-- The addition theorem of the spherical harmonics of order `l`: summed over `m`, the product at two directions depends only on the angle between them. -/
def Addition (Y : ℕ → ℕ → ℝ → ℝ → ℂ) (l : ℕ) : Prop :=
  ∃ P : ℝ → ℝ, ∀ θ φ θ' φ' : ℝ, ∑ m ∈ Finset.Icc (-(l : ℤ)) l, realHarm (fun l m => Y l m θ φ) l m * conj (realHarm (fun l m => Y l m θ' φ') l m)
    = P (Real.cos θ * Real.cos θ' + Real.sin θ * Real.sin θ' * Real.cos (φ - φ'))

/-- What is used of `scipy.special.sph_harm_y`: the addition theorem; order 0 does not depend on the direction. -/
structure Harmonics (Y : ℕ → ℕ → ℝ → ℝ → ℂ) (beta_l : List ℕ) : Prop where
  add : ∀ l ∈ beta_l, Addition Y l
  const : ∀ θ φ θ' φ', Y 0 0 θ φ = Y 0 0 θ' φ'

/-- Scalar product. -/
def dot (q q' : Fin 3 → ℝ) : ℝ := q 0 * q' 0 + q 1 * q' 1 + q 2 * q' 2

/-- A vector that is zero or that the code does not take for zero. -/
def Away (q : Fin 3 → ℝ) : Prop := q = 0 ∨ 1 / 10 ^ 7 < vlen q

theorem vlen_sq (q : Fin 3 → ℝ) : vlen q = Real.sqrt (dot q q) := by
  unfold vlen dot
  congr 1
  ring

theorem vlen_zero (q : Fin 3 → ℝ) : vlen q = 0 ↔ q = 0 := by
  constructor
  · intro h
    unfold vlen at h
    rw [Real.sqrt_eq_zero (by positivity)] at h
    have h0 := sq_nonneg (q 0)
    have h1 := sq_nonneg (q 1)
    have h2 := sq_nonneg (q 2)
    funext a
    fin_cases a
    · exact pow_eq_zero_iff (two_ne_zero) |>.1 (by linarith : q 0 ^ 2 = 0)
    · exact pow_eq_zero_iff (two_ne_zero) |>.1 (by linarith : q 1 ^ 2 = 0)
    · exact pow_eq_zero_iff (two_ne_zero) |>.1 (by linarith : q 2 ^ 2 = 0)
  · rintro rfl
    simp [vlen]

/-- The angle between two vectors from their polar angles. -/
theorem angle (q q' : Fin 3 → ℝ) (h : 1 / 10 ^ 7 < vlen q) (h' : 1 / 10 ^ 7 < vlen q') :
    Real.cos (theta q) * Real.cos (theta q') + Real.sin (theta q) * Real.sin (theta q') * Real.cos (phi q - phi q') = dot q q' / (vlen q * vlen q') := by
  have one : ∀ q : Fin 3 → ℝ, 1 / 10 ^ 7 < vlen q → 0 < vlen q ∧ Real.cos (theta q) = q 2 / vlen q ∧ Real.sin (theta q) * Real.cos (phi q) = q 0 / vlen q ∧
      Real.sin (theta q) * Real.sin (phi q) = q 1 / vlen q := by
    intro q h
    have hp : 0 < vlen q := lt_trans (by positivity) h
    have hsq : vlen q ^ 2 = q 0 ^ 2 + q 1 ^ 2 + q 2 ^ 2 := by
      unfold vlen
      exact Real.sq_sqrt (by positivity)
    have h1 : (q 2 / vlen q) ^ 2 ≤ 1 := by
      rw [div_pow, div_le_one (by positivity), hsq]
      nlinarith [sq_nonneg (q 0), sq_nonneg (q 1)]
    obtain ⟨hl, hu⟩ := abs_le.1 ((sq_le_one_iff_abs_le_one _).1 h1)
    have hc : Real.cos (theta q) = q 2 / vlen q := by
      unfold theta
      rw [if_pos h, Real.cos_arccos hl hu]
    have hs : Real.sin (theta q) = Real.sqrt (q 0 ^ 2 + q 1 ^ 2) / vlen q := by
      unfold theta
      rw [if_pos h, Real.sin_arccos]
      have : 1 - (q 2 / vlen q) ^ 2 = (q 0 ^ 2 + q 1 ^ 2) / vlen q ^ 2 := by
        rw [div_pow]
        field_simp
        rw [hsq]
        ring
      rw [this, Real.sqrt_div (by positivity), Real.sqrt_sq hp.le]
    have hn : ‖(⟨q 0, q 1⟩ : ℂ)‖ = Real.sqrt (q 0 ^ 2 + q 1 ^ 2) := by
      rw [Complex.norm_def, Complex.normSq_mk]
      congr 1
      ring
    refine ⟨hp, hc, ?_, ?_⟩
    · rw [hs, div_mul_eq_mul_div, ← hn]
      unfold phi
      rw [Complex.norm_mul_cos_arg]
    · rw [hs, div_mul_eq_mul_div, ← hn]
      unfold phi
      rw [Complex.norm_mul_sin_arg]
  obtain ⟨p, c, sx, sy⟩ := one q h
  obtain ⟨p', c', sx', sy'⟩ := one q' h'
  rw [Real.cos_sub, c, c']
  have e : q 2 / vlen q * (q' 2 / vlen q') + Real.sin (theta q) * Real.sin (theta q') * (Real.cos (phi q) * Real.cos (phi q') + Real.sin (phi q) * Real.sin (phi q'))
      = q 2 / vlen q * (q' 2 / vlen q') + (Real.sin (theta q) * Real.cos (phi q)) * (Real.sin (theta q') * Real.cos (phi q')) +
        (Real.sin (theta q) * Real.sin (phi q)) * (Real.sin (theta q') * Real.sin (phi q')) := by ring
  rw [e, sx, sy, sx', sy']
  unfold dot
  field_simp
  ring

/-- The matrix element of one atom depends only on the lengths of the two vectors and the angle between them, and is real. -/
theorem element (beta_l : List ℕ) (Y : ℕ → ℕ → ℝ → ℝ → ℂ) (hY : Harmonics Y beta_l) (f : ℕ → ℝ → ℝ) (hf : ∀ b, beta_l.getD b 0 ≠ 0 → f b 0 = 0) (dij : ℕ → ℕ → ℝ) (q q' p p' : Fin 3 → ℝ)
    (hq : Away q) (hq' : Away q') (hp : Away p) (hp' : Away p') (h1 : dot p p = dot q q) (h2 : dot p' p' = dot q' q') (h3 : dot p p' = dot q q') :
    atomElement beta_l (harmAt Y p) (harmAt Y p') (fun b => f b (vlen p)) (fun b => f b (vlen p')) dij
      = atomElement beta_l (harmAt Y q) (harmAt Y q') (fun b => f b (vlen q)) (fun b => f b (vlen q')) dij ∧
    conj (atomElement beta_l (harmAt Y q) (harmAt Y q') (fun b => f b (vlen q)) (fun b => f b (vlen q')) dij)
      = atomElement beta_l (harmAt Y q) (harmAt Y q') (fun b => f b (vlen q)) (fun b => f b (vlen q')) dij := by
  have e1 : vlen p = vlen q := by rw [vlen_sq, vlen_sq, h1]
  have e2 : vlen p' = vlen q' := by rw [vlen_sq, vlen_sq, h2]
  constructor
  · unfold atomElement
    refine Finset.sum_congr rfl fun b hb => Finset.sum_congr rfl fun b' _ => ?_
    have hmem : beta_l.getD b 0 ∈ beta_l := by
      rw [List.getD_eq_getElem _ _ (Finset.mem_range.1 hb)]
      exact List.getElem_mem _
    by_cases hl : beta_l.getD b 0 = beta_l.getD b' 0
    · rw [if_pos hl, if_pos hl]
      simp only [e1, e2]
      by_cases h0 : beta_l.getD b 0 = 0
      · congr 1
        rw [h0]
        refine Finset.sum_congr rfl fun m hm => ?_
        have : m = 0 := by
          rw [Finset.mem_Icc] at hm
          push_cast at hm
          omega
        subst this
        simp only [realHarm, if_true, harmAt]
        rw [hY.const (theta p) (phi p) (theta q) (phi q), hY.const (theta p') (phi p') (theta q') (phi q')]
      · rcases hq with hz | hz
        · have : f b (vlen q) = 0 := by rw [(vlen_zero q).2 hz]; exact hf b h0
          rw [this]
          simp
        · rcases hq' with hz' | hz'
          · have : f b' (vlen q') = 0 := by rw [(vlen_zero q').2 hz']; exact hf b' (hl ▸ h0)
            rw [this]
            simp
          · congr 1
            obtain ⟨P, hP⟩ := hY.add _ hmem
            have k1 := hP (theta q) (phi q) (theta q') (phi q')
            have k2 := hP (theta p) (phi p) (theta p') (phi p')
            rw [angle q q' hz hz'] at k1
            rw [angle p p' (by rw [e1]; exact hz) (by rw [e2]; exact hz'), e1, e2, h3] at k2
            exact k2.trans k1.symm
    · rw [if_neg hl, if_neg hl]
  · unfold atomElement
    rw [map_sum]
    refine Finset.sum_congr rfl fun b hb => ?_
    rw [map_sum]
    refine Finset.sum_congr rfl fun b' _ => ?_
    have hmem : beta_l.getD b 0 ∈ beta_l := by
      rw [List.getD_eq_getElem _ _ (Finset.mem_range.1 hb)]
      exact List.getElem_mem _
    split
    · obtain ⟨P, hP⟩ := hY.add _ hmem
      have k1 := hP (theta q) (phi q) (theta q') (phi q')
      have k2 : ∑ m ∈ Finset.Icc (-(beta_l.getD b 0 : ℤ)) (beta_l.getD b 0), realHarm (harmAt Y q) (beta_l.getD b 0) m * conj (realHarm (harmAt Y q') (beta_l.getD b 0) m) = _ := k1
      rw [k2]
      simp only [map_mul, Complex.conj_ofReal]
    · simp

/-! ## Operations -/

/-- `e^{-2πi x}` -/
noncomputable def ex (x : ℝ) : ℂ := Complex.exp (-(2 * Real.pi * Complex.I) * (x : ℂ))

theorem ex_add (x y : ℝ) : ex (x + y) = ex x * ex y := by
  unfold ex
  rw [← Complex.exp_add]
  congr 1
  push_cast
  ring

theorem ex_int (x : ℝ) (m : ℤ) : ex (x + m) = ex x := exp_int_shift x m

theorem ex_conj (x : ℝ) : conj (ex x) = ex (-x) := gridDot_exp_conj x

theorem ex_unit (x : ℝ) : conj (ex x) * ex x = 1 := by
  rw [ex_conj, ← ex_add, neg_add_cancel]
  simp [ex]

/-- A space-group operation in crystal coordinates: real-space points `x ↦ W x + t`, reciprocal vectors `g ↦ S g`, with `S g · W x = g · x`. -/
structure Op where
  W : Matrix (Fin 3) (Fin 3) ℤ
  S : Matrix (Fin 3) (Fin 3) ℤ
  t : Fin 3 → ℝ
  inv : S.transpose * W = 1

/-- An integer matrix applied to a vector. -/
def app (M : Matrix (Fin 3) (Fin 3) ℤ) (v : Fin 3 → ℝ) : Fin 3 → ℝ := fun a => ∑ b, (M a b : ℝ) * v b

theorem Op.pair (op : Op) (g x : Fin 3 → ℝ) : ∑ a, app op.S g a * app op.W x a = ∑ a, g a * x a := by
  have h : ∀ b c, ∑ a, (op.S a b : ℝ) * (op.W a c : ℝ) = if b = c then 1 else 0 := by
    intro b c
    have := congrFun (congrFun op.inv b) c
    rw [Matrix.mul_apply, Matrix.one_apply] at this
    simp only [Matrix.transpose_apply] at this
    have e : ((∑ a, op.S a b * op.W a c : ℤ) : ℝ) = ((if b = c then 1 else 0 : ℤ) : ℝ) := by rw [this]
    push_cast at e
    exact e
  unfold app
  have : ∀ a, (∑ b, (op.S a b : ℝ) * g b) * (∑ c, (op.W a c : ℝ) * x c) = ∑ b, ∑ c, g b * x c * ((op.S a b : ℝ) * (op.W a c : ℝ)) := by
    intro a
    rw [Finset.sum_mul_sum]
    exact Finset.sum_congr rfl fun b _ => Finset.sum_congr rfl fun c _ => by ring
  simp only [this]
  rw [Finset.sum_comm]
  refine Finset.sum_congr rfl fun b _ => ?_
  rw [Finset.sum_comm]
  have : ∀ c, ∑ a, g b * x c * ((op.S a b : ℝ) * (op.W a c : ℝ)) = if b = c then g b * x c else 0 := by
    intro c
    rw [← Finset.mul_sum, h]
    split <;> simp
  simp only [this]
  simp

/-- Crystal coordinates of a grid point. -/
noncomputable def pos (d : Dims) (r : ℕ) : Fin 3 → ℝ := fun a => coord d r a / len d a

/-- The operation carries the grid point `r` to the grid point `r'`, up to a lattice vector. -/
def Carried (d : Dims) (op : Op) (r r' : ℕ) : Prop := ∀ a, ∃ m : ℤ, pos d r' a = app op.W (pos d r) a + op.t a + m

theorem gridDot_pos (d : Dims) (g r : ℕ) (hr : r < d.size) (G : Fin 3 → ℤ) (hG : ∀ a, ∃ m : ℤ, G a = coord d g a + m * len d a) : ∃ m : ℤ, gridDot d g r = ∑ a, (G a : ℝ) * pos d r a + m := by
  choose k hk using hG
  refine ⟨-∑ a, k a * coord d r a, ?_⟩
  rw [gridDot_sum]
  push_cast
  rw [← Finset.sum_neg_distrib, ← Finset.sum_add_distrib]
  refine Finset.sum_congr rfl fun a _ => ?_
  have hl := len_pos d r hr a
  have e2 : (G a : ℝ) = coord d g a + k a * len d a := by exact_mod_cast hk a
  unfold pos
  rw [e2]
  field_simp
  ring

/-- The plane waves at `r'` of the carried vectors are those at `r` times a phase. -/
theorem gridDot_carried (d : Dims) (op : Op) (r r' : ℕ) (hr : r < d.size) (hr' : r' < d.size) (h : Carried d op r r') (g g' : ℕ) (G G' : Fin 3 → ℤ)
    (hG : ∀ a, ∃ m : ℤ, G a = coord d g a + m * len d a) (hG' : ∀ a, ∃ m : ℤ, G' a = coord d g' a + m * len d a) (k k' : Fin 3 → ℝ)
    (hk : ∀ a, (G' a : ℝ) + k' a = app op.S (fun b => G b + k b) a) :
    ∃ m : ℤ, gridDot d g' r' = gridDot d g r + ∑ a, op.t a * (G' a + k' a) + ((∑ a, k a * pos d r a) - (∑ a, k' a * app op.W (pos d r) a) - ∑ a, op.t a * k' a) + m := by
  obtain ⟨m1, h1⟩ := gridDot_pos d g r hr G hG
  obtain ⟨m2, h2⟩ := gridDot_pos d g' r' hr' G' hG'
  choose m hm using h
  refine ⟨m2 - m1 + ∑ a, G' a * m a, ?_⟩
  rw [h1, h2]
  have hp := op.pair (fun b => G b + k b) (pos d r)
  have e1 : ∑ a, (G' a : ℝ) * pos d r' a = ∑ a, app op.S (fun b => G b + k b) a * app op.W (pos d r) a - ∑ a, k' a * app op.W (pos d r) a + ∑ a, (G' a : ℝ) * op.t a + ∑ a, (G' a : ℝ) * m a := by
    rw [← Finset.sum_sub_distrib, ← Finset.sum_add_distrib, ← Finset.sum_add_distrib]
    refine Finset.sum_congr rfl fun a _ => ?_
    rw [hm a, ← hk a]
    ring
  rw [e1, hp]
  push_cast
  have e2 : ∑ a, (↑(G a) + k a) * pos d r a = ∑ a, (G a : ℝ) * pos d r a + ∑ a, k a * pos d r a := by
    rw [← Finset.sum_add_distrib]
    exact Finset.sum_congr rfl fun a _ => by ring
  have e3 : ∑ a, op.t a * (↑(G' a) + k' a) = ∑ a, (G' a : ℝ) * op.t a + ∑ a, op.t a * k' a := by
    rw [← Finset.sum_add_distrib]
    exact Finset.sum_congr rfl fun a _ => by ring
  rw [e2, e3]
  ring

/-- Every grid point is carried to a grid point. -/
def OnGrid (d : Dims) (op : Op) : Prop := ∀ r < d.size, ∃ r' < d.size, Carried d op r r'

theorem carried_inj (d : Dims) (op : Op) (r r2 r' : ℕ) (hr : r < d.size) (hr2 : r2 < d.size) (h : Carried d op r r') (h2 : Carried d op r2 r') : r = r2 := by
  refine eq_of_coord d hr2 hr fun c => ?_
  choose m hm using h
  choose n hn using h2
  -- W (x - x2) is an integer vector, hence so is x - x2 = Sᵀ W (x - x2)
  have hW : ∀ a, app op.W (fun b => pos d r b - pos d r2 b) a = ((n a - m a : ℤ) : ℝ) := by
    intro a
    have : app op.W (fun b => pos d r b - pos d r2 b) a = app op.W (pos d r) a - app op.W (pos d r2) a := by
      unfold app
      rw [← Finset.sum_sub_distrib]
      exact Finset.sum_congr rfl fun b _ => by ring
    rw [this]
    have e1 := hm a
    have e2 := hn a
    push_cast
    linarith
  have hp := op.pair (fun b => if b = c then 1 else 0) (fun b => pos d r b - pos d r2 b)
  simp only [hW] at hp
  have hS : ∀ a, app op.S (fun b => if b = c then (1 : ℝ) else 0) a = op.S a c := by
    intro a
    unfold app
    simp
  simp only [hS, ite_mul, one_mul, zero_mul, Finset.sum_ite_eq', Finset.mem_univ, if_true] at hp
  refine ⟨∑ a, op.S a c * (n a - m a), ?_⟩
  have hl := len_pos d r hr c
  have : ((coord d r c : ℤ) : ℝ) = ((coord d r2 c + (∑ a, op.S a c * (n a - m a)) * len d c : ℤ) : ℝ) := by
    unfold pos at hp
    push_cast at hp ⊢
    rw [div_sub_div_same, eq_div_iff hl] at hp
    linarith
  exact_mod_cast this

/-- The operation as a permutation of the grid points. -/
noncomputable def gperm (d : Dims) (op : Op) (h : OnGrid d op) : Equiv.Perm (Fin d.size) :=
  Equiv.ofBijective (fun r => ⟨(h r r.2).choose, (h r r.2).choose_spec.1⟩) (by
    rw [← Finite.injective_iff_bijective]
    intro r r' e
    have hm : (h r r.2).choose = (h r' r'.2).choose := congrArg Fin.val e
    have h1 := (h r r.2).choose_spec.2
    rw [hm] at h1
    exact Fin.ext (carried_inj d op r r' _ r.2 r'.2 h1 (h r' r'.2).choose_spec.2))

theorem gperm_carried (d : Dims) (op : Op) (h : OnGrid d op) (r : Fin d.size) : Carried d op r (gperm d op h r) := (h r r.2).choose_spec.2

/-! ## The Hamiltonian -/

open Verif.Lattice (Lat Mat mkLat dotCart)

/-- `k + G` in crystal coordinates. -/
def gkv {n : ℕ} (G : Fin n → Fin 3 → ℤ) (k : Fin 3 → ℝ) (j : Fin n) : Fin 3 → ℝ := fun c => G j c + k c

/-- One species: angular momenta of the projectors, atoms (crystal coordinates), spherical harmonics, radial parts by length, coefficients. -/
structure Sp where
  beta_l : List ℕ
  nat : ℕ
  tau : ℕ → Fin 3 → ℝ
  Y : ℕ → ℕ → ℝ → ℝ → ℂ
  f : ℕ → ℝ → ℝ
  dij : ℕ → ℕ → ℝ

/-- The spherical harmonics are such, and projectors with `l ≠ 0` vanish at length 0. -/
structure Sp.Good (x : Sp) : Prop where
  harm : Harmonics x.Y x.beta_l
  zero : ∀ b, x.beta_l.getD b 0 ≠ 0 → x.f b 0 = 0

/-- The projectors at the plane waves `k + G`. -/
noncomputable def Sp.proj {n : ℕ} (x : Sp) (L : Lat) (G : Fin n → Fin 3 → ℤ) (k : Fin 3 → ℝ) : Proj n :=
  vectorProj x.beta_l x.nat x.tau (gkv G k) (fun j => L.cryst2cart (gkv G k j)) x.Y x.f x.dij

/-- The Hamiltonian of a local potential and a list of species at a k-point; `L` is the reciprocal lattice. -/
noncomputable def ham (drv : Driver) (d : Dims) (idx : List ℕ) (st : DrvState ℂ) (L : Lat) (G : Fin idx.length → Fin 3 → ℤ) (k : Fin 3 → ℝ) (V : Fin d.size → ℝ) (sp : List Sp) :
    (Fin idx.length → ℂ) → Fin idx.length → ℂ :=
  hPsi .gpu drv d idx st (fun j => L.norm2Cryst (gkv G k j)) (fun r => (V r : ℂ) / d.size) (sp.map fun x => x.proj L G k)

/-- The atoms of `x'` are the images of those of `x`, in any order, up to lattice vectors. -/
def Image (op : Op) (x x' : Sp) : Prop :=
  ∃ tau', x' = { x with tau := tau' } ∧ ∃ π : Equiv.Perm (Fin x.nat), ∀ (a : Fin x.nat) (c : Fin 3), ∃ m : ℤ, tau' (π a) c = app op.W (x.tau a) c + op.t c + m

/-- The rotation keeps lengths. -/
def Keeps (L : Lat) (M : Matrix (Fin 3) (Fin 3) ℤ) : Prop := ∀ v, L.norm2Cryst (app M v) = L.norm2Cryst v

theorem dot_cart (q q' : Fin 3 → ℝ) : dot q q' = dotCart q q' := by
  unfold dot dotCart dotProduct
  rw [Fin.sum_univ_three]

theorem keeps_dot (u : ℝ) (B : Mat) (L : Lat) (h : mkLat u B = .ok L) (M : Matrix (Fin 3) (Fin 3) ℤ) (hM : Keeps L M) (v w : Fin 3 → ℝ) :
    dot (L.cryst2cart (app M v)) (L.cryst2cart (app M w)) = dot (L.cryst2cart v) (L.cryst2cart w) := by
  have pol : ∀ v w : Fin 3 → ℝ, L.norm2Cryst (fun i => v i + w i) = L.norm2Cryst v + L.norm2Cryst w + 2 * dot (L.cryst2cart v) (L.cryst2cart w) := by
    intro v w
    have e : (fun i => v i + w i) = v + w := rfl
    rw [(Lattice.C26_metric u B L h _ 0).2.1, (Lattice.C26_metric u B L h v 0).2.1, (Lattice.C26_metric u B L h w 0).2.1, dot_cart, e]
    simp only [dotCart, Lat.cryst2cart, Matrix.mulVec_add, add_dotProduct, dotProduct_add]
    rw [dotProduct_comm (L.primvec.mulVec w) (L.primvec.mulVec v)]
    ring
  have h1 := pol v w
  have h2 := pol (app M v) (app M w)
  have e : (fun i => app M v i + app M w i) = app M (fun i => v i + w i) := by
    funext a
    unfold app
    rw [← Finset.sum_add_distrib]
    exact Finset.sum_congr rfl fun b _ => by ring
  rw [e, hM, hM, hM] at h2
  linarith

/-- The non-local operator of the image between the images of two plane waves. -/
theorem nl_rot {n n' : ℕ} (u : ℝ) (B : Mat) (L : Lat) (h : mkLat u B = .ok L) (op : Op) (hM : Keeps L op.S) (x x' : Sp) (hx : x.Good) (hi : Image op x x') (G : Fin n → Fin 3 → ℤ)
    (G' : Fin n' → Fin 3 → ℤ) (k k' : Fin 3 → ℝ) (i j : Fin n) (i' j' : Fin n') (h1 : gkv G' k' i' = app op.S (gkv G k i)) (h2 : gkv G' k' j' = app op.S (gkv G k j))
    (ha : ∀ j, Away (L.cryst2cart (gkv G k j))) :
    nlMatrix (x'.proj L G' k') i' j' = ex (∑ c, op.t c * gkv G' k' i' c) * conj (ex (∑ c, op.t c * gkv G' k' j' c)) * nlMatrix (x.proj L G k) i j := by
  obtain ⟨tau', rfl, π, hπ⟩ := hi
  unfold Sp.proj vectorProj
  rw [C74_nonlocal_operator, C74_nonlocal_operator]
  have away' : ∀ v w, w = app op.S v → Away (L.cryst2cart v) → Away (L.cryst2cart w) := by
    intro v w e hv
    have hd := keeps_dot u B L h op.S hM v v
    rw [← e] at hd
    have hl : vlen (L.cryst2cart w) = vlen (L.cryst2cart v) := by rw [vlen_sq, vlen_sq, hd]
    rcases hv with hv | hv
    · exact .inl ((vlen_zero _).1 (by rw [hl, (vlen_zero _).2 hv]))
    · exact .inr (by rw [hl]; exact hv)
  have hel := (element x.beta_l x.Y hx.harm x.f hx.zero x.dij (L.cryst2cart (gkv G k i)) (L.cryst2cart (gkv G k j)) (L.cryst2cart (gkv G' k' i')) (L.cryst2cart (gkv G' k' j')) (ha i) (ha j)
    (away' _ _ h1 (ha i)) (away' _ _ h2 (ha j)) (by rw [h1]; exact keeps_dot u B L h _ hM _ _) (by rw [h2]; exact keeps_dot u B L h _ hM _ _) (by rw [h1, h2]; exact keeps_dot u B L h _ hM _ _)).1
  rw [hel, Finset.sum_range, Finset.sum_range, Finset.mul_sum]
  refine (Equiv.sum_comp π fun a : Fin x.nat => Complex.exp (-(2 * Real.pi * Complex.I) * ((∑ c, tau' a c * (gkv G' k' i' c - gkv G' k' j' c) : ℝ) : ℂ)) *
    atomElement x.beta_l (harmAt x.Y (L.cryst2cart (gkv G k i))) (harmAt x.Y (L.cryst2cart (gkv G k j))) (fun b => x.f b (vlen (L.cryst2cart (gkv G k i)))) (fun b => x.f b (vlen (L.cryst2cart (gkv G k j)))) x.dij).symm.trans ?_
  refine Finset.sum_congr rfl fun a _ => ?_
  rw [← mul_assoc]
  congr 1
  choose m hm using hπ a
  have key : ∑ c, tau' (π a) c * (gkv G' k' i' c - gkv G' k' j' c)
      = (∑ c, op.t c * gkv G' k' i' c + -(∑ c, op.t c * gkv G' k' j' c) + ∑ c, x.tau a c * (gkv G k i c - gkv G k j c)) + ((∑ c, m c * (G' i' c - G' j' c) : ℤ) : ℝ) := by
    have hp1 := op.pair (gkv G k i) (x.tau a)
    have hp2 := op.pair (gkv G k j) (x.tau a)
    rw [← h1] at hp1
    rw [← h2] at hp2
    have e : ∑ c, x.tau a c * (gkv G k i c - gkv G k j c) = ∑ c, gkv G' k' i' c * app op.W (x.tau a) c - ∑ c, gkv G' k' j' c * app op.W (x.tau a) c := by
      rw [hp1, hp2, ← Finset.sum_sub_distrib]
      exact Finset.sum_congr rfl fun c _ => by ring
    rw [e]
    push_cast
    rw [← Finset.sum_sub_distrib, ← sub_eq_add_neg, ← Finset.sum_sub_distrib, ← Finset.sum_add_distrib, ← Finset.sum_add_distrib]
    refine Finset.sum_congr rfl fun c _ => ?_
    rw [hm c]
    unfold gkv
    ring
  show ex _ = _ * _ * ex _
  rw [key, ex_int, ex_add, ex_add, ex_conj]

theorem ham_rot (u : ℝ) (B : Mat) (L : Lat) (h : mkLat u B = .ok L) (op : Op) (hM : Keeps L op.S) (d : Dims) (hgrid : OnGrid d op) (idx idx' : List ℕ)
    (G : Fin idx.length → Fin 3 → ℤ) (hG : Indexes d idx G) (G' : Fin idx'.length → Fin 3 → ℤ) (hG' : Indexes d idx' G') (k k' : Fin 3 → ℝ) (σ : Fin idx.length ≃ Fin idx'.length)
    (hσ : ∀ j, gkv G' k' (σ j) = app op.S (gkv G k j)) (ha : ∀ j, Away (L.cryst2cart (gkv G k j))) (V V' : Fin d.size → ℝ) (hV : ∀ r r' : Fin d.size, Carried d op r r' → V' r' = V r)
    (sp sp' : List Sp) (hsp : List.Forall₂ (fun x x' => x.Good ∧ Image op x x') sp sp') (i j : Fin idx.length) :
    hamMatrix d idx' (fun j => L.norm2Cryst (gkv G' k' j)) V' (sp'.map fun x => x.proj L G' k') (σ i) (σ j)
      = ex (∑ c, op.t c * gkv G' k' (σ i) c) * conj (ex (∑ c, op.t c * gkv G' k' (σ j) c)) * hamMatrix d idx (fun j => L.norm2Cryst (gkv G k j)) V (sp.map fun x => x.proj L G k) i j := by
  unfold hamMatrix
  rw [mul_add, mul_add]
  congr 1
  · congr 1
    · by_cases hij : i = j
      · subst hij
        simp only [if_true]
        rw [hσ i, hM]
        have := ex_unit (∑ c, op.t c * app op.S (gkv G k i) c)
        linear_combination -(((L.norm2Cryst (gkv G k i) / 2 : ℝ) : ℂ)) * this
      · rw [if_neg hij, if_neg (fun e => hij (σ.injective e)), mul_zero]
    · rw [show ∀ p q r : ℂ, p * (q * r) = q * (p * r) by intros; ring]
      congr 1
      rw [Finset.mul_sum]
      refine (Equiv.sum_comp (gperm d op hgrid) fun r : Fin d.size => (V' r : ℂ) * Complex.exp (-(2 * Real.pi * Complex.I) * ((gridDot d idx'[σ i] r - gridDot d idx'[σ j] r : ℝ) : ℂ))).symm.trans ?_
      refine Finset.sum_congr rfl fun r _ => ?_
      have hc := gperm_carried d op hgrid r
      rw [hV r _ hc]
      obtain ⟨m1, h1⟩ := gridDot_carried d op r _ r.2 (gperm d op hgrid r).2 hc idx[i] idx'[σ i] (G i) (G' (σ i)) (hG i) (hG' (σ i)) k k' (fun a => congrFun (hσ i) a)
      obtain ⟨m2, h2⟩ := gridDot_carried d op r _ r.2 (gperm d op hgrid r).2 hc idx[j] idx'[σ j] (G j) (G' (σ j)) (hG j) (hG' (σ j)) k k' (fun a => congrFun (hσ j) a)
      have key : gridDot d idx'[σ i] (gperm d op hgrid r) - gridDot d idx'[σ j] (gperm d op hgrid r)
          = (∑ c, op.t c * gkv G' k' (σ i) c + -(∑ c, op.t c * gkv G' k' (σ j) c) + (gridDot d idx[i] r - gridDot d idx[j] r)) + ((m1 - m2 : ℤ) : ℝ) := by
        rw [h1, h2]
        unfold gkv
        push_cast
        ring
      show (V r : ℂ) * ex _ = _ * _ * (_ * ex _)
      rw [key, ex_int, ex_add, ex_add, ex_conj]
      ring
  · rw [List.map_map, List.map_map]
    induction hsp with
    | nil => simp
    | cons hx _ ih =>
      rw [List.map_cons, List.map_cons, List.sum_cons, List.sum_cons, ih, mul_add]
      congr 1
      exact nl_rot u B L h op hM _ _ hx.1 hx.2 G G' k k' i j (σ i) (σ j) (hσ i) (hσ j) ha

theorem wfR_ex (drv : Driver) (d : Dims) (idx : List ℕ) (hv : ValidIdx d idx) (st : DrvState ℂ) (psi : Fin idx.length → ℂ) (r : Fin d.size) :
    wfR drv d idx st psi r = ∑ k : Fin idx.length, conj (ex (gridDot d idx[k] r)) * psi k := by
  rw [wfR_eq drv d idx hv]
  refine Finset.sum_congr rfl fun k _ => ?_
  congr 1
  show FFT.ker3 d (FFT.dftKern false d) r idx[k] = _
  rw [FFT.dft_ker3_bwd, ex_conj]
  unfold ex
  congr 1
  unfold gridDot
  push_cast
  ring

/-- The image of a wavefunction: the coefficient of a plane wave goes to the image of the plane wave, times a phase for the translation. -/
noncomputable def carry {n n' : ℕ} (op : Op) (G' : Fin n' → Fin 3 → ℤ) (k' : Fin 3 → ℝ) (σ : Fin n ≃ Fin n') (psi : Fin n → ℂ) : Fin n' → ℂ :=
  fun i => ex (∑ c, op.t c * gkv G' k' i c) * psi (σ.symm i)

/-- **C184.** A crystal and its image under a rotation or reflection with a translation (the crystal itself, if the operation is one of its symmetries): at the image of a k-point the Hamiltonian applied to
the image of a wavefunction is the image of the Hamiltonian applied to the wavefunction. Images are orthonormal if the wavefunctions are, have the same eigenvalues, and their density at the image of a
grid point is the density at the grid point. -/
theorem C184_equivalent_kpoints (drv : Driver) (st st' : DrvState ℂ) (u : ℝ) (B : Mat) (L : Lat) (h : mkLat u B = .ok L) (op : Op) (hM : Keeps L op.S) (d : Dims) (hgrid : OnGrid d op) (idx idx' : List ℕ)
    (hv : ValidIdx d idx) (hv' : ValidIdx d idx') (G : Fin idx.length → Fin 3 → ℤ) (hG : Indexes d idx G) (G' : Fin idx'.length → Fin 3 → ℤ) (hG' : Indexes d idx' G') (k k' : Fin 3 → ℝ)
    (σ : Fin idx.length ≃ Fin idx'.length) (hσ : ∀ j, gkv G' k' (σ j) = app op.S (gkv G k j)) (ha : ∀ j, Away (L.cryst2cart (gkv G k j))) (V V' : Fin d.size → ℝ)
    (hV : ∀ r r' : Fin d.size, Carried d op r r' → V' r' = V r) (sp sp' : List Sp) (hsp : List.Forall₂ (fun x x' => x.Good ∧ Image op x x') sp sp') :
    (∀ psi, ham drv d idx' st' L G' k' V' sp' (carry op G' k' σ psi) = carry op G' k' σ (ham drv d idx st L G k V sp psi)) ∧
    (∀ (e : ℂ) (psi : Fin idx.length → ℂ), ham drv d idx' st' L G' k' V' sp' (carry op G' k' σ psi) = e • carry op G' k' σ psi ↔ ham drv d idx st L G k V sp psi = e • psi) ∧
    (∀ psi chi, ∑ i, conj (carry op G' k' σ psi i) * carry op G' k' σ chi i = ∑ j, conj (psi j) * chi j) ∧
    ∀ psi (r r' : Fin d.size), Carried d op r r' → Complex.normSq (wfR drv d idx' st' (carry op G' k' σ psi) r') = Complex.normSq (wfR drv d idx st psi r) := by
  have hcs : ∀ psi j, carry op G' k' σ psi (σ j) = ex (∑ c, op.t c * gkv G' k' (σ j) c) * psi j := by
    intro psi j
    unfold carry
    rw [σ.symm_apply_apply]
  have h1 : ∀ psi, ham drv d idx' st' L G' k' V' sp' (carry op G' k' σ psi) = carry op G' k' σ (ham drv d idx st L G k V sp psi) := by
    intro psi
    funext i
    obtain ⟨i, rfl⟩ := σ.surjective i
    rw [hcs]
    unfold ham
    rw [C72_h_psi_is_hamiltonian drv d idx' hv', C72_h_psi_is_hamiltonian drv d idx hv, Finset.mul_sum, ← Equiv.sum_comp σ]
    refine Finset.sum_congr rfl fun j _ => ?_
    rw [hcs, ham_rot u B L h op hM d hgrid idx idx' G hG G' hG' k k' σ hσ ha V V' hV sp sp' hsp i j]
    have := ex_unit (∑ c, op.t c * gkv G' k' (σ j) c)
    linear_combination ex (∑ c, op.t c * gkv G' k' (σ i) c) * hamMatrix d idx (fun j => L.norm2Cryst (gkv G k j)) V (sp.map fun x => x.proj L G k) i j * psi j * this
  refine ⟨h1, fun e psi => ?_, fun psi chi => ?_, fun psi r r' hc => ?_⟩
  · rw [h1]
    constructor
    · intro hh
      funext j
      have hj := congrFun hh (σ j)
      rw [hcs, Pi.smul_apply, hcs, smul_eq_mul] at hj
      rw [Pi.smul_apply, smul_eq_mul]
      have hu := ex_unit (∑ c, op.t c * gkv G' k' (σ j) c)
      linear_combination conj (ex (∑ c, op.t c * gkv G' k' (σ j) c)) * hj - (ham drv d idx st L G k V sp psi j - e * psi j) * hu
    · intro hh
      rw [hh]
      funext i
      simp only [carry, Pi.smul_apply, smul_eq_mul]
      ring
  · rw [← Equiv.sum_comp σ]
    refine Finset.sum_congr rfl fun j _ => ?_
    rw [hcs, hcs, map_mul]
    have hu := ex_unit (∑ c, op.t c * gkv G' k' (σ j) c)
    linear_combination conj (psi j) * chi j * hu
  · rw [wfR_ex drv d idx' hv', wfR_ex drv d idx hv, ← Equiv.sum_comp σ]
    set z := (∑ a, k a * pos d r a) - (∑ a, k' a * app op.W (pos d r) a) - ∑ a, op.t a * k' a with hz
    have : ∀ j, conj (ex (gridDot d idx'[σ j] r')) * carry op G' k' σ psi (σ j) = conj (ex z) * (conj (ex (gridDot d idx[j] r)) * psi j) := by
      intro j
      obtain ⟨m, hm⟩ := gridDot_carried d op r r' r.2 r'.2 hc idx[j] idx'[σ j] (G j) (G' (σ j)) (hG j) (hG' (σ j)) k k' (fun a => congrFun (hσ j) a)
      rw [hcs, hm, ex_int, ex_add, ex_add, map_mul, map_mul, ← hz]
      have hu := ex_unit (∑ c, op.t c * gkv G' k' (σ j) c)
      have e : ∑ a, op.t a * ((G' (σ j) a : ℝ) + k' a) = ∑ c, op.t c * gkv G' k' (σ j) c := rfl
      rw [e]
      linear_combination conj (ex (gridDot d idx[j] r)) * conj (ex z) * psi j * hu
    refine Eq.trans (congrArg _ (Finset.sum_congr rfl fun j _ => this j)) ?_
    rw [← Finset.mul_sum, map_mul]
    have hn : Complex.normSq (conj (ex z)) = 1 := by
      have := ex_unit z
      rw [← Complex.normSq_eq_conj_mul_self] at this
      rw [Complex.normSq_conj]
      exact_mod_cast this
    rw [hn, one_mul]

/-! ## Time reversal -/

theorem nl_rev {n n' : ℕ} (u : ℝ) (B : Mat) (L : Lat) (h : mkLat u B = .ok L) (x : Sp) (hx : x.Good) (G : Fin n → Fin 3 → ℤ) (G' : Fin n' → Fin 3 → ℤ) (k k' : Fin 3 → ℝ) (i j : Fin n) (i' j' : Fin n')
    (h1 : ∀ c, gkv G' k' i' c = -gkv G k i c) (h2 : ∀ c, gkv G' k' j' c = -gkv G k j c) (ha : ∀ j, Away (L.cryst2cart (gkv G k j))) :
    nlMatrix (x.proj L G' k') i' j' = conj (nlMatrix (x.proj L G k) i j) := by
  unfold Sp.proj vectorProj
  rw [C74_nonlocal_operator, C74_nonlocal_operator]
  have hc : ∀ v w : Fin 3 → ℝ, (∀ c, w c = -v c) → ∀ c, L.cryst2cart w c = -L.cryst2cart v c := by
    intro v w e c
    have : w = -v := funext e
    rw [this]
    simp only [Lat.cryst2cart, Matrix.mulVec_neg, Pi.neg_apply]
  have hd : ∀ v w v' w' : Fin 3 → ℝ, (∀ c, w c = -v c) → (∀ c, w' c = -v' c) → dot w w' = dot v v' := by
    intro v w v' w' e e'
    unfold dot
    rw [e, e, e, e', e', e']
    ring
  have c1 := hc _ _ h1
  have c2 := hc _ _ h2
  have away' : ∀ v w : Fin 3 → ℝ, (∀ c, w c = -v c) → Away v → Away w := by
    intro v w e hv
    have hl : vlen w = vlen v := by rw [vlen_sq, vlen_sq, hd v w v w e e]
    rcases hv with hv | hv
    · exact .inl ((vlen_zero _).1 (by rw [hl, (vlen_zero _).2 hv]))
    · exact .inr (by rw [hl]; exact hv)
  obtain ⟨hel, hre⟩ := element x.beta_l x.Y hx.harm x.f hx.zero x.dij (L.cryst2cart (gkv G k i)) (L.cryst2cart (gkv G k j)) (L.cryst2cart (gkv G' k' i')) (L.cryst2cart (gkv G' k' j')) (ha i) (ha j)
    (away' _ _ c1 (ha i)) (away' _ _ c2 (ha j)) (hd _ _ _ _ c1 c1) (hd _ _ _ _ c2 c2) (hd _ _ _ _ c1 c2)
  rw [hel, map_sum]
  refine Finset.sum_congr rfl fun a _ => ?_
  rw [map_mul, hre]
  congr 1
  show ex _ = conj (ex _)
  rw [ex_conj]
  congr 1
  rw [← Finset.sum_neg_distrib]
  refine Finset.sum_congr rfl fun c _ => ?_
  rw [h1, h2]
  ring

theorem ham_rev (u : ℝ) (B : Mat) (L : Lat) (h : mkLat u B = .ok L) (d : Dims) (idx idx' : List ℕ)
    (G : Fin idx.length → Fin 3 → ℤ) (hG : Indexes d idx G) (G' : Fin idx'.length → Fin 3 → ℤ) (hG' : Indexes d idx' G') (k k' : Fin 3 → ℝ) (σ : Fin idx.length ≃ Fin idx'.length)
    (hσ : ∀ j c, gkv G' k' (σ j) c = -gkv G k j c) (ha : ∀ j, Away (L.cryst2cart (gkv G k j))) (V : Fin d.size → ℝ)
    (sp : List Sp) (hsp : ∀ x ∈ sp, x.Good) (i j : Fin idx.length) :
    hamMatrix d idx' (fun j => L.norm2Cryst (gkv G' k' j)) V (sp.map fun x => x.proj L G' k') (σ i) (σ j)
      = conj (hamMatrix d idx (fun j => L.norm2Cryst (gkv G k j)) V (sp.map fun x => x.proj L G k) i j) := by
  unfold hamMatrix
  rw [map_add, map_add]
  congr 1
  · congr 1
    · by_cases hij : i = j
      · subst hij
        simp only [if_true]
        have : gkv G' k' (σ i) = -gkv G k i := funext (hσ i)
        rw [this, Complex.conj_ofReal]
        have : L.norm2Cryst (-gkv G k i) = L.norm2Cryst (gkv G k i) := by
          rw [(Lattice.C26_metric u B L h _ 0).2.1, (Lattice.C26_metric u B L h (gkv G k i) 0).2.1]
          simp [dotCart, Lat.cryst2cart, Matrix.mulVec_neg]
        rw [this]
      · rw [if_neg hij, if_neg (fun e => hij (σ.injective e)), map_zero]
    · rw [map_mul, map_sum]
      congr 1
      · simp
      refine Finset.sum_congr rfl fun r _ => ?_
      rw [map_mul, Complex.conj_ofReal]
      congr 1
      obtain ⟨m1, h1⟩ := gridDot_pos d idx[i] r r.2 (G i) (hG i)
      obtain ⟨m2, h2⟩ := gridDot_pos d idx[j] r r.2 (G j) (hG j)
      obtain ⟨m3, h3⟩ := gridDot_pos d idx'[σ i] r r.2 (G' (σ i)) (hG' (σ i))
      obtain ⟨m4, h4⟩ := gridDot_pos d idx'[σ j] r r.2 (G' (σ j)) (hG' (σ j))
      show ex _ = conj (ex _)
      rw [ex_conj]
      have key : gridDot d idx'[σ i] r - gridDot d idx'[σ j] r = -(gridDot d idx[i] r - gridDot d idx[j] r) + ((m3 - m4 + m1 - m2 : ℤ) : ℝ) := by
        rw [h1, h2, h3, h4]
        have e : ∑ a, (G' (σ i) a : ℝ) * pos d r a - ∑ a, (G' (σ j) a : ℝ) * pos d r a = -(∑ a, (G i a : ℝ) * pos d r a - ∑ a, (G j a : ℝ) * pos d r a) := by
          rw [← Finset.sum_sub_distrib, ← Finset.sum_sub_distrib, ← Finset.sum_neg_distrib]
          refine Finset.sum_congr rfl fun a _ => ?_
          have q1 := hσ i a
          have q2 := hσ j a
          unfold gkv at q1 q2
          linear_combination pos d r a * (q1 - q2)
        push_cast
        linarith
      rw [key, ex_int]
  · rw [List.map_map, List.map_map]
    induction sp with
    | nil => simp
    | cons x sp ih =>
      rw [List.map_cons, List.map_cons, List.sum_cons, List.sum_cons, map_add, ih fun y hy => hsp y (List.mem_cons_of_mem _ hy)]
      congr 1
      exact nl_rev u B L h x (hsp x List.mem_cons_self) G G' k k' i j (σ i) (σ j) (hσ i) (hσ j) ha

/-- **C185 (time reversal).** At a k-point `k'` equivalent to `-k` the Hamiltonian applied to the complex conjugate wavefunction is the complex conjugate of the Hamiltonian at `k` applied to the
wavefunction: the energies are the same and the density of the conjugate wavefunction is the same at every grid point. No symmetry of the crystal is needed. -/
theorem C185_time_reversal (drv : Driver) (st st' : DrvState ℂ) (u : ℝ) (B : Mat) (L : Lat) (h : mkLat u B = .ok L) (d : Dims) (idx idx' : List ℕ)
    (hv : ValidIdx d idx) (hv' : ValidIdx d idx') (G : Fin idx.length → Fin 3 → ℤ) (hG : Indexes d idx G) (G' : Fin idx'.length → Fin 3 → ℤ) (hG' : Indexes d idx' G') (k k' : Fin 3 → ℝ)
    (σ : Fin idx.length ≃ Fin idx'.length) (hσ : ∀ j c, gkv G' k' (σ j) c = -gkv G k j c) (ha : ∀ j, Away (L.cryst2cart (gkv G k j))) (V : Fin d.size → ℝ)
    (sp : List Sp) (hsp : ∀ x ∈ sp, x.Good) :
    let T : (Fin idx.length → ℂ) → Fin idx'.length → ℂ := fun psi i => conj (psi (σ.symm i))
    (∀ psi, ham drv d idx' st' L G' k' V sp (T psi) = T (ham drv d idx st L G k V sp psi)) ∧
    (∀ (e : ℝ) (psi : Fin idx.length → ℂ), ham drv d idx' st' L G' k' V sp (T psi) = (e : ℂ) • T psi ↔ ham drv d idx st L G k V sp psi = (e : ℂ) • psi) ∧
    (∀ psi chi, ∑ i, conj (T psi i) * T chi i = conj (∑ j, conj (psi j) * chi j)) ∧
    ∀ psi (r : Fin d.size), Complex.normSq (wfR drv d idx' st' (T psi) r) = Complex.normSq (wfR drv d idx st psi r) := by
  intro T
  have hT : ∀ psi j, T psi (σ j) = conj (psi j) := by
    intro psi j
    show conj (psi (σ.symm (σ j))) = _
    rw [σ.symm_apply_apply]
  have h1 : ∀ psi, ham drv d idx' st' L G' k' V sp (T psi) = T (ham drv d idx st L G k V sp psi) := by
    intro psi
    funext i
    obtain ⟨i, rfl⟩ := σ.surjective i
    rw [hT]
    unfold ham
    rw [C72_h_psi_is_hamiltonian drv d idx' hv', C72_h_psi_is_hamiltonian drv d idx hv, map_sum, ← Equiv.sum_comp σ]
    refine Finset.sum_congr rfl fun j _ => ?_
    rw [hT, ham_rev u B L h d idx idx' G hG G' hG' k k' σ hσ ha V sp hsp i j, map_mul]
  refine ⟨h1, fun e psi => ?_, fun psi chi => ?_, fun psi r => ?_⟩
  · rw [h1]
    constructor
    · intro hh
      funext j
      have hj := congrFun hh (σ j)
      rw [hT, Pi.smul_apply, hT, smul_eq_mul] at hj
      rw [Pi.smul_apply, smul_eq_mul]
      have := congrArg (starRingEnd ℂ) hj
      simpa using this
    · intro hh
      rw [hh]
      funext i
      show conj ((e : ℂ) * psi (σ.symm i)) = (e : ℂ) * conj (psi (σ.symm i))
      rw [map_mul, Complex.conj_ofReal]
  · rw [← Equiv.sum_comp σ, map_sum]
    refine Finset.sum_congr rfl fun j _ => ?_
    rw [hT, hT, map_mul]
  · rw [wfR_ex drv d idx' hv', wfR_ex drv d idx hv, ← Equiv.sum_comp σ]
    set z := ∑ a, (k a + k' a) * pos d r a with hz
    have : ∀ j, conj (ex (gridDot d idx'[σ j] r)) * T psi (σ j) = ex z * conj (conj (ex (gridDot d idx[j] r)) * psi j) := by
      intro j
      obtain ⟨m1, h1⟩ := gridDot_pos d idx[j] r r.2 (G j) (hG j)
      obtain ⟨m3, h3⟩ := gridDot_pos d idx'[σ j] r r.2 (G' (σ j)) (hG' (σ j))
      rw [hT, h1, h3, map_mul, Complex.conj_conj, ex_int, ex_int, ex_conj, ← mul_assoc, ← ex_add]
      congr 2
      rw [hz, ← Finset.sum_add_distrib, ← Finset.sum_neg_distrib]
      refine Finset.sum_congr rfl fun a _ => ?_
      have q1 := hσ j a
      unfold gkv at q1
      linear_combination -(pos d r a) * q1
    refine Eq.trans (congrArg _ (Finset.sum_congr rfl fun j _ => this j)) ?_
    rw [← Finset.mul_sum, ← map_sum, map_mul, Complex.normSq_conj]
    have hn : Complex.normSq (ex z) = 1 := by
      have := ex_unit z
      rw [← Complex.normSq_eq_conj_mul_self] at this
      exact_mod_cast this
    rw [hn, one_mul]

/-! ## The plane waves of equivalent k-points -/

open Verif.GSpace (GVec Base GkData)
open Verif.GkCoords (gkSpace limit plus)
open Verif.Lattice (toVec defaultGSpace)

theorem basis_nodup (u : ℝ) (B : Mat) (L : Lat) (h : mkLat u B = .ok L) (lenKey : GVec → ℤ) (ecut : ℝ) (he : 0 < ecut) (fuel : ℕ) (gwfn : Base)
    (hb : defaultGSpace L lenKey ecut fuel = some (.ok gwfn)) (k : Fin 3 → ℝ) (e : Option ℝ) (r : GkData) (hr : gkSpace L gwfn ecut k e = .ok r) : r.base.gCryst.Nodup := by
  classical
  obtain ⟨s, gs, hp, hs, hg, hne⟩ := GkCoords.default_ok u B L h lenKey ecut he fuel gwfn hb
  obtain ⟨b, hb2, pp, _⟩ := GSpace.C11_canonical_order s hs gs hg hne
  have q : b = gwfn := by rw [hp] at hb2; injection hb2 with hh; exact hh.symm
  subst q
  have hnd : gs.Nodup := (pp.nodup_iff).1 ((Lattice.C13_default_gspace u B L h lenKey ecut he).2 fuel b hb).2
  unfold gkSpace at hr
  exact ((GSpace.C16_k_basis s hs gs hg hne _ _ b hp r hr).2.1.nodup_iff).2 (hnd.filter _)

/-- The vector of integer coordinates. -/
def ofVec (v : Fin 3 → ℤ) : GVec := (v 0, v 1, v 2)

theorem toVec_ofVec (v : Fin 3 → ℤ) (a : Fin 3) : toVec (ofVec v) a = v a := by
  fin_cases a <;> rfl

/-- The coordinates of an integer vector. -/
def ints (g : GVec) : Fin 3 → ℤ := ![g.1, g.2.1, g.2.2]

theorem ints_cast (g : GVec) (a : Fin 3) : (ints g a : ℝ) = toVec g a := by
  fin_cases a <;> rfl

theorem toVec_inj (g g' : GVec) (h : toVec g = toVec g') : g = g' := by
  have h0 := congrFun h 0
  have h1 := congrFun h 1
  have h2 := congrFun h 2
  simp [toVec] at h0 h1 h2
  exact Prod.ext h0 (Prod.ext h1 h2)

theorem app_mul (M N : Matrix (Fin 3) (Fin 3) ℤ) (v : Fin 3 → ℝ) : app M (app N v) = app (M * N) v := by
  funext a
  unfold app
  simp only [Matrix.mul_apply, Finset.mul_sum, Int.cast_sum, Int.cast_mul, Finset.sum_mul]
  rw [Finset.sum_comm]
  exact Finset.sum_congr rfl fun b _ => Finset.sum_congr rfl fun c _ => by ring

theorem app_one (v : Fin 3 → ℝ) : app 1 v = v := by
  funext a
  unfold app
  simp [Matrix.one_apply]

theorem app_add (M : Matrix (Fin 3) (Fin 3) ℤ) (v w : Fin 3 → ℝ) (a : Fin 3) : app M (fun b => v b + w b) a = app M v a + app M w a := by
  unfold app
  rw [← Finset.sum_add_distrib]
  exact Finset.sum_congr rfl fun b _ => by ring

/-- **C184, C185 (bases).** For a k-point and its image under a rotation, reflection or inversion that keeps lengths, up to a reciprocal lattice vector: both k-points inside the cutoff, the bases that are
constructed have the same number of plane waves, and the operation maps the vectors `k + G` of the one onto those of the other, one to one. This is the correspondence C184 and C185 ask for. -/
theorem C184_basis (u : ℝ) (B : Mat) (L : Lat) (h : mkLat u B = .ok L) (lenKey : GVec → ℤ) (ecut : ℝ) (he : 0 < ecut) (fuel : ℕ) (gwfn : Base)
    (hb : defaultGSpace L lenKey ecut fuel = some (.ok gwfn)) (M N : Matrix (Fin 3) (Fin 3) ℤ) (hMN : N * M = 1) (hM : Keeps L M) (k k' : Fin 3 → ℝ) (m : Fin 3 → ℤ) (hk' : ∀ a, k' a = app M k a + m a)
    (e : Option ℝ) (hle : limit ecut e ≤ ecut / 4) (hk : L.norm2Cryst k ≤ 2 * limit ecut e) (hkk : L.norm2Cryst k' ≤ 2 * limit ecut e) :
    ∃ r r', gkSpace L gwfn ecut k e = .ok r ∧ gkSpace L gwfn ecut k' e = .ok r' ∧
      ∃ σ : Fin r.base.gCryst.length ≃ Fin r'.base.gCryst.length, ∀ j : Fin r.base.gCryst.length, (fun a => toVec r'.base.gCryst[σ j] a + k' a) = app M (fun b => toVec r.base.gCryst[j] b + k b) := by
  obtain ⟨r, hr, hm⟩ := GkCoords.C177_complete_partial u B L h lenKey ecut he fuel gwfn hb k e hle hk
  obtain ⟨r', hr', hm'⟩ := GkCoords.C177_complete_partial u B L h lenKey ecut he fuel gwfn hb k' e hle hkk
  have nd := basis_nodup u B L h lenKey ecut he fuel gwfn hb k e r hr
  have nd' := basis_nodup u B L h lenKey ecut he fuel gwfn hb k' e r' hr'
  refine ⟨r, r', hr, hr', ?_⟩
  have hMN' : M * N = 1 := mul_eq_one_comm.1 hMN
  -- the image of a plane wave
  let img : GVec → GVec := fun g => ofVec fun a => (∑ b, M a b * ints g b) - m a
  have himg : ∀ g, (fun a => toVec (img g) a + k' a) = app M (fun b => toVec g b + k b) := by
    intro g
    funext a
    rw [app_add, toVec_ofVec, hk']
    push_cast
    simp only [ints_cast]
    unfold app
    ring
  have hplus : ∀ g, plus k g = fun b => toVec g b + k b := fun g => rfl
  have hin : ∀ g, g ∈ r.base.gCryst → img g ∈ r'.base.gCryst := by
    intro g hg
    rw [hm']
    have : plus k' (img g) = app M (plus k g) := himg g
    rw [this, hM]
    exact (hm g).1 hg
  have hsur : ∀ g' ∈ r'.base.gCryst, ∃ g ∈ r.base.gCryst, img g = g' := by
    intro g' hg'
    refine ⟨ofVec fun a => ∑ b, N a b * (ints g' b + m b), ?_, ?_⟩
    all_goals
      have key : (fun b => toVec (ofVec fun a => ∑ b, N a b * (ints g' b + m b)) b + k b) = app N (fun b => toVec g' b + k' b) := by
        funext a
        have hkk : k = app N (app M k) := by rw [app_mul, hMN, app_one]
        have e1 : (fun b => toVec g' b + k' b) = fun b => (toVec g' b + m b) + app M k b := by
          funext b
          rw [hk']
          ring
        rw [e1, app_add, ← hkk, toVec_ofVec]
        push_cast
        simp only [ints_cast]
        rfl
    · rw [hm]
      rw [← hM, hplus, key, app_mul, hMN', app_one]
      exact (hm' g').1 hg'
    · apply toVec_inj
      have := himg (ofVec fun a => ∑ b, N a b * (ints g' b + m b))
      rw [key, app_mul, hMN', app_one] at this
      funext a
      have := congrFun this a
      linarith
  have hinj : ∀ g g', img g = img g' → g = g' := by
    intro g g' hgg
    have h1 := himg g
    rw [hgg, himg g'] at h1
    have h2 := congrArg (app N) h1
    rw [app_mul, app_mul, hMN, app_one, app_one] at h2
    apply toVec_inj
    funext a
    have := congrFun h2 a
    linarith
  choose ix hix using fun j : Fin r.base.gCryst.length => List.getElem_of_mem (hin r.base.gCryst[j] (List.getElem_mem _))
  have hbij : Function.Bijective fun j => (⟨ix j, (hix j).choose⟩ : Fin r'.base.gCryst.length) := by
    constructor
    · intro i j hij
      have hij : ix i = ix j := congrArg Fin.val hij
      have hi := (hix i).choose_spec
      have hj := (hix j).choose_spec
      have e1 : img r.base.gCryst[i] = img r.base.gCryst[j] := by
        rw [← hi, ← hj]
        congr 1
      exact Fin.ext ((List.Nodup.getElem_inj_iff nd).1 (hinj _ _ e1))
    · intro i'
      obtain ⟨g, hg, hgi⟩ := hsur r'.base.gCryst[i'] (List.getElem_mem _)
      obtain ⟨j, hj, rfl⟩ := List.getElem_of_mem hg
      refine ⟨⟨j, hj⟩, Fin.ext ?_⟩
      have hs := (hix ⟨j, hj⟩).choose_spec
      exact (List.Nodup.getElem_inj_iff nd').1 (hs.trans hgi)
  refine ⟨Equiv.ofBijective _ hbij, fun j => ?_⟩
  have hs := (hix j).choose_spec
  have e1 : r'.base.gCryst[(Equiv.ofBijective _ hbij) j] = img r.base.gCryst[j] := hs
  rw [e1]
  exact himg _

/-- Inversion keeps lengths (for C185). -/
theorem keeps_neg (u : ℝ) (B : Mat) (L : Lat) (h : mkLat u B = .ok L) : Keeps L (-1) ∧ ∀ v, app (-1) v = fun a => -v a := by
  have e : ∀ v, app (-1) v = fun a => -v a := by
    intro v
    funext a
    unfold app
    simp [Matrix.one_apply]
  refine ⟨fun v => ?_, e⟩
  rw [e v]
  have e2 : (fun a => -v a) = -v := rfl
  rw [(Lattice.C26_metric u B L h _ 0).2.1, (Lattice.C26_metric u B L h v 0).2.1, e2]
  simp [dotCart, Lat.cryst2cart, Matrix.mulVec_neg]

/-- **C184 (origin).** The interpolated radial part at length 0 is the first value of the table, which is the integral with `j_l(0) = 0` for `l = 1, …, 6`: what `Sp.Good` asks of the radial parts. -/
theorem C184_origin (table : ℕ → ℝ) (num : ℕ) (h : 3 < num) : interp table num 0 = .ok (table 0) ∧ ∀ l, 0 < l → l ≤ 6 → sphericalJn l 0 = some 0 := by
  refine ⟨?_, fun l h0 h6 => by rw [C77_at_zero l h6, if_neg (by omega)]⟩
  have : rint (0 / delQ) = 0 := by simp [rint]
  unfold interp
  simp only [this]
  rw [if_pos (by simpa using h)]
  congr 1
  simp
  norm_num
  ring

/-! ## Cases: the spherical harmonics up to `l = 3` -/

/-- The square of the normalisation of `Y_l^m`. -/
noncomputable def nrm2 : ℕ → ℕ → ℝ
  | 0, 0 => 1 / (4 * Real.pi)
  | 1, 0 => 3 / (4 * Real.pi)
  | 1, 1 => 3 / (8 * Real.pi)
  | 2, 0 => 5 / (16 * Real.pi)
  | 2, 1 => 15 / (8 * Real.pi)
  | 2, 2 => 15 / (32 * Real.pi)
  | 3, 0 => 7 / (16 * Real.pi)
  | 3, 1 => 21 / (64 * Real.pi)
  | 3, 2 => 105 / (32 * Real.pi)
  | 3, 3 => 35 / (64 * Real.pi)
  | _, _ => 0

/-- The dependence of `Y_l^m` on the polar angle. -/
noncomputable def pol (l m : ℕ) (θ : ℝ) : ℝ :=
  match l, m with
  | 0, 0 => 1
  | 1, 0 => Real.cos θ
  | 1, 1 => -Real.sin θ
  | 2, 0 => 3 * Real.cos θ ^ 2 - 1
  | 2, 1 => -(Real.sin θ * Real.cos θ)
  | 2, 2 => Real.sin θ ^ 2
  | 3, 0 => 5 * Real.cos θ ^ 3 - 3 * Real.cos θ
  | 3, 1 => -(Real.sin θ * (5 * Real.cos θ ^ 2 - 1))
  | 3, 2 => Real.sin θ ^ 2 * Real.cos θ
  | 3, 3 => -Real.sin θ ^ 3
  | _, _ => 0

/-- The spherical harmonics `Y_l^m(θ, φ)`, `0 ≤ m ≤ l ≤ 3`, with the Condon–Shortley phase (those of `scipy.special.sph_harm_y`). -/
noncomputable def sphY (l m : ℕ) (θ φ : ℝ) : ℂ := ⟨Real.sqrt (nrm2 l m) * pol l m θ * Real.cos (m * φ), Real.sqrt (nrm2 l m) * pol l m θ * Real.sin (m * φ)⟩

theorem nrm2_nonneg (l m : ℕ) : 0 ≤ nrm2 l m := by
  have := Real.pi_pos
  unfold nrm2
  split <;> positivity

theorem sphY_sum (l : ℕ) (θ φ θ' φ' : ℝ) : ∑ m ∈ Finset.Icc (-(l : ℤ)) l, realHarm (fun l m => sphY l m θ φ) l m * conj (realHarm (fun l m => sphY l m θ' φ') l m)
    = ((nrm2 l 0 * (pol l 0 θ * pol l 0 θ') + ∑ m ∈ Finset.range l, 2 * nrm2 l (m + 1) * (pol l (m + 1) θ * pol l (m + 1) θ') * Real.cos ((m + 1 : ℕ) * (φ - φ')) : ℝ) : ℂ) := by
  rw [sum_Icc_sym]
  push_cast
  congr 1
  · simp only [realHarm, if_true, sphY]
    have h := Real.mul_self_sqrt (nrm2_nonneg l 0)
    apply Complex.ext
    · simp
      linear_combination (pol l 0 θ * pol l 0 θ') * h
    · simp
  · refine Finset.sum_congr rfl fun m _ => ?_
    rw [show (m : ℤ) + 1 = ((m + 1 : ℕ) : ℤ) by push_cast; ring, show (m : ℂ) + 1 = ((m + 1 : ℕ) : ℂ) by push_cast; ring]
    have hm : 1 ≤ m + 1 := by omega
    generalize m + 1 = m at *
    have h := Real.mul_self_sqrt (nrm2_nonneg l m)
    have h2 := Real.mul_self_sqrt (show (0 : ℝ) ≤ 2 by norm_num)
    have h1 : ((m : ℤ)) ≠ 0 := by omega
    have h1' : ¬ ((m : ℤ)) < 0 := by omega
    have h3 : (-(m : ℤ)) ≠ 0 := by omega
    have h3' : (-(m : ℤ)) < 0 := by omega
    simp only [realHarm, if_neg h1, if_neg h1', if_neg h3, if_pos h3', Int.natAbs_natCast, Int.natAbs_neg, map_mul, map_pow, map_neg, map_one, Complex.conj_ofReal, sphY]
    rw [show (m : ℂ) * ((φ : ℂ) - φ') = m * φ - m * φ' by ring]
    have hs : ((-1 : ℂ) ^ m) * (-1) ^ m = 1 := by rw [← mul_pow]; simp
    have h2' : ((Real.sqrt 2 : ℝ) : ℂ) * (Real.sqrt 2 : ℝ) = 2 := by exact_mod_cast congrArg ((↑) : ℝ → ℂ) h2
    have h' : ((Real.sqrt (nrm2 l m) : ℝ) : ℂ) * (Real.sqrt (nrm2 l m) : ℝ) = (nrm2 l m : ℝ) := by exact_mod_cast congrArg ((↑) : ℝ → ℂ) h
    have hc : ((Real.cos (m * φ - m * φ') : ℝ) : ℂ) = (Real.cos (m * φ) : ℝ) * (Real.cos (m * φ') : ℝ) + (Real.sin (m * φ) : ℝ) * (Real.sin (m * φ') : ℝ) := by
      rw [Real.cos_sub]
      push_cast
      ring
    have e : ((m : ℂ) * φ - m * φ').cos = ((Real.cos (m * φ - m * φ') : ℝ) : ℂ) := by push_cast; rfl
    rw [e, hc]
    push_cast
    generalize ((Real.sqrt 2 : ℝ) : ℂ) = a at *
    generalize ((Real.sqrt (nrm2 l m) : ℝ) : ℂ) = b at *
    generalize ((-1 : ℂ) ^ m) = s at *
    generalize Complex.cos (m * φ) = c1
    generalize Complex.cos (m * φ') = c2
    generalize Complex.sin (m * φ) = s1
    generalize Complex.sin (m * φ') = s2
    generalize ((pol l m θ : ℝ) : ℂ) = p
    generalize ((pol l m θ' : ℝ) : ℂ) = p'
    generalize ((nrm2 l m : ℝ) : ℂ) = n at *
    linear_combination (s * s * b * b * p * p' * (c1 * c2 + s1 * s2)) * h2' + 2 * (b * b * p * p' * (c1 * c2 + s1 * s2)) * hs + 2 * p * p' * (c1 * c2 + s1 * s2) * h'

theorem sphY_harmonics (beta_l : List ℕ) (h : ∀ l ∈ beta_l, l ≤ 3) : Harmonics sphY beta_l := by
  refine ⟨fun l hl => ?_, fun θ φ θ' φ' => by simp [sphY, pol]⟩
  have h3 := h l hl
  have hpi : Real.pi ≠ 0 := Real.pi_ne_zero
  have c2 : ∀ x : ℝ, Real.cos (2 * x) = 2 * Real.cos x ^ 2 - 1 := Real.cos_two_mul
  have c3 : ∀ x : ℝ, Real.cos (3 * x) = 4 * Real.cos x ^ 3 - 3 * Real.cos x := Real.cos_three_mul
  interval_cases l
  · refine ⟨fun _ => 1 / (4 * Real.pi), fun θ φ θ' φ' => (sphY_sum 0 θ φ θ' φ').trans ?_⟩
    congr 1
    simp [nrm2, pol]
  · refine ⟨fun x => 3 / (4 * Real.pi) * x, fun θ φ θ' φ' => (sphY_sum 1 θ φ θ' φ').trans ?_⟩
    congr 1
    simp only [nrm2, pol, Finset.sum_range_one, zero_add, Nat.cast_one, one_mul]
    field_simp
    ring
  · refine ⟨fun x => 5 / (8 * Real.pi) * (3 * x ^ 2 - 1), fun θ φ θ' φ' => (sphY_sum 2 θ φ θ' φ').trans ?_⟩
    congr 1
    rw [Finset.sum_range_succ, Finset.sum_range_one]
    simp only [zero_add, Nat.reduceAdd, nrm2, pol, Nat.cast_one, one_mul, Nat.cast_ofNat, c2]
    have s1 := Real.sin_sq θ
    have s2 := Real.sin_sq θ'
    generalize Real.sin θ = s at *
    generalize Real.cos θ = c at *
    generalize Real.sin θ' = s' at *
    generalize Real.cos θ' = c' at *
    generalize Real.cos (φ - φ') = X
    field_simp
    linear_combination (-3840 * s' ^ 2 : ℝ) * s1 + (-3840 * (1 - c ^ 2) : ℝ) * s2
  · refine ⟨fun x => 7 / (8 * Real.pi) * (5 * x ^ 3 - 3 * x), fun θ φ θ' φ' => (sphY_sum 3 θ φ θ' φ').trans ?_⟩
    congr 1
    rw [Finset.sum_range_succ, Finset.sum_range_succ, Finset.sum_range_one]
    simp only [zero_add, Nat.reduceAdd, nrm2, pol, Nat.cast_one, one_mul, Nat.cast_ofNat, c2, c3]
    have s1 := Real.sin_sq θ
    have s2 := Real.sin_sq θ'
    generalize Real.sin θ = s at *
    generalize Real.cos θ = c at *
    generalize Real.sin θ' = s' at *
    generalize Real.cos θ' = c' at *
    generalize Real.cos (φ - φ') = X
    field_simp
    have e1 : s ^ 3 = s * (1 - c ^ 2) := by rw [← s1]; ring
    have e2 : s' ^ 3 = s' * (1 - c' ^ 2) := by rw [← s2]; ring
    ring_nf
    rw [e1, e2, s1, s2]
    ring

/-- A screw axis: a quarter turn about z with half a translation. -/
noncomputable def screw : Op where
  W := !![0, -1, 0; 1, 0, 0; 0, 0, 1]
  S := !![0, -1, 0; 1, 0, 0; 0, 0, 1]
  t := ![0, 0, 1 / 2]
  inv := by decide

/-- Two atoms on the axis. -/
noncomputable def exSp : Sp := ⟨[0, 1, 2, 3], 2, fun a => ![0, 0, a / 2], sphY, fun b r => if b = 0 then 1 else r, fun _ _ => 1⟩

/-- The screw axis keeps the lengths of a tetragonal reciprocal lattice, maps the 2×2×2 grid onto itself, and maps a silicon-like pair of atoms on the axis to itself; angular momenta up to 3 are fine. -/
example : (∃ L, mkLat 1 !![1, 0, 0; 0, 1, 0; 0, 0, 2] = .ok L ∧ Keeps L screw.S) ∧ OnGrid ⟨2, 2, 2⟩ screw ∧
    exSp.Good ∧ Image screw exSp exSp := by
  refine ⟨?_, ?_, ?_, ?_⟩
  · have hd : (!![1, 0, 0; 0, 1, 0; 0, 0, 2] : Mat).det ≠ 0 := by simp [Matrix.det_fin_three]
    refine ⟨_, by unfold mkLat; rw [if_neg hd], fun v => ?_⟩
    simp only [Lat.norm2Cryst, screw, app, Fin.sum_univ_three, Matrix.mulVec, dotProduct, Matrix.mul_apply, Matrix.transpose_apply]
    simp
    ring
  · intro r hr
    have hr : r < 8 := hr
    have : ∀ r : Fin 8, ∃ r' : Fin 8, ∃ m : Fin 3 → Fin 3, ∀ a : Fin 3, (coord ⟨2, 2, 2⟩ r' a : ℤ) = ∑ b, screw.W a b * coord ⟨2, 2, 2⟩ r b + ![0, 0, 1] a + (((m a : ℕ) : ℤ) - 1) * 2 := by
      unfold screw
      decide
    obtain ⟨r', m, hm⟩ := this ⟨r, hr⟩
    refine ⟨r', r'.2, fun a => ⟨((m a : ℕ) : ℤ) - 1, ?_⟩⟩
    have e : ((coord ⟨2, 2, 2⟩ r' a : ℤ) : ℝ) = ((∑ b, screw.W a b * coord ⟨2, 2, 2⟩ r b + ![0, 0, 1] a + (((m a : ℕ) : ℤ) - 1) * 2 : ℤ) : ℝ) := by rw [hm a]
    have hl : ∀ b, (len ⟨2, 2, 2⟩ b : ℝ) = 2 := by intro b; fin_cases b <;> simp [len]
    have ht : screw.t a = ((![0, 0, 1] a : ℤ) : ℝ) / 2 := by fin_cases a <;> simp [screw]
    unfold pos app
    rw [ht]
    simp only [hl]
    push_cast at e ⊢
    rw [e, add_div, add_div, Finset.sum_div]
    congr 1
    · congr 1
      exact Finset.sum_congr rfl fun b _ => by ring
    · ring
  · refine ⟨sphY_harmonics _ (by decide), fun b hb => ?_⟩
    have : b ≠ 0 := by rintro rfl; exact hb rfl
    show (if b = 0 then (1 : ℝ) else 0) = 0
    rw [if_neg this]
  · refine ⟨exSp.tau, rfl, (Equiv.swap 0 1 : Equiv.Perm (Fin 2)), fun a c => ?_⟩
    change Fin 2 at a
    have h0 : (Equiv.swap 0 1 : Equiv.Perm (Fin 2)) 0 = 1 := by decide
    have h1 : (Equiv.swap 0 1 : Equiv.Perm (Fin 2)) 1 = 0 := by decide
    fin_cases a
    · show ∃ m : ℤ, exSp.tau ((Equiv.swap 0 1 : Equiv.Perm (Fin 2)) 0 : Fin 2) c = app screw.W (exSp.tau ((0 : Fin 2) : ℕ)) c + screw.t c + m
      rw [h0]
      refine ⟨0, ?_⟩
      fin_cases c <;> simp [app, screw, exSp, Fin.sum_univ_three]
    · show ∃ m : ℤ, exSp.tau ((Equiv.swap 0 1 : Equiv.Perm (Fin 2)) 1 : Fin 2) c = app screw.W (exSp.tau ((1 : Fin 2) : ℕ)) c + screw.t c + m
      rw [h1]
      fin_cases c
      · exact ⟨0, by simp [app, screw, exSp, Fin.sum_univ_three]⟩
      · exact ⟨0, by simp [app, screw, exSp, Fin.sum_univ_three]⟩
      · exact ⟨-1, by simp [app, screw, exSp, Fin.sum_univ_three]; norm_num⟩

end Verif.Rot
