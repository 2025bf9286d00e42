import Verif.Model.ScfGrp
import Verif.Props.ScfDist
import Verif.Props.DavidsonPar
import Verif.Props.Occup
import Verif.Props.DFTComm

/-!
# C210: a whole SCF run on any layout of k-point groups, band groups and plane-wave processes
-/

namespace Verif.ScfGrp

open Verif.Dist (Setup)
open Verif.HamDist (ln lm DWf davCfg serCfg KPart)
open Verif.FFT (Driver Dims DrvState dftKern)
open Verif.PotDist (PointFunc distSpace GList eG eR part_eq planes_eq)
open Verif.Pot (fftSpace)
open Verif.Mixing (Dens)
open Verif.Scatter (block sliceStart sliceStop)
open Verif.ScfDist

/-! ## The eigen-solver depends on the directions of the starting vectors only -/

section scale

variable {E : Type*} [NormedAddCommGroup E] [InnerProductSpace ℂ E]

open Verif.Davidson

/-- The same state with other vectors in `evc`. -/
def withE (s : Davidson.St E) (e : ℕ → E) : Davidson.St E := { s with evc := e }

theorem body_withE (c : Davidson.Cfg E) (s : Davidson.St E) (e : ℕ → E) : body c (withE s e) = (body c s).map fun s' => withE s' e := by
  unfold body
  have h1 : expandPsi c (moveUnconv c (withE s e)) = (expandPsi c (moveUnconv c s)).map fun s' => withE s' e := by
    by_cases hh : c.numwork * c.numeig < (moveUnconv c s).ndim + (moveUnconv c s).nun
    · have e1 : expandPsi c (moveUnconv c (withE s e)) = .error .value := if_pos hh
      have e2 : expandPsi c (moveUnconv c s) = .error .value := if_pos hh
      rw [e1, e2]
      rfl
    · unfold expandPsi
      have hh' : ¬ c.numwork * c.numeig < (moveUnconv c (withE s e)).ndim + (moveUnconv c (withE s e)).nun := hh
      rw [if_neg hh, if_neg hh']
      rfl
  rw [h1]
  cases expandPsi c (moveUnconv c s) with
  | error x => rfl
  | ok s1 =>
    have h2 : solveRed c (updateRed (withE s1 e)) = (solveRed c (updateRed s1)).map fun s' => withE s' e := by
      unfold solveRed
      dsimp only [updateRed, withE]
      generalize c.eigh _ _ _ = x
      cases x <;> rfl
    show (match solveRed c (updateRed (withE s1 e)) with | .error x => _ | .ok s2 => _) = _
    rw [h2]
    dsimp only
    generalize solveRed c (updateRed s1) = x
    cases x <;> rfl

/-- Two results of the solver: the same, or both the vectors they started from. -/
def Alike (e e' : ℕ → E) (o o' : Except PyErr (Davidson.Out E)) : Prop :=
  match o, o' with
  | .ok o, .ok o' => (o'.evc = o.evc ∨ (o.evc = e ∧ o'.evc = e')) ∧ o'.evl = o.evl
  | .error x, .error y => y = x
  | _, _ => False

theorem alike_refl (e e' : ℕ → E) (o : Except PyErr (Davidson.Out E)) : Alike e e' o o := by
  cases o
  · rfl
  · exact ⟨.inl rfl, rfl⟩

theorem loop_withE (c : Davidson.Cfg E) (e : ℕ → E) (fuel k : ℕ) (s : Davidson.St E) : Alike s.evc e (loop c fuel k s) (loop c fuel k (withE s e)) := by
  induction fuel generalizing k s with
  | zero => exact ⟨.inr ⟨rfl, rfl⟩, rfl⟩
  | succ fuel ih =>
    unfold loop
    rw [body_withE]
    have hb : ∀ s', body c s = .ok s' → s'.evc = s.evc := by
      intro s' h
      have h2 := body_withE c s s.evc
      have h3 : withE s s.evc = s := rfl
      rw [h3, h] at h2
      have h4 : s' = withE s' s.evc := Except.ok.inj h2
      rw [h4]
      rfl
    cases hs : body c s with
    | error x => rfl
    | ok s' =>
      show Alike s.evc e (if s'.nun = 0 then _ else _) (if s'.nun = 0 then _ else _)
      by_cases h1 : s'.nun = 0
      · rw [if_pos h1, if_pos h1]
        exact ⟨.inl rfl, rfl⟩
      · rw [if_neg h1, if_neg h1]
        show Alike s.evc e (if c.numwork * c.numeig < s'.ndim + s'.nun then _ else _) (if c.numwork * c.numeig < s'.ndim + s'.nun then _ else _)
        by_cases h2 : c.numwork * c.numeig < s'.ndim + s'.nun
        · rw [if_pos h2, if_pos h2]
          exact alike_refl _ _ _
        · rw [if_neg h2, if_neg h2, ← hb s' hs]
          exact ih (k + 1) s'

theorem solve_scale (c : Davidson.Cfg E) (e e' psi0 hpsi0 : ℕ → E) (h : ∀ i < c.numeig, c.norm (e' i) = c.norm (e i)) : Alike e e' (solve c e psi0 hpsi0) (solve c e' psi0 hpsi0) := by
  have hi : initSt c e' psi0 hpsi0 = withE (initSt c e psi0 hpsi0) e' := by
    have : (fun i => if i < c.numeig then c.norm (e' i) else psi0 i) = fun i => if i < c.numeig then c.norm (e i) else psi0 i := by
      funext i
      by_cases hi : i < c.numeig
      · rw [if_pos hi, if_pos hi, h i hi]
      · rw [if_neg hi, if_neg hi]
    have hg : ∀ psi psi' : ℕ → E, psi' = psi → (updateRed
        { ndim := c.numeig, nun := c.numeig, flag := fun _ => true, psi := psi', hpsi := fun i => if i < c.numeig then c.H (psi' i) else hpsi0 i, ham := fun _ _ => 0, ovl := fun _ _ => 0, evcR := fun _ _ => 0,
          evlR := fun _ => 0, evl := fun _ => 0, evc := e' } : Davidson.St E) = withE (updateRed
        { ndim := c.numeig, nun := c.numeig, flag := fun _ => true, psi := psi, hpsi := fun i => if i < c.numeig then c.H (psi i) else hpsi0 i, ham := fun _ _ => 0, ovl := fun _ _ => 0, evcR := fun _ _ => 0,
          evlR := fun _ => 0, evl := fun _ => 0, evc := e }) e' := by
      rintro psi _ rfl
      rfl
    exact hg _ _ this
  have h2 : solveRed c (initSt c e' psi0 hpsi0) = (solveRed c (initSt c e psi0 hpsi0)).map fun s' => withE s' e' := by
    rw [hi]
    unfold solveRed
    dsimp only [withE]
    generalize c.eigh _ _ _ = x
    cases x <;> rfl
  unfold solve
  by_cases ha : ¬ 0 < c.thr ∨ ¬ 1 < c.numwork ∨ ¬ 1 < c.maxiter
  · simp only [ha, if_true]; exact rfl
  · simp only [ha, if_false]
    rw [h2]
    have he : ∀ s', solveRed c (initSt c e psi0 hpsi0) = .ok s' → s'.evc = e := by
      intro s' hs
      unfold solveRed at hs
      revert hs
      generalize c.eigh _ _ _ = x
      intro hs
      cases x with
      | error x => cases hs
      | ok x => rw [← Except.ok.inj hs]; rfl
    cases hs : solveRed c (initSt c e psi0 hpsi0) with
    | error x => rfl
    | ok s =>
      have := loop_withE c e' c.maxiter 0 { s with evl := s.evlR }
      have h4 : s.evc = e := he s hs
      rw [← h4]
      exact this

end scale


/-! ## States up to positive factors -/

/-- The same states up to a positive factor for each of the first `n` bands. -/
structure Scaled (n : ℕ) (K K0 : KSWfn.KS) : Prop where
  nb : K0.nb = K.nb
  nspin : K0.nspin = K.nspin
  numg : K0.numg = K.numg
  occ : K0.occ = K.occ
  evl : K0.evl = K.evl
  evc : ∀ b < n, ∃ c : ℝ, 0 < c ∧ ∀ i < K.basis, K0.evc b i = (c : ℂ) * K.evc b i

theorem Scaled.refl (nb : ℕ) (K : KSWfn.KS) : Scaled nb K K := ⟨rfl, rfl, rfl, rfl, rfl, fun _ _ => ⟨1, one_pos, fun i _ => by simp⟩⟩

theorem norm_scale {ι : Type*} (t : Finset ι) (f : ι → ℂ) (c : ℝ) (hc : 0 < c) (z : ℂ) :
    (c : ℂ) * z / (Real.sqrt (∑ j ∈ t, Complex.normSq ((c : ℂ) * f j)) : ℂ) = z / (Real.sqrt (∑ j ∈ t, Complex.normSq (f j)) : ℂ) := by
  have h1 : ∑ j ∈ t, Complex.normSq ((c : ℂ) * f j) = c ^ 2 * ∑ j ∈ t, Complex.normSq (f j) := by
    rw [Finset.mul_sum]
    refine Finset.sum_congr rfl fun j _ => ?_
    rw [Complex.normSq_mul, Complex.normSq_ofReal, pow_two]
  have hc' : (c : ℂ) ≠ 0 := by exact_mod_cast hc.ne'
  rw [h1, Real.sqrt_mul (sq_nonneg c), Real.sqrt_sq hc.le]
  push_cast
  exact mul_div_mul_left _ _ hc'

section pieces

variable {S : Setup} {ns : ℕ} (hS : S.Ok) (C : Calc S.d S.idx ns) (h0 : 0 < ns)

theorem solve_scaled {d : Dims} {idx : List ℕ} (C : Calc d idx ns) (drv : Driver) (k : KPt) (kst : DrvState ℂ) (junk : ℕ → EuclideanSpace ℂ (Fin k.idx.length)) (v : Fin d.size → ℂ) (g0 thr : ℝ) (K K0 : KSWfn.KS) (hK : K.basis = k.idx.length) (h : Scaled C.nb K K0) :
    ERel (fun a b => Scaled C.nb a b ∧ a.nb = K.nb ∧ a.occ = K.occ) (solveS C drv k kst junk v g0 thr K) (solveS C drv k kst junk v g0 thr K0) := by
  have hs := solve_scale (serCfg C.dev drv d k.idx kst k.gk2 v k.nl (fun j => 1 / 2 * k.gk2 j + k.vnl j + g0) C.nb C.numwork C.maxiter thr C.eigh) (fun b => WithLp.toLp 2 fun j => K.evc b j)
    (fun b => WithLp.toLp 2 fun j => K0.evc b j) junk junk (by
      intro i hi
      obtain ⟨c, hc, e⟩ := h.evc i hi
      refine congrArg (WithLp.toLp 2) (funext fun j => ?_)
      show K0.evc i j / (Real.sqrt (∑ j : Fin k.idx.length, Complex.normSq (K0.evc i j)) : ℂ) = K.evc i j / (Real.sqrt (∑ j : Fin k.idx.length, Complex.normSq (K.evc i j)) : ℂ)
      have e' : ∀ j : Fin k.idx.length, K0.evc i j = (c : ℂ) * K.evc i j := fun j => e j (by rw [hK]; exact j.2)
      simp only [e']
      exact norm_scale Finset.univ (fun j : Fin k.idx.length => K.evc i j) c hc _)
  unfold solveS
  refine ERel.bind (R := fun o o' => (o'.evc = o.evc ∨ (o.evc = (fun b => WithLp.toLp 2 fun j : Fin k.idx.length => K.evc b j) ∧ o'.evc = fun b => WithLp.toLp 2 fun j : Fin k.idx.length => K0.evc b j)) ∧ o'.evl = o.evl) ?_ fun o o' ho => ?_
  · revert hs
    generalize Davidson.solve _ (fun b => WithLp.toLp 2 fun j : Fin k.idx.length => K.evc b j) junk junk = a
    generalize Davidson.solve _ (fun b => WithLp.toLp 2 fun j : Fin k.idx.length => K0.evc b j) junk junk = b
    intro hs
    cases a <;> cases b
    · exact hs
    · exact hs.elim
    · exact hs.elim
    · exact hs
  · refine ⟨⟨h.nb, h.nspin, h.numg, h.occ, ho.2, fun b hb => ?_⟩, rfl, rfl⟩
    rcases ho.1 with e | ⟨e1, e2⟩
    · refine ⟨1, one_pos, fun i _ => ?_⟩
      dsimp only
      rw [e]
      simp
    · obtain ⟨c, hc, e⟩ := h.evc b hb
      refine ⟨c, hc, fun i hb' => ?_⟩
      have hi : i < k.idx.length := by rw [← hK]; exact hb'
      dsimp only
      rw [e1, e2, dif_pos hi, dif_pos hi]
      exact e i (by rw [hK]; exact hi)

theorem Scaled.basis {n : ℕ} {K K0 : KSWfn.KS} (h : Scaled n K K0) {l : List ℕ} {Kp : Fin S.P → KSWfn.KS} (hR : RK S l K0 Kp) : K.basis = l.length := by
  unfold KSWfn.KS.basis
  rw [← h.nspin, ← h.numg, hR.spin, hR.numg, Nat.one_mul]

/-- The band groups of one k-point and spin: each holds the parts of the serial states up to positive factors. -/
def RG (S : Setup) (l : List ℕ) (nb m : ℕ) (K : KSWfn.KS) (w : Fin (m + 1) → Fin S.P → KSWfn.KS) : Prop :=
  K.nb = nb ∧ ∀ b, ∃ K0, Scaled nb K K0 ∧ RK S l K0 (w b)

theorem solve_grp (m : ℕ) (k : KPt) (hk : (kS S k.idx).Ok) (drv : Driver) (kst : DrvState ℂ) (junk : ℕ → EuclideanSpace ℂ (Fin k.idx.length)) (kstD : ℕ → Dist.St ℂ) (hst : Reached (kS S k.idx) false kstD)
    (junkD : Fin (m + 1) → ℕ → DWf (kS S k.idx)) (v : Pots ns S.d.size) (v' : Fin (m + 1) → DPots S ns) (hv : ∀ b, RV hS v (v' b)) (s : Fin ns) (thr : ℝ) (K : KSWfn.KS) (w : Fin (m + 1) → Fin S.P → KSWfn.KS) (hK : RG S k.idx C.nb m K w) :
    ERel (RG S k.idx C.nb m) (solveS C drv k kst junk (v.vloc s) v.g0 thr K) (solveG S C m k kstD junkD v' s thr w) := by
  obtain ⟨hnb, hb⟩ := hK
  obtain ⟨K0, hK0, hR0⟩ := hb 0
  have hvv : ∀ b, v' b = v' 0 := by
    intro b
    have e : ∀ b, v' b = ⟨fun s p r => v.hxc s (eR S hS p r), fun s p r => v.vloc s (eR S hS p r), v.g0⟩ := by
      intro b
      have h := hv b
      revert h
      generalize v' b = x
      intro h
      obtain ⟨x1, x2, x3⟩ := x
      obtain ⟨e1, e2, e3⟩ := h
      dsimp only at e1 e2 e3
      congr 1
      · funext s p r
        exact e1 s p r
      · funext s p r
        exact e2 s p r
    rw [e b, e 0]
  have h1 := solve_scaled C drv k kst junk (v.vloc s) v.g0 thr K K0 (hK0.basis hR0) hK0
  have h2 := solve_sim hS C k hk drv kst junk kstD hst (junkD 0) (v.vloc s) ((v' 0).vloc s) ((hv 0).vloc s) v.g0 thr K0 (w 0) hR0
  have h3 := Davidson.C139_band_parallel (davCfg C.dev (kS S k.idx) kstD (PotDist.part (kS S k.idx) k.gk2) ((v' 0).vloc s) (k.nl.map (HamDist.projPart (kS S k.idx)))
      (PotDist.part (kS S k.idx) fun j => 1 / 2 * k.gk2 j + k.vnl j + (v' 0).g0) C.nb C.numwork C.maxiter thr C.eigh) (fun b i => DWf.mk fun p j => (w b p).evc i j) junkD junkD (junkD 0) (junkD 0)
  have h4 : ERel (fun (d : Fin S.P → KSWfn.KS) (g : Fin (m + 1) → Fin S.P → KSWfn.KS) => ∀ b p, g b p = { w b p with evc := fun i j => if i < C.nb then (if h : j < ln (kS S k.idx) p then (d p).evc i j else 0) else 0, evl := (d p).evl })
      (solveD S C k kstD (junkD 0) ((v' 0).vloc s) v.g0 thr (w 0)) (solveG S C m k kstD junkD v' s thr w) := by
    unfold solveD solveG
    rw [if_neg (not_not.2 hvv), ← (hv 0).g0]
    refine ERel.bind (R := fun o o' => ∀ q, (∀ i < C.nb, (o' q).evc i = o.evc i) ∧ (o' q).evl = o.evl) ?_ fun o o' ho => ?_
    · revert h3
      generalize Davidson.solve (E := DWf (kS S k.idx)) _ _ _ _ = a
      generalize Davidson.parSolve (E := DWf (kS S k.idx)) _ _ _ _ = b
      intro h3
      cases a <;> cases b
      · exact h3
      · exact h3.elim
      · exact h3.elim
      · exact fun q => ⟨(h3 q).1, (h3 q).2.1⟩
    · intro b p
      dsimp only
      rw [(ho b).2]
      congr 1
      funext i j
      by_cases hi : i < C.nb
      · by_cases hj : j < ln (kS S k.idx) p
        · rw [dif_pos ⟨hi, hj⟩, if_pos hi, dif_pos hj, dif_pos hj, (ho b).1 i hi]
        · rw [dif_neg fun h => hj h.2, if_pos hi, dif_neg hj]
      · rw [dif_neg fun h => hi h.1, if_neg hi]
  revert h1 h2 h4
  generalize solveS C drv k kst junk (v.vloc s) v.g0 thr K = x1
  generalize solveS C drv k kst junk (v.vloc s) v.g0 thr K0 = x2
  generalize solveD S C k kstD (junkD 0) ((v' 0).vloc s) v.g0 thr (w 0) = x3
  generalize solveG S C m k kstD junkD v' s thr w = x4
  intro h1 h2 h4
  cases x1 <;> cases x2 <;> first | exact h1.elim | skip
  all_goals cases x3 <;> first | exact h2.elim | skip
  all_goals cases x4 <;> first | exact h4.elim | skip
  · exact Eq.trans h4 (Eq.trans h2 h1)
  · rename_i a a0 d g
    obtain ⟨h1, h1n, h1o⟩ := h1
    refine ⟨h1n.trans hnb, fun b => ?_⟩
    obtain ⟨Kb, hKb, hRb⟩ := hb b
    refine ⟨{ a0 with evc := fun i j => if i < C.nb then a0.evc i j else 0 }, ⟨h1.nb, h1.nspin, h1.numg, h1.occ, h1.evl, fun i hi => ?_⟩, ⟨⟨fun p => ?_, fun p => ?_, fun p => ?_, fun p => ?_, fun p i t ht j => ?_⟩, h2.spin, h2.numg, fun p => ?_⟩⟩
    · obtain ⟨c, hc, e⟩ := h1.evc i hi
      refine ⟨c, hc, fun j hj => ?_⟩
      dsimp only
      rw [if_pos hi]
      exact e j hj
    · rw [h4 b p]
      show (w b p).nb = a0.nb
      rw [hRb.part.nb, hKb.nb, h1.nb, h1n]
    · rw [h4 b p]
      show (w b p).nspin = a0.nspin
      rw [hRb.part.nspin, hRb.spin, h2.spin]
    · rw [h4 b p]
      show (w b p).occ = a0.occ
      rw [hRb.part.occ, hKb.occ, h1.occ, h1o]
    · rw [h4 b p]
      exact hRb.part.numg p
    · have ht' : t < a0.nspin := ht
      obtain rfl : t = 0 := by
        rw [h2.spin] at ht'
        omega
      rw [h4 b p]
      have hd := h2.part.evc p i 0 ht' j
      rw [part_eq (kS S k.idx) hk] at hd ⊢
      dsimp only
      by_cases hi : i < C.nb
      · simp only [if_pos hi]
        rw [dif_pos (by simp only [Nat.zero_mul, Nat.zero_add]; exact j.2)]
        exact hd
      · simp only [if_neg hi]
    · rw [h4 b p]
      exact h2.evl p


open Verif.FFT in
theorem toG_sum {ι : Type*} (t : Finset ι) (drv : Driver) (d : Dims) (idx : List ℕ) (hv : ValidIdx d idx) (st : DrvState ℂ) (g : Fin 3 → Fin idx.length → ℝ) (dv : ℝ) (u : ι → Fin d.size → ℂ) (j : Fin idx.length) :
    (fftSpace drv d idx st g dv).toG (fun r => ∑ b ∈ t, u b r) j = ∑ b ∈ t, (fftSpace drv d idx st g dv).toG (u b) j := by
  have hG : ∀ (u : Fin d.size → ℂ) (j : Fin idx.length), (fftSpace drv d idx st g dv).toG u j = ∑ r : Fin d.size, ker3 d (dftKern true d) (idx[j]) r * u r := by
    intro u j
    show (drv.r2g d (dftKern true d) idx st _).2.getD j 0 = _
    rw [drv.r2g_eq d _ idx hv st st.f _ _ (fun _ _ => rfl), fullR2g_eq, FFT.getD_map _ _ _ j.2, Finset.sum_range]
    apply Finset.sum_congr rfl
    intro r _
    simp
  simp only [hG]
  rw [Finset.sum_comm]
  refine Finset.sum_congr rfl fun r _ => ?_
  rw [Finset.mul_sum]

theorem mem_slice (n lo hi b : ℕ) (h : hi ≤ n) : b ∈ pySlice (List.range n) lo hi ↔ lo ≤ b ∧ b < hi := by
  unfold pySlice
  rw [List.mem_iff_getElem]
  constructor
  · rintro ⟨i, hi', e⟩
    simp only [List.length_take, List.length_drop, List.length_range] at hi'
    simp only [List.getElem_take, List.getElem_drop, List.getElem_range] at e
    omega
  · rintro ⟨h1, h2⟩
    refine ⟨b - lo, ?_, ?_⟩
    · simp only [List.length_take, List.length_drop, List.length_range]
      omega
    · simp only [List.getElem_take, List.getElem_drop, List.getElem_range]
      omega

theorem computeRho_slice (drv : Driver) (d : Dims) (idx : List ℕ) (st : DrvState ℂ) (vol : ℝ) (K : KSWfn.KS) (lo hi : ℕ) (h1 : lo < hi) (h2 : hi ≤ K.nb) :
    KSWfn.computeRho drv d idx st vol K (.slice lo hi) = .ok (K.normalize fun b => decide (b ∈ pySlice (List.range K.nb) lo hi),
      fun s r => ((pySlice (List.range K.nb) lo hi).map fun b => (K.occ b : ℂ) * KSWfn.density drv d idx st (K.normalize fun b => decide (b ∈ pySlice (List.range K.nb) lo hi)) b s r).sum / (vol : ℂ)) := by
  have hne : pySlice (List.range K.nb) lo hi ≠ [] := List.ne_nil_of_mem ((mem_slice K.nb lo hi lo h2).2 ⟨le_rfl, h1⟩)
  have hall : ¬ (pySlice (List.range K.nb) lo hi).all (fun b => decide (b < K.nb)) = false := by
    rw [Bool.not_eq_false, List.all_eq_true]
    intro b hb
    have := ((mem_slice K.nb lo hi b h2).1 hb).2
    exact decide_eq_true (by omega)
  exact (if_neg hall).trans (if_neg hne)

/-- Normalised, states that differ by positive factors are the same. -/
theorem Scaled.normalized {n : ℕ} {K K0 : KSWfn.KS} (h : Scaled n K K0) (b : ℕ) (hb : b < n) (i : ℕ) (hi : i < K.basis) : K0.evc b i / (Real.sqrt (K0.norm2 b) : ℂ) = K.evc b i / (Real.sqrt (K.norm2 b) : ℂ) := by
  obtain ⟨c, hc, e⟩ := h.evc b hb
  have hbs : K0.basis = K.basis := by unfold KSWfn.KS.basis; rw [h.nspin, h.numg]
  unfold KSWfn.KS.norm2
  rw [hbs, e i hi, Finset.sum_congr rfl fun j hj => congrArg Complex.normSq (e j (Finset.mem_range.1 hj))]
  exact norm_scale (Finset.range K.basis) (fun j => K.evc b j) c hc _

/-- Some of the bands normalised in the second, all in the first. -/
theorem Scaled.normalize {n : ℕ} {K K0 : KSWfn.KS} (h : Scaled n K K0) (f f0 : ℕ → Bool) (hf : ∀ b < n, f b = true) : Scaled n (K.normalize f) (K0.normalize f0) := by
  refine ⟨h.nb, h.nspin, h.numg, h.occ, h.evl, fun b hb => ?_⟩
  by_cases c0 : f0 b = true
  · refine ⟨1, one_pos, fun i hi => ?_⟩
    have hi : i < K.basis := hi
    show (if f0 b then K0.evc b i / (Real.sqrt (K0.norm2 b) : ℂ) else K0.evc b i) = _ * (if f b then K.evc b i / (Real.sqrt (K.norm2 b) : ℂ) else K.evc b i)
    rw [if_pos c0, if_pos (hf b hb), h.normalized b hb i hi]
    simp
  · obtain ⟨c, hc, e⟩ := h.evc b hb
    have hp : 0 ≤ K.norm2 b := Finset.sum_nonneg fun i _ => Complex.normSq_nonneg _
    rcases hp.lt_or_eq with hp | hp
    · refine ⟨c * Real.sqrt (K.norm2 b), mul_pos hc (Real.sqrt_pos.2 hp), fun i hi => ?_⟩
      have hi : i < K.basis := hi
      show (if f0 b then K0.evc b i / (Real.sqrt (K0.norm2 b) : ℂ) else K0.evc b i) = _ * (if f b then K.evc b i / (Real.sqrt (K.norm2 b) : ℂ) else K.evc b i)
      rw [if_neg c0, if_pos (hf b hb), e i hi]
      have : (Real.sqrt (K.norm2 b) : ℂ) ≠ 0 := by exact_mod_cast (Real.sqrt_pos.2 hp).ne'
      push_cast
      field_simp
    · refine ⟨1, one_pos, fun i hi => ?_⟩
      have hi : i < K.basis := hi
      have hz : K.evc b i = 0 := Complex.normSq_eq_zero.1 ((Finset.sum_eq_zero_iff_of_nonneg fun i _ => Complex.normSq_nonneg _).1 hp.symm i (Finset.mem_range.2 hi))
      show (if f0 b then K0.evc b i / (Real.sqrt (K0.norm2 b) : ℂ) else K0.evc b i) = _ * (if f b then K.evc b i / (Real.sqrt (K.norm2 b) : ℂ) else K.evc b i)
      rw [if_neg c0, if_pos (hf b hb), e i hi, hz]
      simp

theorem density_congr (drv : Driver) (d : Dims) (idx : List ℕ) (st : DrvState ℂ) (K K0 : KSWfn.KS) (b r : ℕ) (hn : K0.numg = K.numg) (h : ∀ i < K.numg, K0.evc b i = K.evc b i) : KSWfn.density drv d idx st K0 b 0 r = KSWfn.density drv d idx st K b 0 r := by
  unfold KSWfn.density
  rw [hn]
  have : ((List.range K.numg).map fun i => K0.evc b (0 * K.numg + i)) = (List.range K.numg).map fun i => K.evc b (0 * K.numg + i) := by
    refine List.map_congr_left fun i hi => ?_
    rw [Nat.zero_mul, Nat.zero_add]
    exact h i (List.mem_range.1 hi)
  rw [this]

theorem slice_pos (n m b : ℕ) (h : m + 1 ≤ n) : sliceStart n (m + 1) b < sliceStop n (m + 1) b := by
  show _ < _ + (n / (m + 1) + if b < n % (m + 1) then 1 else 0)
  have : 0 < n / (m + 1) := Nat.div_pos h (Nat.succ_pos m)
  omega

theorem rho_grp (m : ℕ) (hm : m + 1 ≤ C.nb) (k : KPt) (hk : (kS S k.idx).Ok) (drv : Driver) (kst : DrvState ℂ) (kstD : ℕ → Dist.St ℂ) (hst : Reached (kS S k.idx) false kstD) (vol : ℝ) (K : KSWfn.KS)
    (w : Fin (m + 1) → Fin S.P → KSWfn.KS) (hK : RG S k.idx C.nb m K w) :
    ERel (fun a g => RG S k.idx C.nb m a.1 (fun b p => (g b p).1) ∧ ∃ u : Fin (m + 1) → ℕ → ℂ, (∀ b p r, (g b p).2 0 r = u b (eR S hS p r)) ∧ ∀ r, a.2 0 r = ∑ b, u b r)
      (KSWfn.computeRho drv S.d k.idx kst vol K (.slice 0 C.nb))
      (seqF (m + 1) fun b => MixDist.collect (α := fun p => KSWfn.KS × (ℕ → Fin (lm S p) → ℂ)) fun p : Fin S.P =>
        HamDist.computeRho (kS S k.idx) kstD vol (w b) (.slice (sliceStart C.nb (m + 1) b) (sliceStop C.nb (m + 1) b)) p) := by
  obtain ⟨hnb, hb⟩ := hK
  have hsp : K.nspin = 1 ∧ K.numg = k.idx.length := by
    obtain ⟨K0, h1, h2⟩ := hb 0
    rw [← h1.nspin, ← h1.numg]
    exact ⟨h2.spin, h2.numg⟩
  have hbas : K.basis = K.numg := by unfold KSWfn.KS.basis; rw [hsp.1, Nat.one_mul]
  have hser := computeRho_slice drv S.d k.idx kst vol K 0 C.nb (by omega) hnb.ge
  choose K0 hK0 hR0 using hb
  have hlo : ∀ b : Fin (m + 1), sliceStart C.nb (m + 1) b < sliceStop C.nb (m + 1) b := fun b => slice_pos C.nb m b hm
  have hhi : ∀ b : Fin (m + 1), sliceStop C.nb (m + 1) b ≤ C.nb := by
    intro b
    rw [Scatter.sliceStop_eq]
    exact Dist.sliceStart_le _ _ _ (Nat.succ_pos m) b.2
  have hn0 : ∀ b, (K0 b).nb = C.nb := fun b => (hK0 b).nb.trans hnb
  have hgrp := fun b : Fin (m + 1) => computeRho_slice drv S.d k.idx kst vol (K0 b) _ _ (hlo b) ((hhi b).trans (hn0 b).ge)
  have hsim := fun b : Fin (m + 1) => rho_sim1 hS k hk drv kst kstD hst vol (sliceStart C.nb (m + 1) b) (sliceStop C.nb (m + 1) b) (K0 b) (w b) (hR0 b)
  have hex : ∀ b : Fin (m + 1), ∃ g : ∀ p : Fin S.P, KSWfn.KS × (ℕ → Fin (lm S p) → ℂ),
      MixDist.collect (α := fun p => KSWfn.KS × (ℕ → Fin (lm S p) → ℂ)) (fun p : Fin S.P => HamDist.computeRho (kS S k.idx) kstD vol (w b) (.slice (sliceStart C.nb (m + 1) b) (sliceStop C.nb (m + 1) b)) p) = .ok g ∧
      RK S k.idx ((K0 b).normalize fun n => decide (n ∈ pySlice (List.range (K0 b).nb) (sliceStart C.nb (m + 1) b) (sliceStop C.nb (m + 1) b))) (fun p => (g p).1) ∧
      ∀ p r, (g p).2 0 r = ((pySlice (List.range (K0 b).nb) (sliceStart C.nb (m + 1) b) (sliceStop C.nb (m + 1) b)).map fun n => ((K0 b).occ n : ℂ) * KSWfn.density drv S.d k.idx kst
        ((K0 b).normalize fun n => decide (n ∈ pySlice (List.range (K0 b).nb) (sliceStart C.nb (m + 1) b) (sliceStop C.nb (m + 1) b))) n 0 (eR S hS p r)).sum / (vol : ℂ) := by
    intro b
    have h := hsim b
    rw [hgrp b] at h
    revert h
    generalize MixDist.collect (α := fun p => KSWfn.KS × (ℕ → Fin (lm S p) → ℂ)) (fun p : Fin S.P => HamDist.computeRho (kS S k.idx) kstD vol (w b) (.slice (sliceStart C.nb (m + 1) b) (sliceStop C.nb (m + 1) b)) p) = x
    intro h
    cases x with
    | error x => exact h.elim
    | ok g => exact ⟨g, rfl, h.1, h.2⟩
  choose g hg hgR hgu using hex
  refine ERel.of_eq hser (((C209_every_kpoint _ _).1 g).2 hg) ⟨⟨hnb, fun b => ⟨_, ?_, hgR b⟩⟩, fun b r => ((pySlice (List.range C.nb) (sliceStart C.nb (m + 1) b) (sliceStop C.nb (m + 1) b)).map fun n => (K.occ n : ℂ) *
    KSWfn.density drv S.d k.idx kst (K.normalize fun n => decide (n ∈ pySlice (List.range K.nb) 0 C.nb)) n 0 r).sum / (vol : ℂ), fun b p r => ?_, fun r => ?_⟩
  · refine (hK0 b).normalize _ _ fun n hn => decide_eq_true ?_
    rw [mem_slice _ _ _ _ hnb.ge]
    exact ⟨Nat.zero_le _, hn⟩
  · rw [hgu, hn0 b, (hK0 b).occ]
    congr 2
    refine List.map_congr_left fun n hn => ?_
    have hn' := (mem_slice _ _ _ _ (hhi b)).1 hn
    have hnn : n < C.nb := by
      have := hhi b
      omega
    congr 1
    refine density_congr drv S.d k.idx kst _ _ n _ (hK0 b).numg fun i hi => ?_
    have hi' : i < K.basis := by rw [hbas]; exact hi
    show (if decide (n ∈ pySlice (List.range C.nb) (sliceStart C.nb (m + 1) b) (sliceStop C.nb (m + 1) b)) then _ else _) = if decide (n ∈ pySlice (List.range K.nb) 0 C.nb) then _ else _
    rw [if_pos (decide_eq_true hn), if_pos (decide_eq_true ((mem_slice _ _ _ _ hnb.ge).2 ⟨Nat.zero_le _, hnn⟩))]
    exact (hK0 b).normalized n hnn i hi'
  · dsimp only
    rw [← Finset.sum_div]
    congr 1
    have hl : pySlice (List.range K.nb) 0 C.nb = List.range C.nb := by
      unfold pySlice
      rw [hnb]
      simp
    have := DFTComm.sum_blocks C.nb (m + 1) (Nat.succ_pos m) fun n => (K.occ n : ℂ) * KSWfn.density drv S.d k.idx kst (K.normalize fun n => decide (n ∈ pySlice (List.range K.nb) 0 C.nb)) n 0 r
    rw [Finset.sum_range, ← DFTComm.list_sum_range] at this
    refine Eq.trans (congrArg List.sum (congrArg (List.map _) hl)) (this.symm.trans ?_)
    refine Finset.sum_congr rfl fun b _ => ?_
    unfold block
    rw [List.length_range]

/-- A loop in which every item corresponds to the same value. -/
theorem seqF_const {α β : Type} {R : α → β → Prop} (x : Except PyErr α) : ∀ (n : ℕ) (f : Fin (n + 1) → Except PyErr β), (∀ i, ERel R x (f i)) → ERel (fun a b => ∀ i, R a (b i)) x (seqF (n + 1) f)
  | 0, f, h => by
    have h0 := h 0
    show ERel _ x (f 0 >>= fun a => seqF 0 (fun i => f i.succ) >>= fun t => .ok (Fin.cons (α := fun _ => β) a t))
    revert h0
    generalize f 0 = y
    intro h0
    cases x <;> cases y
    · exact h0
    · exact h0.elim
    · exact h0.elim
    · intro i
      refine Fin.cases ?_ (fun i => i.elim0) i
      exact h0
  | n + 1, f, h => by
    have h0 := h 0
    have h1 := seqF_const (R := R) x n (fun i => f i.succ) fun i => h i.succ
    show ERel _ x (f 0 >>= fun a => seqF (n + 1) (fun i => f i.succ) >>= fun t => .ok (Fin.cons (α := fun _ => β) a t))
    revert h0 h1
    generalize f 0 = y
    generalize seqF (n + 1) (fun i => f i.succ) = z
    intro h0 h1
    cases x <;> cases y
    · exact h0
    · exact h0.elim
    · exact h0.elim
    · cases z
      · exact h1.elim
      · intro i
        refine Fin.cases ?_ (fun i => ?_) i
        · exact h0
        · exact h1 i

theorem sum_fin_blocks {M : Type} [AddCommMonoid M] (n κ : ℕ) (f : Fin n → M) : ∑ g : Fin (κ + 1), ((block (List.finRange n) (κ + 1) g).map f).sum = ∑ i, f i := by
  have h := Scatter.C01_blocks_concat (List.finRange n) (κ + 1) (Nat.succ_pos κ)
  have h2 : (((List.range (κ + 1)).map fun r => block (List.finRange n) (κ + 1) r).flatten.map f).sum = ((List.finRange n).map f).sum := by rw [h]
  rw [List.map_flatten, List.sum_flatten, List.map_map, List.map_map, DFTComm.list_sum_range, Finset.sum_range] at h2
  refine Eq.trans h2 ?_
  rw [← List.ofFn_eq_map, List.sum_ofFn]

theorem list_sum_comm {M ι κ : Type*} [AddCommMonoid M] (l : List κ) (s : Finset ι) (g : κ → ι → M) : ∑ i ∈ s, (l.map fun k => g k i).sum = (l.map fun k => ∑ i ∈ s, g k i).sum := by
  induction l with
  | nil => simp
  | cons a l ih => simp [Finset.sum_add_distrib, ih]


/-- The calls of the run on all groups do what the serial ones do. -/
theorem grp_sim (κ m : ℕ) (hm : m + 1 ≤ C.nb) (hg : GList S C.gs) (hn : C.norm2.length = S.idx.length) (hc : C.mix.hasG0 = decide (C.gs.head? = some 0)) (hx : 1 < C.mix.mixdim) (hk : ∀ i, (kS S (C.kp i).idx).Ok) (drv : Driver)
    (sst : DrvState ℂ) (kst : Fin C.nk → DrvState ℂ) (junk : ∀ i, ℕ → EuclideanSpace ℂ (Fin (C.kp i).idx.length)) (st : ℕ → Dist.St ℂ) (hst : Reached S true st) (kstD : Fin C.nk → ℕ → Dist.St ℂ)
    (hkst : ∀ i, Reached (kS S (C.kp i).idx) false (kstD i)) (junkD : ∀ i, Fin (m + 1) → ℕ → DWf (kS S (C.kp i).idx)) (garbage : ℕ → List ℂ) (hgb : ∀ r, (garbage r).length = S.idx.length)
    (occ : (Fin C.nk → Fin ns → ℕ → ℝ) → Except PyErr ((Fin C.nk → Fin ns → ℕ → ℝ) × ℝ)) (hocc : ∀ e, occ e = C.occ e) :
    Sim (fun rho (_ : Fin (κ + 1)) (_ : Fin (m + 1)) => MixDist.densPart S rho) (fun w w' => ∀ i s, RG S (C.kp i).idx C.nb m (w i s) (w' i s)) (fun v v' => ∀ g b, RV hS v (v' g b)) (MixDist.Rel (eG S hS) C.mix.mixdim)
      (serOps C h0 drv sst kst junk) (grpOps S C h0 κ m st kstD junkD garbage occ) := by
  have t := ops_sim hS C h0 hg hn hc hx hk drv sst kst junk st hst kstD hkst (fun i => junkD i 0) garbage hgb
  have hroot : ∀ (w : Fin C.nk → Fin ns → KSWfn.KS) (w' : GW S C.nk ns m), (∀ i s, RG S (C.kp i).idx C.nb m (w i s) (w' i s)) → ∀ i s b p, (w' i s b p).evl = (w i s).evl ∧ (w' i s b p).occ = (w i s).occ := by
    intro w w' hw i s b p
    obtain ⟨K0, h1, h2⟩ := (hw i s).2 b
    exact ⟨(h2.evl p).trans h1.evl, (h2.part.occ p).trans h1.occ⟩
  refine ⟨⟨rfl, rfl, rfl, rfl, rfl, rfl⟩, fun rho => ?_, fun rho => ?_, fun rho => ?_, fun v v' rho hv => ?_, fun w w' v v' thr hw hv => ?_, fun w w' hw => ?_, fun w w' hw => ?_, fun w w' hw => ?_, fun a b => ?_, fun mx mx' a b hR => ?_⟩
  · funext g b
    exact t.normalize rho
  · funext g b
    exact t.symm rho
  · have h1 := seqF_const ((serOps C h0 drv sst kst junk).pot rho) κ (fun _ => seqF (m + 1) fun _ => (distOps S C h0 st kstD (fun i => junkD i 0) garbage).pot (MixDist.densPart S rho))
      fun g => seqF_const ((serOps C h0 drv sst kst junk).pot rho) m (fun _ => (distOps S C h0 st kstD (fun i => junkD i 0) garbage).pot (MixDist.densPart S rho)) fun b => t.pot rho
    revert h1
    show ERel _ _ (seqF (κ + 1) _) → ERel _ _ (seqF (κ + 1) (fun _ => seqF (m + 1) fun _ => (distOps S C h0 st kstD (fun i => junkD i 0) garbage).pot (MixDist.densPart S rho)) >>= _)
    generalize (serOps C h0 drv sst kst junk).pot rho = x
    generalize seqF (κ + 1) _ = y
    intro h1
    cases x <;> cases y
    · exact h1
    · exact h1.elim
    · exact h1.elim
    · exact ⟨fun g b => (h1 g b).1, (h1 0 0).2⟩
  · exact t.pair v (v' 0 0) rho (hv 0 0)
  · show ERel _ (seqF C.nk fun i => seqF ns fun s => solveS C drv (C.kp i) (kst i) (junk i) (v.vloc s) v.g0 thr (w i s))
      (seqF C.nk fun i => seqF ns fun s => solveG S C m (C.kp i) (kstD i) (junkD i) (v' (owner C.nk κ i)) s thr (w' i s))
    exact seqF_rel C.nk _ _ (fun i (a : Fin ns → KSWfn.KS) (b : Fin ns → Fin (m + 1) → Fin S.P → KSWfn.KS) => ∀ s, RG S (C.kp i).idx C.nb m (a s) (b s)) fun i =>
      seqF_rel ns _ _ (fun _ (a : KSWfn.KS) (b : Fin (m + 1) → Fin S.P → KSWfn.KS) => RG S (C.kp i).idx C.nb m a b) fun s =>
        solve_grp hS C m (C.kp i) (hk i) drv (kst i) (junk i) (kstD i) (hkst i) (junkD i) v (v' (owner C.nk κ i)) (fun b => hv _ b) s thr (w i s) (w' i s) (hw i s)
  · have he : (fun i s => (w' i s 0 ⟨0, hS.pos⟩).evl) = fun i s => (w i s).evl := by
      funext i s
      exact (hroot w w' hw i s 0 _).1
    show ERel _ (C.occ (fun i s => (w i s).evl) >>= _) (if h : 0 < S.P then (occ fun i s => (w' i s 0 ⟨0, h⟩).evl) >>= _ else _)
    rw [dif_pos hS.pos, he, hocc]
    refine ERel.bind (R := fun o o' => o' = o) ?_ fun o o' ho => ?_
    · cases C.occ fun i s => (w i s).evl <;> exact rfl
    · subst ho
      refine ⟨fun i s => ⟨(hw i s).1, fun b => ?_⟩, rfl⟩
      obtain ⟨K0, h1, h2⟩ := (hw i s).2 b
      exact ⟨{ K0 with occ := o'.1 i s }, ⟨h1.nb, h1.nspin, h1.numg, rfl, h1.evl, h1.evc⟩, ⟨h2.part.nb, h2.part.nspin, fun _ => rfl, h2.part.numg, h2.part.evc⟩, h2.spin, h2.numg, h2.evl⟩
  · show (if h : 0 < S.P then ∑ g : Fin (κ + 1), ((block (List.finRange C.nk) (κ + 1) g).map fun i => ∑ s, (C.kp i).weight * ∑ b ∈ Finset.range C.nb, (w' i s 0 ⟨0, h⟩).evl b * (w' i s 0 ⟨0, h⟩).occ b).sum else 0) =
      ∑ i, ∑ s, (C.kp i).weight * ∑ b ∈ Finset.range C.nb, (w i s).evl b * (w i s).occ b
    rw [dif_pos hS.pos, sum_fin_blocks]
    refine Finset.sum_congr rfl fun i _ => Finset.sum_congr rfl fun s _ => ?_
    rw [(hroot w w' hw i s 0 _).1, (hroot w w' hw i s 0 _).2]
  · have hD := PotDist.distSpace_distributes S hS st (hst.inv hS) drv sst C.g C.dv
    show ERel _ ((seqF C.nk fun i => seqF ns fun s => KSWfn.computeRho drv S.d (C.kp i).idx (kst i) C.vol (w i s) (.slice 0 C.nb)) >>= _) (rhoG S C κ m st kstD w' >>= _)
    unfold rhoG
    rw [if_neg (by
      rintro ⟨b, hb⟩
      have := slice_pos C.nb m b hm
      omega)]
    have h1 := seqF_rel C.nk (fun i => seqF ns fun s => KSWfn.computeRho drv S.d (C.kp i).idx (kst i) C.vol (w i s) (.slice 0 C.nb))
      (fun i => seqF ns fun s => seqF (m + 1) fun b => MixDist.collect (α := fun p => KSWfn.KS × (ℕ → Fin (lm S p) → ℂ)) fun p : Fin S.P =>
        HamDist.computeRho (kS S (C.kp i).idx) (kstD i) C.vol (w' i s b) (.slice (sliceStart C.nb (m + 1) b) (sliceStop C.nb (m + 1) b)) p)
      (fun i (a : Fin ns → KSWfn.KS × (ℕ → ℕ → ℂ)) (g : Fin ns → Fin (m + 1) → ∀ p : Fin S.P, KSWfn.KS × (ℕ → Fin (lm S p) → ℂ)) => ∀ s, RG S (C.kp i).idx C.nb m (a s).1 (fun b p => (g s b p).1) ∧
        ∃ u : Fin (m + 1) → ℕ → ℂ, (∀ b p r, (g s b p).2 0 r = u b (eR S hS p r)) ∧ ∀ r, (a s).2 0 r = ∑ b, u b r)
      fun i => seqF_rel ns _ _ (fun _ (a : KSWfn.KS × (ℕ → ℕ → ℂ)) (g : Fin (m + 1) → ∀ p : Fin S.P, KSWfn.KS × (ℕ → Fin (lm S p) → ℂ)) => RG S (C.kp i).idx C.nb m a.1 (fun b p => (g b p).1) ∧
        ∃ u : Fin (m + 1) → ℕ → ℂ, (∀ b p r, (g b p).2 0 r = u b (eR S hS p r)) ∧ ∀ r, a.2 0 r = ∑ b, u b r)
      fun s => rho_grp hS C m hm (C.kp i) (hk i) drv (kst i) (kstD i) (hkst i) C.vol (w i s) (w' i s) (hw i s)
    revert h1
    generalize (seqF C.nk fun i => seqF ns fun s => KSWfn.computeRho drv S.d (C.kp i).idx (kst i) C.vol (w i s) (.slice 0 C.nb)) = x
    generalize (seqF C.nk fun i => seqF ns fun s => seqF (m + 1) fun b => MixDist.collect (α := fun p => KSWfn.KS × (ℕ → Fin (lm S p) → ℂ)) fun p : Fin S.P =>
        HamDist.computeRho (kS S (C.kp i).idx) (kstD i) C.vol (w' i s b) (.slice (sliceStart C.nb (m + 1) b) (sliceStop C.nb (m + 1) b)) p) = y
    intro h1
    cases x <;> cases y
    · exact h1
    · exact h1.elim
    · exact h1.elim
    · rename_i a r
      refine ⟨fun i s => (h1 i s).1, ?_⟩
      funext _ _
      rw [densPart_eq hS]
      funext p s j
      show ∑ g : Fin (κ + 1), ∑ b : Fin (m + 1), ((block (List.finRange C.nk) (κ + 1) g).map fun i => ((C.kp i).weight : ℂ) * (distSpace S st (fun p c => PotDist.part S (C.g c) p) C.dv).toG (fun p x => (r i s b p).2 0 x) p j).sum =
        ∑ i, ((C.kp i).weight : ℂ) * (fftSpace drv S.d S.idx sst C.g C.dv).toG (fun x => (a i s).2 0 x) (eG S hS p j)
      rw [← sum_fin_blocks C.nk κ]
      refine Finset.sum_congr rfl fun g _ => ?_
      rw [list_sum_comm]
      refine congrArg List.sum (List.map_congr_left fun i _ => ?_)
      obtain ⟨u, h2, h3⟩ := (h1 i s).2
      rw [← Finset.mul_sum]
      congr 1
      simp only [h3]
      rw [toG_sum Finset.univ drv S.d S.idx hS.valid sst C.g C.dv fun b x => u b x]
      refine Finset.sum_congr rfl fun b _ => ?_
      rw [← hD.toG]
      have : (fun (p : Fin S.P) (x : Fin (lm S p)) => (r i s b p).2 0 x) = fun p x => u b (eR S hS p x) := by
        funext p x
        exact h2 b p x
      rw [this]
  · exact t.err a b
  · have h1 := t.mix mx mx' a b hR
    show ERel _ ((serOps C h0 drv sst kst junk).mix mx a b) ((distOps S C h0 st kstD (fun i => junkD i 0) garbage).mix mx' (MixDist.densPart S a) (MixDist.densPart S b) >>= _)
    revert h1
    generalize (serOps C h0 drv sst kst junk).mix mx a b = x
    generalize (distOps S C h0 st kstD (fun i => junkD i 0) garbage).mix mx' (MixDist.densPart S a) (MixDist.densPart S b) = y
    intro h1
    cases x <;> cases y
    · exact h1
    · exact h1.elim
    · exact h1.elim
    · refine ⟨h1.1, ?_, ?_, h1.2.2.2⟩
      · funext _ _
        exact h1.2.1
      · funext _ _
        exact h1.2.2.1

end pieces

/-! ## The property -/

/-- **C210, k-points.** Every k-point is held by exactly one k-point group. -/
theorem C210_owner (nk κ : ℕ) (i : Fin nk) (g : Fin (κ + 1)) : owner nk κ i = g ↔ i ∈ block (List.finRange nk) (κ + 1) g := by
  have hmem : ∀ g : ℕ, i ∈ block (List.finRange nk) (κ + 1) g ↔ sliceStart nk (κ + 1) g ≤ i ∧ (i : ℕ) < sliceStop nk (κ + 1) g := by
    intro g
    unfold block pySlice
    rw [List.length_finRange, List.mem_iff_getElem]
    constructor
    · rintro ⟨j, hj, e⟩
      simp only [List.length_take, List.length_drop, List.length_finRange] at hj
      simp only [List.getElem_take, List.getElem_drop, List.getElem_finRange] at e
      have := congrArg Fin.val e
      simp only [Fin.val_cast] at this
      omega
    · rintro ⟨h1, h2⟩
      have := i.2
      refine ⟨i - sliceStart nk (κ + 1) g, ?_, ?_⟩
      · simp only [List.length_take, List.length_drop, List.length_finRange]
        omega
      · simp only [List.getElem_take, List.getElem_drop, List.getElem_finRange]
        apply Fin.ext
        simp only [Fin.val_cast]
        omega
  have huniq : ∀ a b : ℕ, sliceStart nk (κ + 1) a ≤ i → (i : ℕ) < sliceStop nk (κ + 1) a → sliceStart nk (κ + 1) b ≤ i → (i : ℕ) < sliceStop nk (κ + 1) b → a ≤ b := by
    intro a b h1 h2 h3 h4
    by_contra hc
    rw [Scatter.sliceStop_eq] at h4
    have := Scatter.sliceStart_mono nk (κ + 1) (show b + 1 ≤ a by omega)
    omega
  obtain ⟨g0, hg0⟩ : ∃ g0 : Fin (κ + 1), i ∈ block (List.finRange nk) (κ + 1) g0 := by
    have h := Scatter.C01_blocks_concat (List.finRange nk) (κ + 1) (Nat.succ_pos κ)
    have hi := List.mem_finRange i
    rw [← h, List.mem_flatten] at hi
    obtain ⟨l, hl, hil⟩ := hi
    obtain ⟨g, hg, rfl⟩ := List.mem_map.1 hl
    exact ⟨⟨g, List.mem_range.1 hg⟩, hil⟩
  have hown : owner nk κ i = g0 := by
    unfold owner
    cases hf : (List.finRange (κ + 1)).find? fun g : Fin (κ + 1) => decide (sliceStart nk (κ + 1) g ≤ i ∧ i < sliceStop nk (κ + 1) g) with
    | none => exact absurd ((hmem g0).1 hg0) (by simpa using List.find?_eq_none.1 hf g0 (List.mem_finRange g0))
    | some g1 =>
      have h1 := List.find?_some hf
      simp only [decide_eq_true_eq] at h1
      have h2 := (hmem g0).1 hg0
      exact Fin.ext (le_antisymm (huniq _ _ h1.1 h1.2 h2.1 h2.2) (huniq _ _ h2.1 h2.2 h1.1 h1.2))
  rw [hown]
  constructor
  · rintro rfl
    exact hg0
  · intro h
    have h1 := (hmem g).1 h
    have h2 := (hmem g0).1 hg0
    exact Fin.ext (le_antisymm (huniq _ _ h2.1 h2.2 h1.1 h1.2) (huniq _ _ h1.1 h1.2 h2.1 h2.2))

/-- **C210, occupations.** The smearing routine gives every k-point the occupations, and the run the smearing energy, that one group would compute, for any number of groups none of which is empty. -/
theorem C210_occupations {nk ns : ℕ} (κ : ℕ) (hκ : κ + 1 ≤ nk) (hs : 0 < ns) (t : Occup.Typ) (deg numel : ℝ) (fuel nb : ℕ) (hb : 0 < nb) (weight : Fin nk → ℝ) (evl : Fin nk → Fin ns → ℕ → ℝ) :
    smearOcc κ t deg numel fuel nb weight evl = smearOcc 0 t deg numel fuel nb weight evl := by
  have hfl : ∀ κ, (groups κ nb weight evl).flatten = (List.finRange nk).flatMap fun i => (List.finRange ns).map fun s => (⟨weight i, (List.range nb).map (evl i s)⟩ : Occup.Wfn) := by
    intro κ
    have h := Scatter.C01_blocks_concat (List.finRange nk) (κ + 1) (Nat.succ_pos κ)
    conv_rhs => rw [← h]
    unfold groups
    rw [← List.flatMap_def, ← List.flatMap_def, List.flatMap_assoc]
  have hgr : ∀ κ, κ + 1 ≤ nk → ∀ g ∈ groups κ nb weight evl, ∃ w ∈ g, w.evl ≠ [] := by
    intro κ hκ g hg
    obtain ⟨r, hr, rfl⟩ := List.mem_map.1 hg
    have hlt := slice_pos nk κ r hκ
    have hle : sliceStop nk (κ + 1) r ≤ nk := by
      rw [Scatter.sliceStop_eq]
      exact Dist.sliceStart_le _ _ _ (Nat.succ_pos κ) (List.mem_range.1 hr)
    have hi : (⟨sliceStart nk (κ + 1) r, by omega⟩ : Fin nk) ∈ block (List.finRange nk) (κ + 1) r := by
      unfold block pySlice
      rw [List.length_finRange, List.mem_iff_getElem]
      refine ⟨0, ?_, ?_⟩
      · simp only [List.length_take, List.length_drop, List.length_finRange]
        omega
      · simp only [List.getElem_take, List.getElem_drop, List.getElem_finRange]
        apply Fin.ext
        simp
    refine ⟨_, List.mem_flatMap.2 ⟨_, hi, List.mem_map.2 ⟨⟨0, hs⟩, List.mem_finRange _, rfl⟩⟩, ?_⟩
    intro e
    have := congrArg List.length e
    simp at this
    omega
  have hne : ∀ κ, groups κ nb weight evl ≠ [] := by
    intro κ e
    have := congrArg List.length e
    simp [groups] at this
  obtain ⟨r, r', h1, h2, h3⟩ := Occup.C36_layout t deg (groups κ nb weight evl) (groups 0 nb weight evl) numel fuel (hne κ) (hgr κ hκ) (hne 0) (hgr 0 (by omega)) (by rw [hfl, hfl])
  unfold smearOcc
  rw [h1, h2]
  cases r with
  | none => cases r' with
    | none => rfl
    | some o' => simp at h3
  | some o => cases r' with
    | none => simp at h3
    | some o' =>
      simp only [Option.map_some, Option.some.injEq, Prod.mk.injEq] at h3
      dsimp only
      rw [h3.2.1, h3.2.2]

/-- **C210.** A whole SCF run on any layout of processes: `κ + 1` k-point groups, each of `m + 1` band groups (at most as many as bands), each of which shares the plane waves among its processes. From the same density on every
group and the same starting states on every band group, whatever the FFT buffers, work arrays and mixers of the processes hold, it makes the same reports (errors, thresholds, energies) in every iteration as the serial run,
converges in the same iteration or not at all, or fails with the same exception. At the end every group holds the parts of the serial density, and every band group of a k-point the parts of the serial states up to a positive
factor for each band (`compute_rho` normalises only the bands of the own slice). -/
theorem C210_scf (S : Setup) (hS : S.Ok) {ns : ℕ} (h0 : 0 < ns) (C : Calc S.d S.idx ns) (κ m : ℕ) (hm : m + 1 ≤ C.nb) (hg : GList S C.gs) (hn : C.norm2.length = S.idx.length)
    (hc : C.mix.hasG0 = decide (C.gs.head? = some 0)) (hx : 1 < C.mix.mixdim) (hk : ∀ i, (kS S (C.kp i).idx).Ok) (drv : Driver) (sst : DrvState ℂ) (kst : Fin C.nk → DrvState ℂ)
    (junk : ∀ i, ℕ → EuclideanSpace ℂ (Fin (C.kp i).idx.length)) (st : ℕ → Dist.St ℂ) (hst : Reached S true st) (kstD : Fin C.nk → ℕ → Dist.St ℂ) (hkst : ∀ i, Reached (kS S (C.kp i).idx) false (kstD i))
    (junkD : ∀ i, Fin (m + 1) → ℕ → DWf (kS S (C.kp i).idx)) (garbage : ℕ → List ℂ) (hgb : ∀ r, (garbage r).length = S.idx.length)
    (occ : (Fin C.nk → Fin ns → ℕ → ℝ) → Except PyErr ((Fin C.nk → Fin ns → ℕ → ℝ) × ℝ)) (hocc : ∀ e, occ e = C.occ e) (maxiter : ℕ) (rho : Dens ns S.idx.length) (w : Fin C.nk → Fin ns → KSWfn.KS) (hnb : ∀ i s, (w i s).nb = C.nb)
    (w' : GW S C.nk ns m) (hw : ∀ b, Shared S C.kp w fun i s => w' i s b) (mx : Mixing.St ns S.idx.length) (hmx : mx.idx = 0) (mxd : ∀ p : Fin S.P, Mixing.St ns (ln S p)) (hmxd : ∀ p, (mxd p).idx = 0) :
    match (serOps C h0 drv sst kst junk).scf maxiter rho w mx, (grpOps S C h0 κ m st kstD junkD garbage occ).scf maxiter (fun _ _ => MixDist.densPart S rho) w' mxd with
    | .ok r, .ok r' => r'.converged = r.converged ∧ r'.trace = r.trace ∧ r'.st.en = r.st.en ∧ (∀ g b, r'.st.rho g b = MixDist.densPart S r.st.rho) ∧ r'.st.caller 0 0 = MixDist.densPart S r.st.caller ∧
        ∀ i s b, ∃ K0, RK S (C.kp i).idx K0 (r'.st.w i s b) ∧ K0.nb = (r.st.w i s).nb ∧ K0.occ = (r.st.w i s).occ ∧ K0.evl = (r.st.w i s).evl ∧
          ∀ n < C.nb, ∃ c : ℝ, 0 < c ∧ ∀ j < (C.kp i).idx.length, K0.evc n j = (c : ℂ) * (r.st.w i s).evc n j
    | .error e, .error e' => e' = e
    | _, _ => False := by
  have t := grp_sim hS C h0 κ m hm hg hn hc hx hk drv sst kst junk st hst kstD hkst junkD garbage hgb occ hocc
  have hR : MixDist.Rel (eG S hS) C.mix.mixdim mx mxd := ⟨fun p => by rw [hmxd, hmx], fun h => by omega, fun i hi => by simp [hmx] at hi, fun a ha => by simp [hmx] at ha⟩
  have h := scf_sim t maxiter rho w w' (fun i s => ⟨hnb i s, fun b => ⟨w i s, Scaled.refl _ _, hw b i s⟩⟩) mx mxd hR
  revert h
  generalize (serOps C h0 drv sst kst junk).scf maxiter rho w mx = a
  generalize (grpOps S C h0 κ m st kstD junkD garbage occ).scf maxiter (fun _ _ => MixDist.densPart S rho) w' mxd = b
  intro h
  cases a with
  | error a => cases b with
    | error b => exact h
    | ok b => exact h.elim
  | ok a => cases b with
    | error b => exact h.elim
    | ok b =>
      refine ⟨h.1, h.2.1, h.2.2.en, fun g b => by rw [h.2.2.rho], by rw [h.2.2.caller], fun i s b => ?_⟩
      obtain ⟨K0, h1, h2⟩ := (h.2.2.w i s).2 b
      refine ⟨K0, h2, h1.nb, h1.occ, h1.evl, fun n hn => ?_⟩
      obtain ⟨c, hc, e⟩ := h1.evc n hn
      exact ⟨c, hc, fun j hj => e j (by rw [h1.basis h2]; exact hj)⟩

/-! ## The hypotheses are met: two k-point groups of two band groups of two processes; two k-points, two bands -/

/-- `ScfDist.exCalc` with two k-points and two bands. -/
noncomputable def exCalc2 (dev : Nonloc.Device) (t : Mixing.Method) : Calc PotDist.exS.d PotDist.exS.idx 1 where
  gs := exG
  norm2 := [0, 1, 1, 1]
  g _ _ := 1
  dv := 1
  vol := 8
  numel := 2
  nan := 0
  exch := exF
  corr := exF
  core _ := 0
  vion _ := 1
  ewald := -1
  isSmear := true
  symmRho := false
  symm := id
  convThr := 1 / 1000
  diagoInit := 1 / 100
  nk := 2
  kp i := ⟨PotDist.exS.idx, fun _ => i, [], fun _ => 0, 1⟩
  nb := 2
  numwork := 2
  maxiter := 2
  eigh _ _ _ := .ok (fun m j => if m = j then 1 else 0, fun _ => 0)
  occ := smearOcc 0 .fd (1 / 100) 2 1000 2 fun _ => 1
  method := t
  mix := MixDist.exC
  dev := dev

/-- Two bands; the second band twice the first. -/
noncomputable def exK2 (n : ℕ) : KSWfn.KS := ⟨2, 1, n, fun b _ => b + 1, fun _ => 1, fun _ => 0⟩

theorem exShared2 (dev : Nonloc.Device) (t : Mixing.Method) :
    Shared PotDist.exS (exCalc2 dev t).kp (fun _ (_ : Fin 1) => exK2 PotDist.exS.idx.length) (fun _ _ p => exK2 (ln PotDist.exS p)) := by
  intro i s
  refine ⟨⟨fun _ => rfl, fun _ => rfl, fun _ => rfl, fun _ => rfl, fun p b s hs j => ?_⟩, rfl, rfl, fun _ => rfl⟩
  show ((b : ℂ) + 1) = PotDist.part PotDist.exS (fun _ => (b : ℂ) + 1) p j
  rw [part_eq _ PotDist.exS_ok]

/-- With smearing occupations computed by two k-point groups. -/
example (dev : Nonloc.Device) (t : Mixing.Method) (sst : DrvState ℂ) (g1 g2 : ℕ → Dist.St ℂ) (junkD : Fin 2 → ℕ → DWf PotDist.exS) (maxiter : ℕ) (rho : Dens 1 PotDist.exS.idx.length) (mxd : ∀ p : Fin PotDist.exS.P, Mixing.St 1 (ln PotDist.exS p))
    (hmxd : ∀ p, (mxd p).idx = 0) :
    ERel (fun r r' => r'.trace = r.trace) ((serOps (exCalc2 dev t) Nat.one_pos .sticks sst (fun _ => sst) (fun _ _ => 0)).scf maxiter rho (fun _ _ => exK2 PotDist.exS.idx.length) ⟨0, 0, 0, 0, 0, 0⟩)
      ((grpOps PotDist.exS (exCalc2 dev t) Nat.one_pos 1 1 (fun p => (g1 p).fresh) (fun _ p => (g2 p).fresh) (fun _ => junkD) (fun _ => [0, 0, 0, 0]) (smearOcc 1 .fd (1 / 100) 2 1000 2 fun _ => 1)).scf maxiter
        (fun _ _ => MixDist.densPart PotDist.exS rho) (fun _ _ _ p => exK2 (ln PotDist.exS p)) mxd) := by
  have hk : (kS PotDist.exS PotDist.exS.idx).Ok := PotDist.exS_ok
  have := C210_scf PotDist.exS PotDist.exS_ok Nat.one_pos (exCalc2 dev t) 1 1 (le_refl 2) exG_list rfl rfl (by norm_num [exCalc2, MixDist.exC]) (fun _ => hk) .sticks sst (fun _ => sst) (fun _ _ => 0) _ (exReached true g1)
    (fun _ => fun p => (g2 p).fresh) (fun _ => exReached false g2) (fun _ => junkD) (fun _ => [0, 0, 0, 0]) (fun _ => rfl) (smearOcc 1 .fd (1 / 100) 2 1000 2 fun _ => 1)
    (fun e => C210_occupations 1 (le_refl 2) Nat.one_pos .fd (1 / 100) 2 1000 2 (by norm_num) (fun _ => 1) e) maxiter rho _ (fun _ _ => rfl) _ (fun _ => exShared2 dev t) ⟨0, 0, 0, 0, 0, 0⟩ rfl mxd hmxd
  revert this
  generalize Ops.scf _ maxiter (fun (_ : Fin 2) (_ : Fin 2) => MixDist.densPart PotDist.exS rho) _ mxd = b
  generalize Ops.scf _ maxiter rho _ _ = a
  intro this
  cases a with
  | error e => cases b with
    | error b => exact this
    | ok b => exact this.elim
  | ok a => cases b with
    | error b => exact this.elim
    | ok b => exact this.2.1

/-- k-points 0, 1, 2 on two groups: the first two in the first group. -/
example : owner 3 1 0 = 0 ∧ owner 3 1 1 = 0 ∧ owner 3 1 2 = 1 := by decide

end Verif.ScfGrp
