import Verif.Model.PotDist
import Verif.Props.Dist
import Verif.Props.PotXC
import Verif.Props.Loc
import Verif.Props.Mixing

/-!
# C204: potentials and the mixing metric do not depend on the number of processes
-/

namespace Verif.PotDist

open scoped ComplexConjugate
open Verif.Dist (Setup cutAt Inv)
open Verif.FFT (Driver Dims DrvState ValidIdx dftKern ker3)
open Verif.Pot (XCSpace XCFunc XCOut fftSpace checkRho hartreeV hartreeEn total)

/-! ## The general simulation -/

/-- The processes hold the parts `eR p`, `eG p` of the grid and of the G-vectors, the collective transforms give the parts of the serial ones. -/
structure Distributes {m n P : ℕ} {lm ln : Fin P → ℕ} (X : XCSpace m n) (D : DSpace P lm ln) (eR : ∀ p, Fin (lm p) → Fin m) (eG : ∀ p, Fin (ln p) → Fin n) : Prop where
  toR : ∀ f p r, D.toR (fun p j => f (eG p j)) p r = X.toR f (eR p r)
  toG : ∀ u p j, D.toG (fun p r => u (eR p r)) p j = X.toG u (eG p j)
  g : ∀ p c j, D.g p c j = X.g c (eG p j)
  dv : D.dv = X.dv
  sum : ∀ F : Fin m → ℂ, ∑ p, ∑ r, F (eR p r) = ∑ r, F r

section sim

variable {m n P ns : ℕ} {lm ln : Fin P → ℕ} {X : XCSpace m n} {D : DSpace P lm ln} {eR : ∀ p, Fin (lm p) → Fin m} {eG : ∀ p, Fin (ln p) → Fin n}

theorem gradR_sim (H : Distributes X D eR eG) (f : Fin n → ℂ) (c : Fin 3) (p : Fin P) (r : Fin (lm p)) : D.gradR (fun p j => f (eG p j)) c p r = X.gradR f c (eR p r) := by
  unfold DSpace.gradR XCSpace.gradR
  rw [← H.toR]
  simp only [H.g]

theorem divR_sim (H : Distributes X D eR eG) (h : Fin 3 → Fin m → ℂ) (p : Fin P) (r : Fin (lm p)) : D.divR (fun c p r => h c (eR p r)) p r = X.divR h (eR p r) := by
  unfold DSpace.divR XCSpace.divR
  rw [← H.toR]
  simp only [H.g, H.toG]

theorem sigma_sim (H : Distributes X D eR eG) (rho : Fin ns → Fin n → ℂ) (h0 : 0 < ns) (p : Fin P) (k : ℕ) (r : Fin (lm p)) :
    sigma D (fun s p j => rho s (eG p j)) h0 p k r = Pot.sigma X rho h0 k (eR p r) := by
  unfold sigma Pot.sigma
  simp only [gradR_sim H]
  rcases k with _ | _ | k <;> rfl

theorem xcH_sim (H : Distributes X D eR eG) (rho : Fin ns → Fin n → ℂ) (vs : ℕ → Fin m → ℝ) (s : Fin ns) (c : Fin 3) (p : Fin P) (r : Fin (lm p)) :
    xcH D (fun s p j => rho s (eG p j)) (fun p k r => vs k (eR p r)) s c p r = Pot.xcH X rho vs s c (eR p r) := by
  unfold xcH Pot.xcH
  simp only [gradR_sim H]

/-- The outputs of the functional on the parts are the parts of the output. -/
structure OutPart (out : XCOut ns m) (o : ∀ p, XCOut ns (lm p)) (eR : ∀ p, Fin (lm p) → Fin m) : Prop where
  zk : ∀ p r, (o p).zk r = out.zk (eR p r)
  vrho : ∀ p s r, (o p).vrho s r = out.vrho s (eR p r)
  vsigma : ∀ p, (o p).vsigma = out.vsigma.map fun v k r => v k (eR p r)

theorem xcAdd_sim (H : Distributes X D eR eG) (hP : 0 < P) (rho : Fin ns → Fin n → ℂ) (ng : Bool) (out : XCOut ns m) (o : ∀ p, XCOut ns (lm p)) (ho : OutPart out o eR)
    (acc : (Fin ns → Fin m → ℂ) × ℂ) :
    xcAdd D (fun s p j => rho s (eG p j)) ng o (fun s p r => acc.1 s (eR p r), acc.2) = (Pot.xcAdd X rho ng out acc).map fun a => (fun s p r => a.1 s (eR p r), a.2) := by
  have hen : acc.2 + (∑ p, ∑ r, ∑ s, D.toR (fun p j => rho s (eG p j)) p r * ((o p).zk r : ℂ)) * (D.dv : ℂ) = acc.2 + (∑ r, ∑ s, X.toR (rho s) r * (out.zk r : ℂ)) * (X.dv : ℂ) := by
    rw [H.dv, ← H.sum]
    simp only [H.toR, ho.zk]
  cases ng with
  | false =>
    unfold xcAdd Pot.xcAdd
    simp only [Bool.false_eq_true, if_false, Except.map]
    rw [hen]
    simp only [ho.vrho]
  | true =>
    cases hv : out.vsigma with
    | none =>
      have : ∃ p, (o p).vsigma = none := ⟨⟨0, hP⟩, by rw [ho.vsigma, hv]; rfl⟩
      unfold xcAdd Pot.xcAdd
      simp only [if_true, hv, this, Except.map]
    | some vs =>
      have hn : ¬ ∃ p, (o p).vsigma = none := by
        rintro ⟨p, hp⟩
        rw [ho.vsigma, hv] at hp
        cases hp
      have hg : (fun p => ((o p).vsigma.getD fun _ _ => 0)) = fun p k r => vs k (eR p r) := by
        funext p
        rw [ho.vsigma, hv]
        rfl
      unfold xcAdd Pot.xcAdd
      simp only [if_true, hv, hn, if_false, Except.map]
      rw [hen, hg]
      congr 2
      funext s p r
      rw [ho.vrho]
      congr 1
      rw [← divR_sim H]
      congr 1
      funext c p r
      exact xcH_sim H rho vs s c p r

theorem on_part (F : PointFunc ns) (inp : Fin m → Fin ns → ℝ) (sig : Option (ℕ → Fin m → ℝ)) (eR : ∀ p, Fin (lm p) → Fin m) :
    OutPart ((F.on m).run inp sig) (fun p => (F.on (lm p)).run (fun r => inp (eR p r)) (sig.map fun s k r => s k (eR p r))) eR := by
  refine ⟨fun p r => ?_, fun p s r => ?_, fun p => ?_⟩
  · simp only [PointFunc.on, Option.map_map]
    rfl
  · simp only [PointFunc.on, Option.map_map]
    rfl
  · simp only [PointFunc.on, Option.map_map]
    by_cases h : F.family = .gga
    · simp only [h, if_true, Option.map_some]
      rfl
    · simp only [h, if_false, Option.map_none]

theorem xc_sim (H : Distributes X D eR eG) (hP : 0 < P) (h0 : 0 < ns) (exch corr : PointFunc ns) (rho : Fin ns → Fin n → ℂ) (core : Fin n → ℂ) :
    xcCompute D h0 exch corr (fun s p j => rho s (eG p j)) (fun p j => core (eG p j)) =
      (Pot.xcCompute X h0 (exch.on m) (corr.on m) rho core).map fun a => (fun s p r => a.1 s (eR p r), a.2) := by
  unfold xcCompute Pot.xcCompute
  have hf : ∀ F : PointFunc ns, (F.on m).family = F.family := fun _ => rfl
  simp only [hf]
  set ng : Bool := decide (exch.family = .gga ∨ corr.family = .gga) with hng
  have hs : ∀ p : Fin P, (if ng = true then some (sigma D (fun s p j => rho s (eG p j) + (1 / (ns : ℂ)) * core (eG p j)) h0 p) else none) =
      (if ng = true then some (Pot.sigma X (Pot.rhoaux rho core) h0) else none).map fun s k r => s k (eR p r) := by
    intro p
    by_cases h : ng = true
    · simp only [h, if_true, Option.map_some]
      congr 1
      funext k r
      exact sigma_sim H (Pot.rhoaux rho core) h0 p k r
    · simp only [h, if_false, Option.map_none]
      rfl
  have hi : ∀ p : Fin P, (fun (r : Fin (lm p)) (s : Fin ns) => ‖D.toR (fun p j => rho s (eG p j)) p r‖) = fun r => Pot.xcRho X rho (eR p r) := by
    intro p
    funext r s
    rw [H.toR]
    rfl
  simp only [hs, hi]
  have e1 := xcAdd_sim H hP rho ng _ _ (on_part exch (Pot.xcRho X rho) (if ng = true then some (Pot.sigma X (Pot.rhoaux rho core) h0) else none) eR) (fun _ _ => 0, 0)
  simp only [bind, Except.bind, pure, Except.pure]
  rw [e1]
  cases h1 : Pot.xcAdd X rho ng ((exch.on m).run (Pot.xcRho X rho) (if ng = true then some (Pot.sigma X (Pot.rhoaux rho core) h0) else none)) (fun _ _ => 0, 0) with
  | error e => rfl
  | ok a1 =>
    simp only [Except.map]
    rw [xcAdd_sim H hP rho ng _ _ (on_part corr (Pot.xcRho X rho) (if ng = true then some (Pot.sigma X (Pot.rhoaux rho core) h0) else none) eR) a1]
    cases Pot.xcAdd X rho ng ((corr.on m).run (Pot.xcRho X rho) (if ng = true then some (Pot.sigma X (Pot.rhoaux rho core) h0) else none)) a1 <;> rfl

end sim

/-! ## The transforms of the distributed G-space -/

/-- Number of the first G-vector of process `p`. -/
def g0pos (S : Setup) (p : ℕ) : ℕ := cutAt S (Scatter.sliceStart S.ns S.P p)

/-- The part of an array over the G-vectors that process `p` holds: the rows `ig_loc` (mpi/gspace.py:65-71). -/
def part (S : Setup) {α : Type} [Inhabited α] (f : Fin S.idx.length → α) (p : Fin S.P) (j : Fin (S.cutG p S.idx).length) : α := (S.cutG p (List.ofFn f)).getD j default

/-- The part of an array over the grid that process `p` holds: its x-planes (mpi/gspace.py:73-75). -/
def planes (S : Setup) {α : Type} [Inhabited α] (u : Fin S.d.size → α) (p : Fin S.P) (r : Fin (S.nxl p * S.d.plane)) : α := (List.ofFn u).getD (S.x0 p * S.d.plane + r) default

theorem sum_blocks {M : Type} [AddCommMonoid M] (start len : ℕ → ℕ) (h0 : start 0 = 0) (P : ℕ) (h : ∀ p < P, start (p + 1) = start p + len p) (F : ℕ → M) :
    ∑ p ∈ Finset.range P, ∑ j ∈ Finset.range (len p), F (start p + j) = ∑ i ∈ Finset.range (start P), F i := by
  induction P with
  | zero => simp [h0]
  | succ P ih =>
    rw [Finset.sum_range_succ, ih fun p hp => h p (by omega), h P (by omega), Finset.sum_range_add]

theorem g0pos_le (S : Setup) (hS : S.Ok) (p : ℕ) (hp : p ≤ S.P) : g0pos S p ≤ S.idx.length := by
  unfold g0pos
  rw [← Dist.cutAt_ns S]
  exact Dist.cutAt_mono S (Dist.sliceStart_le _ _ _ hS.pos hp)

theorem cutG_length (S : Setup) (hS : S.Ok) {α : Type} (l : List α) (hl : l.length = S.idx.length) (p : ℕ) (hp : p < S.P) : g0pos S (p + 1) = g0pos S p + (S.cutG p l).length := by
  have h1 := g0pos_le S hS (p + 1) hp
  have h2 : g0pos S p ≤ g0pos S (p + 1) := Dist.cutAt_mono S (Scatter.sliceStart_mono _ _ (Nat.le_succ p))
  rw [S.cutG_eq hS p hp]
  unfold pySlice
  rw [List.length_take, List.length_drop, hl]
  unfold g0pos at *
  omega

theorem cutG_get (S : Setup) (hS : S.Ok) {α : Type} (l : List α) (hl : l.length = S.idx.length) (p : ℕ) (hp : p < S.P) (j : ℕ) (hj : j < (S.cutG p l).length) (d : α) :
    (S.cutG p l).getD j d = l.getD (g0pos S p + j) d := by
  have h1 := cutG_length S hS l hl p hp
  have h2 := g0pos_le S hS (p + 1) hp
  rw [S.cutG_eq hS p hp] at hj ⊢
  unfold pySlice at hj ⊢
  simp only [List.getD_eq_getElem?_getD]
  rw [List.getElem?_take_of_lt, List.getElem?_drop]
  · rfl
  · rw [List.length_take] at hj
    omega

theorem lenG (S : Setup) {α : Type} (l : List α) (hl : l.length = S.idx.length) (p : ℕ) : (S.cutG p l).length = (S.cutG p S.idx).length := Dist.length_cutG S p l hl

/-- The G-vectors of process `p`, as numbers in the serial list. -/
def eG (S : Setup) (hS : S.Ok) (p : Fin S.P) (j : Fin (S.cutG p S.idx).length) : Fin S.idx.length :=
  ⟨g0pos S p + j, by have h1 := cutG_length S hS S.idx rfl p p.2; have h2 := g0pos_le S hS (p + 1) p.2; omega⟩

theorem x0_le (S : Setup) (hS : S.Ok) (p : ℕ) (hp : p < S.P) : S.x0 p + S.nxl p ≤ S.d.nx := by
  have h3 := Dist.sliceStart_le S.d.nx S.P (p + 1) hS.pos (by omega)
  rw [Dist.sliceStart_succ] at h3
  exact h3

theorem plane_lt (S : Setup) (hS : S.Ok) (p : ℕ) (hp : p < S.P) (r : ℕ) (hr : r < S.nxl p * S.d.plane) : S.x0 p * S.d.plane + r < S.d.size := by
  have h4 : (S.x0 p + S.nxl p) * S.d.plane ≤ S.d.nx * S.d.plane := Nat.mul_le_mul_right _ (x0_le S hS p hp)
  rw [S.d.size_eq]
  rw [Nat.add_mul] at h4
  omega

/-- The grid points of process `p`. -/
def eR (S : Setup) (hS : S.Ok) (p : Fin S.P) (r : Fin (S.nxl p * S.d.plane)) : Fin S.d.size := ⟨S.x0 p * S.d.plane + r, plane_lt S hS p p.2 r r.2⟩

theorem part_eq (S : Setup) (hS : S.Ok) {α : Type} [Inhabited α] (f : Fin S.idx.length → α) : part S f = fun p j => f (eG S hS p j) := by
  funext p j
  unfold part
  rw [cutG_get S hS _ (by simp) p p.2 j (lt_of_lt_of_eq j.2 (lenG S _ (by simp) p).symm), List.getD_eq_getElem (l := List.ofFn f) (d := default) (by rw [List.length_ofFn]; exact (eG S hS p j).2), List.getElem_ofFn]
  rfl

theorem planes_eq (S : Setup) (hS : S.Ok) {α : Type} [Inhabited α] (u : Fin S.d.size → α) : planes S u = fun p r => u (eR S hS p r) := by
  funext p r
  unfold planes
  rw [List.getD_eq_getElem (l := List.ofFn u) (d := default) (by rw [List.length_ofFn]; exact (eR S hS p r).2), List.getElem_ofFn]
  rfl

theorem sum_eG (S : Setup) (hS : S.Ok) {M : Type} [AddCommMonoid M] (F : Fin S.idx.length → M) : ∑ p, ∑ j, F (eG S hS p j) = ∑ i, F i := by
  have h := sum_blocks (g0pos S) (fun p => (S.cutG p S.idx).length) (by unfold g0pos; rw [Scatter.sliceStart_zero, Dist.cutAt_zero]) S.P (fun p hp => cutG_length S hS S.idx rfl p hp)
    (fun i => if hi : i < S.idx.length then F ⟨i, hi⟩ else 0)
  have hend : g0pos S S.P = S.idx.length := by
    unfold g0pos
    rw [Scatter.sliceStart_size _ _ hS.pos, Dist.cutAt_ns]
  rw [hend] at h
  refine Eq.trans ?_ (h.trans ?_)
  · rw [Finset.sum_range]
    refine Finset.sum_congr rfl fun p _ => ?_
    rw [Finset.sum_range]
    refine Finset.sum_congr rfl fun j _ => ?_
    have h' : g0pos S p + j < S.idx.length := (eG S hS p j).2
    rw [dif_pos h']
    rfl
  · rw [Finset.sum_range]
    exact Finset.sum_congr rfl fun i _ => by rw [dif_pos i.2]

theorem sum_eR (S : Setup) (hS : S.Ok) {M : Type} [AddCommMonoid M] (F : Fin S.d.size → M) : ∑ p, ∑ r, F (eR S hS p r) = ∑ i, F i := by
  have h := sum_blocks (fun p => S.x0 p * S.d.plane) (fun p => S.nxl p * S.d.plane) (by show S.x0 0 * _ = 0; unfold Setup.x0; rw [Scatter.sliceStart_zero, Nat.zero_mul]) S.P
    (fun p hp => by show S.x0 (p + 1) * _ = _; rw [← Nat.add_mul]; congr 1; exact Dist.sliceStart_succ _ _ _)
    (fun i => if hi : i < S.d.size then F ⟨i, hi⟩ else 0)
  have hend : S.x0 S.P * S.d.plane = S.d.size := by
    rw [S.d.size_eq]
    congr 1
    exact Scatter.sliceStart_size _ _ hS.pos
  simp only [hend] at h
  refine Eq.trans ?_ (h.trans ?_)
  · rw [Finset.sum_range]
    refine Finset.sum_congr rfl fun p _ => ?_
    rw [Finset.sum_range]
    refine Finset.sum_congr rfl fun j _ => ?_
    have h' : S.x0 p * S.d.plane + j < S.d.size := (eR S hS p j).2
    rw [dif_pos h']
    rfl
  · rw [Finset.sum_range]
    exact Finset.sum_congr rfl fun i _ => by rw [dif_pos i.2]

theorem ofFn_cutG (S : Setup) (hS : S.Ok) {α : Type} (f : Fin S.idx.length → α) (p : Fin S.P) : List.ofFn (fun j => f (eG S hS p j)) = S.cutG p (List.ofFn f) := by
  refine List.ext_getElem (by rw [List.length_ofFn, lenG S (List.ofFn f) (by simp)]) fun j h1 h2 => ?_
  have h3 : (S.cutG p (List.ofFn f)).getD j (f (eG S hS p ⟨j, by rwa [List.length_ofFn] at h1⟩)) = _ := cutG_get S hS (List.ofFn f) (by simp) p p.2 j h2 _
  rw [List.getD_eq_getElem (l := S.cutG p (List.ofFn f)) (hn := h2), List.getD_eq_getElem (l := List.ofFn f) (hn := by
    rw [List.length_ofFn]; exact (eG S hS p ⟨j, by rwa [List.length_ofFn] at h1⟩).2), List.getElem_ofFn] at h3
  rw [List.getElem_ofFn, h3]
  rfl

/-- The distributed transforms give the parts of the serial ones (from the lemmas behind C22). -/
theorem distSpace_distributes (S : Setup) (hS : S.Ok) (st : ℕ → Dist.St ℂ) (hinv : ∀ p < S.P, Inv S p (st p)) (drv : Driver) (sst : DrvState ℂ) (g : Fin 3 → Fin S.idx.length → ℝ) (dv : ℝ) :
    Distributes (fftSpace drv S.d S.idx sst g dv) (distSpace S st (fun p c => part S (g c) p) dv) (eR S hS) (eG S hS) where
  toR f p r := by
    have harr : ∀ q < S.P, (if h : q < S.P then List.ofFn (fun j => f (eG S hS ⟨q, h⟩ j)) else []) = S.cutG q (List.ofFn f) := by
      intro q hq
      rw [dif_pos hq]
      exact ofFn_cutG S hS f ⟨q, hq⟩
    obtain ⟨st', out, e1, _, e3⟩ := Dist.g2r_eq S hS (dftKern false S.d) true st hinv (List.ofFn f) (by simp) _ harr
    show (match Dist.g2r S (dftKern false S.d) true st (fun q => if h : q < S.P then List.ofFn (fun j => f (eG S hS ⟨q, h⟩ j)) else []) with
      | some (_, out) => out p r
      | none => 0) = (drv.g2r S.d (dftKern false S.d) true S.idx sst (List.ofFn f)).2 (eR S hS p r)
    rw [e1]
    show out p r = _
    rw [e3 p p.2 r r.2, drv.g2r_eq S.d _ true S.idx hS.valid sst sst.f (List.ofFn f) (by simp) _ (eR S hS p r).2, FFT.fullG2r_eq S.d _ true S.idx hS.valid _ (List.ofFn f) (by simp)]
    rfl
  toG u p j := by
    have harr : ∀ q < S.P, ∀ k < S.nxl q * S.d.plane, (if h : q < S.P then (if hk : k < S.nxl q * S.d.plane then u (eR S hS ⟨q, h⟩ ⟨k, hk⟩) else 0) else 0)
        = (fun k => if h : k < S.d.size then u ⟨k, h⟩ else 0) (S.x0 q * S.d.plane + k) := by
      intro q hq k hk
      rw [dif_pos hq, dif_pos hk]
      show _ = if h : S.x0 q * S.d.plane + k < S.d.size then u ⟨_, h⟩ else 0
      rw [dif_pos (plane_lt S hS q hq k hk)]
      rfl
    obtain ⟨st', out, e1, _, e3⟩ := Dist.r2g_eq S hS (dftKern true S.d) st (fun k => if h : k < S.d.size then u ⟨k, h⟩ else 0) _ harr
    show (match Dist.r2g S (dftKern true S.d) st (fun q k => if h : q < S.P then (if hk : k < S.nxl q * S.d.plane then u (eR S hS ⟨q, h⟩ ⟨k, hk⟩) else 0) else 0) with
      | some (_, out) => (out p).getD j 0
      | none => 0) = (drv.r2g S.d (dftKern true S.d) S.idx sst (fun k => if h : k < S.d.size then u ⟨k, h⟩ else 0)).2.getD (eG S hS p j) 0
    rw [e1]
    show (out p).getD j 0 = _
    rw [e3 p p.2, drv.r2g_eq S.d _ S.idx hS.valid sst sst.f _ _ (fun _ _ => rfl), FFT.fullR2g_eq]
    refine Eq.trans ?_ (cutG_get S hS _ (by simp) p p.2 j (lt_of_lt_of_eq j.2 (lenG S _ (by simp) p).symm) 0)
    unfold Setup.cutG pySlice
    rw [← List.map_drop, ← List.map_take]
  g p c j := by
    show part S (g c) p j = g c (eG S hS p j)
    rw [part_eq S hS]
  dv := rfl
  sum F := sum_eR S hS F

/-! ## The property -/

/-- **C204, exchange and correlation.** For every distributed G-space (any number of processes with at least one stick and one plane each), whatever was transformed before, with any functionals evaluated point
by point (local or gradient-corrected, in any combination), any densities and core density: if every process holds its part of the density, `xc.compute` raises on all processes if the serial call raises,
and otherwise gives every process the planes of the serial potential, and the serial energy. -/
theorem C204_xc (S : Setup) (hS : S.Ok) (garbage : ℕ → Dist.St ℂ) (hist : List (Dist.DCall ℂ)) (hok : ∀ c ∈ hist, c.Ok S) (drv : Driver) (sst : DrvState ℂ)
    (g : Fin 3 → Fin S.idx.length → ℝ) (dv : ℝ) {ns : ℕ} (h0 : 0 < ns) (exch corr : PointFunc ns) :
    ∃ st, Dist.runHist S (dftKern true S.d) (dftKern false S.d) true hist (fun p => (garbage p).fresh) = some st ∧
      ∀ (rho : Fin ns → Fin S.idx.length → ℂ) (core : Fin S.idx.length → ℂ),
        xcCompute (distSpace S st (fun p c => part S (g c) p) dv) h0 exch corr (fun s => part S (rho s)) (part S core) =
          (Pot.xcCompute (fftSpace drv S.d S.idx sst g dv) h0 (exch.on _) (corr.on _) rho core).map fun a => (fun s => planes S (a.1 s), a.2) := by
  obtain ⟨st, h1, h2⟩ := Dist.runHist_ok S hS (dftKern true S.d) (dftKern false S.d) true hist hok (fun p => (garbage p).fresh) (fun p _ => Dist.inv_fresh S p _)
  refine ⟨st, h1, fun rho core => ?_⟩
  simp only [part_eq S hS, planes_eq S hS]
  exact xc_sim (by have := distSpace_distributes S hS st h2 drv sst g dv; simp only [part_eq S hS] at this; exact this) hS.pos h0 exch corr rho core

/-- The vectors of a G-space: one for every entry of the index list, zero at most in the first place (C12). -/
structure GList (S : Setup) (gs : List (Fin 3 → ℤ)) : Prop where
  len : gs.length = S.idx.length
  zero : ∀ i : ℕ, gs[i]? = some 0 → i = 0

theorem hasG0_iff (S : Setup) (hS : S.Ok) (gs : List (Fin 3 → ℤ)) (hg : GList S gs) (p : ℕ) (hp : p < S.P) (j : ℕ) (hj : j < (S.cutG p S.idx).length) :
    (hasG0 S gs p = true ∧ j = 0) ↔ (decide (gs.head? = some 0) = true ∧ g0pos S p + j = 0) := by
  have hj' : 0 < (S.cutG p gs).length := by rw [lenG S gs hg.len]; omega
  have h3 := cutG_get S hS gs hg.len p hp 0 hj' 1
  have hlt : g0pos S p < gs.length := by
    have h1 := cutG_length S hS gs hg.len p hp
    have h2 := g0pos_le S hS (p + 1) hp
    rw [hg.len]
    omega
  rw [List.getD_eq_getElem (l := S.cutG p gs) (hn := hj'), Nat.add_zero, List.getD_eq_getElem (l := gs) (hn := hlt)] at h3
  have hh : (S.cutG p gs).head? = some gs[g0pos S p] := by
    rw [List.head?_eq_getElem?, List.getElem?_eq_getElem hj', h3]
  unfold hasG0
  rw [decide_eq_true_eq, decide_eq_true_eq, hh]
  constructor
  · rintro ⟨h, rfl⟩
    have := hg.zero (g0pos S p) (by rw [List.getElem?_eq_getElem hlt]; exact h)
    refine ⟨?_, by omega⟩
    rw [List.head?_eq_getElem?, List.getElem?_eq_getElem (by omega)]
    simp only [this] at h
    exact h
  · rintro ⟨h, h'⟩
    have h4 : g0pos S p = 0 := by omega
    refine ⟨?_, by omega⟩
    rw [List.head?_eq_getElem?, List.getElem?_eq_getElem (by omega)] at h
    simp only [h4]
    exact h

/-- A list made entry by entry on a process is the part of the list made serially. -/
theorem map_cutG (S : Setup) (hS : S.Ok) {α : Type} [Inhabited α] (p : ℕ) (hp : p < S.P) (F F' : ℕ → α) (h : ∀ j < (S.cutG p S.idx).length, F j = F' (g0pos S p + j)) :
    (List.range (S.cutG p S.idx).length).map F = S.cutG p ((List.range S.idx.length).map F') := by
  refine List.ext_getElem (by rw [List.length_map, List.length_range]; exact (lenG S _ (by simp) p).symm) fun j h1 h2 => ?_
  have hj : j < (S.cutG p S.idx).length := by simpa using h1
  have h3 := cutG_get S hS ((List.range S.idx.length).map F') (by simp) p hp j h2 default
  have h4 : g0pos S p + j < S.idx.length := (eG S hS ⟨p, hp⟩ ⟨j, hj⟩).2
  rw [List.getD_eq_getElem (l := S.cutG p _) (hn := h2), List.getD_eq_getElem (l := (List.range S.idx.length).map F') (hn := by simpa using h4), List.getElem_map, List.getElem_range] at h3
  rw [h3, List.getElem_map, List.getElem_range, h j hj]

theorem total_cutG (S : Setup) (hS : S.Ok) (rho : List (List ℂ)) (hr : ∀ c ∈ rho, c.length = S.idx.length) (p : ℕ) (hp : p < S.P) (j : ℕ) (hj : j < (S.cutG p S.idx).length) :
    total (rho.map fun c => S.cutG p c) j = total rho (g0pos S p + j) := by
  unfold total
  rw [List.map_map]
  congr 1
  refine List.map_congr_left fun c hc => ?_
  exact cutG_get S hS c (hr c hc) p hp j (by rw [lenG S c (hr c hc)]; exact hj) 0

/-- **C204, Hartree.** `hartree.compute` gives every process its part of the serial potential (in G-space, and its planes of it on the grid) and the serial energy, and raises exactly if the serial call raises. -/
theorem C204_hartree (S : Setup) (hS : S.Ok) (nan : ℂ) (gs : List (Fin 3 → ℤ)) (hg : GList S gs) (norm2 : List ℝ) (hn : norm2.length = S.idx.length) (dv : ℝ) (npts : ℕ) (rho : List (List ℂ))
    (hr : ∀ c ∈ rho, c.length = S.idx.length) :
    (∀ e, Pot.hartree nan norm2 (decide (gs.head? = some 0)) dv npts rho = .error e →
      hartree S.P nan (fun p => S.cutG p norm2) (hasG0 S gs) dv npts (fun p => rho.map fun c => S.cutG p c) = .error e) ∧
    ∀ v en, Pot.hartree nan norm2 (decide (gs.head? = some 0)) dv npts rho = .ok (v, en) →
      ∃ v', hartree S.P nan (fun p => S.cutG p norm2) (hasG0 S gs) dv npts (fun p => rho.map fun c => S.cutG p c) = .ok (v', en) ∧ (∀ p < S.P, v' p = S.cutG p v) ∧
        ∀ (garbage : ℕ → Dist.St ℂ) (hist : List (Dist.DCall ℂ)), (∀ c ∈ hist, c.Ok S) → ∀ (drv : Driver) (sst : DrvState ℂ),
          ∃ st, Dist.runHist S (dftKern true S.d) (dftKern false S.d) true hist (fun p => (garbage p).fresh) = some st ∧
            ∀ g g' p r, (distSpace S st g' dv).toR (fun p j => (v' p).getD j 0) p r = planes S ((fftSpace drv S.d S.idx sst g dv).toR fun j => v.getD j 0) p r := by
  have hck : ∀ p, checkRho (rho.map fun c => S.cutG p c) = checkRho rho := by
    intro p
    unfold checkRho
    rw [List.length_map]
  have hP := hS.pos
  constructor
  · intro e he
    unfold Pot.hartree at he
    unfold hartree
    simp only [hck]
    cases hc : checkRho rho with
    | ok _ => rw [hc] at he; cases he
    | error e' =>
      rw [hc] at he
      cases he
      obtain ⟨k, hk⟩ := Nat.exists_eq_succ_of_ne_zero (Nat.pos_iff_ne_zero.1 hP)
      rw [hk, List.range_succ_eq_map, List.mapM_cons]
      rfl
  · intro v en he
    unfold Pot.hartree at he
    cases hc : checkRho rho with
    | error e' => rw [hc] at he; cases he
    | ok u =>
      rw [hc] at he
      have he' := Except.ok.inj he
      have hv : hartreeV nan norm2 (decide (gs.head? = some 0)) rho = v := congrArg Prod.fst he'
      have hen : hartreeEn norm2 rho (hartreeV nan norm2 (decide (gs.head? = some 0)) rho) dv npts = en := congrArg Prod.snd he'
      have hvlen : v.length = S.idx.length := by rw [← hv]; unfold hartreeV; simp [hn]
      have hpart : ∀ p < S.P, hartreeV nan (S.cutG p norm2) (hasG0 S gs p) (rho.map fun c => S.cutG p c) = S.cutG p v := by
        intro p hp
        rw [← hv]
        unfold hartreeV
        rw [lenG S norm2 hn, hn]
        refine map_cutG S hS p hp _ _ fun j hj => ?_
        have hnj : (S.cutG p norm2).getD j 0 = norm2.getD (g0pos S p + j) 0 := cutG_get S hS norm2 hn p hp j (by rw [lenG S norm2 hn]; exact hj) 0
        rw [hnj, total_cutG S hS rho hr p hp j hj]
        by_cases hz : decide (gs.head? = some 0) = true ∧ g0pos S p + j = 0
        · rw [if_pos hz, if_pos ((hasG0_iff S hS gs hg p hp j hj).2 hz)]
        · rw [if_neg hz, if_neg fun h => hz ((hasG0_iff S hS gs hg p hp j hj).1 h)]
      have hm : (List.range S.P).mapM (fun p => checkRho (rho.map fun c => S.cutG p c)) = .ok ((List.range S.P).map fun _ => ()) := by
        simp only [hck, hc]
        generalize List.range S.P = l
        induction l with
        | nil => rfl
        | cons a t ih => rw [List.mapM_cons, ih]; rfl
      refine ⟨fun p => hartreeV nan (S.cutG p norm2) (hasG0 S gs p) (rho.map fun c => S.cutG p c), ?_, hpart, ?_⟩
      · unfold hartree
        rw [hm]
        show Except.ok (_, _) = Except.ok (_, _)
        congr 2
        rw [← hen]
        unfold hartreeEn
        congr 3
        rw [hv, hn]
        have hend : g0pos S S.P = S.idx.length := by
          unfold g0pos
          rw [Scatter.sliceStart_size _ _ hS.pos, Dist.cutAt_ns]
        refine Eq.trans ?_ ((sum_blocks (g0pos S) (fun p => (S.cutG p S.idx).length) (by unfold g0pos; rw [Scatter.sliceStart_zero, Dist.cutAt_zero]) S.P (fun p hp => cutG_length S hS S.idx rfl p hp)
          (fun i => conj (total rho i) * v.getD i 0)).trans (by rw [hend]))
        refine Finset.sum_congr rfl fun p hp => ?_
        have hp' := Finset.mem_range.1 hp
        simp only [hpart p hp', lenG S norm2 hn]
        refine Finset.sum_congr rfl fun j hj => ?_
        have hj' := Finset.mem_range.1 hj
        rw [total_cutG S hS rho hr p hp' j hj', cutG_get S hS v hvlen p hp' j (by rw [lenG S v hvlen]; exact hj') 0]
      · intro garbage hist hok drv sst
        obtain ⟨st, h1, h2⟩ := Dist.runHist_ok S hS (dftKern true S.d) (dftKern false S.d) true hist hok (fun p => (garbage p).fresh) (fun p _ => Dist.inv_fresh S p _)
        refine ⟨st, h1, fun g g' p r => ?_⟩
        rw [planes_eq S hS]
        refine Eq.trans ?_ ((distSpace_distributes S hS st h2 drv sst g dv).toR (fun j => v.getD j 0) p r)
        have : (fun (p : Fin S.P) (j : Fin (S.cutG p S.idx).length) => (hartreeV nan (S.cutG p norm2) (hasG0 S gs p) (rho.map fun c => S.cutG p c)).getD j 0) =
            fun p j => v.getD (eG S hS p j) 0 := by
          funext p j
          rw [hpart p p.2]
          exact cutG_get S hS v hvlen p p.2 j (by rw [lenG S v hvlen]; exact j.2) 0
        have hg' : ∀ f, (distSpace S st g' dv).toR f p r = (distSpace S st (fun p c => part S (g c) p) dv).toR f p r := fun f => rfl
        rw [hg']
        exact congrArg (fun f => (distSpace S st (fun p c => part S (g c) p) dv).toR f p r) this

/-- **C204, ionic potential, core density, atomic density.** The arrays that `loc_generate_pot_rhocore` and `loc_generate_rhoatomic` make on a process are its parts of the serial arrays. -/
theorem C204_ionic (S : Setup) (hS : S.Ok) (gs : List (Fin 3 → ℤ)) (hg : GList S gs) (gnorm : List ℝ) (hn : gnorm.length = S.idx.length) (erf : ℝ → ℝ) (D : Loc.RadialData) (cellvol dv : ℝ) (N : ℕ)
    (tau : List (Fin 3 → ℝ)) (p : ℕ) (hp : p < S.P) :
    let loc := fun F : Bool → (ℕ → Fin 3 → ℤ) → (ℕ → ℝ) → ℕ → ℂ => (List.range (S.cutG p S.idx).length).map (F (hasG0 S gs p) (fun j => (S.cutG p gs).getD j 0) fun j => (S.cutG p gnorm).getD j 0)
    let ser := fun F : Bool → (ℕ → Fin 3 → ℤ) → (ℕ → ℝ) → ℕ → ℂ => (List.range S.idx.length).map (F (decide (gs.head? = some 0)) (fun i => gs.getD i 0) fun i => gnorm.getD i 0)
    loc (fun h G n => Loc.vIon erf D h cellvol N tau G n) = S.cutG p (ser fun h G n => Loc.vIon erf D h cellvol N tau G n) ∧
    loc (fun h G n => Loc.rhoCore D h cellvol N tau G n) = S.cutG p (ser fun h G n => Loc.rhoCore D h cellvol N tau G n) ∧
    loc (fun h G n => Loc.rhoAtomic D h dv tau G n) = S.cutG p (ser fun h G n => Loc.rhoAtomic D h dv tau G n) := by
  intro loc ser
  have h1 : ∀ j < (S.cutG p S.idx).length, (S.cutG p gs).getD j 0 = gs.getD (g0pos S p + j) 0 := fun j hj => cutG_get S hS gs hg.len p hp j (by rw [lenG S gs hg.len]; exact hj) 0
  have h2 : ∀ j < (S.cutG p S.idx).length, (S.cutG p gnorm).getD j 0 = gnorm.getD (g0pos S p + j) 0 := fun j hj => cutG_get S hS gnorm hn p hp j (by rw [lenG S gnorm hn]; exact hj) 0
  have h3 := fun j hj => propext (hasG0_iff S hS gs hg p hp j hj)
  refine ⟨map_cutG S hS p hp _ _ fun j hj => ?_, map_cutG S hS p hp _ _ fun j hj => ?_, map_cutG S hS p hp _ _ fun j hj => ?_⟩
  · simp only [Loc.vIon, h1 j hj, h2 j hj, h3 j hj]
  · simp only [Loc.rhoCore, h1 j hj, h2 j hj, h3 j hj]
  · simp only [Loc.rhoAtomic, h1 j hj, h2 j hj, h3 j hj]

/-- **C204, mixing metric.** The inner product of the density mixers, and with it the convergence measure, is the serial one for every distribution. -/
theorem C204_metric (S : Setup) (hS : S.Ok) (gs : List (Fin 3 → ℤ)) (hg : GList S gs) (c : Mixing.Cfg S.idx.length) (hc : c.hasG0 = decide (gs.head? = some 0)) {s : ℕ} (a b : Mixing.Dens s S.idx.length) :
    dot c.fac c.tpiba (fun p => hasG0 S gs p) (part S c.g2) (fun k => part S (a k)) (fun k => part S (b k)) = Mixing.dot c a b := by
  simp only [part_eq S hS]
  unfold dot Mixing.dot
  have h3 : ∀ (p : Fin S.P) (j : Fin (S.cutG p S.idx).length), (hasG0 S gs p = true ∧ j.1 = 0) = (c.hasG0 = true ∧ (eG S hS p j).1 = 0) := by
    intro p j
    rw [hc]
    exact propext (hasG0_iff S hS gs hg p p.2 j j.2)
  have s1 := sum_eG S hS fun i => if c.hasG0 = true ∧ i.val = 0 then (0 : ℂ) else conj (∑ k, a k i) * (∑ k, b k i) / (c.g2 i : ℂ)
  have s0 : (∑ p : Fin S.P, ∑ j : Fin (S.cutG p S.idx).length, if hasG0 S gs p = true ∧ j.1 = 0 then (0 : ℂ) else conj (∑ k, a k (eG S hS p j)) * (∑ k, b k (eG S hS p j)) / (c.g2 (eG S hS p j) : ℂ))
      = ∑ i, if c.hasG0 = true ∧ i.val = 0 then (0 : ℂ) else conj (∑ k, a k i) * (∑ k, b k i) / (c.g2 i : ℂ) := by
    rw [← s1]
    simp only [h3]
  by_cases h : s = 2
  · subst h
    simp only [dif_pos]
    have s2 := sum_eG S hS fun i => conj (a ⟨0, by omega⟩ i - a ⟨1, by omega⟩ i) * (b ⟨0, by omega⟩ i - b ⟨1, by omega⟩ i)
    rw [s0, s2]
  · simp only [dif_neg h]
    rw [s0]

/-! ## Non-vacuity -/

/-- A grid of 2 × 2 × 2 points, four G-vectors on three sticks, two processes. -/
def exS : Setup := ⟨⟨2, 2, 2⟩, [0, 4, 1, 2], 2⟩

theorem exS_ok : exS.Ok where
  valid := ⟨by decide, by decide⟩
  sorted := by decide
  pos := by decide
  sticks := by
    have h0 : (0 : ℕ) ∈ exS.stk := (Setup.mem_stk _ _).2 (by decide)
    have h1 : (1 : ℕ) ∈ exS.stk := (Setup.mem_stk _ _).2 (by decide)
    obtain ⟨i, hi, e⟩ := List.getElem_of_mem h0
    obtain ⟨j, hj, e'⟩ := List.getElem_of_mem h1
    show 2 ≤ exS.stk.length
    by_contra hc
    obtain rfl : i = j := by omega
    omega
  planes := by decide

example : GList exS [0, ![1, 0, 0], ![0, 0, 1], ![0, 1, 0]] := by
  refine ⟨rfl, fun i hi => ?_⟩
  rcases i with _ | _ | _ | _ | i
  · rfl
  all_goals exfalso; revert hi; simp [funext_iff, Fin.forall_fin_succ]

end Verif.PotDist
