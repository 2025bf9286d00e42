import Verif.Props.Wedge
import Verif.Props.KSEnergy

/-!
# Property C218: a calculation with symmetrised density is a calculation with all k-points
-/

namespace Verif.Rot

open scoped ComplexConjugate
open Verif.FFT (Driver Dims DrvState ValidIdx)
open Verif.Nonloc Verif.Trans Verif.Pot Verif.Loc
open Verif.Lattice (Lat Mat mkLat dotCart)
open Verif.Symm (SymOp IsGroup)
open Verif.GSpace (GVec Shape at')
open Verif.KSEn (Fits Orbs density ksEnergy C197_energy_is_kohn_sham)

/-! ## Specification -/

/-- Self-consistency of a run that symmetrises the density (`symm_rho=True`), in terms of the models of the code: as `SelfConsistent`, but the density is that of the states, normalised to the number of electrons and
then symmetrised (scf.py:395-415), whatever the uninitialised memory of the symmetriser contains. -/
def SymSelfConsistent (R : Run) (sp : List Species) {n : ℕ} (ops : Fin (n + 1) → SymOp) (sh : Shape) (key : GVec → ℤ) (gs : List GVec) {nk nb : ℕ} (kp : Fin nk → KPoint) (X : Sol R kp nb) : Prop :=
  ∃ (vh : List ℂ) (vxc : Fin R.ns → Fin R.d.size → ℂ) (garbage : Fin R.ns → ℕ → ℂ),
    hartree R.nan R.norm2 true R.dv R.d.size (List.ofFn fun s => List.ofFn (X.rho s)) = .ok (vh, X.eh) ∧
    xcCompute R.space R.pos R.exch R.corr X.rho (R.core sp) = .ok (vxc, X.exc) ∧
    (∀ s r, (X.V s r : ℂ) = R.space.toR (R.vion sp) r + R.space.toR (fun j => vh.getD j 0) r + vxc s r) ∧
    (∀ s i b, ham R.drv R.d (kp i).idx R.st R.L (kp i).G (kp i).k (X.V s) (sp.map Species.nl) (X.psi s i b) = (X.eps s i b : ℂ) • X.psi s i b) ∧
    (∀ s (j : Fin R.idx.length), ∀ j0 : Fin R.idx.length, j0.1 = 0 → X.rho s j =
      Symm.symmetrize ops sh key gs (garbage s) (byNumber fun i => R.numel / ((∑ t, R.space.toG (X.dens t) j0) * R.dv) * R.space.toG (X.dens s) i) j) ∧
    X.en = ((∑ s, ∑ i, ((kp i).w : ℂ) * ∑ b, ((X.eps s i b * X.occ s i b : ℝ) : ℂ)) - (∑ r, ∑ s, (R.space.toR (fun j => vh.getD j 0) r + vxc s r) * R.space.toR (X.rho s) r) * R.dv).re + X.eh + X.exc

/-- All images of the k-points, each with its share of the weight. -/
noncomputable def allK {n nk : ℕ} (kp' : Fin (n + 1) → Fin nk → KPoint) (m : Fin ((n + 1) * nk)) : KPoint :=
  { kp' (finProdFinEquiv.symm m).1 (finProdFinEquiv.symm m).2 with w := (kp' (finProdFinEquiv.symm m).1 (finProdFinEquiv.symm m).2).w / ((n + 1 : ℕ) : ℝ) }

/-! ## Lemmas -/

theorem Acts.mem {R : Run} {n : ℕ} {ops : Fin (n + 1) → SymOp} {sh : Shape} {key : GVec → ℤ} {gs : List GVec} (H : Acts R ops sh key gs) (j : Fin R.idx.length) : at' gs j ∈ gs := by
  have hj : (j : ℕ) < gs.length := by rw [H.size]; exact j.2
  unfold at'
  rw [List.getD_eq_getElem _ _ hj]
  exact List.getElem_mem hj

theorem Acts.image {R : Run} {n : ℕ} {ops : Fin (n + 1) → SymOp} {sh : Shape} {key : GVec → ℤ} {gs : List GVec} (H : Acts R ops sh key gs) (hz : ∀ j, R.G j = 0 ↔ j.1 = 0) (s : Fin (n + 1)) :
    ∃ ρ : Equiv.Perm (Fin R.idx.length), (∀ j, at' gs (ρ j) = Symm.rotG (ops s) (at' gs j)) ∧ GImage R (invOp (ops s) (H.group.unimod s)) ρ.symm ∧
      ∀ j : Fin R.idx.length, Symm.phase (ops s) (Symm.rotG (ops s) (at' gs j)) = ex (∑ a, (invOp (ops s) (H.group.unimod s)).t a * (R.G j a : ℝ)) := by
  obtain ⟨ρ, hρ⟩ := H.perm s
  have hgj : ∀ i a, ((R.G (ρ i) a : ℤ)) = ((ops s).R.mulVec (R.G i)) a := fun i a => by
    rw [← H.g, (hρ i).2, Symm.toV_rotG, H.g]
  have hσ : ∀ j a, (R.G (ρ.symm j) a : ℝ) = app (invOp (ops s) (H.group.unimod s)).S (fun b => R.G j b) a := by
    intro j a
    obtain ⟨i, rfl⟩ := ρ.surjective j
    rw [ρ.symm_apply_apply]
    show _ = app (ops s).W.transpose _ a
    have : R.G i = (ops s).W.transpose.mulVec (R.G (ρ i)) := by
      have e : R.G (ρ i) = (ops s).R.mulVec (R.G i) := funext (hgj i)
      rw [e, Matrix.mulVec_mulVec]
      have h1 : (ops s).W.transpose * (ops s).R = 1 := by
        unfold SymOp.R
        exact Matrix.mul_nonsing_inv _ (by rw [Matrix.det_transpose]; exact H.group.unimod s)
      rw [h1, Matrix.one_mulVec]
    have := congrFun this a
    rw [this]
    unfold app Matrix.mulVec dotProduct
    push_cast
    rfl
  refine ⟨ρ, fun j => (hρ j).2, ⟨H.lat, H.keeps s, H.grid s, H.valid, H.ix, hσ, hz⟩, fun j => ?_⟩
  unfold Symm.phase ex
  congr 1
  have ht : ∑ a, (invOp (ops s) (H.group.unimod s)).t a * (R.G j a : ℝ) = -∑ i, (ops s).t i * (Symm.toV (Symm.rotG (ops s) (at' gs j)) i : ℝ) := by
    have e : Symm.toV (Symm.rotG (ops s) (at' gs j)) = R.G (ρ j) := by rw [← (hρ j).2, H.g]
    rw [e]
    have hj : ∀ a, (R.G j a : ℝ) = app (ops s).W.transpose (fun b => R.G (ρ j) b) a := fun a => by
      have := hσ (ρ j) a
      rw [ρ.symm_apply_apply] at this
      exact this
    show ∑ a, -app (ops s).W⁻¹ (ops s).t a * (R.G j a : ℝ) = _
    have p := (invOp (ops s) (H.group.unimod s)).pair (fun b => R.G (ρ j) b) (ops s).t
    simp only [hj, neg_mul]
    rw [Finset.sum_neg_distrib]
    congr 1
    refine Eq.trans (Finset.sum_congr rfl fun a _ => mul_comm _ _) (p.trans (Finset.sum_congr rfl fun a _ => mul_comm _ _))
  rw [ht]
  push_cast
  ring

/-- What the symmetriser returns for a G-vector of the run: the group average. -/
theorem Acts.avg {R : Run} {n : ℕ} {ops : Fin (n + 1) → SymOp} {sh : Shape} {key : GVec → ℤ} {gs : List GVec} (H : Acts R ops sh key gs) (garbage f : ℕ → ℂ) (j : Fin R.idx.length) :
    Symm.symmetrize ops sh key gs garbage f j = Symm.avg ops (fun h => f (gs.idxOf h)) (at' gs j) := by
  have hidx := Symm.idxOf_at' gs H.basis.nodup j (by rw [H.size]; exact j.2)
  have := Symm.symmetrize_eq_avg H.group H.basis garbage f _ (H.mem j)
  rwa [hidx] at this

/-- A symmetrised density is carried to itself. -/
theorem Acts.invariant {R : Run} {n : ℕ} {ops : Fin (n + 1) → SymOp} {sh : Shape} {key : GVec → ℤ} {gs : List GVec} (H : Acts R ops sh key gs) (garbage f : ℕ → ℂ) (s : Fin (n + 1)) (ρ : Equiv.Perm (Fin R.idx.length))
    (h1 : ∀ j, at' gs (ρ j) = Symm.rotG (ops s) (at' gs j)) (h3 : ∀ j : Fin R.idx.length, Symm.phase (ops s) (Symm.rotG (ops s) (at' gs j)) = ex (∑ a, (invOp (ops s) (H.group.unimod s)).t a * (R.G j a : ℝ)))
    (j : Fin R.idx.length) :
    Symm.symmetrize ops sh key gs garbage f (ρ.symm j) = ex (∑ a, (invOp (ops s) (H.group.unimod s)).t a * (R.G (ρ.symm j) a : ℝ)) * Symm.symmetrize ops sh key gs garbage f j := by
  obtain ⟨i, rfl⟩ := ρ.surjective j
  rw [ρ.symm_apply_apply, H.avg, H.avg, ← h3, h1, ← Symm.avg_rot H.group]

theorem byNumber_mul {n : ℕ} (c : ℂ) (f : Fin n → ℂ) (j : ℕ) : byNumber (fun i => c * f i) j = c * byNumber f j := by
  unfold byNumber
  split <;> simp

theorem Acts.scale {R : Run} {n : ℕ} {ops : Fin (n + 1) → SymOp} {sh : Shape} {key : GVec → ℤ} {gs : List GVec} (H : Acts R ops sh key gs) (garbage garbage' : ℕ → ℂ) (c : ℂ) (f : Fin R.idx.length → ℂ) (j : Fin R.idx.length) :
    Symm.symmetrize ops sh key gs garbage (byNumber fun i => c * f i) j = c * Symm.symmetrize ops sh key gs garbage' (byNumber f) j := by
  rw [H.avg, H.avg]
  unfold Symm.avg
  simp only [byNumber_mul]
  rw [mul_div_assoc', Finset.mul_sum]
  congr 1
  exact Finset.sum_congr rfl fun s _ => by ring

/-- The average coefficient is kept. -/
theorem Acts.zero {R : Run} {n : ℕ} {ops : Fin (n + 1) → SymOp} {sh : Shape} {key : GVec → ℤ} {gs : List GVec} (H : Acts R ops sh key gs) (garbage : ℕ → ℂ) (f : Fin R.idx.length → ℂ) (j : Fin R.idx.length) (h0 : R.G j = 0) :
    Symm.symmetrize ops sh key gs garbage (byNumber f) j = f j := by
  have hidx := Symm.idxOf_at' gs H.basis.nodup j (by rw [H.size]; exact j.2)
  have hr : ∀ s, Symm.rotG (ops s) (at' gs j) = at' gs j := by
    intro s
    have e : Symm.toV (at' gs j) = 0 := by rw [H.g, h0]
    rw [← Symm.ofV_toV (Symm.rotG (ops s) (at' gs j)), Symm.toV_rotG, e, Matrix.mulVec_zero, ← e, Symm.ofV_toV]
  have hp : ∀ s, Symm.phase (ops s) (at' gs j) = 1 := by
    intro s
    unfold Symm.phase
    have e : Symm.toV (at' gs j) = 0 := by rw [H.g, h0]
    simp [e]
  rw [H.avg]
  unfold Symm.avg
  simp only [hr, hp, hidx, mul_one, Finset.sum_const, Finset.card_univ, Fintype.card_fin, nsmul_eq_mul]
  rw [mul_div_assoc, mul_div_cancel₀ _ (by exact_mod_cast Nat.succ_ne_zero n)]
  unfold byNumber
  rw [dif_pos j.2]

theorem sum_all {n nk : ℕ} {M : Type*} [AddCommMonoid M] (f : Fin (n + 1) → Fin nk → M) : ∑ m : Fin ((n + 1) * nk), f (finProdFinEquiv.symm m).1 (finProdFinEquiv.symm m).2 = ∑ s, ∑ i, f s i := by
  rw [← Fintype.sum_prod_type' f]
  exact Equiv.sum_comp finProdFinEquiv.symm fun p : Fin (n + 1) × Fin nk => f p.1 p.2

/-- The local potential of a symmetric density is symmetric. -/
theorem Acts.potential {R : Run} {n : ℕ} {ops : Fin (n + 1) → SymOp} {sh : Shape} {key : GVec → ℤ} {gs : List GVec} (H : Acts R ops sh key gs) (hx : PointByPoint R.exch) (hc : PointByPoint R.corr) (sp : List Species)
    (s : Fin (n + 1)) (hsp : List.Forall₂ (fun x x' => x'.D = x.D ∧ Image (invOp (ops s) (H.group.unimod s)) x.nl x'.nl) sp sp) (ρ : Equiv.Perm (Fin R.idx.length)) (hg : GImage R (invOp (ops s) (H.group.unimod s)) ρ.symm)
    (rho : Fin R.ns → Fin R.idx.length → ℂ) (hr : ∀ t j, rho t (ρ.symm j) = ex (∑ a, (invOp (ops s) (H.group.unimod s)).t a * (R.G (ρ.symm j) a : ℝ)) * rho t j)
    (vh : List ℂ) (eh : ℝ) (vxc : Fin R.ns → Fin R.d.size → ℂ) (exc : ℝ) (e1 : hartree R.nan R.norm2 true R.dv R.d.size (List.ofFn fun s => List.ofFn (rho s)) = .ok (vh, eh))
    (e2 : xcCompute R.space R.pos R.exch R.corr rho (R.core sp) = .ok (vxc, exc)) (V : Fin R.ns → Fin R.d.size → ℝ)
    (e3 : ∀ t r, (V t r : ℂ) = R.space.toR (R.vion sp) r + R.space.toR (fun j => vh.getD j 0) r + vxc t r) (t : Fin R.ns) (r r' : Fin R.d.size) (hcr : Carried R.d (invOp (ops s) (H.group.unimod s)) r r') : V t r' = V t r := by
  obtain ⟨u, B, hL⟩ := H.lat
  have S := fft_rot R.drv u B R.L hL (invOp (ops s) (H.group.unimod s)) (H.keeps s) R.d (H.grid s) R.idx H.valid R.st R.dv R.G H.ix ρ.symm hg.g
  obtain ⟨vh', f1, f1'⟩ := hart_rot R _ ρ.symm hg rho rho hr vh eh e1
  have hvh : vh' = vh := by
    rw [e1] at f1
    exact (congrArg Prod.fst (Except.ok.inj f1)).symm
  rw [hvh] at f1'
  have hio := vion_rot R _ ρ.symm hg sp sp hsp
  have k2 := xcCompute_rot S R.pos R.exch R.corr hx hc rho rho hr (R.core sp) (R.core sp) (fun j => (hio j).2)
  have e2' : xcCompute (fftSpace R.drv R.d R.idx R.st (fun c j => R.L.cryst2cart (fun a => R.G j a) c) R.dv) R.pos R.exch R.corr rho (R.core sp) = .ok (vxc, exc) := e2
  rw [e2'] at k2
  rw [gperm_of_carried R.d _ (H.grid s) r r' hcr]
  have := e3 t (gperm R.d _ (H.grid s) r)
  have hA : R.space.toR (R.vion sp) (gperm R.d _ (H.grid s) r) = R.space.toR (R.vion sp) r := S.toR (R.vion sp) (R.vion sp) (fun j => (hio j).1) r
  have hB : R.space.toR (fun j => vh.getD j 0) (gperm R.d _ (H.grid s) r) = R.space.toR (fun j => vh.getD j 0) r := S.toR (fun j => vh.getD j 0) (fun j => vh.getD j 0) f1' r
  have hC : vxc t (gperm R.d _ (H.grid s) r) = vxc t r := k2.1 t r
  rw [hA, hB, hC, ← e3] at this
  exact_mod_cast this

/-! ## The property -/

/-- **C218.** Let a run that symmetrises the density over the space group of the crystal be self-consistent at some k-points. Then there is a solution of the run without symmetrisation at the images of these k-points under all
operations, each with its share of the weight: it has the same density, the same potential, the same eigenvalues, occupations and inner products of the orbitals, the same Hartree, exchange-correlation and total energy. -/
theorem C218_symmetrised_run (R : Run) {n : ℕ} (ops : Fin (n + 1) → SymOp) (sh : Shape) (key : GVec → ℤ) (gs : List GVec) (H : Acts R ops sh key gs) (hz : ∀ j, R.G j = 0 ↔ j.1 = 0) (hx : PointByPoint R.exch)
    (hc : PointByPoint R.corr) (sp : List Species) (hsp : ∀ s, List.Forall₂ (fun x x' => x'.D = x.D ∧ x.nl.Good ∧ Image (invOp (ops s) (H.group.unimod s)) x.nl x'.nl) sp sp) {nk nb : ℕ} (kp : Fin nk → KPoint)
    (kp' : Fin (n + 1) → Fin nk → KPoint) (τ : ∀ s i, Fin (kp i).idx.length ≃ Fin (kp' s i).idx.length) (hk : ∀ s i, KImage R (invOp (ops s) (H.group.unimod s)) (kp i) (kp' s i) (τ s i)) (X : Sol R kp nb)
    (h : SymSelfConsistent R sp ops sh key gs kp X) :
    ∃ X' : Sol R (allK kp') nb, SelfConsistent R sp (allK kp') X' ∧ X'.rho = X.rho ∧ X'.V = X.V ∧
      (∀ s i t b, X'.eps t (finProdFinEquiv (s, i)) b = X.eps t i b ∧ X'.occ t (finProdFinEquiv (s, i)) b = X.occ t i b) ∧
      (∀ t m b c, ∑ j, conj (X'.psi t m b j) * X'.psi t m c j = ∑ j, conj (X.psi t (finProdFinEquiv.symm m).2 b j) * X.psi t (finProdFinEquiv.symm m).2 c j) ∧ X'.eh = X.eh ∧ X'.exc = X.exc ∧ X'.en = X.en := by
  obtain ⟨vh, vxc, garbage, e1, e2, e3, e4, e5, e6⟩ := h
  have hn : ((n + 1 : ℕ) : ℂ) ≠ 0 := by exact_mod_cast Nat.succ_ne_zero n
  have hV : ∀ (t : Fin R.ns) s (r r' : Fin R.d.size), Carried R.d (invOp (ops s) (H.group.unimod s)) r r' → X.V t r' = X.V t r := by
    intro t s r r' hcr
    obtain ⟨ρ, h1, h2, h3⟩ := H.image hz s
    refine H.potential hx hc sp s ((hsp s).imp fun _ _ q => ⟨q.1, q.2.2⟩) ρ h2 X.rho (fun t j => ?_) vh X.eh vxc X.exc e1 e2 X.V e3 t r r' hcr
    have hpos : 0 < R.idx.length := lt_of_le_of_lt (Nat.zero_le _) j.2
    rw [e5 t _ ⟨0, hpos⟩ rfl, e5 t j ⟨0, hpos⟩ rfl]
    exact H.invariant _ _ s ρ h1 h3 j
  have hnl : ∀ s, List.Forall₂ (fun x x' => x.Good ∧ Image (invOp (ops s) (H.group.unimod s)) x x') (sp.map Species.nl) (sp.map Species.nl) := by
    intro s
    rw [List.forall₂_map_left_iff, List.forall₂_map_right_iff]
    exact (hsp s).imp fun _ _ q => q.2
  have hw := fun t => C203_irreducible_wedge R ops sh key gs H (sp.map Species.nl) hnl (X.V t) (hV t) kp kp' τ hk (X.occ t) (X.eps t) (X.psi t) (e4 t) (garbage t)
  choose psi' p1 p2 p3 using hw
  let X' : Sol R (allK kp') nb := ⟨X.rho, X.V, fun t m b => psi' t (finProdFinEquiv.symm m).1 (finProdFinEquiv.symm m).2 b, fun t m b => X.eps t (finProdFinEquiv.symm m).2 b,
    fun t m b => X.occ t (finProdFinEquiv.symm m).2 b, X.eh, X.exc, X.en⟩
  have hd : ∀ t r, X'.dens t r = (∑ s, stateDens R (kp' s) (X.occ t) (psi' t s) r) / ((n + 1 : ℕ) : ℂ) := by
    intro t r
    unfold stateDens
    rw [← sum_all (fun s i => (((kp' s i).w : ℝ) : ℂ) * ((∑ b, X.occ t i b * Complex.normSq (wfR R.drv R.d (kp' s i).idx R.st (psi' t s i b) r) / R.cellvol : ℝ) : ℂ)), Finset.sum_div]
    unfold Sol.dens
    refine Finset.sum_congr rfl fun m _ => ?_
    show (((kp' (finProdFinEquiv.symm m).1 (finProdFinEquiv.symm m).2).w / ((n + 1 : ℕ) : ℝ) : ℝ) : ℂ) * _ = _
    rw [Complex.ofReal_div, Complex.ofReal_natCast, div_mul_eq_mul_div]
    rfl
  have hdG : ∀ t j, R.space.toG (X'.dens t) j = Symm.symmetrize ops sh key gs (garbage t) (byNumber (R.space.toG (X.dens t))) j := by
    intro t j
    have : X'.dens t = fun r => (∑ s, stateDens R (kp' s) (X.occ t) (psi' t s) r) / ((n + 1 : ℕ) : ℂ) := funext (hd t)
    rw [this, ← p3 t j]
    rfl
  refine ⟨X', ⟨vh, vxc, e1, e2, e3, fun t m b => p1 t _ _ b, ?_, ?_⟩, rfl, rfl, ?_, fun t m b c => p2 t _ _ b c, rfl, rfl, rfl⟩
  · intro t j j0 hj0
    show X.rho t j = _
    rw [e5 t j j0 hj0, H.scale (garbage t) (garbage t), ← hdG]
    have : ∀ t, R.space.toG (X'.dens t) j0 = R.space.toG (X.dens t) j0 := fun t => by
      rw [hdG]
      exact H.zero _ _ j0 ((hz j0).2 hj0)
    simp only [this]
  · show X.en = _
    rw [e6]
    have : ∀ t, ∑ m : Fin ((n + 1) * nk), ((allK kp' m).w : ℂ) * ∑ b, ((X'.eps t m b * X'.occ t m b : ℝ) : ℂ) = ∑ i, ((kp i).w : ℂ) * ∑ b, ((X.eps t i b * X.occ t i b : ℝ) : ℂ) := by
      intro t
      have h1 := sum_all (n := n) (fun s i => (((kp' s i).w / ((n + 1 : ℕ) : ℝ) : ℝ) : ℂ) * ∑ b, ((X.eps t i b * X.occ t i b : ℝ) : ℂ))
      refine h1.trans ?_
      simp only [(hk _ _).w]
      rw [Finset.sum_const, Finset.card_univ, Fintype.card_fin, nsmul_eq_mul, Finset.mul_sum]
      refine Finset.sum_congr rfl fun i _ => ?_
      rw [Complex.ofReal_div, Complex.ofReal_natCast, ← mul_assoc, mul_div_cancel₀ _ hn]
    simp only [this]
    rfl
  · intro s i t b
    constructor
    · show X.eps t (finProdFinEquiv.symm (finProdFinEquiv (s, i))).2 b = _
      rw [Equiv.symm_apply_apply]
    · show X.occ t (finProdFinEquiv.symm (finProdFinEquiv (s, i))).2 b = _
      rw [Equiv.symm_apply_apply]

/-- The differences of the plane waves at the images are held when those of the given k-points are. -/
theorem fits_all (R : Run) {n : ℕ} (ops : Fin (n + 1) → SymOp) (sh : Shape) (key : GVec → ℤ) (gs : List GVec) (H : Acts R ops sh key gs) (hz : ∀ j, R.G j = 0 ↔ j.1 = 0) {nk : ℕ} (kp : Fin nk → KPoint)
    (kp' : Fin (n + 1) → Fin nk → KPoint) (τ : ∀ s i, Fin (kp i).idx.length ≃ Fin (kp' s i).idx.length) (hk : ∀ s i, KImage R (invOp (ops s) (H.group.unimod s)) (kp i) (kp' s i) (τ s i)) (hf : Fits R kp) :
    Fits R (allK kp') := by
  suffices hh : ∀ s i (a b : Fin (kp' s i).idx.length), ∃ m, ∀ c, R.G m c = (kp' s i).G a c - (kp' s i).G b c from fun m a b => hh _ _ a b
  intro s i a b
  obtain ⟨ρ, -, hg, -⟩ := H.image hz s
  obtain ⟨a, rfl⟩ := (τ s i).surjective a
  obtain ⟨b, rfl⟩ := (τ s i).surjective b
  obtain ⟨m, hm⟩ := hf i a b
  refine ⟨ρ.symm m, fun c => ?_⟩
  have h1 := congrFun ((hk s i).gk a) c
  have h2 := congrFun ((hk s i).gk b) c
  have h3 := hg.g m c
  have hmr : ∀ d, (R.G m d : ℝ) = gkv (kp i).G (kp i).k a d - gkv (kp i).G (kp i).k b d := by
    intro d
    rw [hm]
    unfold gkv
    push_cast
    ring
  have e : app (invOp (ops s) (H.group.unimod s)).S (fun d => (R.G m d : ℝ)) c = app (invOp (ops s) (H.group.unimod s)).S (gkv (kp i).G (kp i).k a) c - app (invOp (ops s) (H.group.unimod s)).S (gkv (kp i).G (kp i).k b) c := by
    unfold app
    rw [← Finset.sum_sub_distrib]
    refine Finset.sum_congr rfl fun d _ => ?_
    show _ * ((R.G m d : ℤ) : ℝ) = _
    rw [hmr]
    ring
  rw [e, ← h1, ← h2] at h3
  have : ((R.G (ρ.symm m) c : ℤ) : ℝ) = (((kp' s i).G (τ s i a) c - (kp' s i).G (τ s i b) c : ℤ) : ℝ) := by
    rw [h3]
    unfold gkv
    push_cast
    ring
  exact_mod_cast this

/-- **C218.** The energy that a run with a symmetrised density reports is the Kohn-Sham energy of orbitals at all the images of its k-points, and its density is the density of these orbitals. -/
theorem C218_energy (R : Run) {n : ℕ} (ops : Fin (n + 1) → SymOp) (sh : Shape) (key : GVec → ℤ) (gs : List GVec) (H : Acts R ops sh key gs) (hz : ∀ j, R.G j = 0 ↔ j.1 = 0) (hne : 0 < R.idx.length) (hx : PointByPoint R.exch)
    (hc : PointByPoint R.corr) (hdv : R.dv * R.d.size = R.cellvol) (hcell : R.cellvol ≠ 0) (sp : List Species)
    (hsp : ∀ s, List.Forall₂ (fun x x' => x'.D = x.D ∧ x.nl.Good ∧ Image (invOp (ops s) (H.group.unimod s)) x.nl x'.nl) sp sp) {nk nb : ℕ} (kp : Fin nk → KPoint)
    (kp' : Fin (n + 1) → Fin nk → KPoint) (τ : ∀ s i, Fin (kp i).idx.length ≃ Fin (kp' s i).idx.length) (hk : ∀ s i, KImage R (invOp (ops s) (H.group.unimod s)) (kp i) (kp' s i) (τ s i)) (hf : Fits R kp) (X : Sol R kp nb)
    (hnorm : ∀ t i b, ∑ j, Complex.normSq (X.psi t i b j) = 1) (hel : ∑ t, ∑ i, (kp i).w * ∑ b, X.occ t i b = R.numel) (hn0 : R.numel ≠ 0) (h : SymSelfConsistent R sp ops sh key gs kp X) :
    ∃ (psi' : Orbs R (allK kp') nb) (occ' : Fin R.ns → Fin ((n + 1) * nk) → Fin nb → ℝ), (∀ s i t b, occ' t (finProdFinEquiv (s, i)) b = X.occ t i b) ∧ (∀ t m b, ∑ j, Complex.normSq (psi' t m b j) = 1) ∧
      (∀ t m b, ham R.drv R.d (allK kp' m).idx R.st R.L (allK kp' m).G (allK kp' m).k (X.V t) (sp.map Species.nl) (psi' t m b) = (X.eps t (finProdFinEquiv.symm m).2 b : ℂ) • psi' t m b) ∧
      ksEnergy R sp (allK kp') occ' psi' = .ok X.en ∧ ∀ t r, R.space.toR (X.rho t) r = density R (allK kp') occ' psi' t r := by
  obtain ⟨X', hs, hrho, hV, heo, hpsi, -, -, hen⟩ := C218_symmetrised_run R ops sh key gs H hz hx hc sp hsp kp kp' τ hk X h
  have hnorm' : ∀ t m b, ∑ j, Complex.normSq (X'.psi t m b j) = 1 := by
    intro t m b
    have := hpsi t m b b
    simp only [← Complex.normSq_eq_conj_mul_self] at this
    rw [← Complex.ofReal_sum, ← Complex.ofReal_sum, hnorm] at this
    exact_mod_cast this
  have heo' : ∀ t m b, X'.eps t m b = X.eps t (finProdFinEquiv.symm m).2 b ∧ X'.occ t m b = X.occ t (finProdFinEquiv.symm m).2 b := by
    intro t m b
    have := heo (finProdFinEquiv.symm m).1 (finProdFinEquiv.symm m).2 t b
    rwa [Prod.mk.eta, Equiv.apply_symm_apply] at this
  have hel' : ∑ t, ∑ m, (allK kp' m).w * ∑ b, X'.occ t m b = R.numel := by
    rw [← hel]
    refine Finset.sum_congr rfl fun t _ => ?_
    simp only [(heo' t _ _).2]
    refine (sum_all (n := n) (fun s i => (kp' s i).w / ((n + 1 : ℕ) : ℝ) * ∑ b, X.occ t i b)).trans ?_
    simp only [(hk _ _).w]
    rw [Finset.sum_const, Finset.card_univ, Fintype.card_fin, nsmul_eq_mul, Finset.mul_sum]
    refine Finset.sum_congr rfl fun i _ => ?_
    rw [← mul_assoc, mul_div_cancel₀ _ (by exact_mod_cast Nat.succ_ne_zero n)]
  have key1 := C197_energy_is_kohn_sham R H.valid H.ix (fun j => (hz j).2) hne hdv hcell sp (allK kp') (fun m => (hk _ _).valid') (fun m => (hk _ _).ix') (fits_all R ops sh key gs H hz kp kp' τ hk hf) X' hnorm' hel' hn0 hs
  rw [hen, hrho] at key1
  obtain ⟨vh, vxc, -, -, -, f4, -, -⟩ := hs
  refine ⟨X'.psi, X'.occ, fun s i t b => (heo s i t b).2, hnorm', fun t m b => ?_, key1.1, key1.2⟩
  have := f4 t m b
  rw [hV, (heo' t m b).1] at this
  exact this

/-! ## A case that meets the hypotheses -/

theorem noXC_points (m : ℕ) : PointByPoint (noXC m) := fun _ _ _ _ _ _ _ => ⟨fun _ => rfl, fun _ _ => rfl, trivial⟩

/-- Two electrons in an empty cubic cell with a twofold screw axis, with the k-point (1/4, 0, 1/4) only: the hypotheses of C218; the axis carries the k-point to (-1/4, 0, 1/4). -/
example (drv : Driver) (st : DrvState ℂ) : ∃ (R : Run) (sh : Shape) (key : GVec → ℤ) (gs : List GVec) (H : Acts R (n := 1) exOps sh key gs) (kp : Fin 1 → KPoint) (kp' : Fin 2 → Fin 1 → KPoint)
    (τ : ∀ s i, Fin (kp i).idx.length ≃ Fin (kp' s i).idx.length) (X : Sol R kp 1), R.drv = drv ∧ (∀ j, R.G j = 0 ↔ j.1 = 0) ∧ 0 < R.idx.length ∧ PointByPoint R.exch ∧ PointByPoint R.corr ∧ R.dv * R.d.size = R.cellvol ∧
    R.cellvol ≠ 0 ∧ (∀ s i, KImage R (invOp (exOps s) (H.group.unimod s)) (kp i) (kp' s i) (τ s i)) ∧ Fits R kp ∧ (∀ t i b, ∑ j, Complex.normSq (X.psi t i b j) = 1) ∧ ∑ t, ∑ i, (kp i).w * ∑ b, X.occ t i b = R.numel ∧
    R.numel ≠ 0 ∧ SymSelfConsistent R [] exOps sh key gs kp X ∧ (kp' 1 0).k ≠ (kp 0).k := by
  obtain ⟨L, hL⟩ : ∃ L, mkLat 1 (1 : Mat) = .ok L := ⟨_, by unfold mkLat; rw [if_neg (by simp)]⟩
  have hn : ∀ v, L.norm2Cryst v = v 0 ^ 2 + v 1 ^ 2 + v 2 ^ 2 := by
    intro v
    rw [(Lattice.C26_metric 1 _ L hL v 0).2.1]
    obtain ⟨-, e1, e2, -⟩ := Lattice.mkLat_ok hL
    unfold Lat.cryst2cart dotCart dotProduct
    rw [e2]
    simp [Fin.sum_univ_three]
    ring
  let R : Run := ⟨drv, st, L, ⟨2, 2, 2⟩, [0], fun _ => 0, 1, 8, 2, fun _ => 0, 0, 1, one_pos, noXC _, noXC _⟩
  let kp : Fin 1 → KPoint := fun _ => ⟨[0], fun _ => 0, ![1 / 4, 0, 1 / 4], 1⟩
  have hv : ValidIdx ⟨2, 2, 2⟩ [0] := by unfold ValidIdx; decide
  have hix : ∀ G : Fin ([0] : List ℕ).length → Fin 3 → ℤ, (∀ j, G j = 0) → Indexes ⟨2, 2, 2⟩ [0] G := by
    intro G hG j a
    change Fin 1 at j
    have : ∀ (j : Fin 1) (a : Fin 3), coord ⟨2, 2, 2⟩ (([0] : List ℕ)[j]) a = 0 := by decide
    exact ⟨0, by rw [hG, zero_mul, add_zero]; exact (congrArg (Nat.cast : ℕ → ℤ) (this j a)).symm⟩
  have hgr : ∀ s : Fin 2, OnGrid ⟨2, 2, 2⟩ (invOp (exOps s) (exOps_group.unimod s)) := by
    intro s r hr
    have hr : r < 8 := hr
    have : ∀ (s : Fin 2) (r : Fin 8), ∃ r' : Fin 8, ∃ m : Fin 3 → Fin 3, ∀ a : Fin 3, (coord ⟨2, 2, 2⟩ r' a : ℤ) = ∑ b, (![1, !![-1, 0, 0; 0, -1, 0; 0, 0, 1]] : Fin 2 → Matrix (Fin 3) (Fin 3) ℤ) s a b * coord ⟨2, 2, 2⟩ r b
        - (![0, ![0, 0, 1]] : Fin 2 → Fin 3 → ℤ) s a + (((m a : ℕ) : ℤ) - 1) * (![2, 2, 2] : Fin 3 → ℤ) a := by
      decide
    obtain ⟨r', m, hm⟩ := this s ⟨r, hr⟩
    refine ⟨r', r'.2, fun a => ⟨((m a : ℕ) : ℤ) - 1, ?_⟩⟩
    have e : ((coord ⟨2, 2, 2⟩ r' a : ℤ) : ℝ) = _ := congrArg (Int.cast : ℤ → ℝ) (hm a)
    show pos ⟨2, 2, 2⟩ r' a = app (exOps s).W⁻¹ (pos ⟨2, 2, 2⟩ r) a + -app (exOps s).W⁻¹ (exOps s).t a + _
    rw [exOps_inv]
    unfold pos app
    fin_cases s <;> fin_cases a <;> simp [exOps, len, Fin.sum_univ_three] at e ⊢ <;> rw [e] <;> ring
  have hK : ∀ s : Fin 2, Keeps L (exOps s).W.transpose := by
    intro s v
    rw [hn, hn]
    fin_cases s <;> simp [exOps, app, Fin.sum_univ_three, Matrix.one_apply]
  let gs : List GVec := [(0, 0, 0)]
  have hrot : ∀ s : Fin 2, ∀ g ∈ gs, Symm.rotG (exOps s) g = g := by
    intro s g hg
    unfold Symm.rotG
    rw [exOps_R]
    have hg : g = (0, 0, 0) := by simpa [gs] using hg
    subst hg
    fin_cases s <;> simp [exOps, Symm.ofV, Symm.toV, Matrix.mulVec, dotProduct, Fin.sum_univ_three]
  have H : Acts R (n := 1) exOps ⟨2, 2, 2⟩ (fun g => g.1 ^ 2 + g.2.1 ^ 2 + g.2.2 ^ 2) gs :=
    { group := exOps_group
      basis := ⟨by unfold GSpace.Shape.Pos; decide, by decide, by decide, fun s g hg => by rw [hrot s g hg]; exact hg, fun s g hg => by rw [hrot s g hg]⟩
      lat := ⟨1, 1, hL⟩
      size := rfl
      g := fun j => by
        change Fin 1 at j
        fin_cases j
        funext a
        fin_cases a <;> rfl
      valid := hv
      ix := hix _ fun _ => rfl
      keeps := hK
      grid := hgr }
  have hz : ∀ r, R.space.toR (fun _ => 0) r = 0 := by
    intro r
    rw [KSEn.space_toR R hv]
    simp
  let X0 : Sol R kp 1 := ⟨fun _ _ => 0, fun _ _ => 0, fun _ _ _ _ => 1, fun _ _ _ => 1 / 16, fun _ _ _ => 2, 0, 0, 0⟩
  let rho : Fin 1 → Fin 1 → ℂ := fun s j => R.numel / ((∑ t, R.space.toG (X0.dens t) (0 : Fin 1)) * R.dv) * R.space.toG (X0.dens s) j
  have hxc : xcCompute R.space R.pos R.exch R.corr rho (R.core []) = .ok (fun _ _ => 0, 0) := by
    have e : R.exch.family = .lda := rfl
    have e' : R.corr.family = .lda := rfl
    unfold xcCompute xcAdd
    simp only [e, e', bind, Except.bind, pure, Except.pure]
    simp [R, noXC]
  obtain ⟨vh, eh, hh, hvh⟩ : ∃ vh eh, hartree R.nan R.norm2 true R.dv R.d.size (List.ofFn fun s => List.ofFn (rho s)) = .ok (vh, eh) ∧ ∀ j : Fin R.idx.length, vh.getD j 0 = 0 := by
    refine ⟨hartreeV R.nan R.norm2 true (List.ofFn fun s => List.ofFn (rho s)),
      hartreeEn R.norm2 (List.ofFn fun s => List.ofFn (rho s)) (hartreeV R.nan R.norm2 true (List.ofFn fun s => List.ofFn (rho s))) R.dv R.d.size, ?_, ?_⟩
    · unfold hartree checkRho
      simp
    · intro j
      have : (j : ℕ) = 0 := Nat.lt_one_iff.1 j.2
      rw [this]
      unfold hartreeV Run.norm2
      simp [R]
  have hz' : ∀ r, R.space.toR (fun j => vh.getD j 0) r = 0 := by
    intro r
    rw [show (fun j : Fin R.idx.length => vh.getD j 0) = fun _ => 0 from funext hvh]
    exact hz r
  let X : Sol R kp 1 := ⟨rho, fun _ _ => 0, fun _ _ _ _ => 1, fun _ _ _ => 1 / 16, fun _ _ _ => 2, eh, 0, ((∑ s : Fin R.ns, ∑ i, ((kp i).w : ℂ) * ∑ b : Fin 1, ((1 / 16 * 2 : ℝ) : ℂ)) - (∑ r, ∑ s, (R.space.toR (fun j => vh.getD j 0) r + 0) * R.space.toR (rho s) r) * R.dv).re + eh + 0⟩
  have h1 : ∀ (q : Fin ([0] : List ℕ).length → ℝ), ∑ j, q j = q 0 := fun q => Fin.sum_univ_one (fun j : Fin 1 => q j)
  refine ⟨R, ⟨2, 2, 2⟩, _, gs, H, kp, fun s _ => ⟨[0], fun _ => 0, ![![1 / 4, 0, 1 / 4], ![-1 / 4, 0, 1 / 4]] s, 1⟩, fun _ _ => Equiv.refl _, X, rfl, fun j => ⟨fun _ => Nat.lt_one_iff.1 j.2, fun _ => rfl⟩, Nat.one_pos, noXC_points _, noXC_points _, ?_, ?_,
    fun s i => ⟨hv, hv, hix _ fun _ => rfl, hix _ fun _ => rfl, rfl, fun j => ?_, fun j => .inr ?_⟩, fun _ _ _ => ⟨(0 : Fin 1), fun c => ?_⟩, ?_, ?_, ?_, ⟨vh, _, fun _ _ => 0, hh, hxc, ?_, ?_, ?_, rfl⟩, ?_⟩
  · norm_num [R, Dims.size]
  · norm_num [R]
  · show gkv _ _ _ = app (exOps s).W.transpose _
    funext a
    fin_cases s <;> fin_cases a <;> simp [gkv, app, exOps, Fin.sum_univ_three, Matrix.one_apply, kp] <;> norm_num
  · show _ < vlen (L.cryst2cart (gkv (fun _ => 0) ![1 / 4, 0, 1 / 4] j))
    rw [vlen_sq, dot_cart, ← (Lattice.C26_metric 1 _ L hL _ 0).2.1]
    refine Real.lt_sqrt_of_sq_lt ?_
    rw [hn]
    simp [gkv]
    norm_num
  · show (0 : ℤ) = 0 - 0
    norm_num
  · intro s i b
    refine (h1 _).trans ?_
    simp [X]
  · simp [R, X, kp]
  · norm_num [R]
  · intro s r
    rw [hz']
    have : R.space.toR (R.vion []) r = 0 := hz r
    rw [this]
    simp [X]
  · intro s i b
    funext j
    have hw : ∀ u : Fin (⟨2, 2, 2⟩ : Dims).size → ℂ, (∀ r, u r = 0) → wfG drv ⟨2, 2, 2⟩ [0] st u j = 0 := by
      intro u hu
      rw [wfG_eq drv _ _ hv]
      simp [hu]
    show ((1 / 2 * L.norm2Cryst (gkv (kp i).G (kp i).k j) : ℝ) : ℂ) * 1 + wfG drv ⟨2, 2, 2⟩ [0] st (fun r => wfR drv ⟨2, 2, 2⟩ [0] st (fun _ => 1) r * (((0 : ℝ) : ℂ) / _)) j = ((1 / 16 : ℝ) : ℂ) • (1 : ℂ)
    rw [hw _ fun r => by simp, hn]
    simp [gkv, kp]
    norm_num
  · intro s j j0 hj0
    have : j0 = (0 : Fin 1) := Fin.ext hj0
    rw [this]
    exact (H.zero _ _ j rfl).symm
  · intro h
    have := congrFun h 0
    simp [kp] at this
    norm_num at this

end Verif.Rot
