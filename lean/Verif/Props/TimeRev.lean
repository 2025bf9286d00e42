import Mathlib.Algebra.BigOperators.Fin
import Mathlib.Algebra.BigOperators.Field
import Mathlib.Data.List.GetD
import Verif.Props.KPts
import Verif.Props.WedgeScf

/-!
# Property C220: half of the k-points are enough
-/

namespace Verif.KPts

theorem count_sum (l : List ℕ) (v : ℕ) : (l.map fun x => if x = v then (1 : ℚ) else 0).sum = l.count v := by
  induction l with
  | nil => simp
  | cons a t ih =>
    rw [List.map_cons, List.sum_cons, ih, List.count_cons]
    by_cases h : a = v
    · simp [h, add_comm]
    · simp [h]

/-- **C220 (weights).** Whatever mapping of mesh points to representatives the symmetry library returns, every mesh point is represented by an entry of the reduced list, which is the mesh point that the mapping names, and the weight of
an entry is the sum of the equal weights of the mesh points it represents. -/
theorem C220_mesh_weights (mapping : List ℕ) (grid : List KVec) (hne : mapping ≠ []) (kl : KList) (h : mpSymm mapping grid = .ok (some kl)) :
    ∃ f : Fin mapping.length → Fin kl.k.length, (∀ m, kl.k[f m] = grid.getD mapping[m] (0, 0, 0)) ∧ kl.w.length = kl.k.length ∧
      ∀ i : Fin kl.k.length, ∑ m with f m = i, 1 / (mapping.length : ℚ) = kl.w.getD i 0 := by
  have hsum : ((uniqueCounts mapping).map fun p => (p.2 : ℚ)).sum = mapping.length := by
    have := sum_uniqueCounts mapping (fun _ => 1)
    simpa using this
  have hform : kl = ⟨(uniqueCounts mapping).map fun p => grid.getD p.1 (0, 0, 0), ((uniqueCounts mapping).map fun p => (p.2 : ℚ)).map (· / (mapping.length : ℚ))⟩ := by
    unfold mpSymm at h
    simp only at h
    cases hs : sanitizeWeights ((uniqueCounts mapping).map fun p => (p.2 : ℚ)) with
    | error e => rw [hs] at h; cases h
    | ok o =>
      rw [hs] at h
      cases o with
      | none => cases h
      | some w =>
        have hw : w = ((uniqueCounts mapping).map fun p => (p.2 : ℚ)).map (· / (mapping.length : ℚ)) := by
          unfold sanitizeWeights at hs
          split at hs
          · cases hs
          · split at hs
            · cases hs
            · rw [hsum] at hs
              cases hs
              rfl
        subst hw
        simp only [mkKList, List.length_map, if_true] at h
        injection h with h
        injection h with h
        exact h.symm
  subst hform
  set u := (mapping.mergeSort (· ≤ ·)).dedup with hu
  have hun : u.Nodup := List.nodup_dedup _
  have hmem : ∀ x ∈ mapping, x ∈ u := fun x hx => List.mem_dedup.2 ((List.mergeSort_perm mapping _).mem_iff.2 hx)
  have huc : uniqueCounts mapping = u.map fun v => (v, mapping.count v) := rfl
  have hlen : ((uniqueCounts mapping).map fun p => grid.getD p.1 (0, 0, 0)).length = u.length := by rw [huc]; simp
  refine ⟨fun m => ⟨u.idxOf mapping[m], by rw [hlen]; exact List.idxOf_lt_length_of_mem (hmem _ (List.getElem_mem _))⟩, fun m => ?_, by simp, fun i => ?_⟩
  · rw [Fin.getElem_fin, List.getElem_map]
    simp only [huc, List.getElem_map]
    congr 1
    exact List.getElem_idxOf (List.idxOf_lt_length_of_mem (hmem _ (List.getElem_mem _)))
  · have hi : (i : ℕ) < u.length := by rw [← hlen]; exact i.2
    have e : ∀ m : Fin mapping.length, ((⟨u.idxOf mapping[m], by rw [hlen]; exact List.idxOf_lt_length_of_mem (hmem _ (List.getElem_mem _))⟩ : Fin _) = i) ↔ mapping[m] = u[(i : ℕ)] := by
      intro m
      rw [Fin.ext_iff]
      show u.idxOf mapping[m] = _ ↔ _
      constructor
      · intro hh
        simp only [← hh]
        exact (List.getElem_idxOf (List.idxOf_lt_length_of_mem (hmem _ (List.getElem_mem _)))).symm
      · intro hh
        rw [hh]
        exact hun.idxOf_getElem _ _
    simp only [e]
    rw [Finset.sum_filter]
    have h1 : ∀ m : Fin mapping.length, (if mapping[m] = u[(i : ℕ)] then 1 / (mapping.length : ℚ) else 0) = (if mapping[m] = u[(i : ℕ)] then (1 : ℚ) else 0) / mapping.length := by
      intro m
      split <;> simp
    simp only [h1]
    rw [← Finset.sum_div]
    have h2 : ∑ m : Fin mapping.length, (if mapping[m] = u[(i : ℕ)] then (1 : ℚ) else 0) = (mapping.map fun x => if x = u[(i : ℕ)] then (1 : ℚ) else 0).sum := by
      rw [← Fin.sum_univ_getElem, ← Fin.sum_congr' _ (List.length_map (as := mapping) (fun x => if x = u[(i : ℕ)] then (1 : ℚ) else 0)).symm]
      refine Finset.sum_congr rfl fun m _ => ?_
      simp
    rw [h2, count_sum]
    rw [List.getD_eq_getElem (l := ((uniqueCounts mapping).map fun p => (p.2 : ℚ)).map (· / (mapping.length : ℚ))) (hn := by simp [huc, hi])]
    simp [huc]

end Verif.KPts

namespace Verif.Rot

open scoped ComplexConjugate
open Verif.FFT (Driver Dims DrvState ValidIdx)
open Verif.Nonloc Verif.Trans Verif.Pot Verif.Loc
open Verif.Lattice (Lat Mat mkLat dotCart)
open Verif.Symm (SymOp IsGroup)
open Verif.GSpace (GVec Shape at')
open Verif.KSEn (Fits Orbs density ksEnergy C197_energy_is_kohn_sham)

/-! ## Specification -/

/-- The k-point `q'` is `q` or (`rev`) `-q`, up to a reciprocal lattice vector: its plane waves `k' + G'` are those of `q`, or their negatives. -/
structure SameOrReversed (R : Run) (q q' : KPoint) (rev : Bool) (τ : Fin q.idx.length ≃ Fin q'.idx.length) : Prop where
  valid : ValidIdx R.d q.idx
  valid' : ValidIdx R.d q'.idx
  ix : Indexes R.d q.idx q.G
  ix' : Indexes R.d q'.idx q'.G
  gk : ∀ j c, gkv q'.G q'.k (τ j) c = (if rev then -1 else 1) * gkv q.G q.k j c
  away : ∀ j, Away (R.L.cryst2cart (gkv q.G q.k j))

/-- The k-points `kq` are the k-points `kp` and their negatives, with the weight of each `kp` distributed over those it stands for. -/
structure Stands (R : Run) {nk nq : ℕ} (kp : Fin nk → KPoint) (kq : Fin nq → KPoint) (f : Fin nq → Fin nk) (rev : Fin nq → Bool) (τ : ∀ m, Fin (kp (f m)).idx.length ≃ Fin (kq m).idx.length) : Prop where
  pt : ∀ m, SameOrReversed R (kp (f m)) (kq m) (rev m) (τ m)
  w : ∀ i, ∑ m with f m = i, (kq m).w = (kp i).w

/-- A wavefunction at `q'`: that at `q`, conjugate if reversed. -/
noncomputable def turned {n n' : ℕ} (rev : Bool) (τ : Fin n ≃ Fin n') (psi : Fin n → ℂ) : Fin n' → ℂ := fun i => if rev then conj (psi (τ.symm i)) else psi (τ.symm i)

/-! ## Lemmas -/

/-- The operation that does nothing. -/
def idOp : Op := ⟨1, 1, 0, by simp⟩

theorem app_id (v : Fin 3 → ℝ) : app 1 v = v := app_one v

theorem idGrid (d : Dims) : OnGrid d idOp := fun r hr => ⟨r, hr, fun a => ⟨0, by show _ = app 1 (pos d r) a + 0 + _; rw [app_id]; simp⟩⟩

theorem turned_spec (R : Run) (hL : ∃ u B, mkLat u B = .ok R.L) (q q' : KPoint) (rev : Bool) (τ : Fin q.idx.length ≃ Fin q'.idx.length) (H : SameOrReversed R q q' rev τ) (V : Fin R.d.size → ℝ) (sp : List Sp)
    (hsp : ∀ x ∈ sp, x.Good) :
    (∀ (e : ℝ) psi, ham R.drv R.d q.idx R.st R.L q.G q.k V sp psi = (e : ℂ) • psi → ham R.drv R.d q'.idx R.st R.L q'.G q'.k V sp (turned rev τ psi) = (e : ℂ) • turned rev τ psi) ∧
    (∀ psi chi, ∑ j, conj (turned rev τ psi j) * turned rev τ chi j = if rev then conj (∑ j, conj (psi j) * chi j) else ∑ j, conj (psi j) * chi j) ∧
    ∀ psi r, Complex.normSq (wfR R.drv R.d q'.idx R.st (turned rev τ psi) r) = Complex.normSq (wfR R.drv R.d q.idx R.st psi r) := by
  obtain ⟨u, B, hL⟩ := hL
  cases rev with
  | true =>
    have := C185_time_reversal R.drv R.st R.st u B R.L hL R.d q.idx q'.idx H.valid H.valid' q.G H.ix q'.G H.ix' q.k q'.k τ (fun j c => by rw [H.gk]; simp) H.away V sp hsp
    refine ⟨fun e psi h => (this.2.1 e psi).2 h, this.2.2.1, this.2.2.2⟩
  | false =>
    have hc : ∀ psi, carry idOp q'.G q'.k τ psi = turned false τ psi := by
      intro psi
      funext i
      have : ∑ c, idOp.t c * gkv q'.G q'.k i c = 0 := by simp [idOp]
      unfold carry turned
      rw [this]
      simp [ex]
    have hself : List.Forall₂ (fun x x' => x.Good ∧ Image idOp x x') sp sp := by
      rw [List.forall₂_same]
      exact fun x hx => ⟨hsp x hx, x.tau, rfl, Equiv.refl _, fun a c => ⟨0, by show _ = app 1 (x.tau a) c + 0 + _; rw [app_id]; simp⟩⟩
    have hcar : ∀ r : Fin R.d.size, Carried R.d idOp r r := fun r a => ⟨0, by show _ = app 1 (pos R.d r) a + 0 + _; rw [app_id]; simp⟩
    have := C184_equivalent_kpoints R.drv R.st R.st u B R.L hL idOp (fun v => by show R.L.norm2Cryst (app 1 v) = _; rw [app_id]) R.d (idGrid R.d) q.idx q'.idx H.valid H.valid' q.G H.ix q'.G H.ix' q.k q'.k τ
      (fun j => by show _ = app 1 _; rw [app_id]; funext c; rw [H.gk]; simp) H.away V V
      (fun r r' h => by
        have : r = r' := Fin.ext (carried_inj R.d idOp r r' r' r.2 r'.2 h (hcar r'))
        rw [this]) sp sp hself
    simp only [hc] at this
    exact ⟨fun e psi h => (this.2.1 e psi).2 h, this.2.2.1, fun psi r => this.2.2.2 psi r r (hcar r)⟩

/-- Sum over the k-points, by what they stand for. -/
theorem Stands.sum {R : Run} {nk nq : ℕ} {kp : Fin nk → KPoint} {kq : Fin nq → KPoint} {f : Fin nq → Fin nk} {rev : Fin nq → Bool} {τ : ∀ m, Fin (kp (f m)).idx.length ≃ Fin (kq m).idx.length}
    (H : Stands R kp kq f rev τ) (g : Fin nk → ℝ) : ∑ m, (kq m).w * g (f m) = ∑ i, (kp i).w * g i := by
  rw [← Finset.sum_fiberwise Finset.univ f]
  refine Finset.sum_congr rfl fun i _ => ?_
  rw [← H.w i, Finset.sum_mul]
  exact Finset.sum_congr rfl fun m hm => by rw [(Finset.mem_filter.1 hm).2]

/-! ## The property -/

/-- **C220.** Let a run be self-consistent at some k-points, and let `kq` be these k-points and their negatives (up to reciprocal lattice vectors), in any number and order, each with any share of the weight of the k-point that stands
for it. Then the run has a self-consistent solution at `kq` with the same density, the same potential, eigenvalues and occupations, the same Hartree, exchange-correlation and total energy; its orbitals are those at `kp` or their
complex conjugates, with the same inner products. -/
theorem C220_time_reversal (R : Run) (hL : ∃ u B, mkLat u B = .ok R.L) (sp : List Species) (hsp : ∀ x ∈ sp, x.nl.Good) {nk nq nb : ℕ} (kp : Fin nk → KPoint) (kq : Fin nq → KPoint) (f : Fin nq → Fin nk) (rev : Fin nq → Bool)
    (τ : ∀ m, Fin (kp (f m)).idx.length ≃ Fin (kq m).idx.length) (H : Stands R kp kq f rev τ) (X : Sol R kp nb) (h : SelfConsistent R sp kp X) :
    ∃ X' : Sol R kq nb, SelfConsistent R sp kq X' ∧ X'.rho = X.rho ∧ X'.V = X.V ∧ (∀ t m b, X'.eps t m b = X.eps t (f m) b ∧ X'.occ t m b = X.occ t (f m) b) ∧
      (∀ t m b j, X'.psi t m b (τ m j) = if rev m then conj (X.psi t (f m) b j) else X.psi t (f m) b j) ∧
      (∀ t m b c, ∑ j, conj (X'.psi t m b j) * X'.psi t m c j = if rev m then conj (∑ j, conj (X.psi t (f m) b j) * X.psi t (f m) c j) else ∑ j, conj (X.psi t (f m) b j) * X.psi t (f m) c j) ∧
      X'.eh = X.eh ∧ X'.exc = X.exc ∧ X'.en = X.en := by
  obtain ⟨vh, vxc, e1, e2, e3, e4, e5, e6⟩ := h
  have hsp' : ∀ x ∈ sp.map Species.nl, x.Good := by
    intro x hx
    obtain ⟨y, hy, rfl⟩ := List.mem_map.1 hx
    exact hsp y hy
  have T := fun m V => turned_spec R hL (kp (f m)) (kq m) (rev m) (τ m) (H.pt m) V (sp.map Species.nl) hsp'
  let X' : Sol R kq nb := ⟨X.rho, X.V, fun t m b => turned (rev m) (τ m) (X.psi t (f m) b), fun t m b => X.eps t (f m) b, fun t m b => X.occ t (f m) b, X.eh, X.exc, X.en⟩
  have hd : ∀ t, X'.dens t = X.dens t := by
    intro t
    funext r
    have key := H.sum fun i => ∑ b, X.occ t i b * Complex.normSq (wfR R.drv R.d (kp i).idx R.st (X.psi t i b) r) / R.cellvol
    have e : ∀ m b, Complex.normSq (wfR R.drv R.d (kq m).idx R.st (X'.psi t m b) r) = Complex.normSq (wfR R.drv R.d (kp (f m)).idx R.st (X.psi t (f m) b) r) := fun m b => (T m (X.V t)).2.2 _ r
    have key' := congrArg (fun x : ℝ => (x : ℂ)) key
    unfold Sol.dens
    simp only [e]
    push_cast at key' ⊢
    exact key'
  refine ⟨X', ⟨vh, vxc, e1, e2, e3, fun t m b => (T m (X.V t)).1 _ _ (e4 t (f m) b), ?_, ?_⟩, rfl, rfl, fun _ _ _ => ⟨rfl, rfl⟩, fun t m b j => ?_, fun t m b c => (T m (X.V t)).2.1 _ _, rfl, rfl, rfl⟩
  · intro t j j0 hj0
    show X.rho t j = _
    rw [e5 t j j0 hj0]
    simp only [hd]
  · show X.en = _
    rw [e6]
    have : ∀ t, ∑ m, ((kq m).w : ℂ) * ∑ b, ((X'.eps t m b * X'.occ t m b : ℝ) : ℂ) = ∑ i, ((kp i).w : ℂ) * ∑ b, ((X.eps t i b * X.occ t i b : ℝ) : ℂ) := by
      intro t
      have key := H.sum fun i => ∑ b, X.eps t i b * X.occ t i b
      have := congrArg (fun x : ℝ => (x : ℂ)) key
      push_cast at this ⊢
      exact this
    simp only [this]
    rfl
  · show turned _ _ _ (τ m j) = _
    unfold turned
    rw [(τ m).symm_apply_apply]

/-- **C220.** The energy that such a run reports is the Kohn-Sham energy of the orbitals at all the k-points `kq`, and its density is the density of these orbitals. -/
theorem C220_energy (R : Run) (hL : ∃ u B, mkLat u B = .ok R.L) (hv : ValidIdx R.d R.idx) (hix : Indexes R.d R.idx R.G) (hzero : ∀ j, j.1 = 0 → R.G j = 0) (hne : 0 < R.idx.length) (hdv : R.dv * R.d.size = R.cellvol)
    (hcell : R.cellvol ≠ 0) (sp : List Species) (hsp : ∀ x ∈ sp, x.nl.Good) {nk nq nb : ℕ} (kp : Fin nk → KPoint) (kq : Fin nq → KPoint) (f : Fin nq → Fin nk) (rev : Fin nq → Bool)
    (τ : ∀ m, Fin (kp (f m)).idx.length ≃ Fin (kq m).idx.length) (H : Stands R kp kq f rev τ) (hf : Fits R kp) (X : Sol R kp nb) (hnorm : ∀ t i b, ∑ j, Complex.normSq (X.psi t i b j) = 1)
    (hel : ∑ t, ∑ i, (kp i).w * ∑ b, X.occ t i b = R.numel) (hn0 : R.numel ≠ 0) (h : SelfConsistent R sp kp X) :
    ∃ psi' : Orbs R kq nb, (∀ t m b j, psi' t m b (τ m j) = if rev m then conj (X.psi t (f m) b j) else X.psi t (f m) b j) ∧
      (∀ t m b, ham R.drv R.d (kq m).idx R.st R.L (kq m).G (kq m).k (X.V t) (sp.map Species.nl) (psi' t m b) = (X.eps t (f m) b : ℂ) • psi' t m b) ∧
      ksEnergy R sp kq (fun t m b => X.occ t (f m) b) psi' = .ok X.en ∧ ∀ t r, R.space.toR (X.rho t) r = density R kq (fun t m b => X.occ t (f m) b) psi' t r := by
  obtain ⟨X', hs, hrho, hV, heo, hpsi, hin, -, -, hen⟩ := C220_time_reversal R hL sp hsp kp kq f rev τ H X h
  have hocc : X'.occ = fun t m b => X.occ t (f m) b := by
    funext t m b
    exact (heo t m b).2
  have hnorm' : ∀ t m b, ∑ j, Complex.normSq (X'.psi t m b j) = 1 := by
    intro t m b
    rw [← Equiv.sum_comp (τ m), ← hnorm t (f m) b]
    refine Finset.sum_congr rfl fun j _ => ?_
    rw [hpsi]
    split
    · rw [Complex.normSq_conj]
    · rfl
  have hel' : ∑ t, ∑ m, (kq m).w * ∑ b, X'.occ t m b = R.numel := by
    rw [← hel, hocc]
    exact Finset.sum_congr rfl fun t _ => H.sum fun i => ∑ b, X.occ t i b
  have hfit : Fits R kq := by
    intro m a b
    obtain ⟨a, rfl⟩ := (τ m).surjective a
    obtain ⟨b, rfl⟩ := (τ m).surjective b
    have h1 := (H.pt m).gk a
    have h2 := (H.pt m).gk b
    unfold gkv at h1 h2
    cases hr : rev m with
    | true =>
      obtain ⟨g, hg⟩ := hf (f m) b a
      refine ⟨g, fun c => ?_⟩
      rw [hg]
      have p1 := h1 c
      have p2 := h2 c
      rw [hr] at p1 p2
      have : (((kq m).G (τ m a) c - (kq m).G (τ m b) c : ℤ) : ℝ) = (((kp (f m)).G b c - (kp (f m)).G a c : ℤ) : ℝ) := by
        push_cast
        simp only [if_true] at p1 p2
        linarith
      exact_mod_cast this.symm
    | false =>
      obtain ⟨g, hg⟩ := hf (f m) a b
      refine ⟨g, fun c => ?_⟩
      rw [hg]
      have p1 := h1 c
      have p2 := h2 c
      rw [hr] at p1 p2
      have : (((kq m).G (τ m a) c - (kq m).G (τ m b) c : ℤ) : ℝ) = (((kp (f m)).G a c - (kp (f m)).G b c : ℤ) : ℝ) := by
        push_cast
        simp only [Bool.false_eq_true, if_false] at p1 p2
        linarith
      exact_mod_cast this.symm
  have key := C197_energy_is_kohn_sham R hv hix hzero hne hdv hcell sp kq (fun m => (H.pt m).valid') (fun m => (H.pt m).ix') hfit X' hnorm' hel' hn0 hs
  rw [hocc, hen, hrho] at key
  obtain ⟨-, -, -, -, -, f4, -, -⟩ := hs
  refine ⟨X'.psi, hpsi, fun t m b => ?_, key⟩
  have := f4 t m b
  rw [hV, (heo t m b).1] at this
  exact this

/-- **C220 (with C218).** A run that symmetrises the density, at the k-points that are left after reduction by the space group and by time reversal, has the density, potential and energies of a run without symmetrisation at all images of
these k-points and their negatives. -/
theorem C220_symmetrised (R : Run) {n : ℕ} (ops : Fin (n + 1) → SymOp) (sh : Shape) (key : GVec → ℤ) (gs : List GVec) (A : Acts R ops sh key gs) (hz : ∀ j, R.G j = 0 ↔ j.1 = 0) (hx : PointByPoint R.exch)
    (hc : PointByPoint R.corr) (sp : List Species) (hsp : ∀ s, List.Forall₂ (fun x x' => x'.D = x.D ∧ x.nl.Good ∧ Image (invOp (ops s) (A.group.unimod s)) x.nl x'.nl) sp sp) {nk nq nb : ℕ} (kp : Fin nk → KPoint)
    (kp' : Fin (n + 1) → Fin nk → KPoint) (τ : ∀ s i, Fin (kp i).idx.length ≃ Fin (kp' s i).idx.length) (hk : ∀ s i, KImage R (invOp (ops s) (A.group.unimod s)) (kp i) (kp' s i) (τ s i))
    (kq : Fin nq → KPoint) (f : Fin nq → Fin ((n + 1) * nk)) (rev : Fin nq → Bool) (τq : ∀ m, Fin (allK kp' (f m)).idx.length ≃ Fin (kq m).idx.length) (H : Stands R (allK kp') kq f rev τq) (X : Sol R kp nb)
    (h : SymSelfConsistent R sp ops sh key gs kp X) :
    ∃ X' : Sol R kq nb, SelfConsistent R sp kq X' ∧ X'.rho = X.rho ∧ X'.V = X.V ∧
      (∀ t m b, X'.eps t m b = X.eps t (finProdFinEquiv.symm (f m)).2 b ∧ X'.occ t m b = X.occ t (finProdFinEquiv.symm (f m)).2 b) ∧ X'.eh = X.eh ∧ X'.exc = X.exc ∧ X'.en = X.en := by
  obtain ⟨X1, s1, r1, v1, o1, -, h1, x1, n1⟩ := C218_symmetrised_run R ops sh key gs A hz hx hc sp hsp kp kp' τ hk X h
  have hg : ∀ x ∈ sp, x.nl.Good := by
    have := hsp 0
    intro x hx
    obtain ⟨i, hi, rfl⟩ := List.getElem_of_mem hx
    exact (this.get hi hi).2.1
  obtain ⟨X2, s2, r2, v2, o2, -, -, h2, x2, n2⟩ := C220_time_reversal R A.lat sp hg (allK kp') kq f rev τq H X1 s1
  refine ⟨X2, s2, r2.trans r1, v2.trans v1, fun t m b => ?_, h2.trans h1, x2.trans x1, n2.trans n1⟩
  have := o1 (finProdFinEquiv.symm (f m)).1 (finProdFinEquiv.symm (f m)).2 t b
  rw [Prod.mk.eta, Equiv.apply_symm_apply] at this
  exact ⟨(o2 t m b).1.trans this.1, (o2 t m b).2.trans this.2⟩

/-! ## A case that meets the hypotheses -/

/-- Two electrons in an empty cubic cell, with the k-point (1/4, 0, 1/4) for itself and its negative: the hypotheses of C220. -/
example (drv : Driver) (st : DrvState ℂ) : ∃ (R : Run) (kp : Fin 1 → KPoint) (kq : Fin 2 → KPoint) (τ : ∀ m, Fin (kp 0).idx.length ≃ Fin (kq m).idx.length) (X : Sol R kp 1), R.drv = drv ∧ (∃ u B, mkLat u B = .ok R.L) ∧
    ValidIdx R.d R.idx ∧ Indexes R.d R.idx R.G ∧ (∀ j, j.1 = 0 → R.G j = 0) ∧ 0 < R.idx.length ∧ R.dv * R.d.size = R.cellvol ∧ R.cellvol ≠ 0 ∧ Stands R kp kq (fun _ => 0) ![false, true] τ ∧ Fits R kp ∧
    (∀ t i b, ∑ j, Complex.normSq (X.psi t i b j) = 1) ∧ ∑ t, ∑ i, (kp i).w * ∑ b, X.occ t i b = R.numel ∧ R.numel ≠ 0 ∧ SelfConsistent R [] kp X ∧ (kq 1).k ≠ (kq 0).k := by
  obtain ⟨L, hL⟩ : ∃ L, mkLat 1 (1 : Mat) = .ok L := ⟨_, by unfold mkLat; rw [if_neg (by simp)]⟩
  have hn : ∀ v, L.norm2Cryst v = v 0 ^ 2 + v 1 ^ 2 + v 2 ^ 2 := by
    intro v
    rw [(Lattice.C26_metric 1 _ L hL v 0).2.1]
    obtain ⟨-, e1, e2, -⟩ := Lattice.mkLat_ok hL
    unfold Lat.cryst2cart dotCart dotProduct
    rw [e2]
    simp [Fin.sum_univ_three]
    ring
  let R : Run := ⟨drv, st, L, ⟨2, 2, 2⟩, [0], fun _ => 0, 1, 8, 2, fun _ => 0, 0, 1, one_pos, noXC _, noXC _⟩
  let kp : Fin 1 → KPoint := fun _ => ⟨[0], fun _ => 0, ![1 / 4, 0, 1 / 4], 1⟩
  have hv : ValidIdx ⟨2, 2, 2⟩ [0] := by unfold ValidIdx; decide
  have hix : ∀ G : Fin ([0] : List ℕ).length → Fin 3 → ℤ, (∀ j, G j = 0) → Indexes ⟨2, 2, 2⟩ [0] G := by
    intro G hG j a
    change Fin 1 at j
    have : ∀ (j : Fin 1) (a : Fin 3), coord ⟨2, 2, 2⟩ (([0] : List ℕ)[j]) a = 0 := by decide
    exact ⟨0, by rw [hG, zero_mul, add_zero]; exact (congrArg (Nat.cast : ℕ → ℤ) (this j a)).symm⟩
  have hz : ∀ r, R.space.toR (fun _ => 0) r = 0 := by
    intro r
    rw [KSEn.space_toR R hv]
    simp
  let X0 : Sol R kp 1 := ⟨fun _ _ => 0, fun _ _ => 0, fun _ _ _ _ => 1, fun _ _ _ => 1 / 16, fun _ _ _ => 2, 0, 0, 0⟩
  let rho : Fin 1 → Fin 1 → ℂ := fun s j => R.numel / ((∑ t, R.space.toG (X0.dens t) (0 : Fin 1)) * R.dv) * R.space.toG (X0.dens s) j
  have hxc : xcCompute R.space R.pos R.exch R.corr rho (R.core []) = .ok (fun _ _ => 0, 0) := by
    have e : R.exch.family = .lda := rfl
    have e' : R.corr.family = .lda := rfl
    unfold xcCompute xcAdd
    simp only [e, e', bind, Except.bind, pure, Except.pure]
    simp [R, noXC]
  obtain ⟨vh, eh, hh, hvh⟩ : ∃ vh eh, hartree R.nan R.norm2 true R.dv R.d.size (List.ofFn fun s => List.ofFn (rho s)) = .ok (vh, eh) ∧ ∀ j : Fin R.idx.length, vh.getD j 0 = 0 := by
    refine ⟨hartreeV R.nan R.norm2 true (List.ofFn fun s => List.ofFn (rho s)),
      hartreeEn R.norm2 (List.ofFn fun s => List.ofFn (rho s)) (hartreeV R.nan R.norm2 true (List.ofFn fun s => List.ofFn (rho s))) R.dv R.d.size, ?_, ?_⟩
    · unfold hartree checkRho
      simp
    · intro j
      have : (j : ℕ) = 0 := Nat.lt_one_iff.1 j.2
      rw [this]
      unfold hartreeV Run.norm2
      simp [R]
  have hz' : ∀ r, R.space.toR (fun j => vh.getD j 0) r = 0 := by
    intro r
    rw [show (fun j : Fin R.idx.length => vh.getD j 0) = fun _ => 0 from funext hvh]
    exact hz r
  let X : Sol R kp 1 := ⟨rho, fun _ _ => 0, fun _ _ _ _ => 1, fun _ _ _ => 1 / 16, fun _ _ _ => 2, eh, 0, ((∑ s : Fin R.ns, ∑ i, ((kp i).w : ℂ) * ∑ b : Fin 1, ((1 / 16 * 2 : ℝ) : ℂ)) - (∑ r, ∑ s, (R.space.toR (fun j => vh.getD j 0) r + 0) * R.space.toR (rho s) r) * R.dv).re + eh + 0⟩
  have h1 : ∀ (q : Fin ([0] : List ℕ).length → ℝ), ∑ j, q j = q 0 := fun q => Fin.sum_univ_one (fun j : Fin 1 => q j)
  refine ⟨R, kp, fun m => ⟨[0], fun _ => 0, ![![1 / 4, 0, 1 / 4], ![-1 / 4, 0, -1 / 4]] m, 1 / 2⟩, fun _ => Equiv.refl _, X, rfl, ⟨1, 1, hL⟩, hv, hix _ fun _ => rfl, fun _ _ => rfl, Nat.one_pos, ?_, ?_,
    ⟨fun m => ⟨hv, hv, hix _ fun _ => rfl, hix _ fun _ => rfl, fun j c => ?_, fun j => .inr ?_⟩, fun i => ?_⟩, fun _ _ _ => ⟨(0 : Fin 1), fun c => ?_⟩, ?_, ?_, ?_, ⟨vh, fun _ _ => 0, hh, hxc, ?_, ?_, ?_, rfl⟩, ?_⟩
  · norm_num [R, Dims.size]
  · norm_num [R]
  · fin_cases m <;> fin_cases c <;> simp [gkv, kp] <;> norm_num
  · show _ < vlen (L.cryst2cart (gkv (fun _ => 0) ![1 / 4, 0, 1 / 4] j))
    rw [vlen_sq, dot_cart, ← (Lattice.C26_metric 1 _ L hL _ 0).2.1]
    refine Real.lt_sqrt_of_sq_lt ?_
    rw [hn]
    simp [gkv]
    norm_num
  · have : i = 0 := Subsingleton.elim _ _
    subst this
    simp [kp]
  · show (0 : ℤ) = 0 - 0
    norm_num
  · intro s i b
    refine (h1 _).trans ?_
    simp [X]
  · simp [R, X, kp]
  · norm_num [R]
  · intro s r
    rw [hz']
    have : R.space.toR (R.vion []) r = 0 := hz r
    rw [this]
    simp [X]
  · intro s i b
    funext j
    have hw : ∀ u : Fin (⟨2, 2, 2⟩ : Dims).size → ℂ, (∀ r, u r = 0) → wfG drv ⟨2, 2, 2⟩ [0] st u j = 0 := by
      intro u hu
      rw [wfG_eq drv _ _ hv]
      simp [hu]
    show ((1 / 2 * L.norm2Cryst (gkv (kp i).G (kp i).k j) : ℝ) : ℂ) * 1 + wfG drv ⟨2, 2, 2⟩ [0] st (fun r => wfR drv ⟨2, 2, 2⟩ [0] st (fun _ => 1) r * (((0 : ℝ) : ℂ) / _)) j = ((1 / 16 : ℝ) : ℂ) • (1 : ℂ)
    rw [hw _ fun r => by simp, hn]
    simp [gkv, kp]
    norm_num
  · intro s j j0 hj0
    have : j0 = (0 : Fin 1) := Fin.ext hj0
    rw [this]
    rfl
  · intro h
    have := congrFun h 0
    simp [kp] at this
    norm_num at this

end Verif.Rot
