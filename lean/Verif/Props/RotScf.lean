import Verif.Props.RotPot

/-!
# C189: self-consistent solutions of a crystal and of its image under a space-group operation
-/

namespace Verif.Rot

open scoped ComplexConjugate
open Verif.FFT (Driver Dims DrvState ValidIdx)
open Verif.Nonloc Verif.Trans Verif.Pot Verif.Loc
open Verif.Lattice (Lat Mat mkLat dotCart)

/-- What a run does not change: FFT driver, reciprocal lattice, grid, the G-vectors of densities and potentials, volumes, number of electrons, number of spin components, functionals. -/
structure Run where
  drv : Driver
  st : DrvState ℂ
  L : Lat
  d : Dims
  idx : List ℕ
  G : Fin idx.length → Fin 3 → ℤ
  dv : ℝ
  cellvol : ℝ
  numel : ℝ
  erf : ℝ → ℝ
  nan : ℂ
  ns : ℕ
  pos : 0 < ns
  exch : XCFunc ns d.size
  corr : XCFunc ns d.size

/-- A species: radial data, and non-local part with the atoms. -/
structure Species where
  D : RadialData
  nl : Sp

/-- The atoms of a species. -/
def Species.atoms (x : Species) : List (Fin 3 → ℝ) := List.ofFn fun a : Fin x.nl.nat => x.nl.tau a

/-- A k-point with its plane waves and weight. -/
structure KPoint where
  idx : List ℕ
  G : Fin idx.length → Fin 3 → ℤ
  k : Fin 3 → ℝ
  w : ℝ

/-- Squared lengths of the G-vectors. -/
noncomputable def Run.norm2 (R : Run) : List ℝ := List.ofFn fun j => R.L.norm2Cryst fun a => R.G j a

/-- G-vectors and lengths by number. -/
def Run.gAt (R : Run) (j : ℕ) : Fin 3 → ℤ := if h : j < R.idx.length then R.G ⟨j, h⟩ else 0

noncomputable def Run.gnorm (R : Run) (j : ℕ) : ℝ := Real.sqrt (R.L.norm2Cryst fun a => R.gAt j a)

/-- The transforms of densities. -/
noncomputable def Run.space (R : Run) : XCSpace R.d.size R.idx.length := fftSpace R.drv R.d R.idx R.st (fun c j => R.L.cryst2cart (fun a => R.G j a) c) R.dv

/-- Ionic potential and core density, summed over the species (scf.py:305-312). -/
noncomputable def Run.vion (R : Run) (sp : List Species) (j : Fin R.idx.length) : ℂ := (sp.map fun x => vIon R.erf x.D true R.cellvol R.d.size x.atoms R.gAt R.gnorm j).sum

noncomputable def Run.core (R : Run) (sp : List Species) (j : Fin R.idx.length) : ℂ := (sp.map fun x => rhoCore x.D true R.cellvol R.d.size x.atoms R.gAt R.gnorm j).sum

/-- What a run ends with: densities, potentials, states, their energies and occupations, Hartree and exchange-correlation energy, and the total energy without the Ewald energy. -/
structure Sol (R : Run) {nk : ℕ} (kp : Fin nk → KPoint) (nb : ℕ) where
  rho : Fin R.ns → Fin R.idx.length → ℂ
  V : Fin R.ns → Fin R.d.size → ℝ
  psi : Fin R.ns → (i : Fin nk) → Fin nb → Fin (kp i).idx.length → ℂ
  eps : Fin R.ns → Fin nk → Fin nb → ℝ
  occ : Fin R.ns → Fin nk → Fin nb → ℝ
  eh : ℝ
  exc : ℝ
  en : ℝ

/-- The density of the states on the grid (before normalisation). -/
noncomputable def Sol.dens {R : Run} {nk nb : ℕ} {kp : Fin nk → KPoint} (X : Sol R kp nb) (s : Fin R.ns) (r : Fin R.d.size) : ℂ :=
  ∑ i, (kp i).w * ∑ b, (X.occ s i b * Complex.normSq (wfR R.drv R.d (kp i).idx R.st (X.psi s i b) r) / R.cellvol : ℝ)

/-- Self-consistency, in terms of the models of the code: the local potential is the ionic plus Hartree plus exchange-correlation potential of the density (and real), the states are eigenstates of the
Hamiltonian with that potential, the density is that of the states normalised to the number of electrons, the energies are those the driver computes. -/
def SelfConsistent (R : Run) (sp : List Species) {nk nb : ℕ} (kp : Fin nk → KPoint) (X : Sol R kp nb) : Prop :=
  ∃ (vh : List ℂ) (vxc : Fin R.ns → Fin R.d.size → ℂ),
    hartree R.nan R.norm2 true R.dv R.d.size (List.ofFn fun s => List.ofFn (X.rho s)) = .ok (vh, X.eh) ∧
    xcCompute R.space R.pos R.exch R.corr X.rho (R.core sp) = .ok (vxc, X.exc) ∧
    (∀ s r, (X.V s r : ℂ) = R.space.toR (R.vion sp) r + R.space.toR (fun j => vh.getD j 0) r + vxc s r) ∧
    (∀ s i b, ham R.drv R.d (kp i).idx R.st R.L (kp i).G (kp i).k (X.V s) (sp.map Species.nl) (X.psi s i b) = (X.eps s i b : ℂ) • X.psi s i b) ∧
    (∀ s j, ∀ j0 : Fin R.idx.length, j0.1 = 0 → X.rho s j = R.numel / ((∑ t, R.space.toG (X.dens t) j0) * R.dv) * R.space.toG (X.dens s) j) ∧
    X.en = ((∑ s, ∑ i, ((kp i).w : ℂ) * ∑ b, ((X.eps s i b * X.occ s i b : ℝ) : ℂ)) - (∑ r, ∑ s, (R.space.toR (fun j => vh.getD j 0) r + vxc s r) * R.space.toR (X.rho s) r) * R.dv).re + X.eh + X.exc

/-- The k-point `q'` is the image of `q`, its plane waves are the images of those of `q`. -/
structure KImage (R : Run) (op : Op) (q q' : KPoint) (σ : Fin q.idx.length ≃ Fin q'.idx.length) : Prop where
  valid : ValidIdx R.d q.idx
  valid' : ValidIdx R.d q'.idx
  ix : Indexes R.d q.idx q.G
  ix' : Indexes R.d q'.idx q'.G
  w : q'.w = q.w
  gk : ∀ j, gkv q'.G q'.k (σ j) = app op.S (gkv q.G q.k j)
  away : ∀ j, Away (R.L.cryst2cart (gkv q.G q.k j))

/-- The operation maps the density G-vectors to themselves. -/
structure GImage (R : Run) (op : Op) (σ : Equiv.Perm (Fin R.idx.length)) : Prop where
  lat : ∃ u B, mkLat u B = .ok R.L
  keeps : Keeps R.L op.S
  grid : OnGrid R.d op
  valid : ValidIdx R.d R.idx
  ix : Indexes R.d R.idx R.G
  g : ∀ j a, (R.G (σ j) a : ℝ) = app op.S (fun b => R.G j b) a
  zero : ∀ j, R.G j = 0 ↔ j.1 = 0

theorem Run.gAt_fin (R : Run) (j : Fin R.idx.length) : R.gAt j = R.G j := by
  unfold Run.gAt
  rw [dif_pos j.2]

theorem GImage.fix {R : Run} {op : Op} {σ : Equiv.Perm (Fin R.idx.length)} (hs : GImage R op σ) (j : Fin R.idx.length) : ((σ j : Fin _) : ℕ) = 0 ↔ j.1 = 0 := by
  rw [← hs.zero, ← hs.zero]
  obtain ⟨u, B, hL⟩ := hs.lat
  have e : (fun a => (R.G (σ j) a : ℝ)) = app op.S (fun b => R.G j b) := funext (hs.g j)
  have z := (Lattice.C26_metric u B R.L hL (fun a => (R.G (σ j) a : ℝ)) 0).2.2.2.2
  have z2 := (Lattice.C26_metric u B R.L hL (fun a => (R.G j a : ℝ)) 0).2.2.2.2
  have q := hs.keeps (fun b => R.G j b)
  rw [← e] at q
  have hz : ∀ i : Fin R.idx.length, (fun a => (R.G i a : ℝ)) = 0 ↔ R.G i = 0 := by
    intro i
    constructor
    · intro h
      funext a
      simpa using congrFun h a
    · intro h
      funext a
      rw [h]
      simp
  rw [← hz, ← hz, ← z, ← z2, q]

theorem vion_rot (R : Run) (op : Op) (σ : Equiv.Perm (Fin R.idx.length)) (hs : GImage R op σ) (sp sp' : List Species) (hsp : List.Forall₂ (fun x x' => x'.D = x.D ∧ Image op x.nl x'.nl) sp sp') (j : Fin R.idx.length) :
    R.vion sp' (σ j) = ex (∑ a, op.t a * R.G (σ j) a) * R.vion sp j ∧ R.core sp' (σ j) = ex (∑ a, op.t a * R.G (σ j) a) * R.core sp j := by
  unfold Run.vion Run.core
  have hl : R.gnorm (σ j) = R.gnorm j := by
    unfold Run.gnorm
    rw [R.gAt_fin, R.gAt_fin]
    have := hs.keeps (fun b => R.G j b)
    have e : (fun a => (R.G (σ j) a : ℝ)) = app op.S (fun b => R.G j b) := funext (hs.g j)
    rw [e, this]
  have h0 := hs.fix j
  induction hsp with
  | nil => simp
  | @cons x x' l l' hx _ ih =>
    obtain ⟨hD, tau', hx', π, hπ⟩ := hx
    have hF : List.Forall₂ (fun a b : Fin 3 → ℝ => ∀ c, ∃ m : ℤ, b c = app op.W a c + op.t c + m) x.atoms (List.ofFn fun a : Fin x.nl.nat => tau' (π a)) := by
      unfold Species.atoms
      rw [List.forall₂_iff_get]
      refine ⟨by simp, fun i h1 h2 => ?_⟩
      simp only [List.get_ofFn]
      exact hπ _
    have hP : (List.ofFn fun a : Fin x.nl.nat => tau' (π a)).Perm x'.atoms := by
      unfold Species.atoms
      rw [hx']
      exact Equiv.Perm.ofFn_comp_perm π fun a : Fin x.nl.nat => tau' a
    obtain ⟨-, k2, k3⟩ := C187_atoms R.erf x.D true R.dv R.cellvol R.d.size R.gnorm op x.atoms _ x'.atoms hF hP R.gAt j (σ j) (by rw [R.gAt_fin, R.gAt_fin]; exact hs.g j) hl (fun _ => h0)
    rw [R.gAt_fin] at k2 k3
    simp only [List.map_cons, List.sum_cons]
    rw [hD, k2, k3, ih.1, ih.2]
    exact ⟨by ring, by ring⟩

theorem hart_rot (R : Run) (op : Op) (σ : Equiv.Perm (Fin R.idx.length)) (hs : GImage R op σ) (rho rho' : Fin R.ns → Fin R.idx.length → ℂ) (hr : ∀ s j, rho' s (σ j) = ex (∑ a, op.t a * R.G (σ j) a) * rho s j)
    (vh : List ℂ) (eh : ℝ) (h : hartree R.nan R.norm2 true R.dv R.d.size (List.ofFn fun s => List.ofFn (rho s)) = .ok (vh, eh)) :
    ∃ vh', hartree R.nan R.norm2 true R.dv R.d.size (List.ofFn fun s => List.ofFn (rho' s)) = .ok (vh', eh) ∧ ∀ j : Fin R.idx.length, vh'.getD (σ j) 0 = ex (∑ a, op.t a * R.G (σ j) a) * vh.getD j 0 := by
  have hl : R.norm2.length = R.idx.length := by unfold Run.norm2; simp
  have hn : ∀ i (hi : i < R.norm2.length), R.norm2[i] = R.L.norm2Cryst fun a => R.G ⟨i, hl ▸ hi⟩ a := by
    intro i hi
    simp only [Run.norm2, List.getElem_ofFn]
  obtain ⟨u, B, hL⟩ := hs.lat
  let c : Fin R.norm2.length ≃ Fin R.idx.length := finCongr hl
  have k := C187_hartree R.nan op R.norm2 true R.dv R.d.size (fun j => R.G (c j)) (c.trans (σ.trans c.symm)) ?_ ?_ (List.ofFn fun s => List.ofFn (rho s)) (List.ofFn fun s => List.ofFn (rho' s)) ?_
  · rw [h] at k
    revert k
    generalize hartree R.nan R.norm2 true R.dv R.d.size (List.ofFn fun s => List.ofFn (rho' s)) = o
    intro k
    cases o with
    | error e => exact k.elim
    | ok o =>
      refine ⟨o.1, ?_, fun j => ?_⟩
      · have := k.2
        simp only at this
        rw [← this]
      · have := k.1 (c.symm j)
        simpa [c] using this
  · intro j
    have e : (fun a => (R.G (σ (c j)) a : ℝ)) = app op.S (fun b => R.G (c j) b) := funext (hs.g _)
    have q := hs.keeps (fun b => R.G (c j) b)
    rw [← e] at q
    have a1 := hn (c.symm (σ (c j))) (c.symm (σ (c j))).2
    have a2 := hn j j.2
    exact a1.trans (q.trans a2.symm)
  · intro j
    have a2 := hn j j.2
    refine Iff.trans (by rw [show R.norm2[j] = _ from a2]) ?_
    rw [(Lattice.C26_metric u B R.L hL _ 0).2.2.2.2]
    have := hs.zero (c j)
    constructor
    · intro z
      refine ⟨rfl, this.1 ?_⟩
      funext a
      exact Int.cast_eq_zero.1 (congrFun z a)
    · rintro ⟨-, z⟩
      have z2 := this.2 z
      funext a
      show ((R.G (c j) a : ℤ) : ℝ) = 0
      rw [z2]
      simp
  · rw [List.forall₂_iff_get]
    refine ⟨by simp, fun i h1 h2 j => ?_⟩
    simp only [List.get_ofFn]
    have := hr (Fin.cast (by simp) (⟨i, h1⟩ : Fin _)) (c j)
    rw [List.getD_eq_getElem _ _ (by rw [List.length_ofFn]; exact (σ (c j)).2), List.getD_eq_getElem (l := List.ofFn _) _ (by rw [List.length_ofFn, ← hl]; exact j.2), List.getElem_ofFn, List.getElem_ofFn]
    exact this

/-- **C189.** Take a self-consistent solution of a crystal. For the crystal carried by a space-group operation (rotation or reflection with translation; atoms in any order, up to lattice vectors), with the
k-points and their plane waves carried, the carried densities, potentials and states are a self-consistent solution, with the same eigenvalues, occupations and energies. -/
theorem C189_solutions_carried (R : Run) (op : Op) (σ : Equiv.Perm (Fin R.idx.length)) (hs : GImage R op σ) (hx : PointByPoint R.exch) (hc : PointByPoint R.corr) (sp sp' : List Species)
    (hsp : List.Forall₂ (fun x x' => x'.D = x.D ∧ x.nl.Good ∧ Image op x.nl x'.nl) sp sp') {nk nb : ℕ} (kp kp' : Fin nk → KPoint) (τ : ∀ i, Fin (kp i).idx.length ≃ Fin (kp' i).idx.length)
    (hk : ∀ i, KImage R op (kp i) (kp' i) (τ i)) (X : Sol R kp nb) (h : SelfConsistent R sp kp X) :
    ∃ X' : Sol R kp' nb, SelfConsistent R sp' kp' X' ∧ (∀ s j, X'.rho s (σ j) = ex (∑ a, op.t a * R.G (σ j) a) * X.rho s j) ∧
      (∀ s (r r' : Fin R.d.size), Carried R.d op r r' → X'.V s r' = X.V s r ∧ R.space.toR (X'.rho s) r' = R.space.toR (X.rho s) r) ∧
      (∀ s i b, X'.psi s i b = carry op (kp' i).G (kp' i).k (τ i) (X.psi s i b)) ∧ X'.eps = X.eps ∧ X'.occ = X.occ ∧ X'.eh = X.eh ∧ X'.exc = X.exc ∧ X'.en = X.en := by
  obtain ⟨u, B, hL⟩ := hs.lat
  obtain ⟨vh, vxc, e1, e2, e3, e4, e5, e6⟩ := h
  have S : RotCov R.space σ (fun j => ex (∑ a, op.t a * R.G (σ j) a)) (gperm R.d op hs.grid) (cartRot R.L op.S) := fft_rot R.drv u B R.L hL op hs.keeps R.d hs.grid R.idx hs.valid R.st R.dv R.G hs.ix σ hs.g
  set p := gperm R.d op hs.grid with hp
  let rho' : Fin R.ns → Fin R.idx.length → ℂ := fun s j => ex (∑ a, op.t a * R.G j a) * X.rho s (σ.symm j)
  have hr : ∀ s j, rho' s (σ j) = ex (∑ a, op.t a * R.G (σ j) a) * X.rho s j := by
    intro s j
    simp only [rho', Equiv.symm_apply_apply]
  obtain ⟨vh', f1, f1'⟩ := hart_rot R op σ hs X.rho rho' hr vh X.eh e1
  have hsp1 : List.Forall₂ (fun x x' : Species => x'.D = x.D ∧ Image op x.nl x'.nl) sp sp' := hsp.imp fun _ _ q => ⟨q.1, q.2.2⟩
  have hio := vion_rot R op σ hs sp sp' hsp1
  have k2 := xcCompute_rot S R.pos R.exch R.corr hx hc X.rho rho' hr (R.core sp) (R.core sp') (fun j => (hio j).2)
  rw [e2] at k2
  obtain ⟨vxc', f2, f2'⟩ : ∃ vxc', xcCompute R.space R.pos R.exch R.corr rho' (R.core sp') = .ok (vxc', X.exc) ∧ ∀ s r, vxc' s (p r) = vxc s r := by
    revert k2
    generalize xcCompute R.space R.pos R.exch R.corr rho' (R.core sp') = o
    intro k2
    cases o with
    | error e => exact k2.elim
    | ok o =>
      refine ⟨o.1, ?_, k2.1⟩
      have := k2.2
      simp only at this
      rw [← this]
  let V' : Fin R.ns → Fin R.d.size → ℝ := fun s r => X.V s (p.symm r)
  have hV : ∀ s (r r' : Fin R.d.size), Carried R.d op r r' → V' s r' = X.V s r := by
    intro s r r' hcr
    rw [gperm_of_carried R.d op hs.grid r r' hcr]
    simp only [V', ← hp, Equiv.symm_apply_apply]
  let X' : Sol R kp' nb := ⟨rho', V', fun s i b => carry op (kp' i).G (kp' i).k (τ i) (X.psi s i b), X.eps, X.occ, X.eh, X.exc, X.en⟩
  have hnl : List.Forall₂ (fun x x' => x.Good ∧ Image op x x') (sp.map Species.nl) (sp'.map Species.nl) := by
    rw [List.forall₂_map_left_iff, List.forall₂_map_right_iff]
    exact hsp.imp fun _ _ q => q.2
  have hC := fun i V V' hV => C184_equivalent_kpoints R.drv R.st R.st u B R.L hL op hs.keeps R.d hs.grid (kp i).idx (kp' i).idx (hk i).valid (hk i).valid' (kp i).G (hk i).ix (kp' i).G (hk i).ix' (kp i).k (kp' i).k
    (τ i) (hk i).gk (hk i).away V V' hV (sp.map Species.nl) (sp'.map Species.nl) hnl
  have hdens : ∀ s r, X'.dens s (p r) = X.dens s r := by
    intro s r
    unfold Sol.dens
    refine Finset.sum_congr rfl fun i _ => ?_
    rw [(hk i).w]
    have : ∀ b, Complex.normSq (wfR R.drv R.d (kp' i).idx R.st (X'.psi s i b) (p r)) = Complex.normSq (wfR R.drv R.d (kp i).idx R.st (X.psi s i b) r) := fun b =>
      (hC i (X.V s) (V' s) (hV s)).2.2.2 (X.psi s i b) r (p r) (gperm_carried R.d op hs.grid r)
    simp only [this]
    rfl
  have hdG : ∀ s j, R.space.toG (X'.dens s) (σ j) = ex (∑ a, op.t a * R.G (σ j) a) * R.space.toG (X.dens s) j := fun s j => S.toG _ _ (hdens s) j
  refine ⟨X', ⟨vh', vxc', f1, f2, ?_, ?_, ?_, ?_⟩, hr, ?_, fun _ _ _ => rfl, rfl, rfl, rfl, rfl, rfl⟩
  · intro s r
    obtain ⟨q, rfl⟩ := p.surjective r
    have : X'.V s (p q) = X.V s q := by simp only [X', V', Equiv.symm_apply_apply]
    rw [this, e3, S.toR (R.vion sp) (R.vion sp') (fun j => (hio j).1), S.toR (fun j => vh.getD j 0) (fun j => vh'.getD j 0) f1', f2']
  · intro s i b
    exact ((hC i (X.V s) (V' s) (hV s)).2.1 (X.eps s i b) (X.psi s i b)).2 (e4 s i b)
  · intro s j j0 hj0
    obtain ⟨q, rfl⟩ := σ.surjective j
    have hfix : σ j0 = j0 := Fin.ext (by rw [(hs.fix j0).2 hj0, hj0])
    have hg0 : ex (∑ a, op.t a * R.G (σ j0) a) = 1 := by
      rw [hfix, (hs.zero j0).2 hj0]
      simp [ex]
    have hsum : ∑ t, R.space.toG (X'.dens t) j0 = ∑ t, R.space.toG (X.dens t) j0 := by
      refine Finset.sum_congr rfl fun t _ => ?_
      have := hdG t j0
      rw [hg0, one_mul, hfix] at this
      exact this
    have : X'.rho s (σ q) = ex (∑ a, op.t a * R.G (σ q) a) * X.rho s q := hr s q
    rw [this, e5 s q j0 hj0, hsum, hdG]
    ring
  · show X.en = _
    rw [e6]
    have ha : (∑ s, ∑ i, ((kp i).w : ℂ) * ∑ b, ((X.eps s i b * X.occ s i b : ℝ) : ℂ)) = ∑ s, ∑ i, ((kp' i).w : ℂ) * ∑ b, ((X.eps s i b * X.occ s i b : ℝ) : ℂ) :=
      Finset.sum_congr rfl fun s _ => Finset.sum_congr rfl fun i _ => by rw [(hk i).w]
    have hb : (∑ r, ∑ s, (R.space.toR (fun j => vh.getD j 0) r + vxc s r) * R.space.toR (X.rho s) r) = ∑ r, ∑ s, (R.space.toR (fun j => vh'.getD j 0) r + vxc' s r) * R.space.toR (rho' s) r := by
      refine ((Equiv.sum_comp p fun r : Fin R.d.size => ∑ s, (R.space.toR (fun j => vh'.getD j 0) r + vxc' s r) * R.space.toR (rho' s) r).symm.trans ?_).symm
      refine Finset.sum_congr rfl fun r _ => Finset.sum_congr rfl fun s _ => ?_
      rw [S.toR (fun j => vh.getD j 0) (fun j => vh'.getD j 0) f1', f2', S.toR (X.rho s) (rho' s) (hr s)]
    rw [ha, hb]
  · intro s r r' hcr
    refine ⟨hV s r r' hcr, ?_⟩
    rw [gperm_of_carried R.d op hs.grid r r' hcr]
    exact S.toR _ _ (hr s) r

/-- A functional that yields nothing. -/
def noXC (m : ℕ) : XCFunc 1 m := ⟨.lda, fun _ _ => ⟨fun _ => 0, fun _ _ => 0, none⟩, fun _ _ => by simp⟩

/-- Electrons in an empty tetragonal cell, one of the k-points (1/4, 0, 1/4) and (0, 1/4, 1/4) that a screw axis exchanges up to a sign: the hypotheses of C189 and a solution. -/
example (drv : Driver) (st : DrvState ℂ) : ∃ (R : Run) (σ : Equiv.Perm (Fin R.idx.length)) (kp kp' : Fin 1 → KPoint) (τ : ∀ i, Fin (kp i).idx.length ≃ Fin (kp' i).idx.length) (X : Sol R kp 1),
    R.drv = drv ∧ GImage R screw σ ∧ PointByPoint R.exch ∧ PointByPoint R.corr ∧ (∀ i, KImage R screw (kp i) (kp' i) (τ i)) ∧ SelfConsistent R [] kp X ∧ R.ns = 1 ∧ ∀ s, X.eps s 0 0 = 5 / 32 ∧ X.psi s 0 0 ≠ 0 := by
  have hd : (!![1, 0, 0; 0, 1, 0; 0, 0, 2] : Mat).det ≠ 0 := by simp [Matrix.det_fin_three]
  obtain ⟨L, hL⟩ : ∃ L, mkLat 1 !![1, 0, 0; 0, 1, 0; 0, 0, 2] = .ok L := ⟨_, by unfold mkLat; rw [if_neg hd]⟩
  have hn : ∀ v, L.norm2Cryst v = v 0 ^ 2 + v 1 ^ 2 + 4 * v 2 ^ 2 := by
    intro v
    rw [(Lattice.C26_metric 1 _ L hL v 0).2.1]
    obtain ⟨-, e1, e2, -⟩ := Lattice.mkLat_ok hL
    unfold Lat.cryst2cart dotCart dotProduct
    rw [e2]
    simp [Fin.sum_univ_three, Matrix.mulVec, dotProduct]
    ring
  have hK : Keeps L screw.S := by
    intro v
    rw [hn, hn]
    simp [screw, app, Fin.sum_univ_three]
    ring
  have hgrid : OnGrid ⟨2, 2, 2⟩ screw := by
    intro r hr
    have hr : r < 8 := hr
    have : ∀ r : Fin 8, ∃ r' : Fin 8, ∃ m : Fin 3 → Fin 3, ∀ a : Fin 3, (coord ⟨2, 2, 2⟩ r' a : ℤ) = ∑ b, screw.W a b * coord ⟨2, 2, 2⟩ r b + ![0, 0, 1] a + (((m a : ℕ) : ℤ) - 1) * 2 := by
      unfold screw
      decide
    obtain ⟨r', m, hm⟩ := this ⟨r, hr⟩
    refine ⟨r', r'.2, fun a => ⟨((m a : ℕ) : ℤ) - 1, ?_⟩⟩
    have e : ((coord ⟨2, 2, 2⟩ r' a : ℤ) : ℝ) = ((∑ b, screw.W a b * coord ⟨2, 2, 2⟩ r b + ![0, 0, 1] a + (((m a : ℕ) : ℤ) - 1) * 2 : ℤ) : ℝ) := by rw [hm a]
    have hl : ∀ b, (len ⟨2, 2, 2⟩ b : ℝ) = 2 := by intro b; fin_cases b <;> simp [len]
    have ht : screw.t a = ((![0, 0, 1] a : ℤ) : ℝ) / 2 := by fin_cases a <;> simp [screw]
    unfold pos app
    rw [ht]
    simp only [hl]
    push_cast at e ⊢
    rw [e, add_div, add_div, Finset.sum_div]
    congr 1
    · congr 1
      exact Finset.sum_congr rfl fun b _ => by ring
    · ring
  have hv : ValidIdx ⟨2, 2, 2⟩ [0] := by unfold ValidIdx; decide
  have hix : ∀ G : Fin ([0] : List ℕ).length → Fin 3 → ℤ, (∀ j, G j = 0) → Indexes ⟨2, 2, 2⟩ [0] G := by
    intro G hG j a
    change Fin 1 at j
    have : ∀ (j : Fin 1) (a : Fin 3), coord ⟨2, 2, 2⟩ (([0] : List ℕ)[j]) a = 0 := by decide
    exact ⟨0, by rw [hG, zero_mul, add_zero]; exact (congrArg (Nat.cast : ℕ → ℤ) (this j a)).symm⟩
  let R : Run := ⟨drv, st, L, ⟨2, 2, 2⟩, [0], fun _ => 0, 1, 1, 2, fun _ => 0, 0, 1, one_pos, noXC _, noXC _⟩
  have hPB : PointByPoint (noXC (⟨2, 2, 2⟩ : Dims).size) := fun p rho rho' sg sg' h _ => ⟨fun r => rfl, fun s r => rfl, True.intro⟩
  let kp : Fin 1 → KPoint := fun _ => ⟨[0], fun _ => 0, ![1 / 4, 0, 1 / 4], 1⟩
  let kp' : Fin 1 → KPoint := fun _ => ⟨[0], fun _ => 0, ![0, 1 / 4, 1 / 4], 1⟩
  have hG : GImage R screw (Equiv.refl _) := by
    refine ⟨⟨1, _, hL⟩, hK, hgrid, hv, hix _ fun _ => rfl, fun j a => ?_, fun j => ?_⟩
    · show ((0 : ℤ) : ℝ) = app screw.S (fun b => ((0 : ℤ) : ℝ)) a
      simp [app]
    · change Fin 1 at j
      exact ⟨fun _ => Nat.lt_one_iff.1 j.2, fun _ => rfl⟩
  have S : RotCov R.space (Equiv.refl _) (fun j => ex (∑ a, screw.t a * R.G j a)) (gperm R.d screw hgrid) (cartRot L screw.S) := fft_rot drv 1 _ L hL screw hK ⟨2, 2, 2⟩ hgrid [0] hv st 1 _ hG.ix _ hG.g
  have hz : ∀ r, R.space.toR (fun _ => 0) r = 0 := by
    intro r
    have := S.linR (fun _ => 0) (fun _ _ => 0) r
    simpa using this
  let X0 : Sol R kp 1 := ⟨fun _ _ => 0, fun _ _ => 0, fun _ _ _ _ => 1, fun _ _ _ => 5 / 32, fun _ _ _ => 2, 0, 0, 0⟩
  let rho : Fin 1 → Fin 1 → ℂ := fun s j => R.numel / ((∑ t, R.space.toG (X0.dens t) (0 : Fin 1)) * R.dv) * R.space.toG (X0.dens s) j
  have hxc : xcCompute R.space R.pos R.exch R.corr rho (R.core []) = .ok (fun _ _ => 0, 0) := by
    have e : R.exch.family = .lda := rfl
    have e' : R.corr.family = .lda := rfl
    unfold xcCompute xcAdd
    simp only [e, e', bind, Except.bind, pure, Except.pure]
    simp [R, noXC]
  obtain ⟨vh, eh, hh, hvh⟩ : ∃ vh eh, hartree R.nan R.norm2 true R.dv R.d.size (List.ofFn fun s => List.ofFn (rho s)) = .ok (vh, eh) ∧ ∀ j : Fin R.idx.length, vh.getD j 0 = 0 := by
    refine ⟨hartreeV R.nan R.norm2 true (List.ofFn fun s => List.ofFn (rho s)),
      hartreeEn R.norm2 (List.ofFn fun s => List.ofFn (rho s)) (hartreeV R.nan R.norm2 true (List.ofFn fun s => List.ofFn (rho s))) R.dv R.d.size, ?_, ?_⟩
    · unfold hartree checkRho
      simp
    · intro j
      have : (j : ℕ) = 0 := Nat.lt_one_iff.1 j.2
      rw [this]
      unfold hartreeV Run.norm2
      simp [R]
  have hz' : ∀ r, R.space.toR (fun j => vh.getD j 0) r = 0 := by
    intro r
    rw [show (fun j : Fin R.idx.length => vh.getD j 0) = fun _ => 0 from funext hvh]
    exact hz r
  let X : Sol R kp 1 := ⟨rho, fun _ _ => 0, fun _ _ _ _ => 1, fun _ _ _ => 5 / 32, fun _ _ _ => 2, eh, 0, ((∑ s : Fin R.ns, ∑ i, ((kp i).w : ℂ) * ∑ b : Fin 1, ((5 / 32 * 2 : ℝ) : ℂ)) - (∑ r, ∑ s, (R.space.toR (fun j => vh.getD j 0) r + 0) * R.space.toR (rho s) r) * R.dv).re + eh + 0⟩
  refine ⟨R, Equiv.refl _, kp, kp', fun _ => Equiv.refl _, X, rfl, hG, hPB, hPB, fun i => ⟨hv, hv, hix _ fun _ => rfl, hix _ fun _ => rfl, rfl, fun j => ?_, fun j => .inr ?_⟩, ⟨vh, _, hh, hxc, ?_, ?_, ?_, ?_⟩, rfl, fun s => ⟨rfl, ?_⟩⟩
  · funext a
    fin_cases a <;> simp [gkv, kp, kp', app, screw, Fin.sum_univ_three]
  · have : vlen (R.L.cryst2cart (gkv (kp i).G (kp i).k j)) = Real.sqrt (5 / 16) := by
      rw [vlen_sq, dot_cart, ← (Lattice.C26_metric 1 _ L hL _ 0).2.1]
      congr 1
      refine (hn _).trans ?_
      simp [gkv, kp]
      norm_num
    rw [this]
    exact Real.lt_sqrt_of_sq_lt (by norm_num)
  · intro s r
    rw [hz']
    have : R.space.toR (R.vion []) r = 0 := hz r
    rw [this]
    simp [X]
  · intro s i b
    funext j
    have hw : ∀ u : Fin (⟨2, 2, 2⟩ : Dims).size → ℂ, (∀ r, u r = 0) → wfG drv ⟨2, 2, 2⟩ [0] st u j = 0 := by
      intro u hu
      rw [wfG_eq drv _ _ hv]
      simp [hu]
    show ((1 / 2 * L.norm2Cryst (gkv (kp i).G (kp i).k j) : ℝ) : ℂ) * 1 + wfG drv ⟨2, 2, 2⟩ [0] st (fun r => wfR drv ⟨2, 2, 2⟩ [0] st (fun _ => 1) r * (((0 : ℝ) : ℂ) / _)) j = ((5 / 32 : ℝ) : ℂ) • (1 : ℂ)
    rw [hw _ fun r => by simp, hn]
    simp [gkv, kp]
    norm_num
  · intro s j j0 hj0
    have : j0 = (0 : Fin 1) := Fin.ext hj0
    rw [this]
    rfl
  · rfl
  · intro h
    exact one_ne_zero (congrFun h (0 : Fin 1))

end Verif.Rot
