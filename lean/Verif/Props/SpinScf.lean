import Verif.Model.SpinScf
import Verif.Props.ScfGrp
import Verif.Props.SymmMix
import Verif.Props.Occup
import Verif.Props.Symm

/-!
# C211: a run with spin and no polarisation is the run without spin
-/

namespace Verif.SpinScf

open Verif.FFT (Driver Dims DrvState)
open Verif.PotDist (PointFunc)
open Verif.Pot (fftSpace)
open Verif.ScfDist (Calc KPt ERel Sim serOps Pots seqF)
open Verif.Mixing (Dens Cfg dot)

variable {d : Dims} {idx : List ℕ} {n : ℕ}

/-- The density `rho` of a run without spin, half of it in either spin component. -/
noncomputable def halves (rho : Dens 1 n) : Dens 2 n := fun _ j => rho 0 j / 2

/-- A functional without spin and the same functional with spin, where both spin densities and all three contracted gradients are equal: what libxc's unpolarised and polarised versions satisfy by the chain rule. -/
structure Same (F : PointFunc 1) (G : PointFunc 2) : Prop where
  family : G.family = F.family
  zk : ∀ (r : ℝ) (σ : Option ℝ), G.zk (fun _ => r / 2) (σ.map fun x _ => x / 4) = F.zk (fun _ => r) (σ.map fun x _ => x)
  vrho : ∀ (r : ℝ) (σ : Option ℝ) (s : Fin 2), G.vrho (fun _ => r / 2) (σ.map fun x _ => x / 4) s = F.vrho (fun _ => r) (σ.map fun x _ => x) 0
  vsigma : ∀ (r : ℝ) (σ : Option ℝ), ∀ k ∈ [0, 2], 2 * G.vsigma (fun _ => r / 2) (σ.map fun x _ => x / 4) k + G.vsigma (fun _ => r / 2) (σ.map fun x _ => x / 4) 1
    = 4 * F.vsigma (fun _ => r) (σ.map fun x _ => x) 0

/-! ## The mixer -/

noncomputable def halvesL : Dens 1 n →ₗ[ℂ] Dens 2 n where
  toFun := halves
  map_add' a b := by
    funext k j
    simp only [halves, Pi.add_apply]
    ring
  map_smul' c a := by
    funext k j
    simp only [halves, Pi.smul_apply, smul_eq_mul, RingHom.id_apply]
    ring

theorem dot_halves (c : Cfg n) (a b : Dens 1 n) : dot c (halves a) (halves b) = dot c a b := by
  have e : ∀ a : Dens 1 n, (fun i => ∑ k, halves a k i) = fun i => ∑ k, a k i := by
    intro a
    funext i
    simp only [halves, Fin.sum_univ_two, Fin.sum_univ_one]
    ring
  have h1 := fun i => congrFun (e a) i
  have h2 := fun i => congrFun (e b) i
  unfold dot
  simp only [h1, h2]
  rw [dif_pos trivial, dif_neg (by decide)]
  simp [halves]

open Verif.Mixing in
theorem mixed_halves (c : Cfg n) (ins outs : ℕ → Dens 1 n) (k : ℕ) :
    gram c (fun j => halves (ins j)) (fun j => halves (outs j)) k = gram c ins outs k ∧ mixed c (fun j => halves (ins j)) (fun j => halves (outs j)) k = halves (mixed c ins outs k) := by
  have hT : ∀ a b : Dens 1 n, dot c (halvesL a) (halvesL b) = dot c a b := dot_halves c
  show gram c (fun j => halvesL (ins j)) (fun j => halvesL (outs j)) k = gram c ins outs k ∧ mixed c (fun j => halvesL (ins j)) (fun j => halvesL (outs j)) k = halvesL (mixed c ins outs k)
  generalize (halvesL : Dens 1 n →ₗ[ℂ] Dens 2 n) = T at *
  have hrs : rs (fun j => T (ins j)) (fun j => T (outs j)) = fun j => T (rs ins outs j) := by
    funext j
    exact (map_sub T _ _).symm
  have hdF : ∀ f : ℕ → Dens 1 n, dF (fun j => T (f j)) = fun j => T (dF f j) := by
    intro f
    funext j
    exact (map_sub T _ _).symm
  have hg : gram c (fun j => T (ins j)) (fun j => T (outs j)) k = gram c ins outs k := by
    ext i i'
    simp only [gram, hrs, hdF, hT, Matrix.of_apply]
  have hr : rhs c (fun j => T (ins j)) (fun j => T (outs j)) k = rhs c ins outs k := by
    funext i
    simp only [rhs, hrs, hdF, hT]
  refine ⟨hg, ?_⟩
  have hc : coef c (fun j => T (ins j)) (fun j => T (outs j)) k = coef c ins outs k := by
    unfold coef
    rw [hg, hr]
  unfold mixed
  rw [hc, hrs, hdF, hdF]
  simp only [map_add, map_smul, map_sum]

/-- Two mixers: new ones, or ones with corresponding histories. -/
def RM (m : Mixing.Method) (c : Cfg n) (st : Mixing.St 1 n) (st' : Mixing.St 2 n) : Prop :=
  (st.idx = 0 ∧ st'.idx = 0) ∨ ∃ ins outs k, Mixing.Inv m.sign c ins outs k st ∧ Mixing.Inv m.sign c (fun j => halves (ins j)) (fun j => halves (outs j)) k st'

theorem mix_sim (m : Mixing.Method) (c : Cfg n) (hm : 0 < c.mixdim) (st : Mixing.St 1 n) (st' : Mixing.St 2 n) (h : RM m c st st') (a b : Dens 1 n) :
    ERel (fun o o' => RM m c o.st o'.st ∧ o'.rho = halves o.rho ∧ o'.caller = halves o.caller ∧ (st.idx = 0 ↔ st'.idx = 0)) (Mixing.mix1 m c st a b) (Mixing.mix1 m c st' (halves a) (halves b)) := by
  rcases h with ⟨h0, h0'⟩ | ⟨ins, outs, k, hI, hI'⟩
  · obtain ⟨r, hr, hri, hrr, hrc⟩ := Mixing.first m c (fun _ => a) (fun _ => b) st h0
    obtain ⟨r', hr', hri', hrr', hrc'⟩ := Mixing.first m c (fun _ => halves a) (fun _ => halves b) st' h0'
    have e := (mixed_halves c (fun _ => a) (fun _ => b) 0).2
    refine ERel.of_eq hr hr' ⟨Or.inr ⟨_, _, 0, hri, hri'⟩, ?_, ?_, ?_⟩
    · rw [hrr, hrr', e]
    · rw [hrc, hrc', hrr, hrr', e]
    · rw [h0, h0']
  · let ins1 : ℕ → Dens 1 n := fun j => if j ≤ k then ins j else a
    let outs1 : ℕ → Dens 1 n := fun j => if j ≤ k then outs j else b
    have hJ : Mixing.Inv m.sign c ins1 outs1 k st := inv_congr ins outs ins1 outs1 k (fun j hj => (if_pos hj : ins1 j = ins j).symm) (fun j hj => (if_pos hj : outs1 j = outs j).symm) hm hI
    have hJ' : Mixing.Inv m.sign c (fun j => halves (ins1 j)) (fun j => halves (outs1 j)) k st' :=
      inv_congr _ _ (fun j => halves (ins1 j)) (fun j => halves (outs1 j)) k (fun j hj => congrArg halves (if_pos hj : ins1 j = ins j).symm) (fun j hj => congrArg halves (if_pos hj : outs1 j = outs j).symm) hm hI'
    have ea : ins1 (k + 1) = a := if_neg (by omega)
    have eb : outs1 (k + 1) = b := if_neg (by omega)
    have s1 := Mixing.step m c hm ins1 outs1 k st hJ
    have s2 := Mixing.step m c hm (fun j => halves (ins1 j)) (fun j => halves (outs1 j)) k st' hJ'
    have e := mixed_halves c ins1 outs1 (k + 1)
    rw [e.1, e.2] at s2
    simp only [ea, eb] at s1 s2
    by_cases hd : (Mixing.gram c ins1 outs1 (k + 1)).det = 0
    · exact ERel.of_eq (s1.1 hd) (s2.1 hd) (rfl : m.err = m.err)
    · obtain ⟨r, hr, hri, hrr, hrc⟩ := s1.2 hd
      obtain ⟨r', hr', hri', hrr', hrc'⟩ := s2.2 hd
      refine ERel.of_eq hr hr' ⟨Or.inr ⟨_, _, k + 1, hri, hri'⟩, ?_, ?_, ?_⟩
      · rw [hrr, hrr']
      · rw [hrc, hrc', hrr, hrr']
        split <;> rfl
      · rw [hI.idx, hI'.idx]
where
  inv_congr {s : ℕ} {m : Mixing.Method} {c : Cfg n} {st : Mixing.St s n} (ins outs ins1 outs1 : ℕ → Dens s n) (k : ℕ) (h1 : ∀ j ≤ k, ins j = ins1 j) (h2 : ∀ j ≤ k, outs j = outs1 j) (hm : 0 < c.mixdim)
      (h : Mixing.Inv m.sign c ins outs k st) : Mixing.Inv m.sign c ins1 outs1 k st := by
    have hrs : ∀ j ≤ k, Mixing.rs ins outs j = Mixing.rs ins1 outs1 j := fun j hj => by unfold Mixing.rs; rw [h1 j hj, h2 j hj]
    have hj : ∀ i < min k c.mixdim, Mixing.jOf c.mixdim k i + 1 ≤ k := fun i hi => (Mixing.jOf_spec c.mixdim k i hm hi).2.1
    have hd : ∀ (f g : ℕ → Dens s n), (∀ j ≤ k, f j = g j) → ∀ i < min k c.mixdim, Mixing.dF f (Mixing.jOf c.mixdim k i) = Mixing.dF g (Mixing.jOf c.mixdim k i) := by
      intro f g hfg i hi
      have := hj i hi
      unfold Mixing.dF
      rw [hfg _ this, hfg _ (by omega)]
    refine ⟨h.idx, by rw [h.rho, h1 k le_rfl], by rw [h.res, hrs k le_rfl], ?_, ?_, ?_⟩
    · intro i hi
      rw [h.dRho i hi, hd _ _ h1 i hi]
    · intro i hi
      rw [h.dRes i hi, hd _ _ hrs i hi]
    · intro i hi i' hi'
      rw [h.ov i hi i' hi', hd _ _ hrs i hi, hd _ _ hrs i' hi']

/-! ## The potentials -/

theorem toR_half {m : ℕ} {X : Pot.XCSpace m n} (L : X.Laws) (f : Fin n → ℂ) (r : Fin m) : X.toR (fun j => f j / 2) r = X.toR f r / 2 := by
  have h := L.lin f f (-1 / 2) r
  have e : (fun j => f j + -1 / 2 * f j) = fun j => f j / 2 := by
    funext j
    ring
  rw [e] at h
  rw [h]
  ring

theorem gradR_half {m : ℕ} {X : Pot.XCSpace m n} (L : X.Laws) (f : Fin n → ℂ) (c : Fin 3) (r : Fin m) : X.gradR (fun j => f j / 2) c r = X.gradR f c r / 2 := by
  unfold Pot.XCSpace.gradR
  rw [← toR_half L]
  congr 1
  funext j
  ring

theorem sigma_halves {m : ℕ} {X : Pot.XCSpace m n} (L : X.Laws) (rho : Dens 1 n) (core : Fin n → ℂ) (k : ℕ) (r : Fin m) :
    Pot.sigma X (Pot.rhoaux (halves rho) core) (by decide) k r = Pot.sigma X (Pot.rhoaux rho core) (by decide) 0 r / 4 := by
  have e : ∀ s, Pot.rhoaux (halves rho) core s = fun j => Pot.rhoaux rho core 0 j / 2 := by
    intro s
    funext j
    simp only [Pot.rhoaux, halves]
    push_cast
    ring
  have q : ∀ x y z : ℂ, (x / 2 * (x / 2) + y / 2 * (y / 2) + z / 2 * (z / 2)).re = (x * x + y * y + z * z).re / 4 := by
    intro x y z
    have : x / 2 * (x / 2) + y / 2 * (y / 2) + z / 2 * (z / 2) = ((1 / 4 : ℝ) : ℂ) * (x * x + y * y + z * z) := by
      push_cast
      ring
    rw [this, Complex.re_ofReal_mul]
    ring
  unfold Pot.sigma
  match k with
  | 0 =>
    simp only [e, gradR_half L, Fin.sum_univ_three]
    simpa using q _ _ _
  | 1 =>
    simp only [e, gradR_half L, Fin.sum_univ_three]
    simpa using q _ _ _
  | k + 2 =>
    simp only [e, gradR_half L, Fin.sum_univ_three]
    simpa using q _ _ _

theorem sigma_one {m : ℕ} (X : Pot.XCSpace m n) (rho : Fin 1 → Fin n → ℂ) (k : ℕ) (r : Fin m) : Pot.sigma X rho (by decide) k r = Pot.sigma X rho (by decide) 0 r := by
  unfold Pot.sigma
  match k with
  | 0 => rfl
  | 1 => simp
  | k + 2 => simp

/-- What the two functionals give, point by point. -/
structure ROut {m : ℕ} (o : Pot.XCOut 1 m) (o' : Pot.XCOut 2 m) : Prop where
  zk : o'.zk = o.zk
  vrho : ∀ s, o'.vrho s = o.vrho 0
  none : o'.vsigma = none ↔ o.vsigma = none
  vsigma : ∀ v v', o.vsigma = some v → o'.vsigma = some v' → ∀ k ∈ [0, 2], ∀ r, 2 * v' k r + v' 1 r = 4 * v 0 r

theorem run_halves {m : ℕ} {F : PointFunc 1} {G : PointFunc 2} (h : Same F G) (x : Fin m → ℝ) (σ : Option (Fin m → ℝ)) :
    ROut ((F.on m).run (fun r _ => x r) (σ.map fun s _ r => s r)) ((G.on m).run (fun r _ => x r / 2) (σ.map fun s _ r => s r / 4)) := by
  have e1 : ∀ r : Fin m, ((σ.map fun s (_ : ℕ) r => s r / 4).map fun (s : ℕ → Fin m → ℝ) k => s k r) = (σ.map fun s => s r).map fun y (_ : ℕ) => y / 4 := by
    intro r
    cases σ <;> rfl
  have e2 : ∀ r : Fin m, ((σ.map fun s (_ : ℕ) r => s r).map fun (s : ℕ → Fin m → ℝ) k => s k r) = (σ.map fun s => s r).map fun y (_ : ℕ) => y := by
    intro r
    cases σ <;> rfl
  unfold PointFunc.on
  simp only [e1, e2]
  refine ⟨?_, ?_, ?_, ?_⟩
  · funext r
    exact h.zk _ _
  · intro s
    funext r
    exact h.vrho _ _ s
  · simp only [h.family]
    by_cases hf : F.family = .gga <;> simp [hf]
  · intro v v' hv hv' k hk r
    simp only [h.family] at hv hv'
    by_cases hf : F.family = .gga
    · rw [if_pos hf] at hv hv'
      rw [← Option.some.inj hv, ← Option.some.inj hv']
      exact h.vsigma _ _ k hk
    · rw [if_neg hf] at hv
      cases hv

theorem xcAdd_halves {m : ℕ} {X : Pot.XCSpace m n} (L : X.Laws) (rho : Dens 1 n) (need : Bool) {o : Pot.XCOut 1 m} {o' : Pot.XCOut 2 m} (h : ROut o o') (acc : (Fin 1 → Fin m → ℂ) × ℂ) (acc' : (Fin 2 → Fin m → ℂ) × ℂ)
    (ha : (∀ s, acc'.1 s = acc.1 0) ∧ acc'.2 = acc.2) :
    ERel (fun a b => (∀ s, b.1 s = a.1 0) ∧ b.2 = a.2) (Pot.xcAdd X rho need o acc) (Pot.xcAdd X (halves rho) need o' acc') := by
  have hen : (∑ r, ∑ s, X.toR (halves rho s) r * (o'.zk r : ℂ)) = ∑ r, ∑ s, X.toR (rho s) r * (o.zk r : ℂ) := by
    refine Finset.sum_congr rfl fun r _ => ?_
    rw [Fin.sum_univ_two, Fin.sum_univ_one, h.zk]
    show X.toR (fun j => rho 0 j / 2) r * _ + X.toR (fun j => rho 0 j / 2) r * _ = _
    rw [toR_half L]
    ring
  unfold Pot.xcAdd
  simp only [hen, ha.2]
  by_cases hn : need = true
  · rw [if_pos hn, if_pos hn]
    have h3 := h.none
    have h4 := h.vsigma
    revert h3 h4
    generalize o.vsigma = p
    generalize o'.vsigma = p'
    intro h3 h4
    cases p with
    | none =>
      obtain rfl := h3.2 rfl
      exact rfl
    | some v =>
      cases p' with
      | none => cases h3.1 rfl
      | some v' =>
        refine ⟨fun s => ?_, rfl⟩
        funext r
        have hx : Pot.xcH X (halves rho) v' s = Pot.xcH X rho v 0 := by
          funext c r
          have hs : ∀ t, X.gradR (halves rho t) c r = X.gradR (rho 0) c r / 2 := fun t => gradR_half L _ c r
          have h5 := h4 v v' rfl rfl (if s.1 = 0 then 0 else 2) (by split <;> simp) r
          have h5' := congrArg (fun y : ℝ => (y : ℂ)) h5
          push_cast at h5'
          simp only [Pot.xcH, hs]
          rw [if_neg (by decide), if_pos trivial]
          linear_combination (1 / 2 : ℂ) * X.gradR (rho 0) c r * h5'
        show acc'.1 s r + (o'.vrho s r : ℂ) - _ = acc.1 0 r + (o.vrho 0 r : ℂ) - _
        rw [hx, ha.1 s, h.vrho s]
  · rw [if_neg hn, if_neg hn]
    refine ⟨fun s => ?_, rfl⟩
    funext r
    show acc'.1 s r + (o'.vrho s r : ℂ) = acc.1 0 r + (o.vrho 0 r : ℂ)
    rw [ha.1 s, h.vrho s]

theorem xc_halves {m : ℕ} {X : Pot.XCSpace m n} (L : X.Laws) {F K : PointFunc 1} {F' K' : PointFunc 2} (hF : Same F F') (hK : Same K K') (rho : Dens 1 n) (core : Fin n → ℂ) :
    ERel (fun a b => (∀ s, b.1 s = a.1 0) ∧ b.2 = a.2) (Pot.xcCompute X (by decide) (F.on m) (K.on m) rho core) (Pot.xcCompute X (by decide) (F'.on m) (K'.on m) (halves rho) core) := by
  have ei : Pot.xcRho X (halves rho) = fun r _ => Pot.xcRho X rho r 0 / 2 := by
    funext r s
    show ‖X.toR (fun j => rho 0 j / 2) r‖ = _
    rw [toR_half L, norm_div]
    simp [Pot.xcRho]
  have ei' : Pot.xcRho X rho = fun r _ => Pot.xcRho X rho r 0 := by
    funext r s
    rw [Subsingleton.elim s 0]
  have hn : decide ((F'.on m).family = .gga ∨ (K'.on m).family = .gga) = decide ((F.on m).family = .gga ∨ (K.on m).family = .gga) := by
    have h1 : (F'.on m).family = (F.on m).family := hF.family
    have h2 : (K'.on m).family = (K.on m).family := hK.family
    rw [h1, h2]
  unfold Pot.xcCompute
  simp only [hn]
  generalize decide ((F.on m).family = .gga ∨ (K.on m).family = .gga) = need
  let σ : Option (Fin m → ℝ) := if need = true then some (Pot.sigma X (Pot.rhoaux rho core) (by decide) 0) else none
  have es : (if need = true then some (Pot.sigma X (Pot.rhoaux (halves rho) core) (by decide)) else none) = σ.map fun s _ r => s r / 4 := by
    by_cases c : need = true
    · simp only [σ, if_pos c, Option.map_some]
      congr 1
      funext k r
      exact sigma_halves L rho core k r
    · simp only [σ, if_neg c, Option.map_none]
  have es' : (if need = true then some (Pot.sigma X (Pot.rhoaux rho core) (by decide)) else none) = σ.map fun s _ r => s r := by
    by_cases c : need = true
    · simp only [σ, if_pos c, Option.map_some]
      congr 1
      funext k r
      exact sigma_one X _ k r
    · simp only [σ, if_neg c, Option.map_none]
  rw [es, es', ei]
  conv in (F.on m).run (Pot.xcRho X rho) _ => rw [ei']
  conv in (K.on m).run (Pot.xcRho X rho) _ => rw [ei']
  generalize (fun r => Pot.xcRho X rho r 0) = x at *
  refine (xcAdd_halves L rho need (run_halves hF _ σ) _ _ ⟨fun _ => rfl, rfl⟩).bind fun a a' h1 => (xcAdd_halves L rho need (run_halves hK _ σ) _ _ h1).bind fun b b' h2 => ?_
  exact ⟨h2.1, congrArg Complex.re h2.2⟩

theorem total_halves (rho : Dens 1 n) : Pot.total (List.ofFn fun s => List.ofFn (halves rho s)) = Pot.total (List.ofFn fun s => List.ofFn (rho s)) := by
  funext j
  unfold Pot.total
  simp only [List.ofFn_succ, List.ofFn_zero, List.map_cons, List.map_nil, List.sum_cons, List.sum_nil]
  by_cases hj : j < n
  · have e : ∀ f : Fin n → ℂ, (List.ofFn f).getD j 0 = f ⟨j, hj⟩ := by
      intro f
      rw [List.getD_eq_getElem (l := List.ofFn f) (hn := by simpa using hj)]
      simp
    simp only [e, halves]
    ring
  · have e : ∀ f : Fin n → ℂ, (List.ofFn f).getD j 0 = 0 := by
      intro f
      exact List.getD_eq_default _ _ (by simpa using hj)
    simp only [e]
    ring

theorem hartree_halves (nan : ℂ) (norm2 : List ℝ) (b : Bool) (dv : ℝ) (N : ℕ) (rho : Dens 1 n) :
    Pot.hartree nan norm2 b dv N (List.ofFn fun s => List.ofFn (halves rho s)) = Pot.hartree nan norm2 b dv N (List.ofFn fun s => List.ofFn (rho s)) := by
  have c1 : Pot.checkRho (List.ofFn fun s => List.ofFn (halves rho s)) = .ok () := by
    unfold Pot.checkRho
    rw [if_pos (by simp)]
  have c2 : Pot.checkRho (List.ofFn fun s => List.ofFn (rho s)) = .ok () := by
    unfold Pot.checkRho
    rw [if_pos (by simp)]
  unfold Pot.hartree
  rw [c1, c2]
  unfold Pot.hartreeV Pot.hartreeEn
  simp only [total_halves]

/-- The potentials of the two runs. -/
structure RV {m : ℕ} (v : Pots 1 m) (v' : Pots 2 m) : Prop where
  hxc : ∀ s, v'.hxc s = v.hxc 0
  vloc : ∀ s, v'.vloc s = v.vloc 0
  g0 : v'.g0 = v.g0

variable (C : Calc d idx 1) (exch corr : PointFunc 2) (symm : Dens 2 idx.length → Dens 2 idx.length) (occ : (Fin C.nk → Fin 2 → ℕ → ℝ) → Except PyErr ((Fin C.nk → Fin 2 → ℕ → ℝ) × ℝ))

theorem pot_sim {X : Pot.XCSpace d.size idx.length} (L : X.Laws) (he : Same C.exch exch) (hc : Same C.corr corr) (rho : Dens 1 idx.length) :
    ERel (fun a b => RV a.1 b.1 ∧ b.2 = a.2) (ScfDist.potS C (by decide) X rho) (ScfDist.potS (spin C exch corr symm occ) (by decide) X (halves rho)) := by
  unfold ScfDist.potS
  have h1 := hartree_halves C.nan C.norm2 (decide (C.gs.head? = some 0)) C.dv d.size rho
  have h1' : Pot.hartree (spin C exch corr symm occ).nan (spin C exch corr symm occ).norm2 (decide ((spin C exch corr symm occ).gs.head? = some 0)) (spin C exch corr symm occ).dv d.size
    (List.ofFn fun s => List.ofFn (halves rho s)) = _ := h1
  rw [h1']
  generalize Pot.hartree C.nan C.norm2 (decide (C.gs.head? = some 0)) C.dv d.size (List.ofFn fun s => List.ofFn (rho s)) = a
  cases a with
  | error e => exact rfl
  | ok a =>
    show ERel _ (Pot.xcCompute X _ (C.exch.on d.size) (C.corr.on d.size) rho C.core >>= _) (Pot.xcCompute X _ (exch.on d.size) (corr.on d.size) (halves rho) C.core >>= _)
    refine ERel.bind (xc_halves L he hc rho C.core) fun b b' hb => ?_
    have hv : ∀ s r, (X.toR C.vion r + X.toR (fun j => a.1.getD j 0) r + b'.1 s r) / (d.size : ℂ) = (X.toR C.vion r + X.toR (fun j => a.1.getD j 0) r + b.1 0 r) / (d.size : ℂ) := by
      intro s r
      rw [hb.1 s]
    refine ⟨⟨?_, ?_, ?_⟩, ?_⟩
    · intro s
      funext r
      show _ + b'.1 s r = _ + b.1 0 r
      rw [hb.1 s]
    · intro s
      funext r
      exact hv s r
    · show ((∑ r, _) / (d.size : ℂ)).re = ((∑ r, _) / (d.size : ℂ)).re
      congr 2
      exact Finset.sum_congr rfl fun r _ => hv _ r
    · show (a.2, b'.2) = (a.2, b.2)
      rw [hb.2]

theorem norm_sim (numel dv : ℝ) (rho : Dens 1 n) : ScfDist.normS numel dv (halves rho) = halves (ScfDist.normS numel dv rho) := by
  funext k i
  have e : (∑ s, if h : 0 < n then halves rho s ⟨0, h⟩ else 0) = ∑ s, if h : 0 < n then rho s ⟨0, h⟩ else 0 := by
    by_cases h : 0 < n
    · simp only [dif_pos h, Fin.sum_univ_two, Fin.sum_univ_one, halves]
      ring
    · simp [dif_neg h]
  unfold ScfDist.normS
  rw [e]
  simp only [halves]
  ring

/-- The occupations of the run with spin, where both spins have the same levels: those of the run without spin, in both spins, and the same `-TS`. -/
def OccSame {nk : ℕ} (occ1 : (Fin nk → Fin 1 → ℕ → ℝ) → Except PyErr ((Fin nk → Fin 1 → ℕ → ℝ) × ℝ)) (occ2 : (Fin nk → Fin 2 → ℕ → ℝ) → Except PyErr ((Fin nk → Fin 2 → ℕ → ℝ) × ℝ)) : Prop :=
  ∀ ev : Fin nk → ℕ → ℝ, ERel (fun o o' => (∀ i s, o'.1 i s = o.1 i 0) ∧ o'.2 = o.2) (occ1 fun i _ => ev i) (occ2 fun i _ => ev i)

/-- The states of the two runs. -/
def RW {nk : ℕ} (w : Fin nk → Fin 1 → KSWfn.KS) (w' : Fin nk → Fin 2 → KSWfn.KS) : Prop := ∀ i s, w' i s = w i 0

theorem spins {nk : ℕ} {α β : Type} (R : Fin nk → α → β → Prop) (f : Fin nk → Fin 1 → Except PyErr α) (f' : Fin nk → Fin 2 → Except PyErr β) (h : ∀ i s, ERel (R i) (f i 0) (f' i s)) :
    ERel (fun a b => ∀ i s, R i (a i 0) (b i s)) (seqF nk fun i => seqF 1 (f i)) (seqF nk fun i => seqF 2 (f' i)) := by
  refine ScfDist.seqF_rel nk _ _ (fun i (a : Fin 1 → α) (b : Fin 2 → β) => ∀ s, R i (a 0) (b s)) fun i => ?_
  have h1 : seqF 1 (f i) = (f i 0 >>= fun a => .ok fun _ => a) := by
    show (f i 0 >>= fun a => .ok (Fin.cons (α := fun _ => α) a Fin.elim0)) = _
    congr 1
    funext a
    congr 1
    funext j
    obtain rfl : j = 0 := Fin.ext (by have := j.2; omega)
    rfl
  have h2 := ScfGrp.seqF_const (R := R i) (f i 0) 1 (f' i) (h i)
  rw [h1]
  revert h2
  generalize f i 0 = x
  generalize seqF (1 + 1) (f' i) = y
  intro h2
  cases x <;> cases y
  · exact h2
  · exact h2.elim
  · exact h2.elim
  · exact h2

theorem eqE {α : Type} (x : Except PyErr α) : ERel (fun a b => b = a) x x := by
  cases x <;> exact rfl

theorem ops_sim (hv : FFT.ValidIdx d idx) (hm : 0 < C.mix.mixdim) (he : Same C.exch exch) (hc : Same C.corr corr) (hs : ∀ rho, symm (halves rho) = halves (C.symm rho)) (ho : OccSame C.occ occ) (drv : Driver)
    (sst : DrvState ℂ) (kst : Fin C.nk → DrvState ℂ) (junk : ∀ i, ℕ → EuclideanSpace ℂ (Fin (C.kp i).idx.length)) :
    Sim halves RW RV (RM C.method C.mix) (serOps C (by decide) drv sst kst junk) (serOps (spin C exch corr symm occ) (by decide) drv sst kst junk) where
  set := ⟨rfl, rfl, rfl, rfl, rfl, rfl⟩
  normalize := norm_sim C.numel C.dv
  symm := hs
  pot rho := pot_sim C exch corr symm occ (Pot.fft_laws drv d idx hv sst C.g C.dv) he hc rho
  pair v v' rho h := by
    show ((∑ r, ∑ s, v'.hxc s r * (fftSpace drv d idx sst C.g C.dv).toR (halves rho s) r) * (C.dv : ℂ)).re = ((∑ r, ∑ s, v.hxc s r * (fftSpace drv d idx sst C.g C.dv).toR (rho s) r) * (C.dv : ℂ)).re
    have L := Pot.fft_laws drv d idx hv sst C.g C.dv
    congr 2
    refine Finset.sum_congr rfl fun r _ => ?_
    have e : ∀ s, (fftSpace drv d idx sst C.g C.dv).toR (halves rho s) r = (fftSpace drv d idx sst C.g C.dv).toR (rho 0) r / 2 := fun s => toR_half L (rho 0) r
    rw [Fin.sum_univ_two, Fin.sum_univ_one, e, e, h.hxc, h.hxc]
    ring
  solve w w' v v' thr hw hv := by
    refine spins (fun _ a b => b = a) _ _ fun i s => ?_
    show ERel _ (ScfDist.solveS C drv (C.kp i) (kst i) (junk i) (v.vloc 0) v.g0 thr (w i 0)) (ScfDist.solveS C drv (C.kp i) (kst i) (junk i) (v'.vloc s) v'.g0 thr (w' i s))
    rw [hv.vloc, hv.g0, hw i s]
    exact eqE _
  occ w w' hw := by
    have h := ho fun i => (w i 0).evl
    have e1 : (fun i s => (w i s).evl) = fun i (_ : Fin 1) => (w i 0).evl := by
      funext i s
      rw [Subsingleton.elim s 0]
    have e2 : (fun i s => (w' i s).evl) = fun i (_ : Fin 2) => (w i 0).evl := by
      funext i s
      rw [hw i s]
    show ERel _ (C.occ (fun i s => (w i s).evl) >>= _) (occ (fun i s => (w' i s).evl) >>= _)
    rw [e1, e2]
    refine h.bind fun o o' h' => ⟨fun i s => ?_, h'.2⟩
    show { w' i s with occ := o'.1 i s } = { w i 0 with occ := o.1 i 0 }
    rw [hw i s, h'.1 i s]
  eig w w' hw := by
    show (∑ i, ∑ s, (C.kp i).weight / 2 * ∑ b ∈ Finset.range C.nb, (w' i s).evl b * (w' i s).occ b) = ∑ i, ∑ s, (C.kp i).weight * ∑ b ∈ Finset.range C.nb, (w i s).evl b * (w i s).occ b
    refine Finset.sum_congr rfl fun i _ => ?_
    rw [Fin.sum_univ_two, Fin.sum_univ_one, hw, hw]
    ring
  rhoWfn w w' hw := by
    refine (spins (fun _ a b => b = a) (fun i s => KSWfn.computeRho drv d (C.kp i).idx (kst i) C.vol (w i s) (.slice 0 C.nb)) (fun i s => KSWfn.computeRho drv d (C.kp i).idx (kst i) C.vol (w' i s) (.slice 0 C.nb))
      fun i s => by rw [hw i s]; exact eqE _).bind fun r r' hr => ?_
    refine ⟨fun i s => ?_, ?_⟩
    · show (r' i s).1 = (r i 0).1
      rw [hr]
    · funext s j
      show (∑ i, (((C.kp i).weight / 2 : ℝ) : ℂ) * (fftSpace drv d idx sst C.g C.dv).toG (fun x => (r' i s).2 0 x) j) = (∑ i, ((C.kp i).weight : ℂ) * (fftSpace drv d idx sst C.g C.dv).toG (fun x => (r i 0).2 0 x) j) / 2
      rw [Finset.sum_div]
      refine Finset.sum_congr rfl fun i _ => ?_
      rw [hr]
      push_cast
      ring
  err a b := by
    show dot C.mix (halvesL a - halvesL b) (halvesL a - halvesL b) = dot C.mix (a - b) (a - b)
    rw [← map_sub]
    exact dot_halves C.mix _ _
  mix mx mx' a b h := by
    refine (mix_sim C.method C.mix hm mx mx' h a b).bind fun o o' h' => ⟨h'.1, h'.2.1, h'.2.2.1, ?_⟩
    show decide (C.method = .gen ∨ mx'.idx = 0) = decide (C.method = .gen ∨ mx.idx = 0)
    simp only [h'.2.2.2]

/-! ## Occupations -/

theorem sum_dup {α : Type} (f : α → ℝ) (l : List α) (g : α → List α) (hg : ∀ w, ((g w).map f).sum = f w) : ((l.flatMap g).map f).sum = (l.map f).sum := by
  induction l with
  | nil => rfl
  | cons a l ih => rw [List.flatMap_cons, List.map_append, List.sum_append, ih, hg, List.map_cons, List.sum_cons]

theorem getD_dup {α : Type} (l : List α) (x : α) (i s : ℕ) (hs : s < 2) : (l.flatMap fun y => [y, y]).getD (i * 2 + s) x = l.getD i x := by
  induction l generalizing i with
  | nil => rfl
  | cons a l ih =>
    rw [List.flatMap_cons]
    cases i with
    | zero =>
      interval_cases s <;> rfl
    | succ i =>
      have : (i + 1) * 2 + s = (i * 2 + s) + 1 + 1 := by ring
      rw [this]
      exact ih i

/-- **C211, occupations.** The smearing routine, given every wavefunction twice with half its weight, finds the same Fermi level and smearing energy and gives both copies the occupations of the original. -/
theorem C211_smear (t : Occup.Typ) (deg numel : ℝ) (gs : List (List Occup.Wfn)) (fuel : ℕ) (hne : gs ≠ []) (hg : ∀ g ∈ gs, ∃ w ∈ g, w.evl ≠ []) :
    ∃ r, Occup.smear t deg gs numel fuel = .ok r ∧
      Occup.smear t deg (gs.map fun g => g.flatMap wfnSpin) numel fuel = .ok (r.map fun o => ⟨o.fermi, o.smear, o.occ.map fun g => g.flatMap fun l => [l, l]⟩) := by
  have hc : Occup.count t deg (gs.map fun g => g.flatMap wfnSpin) = Occup.count t deg gs := by
    funext mu
    unfold Occup.count
    rw [List.map_map]
    refine congrArg List.sum (List.map_congr_left fun g _ => ?_)
    refine sum_dup _ g wfnSpin fun w => ?_
    simp only [wfnSpin, List.map_cons, List.map_nil, List.sum_cons, List.sum_nil]
    ring
  have hall : Occup.allEvl (gs.map fun g => g.flatMap wfnSpin) = Occup.allEvl gs := by
    ext e
    simp [Occup.allEvl, wfnSpin]
  obtain ⟨lo, hi, hlo, hhi, he⟩ := Occup.smear_bounds t deg gs numel fuel hne hg
  obtain ⟨lo', hi', hlo', hhi', he'⟩ := Occup.smear_bounds t deg (gs.map fun g => g.flatMap wfnSpin) numel fuel (by simpa using hne) (by
    intro g hgm
    obtain ⟨g0, hg0, rfl⟩ := List.mem_map.1 hgm
    obtain ⟨w, hw, hwe⟩ := hg g0 hg0
    exact ⟨⟨w.weight / 2, w.evl⟩, List.mem_flatMap.2 ⟨w, hw, by simp [wfnSpin]⟩, hwe⟩)
  rw [hall] at hlo' hhi'
  obtain rfl := hlo'.unique hlo
  obtain rfl := hhi'.unique hhi
  refine ⟨_, he, he'.trans ?_⟩
  rw [hc, Option.map_map]
  congr 2
  funext mu
  simp only [Function.comp_apply]
  congr 1
  · rw [List.map_map]
    refine congrArg List.sum (List.map_congr_left fun g _ => ?_)
    refine sum_dup _ g wfnSpin fun w => ?_
    simp only [wfnSpin, List.map_cons, List.map_nil, List.sum_cons, List.sum_nil]
    ring
  · rw [List.map_map, List.map_map]
    refine List.map_congr_left fun g _ => ?_
    simp only [Function.comp_apply, List.map_flatMap, List.flatMap_map]
    rfl

/-- **C211, occupations of a run.** So the occupations of the two runs are those of `OccSame`, on any number of k-point groups none of which is empty. -/
theorem C211_occupations {nk : ℕ} (κ : ℕ) (hκ : κ + 1 ≤ nk) (t : Occup.Typ) (deg numel : ℝ) (fuel nb : ℕ) (hb : 0 < nb) (weight : Fin nk → ℝ) :
    OccSame (ScfGrp.smearOcc κ t deg numel fuel nb weight) (ScfGrp.smearOcc κ t deg numel fuel nb fun i => weight i / 2) := by
  intro ev
  have hκ0 : 0 + 1 ≤ nk := by omega
  rw [ScfGrp.C210_occupations κ hκ (by decide) t deg numel fuel nb hb, ScfGrp.C210_occupations κ hκ (by decide) t deg numel fuel nb hb]
  have hgr : ScfGrp.groups 0 nb (fun i => weight i / 2) (fun i (_ : Fin 2) => ev i) = (ScfGrp.groups 0 nb weight (fun i (_ : Fin 1) => ev i)).map fun g => g.flatMap wfnSpin := by
    unfold ScfGrp.groups
    rw [List.map_map]
    refine List.map_congr_left fun g _ => ?_
    simp only [Function.comp_apply, List.flatMap_assoc]
    rfl
  have hone : ScfGrp.groups 0 nb weight (fun i (_ : Fin 1) => ev i) = [(List.finRange nk).map fun i => ⟨weight i, (List.range nb).map (ev i)⟩] := by
    have h := Scatter.C01_blocks_concat (List.finRange nk) 1 one_pos
    have h' : Scatter.block (List.finRange nk) (0 + 1) 0 = List.finRange nk := by simpa using h
    show [(Scatter.block (List.finRange nk) (0 + 1) 0).flatMap fun i => [(⟨weight i, (List.range nb).map (ev i)⟩ : Occup.Wfn)]] = _
    rw [h', ← List.map_eq_flatMap]
  obtain ⟨r, h1, h2⟩ := C211_smear t deg numel (ScfGrp.groups 0 nb weight (fun i (_ : Fin 1) => ev i)) fuel (by rw [hone]; simp) (by
    rw [hone]
    intro g hg
    obtain rfl := List.mem_singleton.1 hg
    refine ⟨_, List.mem_map.2 ⟨⟨0, by omega⟩, List.mem_finRange _, rfl⟩, ?_⟩
    intro e
    have := congrArg List.length e
    simp at this
    omega)
  unfold ScfGrp.smearOcc
  rw [hgr, h1, h2]
  cases r with
  | none => exact rfl
  | some o =>
    refine ⟨fun i s => ?_, rfl⟩
    funext b
    show (((o.occ.map fun g => g.flatMap fun l => [l, l]).flatten).getD (i.1 * 2 + s.1) []).getD b 0 = ((o.occ.flatten).getD (i.1 * 1 + 0) []).getD b 0
    have e : (o.occ.map fun g => g.flatMap fun l => [l, l]).flatten = o.occ.flatten.flatMap fun l => [l, l] := by
      induction o.occ with
      | nil => rfl
      | cons a l ih => rw [List.map_cons, List.flatten_cons, ih, List.flatten_cons, List.flatMap_append]
    rw [e, getD_dup _ _ _ _ s.2, Nat.mul_one, Nat.add_zero]

/-- **C211, symmetrisation.** The symmetriser keeps both spin components half of what it makes of the density without spin. -/
theorem C211_symmetriser {m : ℕ} (ops : Fin (m + 1) → Symm.SymOp) (sh : GSpace.Shape) (key : GSpace.GVec → ℤ) (gs : List GSpace.GVec) (hG : Symm.IsGroup ops) (hB : Symm.Basis ops sh key gs) (garbage : ℕ → ℂ)
    (rho : Dens 1 gs.length) : symmDens ops sh key gs garbage (fun _ j => rho 0 j / 2 : Dens 2 gs.length) = fun _ j => symmDens ops sh key gs garbage rho 0 j / 2 := by
  funext s j
  have h := (Symm.C31_symmetrised hG hB garbage garbage (fun i => if h : i < gs.length then rho 0 ⟨i, h⟩ else 0) (fun _ => 0) (1 / 2) 0).2.2.2.1 j j.2
  have e : (fun i => if h : i < gs.length then rho 0 ⟨i, h⟩ / 2 else 0) = fun i => (1 / 2 : ℂ) * (if h : i < gs.length then rho 0 ⟨i, h⟩ else 0) + 0 * 0 := by
    funext i
    by_cases h : i < gs.length
    · rw [dif_pos h, dif_pos h]
      ring
    · rw [dif_neg h, dif_neg h]
      ring
  show Symm.symmetrize ops sh key gs garbage (fun i => if h : i < gs.length then rho 0 ⟨i, h⟩ / 2 else 0) j = Symm.symmetrize ops sh key gs garbage (fun i => if h : i < gs.length then rho 0 ⟨i, h⟩ else 0) j / 2
  rw [e, h]
  ring

/-! ## The run -/

/-- **C211.** A whole SCF run with `is_spin=True` of a crystal without magnetisation is the run with `is_spin=False`: started with half the density in either component and the same states in both spins, with the polarised versions
of the same functionals, it makes the same reports (errors, thresholds, energies) in every iteration, converges in the same iteration or not at all, or fails with the same exception; at every end both components hold half the
density of the other run (the magnetisation is exactly zero) and both spins its states, eigenvalues and occupations. -/
theorem C211_scf (C : Calc d idx 1) (hv : FFT.ValidIdx d idx) (hm : 1 < C.mix.mixdim) (exch corr : PointFunc 2) (he : Same C.exch exch) (hc : Same C.corr corr) (symm : Dens 2 idx.length → Dens 2 idx.length)
    (hs : ∀ rho : Dens 1 idx.length, symm (fun _ j => rho 0 j / 2) = fun _ j => C.symm rho 0 j / 2) (occ : (Fin C.nk → Fin 2 → ℕ → ℝ) → Except PyErr ((Fin C.nk → Fin 2 → ℕ → ℝ) × ℝ)) (ho : OccSame C.occ occ)
    (drv : Driver) (sst : DrvState ℂ) (kst : Fin C.nk → DrvState ℂ) (junk : ∀ i, ℕ → EuclideanSpace ℂ (Fin (C.kp i).idx.length)) (maxiter : ℕ) (rho : Dens 1 idx.length) (w : Fin C.nk → Fin 1 → KSWfn.KS)
    (mx : Mixing.St 1 idx.length) (hmx : mx.idx = 0) (mx' : Mixing.St 2 idx.length) (hmx' : mx'.idx = 0) :
    match (serOps C (by decide) drv sst kst junk).scf maxiter rho w mx, (serOps (spin C exch corr symm occ) (by decide) drv sst kst junk).scf maxiter (fun _ j => rho 0 j / 2) (fun i _ => w i 0) mx' with
    | .ok r, .ok r' => r'.converged = r.converged ∧ r'.trace = r.trace ∧ r'.st.en = r.st.en ∧ (∀ s j, r'.st.rho s j = r.st.rho 0 j / 2) ∧ (∀ s j, r'.st.caller s j = r.st.caller 0 j / 2) ∧ ∀ i s, r'.st.w i s = r.st.w i 0
    | .error e, .error e' => e' = e
    | _, _ => False := by
  have t := ops_sim C exch corr symm occ hv (by omega) he hc hs ho drv sst kst junk
  have h := ScfDist.scf_sim t maxiter rho w (fun i _ => w i 0) (fun i s => rfl) mx mx' (Or.inl ⟨hmx, hmx'⟩)
  revert h
  show ERel _ _ ((serOps (spin C exch corr symm occ) (by decide) drv sst kst junk).scf maxiter (fun _ j => rho 0 j / 2) (fun i _ => w i 0) mx') → _
  generalize (serOps C (by decide) drv sst kst junk).scf maxiter rho w mx = a
  generalize (serOps (spin C exch corr symm occ) (by decide) drv sst kst junk).scf maxiter (fun _ j => rho 0 j / 2) (fun i _ => w i 0) mx' = b
  intro h
  cases a with
  | error a => cases b with
    | error b => exact h
    | ok b => exact h.elim
  | ok a => cases b with
    | error b => exact h.elim
    | ok b => exact ⟨h.1, h.2.1, h.2.2.en, fun s j => by rw [h.2.2.rho]; rfl, fun s j => by rw [h.2.2.caller]; rfl, h.2.2.w⟩

/-! ## Concrete cases -/

/-- Local exchange `zk = ρ`, `v = ρ` and its version with spin. -/
noncomputable def exG2 : PointFunc 2 := ⟨.lda, fun r _ => r 0 + r 1, fun r _ _ => r 0 + r 1, fun _ _ _ => 0⟩

theorem exSame : Same ScfDist.exF exG2 := by
  refine ⟨rfl, fun r σ => ?_, fun r σ s => ?_, fun r σ k _ => ?_⟩ <;> simp [ScfDist.exF, exG2]

/-- A gradient functional: `ρ e(ρ, σ)` with `e = σ`, with spin `e = σ₀₀ + 2 σ₀₁ + σ₁₁`. -/
noncomputable def exGrad : PointFunc 1 := ⟨.gga, fun _ σ => (σ.getD 0) 0, fun _ σ _ => (σ.getD 0) 0, fun r _ _ => r 0⟩

/-- The same with spin. -/
noncomputable def exGrad2 : PointFunc 2 := ⟨.gga, fun _ σ => (σ.getD 0) 0 + 2 * (σ.getD 0) 1 + (σ.getD 0) 2, fun _ σ _ => (σ.getD 0) 0 + 2 * (σ.getD 0) 1 + (σ.getD 0) 2, fun r _ k => (r 0 + r 1) * if k = 1 then 2 else 1⟩

theorem exGradSame : Same exGrad exGrad2 := by
  refine ⟨rfl, fun r σ => ?_, fun r σ s => ?_, fun r σ k hk => ?_⟩
  · cases σ
    · simp [exGrad, exGrad2]
    · simp [exGrad, exGrad2]
      ring
  · cases σ
    · simp [exGrad, exGrad2]
    · simp [exGrad, exGrad2]
      ring
  · have : k ≠ 1 := by
      rintro rfl
      revert hk
      decide
    simp only [exGrad, exGrad2, if_neg this, if_true]
    ring

/-- Two k-points on two groups with Gaussian smearing. -/
example : OccSame (ScfGrp.smearOcc 1 .gauss (1 / 100) 3 1000 4 (fun _ : Fin 2 => 1)) (ScfGrp.smearOcc 1 .gauss (1 / 100) 3 1000 4 fun _ : Fin 2 => 1 / 2) := C211_occupations 1 le_rfl .gauss _ _ _ _ (by norm_num) _

/-- The run with spin makes its iteration, the one of the run without. -/
example (dev : Nonloc.Device) (m : Mixing.Method) (sst : DrvState ℂ) (rho : Dens 1 PotDist.exS.idx.length) (mx' : Mixing.St 2 PotDist.exS.idx.length) (hmx' : mx'.idx = 0) :
    ∃ r', (serOps (spin (ScfDist.exCalc dev m) exG2 exG2 id fun _ => .ok (fun _ _ _ => 1, 0)) (by decide) .sticks sst (fun _ => sst) (fun _ _ => 0)).scf 1 (fun _ j => rho 0 j / 2) (fun _ _ => ScfDist.exK PotDist.exS.idx.length) mx' = .ok r' ∧
      r'.trace.length = 1 ∧ ∀ j, r'.st.rho 0 j = r'.st.rho 1 j := by
  obtain ⟨r, hr, hl⟩ := ScfDist.exRun dev m .sticks sst (fun _ => sst) (fun _ _ => 0) rho (fun _ _ => ScfDist.exK PotDist.exS.idx.length) rfl ⟨0, 0, 0, 0, 0, 0⟩ rfl
  have := C211_scf (ScfDist.exCalc dev m) PotDist.exS_ok.valid (by norm_num [ScfDist.exCalc, MixDist.exC]) exG2 exG2 exSame exSame id (fun _ => rfl) (fun _ => .ok (fun _ _ _ => 1, 0)) (fun _ => ⟨fun _ _ => rfl, rfl⟩) .sticks sst
    (fun _ => sst) (fun _ _ => 0) 1 rho (fun _ _ => ScfDist.exK PotDist.exS.idx.length) ⟨0, 0, 0, 0, 0, 0⟩ rfl mx' hmx'
  revert this
  generalize hy : ScfDist.Ops.scf _ 1 (fun (_ : Fin 2) j => rho 0 j / 2) _ mx' = b
  generalize hx : ScfDist.Ops.scf _ 1 rho _ _ = x
  obtain rfl : x = .ok r := hx.symm.trans hr
  intro this
  cases b with
  | error e => exact this.elim
  | ok b => exact ⟨b, hy, by rw [this.2.1, hl], fun j => by rw [this.2.2.2.1, this.2.2.2.1]⟩

end Verif.SpinScf
