import Verif.Model.GW

/-!
# Model of the GW self-energy: /repo/src/qtm/gw/sigma.py

Numbers are exact; the Coulomb values and the matrices `ε⁻¹ - 1` are given. Not modelled: printing, autosave, the random sampling that
produces the Coulomb averages, band indices beyond the stored bands.
-/

namespace Verif.GW

open Verif.Lattice (Vec)
open Verif.GSpace (GVec Shape cryst2idxgrid at' argsort)
open Verif.FFT (Driver DrvState)
open scoped ComplexConjugate

/-- What the self-energy methods use of a `Sigma` object — sigma.py:108-210: grid, k-points and wavefunctions (`l_wfn`, `l_wfnq`),
`number_bands`, `band_index_min`, `band_index_max`, `l_k_indices`, q-points (`qpts.cryst`, `index_q0`, `is_q0`), G-vectors `l_gq`, Coulomb values
`vcoul.vcoul`, `l_epsinv_I`, `sigma_factor`. -/
structure SigIn where
  shape : Shape
  ks : List Vec
  wfn : List Wfn
  wfnq : List Wfn
  nbands : ℕ
  bmin : ℕ
  bmax : ℕ
  kIdx : List ℕ
  qs : List Vec
  q0 : ℕ
  isQ0 : Option (List Bool)
  gqs : List (List GVec)
  v : List (List ℝ)
  epsI : ℕ → ℕ → ℕ → ℂ
  factor : ℝ

/-- `is_qpt_0` — sigma.py:490. -/
def SigIn.atQ0 (S : SigIn) (iq : ℕ) : Bool :=
  match S.isQ0 with
  | none => false
  | some l => l.getD iq false

/-- The data shared with `Epsilon.matrix_elements` — sigma.py:471-512: k-points, unshifted wavefunctions, the wavefunctions of the bra states
(shifted ones at the q0 point), the q-vector added to k (none at the q0 point, sigma.py:492-497). -/
noncomputable def SigIn.eps (S : SigIn) (iq : ℕ) : EpsIn where
  shape := S.shape
  ks := S.ks
  wfn := S.wfn
  val := if S.atQ0 iq then S.wfnq else S.wfn
  nbands := S.nbands
  vol := 1
  qadd := if S.atQ0 iq then 0 else S.qs.getD iq 0
  gq := S.gqs.getD iq []

/-- `np.isclose(a, b, TOLERANCE)` — sigma.py:547: the third argument is the *relative* tolerance; the absolute one is numpy's default 1e-8. -/
def IsCloseRel (a b : Vec) : Prop := ∀ c, |a c - b c| ≤ 1 / 100000000 + 1 / 100000 * |b c|

/-- `k_bra_indices[0]` — sigma.py:546-552. -/
noncomputable def matchK (S : SigIn) (iq kket : ℕ) : Option ℕ := by
  classical
  exact (List.range S.ks.length).find? fun i => decide (IsCloseRel (S.ks.getD i 0) (kPlusQ (S.ks.getD kket 0) (S.eps iq).qadd))

/-- `pairs_i_k` — sigma.py:544-552. -/
noncomputable def pairs (S : SigIn) (iq : ℕ) : Except PyErr (List (ℕ × ℕ)) :=
  S.kIdx.mapM fun k =>
    match matchK S iq k with
    | none => .error .assertion
    | some b => .ok (k, b)

/-- `prod_grid_shape * r2g(conj(phi_ket / N) * (phi_bra / N))` — sigma.py:594-615. -/
noncomputable def sigMel (drv : Driver) (S : SigIn) (st : DrvState ℂ) (iq kket bket kbra bbra : ℕ) : List ℂ :=
  let E := S.eps iq
  let N : ℂ := (S.shape.size : ℂ)
  (fftProd drv S.shape st (idxOf S.shape (gUmk E kket))
    (fun r => phi drv S.shape st (E.wfn.getD kket default) bket r / N)
    (fun r => phi drv S.shape st (E.val.getD kbra default) bbra r / N)).map fun x => N * x

/-- One band of the bra: the rows of `M` of the k-points in `pairs` are overwritten, in order; a k-point listed twice in `l_k_indices` is
always written to its first position — sigma.py:574-615. `M` is indexed by position of the k-point and ket band. -/
noncomputable def fillRow (drv : Driver) (S : SigIn) (st : DrvState ℂ) (iq beg : ℕ) (ps : List (ℕ × ℕ)) (bra : ℕ)
    (M : ℕ → ℕ → List ℂ) : ℕ → ℕ → List ℂ := fun n ket =>
  ps.foldl (fun cur p => if S.kIdx.idxOf p.1 = n then sigMel drv S st iq p.1 (ket + beg) p.2 bra else cur) (M n ket)

/-- The arrays yielded with `yielding=True`: the same array is refilled for every bra band — sigma.py:534-535, 573-620. -/
noncomputable def yields (drv : Driver) (S : SigIn) (st : DrvState ℂ) (iq beg : ℕ) (ps : List (ℕ × ℕ)) :
    ℕ → ℕ → (ℕ → ℕ → List ℂ) → List (ℕ → ℕ → List ℂ)
  | 0, _, _ => []
  | k + 1, bra, M => fillRow drv S st iq beg ps bra M :: yields drv S st iq beg ps k (bra + 1) (fillRow drv S st iq beg ps bra M)

/-- Initial array: zeros — sigma.py:534-539. -/
def zeroM (len : ℕ) : ℕ → ℕ → List ℂ := fun _ _ => List.replicate len 0

/-- `np.argmin` : position of the first smallest entry. -/
noncomputable def argmin (l : List ℝ) : ℕ := by
  classical
  exact l.findIdx fun x => decide (∀ y ∈ l, x ≤ y)

/-- Squared Euclidean length (the order of lengths is the order of their squares). -/
def sq (v : Vec) : ℝ := v 0 ^ 2 + v 1 ^ 2 + v 2 ^ 2

/-- `target` of `index_minusq` — sigma.py:339-343. -/
noncomputable def minusTarget (q : Vec) : Vec := by
  classical
  exact fun c => if |q c| > 1 / 100000 then 1 - q c else 0

/-- `index_minusq` — sigma.py:319-348. -/
noncomputable def indexMinusQ (S : SigIn) (iq : ℕ) : ℕ := by
  classical
  exact if sq (S.qs.getD iq 0) < (1 / 100000) ^ 2 ∨ S.q0 = iq then iq
    else argmin (S.qs.map fun q => sq (fun c => q c - minusTarget (S.qs.getD iq 0) c))

/-- A G-vector as a real vector. -/
def gv (g : GVec) : Vec := fun c => if c = 0 then (g.1 : ℝ) else if c = 1 then (g.2.1 : ℝ) else (g.2.2 : ℝ)

/-- `map_g_to_g_minusq` — sigma.py:350-374. -/
noncomputable def mapG (g gm : List GVec) (q mq : Vec) : List ℕ :=
  g.map fun x => argmin (gm.map fun y => sq (fun c => (gv y c + mq c) - (-1 * (gv x c + q c))))

/-- `l_q` with the q0 point set to zero — sigma.py:768-769. -/
noncomputable def lq (S : SigIn) (iq : ℕ) : Vec := if iq = S.q0 then 0 else S.qs.getD iq 0

/-- `g_to_mg` — sigma.py:776-785. -/
noncomputable def gToMg (S : SigIn) (iq : ℕ) : List ℕ :=
  mapG (S.gqs.getD iq []) (S.gqs.getD (indexMinusQ S iq) []) (lq S iq) (lq S (indexMinusQ S iq))

/-- `M[..., g_to_mg]` of one k-point and band. -/
def takeG (M : List ℂ) (idx : List ℕ) : List ℂ := idx.map fun i => M.getD i 0

/-- The checks of one q-point: occupied and empty bands exist (`max`/`min` of an empty array, sigma.py:486-487), k+q is in the list
(sigma.py:549), the shifted G-vectors fit the FFT grid (sigma.py:578), and the Coulomb values (computed for the G-vectors below
`bare_coulomb_cutoff`, sigma.py:175-180) are as many as the G-vectors below `epsilon_cutoff` (`np.einsum`, sigma.py:798). -/
noncomputable def qPairs (S : SigIn) (iq : ℕ) : Except PyErr (List (ℕ × ℕ)) := do
  let im := indexMinusQ S iq
  if whereOcc (S.eps im) 1 = [] ∨ whereOcc (S.eps im) 0 = [] then .error .value
  let ps ← pairs S im
  let _ ← ps.mapM fun p => cryst2idxgrid S.shape (gUmk (S.eps im) p.1)
  if (S.v.getD iq []).length ≠ (S.gqs.getD iq []).length then .error .value
  pure ps

/-- Contribution of one q-point, for an einsum `con` of the matrix elements of one bra band — sigma.py:774-809, 875-933, 986-1043:
yielded arrays are contracted one by one, or the stored array at once. -/
noncomputable def sigPart (drv : Driver) (S : SigIn) (st : DrvState ℂ) (nbra : ℕ) (con : ℕ → List ℂ → ℂ) (yielding : Bool) (iq : ℕ) :
    Except PyErr (ℕ → ℕ → ℂ) := do
  let ps ← qPairs S iq
  let im := indexMinusQ S iq
  let len := (S.gqs.getD im []).length
  pure fun n j =>
    if yielding then
      (yields drv S st im (S.bmin - 1) ps nbra 0 (zeroM len)).foldl (fun acc M => acc + con iq (takeG (M n j) (gToMg S iq))) 0
    else
      ∑ b ∈ Finset.range nbra, con iq (takeG (fillRow drv S st im (S.bmin - 1) ps b (zeroM len) n j) (gToMg S iq))

/-- Serial (`none`) or distributed (`some size`) sum over q-points — sigma.py:811-829, 866-873, 941-942: `sgn` is the sign of `-=`/`+=`. -/
noncomputable def qSum (size : Option ℕ) (numq : ℕ) (sgn : ℂ) (part : ℕ → Except PyErr (ℕ → ℕ → ℂ)) : Except PyErr (ℕ → ℕ → ℂ) :=
  match size with
  | none => do
      let ps ← (List.range numq).mapM part
      pure fun n j => ps.foldl (fun acc p => acc + sgn * p n j) 0
  | some size => do
      let ranks ← (List.range size).mapM fun r => do
        let ps ← (arraySplit numq size r).mapM part
        pure fun n j => ps.foldl (fun acc p => acc + sgn * p n j) 0
      pure fun n j => ranks.foldl (fun (acc : ℂ) (r : ℕ → ℕ → ℂ) => acc + r n j) 0

/-- `np.einsum("njm,njm,m->nj", conj(M), M, v)` — sigma.py:793-798. -/
noncomputable def conX (v : List ℝ) (M : List ℂ) : ℂ :=
  ∑ m ∈ Finset.range v.length, conj (M.getD m 0) * M.getD m 0 * (v.getD m 0 : ℂ)

/-- `np.einsum("njk,njm,km,k->nj", conj(M), M, epsinv_I, v)` — sigma.py:904-916, 1008-1020. -/
noncomputable def conEps (v : List ℝ) (E : ℕ → ℕ → ℂ) (M : List ℂ) : ℂ :=
  ∑ k ∈ Finset.range v.length, ∑ m ∈ Finset.range v.length, conj (M.getD k 0) * M.getD m 0 * E k m * (v.getD k 0 : ℂ)

/-- `Sigma.sigma_x` — sigma.py:744-840. The bra runs over the first `n_v_max` bands (sigma.py:486, 521). -/
noncomputable def sigmaX (drv : Driver) (S : SigIn) (st : DrvState ℂ) (yielding : Bool) (size : Option ℕ) : Except PyErr (ℕ → ℕ → ℂ) := do
  let s ← qSum size S.qs.length (-1) (sigPart drv S st (nVMax (S.eps 0)) (fun iq => conX (S.v.getD iq [])) yielding)
  pure fun n j => s n j * (S.factor : ℂ)

/-- The sort at the top of the loop of `sigma_sx_static` — sigma.py:890-897: the wavefunction list is indexed by the q-point, and at q0 the keys
come from the shifted, the vectors from the unshifted wavefunction; `np.lexsort` refuses keys of different lengths. Its result is unused. -/
def sxSort (S : SigIn) (iq : ℕ) : Except PyErr Unit :=
  let src := if iq = S.q0 then S.wfnq else S.wfn
  if src.length ≤ iq ∨ S.wfn.length ≤ iq then .error .index
  else if (src.getD iq default).gs.length ≠ (S.wfn.getD iq default).gs.length then .error .value
  else .ok ()

/-- `Sigma.sigma_sx_static` — sigma.py:843-953. -/
noncomputable def sigmaSX (drv : Driver) (S : SigIn) (st : DrvState ℂ) (yielding : Bool) (size : Option ℕ) : Except PyErr (ℕ → ℕ → ℂ) := do
  let s ← qSum size S.qs.length 1 (fun iq => do
    sxSort S iq
    sigPart drv S st (nVMax (S.eps 0)) (fun iq => conEps (S.v.getD iq []) (S.epsI iq)) yielding iq)
  pure fun n j => s n j * ((-1 * S.factor : ℝ) : ℂ)

/-- `Sigma.sigma_ch_static` — sigma.py:956-1050: the bra runs over `number_bands` bands. -/
noncomputable def sigmaCH (drv : Driver) (S : SigIn) (st : DrvState ℂ) (yielding : Bool) (size : Option ℕ) : Except PyErr (ℕ → ℕ → ℂ) := do
  let s ← qSum size S.qs.length 1 (sigPart drv S st S.nbands (fun iq => conEps (S.v.getD iq []) (S.epsI iq)) yielding)
  pure fun n j => s n j * ((0.5 * S.factor : ℝ) : ℂ)

/-- `G' - G`. -/
def gSub (a b : GVec) : GVec := (a.1 - b.1, a.2.1 - b.2.1, a.2.2 - b.2.2)

/-- The last k-point below `numq` matching the ket (`np.isclose(…, atol=1e-5)`, later matches overwrite) — sigma.py:649-650, 703-728. -/
noncomputable def exactBra (S : SigIn) (k : ℕ) : ℕ := by
  classical
  exact ((List.range S.qs.length).reverse.find? fun i => decide (IsClose (S.ks.getD i 0) (S.ks.getD k 0))).getD k

/-- `M[i_k, i_b]` for one vector `G' - G` — `matrix_elements_sigma_exact`, sigma.py:630-739: only k-points with index below `numq` are filled
(sigma.py:640, 649-657, 678), a k-point listed twice fills its first position; the band index is the position in the output (sigma.py:649,
not shifted by `band_index_min`); vectors with `|G'-G|²` above `epsilon_cutoff` are zeroed (sigma.py:734-737). The driver is called here for one
vector at a time; the code passes all of them (with repetitions) at once. -/
noncomputable def exactMel (drv : Driver) (S : SigIn) (st : DrvState ℂ) (norm2 : GVec → ℝ) (cut : ℝ) (n j : ℕ) (X : GVec) : ℂ := by
  classical
  exact
    let k := S.kIdx.getD n 0
    if S.kIdx.idxOf k = n ∧ k < S.qs.length then
      if norm2 X > cut then 0
      else (fftProd drv S.shape st (idxOf S.shape [X]) (phi drv S.shape st (S.wfn.getD k default) j)
        (phi drv S.shape st (S.wfn.getD (exactBra S k) default) j)).getD 0 0
    else 0

/-- One q-point of `sigma_ch_static_exact` — sigma.py:1082-1111: `einsum("kijm,mk,m->ij", M, epsinv_I, vqg) / N`. All differences `G' - G` must lie on
the FFT grid (`cryst2idxgrid`, sigma.py:688), and the k-points are indexed up to `numq` (sigma.py:703, `IndexError`). -/
noncomputable def exactPart (drv : Driver) (S : SigIn) (st : DrvState ℂ) (norm2 : GVec → ℝ) (cut : ℝ) (iq : ℕ) : Except PyErr (ℕ → ℕ → ℂ) := do
  let g := S.gqs.getD iq []
  let v := S.v.getD iq []
  let _ ← cryst2idxgrid S.shape (g.flatMap fun a => g.map fun b => gSub b a)
  if S.ks.length < S.qs.length then .error .index
  if v.length ≠ g.length then .error .value
  pure fun n j => (∑ k ∈ Finset.range g.length, ∑ m ∈ Finset.range g.length,
    exactMel drv S st norm2 cut n j (gSub (g.getD m (0, 0, 0)) (g.getD k (0, 0, 0))) * S.epsI iq m k * (v.getD m 0 : ℂ)) / (S.shape.size : ℂ)

/-- `Sigma.sigma_ch_static_exact` — sigma.py:1053-1118 (some self-energy k-point has index below `numq`). -/
noncomputable def sigmaCHExact (drv : Driver) (S : SigIn) (st : DrvState ℂ) (norm2 : GVec → ℝ) (cut : ℝ) (size : Option ℕ) :
    Except PyErr (ℕ → ℕ → ℂ) := do
  let s ← qSum size S.qs.length 1 (exactPart drv S st norm2 cut)
  pure fun n j => s n j * ((0.5 * S.factor : ℝ) : ℂ)

/-- `Sigma.__init__`: `l_epsinv_I[i_q] = reorder(epsinv - 1, argsort(sort_order))` — sigma.py:194-210 (`fixwings` off; it is modelled by
`fixwings`). -/
noncomputable def initEpsI (mat : ℕ → ℕ → ℂ) (gk : List (Vec × ℝ)) : ℕ → ℕ → ℂ :=
  reorder (fun i j => mat i j - if i = j then 1 else 0) (argsort (sortBGW gk))

/-! ## Plasmon-pole model -/

/-- `rhohash` — sigma.py:300-317 and 140-144; integer floor division. -/
def rhohash (s : Shape) (g : GVec) : ℤ :=
  (g.1 + ((s.n1 / 2 : ℕ) : ℤ)) + (g.2.1 + ((s.n2 / 2 : ℕ) : ℤ)) * s.n1 + (g.2.2 + ((s.n3 / 2 : ℕ) : ℤ)) * s.n1 * s.n2

/-- `rho_dict[rhohash(g)]` — sigma.py:145-147, 1164, 1180: later entries of `dict(zip(...))` replace earlier ones; a missing key raises
`KeyError`. -/
def rhoLookup (s : Shape) (gs : List GVec) (g : GVec) : Except PyErr ℕ :=
  match ((List.range gs.length).reverse.find? fun i => rhohash s (gs.getD i (0, 0, 0)) = rhohash s g) with
  | some i => .ok i
  | none => .error .key

/-- `Ω²` before the pole is fitted — sigma.py:1168-1218, for the values `rho` of the density at `G - G'`, `nelec = rho(0)`, `wp2`,
`gdot = (G+q)·(G'+q)`, `v = v(q+G)`; `head` says `i_g = 0` and `|G+q|² < 1e-5` (sigma.py:1204) and `head00` that also `i_gp = 0`. `cycle`
(sigma.py:1203-1210) is never used. -/
noncomputable def gppOmega (nelec rho wp2 : ℂ) (gdot v : ℝ) (head head00 : Bool) : ℂ := by
  classical
  exact
    let rho' := if rho.im > 1 / 100000 then 0 else rho
    let o0 := wp2 * (rho' / nelec) * gdot * v / ((8 * Real.pi : ℝ) : ℂ)
    let o1 := if head && head00 then wp2 * rho' / nelec else o0
    if ‖o1‖ < 1 / 100000 then o1 * 0 else o1

/-- The pole — sigma.py:1220-1242, with `e = epsinv_I[G, G']`: `np.cos(arctan2(y, x)) = x / |z|`, `np.tan(phi) = y / x`. -/
noncomputable def gppPole (o e : ℂ) : ℂ × ℂ := by
  classical
  exact
    let w := o / (-e)
    if ‖w‖ < 1 / 100000 then (o, 0)
    else if |w.re / ‖w‖| < 1 / 100000 then (o, 0)
    else
      let wt2 := ‖w‖ / (w.re / ‖w‖)
      if wt2 < 0 then (((10 ^ 24 : ℝ) : ℂ) * (-1) * e, ((10 ^ 24 : ℝ) : ℂ))
      else (o * (1 - Complex.I * ((w.im / w.re : ℝ) : ℂ)), (wt2 : ℂ))

/-- One entry `(omega2, wtilde2)` of `sigma_gpp_omegas` — sigma.py:1168-1244. -/
noncomputable def gppEntry (nelec rho wp2 : ℂ) (gdot v : ℝ) (e : ℂ) (head head00 : Bool) : ℂ × ℂ := by
  classical
  exact if ‖e‖ < 1 / 100000 then (0, 0) else gppPole (gppOmega nelec rho wp2 gdot v head head00) e

/-- One entry of `calculate_ssx` — sigma.py:1282-1362 — for real `wxt` and real non-negative `wtilde2 = wt²`, `wt ≥ 0`; `eps` replaces a zero
denominator; `np.nan_to_num` has nothing to replace in exact arithmetic. -/
noncomputable def ssxEntry (eps wxt wt : ℝ) (omega2 e : ℂ) : ℂ := by
  classical
  exact
    let wdiff := wxt - wt
    let r1 := if wdiff ^ 2 = 0 then eps else wdiff ^ 2
    let delw := wt * wdiff * r1⁻¹
    let condA := wdiff * wdiff > 1 / 4 ∧ delw * delw < 25000
    let condB := delw * delw > 1 / 100000
    let cden := wxt ^ 2 - wt ^ 2
    let r2 := if cden ^ 2 = 0 then eps else cden ^ 2
    let a := omega2 * (cden : ℂ) * ((r2⁻¹ : ℝ) : ℂ)
    let cb := 4 * wt ^ 2 * (delw + 1 / 2)
    let rb := if cb * cb = 0 then eps else cb * cb
    let b := -(omega2 * (cb : ℂ) * ((rb⁻¹ : ℝ) : ℂ) * (delw : ℂ))
    let s := if condA then a else if condB then b else 0
    if ‖s‖ > 4 * ‖e‖ ∧ wxt < 0 then 0 else s

/-- One entry of `calculate_sch` — sigma.py:1511-1589 — for real `wxt` and `wtilde2 = wt²`. -/
noncomputable def schEntry (eps wxt wt : ℝ) (e : ℂ) : ℂ := by
  classical
  exact
    let wdiff := wxt - wt
    let r1 := if wdiff ^ 2 = 0 then eps else wdiff ^ 2
    let delw := wt * wdiff * r1⁻¹
    if wdiff * wdiff > 1 / 4 ∧ delw * delw < 25000 then (delw : ℂ) * ((-1) * e) else 0

/-- `np.einsum("kcg,kcp,kcgp,p->kc", conj(M), M, s, v)` — sigma.py:1263, 1414-1421, 1483, 1621-1623. -/
noncomputable def conGPP (v : List ℝ) (s : ℕ → ℕ → ℂ) (M : List ℂ) : ℂ :=
  ∑ g ∈ Finset.range v.length, ∑ p ∈ Finset.range v.length, conj (M.getD g 0) * M.getD p 0 * s g p * (v.getD p 0 : ℂ)

/-! ## Result tables -/

/-- The values of one k-point and band that `calculate_static_cohsex` and `calculate_gpp` combine. -/
structure Terms where
  emf : ℝ
  vxc : ℂ
  x : ℂ
  sx : ℂ
  ch : ℂ
  chExact : ℂ

/-- `np.around(z, 6)` of a complex number. -/
noncomputable def aroundC (z : ℂ) : ℂ := ⟨around 6 z.re, around 6 z.im⟩

/-- Entries of the dictionary returned for one band. -/
structure Row where
  emf : ℝ
  x : ℝ
  sx : ℝ
  ch : ℝ
  sig : ℝ
  vxc : ℝ
  eqp0 : ℝ
  eqp1 : ℝ
  ch' : ℝ
  sig' : ℝ
  eqp0' : ℝ
  eqp1' : ℝ
  znk : ℝ

/-- `calculate_static_cohsex` — sigma.py:1702-1718, 1720-1723, 1761-1785. -/
noncomputable def cohsexRow (t : Terms) : Row :=
  let sigE := t.sx + t.chExact + t.x
  let e0 := sigE + t.emf - t.vxc
  let sig := t.sx + t.ch + t.x
  let e0' := sig + t.emf - t.vxc
  { emf := t.emf, x := (aroundC t.x).re, sx := (aroundC t.sx).re, ch := (aroundC t.chExact).re, sig := sigE.re, vxc := t.vxc.re,
    eqp0 := e0.re, eqp1 := e0.re, ch' := (aroundC t.ch).re, sig' := sig.re, eqp0' := e0'.re, eqp1' := e0'.re, znk := 1 }

/-- `calculate_gpp` — sigma.py:1857-1879, 1898-1946, 1978-2001: `t` holds the plasmon-pole terms, `chS` the static partial sum, `sx2`, `ch2` the terms
at `Emf + 1 eV`. The returned dictionary is filled from the unprimed variables throughout. -/
noncomputable def gppRow (t : Terms) (chS sx2 ch2 : ℂ) : Row :=
  let rem := (1 / 2 : ℂ) * (t.chExact - chS)
  let sig := aroundC (t.x + t.sx + t.ch + rem)
  let e0 := sig + t.emf - t.vxc
  let d := (sx2 + ch2) - (t.sx + t.ch)
  let slope := d / (1 - d)
  let e1 := e0 + slope * (e0 - t.emf)
  { emf := t.emf, x := (aroundC t.x).re, sx := (aroundC t.sx).re, ch := (aroundC (t.ch + rem)).re, sig := sig.re, vxc := t.vxc.re,
    eqp0 := e0.re, eqp1 := e1.re, ch' := (aroundC (t.ch + rem)).re, sig' := sig.re, eqp0' := e0.re, eqp1' := e0.re, znk := 1 }

/-- The entry "n" — sigma.py:1764-1769, 1981-1986: `range(band_index_min - 1, band_index_max - band_index_min + 1)`. -/
def bandList (bmin bmax : ℤ) : List ℤ :=
  (List.range ((bmax - bmin + 1) - (bmin - 1)).toNat).map fun k : ℕ => bmin - 1 + k

/-- `calculate_gpp` creates its dictionary inside the block that prints — sigma.py:1947-1980: on a process with `print_condition` false (or
with no k-points) the name is unbound when first used (`UnboundLocalError`, a `NameError`; modelled as `runtime`). With no k-points the loop
body never runs and the `return` fails. -/
def gppDict {α : Type*} (printing : Bool) (rows : List α) : Except PyErr (List α) :=
  if printing = true ∧ rows ≠ [] then .ok rows else .error .runtime

end Verif.GW
