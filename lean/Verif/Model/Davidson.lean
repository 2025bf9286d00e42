import Mathlib.Analysis.InnerProductSpace.Basic
import Verif.Model.Py

/-!
# Model of the Davidson eigen-solver (/repo/src/qtm/dft/eigsolve/davidson.py)

Wavefunctions are vectors of a complex inner-product space, arithmetic is exact. Buffers are functions of the index;
the buffer sizes appear where the code would fail on them. The distribution of rows over band groups
(davidson.py:97-127 and the `Allgatherv` calls) is the subject of C04 and C07; here the operations act on all rows.
-/

namespace Verif.Davidson

open scoped ComplexConjugate

/-- What `scipy.linalg.eigh(a, b, lower=True)` reads of a matrix: its lower triangle, the diagonal's real part. -/
noncomputable def hermL (a : ℕ → ℕ → ℂ) (i j : ℕ) : ℂ :=
  if j < i then a i j else if i < j then conj (a j i) else ((a i i).re : ℂ)

/-- Arguments of `solve` and the functions it calls — davidson.py:21-77. -/
structure Cfg (E : Type*) where
  /-- `kswfn.numbnd` -/
  numeig : ℕ
  numwork : ℕ
  maxiter : ℕ
  thr : ℝ
  /-- `ksham.h_psi` -/
  H : E → E
  /-- `.normalize()` -/
  norm : E → E
  /-- `apply_g_psi` (70-77): residual and eigenvalue to search direction -/
  precond : E → ℝ → E
  /-- `eigh(ham_red_, ovl_red_, subset_by_index=[0, numeig - 1], lower=True)` (259-261): row `m` of the first component
  is the `m`-th eigenvector -/
  eigh : ℕ → (ℕ → ℕ → ℂ) → (ℕ → ℕ → ℂ) → Except PyErr ((ℕ → ℕ → ℂ) × (ℕ → ℝ))

/-- The local variables of `solve` — davidson.py:79-94. -/
structure St (E : Type*) where
  ndim : ℕ
  /-- `n_unconv` -/
  nun : ℕ
  /-- `unconv_flag` -/
  flag : ℕ → Bool
  psi : ℕ → E
  hpsi : ℕ → E
  ham : ℕ → ℕ → ℂ
  ovl : ℕ → ℕ → ℂ
  evcR : ℕ → ℕ → ℂ
  evlR : ℕ → ℝ
  evl : ℕ → ℝ
  evc : ℕ → E

variable {E : Type*} [NormedAddCommGroup E] [InnerProductSpace ℂ E]

/-- Row `m` of `evc_red[:, :ndim] @ vecs[:ndim]`. -/
noncomputable def comb (n : ℕ) (c : ℕ → ℕ → ℂ) (vecs : ℕ → E) (m : ℕ) : E := ∑ j ∈ Finset.range n, c m j • vecs j

/-- The indices selected by the boolean mask `unconv_flag`. -/
def unconvRows (numeig : ℕ) (flag : ℕ → Bool) : List ℕ := (List.range numeig).filter flag

/-- `move_unconv` — davidson.py:131-133. -/
def moveUnconv (c : Cfg E) (s : St E) : St E :=
  let rows := unconvRows c.numeig s.flag
  { s with
    evcR := fun m => if m < s.nun then s.evcR (rows.getD m 0) else s.evcR m
    evlR := fun m => if m < s.nun then s.evlR (rows.getD m 0) else s.evlR m }

/-- `expand_psi` with `compute_hpsi` — davidson.py:157-212, 116-127. A slice reaching beyond the buffers makes the
`matmul` with `out` fail with a `ValueError`. -/
noncomputable def expandPsi (c : Cfg E) (s : St E) : Except PyErr (St E) :=
  if c.numwork * c.numeig < s.ndim + s.nun then .error .value
  else
    let new := fun m => c.norm (c.precond (comb s.ndim s.evcR s.hpsi m - (s.evlR m : ℂ) • comb s.ndim s.evcR s.psi m)
      (s.evlR m))
    let psi := fun i => if s.ndim ≤ i ∧ i < s.ndim + s.nun then new (i - s.ndim) else s.psi i
    let hpsi := fun i => if s.ndim ≤ i ∧ i < s.ndim + s.nun then c.H (psi i) else s.hpsi i
    .ok { s with psi := psi, hpsi := hpsi, ndim := s.ndim + s.nun }

/-- `update_red` — davidson.py:217-236: only the rows of the new vectors are computed. -/
noncomputable def updateRed (s : St E) : St E :=
  { s with
    ham := fun i j => if s.ndim - s.nun ≤ i ∧ i < s.ndim ∧ j < s.ndim then inner ℂ (s.psi i) (s.hpsi j) else s.ham i j
    ovl := fun i j => if s.ndim - s.nun ≤ i ∧ i < s.ndim ∧ j < s.ndim then inner ℂ (s.psi i) (s.psi j) else s.ovl i j }

/-- `solve_red` — davidson.py:245-263. -/
noncomputable def solveRed (c : Cfg E) (s : St E) : Except PyErr (St E) :=
  match c.eigh s.ndim s.ham s.ovl with
  | .error x => .error x
  | .ok (C, lam) => .ok { s with evcR := fun m j => if j < s.ndim then C m j else s.evcR m j, evlR := lam }

/-- The convergence check — davidson.py:311-318. -/
noncomputable def checkConv (c : Cfg E) (s : St E) : St E :=
  open Classical in
  let flag := fun m => decide (c.thr < |s.evlR m - s.evl m|)
  { s with flag := flag, nun := (unconvRows c.numeig flag).length, evl := s.evlR }

/-- `np.matmul(evc_red[:numeig, :ndim], psi[:ndim], out=evc)` — davidson.py:324-332. -/
noncomputable def rotate (s : St E) : St E := { s with evc := comb s.ndim s.evcR s.psi }

/-- The restart — davidson.py:336-346, 364-368. -/
noncomputable def restart (c : Cfg E) (s : St E) : St E :=
  { s with
    hpsi := fun i => if i < c.numeig then comb s.ndim s.evcR s.hpsi i else s.hpsi i
    psi := fun i => if i < c.numeig then s.evc i else s.psi i
    ndim := c.numeig
    ham := fun i j => if i = j ∧ i < c.numeig then (s.evl i : ℂ) else 0
    ovl := fun i j => if i = j ∧ i < c.numeig then 1 else 0
    evcR := fun i j => if i = j ∧ i < c.numeig then 1 else 0 }

/-- The part of an iteration before the check of `n_unconv` — davidson.py:306-318. -/
noncomputable def body (c : Cfg E) (s : St E) : Except PyErr (St E) :=
  match expandPsi c (moveUnconv c s) with
  | .error x => .error x
  | .ok s1 =>
    match solveRed c (updateRed s1) with
    | .error x => .error x
    | .ok s2 => .ok (checkConv c s2)

/-- What `solve` leaves in `kswfn` (372-374) and returns, and whether it left the loop by the `break`. -/
structure Out (E : Type*) where
  evc : ℕ → E
  evl : ℕ → ℝ
  iters : ℕ
  converged : Bool
  /-- the last state, for stating properties -/
  last : St E

/-- `while idxiter < maxiter` — davidson.py:303-374. First argument: iterations left. -/
noncomputable def loop (c : Cfg E) : ℕ → ℕ → St E → Except PyErr (Out E)
  | 0, k, s => .ok ⟨s.evc, s.evl, k, false, s⟩
  | fuel + 1, k, s =>
    match body c s with
    | .error x => .error x
    | .ok s =>
      if s.nun = 0 then let s := rotate s; .ok ⟨s.evc, s.evl, k + 1, true, s⟩
      else if c.numwork * c.numeig < s.ndim + s.nun then loop c fuel (k + 1) (restart c (rotate s))
      else loop c fuel (k + 1) s

/-- The state before the first `solve_red` — davidson.py:79-94, 298-299. `psi0`, `hpsi0`: what uninitialised buffers
hold. -/
noncomputable def initSt (c : Cfg E) (evc psi0 hpsi0 : ℕ → E) : St E :=
  let psi := fun i => if i < c.numeig then c.norm (evc i) else psi0 i
  updateRed
    { ndim := c.numeig, nun := c.numeig, flag := fun _ => true, psi := psi
      hpsi := fun i => if i < c.numeig then c.H (psi i) else hpsi0 i
      ham := fun _ _ => 0, ovl := fun _ _ => 0, evcR := fun _ _ => 0, evlR := fun _ => 0, evl := fun _ => 0, evc := evc }

/-- `solve` — davidson.py:21-374. -/
noncomputable def solve (c : Cfg E) (evc psi0 hpsi0 : ℕ → E) : Except PyErr (Out E) :=
  open Classical in
  if ¬ 0 < c.thr ∨ ¬ 1 < c.numwork ∨ ¬ 1 < c.maxiter then .error .assertion
  else
    match solveRed c (initSt c evc psi0 hpsi0) with
    | .error x => .error x
    | .ok s => loop c c.maxiter 0 { s with evl := s.evlR }

end Verif.Davidson
