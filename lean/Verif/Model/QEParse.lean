import Mathlib.Data.Real.Basic
import Mathlib.Algebra.Order.Floor.Ring
import Verif.Model.QEInp
import Verif.Model.QECell

/-!
# Model of `parse_inp` and of the argument handling of `pw.py` and `scf`

/repo/src/qtm/interfaces/qe/parse_inp.py:61-370, /repo/src/qtm/interfaces/qe/pw.py:90-144, /repo/src/qtm/dft/scf.py:113-210.

Floating-point numbers are real numbers. The cell (parse_inp.py:93-119, 128-130) is modelled in `QECell`; here its result, a lattice and
`celldm[1]`, is a parameter. The files named in `ATOMIC_SPECIES` are represented by what reading them yields (`none`: missing or unreadable).
`ntyp`/`nat` are the numbers of lines of the two cards (`QEInp.C95_counts`). Warnings are not modelled.
-/

namespace Verif.QEParse

open Verif.QEInp (dictSet dictGet Nums Str words)
open Verif.Lattice (Vec Lat)

/-- What is used of a pseudopotential file: the lower-cased functional name, `z_valence`. -/
structure Pseudo where
  functional : String
  zValence : ℝ

/-- The fields of `PWscfIn` read by `parse_inp` — read_inp.py:4-62, 81-89 -/
structure In where
  calculation : String
  verbosity : String
  restartMode : String
  iprint : ℤ
  maxSeconds : ℝ
  pseudoDirExists : Bool
  ecutwfc : ℝ
  ecutrho : Option ℝ
  species : List (String × ℝ × Option Pseudo)
  coordsTyp : String
  atoms : List (String × Vec)
  inputDft : Option String
  noncolin : Bool
  nspin : ℤ
  occupations : String
  smearing : String
  degauss : ℝ
  nbnd : Option ℤ
  mag : List (ℤ × ℝ)
  nosym : Bool
  noinv : Bool
  maxstep : ℤ
  convThr : ℝ
  mixingMode : String
  mixingBeta : ℝ
  mixingNdim : ℤ
  diagonalization : String
  davidNdim : ℤ
  diagoThrInit : ℝ
  startingpot : String
  startingwfc : String
  kOption : String
  kLines : List Str

/-- A `BasisAtoms` object. -/
structure Species where
  label : String
  pp : Pseudo
  mass : ℝ
  pos : List Vec

/-- `CONTROL` — parse_inp.py:64-89. Assigning to a field of a `NamedTuple` (lines 72, 80, 84) raises `AttributeError`. -/
noncomputable def checkControl (i : In) : Except PyErr Unit :=
  open Classical in
  if i.calculation ∉ ["scf", "nscf", "bands"] then .error .value
  else if i.verbosity ∉ ["high", "low"] then .error .attribute
  else if i.restartMode ∉ ["from_scratch", "restart"] then .error .value
  else if i.iprint ≤ 0 then .error .attribute
  else if i.maxSeconds ≤ 0 then .error .attribute
  else if !i.pseudoDirExists then .error .value
  else .ok ()

/-- `l_sp` before the atoms are added — parse_inp.py:132-145 -/
def speciesDict : List (String × ℝ × Option Pseudo) → List (String × ℝ × Pseudo × List Vec) → Except PyErr (List (String × ℝ × Pseudo × List Vec))
  | [], d => .ok d
  | (label, mass, pp) :: rest, d =>
    match pp with
    | none => .error .value
    | some pp => speciesDict rest (dictSet d label (mass, pp, []))

/-- `l_sp[label][2].append(coords)` — parse_inp.py:147-154 -/
def addAtoms : List (String × Vec) → List (String × ℝ × Pseudo × List Vec) → Except PyErr (List (String × ℝ × Pseudo × List Vec))
  | [], d => .ok d
  | (label, v) :: rest, d =>
    match dictGet d label with
    | none => .error .value
    | some (mass, pp, l) => addAtoms rest (dictSet d label (mass, pp, l ++ [v]))

/-- Crystal coordinates of one position — parse_inp.py:160-171; `alat` is `celldm[1]`. -/
noncomputable def toCryst (L : Lat) (alat : ℝ) (typ : String) (v : Vec) : Option Vec :=
  if typ = "crystal" then some v
  else if typ = "alat" then some (L.cart2cryst (alat • v))
  else if typ = "bohr" then some (L.cart2cryst v)
  else if typ = "angstrom" then some (L.cart2cryst (QECell.angstrom • v))
  else none

/-- `l_species` — parse_inp.py:156-174. A species without atoms gives an array of the wrong shape (`ValueError`, basis_atoms.py:125-130 or the
broadcast in `cart2cryst`); a negative mass is a `TypeError` (basis_atoms.py:113-115). -/
noncomputable def buildSpecies (L : Lat) (alat : ℝ) (typ : String) : List (String × ℝ × Pseudo × List Vec) → Except PyErr (List Species)
  | [] => .ok []
  | (label, mass, pp, coords) :: rest =>
    open Classical in
    match coords.mapM (toCryst L alat typ) with
    | none => .error .value
    | some pos =>
      if pos = [] then .error .value
      else if mass < 0 then .error .type
      else
        match buildSpecies L alat typ rest with
        | .error e => .error e
        | .ok l => .ok (⟨label, pp, mass, pos⟩ :: l)

/-- `_LIBXC_MAP` — /repo/src/qtm/pseudo/upf.py:15 -/
def libxc (name : String) : Except PyErr (String × String) := if name = "pbe" then .ok ("gga_x_pbe", "gga_c_pbe") else .error .key

/-- The functional — parse_inp.py:176-195 (no species: `l_xcfunc[0]` is an `IndexError`) -/
def chooseXC (functionals : List String) (inputDft : Option String) : Except PyErr (String × String) := do
  let l ← functionals.mapM libxc
  match inputDft with
  | some name => libxc name
  | none =>
    match l with
    | [] => .error .index
    | x :: rest => if rest.all (· = x) then .ok x else .error .value

/-- `numel` — parse_inp.py:202-204 -/
def numEl (l : List Species) : ℝ := (l.map fun s => (s.pos.length : ℝ) * s.pp.zValence).sum

/-- The smearing names — parse_inp.py:222-229 -/
def smearName (s : String) : Option String :=
  if s ∈ ["gaussian", "gauss"] then some "gauss"
  else if s ∈ ["methfessel-paxton", "m-p", "mp"] then some "mp"
  else if s ∈ ["marzari-vanderbilt", "cold", "m-v", "mv"] then some "mv"
  else if s ∈ ["fermi-dirac", "f-d", "fd"] then some "fd"
  else none

/-- `numel % 2` of Python floats -/
noncomputable def mod2 (x : ℝ) : ℝ := x - 2 * ⌊x / 2⌋

/-- Occupations and number of bands — parse_inp.py:206-261: the new values of `nbnd` and `smearing`. `int()` of a number is its floor (the number
of electrons is not negative). `nbnd` given together with fixed occupations is overwritten (line 219-220). -/
noncomputable def bands (i : In) (numel : ℝ) : Except PyErr (ℤ × String) :=
  open Classical in
  if i.occupations ∉ ["fixed", "smearing"] then .error .value
  else if i.occupations = "fixed" then
    if i.nspin = 2 then .error .notImplemented
    else if i.nspin = 1 ∧ 1 / 10 ^ 5 < |mod2 numel| then .error .value
    else .ok (⌊numel / 2⌋, i.smearing)
  else
    match smearName i.smearing with
    | none => .error .value
    | some sm =>
      if i.degauss ≤ 1 / 10 ^ 5 then .error .value
      else
        match i.nbnd with
        | some n => if 2 * (n : ℝ) < numel then .error .value else .ok (n, sm)
        | none => .ok (⌊max (12 / 10 * (numel / 2)) (numel / 2 + 4)⌋, sm)

/-- Clamping of one magnetization — parse_inp.py:277-280 -/
noncomputable def clamp (x : ℝ) : ℝ := open Classical in if x < -1 then -1 else if 1 < x then 1 else x

/-- `for isp in range(ntyp): …` — parse_inp.py:274-280, from species number `k + 1` on for `n` species -/
noncomputable def fillMag : ℕ → ℕ → List (ℤ × ℝ) → List (ℤ × ℝ)
  | 0, _, d => d
  | n + 1, k, d => fillMag n (k + 1) (dictSet d ((k : ℤ) + 1) (clamp ((dictGet d ((k : ℤ) + 1)).getD 0)))

/-- `starting_magnetization` — parse_inp.py:263-280 -/
noncomputable def magnetization (i : In) : Except PyErr (List (ℤ × ℝ)) :=
  if i.nspin = 2 ∧ i.startingpot = "atomic" then
    if i.mag = [] then .error .value
    else if i.mag.any (fun p => p.1 - 1 < 0 || (i.species.length : ℤ) ≤ p.1 - 1) then .error .value
    else .ok (fillMag i.species.length 0 i.mag)
  else .ok i.mag

/-- `ELECTRONS` — parse_inp.py:287-326 -/
noncomputable def checkElectrons (i : In) : Except PyErr Unit :=
  open Classical in
  if i.maxstep ≤ 0 then .error .value
  else if i.convThr ≤ 0 then .error .value
  else if i.mixingMode ∉ ["plain"] then .error .value
  else if i.mixingBeta < 0 ∨ 1 < i.mixingBeta then .error .value
  else if i.mixingNdim < 0 then .error .value
  else if i.diagonalization ∉ ["david"] then .error .value
  else if i.davidNdim < 0 then .error .value
  else if i.diagoThrInit ≤ 0 then .error .value
  else if i.startingpot ∉ ["atomic"] then .error .value
  else if i.startingwfc ∉ ["random"] then .error .value
  else .ok ()

/-- The arguments of `gen_monkhorst_pack_grid` (modelled in `KPts`): grid, shifts, use of symmetry, use of time reversal. -/
structure KMesh where
  grid : List ℤ
  shifts : List Bool
  symm : Bool
  timeRev : Bool

/-- `K_POINTS` — parse_inp.py:328-368. `Crystal` has no attribute `recispc`: the last line raises `AttributeError` whenever it is reached. -/
def kpoints (N : Nums) (i : In) : Except PyErr KMesh :=
  if i.kOption ∉ ["tpiba", "automatic", "crystal"] then .error .value
  else if i.kOption = "automatic" then
    match i.kLines with
    | [] => .error .index
    | l :: _ =>
      if (words l).length ≠ 6 then .error .value
      else match ((words l).take 3).mapM N.int, ((words l).drop 3).mapM N.int with
        | some g, some s => .ok ⟨g, s.map fun z => decide (z ≠ 0), !i.nosym, !i.noinv⟩
        | _, _ => .error .value
  else if i.kLines.all fun l => 4 ≤ (words l).length && ((words l).take 4).all fun w => (N.float w).isSome then .error .attribute
  else .error .value

/-- What the caller gets: `pwin`, `cryst` and `kpts` (in the parts the theorems speak about). -/
structure Out where
  pwin : In
  species : List Species
  ecutrho : ℝ
  xc : String × String
  nbnd : ℤ
  smearing : String
  mag : List (ℤ × ℝ)
  kpts : KMesh

/-- `parse_inp` — parse_inp.py:61-370; line 199 assigns to a `NamedTuple` field (`AttributeError`). -/
noncomputable def parseInp (N : Nums) (L : Lat) (alat : ℝ) (i : In) : Except PyErr Out :=
  open Classical in do
  checkControl i
  if i.ecutwfc ≤ 0 then .error .value
  let d ← speciesDict i.species []
  let d ← addAtoms i.atoms d
  let sp ← buildSpecies L alat i.coordsTyp d
  let xc ← chooseXC (sp.map fun s => s.pp.functional) i.inputDft
  if i.noncolin then .error .attribute
  let b ← bands i (numEl sp)
  let mag ← magnetization i
  checkElectrons i
  let k ← kpoints N i
  pure ⟨i, sp, 4 * i.ecutwfc, xc, b.1, b.2, mag, k⟩

/-- The arguments of `scf` that `pw.py` computes from the input file. -/
structure ScfArgs where
  numbnd : ℤ
  isSpin : Bool
  isNoncolin : Bool
  magStart : List ℝ
  occ : String
  smear : String
  eTemp : ℝ
  convThr : ℝ
  maxiter : ℤ
  diagoThrInit : ℝ
  mixBeta : ℝ
  mixDim : ℤ

/-- `pw.py:104-144`: `ry` is `RYDBERG`; `maxiter` and `mix_dim` are not passed, so they have the defaults of `scf` (scf.py:99, 103). -/
def pwArgs (ry : ℝ) (o : Out) : ScfArgs where
  numbnd := o.nbnd
  isSpin := decide (o.pwin.nspin = 2)
  isNoncolin := o.pwin.noncolin
  magStart := o.mag.map Prod.snd
  occ := if o.pwin.occupations = "smearing" then "smear" else o.pwin.occupations
  smear := o.smearing
  eTemp := o.pwin.degauss * ry
  convThr := o.pwin.convThr * ry
  maxiter := 100
  diagoThrInit := o.pwin.diagoThrInit * ry
  mixBeta := o.pwin.mixingBeta
  mixDim := 8

/-- The checks of `scf` — scf.py:113-210 (the system and density checks are not repeated), and of the mixer it creates
(/repo/src/qtm/dft/mixing/base.py:26-29). -/
noncomputable def scfCheck (a : ScfArgs) : Except PyErr Unit :=
  open Classical in
  if ¬ 0 < a.numbnd then .error .assertion
  else if a.isNoncolin then .error .notImplemented
  else if a.occ ∉ ["fixed", "smear"] then .error .assertion
  else if a.occ = "smear" ∧ a.smear ∉ ["gauss", "fd", "mv"] then .error .assertion
  else if ¬ 0 ≤ a.eTemp then .error .assertion
  else if ¬ 0 < a.convThr then .error .assertion
  else if ¬ 0 ≤ a.maxiter then .error .assertion
  else if ¬ 0 < a.diagoThrInit then .error .assertion
  else if ¬ (0 < a.mixBeta ∧ a.mixBeta ≤ 1) then .error .assertion
  else if ¬ 0 < a.mixDim then .error .assertion
  else .ok ()

/-- `scf` followed by the constructor of the mixer, for `mixDim` a natural number — scf.py:113-210, mixing/base.py:26-29 -/
noncomputable def scfAndMixer (mixCheck : ℝ → ℕ → Except PyErr Unit) (a : ScfArgs) : Except PyErr Unit :=
  match scfCheck a with
  | .error e => .error e
  | .ok () => mixCheck a.mixBeta a.mixDim.toNat

end Verif.QEParse
