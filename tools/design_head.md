# Formal model of QuantumMASALA: design

## Approach
Each modelled Python function becomes a small total Lean 4 function in `lean/Verif/Model/*.lean` with a comment citing the
file and lines of /repo it models; simplifications are stated in that comment. Python exceptions are values of
`Except PyErr`, so "raises" is part of what is proved. Helper lemmas live in `lean/Verif/Lemmas/*.lean` or beside the
theorems; the property theorems, their specifications (stated without the model's helpers wherever a mathematical notion
exists: sums over lattice vectors, inner products, Fourier series, permutations, sets of integer vectors, text layouts) and
the non-vacuity `example`s live in `lean/Verif/Props/*.lean`.

A property that the pinned code violates is not weakened silently: the full statement stays in `properties.jsonl`, the
violation is a theorem (`…_violated`, `…_fails`, a closed witness or a statement for all inputs of a class), what does
hold is a theorem (`…_partial`, or with its condition in the statement), and MANIFEST.json says `partial`.

## Trusted base
* The kernel of Lean 4.33.0 (and Mathlib's definitions, which the statements use).
* Axioms: at most `propext`, `Classical.choice`, `Quot.sound`; none are added. The list for every claimed theorem is in
  `AXIOMS.md` (made by `tools/axioms.py`, from `#print axioms`).
* The hand-written correspondence between the Python source and the Lean definitions.

### Idealisations used everywhere
* **Numbers.** Floating-point numbers are exact (integers, rationals, reals, complex numbers); overflow, rounding, NaN and
  signed zeros appear only where the code tests for them or where the finding is about them (the CPU matrix-product wrapper's
  conversion to single precision, C72; the text formats of C159–C161; `nan` of the Hartree term, C32).
* **Arrays.** NumPy arrays are lists or functions on `Fin n`; views, strides and aliasing are modelled where the code's
  behaviour depends on them (C20, C25, C58, C68, C80, C170, C171, C175), otherwise arrays are values.
* **Processes.** MPI programs are functions of the rank, or small-step processes over all interleavings where the order
  matters (C08, C134, C135, C152–C155, C164, C213, C214: every process runs its own program with arbitrary local arithmetic; a
  collective completes when all members wait in it, broadcasts deliver the root's value, reductions may even differ per member). Messages are delivered and collectives complete once all members have entered.
* **Files.** A file is its content; an HDF5 file a tree; crash points are between the steps the code performs (C163, C164,
  C190).
* **External libraries.** FFT kernels are the discrete Fourier transform (defined in the model and proved invertible);
  dense eigensolvers, Cholesky, `searchsorted`, KD-trees, `sph_harm_y`, libxc, spglib, the XML parser and random numbers are
  parameters with the laws they are documented to satisfy as hypotheses; every such law is met by an explicit instance in
  an `example`.

## What is modelled
One line per Lean model file; the lines of each function are cited in the file.

| Lean model | Code |
|---|---|
| Scatter, DFTComm, Comm, CheckArgs | mpi/utils.py, mpi/comm.py, mpi/check_args.py, dft/config.py (layout) |
| Coll | the collective calls and control flow of scf.py, davidson.py, occup/*.py, mixing/base.py, check_args.py as one concurrent program |
| Dist, DistBuf | mpi/gspace.py, mpi/containers.py, the distributed path of symm/symmetrize_field.py |
| GSpace, GArr, GkCoords | gspace/base.py, gspc.py, gkspc.py, FFT work arrays |
| Lattice, LatArr, LatNorm, Mesh, Atoms | lattice.py, crystal/basis_atoms.py, kpts.py/klist.py coordinates |
| KPts, KLists | kpts.py, klist.py, q-point handling in gw/core.py and gw/sigma.py |
| Crystal, Symm | crystal/crystal.py, symm/symmetrize_field.py |
| FFT | fft/full.py, fft/sticks.py, fft/base.py, backends as the DFT |
| Containers, Ufunc, Wavefun, KSWfn | containers/buffer.py, field.py, wavefun.py, dft/kswfn.py |
| Pot, PotDist, Loc, Ewald | pot/hartree.py, pot/xc.py, pot/utils.py, pseudo/loc.py, pot/ewald.py |
| Nonloc, Angles | pseudo/nloc.py, dft/ksham.py, containers/gemm_wrappers.py |
| UPF | pseudo/upf.py |
| Occup, Mixing, SCF, ScfArgs, VxcOut, Printer | dft/occup, dft/mixing, dft/scf.py, io_utils/dft_printers.py |
| Davidson, DavidsonPar, EigPrec | dft/eigsolve (davidson.py serial and parallel, scipy and primme wrappers) |
| EZero | dft/scf.py (`vloc_g0`: the mean of the local potential given to the eigensolver) |
| HamDist, MixDist, RandInit, ScfDist, ScfGrp, SpinScf, KMap | distributed Hamiltonian and mixer, random start, the SCF cycle with distributed fields, groups of k-points, unpolarised runs with is_spin, permuted or repeated k-points |
| Py | Python exceptions |
| TDDFT, TDProp, Mesh | tddft_gamma (propagate, prop, expoper, optical) |
| GW, GwRun, Sigma, Vcoul, VcoulTab, EpsFile | gw/core.py, epsilon.py, epsilon_script.py, sigma.py, vcoul.py |
| BGWInp, BGWMat, H5, RhoFile, SigmaHP | interfaces/bgw/*, interfaces/qe/h5_io.py |
| QEInp, QECell, QEParse, PwCli | interfaces/qe/read_inp.py, ibrav2latvec.py, parse_inp.py, pw.py |
| Logger, TimerReport, LogFile, Config | logger.py, config.py |
| Delta, Fmt | the accuracy benchmark (calcDelta.py, eosfit.py), text formats |

Theorems about several modules together (no new model): Trans, TransPot, TransScf (translation), Rot, RotPot, RotScf, Wedge, WedgeScf
(space-group operations, irreducible k-points), Gauge, GWGauge (degenerate subspaces), GWTrans (shift of the origin), Super, SuperEn (supercells), KSEnergy,
KSVar (total energy and its derivative), SymmMix, Sampling, TDNorm, TDAcc, VNbhd, VcoulFold, SymKept (a symmetric start stays symmetric).

## What is not modelled
* CuPy code paths, except that GPU arrays skip the CPU matrix-product wrapper (C72); MKL/SciPy/pyFFTW only as the DFT with their
  ownership of work arrays (C171).
* Rounding errors of the SCF, of eigensolvers and of FFTs: convergence statements are about exact numbers.
* `__repr__`s other than those of crystals and atoms (C169), log formatting, deprecated printers
  (`print_scf_parameters_old`), abstract base-class signatures, class caches of `get_FieldG` and its siblings.
* Internals of external programs and libraries (libxc, spglib, LAPACK, PRIMME, HDF5, mpi4py, the XML parser).
* Scripts under /repo outside `src/qtm` other than the accuracy benchmark; notebooks; the C extension of `gw` if installed.

## Findings
Violations of documented or evident contracts, each with a theorem (see MANIFEST.json for the names). A selection:
* mpi: `scatter_slice` without a rank raises (C03); band groups without bands skip collectives (C07, C70, C213); the magnetisation report of a distributed spin run and any
  exception on one process deadlock the others (C213); argument
  checks hang the root (C135); fields without leading axes cannot be scattered, gathered or symmetrised (C23, C175, C176).
* grids: user FFT grids are never rejected (C15); k-points outside the cutoff lose plane waves or raise (C177).
* physics: core charge is dropped for LDA (C60), and for GGA the potential is not the derivative of the energy (C61); the first
  radial sample is counted twice (C78); even meshes lose a point (C76); skewed cells lose Ewald images (C85); the CPU
  Hamiltonian rounds to single precision for every species (C72); Davidson at the iteration limit returns vectors older
  than its values (C44); time-reversal-reduced meshes keep uniform weights (C29); a GGA cannot be paired with an LDA (C62).
* TDDFT: ETRS with splitoper advances twice as far because of an aliased object (C80); split-operator steps on a truncated basis lose orthonormality and are
  first order only (C188, C196).
* GW: dielectric matrices come back conjugated and truncated (C52); BerkeleyGW wavefunctions are loaded as i·conj(c)
  (C123); −q and sort-order mismatches (C113, C116, C121); folding fails in elongated cells (C201); in parallel the plasmon-pole
  driver returns on rank 0 only, and automatic saves hang when there are more processes than q-points (C214).
* input: `.true.`/`.false.` rejected (C92); values lower-cased (C93); explicit k-point lists, `A,B,C` cells and functional
  overrides always fail (C87, C104, C105); ecutrho and iteration limits ignored (C102, C108); epsilon.inp options dropped (C53).
* bookkeeping: timer labels over 30 characters (C47), configuration setters without effect (C48), log files (C163, C164).

## Testing the theorems
`tools/mutate.py` applies one realistic edit to one model definition in a scratch copy, rebuilds and records which theorems
fail; `seeded/LOG.jsonl` has one line per edit. Where an edit survived, the theorem was tightened (field `theorems_tightened`)
or the edit does not change the behaviour claimed (explained in the line).

## Plan per property
Properties C01–C56 were planned before the proofs; the plans are kept as written. For the later ones the line says what was
proved (status, theorems, remarks).

