# Formal model of QuantumMASALA: design

## Approach
Each modelled Python function becomes a small total Lean 4 function in `lean/Verif/Model/*.lean` with a comment citing the
file and lines of /repo it models; simplifications are stated in that comment. Python exceptions are values of
`Except PyErr`, so "raises" is part of what is proved. Helper lemmas live in `lean/Verif/Lemmas/*.lean` or beside the
theorems; the property theorems, their specifications (stated without the model's helpers wherever a mathematical notion
exists: sums over lattice vectors, inner products, Fourier series, permutations, sets of integer vectors, text layouts) and
the non-vacuity `example`s live in `lean/Verif/Props/*.lean`.

A property that the pinned code violates is not weakened silently: the full statement stays in `properties.jsonl`, the
violation is a theorem (`…_violated`, `…_fails`, a closed witness or a statement for all inputs of a class), what does
hold is a theorem (`…_partial`, or with its condition in the statement), and MANIFEST.json says `partial`.

## Trusted base
* The kernel of Lean 4.33.0 (and Mathlib's definitions, which the statements use).
* Axioms: at most `propext`, `Classical.choice`, `Quot.sound`; none are added. The list for every claimed theorem is in
  `AXIOMS.md` (made by `tools/axioms.py`, from `#print axioms`).
* The hand-written correspondence between the Python source and the Lean definitions.

### Idealisations used everywhere
* **Numbers.** Floating-point numbers are exact (integers, rationals, reals, complex numbers); overflow, rounding, NaN and
  signed zeros appear only where the code tests for them or where the finding is about them (the CPU matrix-product wrapper's
  conversion to single precision, C72; the text formats of C159–C161; `nan` of the Hartree term, C32).
* **Arrays.** NumPy arrays are lists or functions on `Fin n`; views, strides and aliasing are modelled where the code's
  behaviour depends on them (C20, C25, C58, C68, C80, C170, C171, C175), otherwise arrays are values.
* **Processes.** MPI programs are functions of the rank, or small-step processes over all interleavings where the order
  matters (C08, C134, C135, C152–C155, C164, C213, C214: every process runs its own program with arbitrary local arithmetic; a
  collective completes when all members wait in it, broadcasts deliver the root's value, reductions may even differ per member). Messages are delivered and collectives complete once all members have entered.
* **Files.** A file is its content; an HDF5 file a tree; crash points are between the steps the code performs (C163, C164,
  C190).
* **External libraries.** FFT kernels are the discrete Fourier transform (defined in the model and proved invertible);
  dense eigensolvers, Cholesky, `searchsorted`, KD-trees, `sph_harm_y`, libxc, spglib, the XML parser and random numbers are
  parameters with the laws they are documented to satisfy as hypotheses; every such law is met by an explicit instance in
  an `example`.

## What is modelled
One line per Lean model file; the lines of each function are cited in the file.

| Lean model | Code |
|---|---|
| Scatter, DFTComm, Comm, CheckArgs | mpi/utils.py, mpi/comm.py, mpi/check_args.py, dft/config.py (layout) |
| Coll | the collective calls and control flow of scf.py, davidson.py, occup/*.py, mixing/base.py, check_args.py as one concurrent program |
| Dist, DistBuf | mpi/gspace.py, mpi/containers.py, the distributed path of symm/symmetrize_field.py |
| GSpace, GArr, GkCoords | gspace/base.py, gspc.py, gkspc.py, FFT work arrays |
| Lattice, LatArr, LatNorm, Mesh, Atoms | lattice.py, crystal/basis_atoms.py, kpts.py/klist.py coordinates |
| KPts, KLists | kpts.py, klist.py, q-point handling in gw/core.py and gw/sigma.py |
| Crystal, Symm | crystal/crystal.py, symm/symmetrize_field.py |
| FFT | fft/full.py, fft/sticks.py, fft/base.py, backends as the DFT |
| Containers, Ufunc, Wavefun, KSWfn | containers/buffer.py, field.py, wavefun.py, dft/kswfn.py |
| Pot, PotDist, Loc, Ewald | pot/hartree.py, pot/xc.py, pot/utils.py, pseudo/loc.py, pot/ewald.py |
| Nonloc, Angles | pseudo/nloc.py, dft/ksham.py, containers/gemm_wrappers.py |
| UPF | pseudo/upf.py |
| Occup, Mixing, SCF, ScfArgs, VxcOut, Printer | dft/occup, dft/mixing, dft/scf.py, io_utils/dft_printers.py |
| Davidson, DavidsonPar, EigPrec | dft/eigsolve (davidson.py serial and parallel, scipy and primme wrappers) |
| EZero | dft/scf.py (`vloc_g0`: the mean of the local potential given to the eigensolver) |
| HamDist, MixDist, RandInit, ScfDist, ScfGrp, SpinScf, KMap | distributed Hamiltonian and mixer, random start, the SCF cycle with distributed fields, groups of k-points, unpolarised runs with is_spin, permuted or repeated k-points |
| Py | Python exceptions |
| TDDFT, TDProp, Mesh | tddft_gamma (propagate, prop, expoper, optical) |
| GW, GwRun, Sigma, Vcoul, VcoulTab, EpsFile | gw/core.py, epsilon.py, epsilon_script.py, sigma.py, vcoul.py |
| BGWInp, BGWMat, H5, RhoFile, SigmaHP | interfaces/bgw/*, interfaces/qe/h5_io.py |
| QEInp, QECell, QEParse, PwCli | interfaces/qe/read_inp.py, ibrav2latvec.py, parse_inp.py, pw.py |
| Logger, TimerReport, LogFile, Config | logger.py, config.py |
| Delta, Fmt | the accuracy benchmark (calcDelta.py, eosfit.py), text formats |

Theorems about several modules together (no new model): Trans, TransPot, TransScf (translation), Rot, RotPot, RotScf, Wedge, WedgeScf
(space-group operations, irreducible k-points), Gauge, GWGauge (degenerate subspaces), GWTrans (shift of the origin), Super, SuperEn (supercells), KSEnergy,
KSVar (total energy and its derivative), SymmMix, Sampling, TDNorm, TDAcc, VNbhd, VcoulFold, SymKept (a symmetric start stays symmetric).

## What is not modelled
* CuPy code paths, except that GPU arrays skip the CPU matrix-product wrapper (C72); MKL/SciPy/pyFFTW only as the DFT with their
  ownership of work arrays (C171).
* Rounding errors of the SCF, of eigensolvers and of FFTs: convergence statements are about exact numbers.
* `__repr__`s other than those of crystals and atoms (C169), log formatting, deprecated printers
  (`print_scf_parameters_old`), abstract base-class signatures, class caches of `get_FieldG` and its siblings.
* Internals of external programs and libraries (libxc, spglib, LAPACK, PRIMME, HDF5, mpi4py, the XML parser).
* Scripts under /repo outside `src/qtm` other than the accuracy benchmark; notebooks; the C extension of `gw` if installed.

## Findings
Violations of documented or evident contracts, each with a theorem (see MANIFEST.json for the names). A selection:
* mpi: `scatter_slice` without a rank raises (C03); band groups without bands skip collectives (C07, C70, C213); the magnetisation report of a distributed spin run and any
  exception on one process deadlock the others (C213); argument
  checks hang the root (C135); fields without leading axes cannot be scattered, gathered or symmetrised (C23, C175, C176).
* grids: user FFT grids are never rejected (C15); k-points outside the cutoff lose plane waves or raise (C177).
* physics: core charge is dropped for LDA (C60), and for GGA the potential is not the derivative of the energy (C61); the first
  radial sample is counted twice (C78); even meshes lose a point (C76); skewed cells lose Ewald images (C85); the CPU
  Hamiltonian rounds to single precision for every species (C72); Davidson at the iteration limit returns vectors older
  than its values (C44); time-reversal-reduced meshes keep uniform weights (C29); a GGA cannot be paired with an LDA (C62).
* TDDFT: ETRS with splitoper advances twice as far because of an aliased object (C80); split-operator steps on a truncated basis lose orthonormality and are
  first order only (C188, C196).
* GW: dielectric matrices come back conjugated and truncated (C52); BerkeleyGW wavefunctions are loaded as i·conj(c)
  (C123); −q and sort-order mismatches (C113, C116, C121); folding fails in elongated cells (C201); in parallel the plasmon-pole
  driver returns on rank 0 only, and automatic saves hang when there are more processes than q-points (C214).
* input: `.true.`/`.false.` rejected (C92); values lower-cased (C93); explicit k-point lists, `A,B,C` cells and functional
  overrides always fail (C87, C104, C105); ecutrho and iteration limits ignored (C102, C108); epsilon.inp options dropped (C53).
* bookkeeping: timer labels over 30 characters (C47), configuration setters without effect (C48), log files (C163, C164).

## Testing the theorems
`tools/mutate.py` applies one realistic edit to one model definition in a scratch copy, rebuilds and records which theorems
fail; `seeded/LOG.jsonl` has one line per edit. Where an edit survived, the theorem was tightened (field `theorems_tightened`)
or the edit does not change the behaviour claimed (explained in the line).

## Plan per property
Properties C01–C56 were planned before the proofs; the plans are kept as written. For the later ones the line says what was
proved (status, theorems, remarks).

* **C01 Block distribution covers every item exactly once** - Model scatter_len/scatter_slice over Nat; prove existence+uniqueness of the owning rank by arithmetic on div/mod.
* **C02 Block distribution is balanced** - Same model; closed-form sum by induction over ranks.
* **C03 scatter_slice without a rank returns the slices of all ranks** - Model both return paths; prove the all-ranks path raises for size>1 (negation) and a partial for size=1.
* **C04 k-points are dealt to k-groups exactly once** - k-list as List of (k, weight); scatter as drop/take (block) and stride filter (round robin); prove flatten/permutation.
* **C05 Rank layout of DFT communicators is a bijection** - Rank arithmetic over Nat; explicit inverse map; bijection.
* **C06 Every (k-point, band) contribution is summed exactly once** - Sum over ranks of sums over owned k and bands, reordered with Finset.sum lemmas using C01/C05.
* **C07 Collective calls match across band groups** - Per-rank collective traces as lists; equality iff all slices non-empty; concrete failing witness.
* **C08 Communicator blocks synchronise and propagate errors** - Small-step model of enter/body/exit producing event traces; case analysis and induction over nesting.
* **C09 Null and single-process communicators behave neutrally** - Table of operations; theorem per operation for null / serial communicators.
* **C10 G-vector to FFT-grid index map is one-to-one** - Integer model of the index map; explicit inverse; bijection on boxes.
* **C11 Canonical G-vector order and its inverse permutation** - Sort by key (iy,iz,ix) modelled with a stable merge sort on an injective key; uniqueness of sorted permutations.
* **C12 The G=0 component is always stored first** - Corollary of sortedness: the zero key is minimal.
* **C13 The default FFT grid holds the whole cutoff sphere** - Real inner-product geometry: |m_i| = |a_i . G| / 2pi <= |a_i||G|/2pi (Cauchy-Schwarz) below half grid.
* **C14 Default FFT grid dimensions are the smallest FFT-friendly sizes** - Search loop with fuel replaced by well-founded recursion on distance to the next power of two; minimality invariant.
* **C15 User-supplied FFT grids are checked against the cutoff** - Model the comparison as written; prove it never raises (negation), and that a corrected premise gives completeness (partial).
* **C16 A k-point basis is exactly the cutoff sphere around -k** - List filter model; membership characterisation + order preservation + index map.
* **C17 Fourier transform round trip on the basis** - take/put model with the 3D DFT as a linear equivalence; round trip.
* **C18 Real-to-G followed by G-to-real is a projection** - Idempotence from 17.
* **C19 Stick transform equals the full transform** - Axis-separable transforms; column sparsity; equality function extensionality.
* **C20 Transforms do not depend on earlier transforms** - State machine with explicit work buffers (arbitrary initial garbage); result independent of state by induction on calls.
* **C21 Distributed G-vectors and grid points partition the serial ones** - searchsorted slices over sorted keys; partition.
* **C22 Distributed transforms equal the serial transforms** - Ranks as Fin p; Alltoallv as a function exchange; equality with serial.
* **C23 Scatter and gather of distributed fields are inverse** - Concatenation of contiguous blocks.
* **C24 Distributed reductions equal serial reductions** - Fold of folds.
* **C25 Indexing a field or wavefunction never cuts the basis axis** - Index expression model (ints, slices, ellipsis) on shapes.
* **C26 Lattice coordinate conversions are mutually inverse** - 3x3 matrices over a field.
* **C27 Direct and reciprocal lattices are duals** - 3x3 matrices over reals.
* **C28 k-point weights are normalised** - Lists of rationals/reals.
* **C29 Monkhorst-Pack meshes sample the full zone uniformly** - Mesh as product of ranges; average over the zone; counterexample function for the time-reversal branch.
* **C30 Supercells repeat the crystal faithfully** - Product of index ranges.
* **C31 Symmetrised densities are symmetric, and symmetrising twice changes nothing** - Group action with phase cocycle; orbit average.
* **C32 Hartree potential ignores G=0 and Hartree energy is non-negative** - Sum of squares over G /= 0.
* **C33 Divergence of gradient is the Laplacian** - Componentwise algebra.
* **C34 Exchange-correlation functional selection is consistent** - Fold over species list.
* **C35 Fixed occupations hold exactly the electrons** - Sums over lists.
* **C36 Fermi level search is sound** - Loop invariant over bisection steps, partial correctness for any number of steps; non-termination witness.
* **C37 Smearing occupations lie in [0,1] and are monotone** - Real analysis with Real.exp.
* **C38 Broyden mixing history holds the most recent steps** - Induction over steps on ring buffers.
* **C39 Mixing keeps self-consistent densities and total charge** - Induction over steps, linearity of the update.
* **C40 SCF loop terminates and reports convergence truthfully** - Loop as recursion over iterations; first-hit characterisation.
* **C41 Diagonalisation threshold schedule** - Recurrence invariant.
* **C42 Charge normalisation** - Field algebra.
* **C43 Davidson subspace never overflows its workspace** - Invariant of the solver control state.
* **C44 Davidson returns vectors matching its eigenvalues** - Ghost versions attached to values/vectors.
* **C45 Timers balance and count calls** - State machine over an association table.
* **C46 Counters behave as a label-to-number map** - Refinement to a function label -> number.
* **C47 Long timer labels** - String truncation model; witness.
* **C48 Configuration setters take effect** - Record update model; negation for the two setters.
* **C49 Taylor propagator computes the truncated exponential** - Induction over order in a module.
* **C50 Split-operator step is time-reversible** - Composition of invertible maps.
* **C51 Bravais-lattice tables give the documented cell** - Real algebra on 3-vectors.
* **C52 Dielectric matrices survive write/read** - Matrices as functions on Fin n with padding.
* **C53 Options in epsilon.inp take effect** - List membership model.
* **C54 Polarizability is Hermitian and negative semidefinite** - Complex matrices.
* **C55 GW sums over q-points do not depend on the process count** - array_split partition.
* **C56 Reordering matrices between G-vector orders is invertible** - Permutation algebra.
* **C57 Parseval: norms agree between G-space and the real grid** - proved; `Verif.FFT.C57_parseval`. 
* **C58 Assigning to part of a field never cuts the basis axis** - partial; `Verif.Containers.C58_setitem_crosses_basis`, `Verif.Containers.C58_setitem_leading_partial`. The pinned guard lets some keys cross the basis axis (violation proved); keys addressing leading axes are proved correct.
* **C59 The symmetry operations used always form a group** - partial; `Verif.Symm.C59_supercell_filter`, `Verif.Symm.C59_grid_filter_partial`, `Verif.Symm.C59_cubic_grid`, `Verif.Symm.C59_grid_filter_fails`. Supercell filter proved in full; the grid filter can break the group on grids not compatible with the rotations (violation proved).
* **C60 Core density enters the exchange-correlation energy** - partial; `Verif.Pot.C60_lda_ignores_core`, `Verif.Pot.C60_lda_core_witness`, `Verif.Pot.C60_gga_core`. The property fails: the pinned code drops the core density for local functionals (violation proved for all inputs).
* **C61 Exchange-correlation potential is the derivative of the energy** - partial; `Verif.Pot.C61_lda_potential_is_derivative`, `Verif.Pot.C61_gga_potential_is_derivative`, `Verif.Pot.C61_gga_core_error`, `Verif.Pot.C61_gga_core_violated`, `Verif.Pot.fft_laws`. Proved for local functionals with any core and for gradient-corrected ones without core; with a core that is not constant the potential is not the derivative (violation proved, with the size of the error). libxc functionals are abstract: a differentiable energy density with its partial derivatives. fft_laws shows both FFT drivers satisfy the transform laws used.
* **C62 Any exchange functional can be combined with any correlation functional** - partial; `Verif.Pot.C62_mixed_families`. Same-family pairs never fail; a gradient-corrected functional paired with a local one always raises KeyError (violation proved).
* **C63 Smearing energy is consistent with the occupations** - proved; `Verif.Occup.C63_energy_consistent`, `Verif.Occup.C63_free_energy_stationary`. 
* **C64 Mixing takes the least-residual combination** - proved; `Verif.Mixing.C64_least_residual`. 
* **C65 Both mixing methods are the same map** - proved; `Verif.Mixing.C65_methods_agree`. 
* **C66 Effect of mixing on the density passed in** - proved; `Verif.Mixing.C66_caller_density`. 
* **C67 The error measure vanishes exactly at self-consistency** - proved; `Verif.Mixing.C67_error_measure`. 
* **C68 SCF leaves the caller's starting density alone** - partial; `Verif.SCF.scf_caller_kept`, `Verif.SCF.scf_caller_overwritten`, `Verif.SCF.scf_caller_normalized`. Holds with symm_rho=True; with symm_rho=False the caller's array is overwritten (violation proved).
* **C69 Starting magnetisation redistributes, never loses, charge** - partial; `Verif.SCF.clampMag_spec`, `Verif.SCF.startSpin_total`, `Verif.SCF.startSpin_total_full`, `Verif.SCF.startSpin_spin`, `Verif.SCF.startSpin_nonneg`, `Verif.SCF.startSpin_short_violated`. Holds when every species has a magnetisation; a short list silently drops charge (violation proved).
* **C70 All ranks take part in the density sum** - proved; `Verif.SCF.allreduce_all_iff`, `Verif.SCF.allreduce_split_violated`. Holds iff there are at least as many bands as band groups; otherwise ranks enter different collectives (violation proved).
* **C71 Davidson eigenvalue estimates are monotone upper bounds** - proved; `Verif.Davidson.solve_monotone`, `Verif.Davidson.solve_lower_bound`. 
* **C72 The Hamiltonian application is the plane-wave Hamiltonian** - partial; `Verif.Nonloc.C72_h_psi_is_hamiltonian`, `Verif.Nonloc.C72_h_psi_hermitian`, `Verif.Nonloc.C72_h_psi_linear`, `Verif.Nonloc.C72_cpu_error_partial`, `Verif.Nonloc.C72_cpu_not_linear`. Proved for GPU arrays. Violated for numpy arrays: the zgemm wrapper calls np.asarray(out, 'F'), which converts the accumulated H psi to single precision for every species (C72_cpu_not_linear); C72_cpu_error_partial bounds the deviation.
* **C73 FFT backend lookup** - partial; `Verif.Config.C73_backend`, `Verif.Config.C73_default_fails`. Named backends are selected; the documented default call raises TypeError (violation proved).
* **C74 Non-local pseudopotential operator** - proved; `Verif.Nonloc.C74_rows_match_labels`, `Verif.Nonloc.C74_nonlocal_operator`, `Verif.Nonloc.C74_lattice_translation`, `Verif.Nonloc.C74_translation_relabelling`, `Verif.Nonloc.C74_vnl_diag`, `Verif.Nonloc.C74_hermitian`. Spherical harmonics and radial values are arbitrary functions of the plane wave.
* **C75 Interpolation table of the projectors** - proved; `Verif.Nonloc.C75_exact_for_cubics`, `Verif.Nonloc.C75_table_covers_sphere`, `Verif.Nonloc.C75_outside_raises`. 
* **C76 Radial Simpson integration of projectors** - partial; `Verif.Nonloc.C76_simpson_value`, `Verif.Nonloc.C76_exact_for_cubics`, `Verif.Nonloc.C76_even_drops_last`. Full for odd meshes; even meshes silently lose their last point (violation proved).
* **C77 Spherical Bessel functions** - proved; `Verif.Nonloc.C77_spherical_jn`, `Verif.Nonloc.C77_closed_forms`, `Verif.Nonloc.C77_small_is_truncated_series`, `Verif.Nonloc.C77_series_error`, `Verif.Nonloc.C77_at_zero`. 
* **C78 Radial transform of local potential and densities** - partial; `Verif.Loc.C78_sph2pw_value`, `Verif.Loc.C78_sph2pw_simpson_partial`, `Verif.Loc.C78_simpson_old`, `Verif.Loc.C78_sph2pw_even_mesh`, `Verif.Loc.C78_sph2pw_witness`. The double-counted first sample is proved (violation); equality with Simpson holds iff that sample contributes nothing.
* **C79 Atomic superposition** - proved; `Verif.Loc.C79_superpositions`, `Verif.Loc.C79_images_and_order`, `Verif.Loc.C79_additive`, `Verif.Loc.C79_total_charge`, `Verif.Loc.C79_real`, `Verif.Loc.C79_translation`. 
* **C80 Midpoint (ETRS) propagation advances by one time step** - partial; `Verif.TDDFT.C80_taylor_step`, `Verif.TDDFT.C80_split_step_doubles`, `Verif.TDDFT.C80_split_violated`. Holds for the Taylor method; violated for splitoper (object aliasing), proved with a witness.
* **C81 TDDFT method selection and dipole table** - proved; `Verif.TDDFT.C81_methods`, `Verif.TDDFT.C81_rejects_value`, `Verif.TDDFT.C81_rows`. 
* **C82 write_freq controls the partial dipole files** - partial; `Verif.TDDFT.C82_write_freq_ignored`, `Verif.TDDFT.C82_disable_violated`. Violated; the theorems characterise what happens.
* **C83 Spectrum from the dipole signal** - partial; `Verif.TDDFT.C83_default_factor_violated`, `Verif.TDDFT.C83_explicit_factor`, `Verif.TDDFT.C83_weights`, `Verif.TDDFT.C83_linear`. Everything holds except the damping choice without explicit factor (proved violation).
* **C84 Ewald energy is the physical pair sum and independent of bookkeeping** - proved; `Verif.Ewald.C84_pair_sum`, `Verif.Ewald.C84_relabelling`, `Verif.Ewald.C84_translation`, `Verif.Ewald.C84_long_range`, `Verif.Ewald.C84_alpha`, `Verif.Ewald.C84_alpha_error`, `Verif.Ewald.C84_energy`. Pair sum, bookkeeping independence, long-range sum and alpha search of ewald.compute over exact reals.
* **C85 Ewald real-space sum covers its cutoff** - partial; `Verif.Ewald.C85_orthogonal_partial`, `Verif.Ewald.C85_skewed_violated`, `Verif.Ewald.C85_outside_cell_violated`. Holds for orthogonal cells with atoms in the cell; violated for skewed cells (image counts use rows of the cell matrix) and for atoms given outside the cell.
* **C86 Parsing an input file does not depend on files parsed before** - partial; `Verif.QECell.C86_history_free_partial`, `Verif.QECell.C86_leak_violated`. Violated through the shared default dictionary of System.celldm; holds for files giving celldm or non-alat CELL_PARAMETERS.
* **C87 Traditional cell parameters A, B, C, cosAB... are honoured** - partial; `Verif.QECell.C87_trad2celldm`, `Verif.QECell.C87_trad_missing`, `Verif.QECell.C87_trad_violated`, `Verif.QECell.C87_alat_violated`. The translation function is correct, but parse_inp raises KeyError before using it (violation proved for every such input).
* **C88 Generated FFT grid dimensions are the smallest admissible ones** - proved; `Verif.QECell.C88_grid_shape`. 
* **C89 CELL_PARAMETERS are read as lattice vectors in the stated unit** - partial; `Verif.QECell.C89_cell_parameters`, `Verif.QECell.C89_unknown_unit_violated`. Supported units correct; any other unit string is silently taken as Bohr (violation).
* **C90 Energies reported in every SCF iteration belong to that iteration** - proved; `Verif.SCF.C90_reported_energies`. 
* **C91 Namelists mean their last assignments, whatever the layout** - proved; `Verif.QEInp.C91_namelist`, `Verif.QEInp.C91_rejects`, `Verif.QEInp.C91_required`, `Verif.QEInp.C91_blocks`. number parsing (int, float) arbitrary partial functions; str.lower on ASCII
* **C92 Fortran logicals are accepted** - partial; `Verif.QEInp.C92_logical_violated`, `Verif.QEInp.C92_logical_partial`. violated: .true./.false. always rejected with ValueError; only .true/.false are read
* **C93 Text parameters keep their letter case** - partial; `Verif.QEInp.C93_case_violated`, `Verif.QEInp.C93_case_partial`. violated: every namelist value is lower-cased before parsing
* **C94 Blank lines inside namelists are harmless and unterminated namelists rejected** - partial; `Verif.QEInp.C94_blank_line_violated`, `Verif.QEInp.C94_unterminated`. violated: a blank line raises IndexError; an unterminated namelist is always an error (IndexError at end of file, not ValueError)
* **C95 Cards are read from exactly their lines** - proved; `Verif.QEInp.C95_card_lines`, `Verif.QEInp.C95_short_card`, `Verif.QEInp.C95_counts`, `Verif.QEInp.C95_columns`, `Verif.QEInp.C95_header`. 
* **C96 Comments do not change what is read** - partial; `Verif.QEInp.C96_comment_line_violated`, `Verif.QEInp.C96_inline_comment_violated`, `Verif.QEInp.C91_namelist`. violated between blocks and behind text values; comment lines inside namelists are harmless (C91_namelist)
* **C97 Reading terminates** - proved; `Verif.QEInp.C97_terminates`. 
* **C98 Atoms of a PWscf input** - proved; `Verif.QEParse.C98_atoms`. exact arithmetic; lattice from the cell model (C51, C86)
* **C99 Number of bands from a PWscf input** - partial; `Verif.QEParse.C99_smearing`, `Verif.QEParse.C99_fixed`, `Verif.QEParse.C99_nbnd_violated`. bounds proved; a user's nbnd is overwritten with fixed occupations (proved violation)
* **C100 Starting magnetization per species** - partial; `Verif.QEParse.C100_entries`, `Verif.QEParse.C100_order_partial`, `Verif.QEParse.C100_order_violated`. values are passed in insertion order of the dictionary: wrong species unless entries come in the order 1, 2, ...
* **C101 An accepted PWscf input can be calculated** - partial; `Verif.QEParse.C101_partial`, `Verif.QEParse.C101_violated`. m-p smearing and mixing_beta = 0 are accepted and then fail in scf
* **C102 Iteration limits of the input are honoured** - partial; `Verif.QEParse.C102_ignored_violated`. violated: the three values have no effect on any accepted input
* **C103 Unsupported control values are replaced with a warning** - partial; `Verif.QEParse.C103_replaced_violated`, `Verif.QEParse.C103_noncolin`, `Verif.QEParse.C103_legal_partial`. violated: AttributeError (assignment to a NamedTuple field)
* **C104 K-points of a PWscf input** - partial; `Verif.QEParse.C104_automatic_partial`, `Verif.QEParse.C104_explicit_violated`. explicit lists never succeed (Crystal has no recispc)
* **C105 Exchange-correlation functional of a PWscf input** - partial; `Verif.QEParse.C105_partial`, `Verif.QEParse.C105_override_violated`. override fails with KeyError
* **C106 nspin of a PWscf input** - partial; `Verif.QEParse.C106_partial`, `Verif.QEParse.C106_nspin_violated`. other values are treated as unpolarised
* **C107 Mixing parameters** - partial; `Verif.QEParse.C107_mixdim_partial`, `Verif.QEParse.C107_mixdim_violated`, `Verif.QEParse.C107_progress`. mix_dim = 1 passes scf and fails in the mixer; progress proved
* **C108 Density cutoff of a PWscf input** - partial; `Verif.QEParse.C108_partial`, `Verif.QEParse.C108_ecutrho_violated`. a given ecutrho is always replaced by 4 ecutwfc
* **C109 Plane-wave matrix elements are the overlaps they are documented to be** - proved; `Verif.GW.C109_matrix_elements`, `Verif.GW.C109_no_aliasing`, `Verif.GW.C109_partner`. 
* **C110 Umklapp brings k+q back into the first cell** - proved; `Verif.GW.C110_umklapp`. 
* **C111 Inverse dielectric matrix exists and screens** - proved; `Verif.GW.C111_v_bare`, `Verif.GW.C111_epsilon_inverse`, `Verif.GW.C111_nan`, `Verif.GW.C111_screening`. exact arithmetic; np.linalg.inv modelled as the exact inverse
* **C112 Bare exchange self-energy** - partial; `Verif.GW.C112_exchange`, `Verif.GW.C112_nonpositive`, `Verif.GW.C112_duplicate_k`, `Verif.GW.C112_occupied_partial`, `Verif.GW.C112_cutoffs`, `Verif.GW.C112_metal`. proved for uniform filling, distinct k-points and equal cutoffs; metals, repeated k-points and different cutoffs are proved violations
* **C113 Static COHSEX self-energies** - partial; `Verif.GW.C113_sx`, `Verif.GW.C113_ch`, `Verif.GW.C113_bounds`, `Verif.GW.C113_q0_sort`, `Verif.GW.C113_fewer_kpoints`. violations proved: q0 sort keys of another sphere, fewer k-points than q-points
* **C114 Head and wing correction touches only head and wings** - proved; `Verif.GW.C114_fixwings`, `Verif.GW.C114_bare_identity`, `Verif.GW.C114_default_head`. 
* **C115 Plasmon-pole density lookup** - partial; `Verif.GW.C115_injective`, `Verif.GW.C115_lookup_partial`, `Verif.GW.C115_quarter`, `Verif.GW.C115_wraps`. addresses wrap outside the box; a vector without density raises KeyError
* **C116 -q is matched correctly** - partial; `Verif.GW.C116_bra`, `Verif.GW.C116_index`, `Verif.GW.C116_negative_component`, `Verif.GW.C116_partner`, `Verif.GW.C116_momentum`, `Verif.GW.C116_same_partner`, `Verif.GW.C116_tolerance`. violated for q-points listed with negative components; tolerances of Sigma and Epsilon differ
* **C117 Quasiparticle tables** - partial; `Verif.GW.C117_cohsex`, `Verif.GW.C117_gpp_partial`, `Verif.GW.C117_gpp_primed`, `Verif.GW.C117_band_labels`, `Verif.GW.C117_non_root`, `Verif.GW.C117_root`. primed columns and Znk of the plasmon-pole table, band labels, non-root processes: proved violations
* **C118 Plasmon-pole parameters** - partial; `Verif.GW.C118_pole`, `Verif.GW.C118_not_neglected`, `Verif.GW.C118_one_sided`, `Verif.GW.C118_terms`, `Verif.GW.C118_static_limit`. neglected entries keep Omega2; the imaginary-part test is one-sided
* **C119 Energies from the input file reach the solver in Hartree** - proved; `Verif.QEParse.C119_units`. 
* **C120 Static limit of the plasmon-pole sums** - partial; `Verif.GW.C120_conjugate`, `Verif.GW.C120_real_partial`, `Verif.GW.C120_complex`. holds for real symmetric matrices only
* **C121 Order of the dielectric matrix** - partial; `Verif.GW.C121_order`, `Verif.GW.C121_native_order`, `Verif.GW.C121_q0_order`. correct iff the matrix comes in BerkeleyGW order of q+G; both documented routes violate that in cases exhibited
* **C122 Coulomb hole by closure** - partial; `Verif.GW.C122_exact_partial`, `Verif.GW.C122_bounds`, `Verif.GW.C122_band_offset`, `Verif.GW.C122_high_k`, `Verif.GW.C122_truncated`. band offset ignored, k-points beyond the number of q-points get zero, pairs above the cutoff dropped (proved violations)
* **C123 Wavefunctions of a BerkeleyGW file** - partial; `Verif.BGW.C123_plane_waves`, `Verif.BGW.C123_coefficients`, `Verif.BGW.C123_readers_agree`, `Verif.BGW.C123_inverted`, `Verif.BGW.C123_not_a_phase`. The reordering is proved for all plane-wave orders; violated for the values: i·conj(c) is loaded (C123_inverted, C123_not_a_phase).
* **C124 Atoms of a BerkeleyGW file** - proved; `Verif.BGW.C124_species`. 
* **C125 Point blocks and parameters of epsilon.inp and sigma.inp** - partial; `Verif.BGW.C125_epsilon_inp`, `Verif.BGW.C125_sigma_inp`, `Verif.BGW.C125_scale_ignored`, `Verif.BGW.C125_unterminated`, `Verif.BGW.C125_blank_in_block`, `Verif.BGW.C125_comment`. Reading proved for all well-formed files; violated for the scale factor (C125_scale_ignored).
* **C126 Exchange-correlation matrix elements are read completely** - partial; `Verif.BGW.C126_read`, `Verif.BGW.C126_offdiagonal`, `Verif.BGW.C126_truncated`. Proved for files with diagonal elements; violated with off-diagonal ones (C126_offdiagonal).
* **C127 Overlap matrix of two sets of Bloch states** - partial; `Verif.KSWfn.C127_overlap`, `Verif.KSWfn.C127_exact`, `Verif.KSWfn.C127_wraps`, `Verif.KSWfn.C127_spinor`, `Verif.KSWfn.C127_single_band`. Exactly what is returned is C127_overlap (matching modulo the grid); equal to the inner product when no difference of plane waves reaches the grid (C127_exact). Violations proved: wrap-around, second spinor component ignored, scalar band argument.
* **C128 Occupied and empty bands partition the bands** - proved; `Verif.KSWfn.C128_partition`. 
* **C129 Loading wave functions from a file** - partial; `Verif.KSWfn.C129_load`, `Verif.KSWfn.C129_broadcast`, `Verif.KSWfn.C129_wrong_size`, `Verif.KSWfn.C129_wrong_bands`, `Verif.KSWfn.C129_foreign`, `Verif.KSWfn.C129_repeated`. Loading proved for every order of the file; violated: foreign plane waves fail with IndexError, repeated plane waves are accepted. Only one-component states are modelled; stored eigenvalues are passed through.
* **C130 The density of selected bands carries their occupation** - partial; `Verif.KSWfn.C130_charge_slice`, `Verif.KSWfn.C130_charge_list`, `Verif.KSWfn.C130_list_violated`, `Verif.KSWfn.C130_no_bands`, `Verif.KSWfn.C130_repeat`. Proved for slices; index lists are not normalised (C130_list_violated); no bands is an AttributeError.
* **C131 A pseudopotential file is read completely** - partial; `Verif.UPF.C131_read_partial`, `Verif.UPF.C131_core_violated`, `Verif.UPF.C131_no_projectors`, `Verif.UPF.C131_projector_order`. Proved for files with at least one projector and logicals not spelled true/.true.; the XML parser is not modelled. Violations proved: core charge dropped for every other spelling than t/T, files without projectors never read, projector numbers ignored.
* **C132 Unsupported pseudopotentials are rejected** - partial; `Verif.UPF.C132_unsupported_accepted`. Violated: every well-formed ultrasoft/PAW/spin-orbit file is accepted.
* **C133 Incomplete pseudopotential files are rejected** - partial; `Verif.UPF.C133_rejected`, `Verif.UPF.C133_missing_accepted`. Missing core charge, missing non-local section and wrong size of D are rejected; missing mesh, local potential or atomic density are accepted (C133_missing_accepted).
* **C134 The collective argument check is sound and complete** - proved; `Verif.CheckArgs.C134_safe`, `Verif.CheckArgs.C134_complete`, `Verif.CheckArgs.C134_terminates`. All schedules, any number of processes, with broadcasts that do or do not synchronise.
* **C135 Inconsistent arguments are reported on every process** - partial; `Verif.CheckArgs.C135_hang`, `Verif.CheckArgs.C135_root_never_raises`. Violated: the root never raises because it compares its data with itself, and in every execution it blocks for ever in a collective call. The full statement (every process raises) is false of the code.
* **C136 Normalising wavefunctions** - partial; `Verif.Wavefun.C136_normalize`, `Verif.Wavefun.C136_distributed`, `Verif.Wavefun.C136_single`, `Verif.Wavefun.C136_blocks`. Proved for one-dimensional lists, serial and distributed; violated for a single wavefunction (IndexError) and for blocks of lists (ValueError, or the wrong norms).
* **C137 Normalised probability densities** - partial; `Verif.Wavefun.C137_density`, `Verif.Wavefun.C137_normalized_partial`, `Verif.Wavefun.C137_spinor`, `Verif.Wavefun.C137_spinor_list`. Proved for lists of one-component wavefunctions; spinors are normalised per component (charge = number of components) or fail.
* **C138 Overlaps of arrays of wavefunctions** - proved; `Verif.Wavefun.C138_vdot`. Arrays of any number of axes.
* **C139 Band-parallel diagonalisation equals the serial one** - proved; `Verif.Davidson.C139_band_parallel`, `Verif.Davidson.C139_rows`. Refinement of the serial model; exact arithmetic, plane waves not distributed inside a band group (C22, C138 cover that), MPI collectives by their standard semantics.
* **C140 Coordinate conversions of arrays of vectors** - proved; `Verif.LatArr.C140_array_conversion`, `Verif.LatArr.C140_round_trip`, `Verif.LatArr.C140_rejects`. numpy's broadcasting is modelled; negative `axis` values and arrays whose axis has length 1 (silently broadcast by cart2cryst) are outside the documented domain.
* **C141 Coordinates of a list of k-points** - partial; `Verif.LatArr.C141_klist_coords_partial`, `Verif.LatArr.C141_checks`, `Verif.LatArr.C141_tpiba_fails`, `Verif.LatArr.C141_tpiba_wrong`. Crystal and Cartesian coordinates proved for all three input types; k_tpiba is violated: it converts along the wrong axis, fails unless there are three points and is wrong with three.
* **C142 Norms of an array of vectors** - partial; `Verif.LatArr.C142_norm2_values_partial`, `Verif.LatArr.C142_norm2_shape`. Values proved; the shape is violated: the array is flattened before its shape is taken, so the result is right only for flat lists of vectors.
* **C143 Nested dictionaries survive HDF5 files** - proved; `Verif.H5.C143_round_trip`, `Verif.H5.C143_order`, `Verif.H5.C143_no_overwrite`. Keys without '/', data sets hold the array written (types and bytes are h5py's).
* **C144 Copying the header group of another HDF5 file** - partial; `Verif.H5.C144_copy_partial`, `Verif.H5.C144_deep_fails`. Proved for headers whose groups hold only arrays; violated (TypeError) for deeper ones, because the recursive call does not pass the type of the source on.
* **C145 Tables of sigma_hp.log** - partial; `Verif.SigmaHP.C145_tables`, `Verif.SigmaHP.C145_truncated`, `Verif.SigmaHP.C145_header_ignored`. Proved for files whose tables share one header (distinct names, n first) and end with an empty line; a table at the end of the file without an empty line is StopIteration, and headers after the first are ignored (columns would get the names of the first header).
* **C146 RHO file of BerkeleyGW** - partial; `Verif.RhoFile.C146_read_partial`, `Verif.RhoFile.C146_atoms`, `Verif.RhoFile.C146_real`, `Verif.RhoFile.C146_spin`. Read correctly exactly for two atoms, complex flavour, one spin (C146_read_partial). Violated otherwise: another number of atoms is refused (C146_atoms), the real flavour is refused or paired into half as many values (C146_real), two spins are concatenated (C146_spin).
* **C147 Charge densities and wavefunctions of Quantum ESPRESSO HDF5 files** - partial; `Verif.RhoFile.C147_read_fails`, `Verif.RhoFile.C147_write_fails`. Violated: the three functions use attributes the objects do not have and raise for every input. The body after the failing access is not modelled (parameter `tail`).
* **C148 Preconditioning residuals** - proved; `Verif.EigPrec.C148_diagonal`, `Verif.EigPrec.C148_denominator`, `Verif.EigPrec.C148_monotone`, `Verif.EigPrec.C148_apply`, `Verif.EigPrec.C148_nonzero`. Exact arithmetic, real diagonal (the code stores it as complex with zero imaginary part).
* **C149 Alternative eigensolvers** - partial; `Verif.EigPrec.C149_solved`, `Verif.EigPrec.C149_serial_only`, `Verif.EigPrec.C149_noncollinear`, `Verif.EigPrec.C149_threshold_ignored`. Given an external solver meeting its specification, whatever the wrappers return is solved. Violated: non-collinear states are never solved, and the scipy wrapper ignores the requested threshold (the solver's default accuracy is used).
* **C150 Coulomb averages over spheres** - proved; `Verif.Vcoul.C150_sphere`, `Verif.Vcoul.C150_oneoverq`, `Verif.Vcoul.C150_shifted`, `Verif.Vcoul.C150_nan`. Three-dimensional Lebesgue integrals over balls of Euclidean space; the documented constraint |centre| > R is necessary (C150_nan).
* **C151 Monte-Carlo averages of the Coulomb interaction** - partial; `Verif.Vcoul.C151_unbiased`, `Verif.Vcoul.C151_unbiased_shift`, `Verif.Vcoul.C151_ball_in_cell`, `Verif.Vcoul.C151_fold_in_cell`, `Verif.Vcoul.C151_fold_uniform`, `Verif.Vcoul.C151_samples_in_mesh`, `Verif.Vcoul.C151_mesh`, `Verif.Vcoul.C151_mesh_shift`, `Verif.Vcoul.C151_samples`, `Verif.Vcoul.C151_gamma_only`, `Verif.Vcoul.C151_anisotropic`, `Verif.Vcoul.C151_nan`. Unbiased on every n x n x n mesh, for samples uniform on the parallelepiped of the mesh (an idealisation of 32-bit random numbers) and a search returning a nearest mesh point: folding then gives samples uniform on the cell (C151_fold_uniform, C151_mesh). False on anisotropic meshes (C151_anisotropic). Violated: a single q-point raises ValueError (C151_gamma_only); q+G shorter than the radius gives NaN (C151_nan). v_minibz_montecarlo reads an unassigned variable and is not modelled.
* **C152 All processes of a run use the root's parameters** - partial; `Verif.ScfArgs.C152_root_values`, `Verif.ScfArgs.C152_own_config`. The twelve broadcast parameters are the root's in every execution; violated for dftconfig (the result of the broadcast is discarded) and ret_vxc (C152_own_config).
* **C153 Invalid parameters are refused on all processes** - proved; `Verif.ScfArgs.C153_accepted`, `Verif.ScfArgs.C153_rejected`, `Verif.ScfArgs.C153_bad_density`. For processes whose own arguments (G-space, starting density, configuration, k-points) are in order; after check_system (C134).
* **C154 A run needs no progress printer** - partial; `Verif.ScfArgs.C154_default_violated`, `Verif.ScfArgs.C154_git_violated`, `Verif.ScfArgs.C154_partial`. Violated: with the documented default None (and for any callable without a name, and without a git program) the root raises while printing the parameters and the other processes wait for ever.
* **C155 Reporting a converged run** - partial; `Verif.ScfArgs.C155_distributed_spin_violated`, `Verif.ScfArgs.C155_partial`. Violated for spin-polarised runs with distributed plane waves (one k-group and one band group modelled).
* **C156 Delta values of the accuracy benchmark** - proved; `Verif.Delta.C156_delta`, `Verif.Delta.C156_symmetric`, `Verif.Delta.C156_zero_iff`, `Verif.Delta.C156_rows`, `Verif.Delta.C156_missing`. Exact arithmetic. The order of the elements (a Python set) is a parameter; the printing is not modelled (the maximum and minimum lines print the bytes object, i.e. "b'", as the element's name).
* **C157 Equation-of-state fit of the accuracy benchmark** - partial; `Verif.Delta.C157_physical`, `Verif.Delta.C157_found`, `Verif.Delta.C157_none`, `Verif.Delta.C157_recovers`, `Verif.Delta.C157_report_partial`, `Verif.Delta.C157_four_points`. The fit is proved for every polynomial and data set; violated: with four data points (enough for the cubic) the script fails with IndexError, and it converts the bulk modulus with another electron charge than calcDelta (relative difference between 0 and 5e-7). Only real roots are modelled.
* **C158 Head and wing correction away from q0** - partial; `Verif.GW.C158_first_zone_partial`, `Verif.GW.C158_outside`, `Verif.GW.C158_switch`, `Verif.GW.C158_q0`. Proved for q-points in the first Brillouin zone (no shorter q+G); violated for all others: the Coulomb value of the shortest q+G is used in place of the one of G=0, the G=0 row is scaled down.
* **C159 Coulomb values survive being written and read** - partial; `Verif.Fmt.C159_round_trip_partial`, `Verif.Fmt.C159_single_row_violated`. Violated for a file of one row: genfromtxt then returns a one-dimensional array and load_vcoul raises IndexError (C159_single_row_violated). Formatting is exact decimal rounding (ties to even), float reads a numeral exactly; the rounding of float is not modelled.
* **C160 The status report of an SCF iteration is faithful** - proved; `Verif.Printer.C160_status`, `Verif.Printer.C160_header`, `Verif.Printer.C160_no_levels`, `Verif.Printer.C160_adds_up`. Energies as real numbers; the run time is printed but nothing is claimed about it.
* **C161 The table of eigenvalues is complete and faithful** - proved; `Verif.Printer.C161_bands`. k-point and weight as the text that str makes of them.
* **C162 ret_vxc returns the expectation values of the exchange-correlation potential** - partial; `Verif.VxcOut.C162_entry`, `Verif.VxcOut.C162_matrix_element_partial`, `Verif.VxcOut.C162_spin_violated`, `Verif.VxcOut.C162_rows`, `Verif.VxcOut.C162_energies_partial`, `Verif.VxcOut.C162_unconverged_violated`. Proved for unpolarised runs, and for the energies of converged runs. Violated: with spin the down potential is added to the up potential and only spin-up states are returned; in a run that ends at maxiter en.xc is overwritten by that of the next mixed density so the energies no longer add up; each process gets only its own k-group's rows.
* **C163 Setting up the log file never loses log messages** - partial; `Verif.LogFile.C163_current`, `Verif.LogFile.C163_exact`, `Verif.LogFile.C163_backup`, `Verif.LogFile.C163_kept_partial`, `Verif.LogFile.C163_same_second_violated`. Proved for histories that never set the log file up twice with the same time stamp (whole seconds); otherwise Path.rename replaces an earlier backup (C163_same_second_violated). POSIX semantics of open files and rename are part of the model.
* **C164 Setting up the log file with several processes** - partial; `Verif.LogFile.C164_finite`, `Verif.LogFile.C164_no_hang_partial`, `Verif.LogFile.C164_result`, `Verif.LogFile.C164_absent_partial`, `Verif.LogFile.C164_hang_violated`, `Verif.LogFile.C164_split_violated`. Violated: without an earlier file a process that looks after another one created the file waits in the barrier alone (C164_hang_violated); with one, a process may open it before rank 0 renames it (C164_split_violated). Proved: no hang and no loss when a file exists; all well if all look first. Collective calls after the function that might match the barrier are not modelled.
* **C165 Command-line options of the PWscf front end** - partial; `Verif.PwCli.C165_options`, `Verif.PwCli.C165_numbers`, `Verif.PwCli.C165_not_a_number`, `Verif.PwCli.C165_first_word_violated`. Options proved for all command lines whose values are not themselves option names; a file without -in is found only as the first word (C165_first_word_violated). int() of signs, blanks and underscores is not modelled.
* **C166 The PWscf front end uses the process layout that was asked for** - partial; `Verif.PwCli.C166_layout_partial`, `Verif.PwCli.C166_zero`, `Verif.PwCli.C166_bands_violated`, `Verif.PwCli.C166_basis_group`. Layout as asked for if pools*bands divides the processes; otherwise the number of band groups is changed silently (C166_bands_violated). pw.py distributes the basis over all processes, which is right exactly if plane-wave groups are single processes or there is one of them (C166_basis_group).
* **C167 Lattice constructors keep the given axes** - partial; `Verif.Atoms.C167_axes_partial`, `Verif.Atoms.C167_rejects`, `Verif.Atoms.C167_dual`, `Verif.Atoms.C167_angstrom`, `Verif.Atoms.C167_integers_violated`. Violated for vectors written with integers only: np.stack makes an integer array, which Lattice.__init__ refuses (ValueError). Proved for all other input, exact real arithmetic.
* **C168 Atom groups are placed where the caller says** - partial; `Verif.Atoms.C168_positions`, `Verif.Atoms.C168_from_alat_partial`, `Verif.Atoms.C168_wrong_length`, `Verif.Atoms.C168_ragged`, `Verif.Atoms.C168_checks`, `Verif.Atoms.C168_from_alat_violated`, `Verif.Atoms.C168_one_number_violated`. Violated twice: from_alat takes one table instead of one argument per atom (TypeError / ValueError for the documented call), and from_cart/from_bohr/from_angstrom take a one-element sequence [x] for (x, x, x) by broadcasting. Proved for the rest.
* **C169 The text of a crystal shows its data** - partial; `Verif.Atoms.C169_lattice`, `Verif.Atoms.C169_atoms`, `Verif.Atoms.C169_crystal`, `Verif.Atoms.C169_raises`, `Verif.Atoms.C169_coords_violated`. Violated: the coordinates below 'in units of alat' are crystal coordinates. Proved: everything else is shown to five decimals; groups without mass or with an integer instead of a pseudopotential cannot be shown.
* **C170 r2g and g2r transform every row of an array, into a new or a given array** - partial; `Verif.GArr.C170_alloc`, `Verif.GArr.C170_into_partial`, `Verif.GArr.C170_rejects`, `Verif.GArr.C170_lost_violated`, `Verif.GArr.C170_rows_violated`, `Verif.GArr.C170_r2g`, `Verif.GArr.C170_g2r`. Proved without an output array (all inputs, all layouts) and for output arrays whose leading axes can be merged. With other output arrays reshape copies and the result is lost silently (C170_lost_violated); arrays with different numbers of rows are not rejected (C170_rows_violated). Negative strides and overlapping arrays are not modelled.
* **C171 Arrays returned by the FFT driver belong to the caller** - partial; `Verif.GArr.C171_returned_partial`, `Verif.GArr.C171_pyfftw_violated`, `Verif.GArr.C171_frame`. Holds for NumPy, SciPy, MKL; with pyFFTW the driver returns its own work array, which the next transform overwrites (C171_pyfftw_violated). CuPy is not modelled.
* **C172 k-point lists behave as sequences** - partial; `Verif.KLists.C172_index`, `Verif.KLists.C172_iteration`, `Verif.KLists.C172_slices`, `Verif.KLists.C172_numpy_partial`, `Verif.KLists.C172_numpy_violated`, `Verif.KLists.C172_distribute_violated`. Integers, slices and iteration proved for both classes; numpy integers, index lists and masks only work for qtm.kpts.KList (C172_numpy_violated); klist_distribute always fails (C172_distribute_violated). Slices are characterised for [a:b], [-m:], [::-1] and step 0.
* **C173 Coordinates of the k-point lists of GW** - proved; `Verif.KLists.C173_coords`, `Verif.KLists.C173_checks`. Exact arithmetic; weights that are all zero become NaN and are outside the statement.
* **C174 The q-point that stands for Gamma is the flagged one** - partial; `Verif.KLists.C174_q0`, `Verif.KLists.C174_from_data_partial`, `Verif.KLists.C174_from_data_violated`. Sigma.from_data always zeroes the first q-point; if the flagged one is another, a regular q-point is lost (C174_from_data_violated).
* **C175 Gathering and scattering distributed containers** - partial; `Verif.DistBuf.C175_gather_partial`, `Verif.DistBuf.C175_scatter_partial`, `Verif.DistBuf.C175_parts`, `Verif.DistBuf.C175_good_argument`, `Verif.DistBuf.C175_single_field_violated`, `Verif.DistBuf.C175_empty_violated`, `Verif.DistBuf.C175_bad_argument_violated`. Holds for every container with elements and, for fields, leading axes. Violated (proved): fields without leading axes, containers without elements, and scatter() with an unacceptable argument (the other processes never return).
* **C176 Symmetrising distributed fields** - partial; `Verif.DistBuf.C176_distributed_partial`, `Verif.DistBuf.C176_checks`, `Verif.DistBuf.C176_single_field_violated`. Holds for distributed fields with leading axes; a distributed field without leading axes raises (violation proved).
* **C177 No plane wave inside the cutoff is missing from the basis of a k-point** - partial; `Verif.GkCoords.C177_complete_partial`, `Verif.GkCoords.C177_density`, `Verif.GkCoords.C177_far_violated`. Proved for |k|^2 <= 2 ecutwfn and ecutwfn <= ecut/4; for every lattice there is a k-point equivalent to Gamma for which the constructor raises IndexError (violation proved).
* **C178 Coordinates and lengths of the plane waves of a k-point** - proved; `Verif.GkCoords.C178_lengths`, `Verif.GkCoords.C178_distributed`. Exact arithmetic.
* **C179 Hamiltonian of a moved crystal** - proved; `Verif.Trans.C179_translation`, `Verif.Trans.C179_images`. Proved in exact arithmetic; on the CPU the projector products go through single precision (see C72), so there the equality holds only up to that rounding.
* **C180 Mixing commutes with symmetries** - proved; `Verif.Mixing.C180_mixing_covariant`, `Verif.Mixing.translation_isometry`. Exact arithmetic; solve is exact or raises.
* **C181 Potentials of a moved density** - proved; `Verif.Trans.C181_xc`, `Verif.Trans.C181_hartree`, `Verif.Trans.C181_atoms`, `Verif.Trans.C181_grid`. libxc enters through the hypothesis that it works point by point; exact arithmetic.
* **C182 SCF result does not depend on the origin** - proved; `Verif.TransScf.C182_scf_covariant`, `Verif.TransScf.C182_mixers`. The diagonaliser, occupations and potentials enter as an environment whose two instances correspond under the symmetry (discharged for the parts by C179-C181).
* **C183 Density is independent of the choice of degenerate orbitals** - proved; `Verif.KSWfn.C183_gauge_invariant`. Exact arithmetic, both FFT drivers.
* **C184 Symmetry-equivalent k-points have the same energies** - proved; `Verif.Rot.C184_equivalent_kpoints`, `Verif.Rot.C184_basis`, `Verif.Rot.C184_origin`. Proved in exact arithmetic (GPU path, see C72 for the CPU) for vectors k+G that are zero or longer than 1e-7 (shorter ones get polar angle 0). sph_harm_y enters through its addition theorem, which is proved for the usual harmonics up to l=3 (sphY_harmonics).
* **C185 Time reversal: k and -k have the same energies** - proved; `Verif.Rot.C185_time_reversal`, `Verif.Rot.C184_basis`, `Verif.Rot.keeps_neg`. Proved in exact arithmetic (GPU path), same hypotheses as C184.
* **C186 Representative k-points plus symmetrisation give the density of the whole mesh** - proved; `Verif.Symm.C186_sampling`. Exact arithmetic; the relations between the densities of equivalent k-points are C184/C185, the symmetriser is the model of C31.
* **C187 Potentials and energies follow space-group operations** - proved; `Verif.Rot.C187_xc`, `Verif.Rot.C187_hartree`, `Verif.Rot.C187_atoms`, `Verif.Rot.C187_grid`. libxc enters through the hypothesis that it works point by point; exact arithmetic.
* **C188 Split-operator time steps neither create norm nor mix occupied orbitals** - partial; `Verif.TDDFT.C188_contraction`, `Verif.TDDFT.C188_orthonormal`, `Verif.TDDFT.C188_truncated_violated`. contraction for every basis; conservation and orthonormality for every basis as large as the grid; on a truncated basis orthonormality is lost: concrete 2x2x1 grid witness (C188_truncated_violated)
* **C189 Equivalent crystals have the same self-consistent solutions** - proved; `Verif.Rot.C189_solutions_carried`. Proved in exact arithmetic (GPU path, see C72 for the CPU) for vectors k+G that are zero or longer than 1e-7, as in C184. The Ewald energy is left out: the code's image counts break its rotation invariance in skewed cells (C85).
* **C190 Dielectric-matrix files over histories of writes and crashes** - partial; `Verif.EpsFile.C190_history_partial`, `Verif.EpsFile.C190_empty_violated`, `Verif.EpsFile.C190_crash`, `Verif.EpsFile.C190_failed_write_violated`, `Verif.EpsFile.C190_missing_file`. Proved: the last non-empty write wins, for all histories. Violated: writing no matrices keeps those of an earlier run (C190_empty_violated); a crash between opening the file and making the dataset loses old and new matrices (C190_crash); write_mats of no matrices raises after emptying the file (C190_failed_write_violated). Effects on an open file are taken to be durable.
* **C191 Files of one array come back as written** - partial; `Verif.EpsFile.C191_roundtrip_partial`, `Verif.EpsFile.C191_real`, `Verif.EpsFile.C191_address_violated`, `Verif.EpsFile.C191_conversion_rejects`. Proved without a dataset name; with one, complex arrays come back as real pairs (C191_address_violated).
* **C192 Dot products and lengths are the same in every unit system** - partial; `Verif.LatNorm.C192_dot`, `Verif.LatNorm.C192_norm2`, `Verif.LatNorm.C192_norm_partial`, `Verif.LatNorm.C192_negative_alat_violated`, `Verif.LatNorm.C192_geometry`, `Verif.LatNorm.C192_rejects`. Proved for all lattices, shapes and unit names; RealLattice accepts a negative alat, for which norm(coords='alat') is negative (C192_negative_alat_violated). The flat shape of norm2 is C142.
* **C193 The mesh of a unit cell** - partial; `Verif.Mesh.C193_mesh_partial`, `Verif.Mesh.C193_distinct`, `Verif.Mesh.C193_default_violated`, `Verif.Mesh.C193_checks`, `Verif.Mesh.C193_unknown_violated`. Proved for Cartesian and alat units and for crystal coordinates with an array as origin. Violated: with the default origin, or any tuple in crystal coordinates, AttributeError (C193_default_violated); unknown unit names give None (C193_unknown_violated).
* **C194 The kick and the recorded dipole** - partial; `Verif.Mesh.C194_kick_density_partial`, `Verif.Mesh.C194_kick_group`, `Verif.Mesh.C194_kick_contracts`, `Verif.Mesh.C194_truncated_violated`, `Verif.Mesh.C194_dipole`, `Verif.Mesh.C194_direction`. Density and overlaps kept: proved on a basis as large as the grid; on a truncated basis part of the orbital is lost (C194_truncated_violated shows all of it), never gained (C194_kick_contracts). One spin component; exact arithmetic.
* **C195 Accuracy of the Taylor propagator** - proved; `Verif.TDDFT.C195_taylor_accuracy`, `Verif.TDDFT.C195_bound_exists`. Exact arithmetic, fixed Hamiltonian (as between two updates of the potential).
* **C196 Order of accuracy of the split-operator step** - proved; `Verif.TDDFT.C196_leading_error`, `Verif.TDDFT.C196_first_order`, `Verif.TDDFT.C196_second_order_iff`, `Verif.TDDFT.C196_second_order_full`, `Verif.TDDFT.C196_truncated_violated`. Leading error computed for every basis; second order exactly where it vanishes, in particular on a basis that fills the grid; on a truncated basis the step is only first order (C196_truncated_violated).
* **C197 Reported energy is the Kohn-Sham energy of the orbitals** - proved; `Verif.KSEn.C197_energy_is_kohn_sham`, `Verif.KSEn.C197_fits_of_cutoff`. Exact arithmetic (GPU path of h_psi, see C72); the Ewald and smearing energies are added unchanged by the code (C90) and left out. Without symmetrisation of the density.
* **C198 The Hamiltonian is the gradient of the energy; self-consistent solutions are stationary points** - proved; `Verif.KSEn.C198_gradient_lda`, `Verif.KSEn.C198_gradient_gga`, `Verif.KSEn.C198_stationary_lda`, `Verif.KSEn.C198_stationary_gga`. Both the Hartree and the xc part are derivatives of the code's own energies (C32, C61 extended to curves in PotCurve); the gga theorems assume no core density because with one the code's gga potential is not the derivative of its energy (C61_gga_core_violated).
* **C199 GW results do not depend on the choice of degenerate orbitals** - proved; `Verif.GW.C199_polarizability`, `Verif.GW.C199_self_energies`, `Verif.GW.C199_phases`. The mixing acts on the first number_bands bands and must not lead across that boundary (a calculation that truncates a multiplet is not invariant), nor across the boundary of the occupied bands. The plasmon-pole parts are not covered.
* **C200 A supercell is the same physical system** - proved; `Verif.Super.C200_same_fields`, `Verif.Super.C200_gspace_is_sphere`. Exact arithmetic; has_g0 true (one rank holding G=0). Equality at every Cartesian point, for any two grids.
* **C201 The points used to fold Coulomb samples contain the nearest mesh vector** - partial; `Verif.Vcoul.C201_images`, `Verif.Vcoul.C201_neighbourhood`, `Verif.Vcoul.C201_sufficient_partial`, `Verif.Vcoul.C201_elongated_violated`, `Verif.Vcoul.C201_half_of_samples_violated`, `Verif.Vcoul.C201_hybrid_cases`. Which points the neighbourhood contains; in an orthogonal, not too elongated cell folding is correct for every sample; violated in an elongated cell (edge ratio above 4): half of the samples are left outside the cell of the origin. Sufficiency is proved for orthogonal cells with the n x n x n mesh; the general case is false, as shown.
* **C202 Size consistency of supercells** - proved; `Verif.Super.C202_energy`, `Verif.Super.C202_hartree`, `Verif.Super.C202_local`, `Verif.Super.C202_charge`. Densities are assumed equal in space, as functions of the Cartesian point; equality of Fourier coefficients is derived (independence of plane waves).
* **C203 Irreducible k-points plus symmetrisation give the density of all k-points** - proved; `Verif.Rot.C203_irreducible_wedge`. Exact arithmetic; the grid and the G-space must be closed under the group (the code's own requirement for SymmFieldMod). The weights reported by the k-point generator are not re-derived here (see C28).
* **C204 Potentials and the mixing metric do not depend on the number of processes** - proved; `Verif.PotDist.C204_xc`, `Verif.PotDist.C204_hartree`, `Verif.PotDist.C204_ionic`, `Verif.PotDist.C204_metric`. Exact arithmetic (summation order is not modelled); libxc evaluates functionals point by point (PointFunc). The transforms are those of Verif.Dist (C22).
* **C205 Charge mixing does not depend on how the plane waves are distributed** - proved; `Verif.MixDist.C205_history`, `Verif.MixDist.C205_error`. Both Broyden methods on distributed plane waves, for any number of processes, any distribution of sticks, any history of calls and any uninitialised memory; exact arithmetic. The serial behaviour is that of C38, C39, C64 and C65.
* **C206 Hamiltonian and density do not depend on how the plane waves are distributed** - proved; `Verif.HamDist.C206_hamiltonian`, `Verif.HamDist.C206_projectors`, `Verif.HamDist.C206_products`, `Verif.HamDist.C206_density`. Hamiltonian for one-component wavefunctions, density for any number of spin components; any number of processes and any history of transforms, exact arithmetic up to the single-precision conversion of zgemm (C72), which is part of the model and acts plane wave by plane wave.
* **C207 The Davidson solver does not depend on how the plane waves are distributed** - proved; `Verif.HamDist.C207_solver`. One copy of the reduced matrices stands for all processes (they are results of Allreduce and broadcasts); the reduced eigen-solver is an arbitrary function. Distribution over band groups: C139.
* **C208 Random starting wavefunctions** - partial; `Verif.RandInit.C208_fresh_numbers`, `Verif.RandInit.C208_size`, `Verif.RandInit.C208_more_bands_partial`, `Verif.RandInit.C208_more_bands_violated`, `Verif.RandInit.C208_noncollinear_fails`, `Verif.RandInit.C208_distribution_violated`. Random starting wavefunctions (kswfn.py:110-142), for every k-point, seed, number of bands and plane waves: all moduli and phases come from different draws and the modulus of a coefficient is one draw over 1+|k+G|^2. Violations proved: the start of a band changes with the number of bands asked for unless its group of ten is complete, non-collinear wavefunctions raise ValueError, and with distributed plane waves every process repeats the same draws, so the start is not the serial one. The random generator is an arbitrary stream determined by its seed.
* **C209 A whole SCF run on distributed plane waves is the serial run** - proved; `Verif.ScfDist.C209_same_driver`, `Verif.ScfDist.C209_every_kpoint`, `Verif.ScfDist.C209_scf`. The driver is written once for any kind of density (C209_same_driver: on one process it is the driver of C40-C42, C68-C70, C90) and instantiated with the serial functions and with those of the processes (potentials C204, mixing C205, Hamiltonian, density and solver C206/C207, allgather of the symmetriser). One k-point group and one band group; real arithmetic, so sums do not depend on their order; the starting states are given (C208: those scf draws at random differ with the distribution); the imaginary part of the averaged potential in the preconditioner is left out; the occupation rule is any function of all eigenvalues, called by every process on the same values. Example: two processes, one full iteration.
* **C210 A whole SCF run does not depend on the process layout** - proved; `Verif.ScfGrp.C210_scf`, `Verif.ScfGrp.C210_owner`, `Verif.ScfGrp.C210_occupations`. Exact arithmetic; at least as many bands as band groups (otherwise C07/C70), same starting states on all band groups (init_random seeds by k-point, C208); occupations by any routine whose result does not depend on the groups, which C210_occupations proves of the smearing routine when no group is empty. The communicators are those of C05-C09.
* **C211 A spin-polarised run without magnetisation is the unpolarised run** - proved; `Verif.SpinScf.C211_scf`, `Verif.SpinScf.C211_smear`, `Verif.SpinScf.C211_occupations`, `Verif.SpinScf.C211_symmetriser`. Exact arithmetic. The functionals are any pair (unpolarised, polarised) that agrees at equal spin densities and gradients in the sense of the chain rule (structure Same); the run is the serial driver of C209, C210 with its potentials, eigen-solver, occupations, density and mixing. Starting states are given (the code's random start draws different states for the two spins); fixed occupations raise with is_spin=True (C35), so the occupations are those of smearing.
* **C212 The order and the repetition of k-points have no influence on a run** - proved; `Verif.KMap.C212_scf`, `Verif.KMap.C212_occupations`. Exact arithmetic; serial driver of C209 (any process layout by C210). Equal points start from equal states (init_random seeds by the index of the k-point, so the code's own random start differs between the lists). Which exception is raised may differ: it is that of the first failing k-point.
* **C213 No process of a parallel SCF run waits forever** - partial; `Verif.Coll.C213_no_deadlock_partial`, `Verif.Coll.C213_progress_partial`, `Verif.Coll.C213_schedules`, `Verif.Coll.C213_magnetisation_deadlock`, `Verif.Coll.C213_idle_band_group_deadlock`, `Verif.Coll.C213_dead_process`, `Verif.Coll.C213_eigh_failure_deadlock`, `Verif.Coll.C213_layout`. Proved for all layouts, local computations and schedules when every band group has a band, no process raises, and the run is not both spin-polarised and distributed over plane waves. The three exceptions are real deadlocks of the code and are proved as such: rank 0 alone calls the collective transforms for the magnetisation (scf.py:523-538), idle band groups skip the density reduction (scf.py:399-409), and an exception on one process (e.g. eigh on the k-group root) leaves the others waiting. The smearing bisection is modelled up to an arbitrary number of steps.
* **C214 A self-energy calculation finishes with the same table on any number of processes** - partial; `Verif.GwRun.C214_schedule`, `Verif.GwRun.C214_outcome`, `Verif.GwRun.C214_cohsex_partial`, `Verif.GwRun.C214_gpp_partial`, `Verif.GwRun.C214_idle_autosave`, `Verif.GwRun.C214_failing_q`. COHSEX: every process ends with the table built from the sums over all q-points (exact arithmetic). Proved violations: with autosave and more processes than q-points the idle processes die in sigma_x and the others wait forever; a q-point that raises on one process leaves the others waiting; calculate_gpp ends with a NameError on every process but rank 0. The per-q arithmetic is a parameter (modelled in C112-C122)
* **C215 The printed tables of timers and counters say what was recorded** - partial; `Verif.TimerReport.C215_timers_partial`, `Verif.TimerReport.C215_counters`, `Verif.TimerReport.C215_history`, `Verif.TimerReport.C215_no_counters`, `Verif.TimerReport.C215_blanks`. Labels without bars, newlines and blanks at the ends (others are not determined by the table, C215_blanks); times to the printed hundredth. Proved violation: print(qtmlogger) shows no counters although documented
* **C216 Arithmetic with fields and wavefunctions** - partial; `Verif.Ufunc.C216_refused`, `Verif.Ufunc.C216_elementwise`, `Verif.Ufunc.C216_shapes`, `Verif.Ufunc.C216_closed`, `Verif.Ufunc.C216_in_place`, `Verif.Ufunc.C216_in_place_refused`, `Verif.Ufunc.C216_distributed`, `Verif.Ufunc.C216_distributed_refused`, `Verif.Ufunc.C216_distributed_out`, `Verif.Ufunc.C216_single`, `Verif.Ufunc.C216_out_violated`. proved for serial and distributed containers with a basis of more than one element and container or no out; violated for a one-element basis with longer array operands, for the exception type of distributed containers and for out= given as an array; dtypes, and ufuncs with several results or signatures, are not modelled
* **C217 A symmetric start stays symmetric; the iteration limit only truncates** - proved; `Verif.TransScf.C217_symmetry_kept`, `Verif.TransScf.C217_prefix`, `Verif.TransScf.C217_each_iteration`, `Verif.TransScf.C217_mixers`. exact arithmetic; the hypotheses on Hamiltonian, potentials, Ewald energy and symmetriser are proved in C179, C181, C184, C187, C84, C31; random starting wavefunctions are not symmetric themselves
* **C218 A run with symmetrised density is a run with all k-points** - proved; `Verif.Rot.C218_symmetrised_run`, `Verif.Rot.C218_energy`. Exact arithmetic; the grid and the G-space must be closed under the group (the code's own requirement for SymmFieldMod) and the atoms mapped onto each other. Self-consistency is stated at convergence (input and output density equal); time reversal is C220.
* **C219 Self-energy matrix elements carry the momentum -(q+G)** - partial; `Verif.GW.C219_transfer_partial`, `Verif.GW.C219_exchange_partial`, `Verif.GW.C219_cut_shell`. Proved for meshes whose list of G-vectors at the q0 point contains -G with G. Violated otherwise (C219_cut_shell): that list is cut with the small shift q0, the search for -G is made without it, and when the cutoff falls on a shell another G-vector is taken for the missing one (the code only prints a message). Meshes with negative components: see C116.
* **C220 Time reversal: half of the k-points are enough** - proved; `Verif.Rot.C220_time_reversal`, `Verif.Rot.C220_energy`, `Verif.Rot.C220_symmetrised`, `Verif.KPts.C220_mesh_weights`. For every self-consistent solution at a list of k-points, a self-consistent solution at any list of these k-points and their negatives (weights distributed in any way) with equal density, potential, energies; composed with C218 for symmetrised runs; weights of mpSymm are sums of the equal mesh weights. Exact arithmetic; existence of a solution at the full list, not that the iteration finds it.
* **C221 GW quantities do not depend on the choice of the origin of the crystal** - partial; `Verif.GW.C221_polarizability`, `Verif.GW.C221_dielectric`, `Verif.GW.C221_fixwings`, `Verif.GW.C221_self_energies`, `Verif.GW.C221_closure`, `Verif.GW.C221_plasmon_pole`. Proved for the polarizability (both variants), the inverse dielectric matrix, fixwings and all static self-energies, entry by entry. Violated by the plasmon-pole model: sigma_gpp_omegas zeroes densities with an imaginary part above 1e-5, so its frequencies depend on the origin (C221_plasmon_pole gives a case).
* **C222 The table of Coulomb values** - partial; `Verif.Vcoul.C222_processes`, `Verif.Vcoul.C222_defined`, `Verif.Vcoul.C222_bare`, `Verif.Vcoul.C222_average`, `Verif.Vcoul.C222_avgcut`, `Verif.Vcoul.C222_seed`, `Verif.Vcoul.C222_more_samples`. Values, order and independence of the number of processes are proved. Violated by the code: avgcut and averaging_func are not used (C222_avgcut: a NaN entry where the bare value is documented), SEED is ignored after the first call because the samples are cached (C222_seed), N_SAMPLES above the default divides a sum over 2500000 samples by N_SAMPLES (C222_more_samples); the table of 1/q is NaN at the q0 point with bare=True.
* **C223 Order and repetition of the lists of a GW calculation** - partial; `Verif.GW.C223_order`, `Verif.GW.C223_dielectric`, `Verif.GW.C223_repeated`, `Verif.GW.C223_repetition_violated`. Order: proved in full. Repetition: violated by the code (C223_repeated: factor r; C223_repetition_violated: concrete case), unlike the density of an SCF run (C212).
* **C224 The zero of energy is arbitrary** - partial; `Verif.EZero.C224_h_psi`, `Verif.EZero.C224_davidson_partial`, `Verif.EZero.C224_smear`, `Verif.EZero.C224_fixed`, `Verif.EZero.C224_band_energy`, `Verif.EZero.C224_scf`, `Verif.EZero.C224_denominator`, `Verif.EZero.C224_denominator_mean`, `Verif.EZero.C224_mean_raised`, `Verif.EZero.C224_preconditioner_depends`, `Verif.EZero.C224_not_the_diagonal`. Proved: h_psi gains c times the wavefunction (exact arithmetic, GPU branch: the CPU branch rounds to single precision, C72); occupations and smearing energy stay and the Fermi level / HO / LU levels go up by c for smearing of every type and fixed occupations; the band energy grows by c for every electron; given a solver whose eigenvalues go up by c, the self-consistent run makes the same errors, thresholds and densities and energies raised by c N. Davidson: same vectors and iterations, eigenvalues raised, for any preconditioner of energy differences and any solver of the reduced problem whose values go up with the matrix. Violated by the code: the potential is divided by the number of grid points when it is made (scf.py:345) and its sum once more before the solver is called (scf.py:474), so the preconditioner uses mean / N for the mean of the potential: it is not the diagonal of the Hamiltonian and every denominator changes with c.
* **C225 GW at q and -q** - proved; `Verif.GW.C225_polarizability`, `Verif.GW.C225_dielectric`, `Verif.GW.C225_pairs`, `Verif.GW.C225_pairs_mirrored`. The hypothesis that the pairs of k-points correspond is proved for every mesh (C225_pairs_mirrored).
* **C226 What the convergence error of an SCF run measures** - proved; `Verif.Mixing.C226_hartree_energy`, `Verif.Mixing.C226_second_order`, `Verif.Mixing.C226_distance`. The spin term is written out in spinError (2π/tpiba² times the mean square of the difference of the magnetisations).
* **C227 Time propagation depends only on the occupied states** - partial; `Verif.TDDFT.C227_image`, `Verif.TDDFT.C227_starting_density`, `Verif.TDDFT.C227_rows`, `Verif.TDDFT.C227_phases_order`, `Verif.TDDFT.C227_mixing`, `Verif.TDDFT.C227_taylor_mixing_violated`. Phases, order, starting density: proved in full. Unitary mixing: proved for the split operator on a basis as large as the grid; violated with the Taylor propagator (C227_taylor_mixing_violated), whose norm drift is removed orbital by orbital.
* **C228 The zero of the potential and the place of the crystal do not matter in a time propagation** - partial; `Verif.TDDFT.C228_constant`, `Verif.TDDFT.C228_taylor_constant_violated`, `Verif.TDDFT.C228_moved_factors`, `Verif.TDDFT.C228_translation`. Proved: with the split operator (either propagator) a constant in the potential, even one that depends on the density, changes no density and the orbitals by phases only; for every choice of methods the propagation of a crystal moved by grid steps is the moved propagation (its potential has to move with the density: C181), and the factors of the split operator are those of the unmoved atoms. Violated: one Taylor step gives another density when a constant is added to the potential (the truncated exponential is not unitary, and the norm is restored afterwards).
* **C229 Complex conjugate orbitals run backwards in time** - proved; `Verif.TDDFT.C229_conjugation`, `Verif.TDDFT.C229_factors`, `Verif.TDDFT.C229_real_projectors`. For every choice of methods, order, real potential as a function of the density and number of steps: the run of the conjugate orbitals with -dt has the densities of the run with dt and ends with the conjugate orbitals; the factors of the split operator computed for -dt are the conjugates of those for dt (with the same refusals), and the projectors of a species are real in space when angular and radial parts have the parity of l. The matrix products are exact (GPU branch; C72).
* **C230 A run of the split-operator propagator can be retraced** - partial; `Verif.TDDFT.C230_retrace`, `Verif.TDDFT.C230_microreversibility`. Proved for any number of steps, bands (orthogonal or not), potentials as functions of the density and species with linearly independent projectors, on a basis as large as the grid. Missing: on the truncated basis of a real run the local factor is not undone by the one for -dt (C188), so the retrace is only approximate there.
