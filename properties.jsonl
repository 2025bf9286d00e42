{"id": "C01", "title": "Block distribution covers every item exactly once", "statement": "Splitting `len` items over `size` processes with scatter_slice gives, for every rank, a contiguous slice; every index 0..len-1 lies in the slice of exactly one rank, slices follow rank order (rank r's slice starts where rank r-1's ends), and the slice length equals scatter_len(len,size,rank).", "quantifier": "all lengths, all process counts >= 1, all ranks", "why_tests_cant": "tests fix a few (len,size) pairs; the arithmetic on remainders must hold for all of them", "anchors": ["src/qtm/mpi/utils.py: scatter_len, scatter_slice"]}
{"id": "C02", "title": "Block distribution is balanced", "statement": "The shares handed out by scatter_len sum to len, any two ranks' shares differ by at most one, and ranks with the larger share precede those with the smaller.", "quantifier": "all lengths, process counts and rank pairs", "why_tests_cant": "unbounded arithmetic domain", "anchors": ["src/qtm/mpi/utils.py: scatter_len"]}
{"id": "C03", "title": "scatter_slice without a rank returns the slices of all ranks", "statement": "Documented contract: calling scatter_slice with grp_rank=None returns the list of every rank's slice. The pinned code does not do this for more than one process (it raises).", "quantifier": "all lengths and process counts", "why_tests_cant": "a claim about all sizes, refuted or proved only by reasoning about the code path", "anchors": ["src/qtm/mpi/utils.py: scatter_slice"]}
{"id": "C04", "title": "k-points are dealt to k-groups exactly once", "statement": "Scattering a k-point list over n k-groups assigns every k-point, with its weight, to exactly one group, keeps the order inside each group, and the groups' weights add up to the total weight.", "quantifier": "all k-point lists and all group counts, both block (kpts.KList.scatter, klist_distribute) and round-robin modes", "why_tests_cant": "must hold for each list length / group count", "anchors": ["src/qtm/kpts.py: KList.scatter", "src/qtm/klist.py: klist_distribute", "src/qtm/mpi/utils.py: scatter_len, scatter_slice"]}
{"id": "C05", "title": "Rank layout of DFT communicators is a bijection", "statement": "With n_kgrp k-groups and pw-groups of a given size dividing the world evenly, world rank <-> (k-group, band-group, rank inside pw-group) is one-to-one and onto; colours/keys used to split give every process exactly one k-group, band-group and pw-group, each of equal size.", "quantifier": "all world sizes, k-group counts, pw-group sizes satisfying the divisibility checks", "why_tests_cant": "needs all process counts; MPI test runs use a handful", "anchors": ["src/qtm/dft/config.py: DFTCommMod", "src/qtm/mpi/comm.py: split_comm_pwgrp"]}
{"id": "C06", "title": "Every (k-point, band) contribution is summed exactly once", "statement": "The density/energy sums accumulated over k-groups and band-groups and combined with Allreduce equal the serial double sum over all k-points and bands, for every process layout.", "quantifier": "all layouts, all k-point and band counts, all contribution functions into an additive commutative monoid", "why_tests_cant": "independence from process count is a statement over all layouts", "anchors": ["src/qtm/dft/scf.py: scf, update_rho_out, compute_en", "src/qtm/dft/config.py: DFTCommMod"]}
{"id": "C07", "title": "Collective calls match across band groups", "statement": "All processes of a k-group issue the same sequence of collective calls while accumulating the density exactly when there are at least as many bands as band groups (with fewer, a band group without bands skips a collective that the others enter, so the run hangs).", "quantifier": "all band counts and band-group counts", "why_tests_cant": "a deadlock appears only for particular counts; needs a proof over all of them", "anchors": ["src/qtm/dft/scf.py: update_rho_out"]}
{"id": "C08", "title": "Communicator blocks synchronise and propagate errors", "statement": "`with comm:` performs one barrier on entry and, unless an error escapes, the same exit barriers on every member whether it ran the body or skipped it; a skip request never escapes the block; any other exception always propagates.", "quantifier": "all bodies (normal, skip, error), all flag combinations, all nested blocks", "why_tests_cant": "depends on all control-flow outcomes at all processes", "anchors": ["src/qtm/mpi/comm.py: QTMComm.__enter__, __exit__, skip_with_block"]}
{"id": "C09", "title": "Null and single-process communicators behave neutrally", "statement": "On a null communicator every data operation is refused; without MPI (or with one process) broadcast, scatter, gather and reductions return the caller's own data.", "quantifier": "all operations and all data", "why_tests_cant": "an operation-table property over all methods and values", "anchors": ["src/qtm/mpi/comm.py: QTMComm"]}
{"id": "C10", "title": "G-vector to FFT-grid index map is one-to-one", "statement": "For every grid shape, each G-vector inside the grid bounds gets a flat index in [0,n1*n2*n3), different G-vectors get different indices, and every flat index is hit by exactly one G-vector in the bounds.", "quantifier": "all positive grid shapes, all integer G-vectors within bounds", "why_tests_cant": "infinite family of grids", "anchors": ["src/qtm/gspace/base.py: check_g_cryst, cryst2idxgrid"]}
{"id": "C11", "title": "Canonical G-vector order and its inverse permutation", "statement": "Building a G-space sorts the vectors into an order that depends only on the set of vectors, not on the order given; idxsort is a permutation and applying it to per-G data in canonical order restores the caller's order (sort then unsort is the identity).", "quantifier": "all grids, all finite lists of distinct in-bounds G-vectors, all per-G data", "why_tests_cant": "needs every permutation of every list", "anchors": ["src/qtm/gspace/base.py: _sort_g, GSpaceBase.__init__"]}
{"id": "C12", "title": "The G=0 component is always stored first", "statement": "If G=0 belongs to a G-space, it is element 0 after construction, so data at G=0 is always read from position 0 (and only the first process owns it when distributed).", "quantifier": "all grids and all G-vector lists containing 0", "why_tests_cant": "universal over lists", "anchors": ["src/qtm/gspace/base.py: GSpaceBase.has_g0, _sort_g", "src/qtm/mpi/gspace.py: DistGSpaceBase"]}
{"id": "C13", "title": "The default FFT grid holds the whole cutoff sphere", "statement": "For every lattice and cutoff, each reciprocal lattice vector with |G|^2 <= 2*ecut fits inside the minimal grid (hence in the default grid), so no plane wave inside the cutoff is lost or aliased, and a G-space holds exactly those vectors.", "quantifier": "all invertible lattices, all cutoffs, all integer vectors", "why_tests_cant": "quantifies over real lattices", "anchors": ["src/qtm/gspace/gspc.py: minimal_grid_shape, GSpace.__init__"]}
{"id": "C14", "title": "Default FFT grid dimensions are the smallest FFT-friendly sizes", "statement": "The size chosen along each axis is at least the minimum required, has no prime factor other than 2, 3, 5, and no smaller admissible size exists; the search terminates for every positive size.", "quantifier": "all positive integers", "why_tests_cant": "search over unbounded integers", "anchors": ["src/qtm/gspace/gspc.py: optimal_grid_shape"]}
{"id": "C15", "title": "User-supplied FFT grids are checked against the cutoff", "statement": "A grid too small to hold the cutoff sphere is rejected. The pinned code never rejects any grid.", "quantifier": "all grids, lattices and cutoffs", "why_tests_cant": "universal refutation/positive claim", "anchors": ["src/qtm/gspace/gspc.py: check_grid_shape, GSpace.__init__"]}
{"id": "C16", "title": "A k-point basis is exactly the cutoff sphere around -k", "statement": "The plane-wave basis at k holds exactly the G-vectors of the parent G-space with |k+G|^2 <= 2*ecutwfn, in the parent's order, each once; the index map picks the same vector from the parent and the basis norms are the norms of k+G.", "quantifier": "all k, all parent G-spaces, all cutoffs", "why_tests_cant": "infinite family", "anchors": ["src/qtm/gspace/gkspc.py: GkSpace.__init__"]}
{"id": "C17", "title": "Fourier transform round trip on the basis", "statement": "Transforming any G-space array to the real grid and back returns the array in normalised mode; in unnormalised mode it returns the array times the number of grid points. Both drivers compute the discrete Fourier sums.", "quantifier": "all grids, all basis sets, all arrays over the complex numbers", "why_tests_cant": "all arrays and grids", "anchors": ["src/qtm/fft/full.py: FFT3DFull.g2r, r2g"]}
{"id": "C18", "title": "Real-to-G followed by G-to-real is a projection", "statement": "Applying r2g then g2r is idempotent and leaves unchanged every real-grid array that came from the basis.", "quantifier": "all grids, basis sets, arrays", "why_tests_cant": "all arrays", "anchors": ["src/qtm/fft/full.py: FFT3DFull"]}
{"id": "C19", "title": "Stick transform equals the full transform", "statement": "The 'sticks' FFT driver, which skips empty columns, gives the same g2r and r2g results as the full 3D driver for every basis.", "quantifier": "all grids, all basis sets, all arrays, any linear 1D/2D transforms along the axes", "why_tests_cant": "needs all basis sets", "anchors": ["src/qtm/fft/sticks.py: FFT3DSticks", "src/qtm/fft/full.py: FFT3DFull"]}
{"id": "C20", "title": "Transforms do not depend on earlier transforms", "statement": "Work buffers reused between calls never leak data: the result of a transform depends only on its argument, for every sequence of earlier calls (and for the distributed driver, provided the backend preserves its input).", "quantifier": "all call histories", "why_tests_cant": "quantifies over all histories", "anchors": ["src/qtm/fft/sticks.py", "src/qtm/fft/full.py", "src/qtm/mpi/gspace.py: DistGSpaceBase"]}
{"id": "C21", "title": "Distributed G-vectors and grid points partition the serial ones", "statement": "Dividing sticks over processes assigns every G-vector and every real-space grid point to exactly one process, G-vectors as contiguous ranges in canonical order, and every local position map hits distinct work-array cells.", "quantifier": "all bases, all process counts not exceeding the number of sticks", "why_tests_cant": "all bases and process counts", "anchors": ["src/qtm/mpi/gspace.py: DistGSpaceBase"]}
{"id": "C22", "title": "Distributed transforms equal the serial transforms", "statement": "Running the distributed g2r / r2g on all processes and gathering gives the serial result; the exchange counts each process sends match the counts its peers expect.", "quantifier": "all process counts, all bases, all data", "why_tests_cant": "universal over layouts and data", "anchors": ["src/qtm/mpi/gspace.py: DistGSpaceBase, _g2r, _r2g"]}
{"id": "C23", "title": "Scatter and gather of distributed fields are inverse", "statement": "gather(scatter(x)) = x and scatter(gather(parts)) = parts for G-space and real-space data with any leading shape. (The pinned code raises TypeError for a field without leading axes.)", "quantifier": "all fields, all process counts", "why_tests_cant": "universal", "anchors": ["src/qtm/mpi/gspace.py: scatter_r, gather_r, scatter_g, gather_g", "src/qtm/mpi/containers.py: DistBufferType, gather, scatter"]}
{"id": "C24", "title": "Distributed reductions equal serial reductions", "statement": "Reductions over the distributed basis axis give, on every process, the value the serial array would give, for every associative operation and every leading shape; inner products and norms of distributed wavefunctions equal the serial ones. (The pinned code leaves partial results, or hangs, when the last leading dimension equals a local basis size.)", "quantifier": "all data and process counts", "why_tests_cant": "universal", "anchors": ["src/qtm/mpi/containers.py: DistBufferType, __array_ufunc__, vdot"]}
{"id": "C25", "title": "Indexing a field or wavefunction never cuts the basis axis", "statement": "For every index expression applied to a buffer of shape (..., basis), the result keeps the complete basis axis, in order; indices act on the leading axes only; an integer index selects the row it names (from the end if negative) and is refused exactly when out of range.", "quantifier": "all shapes and all index tuples", "why_tests_cant": "universal over shapes", "anchors": ["src/qtm/containers/buffer.py: __getitem__"]}
{"id": "C26", "title": "Lattice coordinate conversions are mutually inverse", "statement": "cryst<->cart, cart<->alat/tpiba and cryst<->alat/tpiba conversions are mutually inverse for every invertible lattice; the lengths and dot products computed in crystal coordinates equal those in Cartesian coordinates.", "quantifier": "all invertible 3x3 lattices, all vectors", "why_tests_cant": "real-valued infinite domain", "anchors": ["src/qtm/lattice.py: Lattice.cart2cryst, cryst2cart, dot, norm2", "src/qtm/lattice.py: RealLattice, ReciLattice"]}
{"id": "C27", "title": "Direct and reciprocal lattices are duals", "statement": "a_i . b_j = 2*pi*delta_ij, building the real lattice from the reciprocal lattice of a real lattice returns the original, and the cell volumes multiply to (2*pi)^3.", "quantifier": "all invertible lattices", "why_tests_cant": "real-valued infinite domain", "anchors": ["src/qtm/lattice.py: RealLattice.from_recilat, ReciLattice.from_reallat"]}
{"id": "C28", "title": "k-point weights are normalised", "statement": "Whatever non-negative, not-all-zero weights are given, the stored weights are non-negative, proportional to the given ones and sum to 1; negative or mis-sized weights are rejected. (Holds for the from_cart/from_cryst/from_tpiba constructors and Monkhorst-Pack meshes; the KList constructor of kpts.py stores any weights unchanged.)", "quantifier": "all weight lists", "why_tests_cant": "universal", "anchors": ["src/qtm/kpts.py: _sanitize_weights, KList"]}
{"id": "C29", "title": "Monkhorst-Pack meshes sample the full zone uniformly", "statement": "Without symmetry the generated mesh has n1*n2*n3 distinct points modulo reciprocal lattice vectors with uniform weights. With time reversal the reduced list must reproduce the full-mesh average of every even function; the pinned code's uniform weights do not.", "quantifier": "all mesh sizes and shifts, all even functions", "why_tests_cant": "universal over meshes and functions", "anchors": ["src/qtm/kpts.py: gen_monkhorst_pack_grid"]}
{"id": "C30", "title": "Supercells repeat the crystal faithfully", "statement": "gen_supercell with repeats (n1,n2,n3) produces n1*n2*n3 copies of every atom at the original Cartesian position plus a lattice translation, each translation class once, and multiplies cell volume and electron count by n1*n2*n3. (The electron count is lost for species given by a plain valence number.)", "quantifier": "all crystals and repeats", "why_tests_cant": "universal", "anchors": ["src/qtm/crystal/crystal.py: Crystal.gen_supercell, numel", "src/qtm/crystal/basis_atoms.py"]}
{"id": "C31", "title": "Symmetrised densities are symmetric, and symmetrising twice changes nothing", "statement": "The symmetrised field is invariant under every operation of the group, symmetrising is idempotent and linear, leaves symmetric fields unchanged and preserves the G=0 component (the charge).", "quantifier": "all finite symmetry groups acting on the G-vectors, all fields", "why_tests_cant": "universal over groups and fields", "anchors": ["src/qtm/symm/symmetrize_field.py: SymmFieldMod.symmetrize"]}
{"id": "C32", "title": "Hartree potential ignores G=0 and Hartree energy is non-negative", "statement": "The Hartree potential has no G=0 component, is linear in the density, and the Hartree energy is real and >= 0, zero only if the density vanishes at all G != 0.", "quantifier": "all densities", "why_tests_cant": "universal over complex data", "anchors": ["src/qtm/pot/hartree.py: compute"]}
{"id": "C33", "title": "Divergence of gradient is the Laplacian", "statement": "In G-space div(grad f) multiplies each component by -|G|^2 for every leading shape, minus the divergence is the adjoint of the gradient, and naming the vector axis by its positive position gives the same as by its negative one. (The pinned code sums over the wrong axis for non-negative axes.)", "quantifier": "all fields and G-sets", "why_tests_cant": "universal", "anchors": ["src/qtm/pot/utils.py: fieldg_grad, fieldg_div"]}
{"id": "C34", "title": "Exchange-correlation functional selection is consistent", "statement": "The functional chosen is the one declared by every species that declares one; two different declarations raise ValueError, a species without pseudopotential raises AttributeError, and None is returned exactly if no species declares a functional.", "quantifier": "all species lists", "why_tests_cant": "decision over all lists", "anchors": ["src/qtm/pot/xc.py: get_libxc_func"]}
{"id": "C35", "title": "Fixed occupations hold exactly the electrons", "statement": "With 'fixed' occupations the lowest numel/2 bands are full, the rest empty, the weighted sum equals the electron count and the returned levels are the highest filled and lowest empty eigenvalue, whenever enough bands are supplied; odd or non-integer electron numbers and spin-polarised calls are rejected. With too few bands the pinned code does not fail: it fills every band and silently holds fewer electrons.", "quantifier": "all k-point sets, band counts, electron counts", "why_tests_cant": "universal", "anchors": ["src/qtm/dft/occup/fixed.py: compute_occ"]}
{"id": "C36", "title": "Fermi level search is sound", "statement": "When the smearing search returns, the occupations it stores hold the electron number within 1e-10 and the Fermi level lies within the spectrum, independently of how k-points are distributed over process groups. The search ends whenever the electron number is bracketed by the counts at the lowest and highest eigenvalue; otherwise (for example exactly filled bands) the pinned loop runs forever.", "quantifier": "all spectra, weights, smearing types, electron numbers and distributions, unboundedly many iterations", "why_tests_cant": "needs all spectra and unbounded iterations", "anchors": ["src/qtm/dft/occup/smear.py: compute_occ, compute_numel"]}
{"id": "C37", "title": "Smearing occupations lie in [0,1] and are monotone", "statement": "Fermi-Dirac and Gaussian occupations lie in [0,1], decrease with energy, increase with the Fermi level, and are symmetric about it, also where the code clamps large arguments; Marzari-Vanderbilt occupations are not bounded by 1 (every level far enough below the Fermi level but inside the clamp holds more than one electron).", "quantifier": "all energies, Fermi levels, temperatures > 0", "why_tests_cant": "real-valued domain", "anchors": ["src/qtm/dft/occup/smear.py: fd_occ, gauss_occ, mv_occ, _compute_occ"]}
{"id": "C38", "title": "Broyden mixing history holds the most recent steps", "statement": "After any number of mixing steps the history holds exactly the last min(n, mixdim) residual/density differences, and the overlap table used equals the pairwise products of the stored differences.", "quantifier": "all histories and history sizes", "why_tests_cant": "all histories", "anchors": ["src/qtm/dft/mixing/modbro.py: ModBroyden, _mix", "src/qtm/dft/mixing/genbro.py: GenBroyden, _mix"]}
{"id": "C39", "title": "Mixing keeps self-consistent densities and total charge", "statement": "Mixing preserves every linear quantity (in particular the G=0 component, i.e. the charge, also per spin) that all input and output densities share, and returns a self-consistent density unchanged, on every plane-wave group. The pinned code does this for the first call but raises if a later call's residual equals the previous one (e.g. two calls at self-consistency).", "quantifier": "all histories", "why_tests_cant": "all histories", "anchors": ["src/qtm/dft/mixing/modbro.py: ModBroyden, _mix", "src/qtm/dft/mixing/genbro.py: GenBroyden, _mix", "src/qtm/dft/mixing/base.py: MixModBase"]}
{"id": "C40", "title": "SCF loop terminates and reports convergence truthfully", "statement": "The SCF loop runs at most maxiter iterations, reports converged iff some iteration's error fell below the threshold, and stops at the first such iteration. On convergence the returned density is the one whose potential produced the returned wavefunctions, the reported error is that pair's, it holds the crystal's electrons, and total and Harris-Weinert-Foulkes energies agree.", "quantifier": "all potentials, eigen-solvers, symmetrisers, mixers, starting densities, error sequences, thresholds, iteration limits", "why_tests_cant": "all sequences", "anchors": ["src/qtm/dft/scf.py: scf"]}
{"id": "C41", "title": "Diagonalisation threshold schedule", "statement": "The eigen-solver threshold follows the documented error-driven rule, stays positive, never drops below its floor 0.5e-13 and never increases. The pinned code skips the floor in a first iteration that only refines the diagonalisation, and can then raise the threshold.", "quantifier": "all error sequences", "why_tests_cant": "all sequences", "anchors": ["src/qtm/dft/scf.py: scf"]}
{"id": "C42", "title": "Charge normalisation", "statement": "After normalisation the density integrates to the electron count, spin ratios are kept.", "quantifier": "all non-zero densities", "why_tests_cant": "universal", "anchors": ["src/qtm/dft/scf.py: normalize_rho"]}
{"id": "C43", "title": "Davidson subspace never overflows its workspace", "statement": "At every iteration the subspace dimension plus new vectors fits the allocated workspace, and the solver performs at most maxiter iterations.", "quantifier": "all convergence patterns, band counts, workspace multiples > 1", "why_tests_cant": "all convergence histories", "anchors": ["src/qtm/dft/eigsolve/davidson.py: solve"]}
{"id": "C44", "title": "Davidson returns vectors matching its eigenvalues", "statement": "The vectors and values the solver returns belong together: orthonormal Ritz pairs of the Hamiltonian in the final subspace, residuals orthogonal to it, values equal to expectation values and changed by at most the threshold in the last step. At the iteration limit the pinned code can return vectors older than the values.", "quantifier": "all Hermitian Hamiltonians, start vectors, convergence histories, workspace sizes", "why_tests_cant": "all histories", "anchors": ["src/qtm/dft/eigsolve/davidson.py: solve"]}
{"id": "C45", "title": "Timers balance and count calls", "statement": "After any history of start/stop/reset/delete calls and elapsed time, each timer's call count is the number of successful starts (completed intervals, plus one if running) since creation or reset, and its time is the time that passed while it ran; starting a running timer and stopping a stopped one raise ValueError and change nothing. Decorated functions end as the undecorated ones would (same result or exception), are counted and timed, and leave exactly the timers running that ran before, even when they raise; a decorated function cannot be re-entered while active.", "quantifier": "all operation sequences, all programs built from decorated calls, sequencing, raising and catching; labels of at most 30 characters", "why_tests_cant": "all histories", "anchors": ["src/qtm/logger.py: QTMTimer"]}
{"id": "C46", "title": "Counters behave as a label-to-number map", "statement": "For all sequences of add/clear/delete each label's count equals the sum of additions since its last reset, unaffected by other labels.", "quantifier": "all operation sequences", "why_tests_cant": "all histories", "anchors": ["src/qtm/logger.py: QTMCounter"]}
{"id": "C47", "title": "Long timer labels", "statement": "A timer started under a label can be stopped under the same label. Holds for labels of at most 30 characters; the pinned code truncates longer labels on storage, so the timer can never be stopped, a decorated function always raises ValueError, and two such starts make the 30-character label unusable (RuntimeError).", "quantifier": "all labels", "why_tests_cant": "universal over strings", "anchors": ["src/qtm/logger.py: QTMTimer"]}
{"id": "C48", "title": "Configuration setters take effect", "statement": "Assigning an option raises exactly for values outside its documented set; after any history of assignments and reads, each option reads as the last valid value assigned (its default otherwise). In the pinned code davidson_numwork and mixing_method assignments are accepted but never stored, and unknown solver/mixer names raise TypeError instead of ValueError. Setting the random seed on all processes leaves the root's value everywhere.", "quantifier": "all option values and histories", "why_tests_cant": "universal", "anchors": ["src/qtm/dft/config.py: DFTConfig", "src/qtm/config.py: QTMConfig", "src/qtm/msg_format.py: value_not_in_list_msg"]}
{"id": "C49", "title": "Taylor propagator computes the truncated exponential", "statement": "One time step with the Taylor propagator applies sum_{n<=order} (-i dt H)^n / n! to the wavefunction, for every order and linear Hamiltonian; an eigenstate of energy e acquires the phase exp(-i e dt) up to |e dt|^(order+1) exp|e dt|; orders below 1 are rejected. Spin-polarised and non-collinear runs are propagated the same way (violated: the former raise, the latter leave the output untouched).", "quantifier": "all orders, time steps, linear operators, vectors", "why_tests_cant": "universal", "anchors": ["src/qtm/tddft_gamma/expoper/taylor.py: TaylorExp"]}
{"id": "C50", "title": "Split-operator step is time-reversible", "statement": "The split-operator step is the palindromic product of exact exponentials of the kinetic, non-local and local parts (non-local: for linearly independent projectors; LinAlgError otherwise); stepping with dt and then -dt returns the initial state up to normalisation, also when the local potential is recomputed from the density at mid-step; non-local and kinetic factors are unitary.", "quantifier": "all dt, grids, FFT drivers, potentials, lists of species, states", "why_tests_cant": "universal", "anchors": ["src/qtm/tddft_gamma/expoper/splitoper.py: SplitOper"]}
{"id": "C51", "title": "Bravais-lattice tables give the documented cell", "statement": "For every supported ibrav and all valid cell parameters, the vectors returned by ibrav2latvec are a right-handed basis of the Bravais lattice the QE documentation prescribes for that ibrav (conventional cell with the given lengths and angles plus the centring translations), and a missing required celldm entry raises. The triclinic entry (ibrav=14) in the pinned code gives a third vector of wrong length unless cos^2(bc)=cos^2(ab).", "quantifier": "all real cell parameters with valid angles", "why_tests_cant": "real-valued domain", "anchors": ["src/qtm/interfaces/qe/ibrav2latvec.py"]}
{"id": "C52", "title": "Dielectric matrices survive write/read", "statement": "Matrices written to an epsmat file and read back are recovered. The pinned reader returns the complex conjugate, and drops trailing all-zero rows/columns; for matrices with a non-zero last row and column it returns exactly the conjugates.", "quantifier": "all lists of square complex matrices", "why_tests_cant": "universal", "anchors": ["src/qtm/interfaces/bgw/epsmat_read_write.py: write_mats, read_mats, unpad_array"]}
{"id": "C53", "title": "BerkeleyGW input options and parameters take effect", "statement": "Every parameter given in epsilon.inp/sigma.inp and known to the input object is set on it (the last value wins), every option listed is set to True, and sigma.inp without k-points or band indices is rejected. The pinned code drops all options of epsilon.inp (they are looked up in the tuple just read, not in the object), while sigma.inp options are honoured.", "quantifier": "all files made of blank lines, parameter lines, option lines and point blocks, in any order and number", "why_tests_cant": "universal", "anchors": ["src/qtm/interfaces/bgw/epsinp.py: Epsinp.from_epsilon_inp", "src/qtm/interfaces/bgw/sigmainp.py: Sigmainp.from_sigma_inp"]}
{"id": "C54", "title": "Polarizability is Hermitian and negative semidefinite", "statement": "The polarizability returned for a q-point is -4/(Ω N_k) Σ conj(M_G) M_G', summed once over every pair of an empty state at k and an occupied state at k+q; it is Hermitian and negative semidefinite; and, when no two k-points of the list are within the matching tolerance of the same k+q, the stored and the memory-saving variant give the same matrix.", "quantifier": "all k-point lists, wavefunctions, occupations, q-points, G-vector lists, FFT drivers", "why_tests_cant": "universal over complex arrays", "anchors": ["src/qtm/gw/epsilon.py: Epsilon.polarizability, polarizability_active"]}
{"id": "C55", "title": "GW sums over q-points do not depend on the process count", "statement": "Splitting the q-points over any number of processes covers each exactly once, with part sizes differing by at most one; gathered Coulomb values and self-energy sums equal the serial ones.", "quantifier": "all q counts, process counts, summands", "why_tests_cant": "all layouts", "anchors": ["src/qtm/gw/sigma.py: sigma_x, sigma_sx_static", "src/qtm/gw/vcoul.py: calculate_vcoul"]}
{"id": "C56", "title": "G-vector ordering is canonical and reordering matrices is invertible", "statement": "Sorting returns a permutation, ordered by |q+G|^2 rounded to 10 decimals and then by coordinates, and the sorted list does not depend on the order given. Element (i,j) of a reordered matrix is element (idx[i],idx[j]), and reordering by the argsort undoes it.", "quantifier": "all matrices, all permutations", "why_tests_cant": "universal", "anchors": ["src/qtm/gw/core.py: reorder_2d_matrix_sorted_gvecs, sort_cryst_like_BGW"]}
{"id": "C57", "title": "Parseval: norms agree between G-space and the real grid", "statement": "For every field, the sum of |f(G)|^2 over the basis equals the mean of |f(r)|^2 over the grid points of its transform; hence norms and inner products do not depend on the representation.", "quantifier": "all grids, basis sets and arrays", "why_tests_cant": "an identity over all complex arrays and all grids", "anchors": ["src/qtm/fft/full.py", "src/qtm/fft/sticks.py"]}
{"id": "C58", "title": "Assigning to part of a field never cuts the basis axis", "statement": "An assignment buf[key] = value changes only whole basis vectors; keys that reach the basis axis are refused. (The pinned check compares sizes only and lets some through.)", "quantifier": "all shapes, keys and values", "why_tests_cant": "universal over shapes and index expressions", "anchors": ["src/qtm/containers/buffer.py: __setitem__"]}
{"id": "C59", "title": "The symmetry operations used always form a group", "statement": "After discarding pure translations of supercells and operations whose translation does not fit the FFT grid, the remaining operations form a group with one operation per rotation, as the symmetriser assumes. (The grid filter of the pinned code can drop the square of an operation it keeps when grid dimensions differ.)", "quantifier": "all space groups and all FFT grids", "why_tests_cant": "universal over groups and grids", "anchors": ["src/qtm/crystal/crystal.py: CrystalSymm, filter_frac_trans", "src/qtm/symm/symmetrize_field.py: SymmFieldMod"]}
{"id": "C60", "title": "Core density enters the exchange-correlation energy", "statement": "xc.compute evaluates the functional at valence plus core density, so that the core density passed by the caller changes energy and potential. (The pinned code evaluates local functionals at the valence density only; for gradient functionals the core, split evenly over spins, enters the contracted gradients only.)", "quantifier": "all densities, core densities and local functionals", "why_tests_cant": "universal over complex fields and functionals", "anchors": ["src/qtm/pot/xc.py: compute"]}
{"id": "C61", "title": "Exchange-correlation potential is the derivative of the energy", "statement": "Changing the density by t*delta changes the energy returned by xc.compute at rate integral of (returned potential)*delta, for local and gradient-corrected functionals, with one or two spins and any core density. (The pinned code violates this for gradient-corrected functionals with a core density that is not constant: the energy sees the core's gradient, the potential does not.)", "quantifier": "all functionals, grids, G-sets, positive densities, core densities and perturbations", "why_tests_cant": "a derivative identity over function spaces", "anchors": ["src/qtm/pot/xc.py: compute, _get_sigma", "src/qtm/pot/utils.py: fieldg_grad, fieldg_div"]}
{"id": "C62", "title": "Any exchange functional can be combined with any correlation functional", "statement": "xc.compute returns a potential for every pair of available functionals. (The pinned code raises KeyError when only one of the two is gradient-corrected.)", "quantifier": "all pairs of functionals, all densities", "why_tests_cant": "universal", "anchors": ["src/qtm/pot/xc.py: compute"]}
{"id": "C63", "title": "Smearing energy is consistent with the occupations", "statement": "For every smearing type the smearing energy as a function of the scaled energy f has derivative -f times the derivative of the occupation; Gaussian and Fermi-Dirac contributions are never positive; and band energy plus reported smearing energy of a wavefunction is stationary at fixed electron number (Mermin's principle).", "quantifier": "all scaled energies, all smearing types", "why_tests_cant": "real-valued domain, derivative identity", "anchors": ["src/qtm/dft/occup/smear.py: gauss_en, fd_en, mv_en"]}
{"id": "C64", "title": "Mixing takes the least-residual combination", "statement": "Each mixed density is rho + beta*r, where rho and r are the same real combination of the stored input densities and residuals, and the combination minimises the mixer's own error measure of r over all coefficients on the stored steps.", "quantifier": "all histories of calls, densities, mixing dimensions, both methods", "why_tests_cant": "optimality over a continuum, unbounded histories", "anchors": ["src/qtm/dft/mixing/modbro.py: ModBroyden._mix", "src/qtm/dft/mixing/genbro.py: GenBroyden._mix"]}
{"id": "C65", "title": "Both mixing methods are the same map", "statement": "For every history of densities 'modbroyden' and 'genbroyden' fail at the same calls and return the same densities (exact arithmetic).", "quantifier": "all histories and densities", "why_tests_cant": "relational property over unbounded histories", "anchors": ["src/qtm/dft/mixing/modbro.py: ModBroyden._mix", "src/qtm/dft/mixing/genbro.py: GenBroyden._mix"]}
{"id": "C66", "title": "Effect of mixing on the density passed in", "statement": "'genbroyden' overwrites the caller's input density with the mixed one in every call, 'modbroyden' in the first call only, and leaves it unchanged later.", "quantifier": "all states and densities", "why_tests_cant": "aliasing over all call histories", "anchors": ["src/qtm/dft/mixing/modbro.py: ModBroyden._mix", "src/qtm/dft/mixing/genbro.py: GenBroyden._mix"]}
{"id": "C67", "title": "The error measure vanishes exactly at self-consistency", "statement": "compute_error is never negative and is zero iff input and output total densities agree at every nonzero G-vector and, when spin-polarised, the spin densities agree everywhere.", "quantifier": "all densities and G-spaces", "why_tests_cant": "real-valued domain", "anchors": ["src/qtm/dft/mixing/base.py: MixModBase.compute_error, _dot"]}
{"id": "C68", "title": "SCF leaves the caller's starting density alone", "statement": "scf(..., rho_start=rho) does not modify the array rho. The pinned code normalises and mixes it in place when symm_rho is False.", "quantifier": "all starting densities, mixers, histories", "why_tests_cant": "aliasing visible only on particular histories", "anchors": ["src/qtm/dft/scf.py: scf, normalize_rho"]}
{"id": "C69", "title": "Starting magnetisation redistributes, never loses, charge", "statement": "A spin-polarised start from per-species magnetisations clamps them to [-1,1], has total density equal to the superposed atomic charges and spin density equal to their magnetisation-weighted sum, with non-negative spin populations. The pinned code drops species beyond a short magnetisation list.", "quantifier": "all species lists, magnetisations, atomic charges", "why_tests_cant": "universal over lists", "anchors": ["src/qtm/dft/scf.py: scf"]}
{"id": "C70", "title": "All ranks take part in the density sum", "statement": "Every band group reaches the collective sum of the densities in each SCF iteration, so that the call completes, exactly when there are at least as many bands as band groups; with fewer, groups without bands skip it.", "quantifier": "all band counts and numbers of band groups", "why_tests_cant": "all process layouts", "anchors": ["src/qtm/dft/scf.py: update_rho_out"]}
{"id": "C71", "title": "Davidson eigenvalue estimates are monotone upper bounds", "statement": "Band by band, the returned eigenvalues are at most those of the starting vectors and at least the true eigenvalues (min-max), whatever the preconditioner, restarts and convergence pattern.", "quantifier": "all Hermitian Hamiltonians, start vectors, preconditioners, histories", "why_tests_cant": "universal over histories", "anchors": ["src/qtm/dft/eigsolve/davidson.py: solve"]}
{"id": "C72", "title": "The Hamiltonian application is the plane-wave Hamiltonian", "statement": "h_psi applied to plane-wave coefficients gives the kinetic term ½|k+G|², plus the convolution with the Fourier components of the local potential on the FFT grid, plus the non-local projectors: a linear map, Hermitian for real potentials and symmetric couplings, and the same for either FFT driver and after any earlier transforms.", "quantifier": "all grids, plane-wave sets, potentials, projector sets, coefficient vectors, FFT drivers and driver states, CPU and GPU arrays", "why_tests_cant": "an identity over a continuum of potentials and vectors; numerical tests check samples to a tolerance", "anchors": ["src/qtm/dft/ksham.py: KSHam.h_psi", "src/qtm/dft/scf.py: compute_vloc", "src/qtm/containers/gemm_wrappers.py: get_zgemm"]}
{"id": "C73", "title": "FFT backend lookup", "statement": "Every backend name listed as available selects the wrapper of that name; calling without a name selects the first available backend (the pinned code raises TypeError instead).", "quantifier": "all installed-package combinations, all names", "why_tests_cant": "the set of installed packages varies by machine; a test sees one combination", "anchors": ["src/qtm/fft/backend/__init__.py: get_FFTBackend, backend_map", "src/qtm/config.py: FFT_AVAILABLE_BACKENDS"]}
{"id": "C74", "title": "Non-local pseudopotential operator", "statement": "Between plane waves k+G and k+G' the non-local operator of a species is Σ_atoms e^{-2πi τ·(G-G')} Σ_{ββ'} D_ββ' F_β F_β' Σ_m S_lm S_lm over projector pairs of equal l. It does not change when atoms are relabelled or replaced by periodic images, transforms by the translation phase when the crystal is shifted, is Hermitian for symmetric D, and vnl_diag is its diagonal.", "quantifier": "all projector lists (any l), atoms, k-points, G-sets", "why_tests_cant": "universal over pseudopotentials and geometries", "anchors": ["src/qtm/pseudo/nloc.py: NonlocGenerator.gen_vkb_dij", "src/qtm/dft/ksham.py: KSHam.__init__"]}
{"id": "C75", "title": "Interpolation table of the projectors", "statement": "The radial table covers every |k+G| of the wavefunction cutoff sphere, reading outside it raises instead of extrapolating, and the interpolation is exact for cubic polynomials.", "quantifier": "all cutoffs and |k+G|", "why_tests_cant": "boundary values of floor/ceil/round over all reals", "anchors": ["src/qtm/pseudo/nloc.py: NonlocGenerator.__init__, gen_vkb_dij"]}
{"id": "C76", "title": "Radial Simpson integration of projectors", "statement": "For every mesh the integration returns the composite Simpson sum of the full mesh, exact for cubics of the mesh index; meshes it does not support are rejected (the pinned code instead drops the last point of an even mesh silently).", "quantifier": "all meshes and integrands", "why_tests_cant": "universal over mesh lengths and samples", "anchors": ["src/qtm/pseudo/nloc.py: simpson"]}
{"id": "C77", "title": "Spherical Bessel functions", "statement": "spherical_jn(n, x) is the spherical Bessel function for n ≤ 6: exactly above the threshold, within the first omitted series term below it, with j_n(0) = δ_n0; higher orders are refused.", "quantifier": "all orders, all x ≥ 0", "why_tests_cant": "accuracy bound over a continuum, including the branch threshold", "anchors": ["src/qtm/pseudo/nloc.py: spherical_jn, small_x_thr_fn"]}
{"id": "C78", "title": "Radial transform of local potential and densities", "statement": "The plane-wave coefficient at |G| is the composite Simpson integral of sin(Gr)/(Gr)·f·r² over the mesh, consistent with the G=0 integral. (The pinned code counts the first sample twice, and on even meshes gives the last two samples stray weights.)", "quantifier": "all meshes, integrands and |G|", "why_tests_cant": "universal over meshes", "anchors": ["src/qtm/pseudo/loc.py: _sph2pw, _simpson_old"]}
{"id": "C79", "title": "Atomic superposition", "statement": "Atomic density, local potential and core density of a species are superpositions over its atoms: real in real space, additive, unchanged by relabelling atoms or replacing them by periodic images, moving with the atoms under translations, with total charge = number of atoms × atomic charge.", "quantifier": "all species, atom positions, G-sets closed under inversion", "why_tests_cant": "universal over geometries", "anchors": ["src/qtm/pseudo/loc.py: loc_generate_rhoatomic, loc_generate_pot_rhocore"]}
{"id": "C80", "title": "Midpoint (ETRS) propagation advances by one time step", "statement": "One propagation step with the 'etrs' method sends the current state to its evolution over one time step under the potential of the averaged density, whichever exponential method is selected (violated for 'splitoper': the prediction is propagated a second time, so one step advances the state twice).", "quantifier": "all states, densities, potentials, evolution operators, both exponential methods", "why_tests_cant": "aliasing between wavefunction objects; universal", "anchors": ["src/qtm/tddft_gamma/prop/etrs.py: prop_step", "src/qtm/tddft_gamma/expoper/splitoper.py: SplitOper.prop_psi"]}
{"id": "C81", "title": "TDDFT method selection and dipole table", "statement": "propagate accepts exactly the combinations taylor+etrs, splitoper+etrs and splitoper+splitoper, raising ValueError otherwise, and a run of n steps records each of the n+1 dipole rows exactly once in time order.", "quantifier": "all method strings, all step counts", "why_tests_cant": "unbounded strings and step counts", "anchors": ["src/qtm/tddft_gamma/propagate.py: propagate", "src/qtm/tddft_gamma/optical.py: dipole_response"]}
{"id": "C82", "title": "write_freq controls the partial dipole files", "statement": "While propagating, partial dipole tables are written every write_freq steps, never if write_freq is 0, and contain every row computed so far (violated: the loop always uses the default frequency 10 and omits the newest row).", "quantifier": "all step counts and write frequencies", "why_tests_cant": "history of a run of any length", "anchors": ["src/qtm/tddft_gamma/optical.py: dipole_response", "src/qtm/tddft_gamma/propagate.py: propagate"]}
{"id": "C83", "title": "Spectrum from the dipole signal", "statement": "The dipole spectrum is linear in the signal, zero at zero energy, damped by weights in [0,1] that start at 1 (and end at 0 for 'poly'); the requested damping function is the one used and unknown ones are rejected (violated when no damping factor is given: 'poly' is used silently).", "quantifier": "all signals, time grids, energies, damping arguments", "why_tests_cant": "universal", "anchors": ["src/qtm/tddft_gamma/optical.py: dipole_spectrum"]}
{"id": "C84", "title": "Ewald energy is the physical pair sum and independent of bookkeeping", "statement": "The Ewald energy of a crystal is half the sum over all ordered pairs (atom, image of an atom) in the image box, with exactly the self pairs excluded, plus the long-range sum over the nonzero reciprocal vectors; it does not depend on how the atoms are grouped into species or ordered, nor on a common translation of all atoms. The splitting parameter is the largest of the 28 candidates 2.8, 2.7, ..., 0.1 whose error estimate is within the threshold; if none is, ValueError is raised.", "quantifier": "all crystals (any number of species, atoms, charges, positions), all cutoffs", "why_tests_cant": "the double loop over species/atoms and images can only be sampled by tests; relabelling invariance ranges over all permutations", "anchors": ["src/qtm/pot/ewald.py: compute"]}
{"id": "C85", "title": "Ewald real-space sum covers its cutoff", "statement": "Every pair of an atom and a periodic image of an atom closer than the real-space cutoff 4/beta is included in the short-range Ewald sum.", "quantifier": "all cells (including skewed ones) and all atomic positions", "why_tests_cant": "image-box errors only show for skewed cells or atoms given outside the cell; tests use compact cells", "anchors": ["src/qtm/pot/ewald.py: compute"]}
{"id": "C86", "title": "Parsing an input file does not depend on files parsed before", "statement": "The cell obtained from a QE input file is the same whether or not other input files were parsed earlier in the same process.", "quantifier": "all sequences of input files", "why_tests_cant": "state leaking through a shared default object only shows for particular sequences of files", "anchors": ["src/qtm/interfaces/qe/read_inp.py: System", "src/qtm/interfaces/qe/parse_inp.py: parse_inp"]}
{"id": "C87", "title": "Traditional cell parameters A, B, C, cosAB... are honoured", "statement": "An input file giving A, B, C and cosines (ibrav != 0) yields the lattice with those lengths (angstrom) and angles; a needed parameter that is absent is rejected with ValueError.", "quantifier": "all ibrav and all parameter values", "why_tests_cant": "20 lattice types times real-valued parameters", "anchors": ["src/qtm/interfaces/qe/ibrav2latvec.py: trad2celldm", "src/qtm/interfaces/qe/parse_inp.py: parse_inp"]}
{"id": "C88", "title": "Generated FFT grid dimensions are the smallest admissible ones", "statement": "Each grid dimension chosen by gen_grid_shape is the smallest integer with only prime factors 2, 3, 5 that is at least 2*sqrt(2*ecut)/pi*|a_i|; the search always terminates.", "quantifier": "all cells with nonzero vectors and all positive cutoffs", "why_tests_cant": "termination and minimality for every bound", "anchors": ["src/qtm/interfaces/qe/parse_inp.py: gen_grid_shape"]}
{"id": "C89", "title": "CELL_PARAMETERS are read as lattice vectors in the stated unit", "statement": "The i-th line of CELL_PARAMETERS becomes the i-th lattice vector, scaled by the stated unit (alat, bohr, angstrom); an unsupported unit is rejected.", "quantifier": "all cells, all option strings", "why_tests_cant": "arbitrary strings and real-valued cells", "anchors": ["src/qtm/interfaces/qe/ibrav2latvec.py: cellparam2latvec"]}
{"id": "C90", "title": "Energies reported in every SCF iteration belong to that iteration", "statement": "In every iteration of every run the reported Hartree, xc, Ewald, smearing, total, Harris-Weinert-Foulkes and internal energies are the values of the documented functionals at that iteration's densities and wavefunctions; total and HWF energy differ exactly by the integral of v[rho_in](rho_out - rho_in).", "quantifier": "all runs (all environments, iteration counts, inputs)", "why_tests_cant": "every iteration of every run, including the converging one", "anchors": ["src/qtm/dft/scf.py: scf (compute_en, compute_vloc)"]}
{"id": "C91", "title": "Namelists mean their last assignments, whatever the layout", "statement": "Reading a PWscf input file, a namelist laid out in any way (blanks, tabs, comment lines, several assignments per line, trailing commas, quotes, letter case of keywords) gives every parameter the value of its last assignment converted to the parameter's type, each array entry the value of its last assignment, and rejects the file if any assignment names an unknown parameter or has an unreadable value, or if a parameter without default is missing. A file without one of the required namelists (control, system, electrons) or cards (atomic_species, atomic_positions, k_points) is rejected.", "quantifier": "all namelist texts, all assignments, all number formats", "why_tests_cant": "the layouts, orders and repetitions are unbounded", "anchors": ["src/qtm/interfaces/qe/read_inp.py: PWscfIn.from_file"]}
{"id": "C92", "title": "Fortran logicals are accepted", "statement": "A logical parameter given as .true. or .false. in a PWscf input file is read as that truth value.", "quantifier": "all logical parameters, all layouts", "why_tests_cant": "every logical parameter in every layout", "anchors": ["src/qtm/interfaces/qe/read_inp.py: PWscfIn.from_file (parse_typ)"]}
{"id": "C93", "title": "Text parameters keep their letter case", "statement": "A text parameter (pseudo_dir, outdir, prefix, title) in a PWscf input file is returned exactly as written between the quotes.", "quantifier": "all strings", "why_tests_cant": "all strings", "anchors": ["src/qtm/interfaces/qe/read_inp.py: PWscfIn.from_file (read_line)"]}
{"id": "C94", "title": "Blank lines inside namelists are harmless and unterminated namelists rejected", "statement": "A blank line inside a namelist does not change what is read; a namelist not closed before the end of the file is rejected with ValueError.", "quantifier": "all files", "why_tests_cant": "all positions of blank lines", "anchors": ["src/qtm/interfaces/qe/read_inp.py: PWscfIn.from_file"]}
{"id": "C95", "title": "Cards are read from exactly their lines", "statement": "A card header gives name and option without braces; a card consumes exactly the announced number of lines (ntyp, nat, 1 or the given number of k-points, 3), keeps their order, converts each line on its own, keeps every column and converts the numeric ones, and is rejected when a line is missing or blank, a column is missing or a number unreadable.", "quantifier": "all cards, all counts, all texts", "why_tests_cant": "unbounded numbers of lines", "anchors": ["src/qtm/interfaces/qe/read_inp.py: PWscfIn.from_file"]}
{"id": "C96", "title": "Comments do not change what is read", "statement": "A comment line between blocks, or a comment behind a value, leaves the result of reading a PWscf input file unchanged.", "quantifier": "all comments and positions", "why_tests_cant": "all comment texts and positions", "anchors": ["src/qtm/interfaces/qe/read_inp.py: PWscfIn.from_file"]}
{"id": "C97", "title": "Reading terminates", "statement": "Reading any text as a PWscf input file terminates, after at most as many rounds as the file has lines.", "quantifier": "all texts", "why_tests_cant": "all texts", "anchors": ["src/qtm/interfaces/qe/read_inp.py: PWscfIn.from_file"]}
{"id": "C98", "title": "Atoms of a PWscf input", "statement": "The crystal returned for an accepted PWscf input contains every line of ATOMIC_POSITIONS exactly once, under the species of its label, in file order, at the cartesian position the line denotes in the stated unit (alat, bohr, angstrom, crystal), and each species has the mass and pseudopotential of its ATOMIC_SPECIES line.", "quantifier": "every accepted input file, lattice and unit", "why_tests_cant": "Files with any number of species and atoms in any order", "anchors": ["src/qtm/interfaces/qe/parse_inp.py:parse_inp"]}
{"id": "C99", "title": "Number of bands from a PWscf input", "statement": "In every accepted calculation the bands can hold all valence electrons: with smearing the given nbnd is used (or a default leaving empty bands), and it is at least half the number of electrons; with fixed occupations of an unpolarised system exactly half. A number of bands given by the user is honoured.", "quantifier": "every accepted input file", "why_tests_cant": "Real-valued electron counts and any nbnd", "anchors": ["src/qtm/interfaces/qe/parse_inp.py:parse_inp"]}
{"id": "C100", "title": "Starting magnetization per species", "statement": "For a spin-polarised calculation, the starting polarisation given to the solver for each atomic species is the starting_magnetization(i) of that species, cut to [-1, 1], and zero for species without a value, in whatever order the entries appear in the file.", "quantifier": "every accepted spin-polarised input, every order of the entries", "why_tests_cant": "Orders of entries are unbounded", "anchors": ["src/qtm/interfaces/qe/parse_inp.py:parse_inp", "src/qtm/interfaces/qe/pw.py"]}
{"id": "C101", "title": "An accepted PWscf input can be calculated", "statement": "If the input is accepted, the self-consistent solver called with the arguments pw.py derives from it passes all its argument checks.", "quantifier": "every accepted input file", "why_tests_cant": "Combination of two validators over all inputs", "anchors": ["src/qtm/interfaces/qe/parse_inp.py:parse_inp", "src/qtm/interfaces/qe/pw.py", "src/qtm/dft/scf.py:scf"]}
{"id": "C102", "title": "Iteration limits of the input are honoured", "statement": "electron_maxstep, mixing_ndim and diago_david_ndim of the input determine the iteration limit, the mixing history and the Davidson subspace of the calculation.", "quantifier": "every accepted input file and all legal values", "why_tests_cant": "Effect of a value on every accepted file", "anchors": ["src/qtm/interfaces/qe/parse_inp.py:parse_inp", "src/qtm/interfaces/qe/pw.py"]}
{"id": "C103", "title": "Unsupported control values are replaced with a warning", "statement": "An unsupported verbosity, iprint or max_seconds is replaced by the announced default with a warning and the file is still accepted; a noncollinear calculation is rejected as not implemented.", "quantifier": "every input file", "why_tests_cant": "All values of three fields in any otherwise legal file", "anchors": ["src/qtm/interfaces/qe/parse_inp.py:parse_inp"]}
{"id": "C104", "title": "K-points of a PWscf input", "statement": "An automatic mesh is generated with the grid, shifts and symmetry options of the file, and an explicit list of k-points (tpiba or crystal) gives exactly these k-points and weights.", "quantifier": "every accepted input file", "why_tests_cant": "All lists of k-points", "anchors": ["src/qtm/interfaces/qe/parse_inp.py:parse_inp"]}
{"id": "C105", "title": "Exchange-correlation functional of a PWscf input", "statement": "The functional is that of input_dft if given, overriding the pseudopotential files, and otherwise the common functional of all pseudopotential files; mixed functionals are rejected.", "quantifier": "every input file and set of pseudopotentials", "why_tests_cant": "All combinations of functionals", "anchors": ["src/qtm/interfaces/qe/parse_inp.py:parse_inp"]}
{"id": "C106", "title": "nspin of a PWscf input", "statement": "nspin = 2 gives a spin-polarised calculation, nspin = 1 an unpolarised one, and other values are rejected.", "quantifier": "every input file and every integer nspin", "why_tests_cant": "All integers", "anchors": ["src/qtm/interfaces/qe/parse_inp.py:parse_inp", "src/qtm/interfaces/qe/pw.py"]}
{"id": "C107", "title": "Mixing parameters", "statement": "Mixing parameters accepted by scf are accepted by the mixer, and with accepted parameters the first mixing step moves the density towards the output density by the fraction beta, 0 < beta <= 1.", "quantifier": "all mix_beta, mix_dim and pairs of densities", "why_tests_cant": "Real-valued parameters and densities", "anchors": ["src/qtm/dft/scf.py:scf", "src/qtm/dft/mixing/base.py:MixModBase.__init__"]}
{"id": "C108", "title": "Density cutoff of a PWscf input", "statement": "The cutoff of the density is the ecutrho of the input, or four times ecutwfc if it is not given.", "quantifier": "every accepted input file", "why_tests_cant": "All real cutoffs", "anchors": ["src/qtm/interfaces/qe/parse_inp.py:parse_inp"]}
{"id": "C109", "title": "Plane-wave matrix elements are the overlaps they are documented to be", "statement": "For an empty state at k and an occupied state at the k-point matching k+q, the G component computed with FFTs equals Σ_G' conj(c_G') v_(G'+G-u) / sqrt(Ec-Ev), frequencies modulo the grid; there is no aliasing when the grid holds all sums; driver choice and earlier calls do not matter. On a mesh read from files with a few correct digits the state at k+q is paired with the k-point equivalent to k+q and with no other.", "quantifier": "all grids, wavefunctions, bands, q-points, G lists on the grid, FFT drivers and driver states", "why_tests_cant": "universal over complex coefficient arrays and grids", "anchors": ["src/qtm/gw/epsilon.py: Epsilon.matrix_elements"]}
{"id": "C110", "title": "Umklapp brings k+q back into the first cell", "statement": "The vector added to k+q is integral and the result lies in [0,1) in every component, up to 5e-6.", "quantifier": "all k and q", "why_tests_cant": "all reals", "anchors": ["src/qtm/gw/epsilon.py: Epsilon.matrix_elements"]}
{"id": "C111", "title": "Inverse dielectric matrix exists and screens", "statement": "For a Hermitian negative-semidefinite polarizability and no q+G = 0, the inverse dielectric matrix exists and is returned; its diagonal is real in (0,1]; the screened interaction lies between zero and the bare one as quadratic forms; a vanishing q+G gives NaN.", "quantifier": "all G-vector sets, all such polarizabilities", "why_tests_cant": "all matrices of all sizes", "anchors": ["src/qtm/gw/epsilon.py: Epsilon.epsilon_inverse", "src/qtm/gw/vcoul.py: Vcoul.v_bare"]}
{"id": "C112", "title": "Bare exchange self-energy", "statement": "Sigma.sigma_x returns for every requested k-point and band the exact exchange -factor Σ_q Σ_occ Σ_G v_q(G)|M_G|² with the occupied states: a real number, never positive, the same for the stored and memory-saving variant and for any number of processes; the Coulomb and dielectric cutoffs may differ.", "quantifier": "all self-energy inputs, wavefunctions, k-point requests, process counts", "why_tests_cant": "universal over inputs and process counts; tests compare one crystal", "anchors": ["src/qtm/gw/sigma.py: Sigma.sigma_x, matrix_elements, print_condition"]}
{"id": "C113", "title": "Static COHSEX self-energies", "statement": "sigma_sx_static and sigma_ch_static return the static screened-exchange and Coulomb-hole sums with ε⁻¹-1 on any number of processes; with a physical dielectric matrix screening weakens exchange without reversing it and the Coulomb hole is not positive and at most half the bare interaction.", "quantifier": "all self-energy inputs, dielectric matrices, process counts", "why_tests_cant": "universal", "anchors": ["src/qtm/gw/sigma.py: Sigma.sigma_sx_static, sigma_ch_static"]}
{"id": "C114", "title": "Head and wing correction touches only head and wings", "statement": "The correction changes only row and column of G=0: at q0 the wings vanish and the head becomes wcoul0/vcoul; elsewhere the head is kept and wings are rescaled by the documented ratios, which are 1 for un-averaged Coulomb values.", "quantifier": "all matrices, Coulomb values, q lengths", "why_tests_cant": "universal", "anchors": ["src/qtm/gw/vcoul.py: Vcoul.fixwings, calculate_fixedeps"]}
{"id": "C115", "title": "Plasmon-pole density lookup", "statement": "The plasmon-pole model uses the charge density component of exactly the vector G-G' for every pair of G-vectors, and skips pairs without density.", "quantifier": "all grids, density G-vectors, pairs", "why_tests_cant": "universal over grids", "anchors": ["src/qtm/gw/sigma.py: Sigma.get_rhohash / sigma_gpp"]}
{"id": "C116", "title": "-q is matched correctly", "statement": "For every q-point the self-energy uses the dielectric matrix at -q (modulo a reciprocal lattice vector) with G-vectors mapped to their partners, and k-points matched the same way as in Epsilon; momentum is conserved in every matrix element.", "quantifier": "all q-point lists and spheres", "why_tests_cant": "universal over meshes", "anchors": ["src/qtm/gw/sigma.py: Sigma.map_g, index_minusq, matrix_elements"]}
{"id": "C117", "title": "Quasiparticle tables", "statement": "In the tables returned by the COHSEX and plasmon-pole drivers the columns are related by Σ = X + SX + CH, Eqp0 = E_mf + Σ - Vxc, Eqp1 = E_mf + Z (Eqp0 - E_mf) and Z = 1/(1-dΣ/dE), primed columns hold the partial-sum variant, labels match the bands, and every process gets them.", "quantifier": "all terms, bands, processes", "why_tests_cant": "universal over terms", "anchors": ["src/qtm/gw/sigma.py: Sigma.calculate_static_cohsex, calculate_gpp, autosave"]}
{"id": "C118", "title": "Plasmon-pole parameters", "statement": "Every fitted plasmon-pole entry that is kept has a real positive pole with Ω² = -(ε⁻¹-1) ω̃², entries documented as neglected contribute nothing, G-G' and G'-G are treated alike, and away from the pole the factors are the plasmon-pole expressions whose static limit is the fitted matrix.", "quantifier": "all densities, vectors, matrices, energies", "why_tests_cant": "universal over reals", "anchors": ["src/qtm/gw/sigma.py: Sigma.sigma_gpp"]}
{"id": "C119", "title": "Energies from the input file reach the solver in Hartree", "statement": "For every accepted PWscf input, the smearing width, convergence and diagonalisation thresholds passed to the solver are the file's values in Rydberg divided by two, and the mixing factor is passed unchanged.", "quantifier": "all accepted inputs", "why_tests_cant": "universal over inputs", "anchors": ["src/qtm/interfaces/qe/pw.py"]}
{"id": "C120", "title": "Static limit of the plasmon-pole sums", "statement": "In the static limit the plasmon-pole self-energy equals the static COHSEX one for every crystal.", "quantifier": "all dielectric matrices and matrix elements", "why_tests_cant": "universal", "anchors": ["src/qtm/gw/sigma.py: Sigma.sigma_gpp, sigma_sx_static"]}
{"id": "C121", "title": "Order of the dielectric matrix", "statement": "A dielectric matrix computed by Epsilon and handed to Sigma by the documented routes is used with its rows and columns attached to the right G-vectors.", "quantifier": "all G-spheres and matrices", "why_tests_cant": "universal over matrices", "anchors": ["src/qtm/gw/sigma.py: Sigma.from_qtm_scf, from_data, l_epsinv reorder", "src/qtm/gw/epsilon.py: Epsilon.epsilon_inverse", "src/qtm/gw/core.py: sort_cryst_like_BGW, reorder_2d_matrix_sorted_gvecs"]}
{"id": "C122", "title": "Coulomb hole by closure", "statement": "sigma_ch_static_exact returns the closure Coulomb hole ½ Σ ρ(G'-G)(ε⁻¹-1)v of the requested bands and k-points with all pairs of G-vectors, on any number of processes; it is real, not positive and at most half the bare interaction.", "quantifier": "all self-energy inputs, bands, k-points, process counts", "why_tests_cant": "universal", "anchors": ["src/qtm/gw/sigma.py: Sigma.sigma_ch_static_exact"]}
{"id": "C123", "title": "Wavefunctions of a BerkeleyGW file", "statement": "Loading a wavefunction file gives, for every k-point and band, the stored coefficient of each plane wave, whatever the order of the plane waves in the file and in the program; files whose plane waves differ from the program's are rejected. The pinned reader multiplies the complex conjugate by i: the densities come out inverted through the origin, and the state is not the stored one up to a phase.", "quantifier": "all numbers of k-points, plane-wave lists (in any order) and coefficients", "why_tests_cant": "universal over orders and counts", "anchors": ["src/qtm/interfaces/bgw/wfn2py.py: read_wfn_file", "src/qtm/interfaces/bgw/h5_utils.py"]}
{"id": "C124", "title": "Atoms of a BerkeleyGW file", "statement": "The species built from a wavefunction file are the distinct atom types in ascending order, each with exactly the positions of the atoms of that type.", "quantifier": "all lists of atom types and positions", "why_tests_cant": "universal over lists of atoms", "anchors": ["src/qtm/interfaces/bgw/wfn2py.py: read_wfn_file (l_atoms)"]}
{"id": "C125", "title": "Point blocks and parameters of epsilon.inp and sigma.inp", "statement": "Reading returns the points of all blocks in order, their q0 flags, the options in order and the last value of every parameter; unfinished blocks (StopIteration), blank lines inside a block (IndexError) and comment lines (ValueError) are rejected. The scale factor of a point is read but neither applied nor returned: the point returned is not the one the row denotes.", "quantifier": "all files made of blank lines, parameters, options and blocks", "why_tests_cant": "universal over files", "anchors": ["src/qtm/interfaces/bgw/inp.py: read_epsilon_inp, read_sigma_inp"]}
{"id": "C126", "title": "Exchange-correlation matrix elements are read completely", "statement": "read_vxc returns every k-point of vxc.dat with its number of bands and the real parts of its diagonal elements, in order; truncated files are rejected (IndexError). Files with off-diagonal elements are rejected with ValueError: these rows are not skipped.", "quantifier": "all vxc.dat files", "why_tests_cant": "universal over files", "anchors": ["src/qtm/interfaces/bgw/inp.py: read_vxc"]}
{"id": "C127", "title": "Overlap matrix of two sets of Bloch states", "statement": "KSWfn.overlap(ket, bra_bands, ket_bands, umklapp) returns the matrix of inner products: the sum over plane waves with G = G' + umklapp of conj(c_G)·c'_G', rows for bra bands and columns for ket bands, in the order of the lists; a single band number is accepted too.", "quantifier": "all grids, sets of plane waves, coefficients, band lists and umklapp vectors", "why_tests_cant": "A test compares a few overlaps on one grid; the wrap-around of the flat index on small grids, spinors and the scalar argument are not exercised.", "anchors": ["src/qtm/dft/kswfn.py:KSWfn.overlap", "src/qtm/dft/kswfn.py:KSWfn.gcryst2int"]}
{"id": "C128", "title": "Occupied and empty bands partition the bands", "statement": "indices_occupied and indices_empty list every band exactly once, in ascending order: the bands with occupation at least 1/2 and the ones below.", "quantifier": "all numbers of bands and occupations", "why_tests_cant": "Holds for every occupation array, including values on the threshold.", "anchors": ["src/qtm/dft/kswfn.py:KSWfn.indices_occupied", "src/qtm/dft/kswfn.py:KSWfn.indices_empty"]}
{"id": "C129", "title": "Loading wave functions from a file", "statement": "init_from_hdf5 puts every coefficient of the file at the plane wave with the same Miller indices, whatever the order in the file, and normalises each band; a file whose plane waves are not those of the basis is rejected with ValueError.", "quantifier": "all bases, orders of the plane waves in the file, numbers of bands and coefficients", "why_tests_cant": "A test reads one file; permutations, missing and repeated plane waves are unbounded.", "anchors": ["src/qtm/dft/kswfn.py:KSWfn.init_from_hdf5", "src/qtm/dft/kswfn.py:f8_to_c16_interleaved"]}
{"id": "C130", "title": "The density of selected bands carries their occupation", "statement": "compute_rho(ibnd) returns a density that integrates over the cell to the sum of the occupations of the selected bands, however the stored states were scaled, and calling it again changes nothing.", "quantifier": "all cells, grids, FFT drivers, basis sets, bands, occupations, selections (slices and index lists)", "why_tests_cant": "Tests use all bands of normalised states.", "anchors": ["src/qtm/dft/kswfn.py:KSWfn.compute_rho", "src/qtm/containers/wavefun.py:get_density"]}
{"id": "C131", "title": "A pseudopotential file is read completely", "statement": "UPFv2Data.from_file returns the header fields, radial mesh, local potential, atomic density, core charge, projectors with angular momenta and the D matrix of the file, whatever the order of sections, attributes and children; potentials and D are converted from Rydberg to Hartree; valence is the nearest integer to z_valence; every spelling of a logical value and files without projectors are supported, and projector i is PP_BETA.i.", "quantifier": "all UPF files: orders of sections and attributes, additional sections, numbers of mesh points and projectors, spellings", "why_tests_cant": "Tests read a few files from one generator.", "anchors": ["src/qtm/pseudo/upf.py:UPFv2Data.from_file"]}
{"id": "C132", "title": "Unsupported pseudopotentials are rejected", "statement": "Files of ultrasoft, PAW or fully relativistic pseudopotentials, which the code does not support, are rejected when they are read.", "quantifier": "all UPF files with is_ultrasoft, is_paw or has_so set", "why_tests_cant": "Tests read norm-conserving files only.", "anchors": ["src/qtm/pseudo/upf.py:UPFv2Data", "src/qtm/pseudo/upf.py:UPFv2Data.from_file"]}
{"id": "C133", "title": "Incomplete pseudopotential files are rejected", "statement": "A file in which a needed section is missing, or whose D matrix does not match the number of projectors, is rejected when it is read.", "quantifier": "all UPF files", "why_tests_cant": "The combinations of missing sections are not tested.", "anchors": ["src/qtm/pseudo/upf.py:UPFv2Data.from_file"]}
{"id": "C134", "title": "The collective argument check is sound and complete", "statement": "If the check of the calculation's arguments returns on any process of the communicator, then on every process lattice, species (label, valence, pseudopotential file and check sum, mass, positions), both G-spaces and the k-points agree with the root's within the documented tolerances. If they agree on all processes and fit together, the check returns on all processes, with no deadlock.", "quantifier": "all numbers of processes, all argument values on each process, all schedules, broadcasts that synchronise or not", "why_tests_cant": "The outcome depends on the interleaving of the processes and on how collective calls of differently branching processes are matched.", "anchors": ["src/qtm/mpi/check_args.py:check_system", "src/qtm/mpi/check_args.py:check_basisatoms", "src/qtm/mpi/comm.py:QTMComm.__enter__", "src/qtm/mpi/comm.py:QTMComm.__exit__"]}
{"id": "C135", "title": "Inconsistent arguments are reported on every process", "statement": "If the arguments differ between processes, every process of the communicator raises an exception.", "quantifier": "all inconsistent arguments, all schedules", "why_tests_cant": "A test sees one schedule, and a process that never returns cannot be observed by a finite test.", "anchors": ["src/qtm/mpi/check_args.py:check_system"]}
{"id": "C136", "title": "Normalising wavefunctions", "statement": "normalize() scales every wavefunction of the container by a positive number so that its norm is one, for a single wavefunction, a list, or an array of any shape, serial or distributed.", "quantifier": "all shapes, all coefficients without zero wavefunction, all distributions over processes", "why_tests_cant": "shapes and coefficients are unbounded", "anchors": ["src/qtm/containers/wavefun.py:WavefunGType.normalize", "src/qtm/containers/wavefun.py:WavefunGType.norm2"]}
{"id": "C137", "title": "Normalised probability densities", "statement": "get_density() returns |psi|² per spinor component at every grid point; with normalize=True the density of each wavefunction integrates to one over the cell.", "quantifier": "all shapes, spinor component counts and wavefunctions of non-zero norm", "why_tests_cant": "shapes and values are unbounded", "anchors": ["src/qtm/containers/wavefun.py:WavefunRType.get_density", "src/qtm/containers/field.py:FieldRType.integrate_unitcell"]}
{"id": "C138", "title": "Overlaps of arrays of wavefunctions", "statement": "vdot returns, for arrays of wavefunctions of any shapes, the array of all products <bra_i|ket_j> with the axes of the first followed by those of the second.", "quantifier": "all shapes, basis sizes and coefficients", "why_tests_cant": "shapes are unbounded; index arithmetic of the reshapes", "anchors": ["src/qtm/containers/wavefun.py:WavefunGType.vdot"]}
{"id": "C139", "title": "Band-parallel diagonalisation equals the serial one", "statement": "Running the Davidson solver with any number of band groups leaves in every process the same bands, eigenvalues, iteration count and convergence status as the serial solver started from the root's wavefunctions; it fails if and only if the serial one does, with the same error. What the other processes passed in and what their uninitialised work arrays hold has no influence.", "quantifier": "all numbers of band groups (also more groups than bands), sizes, Hamiltonians, preconditioners, small eigen-solvers, thresholds, iteration limits and initial arrays", "why_tests_cant": "needs all numbers of processes and all histories of restarts; tests use few bands and at most a few processes", "anchors": ["src/qtm/dft/eigsolve/davidson.py:solve", "src/qtm/dft/eigsolve/davidson.py:scatter_slice", "src/qtm/dft/eigsolve/davidson.py:gen_bufspec", "src/qtm/dft/eigsolve/davidson.py:compute_hpsi"]}
{"id": "C140", "title": "Coordinate conversions of arrays of vectors", "statement": "The conversions between crystal, Cartesian and alat/tpiba coordinates, applied to an array of any shape whose axis `axis` has length 3, return an array of the same shape in which every vector along that axis is converted; converting there and back gives the array back.", "quantifier": "all shapes, all positions of the coordinate axis, all entries, all invertible lattices", "why_tests_cant": "the number of axes, their lengths and the position of the axis are unbounded; broadcasting mistakes show only for some shapes", "anchors": ["src/qtm/lattice.py:Lattice.cart2cryst", "src/qtm/lattice.py:Lattice.cryst2cart", "src/qtm/lattice.py:ReciLattice.cryst2tpiba", "src/qtm/lattice.py:RealLattice.alat2cryst"]}
{"id": "C141", "title": "Coordinates of a list of k-points", "statement": "A list of k-points made from crystal, Cartesian or tpiba coordinates reports, for every point, crystal, Cartesian and tpiba coordinates of that point.", "quantifier": "all numbers of points, coordinates and lattices", "why_tests_cant": "an axis mix-up is invisible for some list lengths and lattices", "anchors": ["src/qtm/kpts.py:KList.__init__", "src/qtm/kpts.py:KList.k_cart", "src/qtm/kpts.py:KList.k_tpiba"]}
{"id": "C142", "title": "Norms of an array of vectors", "statement": "norm2 of an array of shape (3, ...) is the array of the squared Cartesian lengths, with the shape of the input without its first axis.", "quantifier": "all shapes, entries and lattices", "why_tests_cant": "shapes are unbounded; callers only use flat lists", "anchors": ["src/qtm/lattice.py:Lattice.norm2"]}
{"id": "C143", "title": "Nested dictionaries survive HDF5 files", "statement": "A nested dictionary written to an HDF5 file and read back has the same groups and arrays at the same paths, whatever its depth and the order of its keys.", "quantifier": "all trees of dictionaries with distinct plain keys", "why_tests_cant": "depth and size are unbounded", "anchors": ["src/qtm/interfaces/bgw/h5_utils.py:dict_to_h5", "src/qtm/interfaces/bgw/h5_utils.py:write_recursive_h5", "src/qtm/interfaces/bgw/h5_utils.py:retrieve_dict", "src/qtm/interfaces/bgw/h5_to_np_dict.py:retrieve_dict"]}
{"id": "C144", "title": "Copying the header group of another HDF5 file", "statement": "Writing dielectric matrices with an auxiliary file copies that file's header group completely.", "quantifier": "all header trees", "why_tests_cant": "depth is unbounded; the BerkeleyGW headers at hand have two levels", "anchors": ["src/qtm/interfaces/bgw/h5_utils.py:write_recursive_h5", "src/qtm/interfaces/bgw/epsmat_read_write.py:write_mats"]}
{"id": "C145", "title": "Tables of sigma_hp.log", "statement": "Reading sigma_hp.log returns, for every k-point, its coordinates and each column of its table under the name it has in that table's header.", "quantifier": "all files: any lines between the tables, any number of k-points, rows and columns", "why_tests_cant": "files are unbounded; the reader is a state machine over the lines", "anchors": ["src/qtm/interfaces/bgw/sigma_hp_reader.py:read_sigma_hp"]}
{"id": "C146", "title": "RHO file of BerkeleyGW", "statement": "Reading the RHO file written by pw2bgw returns the charge-density coefficients and the G-vectors exactly as stored, for every crystal (any number of atoms), both flavours (real and complex) and one or two spins.", "quantifier": "every RHO file that pw2bgw writes: any number of atoms, G-vectors, spins and either flavour", "why_tests_cant": "files with other numbers of atoms, spins or the real flavour are unboundedly many; the repository's only sample is silicon with two atoms", "anchors": ["src/qtm/interfaces/bgw/inp.py:read_rho"]}
{"id": "C147", "title": "Charge densities and wavefunctions of Quantum ESPRESSO HDF5 files", "statement": "Reading a Quantum ESPRESSO charge-density or wavefunction HDF5 file into a field or wavefunction object returns its content, and writing a charge density yields a file that reads back to the same values.", "quantifier": "every field, wavefunction object and HDF5 file", "why_tests_cant": "no finite set of files shows that no file can be read", "anchors": ["src/qtm/interfaces/qe/h5_io.py:read_chargeden", "src/qtm/interfaces/qe/h5_io.py:write_chargeden", "src/qtm/interfaces/qe/h5_io.py:read_wfc"]}
{"id": "C148", "title": "Preconditioning residuals", "statement": "The preconditioner of the Davidson solver (and of the primme one) divides every component of every band by a positive number that is more than 1 and more than 2(h-e), by at most 1/2 more than the larger of the two, with h the diagonal of the Hamiltonian and e the eigenvalue of that band; so it never divides by zero, never enlarges a component, damps components of higher energy at least as much, and never turns a non-zero residual into zero.", "quantifier": "all diagonals, eigenvalues, numbers of bands and plane waves, and residuals", "why_tests_cant": "all real numbers, including values near h = e where a naive inverse is singular", "anchors": ["src/qtm/dft/eigsolve/davidson.py:solve", "src/qtm/dft/eigsolve/primme_eigsh.py:solve"]}
{"id": "C149", "title": "Alternative eigensolvers", "statement": "The scipy and primme solvers leave in the wavefunction object, for every band, an eigenvector of the Hamiltonian with its eigenvalue, in increasing order, to the requested accuracy, for collinear and non-collinear states; on more than one process per k-point they refuse.", "quantifier": "all Hamiltonians, numbers of bands and plane waves, thresholds and process counts, and every external solver that meets its own specification", "why_tests_cant": "all Hamiltonians and sizes", "anchors": ["src/qtm/dft/eigsolve/scipy_eigsh.py:solve", "src/qtm/dft/eigsolve/primme_eigsh.py:solve"]}
{"id": "C150", "title": "Coulomb averages over spheres", "statement": "v_minibz_sphere returns the average of 8π/|q|² over the ball about the origin whose volume is that of one q-point's cell, oneoverq_minibz_sphere that of 8π/|q| over the same ball or one of the given radius, and v_minibz_sphere_shifted the average of 8π/|q|² over the ball about any centre further from the origin than its radius.", "quantifier": "all lattices, numbers of q-points, radii and centres", "why_tests_cant": "three-dimensional integrals over all real radii and centres; a sample of centres cannot establish a closed form", "anchors": ["src/qtm/gw/vcoul.py:Vcoul.v_minibz_sphere", "src/qtm/gw/vcoul.py:Vcoul.v_minibz_sphere_shifted", "src/qtm/gw/vcoul.py:Vcoul.oneoverq_minibz_sphere"]}
{"id": "C151", "title": "Monte-Carlo averages of the Coulomb interaction", "statement": "For every q-point and G-vector the averaged Coulomb interaction has as its expectation the average of 8π/|q+G|² over the cell that the q-point represents (at q+G=0 the inscribed ball is integrated analytically), for every mesh of q-points including a single point, and is a finite number.", "quantifier": "all lattices, q-point meshes, shifts and sample sequences", "why_tests_cant": "expectation over all sample sequences, and all meshes", "anchors": ["src/qtm/gw/vcoul.py:Vcoul.v_minibz_montecarlo_hybrid", "src/qtm/gw/vcoul.py:Vcoul.get_gamma_nbhd_qpts", "src/qtm/gw/vcoul.py:Vcoul.oneoverq_minibz_montecarlo"]}
{"id": "C152", "title": "All processes of a run use the root's parameters", "statement": "Whatever arguments the processes pass to scf, every process that begins the calculation uses the values given on the root process of the image: number of bands, spin, symmetrisation, functional, occupation and smearing type, temperature, thresholds, iteration limit, mixing and solver configuration.", "quantifier": "all argument values on every process, any number of processes, all orders of events of the message passing", "why_tests_cant": "schedules and argument combinations are unbounded", "anchors": ["src/qtm/dft/scf.py: scf (argument phase, lines 108-250)", "src/qtm/mpi/comm.py: QTMComm.bcast, __enter__, __exit__"]}
{"id": "C153", "title": "Invalid parameters are refused on all processes", "statement": "If the root's parameters are acceptable no process raises an exception in the argument phase; if they are not, every process raises the same exception and none waits for ever.", "quantifier": "all argument values, any number of processes, all orders of events", "why_tests_cant": "deadlocks depend on the schedule", "anchors": ["src/qtm/dft/scf.py: scf (argument phase, lines 108-250)", "src/qtm/mpi/comm.py: QTMComm.bcast, __enter__, __exit__"]}
{"id": "C154", "title": "A run needs no progress printer", "statement": "scf can be called without iter_printer (the documented default None), with any callable as printer and on machines without git: printing the parameters never stops the calculation.", "quantifier": "all otherwise acceptable arguments, any number of processes, all orders of events", "why_tests_cant": "depends on the environment and on the schedule", "anchors": ["src/qtm/dft/scf.py: scf (argument phase, lines 108-250)", "src/qtm/mpi/comm.py: QTMComm.bcast, __enter__, __exit__", "src/qtm/io_utils/dft_printers.py: print_scf_parameters, print_project_git_info"]}
{"id": "C155", "title": "Reporting a converged run", "statement": "After convergence every process returns from scf, whatever is reported on the root.", "quantifier": "spin-polarised or not, plane waves distributed or not, any number of processes, all orders of events", "why_tests_cant": "deadlocks depend on process counts and schedules", "anchors": ["src/qtm/dft/scf.py: scf (lines 525-541)", "src/qtm/mpi/gspace.py: DistGSpace._g2r"]}
{"id": "C156", "title": "Delta values of the accuracy benchmark", "statement": "For each element common to two files of equilibrium volumes, bulk moduli and their derivatives, the Delta value printed by calcDelta is the root mean square, in meV per atom, of the difference of the two Birch-Murnaghan equations of state over the volumes within 6 per cent of the mean equilibrium volume (of the reference's volume with --asymm); the relative Delta is in per cent of the root mean square of the mean curve, Delta1 is rescaled to 30 cubic Angstrom and 100 GPa. Exchanging the files changes nothing, and Delta is zero exactly if the curves agree at those volumes.", "quantifier": "all pairs of rows with positive volumes, all lists of elements, both modes", "why_tests_cant": "equality with an integral for every pair of real parameter triples", "anchors": ["benchmarks/accuracy/DFT_Delta_benchmark/calcDelta.py:calcDelta"]}
{"id": "C157", "title": "Equation-of-state fit of the accuracy benchmark", "statement": "eosfit reports the equilibrium volume, the bulk modulus V E'' and its pressure derivative of the least-squares cubic in V^(-2/3) through the energies, whatever the order in which the stationary points are found; for energies on a Birch-Murnaghan curve at four or more volumes it reports the parameters of that curve, so that calcDelta reads them back unchanged.", "quantifier": "all data, all fitted polynomials, all orders of the roots", "why_tests_cant": "a statement about derivatives of every fitted curve and every data set on every curve", "anchors": ["benchmarks/accuracy/DFT_Delta_benchmark/eosfit.py:BM", "benchmarks/accuracy/DFT_Delta_benchmark/calcDelta.py:calcDelta"]}
{"id": "C158", "title": "Head and wing correction away from q0", "statement": "The correction of the inverse dielectric matrix at a q-point other than q0 rescales the wings by the ratio of averaged to un-averaged Coulomb values of that q-point; in particular, with un-averaged values it leaves the matrix as it is, wherever the q-point lies. With fix_nonq0=False the matrix is returned unchanged, at q0 the wings are set to zero.", "quantifier": "all q-points, lists of G-vectors, matrices", "why_tests_cant": "over all lattices, q-points and matrices", "anchors": ["src/qtm/gw/vcoul.py:Vcoul.calculate_fixedeps", "src/qtm/gw/vcoul.py:Vcoul.fixwings"]}
{"id": "C159", "title": "Coulomb values survive being written and read", "statement": "The text that write_vcoul produces for a list of q-points has one line per q-point and G-vector, in the order of the list and of the G-vectors of each q-point, and load_vcoul reads back from it the q-vector (the shifted one for q0) within half a unit of the eighth decimal, the G-vector exactly and the Coulomb value within a relative error of half a unit of the seventh decimal.", "quantifier": "all lists of q-points, sets of G-vectors, q-vectors and Coulomb values of any size and sign", "why_tests_cant": "Rounding, field widths and blanks matter for every value; a test covers a few magnitudes only.", "anchors": ["/repo/src/qtm/gw/vcoul.py:Vcoul.write_vcoul", "/repo/src/qtm/gw/vcoul.py:Vcoul.load_vcoul"]}
{"id": "C160", "title": "The status report of an SCF iteration is faithful", "statement": "print_scf_status begins with the number of the iteration counted from one, says 'NOT Converged' exactly when the run has not converged, shows the error and the eigensolver threshold in Rydberg and the mean number of eigensolver iterations, then shows every energy of the iteration in Rydberg and every level in electronvolt to eight decimals, leaves out the terms that do not exist, and in every iteration of every run the printed one-electron, Hartree, exchange-correlation, Ewald and smearing terms add up to the printed total energy, and internal energy plus smearing term to it, up to rounding.", "quantifier": "all runs of scf, all iterations, all energies and levels", "why_tests_cant": "The sum of printed numbers must hold in every iteration of every run, with and without smearing.", "anchors": ["/repo/src/qtm/io_utils/dft_printers.py:print_scf_status", "/repo/src/qtm/dft/scf.py:scf"]}
{"id": "C161", "title": "The table of eigenvalues is complete and faithful", "statement": "print_eigenvalues prints, for every wavefunction of every k-point in order, one line per band in ascending order with the number of the band, the eigenvalue in electronvolt to eight decimals and the occupation to six decimals.", "quantifier": "all lists of wavefunctions, numbers of bands, eigenvalues and occupations", "why_tests_cant": "Every magnitude and number of bands has to be readable; wide numbers must not run into each other.", "anchors": ["/repo/src/qtm/io_utils/dft_printers.py:print_eigenvalues"]}
{"id": "C162", "title": "ret_vxc returns the expectation values of the exchange-correlation potential", "statement": "scf(..., ret_vxc=True) returns, for every k-point, spin and band, <psi|v_xc|psi>/<psi|psi> of the returned wavefunction with v_xc the exchange-correlation potential of the returned density acting as in the Kohn-Sham Hamiltonian, and asking for these numbers changes none of the other results: the returned energies still add up to the total energy.", "quantifier": "all FFT backends, grids, bases, potentials, wavefunctions, k-group layouts, spin settings, converged and unconverged runs", "why_tests_cant": "The error for spin-polarised systems and for runs that stop at maxiter shows only if the numbers are compared with an independent evaluation; a test covers one system.", "anchors": ["src/qtm/dft/scf.py:scf", "src/qtm/containers/wavefun.py:WavefunRType.get_density"]}
{"id": "C163", "title": "Setting up the log file never loses log messages", "statement": "After the log file has been set up (QTMConfig.init_logfile / qtmlogger_set_filehandle) the file of that name contains exactly the messages logged since, in order; a file of that name that existed before is kept under a time-stamped name with all its content; and over any history of set-ups and messages no message that was written is ever lost.", "quantifier": "all histories of set-ups, log messages and Python warnings in a process, all times, all earlier directory contents", "why_tests_cant": "The loss happens only for set-ups within the same second and needs three of them; tests do not enumerate histories.", "anchors": ["src/qtm/logger.py:qtmlogger_set_filehandle", "src/qtm/config.py:QTMConfig.init_logfile"]}
{"id": "C164", "title": "Setting up the log file with several processes", "statement": "When all processes of a parallel run set up the log file, all of them return, an earlier file of that name is kept under the new name, and all of them then write to the same new file.", "quantifier": "all numbers of processes, all interleavings of their file-system accesses and of the barrier, with and without an earlier log file", "why_tests_cant": "Hang and split log depend on the interleaving: a test sees one schedule.", "anchors": ["src/qtm/logger.py:qtmlogger_set_filehandle"]}
{"id": "C165", "title": "Command-line options of the PWscf front end", "statement": "python -m qtm.interfaces.qe.pw takes the number of pools from -nk (or -npools), the band groups from -nb (or -nband) and the input file from -in, whatever the order of the options; options that are absent have the value one; a file name given without -in is the input file.", "quantifier": "all command lines, all orders and repetitions of options, all values", "why_tests_cant": "The command line is parsed in the module body of a script; orders and repetitions cannot be enumerated.", "anchors": ["src/qtm/interfaces/qe/pw.py:fetch_arg", "src/qtm/interfaces/qe/pw.py:fetch_arg_long_short_default"]}
{"id": "C166", "title": "The PWscf front end uses the process layout that was asked for", "statement": "With -nk N and -nb M on any number of processes, either the program refuses or the calculation runs with N pools of M band groups, and the plane waves are distributed over exactly the processes that work on the same k-points and bands.", "quantifier": "all numbers of processes, pools and band groups", "why_tests_cant": "Needs parallel runs on every combination of counts; the wrong distribution shows only in layouts with both several groups and several processes per group.", "anchors": ["src/qtm/interfaces/qe/pw.py", "src/qtm/dft/config.py:DFTCommMod", "src/qtm/dft/scf.py:scf", "src/qtm/mpi/gspace.py:DistGSpace"]}
{"id": "C167", "title": "Lattice constructors keep the given axes", "statement": "RealLattice.from_bohr / from_angstrom / from_alat and ReciLattice.from_cart / from_tpiba build the lattice whose axes (axes_cart, axes_alat, axes_tpiba) are the given vectors in the given unit; vectors of wrong length or linearly dependent ones are refused with ValueError; the axes of a lattice in alat and of its reciprocal lattice in tpiba are dual. It should not matter whether the components are written as integers or floats.", "quantifier": "all lattice parameters and all triples of vectors", "why_tests_cant": "a statement about every lattice and unit, beyond a few cubic examples", "anchors": ["src/qtm/lattice.py:RealLattice.from_bohr", "src/qtm/lattice.py:RealLattice.from_angstrom", "src/qtm/lattice.py:RealLattice.from_alat", "src/qtm/lattice.py:ReciLattice.from_cart", "src/qtm/lattice.py:ReciLattice.from_tpiba", "src/qtm/lattice.py:Lattice.__init__"]}
{"id": "C168", "title": "Atom groups are placed where the caller says", "statement": "BasisAtoms.from_cryst/from_cart/from_bohr/from_angstrom/from_alat, each called with one 3-element sequence per atom as documented, build a group whose r_cryst, r_cart, r_alat are the given positions in the given unit, with label, valence, mass and pseudopotential kept; positions with another number of components, negative or non-float masses and other pseudopotential objects are refused.", "quantifier": "all lattices, species data, numbers of atoms and positions", "why_tests_cant": "must hold for every lattice, every number of atoms and every unit", "anchors": ["src/qtm/crystal/basis_atoms.py:BasisAtoms", "src/qtm/lattice.py:Lattice.cart2cryst"]}
{"id": "C169", "title": "The text of a crystal shows its data", "statement": "str() of a lattice, a group of atoms and a crystal shows, to five decimals and in the units it names, the direct and reciprocal axes, the coordinates of every atom, lattice parameter, volume and the numbers of atoms, species and valence electrons.", "quantifier": "all lattices and all lists of atom groups", "why_tests_cant": "ranges over every crystal; the text has to be read back", "anchors": ["src/qtm/lattice.py:RealLattice.__str__", "src/qtm/crystal/basis_atoms.py:BasisAtoms.__str__", "src/qtm/crystal/crystal.py:Crystal.__str__"]}
{"id": "C170", "title": "r2g and g2r transform every row of an array, into a new or a given array", "statement": "For every array of functions (any number of leading axes, any memory layout) gspc.r2g(arr) and gspc.g2r(arr) return a new array with the same leading axes in which every row is the transform of that row, and change nothing that existed before; given an output array of the same leading shape they write the transforms into it, return it and change nothing else; arrays whose last axis or whose number of rows does not fit are rejected.", "quantifier": "all shapes, strides, memory contents, both FFT drivers, all G-spaces", "why_tests_cant": "whether reshape makes a view or a copy depends on the strides of the array; tests use contiguous arrays", "anchors": ["src/qtm/gspace/base.py:GSpaceBase.r2g", "src/qtm/gspace/base.py:GSpaceBase.g2r", "src/qtm/gspace/base.py:GSpaceBase._r2g", "src/qtm/gspace/base.py:GSpaceBase.check_array_g"]}
{"id": "C171", "title": "Arrays returned by the FFT driver belong to the caller", "statement": "The array that the full FFT driver returns from g2r without an output array keeps its value whatever transforms are computed later, and no transform changes an array other than its output.", "quantifier": "all histories of transforms, all FFT libraries for processors", "why_tests_cant": "needs two transforms and a look at the first result, for each library", "anchors": ["src/qtm/fft/full.py:FFT3DFull.g2r", "src/qtm/fft/backend/pyfftw_.py:PyFFTWFFTWrapper.ifft", "src/qtm/fft/backend/numpy_.py:NumPyFFTWrapper.ifft"]}
{"id": "C172", "title": "k-point lists behave as sequences", "statement": "kl[i] is the i-th k-point with its weight (from the end for negative i, IndexError exactly when there is none), slices give the named points in Python's order, a for loop visits every point once in order; indices may be numpy integers, lists of indices or masks; a list can be distributed over processes.", "quantifier": "all lists, all index expressions, both KList classes", "why_tests_cant": "all lengths, signs and steps; two classes with different code", "anchors": ["src/qtm/kpts.py:KList.__getitem__", "src/qtm/klist.py:KList.__getitem__", "src/qtm/klist.py:klist_distribute"]}
{"id": "C173", "title": "Coordinates of the k-point lists of GW", "statement": "A qtm.klist.KList made from crystal, Cartesian or tpiba coordinates reports the same points in all three systems and weights proportional to the given ones with sum one; negative weights and arrays of other shapes are rejected.", "quantifier": "all lattices, lists of points and weights", "why_tests_cant": "must hold for every lattice and every list", "anchors": ["src/qtm/klist.py:KList.from_cart", "src/qtm/klist.py:KList.from_tpiba", "src/qtm/klist.py:KList.cart", "src/qtm/klist.py:KList.tpiba", "src/qtm/klist.py:KList.__init__"]}
{"id": "C174", "title": "The q-point that stands for Gamma is the flagged one", "statement": "QPoints takes the first flagged q-point for Gamma (the shortest one if there are no flags), and a self-energy calculation from files uses the same q-points as one straight from the SCF.", "quantifier": "all lattices, lists of q-points and flags", "why_tests_cant": "depends on the order of the q-points in the input file; the examples list Gamma first", "anchors": ["src/qtm/gw/core.py:QPoints.__init__", "src/qtm/gw/core.py:QPoints.from_cryst", "src/qtm/gw/sigma.py:Sigma.from_data", "src/qtm/gw/sigma.py:Sigma.from_qtm_scf"]}
{"id": "C175", "title": "Gathering and scattering distributed containers", "statement": "For fields and (multi-component) wavefunctions in either basis: allgather() returns on every process the container of which every process holds its part, gather(False) returns it on process 0 and None elsewhere, scatter() gives every process its part, and each undoes the other; an unacceptable argument of scatter() is refused on all processes. (The pinned code fails for fields without leading axes and for containers without elements, and with an unacceptable argument only process 0 raises, the others wait for ever.)", "quantifier": "all numbers of processes, grids, G-vector lists, shapes, numbers of components, contents, and schedules of the processes", "why_tests_cant": "depends on the number of processes and on how components, sticks and planes are cut; a hang is not observable by a test that ends", "anchors": ["src/qtm/mpi/containers.py: DistBufferType.gather, allgather, scatter", "src/qtm/mpi/gspace.py: gather_g, gather_r, scatter_g, scatter_r"]}
{"id": "C176", "title": "Symmetrising distributed fields", "statement": "Symmetrising a distributed field gives every process its part of the result for the whole field; each basis vector is symmetrised on its own, the shape is kept, and what is not a field of the symmetriser's G-space is refused. (The pinned code fails for distributed fields without leading axes.)", "quantifier": "all numbers of processes, shapes, fields and symmetry operations", "why_tests_cant": "agreement between serial and distributed results for every decomposition", "anchors": ["src/qtm/symm/symmetrize_field.py: SymmFieldMod.symmetrize"]}
{"id": "C177", "title": "No plane wave inside the cutoff is missing from the basis of a k-point", "statement": "For every lattice, cutoff and k-point, the basis built for a k-point from a G-space on its default grid holds every integer vector with |k+G|^2 <= 2 ecutwfn, and the difference of any two of its vectors is in the G-space (so densities of wavefunctions are represented exactly). (True if ecutwfn is at most a quarter of the G-space's cutoff, which is the default, and |k|^2 <= 2 ecutwfn; for k-points further out the pinned code drops plane waves silently or raises IndexError, although an equivalent k-point would do.)", "quantifier": "all lattices, cutoffs and k-points", "why_tests_cant": "the sphere around -k must fit the parent sphere for every lattice; a geometric statement over a continuum", "anchors": ["src/qtm/gspace/gkspc.py: GkSpace.__init__", "src/qtm/gspace/gspc.py: GSpace.__init__"]}
{"id": "C178", "title": "Coordinates and lengths of the plane waves of a k-point", "statement": "gk_cryst, gk_cart, gk_tpiba, gk_norm2, gk_norm and cryst_to_norm2 describe the same vectors G+k position by position, the squared lengths equal the ones used for the selection and are at most 2 ecutwfn; the arrays of the processes of a distributed basis, put one after the other, are those of the whole basis.", "quantifier": "all lattices, k-points, cutoffs, numbers of processes", "why_tests_cant": "all lattices and decompositions", "anchors": ["src/qtm/gspace/gkspc.py: gk_cart, gk_tpiba, gk_norm2, gk_norm, cryst_to_norm2", "src/qtm/mpi/gspace.py: DistGkSpace"]}
{"id": "C179", "title": "Hamiltonian of a moved crystal", "statement": "Moving all atoms and the local potential by the same number of grid steps leaves every eigenvalue of the Kohn-Sham Hamiltonian at every k-point and moves its eigenfunctions: applying the Hamiltonian of the moved crystal to the moved wavefunction gives the moved result. Moving single atoms by lattice vectors changes nothing.", "quantifier": "every FFT grid, G-sphere, k-point, list of species and projectors, potential, wavefunction, translation by grid steps, FFT driver; exact arithmetic (on the CPU the matrix-product wrapper rounds to single precision, see C72)", "why_tests_cant": "ranges over all crystals, translations and wavefunctions", "anchors": ["src/qtm/dft/ksham.py KSHam.h_psi", "src/qtm/pseudo/nloc.py NonlocGenerator"]}
{"id": "C180", "title": "Mixing commutes with symmetries", "statement": "Density mixing commutes with translations, lattice symmetries and exchange of spin up and down: two runs whose densities differ by such a symmetry report the same mixing errors and produce mixed densities that differ by it, or both fail with the same error.", "quantifier": "both mixing methods, every mixing configuration, every isometry of the G-sphere with phases, every spin permutation, every history of calls", "why_tests_cant": "quantifies over unbounded histories and all symmetries", "anchors": ["src/qtm/dft/mixing/modbro.py: ModBroyden, _mix", "src/qtm/dft/mixing/genbro.py: GenBroyden, _mix", "src/qtm/dft/mixing/base.py: MixModBase"]}
{"id": "C181", "title": "Potentials of a moved density", "statement": "Moving atoms moves the atomic density, ionic potential and core density by the same vector; moving the density moves the Hartree and exchange-correlation potentials and leaves both energies unchanged.", "quantifier": "every lattice, G-sphere, density, translation (by grid steps for exchange-correlation), functional acting point by point, spin polarisation, FFT driver", "why_tests_cant": "ranges over all densities and translations", "anchors": ["src/qtm/pot/hartree.py compute", "src/qtm/pot/xc.py compute", "src/qtm/pseudo/loc.py loc_generate_pot_rhocore"]}
{"id": "C182", "title": "SCF result does not depend on the origin", "statement": "Running scf for a crystal that is moved (or transformed by another symmetry, or with spin up and down exchanged) as a whole, from the correspondingly transformed density, gives the same energies, errors and thresholds in every iteration, converges in the same iteration or fails with the same error, and ends with the transformed density.", "quantifier": "every crystal, symmetry, starting density, iteration limit, both mixers", "why_tests_cant": "quantifies over whole SCF histories of any length", "anchors": ["src/qtm/dft/scf.py: scf", "src/qtm/dft/mixing/modbro.py: ModBroyden, _mix", "src/qtm/dft/mixing/genbro.py: GenBroyden, _mix", "src/qtm/dft/mixing/base.py: MixModBase"]}
{"id": "C183", "title": "Density is independent of the choice of degenerate orbitals", "statement": "Replacing orthonormal orbitals of equal occupation by any unitary mixture of them (other phases, order, or rotation within a degenerate set) does not change the density that compute_rho returns.", "quantifier": "every number of bands, spin components, unitary matrix that mixes only equal occupations, FFT driver, grid point", "why_tests_cant": "ranges over all unitary mixtures and wavefunctions", "anchors": ["src/qtm/dft/kswfn.py KSWfn.compute_rho"]}
{"id": "C184", "title": "Symmetry-equivalent k-points have the same energies", "statement": "For every space-group operation that keeps the lattice and the FFT grid, the Hamiltonian of the transformed crystal (the same crystal, if the operation is a symmetry) at the transformed k-point has the same eigenvalues as the Hamiltonian at the k-point; the eigenfunctions are the transformed ones, orthonormal if the original ones are, and their densities are the transformed densities. The plane-wave bases built for the two k-points correspond one to one.", "quantifier": "every lattice, cutoff, k-point, operation, list of species with projectors of any angular momentum, local potential, FFT driver; exact arithmetic (on the CPU the matrix-product wrapper rounds to single precision, see C72); vectors k+G that are zero or longer than 1e-7 (the code gives shorter ones polar angle 0)", "why_tests_cant": "ranges over all crystals, operations and wavefunctions; the program relies on it when it samples only inequivalent k-points", "anchors": ["src/qtm/dft/ksham.py: KSHam.h_psi", "src/qtm/pseudo/nloc.py: NonlocGenerator.gen_vkb_dij", "src/qtm/gspace/gkspc.py: GkSpace"]}
{"id": "C185", "title": "Time reversal: k and -k have the same energies", "statement": "At a k-point equivalent to -k the Hamiltonian has the same eigenvalues as at k, its eigenfunctions are the complex conjugates, with the same density at every grid point, whatever the symmetry of the crystal.", "quantifier": "every lattice, cutoff, k-point, list of species, real local potential, FFT driver; exact arithmetic (on the CPU the matrix-product wrapper rounds to single precision, see C72); vectors k+G that are zero or longer than 1e-7 (the code gives shorter ones polar angle 0)", "why_tests_cant": "ranges over all crystals and wavefunctions; the program relies on it when it samples k-points up to time reversal", "anchors": ["src/qtm/dft/ksham.py: KSHam.h_psi", "src/qtm/pseudo/nloc.py: NonlocGenerator.gen_vkb_dij", "src/qtm/gspace/gkspc.py: GkSpace"]}
{"id": "C186", "title": "Representative k-points plus symmetrisation give the density of the whole mesh", "statement": "If every k-point of a mesh has a representative whose density its own is the image of under a crystal operation, and the operations permute the mesh, then the density accumulated from the representatives alone, each weighted by the number of mesh points it stands for, and then symmetrised, equals the density of the full mesh at every point.", "quantifier": "every finite group of crystal operations with translations, every FFT mesh and plane-wave basis closed under it, every number of k-points, every choice of representatives and every set of densities related as stated", "why_tests_cant": "tests use particular crystals and meshes and only see it to rounding; the equality needs group averaging over arbitrary groups and orbits", "anchors": ["src/qtm/symm/symmetrize_field.py: SymmFieldMod.symmetrize", "src/qtm/dft/scf.py: scf", "src/qtm/kpts.py: gen_monkhorst_pack_grid"]}
{"id": "C187", "title": "Potentials and energies follow space-group operations", "statement": "Carrying a density by a space-group operation (rotation with fractional translation) that maps the FFT grid and the G-vectors onto themselves carries the Hartree and the exchange-correlation potential (local and gradient functionals, one or two spins) to the image points and leaves both energies unchanged; carrying the atoms carries their atomic density, ionic potential and core density. Hence symmetric atoms and densities give symmetric potentials.", "quantifier": "every lattice, every operation that keeps lengths and the grid, every set of G-vectors closed under it, every density and core density, every point-by-point functional, either FFT driver", "why_tests_cant": "tests compare a few crystals to rounding; the statement is about all operations, grids and densities", "anchors": ["src/qtm/pot/hartree.py: compute", "src/qtm/pot/xc.py: compute", "src/qtm/pseudo/loc.py: loc_generate_pot_rhocore", "src/qtm/pseudo/loc.py: loc_generate_rhoatomic"]}
{"id": "C188", "title": "Split-operator time steps neither create norm nor mix occupied orbitals", "statement": "One step of the split-operator time propagator (half kinetic, non-local, local potential, reversed non-local, half kinetic factor on each orbital, followed by renormalising every orbital): the un-normalised action never increases the norm of an orbital; if the plane-wave basis contains every vector of the FFT grid, the action conserves inner products of any two orbitals, so orthonormal orbitals stay orthonormal after any number of steps, whatever real potentials are used on the way. On the truncated basis a user actually runs with (the cut-off sphere inside the FFT grid) orthogonality must survive too.", "quantifier": "all grids, all valid index lists, all transform drivers, all real local potentials (also changing from step to step), all species with hermitian coupling matrices for which the exponential factor exists, all time steps, all numbers of orbitals and steps", "why_tests_cant": "tests can compare a few trajectories, not every potential, time step and basis; the loss of orthogonality on truncated bases is a property of the whole family", "anchors": ["src/qtm/tddft_gamma/expoper/splitoper.py: SplitOper", "src/qtm/tddft_gamma/prop/splitoper.py: prop_step", "src/qtm/tddft_gamma/propagate.py: propagate"]}
{"id": "C189", "title": "Equivalent crystals have the same self-consistent solutions", "statement": "If densities, potentials, states and occupations are a self-consistent solution for a crystal (local potential = ionic + Hartree + exchange-correlation potential of the density, states = eigenstates of the Hamiltonian, density = normalised density of the states), then for the crystal rotated, reflected or translated by a space-group operation of the lattice and the grid (atoms listed in any order, up to lattice vectors), with the k-points carried along, the carried quantities are a self-consistent solution with the same eigenvalues, occupations, Hartree, exchange-correlation and one-electron energies (the Ewald energy, which does not depend on the solution, is not included: see C85).", "quantifier": "all lattices, grids, cutoff spheres, operations compatible with the grid, species, numbers of atoms, k-points, bands and spins, local and gradient functionals acting point by point; exact arithmetic (on the CPU the matrix-product wrapper rounds to single precision, see C72); vectors k+G that are zero or longer than 1e-7 (the code gives shorter ones polar angle 0)", "why_tests_cant": "the claim relates all pairs of runs on equivalent crystals and every density; a test can only compare a few numerically converged ones", "anchors": ["src/qtm/dft/scf.py: scf", "src/qtm/dft/ksham.py: KSHam.h_psi", "src/qtm/pot/hartree.py: compute", "src/qtm/pot/xc.py: compute", "src/qtm/pseudo/loc.py: loc_generate_pot_rhocore"]}
{"id": "C190", "title": "Dielectric-matrix files over histories of writes and crashes", "statement": "After any sequence of write_epsmat calls on any files, read_epsmat of a file returns the matrices of the last call for that file; a program stopped in the middle of writing leaves either the old or the new matrices readable, and a call that raises leaves the file as it was.", "quantifier": "all directories, sequences of calls, matrix lists, stopping points", "why_tests_cant": "the content depends on the whole history of calls and on the point of the crash; tests write once and finish", "anchors": ["src/qtm/gw/epsilon.py: Epsilon.write_epsmat", "src/qtm/gw/epsilon.py: Epsilon.read_epsmat", "src/qtm/interfaces/bgw/epsmat_read_write.py: write_mats", "src/qtm/interfaces/bgw/epsmat_read_write.py: read_mats"]}
{"id": "C191", "title": "Files of one array come back as written", "statement": "An array of any shape written with arr_to_h5 comes back from h5_to_arr with its shape and entries, whether or not the dataset is asked for by name.", "quantifier": "all arrays of all shapes, all dataset names", "why_tests_cant": "shapes and values are unbounded; tests fix one array", "anchors": ["src/qtm/interfaces/bgw/h5_utils.py: arr_to_h5", "src/qtm/interfaces/bgw/h5_utils.py: h5_to_arr"]}
{"id": "C192", "title": "Dot products and lengths are the same in every unit system", "statement": "dot, norm2 and norm of a lattice return, for arrays of any shape (3, ...) and every documented unit name, the scalar products and lengths in atomic units of the vectors the numbers stand for; dot has the shape of the two arrays without their leading axes; unknown unit names and other leading axes raise ValueError; lengths are non-negative, vanish only for zero vectors and obey the triangle inequality.", "quantifier": "all lattices, array shapes, entries and unit names", "why_tests_cant": "lattices, shapes and entries are unbounded; a wrong power of the unit or a swapped axis is invisible for alat = 1 or orthogonal cells", "anchors": ["src/qtm/lattice.py: Lattice.dot", "src/qtm/lattice.py: Lattice.norm", "src/qtm/lattice.py: RealLattice.dot", "src/qtm/lattice.py: RealLattice.norm2", "src/qtm/lattice.py: RealLattice.norm", "src/qtm/lattice.py: ReciLattice.dot", "src/qtm/lattice.py: ReciLattice.norm2"]}
{"id": "C193", "title": "The mesh of a unit cell", "statement": "get_mesh_coords(n1, n2, n3, coords, origin) returns for every documented unit name and every origin (a tuple, by default zero) n1 x n2 x n3 distinct points: point (i1, i2, i3) added to the origin is sum_a (i_a/n_a) a_a up to a lattice vector and lies within half a lattice vector of the origin along each axis; other numbers of points and unknown unit names raise ValueError.", "quantifier": "all lattices, mesh sizes, origins, unit names", "why_tests_cant": "sizes, origins and lattices are unbounded", "anchors": ["src/qtm/lattice.py: RealLattice.get_mesh_coords"]}
{"id": "C194", "title": "The kick and the recorded dipole", "statement": "The kick of dipole_response multiplies every orbital by the phases exp(-i strength x) and so changes no density and no overlap; kicks add up; the recorded dipole is the integral of position times change of density, zero in the first row, and independent of the origin of the coordinates; directions other than x, y, z are refused.", "quantifier": "all grids, bases, orbitals, strengths, coordinates, densities", "why_tests_cant": "depends on every basis, grid and orbital; tests run one molecule", "anchors": ["src/qtm/tddft_gamma/optical.py: dipole_response", "src/qtm/containers/field.py: FieldRType.integrate_unitcell", "src/qtm/containers/wavefun.py: WavefunGType.normalize"]}
{"id": "C195", "title": "Accuracy of the Taylor propagator", "statement": "One Taylor step of order p differs from the exact evolution exp(-i dt H) of the Kohn-Sham Hamiltonian by at most delta |psi| with delta = (L|dt|)^(p+1)/(p+1)! exp(L|dt|), where L bounds H; the norm drifts by at most delta per step; m steps differ from the exact evolution over m dt by at most ((1+delta)^m - 1)|psi|.", "quantifier": "all grids, bases, drivers, real local potentials, Hermitian non-local operators, time steps, orders, states, numbers of steps", "why_tests_cant": "an error bound uniform in the Hamiltonian and the number of steps is not observable on samples", "anchors": ["src/qtm/tddft_gamma/expoper/taylor.py: TaylorExp.prop_psi"]}
{"id": "C196", "title": "Order of accuracy of the split-operator step", "statement": "One split-operator step, divided by the number of grid points, differs from the exact evolution exp(-i dt H) psi by dt^2 ((PVP)^2 - P V^2 P)/2 psi + O(dt^3), P being the restriction to the basis: it is second order, like the textbook method, exactly for the states on which that operator vanishes, in particular for all states if the basis fills the FFT grid, and only first order on the truncated basis of a real run.", "quantifier": "all grids, bases, drivers, real local potentials, non-local operators with linearly independent projectors, states; dt tends to 0", "why_tests_cant": "an asymptotic order over all Hamiltonians cannot be sampled", "anchors": ["src/qtm/tddft_gamma/expoper/splitoper.py: SplitOper.prop_psi"]}
{"id": "C197", "title": "Reported energy is the Kohn-Sham energy of the orbitals", "statement": "At self-consistency the energy scf computes (band energies minus the integral of Hartree and exchange-correlation potential times density, plus Hartree and exchange-correlation energy) equals the Kohn-Sham energy of its orbitals: kinetic plus non-local energy of every orbital, energy of their density in the ionic potential, Hartree and exchange-correlation energy of their density; and its density is that of the orbitals. Needs the density cutoff to be at least four times the wavefunction cutoff.", "quantifier": "all FFT grids and drivers, lattices, crystals and pseudopotentials, k-point sets, spin components, occupations that add up to the number of electrons, exchange-correlation functionals, self-consistent solutions", "why_tests_cant": "two expressions for the energy are compared for every self-consistent solution; a test compares a few numbers", "anchors": ["src/qtm/dft/scf.py: scf.compute_en", "src/qtm/dft/kswfn.py: KSWfn.compute_rho", "src/qtm/dft/ksham.py: KSHam.h_psi"]}
{"id": "C198", "title": "The Hamiltonian is the gradient of the energy; self-consistent solutions are stationary points", "statement": "Along every straight path of orbitals with fixed occupations the Kohn-Sham energy (kinetic, non-local, ionic, Hartree and exchange-correlation energy as the code computes them) is differentiable, and its derivative is 2 Re of the occupation-weighted sum of <change | H orbital>, where H is what KSHam.h_psi applies with the local potential the SCF driver makes of the density of the orbitals. Hence at a self-consistent solution every change of the orbitals that keeps them normalised in first order leaves the energy unchanged in first order, and the energy there is the reported one.", "quantifier": "every crystal, species and projectors with symmetric D_ij, k-points and weights, occupations, orbitals with a density positive on the grid, direction, one or two spins, local functionals (with core) or gradient-corrected functionals (without core), FFT driver and its state", "why_tests_cant": "Needs the derivative along every direction for every functional and every crystal; a test compares finite differences along a few directions with a tolerance.", "anchors": ["src/qtm/dft/scf.py: scf.compute_en", "src/qtm/dft/ksham.py: KSHam.h_psi", "src/qtm/pot/xc.py: compute", "src/qtm/pot/hartree.py: compute"]}
{"id": "C199", "title": "GW results do not depend on the choice of degenerate orbitals", "statement": "When the orbitals given to a GW calculation are replaced by other orbitals spanning the same degenerate levels - new phases for single bands, unitary combinations within sets of bands of equal energy and occupation - the polarizability matrix (both the stored and the memory-saving variant) does not change in any element, and the bare exchange, static screened exchange and static Coulomb hole, summed over any set of bands closed under the mixing, do not change; where only phases change, every single element is unchanged. This holds for any number of processes and for both ways of traversing the matrix elements.", "quantifier": "all wavefunction sets, all unitary mixings within degenerate multiplets at every k-point of the unshifted and shifted wavefunctions, all q-points, FFT drivers, process counts", "why_tests_cant": "orbitals of degenerate levels are fixed only up to a unitary matrix by the eigensolver; a test compares two particular eigensolver outputs, the claim ranges over the whole unitary group for every multiplet structure", "anchors": ["src/qtm/gw/epsilon.py: Epsilon.matrix_elements", "src/qtm/gw/epsilon.py: Epsilon.polarizability", "src/qtm/gw/epsilon.py: Epsilon.polarizability_active", "src/qtm/gw/sigma.py: Sigma.sigma_x", "src/qtm/gw/sigma.py: Sigma.sigma_sx_static", "src/qtm/gw/sigma.py: Sigma.sigma_ch_static"]}
{"id": "C200", "title": "A supercell is the same physical system", "statement": "For a crystal and the supercell generated from it with any positive repeats, the local ionic potential, the core density and the starting atomic density generated for each species take the same value at every Cartesian point of space, whatever FFT grids are used, provided both G-spaces hold the vectors up to the same cutoff (as the default G-spaces do).", "quantifier": "every lattice, species list, atomic positions, repeats, radial data, cutoff, FFT grid sizes and Cartesian point", "why_tests_cant": "A test compares one crystal with one supercell; equality at every point for every repeat is a statement about roots of unity and the set of superlattice G-vectors.", "anchors": ["src/qtm/crystal/crystal.py: Crystal.gen_supercell", "src/qtm/pseudo/loc.py: loc_generate_pot_rhocore", "src/qtm/pseudo/loc.py: loc_generate_rhoatomic", "src/qtm/gspace/gspc.py: GSpace"]}
{"id": "C201", "title": "The points used to fold Coulomb samples contain the nearest mesh vector", "statement": "The average of the Coulomb interaction over the cell of q = 0 folds every random sample into that cell by subtracting the nearest of a list of q-points. The list consists of the sign images of the given q-points up to eight times the ball radius (half the shortest nonzero one). For an orthogonal cell that is not too elongated this contains the nearest mesh vector for every sample, so every folded sample lies in the cell of the origin and differs from the sample by a mesh vector. For an elongated cell (one edge more than four times another) it does not: half of all samples are left outside the cell. A shift shorter than 1e-5 counts as zero.", "quantifier": "every cell, q-mesh, neighbour search, sample stream and shift", "why_tests_cant": "a statement about every sample of a continuous distribution and every cell shape; tests use one nearly cubic crystal", "anchors": ["src/qtm/gw/vcoul.py: Vcoul.get_gamma_nbhd_qpts", "src/qtm/gw/vcoul.py: Vcoul.v_minibz_montecarlo_hybrid"]}
{"id": "C202", "title": "Size consistency of supercells", "statement": "For every crystal and every supercell generated from it, with the same cutoff and any FFT grids: two fields that agree in space have energies (integral of density times potential) and electron numbers in the ratio of the cell volumes; the Hartree potential computed from densities that agree in space agrees in space, and the Hartree energy is that of the cell times the number of repeated cells; likewise the energy of the atomic starting density in the local ionic potential.", "quantifier": "all crystals, repeats, cutoffs, FFT grids, densities and potentials", "why_tests_cant": "a statement about every crystal, repeat and density; tests compare single numbers for one supercell", "anchors": ["src/qtm/crystal/crystal.py: Crystal.gen_supercell", "src/qtm/pot/hartree.py: compute", "src/qtm/pseudo/loc.py: loc_generate_pot_rhocore", "src/qtm/pseudo/loc.py: loc_generate_rhoatomic"]}
{"id": "C203", "title": "Irreducible k-points plus symmetrisation give the density of all k-points", "statement": "Solving the Kohn-Sham equations only at chosen (irreducible) k-points and symmetrising the resulting density over the crystal's space group gives exactly the density that solving at every symmetry image of those k-points, each with an equal share of the weight, would give; the images have the same eigenvalues, occupations and inner products.", "quantifier": "every symmetry group of operations (rotations with fractional translations) of the crystal, every list of k-points, orbitals, occupations and weights, every grid and G-space closed under the group", "why_tests_cant": "An identity between two calculations over all groups, k-point sets and orbitals; a test compares one silicon run within a tolerance.", "anchors": ["src/qtm/symm/symmetrize_field.py: SymmFieldMod", "src/qtm/kpts.py: gen_monkhorst_pack_grid", "src/qtm/dft/kswfn.py: KSWfn.compute_rho", "src/qtm/dft/scf.py: scf"]}
{"id": "C204", "title": "Potentials and the mixing metric do not depend on the number of processes", "statement": "With plane waves distributed over any number of processes, hartree.compute, xc.compute, loc_generate_pot_rhocore and loc_generate_rhoatomic give every process exactly its part of the serial potentials and densities, all processes get the serial Hartree and exchange-correlation energies and the serial inner product of the density mixers (so the same convergence measure), whatever was transformed before; a call raises on all processes exactly if the serial call raises.", "quantifier": "every grid and G-space, every number of processes with at least one stick and one plane each, every history of earlier transforms, every density, core density and species, every combination of functionals evaluated point by point", "why_tests_cant": "An equality for all process counts, grids and histories of collective transforms; tests run one or two process counts.", "anchors": ["src/qtm/pot/hartree.py: compute", "src/qtm/pot/xc.py: compute", "src/qtm/pseudo/loc.py: loc_generate_pot_rhocore", "src/qtm/dft/mixing/base.py: MixModBase._dot", "src/qtm/mpi/containers.py: DistBufferType.__array_ufunc__", "src/qtm/mpi/gspace.py: DistGSpaceBase"]}
{"id": "C205", "title": "Charge mixing does not depend on how the plane waves are distributed", "statement": "For both mixing methods, run by the processes of a plane-wave group each on its own part of the density, the mixed densities of any history of calls to mix are the parts of the densities the serial mixer returns, the error measure is the serial one, the run fails exactly when the serial one fails and with the same exception on all processes, and all processes always count the same number of calls.", "quantifier": "all grids, G-vector sets, numbers of processes that can be served, both methods, all mixing parameters, all histories of input and output densities, all contents of uninitialised arrays", "why_tests_cant": "a test runs a few iterations on one number of processes; the claim is about every history and distribution, including the process that holds G = 0 and those that do not", "anchors": ["src/qtm/dft/mixing/modbro.py: ModBroyden._mix", "src/qtm/dft/mixing/genbro.py: GenBroyden._mix", "src/qtm/dft/mixing/base.py: MixModBase._dot", "src/qtm/mpi/containers.py: get_DistFieldG"]}
{"id": "C206", "title": "Hamiltonian and density do not depend on how the plane waves are distributed", "statement": "For every distribution of the plane waves of a k-point over processes: applying the Hamiltonian to a distributed wavefunction gives every process its part of the serial result; the projectors each process generates are its part of the serial ones; scalar products and norms are the serial ones; and compute_rho gives every process its grid points of the serial density, leaves the parts of the normalised serial wavefunctions, and fails exactly when the serial call does.", "quantifier": "all grids, plane-wave sets, numbers of processes that can be served, potentials, projectors, wavefunctions, band selections, spin components and histories of transforms", "why_tests_cant": "tests compare a few runs on a few processes", "anchors": ["src/qtm/dft/ksham.py: KSHam.h_psi", "src/qtm/dft/kswfn.py: KSWfn.compute_rho", "src/qtm/pseudo/nloc.py: NonlocGenerator.gen_vkb_dij", "src/qtm/mpi/containers.py: get_DistWavefunG", "src/qtm/mpi/gspace.py: DistGkSpace", "src/qtm/containers/wavefun.py: WavefunGType.norm2"]}
{"id": "C207", "title": "The Davidson solver does not depend on how the plane waves are distributed", "statement": "Run by the processes of a plane-wave group on the parts of the starting wavefunctions, the Davidson solver returns the parts of the wavefunctions of the serial solver, with the same eigenvalues, iteration count and convergence status, and fails exactly when the serial solver fails, with the same error; what the uninitialised work arrays hold has no influence.", "quantifier": "all plane-wave distributions, Hamiltonians, starting wavefunctions, thresholds, workspace sizes, iteration limits, reduced eigen-solvers and contents of work arrays", "why_tests_cant": "tests run single systems on a few processes; the claim covers every restart pattern and every distribution", "anchors": ["src/qtm/dft/eigsolve/davidson.py: solve", "src/qtm/dft/ksham.py: KSHam.h_psi", "src/qtm/mpi/containers.py: get_DistWavefunG"]}
{"id": "C208", "title": "Random starting wavefunctions", "statement": "KSWfn.init_random fills the bands of a k-point with reproducible random coefficients: the same k-point and seed give the same vectors, every coefficient has its own draws, its size is at most 1/(1+|k+G|^2), the first bands do not depend on how many bands are asked for nor on how the plane waves are distributed over processes, and it works for collinear and non-collinear wavefunctions.", "quantifier": "every k-point, seed, number of bands and plane waves, spin treatment and distribution of plane waves", "why_tests_cant": "A test starts one k-point with one number of bands on one process; that no draw is reused and what changes with the number of bands or processes is a statement about every size.", "anchors": ["src/qtm/dft/kswfn.py: KSWfn.init_random"]}
{"id": "C209", "title": "A whole SCF run on distributed plane waves is the serial run", "statement": "For any crystal input (any number of spin components, k-points and G-vectors, LDA or GGA, either mixing method, with or without symmetrisation), any number of processes sharing the plane waves of one band group, any contents of the FFT buffers, work arrays and mixers before the run, and the same starting density and states: scf on the processes makes in every iteration exactly the reports of the serial run (error, diagonalisation threshold, total and partial energies), converges in the same iteration or not at all, and ends with every process holding its part of the serial density and states; if the serial run raises, every process raises the same exception.", "quantifier": "every setup, process count, starting density, starting states, work-array contents, functionals, occupation rule, reduced eigen-solver and iteration limit", "why_tests_cant": "a test compares one small crystal on two processes to a tolerance; the claim is about every input and every iteration of the loop", "anchors": ["src/qtm/dft/scf.py: scf", "src/qtm/mpi/containers.py: get_DistFieldG", "src/qtm/mpi/gspace.py: DistGSpace", "src/qtm/dft/eigsolve/davidson.py: solve", "src/qtm/dft/mixing/base.py: MixModBase"]}
{"id": "C210", "title": "A whole SCF run does not depend on the process layout", "statement": "scf on any number of k-point groups, band groups and plane-wave processes makes the same reports (errors, thresholds, energies) in every iteration, converges in the same iteration and ends with the same density, eigenvalues and occupations as on one process, and with the same states up to a positive factor per band; or fails with the same exception. Every k-point is held by exactly one group, and the smearing occupations do not depend on the number of groups.", "quantifier": "all cells, densities, starting states, k-point lists, numbers of bands, of k-point groups, of band groups (at most the number of bands) and of plane-wave processes, all iteration counts, all contents of buffers", "why_tests_cant": "tests run a few layouts on a few systems and compare energies to a tolerance", "anchors": ["src/qtm/dft/scf.py: scf", "src/qtm/dft/kswfn.py: KSWfn.compute_rho", "src/qtm/dft/mixing/base.py: MixModBase.mix", "src/qtm/dft/occup/smear.py: compute_occ", "src/qtm/dft/eigsolve/davidson.py: solve"]}
{"id": "C211", "title": "A spin-polarised run without magnetisation is the unpolarised run", "statement": "scf called with is_spin=True, half of the density in either spin component and the same starting states in both spins makes, for the same crystal, k-points and settings and the polarised versions of the same functionals, in every iteration the same reports (error, diagonalisation threshold, every energy) as scf called with is_spin=False on the whole density; it converges in the same iteration, or not, or fails with the same exception, both components hold exactly half the other density whenever it returns (the magnetisation stays zero), and both spins hold its states, eigenvalues and occupations. The smearing routine finds the same Fermi level and smearing energy when every wavefunction is given twice with half its weight.", "quantifier": "all grids, G-vector sets, local and gradient functionals that agree at equal spins, core densities, k-points, weights, projectors, smearing types, mixing methods and histories, starting densities and states, tolerances and numbers of iterations", "why_tests_cant": "an equality between two whole runs for every input; tests compare a few energies of one crystal to some digits", "anchors": ["src/qtm/dft/scf.py: scf", "src/qtm/pot/xc.py: compute", "src/qtm/dft/occup/smear.py: compute_occ", "src/qtm/dft/mixing/base.py: MixModBase._dot", "src/qtm/pot/hartree.py: compute", "src/qtm/symm/symmetrize_field.py: SymmFieldMod.symmetrize"]}
{"id": "C212", "title": "The order and the repetition of k-points have no influence on a run", "statement": "scf gives the same errors, thresholds and energies in every iteration, converges in the same iteration or not at all, and returns the same density and the same states at equal k-points, when the list of k-points is given in another order, or a k-point is given several times with its weight split among the copies; if one of the runs raises, so does the other. The smearing routine finds the same smearing energy and occupations at equal points.", "quantifier": "all lists of k-points and weights that agree after adding the weights of equal points, all numbers of k-point groups (for the occupations), all crystals, functionals, mixers, starting densities and states, tolerances, numbers of iterations", "why_tests_cant": "an equality of two whole runs for every list and every input; a test runs a few lists", "anchors": ["src/qtm/dft/scf.py: scf", "src/qtm/dft/occup/smear.py: compute_occ", "src/qtm/klist.py: KList"]}
{"id": "C213", "title": "No process of a parallel SCF run waits forever", "statement": "For every process layout (k-groups x band groups x plane-wave groups), whatever each process computes locally (roundoff may differ between processes), and whatever the order in which the collective calls complete: a call of scf never deadlocks - every partial schedule can be continued, all complete schedules have the same length and end in the same state, every process returns, and all processes agree on convergence and on the number of iterations.", "quantifier": "all layouts, all local computations and memories, all reductions (even ones whose result differs between members), all schedules of the collectives, all numbers of iterations", "why_tests_cant": "A deadlock depends on the layout, on data-dependent branches and on the schedule; tests see single runs on few processes.", "anchors": ["src/qtm/dft/scf.py: scf", "src/qtm/dft/eigsolve/davidson.py: solve", "src/qtm/dft/occup/smear.py: compute_occ", "src/qtm/dft/occup/fixed.py: compute_occ", "src/qtm/dft/mixing/base.py: mix", "src/qtm/mpi/comm.py: QTMComm", "src/qtm/mpi/check_args.py: check_system", "src/qtm/dft/config.py: DFTCommMod"]}
{"id": "C214", "title": "A self-energy calculation finishes with the same table on any number of processes", "statement": "Creating a Sigma object and running calculate_static_cohsex or calculate_gpp on any number of MPI processes completes every collective call and gives every process the table a single process computes: each q-point is counted exactly once in every self-energy. A process that fails (a q-point raises an exception, an automatic save without q-points) does not leave the others waiting.", "quantifier": "all numbers of processes and q-points, all per-q computations including failing ones, all schedules", "why_tests_cant": "schedules and process counts; a hang is not an assertion failure", "anchors": ["src/qtm/gw/sigma.py: Sigma.__init__, Sigma.sigma_x, Sigma.sigma_sx_static, Sigma.sigma_ch_static, Sigma.sigma_ch_static_exact, Sigma.sigma_sx_gpp, Sigma.sigma_ch_gpp, Sigma.calculate_static_cohsex, Sigma.calculate_gpp", "src/qtm/gw/vcoul.py: Vcoul.__init__, Vcoul.calculate_vcoul"]}
{"id": "C215", "title": "The printed tables of timers and counters say what was recorded", "statement": "Printing the logger lists every existing timer exactly once with the calls, time and status that follow from the history of starts, stops, resets and deletions, in a form from which they can be read back; the counters are listed likewise.", "quantifier": "all histories of timer operations, all labels, all counter tables", "why_tests_cant": "histories and labels are unbounded", "anchors": ["src/qtm/logger.py: QTMTimer.__str__, QTMCounter.__str__, QTMLogger.__str__"]}
{"id": "C216", "title": "Arithmetic with fields and wavefunctions", "statement": "A numpy function or operator applied to containers of one class, numbers and arrays whose shapes fit gives, element by element, the value of the function, as a container of that class with the complete basis axis; containers of different spaces or kinds, and other objects, are refused with TypeError, shapes that do not fit with ValueError; in-place operations change the container itself and keep its shape. Distributed containers are combined without communication, each process ending with its part of the serial result. (The pinned code returns an array if the basis has one element and the array operand has more, raises AttributeError instead of TypeError for distributed containers, and adds up the element-wise results of all processes when out= is a plain array.)", "quantifier": "all ufuncs, operand lists, shapes, contents, bases, numbers of processes and decompositions", "why_tests_cant": "universal over shapes, values and decompositions", "anchors": ["src/qtm/containers/buffer.py: BufferType.__array_ufunc__", "src/qtm/mpi/containers.py: DistBufferType.__array_ufunc__"]}
{"id": "C217", "title": "A symmetric start stays symmetric; the iteration limit only truncates", "statement": "If an operation (translation, rotation, spin exchange) is a symmetry of the calculation and the starting density and wavefunctions have it, then the density and the wavefunctions have it after every iteration of scf. Calling scf with a smaller iteration limit makes the same first reports and stops; if the limit is not reached the result is the same.", "quantifier": "all crystals, symmetries, symmetric starts, iteration limits, both mixers", "why_tests_cant": "quantifies over SCF histories of every length", "anchors": ["src/qtm/dft/scf.py: scf", "src/qtm/dft/mixing/base.py: MixModBase"]}
{"id": "C218", "title": "A run with symmetrised density is a run with all k-points", "statement": "A self-consistent run with symm_rho=True at irreducible k-points is the same as a self-consistent run without symmetrisation at all symmetry images of those k-points, each with an equal share of the weight: same density, potential, eigenvalues, occupations, Hartree, exchange-correlation and total energy. In particular the energy reported is the Kohn-Sham energy (kinetic, non-local, ionic, Hartree and exchange-correlation) of orbitals at all the images, and the density is the density of these orbitals.", "quantifier": "every space group of operations that maps the crystal, the grid and the G-sphere to themselves, every list of k-points with plane waves, weights, bands, spins and occupations, local and gradient functionals acting point by point, whatever the symmetriser's uninitialised memory contains", "why_tests_cant": "Tests run one or two crystals and compare energies to a few digits; the equality must hold for every group and every solution", "anchors": ["src/qtm/dft/scf.py: scf, update_rho_out", "src/qtm/symm/symm_field.py: SymmFieldMod.symmetrize"]}
{"id": "C219", "title": "Self-energy matrix elements carry the momentum -(q+G)", "statement": "In Sigma the matrix element used for the q-point q and the G-vector G is the overlap between a state at the self-energy k-point and a state at a k-point of the list (of the shifted calculation at the q0 point) such that the momentum transferred is -(q+G) (-G at the q0 point) within the matching tolerance; so sigma_x is the exchange over all momentum transfers q+G below the cutoff.", "quantifier": "every mesh of q-points in the first cell closed under q -> -q, every cutoff, every choice of the q0 shift, all wavefunctions, bands, self-energy k-points and process counts", "why_tests_cant": "Tests compare self-energies of one crystal to reference numbers; a wrong vector for a single G changes them slightly", "anchors": ["src/qtm/gw/sigma.py: Sigma.index_minusq", "src/qtm/gw/sigma.py: Sigma.map_g_to_g_minusq", "src/qtm/gw/sigma.py: Sigma.matrix_elements", "src/qtm/gw/sigma.py: Sigma.sigma_x"]}
{"id": "C220", "title": "Time reversal: half of the k-points are enough", "statement": "Leaving out the k-point -k of a pair (k, -k) and giving k the weight of both changes nothing: for every self-consistent calculation at the reduced list there is a self-consistent calculation at the full list with the same density, potential, band energies, occupations and total energy, whose orbitals at -k are the complex conjugates of those at k, and the reported energy is the Kohn-Sham energy of all these orbitals. The same holds together with the reduction by the space group when the density is symmetrised. The weights that the mesh generator gives a representative are the sums of the equal weights of the mesh points it stands for.", "quantifier": "every lattice, crystal, FFT grid, set of pseudopotentials with projectors of order up to 3, exchange-correlation functional, number of bands, reduced list of k-points and every way of distributing weights over k and -k up to reciprocal lattice vectors; every mapping of mesh points to representatives", "why_tests_cant": "A test compares two runs on one small crystal to the convergence threshold; that no crystal, functional or list of k-points breaks the equality is a statement about all of them", "anchors": ["src/qtm/kpts.py: gen_monkhorst_pack_grid", "src/qtm/dft/scf.py: scf", "src/qtm/dft/kswfn.py: KSWfn", "src/qtm/containers/field.py: FieldR"]}
{"id": "C221", "title": "GW quantities do not depend on the choice of the origin of the crystal", "statement": "Moving the whole crystal by a vector t multiplies the plane-wave coefficient of G by exp(-2πi t·(k+G)). The polarizability and the inverse dielectric matrix computed from the moved states are the old ones with element (G, G') multiplied by exp(2πi t·(G-G')) (head and wing corrections keep this relation), and the exchange, screened-exchange, Coulomb-hole self-energies (sum over bands and closure) are the same numbers, for every shift that the FFT grid resolves (whole grid steps, or any shift if the grid has no aliasing). In the plasmon-pole model the same should hold of the frequencies.", "quantifier": "every shift, every set of wavefunctions, k- and q-meshes, both storage variants, every number of processes", "why_tests_cant": "A test would compare two runs for one shift and one crystal; the property is about all of them.", "anchors": ["src/qtm/gw/epsilon.py: Epsilon.matrix_elements, Epsilon.polarizability, Epsilon.epsilon_inverse", "src/qtm/gw/sigma.py: Sigma.sigma_x, Sigma.sigma_sx_static, Sigma.sigma_ch_static, Sigma.sigma_ch_static_exact, Sigma.sigma_gpp_omegas", "src/qtm/gw/vcoul.py: Vcoul.fixwings"]}
{"id": "C222", "title": "The table of Coulomb values", "statement": "Vcoul.calculate_vcoul gives, for every q-point and every G-vector of its grid, in the order of the q-points and whatever the number of processes, the bare value 8*pi/|q+G|^2 (bare=True; NaN at q+G=0) or the Monte-Carlo average for q+G with q replaced by zero at the q0 point (bare=False). A table is produced whenever some image of a q-point lies away from zero. The class also promises that values with |q+G|^2 above avgcut are the bare ones, that SEED selects the samples and that N_SAMPLES is the number of samples averaged over: these fail.", "quantifier": "every list of q-points and lists of G-vectors, every number of processes, every choice of bare/random_avg/averaging_func, every state of the sample cache", "why_tests_cant": "the values go through cached Monte-Carlo sampling and a split over processes; a test sees one list, one seed and one process count", "anchors": ["src/qtm/gw/vcoul.py: Vcoul.calculate_vcoul", "src/qtm/gw/vcoul.py: Vcoul.calculate_vcoul_single_qpt", "src/qtm/gw/vcoul.py: Vcoul.v_bare", "src/qtm/gw/vcoul.py: Vcoul.mt19937_samples", "src/qtm/gw/vcoul.py: Vcoul.oneoverq_minibz_montecarlo"]}
{"id": "C223", "title": "Order and repetition of the lists of a GW calculation", "statement": "The polarizability and the inverse dielectric matrix do not depend on the order in which the k-points (with their wavefunctions), the plane waves of each wavefunction, or the G-vectors of the matrix are listed: only the rows and columns are reordered with the G-vectors. The same holds for both ways of calculating the polarizability and for every FFT driver. Repeating k-points of the mesh leaves the result unchanged (it does not: every k-point listed r times multiplies the polarizability by r).", "quantifier": "every order and multiplicity of k-points, every order of plane waves and of G-vectors, all wavefunctions, occupations and Coulomb values", "why_tests_cant": "all permutations of lists of arbitrary length and content", "anchors": ["src/qtm/gw/epsilon.py: Epsilon.matrix_elements", "src/qtm/gw/epsilon.py: Epsilon.polarizability", "src/qtm/gw/epsilon.py: Epsilon.polarizability_active", "src/qtm/gw/epsilon.py: Epsilon.epsilon_inverse", "src/qtm/gw/core.py: reorder_2d_matrix_sorted_gvecs"]}
{"id": "C224", "title": "The zero of energy is arbitrary", "statement": "Adding a constant c to the local ionic potential (for instance through the G = 0 term of a pseudopotential) must raise every eigenvalue and the Fermi level (or the highest occupied and lowest empty level) by c and the total energy by c times the number of electrons, and change nothing else: h_psi gains c times the wavefunction, the Davidson solver goes through the same vectors in the same number of iterations, occupations, smearing energy, densities, density errors, thresholds and the iteration in which the run converges are the same.", "quantifier": "All constants, potentials, grids, G-vector lists, wavefunctions, numbers of bands, eigenvalues, k-point groups, smearing types and widths, electron numbers, maximum iteration numbers and starting densities.", "why_tests_cant": "A test can compare two runs of one crystal; that the constant never enters anything but the levels and the energy concerns every potential and every iteration, and a preconditioner that depends on it only makes runs slower or takes them along other vectors.", "anchors": ["src/qtm/dft/scf.py: scf", "src/qtm/dft/eigsolve/davidson.py: solve", "src/qtm/dft/ksham.py: KSHam.h_psi", "src/qtm/dft/occup/smear.py: compute_occ", "src/qtm/dft/occup/fixed.py: compute_occ"]}
{"id": "C225", "title": "GW at q and -q", "statement": "In a system with time-reversal symmetry the polarizability calculated at -q is the complex conjugate of the one at q with every G-vector reversed, and so is the inverse dielectric matrix (errors and NaN included), for both ways of calculating the polarizability and for every FFT driver. The k-points may be folded into the cell in any way, and all lists may be in any order.", "quantifier": "every mesh of k-points, q-point, set of plane waves and G-vectors, wavefunctions with their time-reversed partners, occupations and Coulomb values", "why_tests_cant": "a relation between two calculations, for all meshes and wavefunctions", "anchors": ["src/qtm/gw/epsilon.py: Epsilon.matrix_elements", "src/qtm/gw/epsilon.py: Epsilon.polarizability", "src/qtm/gw/epsilon.py: Epsilon.polarizability_active", "src/qtm/gw/epsilon.py: Epsilon.epsilon_inverse"]}
{"id": "C226", "title": "What the convergence error of an SCF run measures", "statement": "The error that the mixer reports is the energy that the Hartree routine gives for the difference of output and input density, plus, for two spin components, a term measuring the difference of the magnetisations: it is what the Hartree energy of the output density differs by from its first-order expansion at the input density. It is symmetric and non-negative, and vanishes exactly when the charges agree at every G other than zero and the magnetisations agree everywhere, so a different number of electrons alone is not seen.", "quantifier": "all densities, G-spaces and grids, one or two components", "why_tests_cant": "identities over all densities", "anchors": ["src/qtm/dft/mixing/base.py: MixModBase._dot", "src/qtm/dft/mixing/base.py: MixModBase.compute_error", "src/qtm/pot/hartree.py: compute", "src/qtm/dft/scf.py: scf"]}
{"id": "C227", "title": "Time propagation depends only on the occupied states", "statement": "The densities handed to the dipole updater by a time propagation do not depend on the phases of the starting orbitals, on the order in which they are listed with their occupations, on the starting density handed over, or on any unitary mixing of orbitals of equal occupation; one density is handed over per step. Anything that maps states, densities and potentials of one system compatibly to those of another maps the whole propagation.", "quantifier": "all numbers of steps and orbitals, bases, potentials as functions of the density, time steps, both exponential and both propagation methods", "why_tests_cant": "universal over states, potentials and numbers of steps", "anchors": ["src/qtm/tddft_gamma/propagate.py: propagate", "src/qtm/tddft_gamma/prop/etrs.py: prop_step", "src/qtm/tddft_gamma/prop/splitoper.py: prop_step", "src/qtm/tddft_gamma/expoper/taylor.py: TaylorExp.prop_psi", "src/qtm/tddft_gamma/expoper/splitoper.py: SplitOper.prop_psi", "src/qtm/dft/kswfn.py: KSWfn.compute_rho"]}
{"id": "C228", "title": "The zero of the potential and the place of the crystal do not matter in a time propagation", "statement": "A potential that differs by a constant (which may depend on the density) must give the same densities and dipoles at every step, and orbitals that differ by phases only; a crystal whose atoms, orbitals and potential are moved by whole grid steps must give the densities and orbitals of the unmoved crystal, moved by these steps. The factors of the split operator are those of the unmoved atoms.", "quantifier": "All grids, bases, potentials as functions of the density, constants, moves, species and projectors, time steps, orders, methods, occupations, starting orbitals and numbers of steps.", "why_tests_cant": "A test can compare two runs of one crystal for some steps; that a constant cancels at every step whatever the density, and that every factor of every step moves with the atoms, concerns all crystals and all numbers of steps.", "anchors": ["src/qtm/tddft_gamma/propagate.py: propagate", "src/qtm/tddft_gamma/expoper/splitoper.py: SplitOper", "src/qtm/tddft_gamma/expoper/taylor.py: TaylorExp", "src/qtm/tddft_gamma/prop/etrs.py", "src/qtm/tddft_gamma/prop/splitoper.py"]}
{"id": "C229", "title": "Complex conjugate orbitals run backwards in time", "statement": "Propagating the complex conjugates of the orbitals with the time step -dt must give the same densities (and dipoles) at every step as propagating the orbitals with dt, and in the end the complex conjugates of their orbitals, when the potentials and projectors are real functions in space.", "quantifier": "All grids, bases closed under inversion, potentials as functions of the density, real projectors, time steps, orders, methods, occupations, starting orbitals and numbers of steps.", "why_tests_cant": "A test can compare the two runs for one crystal and some steps; a factor that misses the sign or the conjugate of the time step shows only where orbitals are not real, which ground states at Gamma can be.", "anchors": ["src/qtm/tddft_gamma/propagate.py: propagate", "src/qtm/tddft_gamma/expoper/splitoper.py: SplitOper", "src/qtm/tddft_gamma/expoper/taylor.py: TaylorExp", "src/qtm/pseudo/nloc.py: gen_vkb_dij"]}
{"id": "C230", "title": "A run of the split-operator propagator can be retraced", "statement": "A run of n steps from normalised orbitals followed by a run of n steps with -dt must end with the orbitals it started from and record the same densities in the opposite order; the same holds, up to complex conjugation, when the orbitals are conjugated after the run and the run is repeated with dt. The potential is recomputed from the density in every step.", "quantifier": "All grids, potentials as functions of the density, species, time steps, occupations, normalised starting orbitals (not only orthogonal ones) and numbers of steps.", "why_tests_cant": "A test retraces one crystal for some steps and within an accuracy; that every step is undone exactly although the potential depends on the orbitals is a statement about all orbitals and potentials.", "anchors": ["src/qtm/tddft_gamma/propagate.py: propagate", "src/qtm/tddft_gamma/prop/splitoper.py", "src/qtm/tddft_gamma/expoper/splitoper.py: SplitOper"]}
