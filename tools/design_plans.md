* **C01 Block distribution covers every item exactly once** - Model scatter_len/scatter_slice over Nat; prove existence+uniqueness of the owning rank by arithmetic on div/mod.
* **C02 Block distribution is balanced** - Same model; closed-form sum by induction over ranks.
* **C03 scatter_slice without a rank returns the slices of all ranks** - Model both return paths; prove the all-ranks path raises for size>1 (negation) and a partial for size=1.
* **C04 k-points are dealt to k-groups exactly once** - k-list as List of (k, weight); scatter as drop/take (block) and stride filter (round robin); prove flatten/permutation.
* **C05 Rank layout of DFT communicators is a bijection** - Rank arithmetic over Nat; explicit inverse map; bijection.
* **C06 Every (k-point, band) contribution is summed exactly once** - Sum over ranks of sums over owned k and bands, reordered with Finset.sum lemmas using C01/C05.
* **C07 Collective calls match across band groups** - Per-rank collective traces as lists; equality iff all slices non-empty; concrete failing witness.
* **C08 Communicator blocks synchronise and propagate errors** - Small-step model of enter/body/exit producing event traces; case analysis and induction over nesting.
* **C09 Null and single-process communicators behave neutrally** - Table of operations; theorem per operation for null / serial communicators.
* **C10 G-vector to FFT-grid index map is one-to-one** - Integer model of the index map; explicit inverse; bijection on boxes.
* **C11 Canonical G-vector order and its inverse permutation** - Sort by key (iy,iz,ix) modelled with a stable merge sort on an injective key; uniqueness of sorted permutations.
* **C12 The G=0 component is always stored first** - Corollary of sortedness: the zero key is minimal.
* **C13 The default FFT grid holds the whole cutoff sphere** - Real inner-product geometry: |m_i| = |a_i . G| / 2pi <= |a_i||G|/2pi (Cauchy-Schwarz) below half grid.
* **C14 Default FFT grid dimensions are the smallest FFT-friendly sizes** - Search loop with fuel replaced by well-founded recursion on distance to the next power of two; minimality invariant.
* **C15 User-supplied FFT grids are checked against the cutoff** - Model the comparison as written; prove it never raises (negation), and that a corrected premise gives completeness (partial).
* **C16 A k-point basis is exactly the cutoff sphere around -k** - List filter model; membership characterisation + order preservation + index map.
* **C17 Fourier transform round trip on the basis** - take/put model with the 3D DFT as a linear equivalence; round trip.
* **C18 Real-to-G followed by G-to-real is a projection** - Idempotence from 17.
* **C19 Stick transform equals the full transform** - Axis-separable transforms; column sparsity; equality function extensionality.
* **C20 Transforms do not depend on earlier transforms** - State machine with explicit work buffers (arbitrary initial garbage); result independent of state by induction on calls.
* **C21 Distributed G-vectors and grid points partition the serial ones** - searchsorted slices over sorted keys; partition.
* **C22 Distributed transforms equal the serial transforms** - Ranks as Fin p; Alltoallv as a function exchange; equality with serial.
* **C23 Scatter and gather of distributed fields are inverse** - Concatenation of contiguous blocks.
* **C24 Distributed reductions equal serial reductions** - Fold of folds.
* **C25 Indexing a field or wavefunction never cuts the basis axis** - Index expression model (ints, slices, ellipsis) on shapes.
* **C26 Lattice coordinate conversions are mutually inverse** - 3x3 matrices over a field.
* **C27 Direct and reciprocal lattices are duals** - 3x3 matrices over reals.
* **C28 k-point weights are normalised** - Lists of rationals/reals.
* **C29 Monkhorst-Pack meshes sample the full zone uniformly** - Mesh as product of ranges; average over the zone; counterexample function for the time-reversal branch.
* **C30 Supercells repeat the crystal faithfully** - Product of index ranges.
* **C31 Symmetrised densities are symmetric, and symmetrising twice changes nothing** - Group action with phase cocycle; orbit average.
* **C32 Hartree potential ignores G=0 and Hartree energy is non-negative** - Sum of squares over G /= 0.
* **C33 Divergence of gradient is the Laplacian** - Componentwise algebra.
* **C34 Exchange-correlation functional selection is consistent** - Fold over species list.
* **C35 Fixed occupations hold exactly the electrons** - Sums over lists.
* **C36 Fermi level search is sound** - Loop invariant over bisection steps, partial correctness for any number of steps; non-termination witness.
* **C37 Smearing occupations lie in [0,1] and are monotone** - Real analysis with Real.exp.
* **C38 Broyden mixing history holds the most recent steps** - Induction over steps on ring buffers.
* **C39 Mixing keeps self-consistent densities and total charge** - Induction over steps, linearity of the update.
* **C40 SCF loop terminates and reports convergence truthfully** - Loop as recursion over iterations; first-hit characterisation.
* **C41 Diagonalisation threshold schedule** - Recurrence invariant.
* **C42 Charge normalisation** - Field algebra.
* **C43 Davidson subspace never overflows its workspace** - Invariant of the solver control state.
* **C44 Davidson returns vectors matching its eigenvalues** - Ghost versions attached to values/vectors.
* **C45 Timers balance and count calls** - State machine over an association table.
* **C46 Counters behave as a label-to-number map** - Refinement to a function label -> number.
* **C47 Long timer labels** - String truncation model; witness.
* **C48 Configuration setters take effect** - Record update model; negation for the two setters.
* **C49 Taylor propagator computes the truncated exponential** - Induction over order in a module.
* **C50 Split-operator step is time-reversible** - Composition of invertible maps.
* **C51 Bravais-lattice tables give the documented cell** - Real algebra on 3-vectors.
* **C52 Dielectric matrices survive write/read** - Matrices as functions on Fin n with padding.
* **C53 Options in epsilon.inp take effect** - List membership model.
* **C54 Polarizability is Hermitian and negative semidefinite** - Complex matrices.
* **C55 GW sums over q-points do not depend on the process count** - array_split partition.
* **C56 Reordering matrices between G-vector orders is invertible** - Permutation algebra.
