{
 "claims": [
  {
   "property": "C01",
   "status": "proved",
   "theorems": [
    "Verif.Scatter.C01_scatter_partition",
    "Verif.Scatter.C01_blocks_concat",
    "Verif.Scatter.C01_bad_arguments",
    "Verif.Scatter.C01_davidson_blocks"
   ],
   "note": ""
  },
  {
   "property": "C02",
   "status": "proved",
   "theorems": [
    "Verif.Scatter.C02_scatter_balanced"
   ],
   "note": ""
  },
  {
   "property": "C03",
   "status": "partial",
   "theorems": [
    "Verif.Scatter.C03_all_ranks_contract_fails",
    "Verif.Scatter.C03_per_rank_calls_partial"
   ],
   "note": "The documented contract is false of the pinned code: the negation is proved; the partial theorem covers calls with an explicit rank."
  },
  {
   "property": "C04",
   "status": "proved",
   "theorems": [
    "Verif.Scatter.C04_scatter_blocks",
    "Verif.Scatter.C04_scatter_weights",
    "Verif.Scatter.C04_distribute_blocks",
    "Verif.Scatter.C04_distribute_round_robin"
   ],
   "note": ""
  },
  {
   "property": "C05",
   "status": "proved",
   "theorems": [
    "Verif.DFTComm.C05_layout_bijection",
    "Verif.DFTComm.C05_accepts_iff"
   ],
   "note": ""
  },
  {
   "property": "C06",
   "status": "proved",
   "theorems": [
    "Verif.DFTComm.C06_density_layout_independent",
    "Verif.DFTComm.C06_eigen_layout_independent"
   ],
   "note": ""
  },
  {
   "property": "C07",
   "status": "proved",
   "theorems": [
    "Verif.DFTComm.C07_collectives_agree_iff"
   ],
   "note": "Exact characterisation: the pinned code breaks the intended contract exactly when there are fewer bands than band groups."
  },
  {
   "property": "C08",
   "status": "proved",
   "theorems": [
    "Verif.Mpi.C08_skip_never_escapes",
    "Verif.Mpi.C08_errors_propagate",
    "Verif.Mpi.C08_error_stops",
    "Verif.Mpi.C08_block_trace",
    "Verif.Mpi.C08_parent_in_step",
    "Verif.Mpi.C08_serial_block"
   ],
   "note": ""
  },
  {
   "property": "C09",
   "status": "partial",
   "theorems": [
    "Verif.Mpi.C09_null_refuses",
    "Verif.Mpi.C09_serial_neutral_partial",
    "Verif.Mpi.C09_allreduce_buffer_fails",
    "Verif.Mpi.C09_scatter_fails",
    "Verif.Mpi.C09_incl_single"
   ],
   "note": "Serial scatter and buffer Allreduce are not neutral in the pinned code (negations proved); every other operation is."
  },
  {
   "property": "C10",
   "status": "proved",
   "theorems": [
    "Verif.GSpace.C10_index_bijection"
   ],
   "note": ""
  },
  {
   "property": "C100",
   "status": "partial",
   "theorems": [
    "Verif.QEParse.C100_entries",
    "Verif.QEParse.C100_order_partial",
    "Verif.QEParse.C100_order_violated"
   ],
   "note": "values are passed in insertion order of the dictionary: wrong species unless entries come in the order 1, 2, ..."
  },
  {
   "property": "C101",
   "status": "partial",
   "theorems": [
    "Verif.QEParse.C101_partial",
    "Verif.QEParse.C101_violated"
   ],
   "note": "m-p smearing and mixing_beta = 0 are accepted and then fail in scf"
  },
  {
   "property": "C102",
   "status": "partial",
   "theorems": [
    "Verif.QEParse.C102_ignored_violated"
   ],
   "note": "violated: the three values have no effect on any accepted input"
  },
  {
   "property": "C103",
   "status": "partial",
   "theorems": [
    "Verif.QEParse.C103_replaced_violated",
    "Verif.QEParse.C103_noncolin",
    "Verif.QEParse.C103_legal_partial"
   ],
   "note": "violated: AttributeError (assignment to a NamedTuple field)"
  },
  {
   "property": "C104",
   "status": "partial",
   "theorems": [
    "Verif.QEParse.C104_automatic_partial",
    "Verif.QEParse.C104_explicit_violated"
   ],
   "note": "explicit lists never succeed (Crystal has no recispc)"
  },
  {
   "property": "C105",
   "status": "partial",
   "theorems": [
    "Verif.QEParse.C105_partial",
    "Verif.QEParse.C105_override_violated"
   ],
   "note": "override fails with KeyError"
  },
  {
   "property": "C106",
   "status": "partial",
   "theorems": [
    "Verif.QEParse.C106_partial",
    "Verif.QEParse.C106_nspin_violated"
   ],
   "note": "other values are treated as unpolarised"
  },
  {
   "property": "C107",
   "status": "partial",
   "theorems": [
    "Verif.QEParse.C107_mixdim_partial",
    "Verif.QEParse.C107_mixdim_violated",
    "Verif.QEParse.C107_progress"
   ],
   "note": "mix_dim = 1 passes scf and fails in the mixer; progress proved"
  },
  {
   "property": "C108",
   "status": "partial",
   "theorems": [
    "Verif.QEParse.C108_partial",
    "Verif.QEParse.C108_ecutrho_violated"
   ],
   "note": "a given ecutrho is always replaced by 4 ecutwfc"
  },
  {
   "property": "C109",
   "status": "proved",
   "theorems": [
    "Verif.GW.C109_matrix_elements",
    "Verif.GW.C109_no_aliasing",
    "Verif.GW.C109_partner"
   ],
   "note": ""
  },
  {
   "property": "C11",
   "status": "proved",
   "theorems": [
    "Verif.GSpace.C11_canonical_order",
    "Verif.GSpace.C11_data_round_trip",
    "Verif.GSpace.C11_order_independent"
   ],
   "note": ""
  },
  {
   "property": "C110",
   "status": "proved",
   "theorems": [
    "Verif.GW.C110_umklapp"
   ],
   "note": ""
  },
  {
   "property": "C111",
   "status": "proved",
   "theorems": [
    "Verif.GW.C111_v_bare",
    "Verif.GW.C111_epsilon_inverse",
    "Verif.GW.C111_nan",
    "Verif.GW.C111_screening"
   ],
   "note": "exact arithmetic; np.linalg.inv modelled as the exact inverse"
  },
  {
   "property": "C112",
   "status": "partial",
   "theorems": [
    "Verif.GW.C112_exchange",
    "Verif.GW.C112_nonpositive",
    "Verif.GW.C112_duplicate_k",
    "Verif.GW.C112_occupied_partial",
    "Verif.GW.C112_cutoffs",
    "Verif.GW.C112_metal"
   ],
   "note": "proved for uniform filling, distinct k-points and equal cutoffs; metals, repeated k-points and different cutoffs are proved violations"
  },
  {
   "property": "C113",
   "status": "partial",
   "theorems": [
    "Verif.GW.C113_sx",
    "Verif.GW.C113_ch",
    "Verif.GW.C113_bounds",
    "Verif.GW.C113_q0_sort",
    "Verif.GW.C113_fewer_kpoints"
   ],
   "note": "violations proved: q0 sort keys of another sphere, fewer k-points than q-points"
  },
  {
   "property": "C114",
   "status": "proved",
   "theorems": [
    "Verif.GW.C114_fixwings",
    "Verif.GW.C114_bare_identity",
    "Verif.GW.C114_default_head"
   ],
   "note": ""
  },
  {
   "property": "C115",
   "status": "partial",
   "theorems": [
    "Verif.GW.C115_injective",
    "Verif.GW.C115_lookup_partial",
    "Verif.GW.C115_quarter",
    "Verif.GW.C115_wraps"
   ],
   "note": "addresses wrap outside the box; a vector without density raises KeyError"
  },
  {
   "property": "C116",
   "status": "partial",
   "theorems": [
    "Verif.GW.C116_bra",
    "Verif.GW.C116_index",
    "Verif.GW.C116_negative_component",
    "Verif.GW.C116_partner",
    "Verif.GW.C116_momentum",
    "Verif.GW.C116_same_partner",
    "Verif.GW.C116_tolerance"
   ],
   "note": "violated for q-points listed with negative components; tolerances of Sigma and Epsilon differ"
  },
  {
   "property": "C117",
   "status": "partial",
   "theorems": [
    "Verif.GW.C117_cohsex",
    "Verif.GW.C117_gpp_partial",
    "Verif.GW.C117_gpp_primed",
    "Verif.GW.C117_band_labels",
    "Verif.GW.C117_non_root",
    "Verif.GW.C117_root"
   ],
   "note": "primed columns and Znk of the plasmon-pole table, band labels, non-root processes: proved violations"
  },
  {
   "property": "C118",
   "status": "partial",
   "theorems": [
    "Verif.GW.C118_pole",
    "Verif.GW.C118_not_neglected",
    "Verif.GW.C118_one_sided",
    "Verif.GW.C118_terms",
    "Verif.GW.C118_static_limit"
   ],
   "note": "neglected entries keep Omega2; the imaginary-part test is one-sided"
  },
  {
   "property": "C119",
   "status": "proved",
   "theorems": [
    "Verif.QEParse.C119_units"
   ],
   "note": ""
  },
  {
   "property": "C12",
   "status": "proved",
   "theorems": [
    "Verif.GSpace.C12_g0_first",
    "Verif.Dist.C12_first_process_owns"
   ],
   "note": ""
  },
  {
   "property": "C120",
   "status": "partial",
   "theorems": [
    "Verif.GW.C120_conjugate",
    "Verif.GW.C120_real_partial",
    "Verif.GW.C120_complex"
   ],
   "note": "holds for real symmetric matrices only"
  },
  {
   "property": "C121",
   "status": "partial",
   "theorems": [
    "Verif.GW.C121_order",
    "Verif.GW.C121_native_order",
    "Verif.GW.C121_q0_order"
   ],
   "note": "correct iff the matrix comes in BerkeleyGW order of q+G; both documented routes violate that in cases exhibited"
  },
  {
   "property": "C122",
   "status": "partial",
   "theorems": [
    "Verif.GW.C122_exact_partial",
    "Verif.GW.C122_bounds",
    "Verif.GW.C122_band_offset",
    "Verif.GW.C122_high_k",
    "Verif.GW.C122_truncated"
   ],
   "note": "band offset ignored, k-points beyond the number of q-points get zero, pairs above the cutoff dropped (proved violations)"
  },
  {
   "property": "C123",
   "status": "partial",
   "theorems": [
    "Verif.BGW.C123_plane_waves",
    "Verif.BGW.C123_coefficients",
    "Verif.BGW.C123_readers_agree",
    "Verif.BGW.C123_inverted",
    "Verif.BGW.C123_not_a_phase"
   ],
   "note": "The reordering is proved for all plane-wave orders; violated for the values: i\u00b7conj(c) is loaded (C123_inverted, C123_not_a_phase)."
  },
  {
   "property": "C124",
   "status": "proved",
   "theorems": [
    "Verif.BGW.C124_species"
   ],
   "note": ""
  },
  {
   "property": "C125",
   "status": "partial",
   "theorems": [
    "Verif.BGW.C125_epsilon_inp",
    "Verif.BGW.C125_sigma_inp",
    "Verif.BGW.C125_scale_ignored",
    "Verif.BGW.C125_unterminated",
    "Verif.BGW.C125_blank_in_block",
    "Verif.BGW.C125_comment"
   ],
   "note": "Reading proved for all well-formed files; violated for the scale factor (C125_scale_ignored)."
  },
  {
   "property": "C126",
   "status": "partial",
   "theorems": [
    "Verif.BGW.C126_read",
    "Verif.BGW.C126_offdiagonal",
    "Verif.BGW.C126_truncated"
   ],
   "note": "Proved for files with diagonal elements; violated with off-diagonal ones (C126_offdiagonal)."
  },
  {
   "property": "C127",
   "status": "partial",
   "theorems": [
    "Verif.KSWfn.C127_overlap",
    "Verif.KSWfn.C127_exact",
    "Verif.KSWfn.C127_wraps",
    "Verif.KSWfn.C127_spinor",
    "Verif.KSWfn.C127_single_band"
   ],
   "note": "Exactly what is returned is C127_overlap (matching modulo the grid); equal to the inner product when no difference of plane waves reaches the grid (C127_exact). Violations proved: wrap-around, second spinor component ignored, scalar band argument."
  },
  {
   "property": "C128",
   "status": "proved",
   "theorems": [
    "Verif.KSWfn.C128_partition"
   ],
   "note": ""
  },
  {
   "property": "C129",
   "status": "partial",
   "theorems": [
    "Verif.KSWfn.C129_load",
    "Verif.KSWfn.C129_broadcast",
    "Verif.KSWfn.C129_wrong_size",
    "Verif.KSWfn.C129_wrong_bands",
    "Verif.KSWfn.C129_foreign",
    "Verif.KSWfn.C129_repeated"
   ],
   "note": "Loading proved for every order of the file; violated: foreign plane waves fail with IndexError, repeated plane waves are accepted. Only one-component states are modelled; stored eigenvalues are passed through."
  },
  {
   "property": "C13",
   "status": "proved",
   "theorems": [
    "Verif.Lattice.C13_sphere_fits",
    "Verif.Lattice.C13_default_gspace",
    "Verif.GSpace.C13_selects_sphere"
   ],
   "note": ""
  },
  {
   "property": "C130",
   "status": "partial",
   "theorems": [
    "Verif.KSWfn.C130_charge_slice",
    "Verif.KSWfn.C130_charge_list",
    "Verif.KSWfn.C130_list_violated",
    "Verif.KSWfn.C130_no_bands",
    "Verif.KSWfn.C130_repeat"
   ],
   "note": "Proved for slices; index lists are not normalised (C130_list_violated); no bands is an AttributeError."
  },
  {
   "property": "C131",
   "status": "partial",
   "theorems": [
    "Verif.UPF.C131_read_partial",
    "Verif.UPF.C131_core_violated",
    "Verif.UPF.C131_no_projectors",
    "Verif.UPF.C131_projector_order"
   ],
   "note": "Proved for files with at least one projector and logicals not spelled true/.true.; the XML parser is not modelled. Violations proved: core charge dropped for every other spelling than t/T, files without projectors never read, projector numbers ignored."
  },
  {
   "property": "C132",
   "status": "partial",
   "theorems": [
    "Verif.UPF.C132_unsupported_accepted"
   ],
   "note": "Violated: every well-formed ultrasoft/PAW/spin-orbit file is accepted."
  },
  {
   "property": "C133",
   "status": "partial",
   "theorems": [
    "Verif.UPF.C133_rejected",
    "Verif.UPF.C133_missing_accepted"
   ],
   "note": "Missing core charge, missing non-local section and wrong size of D are rejected; missing mesh, local potential or atomic density are accepted (C133_missing_accepted)."
  },
  {
   "property": "C134",
   "status": "proved",
   "theorems": [
    "Verif.CheckArgs.C134_safe",
    "Verif.CheckArgs.C134_complete",
    "Verif.CheckArgs.C134_terminates"
   ],
   "note": "All schedules, any number of processes, with broadcasts that do or do not synchronise."
  },
  {
   "property": "C135",
   "status": "partial",
   "theorems": [
    "Verif.CheckArgs.C135_hang",
    "Verif.CheckArgs.C135_root_never_raises"
   ],
   "note": "Violated: the root never raises because it compares its data with itself, and in every execution it blocks for ever in a collective call. The full statement (every process raises) is false of the code."
  },
  {
   "property": "C136",
   "status": "partial",
   "theorems": [
    "Verif.Wavefun.C136_normalize",
    "Verif.Wavefun.C136_distributed",
    "Verif.Wavefun.C136_single",
    "Verif.Wavefun.C136_blocks"
   ],
   "note": "Proved for one-dimensional lists, serial and distributed; violated for a single wavefunction (IndexError) and for blocks of lists (ValueError, or the wrong norms)."
  },
  {
   "property": "C137",
   "status": "partial",
   "theorems": [
    "Verif.Wavefun.C137_density",
    "Verif.Wavefun.C137_normalized_partial",
    "Verif.Wavefun.C137_spinor",
    "Verif.Wavefun.C137_spinor_list"
   ],
   "note": "Proved for lists of one-component wavefunctions; spinors are normalised per component (charge = number of components) or fail."
  },
  {
   "property": "C138",
   "status": "proved",
   "theorems": [
    "Verif.Wavefun.C138_vdot"
   ],
   "note": "Arrays of any number of axes."
  },
  {
   "property": "C139",
   "status": "proved",
   "theorems": [
    "Verif.Davidson.C139_band_parallel",
    "Verif.Davidson.C139_rows"
   ],
   "note": "Refinement of the serial model; exact arithmetic, plane waves not distributed inside a band group (C22, C138 cover that), MPI collectives by their standard semantics."
  },
  {
   "property": "C14",
   "status": "proved",
   "theorems": [
    "Verif.GSpace.C14_optimal_grid",
    "Verif.GSpace.C14_zero_diverges"
   ],
   "note": "C14_zero_diverges: for a minimum of zero the search never ends (unreachable from the default grid, whose minimum is at least 1)."
  },
  {
   "property": "C140",
   "status": "proved",
   "theorems": [
    "Verif.LatArr.C140_array_conversion",
    "Verif.LatArr.C140_round_trip",
    "Verif.LatArr.C140_rejects"
   ],
   "note": "numpy's broadcasting is modelled; negative `axis` values and arrays whose axis has length 1 (silently broadcast by cart2cryst) are outside the documented domain."
  },
  {
   "property": "C141",
   "status": "partial",
   "theorems": [
    "Verif.LatArr.C141_klist_coords_partial",
    "Verif.LatArr.C141_checks",
    "Verif.LatArr.C141_tpiba_fails",
    "Verif.LatArr.C141_tpiba_wrong"
   ],
   "note": "Crystal and Cartesian coordinates proved for all three input types; k_tpiba is violated: it converts along the wrong axis, fails unless there are three points and is wrong with three."
  },
  {
   "property": "C142",
   "status": "partial",
   "theorems": [
    "Verif.LatArr.C142_norm2_values_partial",
    "Verif.LatArr.C142_norm2_shape"
   ],
   "note": "Values proved; the shape is violated: the array is flattened before its shape is taken, so the result is right only for flat lists of vectors."
  },
  {
   "property": "C143",
   "status": "proved",
   "theorems": [
    "Verif.H5.C143_round_trip",
    "Verif.H5.C143_order",
    "Verif.H5.C143_no_overwrite"
   ],
   "note": "Keys without '/', data sets hold the array written (types and bytes are h5py's)."
  },
  {
   "property": "C144",
   "status": "partial",
   "theorems": [
    "Verif.H5.C144_copy_partial",
    "Verif.H5.C144_deep_fails"
   ],
   "note": "Proved for headers whose groups hold only arrays; violated (TypeError) for deeper ones, because the recursive call does not pass the type of the source on."
  },
  {
   "property": "C145",
   "status": "partial",
   "theorems": [
    "Verif.SigmaHP.C145_tables",
    "Verif.SigmaHP.C145_truncated",
    "Verif.SigmaHP.C145_header_ignored"
   ],
   "note": "Proved for files whose tables share one header (distinct names, n first) and end with an empty line; a table at the end of the file without an empty line is StopIteration, and headers after the first are ignored (columns would get the names of the first header)."
  },
  {
   "property": "C146",
   "status": "partial",
   "theorems": [
    "Verif.RhoFile.C146_read_partial",
    "Verif.RhoFile.C146_atoms",
    "Verif.RhoFile.C146_real",
    "Verif.RhoFile.C146_spin"
   ],
   "note": "Read correctly exactly for two atoms, complex flavour, one spin (C146_read_partial). Violated otherwise: another number of atoms is refused (C146_atoms), the real flavour is refused or paired into half as many values (C146_real), two spins are concatenated (C146_spin)."
  },
  {
   "property": "C147",
   "status": "partial",
   "theorems": [
    "Verif.RhoFile.C147_read_fails",
    "Verif.RhoFile.C147_write_fails"
   ],
   "note": "Violated: the three functions use attributes the objects do not have and raise for every input. The body after the failing access is not modelled (parameter `tail`)."
  },
  {
   "property": "C148",
   "status": "proved",
   "theorems": [
    "Verif.EigPrec.C148_diagonal",
    "Verif.EigPrec.C148_denominator",
    "Verif.EigPrec.C148_monotone",
    "Verif.EigPrec.C148_apply",
    "Verif.EigPrec.C148_nonzero"
   ],
   "note": "Exact arithmetic, real diagonal (the code stores it as complex with zero imaginary part)."
  },
  {
   "property": "C149",
   "status": "partial",
   "theorems": [
    "Verif.EigPrec.C149_solved",
    "Verif.EigPrec.C149_serial_only",
    "Verif.EigPrec.C149_noncollinear",
    "Verif.EigPrec.C149_threshold_ignored"
   ],
   "note": "Given an external solver meeting its specification, whatever the wrappers return is solved. Violated: non-collinear states are never solved, and the scipy wrapper ignores the requested threshold (the solver's default accuracy is used)."
  },
  {
   "property": "C15",
   "status": "partial",
   "theorems": [
    "Verif.GSpace.C15_never_rejects",
    "Verif.GSpace.C15_accepts_too_small",
    "Verif.GSpace.C15_accepts_fitting_partial"
   ],
   "note": "The pinned code never rejects a grid (negation proved)."
  },
  {
   "property": "C150",
   "status": "proved",
   "theorems": [
    "Verif.Vcoul.C150_sphere",
    "Verif.Vcoul.C150_oneoverq",
    "Verif.Vcoul.C150_shifted",
    "Verif.Vcoul.C150_nan"
   ],
   "note": "Three-dimensional Lebesgue integrals over balls of Euclidean space; the documented constraint |centre| > R is necessary (C150_nan)."
  },
  {
   "property": "C151",
   "status": "partial",
   "theorems": [
    "Verif.Vcoul.C151_unbiased",
    "Verif.Vcoul.C151_unbiased_shift",
    "Verif.Vcoul.C151_ball_in_cell",
    "Verif.Vcoul.C151_fold_in_cell",
    "Verif.Vcoul.C151_fold_uniform",
    "Verif.Vcoul.C151_samples_in_mesh",
    "Verif.Vcoul.C151_mesh",
    "Verif.Vcoul.C151_mesh_shift",
    "Verif.Vcoul.C151_samples",
    "Verif.Vcoul.C151_gamma_only",
    "Verif.Vcoul.C151_anisotropic",
    "Verif.Vcoul.C151_nan"
   ],
   "note": "Unbiased on every n x n x n mesh, for samples uniform on the parallelepiped of the mesh (an idealisation of 32-bit random numbers) and a search returning a nearest mesh point: folding then gives samples uniform on the cell (C151_fold_uniform, C151_mesh). False on anisotropic meshes (C151_anisotropic). Violated: a single q-point raises ValueError (C151_gamma_only); q+G shorter than the radius gives NaN (C151_nan). v_minibz_montecarlo reads an unassigned variable and is not modelled."
  },
  {
   "property": "C152",
   "status": "partial",
   "theorems": [
    "Verif.ScfArgs.C152_root_values",
    "Verif.ScfArgs.C152_own_config"
   ],
   "note": "The twelve broadcast parameters are the root's in every execution; violated for dftconfig (the result of the broadcast is discarded) and ret_vxc (C152_own_config)."
  },
  {
   "property": "C153",
   "status": "proved",
   "theorems": [
    "Verif.ScfArgs.C153_accepted",
    "Verif.ScfArgs.C153_rejected",
    "Verif.ScfArgs.C153_bad_density"
   ],
   "note": "For processes whose own arguments (G-space, starting density, configuration, k-points) are in order; after check_system (C134)."
  },
  {
   "property": "C154",
   "status": "partial",
   "theorems": [
    "Verif.ScfArgs.C154_default_violated",
    "Verif.ScfArgs.C154_git_violated",
    "Verif.ScfArgs.C154_partial"
   ],
   "note": "Violated: with the documented default None (and for any callable without a name, and without a git program) the root raises while printing the parameters and the other processes wait for ever."
  },
  {
   "property": "C155",
   "status": "partial",
   "theorems": [
    "Verif.ScfArgs.C155_distributed_spin_violated",
    "Verif.ScfArgs.C155_partial"
   ],
   "note": "Violated for spin-polarised runs with distributed plane waves (one k-group and one band group modelled)."
  },
  {
   "property": "C156",
   "status": "proved",
   "theorems": [
    "Verif.Delta.C156_delta",
    "Verif.Delta.C156_symmetric",
    "Verif.Delta.C156_zero_iff",
    "Verif.Delta.C156_rows",
    "Verif.Delta.C156_missing"
   ],
   "note": "Exact arithmetic. The order of the elements (a Python set) is a parameter; the printing is not modelled (the maximum and minimum lines print the bytes object, i.e. \"b'\", as the element's name)."
  },
  {
   "property": "C157",
   "status": "partial",
   "theorems": [
    "Verif.Delta.C157_physical",
    "Verif.Delta.C157_found",
    "Verif.Delta.C157_none",
    "Verif.Delta.C157_recovers",
    "Verif.Delta.C157_report_partial",
    "Verif.Delta.C157_four_points"
   ],
   "note": "The fit is proved for every polynomial and data set; violated: with four data points (enough for the cubic) the script fails with IndexError, and it converts the bulk modulus with another electron charge than calcDelta (relative difference between 0 and 5e-7). Only real roots are modelled."
  },
  {
   "property": "C158",
   "status": "partial",
   "theorems": [
    "Verif.GW.C158_first_zone_partial",
    "Verif.GW.C158_outside",
    "Verif.GW.C158_switch",
    "Verif.GW.C158_q0"
   ],
   "note": "Proved for q-points in the first Brillouin zone (no shorter q+G); violated for all others: the Coulomb value of the shortest q+G is used in place of the one of G=0, the G=0 row is scaled down."
  },
  {
   "property": "C159",
   "status": "partial",
   "theorems": [
    "Verif.Fmt.C159_round_trip_partial",
    "Verif.Fmt.C159_single_row_violated"
   ],
   "note": "Violated for a file of one row: genfromtxt then returns a one-dimensional array and load_vcoul raises IndexError (C159_single_row_violated). Formatting is exact decimal rounding (ties to even), float reads a numeral exactly; the rounding of float is not modelled."
  },
  {
   "property": "C16",
   "status": "proved",
   "theorems": [
    "Verif.GSpace.C16_k_basis"
   ],
   "note": ""
  },
  {
   "property": "C160",
   "status": "proved",
   "theorems": [
    "Verif.Printer.C160_status",
    "Verif.Printer.C160_header",
    "Verif.Printer.C160_no_levels",
    "Verif.Printer.C160_adds_up"
   ],
   "note": "Energies as real numbers; the run time is printed but nothing is claimed about it."
  },
  {
   "property": "C161",
   "status": "proved",
   "theorems": [
    "Verif.Printer.C161_bands"
   ],
   "note": "k-point and weight as the text that str makes of them."
  },
  {
   "property": "C162",
   "status": "partial",
   "theorems": [
    "Verif.VxcOut.C162_entry",
    "Verif.VxcOut.C162_matrix_element_partial",
    "Verif.VxcOut.C162_spin_violated",
    "Verif.VxcOut.C162_rows",
    "Verif.VxcOut.C162_energies_partial",
    "Verif.VxcOut.C162_unconverged_violated"
   ],
   "note": "Proved for unpolarised runs, and for the energies of converged runs. Violated: with spin the down potential is added to the up potential and only spin-up states are returned; in a run that ends at maxiter en.xc is overwritten by that of the next mixed density so the energies no longer add up; each process gets only its own k-group's rows."
  },
  {
   "property": "C163",
   "status": "partial",
   "theorems": [
    "Verif.LogFile.C163_current",
    "Verif.LogFile.C163_exact",
    "Verif.LogFile.C163_backup",
    "Verif.LogFile.C163_kept_partial",
    "Verif.LogFile.C163_same_second_violated"
   ],
   "note": "Proved for histories that never set the log file up twice with the same time stamp (whole seconds); otherwise Path.rename replaces an earlier backup (C163_same_second_violated). POSIX semantics of open files and rename are part of the model."
  },
  {
   "property": "C164",
   "status": "partial",
   "theorems": [
    "Verif.LogFile.C164_finite",
    "Verif.LogFile.C164_no_hang_partial",
    "Verif.LogFile.C164_result",
    "Verif.LogFile.C164_absent_partial",
    "Verif.LogFile.C164_hang_violated",
    "Verif.LogFile.C164_split_violated"
   ],
   "note": "Violated: without an earlier file a process that looks after another one created the file waits in the barrier alone (C164_hang_violated); with one, a process may open it before rank 0 renames it (C164_split_violated). Proved: no hang and no loss when a file exists; all well if all look first. Collective calls after the function that might match the barrier are not modelled."
  },
  {
   "property": "C165",
   "status": "partial",
   "theorems": [
    "Verif.PwCli.C165_options",
    "Verif.PwCli.C165_numbers",
    "Verif.PwCli.C165_not_a_number",
    "Verif.PwCli.C165_first_word_violated"
   ],
   "note": "Options proved for all command lines whose values are not themselves option names; a file without -in is found only as the first word (C165_first_word_violated). int() of signs, blanks and underscores is not modelled."
  },
  {
   "property": "C166",
   "status": "partial",
   "theorems": [
    "Verif.PwCli.C166_layout_partial",
    "Verif.PwCli.C166_zero",
    "Verif.PwCli.C166_bands_violated",
    "Verif.PwCli.C166_basis_group"
   ],
   "note": "Layout as asked for if pools*bands divides the processes; otherwise the number of band groups is changed silently (C166_bands_violated). pw.py distributes the basis over all processes, which is right exactly if plane-wave groups are single processes or there is one of them (C166_basis_group)."
  },
  {
   "property": "C167",
   "status": "partial",
   "theorems": [
    "Verif.Atoms.C167_axes_partial",
    "Verif.Atoms.C167_rejects",
    "Verif.Atoms.C167_dual",
    "Verif.Atoms.C167_angstrom",
    "Verif.Atoms.C167_integers_violated"
   ],
   "note": "Violated for vectors written with integers only: np.stack makes an integer array, which Lattice.__init__ refuses (ValueError). Proved for all other input, exact real arithmetic."
  },
  {
   "property": "C168",
   "status": "partial",
   "theorems": [
    "Verif.Atoms.C168_positions",
    "Verif.Atoms.C168_from_alat_partial",
    "Verif.Atoms.C168_wrong_length",
    "Verif.Atoms.C168_ragged",
    "Verif.Atoms.C168_checks",
    "Verif.Atoms.C168_from_alat_violated",
    "Verif.Atoms.C168_one_number_violated"
   ],
   "note": "Violated twice: from_alat takes one table instead of one argument per atom (TypeError / ValueError for the documented call), and from_cart/from_bohr/from_angstrom take a one-element sequence [x] for (x, x, x) by broadcasting. Proved for the rest."
  },
  {
   "property": "C169",
   "status": "partial",
   "theorems": [
    "Verif.Atoms.C169_lattice",
    "Verif.Atoms.C169_atoms",
    "Verif.Atoms.C169_crystal",
    "Verif.Atoms.C169_raises",
    "Verif.Atoms.C169_coords_violated"
   ],
   "note": "Violated: the coordinates below 'in units of alat' are crystal coordinates. Proved: everything else is shown to five decimals; groups without mass or with an integer instead of a pseudopotential cannot be shown."
  },
  {
   "property": "C17",
   "status": "proved",
   "theorems": [
    "Verif.FFT.C17_drivers_compute_dft",
    "Verif.FFT.C17_round_trip"
   ],
   "note": ""
  },
  {
   "property": "C170",
   "status": "partial",
   "theorems": [
    "Verif.GArr.C170_alloc",
    "Verif.GArr.C170_into_partial",
    "Verif.GArr.C170_rejects",
    "Verif.GArr.C170_lost_violated",
    "Verif.GArr.C170_rows_violated",
    "Verif.GArr.C170_r2g",
    "Verif.GArr.C170_g2r"
   ],
   "note": "Proved without an output array (all inputs, all layouts) and for output arrays whose leading axes can be merged. With other output arrays reshape copies and the result is lost silently (C170_lost_violated); arrays with different numbers of rows are not rejected (C170_rows_violated). Negative strides and overlapping arrays are not modelled."
  },
  {
   "property": "C171",
   "status": "partial",
   "theorems": [
    "Verif.GArr.C171_returned_partial",
    "Verif.GArr.C171_pyfftw_violated",
    "Verif.GArr.C171_frame"
   ],
   "note": "Holds for NumPy, SciPy, MKL; with pyFFTW the driver returns its own work array, which the next transform overwrites (C171_pyfftw_violated). CuPy is not modelled."
  },
  {
   "property": "C172",
   "status": "partial",
   "theorems": [
    "Verif.KLists.C172_index",
    "Verif.KLists.C172_iteration",
    "Verif.KLists.C172_slices",
    "Verif.KLists.C172_numpy_partial",
    "Verif.KLists.C172_numpy_violated",
    "Verif.KLists.C172_distribute_violated"
   ],
   "note": "Integers, slices and iteration proved for both classes; numpy integers, index lists and masks only work for qtm.kpts.KList (C172_numpy_violated); klist_distribute always fails (C172_distribute_violated). Slices are characterised for [a:b], [-m:], [::-1] and step 0."
  },
  {
   "property": "C173",
   "status": "proved",
   "theorems": [
    "Verif.KLists.C173_coords",
    "Verif.KLists.C173_checks"
   ],
   "note": "Exact arithmetic; weights that are all zero become NaN and are outside the statement."
  },
  {
   "property": "C174",
   "status": "partial",
   "theorems": [
    "Verif.KLists.C174_q0",
    "Verif.KLists.C174_from_data_partial",
    "Verif.KLists.C174_from_data_violated"
   ],
   "note": "Sigma.from_data always zeroes the first q-point; if the flagged one is another, a regular q-point is lost (C174_from_data_violated)."
  },
  {
   "property": "C175",
   "status": "partial",
   "theorems": [
    "Verif.DistBuf.C175_gather_partial",
    "Verif.DistBuf.C175_scatter_partial",
    "Verif.DistBuf.C175_parts",
    "Verif.DistBuf.C175_good_argument",
    "Verif.DistBuf.C175_single_field_violated",
    "Verif.DistBuf.C175_empty_violated",
    "Verif.DistBuf.C175_bad_argument_violated"
   ],
   "note": "Holds for every container with elements and, for fields, leading axes. Violated (proved): fields without leading axes, containers without elements, and scatter() with an unacceptable argument (the other processes never return)."
  },
  {
   "property": "C176",
   "status": "partial",
   "theorems": [
    "Verif.DistBuf.C176_distributed_partial",
    "Verif.DistBuf.C176_checks",
    "Verif.DistBuf.C176_single_field_violated"
   ],
   "note": "Holds for distributed fields with leading axes; a distributed field without leading axes raises (violation proved)."
  },
  {
   "property": "C177",
   "status": "partial",
   "theorems": [
    "Verif.GkCoords.C177_complete_partial",
    "Verif.GkCoords.C177_density",
    "Verif.GkCoords.C177_far_violated"
   ],
   "note": "Proved for |k|^2 <= 2 ecutwfn and ecutwfn <= ecut/4; for every lattice there is a k-point equivalent to Gamma for which the constructor raises IndexError (violation proved)."
  },
  {
   "property": "C178",
   "status": "proved",
   "theorems": [
    "Verif.GkCoords.C178_lengths",
    "Verif.GkCoords.C178_distributed"
   ],
   "note": "Exact arithmetic."
  },
  {
   "property": "C179",
   "status": "proved",
   "theorems": [
    "Verif.Trans.C179_translation",
    "Verif.Trans.C179_images"
   ],
   "note": "Proved in exact arithmetic; on the CPU the projector products go through single precision (see C72), so there the equality holds only up to that rounding."
  },
  {
   "property": "C18",
   "status": "proved",
   "theorems": [
    "Verif.FFT.C18_projection"
   ],
   "note": ""
  },
  {
   "property": "C180",
   "status": "proved",
   "theorems": [
    "Verif.Mixing.C180_mixing_covariant",
    "Verif.Mixing.translation_isometry"
   ],
   "note": "Exact arithmetic; solve is exact or raises."
  },
  {
   "property": "C181",
   "status": "proved",
   "theorems": [
    "Verif.Trans.C181_xc",
    "Verif.Trans.C181_hartree",
    "Verif.Trans.C181_atoms",
    "Verif.Trans.C181_grid"
   ],
   "note": "libxc enters through the hypothesis that it works point by point; exact arithmetic."
  },
  {
   "property": "C182",
   "status": "proved",
   "theorems": [
    "Verif.TransScf.C182_scf_covariant",
    "Verif.TransScf.C182_mixers"
   ],
   "note": "The diagonaliser, occupations and potentials enter as an environment whose two instances correspond under the symmetry (discharged for the parts by C179-C181)."
  },
  {
   "property": "C183",
   "status": "proved",
   "theorems": [
    "Verif.KSWfn.C183_gauge_invariant"
   ],
   "note": "Exact arithmetic, both FFT drivers."
  },
  {
   "property": "C184",
   "status": "proved",
   "theorems": [
    "Verif.Rot.C184_equivalent_kpoints",
    "Verif.Rot.C184_basis",
    "Verif.Rot.C184_origin"
   ],
   "note": "Proved in exact arithmetic (GPU path, see C72 for the CPU) for vectors k+G that are zero or longer than 1e-7 (shorter ones get polar angle 0). sph_harm_y enters through its addition theorem, which is proved for the usual harmonics up to l=3 (sphY_harmonics)."
  },
  {
   "property": "C185",
   "status": "proved",
   "theorems": [
    "Verif.Rot.C185_time_reversal",
    "Verif.Rot.C184_basis",
    "Verif.Rot.keeps_neg"
   ],
   "note": "Proved in exact arithmetic (GPU path), same hypotheses as C184."
  },
  {
   "property": "C186",
   "status": "proved",
   "theorems": [
    "Verif.Symm.C186_sampling"
   ],
   "note": "Exact arithmetic; the relations between the densities of equivalent k-points are C184/C185, the symmetriser is the model of C31."
  },
  {
   "property": "C187",
   "status": "proved",
   "theorems": [
    "Verif.Rot.C187_xc",
    "Verif.Rot.C187_hartree",
    "Verif.Rot.C187_atoms",
    "Verif.Rot.C187_grid"
   ],
   "note": "libxc enters through the hypothesis that it works point by point; exact arithmetic."
  },
  {
   "property": "C188",
   "status": "partial",
   "theorems": [
    "Verif.TDDFT.C188_contraction",
    "Verif.TDDFT.C188_orthonormal",
    "Verif.TDDFT.C188_truncated_violated"
   ],
   "note": "contraction for every basis; conservation and orthonormality for every basis as large as the grid; on a truncated basis orthonormality is lost: concrete 2x2x1 grid witness (C188_truncated_violated)"
  },
  {
   "property": "C189",
   "status": "proved",
   "theorems": [
    "Verif.Rot.C189_solutions_carried"
   ],
   "note": "Proved in exact arithmetic (GPU path, see C72 for the CPU) for vectors k+G that are zero or longer than 1e-7, as in C184. The Ewald energy is left out: the code's image counts break its rotation invariance in skewed cells (C85)."
  },
  {
   "property": "C19",
   "status": "proved",
   "theorems": [
    "Verif.FFT.C19_sticks_eq_full"
   ],
   "note": ""
  },
  {
   "property": "C190",
   "status": "partial",
   "theorems": [
    "Verif.EpsFile.C190_history_partial",
    "Verif.EpsFile.C190_empty_violated",
    "Verif.EpsFile.C190_crash",
    "Verif.EpsFile.C190_failed_write_violated",
    "Verif.EpsFile.C190_missing_file"
   ],
   "note": "Proved: the last non-empty write wins, for all histories. Violated: writing no matrices keeps those of an earlier run (C190_empty_violated); a crash between opening the file and making the dataset loses old and new matrices (C190_crash); write_mats of no matrices raises after emptying the file (C190_failed_write_violated). Effects on an open file are taken to be durable."
  },
  {
   "property": "C191",
   "status": "partial",
   "theorems": [
    "Verif.EpsFile.C191_roundtrip_partial",
    "Verif.EpsFile.C191_real",
    "Verif.EpsFile.C191_address_violated",
    "Verif.EpsFile.C191_conversion_rejects"
   ],
   "note": "Proved without a dataset name; with one, complex arrays come back as real pairs (C191_address_violated)."
  },
  {
   "property": "C192",
   "status": "partial",
   "theorems": [
    "Verif.LatNorm.C192_dot",
    "Verif.LatNorm.C192_norm2",
    "Verif.LatNorm.C192_norm_partial",
    "Verif.LatNorm.C192_negative_alat_violated",
    "Verif.LatNorm.C192_geometry",
    "Verif.LatNorm.C192_rejects"
   ],
   "note": "Proved for all lattices, shapes and unit names; RealLattice accepts a negative alat, for which norm(coords='alat') is negative (C192_negative_alat_violated). The flat shape of norm2 is C142."
  },
  {
   "property": "C193",
   "status": "partial",
   "theorems": [
    "Verif.Mesh.C193_mesh_partial",
    "Verif.Mesh.C193_distinct",
    "Verif.Mesh.C193_default_violated",
    "Verif.Mesh.C193_checks",
    "Verif.Mesh.C193_unknown_violated"
   ],
   "note": "Proved for Cartesian and alat units and for crystal coordinates with an array as origin. Violated: with the default origin, or any tuple in crystal coordinates, AttributeError (C193_default_violated); unknown unit names give None (C193_unknown_violated)."
  },
  {
   "property": "C194",
   "status": "partial",
   "theorems": [
    "Verif.Mesh.C194_kick_density_partial",
    "Verif.Mesh.C194_kick_group",
    "Verif.Mesh.C194_kick_contracts",
    "Verif.Mesh.C194_truncated_violated",
    "Verif.Mesh.C194_dipole",
    "Verif.Mesh.C194_direction"
   ],
   "note": "Density and overlaps kept: proved on a basis as large as the grid; on a truncated basis part of the orbital is lost (C194_truncated_violated shows all of it), never gained (C194_kick_contracts). One spin component; exact arithmetic."
  },
  {
   "property": "C195",
   "status": "proved",
   "theorems": [
    "Verif.TDDFT.C195_taylor_accuracy",
    "Verif.TDDFT.C195_bound_exists"
   ],
   "note": "Exact arithmetic, fixed Hamiltonian (as between two updates of the potential)."
  },
  {
   "property": "C196",
   "status": "proved",
   "theorems": [
    "Verif.TDDFT.C196_leading_error",
    "Verif.TDDFT.C196_first_order",
    "Verif.TDDFT.C196_second_order_iff",
    "Verif.TDDFT.C196_second_order_full",
    "Verif.TDDFT.C196_truncated_violated"
   ],
   "note": "Leading error computed for every basis; second order exactly where it vanishes, in particular on a basis that fills the grid; on a truncated basis the step is only first order (C196_truncated_violated)."
  },
  {
   "property": "C197",
   "status": "proved",
   "theorems": [
    "Verif.KSEn.C197_energy_is_kohn_sham",
    "Verif.KSEn.C197_fits_of_cutoff"
   ],
   "note": "Exact arithmetic (GPU path of h_psi, see C72); the Ewald and smearing energies are added unchanged by the code (C90) and left out. Without symmetrisation of the density."
  },
  {
   "property": "C198",
   "status": "proved",
   "theorems": [
    "Verif.KSEn.C198_gradient_lda",
    "Verif.KSEn.C198_gradient_gga",
    "Verif.KSEn.C198_stationary_lda",
    "Verif.KSEn.C198_stationary_gga"
   ],
   "note": "Both the Hartree and the xc part are derivatives of the code's own energies (C32, C61 extended to curves in PotCurve); the gga theorems assume no core density because with one the code's gga potential is not the derivative of its energy (C61_gga_core_violated)."
  },
  {
   "property": "C199",
   "status": "proved",
   "theorems": [
    "Verif.GW.C199_polarizability",
    "Verif.GW.C199_self_energies",
    "Verif.GW.C199_phases"
   ],
   "note": "The mixing acts on the first number_bands bands and must not lead across that boundary (a calculation that truncates a multiplet is not invariant), nor across the boundary of the occupied bands. The plasmon-pole parts are not covered."
  },
  {
   "property": "C20",
   "status": "proved",
   "theorems": [
    "Verif.FFT.C20_history_independent",
    "Verif.Dist.C22_distributed_eq_serial"
   ],
   "note": "The distributed driver's history independence is part of C22_distributed_eq_serial (any earlier calls)."
  },
  {
   "property": "C200",
   "status": "proved",
   "theorems": [
    "Verif.Super.C200_same_fields",
    "Verif.Super.C200_gspace_is_sphere"
   ],
   "note": "Exact arithmetic; has_g0 true (one rank holding G=0). Equality at every Cartesian point, for any two grids."
  },
  {
   "property": "C201",
   "status": "partial",
   "theorems": [
    "Verif.Vcoul.C201_images",
    "Verif.Vcoul.C201_neighbourhood",
    "Verif.Vcoul.C201_sufficient_partial",
    "Verif.Vcoul.C201_elongated_violated",
    "Verif.Vcoul.C201_half_of_samples_violated",
    "Verif.Vcoul.C201_hybrid_cases"
   ],
   "note": "Which points the neighbourhood contains; in an orthogonal, not too elongated cell folding is correct for every sample; violated in an elongated cell (edge ratio above 4): half of the samples are left outside the cell of the origin. Sufficiency is proved for orthogonal cells with the n x n x n mesh; the general case is false, as shown."
  },
  {
   "property": "C202",
   "status": "proved",
   "theorems": [
    "Verif.Super.C202_energy",
    "Verif.Super.C202_hartree",
    "Verif.Super.C202_local",
    "Verif.Super.C202_charge"
   ],
   "note": "Densities are assumed equal in space, as functions of the Cartesian point; equality of Fourier coefficients is derived (independence of plane waves)."
  },
  {
   "property": "C203",
   "status": "proved",
   "theorems": [
    "Verif.Rot.C203_irreducible_wedge"
   ],
   "note": "Exact arithmetic; the grid and the G-space must be closed under the group (the code's own requirement for SymmFieldMod). The weights reported by the k-point generator are not re-derived here (see C28)."
  },
  {
   "property": "C204",
   "status": "proved",
   "theorems": [
    "Verif.PotDist.C204_xc",
    "Verif.PotDist.C204_hartree",
    "Verif.PotDist.C204_ionic",
    "Verif.PotDist.C204_metric"
   ],
   "note": "Exact arithmetic (summation order is not modelled); libxc evaluates functionals point by point (PointFunc). The transforms are those of Verif.Dist (C22)."
  },
  {
   "property": "C205",
   "status": "proved",
   "theorems": [
    "Verif.MixDist.C205_history",
    "Verif.MixDist.C205_error"
   ],
   "note": "Both Broyden methods on distributed plane waves, for any number of processes, any distribution of sticks, any history of calls and any uninitialised memory; exact arithmetic. The serial behaviour is that of C38, C39, C64 and C65."
  },
  {
   "property": "C206",
   "status": "proved",
   "theorems": [
    "Verif.HamDist.C206_hamiltonian",
    "Verif.HamDist.C206_projectors",
    "Verif.HamDist.C206_products",
    "Verif.HamDist.C206_density"
   ],
   "note": "Hamiltonian for one-component wavefunctions, density for any number of spin components; any number of processes and any history of transforms, exact arithmetic up to the single-precision conversion of zgemm (C72), which is part of the model and acts plane wave by plane wave."
  },
  {
   "property": "C207",
   "status": "proved",
   "theorems": [
    "Verif.HamDist.C207_solver"
   ],
   "note": "One copy of the reduced matrices stands for all processes (they are results of Allreduce and broadcasts); the reduced eigen-solver is an arbitrary function. Distribution over band groups: C139."
  },
  {
   "property": "C208",
   "status": "partial",
   "theorems": [
    "Verif.RandInit.C208_fresh_numbers",
    "Verif.RandInit.C208_size",
    "Verif.RandInit.C208_more_bands_partial",
    "Verif.RandInit.C208_more_bands_violated",
    "Verif.RandInit.C208_noncollinear_fails",
    "Verif.RandInit.C208_distribution_violated"
   ],
   "note": "Random starting wavefunctions (kswfn.py:110-142), for every k-point, seed, number of bands and plane waves: all moduli and phases come from different draws and the modulus of a coefficient is one draw over 1+|k+G|^2. Violations proved: the start of a band changes with the number of bands asked for unless its group of ten is complete, non-collinear wavefunctions raise ValueError, and with distributed plane waves every process repeats the same draws, so the start is not the serial one. The random generator is an arbitrary stream determined by its seed."
  },
  {
   "property": "C209",
   "status": "proved",
   "theorems": [
    "Verif.ScfDist.C209_same_driver",
    "Verif.ScfDist.C209_every_kpoint",
    "Verif.ScfDist.C209_scf"
   ],
   "note": "The driver is written once for any kind of density (C209_same_driver: on one process it is the driver of C40-C42, C68-C70, C90) and instantiated with the serial functions and with those of the processes (potentials C204, mixing C205, Hamiltonian, density and solver C206/C207, allgather of the symmetriser). One k-point group and one band group; real arithmetic, so sums do not depend on their order; the starting states are given (C208: those scf draws at random differ with the distribution); the imaginary part of the averaged potential in the preconditioner is left out; the occupation rule is any function of all eigenvalues, called by every process on the same values. Example: two processes, one full iteration."
  },
  {
   "property": "C21",
   "status": "proved",
   "theorems": [
    "Verif.Dist.C21_partition",
    "Verif.Dist.C21_refuses",
    "Verif.Dist.C21_reachable"
   ],
   "note": ""
  },
  {
   "property": "C210",
   "status": "proved",
   "theorems": [
    "Verif.ScfGrp.C210_scf",
    "Verif.ScfGrp.C210_owner",
    "Verif.ScfGrp.C210_occupations"
   ],
   "note": "Exact arithmetic; at least as many bands as band groups (otherwise C07/C70), same starting states on all band groups (init_random seeds by k-point, C208); occupations by any routine whose result does not depend on the groups, which C210_occupations proves of the smearing routine when no group is empty. The communicators are those of C05-C09."
  },
  {
   "property": "C211",
   "status": "proved",
   "theorems": [
    "Verif.SpinScf.C211_scf",
    "Verif.SpinScf.C211_smear",
    "Verif.SpinScf.C211_occupations",
    "Verif.SpinScf.C211_symmetriser"
   ],
   "note": "Exact arithmetic. The functionals are any pair (unpolarised, polarised) that agrees at equal spin densities and gradients in the sense of the chain rule (structure Same); the run is the serial driver of C209, C210 with its potentials, eigen-solver, occupations, density and mixing. Starting states are given (the code's random start draws different states for the two spins); fixed occupations raise with is_spin=True (C35), so the occupations are those of smearing."
  },
  {
   "property": "C212",
   "status": "proved",
   "theorems": [
    "Verif.KMap.C212_scf",
    "Verif.KMap.C212_occupations"
   ],
   "note": "Exact arithmetic; serial driver of C209 (any process layout by C210). Equal points start from equal states (init_random seeds by the index of the k-point, so the code's own random start differs between the lists). Which exception is raised may differ: it is that of the first failing k-point."
  },
  {
   "property": "C213",
   "status": "partial",
   "theorems": [
    "Verif.Coll.C213_no_deadlock_partial",
    "Verif.Coll.C213_progress_partial",
    "Verif.Coll.C213_schedules",
    "Verif.Coll.C213_magnetisation_deadlock",
    "Verif.Coll.C213_idle_band_group_deadlock",
    "Verif.Coll.C213_dead_process",
    "Verif.Coll.C213_eigh_failure_deadlock",
    "Verif.Coll.C213_layout"
   ],
   "note": "Proved for all layouts, local computations and schedules when every band group has a band, no process raises, and the run is not both spin-polarised and distributed over plane waves. The three exceptions are real deadlocks of the code and are proved as such: rank 0 alone calls the collective transforms for the magnetisation (scf.py:523-538), idle band groups skip the density reduction (scf.py:399-409), and an exception on one process (e.g. eigh on the k-group root) leaves the others waiting. The smearing bisection is modelled up to an arbitrary number of steps."
  },
  {
   "property": "C214",
   "status": "partial",
   "theorems": [
    "Verif.GwRun.C214_schedule",
    "Verif.GwRun.C214_outcome",
    "Verif.GwRun.C214_cohsex_partial",
    "Verif.GwRun.C214_gpp_partial",
    "Verif.GwRun.C214_idle_autosave",
    "Verif.GwRun.C214_failing_q"
   ],
   "note": "COHSEX: every process ends with the table built from the sums over all q-points (exact arithmetic). Proved violations: with autosave and more processes than q-points the idle processes die in sigma_x and the others wait forever; a q-point that raises on one process leaves the others waiting; calculate_gpp ends with a NameError on every process but rank 0. The per-q arithmetic is a parameter (modelled in C112-C122)"
  },
  {
   "property": "C215",
   "status": "partial",
   "theorems": [
    "Verif.TimerReport.C215_timers_partial",
    "Verif.TimerReport.C215_counters",
    "Verif.TimerReport.C215_history",
    "Verif.TimerReport.C215_no_counters",
    "Verif.TimerReport.C215_blanks"
   ],
   "note": "Labels without bars, newlines and blanks at the ends (others are not determined by the table, C215_blanks); times to the printed hundredth. Proved violation: print(qtmlogger) shows no counters although documented"
  },
  {
   "property": "C216",
   "status": "partial",
   "theorems": [
    "Verif.Ufunc.C216_refused",
    "Verif.Ufunc.C216_elementwise",
    "Verif.Ufunc.C216_shapes",
    "Verif.Ufunc.C216_closed",
    "Verif.Ufunc.C216_in_place",
    "Verif.Ufunc.C216_in_place_refused",
    "Verif.Ufunc.C216_distributed",
    "Verif.Ufunc.C216_distributed_refused",
    "Verif.Ufunc.C216_distributed_out",
    "Verif.Ufunc.C216_single",
    "Verif.Ufunc.C216_out_violated"
   ],
   "note": "proved for serial and distributed containers with a basis of more than one element and container or no out; violated for a one-element basis with longer array operands, for the exception type of distributed containers and for out= given as an array; dtypes, and ufuncs with several results or signatures, are not modelled"
  },
  {
   "property": "C217",
   "status": "proved",
   "theorems": [
    "Verif.TransScf.C217_symmetry_kept",
    "Verif.TransScf.C217_prefix",
    "Verif.TransScf.C217_each_iteration",
    "Verif.TransScf.C217_mixers"
   ],
   "note": "exact arithmetic; the hypotheses on Hamiltonian, potentials, Ewald energy and symmetriser are proved in C179, C181, C184, C187, C84, C31; random starting wavefunctions are not symmetric themselves"
  },
  {
   "property": "C218",
   "status": "proved",
   "theorems": [
    "Verif.Rot.C218_symmetrised_run",
    "Verif.Rot.C218_energy"
   ],
   "note": "Exact arithmetic; the grid and the G-space must be closed under the group (the code's own requirement for SymmFieldMod) and the atoms mapped onto each other. Self-consistency is stated at convergence (input and output density equal); time reversal is C220."
  },
  {
   "property": "C219",
   "status": "partial",
   "theorems": [
    "Verif.GW.C219_transfer_partial",
    "Verif.GW.C219_exchange_partial",
    "Verif.GW.C219_cut_shell"
   ],
   "note": "Proved for meshes whose list of G-vectors at the q0 point contains -G with G. Violated otherwise (C219_cut_shell): that list is cut with the small shift q0, the search for -G is made without it, and when the cutoff falls on a shell another G-vector is taken for the missing one (the code only prints a message). Meshes with negative components: see C116."
  },
  {
   "property": "C22",
   "status": "proved",
   "theorems": [
    "Verif.Dist.C22_distributed_eq_serial"
   ],
   "note": ""
  },
  {
   "property": "C220",
   "status": "proved",
   "theorems": [
    "Verif.Rot.C220_time_reversal",
    "Verif.Rot.C220_energy",
    "Verif.Rot.C220_symmetrised",
    "Verif.KPts.C220_mesh_weights"
   ],
   "note": "For every self-consistent solution at a list of k-points, a self-consistent solution at any list of these k-points and their negatives (weights distributed in any way) with equal density, potential, energies; composed with C218 for symmetrised runs; weights of mpSymm are sums of the equal mesh weights. Exact arithmetic; existence of a solution at the full list, not that the iteration finds it."
  },
  {
   "property": "C221",
   "status": "partial",
   "theorems": [
    "Verif.GW.C221_polarizability",
    "Verif.GW.C221_dielectric",
    "Verif.GW.C221_fixwings",
    "Verif.GW.C221_self_energies",
    "Verif.GW.C221_closure",
    "Verif.GW.C221_plasmon_pole"
   ],
   "note": "Proved for the polarizability (both variants), the inverse dielectric matrix, fixwings and all static self-energies, entry by entry. Violated by the plasmon-pole model: sigma_gpp_omegas zeroes densities with an imaginary part above 1e-5, so its frequencies depend on the origin (C221_plasmon_pole gives a case)."
  },
  {
   "property": "C222",
   "status": "partial",
   "theorems": [
    "Verif.Vcoul.C222_processes",
    "Verif.Vcoul.C222_defined",
    "Verif.Vcoul.C222_bare",
    "Verif.Vcoul.C222_average",
    "Verif.Vcoul.C222_avgcut",
    "Verif.Vcoul.C222_seed",
    "Verif.Vcoul.C222_more_samples"
   ],
   "note": "Values, order and independence of the number of processes are proved. Violated by the code: avgcut and averaging_func are not used (C222_avgcut: a NaN entry where the bare value is documented), SEED is ignored after the first call because the samples are cached (C222_seed), N_SAMPLES above the default divides a sum over 2500000 samples by N_SAMPLES (C222_more_samples); the table of 1/q is NaN at the q0 point with bare=True."
  },
  {
   "property": "C223",
   "status": "partial",
   "theorems": [
    "Verif.GW.C223_order",
    "Verif.GW.C223_dielectric",
    "Verif.GW.C223_repeated",
    "Verif.GW.C223_repetition_violated"
   ],
   "note": "Order: proved in full. Repetition: violated by the code (C223_repeated: factor r; C223_repetition_violated: concrete case), unlike the density of an SCF run (C212)."
  },
  {
   "property": "C224",
   "status": "partial",
   "theorems": [
    "Verif.EZero.C224_h_psi",
    "Verif.EZero.C224_davidson_partial",
    "Verif.EZero.C224_smear",
    "Verif.EZero.C224_fixed",
    "Verif.EZero.C224_band_energy",
    "Verif.EZero.C224_scf",
    "Verif.EZero.C224_denominator",
    "Verif.EZero.C224_denominator_mean",
    "Verif.EZero.C224_mean_raised",
    "Verif.EZero.C224_preconditioner_depends",
    "Verif.EZero.C224_not_the_diagonal"
   ],
   "note": "Proved: h_psi gains c times the wavefunction (exact arithmetic, GPU branch: the CPU branch rounds to single precision, C72); occupations and smearing energy stay and the Fermi level / HO / LU levels go up by c for smearing of every type and fixed occupations; the band energy grows by c for every electron; given a solver whose eigenvalues go up by c, the self-consistent run makes the same errors, thresholds and densities and energies raised by c N. Davidson: same vectors and iterations, eigenvalues raised, for any preconditioner of energy differences and any solver of the reduced problem whose values go up with the matrix. Violated by the code: the potential is divided by the number of grid points when it is made (scf.py:345) and its sum once more before the solver is called (scf.py:474), so the preconditioner uses mean / N for the mean of the potential: it is not the diagonal of the Hamiltonian and every denominator changes with c."
  },
  {
   "property": "C225",
   "status": "proved",
   "theorems": [
    "Verif.GW.C225_polarizability",
    "Verif.GW.C225_dielectric",
    "Verif.GW.C225_pairs",
    "Verif.GW.C225_pairs_mirrored"
   ],
   "note": "The hypothesis that the pairs of k-points correspond is proved for every mesh (C225_pairs_mirrored)."
  },
  {
   "property": "C226",
   "status": "proved",
   "theorems": [
    "Verif.Mixing.C226_hartree_energy",
    "Verif.Mixing.C226_second_order",
    "Verif.Mixing.C226_distance"
   ],
   "note": "The spin term is written out in spinError (2\u03c0/tpiba\u00b2 times the mean square of the difference of the magnetisations)."
  },
  {
   "property": "C227",
   "status": "partial",
   "theorems": [
    "Verif.TDDFT.C227_image",
    "Verif.TDDFT.C227_starting_density",
    "Verif.TDDFT.C227_rows",
    "Verif.TDDFT.C227_phases_order",
    "Verif.TDDFT.C227_mixing",
    "Verif.TDDFT.C227_taylor_mixing_violated"
   ],
   "note": "Phases, order, starting density: proved in full. Unitary mixing: proved for the split operator on a basis as large as the grid; violated with the Taylor propagator (C227_taylor_mixing_violated), whose norm drift is removed orbital by orbital."
  },
  {
   "property": "C228",
   "status": "partial",
   "theorems": [
    "Verif.TDDFT.C228_constant",
    "Verif.TDDFT.C228_taylor_constant_violated",
    "Verif.TDDFT.C228_moved_factors",
    "Verif.TDDFT.C228_translation"
   ],
   "note": "Proved: with the split operator (either propagator) a constant in the potential, even one that depends on the density, changes no density and the orbitals by phases only; for every choice of methods the propagation of a crystal moved by grid steps is the moved propagation (its potential has to move with the density: C181), and the factors of the split operator are those of the unmoved atoms. Violated: one Taylor step gives another density when a constant is added to the potential (the truncated exponential is not unitary, and the norm is restored afterwards)."
  },
  {
   "property": "C229",
   "status": "proved",
   "theorems": [
    "Verif.TDDFT.C229_conjugation",
    "Verif.TDDFT.C229_factors",
    "Verif.TDDFT.C229_real_projectors"
   ],
   "note": "For every choice of methods, order, real potential as a function of the density and number of steps: the run of the conjugate orbitals with -dt has the densities of the run with dt and ends with the conjugate orbitals; the factors of the split operator computed for -dt are the conjugates of those for dt (with the same refusals), and the projectors of a species are real in space when angular and radial parts have the parity of l. The matrix products are exact (GPU branch; C72)."
  },
  {
   "property": "C23",
   "status": "partial",
   "theorems": [
    "Verif.Dist.C23_scatter_gather",
    "Verif.Dist.C23_rows",
    "Verif.Dist.C23_single_field_fails"
   ],
   "note": "Proved for every field with leading axes; a field without leading axes raises TypeError in the pinned code (C23_single_field_fails)."
  },
  {
   "property": "C230",
   "status": "partial",
   "theorems": [
    "Verif.TDDFT.C230_retrace",
    "Verif.TDDFT.C230_microreversibility"
   ],
   "note": "Proved for any number of steps, bands (orthogonal or not), potentials as functions of the density and species with linearly independent projectors, on a basis as large as the grid. Missing: on the truncated basis of a real run the local factor is not undone by the one for -dt (C188), so the retrace is only approximate there."
  },
  {
   "property": "C24",
   "status": "partial",
   "theorems": [
    "Verif.Containers.C24_reduce_basis_partial",
    "Verif.Containers.C24_reduce_leading",
    "Verif.Containers.C24_reduce_fails",
    "Verif.Containers.C24_reduce_fails_witness",
    "Verif.Containers.C24_vdot"
   ],
   "note": "The pinned code fails when the last leading dimension equals a local basis size (proved as C24_reduce_fails); otherwise proved in full."
  },
  {
   "property": "C25",
   "status": "proved",
   "theorems": [
    "Verif.Containers.C25_indexing_keeps_basis",
    "Verif.Containers.C25_integer"
   ],
   "note": ""
  },
  {
   "property": "C26",
   "status": "proved",
   "theorems": [
    "Verif.Lattice.C26_conversions_inverse",
    "Verif.Lattice.C26_metric",
    "Verif.Lattice.C26_mesh_centred"
   ],
   "note": ""
  },
  {
   "property": "C27",
   "status": "proved",
   "theorems": [
    "Verif.Lattice.C27_duality"
   ],
   "note": ""
  },
  {
   "property": "C28",
   "status": "partial",
   "theorems": [
    "Verif.KPts.C28_weights_normalised",
    "Verif.KPts.C28_constructor_unchecked",
    "Verif.KPts.C28_constructor_unchecked_witness"
   ],
   "note": "Holds for from_* constructors; the kpts.KList constructor stores any weights (violation proved)."
  },
  {
   "property": "C29",
   "status": "partial",
   "theorems": [
    "Verif.KPts.C29_full_mesh",
    "Verif.KPts.C29_time_reversal_fails",
    "Verif.KPts.C29_time_reversal_partial",
    "Verif.KPts.C29_old_mesh_collapses",
    "Verif.KPts.C29_symmetry_reduced"
   ],
   "note": "Time-reversal reduction keeps uniform weights (violation proved); klist.mpgrid has a precedence bug (proved)."
  },
  {
   "property": "C30",
   "status": "partial",
   "theorems": [
    "Verif.Crystal.C30_supercell",
    "Verif.Crystal.C30_electrons_partial",
    "Verif.Crystal.C30_electrons_fail",
    "Verif.Crystal.C30_displacements_complete"
   ],
   "note": "Geometry proved in full; the electron count fails for species given by a plain valence number (proved)."
  },
  {
   "property": "C31",
   "status": "proved",
   "theorems": [
    "Verif.Symm.C31_group_average",
    "Verif.Symm.C31_symmetrised"
   ],
   "note": "For operations forming a group (see C59) and a G-space closed under them."
  },
  {
   "property": "C32",
   "status": "proved",
   "theorems": [
    "Verif.Pot.C32_potential",
    "Verif.Pot.C32_energy",
    "Verif.Pot.C32_potential_is_derivative",
    "Verif.Pot.C32_energy_integral"
   ],
   "note": ""
  },
  {
   "property": "C33",
   "status": "partial",
   "theorems": [
    "Verif.Pot.C33_div_grad_partial",
    "Verif.Pot.C33_adjoint",
    "Verif.Pot.C33_axis_fails"
   ],
   "note": "Proved for the default axis and all leading shapes; explicit non-negative axes sum over the wrong axis (violation proved)."
  },
  {
   "property": "C34",
   "status": "proved",
   "theorems": [
    "Verif.Pot.C34_selection"
   ],
   "note": ""
  },
  {
   "property": "C35",
   "status": "proved",
   "theorems": [
    "Verif.Occup.C35_fixed",
    "Verif.Occup.C35_too_few_bands"
   ],
   "note": "With enough bands proved in full; with too few bands the pinned code silently loses electrons (proved as C35_too_few_bands)."
  },
  {
   "property": "C36",
   "status": "proved",
   "theorems": [
    "Verif.Occup.C36_result",
    "Verif.Occup.C36_terminates",
    "Verif.Occup.C36_never_returns",
    "Verif.Occup.C36_full_bands",
    "Verif.Occup.C36_layout"
   ],
   "note": "Exact reals; termination within the bracket for all three smearing types, non-termination outside it for the symmetric ones."
  },
  {
   "property": "C37",
   "status": "proved",
   "theorems": [
    "Verif.Occup.C37_occupations",
    "Verif.Occup.C37_mv_exceeds_one"
   ],
   "note": ""
  },
  {
   "property": "C38",
   "status": "proved",
   "theorems": [
    "Verif.Mixing.C38_history"
   ],
   "note": ""
  },
  {
   "property": "C39",
   "status": "partial",
   "theorems": [
    "Verif.Mixing.C39_linear_quantities",
    "Verif.Mixing.C39_fixed_point_first",
    "Verif.Mixing.C39_repeated_residual_fails",
    "Verif.Mixing.C39_all_groups"
   ],
   "note": "Charge conservation proved in full; a self-consistent density is returned by the first call, but a second call with an unchanged residual raises (violation proved)."
  },
  {
   "property": "C40",
   "status": "proved",
   "theorems": [
    "Verif.SCF.scf_iterations",
    "Verif.SCF.scf_converged_iff",
    "Verif.SCF.scf_converged_consistent",
    "Verif.SCF.scf_converged_energy",
    "Verif.SCF.scf_converged_electrons",
    "Verif.SCF.scf_unconverged_result",
    "Verif.SCF.scf_maxiter_zero",
    "Verif.SCF.scf_total",
    "Verif.SCF.seqEnv_errors"
   ],
   "note": "For every potential, eigen-solver, symmetriser and mixer (abstract functions). seqEnv_errors shows every error sequence occurs."
  },
  {
   "property": "C41",
   "status": "partial",
   "theorems": [
    "Verif.SCF.thr_rule",
    "Verif.SCF.thr_pos",
    "Verif.SCF.thr_after_first",
    "Verif.SCF.thr_antitone",
    "Verif.SCF.thr_floor_violated"
   ],
   "note": "Rule, positivity and monotonicity proved; the floor is not enforced in the first iteration, after which the threshold may increase (violation proved)."
  },
  {
   "property": "C42",
   "status": "proved",
   "theorems": [
    "Verif.SCF.normalize_electrons",
    "Verif.SCF.normalize_common_factor",
    "Verif.SCF.normalize_fix",
    "Verif.SCF.normalize_idem",
    "Verif.SCF.normalize_factor_pos"
   ],
   "note": ""
  },
  {
   "property": "C43",
   "status": "proved",
   "theorems": [
    "Verif.Davidson.solve_fits",
    "Verif.Davidson.solve_iters"
   ],
   "note": ""
  },
  {
   "property": "C44",
   "status": "partial",
   "theorems": [
    "Verif.Davidson.solve_converged",
    "Verif.Davidson.solve_converged_expectation",
    "Verif.Davidson.solve_unconverged_partial",
    "Verif.Davidson.solve_unconverged_stale",
    "Verif.Davidson.solve_mismatch_violated"
   ],
   "note": "Proved in full for converged runs (Hermitian linear Hamiltonian, eigh meeting its specification). At the iteration limit the pinned code returns vectors older than the values (violation proved)."
  },
  {
   "property": "C45",
   "status": "proved",
   "theorems": [
    "Verif.Logger.C45_history",
    "Verif.Logger.C45_outcomes",
    "Verif.Logger.C45_balanced",
    "Verif.Logger.C45_transparent",
    "Verif.Logger.C45_disabled",
    "Verif.Logger.C45_reentry"
   ],
   "note": ""
  },
  {
   "property": "C46",
   "status": "proved",
   "theorems": [
    "Verif.Logger.C46_counts",
    "Verif.Logger.C46_outcomes",
    "Verif.Logger.C46_full"
   ],
   "note": "At most 500 distinct labels (the table size); C46_full: the 501st raises IndexError."
  },
  {
   "property": "C47",
   "status": "partial",
   "theorems": [
    "Verif.Logger.C47_short",
    "Verif.Logger.C47_long_violated",
    "Verif.Logger.C47_decorated_violated",
    "Verif.Logger.C47_duplicate_violated"
   ],
   "note": "Holds up to 30 characters; violated for every longer label (proved)."
  },
  {
   "property": "C48",
   "status": "partial",
   "theorems": [
    "Verif.Config.C48_accepts",
    "Verif.Config.C48_read_back_partial",
    "Verif.Config.C48_not_stored",
    "Verif.Config.C48_wrong_exception",
    "Verif.Config.C48_seed"
   ],
   "note": "Six of eight options read back the last valid value; davidson_numwork and mixing_method are never stored, and invalid solver/mixer names raise TypeError instead of ValueError (violations proved)."
  },
  {
   "property": "C49",
   "status": "partial",
   "theorems": [
    "Verif.TDDFT.C49_truncated_exponential",
    "Verif.TDDFT.C49_eigenstate_phase",
    "Verif.TDDFT.C49_order_checked",
    "Verif.TDDFT.C49_unsupported_violated",
    "Verif.TDDFT.C49_hamiltonian_matrix"
   ],
   "note": "Holds for spin-unpolarised runs; spin-polarised runs raise and non-collinear runs silently do nothing (proved as violation)."
  },
  {
   "property": "C50",
   "status": "proved",
   "theorems": [
    "Verif.TDDFT.C50_nonlocal_factor",
    "Verif.TDDFT.C50_kinetic_factor",
    "Verif.TDDFT.C50_local_factor",
    "Verif.TDDFT.C50_palindromic_reversible",
    "Verif.TDDFT.C50_time_reversible",
    "Verif.TDDFT.C50_nonlocal_unitary",
    "Verif.TDDFT.C50_selfconsistent_reversible"
   ],
   "note": "Concrete time reversibility (C50_time_reversible) is for a basis containing all plane waves of the grid; on a cut-off basis the local step is the projected multiplication of C50_local_factor."
  },
  {
   "property": "C51",
   "status": "partial",
   "theorems": [
    "Verif.QECell.C51_bravais_partial",
    "Verif.QECell.C51_triclinic_partial",
    "Verif.QECell.C51_triclinic_violated",
    "Verif.QECell.C51_missing_entry"
   ],
   "note": "All 19 entries except ibrav=14 proved; ibrav=14 holds iff cos^2 bc = cos^2 ab (violation otherwise)."
  },
  {
   "property": "C52",
   "status": "partial",
   "theorems": [
    "Verif.BGW.C52_read_back",
    "Verif.BGW.C52_diagonal",
    "Verif.BGW.C52_partial",
    "Verif.BGW.C52_conjugated",
    "Verif.BGW.C52_dropped"
   ],
   "note": "Violated: the reader conjugates and drops trailing (near-)zero rows/columns. C52_read_back states exactly what is returned; C52_partial: matrices without zero tail come back conjugated; C52_conjugated/C52_dropped are the witnesses; C52_diagonal covers the separately stored diagonal."
  },
  {
   "property": "C53",
   "status": "partial",
   "theorems": [
    "Verif.BGW.C53_epsilon_options_dropped",
    "Verif.BGW.C53_epsilon_parameters",
    "Verif.BGW.C53_sigma",
    "Verif.BGW.C53_sigma_no_kpoints"
   ],
   "note": "Violated for epsilon.inp: C53_epsilon_options_dropped proves that every option of every well-formed file is lost. Parameters, and all of sigma.inp, are proved."
  },
  {
   "property": "C54",
   "status": "proved",
   "theorems": [
    "Verif.GW.C54_active",
    "Verif.GW.C54_stored",
    "Verif.GW.C54_hermitian_nonpos",
    "Verif.GW.C54_close_kpoints"
   ],
   "note": "Exact arithmetic; FFT driver model of C17. Two k-points within the matching tolerance make the stored variant drop transitions (C54_close_kpoints)."
  },
  {
   "property": "C55",
   "status": "proved",
   "theorems": [
    "Verif.GW.C55_split",
    "Verif.GW.C55_balanced",
    "Verif.GW.C55_vcoul",
    "Verif.GW.C55_sum"
   ],
   "note": "np.array_split partition; exact sums"
  },
  {
   "property": "C56",
   "status": "proved",
   "theorems": [
    "Verif.GW.C56_sorts",
    "Verif.GW.C56_order_independent",
    "Verif.GW.C56_reorder"
   ],
   "note": ""
  },
  {
   "property": "C57",
   "status": "proved",
   "theorems": [
    "Verif.FFT.C57_parseval"
   ],
   "note": ""
  },
  {
   "property": "C58",
   "status": "partial",
   "theorems": [
    "Verif.Containers.C58_setitem_crosses_basis",
    "Verif.Containers.C58_setitem_leading_partial"
   ],
   "note": "The pinned guard lets some keys cross the basis axis (violation proved); keys addressing leading axes are proved correct."
  },
  {
   "property": "C59",
   "status": "partial",
   "theorems": [
    "Verif.Symm.C59_supercell_filter",
    "Verif.Symm.C59_grid_filter_partial",
    "Verif.Symm.C59_cubic_grid",
    "Verif.Symm.C59_grid_filter_fails"
   ],
   "note": "Supercell filter proved in full; the grid filter can break the group on grids not compatible with the rotations (violation proved)."
  },
  {
   "property": "C60",
   "status": "partial",
   "theorems": [
    "Verif.Pot.C60_lda_ignores_core",
    "Verif.Pot.C60_lda_core_witness",
    "Verif.Pot.C60_gga_core"
   ],
   "note": "The property fails: the pinned code drops the core density for local functionals (violation proved for all inputs)."
  },
  {
   "property": "C61",
   "status": "partial",
   "theorems": [
    "Verif.Pot.C61_lda_potential_is_derivative",
    "Verif.Pot.C61_gga_potential_is_derivative",
    "Verif.Pot.C61_gga_core_error",
    "Verif.Pot.C61_gga_core_violated",
    "Verif.Pot.fft_laws"
   ],
   "note": "Proved for local functionals with any core and for gradient-corrected ones without core; with a core that is not constant the potential is not the derivative (violation proved, with the size of the error). libxc functionals are abstract: a differentiable energy density with its partial derivatives. fft_laws shows both FFT drivers satisfy the transform laws used."
  },
  {
   "property": "C62",
   "status": "partial",
   "theorems": [
    "Verif.Pot.C62_mixed_families"
   ],
   "note": "Same-family pairs never fail; a gradient-corrected functional paired with a local one always raises KeyError (violation proved)."
  },
  {
   "property": "C63",
   "status": "proved",
   "theorems": [
    "Verif.Occup.C63_energy_consistent",
    "Verif.Occup.C63_free_energy_stationary"
   ],
   "note": ""
  },
  {
   "property": "C64",
   "status": "proved",
   "theorems": [
    "Verif.Mixing.C64_least_residual"
   ],
   "note": ""
  },
  {
   "property": "C65",
   "status": "proved",
   "theorems": [
    "Verif.Mixing.C65_methods_agree"
   ],
   "note": ""
  },
  {
   "property": "C66",
   "status": "proved",
   "theorems": [
    "Verif.Mixing.C66_caller_density"
   ],
   "note": ""
  },
  {
   "property": "C67",
   "status": "proved",
   "theorems": [
    "Verif.Mixing.C67_error_measure"
   ],
   "note": ""
  },
  {
   "property": "C68",
   "status": "partial",
   "theorems": [
    "Verif.SCF.scf_caller_kept",
    "Verif.SCF.scf_caller_overwritten",
    "Verif.SCF.scf_caller_normalized"
   ],
   "note": "Holds with symm_rho=True; with symm_rho=False the caller's array is overwritten (violation proved)."
  },
  {
   "property": "C69",
   "status": "partial",
   "theorems": [
    "Verif.SCF.clampMag_spec",
    "Verif.SCF.startSpin_total",
    "Verif.SCF.startSpin_total_full",
    "Verif.SCF.startSpin_spin",
    "Verif.SCF.startSpin_nonneg",
    "Verif.SCF.startSpin_short_violated"
   ],
   "note": "Holds when every species has a magnetisation; a short list silently drops charge (violation proved)."
  },
  {
   "property": "C70",
   "status": "proved",
   "theorems": [
    "Verif.SCF.allreduce_all_iff",
    "Verif.SCF.allreduce_split_violated"
   ],
   "note": "Holds iff there are at least as many bands as band groups; otherwise ranks enter different collectives (violation proved)."
  },
  {
   "property": "C71",
   "status": "proved",
   "theorems": [
    "Verif.Davidson.solve_monotone",
    "Verif.Davidson.solve_lower_bound"
   ],
   "note": ""
  },
  {
   "property": "C72",
   "status": "partial",
   "theorems": [
    "Verif.Nonloc.C72_h_psi_is_hamiltonian",
    "Verif.Nonloc.C72_h_psi_hermitian",
    "Verif.Nonloc.C72_h_psi_linear",
    "Verif.Nonloc.C72_cpu_error_partial",
    "Verif.Nonloc.C72_cpu_not_linear"
   ],
   "note": "Proved for GPU arrays. Violated for numpy arrays: the zgemm wrapper calls np.asarray(out, 'F'), which converts the accumulated H psi to single precision for every species (C72_cpu_not_linear); C72_cpu_error_partial bounds the deviation."
  },
  {
   "property": "C73",
   "status": "partial",
   "theorems": [
    "Verif.Config.C73_backend",
    "Verif.Config.C73_default_fails"
   ],
   "note": "Named backends are selected; the documented default call raises TypeError (violation proved)."
  },
  {
   "property": "C74",
   "status": "proved",
   "theorems": [
    "Verif.Nonloc.C74_rows_match_labels",
    "Verif.Nonloc.C74_nonlocal_operator",
    "Verif.Nonloc.C74_lattice_translation",
    "Verif.Nonloc.C74_translation_relabelling",
    "Verif.Nonloc.C74_vnl_diag",
    "Verif.Nonloc.C74_hermitian"
   ],
   "note": "Spherical harmonics and radial values are arbitrary functions of the plane wave."
  },
  {
   "property": "C75",
   "status": "proved",
   "theorems": [
    "Verif.Nonloc.C75_exact_for_cubics",
    "Verif.Nonloc.C75_table_covers_sphere",
    "Verif.Nonloc.C75_outside_raises"
   ],
   "note": ""
  },
  {
   "property": "C76",
   "status": "partial",
   "theorems": [
    "Verif.Nonloc.C76_simpson_value",
    "Verif.Nonloc.C76_exact_for_cubics",
    "Verif.Nonloc.C76_even_drops_last"
   ],
   "note": "Full for odd meshes; even meshes silently lose their last point (violation proved)."
  },
  {
   "property": "C77",
   "status": "proved",
   "theorems": [
    "Verif.Nonloc.C77_spherical_jn",
    "Verif.Nonloc.C77_closed_forms",
    "Verif.Nonloc.C77_small_is_truncated_series",
    "Verif.Nonloc.C77_series_error",
    "Verif.Nonloc.C77_at_zero"
   ],
   "note": ""
  },
  {
   "property": "C78",
   "status": "partial",
   "theorems": [
    "Verif.Loc.C78_sph2pw_value",
    "Verif.Loc.C78_sph2pw_simpson_partial",
    "Verif.Loc.C78_simpson_old",
    "Verif.Loc.C78_sph2pw_even_mesh",
    "Verif.Loc.C78_sph2pw_witness"
   ],
   "note": "The double-counted first sample is proved (violation); equality with Simpson holds iff that sample contributes nothing."
  },
  {
   "property": "C79",
   "status": "proved",
   "theorems": [
    "Verif.Loc.C79_superpositions",
    "Verif.Loc.C79_images_and_order",
    "Verif.Loc.C79_additive",
    "Verif.Loc.C79_total_charge",
    "Verif.Loc.C79_real",
    "Verif.Loc.C79_translation"
   ],
   "note": ""
  },
  {
   "property": "C80",
   "status": "partial",
   "theorems": [
    "Verif.TDDFT.C80_taylor_step",
    "Verif.TDDFT.C80_split_step_doubles",
    "Verif.TDDFT.C80_split_violated"
   ],
   "note": "Holds for the Taylor method; violated for splitoper (object aliasing), proved with a witness."
  },
  {
   "property": "C81",
   "status": "proved",
   "theorems": [
    "Verif.TDDFT.C81_methods",
    "Verif.TDDFT.C81_rejects_value",
    "Verif.TDDFT.C81_rows"
   ],
   "note": ""
  },
  {
   "property": "C82",
   "status": "partial",
   "theorems": [
    "Verif.TDDFT.C82_write_freq_ignored",
    "Verif.TDDFT.C82_disable_violated"
   ],
   "note": "Violated; the theorems characterise what happens."
  },
  {
   "property": "C83",
   "status": "partial",
   "theorems": [
    "Verif.TDDFT.C83_default_factor_violated",
    "Verif.TDDFT.C83_explicit_factor",
    "Verif.TDDFT.C83_weights",
    "Verif.TDDFT.C83_linear"
   ],
   "note": "Everything holds except the damping choice without explicit factor (proved violation)."
  },
  {
   "property": "C84",
   "status": "proved",
   "theorems": [
    "Verif.Ewald.C84_pair_sum",
    "Verif.Ewald.C84_relabelling",
    "Verif.Ewald.C84_translation",
    "Verif.Ewald.C84_long_range",
    "Verif.Ewald.C84_alpha",
    "Verif.Ewald.C84_alpha_error",
    "Verif.Ewald.C84_energy"
   ],
   "note": "Pair sum, bookkeeping independence, long-range sum and alpha search of ewald.compute over exact reals."
  },
  {
   "property": "C85",
   "status": "partial",
   "theorems": [
    "Verif.Ewald.C85_orthogonal_partial",
    "Verif.Ewald.C85_skewed_violated",
    "Verif.Ewald.C85_outside_cell_violated"
   ],
   "note": "Holds for orthogonal cells with atoms in the cell; violated for skewed cells (image counts use rows of the cell matrix) and for atoms given outside the cell."
  },
  {
   "property": "C86",
   "status": "partial",
   "theorems": [
    "Verif.QECell.C86_history_free_partial",
    "Verif.QECell.C86_leak_violated"
   ],
   "note": "Violated through the shared default dictionary of System.celldm; holds for files giving celldm or non-alat CELL_PARAMETERS."
  },
  {
   "property": "C87",
   "status": "partial",
   "theorems": [
    "Verif.QECell.C87_trad2celldm",
    "Verif.QECell.C87_trad_missing",
    "Verif.QECell.C87_trad_violated",
    "Verif.QECell.C87_alat_violated"
   ],
   "note": "The translation function is correct, but parse_inp raises KeyError before using it (violation proved for every such input)."
  },
  {
   "property": "C88",
   "status": "proved",
   "theorems": [
    "Verif.QECell.C88_grid_shape"
   ],
   "note": ""
  },
  {
   "property": "C89",
   "status": "partial",
   "theorems": [
    "Verif.QECell.C89_cell_parameters",
    "Verif.QECell.C89_unknown_unit_violated"
   ],
   "note": "Supported units correct; any other unit string is silently taken as Bohr (violation)."
  },
  {
   "property": "C90",
   "status": "proved",
   "theorems": [
    "Verif.SCF.C90_reported_energies"
   ],
   "note": ""
  },
  {
   "property": "C91",
   "status": "proved",
   "theorems": [
    "Verif.QEInp.C91_namelist",
    "Verif.QEInp.C91_rejects",
    "Verif.QEInp.C91_required",
    "Verif.QEInp.C91_blocks"
   ],
   "note": "number parsing (int, float) arbitrary partial functions; str.lower on ASCII"
  },
  {
   "property": "C92",
   "status": "partial",
   "theorems": [
    "Verif.QEInp.C92_logical_violated",
    "Verif.QEInp.C92_logical_partial"
   ],
   "note": "violated: .true./.false. always rejected with ValueError; only .true/.false are read"
  },
  {
   "property": "C93",
   "status": "partial",
   "theorems": [
    "Verif.QEInp.C93_case_violated",
    "Verif.QEInp.C93_case_partial"
   ],
   "note": "violated: every namelist value is lower-cased before parsing"
  },
  {
   "property": "C94",
   "status": "partial",
   "theorems": [
    "Verif.QEInp.C94_blank_line_violated",
    "Verif.QEInp.C94_unterminated"
   ],
   "note": "violated: a blank line raises IndexError; an unterminated namelist is always an error (IndexError at end of file, not ValueError)"
  },
  {
   "property": "C95",
   "status": "proved",
   "theorems": [
    "Verif.QEInp.C95_card_lines",
    "Verif.QEInp.C95_short_card",
    "Verif.QEInp.C95_counts",
    "Verif.QEInp.C95_columns",
    "Verif.QEInp.C95_header"
   ],
   "note": ""
  },
  {
   "property": "C96",
   "status": "partial",
   "theorems": [
    "Verif.QEInp.C96_comment_line_violated",
    "Verif.QEInp.C96_inline_comment_violated",
    "Verif.QEInp.C91_namelist"
   ],
   "note": "violated between blocks and behind text values; comment lines inside namelists are harmless (C91_namelist)"
  },
  {
   "property": "C97",
   "status": "proved",
   "theorems": [
    "Verif.QEInp.C97_terminates"
   ],
   "note": ""
  },
  {
   "property": "C98",
   "status": "proved",
   "theorems": [
    "Verif.QEParse.C98_atoms"
   ],
   "note": "exact arithmetic; lattice from the cell model (C51, C86)"
  },
  {
   "property": "C99",
   "status": "partial",
   "theorems": [
    "Verif.QEParse.C99_smearing",
    "Verif.QEParse.C99_fixed",
    "Verif.QEParse.C99_nbnd_violated"
   ],
   "note": "bounds proved; a user's nbnd is overwritten with fixed occupations (proved violation)"
  }
 ]
}