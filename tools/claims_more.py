CO="Verif.Containers"; K="Verif.KPts"; CR="Verif.Crystal"
claim("C24","partial",ns(CO,"C24_reduce_basis_partial C24_reduce_leading C24_reduce_fails C24_reduce_fails_witness C24_vdot"),"The pinned code fails when the last leading dimension equals a local basis size (proved as C24_reduce_fails); otherwise proved in full.")
claim("C25","proved",ns(CO,"C25_indexing_keeps_basis C25_integer"))
claim("C58","partial",ns(CO,"C58_setitem_crosses_basis C58_setitem_leading_partial"),"The pinned guard lets some keys cross the basis axis (violation proved); keys addressing leading axes are proved correct.")
claim("C28","partial",ns(K,"C28_weights_normalised C28_constructor_unchecked C28_constructor_unchecked_witness"),"Holds for from_* constructors; the kpts.KList constructor stores any weights (violation proved).")
claim("C29","partial",ns(K,"C29_full_mesh C29_time_reversal_fails C29_time_reversal_partial C29_old_mesh_collapses C29_symmetry_reduced"),"Time-reversal reduction keeps uniform weights (violation proved); klist.mpgrid has a precedence bug (proved).")
claim("C30","partial",ns(CR,"C30_supercell C30_electrons_partial C30_electrons_fail C30_displacements_complete"),"Geometry proved in full; the electron count fails for species given by a plain valence number (proved).")
SY="Verif.Symm"
claim("C31","proved",ns(SY,"C31_group_average C31_symmetrised"),"For operations forming a group (see C59) and a G-space closed under them.")
claim("C59","partial",ns(SY,"C59_supercell_filter C59_grid_filter_partial C59_cubic_grid C59_grid_filter_fails"),"Supercell filter proved in full; the grid filter can break the group on grids not compatible with the rotations (violation proved).")
PO="Verif.Pot"
claim("C32","proved",ns(PO,"C32_potential C32_energy C32_potential_is_derivative C32_energy_integral"))
claim("C33","partial",ns(PO,"C33_div_grad_partial C33_adjoint C33_axis_fails"),"Proved for the default axis and all leading shapes; explicit non-negative axes sum over the wrong axis (violation proved).")
claim("C34","proved",ns(PO,"C34_selection"))
claim("C60","partial",ns(PO,"C60_lda_ignores_core C60_lda_core_witness C60_gga_core"),"The property fails: the pinned code drops the core density for local functionals (violation proved for all inputs).")
claim("C61","partial",ns(PO,"C61_lda_potential_is_derivative C61_gga_potential_is_derivative C61_gga_core_error C61_gga_core_violated fft_laws"),"Proved for local functionals with any core and for gradient-corrected ones without core; with a core that is not constant the potential is not the derivative (violation proved, with the size of the error). libxc functionals are abstract: a differentiable energy density with its partial derivatives. fft_laws shows both FFT drivers satisfy the transform laws used.")
claim("C62","partial",ns(PO,"C62_mixed_families"),"Same-family pairs never fail; a gradient-corrected functional paired with a local one always raises KeyError (violation proved).")
OC="Verif.Occup"
claim("C35","proved",ns(OC,"C35_fixed C35_too_few_bands"),"With enough bands proved in full; with too few bands the pinned code silently loses electrons (proved as C35_too_few_bands).")
claim("C36","proved",ns(OC,"C36_result C36_terminates C36_never_returns C36_full_bands C36_layout"),"Exact reals; termination within the bracket for all three smearing types, non-termination outside it for the symmetric ones.")
claim("C37","proved",ns(OC,"C37_occupations C37_mv_exceeds_one"))
claim("C63","proved",ns(OC,"C63_energy_consistent C63_free_energy_stationary"))
MX="Verif.Mixing"
claim("C38","proved",ns(MX,"C38_history"))
claim("C39","partial",ns(MX,"C39_linear_quantities C39_fixed_point_first C39_repeated_residual_fails C39_all_groups"),"Charge conservation proved in full; a self-consistent density is returned by the first call, but a second call with an unchanged residual raises (violation proved).")
claim("C64","proved",ns(MX,"C64_least_residual"))
claim("C65","proved",ns(MX,"C65_methods_agree"))
claim("C66","proved",ns(MX,"C66_caller_density"))
claim("C67","proved",ns(MX,"C67_error_measure"))
SC="Verif.SCF"
claim("C40","proved",ns(SC,"scf_iterations scf_converged_iff scf_converged_consistent scf_converged_energy scf_converged_electrons scf_unconverged_result scf_maxiter_zero scf_total seqEnv_errors"),"For every potential, eigen-solver, symmetriser and mixer (abstract functions). seqEnv_errors shows every error sequence occurs.")
claim("C41","partial",ns(SC,"thr_rule thr_pos thr_after_first thr_antitone thr_floor_violated"),"Rule, positivity and monotonicity proved; the floor is not enforced in the first iteration, after which the threshold may increase (violation proved).")
claim("C42","proved",ns(SC,"normalize_electrons normalize_common_factor normalize_fix normalize_idem normalize_factor_pos"))
claim("C68","partial",ns(SC,"scf_caller_kept scf_caller_overwritten scf_caller_normalized"),"Holds with symm_rho=True; with symm_rho=False the caller's array is overwritten (violation proved).")
claim("C69","partial",ns(SC,"clampMag_spec startSpin_total startSpin_total_full startSpin_spin startSpin_nonneg startSpin_short_violated"),"Holds when every species has a magnetisation; a short list silently drops charge (violation proved).")
claim("C70","proved",ns(SC,"allreduce_all_iff allreduce_split_violated"),"Holds iff there are at least as many bands as band groups; otherwise ranks enter different collectives (violation proved).")
DV="Verif.Davidson"
claim("C43","proved",ns(DV,"solve_fits solve_iters"))
claim("C44","partial",ns(DV,"solve_converged solve_converged_expectation solve_unconverged_partial solve_unconverged_stale solve_mismatch_violated"),"Proved in full for converged runs (Hermitian linear Hamiltonian, eigh meeting its specification). At the iteration limit the pinned code returns vectors older than the values (violation proved).")
claim("C71","proved",ns(DV,"solve_monotone solve_lower_bound"))
LG="Verif.Logger"
claim("C45","proved",ns(LG,"C45_history C45_outcomes C45_balanced C45_transparent C45_disabled C45_reentry"))
claim("C46","proved",ns(LG,"C46_counts C46_outcomes C46_full"),"At most 500 distinct labels (the table size); C46_full: the 501st raises IndexError.")
claim("C47","partial",ns(LG,"C47_short C47_long_violated C47_decorated_violated C47_duplicate_violated"),"Holds up to 30 characters; violated for every longer label (proved).")
CF="Verif.Config"
claim("C48","partial",ns(CF,"C48_accepts C48_read_back_partial C48_not_stored C48_wrong_exception C48_seed"),"Six of eight options read back the last valid value; davidson_numwork and mixing_method are never stored, and invalid solver/mixer names raise TypeError instead of ValueError (violations proved).")
claim("C73","partial",ns(CF,"C73_backend C73_default_fails"),"Named backends are selected; the documented default call raises TypeError (violation proved).")
NL="Verif.Nonloc"
claim("C72","partial",ns(NL,"C72_h_psi_is_hamiltonian C72_h_psi_hermitian C72_h_psi_linear C72_cpu_error_partial C72_cpu_not_linear"),"Proved for GPU arrays. Violated for numpy arrays: the zgemm wrapper calls np.asarray(out, 'F'), which converts the accumulated H psi to single precision for every species (C72_cpu_not_linear); C72_cpu_error_partial bounds the deviation.")
claim("C74","proved",ns(NL,"C74_rows_match_labels C74_nonlocal_operator C74_lattice_translation C74_translation_relabelling C74_vnl_diag C74_hermitian"),"Spherical harmonics and radial values are arbitrary functions of the plane wave.")
claim("C75","proved",ns(NL,"C75_exact_for_cubics C75_table_covers_sphere C75_outside_raises"))
claim("C76","partial",ns(NL,"C76_simpson_value C76_exact_for_cubics C76_even_drops_last"),"Full for odd meshes; even meshes silently lose their last point (violation proved).")
claim("C77","proved",ns(NL,"C77_spherical_jn C77_closed_forms C77_small_is_truncated_series C77_series_error C77_at_zero"))
LO="Verif.Loc"
claim("C78","partial",ns(LO,"C78_sph2pw_value C78_sph2pw_simpson_partial C78_simpson_old C78_sph2pw_even_mesh C78_sph2pw_witness"),"The double-counted first sample is proved (violation); equality with Simpson holds iff that sample contributes nothing.")
claim("C79","proved",ns(LO,"C79_superpositions C79_images_and_order C79_additive C79_total_charge C79_real C79_translation"))
claim("C49","partial",ns("Verif.TDDFT","C49_truncated_exponential C49_eigenstate_phase C49_order_checked C49_unsupported_violated C49_hamiltonian_matrix"),"Holds for spin-unpolarised runs; spin-polarised runs raise and non-collinear runs silently do nothing (proved as violation).")
claim("C50","proved",ns("Verif.TDDFT","C50_nonlocal_factor C50_kinetic_factor C50_local_factor C50_palindromic_reversible C50_time_reversible C50_nonlocal_unitary C50_selfconsistent_reversible"),"Concrete time reversibility (C50_time_reversible) is for a basis containing all plane waves of the grid; on a cut-off basis the local step is the projected multiplication of C50_local_factor.")
claim("C80","partial",ns("Verif.TDDFT","C80_taylor_step C80_split_step_doubles C80_split_violated"),"Holds for the Taylor method; violated for splitoper (object aliasing), proved with a witness.")
claim("C81","proved",ns("Verif.TDDFT","C81_methods C81_rejects_value C81_rows"),"")
claim("C82","partial",ns("Verif.TDDFT","C82_write_freq_ignored C82_disable_violated"),"Violated; the theorems characterise what happens.")
claim("C83","partial",ns("Verif.TDDFT","C83_default_factor_violated C83_explicit_factor C83_weights C83_linear"),"Everything holds except the damping choice without explicit factor (proved violation).")
claim("C84","proved",ns("Verif.Ewald","C84_pair_sum C84_relabelling C84_translation C84_long_range C84_alpha C84_alpha_error C84_energy"),
 "Pair sum, bookkeeping independence, long-range sum and alpha search of ewald.compute over exact reals.")
claim("C85","partial",ns("Verif.Ewald","C85_orthogonal_partial C85_skewed_violated C85_outside_cell_violated"),
 "Holds for orthogonal cells with atoms in the cell; violated for skewed cells (image counts use rows of the cell matrix) and for atoms given outside the cell.")
QC="Verif.QECell"
claim("C51","partial",ns(QC,"C51_bravais_partial C51_triclinic_partial C51_triclinic_violated C51_missing_entry"),"All 19 entries except ibrav=14 proved; ibrav=14 holds iff cos^2 bc = cos^2 ab (violation otherwise).")
claim("C86","partial",ns(QC,"C86_history_free_partial C86_leak_violated"),"Violated through the shared default dictionary of System.celldm; holds for files giving celldm or non-alat CELL_PARAMETERS.")
claim("C87","partial",ns(QC,"C87_trad2celldm C87_trad_missing C87_trad_violated C87_alat_violated"),"The translation function is correct, but parse_inp raises KeyError before using it (violation proved for every such input).")
claim("C88","proved",ns(QC,"C88_grid_shape"),"")
claim("C89","partial",ns(QC,"C89_cell_parameters C89_unknown_unit_violated"),"Supported units correct; any other unit string is silently taken as Bohr (violation).")
claim("C90","proved",ns("Verif.SCF","C90_reported_energies"),"")
claim("C91","proved",ns("Verif.QEInp","C91_namelist C91_rejects C91_required C91_blocks"),"number parsing (int, float) arbitrary partial functions; str.lower on ASCII")
claim("C92","partial",ns("Verif.QEInp","C92_logical_violated C92_logical_partial"),"violated: .true./.false. always rejected with ValueError; only .true/.false are read")
claim("C93","partial",ns("Verif.QEInp","C93_case_violated C93_case_partial"),"violated: every namelist value is lower-cased before parsing")
claim("C94","partial",ns("Verif.QEInp","C94_blank_line_violated C94_unterminated"),"violated: a blank line raises IndexError; an unterminated namelist is always an error (IndexError at end of file, not ValueError)")
claim("C95","proved",ns("Verif.QEInp","C95_card_lines C95_short_card C95_counts C95_columns C95_header"),"")
claim("C96","partial",ns("Verif.QEInp","C96_comment_line_violated C96_inline_comment_violated C91_namelist"),"violated between blocks and behind text values; comment lines inside namelists are harmless (C91_namelist)")
claim("C97","proved",ns("Verif.QEInp","C97_terminates"),"")

claim("C98","proved",ns("Verif.QEParse","C98_atoms"),"exact arithmetic; lattice from the cell model (C51, C86)")
claim("C99","partial",ns("Verif.QEParse","C99_smearing C99_fixed C99_nbnd_violated"),"bounds proved; a user's nbnd is overwritten with fixed occupations (proved violation)")
claim("C100","partial",ns("Verif.QEParse","C100_entries C100_order_partial C100_order_violated"),"values are passed in insertion order of the dictionary: wrong species unless entries come in the order 1, 2, ...")
claim("C101","partial",ns("Verif.QEParse","C101_partial C101_violated"),"m-p smearing and mixing_beta = 0 are accepted and then fail in scf")
claim("C102","partial",ns("Verif.QEParse","C102_ignored_violated"),"violated: the three values have no effect on any accepted input")
claim("C103","partial",ns("Verif.QEParse","C103_replaced_violated C103_noncolin C103_legal_partial"),"violated: AttributeError (assignment to a NamedTuple field)")
claim("C104","partial",ns("Verif.QEParse","C104_automatic_partial C104_explicit_violated"),"explicit lists never succeed (Crystal has no recispc)")
claim("C105","partial",ns("Verif.QEParse","C105_partial C105_override_violated"),"override fails with KeyError")
claim("C106","partial",ns("Verif.QEParse","C106_partial C106_nspin_violated"),"other values are treated as unpolarised")
claim("C107","partial",ns("Verif.QEParse","C107_mixdim_partial C107_mixdim_violated C107_progress"),"mix_dim = 1 passes scf and fails in the mixer; progress proved")
claim("C108","partial",ns("Verif.QEParse","C108_partial C108_ecutrho_violated"),"a given ecutrho is always replaced by 4 ecutwfc")

G="Verif.GW"
claim("C54","proved",ns(G,"C54_active C54_stored C54_hermitian_nonpos C54_close_kpoints"),"Exact arithmetic; FFT driver model of C17. Two k-points within the matching tolerance make the stored variant drop transitions (C54_close_kpoints).")
claim("C55","proved",ns(G,"C55_split C55_balanced C55_vcoul C55_sum"),"np.array_split partition; exact sums")
claim("C56","proved",ns(G,"C56_sorts C56_order_independent C56_reorder"),"")
claim("C109","proved",ns(G,"C109_matrix_elements C109_no_aliasing C109_partner"),"")
claim("C110","proved",ns(G,"C110_umklapp"),"")
claim("C111","proved",ns(G,"C111_v_bare C111_epsilon_inverse C111_nan C111_screening"),"exact arithmetic; np.linalg.inv modelled as the exact inverse")
claim("C114","proved",ns(G,"C114_fixwings C114_bare_identity C114_default_head"),"")
claim("C119","proved",ns("Verif.QEParse","C119_units"),"")
claim("C112","partial",ns(G,"C112_exchange C112_nonpositive C112_duplicate_k C112_occupied_partial C112_cutoffs C112_metal"),"proved for uniform filling, distinct k-points and equal cutoffs; metals, repeated k-points and different cutoffs are proved violations")
claim("C113","partial",ns(G,"C113_sx C113_ch C113_bounds C113_q0_sort C113_fewer_kpoints"),"violations proved: q0 sort keys of another sphere, fewer k-points than q-points")
claim("C115","partial",ns(G,"C115_injective C115_lookup_partial C115_quarter C115_wraps"),"addresses wrap outside the box; a vector without density raises KeyError")
claim("C116","partial",ns(G,"C116_bra C116_index C116_negative_component C116_partner C116_momentum C116_same_partner C116_tolerance"),"violated for q-points listed with negative components; tolerances of Sigma and Epsilon differ")
claim("C117","partial",ns(G,"C117_cohsex C117_gpp_partial C117_gpp_primed C117_band_labels C117_non_root C117_root"),"primed columns and Znk of the plasmon-pole table, band labels, non-root processes: proved violations")
claim("C118","partial",ns(G,"C118_pole C118_not_neglected C118_one_sided C118_terms C118_static_limit"),"neglected entries keep Omega2; the imaginary-part test is one-sided")
claim("C120","partial",ns(G,"C120_conjugate C120_real_partial C120_complex"),"holds for real symmetric matrices only")
claim("C121","partial",ns(G,"C121_order C121_native_order C121_q0_order"),"correct iff the matrix comes in BerkeleyGW order of q+G; both documented routes violate that in cases exhibited")
claim("C122","partial",ns(G,"C122_exact_partial C122_bounds C122_band_offset C122_high_k C122_truncated"),"band offset ignored, k-points beyond the number of q-points get zero, pairs above the cutoff dropped (proved violations)")
B="Verif.BGW"
claim("C52","partial",ns(B,"C52_read_back C52_diagonal C52_partial C52_conjugated C52_dropped"),"Violated: the reader conjugates and drops trailing (near-)zero rows/columns. C52_read_back states exactly what is returned; C52_partial: matrices without zero tail come back conjugated; C52_conjugated/C52_dropped are the witnesses; C52_diagonal covers the separately stored diagonal.")
claim("C53","partial",ns(B,"C53_epsilon_options_dropped C53_epsilon_parameters C53_sigma C53_sigma_no_kpoints"),"Violated for epsilon.inp: C53_epsilon_options_dropped proves that every option of every well-formed file is lost. Parameters, and all of sigma.inp, are proved.")
claim("C123","partial",ns(B,"C123_plane_waves C123_coefficients C123_readers_agree C123_inverted C123_not_a_phase"),"The reordering is proved for all plane-wave orders; violated for the values: i·conj(c) is loaded (C123_inverted, C123_not_a_phase).")
claim("C124","proved",ns(B,"C124_species"),"")
claim("C125","partial",ns(B,"C125_epsilon_inp C125_sigma_inp C125_scale_ignored C125_unterminated C125_blank_in_block C125_comment"),"Reading proved for all well-formed files; violated for the scale factor (C125_scale_ignored).")
claim("C126","partial",ns(B,"C126_read C126_offdiagonal C126_truncated"),"Proved for files with diagonal elements; violated with off-diagonal ones (C126_offdiagonal).")
K="Verif.KSWfn"
claim("C127","partial",ns(K,"C127_overlap C127_exact C127_wraps C127_spinor C127_single_band"),"Exactly what is returned is C127_overlap (matching modulo the grid); equal to the inner product when no difference of plane waves reaches the grid (C127_exact). Violations proved: wrap-around, second spinor component ignored, scalar band argument.")
claim("C128","proved",ns(K,"C128_partition"),"")
claim("C129","partial",ns(K,"C129_load C129_broadcast C129_wrong_size C129_wrong_bands C129_foreign C129_repeated"),"Loading proved for every order of the file; violated: foreign plane waves fail with IndexError, repeated plane waves are accepted. Only one-component states are modelled; stored eigenvalues are passed through.")
claim("C130","partial",ns(K,"C130_charge_slice C130_charge_list C130_list_violated C130_no_bands C130_repeat"),"Proved for slices; index lists are not normalised (C130_list_violated); no bands is an AttributeError.")
U="Verif.UPF"
claim("C131","partial",ns(U,"C131_read_partial C131_core_violated C131_no_projectors C131_projector_order"),"Proved for files with at least one projector and logicals not spelled true/.true.; the XML parser is not modelled. Violations proved: core charge dropped for every other spelling than t/T, files without projectors never read, projector numbers ignored.")
claim("C132","partial",ns(U,"C132_unsupported_accepted"),"Violated: every well-formed ultrasoft/PAW/spin-orbit file is accepted.")
claim("C133","partial",ns(U,"C133_rejected C133_missing_accepted"),"Missing core charge, missing non-local section and wrong size of D are rejected; missing mesh, local potential or atomic density are accepted (C133_missing_accepted).")
CA="Verif.CheckArgs"
claim("C134","proved",ns(CA,"C134_safe C134_complete C134_terminates"),"All schedules, any number of processes, with broadcasts that do or do not synchronise.")
claim("C135","partial",ns(CA,"C135_hang C135_root_never_raises"),"Violated: the root never raises because it compares its data with itself, and in every execution it blocks for ever in a collective call. The full statement (every process raises) is false of the code.")
W="Verif.Wavefun"
claim("C136","partial",ns(W,"C136_normalize C136_distributed C136_single C136_blocks"),"Proved for one-dimensional lists, serial and distributed; violated for a single wavefunction (IndexError) and for blocks of lists (ValueError, or the wrong norms).")
claim("C137","partial",ns(W,"C137_density C137_normalized_partial C137_spinor C137_spinor_list"),"Proved for lists of one-component wavefunctions; spinors are normalised per component (charge = number of components) or fail.")
claim("C138","proved",ns(W,"C138_vdot"),"Arrays of any number of axes.")
claim("C139","proved",ns("Verif.Davidson","C139_band_parallel C139_rows"),"Refinement of the serial model; exact arithmetic, plane waves not distributed inside a band group (C22, C138 cover that), MPI collectives by their standard semantics.")
LA="Verif.LatArr"
claim("C140","proved",ns(LA,"C140_array_conversion C140_round_trip C140_rejects"),"numpy's broadcasting is modelled; negative `axis` values and arrays whose axis has length 1 (silently broadcast by cart2cryst) are outside the documented domain.")
claim("C141","partial",ns(LA,"C141_klist_coords_partial C141_checks C141_tpiba_fails C141_tpiba_wrong"),"Crystal and Cartesian coordinates proved for all three input types; k_tpiba is violated: it converts along the wrong axis, fails unless there are three points and is wrong with three.")
claim("C142","partial",ns(LA,"C142_norm2_values_partial C142_norm2_shape"),"Values proved; the shape is violated: the array is flattened before its shape is taken, so the result is right only for flat lists of vectors.")
H5="Verif.H5"
claim("C143","proved",ns(H5,"C143_round_trip C143_order C143_no_overwrite"),"Keys without '/', data sets hold the array written (types and bytes are h5py's).")
claim("C144","partial",ns(H5,"C144_copy_partial C144_deep_fails"),"Proved for headers whose groups hold only arrays; violated (TypeError) for deeper ones, because the recursive call does not pass the type of the source on.")
SH="Verif.SigmaHP"
claim("C145","partial",ns(SH,"C145_tables C145_truncated C145_header_ignored"),"Proved for files whose tables share one header (distinct names, n first) and end with an empty line; a table at the end of the file without an empty line is StopIteration, and headers after the first are ignored (columns would get the names of the first header).")
claim("C146","partial",ns("Verif.RhoFile","C146_read_partial C146_atoms C146_real C146_spin"),"Read correctly exactly for two atoms, complex flavour, one spin (C146_read_partial). Violated otherwise: another number of atoms is refused (C146_atoms), the real flavour is refused or paired into half as many values (C146_real), two spins are concatenated (C146_spin).")
claim("C147","partial",ns("Verif.RhoFile","C147_read_fails C147_write_fails"),"Violated: the three functions use attributes the objects do not have and raise for every input. The body after the failing access is not modelled (parameter `tail`).")
claim("C148","proved",ns("Verif.EigPrec","C148_diagonal C148_denominator C148_monotone C148_apply C148_nonzero"),"Exact arithmetic, real diagonal (the code stores it as complex with zero imaginary part).")
claim("C149","partial",ns("Verif.EigPrec","C149_solved C149_serial_only C149_noncollinear C149_threshold_ignored"),"Given an external solver meeting its specification, whatever the wrappers return is solved. Violated: non-collinear states are never solved, and the scipy wrapper ignores the requested threshold (the solver's default accuracy is used).")
claim("C150","proved",ns("Verif.Vcoul","C150_sphere C150_oneoverq C150_shifted C150_nan"),"Three-dimensional Lebesgue integrals over balls of Euclidean space; the documented constraint |centre| > R is necessary (C150_nan).")
claim("C151","partial",ns("Verif.Vcoul","C151_unbiased C151_unbiased_shift C151_ball_in_cell C151_fold_in_cell C151_fold_uniform C151_samples_in_mesh C151_mesh C151_mesh_shift C151_samples C151_gamma_only C151_anisotropic C151_nan"),"Unbiased on every n x n x n mesh, for samples uniform on the parallelepiped of the mesh (an idealisation of 32-bit random numbers) and a search returning a nearest mesh point: folding then gives samples uniform on the cell (C151_fold_uniform, C151_mesh). False on anisotropic meshes (C151_anisotropic). Violated: a single q-point raises ValueError (C151_gamma_only); q+G shorter than the radius gives NaN (C151_nan). v_minibz_montecarlo reads an unassigned variable and is not modelled.")
SA="Verif.ScfArgs"
claim("C152","partial",ns(SA,"C152_root_values C152_own_config"),"The twelve broadcast parameters are the root's in every execution; violated for dftconfig (the result of the broadcast is discarded) and ret_vxc (C152_own_config).")
claim("C153","proved",ns(SA,"C153_accepted C153_rejected C153_bad_density"),"For processes whose own arguments (G-space, starting density, configuration, k-points) are in order; after check_system (C134).")
claim("C154","partial",ns(SA,"C154_default_violated C154_git_violated C154_partial"),"Violated: with the documented default None (and for any callable without a name, and without a git program) the root raises while printing the parameters and the other processes wait for ever.")
claim("C155","partial",ns(SA,"C155_distributed_spin_violated C155_partial"),"Violated for spin-polarised runs with distributed plane waves (one k-group and one band group modelled).")
claim("C156","proved",ns("Verif.Delta","C156_delta C156_symmetric C156_zero_iff C156_rows C156_missing"),"Exact arithmetic. The order of the elements (a Python set) is a parameter; the printing is not modelled (the maximum and minimum lines print the bytes object, i.e. \"b'\", as the element's name).")
claim("C157","partial",ns("Verif.Delta","C157_physical C157_found C157_none C157_recovers C157_report_partial C157_four_points"),"The fit is proved for every polynomial and data set; violated: with four data points (enough for the cubic) the script fails with IndexError, and it converts the bulk modulus with another electron charge than calcDelta (relative difference between 0 and 5e-7). Only real roots are modelled.")
claim("C158","partial",ns("Verif.GW","C158_first_zone_partial C158_outside C158_switch C158_q0"),"Proved for q-points in the first Brillouin zone (no shorter q+G); violated for all others: the Coulomb value of the shortest q+G is used in place of the one of G=0, the G=0 row is scaled down.")

claim("C159","partial",ns("Verif.Fmt","C159_round_trip_partial C159_single_row_violated"),"Violated for a file of one row: genfromtxt then returns a one-dimensional array and load_vcoul raises IndexError (C159_single_row_violated). Formatting is exact decimal rounding (ties to even), float reads a numeral exactly; the rounding of float is not modelled.")
claim("C160","proved",ns("Verif.Printer","C160_status C160_header C160_no_levels C160_adds_up"),"Energies as real numbers; the run time is printed but nothing is claimed about it.")
claim("C161","proved",ns("Verif.Printer","C161_bands"),"k-point and weight as the text that str makes of them.")

claim("C162","partial",ns("Verif.VxcOut","C162_entry C162_matrix_element_partial C162_spin_violated C162_rows C162_energies_partial C162_unconverged_violated"),"Proved for unpolarised runs, and for the energies of converged runs. Violated: with spin the down potential is added to the up potential and only spin-up states are returned; in a run that ends at maxiter en.xc is overwritten by that of the next mixed density so the energies no longer add up; each process gets only its own k-group's rows.")

claim("C163","partial",ns("Verif.LogFile","C163_current C163_exact C163_backup C163_kept_partial C163_same_second_violated"),"Proved for histories that never set the log file up twice with the same time stamp (whole seconds); otherwise Path.rename replaces an earlier backup (C163_same_second_violated). POSIX semantics of open files and rename are part of the model.")
claim("C164","partial",ns("Verif.LogFile","C164_finite C164_no_hang_partial C164_result C164_absent_partial C164_hang_violated C164_split_violated"),"Violated: without an earlier file a process that looks after another one created the file waits in the barrier alone (C164_hang_violated); with one, a process may open it before rank 0 renames it (C164_split_violated). Proved: no hang and no loss when a file exists; all well if all look first. Collective calls after the function that might match the barrier are not modelled.")

claim("C165","partial",ns("Verif.PwCli","C165_options C165_numbers C165_not_a_number C165_first_word_violated"),"Options proved for all command lines whose values are not themselves option names; a file without -in is found only as the first word (C165_first_word_violated). int() of signs, blanks and underscores is not modelled.")
claim("C166","partial",ns("Verif.PwCli","C166_layout_partial C166_zero C166_bands_violated C166_basis_group"),"Layout as asked for if pools*bands divides the processes; otherwise the number of band groups is changed silently (C166_bands_violated). pw.py distributes the basis over all processes, which is right exactly if plane-wave groups are single processes or there is one of them (C166_basis_group).")

claim("C167","partial",ns("Verif.Atoms","C167_axes_partial C167_rejects C167_dual C167_angstrom C167_integers_violated"),"Violated for vectors written with integers only: np.stack makes an integer array, which Lattice.__init__ refuses (ValueError). Proved for all other input, exact real arithmetic.")
claim("C168","partial",ns("Verif.Atoms","C168_positions C168_from_alat_partial C168_wrong_length C168_ragged C168_checks C168_from_alat_violated C168_one_number_violated"),"Violated twice: from_alat takes one table instead of one argument per atom (TypeError / ValueError for the documented call), and from_cart/from_bohr/from_angstrom take a one-element sequence [x] for (x, x, x) by broadcasting. Proved for the rest.")
claim("C169","partial",ns("Verif.Atoms","C169_lattice C169_atoms C169_crystal C169_raises C169_coords_violated"),"Violated: the coordinates below 'in units of alat' are crystal coordinates. Proved: everything else is shown to five decimals; groups without mass or with an integer instead of a pseudopotential cannot be shown.")
claim("C170","partial",ns("Verif.GArr","C170_alloc C170_into_partial C170_rejects C170_lost_violated C170_rows_violated C170_r2g C170_g2r"),"Proved without an output array (all inputs, all layouts) and for output arrays whose leading axes can be merged. With other output arrays reshape copies and the result is lost silently (C170_lost_violated); arrays with different numbers of rows are not rejected (C170_rows_violated). Negative strides and overlapping arrays are not modelled.")
claim("C171","partial",ns("Verif.GArr","C171_returned_partial C171_pyfftw_violated C171_frame"),"Holds for NumPy, SciPy, MKL; with pyFFTW the driver returns its own work array, which the next transform overwrites (C171_pyfftw_violated). CuPy is not modelled.")
claim("C172","partial",ns("Verif.KLists","C172_index C172_iteration C172_slices C172_numpy_partial C172_numpy_violated C172_distribute_violated"),"Integers, slices and iteration proved for both classes; numpy integers, index lists and masks only work for qtm.kpts.KList (C172_numpy_violated); klist_distribute always fails (C172_distribute_violated). Slices are characterised for [a:b], [-m:], [::-1] and step 0.")
claim("C173","proved",ns("Verif.KLists","C173_coords C173_checks"),"Exact arithmetic; weights that are all zero become NaN and are outside the statement.")
claim("C174","partial",ns("Verif.KLists","C174_q0 C174_from_data_partial C174_from_data_violated"),"Sigma.from_data always zeroes the first q-point; if the flagged one is another, a regular q-point is lost (C174_from_data_violated).")
claim("C175","partial",ns("Verif.DistBuf","C175_gather_partial C175_scatter_partial C175_parts C175_good_argument C175_single_field_violated C175_empty_violated C175_bad_argument_violated"),"Holds for every container with elements and, for fields, leading axes. Violated (proved): fields without leading axes, containers without elements, and scatter() with an unacceptable argument (the other processes never return).")
claim("C176","partial",ns("Verif.DistBuf","C176_distributed_partial C176_checks C176_single_field_violated"),"Holds for distributed fields with leading axes; a distributed field without leading axes raises (violation proved).")
claim("C177","partial",ns("Verif.GkCoords","C177_complete_partial C177_density C177_far_violated"),"Proved for |k|^2 <= 2 ecutwfn and ecutwfn <= ecut/4; for every lattice there is a k-point equivalent to Gamma for which the constructor raises IndexError (violation proved).")
claim("C178","proved",ns("Verif.GkCoords","C178_lengths C178_distributed"),"Exact arithmetic.")
claim("C179","proved",ns("Verif.Trans","C179_translation C179_images"),"Proved in exact arithmetic; on the CPU the projector products go through single precision (see C72), so there the equality holds only up to that rounding.")
claim("C180","proved",ns("Verif.Mixing","C180_mixing_covariant translation_isometry"),"Exact arithmetic; solve is exact or raises.")
claim("C181","proved",ns("Verif.Trans","C181_xc C181_hartree C181_atoms C181_grid"),"libxc enters through the hypothesis that it works point by point; exact arithmetic.")
claim("C182","proved",ns("Verif.TransScf","C182_scf_covariant C182_mixers"),"The diagonaliser, occupations and potentials enter as an environment whose two instances correspond under the symmetry (discharged for the parts by C179-C181).")
claim("C183","proved",ns("Verif.KSWfn","C183_gauge_invariant"),"Exact arithmetic, both FFT drivers.")
claim("C184","proved",ns("Verif.Rot","C184_equivalent_kpoints C184_basis C184_origin"),"Proved in exact arithmetic (GPU path, see C72 for the CPU) for vectors k+G that are zero or longer than 1e-7 (shorter ones get polar angle 0). sph_harm_y enters through its addition theorem, which is proved for the usual harmonics up to l=3 (sphY_harmonics).")
claim("C185","proved",ns("Verif.Rot","C185_time_reversal C184_basis keeps_neg"),"Proved in exact arithmetic (GPU path), same hypotheses as C184.")
claim("C186","proved",ns("Verif.Symm","C186_sampling"),"Exact arithmetic; the relations between the densities of equivalent k-points are C184/C185, the symmetriser is the model of C31.")
claim("C187","proved",ns("Verif.Rot","C187_xc C187_hartree C187_atoms C187_grid"),"libxc enters through the hypothesis that it works point by point; exact arithmetic.")

claim("C188","partial",ns("Verif.TDDFT","C188_contraction C188_orthonormal C188_truncated_violated"),"contraction for every basis; conservation and orthonormality for every basis as large as the grid; on a truncated basis orthonormality is lost: concrete 2x2x1 grid witness (C188_truncated_violated)")

claim("C189","proved",ns("Verif.Rot","C189_solutions_carried"),"Proved in exact arithmetic (GPU path, see C72 for the CPU) for vectors k+G that are zero or longer than 1e-7, as in C184. The Ewald energy is left out: the code's image counts break its rotation invariance in skewed cells (C85).")

claim("C190","partial",ns("Verif.EpsFile","C190_history_partial C190_empty_violated C190_crash C190_failed_write_violated C190_missing_file"),"Proved: the last non-empty write wins, for all histories. Violated: writing no matrices keeps those of an earlier run (C190_empty_violated); a crash between opening the file and making the dataset loses old and new matrices (C190_crash); write_mats of no matrices raises after emptying the file (C190_failed_write_violated). Effects on an open file are taken to be durable.")
claim("C191","partial",ns("Verif.EpsFile","C191_roundtrip_partial C191_real C191_address_violated C191_conversion_rejects"),"Proved without a dataset name; with one, complex arrays come back as real pairs (C191_address_violated).")
claim("C192","partial",ns("Verif.LatNorm","C192_dot C192_norm2 C192_norm_partial C192_negative_alat_violated C192_geometry C192_rejects"),"Proved for all lattices, shapes and unit names; RealLattice accepts a negative alat, for which norm(coords='alat') is negative (C192_negative_alat_violated). The flat shape of norm2 is C142.")
claim("C193","partial",ns("Verif.Mesh","C193_mesh_partial C193_distinct C193_default_violated C193_checks C193_unknown_violated"),"Proved for Cartesian and alat units and for crystal coordinates with an array as origin. Violated: with the default origin, or any tuple in crystal coordinates, AttributeError (C193_default_violated); unknown unit names give None (C193_unknown_violated).")
claim("C194","partial",ns("Verif.Mesh","C194_kick_density_partial C194_kick_group C194_kick_contracts C194_truncated_violated C194_dipole C194_direction"),"Density and overlaps kept: proved on a basis as large as the grid; on a truncated basis part of the orbital is lost (C194_truncated_violated shows all of it), never gained (C194_kick_contracts). One spin component; exact arithmetic.")
claim("C195","proved",ns("Verif.TDDFT","C195_taylor_accuracy C195_bound_exists"),"Exact arithmetic, fixed Hamiltonian (as between two updates of the potential).")
claim("C196","proved",ns("Verif.TDDFT","C196_leading_error C196_first_order C196_second_order_iff C196_second_order_full C196_truncated_violated"),"Leading error computed for every basis; second order exactly where it vanishes, in particular on a basis that fills the grid; on a truncated basis the step is only first order (C196_truncated_violated).")
claim("C197","proved",ns("Verif.KSEn","C197_energy_is_kohn_sham C197_fits_of_cutoff"),"Exact arithmetic (GPU path of h_psi, see C72); the Ewald and smearing energies are added unchanged by the code (C90) and left out. Without symmetrisation of the density.")

claim("C198","proved",ns("Verif.KSEn","C198_gradient_lda C198_gradient_gga C198_stationary_lda C198_stationary_gga"),"Both the Hartree and the xc part are derivatives of the code's own energies (C32, C61 extended to curves in PotCurve); the gga theorems assume no core density because with one the code's gga potential is not the derivative of its energy (C61_gga_core_violated).")
claim("C199","proved",ns("Verif.GW","C199_polarizability C199_self_energies C199_phases"),"The mixing acts on the first number_bands bands and must not lead across that boundary (a calculation that truncates a multiplet is not invariant), nor across the boundary of the occupied bands. The plasmon-pole parts are not covered.")

claim("C200","proved",ns("Verif.Super","C200_same_fields C200_gspace_is_sphere"),"Exact arithmetic; has_g0 true (one rank holding G=0). Equality at every Cartesian point, for any two grids.")
claim("C201","partial",ns("Verif.Vcoul","C201_images C201_neighbourhood C201_sufficient_partial C201_elongated_violated C201_half_of_samples_violated C201_hybrid_cases"),"Which points the neighbourhood contains; in an orthogonal, not too elongated cell folding is correct for every sample; violated in an elongated cell (edge ratio above 4): half of the samples are left outside the cell of the origin. Sufficiency is proved for orthogonal cells with the n x n x n mesh; the general case is false, as shown.")
claim("C202","proved",ns("Verif.Super","C202_energy C202_hartree C202_local C202_charge"),"Densities are assumed equal in space, as functions of the Cartesian point; equality of Fourier coefficients is derived (independence of plane waves).")
claim("C203","proved",ns("Verif.Rot","C203_irreducible_wedge"),"Exact arithmetic; the grid and the G-space must be closed under the group (the code's own requirement for SymmFieldMod). The weights reported by the k-point generator are not re-derived here (see C28).")
claim("C204","proved",ns("Verif.PotDist","C204_xc C204_hartree C204_ionic C204_metric"),"Exact arithmetic (summation order is not modelled); libxc evaluates functionals point by point (PointFunc). The transforms are those of Verif.Dist (C22).")
claim("C205","proved",ns("Verif.MixDist","C205_history C205_error"),"Both Broyden methods on distributed plane waves, for any number of processes, any distribution of sticks, any history of calls and any uninitialised memory; exact arithmetic. The serial behaviour is that of C38, C39, C64 and C65.")
claim("C206","proved",ns("Verif.HamDist","C206_hamiltonian C206_projectors C206_products C206_density"),"Hamiltonian for one-component wavefunctions, density for any number of spin components; any number of processes and any history of transforms, exact arithmetic up to the single-precision conversion of zgemm (C72), which is part of the model and acts plane wave by plane wave.")
claim("C207","proved",ns("Verif.HamDist","C207_solver"),"One copy of the reduced matrices stands for all processes (they are results of Allreduce and broadcasts); the reduced eigen-solver is an arbitrary function. Distribution over band groups: C139.")
claim("C208","partial",ns("Verif.RandInit","C208_fresh_numbers C208_size C208_more_bands_partial C208_more_bands_violated C208_noncollinear_fails C208_distribution_violated"),
 "Random starting wavefunctions (kswfn.py:110-142), for every k-point, seed, number of bands and plane waves: all moduli and phases come from different draws and the modulus of a coefficient is one draw over 1+|k+G|^2. "
 "Violations proved: the start of a band changes with the number of bands asked for unless its group of ten is complete, non-collinear wavefunctions raise ValueError, and with distributed plane waves every process repeats the same draws, so the start is not the serial one. The random generator is an arbitrary stream determined by its seed.")
claim("C209","proved",ns("Verif.ScfDist","C209_same_driver C209_every_kpoint C209_scf"),
"The driver is written once for any kind of density (C209_same_driver: on one process it is the driver of C40-C42, C68-C70, C90) and instantiated with the serial functions and with those of the processes (potentials C204, mixing C205, Hamiltonian, density and solver C206/C207, allgather of the symmetriser). One k-point group and one band group; real arithmetic, so sums do not depend on their order; the starting states are given (C208: those scf draws at random differ with the distribution); the imaginary part of the averaged potential in the preconditioner is left out; the occupation rule is any function of all eigenvalues, called by every process on the same values. Example: two processes, one full iteration.")

claim("C210","proved",ns("Verif.ScfGrp","C210_scf C210_owner C210_occupations"),"Exact arithmetic; at least as many bands as band groups (otherwise C07/C70), same starting states on all band groups (init_random seeds by k-point, C208); occupations by any routine whose result does not depend on the groups, which C210_occupations proves of the smearing routine when no group is empty. The communicators are those of C05-C09.")

claim("C211","proved",ns("Verif.SpinScf","C211_scf C211_smear C211_occupations C211_symmetriser"),"Exact arithmetic. The functionals are any pair (unpolarised, polarised) that agrees at equal spin densities and gradients in the sense of the chain rule (structure Same); the run is the serial driver of C209, C210 with its potentials, eigen-solver, occupations, density and mixing. Starting states are given (the code's random start draws different states for the two spins); fixed occupations raise with is_spin=True (C35), so the occupations are those of smearing.")

claim("C212","proved",ns("Verif.KMap","C212_scf C212_occupations"),"Exact arithmetic; serial driver of C209 (any process layout by C210). Equal points start from equal states (init_random seeds by the index of the k-point, so the code's own random start differs between the lists). Which exception is raised may differ: it is that of the first failing k-point.")
claim("C213","partial",ns("Verif.Coll","C213_no_deadlock_partial C213_progress_partial C213_schedules C213_magnetisation_deadlock C213_idle_band_group_deadlock C213_dead_process C213_eigh_failure_deadlock C213_layout"),"Proved for all layouts, local computations and schedules when every band group has a band, no process raises, and the run is not both spin-polarised and distributed over plane waves. The three exceptions are real deadlocks of the code and are proved as such: rank 0 alone calls the collective transforms for the magnetisation (scf.py:523-538), idle band groups skip the density reduction (scf.py:399-409), and an exception on one process (e.g. eigh on the k-group root) leaves the others waiting. The smearing bisection is modelled up to an arbitrary number of steps.")

claim("C214","partial",ns("Verif.GwRun","C214_schedule C214_outcome C214_cohsex_partial C214_gpp_partial C214_idle_autosave C214_failing_q"),"COHSEX: every process ends with the table built from the sums over all q-points (exact arithmetic). Proved violations: with autosave and more processes than q-points the idle processes die in sigma_x and the others wait forever; a q-point that raises on one process leaves the others waiting; calculate_gpp ends with a NameError on every process but rank 0. The per-q arithmetic is a parameter (modelled in C112-C122)")

claim("C215","partial",ns("Verif.TimerReport","C215_timers_partial C215_counters C215_history C215_no_counters C215_blanks"),"Labels without bars, newlines and blanks at the ends (others are not determined by the table, C215_blanks); times to the printed hundredth. Proved violation: print(qtmlogger) shows no counters although documented")
claim("C216","partial",ns("Verif.Ufunc","C216_refused C216_elementwise C216_shapes C216_closed C216_in_place C216_in_place_refused C216_distributed C216_distributed_refused C216_distributed_out C216_single C216_out_violated"),"proved for serial and distributed containers with a basis of more than one element and container or no out; violated for a one-element basis with longer array operands, for the exception type of distributed containers and for out= given as an array; dtypes, and ufuncs with several results or signatures, are not modelled")
claim("C217","proved",ns("Verif.TransScf","C217_symmetry_kept C217_prefix C217_each_iteration C217_mixers"),"exact arithmetic; the hypotheses on Hamiltonian, potentials, Ewald energy and symmetriser are proved in C179, C181, C184, C187, C84, C31; random starting wavefunctions are not symmetric themselves")
claim("C218","proved",ns("Verif.Rot","C218_symmetrised_run C218_energy"),"Exact arithmetic; the grid and the G-space must be closed under the group (the code's own requirement for SymmFieldMod) and the atoms mapped onto each other. Self-consistency is stated at convergence (input and output density equal); time reversal is C220.")
claim("C219","partial",ns("Verif.GW","C219_transfer_partial C219_exchange_partial C219_cut_shell"),"Proved for meshes whose list of G-vectors at the q0 point contains -G with G. Violated otherwise (C219_cut_shell): that list is cut with the small shift q0, the search for -G is made without it, and when the cutoff falls on a shell another G-vector is taken for the missing one (the code only prints a message). Meshes with negative components: see C116.")
claim("C220","proved",ns("Verif.Rot","C220_time_reversal C220_energy C220_symmetrised")+" Verif.KPts.C220_mesh_weights","For every self-consistent solution at a list of k-points, a self-consistent solution at any list of these k-points and their negatives (weights distributed in any way) with equal density, potential, energies; composed with C218 for symmetrised runs; weights of mpSymm are sums of the equal mesh weights. Exact arithmetic; existence of a solution at the full list, not that the iteration finds it.")
claim("C221","partial",ns("Verif.GW","C221_polarizability C221_dielectric C221_fixwings C221_self_energies C221_closure C221_plasmon_pole"),
 "Proved for the polarizability (both variants), the inverse dielectric matrix, fixwings and all static self-energies, entry by entry. Violated by the plasmon-pole model: sigma_gpp_omegas zeroes densities with an imaginary part above 1e-5, so its frequencies depend on the origin (C221_plasmon_pole gives a case).")
claim("C222","partial",ns("Verif.Vcoul","C222_processes C222_defined C222_bare C222_average C222_avgcut C222_seed C222_more_samples"),"Values, order and independence of the number of processes are proved. Violated by the code: avgcut and averaging_func are not used (C222_avgcut: a NaN entry where the bare value is documented), SEED is ignored after the first call because the samples are cached (C222_seed), N_SAMPLES above the default divides a sum over 2500000 samples by N_SAMPLES (C222_more_samples); the table of 1/q is NaN at the q0 point with bare=True.")
claim("C223","partial",ns("Verif.GW","C223_order C223_dielectric C223_repeated C223_repetition_violated"),"Order: proved in full. Repetition: violated by the code (C223_repeated: factor r; C223_repetition_violated: concrete case), unlike the density of an SCF run (C212).")
claim("C224","partial",ns("Verif.EZero","C224_h_psi C224_davidson_partial C224_smear C224_fixed C224_band_energy C224_scf C224_denominator C224_denominator_mean C224_mean_raised C224_preconditioner_depends C224_not_the_diagonal"),
"Proved: h_psi gains c times the wavefunction (exact arithmetic, GPU branch: the CPU branch rounds to single precision, C72); occupations and smearing energy stay and the Fermi level / HO / LU levels go up by c for smearing of every type and fixed occupations; the band energy grows by c for every electron; given a solver whose eigenvalues go up by c, the self-consistent run makes the same errors, thresholds and densities and energies raised by c N. Davidson: same vectors and iterations, eigenvalues raised, for any preconditioner of energy differences and any solver of the reduced problem whose values go up with the matrix. Violated by the code: the potential is divided by the number of grid points when it is made (scf.py:345) and its sum once more before the solver is called (scf.py:474), so the preconditioner uses mean / N for the mean of the potential: it is not the diagonal of the Hamiltonian and every denominator changes with c.")
claim("C225","proved",ns("Verif.GW","C225_polarizability C225_dielectric C225_pairs C225_pairs_mirrored"),"The hypothesis that the pairs of k-points correspond is proved for every mesh (C225_pairs_mirrored).")
claim("C226","proved",ns("Verif.Mixing","C226_hartree_energy C226_second_order C226_distance"),"The spin term is written out in spinError (2π/tpiba² times the mean square of the difference of the magnetisations).")
claim("C227","partial",ns("Verif.TDDFT","C227_image C227_starting_density C227_rows C227_phases_order C227_mixing C227_taylor_mixing_violated"),"Phases, order, starting density: proved in full. Unitary mixing: proved for the split operator on a basis as large as the grid; violated with the Taylor propagator (C227_taylor_mixing_violated), whose norm drift is removed orbital by orbital.")

claim("C228","partial",ns("Verif.TDDFT","C228_constant C228_taylor_constant_violated C228_moved_factors C228_translation"),"Proved: with the split operator (either propagator) a constant in the potential, even one that depends on the density, changes no density and the orbitals by phases only; for every choice of methods the propagation of a crystal moved by grid steps is the moved propagation (its potential has to move with the density: C181), and the factors of the split operator are those of the unmoved atoms. Violated: one Taylor step gives another density when a constant is added to the potential (the truncated exponential is not unitary, and the norm is restored afterwards).")

claim("C229","proved",ns("Verif.TDDFT","C229_conjugation C229_factors C229_real_projectors"),"For every choice of methods, order, real potential as a function of the density and number of steps: the run of the conjugate orbitals with -dt has the densities of the run with dt and ends with the conjugate orbitals; the factors of the split operator computed for -dt are the conjugates of those for dt (with the same refusals), and the projectors of a species are real in space when angular and radial parts have the parity of l. The matrix products are exact (GPU branch; C72).")

claim("C230","partial",ns("Verif.TDDFT","C230_retrace C230_microreversibility"),"Proved for any number of steps, bands (orthogonal or not), potentials as functions of the density and species with linearly independent projectors, on a basis as large as the grid. Missing: on the truncated basis of a real run the local factor is not undone by the one for -dt (C188), so the retrace is only approximate there.")
