# Axioms of the claimed theorems

From `#print axioms` (tools/axioms.py).

## Classical.choice, Quot.sound, propext (734)

* `Verif.Scatter.C01_scatter_partition`
* `Verif.Scatter.C01_blocks_concat`
* `Verif.Scatter.C01_davidson_blocks`
* `Verif.Scatter.C02_scatter_balanced`
* `Verif.Scatter.C03_all_ranks_contract_fails`
* `Verif.Scatter.C03_per_rank_calls_partial`
* `Verif.Scatter.C04_scatter_blocks`
* `Verif.Scatter.C04_scatter_weights`
* `Verif.Scatter.C04_distribute_blocks`
* `Verif.Scatter.C04_distribute_round_robin`
* `Verif.DFTComm.C05_layout_bijection`
* `Verif.DFTComm.C05_accepts_iff`
* `Verif.DFTComm.C06_density_layout_independent`
* `Verif.DFTComm.C06_eigen_layout_independent`
* `Verif.DFTComm.C07_collectives_agree_iff`
* `Verif.GSpace.C10_index_bijection`
* `Verif.QEParse.C100_entries`
* `Verif.QEParse.C100_order_partial`
* `Verif.QEParse.C100_order_violated`
* `Verif.QEParse.C101_partial`
* `Verif.QEParse.C101_violated`
* `Verif.QEParse.C102_ignored_violated`
* `Verif.QEParse.C103_replaced_violated`
* `Verif.QEParse.C103_noncolin`
* `Verif.QEParse.C103_legal_partial`
* `Verif.QEParse.C104_automatic_partial`
* `Verif.QEParse.C104_explicit_violated`
* `Verif.QEParse.C105_partial`
* `Verif.QEParse.C105_override_violated`
* `Verif.QEParse.C106_partial`
* `Verif.QEParse.C106_nspin_violated`
* `Verif.QEParse.C107_mixdim_partial`
* `Verif.QEParse.C107_mixdim_violated`
* `Verif.QEParse.C107_progress`
* `Verif.QEParse.C108_partial`
* `Verif.QEParse.C108_ecutrho_violated`
* `Verif.GW.C109_matrix_elements`
* `Verif.GW.C109_no_aliasing`
* `Verif.GW.C109_partner`
* `Verif.GSpace.C11_canonical_order`
* `Verif.GSpace.C11_data_round_trip`
* `Verif.GSpace.C11_order_independent`
* `Verif.GW.C110_umklapp`
* `Verif.GW.C111_v_bare`
* `Verif.GW.C111_epsilon_inverse`
* `Verif.GW.C111_nan`
* `Verif.GW.C111_screening`
* `Verif.GW.C112_exchange`
* `Verif.GW.C112_nonpositive`
* `Verif.GW.C112_duplicate_k`
* `Verif.GW.C112_occupied_partial`
* `Verif.GW.C112_cutoffs`
* `Verif.GW.C112_metal`
* `Verif.GW.C113_sx`
* `Verif.GW.C113_ch`
* `Verif.GW.C113_bounds`
* `Verif.GW.C113_q0_sort`
* `Verif.GW.C113_fewer_kpoints`
* `Verif.GW.C114_fixwings`
* `Verif.GW.C114_bare_identity`
* `Verif.GW.C114_default_head`
* `Verif.GW.C115_injective`
* `Verif.GW.C115_lookup_partial`
* `Verif.GW.C115_quarter`
* `Verif.GW.C116_bra`
* `Verif.GW.C116_index`
* `Verif.GW.C116_negative_component`
* `Verif.GW.C116_partner`
* `Verif.GW.C116_momentum`
* `Verif.GW.C116_same_partner`
* `Verif.GW.C116_tolerance`
* `Verif.GW.C117_cohsex`
* `Verif.GW.C117_gpp_partial`
* `Verif.GW.C117_gpp_primed`
* `Verif.GW.C118_pole`
* `Verif.GW.C118_not_neglected`
* `Verif.GW.C118_one_sided`
* `Verif.GW.C118_terms`
* `Verif.GW.C118_static_limit`
* `Verif.QEParse.C119_units`
* `Verif.GSpace.C12_g0_first`
* `Verif.Dist.C12_first_process_owns`
* `Verif.GW.C120_conjugate`
* `Verif.GW.C120_real_partial`
* `Verif.GW.C120_complex`
* `Verif.GW.C121_order`
* `Verif.GW.C121_native_order`
* `Verif.GW.C121_q0_order`
* `Verif.GW.C122_exact_partial`
* `Verif.GW.C122_bounds`
* `Verif.GW.C122_band_offset`
* `Verif.GW.C122_high_k`
* `Verif.GW.C122_truncated`
* `Verif.BGW.C123_plane_waves`
* `Verif.BGW.C123_coefficients`
* `Verif.BGW.C123_readers_agree`
* `Verif.BGW.C123_inverted`
* `Verif.BGW.C123_not_a_phase`
* `Verif.BGW.C124_species`
* `Verif.BGW.C125_epsilon_inp`
* `Verif.BGW.C125_sigma_inp`
* `Verif.BGW.C125_scale_ignored`
* `Verif.BGW.C125_unterminated`
* `Verif.BGW.C125_blank_in_block`
* `Verif.BGW.C125_comment`
* `Verif.BGW.C126_read`
* `Verif.BGW.C126_offdiagonal`
* `Verif.BGW.C126_truncated`
* `Verif.KSWfn.C127_overlap`
* `Verif.KSWfn.C127_exact`
* `Verif.KSWfn.C127_wraps`
* `Verif.KSWfn.C127_spinor`
* `Verif.KSWfn.C127_single_band`
* `Verif.KSWfn.C128_partition`
* `Verif.KSWfn.C129_load`
* `Verif.KSWfn.C129_broadcast`
* `Verif.KSWfn.C129_wrong_size`
* `Verif.KSWfn.C129_wrong_bands`
* `Verif.KSWfn.C129_foreign`
* `Verif.KSWfn.C129_repeated`
* `Verif.Lattice.C13_sphere_fits`
* `Verif.Lattice.C13_default_gspace`
* `Verif.GSpace.C13_selects_sphere`
* `Verif.KSWfn.C130_charge_slice`
* `Verif.KSWfn.C130_charge_list`
* `Verif.KSWfn.C130_list_violated`
* `Verif.KSWfn.C130_no_bands`
* `Verif.KSWfn.C130_repeat`
* `Verif.UPF.C131_read_partial`
* `Verif.UPF.C131_core_violated`
* `Verif.UPF.C131_no_projectors`
* `Verif.UPF.C131_projector_order`
* `Verif.UPF.C132_unsupported_accepted`
* `Verif.UPF.C133_rejected`
* `Verif.UPF.C133_missing_accepted`
* `Verif.CheckArgs.C134_safe`
* `Verif.CheckArgs.C134_complete`
* `Verif.CheckArgs.C134_terminates`
* `Verif.CheckArgs.C135_hang`
* `Verif.CheckArgs.C135_root_never_raises`
* `Verif.Wavefun.C136_normalize`
* `Verif.Wavefun.C136_distributed`
* `Verif.Wavefun.C136_single`
* `Verif.Wavefun.C136_blocks`
* `Verif.Wavefun.C137_density`
* `Verif.Wavefun.C137_normalized_partial`
* `Verif.Wavefun.C137_spinor`
* `Verif.Wavefun.C137_spinor_list`
* `Verif.Wavefun.C138_vdot`
* `Verif.Davidson.C139_band_parallel`
* `Verif.Davidson.C139_rows`
* `Verif.GSpace.C14_optimal_grid`
* `Verif.LatArr.C140_array_conversion`
* `Verif.LatArr.C140_round_trip`
* `Verif.LatArr.C140_rejects`
* `Verif.LatArr.C141_klist_coords_partial`
* `Verif.LatArr.C141_checks`
* `Verif.LatArr.C141_tpiba_fails`
* `Verif.LatArr.C141_tpiba_wrong`
* `Verif.LatArr.C142_norm2_values_partial`
* `Verif.LatArr.C142_norm2_shape`
* `Verif.H5.C143_round_trip`
* `Verif.H5.C143_order`
* `Verif.H5.C143_no_overwrite`
* `Verif.H5.C144_copy_partial`
* `Verif.H5.C144_deep_fails`
* `Verif.SigmaHP.C145_tables`
* `Verif.SigmaHP.C145_truncated`
* `Verif.SigmaHP.C145_header_ignored`
* `Verif.RhoFile.C146_read_partial`
* `Verif.RhoFile.C146_atoms`
* `Verif.RhoFile.C146_real`
* `Verif.RhoFile.C146_spin`
* `Verif.RhoFile.C147_read_fails`
* `Verif.EigPrec.C148_diagonal`
* `Verif.EigPrec.C148_denominator`
* `Verif.EigPrec.C148_monotone`
* `Verif.EigPrec.C148_apply`
* `Verif.EigPrec.C148_nonzero`
* `Verif.EigPrec.C149_solved`
* `Verif.EigPrec.C149_serial_only`
* `Verif.EigPrec.C149_noncollinear`
* `Verif.EigPrec.C149_threshold_ignored`
* `Verif.Vcoul.C150_sphere`
* `Verif.Vcoul.C150_oneoverq`
* `Verif.Vcoul.C150_shifted`
* `Verif.Vcoul.C150_nan`
* `Verif.Vcoul.C151_unbiased`
* `Verif.Vcoul.C151_unbiased_shift`
* `Verif.Vcoul.C151_ball_in_cell`
* `Verif.Vcoul.C151_fold_in_cell`
* `Verif.Vcoul.C151_fold_uniform`
* `Verif.Vcoul.C151_samples_in_mesh`
* `Verif.Vcoul.C151_mesh`
* `Verif.Vcoul.C151_mesh_shift`
* `Verif.Vcoul.C151_samples`
* `Verif.Vcoul.C151_gamma_only`
* `Verif.Vcoul.C151_anisotropic`
* `Verif.Vcoul.C151_nan`
* `Verif.ScfArgs.C152_root_values`
* `Verif.ScfArgs.C152_own_config`
* `Verif.ScfArgs.C153_accepted`
* `Verif.ScfArgs.C153_rejected`
* `Verif.ScfArgs.C153_bad_density`
* `Verif.ScfArgs.C154_default_violated`
* `Verif.ScfArgs.C154_git_violated`
* `Verif.ScfArgs.C154_partial`
* `Verif.ScfArgs.C155_distributed_spin_violated`
* `Verif.ScfArgs.C155_partial`
* `Verif.Delta.C156_delta`
* `Verif.Delta.C156_symmetric`
* `Verif.Delta.C156_zero_iff`
* `Verif.Delta.C156_rows`
* `Verif.Delta.C156_missing`
* `Verif.Delta.C157_physical`
* `Verif.Delta.C157_found`
* `Verif.Delta.C157_none`
* `Verif.Delta.C157_recovers`
* `Verif.Delta.C157_report_partial`
* `Verif.Delta.C157_four_points`
* `Verif.GW.C158_first_zone_partial`
* `Verif.GW.C158_outside`
* `Verif.GW.C158_switch`
* `Verif.GW.C158_q0`
* `Verif.Fmt.C159_round_trip_partial`
* `Verif.Fmt.C159_single_row_violated`
* `Verif.GSpace.C16_k_basis`
* `Verif.Printer.C160_status`
* `Verif.Printer.C160_header`
* `Verif.Printer.C160_no_levels`
* `Verif.Printer.C160_adds_up`
* `Verif.Printer.C161_bands`
* `Verif.VxcOut.C162_entry`
* `Verif.VxcOut.C162_matrix_element_partial`
* `Verif.VxcOut.C162_spin_violated`
* `Verif.VxcOut.C162_rows`
* `Verif.VxcOut.C162_energies_partial`
* `Verif.VxcOut.C162_unconverged_violated`
* `Verif.LogFile.C163_current`
* `Verif.LogFile.C163_exact`
* `Verif.LogFile.C163_same_second_violated`
* `Verif.LogFile.C164_finite`
* `Verif.LogFile.C164_no_hang_partial`
* `Verif.LogFile.C164_result`
* `Verif.LogFile.C164_hang_violated`
* `Verif.PwCli.C165_options`
* `Verif.PwCli.C165_numbers`
* `Verif.PwCli.C165_not_a_number`
* `Verif.PwCli.C165_first_word_violated`
* `Verif.PwCli.C166_layout_partial`
* `Verif.PwCli.C166_bands_violated`
* `Verif.PwCli.C166_basis_group`
* `Verif.Atoms.C167_axes_partial`
* `Verif.Atoms.C167_rejects`
* `Verif.Atoms.C167_dual`
* `Verif.Atoms.C167_angstrom`
* `Verif.Atoms.C167_integers_violated`
* `Verif.Atoms.C168_positions`
* `Verif.Atoms.C168_from_alat_partial`
* `Verif.Atoms.C168_wrong_length`
* `Verif.Atoms.C168_ragged`
* `Verif.Atoms.C168_checks`
* `Verif.Atoms.C168_from_alat_violated`
* `Verif.Atoms.C168_one_number_violated`
* `Verif.Atoms.C169_lattice`
* `Verif.Atoms.C169_atoms`
* `Verif.Atoms.C169_crystal`
* `Verif.Atoms.C169_raises`
* `Verif.Atoms.C169_coords_violated`
* `Verif.FFT.C17_drivers_compute_dft`
* `Verif.FFT.C17_round_trip`
* `Verif.GArr.C170_alloc`
* `Verif.GArr.C170_into_partial`
* `Verif.GArr.C170_lost_violated`
* `Verif.GArr.C170_rows_violated`
* `Verif.GArr.C170_r2g`
* `Verif.GArr.C170_g2r`
* `Verif.GArr.C171_frame`
* `Verif.KLists.C172_index`
* `Verif.KLists.C172_iteration`
* `Verif.KLists.C172_slices`
* `Verif.KLists.C172_numpy_partial`
* `Verif.KLists.C173_coords`
* `Verif.KLists.C173_checks`
* `Verif.KLists.C174_q0`
* `Verif.KLists.C174_from_data_partial`
* `Verif.KLists.C174_from_data_violated`
* `Verif.DistBuf.C175_gather_partial`
* `Verif.DistBuf.C175_scatter_partial`
* `Verif.DistBuf.C175_parts`
* `Verif.DistBuf.C175_good_argument`
* `Verif.DistBuf.C175_bad_argument_violated`
* `Verif.DistBuf.C176_distributed_partial`
* `Verif.DistBuf.C176_checks`
* `Verif.GkCoords.C177_complete_partial`
* `Verif.GkCoords.C177_density`
* `Verif.GkCoords.C177_far_violated`
* `Verif.GkCoords.C178_lengths`
* `Verif.GkCoords.C178_distributed`
* `Verif.Trans.C179_translation`
* `Verif.Trans.C179_images`
* `Verif.FFT.C18_projection`
* `Verif.Mixing.C180_mixing_covariant`
* `Verif.Mixing.translation_isometry`
* `Verif.Trans.C181_xc`
* `Verif.Trans.C181_hartree`
* `Verif.Trans.C181_atoms`
* `Verif.Trans.C181_grid`
* `Verif.TransScf.C182_scf_covariant`
* `Verif.TransScf.C182_mixers`
* `Verif.KSWfn.C183_gauge_invariant`
* `Verif.Rot.C184_equivalent_kpoints`
* `Verif.Rot.C184_basis`
* `Verif.Rot.C184_origin`
* `Verif.Rot.C185_time_reversal`
* `Verif.Rot.keeps_neg`
* `Verif.Symm.C186_sampling`
* `Verif.Rot.C187_xc`
* `Verif.Rot.C187_hartree`
* `Verif.Rot.C187_atoms`
* `Verif.Rot.C187_grid`
* `Verif.TDDFT.C188_contraction`
* `Verif.TDDFT.C188_orthonormal`
* `Verif.TDDFT.C188_truncated_violated`
* `Verif.Rot.C189_solutions_carried`
* `Verif.FFT.C19_sticks_eq_full`
* `Verif.EpsFile.C190_history_partial`
* `Verif.EpsFile.C190_empty_violated`
* `Verif.EpsFile.C190_crash`
* `Verif.EpsFile.C190_failed_write_violated`
* `Verif.EpsFile.C190_missing_file`
* `Verif.EpsFile.C191_roundtrip_partial`
* `Verif.EpsFile.C191_real`
* `Verif.EpsFile.C191_address_violated`
* `Verif.EpsFile.C191_conversion_rejects`
* `Verif.LatNorm.C192_dot`
* `Verif.LatNorm.C192_norm2`
* `Verif.LatNorm.C192_norm_partial`
* `Verif.LatNorm.C192_negative_alat_violated`
* `Verif.LatNorm.C192_geometry`
* `Verif.LatNorm.C192_rejects`
* `Verif.Mesh.C193_mesh_partial`
* `Verif.Mesh.C193_distinct`
* `Verif.Mesh.C193_default_violated`
* `Verif.Mesh.C193_checks`
* `Verif.Mesh.C193_unknown_violated`
* `Verif.Mesh.C194_kick_density_partial`
* `Verif.Mesh.C194_kick_group`
* `Verif.Mesh.C194_kick_contracts`
* `Verif.Mesh.C194_truncated_violated`
* `Verif.Mesh.C194_dipole`
* `Verif.TDDFT.C195_taylor_accuracy`
* `Verif.TDDFT.C195_bound_exists`
* `Verif.TDDFT.C196_leading_error`
* `Verif.TDDFT.C196_first_order`
* `Verif.TDDFT.C196_second_order_iff`
* `Verif.TDDFT.C196_second_order_full`
* `Verif.TDDFT.C196_truncated_violated`
* `Verif.KSEn.C197_energy_is_kohn_sham`
* `Verif.KSEn.C197_fits_of_cutoff`
* `Verif.KSEn.C198_gradient_lda`
* `Verif.KSEn.C198_gradient_gga`
* `Verif.KSEn.C198_stationary_lda`
* `Verif.KSEn.C198_stationary_gga`
* `Verif.GW.C199_polarizability`
* `Verif.GW.C199_self_energies`
* `Verif.GW.C199_phases`
* `Verif.FFT.C20_history_independent`
* `Verif.Dist.C22_distributed_eq_serial`
* `Verif.Super.C200_same_fields`
* `Verif.Super.C200_gspace_is_sphere`
* `Verif.Vcoul.C201_images`
* `Verif.Vcoul.C201_neighbourhood`
* `Verif.Vcoul.C201_sufficient_partial`
* `Verif.Vcoul.C201_elongated_violated`
* `Verif.Vcoul.C201_half_of_samples_violated`
* `Verif.Vcoul.C201_hybrid_cases`
* `Verif.Super.C202_energy`
* `Verif.Super.C202_hartree`
* `Verif.Super.C202_local`
* `Verif.Super.C202_charge`
* `Verif.Rot.C203_irreducible_wedge`
* `Verif.PotDist.C204_xc`
* `Verif.PotDist.C204_hartree`
* `Verif.PotDist.C204_ionic`
* `Verif.PotDist.C204_metric`
* `Verif.MixDist.C205_history`
* `Verif.MixDist.C205_error`
* `Verif.HamDist.C206_hamiltonian`
* `Verif.HamDist.C206_projectors`
* `Verif.HamDist.C206_products`
* `Verif.HamDist.C206_density`
* `Verif.HamDist.C207_solver`
* `Verif.RandInit.C208_size`
* `Verif.RandInit.C208_more_bands_partial`
* `Verif.RandInit.C208_more_bands_violated`
* `Verif.RandInit.C208_noncollinear_fails`
* `Verif.RandInit.C208_distribution_violated`
* `Verif.ScfDist.C209_same_driver`
* `Verif.ScfDist.C209_scf`
* `Verif.Dist.C21_partition`
* `Verif.Dist.C21_refuses`
* `Verif.Dist.C21_reachable`
* `Verif.ScfGrp.C210_scf`
* `Verif.ScfGrp.C210_owner`
* `Verif.ScfGrp.C210_occupations`
* `Verif.SpinScf.C211_scf`
* `Verif.SpinScf.C211_smear`
* `Verif.SpinScf.C211_occupations`
* `Verif.SpinScf.C211_symmetriser`
* `Verif.KMap.C212_scf`
* `Verif.KMap.C212_occupations`
* `Verif.Coll.C213_no_deadlock_partial`
* `Verif.Coll.C213_progress_partial`
* `Verif.Coll.C213_schedules`
* `Verif.Coll.C213_magnetisation_deadlock`
* `Verif.Coll.C213_idle_band_group_deadlock`
* `Verif.Coll.C213_dead_process`
* `Verif.Coll.C213_eigh_failure_deadlock`
* `Verif.Coll.C213_layout`
* `Verif.GwRun.C214_cohsex_partial`
* `Verif.GwRun.C214_gpp_partial`
* `Verif.GwRun.C214_idle_autosave`
* `Verif.GwRun.C214_failing_q`
* `Verif.TimerReport.C215_timers_partial`
* `Verif.TimerReport.C215_counters`
* `Verif.TimerReport.C215_history`
* `Verif.TimerReport.C215_no_counters`
* `Verif.TimerReport.C215_blanks`
* `Verif.Ufunc.C216_refused`
* `Verif.Ufunc.C216_in_place_refused`
* `Verif.Ufunc.C216_distributed`
* `Verif.Ufunc.C216_distributed_refused`
* `Verif.TransScf.C217_symmetry_kept`
* `Verif.TransScf.C217_prefix`
* `Verif.TransScf.C217_each_iteration`
* `Verif.TransScf.C217_mixers`
* `Verif.Rot.C218_symmetrised_run`
* `Verif.Rot.C218_energy`
* `Verif.GW.C219_transfer_partial`
* `Verif.GW.C219_exchange_partial`
* `Verif.GW.C219_cut_shell`
* `Verif.Rot.C220_time_reversal`
* `Verif.Rot.C220_energy`
* `Verif.Rot.C220_symmetrised`
* `Verif.KPts.C220_mesh_weights`
* `Verif.GW.C221_polarizability`
* `Verif.GW.C221_dielectric`
* `Verif.GW.C221_fixwings`
* `Verif.GW.C221_self_energies`
* `Verif.GW.C221_closure`
* `Verif.GW.C221_plasmon_pole`
* `Verif.Vcoul.C222_processes`
* `Verif.Vcoul.C222_defined`
* `Verif.Vcoul.C222_bare`
* `Verif.Vcoul.C222_average`
* `Verif.Vcoul.C222_avgcut`
* `Verif.Vcoul.C222_seed`
* `Verif.Vcoul.C222_more_samples`
* `Verif.GW.C223_order`
* `Verif.GW.C223_dielectric`
* `Verif.GW.C223_repeated`
* `Verif.GW.C223_repetition_violated`
* `Verif.EZero.C224_h_psi`
* `Verif.EZero.C224_davidson_partial`
* `Verif.EZero.C224_smear`
* `Verif.EZero.C224_fixed`
* `Verif.EZero.C224_band_energy`
* `Verif.EZero.C224_scf`
* `Verif.EZero.C224_denominator`
* `Verif.EZero.C224_denominator_mean`
* `Verif.EZero.C224_mean_raised`
* `Verif.EZero.C224_preconditioner_depends`
* `Verif.EZero.C224_not_the_diagonal`
* `Verif.GW.C225_polarizability`
* `Verif.GW.C225_dielectric`
* `Verif.GW.C225_pairs`
* `Verif.GW.C225_pairs_mirrored`
* `Verif.Mixing.C226_hartree_energy`
* `Verif.Mixing.C226_second_order`
* `Verif.Mixing.C226_distance`
* `Verif.TDDFT.C227_image`
* `Verif.TDDFT.C227_phases_order`
* `Verif.TDDFT.C227_mixing`
* `Verif.TDDFT.C227_taylor_mixing_violated`
* `Verif.TDDFT.C228_constant`
* `Verif.TDDFT.C228_taylor_constant_violated`
* `Verif.TDDFT.C228_moved_factors`
* `Verif.TDDFT.C228_translation`
* `Verif.TDDFT.C229_conjugation`
* `Verif.TDDFT.C229_factors`
* `Verif.TDDFT.C229_real_projectors`
* `Verif.Dist.C23_scatter_gather`
* `Verif.Dist.C23_rows`
* `Verif.TDDFT.C230_retrace`
* `Verif.TDDFT.C230_microreversibility`
* `Verif.Containers.C24_reduce_basis_partial`
* `Verif.Containers.C24_reduce_leading`
* `Verif.Containers.C24_reduce_fails`
* `Verif.Containers.C24_vdot`
* `Verif.Containers.C25_indexing_keeps_basis`
* `Verif.Containers.C25_integer`
* `Verif.Lattice.C26_conversions_inverse`
* `Verif.Lattice.C26_metric`
* `Verif.Lattice.C26_mesh_centred`
* `Verif.Lattice.C27_duality`
* `Verif.KPts.C28_weights_normalised`
* `Verif.KPts.C28_constructor_unchecked_witness`
* `Verif.KPts.C29_full_mesh`
* `Verif.KPts.C29_time_reversal_fails`
* `Verif.KPts.C29_time_reversal_partial`
* `Verif.KPts.C29_old_mesh_collapses`
* `Verif.KPts.C29_symmetry_reduced`
* `Verif.Crystal.C30_supercell`
* `Verif.Crystal.C30_electrons_partial`
* `Verif.Crystal.C30_electrons_fail`
* `Verif.Crystal.C30_displacements_complete`
* `Verif.Symm.C31_group_average`
* `Verif.Symm.C31_symmetrised`
* `Verif.Pot.C32_potential`
* `Verif.Pot.C32_energy`
* `Verif.Pot.C32_potential_is_derivative`
* `Verif.Pot.C32_energy_integral`
* `Verif.Pot.C33_div_grad_partial`
* `Verif.Pot.C33_adjoint`
* `Verif.Pot.C33_axis_fails`
* `Verif.Occup.C35_fixed`
* `Verif.Occup.C35_too_few_bands`
* `Verif.Occup.C36_result`
* `Verif.Occup.C36_terminates`
* `Verif.Occup.C36_never_returns`
* `Verif.Occup.C36_full_bands`
* `Verif.Occup.C36_layout`
* `Verif.Occup.C37_occupations`
* `Verif.Occup.C37_mv_exceeds_one`
* `Verif.Mixing.C38_history`
* `Verif.Mixing.C39_linear_quantities`
* `Verif.Mixing.C39_fixed_point_first`
* `Verif.Mixing.C39_repeated_residual_fails`
* `Verif.Mixing.C39_all_groups`
* `Verif.SCF.scf_iterations`
* `Verif.SCF.scf_converged_iff`
* `Verif.SCF.scf_converged_consistent`
* `Verif.SCF.scf_converged_energy`
* `Verif.SCF.scf_converged_electrons`
* `Verif.SCF.scf_unconverged_result`
* `Verif.SCF.scf_maxiter_zero`
* `Verif.SCF.scf_total`
* `Verif.SCF.seqEnv_errors`
* `Verif.SCF.thr_rule`
* `Verif.SCF.thr_pos`
* `Verif.SCF.thr_after_first`
* `Verif.SCF.thr_antitone`
* `Verif.SCF.thr_floor_violated`
* `Verif.SCF.normalize_electrons`
* `Verif.SCF.normalize_common_factor`
* `Verif.SCF.normalize_fix`
* `Verif.SCF.normalize_idem`
* `Verif.SCF.normalize_factor_pos`
* `Verif.Davidson.solve_fits`
* `Verif.Davidson.solve_iters`
* `Verif.Davidson.solve_converged`
* `Verif.Davidson.solve_converged_expectation`
* `Verif.Davidson.solve_unconverged_partial`
* `Verif.Davidson.solve_unconverged_stale`
* `Verif.Davidson.solve_mismatch_violated`
* `Verif.Logger.C45_history`
* `Verif.Logger.C45_outcomes`
* `Verif.Logger.C45_balanced`
* `Verif.Logger.C45_transparent`
* `Verif.Logger.C45_disabled`
* `Verif.Logger.C45_reentry`
* `Verif.Logger.C46_counts`
* `Verif.Logger.C46_outcomes`
* `Verif.Logger.C46_full`
* `Verif.Logger.C47_short`
* `Verif.Logger.C47_long_violated`
* `Verif.Logger.C47_decorated_violated`
* `Verif.Logger.C47_duplicate_violated`
* `Verif.Config.C48_accepts`
* `Verif.Config.C48_read_back_partial`
* `Verif.Config.C48_wrong_exception`
* `Verif.TDDFT.C49_truncated_exponential`
* `Verif.TDDFT.C49_eigenstate_phase`
* `Verif.TDDFT.C49_order_checked`
* `Verif.TDDFT.C49_unsupported_violated`
* `Verif.TDDFT.C49_hamiltonian_matrix`
* `Verif.TDDFT.C50_nonlocal_factor`
* `Verif.TDDFT.C50_kinetic_factor`
* `Verif.TDDFT.C50_local_factor`
* `Verif.TDDFT.C50_palindromic_reversible`
* `Verif.TDDFT.C50_time_reversible`
* `Verif.TDDFT.C50_nonlocal_unitary`
* `Verif.TDDFT.C50_selfconsistent_reversible`
* `Verif.QECell.C51_bravais_partial`
* `Verif.QECell.C51_triclinic_partial`
* `Verif.QECell.C51_triclinic_violated`
* `Verif.QECell.C51_missing_entry`
* `Verif.BGW.C52_read_back`
* `Verif.BGW.C52_diagonal`
* `Verif.BGW.C52_partial`
* `Verif.BGW.C52_conjugated`
* `Verif.BGW.C52_dropped`
* `Verif.BGW.C53_epsilon_options_dropped`
* `Verif.BGW.C53_epsilon_parameters`
* `Verif.BGW.C53_sigma`
* `Verif.BGW.C53_sigma_no_kpoints`
* `Verif.GW.C54_active`
* `Verif.GW.C54_stored`
* `Verif.GW.C54_hermitian_nonpos`
* `Verif.GW.C54_close_kpoints`
* `Verif.GW.C55_sum`
* `Verif.GW.C56_sorts`
* `Verif.GW.C56_order_independent`
* `Verif.GW.C56_reorder`
* `Verif.FFT.C57_parseval`
* `Verif.Containers.C58_setitem_crosses_basis`
* `Verif.Containers.C58_setitem_leading_partial`
* `Verif.Symm.C59_supercell_filter`
* `Verif.Symm.C59_grid_filter_partial`
* `Verif.Symm.C59_cubic_grid`
* `Verif.Symm.C59_grid_filter_fails`
* `Verif.Pot.C60_lda_ignores_core`
* `Verif.Pot.C60_lda_core_witness`
* `Verif.Pot.C60_gga_core`
* `Verif.Pot.C61_lda_potential_is_derivative`
* `Verif.Pot.C61_gga_potential_is_derivative`
* `Verif.Pot.C61_gga_core_error`
* `Verif.Pot.C61_gga_core_violated`
* `Verif.Pot.fft_laws`
* `Verif.Pot.C62_mixed_families`
* `Verif.Occup.C63_energy_consistent`
* `Verif.Occup.C63_free_energy_stationary`
* `Verif.Mixing.C64_least_residual`
* `Verif.Mixing.C65_methods_agree`
* `Verif.Mixing.C66_caller_density`
* `Verif.Mixing.C67_error_measure`
* `Verif.SCF.scf_caller_kept`
* `Verif.SCF.scf_caller_overwritten`
* `Verif.SCF.scf_caller_normalized`
* `Verif.SCF.clampMag_spec`
* `Verif.SCF.startSpin_total`
* `Verif.SCF.startSpin_total_full`
* `Verif.SCF.startSpin_spin`
* `Verif.SCF.startSpin_nonneg`
* `Verif.SCF.startSpin_short_violated`
* `Verif.SCF.allreduce_all_iff`
* `Verif.SCF.allreduce_split_violated`
* `Verif.Davidson.solve_monotone`
* `Verif.Davidson.solve_lower_bound`
* `Verif.Nonloc.C72_h_psi_is_hamiltonian`
* `Verif.Nonloc.C72_h_psi_hermitian`
* `Verif.Nonloc.C72_h_psi_linear`
* `Verif.Nonloc.C72_cpu_error_partial`
* `Verif.Nonloc.C72_cpu_not_linear`
* `Verif.Config.C73_backend`
* `Verif.Nonloc.C74_nonlocal_operator`
* `Verif.Nonloc.C74_lattice_translation`
* `Verif.Nonloc.C74_translation_relabelling`
* `Verif.Nonloc.C74_vnl_diag`
* `Verif.Nonloc.C74_hermitian`
* `Verif.Nonloc.C75_exact_for_cubics`
* `Verif.Nonloc.C75_table_covers_sphere`
* `Verif.Nonloc.C75_outside_raises`
* `Verif.Nonloc.C76_simpson_value`
* `Verif.Nonloc.C76_exact_for_cubics`
* `Verif.Nonloc.C76_even_drops_last`
* `Verif.Nonloc.C77_spherical_jn`
* `Verif.Nonloc.C77_closed_forms`
* `Verif.Nonloc.C77_small_is_truncated_series`
* `Verif.Nonloc.C77_series_error`
* `Verif.Nonloc.C77_at_zero`
* `Verif.Loc.C78_sph2pw_value`
* `Verif.Loc.C78_sph2pw_simpson_partial`
* `Verif.Loc.C78_simpson_old`
* `Verif.Loc.C78_sph2pw_even_mesh`
* `Verif.Loc.C78_sph2pw_witness`
* `Verif.Loc.C79_superpositions`
* `Verif.Loc.C79_images_and_order`
* `Verif.Loc.C79_additive`
* `Verif.Loc.C79_total_charge`
* `Verif.Loc.C79_real`
* `Verif.Loc.C79_translation`
* `Verif.TDDFT.C80_taylor_step`
* `Verif.TDDFT.C80_split_step_doubles`
* `Verif.TDDFT.C80_split_violated`
* `Verif.TDDFT.C81_methods`
* `Verif.TDDFT.C82_write_freq_ignored`
* `Verif.TDDFT.C82_disable_violated`
* `Verif.TDDFT.C83_default_factor_violated`
* `Verif.TDDFT.C83_explicit_factor`
* `Verif.TDDFT.C83_weights`
* `Verif.TDDFT.C83_linear`
* `Verif.Ewald.C84_pair_sum`
* `Verif.Ewald.C84_relabelling`
* `Verif.Ewald.C84_translation`
* `Verif.Ewald.C84_long_range`
* `Verif.Ewald.C84_alpha`
* `Verif.Ewald.C84_alpha_error`
* `Verif.Ewald.C84_energy`
* `Verif.Ewald.C85_orthogonal_partial`
* `Verif.Ewald.C85_skewed_violated`
* `Verif.Ewald.C85_outside_cell_violated`
* `Verif.QECell.C86_history_free_partial`
* `Verif.QECell.C86_leak_violated`
* `Verif.QECell.C87_trad2celldm`
* `Verif.QECell.C87_trad_missing`
* `Verif.QECell.C87_trad_violated`
* `Verif.QECell.C87_alat_violated`
* `Verif.QECell.C88_grid_shape`
* `Verif.QECell.C89_cell_parameters`
* `Verif.QECell.C89_unknown_unit_violated`
* `Verif.SCF.C90_reported_energies`
* `Verif.QEInp.C91_namelist`
* `Verif.QEInp.C91_rejects`
* `Verif.QEInp.C91_required`
* `Verif.QEInp.C91_blocks`
* `Verif.QEInp.C92_logical_violated`
* `Verif.QEInp.C92_logical_partial`
* `Verif.QEInp.C93_case_violated`
* `Verif.QEInp.C93_case_partial`
* `Verif.QEInp.C94_blank_line_violated`
* `Verif.QEInp.C94_unterminated`
* `Verif.QEInp.C95_card_lines`
* `Verif.QEInp.C95_short_card`
* `Verif.QEInp.C95_counts`
* `Verif.QEInp.C95_columns`
* `Verif.QEInp.C96_comment_line_violated`
* `Verif.QEInp.C96_inline_comment_violated`
* `Verif.QEInp.C97_terminates`
* `Verif.QEParse.C98_atoms`
* `Verif.QEParse.C99_smearing`
* `Verif.QEParse.C99_fixed`
* `Verif.QEParse.C99_nbnd_violated`

## propext (24)

* `Verif.Scatter.C01_bad_arguments`
* `Verif.Mpi.C08_skip_never_escapes`
* `Verif.Mpi.C08_errors_propagate`
* `Verif.Mpi.C08_error_stops`
* `Verif.Mpi.C08_block_trace`
* `Verif.Mpi.C08_parent_in_step`
* `Verif.Mpi.C08_serial_block`
* `Verif.Mpi.C09_null_refuses`
* `Verif.Mpi.C09_serial_neutral_partial`
* `Verif.Mpi.C09_allreduce_buffer_fails`
* `Verif.Mpi.C09_incl_single`
* `Verif.GW.C115_wraps`
* `Verif.GSpace.C14_zero_diverges`
* `Verif.RhoFile.C147_write_fails`
* `Verif.LogFile.C164_split_violated`
* `Verif.GArr.C170_rejects`
* `Verif.GArr.C171_pyfftw_violated`
* `Verif.KLists.C172_numpy_violated`
* `Verif.Mesh.C194_direction`
* `Verif.TDDFT.C227_rows`
* `Verif.Dist.C23_single_field_fails`
* `Verif.Config.C48_not_stored`
* `Verif.Config.C48_seed`
* `Verif.Config.C73_default_fails`

## Quot.sound, propext (32)

* `Verif.Mpi.C09_scatter_fails`
* `Verif.GW.C117_band_labels`
* `Verif.GSpace.C15_never_rejects`
* `Verif.GSpace.C15_accepts_too_small`
* `Verif.GSpace.C15_accepts_fitting_partial`
* `Verif.LogFile.C163_backup`
* `Verif.LogFile.C163_kept_partial`
* `Verif.LogFile.C164_absent_partial`
* `Verif.PwCli.C166_zero`
* `Verif.GArr.C171_returned_partial`
* `Verif.DistBuf.C175_single_field_violated`
* `Verif.DistBuf.C175_empty_violated`
* `Verif.DistBuf.C176_single_field_violated`
* `Verif.RandInit.C208_fresh_numbers`
* `Verif.ScfDist.C209_every_kpoint`
* `Verif.GwRun.C214_schedule`
* `Verif.GwRun.C214_outcome`
* `Verif.Ufunc.C216_elementwise`
* `Verif.Ufunc.C216_shapes`
* `Verif.Ufunc.C216_closed`
* `Verif.Ufunc.C216_in_place`
* `Verif.Ufunc.C216_distributed_out`
* `Verif.Ufunc.C216_single`
* `Verif.Ufunc.C216_out_violated`
* `Verif.Containers.C24_reduce_fails_witness`
* `Verif.Pot.C34_selection`
* `Verif.GW.C55_split`
* `Verif.GW.C55_balanced`
* `Verif.GW.C55_vcoul`
* `Verif.Nonloc.C74_rows_match_labels`
* `Verif.TDDFT.C81_rows`
* `Verif.QEInp.C95_header`

## none (6)

* `Verif.GW.C117_non_root`
* `Verif.GW.C117_root`
* `Verif.KLists.C172_distribute_violated`
* `Verif.TDDFT.C227_starting_density`
* `Verif.KPts.C28_constructor_unchecked`
* `Verif.TDDFT.C81_rejects_value`
