[propext] 2 theorems
  QF.QubitBasis.C01_index_ofNat
  QF.C45_example
[(none)] 2 theorems
  QF.C57_descending_needed
  QF.C57_example
[propext, Quot.sound] 8 theorems
  QF.QubitBasis.C01_get_bit
  QF.QubitBasis.C01_flip_bit
  QF.C45_value
  QF.C45_perm
  QF.C45_append
  QF.C45_out_of_range
  QF.C57_taper
  QF.C57_length
[propext, Classical.choice, Quot.sound] 736 theorems
  QF.QubitBasis.C01_set_bit
  QF.QubitBasis.C01_laws
  QF.QubitBasis.C01_str_injective
  QF.C02_unitary
  QF.C02_accepts
  QF.C02_python_overloads
  QF.C02_control_of_two_qubit_gate_not_unitary
  QF.C03_normalisation
  QF.C04_matrix
  QF.C04_inverse
  QF.C04_rebuild
  QF.C05_apply_gate_safe
  QF.C06_fast_one_qubit_partial
  QF.C06_hypothesis_named_gates
  QF.C06_swap_branch
  QF.C07_fast_two_qubit_partial
  QF.C07_hypotheses_named_gates
  QF.C08_rx_pi_differs
  QF.C08_fast_eq_safe_partial
  QF.C08_hypotheses_constant_gates
  QF.C08_apply_circuit_error
  QF.C08_apply_circuit_safe_error
  QF.C08_fast_vs_safe_partial
  QF.C08_fastok_api
  QF.C09_inner_product_partial
  QF.C09_inner_product_error_partial
  QF.C10_adjoint_order
  QF.C10_adjoint_undoes_partial
  QF.C10_adjoint_undoes_error_partial
  QF.C11_edit
  QF.C11_history
  QF.C11_remove_gates_never_removes_last
  QF.C12_get_parameters
  QF.C12_set_parameters_partial
  QF.C12_too_many
  QF.C12_too_few
  QF.C12_round_trip
  QF.C12_set_parameter
  QF.C12_cU_not_settable
  QF.C12_not_atomic
  QF.C13_circuit_num_qubits
  QF.C13_operator_num_qubits
  QF.C14_simplify
  QF.C14_simplify_total
  QF.C14_execution_partial
  QF.C14_cU_throws
  QF.C15_interaction_sound
  QF.C15_interaction_total
  QF.C15_flag_symmetric
  QF.C16_count
  QF.C16_additive
  QF.C16_adjoint
  QF.C17_gate_eq_iff
  QF.C17_refl_symm
  QF.C17_circuit_eq_iff
  QF.C17_equal_matrices
  QF.C17_eq_ignores_matrix
  QF.C17_not_transitive
  QF.C17_computer_eq
  QF.C17_computer_congr
  QF.C17_computer_example
  QF.C18_canonicalize
  QF.C18_non_pauli_raises
  QF.C18_empty
  QF.C18_example
  QF.C19_execution
  QF.C19_distinct
  QF.C19_repeated_differs
  QF.C20_simplify
  QF.C20_simplify_keep
  QF.C20_normal_form
  QF.C20_idempotent
  QF.C20_simplify_execution
  QF.C20_non_pauli_raises
  QF.C20_example
  QF.C21_operator_product
  QF.C21_self_product
  QF.C22_add
  QF.C22_mult_coeffs
  QF.C22_set_coeffs
  QF.C23_iff
  QF.C23_complete
  QF.C23_sound
  QF.C23_cutoff
  QF.C23_comparator_not_weak_order
  QF.C23_no_reorder
  QF.C24_apply_operator_error
  QF.C24_apply_operator
  QF.C24_apply_pauli_operator
  QF.C24_linear
  QF.C24_empty
  QF.C25_hermitian
  QF.C25_gate
  QF.C25_gate_exact
  QF.C25_out_of_range
  QF.C25_circuit
  QF.C25_pauli_circuit
  QF.C26_matrix_vector
  QF.C26_apply_operator_sparse
  QF.C26_sparse_vs_apply_operator
  QF.C26_single_term
  QF.C26_empty_operator
  QF.C27_conjugates
  QF.C27_real_matrix_partial
  QF.C27_refuted
  QF.C27_too_small
  QF.C28_direct_circ
  QF.C28_direct_op
  QF.C28_direct_oppl
  QF.C28_direct_idxd_oppl
  QF.C28_direct_oppl_w_mults
  QF.C28_measure_circuit
  QF.C28_measure_readouts
  QF.C28_perfect_measure
  QF.C29_direct_circ
  QF.C29_direct_circ_error
  QF.C29_direct_op_any
  QF.C29_direct_op
  QF.C29_direct_op_error
  QF.C29_direct_op_pauli
  QF.C29_direct_oppl
  QF.C29_direct_idxd_oppl
  QF.C29_idxd_out_of_range
  QF.C29_direct_oppl_w_mults
  QF.C29_parallel_value
  QF.C29_builds_agree_partial
  QF.C30_value
  QF.C30_direct_pauli_partial
  QF.C30_schedule_independent
  QF.C30_rejects
  QF.C30_refuted
  QF.C31_perfect_measure
  QF.C31_identity_gate_measured_as_Z
  QF.C32_measure_pm_one
  QF.C32_readout_bits
  QF.C32_outcome_possible
  QF.C32_born_rule
  QF.C32_readouts_support
  QF.C32_z_readouts_fast
  QF.C33_returns_zero
  QF.C33_refuted
  QF.C34_permutation_phase
  QF.C34_only_permutations
  QF.C34_composition
  QF.C34_example
  QF.C35_canonical_order
  QF.C35_simplify
  QF.C35_normal_form
  QF.C35_sort_independent
  QF.C35_example
  QF.C35_edit
  QF.C35_set_coeffs
  QF.C35_lat
  QF.C36_jordan_wigner_partial
  QF.C36_qubit_excitation_partial
  QF.C36_example
  QF.C36_exact_dyadic_partial
  QF.C36_exact_partial
  QF.C36_refuted_repeated_index
  QF.C36_refuted_qubit_sign
  QF.C36_refuted_forty
  QF.C37_anticommutation
  QF.C38_exponential
  QF.C38_returns
  QF.C38_identity_letters_raise
  QF.C38_real_part
  QF.C38_example
  QF.C38_repeated_qubit_raises
  QF.C39_controlled_partial
  QF.C39_refuted_identity
  QF.C39_example
  QF.C39_trotterize_w_cRz_partial
  QF.C40_trotterize
  QF.C40_order
  QF.C40_example
  QF.C41_circuit
  QF.C41_basis_state
  QF.C41_qft
  QF.C41_example
  QF.C42_rev_qft_negates
  QF.C42_one_qubit_partial
  QF.C42_refuted
  QF.C43_prepares
  QF.C43_ref_of_index
  QF.C43_index_of_ref
  QF.C43_empty_raises
  QF.C43_example
  QF.C44_eq_dets
  QF.C44_example
  QF.C44_open_shell
  QF.C45_cancel
  QF.QubitOpPool.C46_complete_qubit
  QF.QubitOpPool.C46_cqoy
  QF.QubitOpPool.C46_zero_qubits_diverges
  QF.QubitOpPool.C46_large_and_invalid
  QF.QubitOpPool.C46_example
  QF.QubitOpPool.C47_join_right
  QF.QubitOpPool.C47_join_right_lazy
  QF.QubitOpPool.C47_join_left
  QF.QubitOpPool.C47_join_commutator
  QF.QubitOpPool.C47_square
  QF.QubitOpPool.C47_commutator_exact
  QF.QubitOpPool.C47_refuted_commutator_order
  QF.QubitOpPool.C47_example
  QF.QubitOpPool.C47_set_coeffs
  QF.QubitOpPool.C47_set_terms
  QF.SQOpPool.C48_pool_symmetries
  QF.SQOpPool.C49_contents
  QF.SQOpPool.C49_complete_aufbau_partial
  QF.SQOpPool.C49_distinct
  QF.SQOpPool.C49_refuted_non_aufbau
  QF.SQOpPool.C49_too_large
  QF.SQOpPool.C49_example
  QF.SQOpPool.C50_odd_raises
  QF.SQOpPool.C50_orbital_spaces
  QF.SQOpPool.C50_reference_integer_partial
  QF.SQOpPool.C50_refuted_int_overflow
  QF.SQOpPool.C50_example
  QF.Organizer.C51_condense_partial
  QF.Organizer.C51_example
  QF.Organizer.C51_refuted_three_letters
  QF.Organizer.C51_combine
  QF.Organizer.C51_join
  QF.Organizer.C51_commutator
  QF.Organizer.C52_single_term
  QF.Organizer.C52_agree_partial
  QF.Organizer.C52_sum
  QF.Organizer.C52_ucc
  QF.Organizer.C52_adjoint
  QF.Organizer.C52_ucc_antihermitian
  QF.Organizer.C52_refuted_complex_amplitude
  QF.Organizer.C52_example
  QF.Organizer.C53_round_trip
  QF.Organizer.C53_invalid_letter
  QF.Organizer.C53_operator_round_trip
  QF.Organizer.C53_operator
  QF.Organizer.C53_example
  QF.Taper.C54_kernel_basis
  QF.Taper.C54_example
  QF.Taper.C55_commutation
  QF.Taper.C55_example
  QF.Taper.C56_generators
  QF.Taper.C56_pairs
  QF.Taper.C56_kernel_iff
  QF.C58_toffoli
  QF.C58_fredkin
  QF.C58_run
  QF.C58_example
  QF.C58_repeated_raises
  QF.C59_matrix_element_partial
  QF.C59_matrix_element_error_partial
  QF.C59_example
  QF.C60_counters
  QF.C60_counters_safe
  QF.C60_init
  QF.C60_null_state
  QF.C60_reset
  QF.C60_set_state
  QF.C60_history
  QF.C60_example
  QF.C61_disjoint
  QF.C61_gsd
  QF.C61_gsd_qubit
  QF.C61_gsd_refuted
  QF.C61_gsd_example
  QF.C61_sorted
  QF.C61_qubit
  QF.C61_order_refuted
  QF.C61_order_example
  QF.C61_errors
  QF.C62_spin_z
  QF.C62_raising
  QF.C62_lowering
  QF.C62_spin_squared
  QF.SQOpPool.C63_contents
  QF.SQOpPool.C63_symmetries
  QF.SQOpPool.C63_sign
  QF.SQOpPool.C63_example
  QF.SQOpPool.C63_invalid_name
  QF.C64_halves
  QF.SQOpPool.C64_contents
  QF.SQOpPool.C64_spin_adapted
  QF.SQOpPool.C64_open_shell
  QF.SQOpPool.C64_example
  QF.Organizer.C65_accepts_iff
  QF.Organizer.C65_normal_ordered
  QF.Organizer.C65_refuted_not_normal_ordered
  QF.Taper.C66_unitary
  QF.Taper.C66_small
  QF.Taper.C66_example
  QF.Taper.C66_x_symmetry_counterexample
  QF.Taper.C67_taper
  QF.Taper.C67_sector
  QF.Taper.C67_errors
  QF.Taper.C67_hamiltonian
  QF.Taper.C67_example
  QF.C69_commuting_exact
  QF.C69_excitation
  QF.C69_example
  QF.C68_commuting_grp_lex
  QF.C68_combine_no_effect
  QF.C68_unique_lex
  QF.C68_invalid_order
  QF.C68_qubit_op_pool
  QF.C68_example
  QF.C70_sa_SD
  QF.C70_reference
  QF.C70_sa_example
  QF.C70_sa_compact
  QF.C70_sa_compact_energy
  QF.C70_sa_energy
  QF.C70_ansatz
  QF.C70_exact
  QF.C70_used
  QF.C70_exact_used
  QF.C70_used_energy
  QF.C70_energy
  QF.C70_energy_parallel
  QF.C70_energy_used
  QF.C70_compact
  QF.C70_compact_energy
  QF.C70_compact_example
  QF.C71_sa_compact
  QF.C71_sa_commuting
  QF.C71_sa_refuted
  QF.C71_sa_example
  QF.C71_compact
  QF.C71_compact_of_feval
  QF.C71_compact_example
  QF.C71_gradient
  QF.C71_default
  QF.C71_gradient_of_feval
  QF.C71_flat_at_zero
  QF.C71_no_amplitudes
  QF.C71_pool_coefficient
  QF.C71_example
  QF.C71_last_entry
  QF.C71_trotter_refuted
  QF.C72_value
  QF.C72_excitations
  QF.C73_excited_dets
  QF.C73_residual
  QF.C73_residual_used
  QF.C73_real
  QF.C73_real_used
  QF.C73_sa_SD
  QF.C73_initialize
  QF.C73_initialize_keeps
  QF.C73_mp_denominator
  QF.C73_example
  QF.C74_penalty
  QF.C74_eigenstate
  QF.C74_refused
  QF.C74_example
  QF.C75_run
  QF.C75_plain
  QF.C75_diis_normalised
  QF.C75_diis
  QF.C75_no_iterations
  QF.C75_exact_start
  QF.C75_example
  QF.C75_length
  QF.C76_solves
  QF.C76_truncated
  QF.C76_sorted_idxs
  QF.C76_sorted_values
  QF.C76_sorted_vectors_partial
  QF.C76_sorted_vectors_refuted
  QF.C76_truncation_refuted
  QF.C76_example
  QF.C77_srqk
  QF.C77_commuting
  QF.C77_mrsqk
  QF.C77_mrsqk_vacuum
  QF.C77_ntsrqk
  QF.C77_ntsrqk_refuted
  QF.C77_example
  QF.C78_perfect
  QF.C78_prepare_each_time
  QF.C78_no_samples
  QF.C78_statistics
  QF.C78_bound
  QF.C78_definite
  QF.C78_ideal_sampler_exists
  QF.C78_example
  QF.C79_matrix_element
  QF.C79_realistic
  QF.C79_example
  QF.C80_state
  QF.C80_energy
  QF.C80_energy_window
  QF.C80_window_refuted
  QF.C80_run
  QF.C80_exact
  QF.C80_eigenstate
  QF.C80_example
  QF.C80_majority_refuted
  QF.C80_majority_run
  QF.C81_success
  QF.QiteAlg.C82_descent
  QF.QiteAlg.C82_stall
  QF.QiteAlg.C82_example
  QF.QiteAlg.C82_pool_particle_hole
  QF.QiteAlg.C82_pool_gsd
  QF.QiteAlg.C82_pool_qubit
  QF.QiteAlg.C82_pool_refused
  QF.QiteAlg.C82_evolve
  QF.QiteAlg.C82_run
  QF.QiteAlg.C82_variational
  QF.QiteAlg.C82_zero
  QF.C83_ntsrqk
  QF.C83_ntsrqk_slow
  QF.C83_ntsrqk_example
  QF.C83_common_run
  QF.C83_srqk
  QF.C83_mrsqk
  QF.C83_ritz
  QF.C83_variational
  QF.C83_optimal
  QF.C83_order_refuted
  QF.QiteAlg.C84_run
  QF.QiteAlg.C84_example
  QF.Adapt.C85_select
  QF.Adapt.C85_converged
  QF.Adapt.C85_stationary
  QF.Adapt.C85_equiv
  QF.Adapt.C85_equiv_example
  QF.Adapt.C85_cumulative
  QF.Adapt.C85_example
  QF.Adapt.C85_neutral
  QF.Adapt.C85_neutral_energy
  QF.Adapt.C85_run
  QF.Adapt.C85_energy
  QF.Adapt.C85_bounds
  QF.Adapt.C85_returns
  QF.Adapt.C85_share
  QF.Adapt.C85_descent
  QF.Spqe.C86_pool
  QF.Spqe.C86_complete
  QF.Spqe.C86_excites
  QF.Spqe.C86_symmetric
  QF.Spqe.C86_like_fill_pool
  QF.Spqe.C86_example
  QF.Spqe.C87_residual
  QF.Spqe.C87_sign
  QF.Spqe.C87_real
  QF.Spqe.C87_example
  QF.Spqe.C88_estimate
  QF.Spqe.C88_example
  QF.Spqe.C88_run
  QF.Spqe.C88_bound
  QF.Spqe.C88_returns
  QF.Spqe.C88_neutral
  QF.Spqe.C88_neutral_energy
  QF.Spqe.C88_sampled
  QF.Spqe.C88_sampled_single
  QF.Spqe.C88_update
  QF.Spqe.C88_progress
  QF.C89_build_circuit_partial
  QF.C89_controlled_rotation
  QF.C89_controlled_rotation_witness
  QF.C89_negative_index
  QF.C89_build_operator
  QF.C89_example
  QF.C90_tfim
  QF.C90_parity
  QF.C90_reference_energy
  QF.C90_factory
  QF.C90_factory_all
  QF.C90_example
  QF.C91_irreps
  QF.C91_find_irrep
  QF.C91_char_table
  QF.C91_example
  QF.C92_hamiltonian
  QF.C92_hermitian
  QF.C92_reference
  QF.C92_irreps
  QF.C92_returns
  QF.C92_lower_case
  QF.C92_example
  QF.C93_hamiltonian
  QF.C93_hermitian
  QF.C93_hf_energy
  QF.C93_reference
  QF.C93_electrons
  QF.C93_example
  QF.C94_report
  QF.C94_consistent
  QF.C94_sharp
  QF.C94_odd
  QF.Moments.C95_energies
  QF.Moments.C95_limit
  QF.Moments.C95_exact
  QF.Moments.C95_space
  QF.Moments.C95_orb_energies
  QF.Moments.C95_orb_energies_partial
  QF.Moments.C95_independent
  QF.Moments.C95_wrong_irrep
  QF.Moments.C95_wrong_irrep_example
  QF.Moments.C95_orb_energies_wrong
  QF.Moments.C95_example
  QF.C96_accepts
  QF.C96_refuses
  QF.C96_object
  QF.C96_ready
  QF.C96_state
  QF.C96_penalty_accepts
  QF.C96_penalty_refuses
  QF.C96_ansatz
  QF.C96_hamiltonian
  QF.C96_irrep
  QF.C96_circuit_unchecked
  QF.C96_penalty_unchecked
  QF.C96_occupation_unchecked
  QF.C96_example
  QF.C97_pqe_state_prep
  QF.C97_pqe
  QF.C97_pqe_jacobi
  QF.C97_pqe_optimizer
  QF.C97_example
  QF.C97_particle_hole
  QF.C97_gsd
  QF.C97_invalid_pool
  QF.C97_vqe
  QF.C97_vqe_bounds
  QF.C97_vqe_returns
  QF.C98_each_step
  QF.C98_srqk
  QF.MrsqkAlg.C98_select
  QF.MrsqkAlg.C98_select_errors
  QF.MrsqkAlg.C98_configs
  QF.MrsqkAlg.C98_ci_mat
  QF.MrsqkAlg.C98_sa_refs
  QF.MrsqkAlg.C98_sa_mats
  QF.MrsqkAlg.C98_sa_mats_nan
  QF.MrsqkAlg.C98_bad_options
  QF.MrsqkAlg.C98_preliminary
  QF.MrsqkAlg.C98_run_sa
  QF.MrsqkAlg.C98_run_dets
  QF.MrsqkAlg.C98_single_reference
  QF.Latex.C99_drawing
  QF.Latex.C99_refuses
  QF.Latex.C99_depth_refuted
  QF.Latex.C99_order_refuted
  QF.C100_error
  QF.C100_converges
  QF.C100_states
  QF.C100_srqk
  QF.C100_example
  QF.C101_state
  QF.C101_distribution
  QF.C101_overlap
  QF.C101_example
  QF.C102_pauli
  QF.C102_trotter
  QF.C102_compact
  QF.C102_measures
  QF.C102_srqk
  QF.C102_mrsqk
  QF.C102_mrsqk_stale
  QF.C102_mrsqk_example
  QF.C102_strings
  QF.C102_ansatz
  QF.C102_ansatz_compact
  QF.C102_reported
  QF.C102_saves
  QF.C102_compact_le
  QF.C102_example
  QF.C103_pool
  QF.C103_gradients
  QF.C103_agrees
  QF.C103_refuted
  QF.C103_example
  QF.C103_parallel
  QF.C103_parallel_example
  QF.C104_lanczos
  QF.C104_lanczos_example
  QF.C104_pqe
  QF.C104_untouched
  QF.C104_vqe_refuted
  QF.C104_adapt_refuted
  QF.C104_macro
  QF.C104_qite
  QF.C104_ntsrqk
  QF.C104_srqk
  QF.C104_spqe_refuted
  QF.C104_spqe_last
  QF.C104_example
  QF.QiteAlg.C105_step
  QF.QiteAlg.C105_lowers
  QF.QiteAlg.C105_run
  QF.QiteAlg.C105_example
  QF.Print.C106_circuit
  QF.Print.C106_angles
  QF.Print.C106_operator
  QF.Print.C106_pauli
  QF.Print.C106_sq
  QF.Print.C106_computer
  QF.Print.C106_example
  QF.Print.C106_format
  QF.Print.C106_repr
  QF.Print.C106_sqpool
  QF.Print.C106_qubitpool
  QF.Print.C106_pool_example
  QF.Print.C106_repr_angles
  QF.C107_rhs_zero
  QF.QiteAlg.C107_chosen
  QF.QiteAlg.C107_step_real
  QF.QiteAlg.C107_real
  QF.QiteAlg.C107_evolve
  QF.QiteAlg.C107_nearest
  QF.QiteAlg.C107_pools
  QF.QiteAlg.C107_run
  QF.QiteAlg.C107_example
  QF.C108_jordan_wigner
  QF.C108_psi
  QF.C108_external
  QF.C108_parallel
  QF.C108_parallel_external
  QF.C108_qite
  QF.C108_example
  QF.C109_energy
  QF.C109_orb_energies
  QF.C109_moments
  QF.C109_uccnvqe
  QF.C109_uccnpqe
  QF.C109_adapt
  QF.C109_spqe
  QF.C109_qite_evolve
  QF.C109_qite
  QF.C109_molecule
  QF.C109_molecule_external
  QF.C109_odd
  QF.C109_example
  QF.Adapt.C110_run
  QF.Adapt.C110_ham
  QF.Adapt.C110_returns
  QF.Adapt.C110_commut
  QF.Adapt.C110_example
  QF.C111_jacobi
  QF.C111_uccnvqe
  QF.C111_uccnpqe
  QF.C111_example
  QF.C112_objective
  QF.C112_eigenstate
  QF.C112_run
  QF.C112_returns
  QF.C112_example
  QF.Spqe.C113_run
  QF.Spqe.C113_jacobi
  QF.Spqe.C113_scipy
  QF.Spqe.C113_returns
  QF.Spqe.C113_example
  QF.Adapt.C114_adapt
  QF.Adapt.C114_adapt_twice
  QF.Adapt.C114_adapt_example
  QF.Spqe.C114_spqe
  QF.Spqe.C114_spqe_twice
  QF.Spqe.C114_spqe_example
  QF.C115_penalty
  QF.C115_spin
  QF.C115_builds
  QF.C115_molecule
  QF.C115_untidy
  QF.C115_example
  QF.C116_run
  QF.C116_srqk
  QF.C116_mrsqk
  QF.C116_ntsrqk
  QF.C116_example
  QF.C117_ntsrqk
  QF.C117_srqk
  QF.C117_mrsqk
  QF.C117_trotter_refuted
  QF.C117_example
  QF.C118_gate
  QF.C118_relabel
  QF.C118_register
  QF.C118_additive
  QF.C118_example
  QF.QiteAlg.C119_times
  QF.QiteAlg.C119_lines
  QF.QiteAlg.C119_longer
  QF.QiteAlg.C119_run
  QF.QiteAlg.C119_example
  QF.C120_srqk_outcome
  QF.C120_mrsqk_outcome
  QF.C120_example
  QF.C120_pqe_example
  QF.C120_ritz
  QF.C120_srqk
  QF.C120_mrsqk
  QF.QiteAlg.C120_qite_rhs
  QF.QiteAlg.C120_qite_stalls
  QF.QiteAlg.C120_qite_refuted
  QF.C120_energy
  QF.C120_residual
  QF.C120_gradient
  QF.C120_pool_gradient
  QF.C120_jacobi
  QF.C120_pqe
  QF.C121_srqk_outcome
  QF.C121_mrsqk_outcome
  QF.C121_ritz
  QF.C121_srqk
  QF.C121_mrsqk
  QF.QiteAlg.C121_qite_step
  QF.C121_example
  QF.C121_jacobi
  QF.C121_pqe
  QF.C121_pqe_example
  QF.C121_energy
  QF.C121_residual
  QF.C121_update
  QF.C121_gradient
  QF.C121_pool_gradient
  QF.C122_mrsqk_outcome
  QF.C122_example
  QF.C122_ritz
  QF.C122_mrsqk
  QF.C123_ritz
  QF.C123_srqk
  QF.C123_mrsqk
  QF.C123_example
  QF.C124_energy
  QF.C124_gradient
  QF.C124_pool_gradient
  QF.C124_residual
  QF.C124_vqe
  QF.C124_pqe
  QF.C124_trotter
  QF.C124_trotter_refuted
  QF.C124_example
  QF.QiteAlg.C124_qite
  QF.QiteAlg.C124_qite_example
