{
 "claims": [
  {
   "property": "C01",
   "status": "proved",
   "theorems": [
    "QF.QubitBasis.C01_get_bit",
    "QF.QubitBasis.C01_set_bit",
    "QF.QubitBasis.C01_flip_bit",
    "QF.QubitBasis.C01_laws",
    "QF.QubitBasis.C01_index_ofNat",
    "QF.QubitBasis.C01_str_injective"
   ],
   "note": "all bit positions and indices; QubitBasis modelled on unbounded naturals"
  },
  {
   "property": "C02",
   "status": "proved",
   "theorems": [
    "QF.C02_unitary",
    "QF.C02_accepts",
    "QF.C02_python_overloads",
    "QF.C02_control_of_two_qubit_gate_not_unitary"
   ],
   "note": "every string/angle accepted by make_gate, plus adjoint and control_gate of one-qubit gates; control_gate of a two-qubit gate is proved NOT unitary"
  },
  {
   "property": "C03",
   "status": "proved",
   "theorems": [
    "QF.C03_normalisation"
   ],
   "note": ""
  },
  {
   "property": "C04",
   "status": "proved",
   "theorems": [
    "QF.C04_matrix",
    "QF.C04_inverse",
    "QF.C04_rebuild"
   ],
   "note": ""
  },
  {
   "property": "C05",
   "status": "proved",
   "theorems": [
    "QF.C05_apply_gate_safe"
   ],
   "note": "exact complex arithmetic; entries of modulus <= 1e-16 are dropped by the code and by the theorem"
  },
  {
   "property": "C06",
   "status": "partial",
   "theorems": [
    "QF.C06_fast_one_qubit_partial",
    "QF.C06_hypothesis_named_gates",
    "QF.C06_swap_branch"
   ],
   "note": "excludes the mis-parsed comparison op_0_1 == op_1_0 == 1.0; C06_swap_branch and C08_rx_pi_differs prove what happens there"
  },
  {
   "property": "C07",
   "status": "partial",
   "theorems": [
    "QF.C07_fast_two_qubit_partial",
    "QF.C07_hypotheses_named_gates"
   ],
   "note": "as C06; matrix entries agree to 1e-16, exactly when no non-zero entry is that small"
  },
  {
   "property": "C08",
   "status": "partial",
   "theorems": [
    "QF.C08_rx_pi_differs",
    "QF.C08_fast_eq_safe_partial",
    "QF.C08_hypotheses_constant_gates",
    "QF.C08_apply_circuit_error",
    "QF.C08_apply_circuit_safe_error",
    "QF.C08_fast_vs_safe_partial",
    "QF.C08_fastok_api"
   ],
   "note": "all circuits of API gates at any angle except Rx with |cos(theta/2)| <= 1e-16 (mis-parsed branch): exact when no non-zero matrix entry is <= 1e-16 (C08_fast_eq_safe_partial), otherwise with an explicit error bound (C08_fast_vs_safe_partial); apply_circuit_safe has no exception; C08_rx_pi_differs is a counterexample to the unrestricted claim"
  },
  {
   "property": "C09",
   "status": "partial",
   "theorems": [
    "QF.C09_inner_product_partial",
    "QF.C09_inner_product_error_partial"
   ],
   "note": "all API gates outside the mis-parsed branch: exact without sub-threshold entries, otherwise with an explicit error bound"
  },
  {
   "property": "C10",
   "status": "partial",
   "theorems": [
    "QF.C10_adjoint_order",
    "QF.C10_adjoint_undoes_partial",
    "QF.C10_adjoint_undoes_error_partial"
   ],
   "note": "all API gates outside the mis-parsed branch: exact without sub-threshold entries, otherwise with an explicit error bound; the order statement is unconditional"
  },
  {
   "property": "C11",
   "status": "proved",
   "theorems": [
    "QF.C11_edit",
    "QF.C11_history",
    "QF.C11_remove_gates_never_removes_last"
   ],
   "note": "every edit sequence without an inverted remove_gates range (undefined behaviour) and without passing a circuit to itself (F25); C11_remove_gates_never_removes_last is a finding"
  },
  {
   "property": "C12",
   "status": "partial",
   "theorems": [
    "QF.C12_get_parameters",
    "QF.C12_set_parameters_partial",
    "QF.C12_too_many",
    "QF.C12_too_few",
    "QF.C12_round_trip",
    "QF.C12_set_parameter",
    "QF.C12_cU_not_settable",
    "QF.C12_not_atomic"
   ],
   "note": "excludes gates made by control_gate (C12_cU_not_settable); too few values is undefined behaviour rather than an exception (C12_too_few)"
  },
  {
   "property": "C13",
   "status": "proved",
   "theorems": [
    "QF.C13_circuit_num_qubits",
    "QF.C13_operator_num_qubits"
   ],
   "note": "circuits and operators"
  },
  {
   "property": "C14",
   "status": "proved",
   "theorems": [
    "QF.C14_simplify",
    "QF.C14_simplify_total",
    "QF.C14_execution_partial",
    "QF.C14_cU_throws"
   ],
   "note": "C14_simplify: exact operator equality whenever simplify returns; C14_simplify_total: it returns for circuits without control_gate gates; C14_cU_throws: finding"
  },
  {
   "property": "C15",
   "status": "proved",
   "theorems": [
    "QF.C15_interaction_sound",
    "QF.C15_interaction_total",
    "QF.C15_flag_symmetric"
   ],
   "note": "flag symmetry when both calls return; a control_gate gate may make one order throw"
  },
  {
   "property": "C16",
   "status": "proved",
   "theorems": [
    "QF.C16_count",
    "QF.C16_additive",
    "QF.C16_adjoint"
   ],
   "note": ""
  },
  {
   "property": "C17",
   "status": "proved",
   "theorems": [
    "QF.C17_gate_eq_iff",
    "QF.C17_refl_symm",
    "QF.C17_circuit_eq_iff",
    "QF.C17_equal_matrices",
    "QF.C17_eq_ignores_matrix",
    "QF.C17_not_transitive",
    "QF.C17_computer_eq",
    "QF.C17_computer_congr",
    "QF.C17_computer_example"
   ],
   "note": "findings: == ignores the matrix (C17_eq_ignores_matrix), not transitive"
  },
  {
   "property": "C18",
   "status": "proved",
   "theorems": [
    "QF.C18_canonicalize",
    "QF.C18_non_pauli_raises",
    "QF.C18_empty",
    "QF.C18_example"
   ],
   "note": "left-to-right reading; the pair (prefactor, string) is also unique"
  },
  {
   "property": "C19",
   "status": "proved",
   "theorems": [
    "QF.C19_execution",
    "QF.C19_distinct",
    "QF.C19_repeated_differs"
   ],
   "note": "C19_repeated_differs: with repeated qubits the phase is conjugated relative to execution"
  },
  {
   "property": "C20",
   "status": "proved",
   "theorems": [
    "QF.C20_simplify",
    "QF.C20_simplify_keep",
    "QF.C20_normal_form",
    "QF.C20_idempotent",
    "QF.C20_simplify_execution",
    "QF.C20_non_pauli_raises",
    "QF.C20_example"
   ],
   "note": "operator read left to right (F8); same for execution when no term repeats a qubit; the result is a normal form"
  },
  {
   "property": "C21",
   "status": "proved",
   "theorems": [
    "QF.C21_operator_product",
    "QF.C21_self_product"
   ],
   "note": "operator read left to right; all flag values; also for self-aliased argument"
  },
  {
   "property": "C22",
   "status": "proved",
   "theorems": [
    "QF.C22_add",
    "QF.C22_mult_coeffs",
    "QF.C22_set_coeffs"
   ],
   "note": "add_op with the operator itself as argument (iterator invalidation) is not modelled"
  },
  {
   "property": "C23",
   "status": "proved",
   "theorems": [
    "QF.C23_iff",
    "QF.C23_complete",
    "QF.C23_sound",
    "QF.C23_cutoff",
    "QF.C23_comparator_not_weak_order",
    "QF.C23_no_reorder"
   ],
   "note": "std::sort is an arbitrary permutation that depends on the circuits only; C23_cutoff and C23_comparator_not_weak_order are findings"
  },
  {
   "property": "C24",
   "status": "proved",
   "theorems": [
    "QF.C24_apply_operator_error",
    "QF.C24_apply_operator",
    "QF.C24_apply_pauli_operator",
    "QF.C24_linear",
    "QF.C24_empty"
   ],
   "note": "exact for all Pauli operators and all circuits without sub-threshold entries; C24_apply_operator_error bounds the error for API gates at any angle outside the mis-parsed Rx branch"
  },
  {
   "property": "C25",
   "status": "proved",
   "theorems": [
    "QF.C25_hermitian",
    "QF.C25_gate",
    "QF.C25_gate_exact",
    "QF.C25_out_of_range",
    "QF.C25_circuit",
    "QF.C25_pauli_circuit"
   ],
   "note": "exact for gates (entries above 1e-14) and Pauli strings; explicit column error bound for all circuits of API gates"
  },
  {
   "property": "C26",
   "status": "partial",
   "theorems": [
    "QF.C26_matrix_vector",
    "QF.C26_apply_operator_sparse",
    "QF.C26_sparse_vs_apply_operator",
    "QF.C26_single_term",
    "QF.C26_empty_operator"
   ],
   "note": "non-empty operators: explicit bounds against the operator and against apply_operator, exact for a single Pauli string; C26_empty_operator is a counterexample for the empty operator"
  },
  {
   "property": "C27",
   "status": "partial",
   "theorems": [
    "QF.C27_conjugates",
    "QF.C27_real_matrix_partial",
    "QF.C27_refuted",
    "QF.C27_too_small"
   ],
   "note": "apply_matrix conjugates its argument (C27_conjugates, C27_refuted); the claim holds for real matrices"
  },
  {
   "property": "C28",
   "status": "proved",
   "theorems": [
    "QF.C28_direct_circ",
    "QF.C28_direct_op",
    "QF.C28_direct_oppl",
    "QF.C28_direct_idxd_oppl",
    "QF.C28_direct_oppl_w_mults",
    "QF.C28_measure_circuit",
    "QF.C28_measure_readouts",
    "QF.C28_perfect_measure"
   ],
   "note": "No hypotheses: whenever the call returns, the amplitudes are those before the call, for every circuit, operator, pool and draw (C28_*). C29/C31/C32 additionally show the rest of the state (SameState) is restored."
  },
  {
   "property": "C29",
   "status": "proved",
   "theorems": [
    "QF.C29_direct_circ",
    "QF.C29_direct_circ_error",
    "QF.C29_direct_op_any",
    "QF.C29_direct_op",
    "QF.C29_direct_op_error",
    "QF.C29_direct_op_pauli",
    "QF.C29_direct_oppl",
    "QF.C29_direct_idxd_oppl",
    "QF.C29_idxd_out_of_range",
    "QF.C29_direct_oppl_w_mults",
    "QF.C29_parallel_value",
    "QF.C29_builds_agree_partial"
   ],
   "note": "Serial build: exact for exactly representable gates (all Pauli operators), with an explicit error bound for all API gates outside the Rx(pi) branch of C06, and against apply_operator for any operator. Pools in order. OpenMP build characterised (C29_parallel_value): sign (-1)^#Y, see C30."
  },
  {
   "property": "C30",
   "status": "partial",
   "theorems": [
    "QF.C30_value",
    "QF.C30_direct_pauli_partial",
    "QF.C30_schedule_independent",
    "QF.C30_rejects",
    "QF.C30_refuted"
   ],
   "note": "Proved for strings with an even number of Y, any schedule; false for an odd number of Y (C30_refuted, finding F4); exact value for all strings C30_value."
  },
  {
   "property": "C31",
   "status": "proved",
   "theorems": [
    "QF.C31_perfect_measure",
    "QF.C31_identity_gate_measured_as_Z"
   ],
   "note": "All strings of X, Y, Z on distinct qubits, all states. C31_identity_gate_measured_as_Z documents finding F13 (explicit I gates)."
  },
  {
   "property": "C32",
   "status": "proved",
   "theorems": [
    "QF.C32_measure_pm_one",
    "QF.C32_readout_bits",
    "QF.C32_outcome_possible",
    "QF.C32_born_rule",
    "QF.C32_readouts_support",
    "QF.C32_z_readouts_fast"
   ],
   "note": "For all samplers. Includes the Born rule for the sampled weights and that each outcome has a non-vanishing eigenprojection."
  },
  {
   "property": "C33",
   "status": "partial",
   "theorems": [
    "QF.C33_returns_zero",
    "QF.C33_refuted"
   ],
   "note": "False of the code (finding F3): C33_returns_zero proves the call returns 0 and applies the gate for every gate and state; C33_refuted gives concrete instances. Nothing of the claim is provable beyond that."
  },
  {
   "property": "C34",
   "status": "proved",
   "theorems": [
    "QF.C34_permutation_phase",
    "QF.C34_only_permutations",
    "QF.C34_composition",
    "QF.C34_example"
   ],
   "note": "permutationPhase on every permutation list is the sign of the permutation; errors on non-permutations; multiplicative."
  },
  {
   "property": "C35",
   "status": "proved",
   "theorems": [
    "QF.C35_canonical_order",
    "QF.C35_simplify",
    "QF.C35_normal_form",
    "QF.C35_sort_independent",
    "QF.C35_example",
    "QF.C35_edit",
    "QF.C35_set_coeffs",
    "QF.C35_lat"
   ],
   "note": "canonical_order/simplify preserve the represented operator for every input of terms with distinct indices (the code's own domain; repeated indices raise or are covered by F6), residual of dropped terms explicit."
  },
  {
   "property": "C36",
   "status": "partial",
   "theorems": [
    "QF.C36_jordan_wigner_partial",
    "QF.C36_qubit_excitation_partial",
    "QF.C36_example",
    "QF.C36_exact_dyadic_partial",
    "QF.C36_exact_partial",
    "QF.C36_refuted_repeated_index",
    "QF.C36_refuted_qubit_sign",
    "QF.C36_refuted_forty"
   ],
   "note": "Full statement refuted: repeated indices (F6), >=40 orbitals (F7), qubit-excitation sign (F27). Proved on the complement."
  },
  {
   "property": "C37",
   "status": "proved",
   "theorems": [
    "QF.C37_anticommutation"
   ],
   "note": "CAR for images of single ladder operators of jw_transform."
  },
  {
   "property": "C38",
   "status": "proved",
   "theorems": [
    "QF.C38_exponential",
    "QF.C38_returns",
    "QF.C38_identity_letters_raise",
    "QF.C38_real_part",
    "QF.C38_example",
    "QF.C38_repeated_qubit_raises"
   ],
   "note": "IsExp (power series) for every Pauli string on distinct qubits; errors characterised."
  },
  {
   "property": "C39",
   "status": "partial",
   "theorems": [
    "QF.C39_controlled_partial",
    "QF.C39_refuted_identity",
    "QF.C39_example",
    "QF.C39_trotterize_w_cRz_partial"
   ],
   "note": "Proved for strings with a non-identity letter and ancilla outside; refuted for the identity string (F21)."
  },
  {
   "property": "C40",
   "status": "proved",
   "theorems": [
    "QF.C40_trotterize",
    "QF.C40_order",
    "QF.C40_example"
   ],
   "note": "Product formula for all operators, factors, step numbers >= 0; order > 1 raises."
  },
  {
   "property": "C41",
   "status": "proved",
   "theorems": [
    "QF.C41_circuit",
    "QF.C41_basis_state",
    "QF.C41_qft",
    "QF.C41_example"
   ],
   "note": "DFT formula for every block (qubit na most significant), reverse is the inverse, run on a computer."
  },
  {
   "property": "C42",
   "status": "partial",
   "theorems": [
    "QF.C42_rev_qft_negates",
    "QF.C42_one_qubit_partial",
    "QF.C42_refuted"
   ],
   "note": "Refuted for every block of two or more qubits (F5: rev_qft negates the block value); holds for one qubit."
  },
  {
   "property": "C43",
   "status": "proved",
   "theorems": [
    "QF.C43_prepares",
    "QF.C43_ref_of_index",
    "QF.C43_index_of_ref",
    "QF.C43_empty_raises",
    "QF.C43_example"
   ],
   "note": "For every non-empty 0/1 list and every computer with enough qubits; round trips up to 64 orbitals (width of QubitBasis); the empty list raises in ref_to_basis_idx."
  },
  {
   "property": "C44",
   "status": "proved",
   "theorems": [
    "QF.C44_eq_dets",
    "QF.C44_example",
    "QF.C44_open_shell"
   ],
   "note": "For every 0/1 list (also odd lengths); termination of the worklist loop is part of the theorem."
  },
  {
   "property": "C45",
   "status": "proved",
   "theorems": [
    "QF.C45_value",
    "QF.C45_perm",
    "QF.C45_append",
    "QF.C45_cancel",
    "QF.C45_out_of_range",
    "QF.C45_example"
   ],
   "note": "XOR value, order independence, cancellation, concatenation; an index outside the table is undefined behaviour."
  },
  {
   "property": "C46",
   "status": "proved",
   "theorems": [
    "QF.QubitOpPool.C46_complete_qubit",
    "QF.QubitOpPool.C46_cqoy",
    "QF.QubitOpPool.C46_zero_qubits_diverges",
    "QF.QubitOpPool.C46_large_and_invalid",
    "QF.QubitOpPool.C46_example"
   ],
   "note": "For 1..15 qubits exactly the canonical Pauli strings, once each, with coefficient 1 (all / odd number of Y). Findings proved: 0 qubits diverges, from 16 qubits int conversion is undefined, unknown type raises."
  },
  {
   "property": "C47",
   "status": "proved",
   "theorems": [
    "QF.QubitOpPool.C47_join_right",
    "QF.QubitOpPool.C47_join_right_lazy",
    "QF.QubitOpPool.C47_join_left",
    "QF.QubitOpPool.C47_join_commutator",
    "QF.QubitOpPool.C47_square",
    "QF.QubitOpPool.C47_commutator_exact",
    "QF.QubitOpPool.C47_refuted_commutator_order",
    "QF.QubitOpPool.C47_example",
    "QF.QubitOpPool.C47_set_coeffs",
    "QF.QubitOpPool.C47_set_terms"
   ],
   "note": "Every pool of Pauli operators: each result operator is the product/commutator in simplified form up to Negligible dropped terms (distinct strings, |c|<=1e-12), coefficients and order as stated; exact for dyadic coefficients. The header comment's [term, Op] is refuted: the code computes [Op, term]."
  },
  {
   "property": "C48",
   "status": "proved",
   "theorems": [
    "QF.SQOpPool.C48_pool_symmetries"
   ],
   "note": "Every operator the particle-hole pools add, for every reference integer, irrep table and rank (n <= 64 spin orbitals, the bitset width; larger raises: C49_too_large)."
  },
  {
   "property": "C49",
   "status": "partial",
   "theorems": [
    "QF.SQOpPool.C49_contents",
    "QF.SQOpPool.C49_complete_aufbau_partial",
    "QF.SQOpPool.C49_distinct",
    "QF.SQOpPool.C49_refuted_non_aufbau",
    "QF.SQOpPool.C49_too_large",
    "QF.SQOpPool.C49_example"
   ],
   "note": "C49_contents says exactly what is in the pool for every reference; completeness proved for aufbau references (C49_complete_aufbau_partial, C49_distinct); the full statement is false: C49_refuted_non_aufbau (std::next_permutation starts from the reference instead of the smallest permutation)."
  },
  {
   "property": "C50",
   "status": "partial",
   "theorems": [
    "QF.SQOpPool.C50_odd_raises",
    "QF.SQOpPool.C50_orbital_spaces",
    "QF.SQOpPool.C50_reference_integer_partial",
    "QF.SQOpPool.C50_refuted_int_overflow",
    "QF.SQOpPool.C50_example"
   ],
   "note": "Counts for every reference; integer for references below the int width; full statement refuted by C50_refuted_int_overflow."
  },
  {
   "property": "C51",
   "status": "partial",
   "theorems": [
    "QF.Organizer.C51_condense_partial",
    "QF.Organizer.C51_example",
    "QF.Organizer.C51_refuted_three_letters",
    "QF.Organizer.C51_combine",
    "QF.Organizer.C51_join",
    "QF.Organizer.C51_commutator"
   ],
   "note": "pauli_condense proved for words with at most two letters per qubit (all the library builds); for three letters it is wrong (C51_refuted_three_letters, finding F17). combine_like_terms, join_organizers and join_H_Am_organizers fully"
  },
  {
   "property": "C52",
   "status": "partial",
   "theorems": [
    "QF.Organizer.C52_single_term",
    "QF.Organizer.C52_agree_partial",
    "QF.Organizer.C52_sum",
    "QF.Organizer.C52_ucc",
    "QF.Organizer.C52_adjoint",
    "QF.Organizer.C52_ucc_antihermitian",
    "QF.Organizer.C52_refuted_complex_amplitude",
    "QF.Organizer.C52_example"
   ],
   "note": "organizer = second-quantised term proved for every term; agreement with C++ under the conditions of C36; anti-Hermitian for real amplitudes, refuted for complex ones (amplitude of the adjoint not conjugated, F29)"
  },
  {
   "property": "C53",
   "status": "proved",
   "theorems": [
    "QF.Organizer.C53_round_trip",
    "QF.Organizer.C53_invalid_letter",
    "QF.Organizer.C53_operator_round_trip",
    "QF.Organizer.C53_operator",
    "QF.Organizer.C53_example"
   ],
   "note": ""
  },
  {
   "property": "C54",
   "status": "proved",
   "theorems": [
    "QF.Taper.C54_kernel_basis",
    "QF.Taper.C54_example"
   ],
   "note": "Kernel basis: every returned vector is in the kernel of the parity check matrix, they are linearly independent and span it; for every binary matrix."
  },
  {
   "property": "C55",
   "status": "proved",
   "theorems": [
    "QF.Taper.C55_commutation",
    "QF.Taper.C55_example"
   ],
   "note": "for every binary matrix with 2n columns; entry (i,j) is 0 iff the encoded Pauli operators commute and 1 iff they anticommute"
  },
  {
   "property": "C56",
   "status": "proved",
   "theorems": [
    "QF.Taper.C56_generators",
    "QF.Taper.C56_pairs",
    "QF.Taper.C56_kernel_iff"
   ],
   "note": "for every Hamiltonian of canonical Pauli strings: the pipeline terminates and returns independent generators of a maximal Abelian symmetry group, or IndexError when there is none; X-pairing proved when no product of X gates is a symmetry"
  },
  {
   "property": "C57",
   "status": "proved",
   "theorems": [
    "QF.C57_taper",
    "QF.C57_length",
    "QF.C57_descending_needed",
    "QF.C57_example"
   ],
   "note": "For every strictly descending index list inside the reference."
  },
  {
   "property": "C58",
   "status": "proved",
   "theorems": [
    "QF.C58_toffoli",
    "QF.C58_fredkin",
    "QF.C58_run",
    "QF.C58_example",
    "QF.C58_repeated_raises"
   ],
   "note": "Both circuits equal the textbook operators for all distinct qubits and all states, run on every computer, and raise when a qubit is repeated."
  },
  {
   "property": "C59",
   "status": "partial",
   "theorems": [
    "QF.C59_matrix_element_partial",
    "QF.C59_matrix_element_error_partial",
    "QF.C59_example"
   ],
   "note": "Exact for gates the simulator applies exactly; for all other API gates within the 1e-16 truncation bound. Missing: Rx gates hit by the NoSwapBug defect (F1), where the claim is false."
  },
  {
   "property": "C60",
   "status": "proved",
   "theorems": [
    "QF.C60_counters",
    "QF.C60_counters_safe",
    "QF.C60_init",
    "QF.C60_null_state",
    "QF.C60_reset",
    "QF.C60_set_state",
    "QF.C60_history",
    "QF.C60_example"
   ],
   "note": "Initial/reset/null/set_state contents, size invariant under every history, counters."
  },
  {
   "property": "C61",
   "status": "proved",
   "theorems": [
    "QF.C61_disjoint",
    "QF.C61_gsd",
    "QF.C61_gsd_qubit",
    "QF.C61_gsd_refuted",
    "QF.C61_gsd_example",
    "QF.C61_sorted",
    "QF.C61_qubit",
    "QF.C61_order_refuted",
    "QF.C61_order_example",
    "QF.C61_errors"
   ],
   "note": "compact_excitation_circuits.py complete; sign factor explicit; wrong index orders refuted (F34, F35)"
  },
  {
   "property": "C62",
   "status": "proved",
   "theorems": [
    "QF.C62_spin_z",
    "QF.C62_raising",
    "QF.C62_lowering",
    "QF.C62_spin_squared"
   ],
   "note": "For every n: total_spin_z/raising/lowering/squared give exactly Sz, S+, S-, Sx^2+Sy^2+Sz^2 of the ceil(n/2) spatial orbitals (odd n therefore touches orbital n), for every behaviour of std::sort."
  },
  {
   "property": "C63",
   "status": "proved",
   "theorems": [
    "QF.SQOpPool.C63_contents",
    "QF.SQOpPool.C63_symmetries",
    "QF.SQOpPool.C63_sign",
    "QF.SQOpPool.C63_example",
    "QF.SQOpPool.C63_invalid_name"
   ],
   "note": "contents (each generalised excitation exactly once up to sign), anti-Hermiticity and N, Sz conservation; std::sort as an oracle"
  },
  {
   "property": "C64",
   "status": "proved",
   "theorems": [
    "QF.C64_halves",
    "QF.SQOpPool.C64_contents",
    "QF.SQOpPool.C64_spin_adapted",
    "QF.SQOpPool.C64_open_shell",
    "QF.SQOpPool.C64_example"
   ],
   "note": "Contents up to the list SaTerm, normalisation, commutation with N, Sz, S+, S-, and the two-halves shape the ansatz relies on (C64_halves). The pool uses the first n_occ spatial orbitals whatever the occupied orbitals of the reference are (finding F28)"
  },
  {
   "property": "C65",
   "status": "partial",
   "theorems": [
    "QF.Organizer.C65_accepts_iff",
    "QF.Organizer.C65_normal_ordered",
    "QF.Organizer.C65_refuted_not_normal_ordered"
   ],
   "note": "exact acceptance condition proved; the claim that only normal-ordered terms are accepted is false (F30): C65_refuted_not_normal_ordered. On normal-ordered input the result is right (C65_normal_ordered)"
  },
  {
   "property": "C66",
   "status": "proved",
   "theorems": [
    "QF.Taper.C66_unitary",
    "QF.Taper.C66_small",
    "QF.Taper.C66_example",
    "QF.Taper.C66_x_symmetry_counterexample"
   ],
   "note": "for every Hamiltonian of canonical strings without an X-only symmetry and with at most 79 generators; the excluded case is refuted for X0 (F31): the returned operator is not unitary"
  },
  {
   "property": "C67",
   "status": "proved",
   "theorems": [
    "QF.Taper.C67_taper",
    "QF.Taper.C67_sector",
    "QF.Taper.C67_errors",
    "QF.Taper.C67_hamiltonian",
    "QF.Taper.C67_example"
   ],
   "note": "for every operator commuting with the generators and every sign list; the dropped terms are characterised exactly (|c| <= 1e-12*sqrt(2)^k before, <= 1e-12 after merging)"
  },
  {
   "property": "C69",
   "status": "proved",
   "theorems": [
    "QF.C69_commuting_exact",
    "QF.C69_excitation",
    "QF.C69_example"
   ],
   "note": "commuting terms: exact for every Trotter number; JW of E-E\u2020 (rank \u2264 19): the strings commute because \u03ba is a real antisymmetric monomial operator, so every string has an odd number of Y"
  },
  {
   "property": "C68",
   "status": "proved",
   "theorems": [
    "QF.C68_commuting_grp_lex",
    "QF.C68_combine_no_effect",
    "QF.C68_unique_lex",
    "QF.C68_invalid_order",
    "QF.C68_qubit_op_pool",
    "QF.C68_example"
   ],
   "note": "per-element groups and their sum up to the dropped terms (each at most 1e-12, distinct strings); the meaning of jw_transform itself is C36"
  },
  {
   "property": "C70",
   "status": "proved",
   "theorems": [
    "QF.C70_sa_SD",
    "QF.C70_reference",
    "QF.C70_sa_example",
    "QF.C70_sa_compact",
    "QF.C70_sa_compact_energy",
    "QF.C70_sa_energy",
    "QF.C70_ansatz",
    "QF.C70_exact",
    "QF.C70_used",
    "QF.C70_exact_used",
    "QF.C70_used_energy",
    "QF.C70_energy",
    "QF.C70_energy_parallel",
    "QF.C70_energy_used",
    "QF.C70_compact",
    "QF.C70_compact_energy",
    "QF.C70_compact_example"
   ],
   "note": "Model: UccAlg.ansatzCircuit etc. (fast mode). C70_ansatz and C70_exact_used (any amplitudes, any Trotter number; amplitudes under the simplify threshold count as zero, all others exactly), C70_used, C70_energy_used (serial and parallel), C70_compact (all amplitudes) and C70_compact_energy (resolved amplitudes), C70_reference; spin-adapted pools: C70_sa_SD with C64_halves, C70_sa_energy, compact circuits C70_sa_compact, C70_sa_compact_energy."
  },
  {
   "property": "C71",
   "status": "partial",
   "theorems": [
    "QF.C71_sa_compact",
    "QF.C71_sa_commuting",
    "QF.C71_sa_refuted",
    "QF.C71_sa_example",
    "QF.C71_compact",
    "QF.C71_compact_of_feval",
    "QF.C71_compact_example",
    "QF.C71_gradient",
    "QF.C71_default",
    "QF.C71_gradient_of_feval",
    "QF.C71_flat_at_zero",
    "QF.C71_no_amplitudes",
    "QF.C71_pool_coefficient",
    "QF.C71_example",
    "QF.C71_last_entry",
    "QF.C71_trotter_refuted"
   ],
   "note": "Proved for unit pool coefficients, trotter_number 1, resolved amplitudes and pools of single excitations, with ordinary circuits (C71_gradient, C71_gradient_of_feval) and compact circuits (C71_compact, C71_compact_of_feval), and for sa_SD operators whose pieces commute with ordinary (C71_sa_commuting) and compact circuits (C71_sa_compact). The claim is false of the code in all other cases, and these deviations are theorems too: C71_flat_at_zero, C71_pool_coefficient, C71_no_amplitudes; trotter_number > 1: C71_last_entry, C71_trotter_refuted, NOTES F38; sa_SD operators whose pieces do not commute: C71_sa_refuted, NOTES F36."
  },
  {
   "property": "C72",
   "status": "proved",
   "theorems": [
    "QF.C72_value",
    "QF.C72_excitations"
   ],
   "note": "C72_value for any ansatz circuit of exactly simulated gates and any pool whose Jordan-Wigner transform fits; C72_excitations for the commutator and derivative forms."
  },
  {
   "property": "C73",
   "status": "proved",
   "theorems": [
    "QF.C73_excited_dets",
    "QF.C73_residual",
    "QF.C73_residual_used",
    "QF.C73_real",
    "QF.C73_real_used",
    "QF.C73_sa_SD",
    "QF.C73_initialize",
    "QF.C73_initialize_keeps",
    "QF.C73_mp_denominator",
    "QF.C73_example"
   ],
   "note": "exact real arithmetic; trotter_number 1, non-compact; any amplitudes (C73_residual_used, C73_real_used: those under the simplify threshold count as zero); noise option not modelled. np.imag(res) != 0 is an exact comparison."
  },
  {
   "property": "C74",
   "status": "proved",
   "theorems": [
    "QF.C74_penalty",
    "QF.C74_eigenstate",
    "QF.C74_refused",
    "QF.C74_example"
   ],
   "note": "H and O_i are Pauli operators; type checks of the dictionary not modelled"
  },
  {
   "property": "C75",
   "status": "proved",
   "theorems": [
    "QF.C75_run",
    "QF.C75_plain",
    "QF.C75_diis_normalised",
    "QF.C75_diis",
    "QF.C75_no_iterations",
    "QF.C75_exact_start",
    "QF.C75_example",
    "QF.C75_length"
   ],
   "note": "generic over energy/residual/preconditioner/lstsq; numpy broadcasting of length-1 vectors and the cost counters not modelled; the last two clauses are deviations proved as theorems"
  },
  {
   "property": "C76",
   "status": "partial",
   "theorems": [
    "QF.C76_solves",
    "QF.C76_truncated",
    "QF.C76_sorted_idxs",
    "QF.C76_sorted_values",
    "QF.C76_sorted_vectors_partial",
    "QF.C76_sorted_vectors_refuted",
    "QF.C76_truncation_refuted",
    "QF.C76_example"
   ],
   "note": "C76_solves and C76_truncated need no or trailing dropped eigenvalues; sorted eigenvectors only if already sorted (C76_sorted_vectors_partial); the general claim is refuted by C76_sorted_vectors_refuted and C76_truncation_refuted. scipy.linalg.eig is a parameter"
  },
  {
   "property": "C77",
   "status": "partial",
   "theorems": [
    "QF.C77_srqk",
    "QF.C77_commuting",
    "QF.C77_mrsqk",
    "QF.C77_mrsqk_vacuum",
    "QF.C77_ntsrqk",
    "QF.C77_ntsrqk_refuted",
    "QF.C77_example"
   ],
   "note": "Exact matrices of the state-vector (fast) routes are proved for every Hamiltonian of Pauli strings with real coefficients; not covered: floating point, trotter_order (ignored by the code), complex coefficients."
  },
  {
   "property": "C78",
   "status": "proved",
   "theorems": [
    "QF.C78_perfect",
    "QF.C78_prepare_each_time",
    "QF.C78_no_samples",
    "QF.C78_statistics",
    "QF.C78_bound",
    "QF.C78_definite",
    "QF.C78_ideal_sampler_exists",
    "QF.C78_example"
   ],
   "note": "All generators of exactly applied gates (ExactGate, see C08) and operators of X/Y/Z strings; identity letters are measured as Z (C31_identity_gate_measured_as_Z). The quality of the random generator is a hypothesis (IdealSampler), shown satisfiable by C78_ideal_sampler_exists."
  },
  {
   "property": "C79",
   "status": "proved",
   "theorems": [
    "QF.C79_matrix_element",
    "QF.C79_realistic",
    "QF.C79_example"
   ],
   "note": "Both matrix_element variants equal the inner products of the Trotter states of C77; realistic and fast matrices agree entry by entry. Gates exact, i.e. the 1e-16 skip thresholds of the gate kernels as in C08."
  },
  {
   "property": "C80",
   "status": "proved",
   "theorems": [
    "QF.C80_state",
    "QF.C80_energy",
    "QF.C80_energy_window",
    "QF.C80_window_refuted",
    "QF.C80_run",
    "QF.C80_exact",
    "QF.C80_eigenstate",
    "QF.C80_example",
    "QF.C80_majority_refuted",
    "QF.C80_majority_run"
   ],
   "note": "State before measurement, all readouts for all draws, majority, mode, nearest-alias energies, exact phases; docstring window and digit-wise majority refuted. Trotter eigenstates; for commuting terms, eigenstates of H."
  },
  {
   "property": "C81",
   "status": "proved",
   "theorems": [
    "QF.C81_success"
   ],
   "note": "Lower bound on the Born probability of a readout within 2^-num_precise_bits."
  },
  {
   "property": "C82",
   "status": "proved",
   "theorems": [
    "QF.QiteAlg.C82_descent",
    "QF.QiteAlg.C82_stall",
    "QF.QiteAlg.C82_example",
    "QF.QiteAlg.C82_pool_particle_hole",
    "QF.QiteAlg.C82_pool_gsd",
    "QF.QiteAlg.C82_pool_qubit",
    "QF.QiteAlg.C82_pool_refused",
    "QF.QiteAlg.C82_evolve",
    "QF.QiteAlg.C82_run",
    "QF.QiteAlg.C82_variational",
    "QF.QiteAlg.C82_zero"
   ],
   "note": "Whole run as a trajectory with optimality of every step, all counters, descent to first order, pools SD..SDTQPH, GSD, cqoy, complete_qubit; stall theorem. lstsq enters as a contract (a minimiser of |S x - b|), shown satisfiable."
  },
  {
   "property": "C83",
   "status": "proved",
   "theorems": [
    "QF.C83_ntsrqk",
    "QF.C83_ntsrqk_slow",
    "QF.C83_ntsrqk_example",
    "QF.C83_common_run",
    "QF.C83_srqk",
    "QF.C83_mrsqk",
    "QF.C83_ritz",
    "QF.C83_variational",
    "QF.C83_optimal",
    "QF.C83_order_refuted"
   ],
   "note": "SRQK, NTSRQK and MRSQK; scipy eig enters as contract DescEig (orthonormal eigenvectors, descending), shown satisfiable, and shown necessary by C83_order_refuted; expm_multiply as contract ExpmContract. NTSRQK rests on C25_hermitian: the sparse matrix of a Hermitian operator is exactly Hermitian."
  },
  {
   "property": "C84",
   "status": "proved",
   "theorems": [
    "QF.QiteAlg.C84_run",
    "QF.QiteAlg.C84_example"
   ],
   "note": "Under the contracts of C82 and C83. diagonalize_each_step output and condition numbers are printing only."
  },
  {
   "property": "C85",
   "status": "proved",
   "theorems": [
    "QF.Adapt.C85_select",
    "QF.Adapt.C85_converged",
    "QF.Adapt.C85_stationary",
    "QF.Adapt.C85_equiv",
    "QF.Adapt.C85_equiv_example",
    "QF.Adapt.C85_cumulative",
    "QF.Adapt.C85_example",
    "QF.Adapt.C85_neutral",
    "QF.Adapt.C85_neutral_energy",
    "QF.Adapt.C85_run",
    "QF.Adapt.C85_energy",
    "QF.Adapt.C85_bounds",
    "QF.Adapt.C85_returns",
    "QF.Adapt.C85_share",
    "QF.Adapt.C85_descent"
   ],
   "note": "Standard (not compact) circuits. The optimizer is a parameter with the contract: right number of amplitudes, fun is the energy at x, not above the energy at the start. Bounds and termination for pools of excitations (all fill_pool types but sa_SD); selection, neutrality and monotonicity for every pool. Findings F56-F58."
  },
  {
   "property": "C86",
   "status": "proved",
   "theorems": [
    "QF.Spqe.C86_pool",
    "QF.Spqe.C86_complete",
    "QF.Spqe.C86_excites",
    "QF.Spqe.C86_symmetric",
    "QF.Spqe.C86_like_fill_pool",
    "QF.Spqe.C86_example"
   ],
   "note": "pool = increasing list of all admissible determinants (C86_pool, C86_complete); operators excite (C86_excites); agreement with fill_pool"
  },
  {
   "property": "C87",
   "status": "proved",
   "theorems": [
    "QF.Spqe.C87_residual",
    "QF.Spqe.C87_sign",
    "QF.Spqe.C87_real",
    "QF.Spqe.C87_example"
   ],
   "note": "residuals for both conventions, exact error conditions; reality for real Hamiltonians, any amplitudes (those under the simplify threshold count as zero)"
  },
  {
   "property": "C88",
   "status": "proved",
   "theorems": [
    "QF.Spqe.C88_estimate",
    "QF.Spqe.C88_example",
    "QF.Spqe.C88_run",
    "QF.Spqe.C88_bound",
    "QF.Spqe.C88_returns",
    "QF.Spqe.C88_neutral",
    "QF.Spqe.C88_neutral_energy",
    "QF.Spqe.C88_sampled",
    "QF.Spqe.C88_sampled_single",
    "QF.Spqe.C88_update",
    "QF.Spqe.C88_progress"
   ],
   "note": "selection (C88_update, C88_progress), zero amplitudes in front (C88_neutral), result and number of iterations (C88_run), bound (C88_bound), when the run returns and the IndexError (C88_returns), limit of the estimates (C88_estimate), finite M_omega never returns (C88_sampled); minimize is any function that keeps the number of parameters"
  },
  {
   "property": "C89",
   "status": "partial",
   "theorems": [
    "QF.C89_build_circuit_partial",
    "QF.C89_controlled_rotation",
    "QF.C89_controlled_rotation_witness",
    "QF.C89_negative_index",
    "QF.C89_build_operator",
    "QF.C89_example"
   ],
   "note": "build_circuit for one-qubit, two-qubit and rotation words in any layout (C89_build_circuit_partial), build_operator (C89_build_operator). Missing because false: the documented four-field words for controlled rotations (C89_controlled_rotation, C89_controlled_rotation_witness)"
  },
  {
   "property": "C90",
   "status": "proved",
   "theorems": [
    "QF.C90_tfim",
    "QF.C90_parity",
    "QF.C90_reference_energy",
    "QF.C90_factory",
    "QF.C90_factory_all",
    "QF.C90_example"
   ],
   "note": "C90_tfim, C90_parity, C90_reference_energy, C90_factory; a negative length is treated as zero by python's range"
  },
  {
   "property": "C91",
   "status": "proved",
   "theorems": [
    "QF.C91_irreps",
    "QF.C91_find_irrep",
    "QF.C91_char_table",
    "QF.C91_example"
   ],
   "note": "character tables in Spec/Character; C91_irreps, C91_find_irrep, C91_char_table"
  },
  {
   "property": "C92",
   "status": "proved",
   "theorems": [
    "QF.C92_hamiltonian",
    "QF.C92_hermitian",
    "QF.C92_reference",
    "QF.C92_irreps",
    "QF.C92_returns",
    "QF.C92_lower_case",
    "QF.C92_example"
   ],
   "note": "C92_hamiltonian, C92_hermitian, C92_reference, C92_irreps, C92_returns; C92_lower_case records that only 'C1' (not 'c1') works without irreps in the file; json parsing is not modelled"
  },
  {
   "property": "C93",
   "status": "proved",
   "theorems": [
    "QF.C93_hamiltonian",
    "QF.C93_hermitian",
    "QF.C93_hf_energy",
    "QF.C93_reference",
    "QF.C93_electrons",
    "QF.C93_example"
   ],
   "note": "C93_hamiltonian, C93_hermitian, C93_hf_energy, C93_reference, C93_electrons; what psi4 returns is the input (integrals with the usual symmetry, orbitals ordered as psi4 orders them)"
  },
  {
   "property": "C94",
   "status": "proved",
   "theorems": [
    "QF.C94_report",
    "QF.C94_consistent",
    "QF.C94_sharp",
    "QF.C94_odd"
   ],
   "note": "serial build of direct_op_exp_val (the threaded one is wrong on strings with Y, see C30); real arithmetic, print rounding left out"
  },
  {
   "property": "C95",
   "status": "partial",
   "theorems": [
    "QF.Moments.C95_energies",
    "QF.Moments.C95_limit",
    "QF.Moments.C95_exact",
    "QF.Moments.C95_space",
    "QF.Moments.C95_orb_energies",
    "QF.Moments.C95_orb_energies_partial",
    "QF.Moments.C95_independent",
    "QF.Moments.C95_wrong_irrep",
    "QF.Moments.C95_wrong_irrep_example",
    "QF.Moments.C95_orb_energies_wrong",
    "QF.Moments.C95_example"
   ],
   "note": "Space, denominators, corrected energies, their limit and the exact case are proved for all settings. Not true of the code: the irrep is always 0 (F67, C95_wrong_irrep), the sign of computed orbital energies for references that do not fill the lowest spin orbitals (F66, C95_orb_energies_wrong); C95_orb_energies_partial is the part that holds."
  },
  {
   "property": "C96",
   "status": "partial",
   "theorems": [
    "QF.C96_accepts",
    "QF.C96_refuses",
    "QF.C96_object",
    "QF.C96_ready",
    "QF.C96_state",
    "QF.C96_penalty_accepts",
    "QF.C96_penalty_refuses",
    "QF.C96_ansatz",
    "QF.C96_hamiltonian",
    "QF.C96_irrep",
    "QF.C96_circuit_unchecked",
    "QF.C96_penalty_unchecked",
    "QF.C96_occupation_unchecked",
    "QF.C96_example"
   ],
   "note": "C96_accepts/C96_refuses: exactly the documented references are accepted; C96_ansatz, C96_penalty_accepts/refuses, C96_hamiltonian, C96_irrep; C96_object, C96_ready, C96_state: what the object holds and that sound arguments give the preconditions of the energy theorems. Missing: the last sentence is false of the code (C96_circuit_unchecked, C96_penalty_unchecked, C96_occupation_unchecked)."
  },
  {
   "property": "C97",
   "status": "proved",
   "theorems": [
    "QF.C97_pqe_state_prep",
    "QF.C97_pqe",
    "QF.C97_pqe_jacobi",
    "QF.C97_pqe_optimizer",
    "QF.C97_example",
    "QF.C97_particle_hole",
    "QF.C97_gsd",
    "QF.C97_invalid_pool",
    "QF.C97_vqe",
    "QF.C97_vqe_bounds",
    "QF.C97_vqe_returns"
   ],
   "note": "Whole runs: pools by name, energy of a normalised state of the register, lower bounds (also within the symmetry sector of the reference), upper bound by the reference energy, return of the scipy branch, stop condition of the projective Jacobi branch."
  },
  {
   "property": "C98",
   "status": "partial",
   "theorems": [
    "QF.C98_each_step",
    "QF.C98_srqk",
    "QF.MrsqkAlg.C98_select",
    "QF.MrsqkAlg.C98_select_errors",
    "QF.MrsqkAlg.C98_configs",
    "QF.MrsqkAlg.C98_ci_mat",
    "QF.MrsqkAlg.C98_sa_refs",
    "QF.MrsqkAlg.C98_sa_mats",
    "QF.MrsqkAlg.C98_sa_mats_nan",
    "QF.MrsqkAlg.C98_bad_options",
    "QF.MrsqkAlg.C98_preliminary",
    "QF.MrsqkAlg.C98_run_sa",
    "QF.MrsqkAlg.C98_run_dets",
    "QF.MrsqkAlg.C98_single_reference"
   ],
   "note": "Selection: proved as the code does it; the importances use the eigenvectors of canonical_geig_solve (correct only if its sort does not permute, F40), conjugated coefficients (F48), unsquared rows when directions are lost (F74), and a configuration is rated by its last determinant only (F47), so 'most important' is not the intended one. Whole runs, orthonormality, Ritz values, bounds and refusals are proved; C98_single_reference shows that the hypotheses can be met. Exact arithmetic."
  },
  {
   "property": "C99",
   "status": "partial",
   "theorems": [
    "QF.Latex.C99_drawing",
    "QF.Latex.C99_refuses",
    "QF.Latex.C99_depth_refuted",
    "QF.Latex.C99_order_refuted"
   ],
   "note": "Proved for every circuit whose qubits Python lists in ascending order (C99_drawing); shape, captions and operator for any order. The bound on the number of columns holds for gates on neighbouring qubits and is false in general (C99_depth_refuted); for other set orders the reading is wrong (C99_order_refuted). Angles are not drawn."
  },
  {
   "property": "C100",
   "status": "proved",
   "theorems": [
    "QF.C100_error",
    "QF.C100_converges",
    "QF.C100_states",
    "QF.C100_srqk",
    "QF.C100_example"
   ],
   "note": "C100_error: explicit bound ncWeight/N for trotterize, with existence and unitarity of the exact exponential; C100_converges: amplitude-wise limit; C100_states, C100_srqk: the Krylov states and matrices. About the circuits as operators; the simulator's 1e-16 truncations are C08/C09's subject."
  },
  {
   "property": "C101",
   "status": "proved",
   "theorems": [
    "QF.C101_state",
    "QF.C101_distribution",
    "QF.C101_overlap",
    "QF.C101_example"
   ],
   "note": "C101_state, C101_distribution: every trial state and Hamiltonian; C101_overlap: success probability from the overlap with an eigenvector, with the Trotter error of C100; C101_example: X+Z with trial |0>."
  },
  {
   "property": "C102",
   "status": "partial",
   "theorems": [
    "QF.C102_pauli",
    "QF.C102_trotter",
    "QF.C102_compact",
    "QF.C102_measures",
    "QF.C102_srqk",
    "QF.C102_mrsqk",
    "QF.C102_mrsqk_stale",
    "QF.C102_mrsqk_example",
    "QF.C102_strings",
    "QF.C102_ansatz",
    "QF.C102_ansatz_compact",
    "QF.C102_reported",
    "QF.C102_saves",
    "QF.C102_compact_le",
    "QF.C102_example"
   ],
   "note": "All counts proved for all inputs (excitations between different spin orbitals, rank at most 19 for the Jordan-Wigner part). The claim about the reported counters is refuted for MRSQK with diagonalize_each_step=False (C102_mrsqk_stale, C102_mrsqk_example): it reports the count of the preliminary SRQK calculation. Not counted: pools with shared indices, sa_SD."
  },
  {
   "property": "C103",
   "status": "partial",
   "theorems": [
    "QF.C103_pool",
    "QF.C103_gradients",
    "QF.C103_agrees",
    "QF.C103_refuted",
    "QF.C103_example",
    "QF.C103_parallel",
    "QF.C103_parallel_example"
   ],
   "note": "Proved for fermionic excitations, in the serial build (C103_pool, C103_gradients, C103_agrees) and, for Hamiltonians whose strings have an even number of Y (every molecule, C108), in the parallel build under every schedule with the same error bound (C103_parallel); refuted for qubit_excitations=True (C103_refuted, finding F79). Fast mode only (the other raises)."
  },
  {
   "property": "C104",
   "status": "partial",
   "theorems": [
    "QF.C104_lanczos",
    "QF.C104_lanczos_example",
    "QF.C104_pqe",
    "QF.C104_untouched",
    "QF.C104_vqe_refuted",
    "QF.C104_adapt_refuted",
    "QF.C104_macro",
    "QF.C104_qite",
    "QF.C104_ntsrqk",
    "QF.C104_srqk",
    "QF.C104_spqe_refuted",
    "QF.C104_spqe_last",
    "QF.C104_example"
   ],
   "note": "Proved for UCCN-PQE with SciPy (C104_pqe), ADAPT-VQE and SPQE with the Jacobi solver (C104_macro), QITE and NTSRQK (C104_qite, C104_ntsrqk), lanczos_summary.dat (C104_lanczos; its energies are those of the modelled do_qlanczos), C104_untouched. Refuted: VQE (C104_vqe_refuted, C104_adapt_refuted), SPQE with SciPy (C104_spqe_refuted, C104_spqe_last), header of SRQK (C104_srqk). In the other tables the numbers written are parameters; Python's formatting of numbers is a parameter."
  },
  {
   "property": "C105",
   "status": "proved",
   "theorems": [
    "QF.QiteAlg.C105_step",
    "QF.QiteAlg.C105_lowers",
    "QF.QiteAlg.C105_run",
    "QF.QiteAlg.C105_example"
   ],
   "note": "For the trajectory of C82 in real arithmetic, with the least-squares contract; the eigenvalue bound is stated as l*sum y^2 <= |sum y sigma psi|^2."
  },
  {
   "property": "C106",
   "status": "proved",
   "theorems": [
    "QF.Print.C106_circuit",
    "QF.Print.C106_angles",
    "QF.Print.C106_operator",
    "QF.Print.C106_pauli",
    "QF.Print.C106_sq",
    "QF.Print.C106_computer",
    "QF.Print.C106_example",
    "QF.Print.C106_format",
    "QF.Print.C106_repr",
    "QF.Print.C106_sqpool",
    "QF.Print.C106_qubitpool",
    "QF.Print.C106_pool_example",
    "QF.Print.C106_repr_angles"
   ],
   "note": "Gate (str and repr), circuit, qubit operator, second-quantised operator, computer, pools of both kinds. Angles are not printed by str (C106_angles, F84), but by repr (C106_repr_angles). fmt's {:+f} is a parameter (sign, digits, point; equal texts differ by at most 1e-6), C106_format: the contract can be met. The counter of pool entries is not allowed to overflow."
  },
  {
   "property": "C107",
   "status": "proved",
   "theorems": [
    "QF.C107_rhs_zero",
    "QF.QiteAlg.C107_chosen",
    "QF.QiteAlg.C107_step_real",
    "QF.QiteAlg.C107_real",
    "QF.QiteAlg.C107_evolve",
    "QF.QiteAlg.C107_nearest",
    "QF.QiteAlg.C107_pools",
    "QF.QiteAlg.C107_run",
    "QF.QiteAlg.C107_example"
   ],
   "note": "Equality of whole runs, up to the number of measurements; scipy's lstsq enters with its contract."
  },
  {
   "property": "C108",
   "status": "proved",
   "theorems": [
    "QF.C108_jordan_wigner",
    "QF.C108_psi",
    "QF.C108_external",
    "QF.C108_parallel",
    "QF.C108_parallel_external",
    "QF.C108_qite",
    "QF.C108_example"
   ],
   "note": "Exact arithmetic; jw_transform's hypotheses as in C36."
  },
  {
   "property": "C109",
   "status": "proved",
   "theorems": [
    "QF.C109_energy",
    "QF.C109_orb_energies",
    "QF.C109_moments",
    "QF.C109_uccnvqe",
    "QF.C109_uccnpqe",
    "QF.C109_adapt",
    "QF.C109_spqe",
    "QF.C109_qite_evolve",
    "QF.C109_qite",
    "QF.C109_molecule",
    "QF.C109_molecule_external",
    "QF.C109_odd",
    "QF.C109_example"
   ],
   "note": "C109_energy, C109_orb_energies, C109_moments, C109_uccnvqe, C109_uccnpqe, C109_adapt, C109_spqe, C109_qite(_evolve), C109_molecule(_external), C109_odd (the hypothesis is needed), C109_example. SciPy's minimizer is a parameter that is a function of the object. The other algorithms (SRQK, MRSQK, NTSRQK, QPE) call no function that depends on the build. Penalty terms are covered by the theorems if their strings have an even number of Y. Exact arithmetic: the order of floating-point summation is not modelled."
  },
  {
   "property": "C110",
   "status": "proved",
   "theorems": [
    "QF.Adapt.C110_run",
    "QF.Adapt.C110_ham",
    "QF.Adapt.C110_returns",
    "QF.Adapt.C110_commut",
    "QF.Adapt.C110_example"
   ],
   "note": "Whole runs; scipy and the Jacobi solver are a parameter that returns amplitudes, energy and its reported cost. C110_run, C110_ham, C110_commut, C110_returns, C110_example."
  },
  {
   "property": "C111",
   "status": "proved",
   "theorems": [
    "QF.C111_jacobi",
    "QF.C111_uccnvqe",
    "QF.C111_uccnpqe",
    "QF.C111_example"
   ],
   "note": "C111_jacobi (as an equation, exceptions included), C111_uccnvqe, C111_uccnpqe, C111_example. The number of evaluations reported by scipy is a parameter."
  },
  {
   "property": "C112",
   "status": "proved",
   "theorems": [
    "QF.C112_objective",
    "QF.C112_eigenstate",
    "QF.C112_run",
    "QF.C112_returns",
    "QF.C112_example"
   ],
   "note": "C112_objective, C112_eigenstate, C112_run, C112_returns; example C112_example. Single-term particle-hole pools, excitation circuits not compact (compact circuits: C61); the scipy optimizer is a parameter, with the contract NotWorse only where stated."
  },
  {
   "property": "C113",
   "status": "proved",
   "theorems": [
    "QF.Spqe.C113_run",
    "QF.Spqe.C113_jacobi",
    "QF.Spqe.C113_scipy",
    "QF.Spqe.C113_returns",
    "QF.Spqe.C113_example"
   ],
   "note": "Counters erase to the run of C88; each is a sum over the solves of the run; lines of table and summary file; Jacobi: measurements equal those of the evaluations counted, scipy: at most those."
  },
  {
   "property": "C114",
   "status": "proved",
   "theorems": [
    "QF.Adapt.C114_adapt",
    "QF.Adapt.C114_adapt_twice",
    "QF.Adapt.C114_adapt_example",
    "QF.Spqe.C114_spqe",
    "QF.Spqe.C114_spqe_twice",
    "QF.Spqe.C114_spqe_example"
   ],
   "note": "For every finite history of runs (reflexive transitive closure of uses, an exception leaving any operators and amplitudes). UCCN-VQE and UCCN-PQE set the same attributes before they read them, so their models do not take them as input."
  },
  {
   "property": "C115",
   "status": "proved",
   "theorems": [
    "QF.C115_penalty",
    "QF.C115_spin",
    "QF.C115_builds",
    "QF.C115_molecule",
    "QF.C115_untidy",
    "QF.C115_example"
   ],
   "note": "Real Hamiltonians and penalty operators in the form the library returns them (simplified); C115_untidy shows that the form is needed. Covers S_z, S^2 and Jordan-Wigner transforms of self-adjoint operators with real coefficients; C115_builds and C115_molecule extend C109 to runs with penalties."
  },
  {
   "property": "C116",
   "status": "proved",
   "theorems": [
    "QF.C116_run",
    "QF.C116_srqk",
    "QF.C116_mrsqk",
    "QF.C116_ntsrqk",
    "QF.C116_example"
   ],
   "note": "All roots, SRQK, MRSQK (more references and/or more states) and NTSRQK (same time between states), any preparation and Hamiltonian, provided the larger calculation drops no direction. Example: SRQK on two qubits goes from 2 to at most -2."
  },
  {
   "property": "C117",
   "status": "proved",
   "theorems": [
    "QF.C117_ntsrqk",
    "QF.C117_srqk",
    "QF.C117_mrsqk",
    "QF.C117_trotter_refuted",
    "QF.C117_example"
   ],
   "note": "NTSRQK: every additive charge, coefficients integer multiples of a number above 1e-16 (otherwise matrix elements below the threshold may be dropped). SRQK, MRSQK: every symmetry of the single Pauli strings; for charges that only the sum conserves the claim is refuted (C117_trotter_refuted, finding F89)."
  },
  {
   "property": "C118",
   "status": "proved",
   "theorems": [
    "QF.C118_gate",
    "QF.C118_relabel",
    "QF.C118_register",
    "QF.C118_additive",
    "QF.C118_example"
   ],
   "note": "Gates the simulator applies exactly (ExactGate: unitary, outside the mis-parsed branch of F1, no entry below the compute threshold); C118_gate for all names and angles."
  },
  {
   "property": "C119",
   "status": "proved",
   "theorems": [
    "QF.QiteAlg.C119_times",
    "QF.QiteAlg.C119_lines",
    "QF.QiteAlg.C119_longer",
    "QF.QiteAlg.C119_run",
    "QF.QiteAlg.C119_example"
   ],
   "note": "In the setting of C84 (Trotterized QITE with real-coefficient Pauli Hamiltonian, least-squares and eigensolver contracts). C119_times: with a positive gap line i belongs to step i*gap, so that the printed Beta = i*gap*db is its imaginary time (with a negative gap the same states are kept and the printed Beta is negative). No direction dropped is a hypothesis on the larger problem."
  },
  {
   "property": "C120",
   "status": "partial",
   "theorems": [
    "QF.C120_srqk_outcome",
    "QF.C120_mrsqk_outcome",
    "QF.C120_example",
    "QF.C120_pqe_example",
    "QF.C120_ritz",
    "QF.C120_srqk",
    "QF.C120_mrsqk",
    "QF.QiteAlg.C120_qite_rhs",
    "QF.QiteAlg.C120_qite_stalls",
    "QF.QiteAlg.C120_qite_refuted",
    "QF.C120_energy",
    "QF.C120_residual",
    "QF.C120_gradient",
    "QF.C120_pool_gradient",
    "QF.C120_jacobi",
    "QF.C120_pqe"
   ],
   "note": "Proved for SRQK and MRSQK whatever number of directions is dropped and whatever the outcome (C120_srqk_outcome, C120_mrsqk_outcome), for the UCC energy, gradient, pool gradient and residuals at given amplitudes, and for whole UCCNPQE runs. The QITE part is false: C120_qite_refuted, C120_qite_stalls."
  },
  {
   "property": "C121",
   "status": "proved",
   "theorems": [
    "QF.C121_srqk_outcome",
    "QF.C121_mrsqk_outcome",
    "QF.C121_ritz",
    "QF.C121_srqk",
    "QF.C121_mrsqk",
    "QF.QiteAlg.C121_qite_step",
    "QF.C121_example",
    "QF.C121_jacobi",
    "QF.C121_pqe",
    "QF.C121_pqe_example",
    "QF.C121_energy",
    "QF.C121_residual",
    "QF.C121_update",
    "QF.C121_gradient",
    "QF.C121_pool_gradient"
   ],
   "note": "Krylov runs: C121_srqk_outcome, C121_mrsqk_outcome. At given amplitudes: C121_energy, C121_residual, C121_gradient, C121_pool_gradient; C121_update for the amplitude update; whole UCCNPQE runs with the Jacobi solver: C121_pqe. C121_qite_step is one step with the thresholds (b threshold, x threshold) in the matching unit; a run with the absolute defaults of the code need not scale."
  },
  {
   "property": "C122",
   "status": "proved",
   "theorems": [
    "QF.C122_mrsqk_outcome",
    "QF.C122_example",
    "QF.C122_ritz",
    "QF.C122_mrsqk"
   ],
   "note": "For determinants as references (use_spin_adapted_refs=False), in the setting of C83."
  },
  {
   "property": "C123",
   "status": "proved",
   "theorems": [
    "QF.C123_ritz",
    "QF.C123_srqk",
    "QF.C123_mrsqk",
    "QF.C123_example"
   ],
   "note": "For Hamiltonians of strings with an even number of Y; otherwise the Krylov spaces at opposite times are unrelated."
  },
  {
   "property": "C124",
   "status": "proved",
   "theorems": [
    "QF.C124_energy",
    "QF.C124_gradient",
    "QF.C124_pool_gradient",
    "QF.C124_residual",
    "QF.C124_vqe",
    "QF.C124_pqe",
    "QF.C124_trotter",
    "QF.C124_trotter_refuted",
    "QF.C124_example",
    "QF.QiteAlg.C124_qite",
    "QF.QiteAlg.C124_qite_example"
   ],
   "note": "Energies, gradients, pool gradients, residuals, orbital energies and whole runs of UCCN-VQE, UCCN-PQE and QITE (with Lanczos) for two Hamiltonians with the same denoted operator, including runs that raise; the minimiser is a parameter that sees only the energies and gradients (resp. residuals). C124_trotter bounds the difference of two Trotterised evolutions, C124_trotter_refuted shows that they can differ."
  }
 ]
}