{
"C01": {
"status": "proved",
"note": "all bit positions and indices; QubitBasis modelled on unbounded naturals"
},
"C02": {
"status": "proved",
"note": "every string/angle accepted by make_gate, plus adjoint and control_gate of one-qubit gates; control_gate of a two-qubit gate is proved NOT unitary"
},
"C03": {
"status": "proved",
"note": ""
},
"C04": {
"status": "proved",
"note": ""
},
"C05": {
"status": "proved",
"note": "exact complex arithmetic; entries of modulus <= 1e-16 are dropped by the code and by the theorem"
},
"C06": {
"status": "partial",
"note": "excludes the mis-parsed comparison op_0_1 == op_1_0 == 1.0; C06_swap_branch and C08_rx_pi_differs prove what happens there"
},
"C07": {
"status": "partial",
"note": "as C06; matrix entries agree to 1e-16, exactly when no non-zero entry is that small"
},
"C08": {
"status": "partial",
"note": "all circuits of API gates at any angle except Rx with |cos(theta/2)| <= 1e-16 (mis-parsed branch): exact when no non-zero matrix entry is <= 1e-16 (C08_fast_eq_safe_partial), otherwise with an explicit error bound (C08_fast_vs_safe_partial); apply_circuit_safe has no exception; C08_rx_pi_differs is a counterexample to the unrestricted claim"
},
"C09": {
"status": "partial",
"note": "all API gates outside the mis-parsed branch: exact without sub-threshold entries, otherwise with an explicit error bound"
},
"C10": {
"status": "partial",
"note": "all API gates outside the mis-parsed branch: exact without sub-threshold entries, otherwise with an explicit error bound; the order statement is unconditional"
},
"C11": {
"status": "proved",
"note": "every edit sequence without an inverted remove_gates range (undefined behaviour) and without passing a circuit to itself (F25); C11_remove_gates_never_removes_last is a finding"
},
"C12": {
"status": "partial",
"note": "excludes gates made by control_gate (C12_cU_not_settable); too few values is undefined behaviour rather than an exception (C12_too_few)"
},
"C14": {
"status": "proved",
"note": "C14_simplify: exact operator equality whenever simplify returns; C14_simplify_total: it returns for circuits without control_gate gates; C14_cU_throws: finding"
},
"C15": {
"status": "proved",
"note": "flag symmetry when both calls return; a control_gate gate may make one order throw"
},
"C16": {
"status": "proved",
"note": ""
},
"C17": {
"status": "proved",
"note": "findings: == ignores the matrix (C17_eq_ignores_matrix), not transitive"
},
"C13": {
"status": "proved",
"note": "circuits and operators"
},
"C18": {
"status": "proved",
"note": "left-to-right reading; the pair (prefactor, string) is also unique"
},
"C19": {
"status": "proved",
"note": "C19_repeated_differs: with repeated qubits the phase is conjugated relative to execution"
},
"C20": {
"status": "proved",
"note": "operator read left to right (F8); same for execution when no term repeats a qubit; the result is a normal form"
},
"C21": {
"status": "proved",
"note": "operator read left to right; all flag values; also for self-aliased argument"
},
"C22": {
"status": "proved",
"note": "add_op with the operator itself as argument (iterator invalidation) is not modelled"
},
"C23": {
"status": "proved",
"note": "std::sort is an arbitrary permutation that depends on the circuits only; C23_cutoff and C23_comparator_not_weak_order are findings"
},
"C24": {
"status": "proved",
"note": "exact for all Pauli operators and all circuits without sub-threshold entries; C24_apply_operator_error bounds the error for API gates at any angle outside the mis-parsed Rx branch"
},
"C25": {
"status": "proved",
"note": "exact for gates (entries above 1e-14) and Pauli strings; explicit column error bound for all circuits of API gates"
},
"C26": {
"status": "partial",
"note": "non-empty operators: explicit bounds against the operator and against apply_operator, exact for a single Pauli string; C26_empty_operator is a counterexample for the empty operator"
},
"C27": {
"status": "partial",
"note": "apply_matrix conjugates its argument (C27_conjugates, C27_refuted); the claim holds for real matrices"
},
"C28": {
"status": "proved",
"note": "No hypotheses: whenever the call returns, the amplitudes are those before the call, for every circuit, operator, pool and draw (C28_*). C29/C31/C32 additionally show the rest of the state (SameState) is restored."
},
"C29": {
"status": "proved",
"note": "Serial build: exact for exactly representable gates (all Pauli operators), with an explicit error bound for all API gates outside the Rx(pi) branch of C06, and against apply_operator for any operator. Pools in order. OpenMP build characterised (C29_parallel_value): sign (-1)^#Y, see C30."
},
"C30": {
"status": "partial",
"note": "Proved for strings with an even number of Y, any schedule; false for an odd number of Y (C30_refuted, finding F4); exact value for all strings C30_value."
},
"C31": {
"status": "proved",
"note": "All strings of X, Y, Z on distinct qubits, all states. C31_identity_gate_measured_as_Z documents finding F13 (explicit I gates)."
},
"C32": {
"status": "proved",
"note": "For all samplers. Includes the Born rule for the sampled weights and that each outcome has a non-vanishing eigenprojection."
},
"C33": {
"status": "partial",
"note": "False of the code (finding F3): C33_returns_zero proves the call returns 0 and applies the gate for every gate and state; C33_refuted gives concrete instances. Nothing of the claim is provable beyond that."
},
"C34": {
"status": "proved",
"note": "permutationPhase on every permutation list is the sign of the permutation; errors on non-permutations; multiplicative."
},
"C35": {
"status": "proved",
"note": "canonical_order/simplify preserve the represented operator for every input of terms with distinct indices (the code's own domain; repeated indices raise or are covered by F6), residual of dropped terms explicit."
},
"C36": {
"status": "partial",
"note": "Full statement refuted: repeated indices (F6), >=40 orbitals (F7), qubit-excitation sign (F27). Proved on the complement."
},
"C37": {
"status": "proved",
"note": "CAR for images of single ladder operators of jw_transform."
},
"C60": {
"status": "proved",
"note": "Initial/reset/null/set_state contents, size invariant under every history, counters."
},
"C38": {
"status": "proved",
"note": "IsExp (power series) for every Pauli string on distinct qubits; errors characterised."
},
"C39": {
"status": "partial",
"note": "Proved for strings with a non-identity letter and ancilla outside; refuted for the identity string (F21)."
},
"C40": {
"status": "proved",
"note": "Product formula for all operators, factors, step numbers >= 0; order > 1 raises."
},
"C41": {
"status": "proved",
"note": "DFT formula for every block (qubit na most significant), reverse is the inverse, run on a computer."
},
"C42": {
"status": "partial",
"note": "Refuted for every block of two or more qubits (F5: rev_qft negates the block value); holds for one qubit."
},
"C58": {
"status": "proved",
"note": "Both circuits equal the textbook operators for all distinct qubits and all states, run on every computer, and raise when a qubit is repeated."
},
"C43": {
"status": "proved",
"note": "For every non-empty 0/1 list and every computer with enough qubits; round trips up to 64 orbitals (width of QubitBasis); the empty list raises in ref_to_basis_idx."
},
"C44": {
"status": "proved",
"note": "For every 0/1 list (also odd lengths); termination of the worklist loop is part of the theorem."
},
"C45": {
"status": "proved",
"note": "XOR value, order independence, cancellation, concatenation; an index outside the table is undefined behaviour."
},
"C57": {
"status": "proved",
"note": "For every strictly descending index list inside the reference."
},
"C59": {
"status": "partial",
"note": "Exact for gates the simulator applies exactly; for all other API gates within the 1e-16 truncation bound. Missing: Rx gates hit by the NoSwapBug defect (F1), where the claim is false."
},
"C62": {
"status": "proved",
"note": "For every n: total_spin_z/raising/lowering/squared give exactly Sz, S+, S-, Sx^2+Sy^2+Sz^2 of the ceil(n/2) spatial orbitals (odd n therefore touches orbital n), for every behaviour of std::sort."
},
"C46": {
"status": "proved",
"note": "For 1..15 qubits exactly the canonical Pauli strings, once each, with coefficient 1 (all / odd number of Y). Findings proved: 0 qubits diverges, from 16 qubits int conversion is undefined, unknown type raises."
},
"C47": {
"status": "proved",
"note": "Every pool of Pauli operators: each result operator is the product/commutator in simplified form up to Negligible dropped terms (distinct strings, |c|<=1e-12), coefficients and order as stated; exact for dyadic coefficients. The header comment's [term, Op] is refuted: the code computes [Op, term]."
},
"C48": {
"status": "proved",
"note": "Every operator the particle-hole pools add, for every reference integer, irrep table and rank (n <= 64 spin orbitals, the bitset width; larger raises: C49_too_large)."
},
"C49": {
"status": "partial",
"note": "C49_contents says exactly what is in the pool for every reference; completeness proved for aufbau references (C49_complete_aufbau_partial, C49_distinct); the full statement is false: C49_refuted_non_aufbau (std::next_permutation starts from the reference instead of the smallest permutation)."
},
"C50": {
"status": "partial",
"note": "Counts for every reference; integer for references below the int width; full statement refuted by C50_refuted_int_overflow."
},
"C63": {
"status": "proved",
"note": "contents (each generalised excitation exactly once up to sign), anti-Hermiticity and N, Sz conservation; std::sort as an oracle"
},
"C64": {
"status": "proved",
"note": "Contents up to the list SaTerm, normalisation, commutation with N, Sz, S+, S-, and the two-halves shape the ansatz relies on (C64_halves). The pool uses the first n_occ spatial orbitals whatever the occupied orbitals of the reference are (finding F28)"
},
"C51": {
"status": "partial",
"note": "pauli_condense proved for words with at most two letters per qubit (all the library builds); for three letters it is wrong (C51_refuted_three_letters, finding F17). combine_like_terms, join_organizers and join_H_Am_organizers fully"
},
"C52": {
"status": "partial",
"note": "organizer = second-quantised term proved for every term; agreement with C++ under the conditions of C36; anti-Hermitian for real amplitudes, refuted for complex ones (amplitude of the adjoint not conjugated, F29)"
},
"C53": {
"status": "proved",
"note": ""
},
"C65": {
"status": "partial",
"note": "exact acceptance condition proved; the claim that only normal-ordered terms are accepted is false (F30): C65_refuted_not_normal_ordered. On normal-ordered input the result is right (C65_normal_ordered)"
},
"C54": {
"status": "proved",
"note": "Kernel basis: every returned vector is in the kernel of the parity check matrix, they are linearly independent and span it; for every binary matrix."
},
"C55": {
"status": "proved",
"note": "for every binary matrix with 2n columns; entry (i,j) is 0 iff the encoded Pauli operators commute and 1 iff they anticommute"
},
"C56": {
"status": "proved",
"note": "for every Hamiltonian of canonical Pauli strings: the pipeline terminates and returns independent generators of a maximal Abelian symmetry group, or IndexError when there is none; X-pairing proved when no product of X gates is a symmetry"
},
"C66": {
"status": "proved",
"note": "for every Hamiltonian of canonical strings without an X-only symmetry and with at most 79 generators; the excluded case is refuted for X0 (F31): the returned operator is not unitary"
},
"C67": {
"status": "proved",
"note": "for every operator commuting with the generators and every sign list; the dropped terms are characterised exactly (|c| <= 1e-12*sqrt(2)^k before, <= 1e-12 after merging)"
},
"C61": {
"status": "proved",
"note": "compact_excitation_circuits.py complete; sign factor explicit; wrong index orders refuted (F34, F35)"
},
"C69": {
"status": "proved",
"note": "commuting terms: exact for every Trotter number; JW of E-E\u2020 (rank \u2264 19): the strings commute because \u03ba is a real antisymmetric monomial operator, so every string has an odd number of Y"
},
"C68": {
"status": "proved",
"note": "per-element groups and their sum up to the dropped terms (each at most 1e-12, distinct strings); the meaning of jw_transform itself is C36"
},
"C70": {
"status": "proved",
"note": "Model: UccAlg.ansatzCircuit etc. (fast mode). C70_ansatz and C70_exact_used (any amplitudes, any Trotter number; amplitudes under the simplify threshold count as zero, all others exactly), C70_used, C70_energy_used (serial and parallel), C70_compact (all amplitudes) and C70_compact_energy (resolved amplitudes), C70_reference; spin-adapted pools: C70_sa_SD with C64_halves, C70_sa_energy, compact circuits C70_sa_compact, C70_sa_compact_energy."
},
"C71": {
"status": "partial",
"note": "Proved for unit pool coefficients, trotter_number 1, resolved amplitudes and pools of single excitations, with ordinary circuits (C71_gradient, C71_gradient_of_feval) and compact circuits (C71_compact, C71_compact_of_feval), and for sa_SD operators whose pieces commute with ordinary (C71_sa_commuting) and compact circuits (C71_sa_compact). The claim is false of the code in all other cases, and these deviations are theorems too: C71_flat_at_zero, C71_pool_coefficient, C71_no_amplitudes; trotter_number > 1: C71_last_entry, C71_trotter_refuted, NOTES F38; sa_SD operators whose pieces do not commute: C71_sa_refuted, NOTES F36."
},
"C72": {
"status": "proved",
"note": "C72_value for any ansatz circuit of exactly simulated gates and any pool whose Jordan-Wigner transform fits; C72_excitations for the commutator and derivative forms."
},
"C73": {
"status": "proved",
"note": "exact real arithmetic; trotter_number 1, non-compact; any amplitudes (C73_residual_used, C73_real_used: those under the simplify threshold count as zero); noise option not modelled. np.imag(res) != 0 is an exact comparison."
},
"C74": {
"status": "proved",
"note": "H and O_i are Pauli operators; type checks of the dictionary not modelled"
},
"C75": {
"status": "proved",
"note": "generic over energy/residual/preconditioner/lstsq; numpy broadcasting of length-1 vectors and the cost counters not modelled; the last two clauses are deviations proved as theorems"
},
"C76": {
"status": "partial",
"note": "C76_solves and C76_truncated need no or trailing dropped eigenvalues; sorted eigenvectors only if already sorted (C76_sorted_vectors_partial); the general claim is refuted by C76_sorted_vectors_refuted and C76_truncation_refuted. scipy.linalg.eig is a parameter"
},
"C77": {
"status": "partial",
"note": "Exact matrices of the state-vector (fast) routes are proved for every Hamiltonian of Pauli strings with real coefficients; not covered: floating point, trotter_order (ignored by the code), complex coefficients."
},
"C78": {
"status": "proved",
"note": "All generators of exactly applied gates (ExactGate, see C08) and operators of X/Y/Z strings; identity letters are measured as Z (C31_identity_gate_measured_as_Z). The quality of the random generator is a hypothesis (IdealSampler), shown satisfiable by C78_ideal_sampler_exists."
},
"C79": {
"status": "proved",
"note": "Both matrix_element variants equal the inner products of the Trotter states of C77; realistic and fast matrices agree entry by entry. Gates exact, i.e. the 1e-16 skip thresholds of the gate kernels as in C08."
},
"C80": {
"status": "proved",
"note": "State before measurement, all readouts for all draws, majority, mode, nearest-alias energies, exact phases; docstring window and digit-wise majority refuted. Trotter eigenstates; for commuting terms, eigenstates of H."
},
"C81": {
"status": "proved",
"note": "Lower bound on the Born probability of a readout within 2^-num_precise_bits."
},
"C82": {
"status": "proved",
"note": "Whole run as a trajectory with optimality of every step, all counters, descent to first order, pools SD..SDTQPH, GSD, cqoy, complete_qubit; stall theorem. lstsq enters as a contract (a minimiser of |S x - b|), shown satisfiable."
},
"C83": {
"status": "proved",
"note": "SRQK, NTSRQK and MRSQK; scipy eig enters as contract DescEig (orthonormal eigenvectors, descending), shown satisfiable, and shown necessary by C83_order_refuted; expm_multiply as contract ExpmContract. NTSRQK rests on C25_hermitian: the sparse matrix of a Hermitian operator is exactly Hermitian."
},
"C84": {
"status": "proved",
"note": "Under the contracts of C82 and C83. diagonalize_each_step output and condition numbers are printing only."
},
"C85": {
"status": "proved",
"note": "Standard (not compact) circuits. The optimizer is a parameter with the contract: right number of amplitudes, fun is the energy at x, not above the energy at the start. Bounds and termination for pools of excitations (all fill_pool types but sa_SD); selection, neutrality and monotonicity for every pool. Findings F56-F58."
},
"C86": {
"status": "proved",
"note": "pool = increasing list of all admissible determinants (C86_pool, C86_complete); operators excite (C86_excites); agreement with fill_pool"
},
"C87": {
"status": "proved",
"note": "residuals for both conventions, exact error conditions; reality for real Hamiltonians, any amplitudes (those under the simplify threshold count as zero)"
},
"C88": {
"status": "proved",
"note": "selection (C88_update, C88_progress), zero amplitudes in front (C88_neutral), result and number of iterations (C88_run), bound (C88_bound), when the run returns and the IndexError (C88_returns), limit of the estimates (C88_estimate), finite M_omega never returns (C88_sampled); minimize is any function that keeps the number of parameters"
},
"C89": {
"status": "partial",
"note": "build_circuit for one-qubit, two-qubit and rotation words in any layout (C89_build_circuit_partial), build_operator (C89_build_operator). Missing because false: the documented four-field words for controlled rotations (C89_controlled_rotation, C89_controlled_rotation_witness)"
},
"C90": {
"status": "proved",
"note": "C90_tfim, C90_parity, C90_reference_energy, C90_factory; a negative length is treated as zero by python's range"
},
"C91": {
"status": "proved",
"note": "character tables in Spec/Character; C91_irreps, C91_find_irrep, C91_char_table"
},
"C92": {
"status": "proved",
"note": "C92_hamiltonian, C92_hermitian, C92_reference, C92_irreps, C92_returns; C92_lower_case records that only 'C1' (not 'c1') works without irreps in the file; json parsing is not modelled"
},
"C93": {
"status": "proved",
"note": "C93_hamiltonian, C93_hermitian, C93_hf_energy, C93_reference, C93_electrons; what psi4 returns is the input (integrals with the usual symmetry, orbitals ordered as psi4 orders them)"
},
"C94": {
"status": "proved",
"note": "serial build of direct_op_exp_val (the threaded one is wrong on strings with Y, see C30); real arithmetic, print rounding left out"
},
"C95": {
"status": "partial",
"note": "Space, denominators, corrected energies, their limit and the exact case are proved for all settings. Not true of the code: the irrep is always 0 (F67, C95_wrong_irrep), the sign of computed orbital energies for references that do not fill the lowest spin orbitals (F66, C95_orb_energies_wrong); C95_orb_energies_partial is the part that holds."
},
"C96": {
"status": "partial",
"note": "C96_accepts/C96_refuses: exactly the documented references are accepted; C96_ansatz, C96_penalty_accepts/refuses, C96_hamiltonian, C96_irrep; C96_object, C96_ready, C96_state: what the object holds and that sound arguments give the preconditions of the energy theorems. Missing: the last sentence is false of the code (C96_circuit_unchecked, C96_penalty_unchecked, C96_occupation_unchecked)."
},
"C97": {
"status": "proved",
"note": "Whole runs: pools by name, energy of a normalised state of the register, lower bounds (also within the symmetry sector of the reference), upper bound by the reference energy, return of the scipy branch, stop condition of the projective Jacobi branch."
},
"C98": {
"status": "partial",
"note": "Selection: proved as the code does it; the importances use the eigenvectors of canonical_geig_solve (correct only if its sort does not permute, F40), conjugated coefficients (F48), unsquared rows when directions are lost (F74), and a configuration is rated by its last determinant only (F47), so 'most important' is not the intended one. Whole runs, orthonormality, Ritz values, bounds and refusals are proved; C98_single_reference shows that the hypotheses can be met. Exact arithmetic."
},
"C99": {
"status": "partial",
"note": "Proved for every circuit whose qubits Python lists in ascending order (C99_drawing); shape, captions and operator for any order. The bound on the number of columns holds for gates on neighbouring qubits and is false in general (C99_depth_refuted); for other set orders the reading is wrong (C99_order_refuted). Angles are not drawn."
},
"C100": {
"status": "proved",
"note": "C100_error: explicit bound ncWeight/N for trotterize, with existence and unitarity of the exact exponential; C100_converges: amplitude-wise limit; C100_states, C100_srqk: the Krylov states and matrices. About the circuits as operators; the simulator's 1e-16 truncations are C08/C09's subject."
},
"C101": {
"status": "proved",
"note": "C101_state, C101_distribution: every trial state and Hamiltonian; C101_overlap: success probability from the overlap with an eigenvector, with the Trotter error of C100; C101_example: X+Z with trial |0>."
},
"C102": {
"status": "partial",
"note": "All counts proved for all inputs (excitations between different spin orbitals, rank at most 19 for the Jordan-Wigner part). The claim about the reported counters is refuted for MRSQK with diagonalize_each_step=False (C102_mrsqk_stale, C102_mrsqk_example): it reports the count of the preliminary SRQK calculation. Not counted: pools with shared indices, sa_SD."
},
"C103": {
"status": "partial",
"note": "Proved for fermionic excitations, in the serial build (C103_pool, C103_gradients, C103_agrees) and, for Hamiltonians whose strings have an even number of Y (every molecule, C108), in the parallel build under every schedule with the same error bound (C103_parallel); refuted for qubit_excitations=True (C103_refuted, finding F79). Fast mode only (the other raises)."
},
"C104": {
"status": "partial",
"note": "Proved for UCCN-PQE with SciPy (C104_pqe), ADAPT-VQE and SPQE with the Jacobi solver (C104_macro), QITE and NTSRQK (C104_qite, C104_ntsrqk), lanczos_summary.dat (C104_lanczos; its energies are those of the modelled do_qlanczos), C104_untouched. Refuted: VQE (C104_vqe_refuted, C104_adapt_refuted), SPQE with SciPy (C104_spqe_refuted, C104_spqe_last), header of SRQK (C104_srqk). In the other tables the numbers written are parameters; Python's formatting of numbers is a parameter."
},
"C105": {
"status": "proved",
"note": "For the trajectory of C82 in real arithmetic, with the least-squares contract; the eigenvalue bound is stated as l*sum y^2 <= |sum y sigma psi|^2."
},
"C106": {
"status": "proved",
"note": "Gate (str and repr), circuit, qubit operator, second-quantised operator, computer, pools of both kinds. Angles are not printed by str (C106_angles, F84), but by repr (C106_repr_angles). fmt's {:+f} is a parameter (sign, digits, point; equal texts differ by at most 1e-6), C106_format: the contract can be met. The counter of pool entries is not allowed to overflow."
},
"C107": {
"status": "proved",
"note": "Equality of whole runs, up to the number of measurements; scipy's lstsq enters with its contract."
},
"C108": {
"status": "proved",
"note": "Exact arithmetic; jw_transform's hypotheses as in C36."
},
"C109": {
"status": "proved",
"note": "C109_energy, C109_orb_energies, C109_moments, C109_uccnvqe, C109_uccnpqe, C109_adapt, C109_spqe, C109_qite(_evolve), C109_molecule(_external), C109_odd (the hypothesis is needed), C109_example. SciPy's minimizer is a parameter that is a function of the object. The other algorithms (SRQK, MRSQK, NTSRQK, QPE) call no function that depends on the build. Penalty terms are covered by the theorems if their strings have an even number of Y. Exact arithmetic: the order of floating-point summation is not modelled."
},
"C110": {
"status": "proved",
"note": "Whole runs; scipy and the Jacobi solver are a parameter that returns amplitudes, energy and its reported cost. C110_run, C110_ham, C110_commut, C110_returns, C110_example."
},
"C111": {
"status": "proved",
"note": "C111_jacobi (as an equation, exceptions included), C111_uccnvqe, C111_uccnpqe, C111_example. The number of evaluations reported by scipy is a parameter."
},
"C112": {
"status": "proved",
"note": "C112_objective, C112_eigenstate, C112_run, C112_returns; example C112_example. Single-term particle-hole pools, excitation circuits not compact (compact circuits: C61); the scipy optimizer is a parameter, with the contract NotWorse only where stated."
},
"C113": {
"status": "proved",
"note": "Counters erase to the run of C88; each is a sum over the solves of the run; lines of table and summary file; Jacobi: measurements equal those of the evaluations counted, scipy: at most those."
},
"C114": {
"status": "proved",
"note": "For every finite history of runs (reflexive transitive closure of uses, an exception leaving any operators and amplitudes). UCCN-VQE and UCCN-PQE set the same attributes before they read them, so their models do not take them as input."
},
"C115": {
"status": "proved",
"note": "Real Hamiltonians and penalty operators in the form the library returns them (simplified); C115_untidy shows that the form is needed. Covers S_z, S^2 and Jordan-Wigner transforms of self-adjoint operators with real coefficients; C115_builds and C115_molecule extend C109 to runs with penalties."
},
"C116": {
"status": "proved",
"note": "All roots, SRQK, MRSQK (more references and/or more states) and NTSRQK (same time between states), any preparation and Hamiltonian, provided the larger calculation drops no direction. Example: SRQK on two qubits goes from 2 to at most -2."
},
"C117": {
"status": "proved",
"note": "NTSRQK: every additive charge, coefficients integer multiples of a number above 1e-16 (otherwise matrix elements below the threshold may be dropped). SRQK, MRSQK: every symmetry of the single Pauli strings; for charges that only the sum conserves the claim is refuted (C117_trotter_refuted, finding F89)."
},
"C118": {
"status": "proved",
"note": "Gates the simulator applies exactly (ExactGate: unitary, outside the mis-parsed branch of F1, no entry below the compute threshold); C118_gate for all names and angles."
},
"C119": {
"status": "proved",
"note": "In the setting of C84 (Trotterized QITE with real-coefficient Pauli Hamiltonian, least-squares and eigensolver contracts). C119_times: with a positive gap line i belongs to step i*gap, so that the printed Beta = i*gap*db is its imaginary time (with a negative gap the same states are kept and the printed Beta is negative). No direction dropped is a hypothesis on the larger problem."
},
"C120": {
"status": "partial",
"note": "Proved for SRQK and MRSQK whatever number of directions is dropped and whatever the outcome (C120_srqk_outcome, C120_mrsqk_outcome), for the UCC energy, gradient, pool gradient and residuals at given amplitudes, and for whole UCCNPQE runs. The QITE part is false: C120_qite_refuted, C120_qite_stalls."
},
"C121": {
"status": "proved",
"note": "Krylov runs: C121_srqk_outcome, C121_mrsqk_outcome. At given amplitudes: C121_energy, C121_residual, C121_gradient, C121_pool_gradient; C121_update for the amplitude update; whole UCCNPQE runs with the Jacobi solver: C121_pqe. C121_qite_step is one step with the thresholds (b threshold, x threshold) in the matching unit; a run with the absolute defaults of the code need not scale."
},
"C122": {
"status": "proved",
"note": "For determinants as references (use_spin_adapted_refs=False), in the setting of C83."
},
"C123": {
"status": "proved",
"note": "For Hamiltonians of strings with an even number of Y; otherwise the Krylov spaces at opposite times are unrelated."
},
"C124": {
"status": "proved",
"note": "Energies, gradients, pool gradients, residuals, orbital energies and whole runs of UCCN-VQE, UCCN-PQE and QITE (with Lanczos) for two Hamiltonians with the same denoted operator, including runs that raise; the minimiser is a parameter that sees only the energies and gradients (resp. residuals). C124_trotter bounds the difference of two Trotterised evolutions, C124_trotter_refuted shows that they can differ."
}
}