# Working notes (findings while reading /repo; each to be confirmed by a theorem)

Files: src/qforte/*.cc are C++ (exposed to python via bindings.cc), src/qforte/utils/*.py etc.
F1  computer.cc:397 `op_0_1 == op_1_0 == 1.0` parses `(op01==op10)==1.0`: the "X-gate" swap path is taken for ANY
    anti-diagonal gate with equal off-diagonals. In exact arithmetic Rx(pi) (entries -i,-i) loses the phase. In doubles
    cos(pi/2)=6.1e-17 twice > 1e-16 so Case I is taken (luck). same at 549, 668 for 2-qubit.
F2  apply_matrix (computer.cc:56) conjugates the matrix (complex_prod = conj(a)*b).
F3  direct_gate_exp_val (937) reads new_coeff_ (always 0) => returns 0, and leaves state modified.
F4  direct_pauli_circ_exp_val: sign wrong for odd number of Y (uses <J|P|I> i.e. P^T). Used in OpenMP builds.
F5  rev_qft applies adjoint of 'reverse' = forward QFT.
F6  jw_helper: when the accumulated product becomes zero (repeated creation index) holder is empty and next operator
    is *added* fresh: jw({p,p},{q}) = a_q instead of 0.
F7  simplify threshold 1e-12: jw of >= 40 distinct ladder ops is silently 0 (2^-40 < 1e-12).
F8  canonicalize_pauli_circuit reads product left-to-right, apply_circuit is time-order: phase conj for repeated qubits.
F9  Gate == ignores matrix: all control_gate (label cU) with same target/control compare equal.
F10 remove_gates throws for pos2 == size: last gate can never be removed by range.
F11 set_parameters reads params[param_idx] before bounds check (UB if too short); not atomic on error.
F12 order_terms comparator not strict weak order (a.size()<a.size()).
F13 perfect_measure_circuit/measure_circuit treat "I" gates as Z.
F14 next_permutation starts at reference string: pool incomplete for non-aufbau references.
F15 set_orb_spaces int multiplier overflows at 31 bits.
F16 QubitOperator.sparse_matrix of empty operator = identity, apply_operator(empty) = 0.
F17 pauli_condense wrong for >=3 letters on one qubit.
F18 join_as_commutator computes [Op, term], header says [term, Op].
F19 control_gate of a 2-qubit gate uses upper-left block (identity for cX) ; set_parameter on parametrised cU throws.
F20 fill_pool(complete_qubit,0) loops (int < size_t wrap), nqb>=16 int overflow.
F21 trotterize_w_cRz: identity term phase not controlled.
F22 simplify not exception-safe: `.at` throws on Undefined gate types (cU) after earlier rewrites of gates_[pos2].
F23 a circuit simplified: involves only WF gates. evaluate_gate_interaction on cU throws out_of_range.
F24 exponentiate: repeated targets: adjacent -> cX(t,t) throws.
F25 c.add_circuit(c), insert_circuit(self), add_op(self): iterator invalidation, undefined behaviour in C++ (not modelled; copies in the model).
F26 (floating point only) A(theta) with cos theta rounding to 1.0.
F28 sa_SD pool uses the first nocc spatial orbitals whatever the reference's occupied orbitals are.
F29 get_ucc_jw_organizer does not conjugate the amplitude of T^dagger: not anti-Hermitian for complex amplitudes (C52_refuted_complex_amplitude).
F30 fermop_to_sq_excitation accepts e.g. a3^ a2 a1^ a0 (not normal ordered) and misreads it (C65_refuted_not_normal_ordered).
F31 find_Z2_symmetries when a product of X gates is a symmetry: the generator has no Z column, sigma_x keeps its initial 0, and (g + X_0)/sqrt2 is not unitary (C66_x_symmetry_counterexample: H = X_0).
F32 with 80 or more generators every coefficient of the tapering unitary (2^-40) is under the simplify threshold 1e-12 and the unitary becomes the empty operator (remark; C66 assumes at most 79).
F33 taper_operator needs tapered_qubits as a numpy array (its documentation says list): `pauli.target() > list` raises TypeError.
F34 compact_excitation_circuit (fermionic): index lists sorted in opposite directions (an odd number of ascending pairs in total) give exp(-theta (t - t^dagger)) (C61_order_refuted). Pools supply decreasing lists, so they are unaffected.
F35 compact_excitation_circuit (fermionic, shared index): creation=[g,p], annihilation=[r,g] (e.g. [1,0],[3,1]) places the cZ of the sign circuit on the shared orbital g, so the sign cancels and the result is wrong as soon as another orbital lies between p and r (C61_gsd_refuted).
F36 measure_gradient with pool type sa_SD: the ansatz applies the factors exp(t x_j kappa_j) of one element in order, the gradient undoes them in the same (not the reverse) order and uses the derivative sum_j x_j kappa_j outside the product; both are right only if the kappa_j of the element commute (triplet-coupled doubles do not). Theorem C71_sa_refuted: for two electrons in three orbitals and operator 3 of the real sa_SD pool (singlet-coupled double to two different virtuals), measure_gradient returns the derivative of energy_feval times cos(t/sqrt 2), so at t = sqrt2*2pi/3 it has the wrong sign. sa_SD is the default pool_type of ADAPT-VQE (adaptvqe.py:84).
F37 ansatz_circuit ignores the coefficient of the pool element, measure_gradient multiplies by it (C71_pool_coefficient); with several operators the undo circuit is exp(-t z kappa), not the inverse of the ansatz factor.
F38 trotter_number > 1: the ansatz is (prod_mu exp(t_mu kappa_mu / N))^N, but measure_gradient treats it as prod_mu exp(t_mu kappa_mu). Theorem C71_trotter_refuted: N = 2, E = 1 - sin(s)^2/2 stationary at s = pi/2, reported gradient entry 1.
F39 energy_feval is constant in an amplitude in a neighbourhood of 0 (threshold of simplify), so its derivative there is 0 while measure_gradient returns the exact derivative (C71_flat_at_zero).
F40 canonical_geig_solve(sort_ret_vals=True): sorted_X_prime permutes the columns of X_prime as well as those of C_prime, so get_qk_eigenvectors() is wrong whenever the sort permutes (C76_sorted_vectors_refuted); MRSQK uses these vectors to select references.
F41 canonical_geig_solve with dropped eigenvalues: U[i][j] is read with the index in the filtered list (C76_truncation_refuted).
F42 canonical_geig_solve rejects eigenvalues with large positive imaginary part only; negative ones pass.
F43 jacobi_solver: convergence is tested with the residual of the amplitudes before the last update; opt_maxiter = 0 raises UnboundLocalError (C75_no_iterations); a zero update with DIIS divides 0/0 (C75_exact_start).
F44 NTSRQK uses expm_multiply(start=0, stop=dt, num=nstates, endpoint=True): state m is evolved for m*dt/(nstates-1), not m*dt (C77_ntsrqk_refuted).
F45 MRSQK.build_qk_mats_fast sets phase1 = 1.0 only inside the loop over occupied orbitals: a vacuum first reference raises UnboundLocalError (C77_mrsqk_vacuum), a later one reuses a stale phase.
F46 MRSQK.build_refs uses the undefined name initial_ref (NameError when the reference is not among the selected determinants).
F47 MRSQK.build_sa_refs: val = 0.0 is reset inside the inner loop, so only the last coefficient of a configuration counts.
F48 MRSQK.build_refs: Cprime uses conj(evecs)^T instead of evecs^T.
F49 trotter_order is never passed to trotterize by SRQK/MRSQK; SRQK with nstates = 0 raises NameError.
F50 QPE.run documents that the eigenvalue must be within +/-2 pi/t of the guess; an eigenvalue further than pi/t from it is never returned (C80_window_refuted). trotter_order is ignored.
F51 QPE.run takes the majority digit by digit: the final phase and energy may belong to a phase that no run produced, e.g. readouts 110, 101, 011 give 111 (C80_majority_run).
F52 QITE.do_qite_step: when 1 - 2 db <H> <= 0 the vector b is nan; with sparseSb (the default) nothing is selected and every following step silently leaves the state unchanged, without sparseSb lstsq raises ValueError (C82_stall).
F53 canonical_geig_solve relies on scipy.linalg.eig returning the overlap eigenvalues in descending order: it keeps the first columns, as many as there are eigenvalues above the threshold. scipy does not sort, and for another order a reported energy can lie below the exact ground state (C83_order_refuted).
F54 QSD.common_run indexes the eigenvalues with target_root although directions may have been dropped: a root beyond the numerical rank raises IndexError (C83_common_run). QITE with db = 0 or lanczos_gap = 0 raises ZeroDivisionError (C82_zero).
F55 QITE.build_expansion_pool keeps the strings with an odd number of Y gates (C82_pool_*), as its first comment says; the explanation after it has the parity reversed: it is the elements of b for an even number of Y gates that vanish for real Hamiltonians.
F56 ADAPTVQE: if the reference state already is converged (gradient norm below avqe_thresh in the first iteration, e.g. an exact Hartree-Fock state), conv_status reads energies[-1] of an empty list and run raises IndexError instead of returning the reference energy (C85_converged, C85_returns).
F57 ADAPTVQE add_equiv_ops: the "second largest" gradient is only the previous record of the scan, so an operator after the largest one with exactly the same gradient is never added, and if all gradients before the largest one vanish (e.g. gradients [1, 1]) the call raises UnboundLocalError (C85_equiv, C85_equiv_example).
F58 ADAPTVQE with avqe_thresh = 0 and vanishing gradients (or an empty pool) raises UnboundLocalError (C85_stationary); adapt_maxiter <= 0 still makes one iteration (C85_run).
F59 SPQE: the test spqe_iter > spqe_maxiter is made after the counter's increment and before the solve, so spqe_maxiter + 1 macro-iterations are made (C88_run); with spqe_maxiter <= 0 one.
F60 SPQE: if the estimate is below spqe_thresh in the first macro-iteration (for instance because the requested irrep is that of no determinant) energies[-1] of an empty list raises IndexError (C88_returns, C88_example).
F61 SPQE with a finite M_omega never returns normally: conv_status is not called, so neither spqe_thresh nor spqe_maxiter ends the run, and when a single determinant is measured the code reads self._results[-1], a list nothing is ever appended to (C88_sampled, C88_sampled_single). It also compares coefficient indices with pool indices and looks up determinants outside the pool (KeyError).
F62 SPQE: the "operator pool has been drained" exit can only be reached with spqe_thresh = 0, because the norm over no operators is 0 (C88_update); if the squared norm equals spqe_thresh^2 exactly, nothing is added and the run repeats the same solve until spqe_maxiter (C88_progress).
F63 build_circuit: the documented word [action]_[target]_[control]_[parameter] is read as a rotation on the target whose parameter is the control index, so cR and cRz words raise invalid_argument (C89_controlled_rotation, C89_controlled_rotation_witness).
F64 create_external_mol: only the spelling C1 is treated as the trivial group; a file with point_group c1 and no symmetry list is a KeyError although irreps_of_point_groups accepts c1 (C92_lower_case).
F65 symmetry_check never returns on an odd number of qubits: the table of Sz values holds odd multiples of 1/4, so the lookup of the first determinant (Sz = 0) raises KeyError if nothing failed earlier (C94_odd).
F66 build_orb_energies decides whether spin orbital i is occupied by i < sum(ref) instead of ref[i]: for a reference that does not fill the lowest spin orbitals the energies of all orbitals where the two differ have the wrong sign (C95_orb_energies, C95_orb_energies_wrong).
F67 construct_moment_space keeps the determinants of irrep 0, not those of the irrep of the reference: for a reference of another irrep no determinant that a symmetric Hamiltonian and ansatz can reach is included, so the corrections are zero however bad the ansatz (C95_wrong_irrep, C95_wrong_irrep_example).
F68 compute_moment_energies adds the corrections to _curr_energy, the energy of the last parameters energy_feval was called with (algorithm.py:473), while the moments use the ansatz of the accepted parameters; after a derivative-free or line-search minimizer the two need not belong together.
F69 Algorithm.__init__ does not compare the reference circuit of state_prep_type 'unitary_circ', nor AnsatzAlgorithm.__init__ the penalty operators, with the number of qubits of the Hamiltonian: both are accepted and the first energy evaluation indexes outside the state vector (C96_circuit_unchecked, C96_penalty_unchecked).
F70 The entries of an occupation-list reference are not checked to be 0 or 1: [7, 0] is accepted and prepares the same state as [1, 0], while sums over the list count 7 electrons (C96_occupation_unchecked).
F71 Trotterizable (abc/mixin.py) stores and prints trotter_order but it is never passed to trotterize: asking for order 2 silently runs the first-order formula.
F72 The Jacobi solver of UCCNVQE and ADAPTVQE divides the energy gradient, which is twice the residual, by the MP denominators of the residual equations: every step is twice the quasi-Newton step, so without DIIS the iteration overshoots (maths/optimizer.py:70-73).
F73 With the default diagonalize_each_step=True SRQK, NTSRQK and MRSQK raise IndexError for every target_root other than 0 and -1: the first step has one eigenvalue (C98_each_step, C98_srqk).
F74 MRSQK.build_refs squares only the first _ninitial_states rows of the basis; when SRQK drops directions the remaining rows enter the importances unsquared, as complex amplitudes (cPrimeSqMod, C98_select).
F75 MRSQK.build_sa_refs raises IndexError if the 2d determinants span fewer than d configurations (C98_sa_refs); a configuration on which the CI root vanishes gives nan coefficients and the run fails with ValueError (C98_run_sa).
F76 circuit_to_latex: the test for a full figure looks only at target and control of a gate; a two-qubit gate across a full qubit makes the figure deeper than max_circuit_depth_per_tikz, and as the depth is compared with ==, no new figure is ever begun afterwards (C99_depth_refuted).
F77 circuit_to_latex writes the rows in the iteration order of a Python set, which is ascending only if the qubit numbers are smaller than the hash table: for the qubits 7, 8, 9 the rows are 7, 9, 8 and the controls point to wrong rows (C99_order_refuted). A circuit without gates raises ValueError and two-qubit gates across unused qubits raise KeyError (C99_refuses), leaving an incomplete file.
F78 MRSQK.run with diagonalize_each_step=False never sets _n_cnot after the preliminary SRQK calculation: "Number of CNOT gates in deepest circuit" is that of SRQK (4 instead of 8 for Z0Z1 with trotter_number 2 after trotter_number_o 1, C102_mrsqk_example).
F79 UCCVQE.fill_commutator_pool ignores qubit_excitations: the commutators are always those of the fermionic excitations, so with qubit_excitations=True the gradients measured with them are not those of the ansatz (about -2 instead of 2 in C103_refuted).
F80 helper get_op_from_basis_idx builds an excitation and then returns None for every input (idx_org.py:39-111; not modelled).
F81 UCCVQE.report_iteration with print_summary_file=True writes the header instead of the line of the iteration, and fails with UnboundLocalError in the second iteration, as header is assigned only in the first (C104_vqe_refuted); so UCCN-VQE and ADAPT-VQE with a SciPy optimizer cannot be used with a summary file (C104_adapt_refuted).
F82 The header that SRQK writes to summary.dat lacks the # of the other algorithms; SRQK and NTSRQK write no summary file unless diagonalize_each_step is set (C104_srqk).
F83 SPQE with a SciPy optimizer: report_iteration truncates summary.dat while run() has it open, so the header and earlier lines are lost and later lines are written over the table of the minimization (C104_spqe_refuted, C104_spqe_last).
F84 Gate.str and Circuit.str omit the parameter, so that circuits with different rotation angles, and different operators, print the same (C106_angles).
F85 ADAPTVQE.get_num_ham_measurements and get_num_commut_measurements add the totals to the stored counters at every call; the banner of run calls them once, so that the user's first call returns twice the number (C110_ham). With the Jacobi optimizer the first is always 0; the last scan of a converged run is not counted (C110_commut).
F86 ADAPTVQE.run switches analytic gradients off only for the lower-case names nelder-mead, powell, cobyla; with scipy's own spelling (Nelder-Mead, ...) the result has no njev and the run ends with AttributeError after the optimization (hypothesis Reports of C110_returns).
F87 With a scipy optimizer PQE and SPQE compute the number of Pauli measurements from the calls of the optimizer's callback, not from the residual evaluations: it undercounts whenever the optimizer evaluates the objective more than once per iteration (C113_scipy). Also, summary.dat numbers the SPQE iterations from 1, the printed table from 0 (C113_run).
F88 A penalty operator that is not in simplified form can make the penalty Hamiltonian non-Hermitian: operator_product simplifies its left factor only, so a coefficient below 1e-12 is dropped on one side (100 Z0 + 1e-13 X0 leaves 1e-11 i Y0; C115_untidy).
F89 SRQK and MRSQK can report energies below the lowest energy of the sector of the reference: the Trotter factors of a number-conserving Hamiltonian need not conserve the number of electrons (H = X0X1 - 2 Z0 + Y0Y1, dt = pi/4: the two-electron reference has energy 2, the only one in its sector, and two states give at most -2; C117_trotter_refuted). NTSRQK does not.
F90 QITE depends on the zero of energy (src/qforte/ite/qite.py:305-326): build_b divides by sqrt(1 - 2 db E), so a constant c in the Hamiltonian rescales every step, and with 1 - 2 db (E + c) <= 0 the sparse path drops every operator and the run silently ends in the reference state (C120_qite_rhs, C120_qite_stalls, C120_qite_refuted).
Others: rank-1 with shared index raises IndexError; rank >= 3 with a shared index uses the wrong control polarity; exponentiate_pauli_string raises TypeError on non-empty all-identity strings; the Python QubitOperator.simplify binding has no default argument; direct_pauli_circ_exp_val with no qubits and no gates is undefined; ref_to_basis_idx([]) raises; taper_reference needs descending order; set_orb_spaces of odd length throws after a partial update; set_terms appends; set_op_coeffs partially updates before throwing; the total_spin operators with odd n touch orbital n; get_jw_organizer(combine=False) returns a list of organizers; construct_parity_check_matrix sets (does not xor) bits, so it needs at most one letter per qubit.
